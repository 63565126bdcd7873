import Verif.HashMap.Lemmas
namespace Verif.HashMap
variable {K V : Type} [DecidableEq K]

theorem freeSlot_ok {new : Nat → Bool} {n : Nat} (hp : Pow2 n) (hfree : cnt new n < n) (a : Nat) :
    ∃ s, s < n ∧ freeSlot new n n (a &&& (n - 1)) 0 = .ok (probe n a s) ∧ new (probe n a s) = false ∧
      ∀ t, t < s → new (probe n a t) = true := by
  obtain ⟨i, hin, hie⟩ := cnt_free hfree
  obtain ⟨s0, hs0, hps⟩ := probe_surj hp a i hin
  obtain ⟨s, h1, h2⟩ := exists_least (p := fun s => new (probe n a s) = false) ⟨s0, by rw [hps]; exact hie⟩
  have hsn : s < n := by
    by_contra hc
    exact h2 s0 (by omega) (by rw [hps]; exact hie)
  refine ⟨s, hsn, ?_, h1, fun t ht => by simpa using h2 t ht⟩
  rw [start_eq hp]
  have loop : ∀ fuel t, t ≤ s → s - t < fuel → freeSlot new n fuel (probe n a t) t = .ok (probe n a s) := by
    intro fuel
    induction fuel with
    | zero => intro t _ h; omega
    | succ fuel ih =>
      intro t ht hf
      rw [freeSlot]
      rcases Nat.lt_or_eq_of_le ht with hlt | heq
      · have : new (probe n a t) = true := by simpa using h2 t hlt
        rw [if_pos this, probe_succ hp, ih (t + 1) (by omega) (by omega)]
      · subst heq
        rw [if_neg (by simp [h1])]
  exact loop n 0 (by omega) (by omega)

/-- `k, v` is stored in the old or in the new part -/
def In (s : Rehash K V) (k : K) (v : V) : Prop := ∃ i, (s.old i = true ∨ s.new i = true) ∧ s.kv i = some (k, v)

structure RInv (hash : K → Nat) (n newN size : Nat) (P : K → V → Prop) (s : Rehash K V) (c : Option (K × V)) : Prop where
  old : ∀ i, s.old i = true → i < n ∧ s.new i = false ∧ ∃ p, s.kv i = some p
  new : ∀ i, s.new i = true → i < newN ∧ ∃ p, s.kv i = some p
  reach : ∀ i k v, s.new i = true → s.kv i = some (k, v) →
    ∃ t, t < newN ∧ probe newN (hash k) t = i ∧ ∀ u, u < t → s.new (probe newN (hash k) u) = true
  uniq : ∀ i j k v w, (s.old i = true ∨ s.new i = true) → (s.old j = true ∨ s.new j = true) → s.kv i = some (k, v) → s.kv j = some (k, w) → i = j
  carried : ∀ k v w, c = some (k, v) → ¬ In s k w
  all : ∀ k v, P k v ↔ In s k v ∨ c = some (k, v)
  count : cnt s.old n + cnt s.new newN + (if c.isSome then 1 else 0) = size

theorem kickStep_ok {hash : K → Nat} {n newN size : Nat} {P : K → V → Prop} {s : Rehash K V} {p : K × V} (hp : Pow2 newN) (hsz : size < newN)
    (h : RInv hash n newN size P s (some p)) :
    ∃ s' c, kickStep hash n newN s p = .ok (s', c) ∧ RInv hash n newN size P s' c ∧ (∀ i, s'.old i = true → s.old i = true) ∧
      (c.isSome → cnt s'.old n + 1 = cnt s.old n) := by
  have hcount := h.count
  simp only [Option.isSome_some, if_true] at hcount
  obtain ⟨t, ht, hf, hfree, hbusy⟩ := freeSlot_ok hp (new := s.new) (by omega) (hash p.1)
  unfold kickStep
  rw [hf]
  simp only
  generalize hx : probe newN (hash p.1) t = x at *
  have hxlt : x < newN := by rw [← hx]; exact probe_lt hp.pos _ _
  have hpn : ∀ w, ¬ In s p.1 w := fun w => h.carried p.1 p.2 w rfl
  have hcn : cnt (upd s.new x true) newN = cnt s.new newN + 1 :=
    cnt_set hxlt hfree (upd_same _ _ _) (fun j hj => upd_ne _ _ hj)
  by_cases hk : x < n ∧ s.old x = true
  · rw [if_pos hk]
    obtain ⟨_, _, q, hq⟩ := h.old x hk.2
    rw [hq]
    simp only
    have hco : cnt s.old n = cnt (upd s.old x false) n + 1 :=
      cnt_set hk.1 (upd_same _ _ _) hk.2 (fun j hj => (upd_ne _ _ hj).symm)
    have hold : ∀ j, upd s.old x false j = true ↔ s.old j = true ∧ j ≠ x := by
      intro j
      by_cases hj : j = x
      · subst hj; simp [upd_same]
      · simp [upd_ne _ _ hj, hj]
    have hnew : ∀ j, upd s.new x true j = true ↔ s.new j = true ∨ j = x := by
      intro j
      by_cases hj : j = x
      · subst hj; simp [upd_same]
      · simp [upd_ne _ _ hj, hj]
    have hIn : ∀ k v, In ⟨upd s.old x false, upd s.new x true, upd s.kv x (some p)⟩ k v ↔ (p = (k, v)) ∨ (In s k v ∧ q ≠ (k, v)) := by
      intro k v
      constructor
      · rintro ⟨i, hi, hkv⟩
        simp only at hi hkv
        by_cases hix : i = x
        · rw [hix, upd_same] at hkv; exact .inl (by simpa using hkv)
        · rw [upd_ne _ _ hix] at hkv
          rw [upd_ne _ _ hix, upd_ne _ _ hix] at hi
          refine .inr ⟨⟨i, hi, hkv⟩, ?_⟩
          rintro rfl
          exact hix (h.uniq i x k v v hi (.inl hk.2) hkv hq)
      · rintro (rfl | ⟨⟨i, hi, hkv⟩, hne⟩)
        · exact ⟨x, .inr (upd_same _ _ _), upd_same _ _ _⟩
        · have hix : i ≠ x := by
            rintro rfl
            rw [hq] at hkv; simp at hkv; exact hne hkv
          exact ⟨i, by simp only; rw [upd_ne _ _ hix, upd_ne _ _ hix]; exact hi, by simp only; rw [upd_ne _ _ hix]; exact hkv⟩
    refine ⟨_, _, rfl, ?_, ?_, ?_⟩
    · constructor
      · intro i hi
        simp only at hi ⊢
        have hi' := (hold i).mp hi
        rw [upd_ne _ _ hi'.2, upd_ne _ _ hi'.2]
        exact h.old i hi'.1
      · intro i hi
        simp only at hi ⊢
        by_cases hix : i = x
        · rw [hix, upd_same]; exact ⟨hxlt, p, rfl⟩
        · rw [upd_ne _ _ hix]
          exact h.new i (((hnew i).mp hi).resolve_right hix)
      · intro i k v hi hkv
        simp only at hi hkv ⊢
        by_cases hix : i = x
        · rw [hix, upd_same] at hkv
          have : p = (k, v) := by simpa using hkv
          subst this
          exact ⟨t, ht, by rw [hix]; exact hx, fun u hu => (hnew _).mpr (.inl (hbusy u hu))⟩
        · rw [upd_ne _ _ hix] at hkv
          obtain ⟨r, q1, q2, q3⟩ := h.reach i k v (((hnew i).mp hi).resolve_right hix) hkv
          exact ⟨r, q1, q2, fun u hu => (hnew _).mpr (.inl (q3 u hu))⟩
      · intro i j k v w hi hj hki hkj
        simp only at hi hj hki hkj
        by_cases hix : i = x
        · by_cases hjx : j = x
          · rw [hix, hjx]
          · rw [hix, upd_same] at hki
            rw [upd_ne _ _ hjx] at hkj
            rw [upd_ne _ _ hjx, upd_ne _ _ hjx] at hj
            have : p = (k, v) := by simpa using hki
            subst this
            exact absurd ⟨j, hj, hkj⟩ (hpn w)
        · by_cases hjx : j = x
          · rw [hjx, upd_same] at hkj
            rw [upd_ne _ _ hix] at hki
            rw [upd_ne _ _ hix, upd_ne _ _ hix] at hi
            have : p = (k, w) := by simpa using hkj
            subst this
            exact absurd ⟨i, hi, hki⟩ (hpn v)
          · rw [upd_ne _ _ hix] at hki
            rw [upd_ne _ _ hix, upd_ne _ _ hix] at hi
            rw [upd_ne _ _ hjx] at hkj
            rw [upd_ne _ _ hjx, upd_ne _ _ hjx] at hj
            exact h.uniq i j k v w hi hj hki hkj
      · intro k v w hc hin
        have hqe : q = (k, v) := by simpa using hc
        subst hqe
        rcases (hIn k w).mp hin with rfl | ⟨⟨i, hi, hkv⟩, hne⟩
        · exact hpn v ⟨x, .inl hk.2, hq⟩
        · have := h.uniq i x k w v hi (.inl hk.2) hkv hq
          subst this
          rw [hq] at hkv
          exact hne (by simpa using hkv)
      · intro k v
        rw [h.all, hIn]
        constructor
        · rintro (hin | hpe)
          · by_cases hqe : q = (k, v)
            · exact .inr (by rw [hqe])
            · exact .inl (.inr ⟨hin, hqe⟩)
          · exact .inl (.inl (by simpa using hpe))
        · rintro ((hpe | ⟨hin, _⟩) | hqe)
          · exact .inr (by rw [hpe])
          · exact .inl hin
          · have : q = (k, v) := by simpa using hqe
            subst this
            exact .inl ⟨x, .inl hk.2, hq⟩
      · simp only [Option.isSome_some, if_true]
        rw [hcn]; omega
    · intro i hi; exact ((hold i).mp hi).1
    · intro _; exact hco.symm
  · rw [if_neg hk]
    have hnotold : s.old x = false := by
      cases hb : s.old x with
      | false => rfl
      | true => exact absurd ⟨(h.old x hb).1, hb⟩ hk
    have hnew : ∀ j, upd s.new x true j = true ↔ s.new j = true ∨ j = x := by
      intro j
      by_cases hj : j = x
      · subst hj; simp [upd_same]
      · simp [upd_ne _ _ hj, hj]
    have hIn : ∀ k v, In ⟨s.old, upd s.new x true, upd s.kv x (some p)⟩ k v ↔ (p = (k, v)) ∨ In s k v := by
      intro k v
      constructor
      · rintro ⟨i, hi, hkv⟩
        simp only at hi hkv
        by_cases hix : i = x
        · rw [hix, upd_same] at hkv; exact .inl (by simpa using hkv)
        · rw [upd_ne _ _ hix] at hkv
          rw [upd_ne _ _ hix] at hi
          exact .inr ⟨i, hi, hkv⟩
      · rintro (rfl | ⟨i, hi, hkv⟩)
        · exact ⟨x, .inr (upd_same _ _ _), upd_same _ _ _⟩
        · have hix : i ≠ x := by
            rintro rfl
            rw [hnotold, hfree] at hi; simp at hi
          exact ⟨i, by simp only; rw [upd_ne _ _ hix]; exact hi, by simp only; rw [upd_ne _ _ hix]; exact hkv⟩
    refine ⟨_, _, rfl, ?_, fun i hi => hi, by simp⟩
    constructor
    · intro i hi
      simp only at hi ⊢
      have hix : i ≠ x := by rintro rfl; rw [hnotold] at hi; cases hi
      rw [upd_ne _ _ hix, upd_ne _ _ hix]
      exact h.old i hi
    · intro i hi
      simp only at hi ⊢
      by_cases hix : i = x
      · rw [hix, upd_same]; exact ⟨hxlt, p, rfl⟩
      · rw [upd_ne _ _ hix]
        exact h.new i (((hnew i).mp hi).resolve_right hix)
    · intro i k v hi hkv
      simp only at hi hkv ⊢
      by_cases hix : i = x
      · rw [hix, upd_same] at hkv
        have : p = (k, v) := by simpa using hkv
        subst this
        exact ⟨t, ht, by rw [hix]; exact hx, fun u hu => (hnew _).mpr (.inl (hbusy u hu))⟩
      · rw [upd_ne _ _ hix] at hkv
        obtain ⟨r, q1, q2, q3⟩ := h.reach i k v (((hnew i).mp hi).resolve_right hix) hkv
        exact ⟨r, q1, q2, fun u hu => (hnew _).mpr (.inl (q3 u hu))⟩
    · intro i j k v w hi hj hki hkj
      simp only at hi hj hki hkj
      by_cases hix : i = x
      · by_cases hjx : j = x
        · rw [hix, hjx]
        · rw [hix, upd_same] at hki
          rw [upd_ne _ _ hjx] at hkj
          rw [upd_ne _ _ hjx] at hj
          have : p = (k, v) := by simpa using hki
          subst this
          exact absurd ⟨j, hj, hkj⟩ (hpn w)
      · by_cases hjx : j = x
        · rw [hjx, upd_same] at hkj
          rw [upd_ne _ _ hix] at hki
          rw [upd_ne _ _ hix] at hi
          have : p = (k, w) := by simpa using hkj
          subst this
          exact absurd ⟨i, hi, hki⟩ (hpn v)
        · rw [upd_ne _ _ hix] at hki
          rw [upd_ne _ _ hix] at hi
          rw [upd_ne _ _ hjx] at hkj
          rw [upd_ne _ _ hjx] at hj
          exact h.uniq i j k v w hi hj hki hkj
    · intro k v w hc; cases hc
    · intro k v
      rw [h.all, hIn]
      constructor
      · rintro (hin | hpe)
        · exact .inl (.inr hin)
        · exact .inl (.inl (by simpa using hpe))
      · rintro ((hpe | hin) | hqe)
        · exact .inr (by rw [hpe])
        · exact .inl hin
        · cases hqe
    · simp only [Option.isSome_none]
      rw [hcn]
      simp
      omega

theorem kick_ok {hash : K → Nat} {n newN size : Nat} {P : K → V → Prop} (hp : Pow2 newN) (hsz : size < newN) (fuel : Nat) :
    ∀ (s : Rehash K V) (p : K × V), RInv hash n newN size P s (some p) → cnt s.old n < fuel →
    ∃ s', kick hash n newN fuel s p = .ok s' ∧ RInv hash n newN size P s' none ∧ (∀ i, s'.old i = true → s.old i = true) := by
  induction fuel with
  | zero => intro s p _ h; omega
  | succ fuel ih =>
    intro s p h hf
    obtain ⟨s', c, e, hr, hmono, hdec⟩ := kickStep_ok hp hsz h
    rw [kick, e]
    cases c with
    | none => exact ⟨s', rfl, hr, hmono⟩
    | some q =>
      have := hdec rfl
      obtain ⟨s2, e2, hr2, hm2⟩ := ih s' q hr (by omega)
      exact ⟨s2, e2, hr2, fun i hi => hmono i (hm2 i hi)⟩

theorem rehashStep_ok {hash : K → Nat} {n newN size : Nat} {P : K → V → Prop} (hp : Pow2 newN) (hsz : size < newN) (s : Rehash K V) (j : Nat)
    (h : RInv hash n newN size P s none) :
    ∃ s', rehashStep hash n newN s j = .ok s' ∧ RInv hash n newN size P s' none ∧ (∀ i, s'.old i = true → s.old i = true) ∧ s'.old j = false := by
  unfold rehashStep
  cases hj : s.old j with
  | false => exact ⟨s, by simp, h, fun _ hi => hi, hj⟩
  | true =>
    obtain ⟨hjn, hjnew, p, hkvj⟩ := h.old j hj
    simp only [if_true, hkvj]
    have hold : ∀ i, upd s.old j false i = true ↔ s.old i = true ∧ i ≠ j := by
      intro i
      by_cases hi : i = j
      · subst hi; simp [upd_same]
      · simp [upd_ne _ _ hi, hi]
    have hIn : ∀ k v, In s k v ↔ In { s with old := upd s.old j false } k v ∨ p = (k, v) := by
      intro k v
      constructor
      · rintro ⟨i, hi, hkv⟩
        by_cases hij : i = j
        · right; rw [hij, hkvj] at hkv; simpa using hkv
        · left; exact ⟨i, hi.elim (fun h => .inl ((hold i).mpr ⟨h, hij⟩)) .inr, hkv⟩
      · rintro (⟨i, hi, hkv⟩ | rfl)
        · exact ⟨i, hi.elim (fun h => .inl ((hold i).mp h).1) .inr, hkv⟩
        · exact ⟨j, .inl hj, hkvj⟩
    have hpos : ∀ i, (upd s.old j false i = true ∨ s.new i = true) → (s.old i = true ∨ s.new i = true) ∧ i ≠ j := by
      intro i hi
      rcases hi with hi | hi
      · exact ⟨.inl ((hold i).mp hi).1, ((hold i).mp hi).2⟩
      · refine ⟨.inr hi, ?_⟩
        rintro rfl
        rw [hjnew] at hi; cases hi
    have hr : RInv hash n newN size P { s with old := upd s.old j false } (some p) := by
      constructor
      · intro i hi; exact h.old i ((hold i).mp hi).1
      · exact h.new
      · exact h.reach
      · intro a b k v w ha hb
        exact h.uniq a b k v w (hpos a ha).1 (hpos b hb).1
      · rintro k v w hc ⟨i, hi, hkv⟩
        have : p = (k, v) := by simpa using hc
        subst this
        exact (hpos i hi).2 (h.uniq i j k w v (hpos i hi).1 (.inl hj) hkv hkvj)
      · intro k v
        rw [h.all, hIn]
        simp
      · have hc := h.count
        have : cnt s.old n = cnt (upd s.old j false) n + 1 := cnt_set hjn (upd_same _ _ _) hj (fun i hi => (upd_ne _ _ hi).symm)
        simp at hc ⊢
        omega
    obtain ⟨s', e, hr', hm⟩ := kick_ok hp hsz (n + 1) _ p hr (by have := cnt_le (upd s.old j false) n; simp only; omega)
    refine ⟨s', e, hr', fun i hi => ((hold i).mp (hm i hi)).1, ?_⟩
    cases hb : s'.old j with
    | false => rfl
    | true => exact absurd rfl ((hold j).mp (hm j hb)).2

theorem rehashLoop_ok {hash : K → Nat} {n newN size : Nat} {P : K → V → Prop} (hp : Pow2 newN) (hsz : size < newN) (k : Nat) :
    ∀ (j : Nat) (s : Rehash K V), RInv hash n newN size P s none → (∀ i, i < j → s.old i = false) →
    ∃ s', rehashLoop hash n newN k j s = .ok s' ∧ RInv hash n newN size P s' none ∧ (∀ i, i < j + k → s'.old i = false) := by
  induction k with
  | zero => intro j s h hj; exact ⟨s, rfl, h, hj⟩
  | succ k ih =>
    intro j s h hj
    obtain ⟨s1, e1, h1, hm, hj1⟩ := rehashStep_ok hp hsz s j h
    rw [rehashLoop, e1]
    have hlow : ∀ i, i < j + 1 → s1.old i = false := by
      intro i hi
      rcases Nat.lt_or_eq_of_le (Nat.lt_succ_iff.mp hi) with h | h
      · cases hb : s1.old i with
        | false => rfl
        | true => exact absurd (hm i hb) (by rw [hj i h]; simp)
      · rw [h]; exact hj1
    obtain ⟨s', e, hr, hl⟩ := ih (j + 1) s1 h1 hlow
    exact ⟨s', e, hr, fun i hi => hl i (by omega)⟩

theorem roundupLoop_spec (x fuel : Nat) : ∀ p, Pow2 p → 4 ≤ p → x ≤ p * 2 ^ fuel → (p = 4 ∨ p < 2 * x) →
    Pow2 (roundupLoop x fuel p) ∧ 4 ≤ roundupLoop x fuel p ∧ x ≤ roundupLoop x fuel p ∧ (roundupLoop x fuel p = 4 ∨ roundupLoop x fuel p < 2 * x) := by
  induction fuel with
  | zero => intro p hp h4 hx hl; exact ⟨hp, h4, by simpa [roundupLoop] using hx, hl⟩
  | succ fuel ih =>
    intro p hp h4 hx hl
    rw [roundupLoop]
    split
    · rename_i h; exact ⟨hp, h4, h, hl⟩
    · apply ih
      · obtain ⟨m, rfl⟩ := hp; exact ⟨m + 1, by rw [Nat.pow_succ, Nat.mul_comm]⟩
      · omega
      · rw [Nat.pow_succ] at hx
        rw [Nat.mul_comm 2 p, Nat.mul_assoc, Nat.mul_comm 2]; exact hx
      · right; omega

theorem roundup_spec (x : Nat) : Pow2 (roundup x) ∧ 4 ≤ roundup x ∧ x ≤ roundup x ∧ (roundup x = 4 ∨ roundup x < 2 * x) := by
  apply roundupLoop_spec x x 4 ⟨2, rfl⟩ (Nat.le_refl _) _ (.inl rfl)
  have := Nat.lt_two_pow_self (n := x)
  omega

theorem resize_ok {hash : K → Nat} {h : Map K V} (hi : Inv hash h) (x : Nat) (hx : roundup x ≤ 2 ^ 31) (hsz : h.size < upperBound (roundup x)) :
    ∃ h', resize hash h x = .ok h' ∧ Inv hash h' ∧ (∀ k v, Has h' k v ↔ Has h k v) ∧ h'.size = h.size ∧ h'.n ≠ 0 ∧ h'.occ < h'.ub := by
  obtain ⟨hp, h4, _, _⟩ := roundup_spec x
  unfold resize
  simp only
  rw [if_neg (by omega), if_neg (by omega)]
  have hub := ub_lt h4
  have h0 : RInv hash h.n (roundup x) h.size (Has h) ⟨fun i => h.flag i = .live, fun _ => false, h.kv⟩ none := by
    constructor
    · intro i hli
      have hli : h.flag i = .live := by simpa using hli
      exact ⟨hi.inb i (by rw [hli]; simp), rfl, hi.kvok i hli⟩
    · intro i hc; cases hc
    · intro i k v hc; cases hc
    · intro i j k v w ha hb
      have ha : h.flag i = .live := by simpa using ha
      have hb : h.flag j = .live := by simpa using hb
      exact hi.uniq i j k v w ha hb
    · intro k v w hc; cases hc
    · intro k v
      unfold Has In
      simp
    · simp only [Option.isSome_none]
      rw [cnt_false (p := fun _ => false) (fun _ => rfl), hi.size]; simp
  obtain ⟨s, e, hr, hl⟩ := rehashLoop_ok hp (by omega) h.n 0 _ h0 (by intro i hi; omega)
  rw [e]
  have hold : ∀ i, s.old i = false := by
    intro i
    cases hb : s.old i with
    | false => rfl
    | true =>
      have := hl i (by have := (hr.old i hb).1; omega)
      rw [hb] at this; cases this
  have hlive : ∀ i, (if s.new i then Flag.live else Flag.empty) = .live ↔ s.new i = true := by
    intro i; cases s.new i <;> simp
  have hemp : ∀ i, (if s.new i then Flag.live else Flag.empty) ≠ .empty ↔ s.new i = true := by
    intro i; cases s.new i <;> simp
  have hcnt : cnt s.new (roundup x) = h.size := by
    have := hr.count
    rw [cnt_false hold] at this
    simpa using this
  refine ⟨_, rfl, ?_, ?_, rfl, by simp only; omega, hsz⟩
  · constructor
    · exact .inr ⟨hp, h4, hx, rfl⟩
    · intro i hf; exact (hr.new i ((hemp i).mp hf)).1
    · intro i hf; exact (hr.new i ((hlive i).mp hf)).2
    · intro i j k v w ha hb
      exact hr.uniq i j k v w (.inr ((hlive i).mp ha)) (.inr ((hlive j).mp hb))
    · intro i k v hf hk
      obtain ⟨t, q1, q2, q3⟩ := hr.reach i k v ((hlive i).mp hf) hk
      exact ⟨t, q1, q2, fun u hu => (hemp _).mpr (q3 u hu)⟩
    · show h.size = cnt (fun i => decide ((if s.new i then Flag.live else Flag.empty) = .live)) (roundup x)
      rw [← hcnt]
      apply cnt_congr
      intro i _
      cases s.new i <;> simp
    · show h.size = cnt (fun i => decide ((if s.new i then Flag.live else Flag.empty) ≠ .empty)) (roundup x)
      rw [← hcnt]
      apply cnt_congr
      intro i _
      cases s.new i <;> simp
    · show h.size ≤ upperBound (roundup x)
      omega
  · intro k v
    rw [hr.all]
    simp only [reduceCtorEq, or_false]
    constructor
    · rintro ⟨i, a, b⟩
      exact ⟨i, .inr ((hlive i).mp a), b⟩
    · rintro ⟨i, a, b⟩
      rcases a with a | a
      · rw [hold i] at a; cases a
      · exact ⟨i, (hlive i).mpr a, b⟩

theorem pow2_le_of_lt {a b : Nat} (ha : Pow2 a) (h : a < 2 ^ (b + 1)) : a ≤ 2 ^ b := by
  obtain ⟨m, rfl⟩ := ha
  exact Nat.pow_le_pow_right (by omega) (Nat.lt_succ_iff.mp ((Nat.pow_lt_pow_iff_right (by omega)).mp h))

theorem pow2_eq {a b : Nat} (ha : Pow2 a) (hb : Pow2 b) (h1 : a < 2 * b) (h2 : b < 2 * a) : a = b := by
  obtain ⟨m, rfl⟩ := ha
  obtain ⟨k, rfl⟩ := hb
  have e1 : 2 * 2 ^ k = 2 ^ (k + 1) := by rw [Nat.pow_succ, Nat.mul_comm]
  have e2 : 2 * 2 ^ m = 2 ^ (m + 1) := by rw [Nat.pow_succ, Nat.mul_comm]
  rw [e1] at h1
  rw [e2] at h2
  have := (Nat.pow_lt_pow_iff_right (a := 2) (by omega)).mp h1
  have := (Nat.pow_lt_pow_iff_right (a := 2) (by omega)).mp h2
  have : m = k := by omega
  rw [this]

theorem grow_ok {hash : K → Nat} {h : Map K V} (hi : Inv hash h) (hsize : h.size < 2 ^ 30) :
    ∃ h', grow hash h = .ok h' ∧ Inv hash h' ∧ (∀ k v, Has h' k v ↔ Has h k v) ∧ h'.size = h.size ∧ h'.n ≠ 0 ∧ h'.occ < h'.ub := by
  unfold grow
  have hso : h.size ≤ h.occ := by
    rw [hi.size, hi.occ]
    apply cnt_mono
    intro i hl
    have : h.flag i = .live := by simpa using hl
    simp [this]
  split
  · rename_i hfull
    have hload := hi.load
    rcases hi.shape with ⟨hn, hub⟩ | ⟨hp, h4, h31, hub⟩
    · rw [if_neg (by omega)]
      have : h.size = 0 := by omega
      have hr : roundup (h.n + 1) = 4 := by rw [hn]; decide
      apply resize_ok hi
      · rw [hr]; omega
      · rw [hr, this]; decide
    · split
      · rename_i h2
        obtain ⟨r1, r2, r3, r4⟩ := roundup_spec (h.n - 1)
        have hrn : roundup (h.n - 1) = h.n := pow2_eq r1 hp (by omega) (by omega)
        apply resize_ok hi
        · rw [hrn]; exact h31
        · rw [hrn]; unfold upperBound; omega
      · rename_i h2
        obtain ⟨r1, r2, r3, r4⟩ := roundup_spec (h.n + 1)
        have hrn : roundup (h.n + 1) = 2 * h.n := by
          apply pow2_eq r1 _ (by omega) (by omega)
          obtain ⟨m, hm⟩ := hp
          exact ⟨m + 1, by rw [hm, Nat.pow_succ, Nat.mul_comm]⟩
        apply resize_ok hi
        · apply pow2_le_of_lt r1
          omega
        · rw [hrn]; unfold upperBound at hub ⊢; omega
  · rename_i hroom
    refine ⟨h, rfl, hi, fun _ _ => Iff.rfl, rfl, ?_, by omega⟩
    intro hn
    rcases hi.shape with ⟨_, hub⟩ | ⟨_, h4, _, _⟩ <;> omega

end Verif.HashMap
