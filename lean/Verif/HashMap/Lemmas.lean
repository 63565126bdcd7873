import Verif.HashMap.LemmasProbe
namespace Verif.HashMap
variable {K V : Type} [DecidableEq K]

/-- number of `i < n` with `p i` -/
def cnt (p : Nat → Bool) : Nat → Nat
  | 0 => 0
  | n + 1 => cnt p n + (if p n then 1 else 0)

theorem cnt_congr {p q : Nat → Bool} {n : Nat} (h : ∀ i, i < n → p i = q i) : cnt p n = cnt q n := by
  induction n with
  | zero => rfl
  | succ n ih => rw [cnt, cnt, ih (fun i hi => h i (by omega)), h n (by omega)]

theorem cnt_le (p : Nat → Bool) (n : Nat) : cnt p n ≤ n := by
  induction n with
  | zero => exact Nat.le_refl _
  | succ n ih => rw [cnt]; split <;> omega

theorem cnt_mono {p q : Nat → Bool} {n : Nat} (h : ∀ i, p i = true → q i = true) : cnt p n ≤ cnt q n := by
  induction n with
  | zero => exact Nat.le_refl _
  | succ n ih =>
    rw [cnt, cnt]
    by_cases hp : p n = true
    · rw [if_pos hp, if_pos (h n hp)]; omega
    · rw [if_neg hp]; omega

theorem cnt_set {p q : Nat → Bool} {n i : Nat} (hi : i < n) (hp : p i = false) (hq : q i = true) (h : ∀ j, j ≠ i → q j = p j) :
    cnt q n = cnt p n + 1 := by
  induction n with
  | zero => omega
  | succ n ih =>
    rw [cnt, cnt]
    by_cases hin : i = n
    · subst hin
      rw [cnt_congr (p := q) (q := p) (fun j hj => h j (by omega)), hp, hq]; simp
    · rw [ih (by omega), h n (by omega)]; omega

theorem cnt_free {p : Nat → Bool} {n : Nat} (h : cnt p n < n) : ∃ i, i < n ∧ p i = false := by
  induction n with
  | zero => omega
  | succ n ih =>
    rw [cnt] at h
    cases hp : p n with
    | false => exact ⟨n, by omega, hp⟩
    | true =>
      rw [hp] at h
      obtain ⟨i, hi, h⟩ := ih (by simpa using h)
      exact ⟨i, by omega, h⟩

theorem cnt_false {p : Nat → Bool} {n : Nat} (h : ∀ i, p i = false) : cnt p n = 0 := by
  induction n with
  | zero => rfl
  | succ n ih => rw [cnt, ih, h n]; rfl

theorem upd_same {β : Type} (f : Nat → β) (i : Nat) (b : β) : upd f i b i = b := by simp [upd]
theorem upd_ne {β : Type} (f : Nat → β) {i j : Nat} (b : β) (h : j ≠ i) : upd f i b j = f j := by simp [upd, h]

/-- least witness -/
theorem exists_least {p : Nat → Prop} (h : ∃ n, p n) : ∃ n, p n ∧ ∀ m, m < n → ¬ p m := by
  obtain ⟨n, hn⟩ := h
  induction n using Nat.strongRecOn with
  | _ n ih =>
    by_cases hc : ∃ m, m < n ∧ p m
    · obtain ⟨m, hm, hpm⟩ := hc
      exact ih m hm hpm
    · exact ⟨n, hn, fun m hm hpm => hc ⟨m, hm, hpm⟩⟩

/-! ### the invariant -/

/-- `k` is bound to `v` in the table -/
def Has (h : Map K V) (k : K) (v : V) : Prop := ∃ i, h.flag i = .live ∧ h.kv i = some (k, v)

structure Inv (hash : K → Nat) (h : Map K V) : Prop where
  shape : (h.n = 0 ∧ h.ub = 0) ∨ (Pow2 h.n ∧ 4 ≤ h.n ∧ h.n ≤ 2 ^ 31 ∧ h.ub = upperBound h.n)
  inb : ∀ i, h.flag i ≠ .empty → i < h.n
  kvok : ∀ i, h.flag i = .live → ∃ p, h.kv i = some p
  uniq : ∀ i j k v w, h.flag i = .live → h.flag j = .live → h.kv i = some (k, v) → h.kv j = some (k, w) → i = j
  reach : ∀ i k v, h.flag i = .live → h.kv i = some (k, v) →
    ∃ s, s < h.n ∧ probe h.n (hash k) s = i ∧ ∀ t, t < s → h.flag (probe h.n (hash k) t) ≠ .empty
  size : h.size = cnt (fun i => h.flag i = .live) h.n
  occ : h.occ = cnt (fun i => h.flag i ≠ .empty) h.n
  load : h.occ ≤ h.ub

theorem ub_lt {n : Nat} (h : 4 ≤ n) : upperBound n < n := by unfold upperBound; omega

theorem init_inv (hash : K → Nat) : Inv hash (init : Map K V) where
  shape := .inl ⟨rfl, rfl⟩
  inb := by intro i h; exact absurd rfl h
  kvok := by intro i h; cases h
  uniq := by intro i j k v w h; cases h
  reach := by intro i k v h; cases h
  size := rfl
  occ := rfl
  load := Nat.le_refl _

theorem probeStop_cases {hash : K → Nat} {h : Map K V} (hi : Inv hash h) (key : K) (i : Nat) :
    (probeStop h key i = .ok true ∧ (h.flag i = .empty ∨ ∃ v, h.flag i = .live ∧ h.kv i = some (key, v))) ∨
    (probeStop h key i = .ok false ∧ (h.flag i = .deleted ∨ ∃ k v, h.flag i = .live ∧ h.kv i = some (k, v) ∧ k ≠ key)) := by
  unfold probeStop
  cases hf : h.flag i with
  | empty => exact .inl ⟨rfl, .inl rfl⟩
  | deleted => exact .inr ⟨rfl, .inl rfl⟩
  | live =>
    obtain ⟨⟨k, v⟩, hk⟩ := hi.kvok i hf
    rw [hk]
    by_cases hkk : k = key
    · subst hkk
      exact .inl ⟨by simp, .inr ⟨v, rfl, rfl⟩⟩
    · exact .inr ⟨by simp [hkk], .inr ⟨k, v, rfl, rfl, hkk⟩⟩

/-- the probe of `key` stops at step `s`, and not before -/
structure StopsAt (hash : K → Nat) (h : Map K V) (key : K) (s : Nat) : Prop where
  lt : s < h.n
  stop : probeStop h key (probe h.n (hash key) s) = .ok true
  go : ∀ t, t < s → probeStop h key (probe h.n (hash key) t) = .ok false

theorem exists_stop {hash : K → Nat} {h : Map K V} (hi : Inv hash h) (hn : h.n ≠ 0) (key : K) : ∃ s, StopsAt hash h key s := by
  rcases hi.shape with hs | ⟨hp, h4, _, hub⟩
  · exact absurd hs.1 hn
  · have hfree : cnt (fun i => h.flag i ≠ .empty) h.n < h.n := by
      have := hi.occ; have := hi.load; have := ub_lt h4; omega
    obtain ⟨i, hin, hie⟩ := cnt_free hfree
    have hie : h.flag i = .empty := by simpa using hie
    obtain ⟨s0, hs0, hps⟩ := probe_surj hp (hash key) i hin
    obtain ⟨s, h1, h2⟩ := exists_least (p := fun s => probeStop h key (probe h.n (hash key) s) = .ok true)
      ⟨s0, by rw [hps]; unfold probeStop; rw [hie]⟩
    refine ⟨s, ?_, h1, ?_⟩
    · by_contra hc
      have : s0 < s := by omega
      exact h2 s0 this (by rw [hps]; unfold probeStop; rw [hie])
    · intro t ht
      rcases probeStop_cases hi key (probe h.n (hash key) t) with h | h
      · exact absurd h.1 (h2 t ht)
      · exact h.1

theorem Inv.pow2 {hash : K → Nat} {h : Map K V} (hi : Inv hash h) (hn : h.n ≠ 0) : Pow2 h.n := by
  rcases hi.shape with hs | hs
  · exact absurd hs.1 hn
  · exact hs.1

theorem idxLoop_stop {hash : K → Nat} {h : Map K V} (hi : Inv hash h) (hn : h.n ≠ 0) (key : K) (s : Nat) (hs : StopsAt hash h key s)
    (fuel : Nat) : ∀ t, t ≤ s → s - t < fuel →
    idxLoop h key (probe h.n (hash key) 0) fuel (probe h.n (hash key) t) t =
      if h.flag (probe h.n (hash key) s) ≠ .live then .err (-3) else .ok (probe h.n (hash key) s) := by
  induction fuel with
  | zero => intro t _ h; omega
  | succ fuel ih =>
    intro t ht hf
    rw [idxLoop]
    rcases Nat.lt_or_eq_of_le ht with hlt | heq
    · rw [hs.go t hlt]
      simp only
      rw [probe_succ (hi.pow2 hn), if_neg, ih (t + 1) (by omega) (by omega)]
      intro hc
      have := probe_inj (hi.pow2 hn) (hash key) (s := t + 1) (t := 0) (by have := hs.lt; omega) (by omega) hc
      omega
    · subst heq
      rw [hs.stop]

theorem start_eq {n : Nat} (hp : Pow2 n) (a : Nat) : a &&& (n - 1) = probe n a 0 := by rw [hp.mask]; rfl

theorem idx_eq {hash : K → Nat} {h : Map K V} (hi : Inv hash h) (hn : h.n ≠ 0) (key : K) (s : Nat) (hs : StopsAt hash h key s) :
    idx hash h key = if h.flag (probe h.n (hash key) s) ≠ .live then .err (-3) else .ok (probe h.n (hash key) s) := by
  unfold idx
  rw [if_neg hn, start_eq (hi.pow2 hn)]
  exact idxLoop_stop hi hn key s hs _ 0 (by omega) (by have := hs.lt; omega)

/-- where the stop is when the key is present -/
theorem stop_of_has {hash : K → Nat} {h : Map K V} (hi : Inv hash h) {key : K} {s : Nat} (hs : StopsAt hash h key s)
    {i : Nat} {v : V} (h1 : h.flag i = .live) (h2 : h.kv i = some (key, v)) : probe h.n (hash key) s = i := by
  obtain ⟨r, hr, hpr, hne⟩ := hi.reach i key v h1 h2
  rcases Nat.lt_trichotomy s r with hlt | heq | hgt
  · have hst := hs.stop
    rcases probeStop_cases hi key (probe h.n (hash key) s) with ⟨_, hc⟩ | ⟨hc, _⟩
    · rcases hc with hc | ⟨w, hc1, hc2⟩
      · exact absurd hc (hne s hlt)
      · exact hi.uniq _ _ key w v hc1 h1 hc2 h2
    · rw [hc] at hst; cases hst
  · rw [heq, hpr]
  · have := hs.go r hgt
    rw [hpr] at this
    unfold probeStop at this
    rw [h1] at this
    simp [h2] at this

theorem idx_found {hash : K → Nat} {h : Map K V} (hi : Inv hash h) {key : K} {i : Nat} {v : V} (h1 : h.flag i = .live)
    (h2 : h.kv i = some (key, v)) : idx hash h key = .ok i := by
  have hn : h.n ≠ 0 := by
    have := hi.inb i (by rw [h1]; simp); omega
  obtain ⟨s, hs⟩ := exists_stop hi hn key
  rw [idx_eq hi hn key s hs, stop_of_has hi hs h1 h2, h1]; simp

theorem idx_not_found {hash : K → Nat} {h : Map K V} (hi : Inv hash h) {key : K} (hno : ∀ v, ¬ Has h key v) :
    idx hash h key = .err (-3) := by
  by_cases hn : h.n = 0
  · unfold idx; rw [if_pos hn]
  · obtain ⟨s, hs⟩ := exists_stop hi hn key
    rw [idx_eq hi hn key s hs, if_pos]
    intro hl
    rcases probeStop_cases hi key (probe h.n (hash key) s) with ⟨_, hc⟩ | ⟨hc, _⟩
    · rcases hc with hc | ⟨w, hc1, hc2⟩
      · rw [hl] at hc; cases hc
      · exact hno w ⟨_, hc1, hc2⟩
    · rw [hs.stop] at hc; cases hc

theorem Has.unique {hash : K → Nat} {h : Map K V} (hi : Inv hash h) {k : K} {v w : V} (h1 : Has h k v) (h2 : Has h k w) : v = w := by
  obtain ⟨i, a, b⟩ := h1
  obtain ⟨j, c, d⟩ := h2
  have := hi.uniq i j k v w a c b d
  subst this
  rw [b] at d; simpa using d

/-! ### removal -/

theorem remove_spec {hash : K → Nat} {h : Map K V} (hi : Inv hash h) (key : K) :
    (∃ v, Has h key v) → ∃ h', remove hash h key = .ok h' ∧ Inv hash h' ∧ (∀ k v, Has h' k v ↔ Has h k v ∧ k ≠ key) ∧ h'.size + 1 = h.size := by
  rintro ⟨v, i, h1, h2⟩
  unfold remove
  rw [idx_found hi h1 h2]
  have hin := hi.inb i (by rw [h1]; simp)
  simp only
  rw [if_pos ⟨hin, h1⟩]
  have hfl : ∀ j, upd h.flag i .deleted j = .live ↔ h.flag j = .live ∧ j ≠ i := by
    intro j
    by_cases hj : j = i
    · subst hj; simp [upd_same]
    · simp [upd_ne _ _ hj, hj]
  have hfe : ∀ j, upd h.flag i .deleted j ≠ .empty ↔ h.flag j ≠ .empty := by
    intro j
    by_cases hj : j = i
    · subst hj; simp [upd_same, h1]
    · simp [upd_ne _ _ hj]
  have hsz : cnt (fun j => h.flag j = .live) h.n = cnt (fun j => upd h.flag i .deleted j = .live) h.n + 1 :=
    cnt_set hin (by simp [upd_same]) (by simp [h1]) (by intro j hj; simp [upd_ne _ _ hj])
  refine ⟨_, rfl, ?_, ?_, ?_⟩
  · constructor
    · exact hi.shape
    · intro j hj; exact hi.inb j ((hfe j).mp hj)
    · intro j hj; exact hi.kvok j ((hfl j).mp hj).1
    · intro a b k v w ha hb; exact hi.uniq a b k v w ((hfl a).mp ha).1 ((hfl b).mp hb).1
    · intro a k v ha hk
      obtain ⟨s, q1, q2, q3⟩ := hi.reach a k v ((hfl a).mp ha).1 hk
      exact ⟨s, q1, q2, fun t ht => (hfe _).mpr (q3 t ht)⟩
    · show h.size - 1 = cnt (fun j => upd h.flag i .deleted j = .live) h.n
      rw [hi.size, hsz]; omega
    · show h.occ = cnt (fun j => upd h.flag i .deleted j ≠ .empty) h.n
      rw [hi.occ]
      apply cnt_congr
      intro j _
      simp only [decide_eq_decide]
      exact (hfe j).symm
    · exact hi.load
  · intro k w
    constructor
    · rintro ⟨j, a, b⟩
      have := (hfl j).mp a
      refine ⟨⟨j, this.1, b⟩, ?_⟩
      rintro rfl
      exact this.2 (hi.uniq j i k w v this.1 h1 b h2)
    · rintro ⟨⟨j, a, b⟩, hne⟩
      refine ⟨j, (hfl j).mpr ⟨a, ?_⟩, b⟩
      rintro rfl
      rw [h2] at b
      simp at b
      exact hne b.1.symm
  · show h.size - 1 + 1 = h.size
    rw [hi.size, hsz]; omega

/-! ### insertion -/

theorem putLoop_ok {hash : K → Nat} {h : Map K V} (hi : Inv hash h) (hn : h.n ≠ 0) (key : K) (s : Nat) (hs : StopsAt hash h key s)
    (fuel : Nat) : ∀ t site, t ≤ s → s - t < fuel →
    (site = h.n ∨ ∃ u, u < t ∧ site = probe h.n (hash key) u ∧ h.flag site = .deleted) →
    ∃ x, putLoop h key (probe h.n (hash key) 0) fuel (probe h.n (hash key) t) t site = .ok x ∧
      (x = probe h.n (hash key) s ∨
       (h.flag (probe h.n (hash key) s) = .empty ∧ ∃ u, u < s ∧ x = probe h.n (hash key) u ∧ h.flag x = .deleted)) := by
  induction fuel with
  | zero => intro t site _ h; omega
  | succ fuel ih =>
    intro t site ht hf hsite
    rw [putLoop]
    rcases Nat.lt_or_eq_of_le ht with hlt | heq
    · rw [hs.go t hlt]
      simp only
      rw [probe_succ (hi.pow2 hn), if_neg]
      · apply ih (t + 1) _ (by omega) (by omega)
        split
        · rename_i hd
          exact .inr ⟨t, by omega, rfl, hd⟩
        · rcases hsite with h | ⟨u, h1, h2⟩
          · exact .inl h
          · exact .inr ⟨u, by omega, h2⟩
      · intro hc
        have := probe_inj (hi.pow2 hn) (hash key) (s := t + 1) (t := 0) (by have := hs.lt; omega) (by omega) hc
        omega
    · subst heq
      rw [hs.stop]
      simp only
      split
      · rename_i hd
        rcases hsite with h | h
        · exact absurd h hd.2
        · exact ⟨site, rfl, .inr ⟨hd.1, h⟩⟩
      · exact ⟨_, rfl, .inl rfl⟩

theorem store_spec {hash : K → Nat} {h : Map K V} (hi : Inv hash h) (hn : h.n ≠ 0) (hroom : h.occ < h.ub) (key : K) (v : V) (s x : Nat)
    (hs : StopsAt hash h key s)
    (hx : x = probe h.n (hash key) s ∨
       (h.flag (probe h.n (hash key) s) = .empty ∧ ∃ u, u < s ∧ x = probe h.n (hash key) u ∧ h.flag x = .deleted)) :
    Inv hash (store h key v x) ∧ (∀ k w, Has (store h key v x) k w ↔ (k = key ∧ w = v) ∨ (k ≠ key ∧ Has h k w)) := by
  have hp := hi.pow2 hn
  -- facts about x
  have hxn : x < h.n := by
    rcases hx with h | ⟨_, u, _, h, _⟩ <;> rw [h] <;> exact probe_lt hp.pos _ _
  have hxr : ∃ u, u ≤ s ∧ x = probe h.n (hash key) u := by
    rcases hx with h | ⟨_, u, h1, h, _⟩
    · exact ⟨s, Nat.le_refl _, h⟩
    · exact ⟨u, by omega, h⟩
  have hxcase : (h.flag x ≠ .live ∧ ∀ w, ¬ Has h key w) ∨ (h.flag x = .live ∧ ∃ w, h.kv x = some (key, w)) := by
    have habs : h.flag (probe h.n (hash key) s) = .empty → ∀ w, ¬ Has h key w := by
      rintro he w ⟨i, a, b⟩
      have := stop_of_has hi hs a b
      rw [this, a] at he; cases he
    rcases probeStop_cases hi key (probe h.n (hash key) s) with ⟨_, hc⟩ | ⟨hc, _⟩
    · rcases hc with hc | ⟨w, hc1, hc2⟩
      · left
        refine ⟨?_, habs hc⟩
        rcases hx with h | ⟨_, u, _, _, h⟩
        · rw [h, hc]; simp
        · rw [h]; simp
      · rcases hx with h | ⟨he, _⟩
        · right; rw [h]; exact ⟨hc1, w, hc2⟩
        · rw [hc1] at he; cases he
    · rw [hs.stop] at hc; cases hc
  have hother : ∀ i k w, h.flag i = .live → h.kv i = some (k, w) → i ≠ x → k ≠ key := by
    rintro i k w h1 h2 hix rfl
    rcases hxcase with ⟨_, hno⟩ | ⟨hl, w', hw'⟩
    · exact hno w ⟨i, h1, h2⟩
    · exact hix (hi.uniq i x k w w' h1 hl h2 hw')
  -- flags and content after the store
  have hst : (store h key v x).n = h.n ∧ (store h key v x).ub = h.ub ∧ (store h key v x).flag = upd h.flag x .live ∧
      (store h key v x).kv = upd h.kv x (some (key, v)) := by
    unfold store; cases h.flag x <;> exact ⟨rfl, rfl, rfl, rfl⟩
  obtain ⟨en, eub, ef, ekv⟩ := hst
  have hfl : ∀ j, (store h key v x).flag j = .live ↔ j = x ∨ h.flag j = .live := by
    intro j; rw [ef]
    by_cases hj : j = x
    · subst hj; simp [upd_same]
    · simp [upd_ne _ _ hj, hj]
  have hfe : ∀ j, (store h key v x).flag j ≠ .empty ↔ j = x ∨ h.flag j ≠ .empty := by
    intro j; rw [ef]
    by_cases hj : j = x
    · subst hj; simp [upd_same]
    · simp [upd_ne _ _ hj, hj]
  have hcl : cnt (fun j => (store h key v x).flag j = .live) h.n =
      cnt (fun j => h.flag j = .live) h.n + (if h.flag x = .live then 0 else 1) := by
    split
    · rename_i hl
      apply cnt_congr
      intro j _
      simp only [decide_eq_decide]
      rw [hfl]
      exact ⟨fun h => h.elim (fun e => e ▸ hl) id, .inr⟩
    · rename_i hl
      refine cnt_set hxn (by simpa using hl) (by simp [hfl]) ?_
      intro j hj
      simp only [decide_eq_decide]
      rw [hfl]; simp [hj]
  have hce : cnt (fun j => (store h key v x).flag j ≠ .empty) h.n =
      cnt (fun j => h.flag j ≠ .empty) h.n + (if h.flag x = .empty then 1 else 0) := by
    split
    · rename_i hl
      refine cnt_set hxn (by simpa using hl) (by simp only [decide_eq_true_eq]; rw [hfe]; exact .inl rfl) ?_
      intro j hj
      simp only [decide_eq_decide]
      rw [hfe]; simp [hj]
    · rename_i hl
      apply cnt_congr
      intro j _
      simp only [decide_eq_decide]
      rw [hfe]
      exact ⟨fun h => h.elim (fun e => e ▸ hl) id, .inr⟩
  have esz : (store h key v x).size = h.size + (if h.flag x = .live then 0 else 1) := by
    unfold store; cases h.flag x <;> rfl
  have eoc : (store h key v x).occ = h.occ + (if h.flag x = .empty then 1 else 0) := by
    unfold store; cases h.flag x <;> rfl
  constructor
  · constructor
    · rw [en, eub]; exact hi.shape
    · intro j hj; rw [en]
      rcases (hfe j).mp hj with e | e
      · rw [e]; exact hxn
      · exact hi.inb j e
    · intro j hj; rw [ekv]
      by_cases hjx : j = x
      · rw [hjx, upd_same]; exact ⟨_, rfl⟩
      · rw [upd_ne _ _ hjx]
        exact hi.kvok j (((hfl j).mp hj).resolve_left hjx)
    · intro a b k w w' ha hb hka hkb
      rw [ekv] at hka hkb
      by_cases hax : a = x
      · by_cases hbx : b = x
        · rw [hax, hbx]
        · rw [hax, upd_same] at hka
          rw [upd_ne _ _ hbx] at hkb
          simp at hka
          exact absurd hka.1.symm (hother b k w' (((hfl b).mp hb).resolve_left hbx) hkb hbx)
      · by_cases hbx : b = x
        · rw [hbx, upd_same] at hkb
          rw [upd_ne _ _ hax] at hka
          simp at hkb
          exact absurd hkb.1.symm (hother a k w (((hfl a).mp ha).resolve_left hax) hka hax)
        · rw [upd_ne _ _ hax] at hka
          rw [upd_ne _ _ hbx] at hkb
          exact hi.uniq a b k w w' (((hfl a).mp ha).resolve_left hax) (((hfl b).mp hb).resolve_left hbx) hka hkb
    · intro a k w ha hka
      rw [ekv] at hka
      rw [en]
      by_cases hax : a = x
      · rw [hax, upd_same] at hka
        simp at hka
        obtain ⟨rfl, rfl⟩ := hka
        obtain ⟨u, hu1, hu2⟩ := hxr
        refine ⟨u, by have := hs.lt; omega, by rw [hax, hu2], ?_⟩
        intro t ht
        rw [hfe]
        right
        intro he
        have := hs.go t (by omega)
        unfold probeStop at this
        rw [he] at this
        cases this
      · rw [upd_ne _ _ hax] at hka
        obtain ⟨r, q1, q2, q3⟩ := hi.reach a k w (((hfl a).mp ha).resolve_left hax) hka
        exact ⟨r, q1, q2, fun t ht => (hfe _).mpr (.inr (q3 t ht))⟩
    · rw [en, hcl, esz, hi.size]
    · rw [en, hce, eoc, hi.occ]
    · rw [eub, eoc]; split <;> omega
  · intro k w
    constructor
    · rintro ⟨j, a, b⟩
      rw [ekv] at b
      by_cases hjx : j = x
      · rw [hjx, upd_same] at b
        simp at b
        exact .inl ⟨b.1.symm, b.2.symm⟩
      · rw [upd_ne _ _ hjx] at b
        have hl := ((hfl j).mp a).resolve_left hjx
        exact .inr ⟨hother j k w hl b hjx, j, hl, b⟩
    · rintro (⟨rfl, rfl⟩ | ⟨hne, j, a, b⟩)
      · exact ⟨x, (hfl x).mpr (.inl rfl), by rw [ekv, upd_same]⟩
      · have hjx : j ≠ x := by
          rintro rfl
          rcases hxcase with ⟨h1, _⟩ | ⟨_, w', hw'⟩
          · exact h1 a
          · rw [hw'] at b; simp at b; exact hne b.1.symm
        exact ⟨j, (hfl j).mpr (.inr a), by rw [ekv, upd_ne _ _ hjx]; exact b⟩

end Verif.HashMap
