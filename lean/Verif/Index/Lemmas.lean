import Verif.Index.Model
import Verif.Sort.Props
import Mathlib.Data.List.Nodup
namespace Verif.Index

/-! ### the order of keys -/

theorem entryCmp_zero {a b : Entry} : entryCmp a b = 0 ↔ a.path = b.path ∧ a.stage = b.stage := by
  unfold entryCmp
  simp only
  split
  · rename_i h
    rw [bcmp_zero] at h
    constructor
    · intro h2; exact ⟨h, by omega⟩
    · rintro ⟨_, h2⟩; omega
  · rename_i h
    constructor
    · intro h2; exact absurd h2 h
    · rintro ⟨h1, _⟩; rw [h1, bcmp_self] at h; exact absurd rfl h

theorem entryCmp_flip (a b : Entry) : entryCmp b a = - entryCmp a b := by
  unfold entryCmp
  simp only [bcmp_neg a.path b.path]
  split
  · rename_i h; rw [if_pos (by omega)]; omega
  · rename_i h; rw [if_neg (by omega)]

theorem entryCmp_lt_trans {a b c : Entry} (h1 : entryCmp a b < 0) (h2 : entryCmp b c < 0) : entryCmp a c < 0 := by
  unfold entryCmp at *
  simp only at *
  rcases bcmp_range a.path b.path with hab | hab | hab
  all_goals rcases bcmp_range b.path c.path with hbc | hbc | hbc
  all_goals simp only [hab, hbc] at h1 h2
  all_goals try omega
  all_goals try (simp at h1)
  all_goals try (simp at h2)
  · have hle := bcmp_trans (a := a.path) (b := b.path) (c := c.path) (by omega) (by omega)
    have hne : bcmp a.path c.path ≠ 0 := by
      intro h0
      rw [bcmp_zero] at h0
      rw [← h0, bcmp_neg a.path b.path] at hbc
      omega
    rw [if_neg hne]; omega
  · rw [bcmp_zero] at hbc
    rw [← hbc]; simp [hab]
  · rw [bcmp_zero] at hab
    rw [hab]; simp [hbc]
  · rw [bcmp_zero] at hab hbc
    rw [hab, hbc, bcmp_self]; simp; omega

/-- memcmp on the common length, then the lengths: the same as comparing the strings -/
theorem bcmp_split (a b : Bytes) :
    (if bcmp (a.take (if a.length < b.length then a.length else b.length)) (b.take (if a.length < b.length then a.length else b.length)) ≠ 0
     then bcmp (a.take (if a.length < b.length then a.length else b.length)) (b.take (if a.length < b.length then a.length else b.length))
     else if a.length < b.length then -1 else if b.length < a.length then 1 else 0) = bcmp a b := by
  induction a generalizing b with
  | nil => cases b <;> simp [bcmp]
  | cons x xs ih =>
    cases b with
    | nil => simp [bcmp]
    | cons y ys =>
      have hl : (if (x :: xs).length < (y :: ys).length then (x :: xs).length else (y :: ys).length) =
          (if xs.length < ys.length then xs.length else ys.length) + 1 := by
        simp only [List.length_cons]; split <;> split <;> omega
      rw [hl]
      simp only [List.take_succ_cons, bcmp]
      by_cases h1 : x < y
      · simp [h1]
      · by_cases h2 : y < x
        · simp [h1, h2]
        · simp only [h1, h2, if_false, List.length_cons, Nat.add_lt_add_iff_right]
          exact ih ys

theorem entrySrch_eq (path : Bytes) (stage : Option Nat) (e : Entry) :
    entrySrch path stage e = if bcmp path e.path ≠ 0 then bcmp path e.path else match stage with
      | some s => (s : Int) - e.stage
      | none => 0 := by
  have h := bcmp_split path e.path
  unfold entrySrch
  simp only
  rw [← h]
  by_cases h1 : bcmp (path.take (if path.length < e.path.length then path.length else e.path.length))
      (e.path.take (if path.length < e.path.length then path.length else e.path.length)) = 0
  · simp only [h1, ne_eq, not_true_eq_false, if_false]
    by_cases h2 : path.length < e.path.length
    · simp [h2]
    · by_cases h3 : e.path.length < path.length
      · simp [h2, h3]
      · rw [if_neg h2, if_neg h3, if_neg h2, if_neg h3]
        simp only [if_false]
        cases stage <;> rfl
  · simp only [ne_eq, h1, not_false_iff, if_true]

theorem entrySrch_some (path : Bytes) (s : Nat) (e : Entry) : entrySrch path (some s) e = entryCmp ⟨path, s, 0, [], []⟩ e := by
  rw [entrySrch_eq]
  unfold entryCmp
  simp only
  by_cases h : bcmp path e.path = 0 <;> simp [h]

theorem entryCmp_key (a b x : Entry) (h1 : a.path = b.path) (h2 : a.stage = b.stage) : entryCmp a x = entryCmp b x := by
  unfold entryCmp; rw [h1, h2]

/-! ### the invariant -/

structure Inv (st : St) : Prop where
  sorted : st.entries.Pairwise (fun a b => entryCmp a b < 0)
  agree : ∀ p s e, st.emap p s = some e ↔ e ∈ st.entries ∧ e.path = p ∧ e.stage = s

theorem Inv.nodup {st : St} (h : Inv st) : st.entries.Nodup := by
  apply h.sorted.imp
  rintro a b hab rfl
  have := (entryCmp_zero (a := a) (b := a)).mpr ⟨rfl, rfl⟩
  omega

/-- at most one entry for a key -/
theorem Inv.unique {st : St} (h : Inv st) {a b : Entry} (ha : a ∈ st.entries) (hb : b ∈ st.entries) (h1 : a.path = b.path) (h2 : a.stage = b.stage) :
    a = b := by
  have e1 := (h.agree a.path a.stage a).mpr ⟨ha, rfl, rfl⟩
  have e2 := (h.agree a.path a.stage b).mpr ⟨hb, h1.symm, h2.symm⟩
  rw [e1] at e2
  exact Option.some.inj e2

theorem inv_init : Inv init := ⟨List.Pairwise.nil, by intro p s e; simp [init]⟩

theorem emap_none {st : St} (h : Inv st) {p : Bytes} {s : Nat} : st.emap p s = none ↔ ∀ e ∈ st.entries, ¬ (e.path = p ∧ e.stage = s) := by
  constructor
  · intro hn e he hk
    have := (h.agree p s e).mpr ⟨he, hk⟩
    rw [hn] at this; cases this
  · intro hn
    cases hm : st.emap p s with
    | none => rfl
    | some e =>
      obtain ⟨h1, h2⟩ := (h.agree p s e).mp hm
      exact absurd h2 (hn e h1)

theorem searchable {es : List Entry} (h : es.Pairwise (fun a b => entryCmp a b < 0)) (k : Entry) : Sort.Spec.Searchable (entryCmp k) es := by
  unfold Sort.Spec.Searchable
  apply h.imp
  intro a b hab
  constructor
  · intro hb
    have h1 : entryCmp b k < 0 := by rw [entryCmp_flip k b]; omega
    have := entryCmp_lt_trans hab h1
    rw [entryCmp_flip]; omega
  · intro ha
    exact entryCmp_lt_trans ha hab

theorem find_ok {st : St} (h : Inv st) (path : Bytes) (s : Nat) :
    (∃ pos e, find st path (some s) = .ok (true, pos) ∧ st.entries[pos]? = some e ∧ e.path = path ∧ e.stage = s) ∨
    (∃ pos, find st path (some s) = .ok (false, pos) ∧ ∀ e ∈ st.entries, ¬ (e.path = path ∧ e.stage = s)) := by
  have hk : entrySrch path (some s) = entryCmp ⟨path, s, 0, [], []⟩ := by funext e; exact entrySrch_some path s e
  unfold find
  rw [hk]
  obtain ⟨found, pos, h1, h2, h3, h4⟩ := Sort.C26_bsearch _ _ (searchable h.sorted ⟨path, s, 0, [], []⟩)
  rw [h1]
  cases found with
  | true =>
    left
    obtain ⟨x, hx, h0⟩ := h3 rfl
    rw [entryCmp_zero] at h0
    exact ⟨pos, x, rfl, hx, h0.1.symm, h0.2.symm⟩
  | false =>
    right
    refine ⟨pos, rfl, ?_⟩
    rintro e he ⟨h5, h6⟩
    have := h2.mpr ⟨e, he, entryCmp_zero.mpr ⟨h5.symm, h6.symm⟩⟩
    cases this

/-! ### removal of one entry -/

theorem mem_eraseIdx_nodup {α : Type} [DecidableEq α] {l : List α} (h : l.Nodup) {i : Nat} {a : α} (hi : l[i]? = some a) (x : α) :
    x ∈ l.eraseIdx i ↔ x ∈ l ∧ x ≠ a := by
  obtain ⟨hlt, rfl⟩ := List.getElem?_eq_some_iff.mp hi
  rw [← List.Nodup.erase_getElem h i hlt, h.mem_erase_iff]
  exact And.comm

theorem removeEntry_ok {st : St} (h : Inv st) {pos : Nat} {e : Entry} (he : st.entries[pos]? = some e) :
    ∃ st', removeEntry st pos = .ok st' ∧ Inv st' ∧ (∀ x, x ∈ st'.entries ↔ x ∈ st.entries ∧ x ≠ e) ∧ st'.entries = st.entries.eraseIdx pos := by
  unfold removeEntry
  rw [he]
  have hm := mem_eraseIdx_nodup h.nodup he
  refine ⟨_, rfl, ⟨?_, ?_⟩, hm, rfl⟩
  · exact h.sorted.sublist (List.eraseIdx_sublist _ _)
  · intro p s x
    simp only [unmap]
    rw [hm]
    have hein := List.mem_of_getElem? he
    split
    · rename_i hk
      constructor
      · intro hc; cases hc
      · rintro ⟨⟨h1, h2⟩, h3, h4⟩
        exact absurd (h.unique h1 hein (h3.trans hk.1) (h4.trans hk.2)) h2
    · rename_i hk
      rw [h.agree]
      constructor
      · rintro ⟨h1, h2, h3⟩
        refine ⟨⟨h1, ?_⟩, h2, h3⟩
        rintro rfl
        exact hk ⟨h2.symm, h3.symm⟩
      · rintro ⟨⟨h1, _⟩, h2, h3⟩; exact ⟨h1, h2, h3⟩

/-! ### collisions -/

/-- `p` lies in the directory `d` -/
def Under (d p : Bytes) : Prop := ∃ r, p = d ++ c!"/" :: r

theorem under_of_char {d p : Bytes} (h1 : d.length < p.length) (h2 : p.take d.length = d) (h3 : charAt p d.length = c!"/") : Under d p := by
  refine ⟨p.drop (d.length + 1), ?_⟩
  have h4 : p.drop d.length = c!"/" :: p.drop (d.length + 1) := by
    rw [List.drop_eq_getElem_cons h1]
    congr 1
    unfold charAt at h3
    rw [List.getElem?_eq_getElem h1] at h3
    simpa using h3
  rw [← h4]
  conv => lhs; rw [← List.take_append_drop d.length p, h2]

/-- what a pruning pass may do: it keeps the invariant and removes only entries satisfying `P` -/
structure Pruned (P : Entry → Prop) (st st' : St) : Prop where
  inv : Inv st'
  sub : ∀ x, x ∈ st'.entries → x ∈ st.entries
  keep : ∀ x, x ∈ st.entries → x ∈ st'.entries ∨ P x

theorem Pruned.refl {P : Entry → Prop} {st : St} (h : Inv st) : Pruned P st st := ⟨h, fun _ h => h, fun _ h => .inl h⟩

theorem Pruned.trans {P Q : Entry → Prop} {a b c : St} (h1 : Pruned P a b) (h2 : Pruned Q b c) : Pruned (fun x => P x ∨ Q x) a c :=
  ⟨h2.inv, fun x h => h1.sub x (h2.sub x h), fun x h => by
    rcases h1.keep x h with h | h
    · rcases h2.keep x h with h | h
      · exact .inl h
      · exact .inr (.inr h)
    · exact .inr (.inl h)⟩

theorem Pruned.same {P : Entry → Prop} {a b c : St} (h1 : Pruned P a b) (h2 : Pruned P b c) : Pruned P a c :=
  ⟨h2.inv, fun x h => h1.sub x (h2.sub x h), fun x h => by
    rcases h1.keep x h with h | h
    · exact h2.keep x h
    · exact .inr h⟩

theorem pruned_remove {P : Entry → Prop} {st st' : St} {e : Entry} (hi : Inv st') (hm : ∀ x, x ∈ st'.entries ↔ x ∈ st.entries ∧ x ≠ e) (hp : P e) :
    Pruned P st st' := ⟨hi, fun x h => ((hm x).mp h).1, fun x h => by
      by_cases hx : x = e
      · subst hx; exact .inr hp
      · exact .inl ((hm x).mpr ⟨h, hx⟩)⟩

/-- with `replace`, `has_file_name` succeeds and removes only entries below the path -/
theorem hasFileName_ok {path : Bytes} {stage : Nat} (fuel : Nat) : ∀ (pos : Nat) (st : St), Inv st → st.entries.length - pos < fuel →
    ∃ st', hasFileName path stage true fuel pos st = .ok st' ∧ Pruned (fun x => x.stage = stage ∧ Under path x.path) st st' := by
  induction fuel with
  | zero => intro pos st _ h; omega
  | succ fuel ih =>
    intro pos st hi hf
    rw [hasFileName]
    cases he : st.entries[pos]? with
    | none => exact ⟨st, rfl, Pruned.refl hi⟩
    | some p =>
      have hlt := (List.getElem?_eq_some_iff.mp he).1
      simp only
      unfold fileStep
      by_cases h1 : p.path.length ≤ path.length
      · rw [if_pos h1]; exact ⟨st, rfl, Pruned.refl hi⟩
      · rw [if_neg h1]
        by_cases h2 : bcmp path (p.path.take path.length) ≠ 0
        · rw [if_pos h2]; exact ⟨st, rfl, Pruned.refl hi⟩
        · rw [if_neg h2]
          by_cases h3 : p.stage ≠ stage
          · rw [if_pos h3]; exact ih _ st hi (by omega)
          · rw [if_neg h3]
            by_cases h4 : charAt p.path path.length ≠ c!"/"
            · rw [if_pos h4]; exact ih _ st hi (by omega)
            · rw [if_neg h4, if_neg (by simp)]
              obtain ⟨st1, e1, i1, m1, l1⟩ := removeEntry_ok hi he
              rw [e1]
              simp only
              have hlen : st1.entries.length = st.entries.length - 1 := by rw [l1, List.length_eraseIdx_of_lt hlt]
              obtain ⟨st2, e2, p2⟩ := ih pos st1 i1 (by omega)
              refine ⟨st2, e2, (pruned_remove i1 m1 ?_).same p2⟩
              simp only [ne_eq, Decidable.not_not] at h2 h3 h4
              rw [bcmp_zero] at h2
              exact ⟨h3, under_of_char (by omega) h2.symm h4⟩

theorem subdirScan_finds {path : Bytes} {len stage : Nat} (es : List Entry) (hl : len ≤ path.length) (h : subdirScan path len stage es = true) :
    ∃ x ∈ es, x.stage = stage ∧ Under (path.take len) x.path := by
  induction es with
  | nil => simp [subdirScan] at h
  | cons p ps ih =>
    rw [subdirScan] at h
    split at h
    · cases h
    · rename_i hn
      simp only [not_or, Decidable.not_not, ne_eq, Nat.not_le] at hn
      split at h
      · rename_i hs
        refine ⟨p, by simp, hs, ?_⟩
        have hlen : (path.take len).length = len := by rw [List.length_take]; omega
        apply under_of_char
        · rw [hlen]; exact hn.1
        · rw [hlen]; exact bcmp_zero.mp hn.2.2
        · rw [hlen]; exact hn.2.1
      · obtain ⟨x, hx, h1⟩ := ih h
        exact ⟨x, by simp [hx], h1⟩

/-- no file is also a directory, among entries of the same stage -/
def Consistent (st : St) : Prop := ∀ x ∈ st.entries, ∀ y ∈ st.entries, x.stage = y.stage → ¬ Under x.path y.path

theorem Consistent.sub {st st' : St} (h : Consistent st) (hs : ∀ x, x ∈ st'.entries → x ∈ st.entries) : Consistent st' :=
  fun x hx y hy => h x (hs x hx) y (hs y hy)

theorem under_take {path : Bytes} {i : Nat} (hi : i < path.length) (hc : charAt path i = c!"/") : Under (path.take i) path := by
  have hlen : (path.take i).length = i := by rw [List.length_take]; omega
  exact under_of_char (by rw [hlen]; exact hi) (by rw [hlen]) (by rw [hlen]; exact hc)

theorem under_iff_take {d p : Bytes} : Under d p ↔ d.length < p.length ∧ p.take d.length = d ∧ charAt p d.length = c!"/" := by
  constructor
  · rintro ⟨r, rfl⟩
    refine ⟨by simp, by simp, ?_⟩
    unfold charAt
    simp
  · rintro ⟨h1, h2, h3⟩; exact under_of_char h1 h2 h3

/-- with `replace`, `has_dir_name` succeeds and removes only files that are a leading directory of the path; on a consistent index it
removes all of them (from position `i` down) -/
theorem hasDirName_ok {path : Bytes} {stage : Nat} (i : Nat) : ∀ (st : St), Inv st → i ≤ path.length →
    ∃ st', hasDirName path stage true i st = .ok st' ∧ Pruned (fun x => x.stage = stage ∧ Under x.path path) st st' ∧
      (Consistent st → ∀ x ∈ st'.entries, x.stage = stage → x.path ≠ [] → x.path.length < i → ¬ Under x.path path) := by
  induction i with
  | zero => intro st hi _; exact ⟨st, rfl, Pruned.refl hi, fun _ x _ _ _ h => absurd h (by omega)⟩
  | succ i ih =>
    intro st hi hl
    rw [hasDirName]
    by_cases h0 : i = 0
    · rw [if_pos h0]
      refine ⟨st, rfl, Pruned.refl hi, ?_⟩
      intro _ x _ _ hne hlen
      have : x.path.length = 0 := by omega
      exact absurd (List.length_eq_zero_iff.mp this) hne
    · rw [if_neg h0]
      have hdown : ∀ (st' : St), (∀ x ∈ st'.entries, x.stage = stage → x.path ≠ [] → x.path.length < i → ¬ Under x.path path) →
          (∀ x ∈ st'.entries, x.stage = stage → x.path.length = i → ¬ Under x.path path) →
          (∀ x ∈ st'.entries, x.stage = stage → x.path ≠ [] → x.path.length < i + 1 → ¬ Under x.path path) := by
        intro st' h1 h2 x hx hs hne hlen
        rcases Nat.lt_or_eq_of_le (Nat.le_of_lt_succ hlen) with h | h
        · exact h1 x hx hs hne h
        · exact h2 x hx hs h
      by_cases hc : charAt path i ≠ c!"/"
      · rw [if_pos hc]
        obtain ⟨st', e, p, q⟩ := ih st hi (by omega)
        refine ⟨st', e, p, ?_⟩
        intro hcons
        apply hdown st' (q hcons)
        intro x _ _ hlen hu
        obtain ⟨_, _, h3⟩ := under_iff_take.mp hu
        rw [hlen] at h3
        exact hc h3
      · rw [if_neg hc]
        simp only [ne_eq, Decidable.not_not] at hc
        have hlen : (path.take i).length = i := by rw [List.length_take]; omega
        have hpath : ∀ x : Entry, x.path.length = i → Under x.path path → x.path = path.take i := by
          intro x hx hu
          obtain ⟨_, h2, _⟩ := under_iff_take.mp hu
          rw [hx] at h2
          exact h2.symm
        rcases find_ok hi (path.take i) stage with ⟨pos, e, h1, h2, h3, h4⟩ | ⟨pos, h1, h2⟩
        · rw [h1]
          simp only [not_true_eq_false, if_false]
          obtain ⟨st1, e1, i1, m1, l1⟩ := removeEntry_ok hi h2
          rw [e1]
          simp only
          obtain ⟨st', e2, p2, q2⟩ := ih st1 i1 (by omega)
          have hpr : Pruned (fun x => x.stage = stage ∧ Under x.path path) st st1 :=
            pruned_remove i1 m1 ⟨h4, by rw [h3]; exact under_take (by omega) hc⟩
          refine ⟨st', e2, hpr.same p2, ?_⟩
          intro hcons
          apply hdown st' (q2 (hcons.sub hpr.sub))
          intro x hx hs hxl hu
          have hx1 := p2.sub x hx
          obtain ⟨hx0, hne⟩ := (m1 x).mp hx1
          have := hpath x hxl hu
          exact hne (hi.unique hx0 (List.mem_of_getElem? h2) (by rw [this, h3]) (by rw [hs, h4]))
        · rw [h1]
          simp only
          by_cases hsub : subdirScan path i stage (st.entries.drop pos) = true
          · rw [if_pos hsub]
            refine ⟨st, rfl, Pruned.refl hi, ?_⟩
            intro hcons x hx hs hne hxl hu
            obtain ⟨y, hy, hys, hyu⟩ := subdirScan_finds _ (by omega) hsub
            have hy' : y ∈ st.entries := List.mem_of_mem_drop hy
            rcases Nat.lt_or_eq_of_le (Nat.le_of_lt_succ hxl) with h | h
            · apply hcons x hx y hy' (by rw [hs, hys])
              obtain ⟨g1, g2, g3⟩ := under_iff_take.mp hu
              obtain ⟨r, hr⟩ := hyu
              rw [under_iff_take, hr]
              refine ⟨by rw [List.length_append, hlen]; omega, ?_, ?_⟩
              · rw [List.take_append_of_le_length (by omega), List.take_take, Nat.min_eq_left (by omega)]; exact g2
              · unfold charAt at g3 ⊢
                rw [List.getElem?_append_left (by omega), List.getElem?_take_of_lt h]; exact g3
            · exact h2 x hx ⟨hpath x h hu, hs⟩
          · rw [if_neg hsub]
            obtain ⟨st', e, p, q⟩ := ih st hi (by omega)
            refine ⟨st', e, p, ?_⟩
            intro hcons
            apply hdown st' (q hcons)
            intro x hx hs hxl hu
            exact h2 x (p.sub x hx) ⟨hpath x hxl hu, hs⟩

theorem checkCollision_ok {path : Bytes} {stage pos : Nat} {st : St} (hi : Inv st) :
    ∃ st', checkCollision path stage true pos st = .ok st' ∧
      Pruned (fun x => x.stage = stage ∧ (Under path x.path ∨ Under x.path path)) st st' ∧
      (Consistent st → ∀ x ∈ st'.entries, x.stage = stage → x.path ≠ [] → ¬ Under x.path path) := by
  unfold checkCollision
  obtain ⟨st1, e1, p1⟩ := hasFileName_ok (path := path) (stage := stage) (2 * st.entries.length + 1) pos st hi (by omega)
  rw [e1]
  simp only [Res.bind_ok]
  obtain ⟨st2, e2, p2, q2⟩ := hasDirName_ok (path := path) (stage := stage) path.length st1 p1.inv (Nat.le_refl _)
  refine ⟨st2, e2, ?_, ?_⟩
  · have := p1.trans p2
    exact ⟨this.inv, this.sub, fun x h => by
      rcases this.keep x h with h | h | h
      · exact .inl h
      · exact .inr ⟨h.1, .inl h.2⟩
      · exact .inr ⟨h.1, .inr h.2⟩⟩
  · intro hc x hx hs hne hu
    exact q2 (hc.sub p1.sub) x hx hs hne (under_iff_take.mp hu).1 hu

/-! ### insertion -/

theorem not_under_self (p : Bytes) : ¬ Under p p := by
  rintro ⟨r, h⟩
  have := congrArg List.length h
  simp at this

theorem insertIdx_split {α : Type} {l : List α} (i : Nat) (a : α) (h : i ≤ l.length) : l.insertIdx i a = l.take i ++ a :: l.drop i := by
  induction i generalizing l with
  | zero => simp
  | succ i ih =>
    cases l with
    | nil => simp at h
    | cons x xs => simp [List.insertIdx_succ_cons, ih (by simpa using h)]

theorem insertSorted_ok {st : St} (hi : Inv st) (e : Entry) (hno : ∀ x ∈ st.entries, ¬ (x.path = e.path ∧ x.stage = e.stage)) :
    ∃ st', insertSorted st e = .ok st' ∧ Inv st' ∧ ∀ x, x ∈ st'.entries ↔ x = e ∨ x ∈ st.entries := by
  unfold insertSorted
  obtain ⟨found, pos, h1, h2, h3, h4⟩ := Sort.C26_bsearch _ _ (searchable hi.sorted e)
  cases found with
  | true =>
    obtain ⟨x, hx, h0⟩ := h3 rfl
    rw [entryCmp_zero] at h0
    exact absurd ⟨h0.1.symm, h0.2.symm⟩ (hno x (List.mem_of_getElem? hx))
  | false =>
    obtain ⟨hp, hbefore, hafter⟩ := h4 rfl
    rw [h1]
    simp only
    have hmem : ∀ x, x ∈ st.entries.insertIdx pos e ↔ x = e ∨ x ∈ st.entries := by
      intro x; rw [List.mem_insertIdx hp]
    refine ⟨_, rfl, ⟨?_, ?_⟩, hmem⟩
    · have hins : st.entries.insertIdx pos e = st.entries.take pos ++ e :: st.entries.drop pos := by
        exact insertIdx_split pos e hp
      rw [hins, List.pairwise_append]
      have hs := hi.sorted
      rw [← List.take_append_drop pos st.entries, List.pairwise_append] at hs
      refine ⟨hs.1, ?_, ?_⟩
      · rw [List.pairwise_cons]
        exact ⟨fun x hx => hafter x hx, hs.2.1⟩
      · intro a ha b hb
        rcases List.mem_cons.mp hb with rfl | hb
        · have := hbefore a ha
          rw [entryCmp_flip] at this; omega
        · exact hs.2.2 a ha b hb
    · intro p s x
      simp only [putmap]
      rw [hmem]
      split
      · rename_i hk
        simp only [Option.some.injEq]
        constructor
        · rintro rfl; exact ⟨.inl rfl, hk.1.symm, hk.2.symm⟩
        · rintro ⟨rfl | hx, h5, h6⟩
          · rfl
          · exact absurd ⟨h5.trans hk.1, h6.trans hk.2⟩ (hno x hx)
      · rename_i hk
        rw [hi.agree]
        constructor
        · rintro ⟨h5, h6⟩; exact ⟨.inr h5, h6⟩
        · rintro ⟨rfl | hx, h5, h6⟩
          · exact absurd ⟨h5.symm, h6.symm⟩ hk
          · exact ⟨hx, h5, h6⟩

theorem overwrite_ok {st : St} (hi : Inv st) (e o : Entry) (ho : o ∈ st.entries) (hk : o.path = e.path ∧ o.stage = e.stage) :
    Inv (overwrite st e) ∧ ∀ x, x ∈ (overwrite st e).entries ↔ x = e ∨ (x ∈ st.entries ∧ ¬ (x.path = e.path ∧ x.stage = e.stage)) := by
  have hmem : ∀ x, x ∈ (overwrite st e).entries ↔ x = e ∨ (x ∈ st.entries ∧ ¬ (x.path = e.path ∧ x.stage = e.stage)) := by
    intro x
    unfold overwrite
    simp only [List.mem_map]
    constructor
    · rintro ⟨y, hy, rfl⟩
      split
      · exact .inl rfl
      · rename_i h; exact .inr ⟨hy, h⟩
    · rintro (rfl | ⟨h1, h2⟩)
      · exact ⟨o, ho, by rw [if_pos hk]⟩
      · exact ⟨x, h1, by rw [if_neg h2]⟩
  refine ⟨⟨?_, ?_⟩, hmem⟩
  · unfold overwrite
    simp only
    rw [List.pairwise_map]
    apply hi.sorted.imp
    intro a b hab
    have hkey : ∀ y : Entry, ((if y.path = e.path ∧ y.stage = e.stage then e else y).path = y.path) ∧
        ((if y.path = e.path ∧ y.stage = e.stage then e else y).stage = y.stage) := by
      intro y
      split
      · rename_i h; exact ⟨h.1.symm, h.2.symm⟩
      · exact ⟨rfl, rfl⟩
    have e1 : entryCmp (if a.path = e.path ∧ a.stage = e.stage then e else a) (if b.path = e.path ∧ b.stage = e.stage then e else b) = entryCmp a b := by
      unfold entryCmp
      rw [(hkey a).1, (hkey a).2, (hkey b).1, (hkey b).2]
    rw [e1]; exact hab
  · intro p s x
    rw [hmem]
    unfold overwrite putmap
    simp only
    split
    · rename_i hk'
      simp only [Option.some.injEq]
      constructor
      · rintro rfl; exact ⟨.inl rfl, hk'.1.symm, hk'.2.symm⟩
      · rintro ⟨rfl | ⟨hx, hne⟩, h5, h6⟩
        · rfl
        · exact absurd ⟨h5.trans hk'.1, h6.trans hk'.2⟩ hne
    · rename_i hk'
      rw [hi.agree]
      constructor
      · rintro ⟨h5, h6, h7⟩
        refine ⟨.inr ⟨h5, ?_⟩, h6, h7⟩
        rintro ⟨h8, h9⟩
        exact hk' ⟨h6.symm.trans h8, h7.symm.trans h9⟩
      · rintro ⟨rfl | ⟨hx, _⟩, h5, h6⟩
        · exact absurd ⟨h5.symm, h6.symm⟩ hk'
        · exact ⟨hx, h5, h6⟩

/-- what `index_insert` with `replace` does -/
theorem insert_ok (env : Env) {st : St} (hi : Inv st) (e : Entry) :
    (insert env st e true = .err (-1) ∧ createMode e.mode &&& 0o160000 ≠ 0o160000 ∧ env.objectValid e.id (createMode e.mode) = false) ∨
    ∃ st1 st', insert env st e true = .ok st' ∧ Inv st' ∧
      (createMode e.mode &&& 0o160000 = 0o160000 ∨ env.objectValid e.id (createMode e.mode) = true) ∧
      Pruned (fun x => x.stage = e.stage ∧ (Under e.path x.path ∨ Under x.path e.path)) st st1 ∧
      (Consistent st → ∀ x ∈ st1.entries, x.stage = e.stage → x.path ≠ [] → ¬ Under x.path e.path) ∧
      (∀ x, x ∈ st'.entries ↔ x = { e with mode := createMode e.mode } ∨ (x ∈ st1.entries ∧ ¬ (x.path = e.path ∧ x.stage = e.stage))) := by
  unfold insert
  have key : ∀ (found : Bool × Nat),
      (found.1 = true ∧ (∃ o ∈ st.entries, o.path = e.path ∧ o.stage = e.stage) ∨
       found.1 = false ∧ ∀ x ∈ st.entries, ¬ (x.path = e.path ∧ x.stage = e.stage)) →
      find st e.path (some e.stage) = .ok found →
      ((do
        let found ← find st e.path (some e.stage)
        let e := { e with mode := createMode e.mode }
        if e.mode &&& 0o160000 ≠ 0o160000 ∧ ¬ env.objectValid e.id e.mode then .err (-1)
        else do
          let st ← checkCollision e.path e.stage true (existingPosition found) st
          place st e true found.1 : Res St) = .err (-1) ∧ createMode e.mode &&& 0o160000 ≠ 0o160000 ∧ env.objectValid e.id (createMode e.mode) = false) ∨
      ∃ st1 st', ((do
        let found ← find st e.path (some e.stage)
        let e := { e with mode := createMode e.mode }
        if e.mode &&& 0o160000 ≠ 0o160000 ∧ ¬ env.objectValid e.id e.mode then .err (-1)
        else do
          let st ← checkCollision e.path e.stage true (existingPosition found) st
          place st e true found.1 : Res St)) = .ok st' ∧ Inv st' ∧
        (createMode e.mode &&& 0o160000 = 0o160000 ∨ env.objectValid e.id (createMode e.mode) = true) ∧
        Pruned (fun x => x.stage = e.stage ∧ (Under e.path x.path ∨ Under x.path e.path)) st st1 ∧
        (Consistent st → ∀ x ∈ st1.entries, x.stage = e.stage → x.path ≠ [] → ¬ Under x.path e.path) ∧
        (∀ x, x ∈ st'.entries ↔ x = { e with mode := createMode e.mode } ∨ (x ∈ st1.entries ∧ ¬ (x.path = e.path ∧ x.stage = e.stage))) := by
    intro found hf hfind
    rw [hfind]
    simp only [Res.bind_ok]
    by_cases hv : createMode e.mode &&& 0o160000 ≠ 0o160000 ∧ ¬ env.objectValid e.id (createMode e.mode)
    · left
      rw [if_pos hv]
      exact ⟨rfl, hv.1, by simpa using hv.2⟩
    · right
      rw [if_neg hv]
      have hvv : createMode e.mode &&& 0o160000 = 0o160000 ∨ env.objectValid e.id (createMode e.mode) = true := by
        by_cases h : createMode e.mode &&& 0o160000 = 0o160000
        · exact .inl h
        · right
          cases ho : env.objectValid e.id (createMode e.mode) with
          | true => rfl
          | false => exact absurd ⟨h, by simp [ho]⟩ hv
      obtain ⟨st1, e1, p1, q1⟩ := checkCollision_ok (path := e.path) (stage := e.stage) (pos := existingPosition found) hi
      rw [e1]
      simp only [Res.bind_ok]
      unfold place
      rcases hf with ⟨hf, o, ho, hk⟩ | ⟨hf, hno⟩
      · rw [hf]
        simp only [if_true]
        have ho1 : o ∈ st1.entries := by
          rcases p1.keep o ho with h | ⟨_, h | h⟩
          · exact h
          · rw [hk.1] at h; exact absurd h (not_under_self _)
          · rw [hk.1] at h; exact absurd h (not_under_self _)
        obtain ⟨i2, m2⟩ := overwrite_ok p1.inv { e with mode := createMode e.mode } o ho1 hk
        exact ⟨st1, _, rfl, i2, hvv, p1, q1, m2⟩
      · rw [hf]
        simp only [Bool.false_eq_true, if_false]
        have hno1 : ∀ x ∈ st1.entries, ¬ (x.path = e.path ∧ x.stage = e.stage) := fun x hx => hno x (p1.sub x hx)
        obtain ⟨st', e2, i2, m2⟩ := insertSorted_ok p1.inv { e with mode := createMode e.mode } hno1
        refine ⟨st1, st', e2, i2, hvv, p1, q1, ?_⟩
        intro x
        rw [m2]
        constructor
        · rintro (h | h)
          · exact .inl h
          · exact .inr ⟨h, hno1 x h⟩
        · rintro (h | ⟨h, _⟩)
          · exact .inl h
          · exact .inr h
  rcases find_ok hi e.path e.stage with ⟨pos, o, h1, h2, h3, h4⟩ | ⟨pos, h1, h2⟩
  · exact key (true, pos) (.inl ⟨rfl, o, List.mem_of_getElem? h2, h3, h4⟩) h1
  · exact key (false, pos) (.inr ⟨rfl, h2⟩) h1

theorem remove_ok {st : St} (hi : Inv st) (path : Bytes) (stage : Nat) :
    (remove st path stage = .err ENOTFOUND ∧ ∀ x ∈ st.entries, ¬ (x.path = path ∧ x.stage = stage)) ∨
    ∃ st', remove st path stage = .ok st' ∧ Inv st' ∧ (∃ x ∈ st.entries, x.path = path ∧ x.stage = stage) ∧
      ∀ x, x ∈ st'.entries ↔ x ∈ st.entries ∧ ¬ (x.path = path ∧ x.stage = stage) := by
  unfold remove
  rcases find_ok hi path stage with ⟨pos, o, h1, h2, h3, h4⟩ | ⟨pos, h1, h2⟩
  · right
    rw [h1]
    simp only
    have hin := List.mem_of_getElem? h2
    obtain ⟨st', e1, i1, m1, l1⟩ := removeEntry_ok hi h2
    have heq : removeEntry ⟨st.entries, unmap st.emap path stage⟩ pos = removeEntry st pos := by
      unfold removeEntry
      simp only [h2]
      congr 2
      funext p s
      simp only [unmap, h3, h4]
      split <;> rfl
    rw [heq, e1]
    refine ⟨st', rfl, i1, ⟨o, hin, h3, h4⟩, ?_⟩
    intro x
    rw [m1]
    constructor
    · rintro ⟨h5, h6⟩
      refine ⟨h5, ?_⟩
      rintro ⟨h7, h8⟩
      exact h6 (hi.unique h5 hin (h7.trans h3.symm) (h8.trans h4.symm))
    · rintro ⟨h5, h6⟩
      refine ⟨h5, ?_⟩
      rintro rfl
      exact h6 ⟨h3, h4⟩
  · left
    rw [h1]
    exact ⟨rfl, h2⟩

theorem clearLoop_ok (k : Nat) : ∀ st : St, st.entries.length = k → (∀ p s, st.emap p s = none) →
    ∃ st', clearLoop k st = .ok st' ∧ Inv st' ∧ st'.entries = [] := by
  induction k with
  | zero =>
    intro st h hm
    have : st.entries = [] := List.length_eq_zero_iff.mp h
    refine ⟨st, rfl, ⟨by rw [this]; exact List.Pairwise.nil, ?_⟩, this⟩
    intro p s e
    rw [hm, this]; simp
  | succ k ih =>
    intro st h hm
    rw [clearLoop]
    unfold removeEntry
    rw [List.getElem?_eq_getElem (by omega)]
    simp only
    apply ih
    · simp only; rw [List.length_eraseIdx_of_lt (by omega)]; omega
    · intro p s
      simp only [unmap, hm]
      split <;> rfl

theorem clear_ok (st : St) : ∃ st', clear st = .ok st' ∧ Inv st' ∧ st'.entries = [] := clearLoop_ok _ _ rfl (by simp)

end Verif.Index
