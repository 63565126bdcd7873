import Verif.Vec.Model
/-! # C49: dynamic vectors behave as lists -/
namespace Verif.Vec

variable {α : Type} [Inhabited α]

/-- the vector holds this list: its first `length` slots are the elements, and the block of slots is one the allocator can have given -/
structure Holds (v : Vec α) (c : List α) : Prop where
  length : v.length = c.length
  slots : v.slots.take c.length = c
  size : v.slots.length * PTR ≤ SIZE_MAX

/-- there is no memory for `n` elements -/
def Oom (mem : Nat → Bool) (n : Nat) : Prop := n * PTR > SIZE_MAX ∨ mem (n * PTR) = false

theorem Holds.junk {v : Vec α} {c : List α} (h : Holds v c) : v.slots = c ++ v.slots.drop c.length := by
  conv => lhs; rw [← List.take_append_drop c.length v.slots, h.slots]

theorem Holds.le {v : Vec α} {c : List α} (h : Holds v c) : c.length ≤ v.slots.length := by
  have := congrArg List.length h.slots
  rw [List.length_take] at this; omega

theorem holds_of {v : Vec α} {c j : List α} (h1 : v.length = c.length) (h2 : v.slots = c ++ j) (h3 : v.slots.length * PTR ≤ SIZE_MAX) : Holds v c :=
  ⟨h1, by rw [h2, List.take_left], h3⟩

theorem wr_ok {s : List α} {i : Nat} {x : α} (h : i < s.length) : wr s i x = .ok (s.set i x) := by rw [wr, if_pos h]
theorem rd_ok {s : List α} {i : Nat} (h : i < s.length) : rd s i = .ok s[i] := by rw [rd, List.getElem?_eq_getElem h]

theorem resize_ok {mem : Nat → Bool} {v : Vec α} {c : List α} (h : Holds v c) {n : Nat} (hn : v.slots.length ≤ n) (hn0 : 0 < n) :
    (∃ v', resize mem v n = .ok v' ∧ Holds v' c ∧ v'.slots.length = n ∧ v'.cmp = v.cmp ∧ v'.sorted = v.sorted) ∨ (resize mem v n = .err (-1) ∧ Oom mem n) := by
  unfold resize
  rw [if_neg (by omega)]
  by_cases ho : n * PTR > SIZE_MAX || !mem (n * PTR)
  · rw [if_pos ho]
    right
    refine ⟨rfl, ?_⟩
    simpa [Oom] using ho
  · rw [if_neg ho]
    simp only [Bool.or_eq_true, decide_eq_true_eq, Bool.not_eq_true', not_or] at ho
    left
    have hlen : (v.slots.take n ++ List.replicate (n - v.slots.length) (null : α)).length = n := by
      rw [List.length_append, List.length_take, List.length_replicate]; omega
    refine ⟨_, rfl, ⟨h.length, ?_, ?_⟩, hlen, rfl, rfl⟩
    · have := h.le
      rw [List.take_append_of_le_length (by rw [List.length_take]; omega), List.take_take, Nat.min_eq_left (by omega)]
      exact h.slots
    · simp only [hlen]; omega

theorem computeNewSize_gt {n : Nat} (h : n * PTR ≤ SIZE_MAX) : n < computeNewSize n ∧ computeNewSize n ≤ SIZE_MAX := by
  have hS : SIZE_MAX = 18446744073709551615 := rfl
  have hP : PTR = 8 := rfl
  have hM : MIN_ALLOCSIZE = 8 := rfl
  unfold computeNewSize
  by_cases h1 : n < MIN_ALLOCSIZE
  · rw [if_pos h1]; omega
  · rw [hP] at h
    rw [if_neg h1, if_pos (by omega)]; omega

theorem grow_ok {mem : Nat → Bool} {v : Vec α} {c : List α} (h : Holds v c) :
    (∃ v', grow mem v = .ok v' ∧ Holds v' c ∧ c.length < v'.slots.length ∧ v'.cmp = v.cmp ∧ v'.sorted = v.sorted) ∨
    (grow mem v = .err (-1) ∧ v.slots.length = c.length ∧ Oom mem (computeNewSize c.length)) := by
  unfold grow
  have hle := h.le
  by_cases hg : v.length ≥ v.slots.length
  · rw [if_pos hg]
    have hlen : v.slots.length = c.length := by have := h.length; omega
    obtain ⟨hgt, _⟩ := computeNewSize_gt h.size
    rcases resize_ok (mem := mem) h (n := computeNewSize v.slots.length) (by omega) (by omega) with ⟨v', h1, h2, h3, h4, h5⟩ | ⟨h1, h2⟩
    · exact .inl ⟨v', h1, h2, by omega, h4, h5⟩
    · exact .inr ⟨h1, hlen, by rw [← hlen]; exact h2⟩
  · rw [if_neg hg]
    exact .inl ⟨v, rfl, h, by have := h.length; omega, rfl, rfl⟩

/-- A new vector is empty. -/
theorem C49_init (mem : Nat → Bool) (initial : Nat) (cmp : Option (α → α → Int)) :
    (∃ v, init mem initial cmp = .ok v ∧ Holds v ([] : List α) ∧ initial ≤ v.slots.length) ∨ (init (α := α) mem initial cmp = .err (-1) ∧ Oom mem (max initial MIN_ALLOCSIZE)) := by
  have h0 : Holds (⟨[], 0, cmp, true⟩ : Vec α) [] := ⟨rfl, rfl, by simp⟩
  rcases resize_ok (mem := mem) h0 (n := max initial MIN_ALLOCSIZE) (by simp) (by unfold MIN_ALLOCSIZE; omega) with ⟨v, h1, h2, h3, _⟩ | h
  · exact .inl ⟨v, h1, h2, by omega⟩
  · exact .inr h

/-- **C49**, growth: the size asked for is larger than the present one and fits, and the number of bytes computed from it never wraps around:
when it would, the call fails. -/
theorem C49_growth {n : Nat} (h : n * PTR ≤ SIZE_MAX) : n < computeNewSize n ∧ computeNewSize n ≤ SIZE_MAX ∧ ∀ (mem : Nat → Bool) (v v' : Vec α), resize mem v (computeNewSize n) = .ok v' → computeNewSize n * PTR ≤ SIZE_MAX := by
  obtain ⟨h1, h2⟩ := computeNewSize_gt h
  refine ⟨h1, h2, ?_⟩
  intro mem v v' he
  unfold resize at he
  rw [if_neg (by omega)] at he
  split at he
  · cases he
  · rename_i ho
    simp only [Bool.or_eq_true, decide_eq_true_eq, not_or] at ho
    omega

/-- `git_vector_insert` appends. -/
theorem C49_insert {mem : Nat → Bool} {v : Vec α} {c : List α} (h : Holds v c) (x : α) :
    (∃ v', insert mem v x = .ok v' ∧ Holds v' (c ++ [x])) ∨ (insert mem v x = .err (-1) ∧ v.slots.length = c.length ∧ Oom mem (computeNewSize c.length)) := by
  unfold insert
  rcases grow_ok (mem := mem) h with ⟨v', h1, h2, h3, _⟩ | ⟨h1, h2⟩
  · left
    rw [h1]
    simp only [Res.bind_ok]
    rw [wr_ok (by have := h2.length; omega)]
    refine ⟨_, rfl, ?_⟩
    have hj := h2.junk
    cases hd : v'.slots.drop c.length with
    | nil => rw [List.drop_eq_nil_iff] at hd; omega
    | cons y j =>
      rw [hd] at hj
      refine holds_of (j := j) ?_ ?_ ?_
      · simp [h2.length]
      · simp only [h2.length]
        rw [hj]
        simp
      · simp only [List.length_set]; exact h2.size
  · right
    rw [h1]
    exact ⟨rfl, h2⟩

theorem memmove_up {c j : List α} {pos : Nat} (y : α) (hp : pos ≤ c.length) :
    memmove (c ++ y :: j) (pos + 1) pos (c.length - pos) = .ok (c.take pos ++ ((c ++ [y])[pos]?.getD y) :: c.drop pos ++ j) := by
  unfold memmove
  have hl : (c ++ y :: j).length = c.length + 1 + j.length := by simp; omega
  rw [if_pos (by rw [hl]; omega)]
  congr 1
  have h1 : (c ++ y :: j).take (pos + 1) = c.take pos ++ [(c ++ [y])[pos]?.getD y] := by
    rcases Nat.lt_or_ge pos c.length with h | h
    · rw [List.take_append_of_le_length (by omega), List.take_add_one, List.getElem?_append_left h, List.getElem?_eq_getElem h]; rfl
    · have : pos = c.length := by omega
      subst this
      rw [show c ++ y :: j = (c ++ [y]) ++ j by simp, List.take_append_of_le_length (by simp), List.take_of_length_le (by simp)]
      simp
  have h2 : ((c ++ y :: j).drop pos).take (c.length - pos) = c.drop pos := by
    rw [List.drop_append_of_le_length hp]
    have : (c.drop pos).length = c.length - pos := List.length_drop
    rw [← this, List.take_left]
  have h3 : (c ++ y :: j).drop (pos + 1 + (c.length - pos)) = j := by
    have e : c ++ y :: j = (c ++ [y]) ++ j := by simp
    have : pos + 1 + (c.length - pos) = (c ++ [y]).length := by simp; omega
    rw [e, this, List.drop_left]
  rw [h1, h2, h3]
  simp

/-- what the order flag promises -/
def Flagged (v : Vec α) (c : List α) : Prop := v.sorted = true → ∀ cmp, v.cmp = some cmp → Sort.Spec.Sorted cmp c

theorem Holds.split {v : Vec α} {c : List α} (h : Holds v c) : ∃ j, v = ⟨c ++ j, c.length, v.cmp, v.sorted⟩ ∧ (c ++ j).length * PTR ≤ SIZE_MAX := by
  refine ⟨v.slots.drop c.length, ?_, by rw [← h.junk]; exact h.size⟩
  obtain ⟨s, l, cm, so⟩ := v
  have h1 := h.junk; have h2 := h.length
  simp only at h1 h2 ⊢
  rw [← h1, h2]

theorem holds_mk {c j : List α} {cmp : Option (α → α → Int)} {so : Bool} (h : (c ++ j).length * PTR ≤ SIZE_MAX) : Holds ⟨c ++ j, c.length, cmp, so⟩ c :=
  ⟨rfl, List.take_left, h⟩

/-- `git_vector_sort` sorts stably (the sort itself is C26). -/
theorem C49_sort {v : Vec α} {c : List α} (h : Holds v c) (cmp : α → α → Int) (hcmp : v.cmp = some cmp) (hc : Sort.Spec.TotalPreorder cmp) (hf : Flagged v c) :
    (∃ v' c', sort v = .ok v' ∧ Holds v' c' ∧ Sort.Spec.StableSort cmp c c' ∧ v'.sorted = true ∧ v'.cmp = some cmp) ∨
    (2 ^ 47 < c.length ∧ sort v = .err Sort.STACK_OVERFLOW) := by
  obtain ⟨j, hv, hsz⟩ := h.split
  obtain ⟨s, l, cm, so⟩ := v
  simp only at hcmp hv ⊢
  cases hv
  subst hcmp
  unfold sort
  cases so with
  | true => exact .inl ⟨_, c, rfl, h, ⟨hf rfl cmp rfl, .refl c, fun _ => rfl⟩, rfl, rfl⟩
  | false =>
    simp only [Bool.false_eq_true, if_false, List.take_left, List.drop_left]
    by_cases hl : c.length > 1
    · rw [if_pos hl]
      rcases Sort.C26_sorts_any hc c with ⟨out, ho, hs⟩ | ⟨h64, ho⟩
      · rw [ho]
        left
        have hlen := hs.stable.perm.length_eq
        refine ⟨_, out, rfl, ?_, hs, rfl, rfl⟩
        rw [← hlen]
        exact holds_mk (by rw [List.length_append, hlen, ← List.length_append]; exact hsz)
      · rw [ho]
        exact .inr ⟨h64, rfl⟩
    · rw [if_neg hl]
      left
      refine ⟨_, c, rfl, holds_mk hsz, ⟨?_, .refl c, fun _ => rfl⟩, rfl, rfl⟩
      match c, hl with
      | [], _ => exact .nil
      | [x], _ => exact List.pairwise_singleton ..
      | _ :: _ :: _, hl => simp at hl

theorem searchable_of_sorted {cmp : α → α → Int} (hc : Sort.Spec.TotalPreorder cmp) {c : List α} (hs : Sort.Spec.Sorted cmp c) (x : α) : Sort.Spec.Searchable (cmp x) c := by
  refine hs.imp ?_
  intro a b hab
  constructor
  · intro hb
    have h1 : cmp b x < 0 := (hc.flip b x).mpr hb
    have h2 := hc.trans a b x hab (by omega)
    by_cases h0 : 0 < cmp x a
    · exact h0
    · have h3 : cmp x b ≤ 0 := hc.trans x a b (by omega) hab
      omega
  · intro ha
    have h2 := hc.trans x a b (by omega) hab
    by_cases h0 : cmp x b < 0
    · exact h0
    · have h3 : ¬ cmp b x > 0 := fun h => h0 ((hc.flip x b).mpr h)
      have h4 := hc.trans a b x hab (by omega)
      have h5 := (hc.flip x a).mp ha
      omega

theorem insert_at {c j : List α} {cmp : Option (α → α → Int)} {so : Bool} (hsz : (c ++ j).length * PTR ≤ SIZE_MAX) (hj : j ≠ []) {pos : Nat} (hp : pos ≤ c.length) (x : α) :
    ∃ v' : Vec α, ((if pos < c.length then memmove (c ++ j) (pos + 1) pos (c.length - pos) else .ok (c ++ j)) >>= fun s =>
      wr s pos x >>= fun s => (.ok (0, { (⟨c ++ j, c.length, cmp, so⟩ : Vec α) with slots := s, length := c.length + 1 }) : Res (Int × Vec α))) = .ok (0, v') ∧
      Holds v' (c.take pos ++ x :: c.drop pos) ∧ v'.cmp = cmp ∧ v'.sorted = so := by
  obtain ⟨y, j, rfl⟩ := List.exists_cons_of_ne_nil hj
  have hl : (c.take pos ++ x :: c.drop pos).length = c.length + 1 := by simp; omega
  by_cases hlt : pos < c.length
  · rw [if_pos hlt, memmove_up y hp]
    simp only [Res.bind_ok]
    rw [wr_ok (by simp; omega)]
    refine ⟨_, rfl, ?_, rfl, rfl⟩
    refine holds_of (j := j) ?_ ?_ ?_
    · simp only [hl]
    · have h2 : (c.take pos).length = pos := by rw [List.length_take]; omega
      conv => lhs; rw [List.append_assoc, List.set_append_right _ _ (by omega), h2]
      simp
    · simp only [List.length_set]
      simp only [List.length_append, List.length_cons, List.length_take, List.length_drop] at hsz ⊢
      have : min pos c.length + (c.length - pos + 1) + j.length = c.length + (j.length + 1) := by omega
      rw [this]; exact hsz
  · have : pos = c.length := by omega
    subst this
    rw [if_neg hlt]
    simp only [Res.bind_ok]
    rw [wr_ok (by simp)]
    refine ⟨_, rfl, ?_, rfl, rfl⟩
    refine holds_of (j := j) ?_ ?_ ?_
    · simp only [hl]
    · simp
    · simp only [List.length_set]; exact hsz

theorem sorted_insert {cmp : α → α → Int} (hc : Sort.Spec.TotalPreorder cmp) {c : List α} (hs : Sort.Spec.Sorted cmp c) {x : α} {pos : Nat}
    (h1 : ∀ y ∈ c.take pos, cmp y x ≤ 0) (h2 : ∀ y ∈ c.drop pos, cmp x y ≤ 0) : Sort.Spec.Sorted cmp (c.take pos ++ x :: c.drop pos) := by
  have hs' : Sort.Spec.Sorted cmp (c.take pos ++ c.drop pos) := by rw [List.take_append_drop]; exact hs
  unfold Sort.Spec.Sorted at *
  rw [List.pairwise_append] at hs' ⊢
  refine ⟨hs'.1, List.pairwise_cons.mpr ⟨h2, hs'.2.1⟩, ?_⟩
  intro a ha b hb
  rcases List.mem_cons.mp hb with rfl | hb
  · exact h1 a ha
  · exact hs'.2.2 a ha b hb

/-- what bsearch finds in a sorted list: a place where `x` can go -/
theorem bsearch_sorted {cmp : α → α → Int} (hc : Sort.Spec.TotalPreorder cmp) {c : List α} (hs : Sort.Spec.Sorted cmp c) (x : α) :
    ∃ found pos, Sort.bsearch (cmp x) c = .ok (found, pos) ∧ pos ≤ c.length ∧ Sort.Spec.Sorted cmp (c.take pos ++ x :: c.drop pos) ∧
      (found = true ↔ ∃ y ∈ c, cmp x y = 0) ∧ (found = true → ∃ y, c[pos]? = some y ∧ cmp x y = 0) := by
  obtain ⟨found, pos, h1, h2, h3, h4⟩ := Sort.C26_bsearch (cmp x) c (searchable_of_sorted hc hs x)
  have zero : ∀ a b, cmp a b = 0 → cmp b a ≤ 0 := by
    intro a b h
    have := (hc.flip a b).mpr
    omega
  refine ⟨found, pos, h1, ?_, ?_, h2, h3⟩
  · cases found with
    | true => obtain ⟨y, hy, _⟩ := h3 rfl; have := (List.getElem?_eq_some_iff.mp hy).1; omega
    | false => exact (h4 rfl).1
  · cases found with
    | true =>
      obtain ⟨y, hy, h0⟩ := h3 rfl
      obtain ⟨hlt, rfl⟩ := List.getElem?_eq_some_iff.mp hy
      have hsp : c = c.take pos ++ c[pos] :: c.drop (pos + 1) := by simp
      have hs' := hs
      unfold Sort.Spec.Sorted at hs'
      rw [hsp, List.pairwise_append] at hs'
      refine sorted_insert hc hs ?_ ?_
      · intro y hy
        exact hc.trans _ _ _ (hs'.2.2 y hy c[pos] List.mem_cons_self) (zero _ _ h0)
      · intro y hy
        rw [List.drop_eq_getElem_cons hlt] at hy
        rcases List.mem_cons.mp hy with rfl | hy
        · omega
        · exact hc.trans _ _ _ (by omega) ((List.pairwise_cons.mp hs'.2.1).1 y hy)
    | false =>
      obtain ⟨_, h5, h6⟩ := h4 rfl
      refine sorted_insert hc hs ?_ ?_
      · intro y hy
        have := (hc.flip y x).mpr (h5 y hy); omega
      · intro y hy
        have := h6 y hy; omega

/-- `git_vector_insert_sorted`: the element is added to the (stably sorted) contents at a place that keeps them sorted; with a callback, an
element comparing equal gives the callback the say: it may replace the old element and refuse the new one. -/
theorem C49_insert_sorted {mem : Nat → Bool} {v : Vec α} {c : List α} (h : Holds v c) (cmp : α → α → Int) (hcmp : v.cmp = some cmp) (hc : Sort.Spec.TotalPreorder cmp)
    (hf : Flagged v c) (x : α) (onDup : Option (α → α → Int × α)) :
    (∃ r v' c1 c', insertSorted mem v x onDup = .ok (r, v') ∧ Holds v' c' ∧ Sort.Spec.StableSort cmp c c1 ∧ v'.sorted = true ∧ v'.cmp = some cmp ∧
      ((r = 0 ∧ (onDup = none ∨ ∀ y ∈ c, cmp x y ≠ 0) ∧ Sort.Spec.Sorted cmp c' ∧ ∃ l m, c1 = l ++ m ∧ c' = l ++ x :: m) ∨
       (∃ f l y m, onDup = some f ∧ c1 = l ++ y :: m ∧ cmp x y = 0 ∧
         ((r = (f y x).1 ∧ r < 0 ∧ c' = l ++ (f y x).2 :: m) ∨ (r = 0 ∧ 0 ≤ (f y x).1 ∧ c' = l ++ x :: (f y x).2 :: m))))) ∨
    (∃ c1, insertSorted mem v x onDup = .err (-1) ∧ c1 = c.length ∧ v.slots.length = c.length ∧ Oom mem (computeNewSize c1)) ∨
    (2 ^ 47 < c.length ∧ insertSorted mem v x onDup = .err Sort.STACK_OVERFLOW) := by
  unfold insertSorted
  rw [hcmp]
  simp only
  rcases C49_sort h cmp hcmp hc hf with ⟨v1, c1, h1, h2, h3, h4, h5⟩ | ⟨h64, h1⟩
  rotate_left
  · exact .inr (.inr ⟨h64, by rw [h1]; rfl⟩)
  rw [h1]
  simp only [Res.bind_ok]
  have hlen := h3.stable.perm.length_eq
  rcases grow_ok (mem := mem) h2 with ⟨v2, g1, g2, g3, g4, g5⟩ | ⟨g1, g2, g3⟩
  rotate_left
  · refine .inr (.inl ⟨c.length, by rw [g1]; rfl, rfl, ?_, hlen ▸ g3⟩)
    have : v1.slots.length = v.slots.length := by
      unfold sort at h1
      split at h1
      · cases h1; rfl
      · rw [hcmp] at h1
        simp only [h.length] at h1
        obtain ⟨j, hv, _⟩ := h.split
        have hj := h.junk
        rw [hj] at h1
        simp only [List.take_left, List.drop_left] at h1
        have : ∀ out : List α, out.length = c.length → (out ++ v.slots.drop c.length).length = v.slots.length := by
          intro out ho
          rw [List.length_append, ho, ← List.length_append, ← hj]
        split at h1
        · rcases Sort.C26_sorts_any hc c with ⟨out, ho, hs⟩ | ⟨_, ho⟩
          · rw [ho] at h1
            cases h1
            exact this _ hs.stable.perm.length_eq
          · rw [ho] at h1; cases h1
        · cases h1
          exact this _ rfl
    omega
  rw [g1]
  simp only [Res.bind_ok]
  rw [g2.length, g2.slots]
  obtain ⟨found, pos, b1, b2, b3, b4, b5⟩ := bsearch_sorted hc h3.sorted x
  rw [b1]
  simp only [Res.bind_ok]
  obtain ⟨j, hv, hsz⟩ := g2.split
  have hj : j ≠ [] := by
    rintro rfl
    have : v2.slots.length = c1.length := by rw [hv]; simp
    omega
  have hsl : v2.slots = c1 ++ j := by rw [hv]
  left
  have memiff : ∀ y, y ∈ c1 ↔ y ∈ c := fun y => h3.stable.perm.mem_iff
  have ins : onDup = none ∨ found = false → _ := fun (_ : onDup = none ∨ found = false) => insert_at (cmp := v2.cmp) (so := v2.sorted) hsz hj b2 x
  have done : (onDup = none ∨ ∀ y ∈ c, cmp x y ≠ 0) → (onDup = none ∨ found = false) →
      ∃ r v' c1' c', ((if pos < c1.length then memmove v2.slots (pos + 1) pos (c1.length - pos) else Res.ok v2.slots) >>= fun s =>
        wr s pos x >>= fun s => Res.ok ((0 : Int), { v2 with slots := s, length := c1.length + 1 })) = .ok (r, v') ∧ Holds v' c' ∧ Sort.Spec.StableSort cmp c c1' ∧ v'.sorted = true ∧ v'.cmp = some cmp ∧
      ((r = 0 ∧ (onDup = none ∨ ∀ y ∈ c, cmp x y ≠ 0) ∧ Sort.Spec.Sorted cmp c' ∧ ∃ l m, c1' = l ++ m ∧ c' = l ++ x :: m) ∨
       (∃ f l y m, onDup = some f ∧ c1' = l ++ y :: m ∧ cmp x y = 0 ∧
         ((r = (f y x).1 ∧ r < 0 ∧ c' = l ++ (f y x).2 :: m) ∨ (r = 0 ∧ 0 ≤ (f y x).1 ∧ c' = l ++ x :: (f y x).2 :: m)))) := by
    intro hd hd2
    obtain ⟨v', i1, i2, i3, i4⟩ := ins hd2
    refine ⟨0, v', c1, _, ?_, i2, h3, by rw [i4, g5, h4], by rw [i3, g4, h5], .inl ⟨rfl, hd, b3, c1.take pos, c1.drop pos, by simp, rfl⟩⟩
    rw [hsl]
    exact i1
  cases found with
  | false =>
    simp only [Bool.false_eq_true, if_false]
    have hno : ∀ y ∈ c, cmp x y ≠ 0 := by
      intro y hy h0
      have := b4.mpr ⟨y, (memiff y).mpr hy, h0⟩
      cases this
    exact done (.inr hno) (.inr rfl)
  | true =>
    simp only [if_true]
    cases onDup with
    | none => exact done (.inl rfl) (.inl rfl)
    | some f =>
      simp only
      obtain ⟨y, hy, h0⟩ := b5 rfl
      obtain ⟨hlt, rfl⟩ := List.getElem?_eq_some_iff.mp hy
      have hr : rd v2.slots pos = .ok c1[pos] := by
        rw [rd_ok (by omega)]
        simp only [hsl]
        rw [List.getElem_append_left hlt]
      rw [hr]
      simp only [Res.bind_ok]
      rw [wr_ok (by omega)]
      simp only [Res.bind_ok]
      have hsp : c1 = c1.take pos ++ c1[pos] :: c1.drop (pos + 1) := by simp
      have hset : c1.set pos (f c1[pos] x).2 = c1.take pos ++ (f c1[pos] x).2 :: c1.drop (pos + 1) := by
        rw [List.set_eq_take_append_cons_drop, if_pos hlt]
      have hset2 : v2.slots.set pos (f c1[pos] x).2 = c1.set pos (f c1[pos] x).2 ++ j := by rw [hsl, List.set_append_left _ _ hlt]
      by_cases hneg : (f c1[pos] x).1 < 0
      · rw [if_pos hneg]
        refine ⟨_, _, c1, c1.set pos (f c1[pos] x).2, rfl, ?_, h3, by rw [g5]; exact h4, by rw [g4]; exact h5, .inr ⟨f, _, _, _, rfl, hsp, h0, .inl ⟨rfl, hneg, hset⟩⟩⟩
        refine holds_of (j := j) ?_ hset2 ?_
        · simp [g2.length]
        · simp only [List.length_set]; exact g2.size
      · rw [if_neg hneg, hset2]
        have hsz' : (c1.set pos (f c1[pos] x).2 ++ j).length * PTR ≤ SIZE_MAX := by simpa using hsz
        obtain ⟨v', i1, i2, i3, i4⟩ := insert_at (cmp := v2.cmp) (so := v2.sorted) hsz' hj (pos := pos) (by simpa using b2) x
        simp only [List.length_set] at i1
        refine ⟨0, v', c1, _, i1, i2, h3, by rw [i4, g5, h4], by rw [i3, g4, h5], .inr ⟨f, c1.take pos, c1[pos], c1.drop (pos + 1), rfl, hsp, h0, .inr ⟨rfl, by omega, ?_⟩⟩⟩
        have ht : (c1.take pos).length = pos := by rw [List.length_take]; omega
        rw [hset, List.take_left' ht, List.drop_left' ht]

/-- `git_vector_bsearch2` finds an element exactly when there is one, in the sorted contents; otherwise it gives the insertion point. -/
theorem C49_bsearch {v : Vec α} {c : List α} (h : Holds v c) (cmp : α → α → Int) (hcmp : v.cmp = some cmp) (hc : Sort.Spec.TotalPreorder cmp) (hf : Flagged v c)
    (key : α → Int) (hk : ∀ a b, cmp a b ≤ 0 → (0 < key b → 0 < key a) ∧ (key a < 0 → key b < 0)) :
    (∃ found pos v' c', bsearch key v = .ok (found, pos, v') ∧ Holds v' c' ∧ Sort.Spec.StableSort cmp c c' ∧ v'.sorted = true ∧ v'.cmp = some cmp ∧
      (found = true ↔ ∃ x ∈ c, key x = 0) ∧ (found = true → ∃ x, c'[pos]? = some x ∧ key x = 0) ∧
      (found = false → pos ≤ c'.length ∧ (∀ x ∈ c'.take pos, 0 < key x) ∧ (∀ x ∈ c'.drop pos, key x < 0))) ∨
    (2 ^ 47 < c.length ∧ bsearch key v = .err Sort.STACK_OVERFLOW) := by
  unfold bsearch
  rw [hcmp]
  simp only
  rcases C49_sort h cmp hcmp hc hf with ⟨v1, c1, h1, h2, h3, h4, h5⟩ | ⟨h64, h1⟩
  · left
    rw [h1]
    simp only [Res.bind_ok]
    rw [h2.length, h2.slots]
    obtain ⟨found, pos, b1, b2, b3, b4⟩ := Sort.C26_bsearch key c1 (h3.sorted.imp (fun {a b} => hk a b))
    rw [b1]
    refine ⟨found, pos, v1, c1, rfl, h2, h3, h4, h5, ?_, b3, b4⟩
    rw [b2]
    constructor
    · rintro ⟨x, hx, h0⟩; exact ⟨x, h3.stable.perm.mem_iff.mp hx, h0⟩
    · rintro ⟨x, hx, h0⟩; exact ⟨x, h3.stable.perm.mem_iff.mpr hx, h0⟩
  · right
    rw [h1]
    exact ⟨h64, rfl⟩

/-- `git_vector_search2` finds the first matching element. -/
theorem C49_search {v : Vec α} {c : List α} (h : Holds v c) (key : α → Int) : search key v v.length 0 = .ok (c.findIdx? (fun e => key e = 0)) := by
  have gen : ∀ (fuel i : Nat), fuel + i = c.length → search key v fuel i = .ok (((c.drop i).findIdx? (fun e => key e = 0)).map (· + i)) := by
    intro fuel
    induction fuel with
    | zero => intro i hi; rw [List.drop_of_length_le (by omega)]; rfl
    | succ fuel ih =>
      intro i hi
      have hlt : i < c.length := by omega
      rw [search, if_pos (by rw [h.length]; exact hlt)]
      have hle := h.le
      have hr : rd v.slots i = .ok c[i] := by
        rw [rd_ok (by omega)]
        have := h.junk
        congr 1
        have hi2 : v.slots[i]? = c[i]? := by rw [this, List.getElem?_append_left hlt]
        rw [List.getElem?_eq_getElem (by omega), List.getElem?_eq_getElem hlt] at hi2
        exact Option.some.inj hi2
      rw [hr, List.drop_eq_getElem_cons hlt, List.findIdx?_cons]
      simp only [Res.bind_ok]
      by_cases hk : key c[i] = 0
      · rw [if_pos hk]; simp [hk]
      · rw [if_neg hk, ih (i + 1) (by omega)]
        simp only [hk, decide_false, Bool.false_eq_true, if_false, Option.map_map]
        congr 2
        funext n
        simp only [Function.comp]
        omega
  rw [h.length, gen c.length 0 (by omega), List.drop_zero]
  cases c.findIdx? (fun e => key e = 0) <;> rfl

/-- `git_vector_remove` removes the element at the index; an index outside is refused. -/
theorem C49_remove {v : Vec α} {c : List α} (h : Holds v c) (i : Nat) :
    (i < c.length → ∃ v', remove v i = .ok v' ∧ Holds v' (c.eraseIdx i) ∧ v'.cmp = v.cmp ∧ v'.sorted = v.sorted) ∧ (c.length ≤ i → remove v i = .err ENOTFOUND) := by
  obtain ⟨j, hv, hsz⟩ := h.split
  obtain ⟨s, l, cm, so⟩ := v
  simp only at hv
  cases hv
  unfold remove
  constructor
  · intro hi
    rw [if_neg (by simp only; omega)]
    have hel : (c.eraseIdx i).length = c.length - 1 := by rw [List.length_eraseIdx, if_pos hi]
    by_cases hz : c.length - i - 1 ≠ 0
    · rw [if_pos hz, memmove, if_pos (by simp only [List.length_append]; omega)]
      simp only [Res.bind_ok]
      refine ⟨_, rfl, ?_, rfl, rfl⟩
      have e1 : (c ++ j).take i = c.take i := List.take_append_of_le_length (by omega)
      have e2 : ((c ++ j).drop (i + 1)).take (c.length - i - 1) = c.drop (i + 1) := by
        rw [List.drop_append_of_le_length (by omega), List.take_left' (by rw [List.length_drop]; omega)]
      rw [e1, e2]
      refine holds_of (j := (c ++ j).drop (i + (c.length - i - 1))) ?_ ?_ ?_
      · simp only [hel]
      · simp only [List.eraseIdx_eq_take_drop_succ]
      · simp only [List.length_append, List.length_take, List.length_drop] at hsz ⊢
        have : min i c.length + (c.length - (i + 1)) + (c.length + j.length - (i + (c.length - i - 1))) = c.length + j.length := by omega
        rw [this]; exact hsz
    · rw [if_neg hz]
      simp only [Res.bind_ok]
      refine ⟨_, rfl, ?_, rfl, rfl⟩
      have hil : i = c.length - 1 := by omega
      refine holds_of (j := c.drop i ++ j) ?_ ?_ hsz
      · simp only [hel]
      · have : c.eraseIdx i = c.take i := by rw [List.eraseIdx_eq_take_drop_succ, List.drop_of_length_le (by omega), List.append_nil]
        simp only [this]
        rw [← List.append_assoc, List.take_append_drop]
  · intro hi
    rw [if_pos hi]

/-- `git_vector_pop` removes the last element. -/
theorem C49_pop {v : Vec α} {c : List α} (h : Holds v c) : Holds (pop v) c.dropLast ∧ (pop v).cmp = v.cmp ∧ (pop v).sorted = v.sorted := by
  unfold pop
  have hl := h.length
  by_cases h0 : v.length > 0
  · rw [if_pos h0]
    refine ⟨⟨by simp only [List.length_dropLast]; omega, ?_, h.size⟩, rfl, rfl⟩
    rw [h.junk, List.dropLast_eq_take, List.take_append_of_le_length (by simp), List.length_take, Nat.min_eq_left (by omega)]
  · rw [if_neg h0]
    have : c = [] := List.length_eq_zero_iff.mp (by omega)
    subst this
    exact ⟨h, rfl, rfl⟩

/-- `git_vector_clear` empties it. -/
theorem C49_clear {v : Vec α} {c : List α} (h : Holds v c) : Holds (clear v) [] := ⟨rfl, rfl, h.size⟩

/-- the list with runs of equal neighbours cut down to their last element -/
def keepLast (cmp : α → α → Int) : List α → List α
  | [] => []
  | [x] => [x]
  | x :: y :: r => if cmp x y = 0 then keepLast cmp (y :: r) else x :: keepLast cmp (y :: r)

theorem uniqLoop_ok (cmp : α → α → Int) (junk : List α) : ∀ (rest pre mid : List α) (cur : α),
    ∃ junk', uniqLoop cmp (pre.length + 1 + mid.length + rest.length) rest.length pre.length (pre.length + 1 + mid.length) (pre ++ cur :: (mid ++ rest ++ junk)) =
      .ok (pre ++ keepLast cmp (cur :: rest) ++ junk', pre.length + (keepLast cmp (cur :: rest)).length - 1) ∧
      (pre ++ keepLast cmp (cur :: rest) ++ junk').length = (pre ++ cur :: (mid ++ rest ++ junk)).length ∧ 0 < (keepLast cmp (cur :: rest)).length := by
  intro rest
  induction rest with
  | nil =>
    intro pre mid cur
    refine ⟨mid ++ junk, ?_, ?_, by simp [keepLast]⟩
    · simp [uniqLoop, keepLast]
    · simp [keepLast]
  | cons y rest ih =>
    intro pre mid cur
    rw [List.length_cons, uniqLoop, if_pos (by omega), rd_ok (by simp)]
    have e1 : (pre ++ cur :: (mid ++ y :: rest ++ junk))[pre.length]'(by simp) = cur := by simp
    rw [e1]
    simp only [Res.bind_ok]
    have e2 : rd (pre ++ cur :: (mid ++ y :: rest ++ junk)) (pre.length + 1 + mid.length) = .ok y := by
      have : pre ++ cur :: (mid ++ y :: rest ++ junk) = (pre ++ cur :: mid) ++ y :: (rest ++ junk) := by simp
      rw [this, rd, show pre.length + 1 + mid.length = (pre ++ cur :: mid).length by simp; omega, List.getElem?_append_right (Nat.le_refl _)]
      simp
    rw [e2]
    simp only [Res.bind_ok]
    by_cases hk : cmp cur y = 0
    · rw [if_pos hk, wr_ok (by simp)]
      simp only [Res.bind_ok]
      have e3 : (pre ++ cur :: (mid ++ y :: rest ++ junk)).set pre.length y = pre ++ y :: ((mid ++ [y]) ++ rest ++ junk) := by simp
      rw [e3]
      obtain ⟨junk', h1, h2, h3⟩ := ih pre (mid ++ [y]) y
      simp only [List.length_append, List.length_singleton] at h1
      rw [show pre.length + 1 + mid.length + (rest.length + 1) = pre.length + 1 + (mid.length + 1) + rest.length by omega,
        show pre.length + 1 + mid.length + 1 = pre.length + 1 + (mid.length + 1) by omega, h1]
      simp only [keepLast, hk, if_true]
      exact ⟨junk', rfl, by rw [h2]; simp, h3⟩
    · rw [if_neg hk, wr_ok (by simp <;> omega)]
      simp only [Res.bind_ok]
      have key : ∃ mid', (pre ++ cur :: (mid ++ y :: rest ++ junk)).set (pre.length + 1) y = (pre ++ [cur]) ++ y :: (mid' ++ rest ++ junk) ∧ mid'.length = mid.length := by
        cases mid with
        | nil => exact ⟨[], by simp, rfl⟩
        | cons m mid => exact ⟨mid ++ [y], by simp [List.set_append], by simp⟩
      obtain ⟨mid', hk1, hk2⟩ := key
      rw [hk1]
      obtain ⟨junk', h1, h2, h3⟩ := ih (pre ++ [cur]) mid' y
      simp only [List.length_append, List.length_singleton, hk2] at h1
      rw [show pre.length + 1 + mid.length + (rest.length + 1) = pre.length + 1 + 1 + mid.length + rest.length by omega,
        show pre.length + 1 + mid.length + 1 = pre.length + 1 + 1 + mid.length by omega, h1]
      simp only [keepLast, hk, if_false]
      refine ⟨junk', ?_, ?_, by simp⟩
      · simp only [List.append_assoc, List.singleton_append, List.cons_append, List.length_cons]
        congr 2
        omega
      · have := h2
        simp only [List.length_append, List.length_cons, hk2] at this ⊢
        omega

theorem keepLast_spec {cmp : α → α → Int} (hc : Sort.Spec.TotalPreorder cmp) : ∀ (c : List α), Sort.Spec.Sorted cmp c →
    (keepLast cmp c).Sublist c ∧ (keepLast cmp c).Pairwise (fun a b => cmp a b < 0) ∧ ∀ x ∈ c, ∃ y ∈ keepLast cmp c, cmp x y = 0 := by
  have hrefl : ∀ a, cmp a a = 0 := by
    intro a; have := hc.flip a a; omega
  have hsym : ∀ a b, cmp a b = 0 → cmp b a = 0 := by
    intro a b h; have := hc.flip a b; have := hc.flip b a; omega
  have htr : ∀ a b d, cmp a b = 0 → cmp b d = 0 → cmp a d = 0 := by
    intro a b d h1 h2
    have e1 := hc.trans a b d (by omega) (by omega)
    have e2 := hc.trans d b a (by have := hsym _ _ h2; omega) (by have := hsym _ _ h1; omega)
    have := hc.flip a d
    omega
  intro c
  induction c with
  | nil => intro _; exact ⟨.slnil, .nil, by simp⟩
  | cons x c ih =>
    cases c with
    | nil => intro _; exact ⟨List.Sublist.refl _, List.pairwise_singleton .., fun z hz => ⟨z, hz, hrefl z⟩⟩
    | cons y r =>
      intro hs
      obtain ⟨hx, hr⟩ := List.pairwise_cons.mp hs
      obtain ⟨i1, i2, i3⟩ := ih hr
      rw [keepLast]
      by_cases hk : cmp x y = 0
      · rw [if_pos hk]
        refine ⟨i1.cons x, i2, ?_⟩
        intro z hz
        rcases List.mem_cons.mp hz with rfl | hz
        · obtain ⟨w, hw, h0⟩ := i3 y List.mem_cons_self
          exact ⟨w, hw, htr _ _ _ hk h0⟩
        · exact i3 z hz
      · rw [if_neg hk]
        refine ⟨i1.cons₂ x, List.pairwise_cons.mpr ⟨?_, i2⟩, ?_⟩
        · intro z hz
          have hz' := i1.subset hz
          have h1 := hx z hz'
          rcases Int.lt_or_eq_of_le h1 with h | h
          · exact h
          · exfalso
            have hyz : cmp y z ≤ 0 := by
              rcases List.mem_cons.mp hz' with rfl | hz'
              · have := hrefl z; omega
              · exact (List.pairwise_cons.mp hr).1 z hz'
            have h3 := hc.trans y z x hyz (by have := hsym _ _ h; omega)
            have h4 := hx y List.mem_cons_self
            have := hc.flip x y
            omega
        · intro z hz
          rcases List.mem_cons.mp hz with rfl | hz
          · exact ⟨z, List.mem_cons_self, hrefl z⟩
          · obtain ⟨w, hw, h0⟩ := i3 z hz
            exact ⟨w, List.mem_cons_of_mem _ hw, h0⟩

/-- `git_vector_uniq`: the result is strictly increasing, consists of elements of the sorted contents in their order, and every element
that was there has one left that compares equal to it. -/
theorem C49_uniq {v : Vec α} {c : List α} (h : Holds v c) (cmp strict : α → α → Int) (hcmp : v.cmp = some cmp) (hc : Sort.Spec.TotalPreorder cmp) (hf : Flagged v c) :
    (∃ v' c1 c', uniq strict v = .ok v' ∧ Holds v' c' ∧ Sort.Spec.StableSort cmp c c1 ∧ c'.Sublist c1 ∧ c'.Pairwise (fun a b => cmp a b < 0) ∧
      (∀ x ∈ c, ∃ y ∈ c', cmp x y = 0)) ∨
    (2 ^ 47 < c.length ∧ uniq strict v = .err Sort.STACK_OVERFLOW) := by
  have hrefl : ∀ a, cmp a a = 0 := by
    intro a; have := hc.flip a a; omega
  unfold uniq
  by_cases hl : v.length ≤ 1
  · rw [if_pos hl]
    left
    rw [h.length] at hl
    match c, hl with
    | [], _ => exact ⟨v, [], [], rfl, h, ⟨.nil, .refl _, fun _ => rfl⟩, .slnil, .nil, by simp⟩
    | [x], _ => exact ⟨v, [x], [x], rfl, h, ⟨List.pairwise_singleton .., .refl _, fun _ => rfl⟩, .refl _, List.pairwise_singleton .., fun z hz => ⟨z, hz, hrefl z⟩⟩
    | _ :: _ :: _, hl => simp at hl
  · rw [if_neg hl]
    rw [h.length] at hl
    rcases C49_sort h cmp hcmp hc hf with ⟨v1, c1, h1, h2, h3, h4, h5⟩ | ⟨h64, h1⟩
    · left
      rw [h1]
      simp only [Res.bind_ok]
      have hlen := h3.stable.perm.length_eq
      obtain ⟨j, hv, hsz⟩ := h2.split
      obtain ⟨s, l, cm, so⟩ := v1
      simp only at hv h5
      cases hv
      subst h5
      simp only [Option.getD_some]
      cases c1 with
      | nil => simp only [List.length_nil] at hlen; omega
      | cons x rest =>
        have hfuel : ∀ (n i j0 : Nat) (s : List α), n ≤ j0 → uniqLoop cmp n 1 i j0 s = .ok (s, i) := by
          intro n i j0 s hn
          rw [uniqLoop, if_neg (by omega)]
        obtain ⟨junk', u1, u2, u3⟩ := uniqLoop_ok cmp j rest [] [] x
        -- the loop has one more step of fuel than it needs
        have mono : ∀ (fuel n i j0 : Nat) (s : List α) (r : List α × Nat), n - j0 ≤ fuel → uniqLoop cmp n fuel i j0 s = .ok r → uniqLoop cmp n (fuel + 1) i j0 s = .ok r := by
          intro fuel
          induction fuel with
          | zero =>
            intro n i j0 s r hn hr
            rw [hfuel n i j0 s (by omega)]
            exact hr
          | succ fuel ih =>
            intro n i j0 s r hn hr
            rw [uniqLoop] at hr ⊢
            by_cases hj : j0 < n
            · rw [if_pos hj] at hr ⊢
              cases ha : rd s i with
              | ok a =>
                rw [ha] at hr
                simp only [Res.bind_ok] at hr ⊢
                cases hb : rd s j0 with
                | ok b =>
                  rw [hb] at hr
                  simp only [Res.bind_ok] at hr ⊢
                  by_cases hk : cmp a b = 0
                  · rw [if_pos hk] at hr ⊢
                    cases hw : wr s i b with
                    | ok s' => rw [hw] at hr; exact ih n _ _ s' r (by omega) hr
                    | err e => rw [hw] at hr; cases hr
                    | ub => rw [hw] at hr; cases hr
                  · rw [if_neg hk] at hr ⊢
                    cases hw : wr s (i + 1) b with
                    | ok s' => rw [hw] at hr; exact ih n _ _ s' r (by omega) hr
                    | err e => rw [hw] at hr; cases hr
                    | ub => rw [hw] at hr; cases hr
                | err e => rw [hb] at hr; cases hr
                | ub => rw [hb] at hr; cases hr
              | err e => rw [ha] at hr; cases hr
              | ub => rw [ha] at hr; cases hr
            · rw [if_neg hj] at hr ⊢; exact hr
        simp only [List.length_nil, List.nil_append, Nat.zero_add, Nat.add_zero] at u1 u2
        have u1' := mono _ _ _ _ _ _ (by omega) u1
        rw [show (x :: rest).length = 1 + rest.length by simp; omega, show uniqLoop cmp (1 + rest.length) (1 + rest.length) = uniqLoop cmp (1 + rest.length) (rest.length + 1) by rw [Nat.add_comm],
          show x :: rest ++ j = x :: (rest ++ j) from rfl, u1']
        simp only [Res.bind_ok]
        obtain ⟨k1, k2, k3⟩ := keepLast_spec hc _ h3.sorted
        refine ⟨_, x :: rest, keepLast cmp (x :: rest), rfl, ?_, h3, k1, k2, fun z hz => k3 z (h3.stable.perm.mem_iff.mpr hz)⟩
        refine holds_of (j := junk') ?_ rfl ?_
        · have hle := k1.length_le
          simp only [List.length_cons] at hle ⊢
          omega
        · have : (keepLast cmp (x :: rest) ++ junk').length = (x :: rest ++ j).length := by rw [u2]; simp
          simp only [this]; exact hsz
    · right
      rw [h1]
      exact ⟨h64, rfl⟩

theorem matchLoop_ok (m : α → Bool) (junk : List α) : ∀ (rest pre mid : List α),
    ∃ junk', matchLoop m (pre.length + mid.length + rest.length) rest.length pre.length (pre.length + mid.length) (pre ++ (mid ++ rest ++ junk)) =
      .ok (pre ++ rest.filter (fun x => !m x) ++ junk', pre.length + (rest.filter (fun x => !m x)).length) ∧
      (pre ++ rest.filter (fun x => !m x) ++ junk').length = (pre ++ (mid ++ rest ++ junk)).length := by
  intro rest
  induction rest with
  | nil => intro pre mid; exact ⟨mid ++ junk, by simp [matchLoop], by simp⟩
  | cons y rest ih =>
    intro pre mid
    rw [List.length_cons, matchLoop, if_pos (by omega)]
    have e2 : rd (pre ++ (mid ++ y :: rest ++ junk)) (pre.length + mid.length) = .ok y := by
      have : pre ++ (mid ++ y :: rest ++ junk) = (pre ++ mid) ++ y :: (rest ++ junk) := by simp
      rw [this, rd, show pre.length + mid.length = (pre ++ mid).length by simp, List.getElem?_append_right (Nat.le_refl _)]
      simp
    rw [e2]
    simp only [Res.bind_ok]
    rw [wr_ok (by simp <;> omega)]
    simp only [Res.bind_ok]
    have key : ∃ mid', (pre ++ (mid ++ y :: rest ++ junk)).set pre.length y = pre ++ y :: (mid' ++ rest ++ junk) ∧ mid'.length = mid.length := by
      cases mid with
      | nil => exact ⟨[], by simp, rfl⟩
      | cons m mid => exact ⟨mid ++ [y], by simp [List.set_append], by simp⟩
    obtain ⟨mid', hk1, hk2⟩ := key
    rw [hk1]
    have e3 : rd (pre ++ y :: (mid' ++ rest ++ junk)) pre.length = .ok y := by rw [rd_ok (by simp)]; simp
    rw [e3]
    simp only [Res.bind_ok]
    cases hm : m y with
    | true =>
      simp only [if_true]
      obtain ⟨junk', h1, h2⟩ := ih pre (y :: mid')
      simp only [List.length_cons, hk2] at h1
      rw [show pre.length + mid.length + (rest.length + 1) = pre.length + (mid.length + 1) + rest.length by omega,
        show pre.length + mid.length + 1 = pre.length + (mid.length + 1) by omega]
      rw [show pre ++ y :: (mid' ++ rest ++ junk) = pre ++ (y :: mid' ++ rest ++ junk) from by simp, h1]
      simp only [List.filter_cons, hm, Bool.not_true, Bool.false_eq_true, if_false]
      refine ⟨junk', rfl, ?_⟩
      rw [h2]
      simp [hk2]; omega
    | false =>
      simp only [Bool.false_eq_true, if_false]
      obtain ⟨junk', h1, h2⟩ := ih (pre ++ [y]) mid'
      simp only [List.length_append, List.length_singleton, hk2] at h1
      rw [show pre.length + mid.length + (rest.length + 1) = pre.length + 1 + mid.length + rest.length by omega,
        show pre.length + mid.length + 1 = pre.length + 1 + mid.length by omega]
      rw [show pre ++ y :: (mid' ++ rest ++ junk) = pre ++ [y] ++ (mid' ++ rest ++ junk) from by simp, h1]
      simp only [List.filter_cons, hm, Bool.not_false, if_true]
      refine ⟨junk', ?_, ?_⟩
      · simp only [List.append_assoc, List.singleton_append, List.cons_append, List.length_cons]
        congr 2
        omega
      · simp only [List.length_append, List.length_cons, hk2] at h2 ⊢
        omega

/-- `git_vector_remove_matching` keeps exactly the elements that do not match, in order. -/
theorem C49_remove_matching {v : Vec α} {c : List α} (h : Holds v c) (m : α → Bool) :
    ∃ v', removeMatching m v = .ok v' ∧ Holds v' (c.filter (fun x => !m x)) ∧ v'.cmp = v.cmp ∧ v'.sorted = v.sorted := by
  obtain ⟨j, hv, hsz⟩ := h.split
  obtain ⟨s, l, cm, so⟩ := v
  simp only at hv
  cases hv
  obtain ⟨junk', h1, h2⟩ := matchLoop_ok m j c [] []
  simp only [List.length_nil, List.nil_append, Nat.zero_add, Nat.add_zero] at h1 h2
  unfold removeMatching
  rw [h1]
  refine ⟨_, rfl, ?_, rfl, rfl⟩
  exact holds_of (j := junk') rfl rfl (by simp only [h2]; exact hsz)

/-- `git_vector_resize_to` cuts the contents or fills them with NULLs. -/
theorem C49_resize_to {mem : Nat → Bool} {v : Vec α} {c : List α} (h : Holds v c) (n : Nat) :
    (∃ v', resizeTo mem v n = .ok v' ∧ Holds v' (c.take n ++ List.replicate (n - c.length) null) ∧ v'.cmp = v.cmp ∧ v'.sorted = v.sorted) ∨
    (resizeTo mem v n = .err (-1) ∧ v.slots.length < n ∧ Oom mem n) := by
  unfold resizeTo
  have first : (∃ v1, (if n > v.slots.length then resize mem v n else .ok v) = .ok v1 ∧ Holds v1 c ∧ n ≤ v1.slots.length ∧ v1.cmp = v.cmp ∧ v1.sorted = v.sorted) ∨
      ((if n > v.slots.length then resize mem v n else .ok v) = .err (-1) ∧ v.slots.length < n ∧ Oom mem n) := by
    by_cases hg : n > v.slots.length
    · rw [if_pos hg]
      rcases resize_ok (mem := mem) h (n := n) (by omega) (by omega) with ⟨v1, h1, h2, h3, h4, h5⟩ | ⟨h1, h2⟩
      · exact .inl ⟨v1, h1, h2, by omega, h4, h5⟩
      · exact .inr ⟨h1, hg, h2⟩
    · rw [if_neg hg]
      exact .inl ⟨v, rfl, h, by omega, rfl, rfl⟩
  rcases first with ⟨v1, h1, h2, h3, h4, h5⟩ | ⟨h1, h2⟩
  · left
    rw [h1]
    simp only [Res.bind_ok]
    obtain ⟨j, hv, hsz⟩ := h2.split
    obtain ⟨s, l, cm, so⟩ := v1
    simp only at hv h3 h4 h5
    cases hv
    simp only [List.length_append] at h3
    by_cases hl : n > c.length
    · simp only
      rw [if_pos hl, memset, if_pos (by simp only [List.length_append]; omega)]
      simp only [Res.bind_ok]
      refine ⟨_, rfl, ?_, h4, h5⟩
      rw [List.take_left]
      refine holds_of (j := (c ++ j).drop (c.length + (n - c.length))) ?_ ?_ ?_
      · simp only [List.length_append, List.length_take, List.length_replicate]; omega
      · simp only [List.take_of_length_le (show c.length ≤ n by omega)]
      · simp only [List.length_append, List.length_replicate, List.length_drop] at hsz ⊢
        have : c.length + (n - c.length) + (c.length + j.length - (c.length + (n - c.length))) = c.length + j.length := by omega
        rw [this]; exact hsz
    · simp only
      rw [if_neg hl]
      simp only [Res.bind_ok]
      refine ⟨_, rfl, ?_, h4, h5⟩
      refine holds_of (j := c.drop n ++ j) ?_ ?_ hsz
      · simp only [List.length_append, List.length_take, List.length_replicate]; omega
      · simp only [show n - c.length = 0 by omega, List.replicate_zero, List.append_nil]
        rw [← List.append_assoc, List.take_append_drop]
  · right
    rw [h1]
    exact ⟨rfl, h2⟩

/-- `git_vector_insert_null` opens a gap of NULLs. -/
theorem C49_insert_null {mem : Nat → Bool} {v : Vec α} {c : List α} (h : Holds v c) (i n : Nat) :
    (n = 0 ∨ c.length < i → insertNull mem v i n = .err (-1)) ∧
    (0 < n → i ≤ c.length →
      (∃ v', insertNull mem v i n = .ok v' ∧ Holds v' (c.take i ++ List.replicate n null ++ c.drop i)) ∨
      (insertNull mem v i n = .err (-1) ∧ (c.length + n > SIZE_MAX ∨ (v.slots.length < c.length + n ∧ Oom mem (c.length + n))))) := by
  unfold insertNull
  rw [h.length]
  constructor
  · intro hc
    rw [if_pos (by omega)]
  · intro hn hi
    rw [if_neg (by omega)]
    by_cases ho : c.length + n > SIZE_MAX
    · rw [if_pos ho]; exact .inr ⟨rfl, .inl ho⟩
    rw [if_neg ho]
    have first : (∃ v1, (if c.length + n > v.slots.length then resize mem v (c.length + n) else .ok v) = .ok v1 ∧ Holds v1 c ∧ c.length + n ≤ v1.slots.length) ∨
        ((if c.length + n > v.slots.length then resize mem v (c.length + n) else .ok v) = .err (-1) ∧ v.slots.length < c.length + n ∧ Oom mem (c.length + n)) := by
      by_cases hg : c.length + n > v.slots.length
      · rw [if_pos hg]
        rcases resize_ok (mem := mem) h (n := c.length + n) (by omega) (by omega) with ⟨v1, h1, h2, h3, h4, h5⟩ | ⟨h1, h2⟩
        · exact .inl ⟨v1, h1, h2, by omega⟩
        · exact .inr ⟨h1, hg, h2⟩
      · rw [if_neg hg]
        exact .inl ⟨v, rfl, h, by omega⟩
    rcases first with ⟨v1, h1, h2, h3⟩ | ⟨h1, h2⟩
    · left
      rw [h1]
      simp only [Res.bind_ok]
      obtain ⟨j, hv, hsz⟩ := h2.split
      obtain ⟨s, l, cm, so⟩ := v1
      simp only at hv h3
      cases hv
      simp only [List.length_append] at h3
      rw [memmove, if_pos (by simp only [List.length_append]; omega)]
      simp only [Res.bind_ok]
      have e2 : ((c ++ j).drop i).take (c.length - i) = c.drop i := by
        rw [List.drop_append_of_le_length hi, List.take_left' (by rw [List.length_drop])]
      rw [e2]
      have hl1 : ((c ++ j).take (i + n)).length = i + n := by rw [List.length_take, List.length_append]; omega
      rw [memset, if_pos (by simp only [List.length_append, hl1, List.length_drop]; omega)]
      simp only [Res.bind_ok]
      refine ⟨_, rfl, ?_⟩
      have e3 : ((c ++ j).take (i + n) ++ c.drop i ++ (c ++ j).drop (i + n + (c.length - i))).take i = c.take i := by
        rw [List.append_assoc, List.take_append_of_le_length (by omega), List.take_take, Nat.min_eq_left (by omega), List.take_append_of_le_length hi]
      have e4 : ((c ++ j).take (i + n) ++ c.drop i ++ (c ++ j).drop (i + n + (c.length - i))).drop (i + n) = c.drop i ++ (c ++ j).drop (i + n + (c.length - i)) := by
        rw [List.append_assoc, List.drop_left' hl1]
      rw [e3, e4]
      refine holds_of (j := (c ++ j).drop (i + n + (c.length - i))) ?_ ?_ ?_
      · simp only [List.length_append, List.length_take, List.length_drop, List.length_replicate]; omega
      · simp only [List.append_assoc]
      · simp only [List.length_append, List.length_take, List.length_drop, List.length_replicate] at hsz ⊢
        have : min i c.length + n + (c.length - i + (c.length + j.length - (i + n + (c.length - i)))) = c.length + j.length := by omega
        rw [this]; exact hsz
    · right
      rw [h1]
      exact ⟨rfl, .inr h2⟩

/-- `git_vector_remove_range` removes a range; one that is not inside is refused. -/
theorem C49_remove_range {v : Vec α} {c : List α} (h : Holds v c) (i n : Nat) :
    (n = 0 ∨ c.length < i + n → removeRange v i n = .err (-1)) ∧
    (0 < n → i + n ≤ c.length → ∃ v', removeRange v i n = .ok v' ∧ Holds v' (c.take i ++ c.drop (i + n))) := by
  obtain ⟨j, hv, hsz⟩ := h.split
  obtain ⟨s, l, cm, so⟩ := v
  simp only at hv
  cases hv
  unfold removeRange
  have hP : PTR = 8 := rfl
  constructor
  · intro hc
    by_cases h0 : n > 0
    · rw [if_neg (by omega)]
      by_cases ho : i + n > SIZE_MAX
      · rw [if_pos ho]
      · rw [if_neg ho, if_pos (by simp only; omega)]
    · rw [if_pos h0]
  · intro hn hi
    rw [if_neg (by omega), if_neg (by simp only [List.length_append, hP] at hsz; omega), if_neg (by simp only; omega)]
    have first : ∃ s, (if i + n < c.length then memmove (c ++ j) i (i + n) (c.length - (i + n)) else .ok (c ++ j)) = .ok s ∧
        s.take (c.length - n) = c.take i ++ c.drop (i + n) ∧ s.length = (c ++ j).length := by
      by_cases hlt : i + n < c.length
      · rw [if_pos hlt, memmove, if_pos (by simp only [List.length_append]; omega)]
        refine ⟨_, rfl, ?_, ?_⟩
        · have e2 : ((c ++ j).drop (i + n)).take (c.length - (i + n)) = c.drop (i + n) := by
            rw [List.drop_append_of_le_length hi, List.take_left' (by rw [List.length_drop])]
          rw [e2, List.take_left' (by simp only [List.length_append, List.length_take, List.length_drop]; omega), List.take_append_of_le_length (by omega)]
        · simp only [List.length_append, List.length_take, List.length_drop]; omega
      · rw [if_neg hlt]
        refine ⟨_, rfl, ?_, rfl⟩
        rw [List.take_append_of_le_length (by omega), List.drop_of_length_le (by omega), List.append_nil]
        congr 1; omega
    obtain ⟨s, f1, f2, f3⟩ := first
    simp only
    rw [f1]
    simp only [Res.bind_ok]
    rw [memset, if_pos (by rw [f3]; simp only [List.length_append]; omega)]
    simp only [Res.bind_ok]
    refine ⟨_, rfl, ?_⟩
    rw [f2]
    refine holds_of (j := List.replicate n null ++ s.drop (c.length - n + n)) ?_ ?_ ?_
    · simp only [List.length_append, List.length_take, List.length_drop]; omega
    · simp only [List.append_assoc]
    · simp only [List.length_append] at hsz f3
      simp only [List.length_append, List.length_take, List.length_drop, List.length_replicate, f3]
      have : min i c.length + (c.length - (i + n)) + n + (c.length + j.length - (c.length - n + n)) = c.length + j.length := by omega
      rw [this]; exact hsz

/-- `git_vector_set` writes at any position the size type can count, filling the gap with NULLs, and gives back what was there. -/
theorem C49_set {mem : Nat → Bool} {v : Vec α} {c : List α} (h : Holds v c) (i : Nat) (x : α) (hi : i < SIZE_MAX) :
    (∃ v', set mem v i x = .ok (c[i]?.getD null, v') ∧ Holds v' ((c ++ List.replicate (i + 1 - c.length) null).set i x)) ∨
    (set mem v i x = .err (-1) ∧ v.slots.length < i + 1 ∧ Oom mem (i + 1)) := by
  unfold set
  have hS : SIZE_MAX = 2 ^ 64 - 1 := rfl
  rw [Nat.mod_eq_of_lt (by omega), h.length]
  have first : (∃ v1, (if i + 1 > c.length then resizeTo mem v (i + 1) else .ok v) = .ok v1 ∧ Holds v1 (c ++ List.replicate (i + 1 - c.length) null)) ∨
      ((if i + 1 > c.length then resizeTo mem v (i + 1) else .ok v) = .err (-1) ∧ v.slots.length < i + 1 ∧ Oom mem (i + 1)) := by
    by_cases hg : i + 1 > c.length
    · rw [if_pos hg]
      rcases C49_resize_to (mem := mem) h (i + 1) with ⟨v1, h1, h2, _⟩ | h1
      · rw [List.take_of_length_le (by omega)] at h2
        exact .inl ⟨v1, h1, h2⟩
      · exact .inr h1
    · rw [if_neg hg]
      exact .inl ⟨v, rfl, by rw [show i + 1 - c.length = 0 by omega, List.replicate_zero, List.append_nil]; exact h⟩
  rcases first with ⟨v1, h1, h2⟩ | ⟨h1, h2⟩
  · left
    rw [h1]
    simp only [Res.bind_ok]
    obtain ⟨j, hv, hsz⟩ := h2.split
    obtain ⟨s, l, cm, so⟩ := v1
    simp only at hv
    cases hv
    generalize hc' : c ++ List.replicate (i + 1 - c.length) null = c' at *
    have hil : i < c'.length := by rw [← hc', List.length_append, List.length_replicate]; omega
    have hlt : i < (c' ++ j).length := by rw [List.length_append]; omega
    have hr : rd (c' ++ j) i = .ok (c[i]?.getD null) := by
      rw [rd, List.getElem?_append_left hil, ← hc']
      rcases Nat.lt_or_ge i c.length with hic | hic
      · rw [List.getElem?_append_left hic, List.getElem?_eq_getElem hic]; rfl
      · rw [List.getElem?_append_right hic, List.getElem?_eq_none hic, List.getElem?_replicate, if_pos (by omega)]; rfl
    simp only
    rw [hr]
    simp only [Res.bind_ok]
    rw [wr_ok hlt]
    refine ⟨_, rfl, ?_⟩
    refine holds_of (j := j) ?_ ?_ ?_
    · simp only [List.length_set]
    · simp only; rw [List.set_append_left _ _ hil]
    · simp only [List.length_set]; exact hsz
  · right
    rw [h1]
    exact ⟨rfl, h2⟩

theorem reverseLoop_ok : ∀ (fuel : Nat) (pre mid post : List α), mid.length ≤ 2 * fuel + 1 → 0 < mid.length →
    reverseLoop fuel pre.length (pre.length + mid.length - 1) (pre ++ mid ++ post) = .ok (pre ++ mid.reverse ++ post) := by
  intro fuel
  induction fuel with
  | zero =>
    intro pre mid post h1 h2
    match mid, h1, h2 with
    | [x], _, _ => rfl
    | _ :: _ :: _, h1, _ => simp only [List.length_cons] at h1; omega
    | [], _, h2 => simp at h2
  | succ fuel ih =>
    intro pre mid post h1 h2
    rw [reverseLoop]
    match mid, h1, h2 with
    | [x], _, _ => rw [if_neg (by simp)]; rfl
    | x :: y0 :: mid0, h1, _ =>
      obtain ⟨mid', y, hm⟩ : ∃ mid' y, y0 :: mid0 = mid' ++ [y] := ⟨(y0 :: mid0).dropLast, (y0 :: mid0).getLast (by simp), (List.dropLast_concat_getLast (by simp)).symm⟩
      rw [hm] at h1 ⊢
      rw [if_pos (by simp only [List.length_cons, List.length_append]; omega)]
      have e1 : rd (pre ++ x :: (mid' ++ [y]) ++ post) pre.length = .ok x := by
        rw [rd, List.append_assoc, List.getElem?_append_right (Nat.le_refl _)]; simp
      have hb : pre.length + (x :: (mid' ++ [y])).length - 1 = (pre ++ x :: mid').length := by simp
      have e2 : rd (pre ++ x :: (mid' ++ [y]) ++ post) (pre ++ x :: mid').length = .ok y := by
        rw [show pre ++ x :: (mid' ++ [y]) ++ post = (pre ++ x :: mid') ++ y :: post by simp, rd, List.getElem?_append_right (Nat.le_refl _)]; simp
      rw [e1, hb, e2]
      simp only [Res.bind_ok]
      rw [wr_ok (by simp)]
      simp only [Res.bind_ok]
      have e3 : (pre ++ x :: (mid' ++ [y]) ++ post).set pre.length y = (pre ++ y :: mid') ++ y :: post := by
        rw [List.append_assoc, List.set_append_right _ _ (Nat.le_refl _)]; simp
      rw [e3, wr_ok (by simp)]
      simp only [Res.bind_ok]
      have e4 : ((pre ++ y :: mid') ++ y :: post).set (pre ++ x :: mid').length x = (pre ++ [y]) ++ mid' ++ (x :: post) := by
        rw [List.set_append_right _ _ (by simp)]; simp
      rw [e4]
      by_cases hm0 : mid'.length = 0
      · have : mid' = [] := List.length_eq_zero_iff.mp hm0
        subst this
        have stop : ∀ (f a b : Nat) (s : List α), b ≤ a → reverseLoop f a b s = .ok s := by
          intro f a b s hab
          cases f with
          | zero => rfl
          | succ f => rw [reverseLoop, if_neg (by omega)]
        rw [stop _ _ _ _ (by simp)]
        simp
      · have h3 := ih (pre ++ [y]) mid' (x :: post) (by simp only [List.length_cons, List.length_append, List.length_nil] at h1; omega) (by omega)
        have hl : (pre ++ x :: mid').length - 1 = (pre ++ [y]).length + mid'.length - 1 := by simp
        rw [hl, show pre.length + 1 = (pre ++ [y]).length by simp, h3]
        simp

/-- `git_vector_reverse` reverses. -/
theorem C49_reverse {v : Vec α} {c : List α} (h : Holds v c) : ∃ v', reverse v = .ok v' ∧ Holds v' c.reverse := by
  obtain ⟨j, hv, hsz⟩ := h.split
  obtain ⟨s, l, cm, so⟩ := v
  simp only at hv
  cases hv
  unfold reverse
  by_cases h0 : c.length = 0
  · rw [if_pos h0]
    have : c = [] := List.length_eq_zero_iff.mp h0
    subst this
    exact ⟨_, rfl, h⟩
  · rw [if_neg h0]
    have := reverseLoop_ok c.length [] c j (by omega) (by omega)
    simp only [List.length_nil, List.nil_append, Nat.zero_add] at this
    simp only
    rw [this]
    refine ⟨_, rfl, ?_⟩
    refine holds_of (j := j) ?_ rfl ?_
    · simp
    · simpa using hsz

/-! ## The order flag -/

/-- The operations that keep the promise of the order flag. -/
theorem C49_flag {mem : Nat → Bool} {v : Vec α} {c : List α} (h : Holds v c) (hf : Flagged v c) :
    (∀ x v', insert mem v x = .ok v' → Flagged v' (c ++ [x])) ∧ (∀ i v', remove v i = .ok v' → Flagged v' (c.eraseIdx i)) ∧
    Flagged (pop v) c.dropLast ∧ Flagged (clear v) [] ∧ (∀ m v', removeMatching m v = .ok v' → Flagged v' (c.filter (fun x => !m x))) := by
  refine ⟨?_, ?_, ?_, ?_, ?_⟩
  · intro x v' he
    have hlen : v'.sorted = decide (c.length + 1 ≤ 1) := by
      unfold insert at he
      rcases grow_ok (mem := mem) h with ⟨v1, h1, h2, h3, _⟩ | ⟨h1, _⟩
      · rw [h1] at he
        simp only [Res.bind_ok] at he
        rw [wr_ok (by have := h2.length; omega)] at he
        cases he
        simp [h2.length]
      · rw [h1] at he; cases he
    intro hs cmp _
    rw [hlen] at hs
    have : c = [] := List.length_eq_zero_iff.mp (by have := of_decide_eq_true hs; omega)
    subst this
    exact List.pairwise_singleton ..
  · intro i v' he
    rcases Nat.lt_or_ge i c.length with hi | hi
    · obtain ⟨v1, h1, _, h3, h4⟩ := (C49_remove h i).1 hi
      rw [h1] at he
      cases he
      intro hs cmp hcmp
      exact (hf (h4 ▸ hs) cmp (h3 ▸ hcmp)).sublist (List.eraseIdx_sublist c i)
    · rw [(C49_remove h i).2 hi] at he; cases he
  · obtain ⟨_, h2, h3⟩ := C49_pop h
    intro hs cmp hcmp
    exact (hf (h3 ▸ hs) cmp (h2 ▸ hcmp)).sublist (List.dropLast_sublist c)
  · intro _ _ _; exact .nil
  · intro m v' he
    obtain ⟨v1, h1, _, h3, h4⟩ := C49_remove_matching h m
    rw [h1] at he
    cases he
    intro hs cmp hcmp
    exact (hf (h4 ▸ hs) cmp (h3 ▸ hcmp)).sublist List.filter_sublist

/-- look at a result -/
def _root_.Verif.Res.map {β γ : Type} (f : β → γ) : Res β → Res γ
  | .ok x => .ok (f x)
  | .err e => .err e
  | .ub => .ub

/-! ## Concrete cases, and what the flag does not cover -/

def natCmp (a b : Nat) : Int := (a : Int) - b
theorem natCmp_ok : Sort.Spec.TotalPreorder natCmp := ⟨by intro a b; unfold natCmp; omega, by intro a b c; unfold natCmp; omega⟩

/-- 5 3 4 in a block of eight, not sorted -/
def v0 : Vec Nat := ⟨[5, 3, 4, 0, 0, 0, 0, 0], 3, some natCmp, false⟩
example : Holds v0 [5, 3, 4] ∧ Flagged v0 [5, 3, 4] := ⟨⟨rfl, rfl, by decide⟩, by intro h; cases h⟩
/-- 1 2 3, sorted -/
def v1 : Vec Nat := ⟨[1, 2, 3, 0, 0, 0, 0, 0], 3, some natCmp, true⟩
example : Holds v1 [1, 2, 3] ∧ Flagged v1 [1, 2, 3] := ⟨⟨rfl, rfl, by decide⟩, by intro _ cmp h; cases h; unfold Sort.Spec.Sorted natCmp; decide⟩
example : (insertSorted (fun _ => true) v1 2 none).map (fun r => (r.1, r.2.slots.take r.2.length)) = .ok (0, [1, 2, 2, 3]) := by decide +kernel
example : (uniq (fun _ _ => 0) ⟨[1, 1, 2, 2, 3], 5, some natCmp, true⟩).map (fun r => r.slots.take r.length) = .ok [1, 2, 3] := by decide +kernel
example : (set (fun _ => true) v1 9 7).map (fun r => r.2.slots.take r.2.length) = .ok [1, 2, 3, 0, 0, 0, 0, 0, 0, 7] := by decide +kernel
example : (set (fun _ => false) v1 9 7).map (fun r => r.1) = .err (-1) := by decide +kernel
example : (reverse v1).map (fun r => r.slots.take r.length) = .ok [3, 2, 1] := by decide +kernel

/-- The flag survives `git_vector_reverse`, `git_vector_set` and `git_vector_insert_null`, so a search in such a vector can miss an element that is
there, and an ordered insertion can leave it unordered: the caller has to reset the flag. -/
theorem C49_reverse_keeps_flag :
    ∃ v' , reverse v1 = .ok v' ∧ Holds v' [3, 2, 1] ∧ v'.sorted = true ∧ (bsearch (natCmp 3) v').map (·.1) = .ok false ∧
      (insertSorted (fun _ => true) v' 3 none).map (fun r => r.2.slots.take r.2.length) = .ok [3, 2, 1, 3] :=
  ⟨⟨[3, 2, 1, 0, 0, 0, 0, 0], 3, some natCmp, true⟩, rfl, ⟨rfl, rfl, by decide⟩, rfl, by decide +kernel, by decide +kernel⟩

/-- The largest position wraps around: nothing is grown and the write is outside the block. -/
theorem C49_set_wraps : (set (fun _ => true) v1 SIZE_MAX 7).map (·.1) = .ub := by
  have h : v1.slots[SIZE_MAX]? = none := List.getElem?_eq_none (by decide)
  unfold set
  rw [show (SIZE_MAX + 1) % 2 ^ 64 = 0 by decide +kernel, if_neg (by simp)]
  simp only [Res.bind_ok, rd, h]
  rfl

end Verif.Vec
