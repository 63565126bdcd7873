import Verif.Index.LemmasConflict
/-! Lemmas about removing a directory and recording a conflict. -/
namespace Verif.Index

theorem le_append (a b : Bytes) : a ≤ a ++ b := by
  apply bcmp_le.mp
  induction a with
  | nil => cases b <;> simp [bcmp]
  | cons x xs ih => simpa [bcmp, UInt8.lt_irrefl] using ih

theorem prefix_between {p a b : Bytes} (h1 : p ≤ a) (h2 : a ≤ b) (h3 : p <+: b) : p <+: a := by
  obtain ⟨t, rfl⟩ := h3
  replace h1 := bcmp_le.mpr h1
  replace h2 := bcmp_le.mpr h2
  induction p generalizing a with
  | nil => exact List.nil_prefix
  | cons x xs ih =>
    cases a with
    | nil => simp [bcmp] at h1
    | cons y ys =>
      simp only [bcmp, List.cons_append] at h1 h2
      have hxy : x = y := by
        apply UInt8.toNat_inj.mp
        simp only [UInt8.lt_iff_toNat_lt] at h1 h2
        by_cases hlt : x.toNat < y.toNat
        · rw [if_neg (by omega), if_pos hlt] at h2; omega
        · by_cases hgt : y.toNat < x.toNat
          · rw [if_neg hlt, if_pos hgt] at h1; omega
          · omega
      subst hxy
      simp only [UInt8.lt_irrefl, if_false] at h1 h2
      have := ih h1 h2
      rw [List.cons_prefix_cons]
      exact ⟨rfl, this⟩

theorem searchable_any {es : List Entry} (h : es.Pairwise (fun a b => entryCmp a b < 0)) (p : Bytes) : Sort.Spec.Searchable (entrySrch p none) es := by
  have : entrySrch p none = entrySrchPath p := by
    funext e
    rw [entrySrch_eq]
    unfold entrySrchPath
    by_cases h : bcmp p e.path = 0 <;> simp [h]
  rw [this]
  exact searchable_path h p

/-- the directory name with one slash at its end -/
def dirPrefix (dir : Bytes) : Bytes := if dir ≠ [] ∧ dir.getLast? ≠ some c!"/" then dir ++ b!"/" else dir

theorem removeDirectory_ok {st : St} (hi : Inv st) (dir : Bytes) (stage : Nat) (hne : ∀ x ∈ st.entries, x.path ≠ dirPrefix dir) :
    ∃ st', removeDirectory st dir stage = .ok st' ∧ Inv st' ∧
      st'.entries = st.entries.filter (fun e => ! (decide (dirPrefix dir <+: e.path) && decide (e.stage = stage))) := by
  unfold removeDirectory
  simp only
  rw [show (if dir ≠ [] ∧ dir.getLast? ≠ some c!"/" then dir ++ b!"/" else dir) = dirPrefix dir from rfl]
  generalize dirPrefix dir = pfx at *
  have hk : entrySrch pfx none = entrySrchPath pfx := by
    funext e
    rw [entrySrch_eq]
    unfold entrySrchPath
    by_cases h : bcmp pfx e.path = 0 <;> simp [h]
  unfold find
  obtain ⟨found, pos, h1, h2, h3, h4⟩ := Sort.C26_bsearch _ _ (searchable_any hi.sorted pfx)
  rw [h1]
  simp only
  rw [hk] at h2 h3 h4
  cases found with
  | true =>
    obtain ⟨x, hx, h0⟩ := h3 rfl
    exact absurd (bcmp_zero.mp h0).symm (hne x (List.mem_of_getElem? hx))
  | false =>
    obtain ⟨hp, hb, ha⟩ := h4 rfl
    obtain ⟨ents, m⟩ := st
    simp only at *
    have hsplit := List.take_append_drop pos ents
    have hl := split_at hp
    have hi' : Inv ⟨ents.take pos ++ ents.drop pos, m⟩ := by rw [hsplit]; exact hi
    obtain ⟨st', g1, g2, g3⟩ := removeDirLoop_ok pfx stage (ents.length + 1) (ents.take pos) (ents.drop pos) m hi' (by simp; omega)
    rw [hl, hsplit] at g1
    refine ⟨st', g1, g2, ?_⟩
    rw [g3, runSpec_filter, hsplit]
    · intro x hx
      have h5 := hb x hx
      unfold entrySrchPath at h5
      simp only [decide_eq_false_iff_not]
      rintro ⟨t, ht⟩
      have := bcmp_le.mpr (le_append pfx t)
      rw [ht] at this; omega
    · apply dropWhile_false (hi.sorted.sublist (List.drop_sublist pos ents))
      intro a hain b hbin hab hga
      simp only [decide_eq_false_iff_not] at hga ⊢
      intro hpb
      have h5 := ha a hain
      unfold entrySrchPath at h5
      exact hga (prefix_between (bcmp_le.mp (by omega)) (bcmp_le.mp (entryCmp_path hab)) hpb)

theorem removeDirectory_inv {st : St} (hi : Inv st) (dir : Bytes) (stage : Nat) :
    ∃ st', removeDirectory st dir stage = .ok st' ∧ Inv st' := by
  unfold removeDirectory
  simp only
  generalize (if dir ≠ [] ∧ dir.getLast? ≠ some c!"/" then dir ++ b!"/" else dir) = pfx
  unfold find
  obtain ⟨found, pos, h1, h2, h3, h4⟩ := Sort.C26_bsearch _ _ (searchable_any hi.sorted pfx)
  rw [h1]
  simp only
  have hp : pos ≤ st.entries.length := by
    cases found with
    | true =>
      obtain ⟨x, hx, -⟩ := h3 rfl
      exact Nat.le_of_lt (List.getElem?_eq_some_iff.mp hx).1
    | false => exact (h4 rfl).1
  obtain ⟨ents, m⟩ := st
  simp only at *
  have hsplit := List.take_append_drop pos ents
  have hl := split_at hp
  have hi' : Inv ⟨ents.take pos ++ ents.drop pos, m⟩ := by rw [hsplit]; exact hi
  obtain ⟨st', g1, g2, -⟩ := removeDirLoop_ok pfx stage (ents.length + 1) (ents.take pos) (ents.drop pos) m hi' (by simp; omega)
  rw [hl, hsplit] at g1
  exact ⟨st', g1, g2⟩

/-! ## Recording a conflict -/

theorem dropStage0_ok {st : St} (hi : Inv st) (es : List (Option Entry)) :
    ∃ st', dropStage0 st es = .ok (st', 0) ∧ Inv st' ∧
      ∀ x, x ∈ st'.entries ↔ x ∈ st.entries ∧ ¬ (x.stage = 0 ∧ ∃ e, some e ∈ es ∧ e.path = x.path) := by
  induction es generalizing st with
  | nil => exact ⟨st, rfl, hi, by simp⟩
  | cons o es ih =>
    cases o with
    | none =>
      rw [dropStage0]
      obtain ⟨st', h1, h2, h3⟩ := ih hi
      exact ⟨st', h1, h2, by simpa using h3⟩
    | some e =>
      rw [dropStage0]
      rcases remove_ok hi e.path 0 with ⟨r1, r2⟩ | ⟨st1, r1, r2, -, r4⟩
      · rw [r1]
        simp only [if_true]
        have hm : unmap st.emap e.path 0 = st.emap := by
          funext p s
          unfold unmap
          split
          · rename_i h
            rw [h.1, h.2]
            symm
            rw [emap_none hi]
            exact r2
          · rfl
        rw [hm]
        obtain ⟨st', h1, h2, h3⟩ := ih hi
        refine ⟨st', h1, h2, ?_⟩
        intro x
        rw [h3]
        constructor
        · rintro ⟨a, b⟩
          refine ⟨a, ?_⟩
          rintro ⟨c, y, hy, hyp⟩
          rcases List.mem_cons.mp hy with hy | hy
          · cases hy
            exact r2 x a ⟨hyp.symm, c⟩
          · exact b ⟨c, y, hy, hyp⟩
        · rintro ⟨a, b⟩
          refine ⟨a, ?_⟩
          rintro ⟨c, y, hy, hyp⟩
          exact b ⟨c, y, by simp [hy], hyp⟩
      · rw [r1]
        simp only
        obtain ⟨st', h1, h2, h3⟩ := ih r2
        refine ⟨st', h1, h2, ?_⟩
        intro x
        rw [h3, r4]
        constructor
        · rintro ⟨⟨a, a'⟩, b⟩
          refine ⟨a, ?_⟩
          rintro ⟨c, y, hy, hyp⟩
          rcases List.mem_cons.mp hy with hy | hy
          · cases hy
            exact a' ⟨hyp.symm, c⟩
          · exact b ⟨c, y, hy, hyp⟩
        · rintro ⟨a, b⟩
          refine ⟨⟨a, ?_⟩, ?_⟩
          · rintro ⟨h5, h6⟩
            exact b ⟨h6, e, by simp, h5.symm⟩
          · rintro ⟨c, y, hy, hyp⟩
            exact b ⟨c, y, by simp [hy], hyp⟩

/-- the entry as it is stored at a stage -/
def stored (e : Entry) (k : Nat) : Entry := { e with stage := k, mode := createMode e.mode }

/-- the object test of `index_insert` -/
def objOk (env : Env) (e : Entry) : Prop := createMode e.mode &&& 0o160000 = 0o160000 ∨ env.objectValid e.id (createMode e.mode) = true

/-- colliding with a path: one is a directory of the other -/
def Collide (p q : Bytes) : Prop := Under p q ∨ Under q p

theorem not_collide_self (p : Bytes) : ¬ Collide p p := by
  rintro (h | h) <;> exact not_under_self p h

theorem insert_mem (env : Env) {st : St} (hi : Inv st) (e : Entry) :
    (insert env st e true = .err (-1) ∧ ¬ objOk env e) ∨
    ∃ st', insert env st e true = .ok st' ∧ Inv st' ∧ objOk env e ∧
      stored e e.stage ∈ st'.entries ∧
      (∀ x ∈ st'.entries, x = stored e e.stage ∨ (x ∈ st.entries ∧ ¬ (x.path = e.path ∧ x.stage = e.stage))) ∧
      (∀ x ∈ st.entries, x ∈ st'.entries ∨ (x.stage = e.stage ∧ (x.path = e.path ∨ Collide e.path x.path))) ∧
      (Consistent st → ∀ x ∈ st'.entries, x.stage = e.stage → x.path ≠ [] → ¬ Under x.path e.path) := by
  rcases insert_ok env hi e with ⟨h1, h2, h3⟩ | ⟨st1, st', h1, h2, h3, h4, h5, h6⟩
  · left; refine ⟨h1, ?_⟩
    rintro (h | h)
    · exact h2 h
    · rw [h3] at h; cases h
  · right
    refine ⟨st', h1, h2, h3, (h6 _).mpr (.inl rfl), ?_, ?_, ?_⟩
    · intro x hx
      rcases (h6 x).mp hx with h | ⟨h, h'⟩
      · exact .inl h
      · exact .inr ⟨h4.sub x h, h'⟩
    · intro x hx
      rcases h4.keep x hx with h | ⟨h, h'⟩
      · by_cases hk : x.path = e.path ∧ x.stage = e.stage
        · exact .inr ⟨hk.2, .inl hk.1⟩
        · exact .inl ((h6 x).mpr (.inr ⟨h, hk⟩))
      · exact .inr ⟨h, .inr h'⟩
    · intro hc x hx hs hp
      rcases (h6 x).mp hx with h | ⟨h, -⟩
      · subst h; exact not_under_self _
      · exact h5 hc x h hs hp

theorem addStages_ok (env : Env) (es : List (Option Entry)) : ∀ (k : Nat) (st : St), Inv st →
    ∃ st' c, addStages env k st es = .ok (st', c) ∧ Inv st' ∧
      (c = 0 ↔ ∀ e, some e ∈ es → objOk env e) ∧
      (c = 0 → ∀ i e, es[i]? = some (some e) → stored e (k + i) ∈ st'.entries) ∧
      (∀ x ∈ st'.entries, (∃ i e, es[i]? = some (some e) ∧ x = stored e (k + i)) ∨ x ∈ st.entries) ∧
      (∀ x ∈ st.entries, x ∈ st'.entries ∨ ∃ i e, es[i]? = some (some e) ∧ x.stage = k + i ∧ (x.path = e.path ∨ Collide e.path x.path)) := by
  induction es with
  | nil =>
    intro k st hi
    exact ⟨st, 0, rfl, hi, by simp, by simp, fun x hx => .inr hx, fun x hx => .inl hx⟩
  | cons o es ih =>
    intro k st hi
    cases o with
    | none =>
      rw [addStages]
      obtain ⟨st', c, h1, h2, h3, h4, h5, h6⟩ := ih (k + 1) st hi
      refine ⟨st', c, h1, h2, by simpa using h3, ?_, ?_, ?_⟩
      · intro hc i e hie
        cases i with
        | zero => simp at hie
        | succ i => rw [List.getElem?_cons_succ] at hie; have := h4 hc i e hie; rwa [show k + (i + 1) = k + 1 + i by omega]
      · intro x hx
        rcases h5 x hx with ⟨i, e, h, h'⟩ | h
        · exact .inl ⟨i + 1, e, by simpa using h, by rw [h']; congr 1; omega⟩
        · exact .inr h
      · intro x hx
        rcases h6 x hx with h | ⟨i, e, h, h', h''⟩
        · exact .inl h
        · exact .inr ⟨i + 1, e, by simpa using h, by omega, h''⟩
    | some e =>
      rw [addStages]
      rcases insert_mem env hi { e with stage := k } with ⟨r1, r2⟩ | ⟨st1, r1, r2, r3, r4, r5, r6, -⟩
      · rw [r1]
        refine ⟨st, -1, rfl, hi, ?_, by intro h; omega, fun x hx => .inr hx, fun x hx => .inl hx⟩
        constructor
        · intro h; omega
        · intro h; exact absurd (h e (by simp)) r2
      · rw [r1]
        simp only
        obtain ⟨st', c, h1, h2, h3, h4, h5, h6⟩ := ih (k + 1) st1 r2
        refine ⟨st', c, h1, h2, ?_, ?_, ?_, ?_⟩
        · rw [h3]
          constructor
          · intro h y hy
            rcases List.mem_cons.mp hy with hy | hy
            · cases hy; exact r3
            · exact h y hy
          · intro h y hy; exact h y (by simp [hy])
        · intro hc i y hie
          cases i with
          | zero =>
            simp only [List.getElem?_cons_zero, Option.some.injEq] at hie
            subst hie
            rcases h6 _ r4 with h | ⟨i, e', -, h', -⟩
            · exact h
            · simp only [stored] at h'; omega
          | succ i =>
            rw [List.getElem?_cons_succ] at hie
            have := h4 hc i y hie
            rwa [show k + (i + 1) = k + 1 + i by omega]
        · intro x hx
          rcases h5 x hx with ⟨i, y, h, h'⟩ | h
          · exact .inl ⟨i + 1, y, by simpa using h, by rw [h']; congr 1; omega⟩
          · rcases r5 x h with h | h
            · exact .inl ⟨0, e, by simp, h⟩
            · exact .inr h.1
        · intro x hx
          rcases r6 x hx with h | ⟨h, h'⟩
          · rcases h6 x h with h | ⟨i, y, h, h', h''⟩
            · exact .inl h
            · exact .inr ⟨i + 1, y, by simpa using h, by omega, h''⟩
          · exact .inr ⟨0, e, by simp, by simpa using h, h'⟩

end Verif.Index
