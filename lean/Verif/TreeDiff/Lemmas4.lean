import Verif.TreeDiff.Lemmas3
/-! # All that the iterator gives -/
namespace Verif.TreeDiff
open Spec B

/-! ## The options -/

theorem mem_insertPath {p q : Bytes} {l : List Bytes} : q ∈ insertPath p l ↔ q = p ∨ q ∈ l := by
  induction l with
  | nil => simp [insertPath]
  | cons r l ih =>
    unfold insertPath
    split
    · simp
    · simp only [List.mem_cons, ih]
      constructor
      · rintro (h | h | h)
        · exact Or.inr (Or.inl h)
        · exact Or.inl h
        · exact Or.inr (Or.inr h)
      · rintro (h | h | h)
        · exact Or.inr (Or.inl h)
        · exact Or.inl h
        · exact Or.inr (Or.inr h)

theorem mem_sortPaths {q : Bytes} {l : List Bytes} : q ∈ sortPaths l ↔ q ∈ l := by
  induction l with
  | nil => simp [sortPaths]
  | cons r l ih => rw [sortPaths, mem_insertPath, ih, List.mem_cons]

theorem insertPath_sorted {p : Bytes} {l : List Bytes} (h : l.Pairwise (· ≤ ·)) : (insertPath p l).Pairwise (· ≤ ·) := by
  induction l with
  | nil => simp [insertPath]
  | cons r l ih =>
    have h' := List.pairwise_cons.mp h
    unfold insertPath
    split
    · rename_i hle
      have hle := bcmp_le.mp hle
      refine List.pairwise_cons.mpr ⟨fun x hx => ?_, h⟩
      rcases List.mem_cons.mp hx with rfl | hx
      · exact hle
      · exact le_trans hle (h'.1 x hx)
    · rename_i hle
      refine List.pairwise_cons.mpr ⟨fun x hx => ?_, ih h'.2⟩
      rcases mem_insertPath.mp hx with rfl | hx
      · exact le_of_lt (not_le.mp (fun h => hle (bcmp_le.mpr h)))
      · exact h'.1 x hx

theorem sortPaths_sorted (l : List Bytes) : (sortPaths l).Pairwise (· ≤ ·) := by
  induction l with
  | nil => exact List.Pairwise.nil
  | cons r l ih => exact insertPath_sorted ih

theorem sortPaths_nil {l : List Bytes} : sortPaths l = [] ↔ l = [] := by
  constructor
  · intro h
    cases l with
    | nil => rfl
    | cons r l => have : r ∈ sortPaths (r :: l) := mem_sortPaths.mpr List.mem_cons_self; rw [h] at this; cases this
  · rintro rfl; rfl

theorem listed_sort {l : List Bytes} {p : Bytes} : Listed (sortPaths l) p ↔ Listed l p := by
  unfold Listed
  rw [sortPaths_nil]
  simp only [mem_sortPaths]

theorem goodOpts {o : Options} (h0 : ∀ q ∈ o.pathlist, (0 : UInt8) ∉ q) (hc : NoClash o.pathlist) : GoodOpts (initCommon o) where
  nul := fun q hq => h0 q (mem_sortPaths.mp hq)
  sorted := sortPaths_sorted _
  clash := fun q hq a1 a2 r hr => hc q (mem_sortPaths.mp hq) a1 a2 r (mem_sortPaths.mp hr)
  trees := fun h => by
    simp only [initCommon] at h ⊢
    cases hd : o.dontAutoexpand with
    | false => rw [hd] at h; cases h
    | true => simp

/-! ## The items -/

theorem inv_new {store : Store} {o : Opts} {tree : Option (List Entry)} (hg : ∀ es, tree = some es → Good store es) :
    ∃ L, Inv store o (newIter o tree) L ∧ L.Pairwise (fun a b => a.path < b.path) ∧
      (∀ x ∈ L, ∃ es q e, tree = some es ∧ At store es q e ∧ x = ⟨q, e.mode, e.id⟩ ∧ (o.autoexpand = false → e ∈ es ∧ q = key e) ∧ (e.isTree = true ↔ q.getLast? = some c!"/")) ∧
      (∀ es q e, tree = some es → At store es q e → (o.autoexpand = true ∨ (e ∈ es ∧ q = key e)) → (⟨q, e.mode, e.id⟩ : Item) ∈ L) := by
  cases tree with
  | none =>
    refine ⟨[], ⟨.nil, by simp [newIter], List.Pairwise.nil, by simp, by simp, by simp, by simp⟩, List.Pairwise.nil, by simp, ?_⟩
    intro es q e h; cases h
  | some es =>
    have hg := hg es rfl
    obtain ⟨L, hL⟩ := flat_exists (auto := o.autoexpand) hg []
    have hat : ∀ x ∈ L, ∃ q e, At store es q e ∧ x = ⟨q, e.mode, e.id⟩ ∧ (o.autoexpand = false → e ∈ es ∧ q = key e) := by
      intro x hx
      obtain ⟨f, hf, q, e, h1, h2, h3⟩ := flat_at hL x hx
      rw [List.mem_singleton] at hf
      subst hf
      exact ⟨q, e, h1, h2, h3⟩
    have hs := flat_sorted hL [] es rfl hg
    refine ⟨L, ⟨hL, ?_, hs, ?_, ?_, ?_, ?_⟩, hs, ?_, ?_⟩
    · intro f hf
      simp only [newIter, List.mem_singleton] at hf
      subst hf
      exact hg
    · intro x hx
      obtain ⟨q, e, h1, rfl, _⟩ := hat x hx
      have := at_path hg h1
      exact ⟨this.2.2.1, this.1, this.2.1⟩
    · intro h s hs
      simp [newIter, hs] at h
    · intro h; cases h
    · simp [newIter]
    · intro x hx
      obtain ⟨q, e, h1, h2, h3⟩ := hat x hx
      exact ⟨es, q, e, rfl, h1, h2, h3, (at_path hg h1).2.2.2.1⟩
    · intro es' q e h hat' hor
      cases h
      cases ha : o.autoexpand with
      | true =>
        rw [ha] at hL
        have := at_flat hL ⟨[], es⟩ List.mem_cons_self q e hat'
        simpa using this
      | false =>
        rw [ha] at hL hor
        rcases hor with h | ⟨h1, rfl⟩
        · cases h
        · have := at_shut hL ⟨[], es⟩ List.mem_cons_self e h1
          simpa [item] using this

theorem inv_access {store : Store} {o : Opts} {it : Iter} {L : List Item} (h : Inv store o it L) : Inv store o { it with accessed := true } L :=
  ⟨h.flat, h.good, h.sorted, h.path, h.st, h.en, h.walk⟩

/-- the items, with fuel that is enough whatever else needs some -/
inductive Stream (store : Store) (o : Opts) : Iter → List Item → Prop where
  | over {it it' : Iter} {N : Nat} : (∀ fuel, N ≤ fuel → advance store o fuel it = some (.ok (it', none))) → Stream store o it []
  | next {it it' : Iter} {N : Nat} {x : Item} {xs : List Item} : (∀ fuel, N ≤ fuel → advance store o fuel it = some (.ok (it', some x))) → Stream store o it' xs → Stream store o it (x :: xs)

theorem stream {store : Store} {o : Opts} (ho : GoodOpts o) : ∀ (n : Nat) (it : Iter) (L : List Item), L.length ≤ n → Inv store o it L → Stream store o it (wanted o L) := by
  intro n
  induction n with
  | zero =>
    intro it L hn hI
    rcases adv ho _ _ L (Nat.le_refl _) (inv_access hI) with ⟨N, it', h1, h2⟩ | ⟨N, it', x, L', h1, h2, h3, h4⟩
    · rw [h2]; exact .over h1
    · omega
  | succ n ih =>
    intro it L hn hI
    rcases adv ho _ _ L (Nat.le_refl _) (inv_access hI) with ⟨N, it', h1, h2⟩ | ⟨N, it', x, L', h1, h2, h3, h4⟩
    · rw [h2]; exact .over h1
    · rw [h2]; exact .next h1 (ih it' L' (by omega) h3)

theorem stream_yields {store : Store} {o : Opts} {it : Iter} {xs : List Item} (h : Stream store o it xs) : Yields store o it xs := by
  induction h with
  | over h => exact .over (h _ (Nat.le_refl _))
  | next h _ ih => exact .next (h _ (Nat.le_refl _)) ih

/-- more fuel makes no difference -/
theorem advanceLoop_mono {store : Store} {o : Opts} : ∀ (m n : Nat) (it : Iter) (r : Res (Iter × Option Item)), advanceLoop store o m it = some r → m ≤ n → advanceLoop store o n it = some r := by
  intro m
  induction m with
  | zero => intro n it r h; simp [advanceLoop] at h
  | succ m ih =>
    intro n it r h hle
    obtain ⟨k, rfl⟩ := Nat.exists_eq_succ_of_ne_zero (show n ≠ 0 by omega)
    unfold advanceLoop at h ⊢
    cases hs : step store o it with
    | more it1 => rw [hs] at h; exact ih k it1 r h (by omega)
    | item it1 x => rw [hs] at h; exact h
    | over it1 => rw [hs] at h; exact h
    | fail e => rw [hs] at h; exact h

/-- there is only one list of items -/
theorem yields_unique {store : Store} {o : Opts} {it : Iter} {xs ys : List Item} (h1 : Yields store o it xs) (h2 : Yields store o it ys) : xs = ys := by
  have agree : ∀ {it : Iter} {f g : Nat} {r s : Res (Iter × Option Item)}, advance store o f it = some r → advance store o g it = some s → r = s := by
    intro it f g r s hr hs
    rcases Nat.le_total f g with h | h
    · have := advanceLoop_mono f g _ _ hr h
      unfold advance at hs
      rw [this] at hs; cases hs; rfl
    · have := advanceLoop_mono g f _ _ hs h
      unfold advance at hr
      rw [this] at hr; cases hr; rfl
  induction h1 generalizing ys with
  | over h =>
    cases h2 with
    | over => rfl
    | next h' _ => have := agree h h'; cases this
  | next h _ ih =>
    cases h2 with
    | over h' => have := agree h h'; cases this
    | next h' h'' =>
      have := agree h h'
      cases this
      rw [ih h'']

/-! ## After the end -/

/-- a state in which there is nothing more -/
def Done (o : Opts) (it : Iter) : Prop := it.frames = [] ∨ (it.ended = true ∧ o.stop ≠ none)

theorem visit_over {store : Store} {o : Opts} {it it' : Iter} {p : Bytes} {e : Entry} (h : visit store o it p e = .over it') : Done o it' := by
  unfold visit at h
  simp only at h
  split at h
  · cases h
  · split at h
    · rename_i _ he
      cases h
      refine Or.inr ⟨he, ?_⟩
      intro hs
      simp only [hasEnded, hs] at he
      cases he
    · split at h
      · cases h
      · split at h
        · split at h
          · split at h <;> cases h
          · cases h
        · split at h
          · split at h <;> cases h
          · cases h

theorem over_done {store : Store} {o : Opts} : ∀ (n : Nat) {it it' : Iter}, advanceLoop store o n it = some (.ok (it', none)) → Done o it' := by
  intro n
  induction n with
  | zero => intro it it' h; simp [advanceLoop] at h
  | succ n ih =>
    intro it it' h
    unfold advanceLoop at h
    cases hs : step store o it with
    | more it1 => rw [hs] at h; exact ih h
    | item it1 x => rw [hs] at h; cases h
    | fail e => rw [hs] at h; cases h
    | over it1 =>
      rw [hs] at h
      cases h
      unfold step at hs
      split at hs
      · rename_i hf; cases hs; exact Or.inl hf
      · cases hs
      · exact visit_over hs

theorem done_over {store : Store} {o : Opts} : ∀ (k : Nat) (it : Iter), Done o it → (it.frames.map (fun f => f.entries.length + 1)).sum ≤ k →
    ∃ it', advanceLoop store o (k + 1) it = some (.ok (it', none)) := by
  intro k
  induction k with
  | zero =>
    intro it _ hk
    cases hf : it.frames with
    | cons f fs => rw [hf] at hk; simp at hk
    | nil => exact ⟨it, by simp [advanceLoop, step, hf]⟩
  | succ k ih =>
    intro it hd hk
    cases hf : it.frames with
    | nil => exact ⟨it, by simp [advanceLoop, step, hf]⟩
    | cons f fs =>
      obtain ⟨p, ents⟩ := f
      rw [hf] at hk
      simp only [List.map_cons, List.sum_cons] at hk
      have hd' : it.ended = true ∧ o.stop ≠ none := by
        rcases hd with h | h
        · rw [hf] at h; cases h
        · exact h
      cases ents with
      | nil =>
        obtain ⟨it', h⟩ := ih { it with frames := fs } (Or.inr hd') (by simp only at hk ⊢; simp only [List.length_nil] at hk; omega)
        exact ⟨it', by rw [advanceLoop]; simp only [step, hf]; exact h⟩
      | cons e es =>
        have hend : ∀ q, hasEnded o it.ended q = true := by
          intro q
          unfold hasEnded
          cases hs : o.stop with
          | none => exact absurd hs hd'.2
          | some s => simp [hd'.1]
        by_cases hst : (hasStarted o it.started (computePath p e)).1 = false
        · obtain ⟨it', h⟩ := ih { it with frames := ⟨p, es⟩ :: fs, started := (hasStarted o it.started (computePath p e)).2 } (Or.inr hd') (by
            simp only [List.map_cons, List.sum_cons, List.length_cons] at hk ⊢; omega)
          refine ⟨it', ?_⟩
          rw [advanceLoop]
          simp only [step, hf, visit, hst, if_true]
          exact h
        · refine ⟨{ it with frames := ⟨p, es⟩ :: fs, started := (hasStarted o it.started (computePath p e)).2, ended := true }, ?_⟩
          rw [advanceLoop]
          have hst' : (hasStarted o it.started (computePath p e)).1 = true := by simpa using hst
          simp [step, hf, visit, hst', hend]

end Verif.TreeDiff
