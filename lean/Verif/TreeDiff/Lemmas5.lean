import Verif.TreeDiff.Lemmas4
/-! # The diff of two sequences of items -/
namespace Verif.TreeDiff
open Spec B

/-- the loop of the diff, on the lists of items -/
def diffMerge (d : Diff) (A B : List Item) (acc : List Delta) : List Delta :=
  match A, B with
  | [], [] => acc
  | o :: os, [] => diffMerge d os [] (unmatchedOld d o none acc)
  | [], n :: ns => diffMerge d [] ns (unmatchedNew d none n acc)
  | o :: os, n :: ns =>
    if bcmp o.path n.path < 0 then diffMerge d os (n :: ns) (unmatchedOld d o (some n) acc)
    else if 0 < bcmp o.path n.path then diffMerge d (o :: os) ns (unmatchedNew d (some o) n acc)
    else diffMerge d os ns (maybeModified d o n acc)
termination_by A.length + B.length

/-- the current item and the iterator behind it -/
inductive Pos (store : Store) (io : Opts) : Option Item → Iter → List Item → Prop where
  | none {it : Iter} : Pos store io none it []
  | some {x : Item} {it : Iter} {xs : List Item} : Stream store io it xs → Pos store io (some x) it (x :: xs)

theorem stream_pos {store : Store} {io : Opts} {it : Iter} {xs : List Item} (h : Stream store io it xs) :
    ∃ N it' x, (∀ fuel, N ≤ fuel → advance store io fuel it = Option.some (.ok (it', x))) ∧ Pos store io x it' xs := by
  cases h with
  | over h => exact ⟨_, _, _, h, .none⟩
  | next h h' => exact ⟨_, _, _, h, .some h'⟩

theorem diffLoop_eq {store : Store} {d : Diff} {io : Opts} : ∀ (n : Nat) (A B : List Item) (i : Info) (acc : List Delta), A.length + B.length ≤ n →
    Pos store io i.oitem i.oiter A → Pos store io i.nitem i.niter B → ∃ N, ∀ fuel, N ≤ fuel → diffLoop store d io fuel i acc = some (.ok (diffMerge d A B acc)) := by
  intro n
  induction n with
  | zero =>
    intro A B i acc hn hA hB
    obtain ⟨oitem, oiter, nitem, niter⟩ := i
    cases hA with
    | some h => simp at hn
    | none =>
      cases hB with
      | some h => simp at hn
      | none =>
        refine ⟨1, fun fuel hf => ?_⟩
        obtain ⟨m, rfl⟩ := Nat.exists_eq_succ_of_ne_zero (show fuel ≠ 0 by omega)
        simp only [diffLoop]
        rw [diffMerge]
  | succ n ih =>
    intro A B i acc hn hA hB
    obtain ⟨oitem, oiter, nitem, niter⟩ := i
    simp only at hA hB
    cases hA with
    | none =>
      cases hB with
      | none =>
        refine ⟨1, fun fuel hf => ?_⟩
        obtain ⟨m, rfl⟩ := Nat.exists_eq_succ_of_ne_zero (show fuel ≠ 0 by omega)
        simp only [diffLoop]
        rw [diffMerge]
      | @some x _ xs h =>
        obtain ⟨N1, it', y, h1, h2⟩ := stream_pos h
        obtain ⟨N2, h3⟩ := ih [] xs ⟨none, oiter, y, it'⟩ (unmatchedNew d none x acc) (by simp at hn ⊢; omega) .none h2
        refine ⟨N1 + N2 + 1, fun fuel hf => ?_⟩
        obtain ⟨m, rfl⟩ := Nat.exists_eq_succ_of_ne_zero (show fuel ≠ 0 by omega)
        simp only [diffLoop, h1 m (by omega)]
        rw [h3 m (by omega)]
        simp only [diffMerge]
    | @some x _ xs h =>
      obtain ⟨N1, it', y, h1, h2⟩ := stream_pos h
      cases hB with
      | none =>
        obtain ⟨N2, h3⟩ := ih xs [] ⟨y, it', none, niter⟩ (unmatchedOld d x none acc) (by simp at hn ⊢; omega) h2 .none
        refine ⟨N1 + N2 + 1, fun fuel hf => ?_⟩
        obtain ⟨m, rfl⟩ := Nat.exists_eq_succ_of_ne_zero (show fuel ≠ 0 by omega)
        simp only [diffLoop, h1 m (by omega)]
        rw [h3 m (by omega)]
        simp only [diffMerge]
      | @some z _ zs h' =>
        obtain ⟨N1', jt', w, h1', h2'⟩ := stream_pos h'
        simp only [List.length_cons] at hn
        by_cases hlt : bcmp x.path z.path < 0
        · obtain ⟨N2, h3⟩ := ih xs (z :: zs) ⟨y, it', some z, niter⟩ (unmatchedOld d x (some z) acc) (by simp; omega) h2 (.some h')
          refine ⟨N1 + N2 + 1, fun fuel hf => ?_⟩
          obtain ⟨m, rfl⟩ := Nat.exists_eq_succ_of_ne_zero (show fuel ≠ 0 by omega)
          simp only [diffLoop, if_pos hlt, h1 m (by omega)]
          rw [h3 m (by omega), diffMerge, if_pos hlt]
        · by_cases hgt : 0 < bcmp x.path z.path
          · obtain ⟨N2, h3⟩ := ih (x :: xs) zs ⟨some x, oiter, w, jt'⟩ (unmatchedNew d (some x) z acc) (by simp; omega) (.some h) h2'
            refine ⟨N1' + N2 + 1, fun fuel hf => ?_⟩
            obtain ⟨m, rfl⟩ := Nat.exists_eq_succ_of_ne_zero (show fuel ≠ 0 by omega)
            simp only [diffLoop, if_neg hlt, if_pos hgt, h1' m (by omega)]
            rw [h3 m (by omega), diffMerge, if_neg hlt, if_pos hgt]
          · obtain ⟨N2, h3⟩ := ih xs zs ⟨y, it', w, jt'⟩ (maybeModified d x z acc) (by omega) h2 h2'
            refine ⟨N1 + N1' + N2 + 1, fun fuel hf => ?_⟩
            obtain ⟨m, rfl⟩ := Nat.exists_eq_succ_of_ne_zero (show fuel ≠ 0 by omega)
            simp only [diffLoop, if_neg hlt, if_neg hgt, h1 m (by omega), h1' m (by omega)]
            rw [h3 m (by omega), diffMerge, if_neg hlt, if_neg hgt]

theorem fromIterators_eq {store : Store} {o : DOptions} {io : Opts} {a b : Iter} {A B : List Item} (hA : Stream store io a A) (hB : Stream store io b B)
    (ha : a.accessed = false) (hb : b.accessed = false) :
    ∃ N, ∀ fuel, N ≤ fuel → fromIterators store o io fuel a b = some (.ok (diffMerge (applyOptions o) A B [])) := by
  obtain ⟨N1, it', x, h1, h2⟩ := stream_pos hA
  obtain ⟨N2, jt', y, h3, h4⟩ := stream_pos hB
  obtain ⟨N3, h5⟩ := diffLoop_eq (d := applyOptions o) _ A B ⟨x, it', y, jt'⟩ [] (Nat.le_refl _) h2 h4
  refine ⟨N1 + N2 + N3, fun fuel hf => ?_⟩
  simp only [fromIterators, current, ha, hb, if_true, h1 fuel (by omega), h3 fuel (by omega), h5 fuel (by omega)]

/-! ## The deltas -/

/-- the deltas of a pair of items -/
def one (d : Diff) : Option Item → Option Item → List Delta
  | none, none => []
  | some o, none => fromOne d .deleted o true []
  | none, some n => fromOne d .added n false []
  | some o, some n => maybeModified d o n []

theorem fromOne_acc (d : Diff) (s : Status) (x : Item) (b : Bool) (acc : List Delta) : fromOne d s x b acc = acc ++ fromOne d s x b [] := by
  unfold fromOne; split <;> simp

theorem fromTwo_acc (d : Diff) (s : Status) (x y : Item) (acc : List Delta) : fromTwo d s x y acc = acc ++ fromTwo d s x y [] := by
  unfold fromTwo; split <;> simp

theorem maybeModified_acc (d : Diff) (x y : Item) (acc : List Delta) : maybeModified d x y acc = acc ++ maybeModified d x y [] := by
  unfold maybeModified
  split
  · simp
  · split
    · split
      · rw [fromTwo_acc]
      · rw [fromOne_acc d .added, fromOne_acc d .deleted x true acc, fromOne_acc d .added y false (fromOne _ _ _ _ [])]
        simp
    · split
      · rw [fromTwo_acc]
      · split <;> rw [fromTwo_acc]

theorem fromOne_path {d : Diff} {s : Status} {x : Item} {b : Bool} : ∀ dl ∈ fromOne d s x b [], dl.path = x.path := by
  unfold fromOne
  split
  · simp
  · simp

theorem fromTwo_path {d : Diff} {s : Status} {x y : Item} : ∀ dl ∈ fromTwo d s x y [], dl.path = x.path := by
  unfold fromTwo
  split
  · simp
  · simp

theorem maybeModified_path {d : Diff} {x y : Item} (h : x.path = y.path) : ∀ dl ∈ maybeModified d x y [], dl.path = x.path := by
  unfold maybeModified
  split
  · simp
  · split
    · split
      · exact fromTwo_path
      · rw [fromOne_acc d .added]
        intro dl hdl
        rcases List.mem_append.mp hdl with h' | h'
        · exact fromOne_path dl h'
        · rw [fromOne_path dl h', h]
    · split
      · exact fromTwo_path
      · split <;> exact fromTwo_path

/-- without GIT_DIFF_INCLUDE_TYPECHANGE_TREES -/
theorem unmatched {d : Diff} (h : d.opts.includeTypechangeTrees = false) (x : Item) (y : Option Item) (acc : List Delta) :
    unmatchedOld d x y acc = acc ++ one d (some x) none ∧ unmatchedNew d y x acc = acc ++ one d none (some x) := by
  unfold unmatchedOld unmatchedNew
  simp only [h, Bool.false_eq_true, false_and, if_false]
  exact ⟨fromOne_acc _ _ _ _ _, fromOne_acc _ _ _ _ _⟩

/-- the item of a path -/
def lookup (L : List Item) (p : Bytes) : Option Item := L.find? (fun x => x.path = p)

theorem lookup_none {L : List Item} {p : Bytes} (h : ∀ x ∈ L, x.path ≠ p) : lookup L p = none := by
  unfold lookup
  rw [List.find?_eq_none]
  intro x hx; simp [h x hx]

theorem lookup_cons_eq {L : List Item} {x : Item} {p : Bytes} (h : x.path = p) : lookup (x :: L) p = some x := by
  unfold lookup
  rw [List.find?_cons_of_pos (by simp [h])]

theorem lookup_cons_ne {L : List Item} {x : Item} {p : Bytes} (h : x.path ≠ p) : lookup (x :: L) p = lookup L p := by
  unfold lookup
  rw [List.find?_cons_of_neg (by simp [h])]

theorem filter_all {p : Bytes} {l : List Delta} (h : ∀ dl ∈ l, dl.path = p) : l.filter (fun dl => dl.path = p) = l := by
  rw [List.filter_eq_self]; intro dl hdl; simp [h dl hdl]

theorem filter_none {p : Bytes} {l : List Delta} (h : ∀ dl ∈ l, dl.path ≠ p) : l.filter (fun dl => dl.path = p) = [] := by
  rw [List.filter_eq_nil_iff]; intro dl hdl; simp [h dl hdl]

/-- the paths of the two lists beyond a path -/
def Beyond (p : Bytes) (A : List Item) : Prop := ∀ x ∈ A, p < x.path

theorem diffMerge_spec {d : Diff} (h : d.opts.includeTypechangeTrees = false) : ∀ (n : Nat) (A B : List Item) (acc : List Delta), A.length + B.length ≤ n →
    A.Pairwise (fun a b => a.path < b.path) → B.Pairwise (fun a b => a.path < b.path) →
    ∃ D, diffMerge d A B acc = acc ++ D ∧ (∀ p, D.filter (fun dl => dl.path = p) = one d (lookup A p) (lookup B p)) ∧ D.Pairwise (fun a b => a.path ≤ b.path) ∧
      (∀ dl ∈ D, (∃ x ∈ A, dl.path = x.path) ∨ (∃ x ∈ B, dl.path = x.path)) := by
  intro n
  induction n with
  | zero =>
    intro A B acc hn _ _
    have hA : A = [] := by cases A with | nil => rfl | cons _ _ => simp at hn
    have hB : B = [] := by cases B with | nil => rfl | cons _ _ => simp at hn
    subst hA; subst hB
    exact ⟨[], by simp [diffMerge], by simp [lookup, one], List.Pairwise.nil, by simp⟩
  | succ n ih =>
    intro A B acc hn hA hB
    -- a step that is done with the path `q`
    have go : ∀ (A' B' : List Item) (q : Bytes) (l : List Delta) (acc' : List Delta), diffMerge d A B acc = diffMerge d A' B' acc' → acc' = acc ++ l → A'.length + B'.length ≤ n →
        (∀ dl ∈ l, dl.path = q) → (∀ x ∈ A', q < x.path) → (∀ x ∈ B', q < x.path) → one d (lookup A q) (lookup B q) = l →
        (∀ p, p ≠ q → lookup A p = lookup A' p ∧ lookup B p = lookup B' p) → A'.Pairwise (fun a b => a.path < b.path) → B'.Pairwise (fun a b => a.path < b.path) →
        (∀ x ∈ A', x ∈ A) → (∀ x ∈ B', x ∈ B) → ((∃ x ∈ A, q = x.path) ∨ (∃ x ∈ B, q = x.path)) →
        ∃ D, diffMerge d A B acc = acc ++ D ∧ (∀ p, D.filter (fun dl => dl.path = p) = one d (lookup A p) (lookup B p)) ∧ D.Pairwise (fun a b => a.path ≤ b.path) ∧
          (∀ dl ∈ D, (∃ x ∈ A, dl.path = x.path) ∨ (∃ x ∈ B, dl.path = x.path)) := by
      intro A' B' q l acc' e1 e2 hlen hl hbA hbB hone hlook sA sB mA mB hq
      obtain ⟨D, h1, h2, h3, h4⟩ := ih A' B' acc' hlen sA sB
      have hbD : ∀ dl ∈ D, q < dl.path := by
        intro dl hdl
        rcases h4 dl hdl with ⟨x, hx, e⟩ | ⟨x, hx, e⟩
        · rw [e]; exact hbA x hx
        · rw [e]; exact hbB x hx
      refine ⟨l ++ D, by rw [e1, h1, e2, List.append_assoc], ?_, ?_, ?_⟩
      · intro p
        rw [List.filter_append]
        by_cases hp : p = q
        · subst hp
          rw [filter_all hl, filter_none (fun dl hdl e => lt_irrefl (e ▸ hbD dl hdl)), List.append_nil, hone]
        · rw [filter_none (fun dl hdl e => hp (e.symm.trans (hl dl hdl))), List.nil_append, h2, (hlook p hp).1, (hlook p hp).2]
      · refine List.pairwise_append.mpr ⟨?_, h3, ?_⟩
        · exact List.Pairwise.imp_of_mem (R := fun _ _ => True) (fun {a b} ha hb _ => by rw [hl a ha, hl b hb]; exact le_rfl) (List.pairwise_of_forall (fun _ _ => trivial))
        · intro a ha b hb
          rw [hl a ha]
          exact le_of_lt (hbD b hb)
      · intro dl hdl
        rcases List.mem_append.mp hdl with h' | h'
        · rw [hl dl h']; exact hq
        · rcases h4 dl h' with ⟨x, hx, e⟩ | ⟨x, hx, e⟩
          · exact Or.inl ⟨x, mA x hx, e⟩
          · exact Or.inr ⟨x, mB x hx, e⟩
    cases A with
    | nil =>
      cases B with
      | nil => exact ⟨[], by simp [diffMerge], by simp [lookup, one], List.Pairwise.nil, by simp⟩
      | cons y ys =>
        have hB' := List.pairwise_cons.mp hB
        refine go [] ys y.path (one d none (some y)) (unmatchedNew d none y acc) (by rw [diffMerge]) (unmatched h y none acc).2 (by simp at hn ⊢; omega) fromOne_path (by simp) hB'.1 ?_ ?_
          List.Pairwise.nil hB'.2 (by simp) (fun x hx => List.mem_cons_of_mem _ hx) (Or.inr ⟨y, List.mem_cons_self, rfl⟩)
        · rw [lookup_cons_eq rfl]; rfl
        · intro p hp; rw [lookup_cons_ne (Ne.symm hp)]; exact ⟨rfl, rfl⟩
    | cons x xs =>
      have hA' := List.pairwise_cons.mp hA
      cases B with
      | nil =>
        refine go xs [] x.path (one d (some x) none) (unmatchedOld d x none acc) (by rw [diffMerge]) (unmatched h x none acc).1 (by simp at hn ⊢; omega) fromOne_path hA'.1 (by simp) ?_ ?_
          hA'.2 List.Pairwise.nil (fun x hx => List.mem_cons_of_mem _ hx) (by simp) (Or.inl ⟨x, List.mem_cons_self, rfl⟩)
        · rw [lookup_cons_eq rfl]; rfl
        · intro p hp; rw [lookup_cons_ne (Ne.symm hp)]; exact ⟨rfl, rfl⟩
      | cons y ys =>
        have hB' := List.pairwise_cons.mp hB
        simp only [List.length_cons] at hn
        by_cases hlt : bcmp x.path y.path < 0
        · have hlt' := bcmp_lt.mp hlt
          have hyb : ∀ z ∈ y :: ys, x.path < z.path := by
            intro z hz
            rcases List.mem_cons.mp hz with rfl | hz
            · exact hlt'
            · exact lt_trans hlt' (hB'.1 z hz)
          refine go xs (y :: ys) x.path (one d (some x) none) (unmatchedOld d x (some y) acc) (by rw [diffMerge, if_pos hlt]) (unmatched h x (some y) acc).1 (by simp; omega) fromOne_path hA'.1
            hyb ?_ ?_ hA'.2 hB (fun x hx => List.mem_cons_of_mem _ hx) (fun x hx => hx) (Or.inl ⟨x, List.mem_cons_self, rfl⟩)
          · rw [lookup_cons_eq rfl, lookup_none (fun z hz e => lt_irrefl (e ▸ hyb z hz))]
          · intro p hp; rw [lookup_cons_ne (Ne.symm hp)]; exact ⟨rfl, rfl⟩
        · by_cases hgt : 0 < bcmp x.path y.path
          · have hgt' : y.path < x.path := bcmp_lt.mp (by rw [bcmp_neg]; omega)
            have hxb : ∀ z ∈ x :: xs, y.path < z.path := by
              intro z hz
              rcases List.mem_cons.mp hz with rfl | hz
              · exact hgt'
              · exact lt_trans hgt' (hA'.1 z hz)
            refine go (x :: xs) ys y.path (one d none (some y)) (unmatchedNew d (some x) y acc) (by rw [diffMerge, if_neg hlt, if_pos hgt]) (unmatched h y (some x) acc).2 (by simp; omega)
              fromOne_path hxb hB'.1 ?_ ?_ hA hB'.2 (fun x hx => hx) (fun x hx => List.mem_cons_of_mem _ hx) (Or.inr ⟨y, List.mem_cons_self, rfl⟩)
            · rw [lookup_cons_eq (L := ys) rfl, lookup_none (fun z hz e => lt_irrefl (e ▸ hxb z hz))]
            · intro p hp; rw [lookup_cons_ne (L := ys) (Ne.symm hp)]; exact ⟨rfl, rfl⟩
          · have he : x.path = y.path := bcmp_zero.mp (by omega)
            refine go xs ys x.path (one d (some x) (some y)) (maybeModified d x y acc) (by rw [diffMerge, if_neg hlt, if_neg hgt]) (maybeModified_acc _ _ _ _) (by omega)
              (maybeModified_path he) hA'.1 (by rw [he]; exact hB'.1) ?_ ?_ hA'.2 hB'.2 (fun x hx => List.mem_cons_of_mem _ hx) (fun x hx => List.mem_cons_of_mem _ hx)
              (Or.inl ⟨x, List.mem_cons_self, rfl⟩)
            · rw [lookup_cons_eq rfl, lookup_cons_eq he.symm]
            · intro p hp; rw [lookup_cons_ne (Ne.symm hp), lookup_cons_ne (by rw [← he]; exact Ne.symm hp)]; exact ⟨rfl, rfl⟩

end Verif.TreeDiff
