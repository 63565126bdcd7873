import Verif.Merge.Lemmas
/-! # The list of differences and the directory/file marks -/
namespace Verif.Merge
open Verif.Index Spec Verif.Index.Spec

theorem detectDf_staged (l : DiffList) (c : Diff) (s : List Entry) : detectDf { l with staged := s } c = { detectDf l c with staged := s } := by
  unfold detectDf
  cases l with
  | mk st cs df =>
    cases df with
    | some d => simp only; split <;> rfl
    | none =>
      cases cs with
      | nil => rfl
      | cons x xs => simp only; split <;> rfl

theorem fold_staged (cs : List Diff) : ∀ (l : DiffList) (s : List Entry), cs.foldl detectDf { l with staged := s } = { cs.foldl detectDf l with staged := s } := by
  induction cs with
  | nil => intro l s; rfl
  | cons c cs ih => intro l s; rw [List.foldl_cons, List.foldl_cons, detectDf_staged, ih]

theorem fold_keeps (cs : List Diff) : ∀ (l : DiffList), (cs.foldl detectDf l).staged = l.staged := by
  intro l
  have := fold_staged cs l l.staged
  rw [this]

/-- the three items of the walk at a path -/
def items (a o t : List Entry) (p : Bytes) : List (Option Entry) := [entryAt a p, entryAt o p, entryAt t p]

/-- the difference at a path -/
def diffAt (a o t : List Entry) (p : Bytes) : Diff := fromEntries (entryAt a p) (entryAt o p) (entryAt t p)

def modAt (a o t : List Entry) (p : Bytes) : Bool := isModified (entryAt a p) (entryAt o p) (entryAt t p)

theorem fold_queue (a o t : List Entry) (ps : List Bytes) : ∀ l : DiffList, (ps.map (items a o t)).foldl queueDifference l =
    { ((ps.filter (modAt a o t)).map (diffAt a o t)).foldl detectDf l with
      staged := l.staged ++ (ps.filter (fun p => ! modAt a o t p)).map (fun p => (entryAt a p).getD zeroEntry) } := by
  induction ps with
  | nil => intro l; simp
  | cons p ps ih =>
    intro l
    rw [List.map_cons, List.foldl_cons, ih]
    have hq : queueDifference l (items a o t p) = if modAt a o t p then detectDf l (diffAt a o t p) else
        { l with staged := l.staged ++ [(entryAt a p).getD zeroEntry] } := rfl
    rw [hq]
    by_cases hm : modAt a o t p = true
    · rw [if_pos hm, List.filter_cons_of_pos hm, List.filter_cons_of_neg (by simp [hm]), List.map_cons, List.foldl_cons]
      have : (detectDf l (diffAt a o t p)).staged = l.staged := fold_keeps [diffAt a o t p] l
      rw [this]
    · rw [if_neg hm, List.filter_cons_of_neg hm, List.filter_cons_of_pos (by simp [hm]), fold_staged]
      simp

theorem findDifferences_eq {a o t : List Entry} (ha : IsTree a) (ho : IsTree o) (ht : IsTree t) :
    ∃ ps : List Bytes, ps.Pairwise (fun a b => a < b) ∧
      (∀ p, p ∈ ps ↔ (entryAt a p).isSome ∨ (entryAt o p).isSome ∨ (entryAt t p).isSome) ∧
      findDifferences a o t = { ((ps.filter (modAt a o t)).map (diffAt a o t)).foldl detectDf ⟨[], [], none⟩ with
        staged := (ps.filter (fun p => ! modAt a o t p)).map (fun p => (entryAt a p).getD zeroEntry) } := by
  obtain ⟨ps, h1, h2, h3⟩ := walk_ok [a, o, t] (by
    intro l hl
    simp only [List.mem_cons, List.not_mem_nil, or_false] at hl
    rcases hl with rfl | rfl | rfl
    · exact flat_of_tree ha
    · exact flat_of_tree ho
    · exact flat_of_tree ht)
  have hsome : ∀ (l : List Entry) (p : Bytes), (entryAt l p).isSome = true ↔ ∃ e ∈ l, e.path = p := by
    intro l p
    rw [entryAt, List.find?_isSome]
    simp
  refine ⟨ps, h1, ?_, ?_⟩
  · intro p
    rw [h2, hsome, hsome, hsome]
    simp
  · unfold findDifferences
    rw [h3]
    have : (ps.map (fun p => [a, o, t].map (fun l => entryAt l p))) = ps.map (items a o t) := rfl
    rw [this, fold_queue]
    simp

/-! ## Marks -/

/-- the test that marks a difference, given the one after it -/
def adj (c n : Diff) : Bool := anyAddedOrModified c && anyAddedOrModified n && pathIsPrefixed (diffPath c) (diffPath n)

def strip (c : Diff) : Diff × Bool := ({ c with kind := .none }, decide (c.kind = .directoryFile))

/-- the marks of a reversed list of differences -/
def flags : Option Diff → List Diff → List (Diff × Bool)
  | _, [] => []
  | next, c :: rest => ({ c with kind := .none }, match next with | none => false | some n => adj c n) :: flags (some c) rest

theorem adj_kind (c n : Diff) (k k' : Kind) : adj { c with kind := k } { n with kind := k' } = adj c n := rfl

theorem pathIsPrefixed_iff {p q : Bytes} : pathIsPrefixed p q = true ↔ Under p q := by
  rw [under_iff_take]
  unfold pathIsPrefixed
  constructor
  · intro h
    split at h
    · cases h
    · rename_i hn
      have h1 : charAt q p.length = c!"/" := by simpa using h
      have h2 : p = q.take p.length := by
        by_contra hc
        exact hn (.inr (fun h0 => hc (bcmp_zero.mp h0)))
      refine ⟨?_, h2.symm, h1⟩
      by_contra hc
      unfold charAt at h1
      rw [List.getElem?_eq_none (by omega)] at h1
      simp at h1
  · rintro ⟨h1, h2, h3⟩
    rw [if_neg]
    · simpa using h3
    · rintro (h | h)
      · omega
      · exact h (bcmp_zero.mpr h2.symm)

theorem under_trans {p q r : Bytes} (h1 : Under p q) (h2 : Under q r) : Under p r := by
  obtain ⟨x, rfl⟩ := h1
  obtain ⟨y, rfl⟩ := h2
  exact ⟨x ++ c!"/" :: y, by simp⟩

/-- the marks set by the fold, for a list of differences whose sides come from two consistent sets of paths -/
theorem fold_marks (InO InT : Bytes → Prop) (hO : ∀ p q, InO p → InO q → ¬ Under p q) (hT : ∀ p q, InT p → InT q → ¬ Under p q)
    (cs : List Diff) (hside : ∀ c ∈ cs, anyAddedOrModified c = true → InO (diffPath c) ∨ InT (diffPath c)) (hk : ∀ c ∈ cs, c.kind ≠ .directoryFile) :
    ∀ (pre : List Diff) (l : DiffList), (∀ c ∈ pre, anyAddedOrModified c = true → InO (diffPath c) ∨ InT (diffPath c)) →
      l.conflicts.map strip = flags none pre →
      (∀ d, l.dfPath = some d → ∃ prev rest dc, pre = prev :: rest ∧ anyAddedOrModified dc = true ∧ diffPath dc = d ∧ (InO d ∨ InT d) ∧ Under d (diffPath prev)) →
      (cs.foldl detectDf l).conflicts.map strip = flags none (cs.reverse ++ pre) := by
  induction cs with
  | nil => intro pre l _ h _; simpa using h
  | cons c cs ih =>
    intro pre l hpre hc hdf
    rw [List.foldl_cons, List.reverse_cons, List.append_assoc]
    have hck : c.kind ≠ .directoryFile := hk c List.mem_cons_self
    have hpre' : ∀ x ∈ c :: pre, anyAddedOrModified x = true → InO (diffPath x) ∨ InT (diffPath x) := by
      intro x hx
      rcases List.mem_cons.mp hx with rfl | hx
      · exact hside _ List.mem_cons_self
      · exact hpre x hx
    have hstrip : strip c = ({ c with kind := .none }, false) := by simp [strip, hck]
    have step := ih (fun x hx => hside x (List.mem_cons_of_mem _ hx)) (fun x hx => hk x (List.mem_cons_of_mem _ hx)) (c :: pre) (detectDf l c) hpre'
    refine step ?_ ?_
    · -- the marks
      cases l with
      | mk st cf df =>
        cases df with
        | some d =>
          obtain ⟨prev, rest, dc, rfl, d1, d2, d3, d4⟩ := hdf d rfl
          have hadj : adj prev c = false := by
            by_contra hne
            have hne : adj prev c = true := by simpa using hne
            simp only [adj, Bool.and_eq_true] at hne
            obtain ⟨⟨k1, k2⟩, k3⟩ := hne
            have k3 := pathIsPrefixed_iff.mp k3
            have k4 := under_trans d4 k3
            have p1 := hpre prev List.mem_cons_self k1
            have p2 := hside c List.mem_cons_self k2
            rcases d3 with d3 | d3
            · have q1 : InT (diffPath prev) := p1.resolve_left (fun h => hO _ _ d3 h d4)
              have q2 : InT (diffPath c) := p2.resolve_left (fun h => hO _ _ d3 h k4)
              exact hT _ _ q1 q2 k3
            · have q1 : InO (diffPath prev) := p1.resolve_right (fun h => hT _ _ d3 h d4)
              have q2 : InO (diffPath c) := p2.resolve_right (fun h => hT _ _ d3 h k4)
              exact hO _ _ q1 q2 k3
          have hfl : flags none (c :: prev :: rest) = ({ c with kind := .none }, false) :: flags none (prev :: rest) := by
            simp [flags, hadj]
          rw [hfl, ← hc]
          simp only [detectDf]
          split
          · simp [strip]
          · simp only [List.map_cons, hstrip]
        | none =>
          cases pre with
          | nil =>
            have : cf = [] := by simpa [flags] using hc
            subst this
            simp [detectDf, flags, hstrip]
          | cons prev rest =>
            cases cf with
            | nil => simp [flags] at hc
            | cons x xs =>
              have hx : x = { prev with kind := x.kind } ∧ xs.map strip = flags (some prev) rest := by
                simp only [List.map_cons, flags, List.cons.injEq] at hc
                refine ⟨?_, hc.2⟩
                have := congrArg Prod.fst hc.1
                simp only [strip] at this
                cases x; cases prev
                simp only [Diff.mk.injEq, true_and] at this ⊢
                exact this
              have hxa : anyAddedOrModified x = anyAddedOrModified prev := by rw [hx.1]; rfl
              have hxp : diffPath x = diffPath prev := by rw [hx.1]; rfl
              have hxk : strip x = ({ prev with kind := .none }, false) := by
                simp only [List.map_cons, flags, List.cons.injEq] at hc
                exact hc.1
              have hfl : flags none (c :: prev :: rest) = ({ c with kind := .none }, false) :: ({ prev with kind := .none }, adj prev c) :: flags (some prev) rest := by
                simp [flags]
              rw [hfl, ← hx.2]
              simp only [detectDf, hxa, hxp]
              by_cases hcond : anyAddedOrModified prev = true ∧ anyAddedOrModified c = true ∧ pathIsPrefixed (diffPath prev) (diffPath c) = true
              · rw [if_pos hcond]
                have hadj : adj prev c = true := by simp [adj, hcond.1, hcond.2.1, hcond.2.2]
                simp only [List.map_cons, hadj, strip, List.cons.injEq, Prod.mk.injEq, decide_eq_false_iff_not, decide_eq_true_eq, true_and, and_true]
                refine ⟨by simp, ?_⟩
                rw [hx.1]
              · rw [if_neg hcond]
                have hadj : adj prev c = false := by
                  rw [Bool.eq_false_iff]
                  intro h
                  simp only [adj, Bool.and_eq_true] at h
                  exact hcond ⟨h.1.1, h.1.2, h.2⟩
                simp only [List.map_cons, hadj, hstrip, hxk]
    · -- the directory in progress
      intro d hd
      cases l with
      | mk st cf df =>
        cases df with
        | some d' =>
          obtain ⟨prev, rest, dc, rfl, d1, d2, d3, d4⟩ := hdf d' rfl
          simp only [detectDf] at hd
          split at hd
          · rename_i hp
            simp only [Option.some.injEq] at hd
            subst hd
            exact ⟨c, _, dc, rfl, d1, d2, d3, pathIsPrefixed_iff.mp hp⟩
          · cases hd
        | none =>
          cases cf with
          | nil => simp [detectDf] at hd
          | cons x xs =>
            simp only [detectDf] at hd
            split at hd
            · rename_i hcond
              simp only [Option.some.injEq] at hd
              subst hd
              cases pre with
              | nil => simp [flags] at hc
              | cons prev rest =>
                have hx : x = { prev with kind := x.kind } := by
                  simp only [List.map_cons, flags, List.cons.injEq] at hc
                  have := congrArg Prod.fst hc.1
                  simp only [strip] at this
                  cases x; cases prev
                  simp only [Diff.mk.injEq, true_and] at this ⊢
                  exact this
                have hxa : anyAddedOrModified x = anyAddedOrModified prev := by rw [hx]; rfl
                have hxp : diffPath x = diffPath prev := by rw [hx]; rfl
                refine ⟨c, _, x, rfl, hcond.1, rfl, ?_, pathIsPrefixed_iff.mp hcond.2.2⟩
                rw [hxp]
                exact hpre prev List.mem_cons_self (by rw [← hxa]; exact hcond.1)
            · cases hd

/-- the marks, in the order of the differences -/
def fwd : List Diff → List (Diff × Bool)
  | [] => []
  | [c] => [({ c with kind := .none }, false)]
  | c :: n :: rest => ({ c with kind := .none }, adj c n) :: fwd (n :: rest)

theorem flags_append (xs : List Diff) (c : Diff) : ∀ next, flags next (xs ++ [c]) = flags next xs ++
    [({ c with kind := .none }, match (xs.getLast?).or next with | none => false | some n => adj c n)] := by
  induction xs with
  | nil => intro next; cases next <;> rfl
  | cons x xs ih =>
    intro next
    rw [List.cons_append]
    simp only [flags]
    rw [ih]
    simp only [List.cons_append, List.cons.injEq, true_and]
    congr 1
    cases xs with
    | nil => simp
    | cons y ys =>
      rw [List.getLast?_cons_cons]
      cases h : (y :: ys).getLast? with
      | none => simp at h
      | some z => simp

theorem flags_fwd (cs : List Diff) : (flags none cs.reverse).reverse = fwd cs := by
  induction cs with
  | nil => rfl
  | cons c cs ih =>
    rw [List.reverse_cons, flags_append, List.reverse_append, ih]
    cases cs with
    | nil => rfl
    | cons n rest =>
      simp only [List.reverse_cons, List.getLast?_append, List.getLast?_singleton]
      rfl

end Verif.Merge
