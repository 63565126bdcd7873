import Verif.PQueue.Lemmas
/-! # C27: the priority queue -/
namespace Verif.PQueue
open Spec

variable {α : Type} {cmp : α → α → Int}

/-- the calls of a history, one after the other; the results of the `pop`s and the queue at the end -/
def run (q : PQ α) : List (Op α) → Option (List (Option α) × PQ α)
  | [] => some ([], q)
  | .insert x :: ops => (insert q x).bind (fun q' => run q' ops)
  | .pop :: ops => (run (pop q).2 ops).map (fun (outs, q') => ((pop q).1 :: outs, q'))

/-- one call of `git_pqueue_pop` on a queue with a comparison -/
theorem pop_cases (hc : Preorder cmp) {q : PQ α} (hq : q.cmp = some cmp) (hh : Heap cmp q.contents) :
    (pop q).2.cmp = some cmp ∧ (pop q).2.cap = q.cap ∧ Heap cmp (pop q).2.contents ∧
    ((q.contents = [] ∧ (pop q).1 = none ∧ (pop q).2.contents = []) ∨
      ∃ m, q.contents.head? = some m ∧ (pop q).1 = some m ∧ q.contents.Perm (m :: (pop q).2.contents) ∧ ∀ x ∈ (pop q).2.contents, cmp m x ≤ 0) := by
  unfold pop
  rw [hq]
  obtain ⟨l, qc, cap⟩ := q
  subst hq
  cases l with
  | nil => exact ⟨rfl, rfl, hh, .inl ⟨rfl, rfl, rfl⟩⟩
  | cons x rest =>
    have hmin : ∀ y ∈ x :: rest, cmp x y ≤ 0 := by
      intro y hy
      obtain ⟨i, hi, e⟩ := List.mem_iff_getElem.mp hy
      exact heap_min hc hh (m := x) rfl i y (by rw [← e]; exact List.getElem?_eq_getElem hi)
    simp only
    cases rest with
    | nil => exact ⟨rfl, rfl, heap_nil, .inr ⟨x, rfl, rfl, List.Perm.refl _, by simp⟩⟩
    | cons y rest =>
      rw [if_pos (by simp)]
      obtain ⟨last, hlast⟩ : ∃ last, (y :: rest).getLast? = some last := ⟨_, List.getLast?_eq_some_getLast (by simp)⟩
      rw [hlast]
      obtain ⟨h1, h2⟩ := pop_heap hc hh hlast
      refine ⟨rfl, rfl, h2, .inr ⟨x, rfl, rfl, (h1.cons x).symm, ?_⟩⟩
      intro z hz
      exact hmin z (List.mem_cons_of_mem _ (h1.mem_iff.mp hz))

/-- one call of `git_pqueue_insert` where there is room -/
theorem insert_room (hc : Preorder cmp) {q : PQ α} (hq : q.cmp = some cmp) (hh : Heap cmp q.contents)
    (hcap : ∀ n, q.cap = some n → q.contents.length < n) (x : α) :
    ∃ q', insert q x = some q' ∧ q'.cmp = some cmp ∧ q'.cap = q.cap ∧ q'.contents.Perm (x :: q.contents) ∧ Heap cmp q'.contents := by
  obtain ⟨r, h1, h2, h3⟩ := insert_heap hc x hh
  refine ⟨{ q with contents := r }, ?_, hq, rfl, h2, h3⟩
  unfold insert
  simp only [hq, h1, Option.map_some]
  cases hcp : q.cap with
  | none => rfl
  | some n => simp only [hcap n hcp, if_true]

/-- **C27.** Whatever the history of inserts and pops, on a queue without size limit: every pop takes one of the items that are in the queue
and that no other item has to come before; it returns nothing only when the queue is empty; no item is lost or duplicated. -/
theorem C27_history (hc : Preorder cmp) (n : Nat) (ops : List (Op α)) :
    ∃ outs q, run (init false n (some cmp)) ops = some (outs, q) ∧ Behaves cmp [] ops outs q.contents := by
  have key : ∀ (ops : List (Op α)) (q : PQ α) (bag : List α), q.cmp = some cmp → q.cap = none → Heap cmp q.contents → bag.Perm q.contents →
      ∃ outs q', run q ops = some (outs, q') ∧ Behaves cmp bag ops outs q'.contents := by
    intro ops
    induction ops with
    | nil => intro q bag _ _ _ hp; exact ⟨[], q, rfl, .nil hp⟩
    | cons op ops ih =>
      intro q bag h1 h2 h3 h4
      cases op with
      | insert x =>
        obtain ⟨q', g1, g2, g3, g4, g5⟩ := insert_room hc h1 h3 (by rw [h2]; simp) x
        obtain ⟨outs, q'', e, hb⟩ := ih q' (x :: bag) g2 (g3.trans h2) g5 ((h4.cons x).trans g4.symm)
        exact ⟨outs, q'', by rw [run, g1]; exact e, .insert hb⟩
      | pop =>
        obtain ⟨g1, g2, g3, g4⟩ := pop_cases hc h1 h3
        rcases g4 with ⟨g4, g5, g6⟩ | ⟨m, _, g5, g6, g7⟩
        · rw [g4] at h4
          have : bag = [] := List.perm_nil.mp h4
          subst this
          obtain ⟨outs, q'', e, hb⟩ := ih (pop q).2 [] g1 (g2.trans h2) g3 (by rw [g6])
          exact ⟨none :: outs, q'', by rw [run, e, g5]; rfl, .popEmpty hb⟩
        · obtain ⟨outs, q'', e, hb⟩ := ih (pop q).2 (pop q).2.contents g1 (g2.trans h2) g3 (List.Perm.refl _)
          exact ⟨some m :: outs, q'', by rw [run, e, g5]; rfl, .pop (h4.trans g6) g7 hb⟩
  exact key ops _ [] rfl rfl heap_nil (List.Perm.refl _)

/-- **C27**: emptying the queue yields its items in order. -/
theorem C27_drain (hc : Preorder cmp) (n : Nat) (xs : List α) :
    ∃ (outs : List α) (q : PQ α), run (init false n (some cmp)) (xs.map Op.insert ++ List.replicate xs.length Op.pop) = some (outs.map some, q) ∧
      q.contents = [] ∧ outs.Perm xs ∧ outs.Pairwise (fun a b => cmp a b ≤ 0) := by
  have drain : ∀ (k : Nat) (q : PQ α), q.cmp = some cmp → Heap cmp q.contents → q.contents.length = k →
      ∃ (outs : List α) (q' : PQ α), run q (List.replicate k Op.pop) = some (outs.map some, q') ∧ q'.contents = [] ∧ outs.Perm q.contents ∧
        outs.Pairwise (fun a b => cmp a b ≤ 0) := by
    intro k
    induction k with
    | zero =>
      intro q _ _ hl
      have : q.contents = [] := List.length_eq_zero_iff.mp hl
      exact ⟨[], q, rfl, this, by rw [this], List.Pairwise.nil⟩
    | succ k ih =>
      intro q h1 h2 hl
      obtain ⟨g1, g2, g3, g4⟩ := pop_cases hc h1 h2
      rcases g4 with ⟨g4, _, _⟩ | ⟨m, _, g5, g6, g7⟩
      · rw [g4] at hl; simp at hl
      · obtain ⟨outs, q', e, h3, h4, h5⟩ := ih (pop q).2 g1 g3 (by have := g6.length_eq; rw [List.length_cons] at this; omega)
        refine ⟨m :: outs, q', by rw [List.replicate_succ, run, e, g5]; rfl, h3, (h4.cons m).trans g6.symm, List.Pairwise.cons ?_ h5⟩
        intro a ha
        exact g7 a (h4.mem_iff.mp ha)
  have fill : ∀ (xs : List α) (q : PQ α) (rest : List (Op α)), q.cmp = some cmp → q.cap = none → Heap cmp q.contents →
      ∃ q', run q (xs.map Op.insert ++ rest) = run q' rest ∧ q'.cmp = some cmp ∧ Heap cmp q'.contents ∧ q'.contents.Perm (xs ++ q.contents) := by
    intro xs
    induction xs with
    | nil => intro q rest h1 _ h3; exact ⟨q, rfl, h1, h3, List.Perm.refl _⟩
    | cons x xs ih =>
      intro q rest h1 h2 h3
      obtain ⟨q', g1, g2, g3, g4, g5⟩ := insert_room hc h1 h3 (by rw [h2]; simp) x
      obtain ⟨q'', e, i1, i2, i3⟩ := ih q' rest g2 (g3.trans h2) g5
      refine ⟨q'', ?_, i1, i2, i3.trans ((List.Perm.append_left xs g4).trans List.perm_middle)⟩
      rw [List.map_cons, List.cons_append, run, g1]
      exact e
  obtain ⟨q', e, h1, h2, h3⟩ := fill xs (init false n (some cmp)) (List.replicate xs.length Op.pop) rfl rfl heap_nil
  have hp : q'.contents.Perm xs := h3.trans (by simp [init])
  obtain ⟨outs, q'', e2, g1, g2, g3⟩ := drain xs.length q' h1 h2 hp.length_eq
  exact ⟨outs, q'', e.trans e2, g1, g2.trans hp, g3⟩

/-- all the items inserted, one after the other -/
def insertAll (q : PQ α) : List α → Option (PQ α)
  | [] => some q
  | x :: xs => (insert q x).bind (fun q' => insertAll q' xs)

/-- **C27**: a queue of a fixed size keeps the best: of any sequence of inserted items it holds as many as fit, and none of those it let go comes after
one it kept. -/
theorem C27_fixed_size (hc : Preorder cmp) (n : Nat) (hn : 0 < n) (xs : List α) :
    ∃ q dropped, insertAll (init true n (some cmp)) xs = some q ∧ (q.contents ++ dropped).Perm xs ∧ q.contents.length = min n xs.length ∧
      ∀ d ∈ dropped, ∀ k ∈ q.contents, cmp d k ≤ 0 := by
  have key : ∀ (xs : List α) (q : PQ α) (seen dropped : List α), q.cmp = some cmp → q.cap = some n → Heap cmp q.contents →
      (q.contents ++ dropped).Perm seen → q.contents.length = min n seen.length → (∀ d ∈ dropped, ∀ k ∈ q.contents, cmp d k ≤ 0) →
      ∃ q' dropped', insertAll q xs = some q' ∧ (q'.contents ++ dropped').Perm (xs ++ seen) ∧ q'.contents.length = min n (xs ++ seen).length ∧
        ∀ d ∈ dropped', ∀ k ∈ q'.contents, cmp d k ≤ 0 := by
    intro xs
    induction xs with
    | nil => intro q seen dropped _ _ _ h4 h5 h6; exact ⟨q, dropped, rfl, h4, h5, h6⟩
    | cons x xs ih =>
      intro q seen dropped h1 h2 h3 h4 h5 h6
      have wrap : ∀ (q' : PQ α) (dropped' : List α), insert q x = some q' → q'.cmp = some cmp → q'.cap = some n → Heap cmp q'.contents →
          (q'.contents ++ dropped').Perm (x :: seen) → q'.contents.length = min n (x :: seen).length → (∀ d ∈ dropped', ∀ k ∈ q'.contents, cmp d k ≤ 0) →
          ∃ q'' dropped'', insertAll q (x :: xs) = some q'' ∧ (q''.contents ++ dropped'').Perm (x :: xs ++ seen) ∧
            q''.contents.length = min n (x :: xs ++ seen).length ∧ ∀ d ∈ dropped'', ∀ k ∈ q''.contents, cmp d k ≤ 0 := by
        intro q' dropped' e g1 g2 g3 g4 g5 g6
        obtain ⟨q'', dr, e2, i1, i2, i3⟩ := ih q' (x :: seen) dropped' g1 g2 g3 g4 g5 g6
        refine ⟨q'', dr, by rw [insertAll, e]; exact e2, i1.trans List.perm_middle, ?_, i3⟩
        rw [i2]; simp only [List.length_append, List.length_cons]; congr 1; omega
      have hlen := h4.length_eq
      rw [List.length_append] at hlen
      by_cases hroom : q.contents.length < n
      · obtain ⟨q', g1, g2, g3, g4, g5⟩ := insert_room hc h1 h3 (by intro m hm; rw [h2] at hm; cases hm; exact hroom) x
        have hd : dropped = [] := List.length_eq_zero_iff.mp (by omega)
        subst hd
        rw [List.append_nil] at h4
        refine wrap q' [] g1 g2 (g3.trans h2) g5 (by rw [List.append_nil]; exact g4.trans (h4.cons x)) ?_ (by simp)
        rw [g4.length_eq, List.length_cons, List.length_cons]; omega
      · obtain ⟨p1, p2, p3, p4⟩ := pop_cases hc h1 h3
        rcases p4 with ⟨p4, _, _⟩ | ⟨m, p4, p5, p6, p7⟩
        · rw [p4] at hroom; simp at hroom; omega
        · have hins : insert q x = if cmp x m ≤ 0 then some q else (up cmp ((pop q).2.contents ++ [x]) (pop q).2.contents.length x).map (fun l => { (pop q).2 with contents := l }) := by
            unfold insert
            simp only [h2, hroom, if_false, h1, p4, p1]
          by_cases hle : cmp x m ≤ 0
          · rw [if_pos hle] at hins
            refine wrap q (x :: dropped) hins h1 h2 h3 (List.perm_middle.trans (h4.cons x)) ?_ ?_
            · rw [List.length_cons]; omega
            · intro d hd k hk
              rcases List.mem_cons.mp hd with rfl | hd
              · have hmk : cmp m k ≤ 0 := by
                  rcases List.mem_cons.mp (p6.mem_iff.mp hk) with rfl | h
                  · exact (hc.total k k).elim id id
                  · exact p7 k h
                exact hc.trans _ _ _ hle hmk
              · exact h6 d hd k hk
          · rw [if_neg hle] at hins
            obtain ⟨r, g1, g2, g3⟩ := insert_heap hc x p3
            rw [g1, Option.map_some] at hins
            have hmx : cmp m x ≤ 0 := (hc.total x m).resolve_left hle
            have hmem : m ∈ q.contents := p6.mem_iff.mpr (by simp)
            have hmin : ∀ k ∈ r, cmp m k ≤ 0 := by
              intro k hk
              rcases List.mem_cons.mp (g2.mem_iff.mp hk) with rfl | h
              · exact hmx
              · exact p7 k h
            refine wrap _ (m :: dropped) hins p1 (p2.trans h2) g3 ?_ ?_ ?_
            · have e1 : (r ++ m :: dropped).Perm (x :: (m :: (pop q).2.contents) ++ dropped) := by
                refine List.perm_middle.trans ?_
                refine ((List.Perm.append_right dropped g2).cons m).trans ?_
                exact List.Perm.swap _ _ _
              exact e1.trans (((List.Perm.append_right dropped p6.symm).cons x).trans (h4.cons x))
            · have e1 := g2.length_eq
              have e2 := p6.length_eq
              simp only [List.length_cons] at e1 e2 ⊢
              omega
            · intro d hd k hk
              rcases List.mem_cons.mp hd with rfl | hd
              · exact hmin k hk
              · exact hc.trans _ _ _ (h6 d hd m hmem) (hmin k hk)
  obtain ⟨q, dr, h1, h2, h3, h4⟩ := key xs (init true n (some cmp)) [] [] rfl (by simp [init, hn]) heap_nil (List.Perm.refl _) (by simp [init]) (by simp)
  exact ⟨q, dr, h1, by simpa using h2, by simpa using h3, h4⟩

/-- Without a comparison the queue is a stack. -/
theorem C27_stack (l : List α) (x : α) :
    insert ⟨l, none, none⟩ x = some ⟨l ++ [x], none, none⟩ ∧ pop (⟨l ++ [x], none, none⟩ : PQ α) = (some x, ⟨l, none, none⟩) ∧
    (pop (⟨[], none, none⟩ : PQ α)).1 = none := by
  refine ⟨rfl, ?_, rfl⟩
  simp [pop]

/-! ## Concrete cases -/

def natCmp (a b : Nat) : Int := (a : Int) - b

theorem natCmp_preorder : Preorder natCmp := ⟨fun a b => by unfold natCmp; omega, fun a b c => by unfold natCmp; omega⟩

/-- the hypothesis holds for numbers; a short history by computation -/
example : run (init false 0 (some natCmp)) [.pop, .insert 5, .insert 3, .pop, .pop] = some ([none, some 3, some 5], init false 0 (some natCmp)) := by
  have h1 : insert (init false 0 (some natCmp)) 5 = some ⟨[5], some natCmp, none⟩ := by unfold insert init; simp [up]
  have h2 : insert (⟨[5], some natCmp, none⟩ : PQ Nat) 3 = some ⟨[3, 5], some natCmp, none⟩ := by unfold insert; simp [up, natCmp]
  have h3 : pop (⟨[3, 5], some natCmp, none⟩ : PQ Nat) = (some 3, ⟨[5], some natCmp, none⟩) := by unfold pop; simp [down, kidOf]
  have h4 : pop (⟨[5], some natCmp, none⟩ : PQ Nat) = (some 5, ⟨[], some natCmp, none⟩) := by unfold pop; simp
  have h5 : pop (init false 0 (some natCmp)) = (none, init false 0 (some natCmp)) := by unfold pop init; simp
  simp only [run, h1, h2, h3, h4, h5, Option.bind_some, Option.map_some]
  rfl
/-- a full queue lets the smallest go -/
example : insert (⟨[3, 5], some natCmp, some 2⟩ : PQ Nat) 4 = some ⟨[4, 5], some natCmp, some 2⟩ := by
  unfold insert pop; simp [up, down, kidOf, natCmp]

end Verif.PQueue
