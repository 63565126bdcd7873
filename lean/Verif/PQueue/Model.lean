import Verif.Base
/-! # Priority queue: src/util/pqueue.c

The contents are the first `length` elements of the vector; that the vector grows when needed is modelled in `Verif/Vec`. The items are
never NULL. -/
namespace Verif.PQueue

variable {α : Type}

/-- `git_pqueue` (src/util/pqueue.h:14): `cmp` may be NULL; `cap` is `_alloc_size` if GIT_PQUEUE_FIXED_SIZE is set. -/
structure PQ (α : Type) where
  contents : List α
  cmp : Option (α → α → Int)
  cap : Option Nat

/-- `git_pqueue_init`: src/util/pqueue.c:16-34; `git_vector_init` allocates at least 8 slots (src/util/vector.c:13, :120) -/
def init (fixed : Bool) (initSize : Nat) (cmp : Option (α → α → Int)) : PQ α :=
  ⟨[], cmp, if fixed then some (if initSize > 0 then initSize else max initSize 8) else none⟩

/-- the loop of `pqueue_up`: src/util/pqueue.c:41-53; `none` is an access outside the contents -/
def up (cmp : α → α → Int) (l : List α) (el : Nat) (kid : α) : Option (List α) :=
  if h : el > 0 then
    match l[(el - 1) / 2]? with
    | none => none
    | some parent => if cmp parent kid ≤ 0 then some (l.set el kid) else up cmp (l.set el parent) ((el - 1) / 2) kid
  else some (l.set el kid)
termination_by el
decreasing_by omega

/-- the kid chosen by `pqueue_down`: src/util/pqueue.c:61-70 -/
def kidOf (cmp : α → α → Int) (l : List α) (el : Nat) : Option (Nat × α) :=
  match l[2 * el + 1]? with
  | none => none
  | some kid =>
    match l[2 * el + 2]? with
    | some rkid => if cmp kid rkid > 0 then some (2 * el + 2, rkid) else some (2 * el + 1, kid)
    | none => some (2 * el + 1, kid)

theorem kidOf_lt {cmp : α → α → Int} {l : List α} {el k : Nat} {x : α} (h : kidOf cmp l el = some (k, x)) : el < k ∧ k < l.length ∧ l[k]? = some x := by
  unfold kidOf at h
  split at h
  · cases h
  · rename_i kid hk
    have := (List.getElem?_eq_some_iff.mp hk).1
    split at h
    · rename_i rkid hr
      have := (List.getElem?_eq_some_iff.mp hr).1
      split at h
      · cases h; exact ⟨by omega, by omega, hr⟩
      · cases h; exact ⟨by omega, by omega, hk⟩
    · cases h; exact ⟨by omega, by omega, hk⟩

/-- the loop of `pqueue_down`: src/util/pqueue.c:59-79 -/
def down (cmp : α → α → Int) (l : List α) (el : Nat) (parent : α) : List α :=
  match h : kidOf cmp l el with
  | none => l.set el parent
  | some (k, kid) => if cmp parent kid ≤ 0 then l.set el parent else down cmp (l.set el kid) k parent
termination_by l.length - el
decreasing_by
  have := kidOf_lt h
  simp only [List.length_set]; omega

/-- `git_pqueue_pop`: src/util/pqueue.c:104-125; the popped item (NULL if the queue is empty) and the queue -/
def pop (q : PQ α) : Option α × PQ α :=
  match q.cmp with
  | none => (q.contents.getLast?, { q with contents := q.contents.dropLast })
  | some cmp =>
    match q.contents with
    | [] => (none, q)
    | x :: rest =>
      if (x :: rest).length > 1 then
        match rest.getLast? with
        | none => (some x, q)
        | some last =>
          let l := ((x :: rest).set 0 last).dropLast
          (some x, { q with contents := down cmp l 0 last })
      else (some x, { q with contents := [] })

/-- `git_pqueue_insert`: src/util/pqueue.c:82-102; `none` is an access outside the contents.  The vector can grow. -/
def insert (q : PQ α) (x : α) : Option (PQ α) :=
  let add (q : PQ α) : Option (PQ α) :=
    match q.cmp with
    | none => some { q with contents := q.contents ++ [x] }
    | some cmp => (up cmp (q.contents ++ [x]) q.contents.length x).map (fun l => { q with contents := l })
  match q.cap with
  | none => add q
  | some n =>
    if q.contents.length < n then add q
    else
      match q.cmp with
      | none => some q
      | some cmp =>
        match q.contents.head? with
        | none => none
        | some top => if cmp x top ≤ 0 then some q else add (pop q).2

end Verif.PQueue
