import Verif.Base
/-! # Model of `src/util/tsort.c` and of the binary searches in `src/util/util.c`, `src/util/array.h`

Arrays are lists; reading or writing outside the array is `ub`. `cmp` is an arbitrary C comparison function. Allocation failure
in `resize` (which leaves the array unsorted) is not modelled. Loops run on fuel; running out is `ub`, so the theorems that
exclude `ub` also establish termination. -/
namespace Verif.Sort

variable {α : Type}

/-- read `dst[i]` [no code: src/util/tsort.c throughout] -/
def rd (dst : List α) (i : Nat) : Res α := match dst[i]? with
  | some x => .ok x
  | none => .ub

/-- write `dst[i] = x` [no code: src/util/tsort.c throughout] -/
def wr (dst : List α) (i : Nat) (x : α) : Res (List α) := if i < dst.length then .ok (dst.set i x) else .ub

/-- `while (cmp(x, dst[i], payload) == 0) i++`: src/util/tsort.c:43-45 and :61-64 -/
def scanEq (cmp : α → α → Int) (x : α) (dst : List α) : Nat → Nat → Res Nat
  | 0, _ => .ub
  | fuel + 1, i =>
    match rd dst i with
    | .ok y => if cmp x y = 0 then scanEq cmp x dst fuel (i + 1) else .ok i
    | .err e => .err e
    | .ub => .ub

/-- the `while (1)` loop of `binsearch`: src/util/tsort.c:50-69 -/
def bsLoop (cmp : α → α → Int) (x : α) (dst : List α) : Nat → Nat → Nat → Nat → Res Nat
  | 0, _, _, _ => .ub
  | fuel + 1, l, c, r =>
    match rd dst c with
    | .err e => .err e
    | .ub => .ub
    | .ok cx =>
      if cmp x cx < 0 then
        if (c : Int) - l ≤ 1 then .ok c
        else bsLoop cmp x dst fuel l (l + (c - l) / 2) c
      else if 0 < cmp x cx then
        if (r : Int) - c ≤ 1 then .ok (c + 1)
        else bsLoop cmp x dst fuel c (c + (r - c) / 2) r
      else scanEq cmp x dst (dst.length + 1) (c + 1)

/-- `binsearch`: src/util/tsort.c:26-68 -/
def binsearch (cmp : α → α → Int) (x : α) (dst : List α) (size : Nat) : Res Nat := do
  let r := size - 1
  let lx ← rd dst 0
  if cmp x lx < 0 then .ok 0
  else if cmp x lx = 0 then scanEq cmp x dst (dst.length + 1) 1
  else bsLoop cmp x dst (size + 1) 0 (r / 2) r

/-- `for (j = i - 1; j >= location; j--) dst[j + 1] = dst[j]`: src/util/tsort.c:88-90; `n` iterations are left,
the next one has `j = location + n - 1` -/
def shiftUp (dst : List α) (location : Nat) : Nat → Res (List α)
  | 0 => .ok dst
  | n + 1 =>
    match rd dst (location + n) with
    | .ok y => match wr dst (location + n + 1) y with
      | .ok dst => shiftUp dst location n
      | .err e => .err e
      | .ub => .ub
    | .err e => .err e
    | .ub => .ub

/-- the body of the `bisort` loop: src/util/tsort.c:79-92 -/
def bisortStep (cmp : α → α → Int) (dst : List α) (i : Nat) : Res (List α) := do
  let a ← rd dst (i - 1)
  let x ← rd dst i
  if cmp a x ≤ 0 then .ok dst
  else do
    let location ← binsearch cmp x dst i
    let dst ← shiftUp dst location (i - location)
    wr dst location x

/-- `bisort`: src/util/tsort.c:71-92; `n` iterations are left, the next index is `i` -/
def bisort (cmp : α → α → Int) : Nat → Nat → List α → Res (List α)
  | 0, _, dst => .ok dst
  | n + 1, i, dst =>
    match bisortStep cmp dst i with
    | .ok dst => bisort cmp n (i + 1) dst
    | .err e => .err e
    | .ub => .ub

/-- `reverse_elements`: src/util/tsort.c:108-118 (`start`, `end` as integers: `end` may be `start - 1`) -/
def reverseElements : Nat → Int → Int → List α → Res (List α)
  | 0, s, e, dst => if s < e then .ub else .ok dst
  | fuel + 1, s, e, dst =>
    if s < e then
      if s < 0 then .ub
      else
        match rd dst s.toNat, rd dst e.toNat with
        | .ok a, .ok b =>
          match wr dst s.toNat b with
          | .ok d => match wr d e.toNat a with
            | .ok d => reverseElements fuel (s + 1) (e - 1) d
            | _ => .ub
          | _ => .ub
        | _, _ => .ub
    else .ok dst

/-- `while (curr < size - 1 && test(cmp(dst[curr - 1], dst[curr]))) curr++`: src/util/tsort.c:141-143, :147-149 -/
def runEnd (cmp : α → α → Int) (test : Int → Bool) (dst : List α) (size : Nat) : Nat → Nat → Res Nat
  | 0, curr => if curr + 1 < size then .ub else .ok curr
  | fuel + 1, curr =>
    if curr + 1 < size then
      match rd dst (curr - 1), rd dst curr with
      | .ok a, .ok b => if test (cmp a b) then runEnd cmp test dst size fuel (curr + 1) else .ok curr
      | _, _ => .ub
    else .ok curr

/-- `count_run`: src/util/tsort.c:120-153. Called with `start < size`. Returns the length and the new array. -/
def countRun (cmp : α → α → Int) (dst : List α) (start size : Nat) : Res (Nat × List α) :=
  if size - start = 1 then .ok (1, dst)
  else if size ≤ start + 2 then do
    let a ← rd dst (size - 2)
    let b ← rd dst (size - 1)
    if 0 < cmp a b then do
      let d ← wr dst (size - 1) a
      let d ← wr d (size - 2) b
      .ok (2, d)
    else .ok (2, dst)
  else do
    let a ← rd dst start
    let b ← rd dst (start + 1)
    if cmp a b ≤ 0 then do
      let curr ← runEnd cmp (fun v => v ≤ 0) dst size size (start + 2)
      .ok (curr - start, dst)
    else do
      let curr ← runEnd cmp (fun v => 0 < v) dst size size (start + 2)
      let d ← reverseElements size start (curr - 1 : Int) dst
      .ok (curr - start, d)

/-- `compute_minrun`: src/util/tsort.c:155-163 -/
def minrunLoop (r : Nat) : Nat → Nat → Nat
  | 0, n => n + r
  | fuel + 1, n => if 64 ≤ n then minrunLoop (r ||| n % 2) fuel (n / 2) else n + r

/-- [src/util/tsort.c:155-163] -/
def computeMinrun (n : Nat) : Nat := minrunLoop 0 n n

/-- A run: `struct tsort_run`, src/util/tsort.c:98-101 -/
structure Run where
  start : Nat
  length : Nat
  deriving DecidableEq, Repr

/-- the loop of the left merge: src/util/tsort.c:223-233; `n` iterations left, next write at `k`; `hi = curr + A + B` -/
def mergeLeft (cmp : α → α → Int) (storage : List α) (A hi : Nat) : Nat → Nat → Nat → Nat → List α → Res (List α)
  | 0, _, _, _, dst => .ok dst
  | n + 1, i, j, k, dst =>
    if i < A ∧ j < hi then
      match rd storage i, rd dst j with
      | .ok a, .ok b =>
        if cmp a b ≤ 0 then
          match wr dst k a with
          | .ok dst => mergeLeft cmp storage A hi n (i + 1) j (k + 1) dst
          | _ => .ub
        else
          match wr dst k b with
          | .ok dst => mergeLeft cmp storage A hi n i (j + 1) (k + 1) dst
          | _ => .ub
      | _, _ => .ub
    else if i < A then
      match rd storage i with
      | .ok a => match wr dst k a with
        | .ok dst => mergeLeft cmp storage A hi n (i + 1) j (k + 1) dst
        | _ => .ub
      | _ => .ub
    else
      match rd dst j with
      | .ok b => match wr dst k b with
        | .ok dst => mergeLeft cmp storage A hi n i (j + 1) (k + 1) dst
        | _ => .ub
      | _ => .ub

/-- the loop of the right merge: src/util/tsort.c:239-249. `i1 = i + 1`, `j1 = j + 1`, the next write is at `curr + n`. -/
def mergeRight (cmp : α → α → Int) (storage : List α) (curr : Nat) : Nat → Nat → Nat → List α → Res (List α)
  | 0, _, _, dst => .ok dst
  | n + 1, i1, j1, dst =>
    if 0 < i1 ∧ curr < j1 then
      match rd dst (j1 - 1), rd storage (i1 - 1) with
      | .ok b, .ok a =>
        if 0 < cmp b a then
          match wr dst (curr + n) b with
          | .ok dst => mergeRight cmp storage curr n i1 (j1 - 1) dst
          | _ => .ub
        else
          match wr dst (curr + n) a with
          | .ok dst => mergeRight cmp storage curr n (i1 - 1) j1 dst
          | _ => .ub
      | _, _ => .ub
    else if 0 < i1 then
      match rd storage (i1 - 1) with
      | .ok a => match wr dst (curr + n) a with
        | .ok dst => mergeRight cmp storage curr n (i1 - 1) j1 dst
        | _ => .ub
      | _ => .ub
    else
      if j1 = 0 then .ub
      else
      match rd dst (j1 - 1) with
      | .ok b => match wr dst (curr + n) b with
        | .ok dst => mergeRight cmp storage curr n i1 (j1 - 1) dst
        | _ => .ub
      | _ => .ub

/-- `memcpy(storage, &dst[off], len * sizeof(void *))`: src/util/tsort.c:219, :235 -/
def copyOut (dst : List α) (off len : Nat) : Res (List α) :=
  if off + len ≤ dst.length then .ok ((dst.drop off).take len) else .ub

/-- `merge` of the runs `ra` (below) and `rb` (above): src/util/tsort.c:203-251 -/
def merge (cmp : α → α → Int) (dst : List α) (ra rb : Run) : Res (List α) :=
  let A := ra.length
  let B := rb.length
  let curr := ra.start
  if A < B then do
    let storage ← copyOut dst curr A
    mergeLeft cmp storage A (curr + A + B) (A + B) 0 (curr + A) curr dst
  else do
    let storage ← copyOut dst (curr + A) B
    mergeRight cmp storage curr (A + B) B (curr + A) dst

/-- `check_invariant`: src/util/tsort.c:165-180; the head of the list is the top of the stack -/
def checkInvariant : List Run → Bool
  | [] => true
  | [_] => true
  | [b, a] => b.length < a.length
  | c :: b :: a :: _ => !(a.length ≤ b.length + c.length || b.length ≤ c.length)

/-- `collapse`: src/util/tsort.c:254-306. The stack has its top at the head. -/
def collapse (cmp : α → α → Int) (size : Nat) : Nat → List Run → List α → Res (List Run × List α)
  | 0, _, _ => .ub
  | _ + 1, [], dst => .ok ([], dst)
  | _ + 1, [r], dst => .ok ([r], dst)
  | _ + 1, [b, a], dst =>
    if a.length + b.length = size ∨ a.length ≤ b.length then
      match merge cmp dst a b with
      | .ok dst => .ok ([⟨a.start, a.length + b.length⟩], dst)
      | .err e => .err e
      | .ub => .ub
    else .ok ([b, a], dst)
  | fuel + 1, c :: b :: a :: st, dst =>
    if a.length ≤ b.length + c.length then
      if a.length < c.length then
        match merge cmp dst a b with
        | .ok dst => collapse cmp size fuel (c :: ⟨a.start, a.length + b.length⟩ :: st) dst
        | .err e => .err e
        | .ub => .ub
      else
        match merge cmp dst b c with
        | .ok dst => collapse cmp size fuel (⟨b.start, b.length + c.length⟩ :: a :: st) dst
        | .err e => .err e
        | .ub => .ub
    else if b.length ≤ c.length then
      match merge cmp dst b c with
      | .ok dst => collapse cmp size fuel (⟨b.start, b.length + c.length⟩ :: a :: st) dst
      | .err e => .err e
      | .ub => .ub
    else .ok (c :: b :: a :: st, dst)

/-- the final merges in `PUSH_NEXT`: src/util/tsort.c:321-325 -/
def finishUp (cmp : α → α → Int) : List Run → List α → Res (List α)
  | b :: a :: st, dst =>
    match merge cmp dst a b with
    | .ok dst => finishUp cmp (⟨a.start, a.length + b.length⟩ :: st) dst
    | .err e => .err e
    | .ub => .ub
  | _, dst => .ok dst
  termination_by st => st.length

/-- sort state: stack, `curr`, array [src/util/tsort.c:96-105, 335-345] -/
structure St (α : Type) where
  stack : List Run
  curr : Nat
  dst : List α

/-- `run_stack[128]`: src/util/tsort.c:340 -/
def STACK_MAX : Nat := 128

/-- Marker (not a libgit2 error code) for a push onto a full `run_stack[128]`, which C would write out of bounds. [src/util/tsort.c:339 (the array `run_stack`)] -/
def STACK_OVERFLOW : Int := -128

/-- extending a short run with `bisort`: src/util/tsort.c:313-316 -/
def extendRun (cmp : α → α → Int) (dst : List α) (curr len run : Nat) : Res (List α) :=
  if len < run then
    match bisort cmp (run - len) len (dst.drop curr) with
    | .ok seg => .ok (dst.take curr ++ seg)
    | .err e => .err e
    | .ub => .ub
  else .ok dst

/-- the run-extension part of `PUSH_NEXT`: src/util/tsort.c:309-318. Pushing beyond `run_stack[128]` is reported as
`STACK_OVERFLOW`, to keep it apart from every other undefined behaviour. -/
def pushRun (cmp : α → α → Int) (size minrun : Nat) (s : St α) : Res (St α) := do
  let (len, dst) ← countRun cmp s.dst s.curr size
  let run := if size - s.curr < minrun then size - s.curr else minrun
  let dst ← extendRun cmp dst s.curr len run
  let len := if len < run then run else len
  if STACK_MAX ≤ s.stack.length then .err STACK_OVERFLOW
  else .ok { stack := ⟨s.curr, len⟩ :: s.stack, curr := s.curr + len, dst := dst }

/-- the main loop: src/util/tsort.c:361-374 (the first three `PUSH_NEXT` differ from the loop only in not
checking the invariant first; `k` of them are left). -/
def sortLoop (cmp : α → α → Int) (size minrun : Nat) : Nat → Nat → St α → Res (List α)
  | 0, _, _ => .ub
  | fuel + 1, k, s =>
    if k = 0 ∧ !checkInvariant s.stack then
      match collapse cmp size (s.stack.length + 1) s.stack s.dst with
      | .ok (st, dst) => sortLoop cmp size minrun fuel 0 { s with stack := st, dst := dst }
      | .err e => .err e
      | .ub => .ub
    else
      match pushRun cmp size minrun s with
      | .ok s => if s.curr = size then finishUp cmp s.stack s.dst else sortLoop cmp size minrun fuel (k - 1) s
      | .err e => .err e
      | .ub => .ub

/-- `git__tsort_r` (and `git__tsort`): src/util/tsort.c:335-386 -/
def tsort (cmp : α → α → Int) (dst : List α) : Res (List α) :=
  let size := dst.length
  if size < 64 then bisort cmp (size - 1) 1 dst
  else sortLoop cmp size (computeMinrun size) (2 * size + 4) 3 { stack := [], curr := 0, dst := dst }

/-! ## Binary search -/

/-- the loop of `git__bsearch`: src/util/util.c:568-579 (`git__bsearch_r`: :599-610, `git_array__search`: src/util/array.h:108-120).
Returns `cmp` and the final base. -/
def bsearchLoop (key : α → Int) (a : List α) : Nat → Nat → Nat → Int → Res (Int × Nat)
  | 0, _, _, _ => .ub
  | fuel + 1, base, lim, cmp =>
    if lim ≠ 0 then
      match rd a (base + lim / 2) with
      | .err e => .err e
      | .ub => .ub
      | .ok p =>
        if key p = 0 then .ok (0, base + lim / 2)
        else if 0 < key p then bsearchLoop key a fuel (base + lim / 2 + 1) ((lim - 1) / 2) (key p)
        else bsearchLoop key a fuel base (lim / 2) (key p)
    else .ok (cmp, base)

/-- `git__bsearch`: src/util/util.c:557-585. `key p` is `compare(key, p)`. The result is whether the key was found, and `*position`. -/
def bsearch (key : α → Int) (a : List α) : Res (Bool × Nat) :=
  match bsearchLoop key a (a.length + 1) 0 a.length (-1) with
  | .ok (c, pos) => .ok (c = 0, pos)
  | .err e => .err e
  | .ub => .ub

end Verif.Sort
