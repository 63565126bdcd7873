import Verif.Hashsig.Spec
/-! # Model of `src/libgit2/hashsig.c`

The text is a list of bytes; `after` is what follows it in memory. Reading outside the memory or outside the 127 values of a heap is `ub`, and so
is running out of fuel and dividing by zero. `git__qsort_r` is taken to sort. -/
namespace Verif.Hashsig

/-- `git_hashsig_option_t`: include/git2/sys/hashsig.h:35-55 -/
structure Opts where
  ignore : Bool
  smart : Bool
  small : Bool
  deriving DecidableEq, Repr

/-- `hashsig_heap`, without the function: src/libgit2/hashsig.c:33-37 -/
structure Heap where
  values : List UInt32
  size : Nat
  deriving DecidableEq, Repr

/-- `HASHSIG_HEAP_SIZE`: src/libgit2/hashsig.c:26 -/
def heapSize : Nat := 127

/-- `hashsig_heap_init`, the values being zero from `git__calloc`: src/libgit2/hashsig.c:50-55, :234 -/
def heapInit : Heap := ⟨List.replicate heapSize 0, 0⟩

/-- `hashsig_cmp_max` and, for the heap of the smallest, `hashsig_cmp_min`: src/libgit2/hashsig.c:57-69 -/
def cmp (mins : Bool) (a b : UInt32) : Int :=
  if mins then (if b < a then -1 else if a < b then 1 else 0) else (if a < b then -1 else if b < a then 1 else 0)

/-- `h->values[i]` [used in src/libgit2/hashsig.c:71-129] -/
def val (v : List UInt32) (i : Nat) : Res UInt32 :=
  match v[i]? with
  | some x => .ok x
  | none => .ub

/-- `h->values[i] = x` [used in src/libgit2/hashsig.c:71-129] -/
def put (v : List UInt32) (i : Nat) (x : UInt32) : Res (List UInt32) := if i < v.length then .ok (v.set i x) else .ub

/-- `hashsig_heap_up`: src/libgit2/hashsig.c:71-83 -/
def heapUp (mins : Bool) : Nat → List UInt32 → Nat → Res (List UInt32)
  | 0, _, _ => .ub
  | fuel + 1, v, el =>
    if el = 0 then .ok v
    else do
      let parent := (el - 1) / 2
      let pv ← val v parent
      let t ← val v el
      if 0 < cmp mins pv t then do
        let v ← put v el pv
        let v ← put v parent t
        heapUp mins fuel v parent
      else .ok v

/-- `hashsig_heap_down`: src/libgit2/hashsig.c:85-108 -/
def heapDown (mins : Bool) (size : Nat) : Nat → List UInt32 → Nat → Res (List UInt32)
  | 0, _, _ => .ub
  | fuel + 1, v, el =>
    if el < size / 2 then do
      let x ← val v el
      let lv ← val v (2 * el + 1)
      let rv ← val v (2 * el + 2)
      if cmp mins x lv < 0 ∧ cmp mins x rv < 0 then .ok v
      else do
        let swapel := if cmp mins lv rv < 0 then 2 * el + 1 else 2 * el + 2
        let sv ← val v swapel
        let v ← put v el sv
        let v ← put v swapel x
        heapDown mins size fuel v swapel
    else .ok v

/-- `hashsig_heap_insert`: src/libgit2/hashsig.c:116-131. (When the heap is full the new value is not put in: only the top is taken out.) -/
def heapInsert (mins : Bool) (h : Heap) (x : UInt32) : Res Heap :=
  if h.size < heapSize then do
    let v ← put h.values h.size x
    let v ← heapUp mins (h.size + 1) v h.size
    .ok ⟨v, h.size + 1⟩
  else do
    let top ← val h.values 0
    if 0 < cmp mins x top then do
      let last ← val h.values (h.size - 1)
      let v ← put h.values 0 last
      let v ← heapDown mins (h.size - 1) h.size v 0
      .ok ⟨v, h.size - 1⟩
    else .ok h

/-- a value put before the first that is not before it: one step of the sorting that stands for `git__qsort_r` [src/libgit2/hashsig.c:113] -/
def place (mins : Bool) (x : UInt32) : List UInt32 → List UInt32
  | [] => [x]
  | y :: ys => if cmp mins x y ≤ 0 then x :: y :: ys else y :: place mins x ys

/-- `hashsig_heap_sort`: src/libgit2/hashsig.c:110-114. (`git__qsort_r` is taken to sort; equal values cannot be told apart.) -/
def heapSort (mins : Bool) (h : Heap) : List UInt32 := (h.values.take h.size).foldr (place mins) []

/-- a signature in the making: src/libgit2/hashsig.c:40-45 -/
structure Work where
  mins : Heap
  maxs : Heap
  lines : Nat
  deriving DecidableEq, Repr

/-- both insertions: src/libgit2/hashsig.c:203-204 -/
def insert (w : Work) (x : UInt32) : Res Work := do
  let mins ← heapInsert true w.mins x
  let maxs ← heapInsert false w.maxs x
  .ok { w with mins := mins, maxs := maxs }

/-- `git__isspace_nonlf`: src/util/util.h:243-246 -/
def isspaceNonlf (c : UInt8) : Bool := c = c!" " ∨ c = c!"\t" ∨ c = 0x0c ∨ c = c!"\r" ∨ c = 0x0b

/-- `*scan`, which may be the byte after the text [used at src/libgit2/hashsig.c:174-182] -/
def peek (after d : Bytes) : Res UInt8 :=
  match d ++ after with
  | c :: _ => .ok c
  | [] => .ub

/-- `for (; scan < end && p(ch); ch = *scan) ++scan`: src/libgit2/hashsig.c:176-182. `d` is the text from `scan` on. -/
def skip (p : UInt8 → Bool) (after : Bytes) : UInt8 → Bytes → Res (UInt8 × Bytes)
  | ch, [] => .ok (ch, [])
  | ch, c :: d =>
    if p ch then do
      let ch ← peek after d
      skip p after ch d
    else .ok (ch, c :: d)

/-- what is passed over before a byte is looked at: src/libgit2/hashsig.c:176-182 -/
def passOver (o : Opts) (use : Bool) (after : Bytes) (ch : UInt8) (d : Bytes) : Res (UInt8 × Bytes) :=
  if use then skip isspaceNonlf after ch d
  else if o.ignore ∨ o.smart then skip (fun c => c = c!"\r") after ch d
  else .ok (ch, d)

/-- the state of the loops: src/libgit2/hashsig.c:160-171 -/
structure Run where
  d : Bytes
  len : Nat
  state : UInt64
  use : Bool
  lines : Nat

/-- the loop over one run: src/libgit2/hashsig.c:172-200 -/
def runLoop (o : Opts) (after : Bytes) : Nat → Run → Res Run
  | 0, _ => .ub
  | fuel + 1, r =>
    if r.d = [] ∨ 80 ≤ r.len then .ok r
    else do
      let ch ← peek after r.d
      let (ch, d) ← passOver o r.use after ch r.d
      let use := if o.smart then decide (ch = c!"\n") else r.use
      if d = [] then .ok { r with d := d, use := use }
      else
        let d := d.drop 1
        if ch = c!"\n" ∨ ch = 0 then .ok { r with d := d, use := use, lines := r.lines + 1 }
        else runLoop o after fuel { r with d := d, use := use, len := r.len + 1,
                                           state := r.state <<< 5 - r.state + UInt64.ofNat ch.toNat }

/-- the loop over the text: src/libgit2/hashsig.c:168-212 -/
def hashLoop (o : Opts) (after : Bytes) : Nat → Bytes → Bool → Work → Res (Work × Bool)
  | 0, _, _, _ => .ub
  | fuel + 1, d, use, w =>
    if d = [] then .ok (w, use)
    else do
      let r ← runLoop o after (d.length + 1) ⟨d, 0, 0x012345678ABCDEF0, use, w.lines⟩
      let w := { w with lines := r.lines }
      if 0 < r.len then do
        let w ← insert w r.state.toUInt32
        hashLoop o after fuel (r.d.dropWhile (fun c => c = c!"\n" ∨ c = 0)) r.use w
      else hashLoop o after fuel r.d r.use w

/-- `hashsig_add_hashes`: src/libgit2/hashsig.c:160-215 -/
def addHashes (o : Opts) (after data : Bytes) (use : Bool) (w : Work) : Res (Work × Bool) := hashLoop o after (data.length + 1) data use w

/-- `git_hashsig`, finished: the heaps are sorted [src/libgit2/hashsig.c:39-44] -/
structure HSig where
  mins : List UInt32
  maxs : List UInt32
  lines : Nat
  opt : Opts
  deriving DecidableEq, Repr

/-- `hashsig_finalize_hashes`: src/libgit2/hashsig.c:217-230 (`GIT_EBUFS` is -6; `HASHSIG_HEAP_MIN_SIZE` is 4) -/
def finalize (o : Opts) (w : Work) : Res HSig :=
  if w.mins.size < 4 ∧ ¬ o.small then .err (-6)
  else .ok ⟨heapSort true w.mins, heapSort false w.maxs, w.lines, o⟩

/-- `git_hashsig_create` with `hashsig_alloc` and `hashsig_in_progress_init`: src/libgit2/hashsig.c:136-158, :232-270 -/
def create (o : Opts) (after data : Bytes) : Res HSig :=
  if o.ignore ∧ o.smart then .err (-1)
  else do
    let (w, _) ← addHashes o after data (o.ignore ∨ o.smart) ⟨heapInit, heapInit, 0⟩
    finalize o w

/-- the loop of `git_hashsig_create_fromfile` over what `read` gave: src/libgit2/hashsig.c:294-303. What is behind the bytes read is the rest of
the buffer, or what is behind that. -/
def blocks (o : Opts) : List (Bytes × Bytes) → Bool → Work → Res Work
  | [], _, w => .ok w
  | (data, after) :: bs, use, w => do
    let (w, use) ← addHashes o after data use w
    blocks o bs use w

/-- `git_hashsig_create_fromfile`: src/libgit2/hashsig.c:272-316, for a file that can be read -/
def createFromFile (o : Opts) (reads : List (Bytes × Bytes)) : Res HSig :=
  if o.ignore ∧ o.smart then .err (-1)
  else do
    let w ← blocks o reads (o.ignore ∨ o.smart) ⟨heapInit, heapInit, 0⟩
    finalize o w

/-- the loop of `hashsig_heap_compare`: src/libgit2/hashsig.c:331-341 -/
def matchLoop (mins : Bool) : Nat → List UInt32 → List UInt32 → Nat → Res Nat
  | 0, _, _, _ => .ub
  | fuel + 1, a :: as, b :: bs, n =>
    if cmp mins a b < 0 then matchLoop mins fuel as (b :: bs) n
    else if 0 < cmp mins a b then matchLoop mins fuel (a :: as) bs n
    else matchLoop mins fuel as bs (n + 1)
  | _ + 1, _, _, n => .ok n

/-- `hashsig_heap_compare`: src/libgit2/hashsig.c:323-344 -/
def heapCompare (mins : Bool) (a b : List UInt32) : Res Nat := do
  let n ← matchLoop mins (a.length + b.length + 1) a b 0
  if a.length + b.length = 0 then .ub else .ok (100 * (n * 2) / (a.length + b.length))

/-- `git_hashsig_compare`: src/libgit2/hashsig.c:346-375 -/
def compare (a b : HSig) : Res Nat :=
  if a.mins.length = 0 ∧ b.mins.length = 0 then
    if (a.lines = 0 ∧ b.lines = 0) ∨ a.opt.ignore then .ok 100 else .ok 0
  else if a.mins.length < heapSize then heapCompare true a.mins b.mins
  else do
    let mins ← heapCompare true a.mins b.mins
    let maxs ← heapCompare false a.maxs b.maxs
    .ok ((mins + maxs) / 2)

end Verif.Hashsig
