import Verif.Base
import Verif.Sort.Props
/-! # Dynamic vectors: src/util/vector.c

A vector is a block of `slots` (its `_alloc_size` is their number) of which the first `length` are in use.  Elements are values of a type
with a value `null`.  `mem n` tells whether the allocator can provide `n` bytes.  Accesses outside the block are undefined (`.ub`). -/
namespace Verif.Vec

/-- [stdint.h] -/
def SIZE_MAX : Nat := 2 ^ 64 - 1
/-- `sizeof(void *)` [used at src/util/vector.c:19-45] -/
def PTR : Nat := 8
/-- src/util/vector.c:13 -/
def MIN_ALLOCSIZE : Nat := 8
/-- [include/git2/errors.h:32] -/
def ENOTFOUND : Int := -3

variable {α : Type} [Inhabited α]

/-- NULL [no code] -/
def null : α := default

/-- `struct git_vector`: src/util/vector.h:20-26. -/
structure Vec (α : Type) where
  slots : List α
  length : Nat
  cmp : Option (α → α → Int)
  sorted : Bool

/-- `contents[i]` [no code: src/util/vector.c throughout] -/
def rd (s : List α) (i : Nat) : Res α := match s[i]? with | some x => .ok x | none => .ub
/-- `contents[i] = x` [no code: src/util/vector.c throughout] -/
def wr (s : List α) (i : Nat) (x : α) : Res (List α) := if i < s.length then .ok (s.set i x) else .ub
/-- `memmove(contents + dst, contents + src, n * sizeof(void *))` [used at src/util/vector.c:130-400] -/
def memmove (s : List α) (dst src n : Nat) : Res (List α) :=
  if src + n ≤ s.length ∧ dst + n ≤ s.length then .ok (s.take dst ++ (s.drop src).take n ++ s.drop (dst + n)) else .ub
/-- `memset(contents + at, 0, n * sizeof(void *))` [used at src/util/vector.c:31-45, 342-360] -/
def memset (s : List α) (pos n : Nat) : Res (List α) :=
  if pos + n ≤ s.length then .ok (s.take pos ++ List.replicate n null ++ s.drop (pos + n)) else .ub

/-- `compute_new_size`: src/util/vector.c:15-29. -/
def computeNewSize (alloc : Nat) : Nat :=
  if alloc < MIN_ALLOCSIZE then MIN_ALLOCSIZE
  else if alloc ≤ SIZE_MAX / 3 * 2 then alloc + alloc / 2
  else SIZE_MAX

/-- `resize_vector`: src/util/vector.c:31-45; `git__reallocarray` fails on overflow. Growing adds slots (of unknown content; here NULL),
shrinking cuts them. -/
def resize (mem : Nat → Bool) (v : Vec α) (newSize : Nat) : Res (Vec α) :=
  if newSize = 0 then .ok v
  else if newSize * PTR > SIZE_MAX || !mem (newSize * PTR) then .err (-1)
  else .ok { v with slots := v.slots.take newSize ++ List.replicate (newSize - v.slots.length) null }

/-- `git_vector_size_hint`: src/util/vector.c:47-52. -/
def sizeHint (mem : Nat → Bool) (v : Vec α) (hint : Nat) : Res (Vec α) := if v.slots.length ≥ hint then .ok v else resize mem v hint

/-- `git_vector_init`: src/util/vector.c:106-117. -/
def init (mem : Nat → Bool) (initial : Nat) (cmp : Option (α → α → Int)) : Res (Vec α) := resize mem ⟨[], 0, cmp, true⟩ (max initial MIN_ALLOCSIZE)

/-- the growing step of the insertions: src/util/vector.c:139-141 -/
def grow (mem : Nat → Bool) (v : Vec α) : Res (Vec α) := if v.length ≥ v.slots.length then resize mem v (computeNewSize v.slots.length) else .ok v

/-- `git_vector_insert`: src/util/vector.c:135-148. -/
def insert (mem : Nat → Bool) (v : Vec α) (x : α) : Res (Vec α) :=
  grow mem v >>= fun v => wr v.slots v.length x >>= fun s => .ok { v with slots := s, length := v.length + 1, sorted := decide (v.length + 1 ≤ 1) }

/-- `git_vector_sort`: src/util/vector.c:185-193. -/
def sort (v : Vec α) : Res (Vec α) :=
  if v.sorted then .ok v
  else
    match v.cmp with
    | none => .ok v
    | some cmp =>
      (if v.length > 1 then Sort.tsort cmp (v.slots.take v.length) else .ok (v.slots.take v.length)) >>= fun c =>
        .ok { v with slots := c ++ v.slots.drop v.length, sorted := true }

/-- `git_vector_insert_sorted`: src/util/vector.c:150-183.  `onDup old new` is the callback: what it returns and what it leaves in the slot. -/
def insertSorted (mem : Nat → Bool) (v : Vec α) (x : α) (onDup : Option (α → α → Int × α)) : Res (Int × Vec α) :=
  match v.cmp with
  | none => .err (-1)
  | some cmp =>
    sort v >>= fun v => grow mem v >>= fun v =>
    Sort.bsearch (cmp x) (v.slots.take v.length) >>= fun (found, pos) =>
    let insertAt (s : List α) : Res (Int × Vec α) :=
      (if pos < v.length then memmove s (pos + 1) pos (v.length - pos) else .ok s) >>= fun s =>
      wr s pos x >>= fun s => .ok (0, { v with slots := s, length := v.length + 1 })
    if found then
      match onDup with
      | none => insertAt v.slots
      | some f =>
        rd v.slots pos >>= fun old =>
        wr v.slots pos (f old x).2 >>= fun s =>
        if (f old x).1 < 0 then .ok ((f old x).1, { v with slots := s }) else insertAt s
    else insertAt v.slots

/-- `git_vector_bsearch2`: src/util/vector.c:195-212; `key e` is `key_lookup(key, e)`. -/
def bsearch (key : α → Int) (v : Vec α) : Res (Bool × Nat × Vec α) :=
  match v.cmp with
  | none => .err (-1)
  | some _ => sort v >>= fun v => Sort.bsearch key (v.slots.take v.length) >>= fun (found, pos) => .ok (found, pos, v)

/-- `git_vector_search2`: src/util/vector.c:214-233; the position, or none for GIT_ENOTFOUND -/
def search (key : α → Int) (v : Vec α) : Nat → Nat → Res (Option Nat)
  | 0, _ => .ok none
  | fuel + 1, i =>
    if i < v.length then rd v.slots i >>= fun e => if key e = 0 then .ok (some i) else search key v fuel (i + 1)
    else .ok none

/-- `git_vector_remove`: src/util/vector.c:245-262. -/
def remove (v : Vec α) (idx : Nat) : Res (Vec α) :=
  if idx ≥ v.length then .err ENOTFOUND
  else
    (if v.length - idx - 1 ≠ 0 then memmove v.slots idx (idx + 1) (v.length - idx - 1) else .ok v.slots) >>= fun s =>
      .ok { v with slots := s, length := v.length - 1 }

/-- `git_vector_pop`: src/util/vector.c:264-268. -/
def pop (v : Vec α) : Vec α := if v.length > 0 then { v with length := v.length - 1 } else v

/-- the loop of `git_vector_uniq`: src/util/vector.c:281-288; the new slots and the last `i` -/
def uniqLoop (cmp : α → α → Int) (length : Nat) : Nat → Nat → Nat → List α → Res (List α × Nat)
  | 0, i, _, s => .ok (s, i)
  | fuel + 1, i, j, s =>
    if j < length then
      rd s i >>= fun a => rd s j >>= fun b =>
      if cmp a b = 0 then wr s i b >>= fun s => uniqLoop cmp length fuel i (j + 1) s
      else wr s (i + 1) b >>= fun s => uniqLoop cmp length fuel (i + 1) (j + 1) s
    else .ok (s, i)

/-- `git_vector_uniq`: src/util/vector.c:270-291; `strict` is `strict_comparison` (:235-238).  After the loop `j` is the length. -/
def uniq (strict : α → α → Int) (v : Vec α) : Res (Vec α) :=
  if v.length ≤ 1 then .ok v
  else
    sort v >>= fun v =>
    uniqLoop (v.cmp.getD strict) v.length v.length 0 1 v.slots >>= fun (s, i) =>
    .ok { v with slots := s, length := v.length - (v.length - i - 1) }

/-- the loop of `git_vector_remove_matching`: src/util/vector.c:300-305; the callback looks at the element at the index it is given -/
def matchLoop (mtch : α → Bool) (length : Nat) : Nat → Nat → Nat → List α → Res (List α × Nat)
  | 0, i, _, s => .ok (s, i)
  | fuel + 1, i, j, s =>
    if j < length then
      rd s j >>= fun b => wr s i b >>= fun s =>
      rd s i >>= fun e => matchLoop mtch length fuel (if mtch e then i else i + 1) (j + 1) s
    else .ok (s, i)

/-- `git_vector_remove_matching`: src/util/vector.c:293-308. -/
def removeMatching (mtch : α → Bool) (v : Vec α) : Res (Vec α) :=
  matchLoop mtch v.length v.length 0 0 v.slots >>= fun (s, i) => .ok { v with slots := s, length := i }

/-- `git_vector_clear`: src/util/vector.c:310-314. -/
def clear (v : Vec α) : Vec α := { v with length := 0, sorted := true }

/-- `git_vector_resize_to`: src/util/vector.c:327-340. -/
def resizeTo (mem : Nat → Bool) (v : Vec α) (newLength : Nat) : Res (Vec α) :=
  (if newLength > v.slots.length then resize mem v newLength else .ok v) >>= fun v =>
  (if newLength > v.length then memset v.slots v.length (newLength - v.length) else .ok v.slots) >>= fun s =>
  .ok { v with slots := s, length := newLength }

/-- `git_vector_insert_null`: src/util/vector.c:342-360; the assertions return -1 -/
def insertNull (mem : Nat → Bool) (v : Vec α) (idx len : Nat) : Res (Vec α) :=
  if ¬ len > 0 ∨ ¬ idx ≤ v.length then .err (-1)
  else if v.length + len > SIZE_MAX then .err (-1)
  else
    (if v.length + len > v.slots.length then resize mem v (v.length + len) else .ok v) >>= fun v =>
    memmove v.slots (idx + len) idx (v.length - idx) >>= fun s =>
    memset s idx len >>= fun s => .ok { v with slots := s, length := v.length + len }

/-- `git_vector_remove_range`: src/util/vector.c:362-382 -/
def removeRange (v : Vec α) (idx len : Nat) : Res (Vec α) :=
  if ¬ len > 0 then .err (-1)
  else if idx + len > SIZE_MAX then .err (-1)
  else if ¬ idx + len ≤ v.length then .err (-1)
  else
    (if idx + len < v.length then memmove v.slots idx (idx + len) (v.length - (idx + len)) else .ok v.slots) >>= fun s =>
    memset s (v.length - len) len >>= fun s => .ok { v with slots := s, length := v.length - len }

/-- `git_vector_set`: src/util/vector.c:384-397; `position + 1` wraps around -/
def set (mem : Nat → Bool) (v : Vec α) (position : Nat) (x : α) : Res (α × Vec α) :=
  (if (position + 1) % 2 ^ 64 > v.length then resizeTo mem v ((position + 1) % 2 ^ 64) else .ok v) >>= fun v =>
  rd v.slots position >>= fun old => wr v.slots position x >>= fun s => .ok (old, { v with slots := s })

/-- the loop of `git_vector_reverse`: src/util/vector.c:424-430 -/
def reverseLoop : Nat → Nat → Nat → List α → Res (List α)
  | 0, _, _, s => .ok s
  | fuel + 1, a, b, s =>
    if a < b then
      rd s a >>= fun x => rd s b >>= fun y => wr s a y >>= fun s => wr s b x >>= fun s => reverseLoop fuel (a + 1) (b - 1) s
    else .ok s

/-- `git_vector_reverse`: src/util/vector.c:414-431; the order flag is left alone -/
def reverse (v : Vec α) : Res (Vec α) :=
  if v.length = 0 then .ok v else reverseLoop v.length 0 (v.length - 1) v.slots >>= fun s => .ok { v with slots := s }

end Verif.Vec
