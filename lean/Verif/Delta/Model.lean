import Verif.Base
import Verif.Delta.Tables
/-! # Model of `src/libgit2/delta.c`

Sizes and offsets are natural numbers; where the C code stores them in 32-bit variables the model either
checks the bound the C code checks, reduces modulo `2^32`, or (buffer growth) makes the wrapped case visible as `ub`. -/

namespace Verif.Delta

/-- `HASH_LIMIT`: src/libgit2/delta.c:11 -/
def HASH_LIMIT : Nat := 64
/-- `RABIN_SHIFT`, `RABIN_WINDOW`: src/libgit2/delta.c:13-14 -/
def RABIN_SHIFT : UInt32 := 23
/-- [src/libgit2/delta.c:14] -/
def RABIN_WINDOW : Nat := 16
/-- `MAX_OP_SIZE`: src/libgit2/delta.c:268 -/
def MAX_OP_SIZE : Nat := 5 + 5 + 1 + RABIN_WINDOW + 7
/-- [limits.h, used at src/libgit2/delta.c:289-291] -/
def UINT_MAX : Nat := 0xffffffff

/-! ## The index of the reference buffer -/

/-- `val = ((val << 8) | c) ^ T[val >> RABIN_SHIFT]` (src/libgit2/delta.c:198, :329, :340, :427);
indexing `T` outside its 256 entries is `ub`. -/
def roll (val : UInt32) (c : UInt8) : Res UInt32 :=
  match T[(val >>> RABIN_SHIFT).toNat]? with
  | none => .ub
  | some t => .ok (((val <<< 8) ||| c.toUInt32) ^^^ t)

/-- `roll` over a window of bytes: the `for` loops at src/libgit2/delta.c:197-198 and :425-428. -/
def rollAll (val : UInt32) : Bytes → Res UInt32
  | [] => .ok val
  | c :: cs => match roll val c with
    | .ok v => rollAll v cs
    | .err e => .err e
    | .ub => .ub

/-- `struct index_entry`: src/libgit2/delta.c:108-112; `ptr` is an offset into the reference buffer and `next` is the rest
of the bucket list. -/
structure Entry where
  ptr : Nat
  val : UInt32
  deriving DecidableEq, Repr

/-- `struct git_delta_index`: src/libgit2/delta.c:114-120 (`memsize` omitted). `hash i` is bucket `i`, head first. -/
structure Index where
  src : Bytes
  hmask : UInt32
  hash : Nat → List Entry

/-- State of the population loop: `hash`, `prev_val`, `hash_count` and whether `entry[-1]` exists. [src/libgit2/delta.c:196-218] -/
structure Pop where
  hash : Nat → List Entry
  count : Nat → Nat
  prev : UInt32
  any : Bool

/-- The body of the population loop for the block starting at `data`: src/libgit2/delta.c:196-211.
`entry[-1]` is the entry pushed last, i.e. the head of the bucket of `prev_val`; when there is none the write is `ub`. -/
def popStep (buf : Bytes) (hmask : UInt32) (p : Pop) (data : Nat) : Res Pop := do
  let w ← slice buf (data + 1) RABIN_WINDOW
  let val ← rollAll 0 w
  let i := (val &&& hmask).toNat
  if val = p.prev then
    if p.any then
      match p.hash i with
      | [] => .ub
      | e :: es => .ok { p with hash := fun j => if j = i then { e with ptr := data + RABIN_WINDOW } :: es else p.hash j }
    else .ub
  else
    .ok { hash := fun j => if j = i then { ptr := data + RABIN_WINDOW, val := val } :: p.hash i else p.hash j
          count := fun j => if j = i then p.count i + 1 else p.count j
          prev := val
          any := true }

/-- The population loop, from the last block down to the first: src/libgit2/delta.c:191-213.
`k` blocks remain; the next one starts at `(k - 1) * RABIN_WINDOW`. -/
def populate (buf : Bytes) (hmask : UInt32) : Nat → Pop → Res Pop
  | 0, p => .ok p
  | k + 1, p =>
    match popStep buf hmask p (k * RABIN_WINDOW) with
    | .ok p' => populate buf hmask k p'
    | .err e => .err e
    | .ub => .ub

/-- `do { entry = entry->next; } while (--skip && entry)`: src/libgit2/delta.c:235-237, on the list following `keep`.
`skip` is a C `int`: starting from 0 it becomes negative and never reaches 0 again. -/
def cullSkip (skip : Int) : List Entry → List Entry
  | [] => []
  | _ :: es =>
    -- entry = entry->next was the first element; test --skip && entry
    if skip - 1 = 0 then es else cullSkip (skip - 1) es

/-- The outer culling loop `do { keep = entry; ...; keep->next = entry; } while (entry)`: src/libgit2/delta.c:231-239.
The argument list starts at `entry`. `keep` stays, the following `max skip 1 - 1` entries are dropped
(all of them when `skip = 0`). -/
def cull (skip : Int) : Nat → List Entry → List Entry
  | 0, es => es
  | _ + 1, [] => []
  | fuel + 1, keep :: rest =>
    -- `rest` is keep->next ...: first iteration of the inner loop moves to the head of `rest`
    match rest with
    | [] => [keep]
    | r :: rs =>
      let es := if skip - 1 = 0 then r :: rs else cullSkip (skip - 1) (r :: rs)
      keep :: cull skip fuel es

/-- the size of the hash table: `for (i = 4; i < 31 && (1u << i) < hsize; i++)`: src/libgit2/delta.c:172-174 -/
def hashBits (hsize : Nat) : Nat → Nat → Nat
  | 0, i => i
  | fuel + 1, i => if i < 31 ∧ 2 ^ i < hsize then hashBits hsize fuel (i + 1) else i

/-- number of indexed blocks: src/libgit2/delta.c:164-171 -/
def numEntries (bufsize : Nat) : Nat :=
  if 0xffffffff ≤ bufsize then 0xfffffffe / RABIN_WINDOW
  else ((bufsize - 1) % 2 ^ 32) / RABIN_WINDOW

/-- `git_delta_index_init`: src/libgit2/delta.c:145-250. `none` models the NULL index for an empty buffer; the
allocation-size overflow test of `lookup_index_alloc` cannot trigger with 64-bit `size_t` and is omitted. -/
def indexInit (buf : Bytes) : Res (Option Index) :=
  if buf.length = 0 then .ok none
  else
    let entries := numEntries buf.length
    let bits := hashBits (entries / 4) 27 4
    let hmask : UInt32 := UInt32.ofNat (2 ^ bits - 1)
    match populate buf hmask entries { hash := fun _ => [], count := fun _ => 0, prev := 0xffffffff, any := false } with
    | .err e => .err e
    | .ub => .ub
    | .ok p =>
      .ok (some {
        src := buf
        hmask := hmask
        hash := fun i =>
          if p.count i < HASH_LIMIT then p.hash i
          else cull (p.count i / HASH_LIMIT / 2 : Nat) (p.count i) (p.hash i) })

/-! ## Creating a delta -/

/-- The header loop `while (i >= 0x80) { buf[bufpos++] = i | 0x80; i >>= 7; } buf[bufpos++] = i`:
src/libgit2/delta.c:305-310 and :313-318. -/
def hdrBytes (i : Nat) : Bytes :=
  if h : 0x80 ≤ i then (UInt8.ofNat (i % 128 + 128)) :: hdrBytes (i / 128) else [UInt8.ofNat i]
  termination_by i
  decreasing_by omega

/-- length of the match `while (ref_size-- && *src++ == *ref) ref++`: src/libgit2/delta.c:352-353 -/
def matchLen : Nat → Bytes → Bytes → Nat
  | n + 1, a :: as, b :: bs => if a = b then matchLen n as bs + 1 else 0
  | _, _, _ => 0

/-- The scan of one bucket: src/libgit2/delta.c:342-361. Returns the new `(moff, msize)`. -/
def scan (ref trg : Bytes) (data : Nat) (val : UInt32) : List Entry → Nat → Nat → Nat × Nat
  | [], moff, msize => (moff, msize)
  | e :: es, moff, msize =>
    let refSize := ref.length - e.ptr
    if e.val ≠ val then scan ref trg data val es moff msize
    else
      let refSize := if trg.length - data < refSize then trg.length - data else refSize
      if refSize ≤ msize then (moff, msize)
      else
        let m := matchLen refSize (trg.drop data) (ref.drop e.ptr)
        if msize < m then
          if 4096 ≤ m then (e.ptr, m) else scan ref trg data val es e.ptr m
        else scan ref trg data val es moff msize

/-- Variables of the main loop. `buf` is `buf[0 .. bufpos)`; count slots not yet filled in hold 0. [src/libgit2/delta.c:276-283] -/
structure St where
  buf : Bytes
  bufsize : Nat
  inscnt : Nat
  data : Nat
  moff : Nat
  msize : Nat
  val : UInt32
  deriving Repr

/-- Appending bytes at `bufpos`; writing past the allocated `bufsize` is `ub`. [src/libgit2/delta.c:297-440] -/
def put (bufsize : Nat) (buf bs : Bytes) : Res Bytes :=
  if buf.length + bs.length ≤ bufsize then .ok (buf ++ bs) else .ub

/-- Insert one literal byte: src/libgit2/delta.c:365-374. -/
def insertStep (trg : Bytes) (s : St) : Res St :=
  match trg[s.data]? with
  | none => .ub
  | some c => do
    let buf ← put s.bufsize s.buf (if s.inscnt = 0 then [0, c] else [c])
    let inscnt := s.inscnt + 1
    if inscnt = 0x7f then
      .ok { s with buf := buf.set (buf.length - inscnt - 1) (UInt8.ofNat inscnt), inscnt := 0, data := s.data + 1, msize := 0 }
    else
      .ok { s with buf := buf, inscnt := inscnt, data := s.data + 1, msize := 0 }

/-- Result of the backward extension; `cnt = none` is the C value `inscnt = -1` (count slot removed). [src/libgit2/delta.c:376-391] -/
structure Back where
  buf : Bytes
  moff : Nat
  msize : Nat
  data : Nat
  cnt : Option Nat

/-- `while (moff && ref_data[moff-1] == data[-1])`: the backward extension, src/libgit2/delta.c:380-392.
`inscnt` (the recursion argument) counts down; at zero the count slot is removed and the loop stops.
Reading before the start of the target or outside the reference is `ub`. -/
def backLoop (ref trg : Bytes) : Nat → Bytes → Nat → Nat → Nat → Res Back
  | 0, buf, moff, msize, data => .ok ⟨buf, moff, msize, data, some 0⟩
  | n + 1, buf, moff, msize, data =>
    if moff = 0 then .ok ⟨buf, moff, msize, data, some (n + 1)⟩
    else if data = 0 then .ub
    else match ref[moff - 1]?, trg[data - 1]? with
      | some a, some b =>
        if a = b then
          if n = 0 then .ok ⟨buf.dropLast.dropLast, moff - 1, msize + 1, data - 1, none⟩
          else backLoop ref trg n buf.dropLast (moff - 1) (msize + 1) (data - 1)
        else .ok ⟨buf, moff, msize, data, some (n + 1)⟩
      | _, _ => .ub

/-- byte `k` of a little-endian number [src/libgit2/delta.c:393-414] -/
def byteOf (x k : Nat) : UInt8 := UInt8.ofNat (x / 256 ^ k)

/-- The operand bytes and op-code of a copy instruction: src/libgit2/delta.c:403-420. -/
def copyOp (moff msize : Nat) : Bytes :=
  let part (cond : Bool) (b : UInt8) : Bytes := if cond then [b] else []
  let o0 := byteOf moff 0 ≠ 0
  let o1 := byteOf moff 1 ≠ 0
  let o2 := byteOf moff 2 ≠ 0
  let o3 := byteOf moff 3 ≠ 0
  let s0 := byteOf msize 0 ≠ 0
  let s1 := byteOf msize 1 ≠ 0
  let bit (cond : Bool) (n : Nat) : Nat := if cond then n else 0
  UInt8.ofNat (0x80 + bit o0 1 + bit o1 2 + bit o2 4 + bit o3 8 + bit s0 16 + bit s1 32) ::
    (part o0 (byteOf moff 0) ++ part o1 (byteOf moff 1) ++ part o2 (byteOf moff 2) ++ part o3 (byteOf moff 3) ++
     part s0 (byteOf msize 0) ++ part s1 (byteOf msize 1))

/-- `if (inscnt) { while ...; buf[bufpos - inscnt - 1] = inscnt; inscnt = 0; }`: src/libgit2/delta.c:379-395.
With `inscnt = -1` the store hits `buf[bufpos]`, which the op-code of the copy overwrites. -/
def flushInsert (ref trg : Bytes) (s : St) : Res Back :=
  if s.inscnt ≠ 0 then
    match backLoop ref trg s.inscnt s.buf s.moff s.msize s.data with
    | .ok b => match b.cnt with
      | some n => .ok { b with buf := b.buf.set (b.buf.length - n - 1) (UInt8.ofNat n) }
      | none => .ok b
    | .err e => .err e
    | .ub => .ub
  else .ok ⟨s.buf, s.moff, s.msize, s.data, none⟩

/-- Emit a copy instruction: src/libgit2/delta.c:375-429. -/
def copyStep (ref trg : Bytes) (s : St) : Res St := do
  let b ← flushInsert ref trg s
  let left := if b.msize < 0x10000 then 0 else b.msize - 0x10000
  let msize := b.msize - left
  let buf ← put s.bufsize b.buf (copyOp b.moff msize)
  let data := b.data + msize
  let moff := b.moff + msize
  if left < 4096 then
    if data < RABIN_WINDOW then .ub
    else do
      let w ← slice trg (data - RABIN_WINDOW) RABIN_WINDOW
      let val ← rollAll 0 w
      .ok { s with buf := buf, inscnt := 0, data := data, moff := moff, msize := left, val := val }
  else .ok { s with buf := buf, inscnt := 0, data := data, moff := moff, msize := left }

/-- Search for a match at the current position: src/libgit2/delta.c:335-362. -/
def searchStep (ix : Index) (trg : Bytes) (s : St) : Res St :=
  if s.msize < 4096 then
    if s.data < RABIN_WINDOW then .ub
    else
      match trg[s.data - RABIN_WINDOW]?, trg[s.data]? with
      | some old, some c =>
        match U[old.toNat]? with
        | none => .ub
        | some u => do
          let val ← roll (s.val ^^^ u) c
          let (moff, msize) := scan ix.src trg s.data val (ix.hash (val &&& ix.hmask).toNat) s.moff s.msize
          .ok { s with val := val, moff := moff, msize := msize }
      | _, _ => .ub
  else .ok s

/-- Grow the output buffer: src/libgit2/delta.c:431-443. `none` is the `break` when the limit is exceeded.
`bufsize * 3` is computed in 32 bits. -/
def growStep (maxSize : Nat) (s : St) : Option St :=
  if s.bufsize - MAX_OP_SIZE ≤ s.buf.length then
    let bufsize := (s.bufsize * 3) % 2 ^ 32 / 2
    let bufsize := if maxSize ≠ 0 ∧ maxSize ≤ bufsize then maxSize + MAX_OP_SIZE + 1 else bufsize
    if maxSize ≠ 0 ∧ maxSize < s.buf.length then none
    else some { s with bufsize := bufsize }
  else some s

/-- One iteration of the main loop: src/libgit2/delta.c:335-443. The flag tells whether the loop goes on (`false`: `break`). -/
def loopStep (ix : Index) (trg : Bytes) (maxSize : Nat) (s : St) : Res (Bool × St) := do
  let s ← searchStep ix trg s
  let s ← (if s.msize < 4 then insertStep trg s else copyStep ix.src trg s)
  match growStep maxSize s with
  | none => .ok (false, s)
  | some s => .ok (true, s)

/-- The main loop `while (data < top)`: src/libgit2/delta.c:334-444. Running out of fuel is `ub` (non-termination). -/
def mainLoop (ix : Index) (trg : Bytes) (maxSize : Nat) : Nat → St → Res St
  | 0, s => if s.data < trg.length then .ub else .ok s
  | fuel + 1, s =>
    if s.data < trg.length then
      match loopStep ix trg maxSize s with
      | .ub => .ub
      | .err e => .err e
      | .ok (true, s) => mainLoop ix trg maxSize fuel s
      | .ok (false, s) => .ok s
    else .ok s

/-- `GIT_EBUFS` : include/git2/errors.h -/
def EBUFS : Int := -6

/-- The state before the main loop: src/libgit2/delta.c:293-333. -/
def initState (srcSize : Nat) (trg : Bytes) (maxSize : Nat) : Res St := do
  let bufsize := if maxSize ≠ 0 ∧ maxSize ≤ 8192 then maxSize + MAX_OP_SIZE + 1 else 8192
  let buf ← put bufsize [] (hdrBytes srcSize ++ hdrBytes trg.length)
  let w := trg.take RABIN_WINDOW
  let buf ← put bufsize buf (0 :: w)
  let val ← rollAll 0 w
  .ok { buf := buf, bufsize := bufsize, inscnt := w.length, data := w.length, moff := 0, msize := 0, val := val }

/-- `git_delta_create_from_index`: src/libgit2/delta.c:270-456. `.ok none` is success with no delta (empty target). -/
def createFromIndex (ix : Index) (trg : Bytes) (maxSize : Nat) : Res (Option Bytes) :=
  if trg.length = 0 then .ok none
  else if UINT_MAX < ix.src.length ∨ UINT_MAX < trg.length ∨ UINT_MAX - MAX_OP_SIZE - 1 < maxSize then .err (-1)
  else do
    let s ← initState ix.src.length trg maxSize
    let s ← mainLoop ix trg maxSize trg.length s
    let buf := if s.inscnt ≠ 0 then s.buf.set (s.buf.length - s.inscnt - 1) (UInt8.ofNat s.inscnt) else s.buf
    if maxSize ≠ 0 ∧ maxSize < buf.length then .err EBUFS
    else .ok (some buf)

/-- `git_delta`: src/libgit2/delta.h:62-85. -/
def create (src trg : Bytes) (maxSize : Nat) : Res (Option Bytes) := do
  match ← indexInit src with
  | none => .ok none
  | some ix => createFromIndex ix trg maxSize

/-! ## Applying a delta -/

/-- `hdr_sz`: src/libgit2/delta.c:465-487. `(c & 0x7f) << shift` is a 32-bit shift: shifting by 32 or more is undefined. -/
def hdrSz (r : Nat) (shift : Nat) : Bytes → Res (Nat × Bytes)
  | [] => .err (-1)
  | c :: d =>
    if 32 ≤ shift then .ub
    else
      let r := r ||| ((c.toNat % 128) * 2 ^ shift) % 2 ^ 32
      if 128 ≤ c.toNat then hdrSz r (shift + 7) d else .ok (r, d)

/-- `git_delta_read_header`: src/libgit2/delta.c:489-500. -/
def readHeader (delta : Bytes) : Res (Nat × Nat) := do
  let (b, d) ← hdrSz 0 0 delta
  let (r, _) ← hdrSz 0 0 d
  .ok (b, r)

/-- `ADD_DELTA(o, shift)`: src/libgit2/delta.c:575. -/
def addDelta (bit : Bool) (shift : Nat) (o : Nat) (d : Bytes) : Res (Nat × Bytes) :=
  if bit then
    match d with
    | [] => .err (-1)
    | b :: d' => .ok (o ||| b.toNat * 2 ^ shift, d')
  else .ok (o, d)

/-- Operands of a copy instruction: src/libgit2/delta.c:573-585. -/
def copyArgs (cmd : UInt8) (d : Bytes) : Res (Nat × Nat × Bytes) := do
  let (off, d) ← addDelta (cmd &&& 0x01 ≠ 0) 0 0 d
  let (off, d) ← addDelta (cmd &&& 0x02 ≠ 0) 8 off d
  let (off, d) ← addDelta (cmd &&& 0x04 ≠ 0) 16 off d
  let (off, d) ← addDelta (cmd &&& 0x08 ≠ 0) 24 off d
  let (len, d) ← addDelta (cmd &&& 0x10 ≠ 0) 0 0 d
  let (len, d) ← addDelta (cmd &&& 0x20 ≠ 0) 8 len d
  let (len, d) ← addDelta (cmd &&& 0x40 ≠ 0) 16 len d
  .ok (off, if len = 0 then 0x10000 else len, d)

/-- One instruction: src/libgit2/delta.c:568-608. `out` is what has been written to the result buffer of `total` bytes.
Reading outside `base`/`delta` or writing outside the result is `ub`. -/
def applyOne (base : Bytes) (total : Nat) (out : Bytes) (cmd : UInt8) (d : Bytes) : Res (Bytes × Bytes) :=
  if cmd &&& 0x80 ≠ 0 then do
    let (off, len, d) ← copyArgs cmd d
    if 2 ^ 64 ≤ off + len ∨ base.length < off + len ∨ total - out.length < len then .err (-1)
    else do
      let bs ← slice base off len
      if total < out.length + bs.length then .ub
      else .ok (out ++ bs, d)
  else if cmd ≠ 0 then
    if d.length < cmd.toNat ∨ total - out.length < cmd.toNat then .err (-1)
    else do
      let bs ← slice d 0 cmd.toNat
      if total < out.length + bs.length then .ub
      else .ok (out ++ bs, d.drop cmd.toNat)
  else .err (-1)

/-- `while (delta < delta_end)` and the final test: src/libgit2/delta.c:568-614. Fuel: each instruction consumes a byte. -/
def applyLoop (base : Bytes) (total : Nat) : Nat → Bytes → Bytes → Res Bytes
  | _, out, [] => if out.length = total then .ok out else .err (-1)
  | 0, _, _ :: _ => .ub
  | fuel + 1, out, cmd :: d =>
    match applyOne base total out cmd d with
    | .ok (out, d) => applyLoop base total fuel out d
    | .err e => .err e
    | .ub => .ub

/-- `git_delta_apply`: src/libgit2/delta.c:534-628. -/
def apply (base delta : Bytes) : Res Bytes := do
  let (baseSz, d) ← hdrSz 0 0 delta
  if baseSz ≠ base.length then .err (-1)
  else do
    let (resSz, d) ← hdrSz 0 0 d
    applyLoop base resSz d.length [] d

end Verif.Delta
