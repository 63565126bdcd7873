import Verif.Patch.ModelEmit
/-! # The differences of two texts (deps/xdiff/xdiffi.c, deps/xdiff/xprepare.c, deps/xdiff/xutils.c)

`xdl_diff` up to the script of changes, which `Verif.Patch.emitDiff` makes into hunks. No white space is ignored and the algorithm is the default one (Myers), with or without
`GIT_DIFF_MINIMAL` and `GIT_DIFF_INDENT_HEURISTIC`; the flags for white space, blank lines and `GIT_DIFF_PATIENCE` are not modelled. Memory is always available.
A `long` is an integer without bounds here: `git_xdiff` is not called for files of 2^30 bytes or more (`GIT_XDIFF_MAX_SIZE`). Loops have a bound on their rounds, and reaching it
would be `.ub`: the theorems say it does not happen. `XDL_BUG` is an error, as in deps/xdiff/git-xdiff.h. -/
namespace Verif.Xdiff
open Verif.Patch (Change splitLines)

/-! ## The lines and their classes -/

/-- `xdl_hash_record` without flags: deps/xdiff/xutils.c:297-311; a `char` is signed. Of a line, without its newline -/
def hashRecord (l : Bytes) : UInt64 :=
  (l.takeWhile (· ≠ c!"\n")).foldl (fun ha c => (ha + (ha <<< 5)) ^^^ (if c < 128 then c.toUInt64 else c.toUInt64 ||| 0xffffffffffffff00)) 5381

/-- `xdlclass_t`: deps/xdiff/xprepare.c:33-40, without the link of its bucket -/
structure Cls where
  ha : UInt64
  line : Bytes
  idx : Nat
  len1 : Nat
  len2 : Nat

/-- one more line in a class: deps/xdiff/xprepare.c:140 -/
def Cls.count (first : Bool) (c : Cls) : Cls := if first then { c with len1 := c.len1 + 1 } else { c with len2 := c.len2 + 1 }

/-- `xdl_classify_record`: deps/xdiff/xprepare.c:109-149. The classes are one list, the last first: the buckets only make it faster (classes of equal hashes are in one
bucket). The number of the class becomes the hash of the line -/
def classify (first : Bool) (cf : List Cls) (line : Bytes) : List Cls × Nat :=
  match cf.find? fun c => c.ha == hashRecord line && c.line == line with
  | some c => (cf.map fun d => if d.idx = c.idx then d.count first else d, c.idx)
  | none => (({ ha := hashRecord line, line := line, idx := cf.length, len1 := 0, len2 := 0 } : Cls).count first :: cf, cf.length)

/-- `xdl_prepare_ctx`: deps/xdiff/xprepare.c:178-195, the numbers of the classes of the lines -/
def prepareCtx (first : Bool) : List Cls → List Bytes → List Cls × List Nat
  | cf, [] => (cf, [])
  | cf, l :: ls => ((prepareCtx first (classify first cf l).1 ls).1, (classify first cf l).2 :: (prepareCtx first (classify first cf l).1 ls).2)

/-! ## Lines that need not be compared -/

/-- how many lines are the same at the beginning: deps/xdiff/xprepare.c:432-435 -/
def commonPrefix : List Nat → List Nat → Nat
  | a :: as, b :: bs => if a ≠ b then 0 else commonPrefix as bs + 1
  | _, _ => 0

/-- `xdl_trim_ends`: deps/xdiff/xprepare.c:426-449. How many lines are the same at the beginning and, of the others, at the end -/
def trimEnds (a b : List Nat) : Nat × Nat :=
  (commonPrefix a b, min (min a.length b.length - commonPrefix a b) (commonPrefix a.reverse b.reverse))

/-- `xdl_bogosqrt`: deps/xdiff/xutils.c:26-36 -/
def bogosqrt (n : Nat) : Nat := if n = 0 then 1 else 2 * bogosqrt (n / 4)

/-- the loops of `xdl_clean_mmatch`: deps/xdiff/xprepare.c:323-330, 340-347. How many lines are without match, and how many have many, up to the first that has some -/
def scanRun : List Nat → Nat × Nat
  | [] => (0, 0)
  | 0 :: ds => ((scanRun ds).1 + 1, (scanRun ds).2)
  | 2 :: ds => ((scanRun ds).1, (scanRun ds).2 + 1)
  | _ :: _ => (0, 0)

/-- `xdl_clean_mmatch`: deps/xdiff/xprepare.c:303-358; `e` is after the last line -/
def cleanMmatch (dis : List Nat) (i s e : Nat) : Bool :=
  let s := if i - s > 100 then i - 100 else s
  let e := if e - 1 - i > 100 then i + 101 else e
  let b := scanRun ((dis.take i).drop s).reverse
  if b.1 = 0 then false
  else
    let a := scanRun ((dis.take e).drop (i + 1))
    if a.1 = 0 then false
    else decide ((a.2 + 1 + (b.2 + 1)) * 4 < (a.2 + 1 + (b.2 + 1)) + (a.1 + b.1))

/-- whether a line has no match (0), some (1) or many (2): deps/xdiff/xprepare.c:377-383; `nm` is the number of matches -/
def disOf (mlim nm : Nat) : Nat := if nm = 0 then 0 else if nm ≥ mlim then 2 else 1

/-- the limit of `xdl_cleanup_records`: deps/xdiff/xprepare.c:377-378 -/
def eqLimit (nrec : Nat) : Nat := if bogosqrt nrec > 1024 then 1024 else bogosqrt nrec

/-- `rcrecs[ha]` and one of its counters: deps/xdiff/xprepare.c:380-381 -/
def matchesOf (first : Bool) (cf : List Cls) (ha : Nat) : Nat :=
  match cf.find? fun c => c.idx == ha with
  | some c => if first then c.len2 else c.len1
  | none => 0

/-- `dis1` or `dis2`: deps/xdiff/xprepare.c:372-391; zero outside of the range -/
def disList (first : Bool) (cf : List Cls) (ha : List Nat) (s e : Nat) : List Nat :=
  (List.range ha.length).map fun i => if s ≤ i ∧ i < e then disOf (eqLimit ha.length) (matchesOf first cf (ha.getD i 0)) else 0

/-- whether a line is compared: deps/xdiff/xprepare.c:395-396 -/
def stays (dis : List Nat) (s e i : Nat) : Bool := dis.getD i 0 == 1 || (dis.getD i 0 == 2 && !cleanMmatch dis i s e)

/-- `rindex` and `rchg` for one of the files: the loops of `xdl_cleanup_records`, deps/xdiff/xprepare.c:393-415 -/
def cleanup (first : Bool) (cf : List Cls) (ha : List Nat) (s e : Nat) : List Nat × List Bool :=
  let dis := disList first cf ha s e
  (((List.range ha.length).filter fun i => decide (s ≤ i ∧ i < e) && stays dis s e i),
    (List.range ha.length).map fun i => decide (s ≤ i ∧ i < e) && !stays dis s e i)

/-! ## The search for a point between -/

/-- `xdalgoenv_t`: deps/xdiff/xdiffi.h -/
structure Env where
  mxcost : Int
  snakeCnt : Int
  heurMin : Int

/-- an array of `kvd`: what was not written in this call is not known -/
abbrev KV := Int → Option Int

/-- `kvd[d] = v` -/
def KV.set (k : KV) (d v : Int) : KV := fun e => if e = d then some v else k e

/-- `ha1[i1] == ha2[i2]` -/
def same (h1 h2 : List Nat) (i1 i2 : Int) : Bool := h1.getD i1.toNat 0 == h2.getD i2.toNat 0

/-- follow matching lines: deps/xdiff/xdiffi.c:90; `n` bounds the steps -/
def snake (m : Int → Int → Bool) (lim1 lim2 : Int) : Nat → Int → Int → Int
  | 0, x, _ => x
  | n + 1, x, y => if x < lim1 ∧ y < lim2 ∧ m x y = true then snake m lim1 lim2 n (x + 1) (y + 1) else x

/-- follow matching lines backward: deps/xdiff/xdiffi.c:127 -/
def bsnake (m : Int → Int → Bool) (off1 off2 : Int) : Nat → Int → Int → Int
  | 0, x, _ => x
  | n + 1, x, y => if x > off1 ∧ y > off2 ∧ m (x - 1) (y - 1) = true then bsnake m off1 off2 n (x - 1) (y - 1) else x

/-- the diagonals of a loop, `for (d = hi; d >= lo; d -= 2)` -/
def diags (lo hi : Int) : List Int := (List.range ((hi - lo) / 2 + 1).toNat).map fun (i : Nat) => hi - 2 * (i : Int)

/-- a box of lines: from `off` up to `lim` -/
structure Box where
  off1 : Int
  lim1 : Int
  off2 : Int
  lim2 : Int

/-- how a loop of a round ends: the paths met at a point, or not -/
inductive Met where
  | at (i1 i2 : Int)
  | no (k : KV) (got : Bool)

/-- the forward loop of a round: deps/xdiff/xdiffi.c:83-100; `bmin`, `bmax` and `kvdb` are those of the round before -/
def forward (h1 h2 : List Nat) (env : Env) (b : Box) (odd : Bool) (bmin bmax : Int) (kvdb : KV) : List Int → KV → Bool → Res Met
  | [], k, got => .ok (.no k got)
  | d :: ds, k, got =>
    match k (d - 1), k (d + 1) with
    | some a, some c =>
      let prev1 := if a ≥ c then a + 1 else c
      if prev1 < 0 ∨ prev1 - d < 0 then .ub
      else
        let i1 := snake (same h1 h2) b.lim1 b.lim2 (b.lim1 - prev1).toNat prev1 (prev1 - d)
        let k := k.set d i1
        let got := got || decide (i1 - prev1 > env.snakeCnt)
        if odd = true ∧ bmin ≤ d ∧ d ≤ bmax then
          match kvdb d with
          | some v => if v ≤ i1 then .ok (.at i1 (i1 - d)) else forward h1 h2 env b odd bmin bmax kvdb ds k got
          | none => .ub
        else forward h1 h2 env b odd bmin bmax kvdb ds k got
    | _, _ => .ub

/-- the backward loop of a round: deps/xdiff/xdiffi.c:120-137 -/
def backward (h1 h2 : List Nat) (env : Env) (b : Box) (odd : Bool) (fmin fmax : Int) (kvdf : KV) : List Int → KV → Bool → Res Met
  | [], k, got => .ok (.no k got)
  | d :: ds, k, got =>
    match k (d - 1), k (d + 1) with
    | some a, some c =>
      let prev1 := if a < c then a else c - 1
      if (h1.length : Int) < prev1 ∨ (h2.length : Int) < prev1 - d then .ub
      else
        let i1 := bsnake (same h1 h2) b.off1 b.off2 (prev1 - b.off1).toNat prev1 (prev1 - d)
        let k := k.set d i1
        let got := got || decide (prev1 - i1 > env.snakeCnt)
        if odd = false ∧ fmin ≤ d ∧ d ≤ fmax then
          match kvdf d with
          | some v => if i1 ≤ v then .ok (.at i1 (i1 - d)) else backward h1 h2 env b odd fmin fmax kvdf ds k got
          | none => .ub
        else backward h1 h2 env b odd fmin fmax kvdf ds k got
    | _, _ => .ub

/-- `xdpsplit_t`: deps/xdiff/xdiffi.c:31-34 -/
structure Spl where
  i1 : Int
  i2 : Int
  minLo : Bool
  minHi : Bool

/-- a run of matching lines that ends before a point: deps/xdiff/xdiffi.c:162-168; the loop ends at the first that differs -/
def snakeBefore (m : Int → Int → Bool) (cnt : Int) (i1 i2 : Int) : Bool := (List.range cnt.toNat).all fun k => m (i1 - (k : Int) - 1) (i2 - (k : Int) - 1)

/-- a run of matching lines that begins at a point: deps/xdiff/xdiffi.c:186-192 -/
def snakeAfter (m : Int → Int → Bool) (cnt : Int) (i1 i2 : Int) : Bool := (List.range cnt.toNat).all fun k => m (i1 + (k : Int)) (i2 + (k : Int))

/-- the distance of diagonals: deps/xdiff/xdiffi.c:154, 178 -/
def away (d mid : Int) : Int := if d > mid then d - mid else mid - d

/-- the best path forward that is interesting: deps/xdiff/xdiffi.c:153-170 -/
def heurForward (h1 h2 : List Nat) (env : Env) (b : Box) (ec : Int) (kvdf : KV) : List Int → Int → Int × Int → Res (Int × (Int × Int))
  | [], best, spl => .ok (best, spl)
  | d :: ds, best, spl =>
    match kvdf d with
    | none => .ub
    | some i1 =>
      let i2 := i1 - d
      let v := (i1 - b.off1) + (i2 - b.off2) - away d (b.off1 - b.off2)
      if v > 4 * ec ∧ v > best ∧ b.off1 + env.snakeCnt ≤ i1 ∧ i1 < b.lim1 ∧ b.off2 + env.snakeCnt ≤ i2 ∧ i2 < b.lim2 ∧ snakeBefore (same h1 h2) env.snakeCnt i1 i2 = true then
        heurForward h1 h2 env b ec kvdf ds v (i1, i2)
      else heurForward h1 h2 env b ec kvdf ds best spl

/-- the best path backward that is interesting: deps/xdiff/xdiffi.c:177-194 -/
def heurBackward (h1 h2 : List Nat) (env : Env) (b : Box) (ec : Int) (kvdb : KV) : List Int → Int → Int × Int → Res (Int × (Int × Int))
  | [], best, spl => .ok (best, spl)
  | d :: ds, best, spl =>
    match kvdb d with
    | none => .ub
    | some i1 =>
      let i2 := i1 - d
      let v := (b.lim1 - i1) + (b.lim2 - i2) - away d (b.lim1 - b.lim2)
      if v > 4 * ec ∧ v > best ∧ b.off1 < i1 ∧ i1 ≤ b.lim1 - env.snakeCnt ∧ b.off2 < i2 ∧ i2 ≤ b.lim2 - env.snakeCnt ∧ snakeAfter (same h1 h2) env.snakeCnt i1 i2 = true then
        heurBackward h1 h2 env b ec kvdb ds v (i1, i2)
      else heurBackward h1 h2 env b ec kvdb ds best spl

/-- the furthest path forward: deps/xdiff/xdiffi.c:210-220; the sum and its first part -/
def furthest (b : Box) (kvdf : KV) : List Int → Int → Int → Res (Int × Int)
  | [], fbest, fbest1 => .ok (fbest, fbest1)
  | d :: ds, fbest, fbest1 =>
    match kvdf d with
    | none => .ub
    | some x =>
      let i1 := if b.lim2 < min x b.lim1 - d then b.lim2 + d else min x b.lim1
      if fbest < i1 + (i1 - d) then furthest b kvdf ds (i1 + (i1 - d)) i1 else furthest b kvdf ds fbest fbest1

/-- `XDL_LINE_MAX`: deps/xdiff/xdiffi.c:27 -/
def LINE_MAX : Int := 2 ^ 63 - 1

/-- the furthest path backward: deps/xdiff/xdiffi.c:222-232 -/
def nearest (b : Box) (kvdb : KV) : List Int → Int → Int → Res (Int × Int)
  | [], bbest, bbest1 => .ok (bbest, bbest1)
  | d :: ds, bbest, bbest1 =>
    match kvdb d with
    | none => .ub
    | some x =>
      let i1 := if max b.off1 x - d < b.off2 then b.off2 + d else max b.off1 x
      if i1 + (i1 - d) < bbest then nearest b kvdb ds (i1 + (i1 - d)) i1 else nearest b kvdb ds bbest bbest1

/-- the state between rounds: deps/xdiff/xdiffi.c:48-60 -/
structure St where
  fmin : Int
  fmax : Int
  bmin : Int
  bmax : Int
  kvdf : KV
  kvdb : KV

/-- the end of a round without meeting: deps/xdiff/xdiffi.c:139-246; a point if it is enough -/
def giveUp (h1 h2 : List Nat) (env : Env) (b : Box) (needMin : Bool) (ec : Int) (st : St) (got : Bool) : Res (Option Spl) :=
  if needMin then .ok none
  else
    (if got = true ∧ ec > env.heurMin then
      heurForward h1 h2 env b ec st.kvdf (diags st.fmin st.fmax) 0 (0, 0) >>= fun f =>
      if f.1 > 0 then .ok (some ⟨f.2.1, f.2.2, true, false⟩)
      else
        heurBackward h1 h2 env b ec st.kvdb (diags st.bmin st.bmax) 0 (0, 0) >>= fun r =>
        if r.1 > 0 then .ok (some ⟨r.2.1, r.2.2, false, true⟩) else .ok none
    else .ok none) >>= fun o =>
    match o with
    | some s => .ok (some s)
    | none =>
      if ec ≥ env.mxcost then
        furthest b st.kvdf (diags st.fmin st.fmax) (-1) (-1) >>= fun f =>
        nearest b st.kvdb (diags st.bmin st.bmax) LINE_MAX LINE_MAX >>= fun r =>
        if (b.lim1 + b.lim2) - r.1 < f.1 - (b.off1 + b.off2) then .ok (some ⟨f.2, f.1 - f.2, true, false⟩)
        else .ok (some ⟨r.2, r.1 - r.2, false, true⟩)
      else .ok none

/-- a larger domain for the paths: deps/xdiff/xdiffi.c:74-81, 111-118 -/
def grow (dmin dmax : Int) (out : Int) (lo hi : Int) (k : KV) : Int × Int × KV :=
  let lo' := if lo > dmin then lo - 1 else lo + 1
  let k := if lo > dmin then k.set (lo' - 1) out else k
  let hi' := if hi < dmax then hi + 1 else hi - 1
  let k := if hi < dmax then k.set (hi' + 1) out else k
  (lo', hi', k)

/-- the rounds of `xdl_split`: deps/xdiff/xdiffi.c:62-247. Each array has the places from `-(n2 + 1)` to `n1 + 1`, where `n1` and `n2` are the numbers of the lines
(deps/xdiff/xdiffi.c:339-348); a round uses those from `fmin - 1` to `fmax + 1` -/
def splitLoop (h1 h2 : List Nat) (env : Env) (b : Box) (needMin : Bool) : Nat → Int → St → Res Spl
  | 0, _, _ => .ub
  | n + 1, ec, st =>
    let dmin := b.off1 - b.lim2
    let dmax := b.lim1 - b.off2
    let odd := decide (((b.off1 - b.off2) - (b.lim1 - b.lim2)) % 2 ≠ 0)
    let f := grow dmin dmax (-1) st.fmin st.fmax st.kvdf
    if f.1 - 1 < -((h2.length : Int) + 1) ∨ (h1.length : Int) + 1 < f.2.1 + 1 then .ub
    else
      forward h1 h2 env b odd st.bmin st.bmax st.kvdb (diags f.1 f.2.1) f.2.2 false >>= fun mf =>
      match mf with
      | .at i1 i2 => .ok ⟨i1, i2, true, true⟩
      | .no kvdf got =>
        let g := grow dmin dmax LINE_MAX st.bmin st.bmax st.kvdb
        if g.1 - 1 < -((h2.length : Int) + 1) ∨ (h1.length : Int) + 1 < g.2.1 + 1 then .ub
        else
          backward h1 h2 env b odd f.1 f.2.1 kvdf (diags g.1 g.2.1) g.2.2 got >>= fun mb =>
          match mb with
          | .at i1 i2 => .ok ⟨i1, i2, true, true⟩
          | .no kvdb got =>
            let st' : St := ⟨f.1, f.2.1, g.1, g.2.1, kvdf, kvdb⟩
            giveUp h1 h2 env b needMin ec st' got >>= fun o =>
            match o with
            | some s => .ok s
            | none => splitLoop h1 h2 env b needMin n (ec + 1) st'

/-- `xdl_split`: deps/xdiff/xdiffi.c:45-248. The arrays begin without known values, though in the code they have those of earlier calls: reading one of them would be `.ub` -/
def split (h1 h2 : List Nat) (env : Env) (b : Box) (needMin : Bool) : Res Spl :=
  let fmid := b.off1 - b.off2
  let bmid := b.lim1 - b.lim2
  splitLoop h1 h2 env b needMin ((b.lim1 - b.off1) + (b.lim2 - b.off2) + 2).toNat 1
    ⟨fmid, fmid, bmid, bmid, KV.set (fun _ => none) fmid b.off1, KV.set (fun _ => none) bmid b.lim1⟩

/-! ## Divide and conquer -/

/-- the first loop of `xdl_recs_cmp`: deps/xdiff/xdiffi.c:264 -/
def front (h1 h2 : List Nat) (lim1 lim2 : Nat) : Nat → Nat → Nat → Nat × Nat
  | 0, a, b => (a, b)
  | n + 1, a, b => if a < lim1 ∧ b < lim2 ∧ h1.getD a 0 = h2.getD b 0 then front h1 h2 lim1 lim2 n (a + 1) (b + 1) else (a, b)

/-- the second loop of `xdl_recs_cmp`: deps/xdiff/xdiffi.c:265 -/
def rear (h1 h2 : List Nat) (off1 off2 : Nat) : Nat → Nat → Nat → Nat × Nat
  | 0, a, b => (a, b)
  | n + 1, a, b => if off1 < a ∧ off2 < b ∧ h1.getD (a - 1) 0 = h2.getD (b - 1) 0 then rear h1 h2 off1 off2 n (a - 1) (b - 1) else (a, b)

/-- `rchg[rindex[i]] = 1` for the `i` from `a` up to `b`: deps/xdiff/xdiffi.c:275-276, 281-282 -/
def mark (rindex : List Nat) (a b : Nat) (r : List Bool) : List Bool := ((rindex.take b).drop a).foldl (fun r i => r.set i true) r

/-- `xdl_recs_cmp`: deps/xdiff/xdiffi.c:256-309. A box that is not in the lines or the wrong way round is `.ub` -/
def recsCmp (h1 h2 x1 x2 : List Nat) (env : Env) : Nat → Nat → Nat → Nat → Nat → Bool → List Bool × List Bool → Res (List Bool × List Bool)
  | 0, _, _, _, _, _, _ => .ub
  | n + 1, off1, lim1, off2, lim2, needMin, r =>
    if ¬ (off1 ≤ lim1 ∧ off2 ≤ lim2 ∧ lim1 ≤ h1.length ∧ lim2 ≤ h2.length) then .ub
    else
      let f := front h1 h2 lim1 lim2 (lim1 - off1) off1 off2
      let e := rear h1 h2 f.1 f.2 (lim1 - f.1) lim1 lim2
      if f.1 = e.1 then .ok (r.1, mark x2 f.2 e.2 r.2)
      else if f.2 = e.2 then .ok (mark x1 f.1 e.1 r.1, r.2)
      else
        split h1 h2 env ⟨f.1, e.1, f.2, e.2⟩ needMin >>= fun s =>
        if s.i1 < 0 ∨ s.i2 < 0 then .ub
        else
          recsCmp h1 h2 x1 x2 env n f.1 s.i1.toNat f.2 s.i2.toNat s.minLo r >>= fun r =>
          recsCmp h1 h2 x1 x2 env n s.i1.toNat e.1 s.i2.toNat e.2 s.minHi r

/-- `xdl_do_diff` and `xdl_prepare_env`: deps/xdiff/xdiffi.c:312-374, deps/xdiff/xprepare.c:245-293. The classes of the lines and what is marked as changed -/
def doDiff (minimal : Bool) (old new : List Bytes) : Res ((List Nat × List Bool) × (List Nat × List Bool)) :=
  let c1 := prepareCtx true [] old
  let c2 := prepareCtx false c1.1 new
  let t := trimEnds c1.2 c2.2
  let p1 := cleanup true c2.1 c1.2 t.1 (c1.2.length - t.2)
  let p2 := cleanup false c2.1 c2.2 t.1 (c2.2.length - t.2)
  let h1 := p1.1.map fun i => c1.2.getD i 0
  let h2 := p2.1.map fun i => c2.2.getD i 0
  let cost := bogosqrt (h1.length + h2.length + 3)
  let env : Env := ⟨if cost < 256 then 256 else cost, 20, 256⟩
  recsCmp h1 h2 p1.1 p2.1 env (h1.length + h2.length + 1) 0 h1.length 0 h2.length minimal (p1.2, p2.2) >>= fun r =>
  .ok ((c1.2, r.1), (c2.2, r.2))

/-! ## Moving groups of changes -/

/-- `struct xdlgroup`: deps/xdiff/xdiffi.c:699-711 -/
structure Group where
  start : Nat
  stop : Nat
  deriving DecidableEq, Repr

/-- go down to the first line that is not changed: deps/xdiff/xdiffi.c:719-720, 733, 767-768; there is one after the last -/
def scanDown (r : List Bool) (e : Nat) : Nat := e + ((r.drop e).takeWhile id).length

/-- go up as long as the line before is changed: deps/xdiff/xdiffi.c:749, 788-789, 952-953; there is an unchanged one before the first -/
def scanUp (r : List Bool) (s : Nat) : Nat := s - ((r.take s).reverse.takeWhile id).length

/-- `group_init`: deps/xdiff/xdiffi.c:716-721 -/
def groupInit (r : List Bool) : Group := ⟨0, scanDown r 0⟩

/-- `group_next`: deps/xdiff/xdiffi.c:727-737 -/
def groupNext (r : List Bool) (g : Group) : Option Group := if g.stop = r.length then none else some ⟨g.stop + 1, scanDown r (g.stop + 1)⟩

/-- `group_previous`: deps/xdiff/xdiffi.c:743-753 -/
def groupPrev (r : List Bool) (g : Group) : Option Group := if g.start = 0 then none else some ⟨scanUp r (g.start - 1), g.start - 1⟩

/-- `group_slide_down`: deps/xdiff/xdiffi.c:760-774 -/
def slideDown (ha : List Nat) (r : List Bool) (g : Group) : Option (List Bool × Group) :=
  if g.stop < r.length ∧ ha.getD g.start 0 = ha.getD g.stop 0 then
    let r := (r.set g.start false).set g.stop true
    some (r, ⟨g.start + 1, scanDown r (g.stop + 1)⟩)
  else none

/-- `group_slide_up`: deps/xdiff/xdiffi.c:781-795 -/
def slideUp (ha : List Nat) (r : List Bool) (g : Group) : Option (List Bool × Group) :=
  if 0 < g.start ∧ ha.getD (g.start - 1) 0 = ha.getD (g.stop - 1) 0 then
    let r := (r.set (g.start - 1) true).set (g.stop - 1) false
    some (r, ⟨scanUp r (g.start - 1), g.stop - 1⟩)
  else none

/-- the state of `xdl_change_compact`: what is marked in the file, and the groups in it and in the other file -/
structure Co where
  r : List Bool
  g : Group
  go : Group
  deriving DecidableEq, Repr

/-- one step up in both files: deps/xdiff/xdiffi.c:834-836, 876-879, 919-922. Nothing if the group cannot be moved -/
def stepUp (ha : List Nat) (ro : List Bool) (c : Co) : Option (Res Co) :=
  match slideUp ha c.r c.g with
  | none => none
  | some p =>
    match groupPrev ro c.go with
    | none => some (.err (-1))
    | some go => some (.ok ⟨p.1, p.2, go⟩)

/-- one step down in both files: deps/xdiff/xdiffi.c:849-852 -/
def stepDown (ha : List Nat) (ro : List Bool) (c : Co) : Option (Res Co) :=
  match slideDown ha c.r c.g with
  | none => none
  | some p =>
    match groupNext ro c.go with
    | none => some (.err (-1))
    | some go => some (.ok ⟨p.1, p.2, go⟩)

/-- as far up as possible: deps/xdiff/xdiffi.c:834-836 -/
def upLoop (ha : List Nat) (ro : List Bool) : Nat → Co → Res Co
  | 0, _ => .ub
  | n + 1, c =>
    match stepUp ha ro c with
    | none => .ok c
    | some r => r >>= upLoop ha ro n

/-- as far down as possible: deps/xdiff/xdiffi.c:848-856; the last end that matches a group of the other file -/
def downLoop (ha : List Nat) (ro : List Bool) : Nat → Option Nat → Co → Res (Option Nat × Co)
  | 0, _, _ => .ub
  | n + 1, m, c =>
    match stepDown ha ro c with
    | none => .ok (m, c)
    | some r => r >>= fun c => downLoop ha ro n (if c.go.stop > c.go.start then some c.g.stop else m) c

/-- what is known after moving a group up and down -/
structure Moved where
  size : Nat
  earliest : Nat
  matching : Option Nat
  co : Co

/-- up and down until the group does not grow: deps/xdiff/xdiffi.c:822-857 -/
def shiftLoop (ha : List Nat) (ro : List Bool) : Nat → Co → Res Moved
  | 0, _ => .ub
  | n + 1, c =>
    let size := c.g.stop - c.g.start
    upLoop ha ro (c.g.stop + 1) c >>= fun c =>
    let earliest := c.g.stop
    downLoop ha ro (c.r.length + 1) (if c.go.stop > c.go.start then some c.g.stop else none) c >>= fun d =>
    if size ≠ d.2.g.stop - d.2.g.start then shiftLoop ha ro n d.2
    else .ok ⟨size, earliest, d.1, d.2⟩

/-- up to the last group of the other file: deps/xdiff/xdiffi.c:875-880 -/
def matchLoop (ha : List Nat) (ro : List Bool) : Nat → Co → Res Co
  | 0, _ => .ub
  | n + 1, c =>
    if c.go.stop = c.go.start then
      match stepUp ha ro c with
      | none => .err (-1)
      | some r => r >>= matchLoop ha ro n
    else .ok c

/-- up to the best place: deps/xdiff/xdiffi.c:918-923 -/
def bestLoop (ha : List Nat) (ro : List Bool) (best : Nat) : Nat → Co → Res Co
  | 0, _ => .ub
  | n + 1, c =>
    if c.g.stop > best then
      match stepUp ha ro c with
      | none => .err (-1)
      | some r => r >>= bestLoop ha ro best n
    else .ok c

/-- `isspace` in the C locale -/
def isspace (c : UInt8) : Bool := c == 32 || (9 ≤ c && c ≤ 13)

/-- `get_indent`: deps/xdiff/xdiffi.c:412-434, from a column on -/
def getIndent : Int → Bytes → Int
  | _, [] => -1
  | ret, c :: cs =>
    if isspace c = false then ret
    else
      let ret := if c = c!" " then ret + 1 else if c = c!"\t" then ret + (8 - ret % 8) else ret
      if ret ≥ 200 then 200 else getIndent ret cs

/-- the loops of `measure_split`: deps/xdiff/xdiffi.c:506-515, 519-527. The blank lines and the indentation of the first that is not blank -/
def measure : Nat → List Bytes → Int × Int
  | blank, [] => (blank, -1)
  | blank, l :: ls =>
    if getIndent 0 l ≠ -1 then (blank, getIndent 0 l)
    else if blank + 1 = 20 then (20, 0)
    else measure (blank + 1) ls

/-- `measure_split` and `score_add_split`: deps/xdiff/xdiffi.c:490-528, 597-673 -/
def addSplit (lines : List Bytes) (split : Nat) (s : Int × Int) : Int × Int :=
  let eof := decide (split ≥ lines.length)
  let indent := if eof then -1 else getIndent 0 (lines.getD split [])
  let pre := measure 0 (lines.take split).reverse
  let post := measure 0 (lines.drop (split + 1))
  let penalty := s.2 + (if pre.2 = -1 ∧ pre.1 = 0 then 1 else 0) + (if eof then 21 else 0)
  let postBlank := if indent = -1 then 1 + post.1 else 0
  let total := pre.1 + postBlank
  let penalty := penalty + -30 * total + 6 * postBlank
  let indent := if indent ≠ -1 then indent else post.2
  (s.1 + indent,
    if indent = -1 ∨ pre.2 = -1 then penalty
    else if indent > pre.2 then penalty + (if total ≠ 0 then 10 else -4)
    else if indent = pre.2 then penalty
    else if post.2 ≠ -1 ∧ post.2 > indent then penalty + (if total ≠ 0 then 17 else 24)
    else penalty + (if total ≠ 0 then 17 else 23))

/-- `score_cmp`: deps/xdiff/xdiffi.c:675-682 -/
def scoreCmp (s t : Int × Int) : Int := 60 * ((if s.1 > t.1 then 1 else 0) - (if s.1 < t.1 then 1 else 0)) + (s.2 - t.2)

/-- the place with the lowest score: deps/xdiff/xdiffi.c:902-916. There are `n` places left -/
def bestShift (lines : List Bytes) (size : Nat) : Nat → Nat → Option (Nat × (Int × Int)) → Res (Option (Nat × (Int × Int)))
  | 0, _, best => .ok best
  | n + 1, shift, best =>
    if shift < size ∨ lines.length < shift then .ub
    else
      let score := addSplit lines (shift - size) (addSplit lines shift (0, 0))
      bestShift lines size n (shift + 1) (match best with
        | none => some (shift, score)
        | some b => if scoreCmp score b.2 ≤ 0 then some (shift, score) else some b)

/-- the first place that is looked at: deps/xdiff/xdiffi.c:897-901 -/
def firstShift (earliest stop size : Nat) : Nat := max (max earliest (stop - size - 1)) (stop - 100)

/-- a group that is not empty: deps/xdiff/xdiffi.c:817-924 -/
def compactGroup (indent : Bool) (lines : List Bytes) (ha : List Nat) (ro : List Bool) (c : Co) : Res Co :=
  shiftLoop ha ro (c.r.length + 1) c >>= fun m =>
  if m.co.g.stop = m.earliest then .ok m.co
  else if m.matching ≠ none then matchLoop ha ro (m.co.g.stop + 1) m.co
  else if indent = true then
    let shift := firstShift m.earliest m.co.g.stop m.size
    bestShift lines m.size (m.co.g.stop + 1 - shift) shift none >>= fun b =>
    match b with
    | none => .ok m.co
    | some b => bestLoop ha ro b.1 (m.co.g.stop + 1) m.co
  else .ok m.co

/-- the loop of `xdl_change_compact`: deps/xdiff/xdiffi.c:810-937 -/
def compactLoop (indent : Bool) (lines : List Bytes) (ha : List Nat) (ro : List Bool) : Nat → Co → Res (List Bool)
  | 0, _ => .ub
  | n + 1, c =>
    (if c.g.stop = c.g.start then .ok c else compactGroup indent lines ha ro c) >>= fun c =>
    match groupNext c.r c.g with
    | none =>
      match groupNext ro c.go with
      | none => .ok c.r
      | some _ => .err (-1)
    | some g =>
      match groupNext ro c.go with
      | none => .err (-1)
      | some go => compactLoop indent lines ha ro n ⟨c.r, g, go⟩

/-- `xdl_change_compact`: deps/xdiff/xdiffi.c:802-938 -/
def changeCompact (indent : Bool) (lines : List Bytes) (ha : List Nat) (r ro : List Bool) : Res (List Bool) :=
  compactLoop indent lines ha ro ((r.length + 2) * (r.length + 2) * (r.length + 2)) ⟨r, groupInit r, groupInit ro⟩

/-! ## The script -/

/-- the loop of `xdl_build_script`: deps/xdiff/xdiffi.c:949-959. If only one of the numbers becomes negative, `rchg[-2]` is read, which is not in the array -/
def buildLoop (r1 r2 : List Bool) : Nat → Nat → Nat → List Change → Res (List Change)
  | 0, _, _, _ => .ub
  | n + 1, i1, i2, cs =>
    let j1 := scanUp r1 i1
    let j2 := scanUp r2 i2
    let cs := if j1 ≠ i1 ∨ j2 ≠ i2 then { i1 := j1, chg1 := i1 - j1, i2 := j2, chg2 := i2 - j2 } :: cs else cs
    if j1 = 0 ∧ j2 = 0 then .ok cs
    else if j1 = 0 ∨ j2 = 0 then .ub
    else buildLoop r1 r2 n (j1 - 1) (j2 - 1) cs

/-- `xdl_build_script`: deps/xdiff/xdiffi.c:941-964 -/
def buildScript (r1 r2 : List Bool) : Res (List Change) := buildLoop r1 r2 (r1.length + r2.length + 1) r1.length r2.length []

/-- `xdl_diff` up to the script: deps/xdiff/xdiffi.c:1054-1069 -/
def script (minimal indent : Bool) (old new : List Bytes) : Res (List Change) :=
  doDiff minimal old new >>= fun d =>
  changeCompact indent old d.1.1 d.1.2 d.2.2 >>= fun r1 =>
  changeCompact indent new d.2.1 d.2.2 r1 >>= fun r2 =>
  buildScript r1 r2

/-- the hunks of the differences of two texts: `git_xdiff`, src/libgit2/diff_xdiff.c:201-235, and `xdl_diff`, deps/xdiff/xdiffi.c:1054-1089. `git_xdiff` does not look at what
`xdl_diff` returns: an error there is as if there were no hunks after it, which is not modelled -/
def diffText (minimal indent : Bool) (ctx inter : Nat) (funcs : Change → Bytes) (old new : Bytes) : Res (List Patch.Hunk) :=
  script minimal indent (splitLines old) (splitLines new) >>= fun cs =>
  Patch.emitDiff ctx inter funcs (splitLines old) (splitLines new) cs

end Verif.Xdiff
