import Verif.Mwindow.Spec
/-!
# Memory windows of packs: mwindow.c

Every call holds `git_mwindow__mutex` from its start to its end, so a call is one step.
A window is known by a number in place of its address; a number is never used again, which stands for the fact that nothing
reads a window through an address that was given out anew. The lists of windows of all files are one list here, newest first:
that of a file is what has its number, in the same order (windows are only ever put in front). Locks and vectors do not fail. The numbers
`open_windows`, `mmap_calls` and the peaks, which nothing looks at, are left out.
-/
namespace Verif.Mwindow
open Spec

/-- `git_mwindow`: src/libgit2/mwindow.h:20-26. `data` is what is mapped (`window_map`) -/
structure Win where
  id : Nat
  file : Nat
  off : Nat
  data : Bytes
  lastUsed : Nat
  inuse : Nat
  deriving DecidableEq, Repr

/-- `git_mwindow__window_size`, `_mapped_limit`, `_file_limit`: src/libgit2/mwindow.c:17-31; set once, before use -/
structure Cfg where
  windowSize : Nat
  mappedLimit : Nat
  fileLimit : Nat

/-- `git_mwindow_ctl` [src/libgit2/mwindow.h:35-43], the windows of all files, the files (`size` is the length) and the cursors -/
structure St where
  wins : List Win := []
  data : Nat → Bytes
  reg : List Nat := []
  cur : Nat → Option Nat := fun _ => none
  mapped : Nat := 0
  usedCtr : Nat := 0
  next : Nat := 0

/-- nothing is mapped: src/libgit2/mwindow.c:47-55 -/
def St.init (D : Nat → Bytes) : St := { data := D }

/-- `+` of `size_t`: src/libgit2/mwindow.c:349, 423-424 -/
def add64 (a b : Nat) : Nat := (a + b) % 2 ^ 64

/-- `-` of `size_t`: src/libgit2/mwindow.c:156, 277, 404, 534 -/
def sub64 (a b : Nat) : Nat := (a + (2 ^ 64 - b % 2 ^ 64)) % 2 ^ 64

/-- a window by its address; `none`: it has been freed. src/libgit2/mwindow.c:396, 526 -/
def St.deref (s : St) (i : Nat) : Option Win := s.wins.find? fun w => decide (w.id = i)

/-- the windows of a file, `mwf->windows`: src/libgit2/mwindow.h:28-33 -/
def St.windows (s : St) (f : Nat) : List Win := s.wins.filter fun w => decide (w.file = f)

/-- a window is changed through its address: src/libgit2/mwindow.c:403-405, 430-434, 534 -/
def St.change (s : St) (i : Nat) (g : Win → Win) : St :=
  { s with wins := s.wins.map fun w => if w.id = i then g w else w }

/-- a window is unmapped, unlinked and freed: src/libgit2/mwindow.c:153-163, 277-288. The C code unlinks it through its predecessor -/
def St.unmap (s : St) (w : Win) : St :=
  { s with wins := s.wins.filter fun v => decide (v.id ≠ w.id), mapped := sub64 s.mapped w.data.length }

/-- `git_mwindow_contains`: src/libgit2/mwindow.c:190-195 -/
def contains (w : Win) (off extra : Nat) : Bool :=
  decide (w.off ≤ off) && decide (off + extra ≤ w.off + w.data.length)

/-- `comparison_sign * w->last_used`, as `size_t`: src/libgit2/mwindow.c:240. -1 is made unsigned first -/
def signed (lru : Bool) (x : Nat) : Nat := if lru then (2 ^ 64 - x % 2 ^ 64) % 2 ^ 64 else x

/-- whether a window is taken in place of the one found so far: src/libgit2/mwindow.c:240 -/
def better (lru : Bool) (best : Option Win) (w : Win) : Bool :=
  match best with
  | none => true
  | some b => decide (signed lru w.lastUsed > b.lastUsed)

/-- `git_mwindow_scan_recently_used`: src/libgit2/mwindow.c:208-253: the window found in this list, `none` for `false` -/
def scan (onlyUnused lru : Bool) : List Win → Option Win → Bool → Option Win
  | [], best, found => if found then best else none
  | w :: t, best, found =>
    if w.inuse ≠ 0 then
      if onlyUnused then none else scan onlyUnused lru t best found
    else if better lru best w then scan onlyUnused lru t (some w) true
    else scan onlyUnused lru t best found

/-- the loop over the files: src/libgit2/mwindow.c:266-271 -/
def lruWindow (s : St) : List Nat → Option Win → Option Win
  | [], best => best
  | f :: t, best =>
    match scan false true (s.windows f) best false with
    | some w => lruWindow s t (some w)
    | none => lruWindow s t best

/-- `git_mwindow_close_lru_window_locked`: src/libgit2/mwindow.c:259-290; `none` for -1 -/
def closeLru (s : St) : Option St :=
  match lruWindow s s.reg none with
  | none => none
  | some w => some (s.unmap w)

/-- whether there is more mapped than there should be; without a limit, always: src/libgit2/mwindow.c:351, 367 -/
def above (limit : Option Nat) (s : St) : Bool :=
  match limit with
  | some l => decide (l < s.mapped)
  | none => true

/-- `while (condition && git_mwindow_close_lru_window_locked() == 0)`: src/libgit2/mwindow.c:351-353, 367-368. There are at most as many turns as windows -/
def evict (limit : Option Nat) : Nat → St → St
  | 0, s => s
  | n + 1, s =>
    if above limit s then
      match closeLru s with
      | some s' => evict limit n s'
      | none => s
    else s

/-- the window as it is set up: src/libgit2/mwindow.c:336-347. `len` is a difference of signed numbers; what is mapped is the part of the file -/
def freshWin (cfg : Cfg) (s : St) (f off : Nat) : Win :=
  let woff := off / (cfg.windowSize / 2) * (cfg.windowSize / 2)
  { id := s.next, file := f, off := woff, data := ((s.data f).drop woff).take cfg.windowSize, lastUsed := 0, inuse := 0 }

/-- `len` as it is added to `mapped` (a negative one wraps): src/libgit2/mwindow.c:345-349 -/
def freshLen (cfg : Cfg) (s : St) (f off : Nat) : Nat :=
  let woff := off / (cfg.windowSize / 2) * (cfg.windowSize / 2)
  if (s.data f).length < woff then sub64 (s.data f).length woff
  else (freshWin cfg s f off).data.length

/-- `new_window_locked`: src/libgit2/mwindow.c:328-385: `none` for `NULL`. A window size below 2 divides by 0; a length of 0 is refused
by `p_mmap` [src/util/map.h:38-41], a negative one by the system -/
def newWindow (cfg : Cfg) (s : St) (f off : Nat) (ok1 ok2 : Bool) : Res (St × Option Win) :=
  if cfg.windowSize / 2 = 0 then .ub
  else
    let w := freshWin cfg s f off
    let s1 := { s with mapped := add64 s.mapped (freshLen cfg s f off), next := s.next + 1 }
    let s2 := evict (some cfg.mappedLimit) s.wins.length s1
    if ok1 && decide (0 < w.data.length) then .ok (s2, some w)
    else
      let s3 := evict none s2.wins.length s2
      if ok2 && decide (0 < w.data.length) then .ok (s3, some w) else .ok (s3, none)

/-- the end of `git_mwindow_open`: src/libgit2/mwindow.c:429-444. A pointer beyond the end of the window is out of bounds -/
def finish (s : St) (c : Nat) (w : Win) (off : Nat) : Res (St × Out) :=
  let s' := if s.cur c = some w.id then s else
    { s.change w.id (fun v => { v with lastUsed := s.usedCtr, inuse := add64 v.inuse 1 }) with
      usedCtr := add64 s.usedCtr 1, cur := fun d => if d = c then some w.id else s.cur d }
  if w.data.length < off - w.off then .ub
  else .ok (s', .ptr ⟨w.id, off - w.off⟩ ((w.data.length - (off - w.off)) % 2 ^ 32))

/-- the search among the windows of the file, or a new one: src/libgit2/mwindow.c:408-426 -/
def search (cfg : Cfg) (s : St) (c f off extra : Nat) (ok1 ok2 : Bool) : Res (St × Out) :=
  match (s.windows f).find? fun w => contains w off extra with
  | some w => finish s c w off
  | none =>
    match newWindow cfg s f off ok1 ok2 with
    | .ub => .ub
    | .err e => .err e
    | .ok (s', none) => .ok (s', .null)
    | .ok (s', some w) => finish { s' with wins := w :: s'.wins } c w off

/-- `git_mwindow_open`: src/libgit2/mwindow.c:391-445 -/
def openWin (cfg : Cfg) (s : St) (c f off extra : Nat) (ok1 ok2 : Bool) : Res (St × Out) :=
  match s.cur c with
  | none => search cfg s c f off extra ok1 ok2
  | some i =>
    match s.deref i with
    | none => .ub
    | some w =>
      if contains w off extra then finish s c w off
      else search cfg (s.change i fun v => { v with inuse := sub64 v.inuse 1 }) c f off extra ok1 ok2

/-- `git_mwindow_close`: src/libgit2/mwindow.c:524-537 -/
def closeWin (s : St) (c : Nat) : Res (St × Out) :=
  match s.cur c with
  | none => .ok (s, .done)
  | some i =>
    match s.deref i with
    | none => .ub
    | some _ => .ok ({ s.change i (fun v => { v with inuse := sub64 v.inuse 1 }) with
        cur := fun d => if d = c then none else s.cur d }, .done)

/-- the loop of `git_mwindow_free_all_locked`: src/libgit2/mwindow.c:153-163; `false` when a window is in use. There are at most as many turns as windows -/
def freeLoop (f : Nat) : Nat → St → St × Bool
  | 0, s => (s, true)
  | n + 1, s =>
    match s.windows f with
    | [] => (s, true)
    | w :: _ => if w.inuse ≠ 0 then (s, false) else freeLoop f n (s.unmap w)

/-- `git_mwindow_free_all_locked`: src/libgit2/mwindow.c:132-166 -/
def freeAllLocked (s : St) (f : Nat) : St × Bool :=
  freeLoop f s.wins.length { s with reg := s.reg.erase f }

/-- `git_mwindow_free_all`: src/libgit2/mwindow.c:168-182 -/
def freeAll (s : St) (f : Nat) : Res (St × Out) :=
  .ok ((freeAllLocked s f).1, if (freeAllLocked s f).2 then .done else .failed)

/-- the loop of `git_mwindow_find_lru_file_locked`: src/libgit2/mwindow.c:306-316 -/
def lruFileLoop (s : St) : List Nat → Option (Nat × Win) → Option Nat
  | [], best => best.map Prod.fst
  | f :: t, best =>
    match scan true false (s.windows f) none false with
    | none => lruFileLoop s t best
    | some mru =>
      match best with
      | none => lruFileLoop s t (some (f, mru))
      | some (g, w) =>
        if w.lastUsed > mru.lastUsed then lruFileLoop s t (some (f, mru)) else lruFileLoop s t (some (g, w))

/-- `git_mwindow_find_lru_file_locked`: src/libgit2/mwindow.c:299-325; `none` for -1 -/
def findLruFile (s : St) : Option Nat := lruFileLoop s s.reg none

/-- the loop of `git_mwindow_file_register`: src/libgit2/mwindow.c:465-478. There are at most as many turns as files -/
def limitFiles (limit : Nat) : Nat → St → St
  | 0, s => s
  | n + 1, s =>
    if limit ≤ s.reg.length then
      match findLruFile s with
      | some f => limitFiles limit n (freeAllLocked s f).1
      | none => s
    else s

/-- `git_mwindow_file_register`: src/libgit2/mwindow.c:447-503. The descriptors of the files that are closed are left out: whether something can be mapped is a parameter of `look` -/
def register (cfg : Cfg) (s : St) (f : Nat) : Res (St × Out) :=
  let s1 := if cfg.fileLimit ≠ 0 then limitFiles cfg.fileLimit s.reg.length s else s
  .ok ({ s1 with reg := s1.reg ++ [f] }, .done)

/-- `git_mwindow_file_deregister`: src/libgit2/mwindow.c:505-522 -/
def deregister (s : St) (f : Nat) : Res (St × Out) := .ok ({ s with reg := s.reg.erase f }, .done)

/-- one call; an appended file is `mwf.size += size` [src/libgit2/indexer.c:895] -/
def step (cfg : Cfg) (s : St) : Op → Res (St × Out)
  | .look c f off extra ok1 ok2 => openWin cfg s c f off extra ok1 ok2
  | .leave c => closeWin s c
  | .register f => register cfg s f
  | .deregister f => deregister s f
  | .freeAll f => freeAll s f
  | .append f data => .ok ({ s with data := fun g => if f = g then s.data g ++ data else s.data g }, .done)

/-- reading memory: `n` bytes from a pointer, `none` if they are not mapped (any more): src/libgit2/mwindow.c:444 -/
def peek (s : St) (p : Ptr) (n : Nat) : Option Bytes :=
  match s.deref p.win with
  | none => none
  | some w => if p.delta + n ≤ w.data.length then some ((w.data.drop p.delta).take n) else none

/-- what calls one after another do, from the start: src/libgit2/mwindow.c:391-537 -/
inductive Run (cfg : Cfg) (D : Nat → Bytes) : History → St → Prop where
  | init : Run cfg D [] (St.init D)
  | step {h s op s' out} : Run cfg D h s → step cfg s op = .ok (s', out) → Run cfg D ((op, out) :: h) s'

/-- the sum of what is mapped: src/libgit2/mwindow.c:349 -/
def total (ws : List Win) : Nat := (ws.map fun w => w.data.length).sum

end Verif.Mwindow
