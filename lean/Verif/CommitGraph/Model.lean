import Verif.PackIdx.Model
import Verif.Sort.Model
/-! # Commit-graph files (src/libgit2/commit_graph.c)

Ids have `osz` bytes (20, or 32). Files with fewer than 2^31 commits: the position found by the search is kept in an `int`. That the words of the
file are read at addresses which need not be multiples of four is not modelled, nor are failures to allocate. -/
namespace Verif.CommitGraph
open PackIdx (ENOTFOUND Table fanLoop)

/-- `GIT_COMMIT_GRAPH_MISSING_PARENT`: src/libgit2/commit_graph.c:21 -/
def MISSING : Nat := 0x70000000
/-- `GIT_COMMIT_GRAPH_GENERATION_NUMBER_MAX`: src/libgit2/commit_graph.c:22 -/
def GENMAX : Nat := 0x3FFFFFFF

/-! ### reading -/

/-- the chunks that `git_commit_graph_file_parse` tells apart: src/libgit2/commit_graph.c:37-42, 211-213 -/
inductive Kind where
  | fanout | lookup | data | edges | unsupported
  deriving DecidableEq, Repr

/-- the `switch` on the chunk's id: src/libgit2/commit_graph.c:255-284 -/
def kindOf (id : UInt32) : Option Kind :=
  if id = 0x4f494446 then some .fanout
  else if id = 0x4f49444c then some .lookup
  else if id = 0x43444154 then some .data
  else if id = 0x45444745 then some .edges
  else if id = 0x42494458 then some .unsupported
  else if id = 0x42444154 then some .unsupported
  else none

/-- `struct git_commit_graph_chunk`: src/libgit2/commit_graph.c:44-47 -/
structure Chunk where
  off : Nat := 0
  len : Nat := 0
  deriving DecidableEq, Repr

/-- the five local chunks [src/libgit2/commit_graph.c:211-213] -/
abbrev Chunks := Kind → Chunk

/-- `last_chunk->length = n` [src/libgit2/commit_graph.c:251-252, 286] -/
def setLen (cs : Chunks) (last : Option Kind) (n : Nat) : Chunks :=
  match last with
  | none => cs
  | some k => fun j => if j = k then { cs j with len := n } else cs j

/-- `chunk_....offset = last_chunk_offset` [src/libgit2/commit_graph.c:257] -/
def setOff (cs : Chunks) (k : Kind) (n : Nat) : Chunks := fun j => if j = k then { cs j with off := n } else cs j

/-- the loop over the chunk headers: src/libgit2/commit_graph.c:244-285; `n` of them are left, the next is at `pos` -/
def chunkLoop (file : Bytes) (trailer : Nat) : Nat → Nat → Nat → Option Kind → Chunks → Res (Nat × Option Kind × Chunks)
  | 0, _, lastOff, last, cs => .ok (lastOff, last, cs)
  | n + 1, pos, lastOff, last, cs =>
    rd32 file (pos + 4) >>= fun h =>
    rd32 file (pos + 8) >>= fun l =>
    let off := h.toNat * 2 ^ 32 + l.toNat
    if off < lastOff then .err (-1)
    else if off ≥ trailer then .err (-1)
    else
      let cs := setLen cs last (off - lastOff)
      rd32 file pos >>= fun id =>
      match kindOf id with
      | none => .err (-1)
      | some k => chunkLoop file trailer n (pos + 12) off (some k) (setOff cs k off)

/-- `git_commit_graph_file`: src/libgit2/commit_graph.h:29-64; pointers into the mapping are offsets -/
structure File where
  file : Bytes
  fanout : Nat
  num : Nat
  lookup : Nat
  data : Nat
  edges : Nat
  numEdges : Nat
  checksum : Bytes
  deriving DecidableEq, Repr

/-- `commit_graph_parse_oid_fanout`: src/libgit2/commit_graph.c:110-133 -/
def parseFanout (file : Bytes) (c : Chunk) : Res Nat :=
  if c.off = 0 then .err (-1)
  else if c.len = 0 then .err (-1)
  else if c.len ≠ 256 * 4 then .err (-1)
  else fanLoop file c.off 256 0

/-- the loop of `commit_graph_parse_oid_lookup`: src/libgit2/commit_graph.c:153-159; `n` ids are left, the next is at `pos` -/
def lookupLoop (osz : Nat) (file : Bytes) : Nat → Nat → Bytes → Res Unit
  | 0, _, _ => .ok ()
  | n + 1, pos, prev =>
    slice file pos osz >>= fun oid =>
    Oid.cmp osz prev oid >>= fun c =>
    if c ≥ 0 then .err (-1) else lookupLoop osz file n (pos + osz) oid

/-- `commit_graph_parse_oid_lookup`: src/libgit2/commit_graph.c:135-162 -/
def parseLookup (osz : Nat) (file : Bytes) (num : Nat) (c : Chunk) : Res Unit :=
  if c.off = 0 then .err (-1)
  else if c.len = 0 then .err (-1)
  else if c.len ≠ num * osz then .err (-1)
  else lookupLoop osz file num c.off (List.replicate osz 0)

/-- `commit_graph_parse_commit_data`: src/libgit2/commit_graph.c:164-181 -/
def parseData (osz num : Nat) (c : Chunk) : Res Unit :=
  if c.off = 0 then .err (-1)
  else if c.len = 0 then .err (-1)
  else if c.len ≠ num * (osz + 16) then .err (-1)
  else .ok ()

/-- `commit_graph_parse_extra_edge_list`: src/libgit2/commit_graph.c:183-197: offset and number of the entries -/
def parseEdges (c : Chunk) : Res (Nat × Nat) :=
  if c.len = 0 then .ok (0, 0)
  else if c.len % 4 ≠ 0 then .err (-1)
  else .ok (c.off, c.len / 4)

/-- `git_commit_graph_file_parse`: src/libgit2/commit_graph.c:199-302 -/
def parse (osz : Nat) (file : Bytes) : Res File :=
  if file.length < 8 + osz then .err (-1)
  else
    rd32 file 0 >>= fun sig =>
    slice file 4 3 >>= fun hdr =>
    let version := hdr.getD 0 0
    let idVersion := hdr.getD 1 0
    let chunks := (hdr.getD 2 0).toNat
    if sig ≠ 0x43475048 ∨ version ≠ 1 ∨ idVersion ≠ 1 then .err (-1)
    else if chunks = 0 then .err (-1)
    else
      let lastOff := 8 + (1 + chunks) * 12
      let trailer := file.length - osz
      if trailer < lastOff then .err (-1)
      else
        slice file trailer osz >>= fun sum =>
        chunkLoop file trailer chunks 8 lastOff none (fun _ => {}) >>= fun r =>
        let cs := setLen r.2.2 r.2.1 (trailer - r.1)
        parseFanout file (cs .fanout) >>= fun num =>
        parseLookup osz file num (cs .lookup) >>= fun _ =>
        parseData osz num (cs .data) >>= fun _ =>
        parseEdges (cs .edges) >>= fun e =>
        .ok ⟨file, (cs .fanout).off, num, (cs .lookup).off, (cs .data).off, e.1, e.2, sum⟩

/-- `git_commit_graph_open` on the contents of the file: src/libgit2/commit_graph.c:344-393, with `git_commit_graph_validate`; `sum` is the hash -/
def openGraph (osz : Nat) (sum : Bytes → Bytes) (file : Bytes) : Res File :=
  parse osz file >>= fun f =>
  if sum (file.take (file.length - osz)) ≠ f.checksum then .err (-1) else .ok f

/-- `git_commit_graph_entry`: src/libgit2/commit_graph.h:70-94; `extra` is set only if there are extra parents -/
structure Entry where
  id : Bytes
  tree : Bytes
  generation : Nat
  time : Nat
  count : Nat
  p0 : Nat
  p1 : Nat
  extra : Option Nat
  deriving DecidableEq, Repr

/-- the loop counting the extra parents: src/libgit2/commit_graph.c:528-536; `n` entries are left in the list -/
def countExtra (f : File) : Nat → Nat → Nat → Res Nat
  | 0, _, count => .ok count
  | n + 1, pos, count =>
    rd32 f.file (f.edges + pos * 4) >>= fun w => if w.toNat < 2 ^ 31 then countExtra f n (pos + 1) (count + 1) else .ok count

/-- `git_commit_graph_entry_get_byindex`: src/libgit2/commit_graph.c:488-541 -/
def getByIndex (osz : Nat) (f : File) (pos : Nat) : Res Entry :=
  if pos ≥ f.num then .err ENOTFOUND
  else
    let d := f.data + pos * (osz + 16)
    slice f.file d osz >>= fun tree =>
    rd32 f.file (d + osz) >>= fun p0 =>
    rd32 f.file (d + osz + 4) >>= fun p1 =>
    let count := (if p0.toNat ≠ MISSING then 1 else 0) + (if p1.toNat ≠ MISSING then 1 else 0)
    rd32 f.file (d + osz + 8) >>= fun gen =>
    rd32 f.file (d + osz + 12) >>= fun lo =>
    let time := lo.toNat + gen.toNat % 4 * 2 ^ 32
    let generation := gen.toNat / 4
    (if p1.toNat ≥ 2 ^ 31 then
       let x := p1.toNat % 2 ^ 31
       if x ≥ f.numEdges then .err ENOTFOUND
       else countExtra f (f.numEdges - x) x count >>= fun n => .ok (n, some x)
     else .ok (count, none)) >>= fun r =>
    slice f.file (f.lookup + pos * osz) osz >>= fun id =>
    .ok ⟨id, tree, generation, time, r.1, p0.toNat, p1.toNat, r.2⟩

/-- `git_commit_graph_entry_find`: src/libgit2/commit_graph.c:575-631 -/
def entryFind (osz : Nat) (f : File) (short : Bytes) (len : Nat) : Res Entry :=
  match short with
  | [] => .ub
  | b0 :: _ =>
    rd32 f.file (f.fanout + 4 * b0.toNat) >>= fun hi =>
    (if b0 = 0 then .ok 0 else rd32 f.file (f.fanout + 4 * (b0.toNat - 1)) >>= fun l => .ok l.toNat) >>= fun lo =>
    PackIdx.find osz ⟨f.file, f.lookup, osz⟩ f.num lo hi.toNat short len >>= fun r =>
    getByIndex osz f r.1

/-- `git_commit_graph_entry_parent`: src/libgit2/commit_graph.c:633-657 -/
def entryParent (osz : Nat) (f : File) (e : Entry) (n : Nat) : Res Entry :=
  if n ≥ e.count then .err ENOTFOUND
  else if n = 0 then getByIndex osz f e.p0
  else if n = 1 ∧ e.count = 2 then getByIndex osz f e.p1
  else match e.extra with
    | none => .ub
    | some x => rd32 f.file (f.edges + (x + n - 1) * 4) >>= fun w => getByIndex osz f (w.toNat % 2 ^ 31)

/-! ### writing -/

/-- `struct packed_commit`: src/libgit2/commit_graph.c:51-59, as it is filled in by `packed_commit_new` (:72-99) -/
structure Commit where
  id : Bytes
  tree : Bytes
  time : Int
  parents : List Bytes
  deriving DecidableEq, Repr

/-- `packed_commit__cmp`: src/libgit2/commit_graph.c:689-694 -/
def commitCmp (a b : Commit) : Int := bcmp a.id b.id

/-- `git_vector_uniq` on a sorted vector: src/util/vector.c:270-291 (see C49) -/
def uniq : List Commit → List Commit
  | [] => []
  | [a] => [a]
  | a :: b :: r => if commitCmp a b = 0 then uniq (b :: r) else a :: uniq (b :: r)

/-- the map from ids to indices: src/libgit2/commit_graph.c:883-889 -/
def indexOf (cs : List Commit) (id : Bytes) : Option Nat := cs.findIdx? fun c => c.id = id

/-- the indices of the parents: src/libgit2/commit_graph.c:903-917 -/
def parentIndices (cs : List Commit) : List Bytes → Res (List Nat)
  | [] => .ok []
  | p :: ps =>
    match indexOf cs p with
    | none => .err ENOTFOUND
    | some i => parentIndices cs ps >>= fun r => .ok (i :: r)

/-- the same for all the commits: src/libgit2/commit_graph.c:891-918 -/
def allIndices (cs : List Commit) : List Commit → Res (List (List Nat))
  | [] => .ok []
  | c :: r => parentIndices cs c.parents >>= fun ps => allIndices cs r >>= fun rest => .ok (ps :: rest)

/-- `enum generation_number_commit_state`: src/libgit2/commit_graph.c:863-868 -/
inductive St where
  | unvisited | added | expanded | visited
  deriving DecidableEq, Repr

/-- the arrays of `compute_generation_numbers`: the states and the generations, by index; the stack, its top first
[src/libgit2/commit_graph.c:872-880] -/
structure Gen where
  st : Nat → St
  gen : Nat → Nat
  stack : List Nat

/-- pushing the parents that were not considered: src/libgit2/commit_graph.c:990-999 -/
def pushParents : List Nat → Gen → Gen
  | [], s => s
  | p :: ps, s =>
    if s.st p ≠ .unvisited then pushParents ps s
    else pushParents ps { s with st := fun j => if j = p then .added else s.st j, stack := p :: s.stack }

/-- one turn of the loop for the index `i` that was taken from the stack: src/libgit2/commit_graph.c:947-1000 -/
def genStep (ps : List (List Nat)) (i : Nat) (s : Gen) : Gen :=
  let parents := ps.getD i []
  match s.st i with
  | .visited => s
  | .expanded =>
    let g := parents.foldl (fun g p => if g < s.gen p then s.gen p else g) 0
    let g := if g < GENMAX then g + 1 else g
    { s with gen := fun j => if j = i then g else s.gen j, st := fun j => if j = i then .visited else s.st j }
  | _ =>
    if parents.length = 0 then
      { s with gen := fun j => if j = i then 1 else s.gen j, st := fun j => if j = i then .visited else s.st j }
    else
      let s := pushParents parents { s with stack := i :: s.stack }
      { s with st := fun j => if j = i then .expanded else s.st j }

/-- the loop: src/libgit2/commit_graph.c:944-1001 -/
def genLoop (ps : List (List Nat)) : Nat → Gen → Res Gen
  | 0, _ => .ub
  | fuel + 1, s =>
    match s.stack with
    | [] => .ok s
    | i :: rest => genLoop ps fuel (genStep ps i { s with stack := rest })

/-- `compute_generation_numbers` after the indices of the parents are there: src/libgit2/commit_graph.c:920-1001; the generations of the commits. -/
def generations (n : Nat) (ps : List (List Nat)) : Res (List Nat) :=
  genLoop ps (3 * n + 1) ⟨fun _ => .unvisited, fun _ => 0, (List.range n).reverse⟩ >>= fun s => .ok ((List.range n).map s.gen)

/-- the loop filling the fan-out table at one index: src/libgit2/commit_graph.c:1123-1126; `cs` are the commits not counted yet -/
def fanCount (i : Nat) : List Commit → Nat → Nat × List Commit
  | [], k => (k, [])
  | c :: cs, k => if (c.id.headD 0).toNat ≤ i then fanCount i cs (k + 1) else (k, c :: cs)

/-- the fan-out table: src/libgit2/commit_graph.c:1121-1128; `n` entries are left -/
def fanTable : Nat → List Commit → Nat → List Nat
  | 0, _, _ => []
  | n + 1, cs, k => let r := fanCount (256 - (n + 1)) cs k; r.1 :: fanTable n r.2 r.1

/-- `htonl((uint32_t)n)` [src/libgit2/commit_graph.c:1160] -/
def word (n : Nat) : Bytes := be32 (UInt32.ofNat n)

/-- the extra edges of one commit: src/libgit2/commit_graph.c:1180-1190; the arguments are the parents from the second on -/
def edgeWords : List Nat → Bytes
  | [] => []
  | [p] => word (p % 2 ^ 32 % 2 ^ 31 + 2 ^ 31)
  | p :: ps => word p ++ edgeWords ps

/-- the word for the first parent: src/libgit2/commit_graph.c:1156-1161 -/
def word0 : List Nat → Nat
  | [] => MISSING
  | p :: _ => p

/-- the word for the second parent, or for the extra edges of which `k` were written before: src/libgit2/commit_graph.c:1166-1173 -/
def word1 (k : Nat) : List Nat → Nat
  | [] => MISSING
  | [_] => MISSING
  | [_, p] => p
  | _ => 2 ^ 31 + k % 2 ^ 31

/-- the record of one commit: src/libgit2/commit_graph.c:1149-1174, 1194-1203; `k` extra edges were written before -/
def dataRow (c : Commit) (ps : List Nat) (gen k : Nat) : Bytes :=
  let t := (c.time % 2 ^ 64).toNat
  let g := if gen > GENMAX then GENMAX else gen
  c.tree ++ word (word0 ps) ++ word (word1 k ps) ++ word (g * 4 + t / 2 ^ 32 % 4) ++ word (t % 2 ^ 32)

/-- the loop over the commits: src/libgit2/commit_graph.c:1141-1206; the commit data and the extra edges -/
def dataLoop : List Commit → List (List Nat) → List Nat → Nat → Bytes × Bytes
  | c :: cs, ps :: pss, g :: gs, k =>
    let more := if ps.length > 2 then edgeWords ps.tail else []
    let r := dataLoop cs pss gs (if ps.length > 2 then k + (ps.length - 1) else k)
    (dataRow c ps g k ++ r.1, more ++ r.2)
  | _, _, _, _ => ([], [])

/-- `write_chunk_header`: src/libgit2/commit_graph.c:1028-1039 and `write_offset` (:1011-1026) -/
def chunkHeader (id off : Nat) : Bytes := word id ++ word (off / 2 ^ 32) ++ word (off % 2 ^ 32)

/-- everything before the checksum: src/libgit2/commit_graph.c:1208-1253 -/
def body (fan : List Nat) (lookup data edges : Bytes) : Bytes :=
  let chunks := if edges.length > 0 then 4 else 3
  let o0 := 8 + (chunks + 1) * 12
  let o1 := o0 + 1024
  let o2 := o1 + lookup.length
  let o3 := o2 + data.length
  word 0x43475048 ++ [1, 1, UInt8.ofNat chunks, 0] ++
    chunkHeader 0x4f494446 o0 ++ chunkHeader 0x4f49444c o1 ++ chunkHeader 0x43444154 o2 ++
    (if edges.length > 0 then chunkHeader 0x45444745 o3 else []) ++
    chunkHeader 0 (if edges.length > 0 then o3 + edges.length else o3) ++
    fan.flatMap word ++ lookup ++ data ++ edges

/-- `commit_graph_write`: src/libgit2/commit_graph.c:1073-1272 (`git_commit_graph_writer_dump`, and `git_commit_graph_writer_commit` writes the same
to the file); `sum` is the hash -/
def write (sum : Bytes → Bytes) (commits : List Commit) : Res Bytes :=
  Sort.tsort commitCmp commits >>= fun l =>
  let cs := uniq l
  allIndices cs cs >>= fun ps =>
  generations cs.length ps >>= fun gs =>
  let d := dataLoop cs ps gs 0
  let b := body (fanTable 256 cs 0) (cs.flatMap (·.id)) d.1 d.2
  .ok (b ++ sum b)

end Verif.CommitGraph
