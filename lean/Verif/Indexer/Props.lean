import Verif.Indexer.Lemmas9
/-! # C74, C75, C76: receiving a pack -/
namespace Verif.Indexer
open Spec Verif.Pack Verif.Pack.Spec Verif.PackObjects.Spec

/-- **C74 (agree).** Two ways to cut the same bytes into pieces, both accepted: the same pack, the same index, the same name. -/
theorem C74_agree {E : Env} (hz : Zlib E.inflate) {fuel : Nat} {ps qs : List Bytes} {r r' : Done} (hp : ∀ d ∈ ps, d.length < 2 ^ 31) (hq : ∀ d ∈ qs, d.length < 2 ^ 31)
    (he : ps.flatten = qs.flatten) (h : index E fuel ps = some (.ok r)) (h' : index E fuel qs = some (.ok r')) : r = r' :=
  agree hz hp hq he h h'

/-- **C74 (whole).** What is accepted in one piece is accepted in any pieces, with the same result. -/
theorem C74_whole {E : Env} (hz : Zlib E.inflate) {fuel : Nat} {F : Bytes} {r : Done} (hF : F.length < 2 ^ 31) (h : index E fuel [F] = some (.ok r)) {ps : List Bytes}
    (hp : ∀ d ∈ ps, d.length < 2 ^ 31) (he : ps.flatten = F) : index E fuel ps = some (.ok r) :=
  whole hz hF h hp he

/-- C74, finding: a piece of 2^31 bytes is not handled: its size is converted to `int`, and as a `size_t` again it is huge. -/
theorem C74_size (E : Env) (s : St) (d : Bytes) (h : d.length = 2 ^ 31) : append E s d = .ub := by
  unfold append
  rw [if_pos (by rw [h]; decide)]

/-- **C75 (accepted).** A pack that is accepted, and to which nothing had to be added, is a pack: the header, as many entries as it says, the hash of all that at the end, which is also the
name. The index is accepted and lists every entry once, in the order of the ids, which differ; every id is found in it at its offset, with the checksum of the bytes of the entry; and
every delta, and every whole object that is as long as its header says, can be read, and has its name. -/
theorem C75_accepted {E : Env} (hz : Zlib E.inflate) (hsha : ∀ b, (E.sha b).length = 20) {fuel : Nat} {F : Bytes} {ps : List Bytes} {r : Done} (hps : ∀ d ∈ ps, d.length < 2 ^ 31)
    (hf : ps.flatten = F) (hF : F.length < 2 ^ 63) (hn : ∀ m, rd32 F 8 = .ok m → m.toNat < 2 ^ 26) (h : index E fuel ps = some (.ok r)) (hsame : r.pack = F) :
    ∃ ents stop p listed, Layout E.inflate E.sha F ents stop ∧ r.name = F.drop (F.length - 20) ∧ PackIdx.checkIndex 20 r.idx = .ok p ∧ PackIdx.foreachEntry 20 p = .ok listed ∧
      (listed.map (·.1)).Pairwise (· < ·) ∧ (listed.map (·.2)).Perm (ents.map (·.off)) ∧
      ∀ i (h : i < listed.length), ∃ e ∈ ents, e.off = listed[i].2 ∧ PackIdx.findOffset 20 p listed[i].1 40 = .ok (listed[i].2, listed[i].1) ∧
        rd32 r.idx (1032 + 20 * listed.length + 4 * i) = .ok (E.crc ((F.drop e.off).take (e.stop - e.off))) ∧
        Stands E.inflate E.sha F (findBy p) e listed[i].1 := by
  obtain ⟨ents, stop, p, listed, h1, h2, h3, h4, h5, h6, h7, _⟩ := sound hz hsha hps hf hF hn h hsame
  exact ⟨ents, stop, p, listed, h1, h2, h3, h4, h5, h6, h7⟩

/-- **C75 (unchanged).** Without an object database nothing is ever added: the pack is the bytes that were given. -/
theorem C75_unchanged {E : Env} (hz : Zlib E.inflate) (hodb : E.odb = none) {fuel : Nat} {ps : List Bytes} {r : Done} (hps : ∀ d ∈ ps, d.length < 2 ^ 31)
    (h : index E fuel ps = some (.ok r)) : r.pack = ps.flatten :=
  unchanged hz hodb hps h

/-- **C76.** With verification, and in a pack whose whole objects are as long as their headers say: every id that an object of the pack names is in the pack or known to the database -
unless the object itself was known. -/
theorem C76_connected {E : Env} (hz : Zlib E.inflate) (hsha : ∀ b, (E.sha b).length = 20) {fuel : Nat} {F : Bytes} {ps : List Bytes} {r : Done} (hps : ∀ d ∈ ps, d.length < 2 ^ 31)
    (hf : ps.flatten = F) (hF : F.length < 2 ^ 63) (hn : ∀ m, rd32 F 8 = .ok m → m.toNat < 2 ^ 26) (h : index E fuel ps = some (.ok r)) (hsame : r.pack = F) (hv : E.verify = true) :
    ∃ ents stop p listed, Layout E.inflate E.sha F ents stop ∧ PackIdx.checkIndex 20 r.idx = .ok p ∧ PackIdx.foreachEntry 20 p = .ok listed ∧
      (listed.map (·.2)).Perm (ents.map (·.off)) ∧
      ((∀ e ∈ ents, Whole e → e.data.length = e.size ∧ e.size < 2 ^ 63) → ∀ x ∈ listed, ∀ t d, (⟨F, findBy p, contents E.inflate⟩ : Source).Entry x.2 t d → known E x.1 = false →
        ∃ ids, E.refs t d = some ids ∧ ∀ r ∈ ids, known E r = true ∨ r ∈ listed.map (·.1)) := by
  obtain ⟨ents, stop, p, listed, h1, h2, h3, h4, h5, h6, _, h8⟩ := sound hz hsha hps hf hF hn h hsame
  exact ⟨ents, stop, p, listed, h1, h3, h4, h6, h8 hv⟩

/-! ## more fuel -/

theorem chain_mono (p : Pack) (c : Nat → Cache) : ∀ (f k off : Nat) (st : List Elem) (x : Res (List Elem × Option Raw)), chain p c f k off st = some x →
    ∀ f', f ≤ f' → chain p c f' k off st = some x := by
  intro f
  induction f with
  | zero => intro k off st x h; cases h
  | succ f ih =>
    intro k off st x h f' hf
    obtain ⟨g, rfl⟩ : ∃ g, f' = g + 1 := ⟨f' - 1, by omega⟩
    unfold chain at h ⊢
    cases hc : c k off with
    | some raw => rw [hc] at h; exact h
    | none =>
      rw [hc] at h
      dsimp only at h ⊢
      cases hu : unpackHeader p off with
      | err e => rw [hu] at h; exact h
      | ub => rw [hu] at h; exact h
      | ok r =>
        obtain ⟨t, z, pos⟩ := r
        rw [hu] at h
        dsimp only at h ⊢
        by_cases hd : ¬ isDelta t = true
        · rw [if_pos hd] at h ⊢; exact h
        · rw [if_neg hd] at h ⊢
          cases hb : getDeltaBase p pos t off with
          | err e => rw [hb] at h; exact h
          | ub => rw [hb] at h; exact h
          | ok b =>
            rw [hb] at h
            exact ih _ _ _ _ h g (by omega)

theorem unpack_mono {p : Pack} {c : Nat → Cache} {f off : Nat} {x : Res (Raw × List (Nat × Raw))} (h : unpack p c f off = some x) {f' : Nat} (hf : f ≤ f') : unpack p c f' off = some x := by
  unfold unpack at h ⊢
  cases hc : chain p c f 0 off [] with
  | none => rw [hc] at h; cases h
  | some y =>
    rw [hc] at h
    rw [chain_mono _ _ _ _ _ _ _ hc f' hf]
    exact h

/-- C75, finding: the loop of `resolve_deltas` does not end when, with an object database, the only delta left names a base that is in the pack, and makes an object that is in the pack. -/
theorem hang {E : Env} {odb : Bytes → Option (Nat × Bytes)} (hodb : E.odb = some odb) (hv : E.verify = false) {s : St} {o pos sz t : Nat} {d id : Bytes} {a : List (Nat × Raw)} {f : Nat}
    (hd : s.deltas = [o]) (hu : unpack (view E s) (fun _ _ => none) f o = some (.ok ((t, d), a))) (hid : Loose.hashObj E.sha ⟨t, d.length, d⟩ = .ok id)
    (hdup : s.ix.objects.any (fun x => x.id = id) = true) (hh : unpackHeader (view E s) o = .ok (REF_DELTA, sz, pos)) (hl : ¬ s.file.length < pos + 20)
    (hbase : (lookup s ((s.file.drop pos).take 20)).isSome = true) : ∀ fuel turns, resolveDeltas E fuel turns s = none := by
  intro fuel turns
  have hone : resolveOne E fuel s o = none ∨ resolveOne E fuel s o = some (.ok (s, false)) := by
    unfold resolveOne
    cases hx : unpack (view E s) (fun _ _ => none) fuel o with
    | none => exact .inl rfl
    | some x =>
      right
      have : x = .ok ((t, d), a) := by
        have h1 := unpack_mono hu (Nat.le_max_left f fuel)
        have h2 := unpack_mono hx (Nat.le_max_right f fuel)
        rw [h1] at h2
        exact (Option.some.inj h2).symm
      subst this
      dsimp only
      unfold verified
      rw [if_neg (by rw [hv]; decide)]
      dsimp only
      unfold hashAndSave
      rw [hid, Res.bind_ok]
      have : ∀ c, PackIdx.saveEntry s.ix ⟨id, c, o⟩ = .err (-1) := by
        intro c
        unfold PackIdx.saveEntry
        rw [if_pos hdup]
      rw [this]
      rfl
  have hfix : fixThinPack E s = .ok s := by
    unfold fixThinPack
    rw [hodb, hd]
    dsimp only
    unfold firstRef
    rw [hh, Res.bind_ok, if_pos rfl, Res.bind_ok, if_neg hl, if_pos hbase]
  induction turns with
  | zero => rfl
  | succ turns ih =>
    unfold resolveDeltas
    rw [if_neg (by rw [hd]; simp), hd]
    unfold resolvePass
    rcases hone with h | h
    · rw [h]
    · rw [h]
      dsimp only
      unfold resolvePass
      dsimp only [Option.map_some, Res.bind_ok]
      have hs : ({ s with deltas := [o] } : St) = s := by rw [← hd]
      show (if (false || false) = true then _ else _) = none
      rw [if_neg (by decide)]
      show (match fixThinPack E { s with deltas := [o] } with
        | .ok s => resolveDeltas E fuel turns s
        | .err _ => some (.err (-1))
        | .ub => some .ub) = none
      rw [hs, hfix]
      exact ih

/-! ## examples -/

/-- a stream is its length and its bytes -/
def exInflate : Bytes → Infl
  | [] => .more
  | n :: r => if n ≥ 0x80 then .bad else if r.length < n.toNat then .more else .done (n.toNat + 1) (r.take n.toNat)

theorem exZlib : Zlib exInflate where
  used b n d h := by
    unfold exInflate at h
    split at h
    · cases h
    · split at h
      · cases h
      · split at h
        · cases h
        · rename_i hl
          cases h
          rw [List.length_cons]
          omega
  stream b n d rest h := by
    unfold exInflate at h
    split at h
    · cases h
    · rename_i c r
      split at h
      · cases h
      · rename_i h1
        split at h
        · cases h
        · rename_i hl
          cases h
          rw [List.take_succ_cons, List.cons_append]
          unfold exInflate
          dsimp only
          rw [if_neg h1, if_neg (by rw [List.length_append, List.length_take]; omega), List.take_append_of_le_length (by rw [List.length_take]; omega), List.take_take, Nat.min_self]
  bad b rest h := by
    unfold exInflate at h
    split at h
    · cases h
    · rename_i c r
      split at h
      · rename_i h1
        rw [List.cons_append]
        unfold exInflate
        dsimp only
        rw [if_pos h1]
      · split at h <;> cases h

/-- a "hash" of 20 bytes -/
def exSha (b : Bytes) : Bytes :=
  let h := b.foldl (fun a c => a * 31 + c.toUInt32) 7
  be32 h ++ be32 (h * 17) ++ be32 (h ^^^ 0x5a5a5a5a) ++ be32 1 ++ be32 2

theorem exSha_len (b : Bytes) : (exSha b).length = 20 := rfl

def exEnv : Env where
  sha := exSha
  crc := fun b => b.foldl (fun a c => a * 3 + c.toUInt32) 1
  inflate := exInflate
  deflate := fun b => UInt8.ofNat b.length :: b
  stall := fun _ _ => none
  refs := fun t d => if t = 1 then (if d.length < 20 then none else some [d.take 20]) else some []
  verify := true

def exHeader (n : UInt8) : Bytes := b!"PACK" ++ [0, 0, 0, 2] ++ [0, 0, 0, n]
def exClose (b : Bytes) : Bytes := b ++ exSha b
def exId (t : Nat) (d : Bytes) : Bytes := match Loose.formatHeader 64 d.length t with | .ok h => exSha (h ++ d) | _ => []

/-- a commit that names `abcd`; `abcd` as a delta of `abc`, by id; `ab`; `abc` as a delta of it, by distance -/
def exPack : Bytes :=
  exClose (exHeader 4 ++ ([0x94, 1, 20] ++ exId 3 b!"abcd") ++ ([0x76] ++ exId 3 b!"abc" ++ [6, 3, 4, 0x90, 3, 1, c!"d"]) ++ [0x32, 2, c!"a", c!"b"] ++
    [0x66, 4, 6, 2, 3, 0x90, 2, 1, c!"c"])

/-- the pack in one piece -/
def exDone : Done := match index exEnv 9 [exPack] with | some (.ok r) => r | _ => ⟨[], [], []⟩

theorem exDone_ok : index exEnv 9 [exPack] = some (.ok exDone) := by decide +kernel

/-- C74: in pieces of one byte -/
example : index exEnv 9 (exPack.map fun b => [b]) = some (.ok exDone) := by
  refine C74_whole exZlib (by decide +kernel) exDone_ok ?_ ?_
  · intro d hd
    obtain ⟨b, _, rfl⟩ := List.mem_map.mp hd
    show (1 : Nat) < 2 ^ 31
    decide
  · decide +kernel
example : index exEnv 9 (exPack.map fun b => [b]) = some (.ok exDone) := by decide +kernel
example : index exEnv 9 [exPack.take 40, [], exPack.drop 40] = some (.ok exDone) := by decide +kernel

/-- C75, C76: the hypotheses are met -/
example : exDone.pack = exPack := C75_unchanged exZlib rfl (by decide +kernel) exDone_ok |>.trans (by simp)
example : ∃ ents stop p listed, Layout exInflate exSha exPack ents stop ∧ exDone.name = exPack.drop (exPack.length - 20) ∧ PackIdx.checkIndex 20 exDone.idx = .ok p ∧
    PackIdx.foreachEntry 20 p = .ok listed ∧ listed.length = 4 := by
  obtain ⟨ents, stop, p, listed, h1, h2, h3, h4, _, h6, _⟩ := C75_accepted (E := exEnv) exZlib exSha_len (F := exPack) (ps := [exPack]) (by decide +kernel) (by simp) (by decide +kernel)
    (by
      intro m hm
      have : rd32 exPack 8 = .ok 4 := by decide +kernel
      rw [this] at hm
      cases hm
      decide) exDone_ok (by decide +kernel)
  refine ⟨ents, stop, p, listed, h1, h2, h3, h4, ?_⟩
  have e : ents.length % 2 ^ 32 = 4 := by
    have := h1.header
    have h12 : exPack.take 12 = exHeader 4 := by decide +kernel
    rw [h12] at this
    have hl := h1.count
    simp only [exHeader, count4, List.cons_append, List.nil_append] at this
    simp only [List.cons.injEq, and_true, true_and] at this
    obtain ⟨a1, a2, a3, a4⟩ := this
    have a1 := congrArg UInt8.toNat a1
    have a2 := congrArg UInt8.toNat a2
    have a3 := congrArg UInt8.toNat a3
    have a4 := congrArg UInt8.toNat a4
    rw [UInt8.toNat_ofNat'] at a1 a2 a3 a4
    have : (0 : UInt8).toNat = 0 := rfl
    have : (4 : UInt8).toNat = 4 := rfl
    omega
  have := h6.length_eq
  rw [List.length_map, List.length_map] at this
  have := h1.count
  omega

/-- C75: what an index of the pack lists -/
example : ∃ p, PackIdx.checkIndex 20 exDone.idx = .ok p ∧ findBy p (exId 3 b!"abcd") = some 35 ∧ findBy p (exId 3 b!"ab") = some 63 ∧ findBy p (exId 3 b!"abc") = some 67 :=
  ⟨⟨exDone.idx, 2, 4⟩, by decide +kernel⟩

/-- C76: without `abcd` the commit is refused -/
example : index exEnv 9 [exClose (exHeader 1 ++ ([0x94, 1, 20] ++ exId 3 b!"abcd"))] = some (.err (-1)) := by decide +kernel

/-- C74, finding: three entries where the header says two; the first two are `ab` and a delta, which is not counted before the end, and the third is not finished -/
def exPending : Bytes :=
  exHeader 2 ++ [0x32, 2, c!"a", c!"b"] ++ [0x66, 4, 6, 2, 3, 0x90, 2, 1, c!"c"] ++ [0x32, 0x7f] ++ List.replicate 24 0

/-- C74, finding: whether it is accepted depends on the pieces: when a piece ends just before the checksum the entry that is not finished goes unnoticed. -/
theorem C74_pending : (∃ r, index exEnv 9 [exPending, exSha exPending] = some (.ok r)) ∧ index exEnv 9 [exPending ++ exSha exPending] = some (.err (-1)) := by
  refine ⟨⟨match index exEnv 9 [exPending, exSha exPending] with | some (.ok r) => r | _ => ⟨[], [], []⟩, ?_⟩, ?_⟩ <;> decide +kernel

/-- with a database that has nothing, and no verification -/
def exOdb : Env := { exEnv with odb := some fun _ => none, verify := false }

/-- `ab`, and a delta that makes `ab` from `ab` -/
def exTwice : Bytes := exClose (exHeader 2 ++ [0x32, 2, c!"a", c!"b"] ++ ([0x74] ++ exId 3 b!"ab" ++ [4, 2, 2, 0x90, 2]))

/-- **C75, finding.** A pack with an object `ab` and a delta by id that makes `ab` again from it: with an object database `git_indexer_commit` never returns. -/
theorem C75_hang : ∀ fuel, index exOdb fuel [exTwice] = none := by
  intro fuel
  have h0 : ∃ s, appendAll exOdb [exTwice] {} = .ok s := by
    cases h : appendAll exOdb [exTwice] {} with
    | ok s => exact ⟨s, rfl⟩
    | err e => exact absurd h (by
        have : (match appendAll exOdb [exTwice] {} with | .ok _ => true | _ => false) = true := by decide +kernel
        intro hc
        rw [hc] at this
        cases this)
    | ub => exact absurd h (by
        have : (match appendAll exOdb [exTwice] {} with | .ok _ => true | _ => false) = true := by decide +kernel
        intro hc
        rw [hc] at this
        cases this)
  obtain ⟨s, hs⟩ := h0
  let g : St := match appendAll exOdb [exTwice] {} with | .ok s => s | _ => {}
  have hg : g = s := by
    show (match appendAll exOdb [exTwice] {} with | .ok s => s | _ => {}) = s
    rw [hs]
  unfold index
  rw [hs]
  dsimp only
  rw [← hg]
  unfold commit
  rw [if_neg (by decide +kernel), if_neg (by decide +kernel), if_neg (by decide +kernel), if_neg (by decide +kernel)]
  rw [hang (E := exOdb) (odb := fun _ => none) rfl rfl (s := { g with stream := none, inbuf := [] }) (o := 16) (pos := 17) (sz := 4) (t := 3) (d := b!"ab") (id := exId 3 b!"ab")
    (a := [(12, (3, b!"ab"))]) (f := 2) ?_ ?_ ?_ ?_ ?_ ?_ ?_ fuel fuel] <;> decide +kernel

/-- a blob `ab` whose header says that it has three bytes -/
def exWrong : Bytes := exClose (exHeader 1 ++ [0x33, 2, c!"a", c!"b"])

/-- **C75, finding.** The length of an object is not compared with its header: the pack is accepted, the object is listed, and cannot be read. -/
theorem C75_wrong_size : ∃ r p id, index exEnv 9 [exWrong] = some (.ok r) ∧ PackIdx.checkIndex 20 r.idx = .ok p ∧ PackIdx.foreachEntry 20 p = .ok [(id, 12)] ∧
    ∀ t d, ¬ (⟨r.pack, findBy p, contents exInflate⟩ : Source).Entry 12 t d := by
  refine ⟨match index exEnv 9 [exWrong] with | some (.ok r) => r | _ => ⟨[], [], []⟩, ⟨(match index exEnv 9 [exWrong] with | some (.ok r) => r.idx | _ => []), 2, 1⟩,
    exSha (b!"blob 3" ++ [0] ++ b!"ab"), by decide +kernel, by decide +kernel, by decide +kernel, ?_⟩
  intro t d h
  have h' : (src ⟨exWrong, fun _ => exWrong.length, findBy ⟨(match index exEnv 9 [exWrong] with | some (.ok r) => r.idx | _ => []), 2, 1⟩, contents exInflate, -1⟩).Entry 12 t d := by
    have : (match index exEnv 9 [exWrong] with | some (.ok r) => r | _ => ⟨[], [], []⟩).pack = exWrong := by decide +kernel
    rw [this] at h
    exact h
  obtain ⟨N, hN⟩ := C52_complete _ ⟨by decide +kernel, fun _ => .inr (Nat.sub_le _ _)⟩ (fun _ _ => none) (fun k off raw h => by cases h) 12 t d h'
  obtain ⟨adds, h1⟩ := hN (max N 1) (Nat.le_max_left _ _)
  have h2 : unpack ⟨exWrong, fun _ => exWrong.length, findBy ⟨(match index exEnv 9 [exWrong] with | some (.ok r) => r.idx | _ => []), 2, 1⟩, contents exInflate, -1⟩ (fun _ _ => none) 1 12 =
      some (.err (-1)) := by decide +kernel
  rw [unpack_mono h2 (Nat.le_max_right _ _)] at h1
  cases h1

/-- a commit that names `ab`, and a blob with these bytes whose header says that it has three -/
def exBypass : Bytes := exClose (exHeader 2 ++ ([0x94, 1, 20] ++ exId 3 b!"ab") ++ [0x33, 2, c!"a", c!"b"])

/-- **C76, finding.** The same lack defeats verification: an object stands in for the one that is expected, though it is saved under another id. -/
theorem C76_bypass : ∃ r, index exEnv 9 [exBypass] = some (.ok r) ∧ PackIdx.checkIndex 20 r.idx = .ok ⟨r.idx, 2, 2⟩ ∧ findBy ⟨r.idx, 2, 2⟩ (exId 1 (exId 3 b!"ab")) = some 12 ∧
    exEnv.refs 1 (exId 3 b!"ab") = some [exId 3 b!"ab"] ∧ findBy ⟨r.idx, 2, 2⟩ (exId 3 b!"ab") = none :=
  ⟨match index exEnv 9 [exBypass] with | some (.ok r) => r | _ => ⟨[], [], []⟩, by decide +kernel⟩

/-- a thin pack: a delta whose base is in the database only -/
def exThin : Bytes := exClose (exHeader 1 ++ ([0x76] ++ exId 3 b!"abc" ++ [6, 3, 4, 0x90, 3, 1, c!"d"]))

/-- C75: the base is added -/
example : ∃ r, index { exEnv with odb := some fun id => if id = exId 3 b!"abc" then some (3, b!"abc") else none } 9 [exThin] = some (.ok r) ∧
    r.pack = exClose (exHeader 2 ++ ([0x76] ++ exId 3 b!"abc" ++ [6, 3, 4, 0x90, 3, 1, c!"d"]) ++ [0x33, 3] ++ b!"abc") ∧
    PackIdx.checkIndex 20 r.idx = .ok ⟨r.idx, 2, 2⟩ ∧ findBy ⟨r.idx, 2, 2⟩ (exId 3 b!"abcd") = some 12 ∧ findBy ⟨r.idx, 2, 2⟩ (exId 3 b!"abc") = some 40 :=
  ⟨match index { exEnv with odb := some fun id => if id = exId 3 b!"abc" then some (3, b!"abc") else none } 9 [exThin] with | some (.ok r) => r | _ => ⟨[], [], []⟩, by decide +kernel⟩

end Verif.Indexer
