import Verif.PackObjects.Props
/-! # The hypotheses of C70 and C71 are met by a run that finds deltas -/
namespace Verif.PackObjects
open Verif.Pack.Spec Spec

/-- a toy compressor: each byte after a one, and a zero at the end -/
def exDeflate : Bytes → Bytes
  | [] => [0]
  | c :: cs => 1 :: c :: exDeflate cs

/-- its inverse -/
def exInflate : Bytes → Option Bytes
  | 0 :: _ => some []
  | 1 :: c :: r => (exInflate r).map (c :: ·)
  | _ => none

theorem exCompresses : Compresses exDeflate exInflate := by
  constructor
  · intro d rest
    induction d with
    | nil => rfl
    | cons c d ih =>
      show (exInflate (exDeflate d ++ rest)).map (c :: ·) = _
      rw [ih]; rfl
  · intro d
    cases d <;> simp [exDeflate]

/-- three ids -/
def exId (n : UInt8) : Bytes := List.replicate 20 n

def exText : Bytes := b!"The quick brown fox jumps over the lazy dog, then it sleeps in the warm sun."

/-- three blobs, two of them alike, and a small one -/
def exOdb (id : Bytes) : Option (Nat × Bytes) :=
  if id = exId 1 then some (3, exText ++ b!"!?ab")
  else if id = exId 2 then some (3, exText ++ b!" And again.")
  else if id = exId 3 then some (3, exText ++ b!"!?abc")
  else if id = exId 4 then some (3, b!"small")
  else none

def exEnv : Env := ⟨exOdb, exDeflate, fun _ => List.replicate 20 7, 536870912, 1⟩

theorem exPlausible : Plausible exEnv.odb := by
  have key : ∀ id o, exOdb id = some o → id.length = 20 ∧ o.1 = 3 ∧ o.2.length < 100 := by
    intro id o h
    unfold exOdb at h
    split at h
    · rename_i e; cases h; rw [e]; decide
    · split at h
      · rename_i e; cases h; rw [e]; decide
      · split at h
        · rename_i e; cases h; rw [e]; decide
        · split at h
          · rename_i e; cases h; rw [e]; decide
          · cases h
  refine ⟨fun id o h => (key id o h).1, fun id t d h => ?_, fun id t d h => ?_⟩
  · have := (key id _ h).2.1
    simp only at this
    omega
  · have := (key id _ h).2.2
    simp only at this
    omega

/-- one id twice, one that does not exist -/
def exCalls : List (Bytes × Option Bytes) := [(exId 1, some b!"a"), (exId 4, none), (exId 2, some b!"a"), (exId 9, none), (exId 3, some b!"a"), (exId 1, none)]

def exObjs : List PObj := (session exEnv exCalls).objs

example : exObjs.map (fun o => (o.id, o.size)) = [(exId 1, 80), (exId 4, 5), (exId 2, 87), (exId 3, 81)] := by decide +kernel

/-- a single thread at work -/
def work (E : Env) (objs : List PObj) (cache : Nat → Bool) : List Nat → Win → (Nat → DState) → Option (Nat → DState)
  | [], _, ds => some ds
  | po :: rest, w, ds => match findStep E objs 11 50 po 0 cache (ds po) w with
    | .ok (t, w') => work E objs cache rest w' (upd ds po t)
    | _ => none

theorem work_steps (E : Env) (objs : List PObj) (cache : Nat → Bool) : ∀ (l : List Nat) (w : Win) (ds ds' : Nat → DState), work E objs cache l w ds = some ds' →
    ∃ w', Steps E objs 11 50 ⟨[⟨l, w⟩], ds⟩ ⟨[⟨[], w'⟩], ds'⟩ := by
  intro l
  induction l with
  | nil => intro w ds ds' h; cases h; exact ⟨w, .refl _⟩
  | cons po rest ih =>
    intro w ds ds' h
    unfold work at h
    split at h
    · rename_i t w' hf
      obtain ⟨w'', hs⟩ := ih _ _ _ h
      exact ⟨w'', steps_trans (.tail (.refl _) (.take (i := 0) 0 cache rfl hf)) hs⟩
    · cases h

/-- all of it -/
def build (cache : Nat → Bool) : Option ((Nat → DState) × Bytes) :=
  match Sort.tsort (typeSizeSort exObjs) (candidates exEnv exObjs) with
  | .ok l => match work exEnv exObjs cache l (Win.fresh 11) (fun _ => DState.zero) with
    | some ds => match writePack exEnv exObjs (fun _ => false) ds 20 with
      | .ok file => some (ds, file)
      | _ => none
    | none => none
  | _ => none

theorem build_prepared (cache : Nat → Bool) (ds : Nat → DState) (file : Bytes) (h : build cache = some (ds, file)) :
    Prepared exEnv exObjs ds ∧ writePack exEnv exObjs (fun _ => false) ds 20 = .ok file := by
  unfold build at h
  split at h
  · rename_i l hl
    split at h
    · rename_i ds' hw
      split at h
      · rename_i f hf
        cases h
        refine ⟨?_, hf⟩
        obtain ⟨w', hs⟩ := work_steps exEnv exObjs cache l _ _ _ hw
        refine Prepared.deltas (l := l) (s := ⟨[⟨[], w'⟩], ds⟩) (by decide +kernel) hl ?_ (fun j hj => ?_)
        · have : startWork exEnv exObjs (PACK_WINDOW + 1) l = ⟨[⟨l, Win.fresh 11⟩], fun _ => DState.zero⟩ := by
            unfold startWork
            show Work.mk ((partition exObjs 11 1 l).map fun seg => ⟨seg, Win.fresh 11⟩) _ = _
            unfold partition
            rw [segment_last]
            simp [partition]
          rw [this]
          exact hs
        · rw [List.mem_singleton] at hj
          rw [hj]
      · cases h
    · cases h
  · cases h

/-- the search finds deltas for two of the three large objects: one of depth two and they are found again if they are not cached -/
example : (build (fun _ => true)).map (fun r => [0, 1, 2, 3].map fun i => (r.1 i).delta) = some [some 3, none, none, some 2] := by decide +kernel
example : (build (fun _ => false)).map (fun r => [0, 1, 2, 3].map fun i => (r.1 i).delta) = some [some 3, none, none, some 2] := by decide +kernel
example : (build (fun _ => true)).map (fun r => r.2) = (build (fun _ => false)).map (fun r => r.2) := by decide +kernel

theorem build_some : (build (fun _ => true)).isSome = true := by decide +kernel

/-- so the hypotheses of all theorems are met -/
example : ∃ ds file, Prepared exEnv (session exEnv exCalls).objs ds ∧ writePack exEnv (session exEnv exCalls).objs (fun _ => false) ds 20 = .ok file ∧
    ∃ ids : List Bytes, ids.Nodup ∧ (∀ id, id ∈ ids ↔ Inserted exEnv exCalls id) ∧ PackOf ⟨exOdb, exInflate, exEnv.sha⟩ 50 ids file := by
  obtain ⟨⟨ds, file⟩, h⟩ := Option.isSome_iff_exists.mp build_some
  obtain ⟨h1, h2⟩ := build_prepared _ _ _ h
  exact ⟨ds, file, h1, h2, C70_pack exEnv exInflate exCompresses exPlausible (fun _ => rfl) exCalls ds h1 (fun _ => false) 20 file h2⟩

example : exEnv.bigFile ≤ 715827860 := by decide

end Verif.PackObjects
