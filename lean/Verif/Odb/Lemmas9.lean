import Verif.Odb.Lemmas8
import Verif.Odb.Lemmas5
/-! # The two backends do what backends should -/
namespace Verif.Odb
open Spec
open PackIdx.Spec (SamePrefix Padded)

variable {osz : Nat} {U : Bytes → Pk} {b : PackB}

theorem same_sees {b b' : PackB} (h : SameButLast b b') : backSees osz (.pack b') = backSees osz (.pack b) ∧ backAfter osz (.pack b') = backAfter osz (.pack b) := by
  obtain ⟨l, rfl⟩ := h
  exact ⟨rfl, rfl⟩

theorem packRead_spec (G : PackGood osz U b) {id : Bytes} (hi : id.length = osz) : PackGood osz U (packRead b id).1 ∧ SameButLast b (packRead b id).1 ∧
    (∀ o, firstObj osz (openPacks b) id = some o → (packRead b id).2 = .ok o) ∧ (firstObj osz (openPacks b) id = none → (packRead b id).2 = .err (-3)) := by
  obtain ⟨G', S, h⟩ := entryFind_spec G hi
  refine ⟨G', S, fun o ho => ?_, fun hn => ?_⟩
  · rcases h with ⟨e, o', h1, h2, h3⟩ | ⟨h1, h2⟩
    · rw [ho] at h3
      injection h3 with h3
      subst h3
      unfold packRead
      rw [h1]
      exact h2
    · rw [ho] at h2; cases h2
  · rcases h with ⟨e, o', h1, h2, h3⟩ | ⟨h1, h2⟩
    · rw [hn] at h3; cases h3
    · unfold packRead
      rw [h1]
      rfl

theorem packHeader_eq (b : PackB) (id : Bytes) : packHeader b id = ((packRead b id).1, do
    let o ← (packRead b id).2
    .ok (o.data.length, o.type)) := by
  unfold packHeader packRead
  cases (entryFind b id).2 <;> rfl

theorem packReadPrefix_spec (G : PackGood osz U b) {key : Bytes} {len : Nat} (hk : key.length = osz) (h4 : 4 ≤ len) (hp : Padded len key) :
    PackGood osz U (packReadPrefix b key len).1 ∧ SameButLast b (packReadPrefix b key len).1 ∧
    Looked (Has (firstObj osz (openPacks b))) key len (idOnly (packReadPrefix b key len).2) ∧
    ∀ i o, (packReadPrefix b key len).2 = .ok (i, o) → firstObj osz (openPacks b) i = some o := by
  unfold packReadPrefix
  rw [if_neg (by simp only [MINPREFIXLEN]; omega)]
  have hsz : 2 * b.osz = 2 * osz := by rw [G.size]
  rw [hsz]
  split
  · rename_i hl
    obtain ⟨G', S, r1, r2⟩ := packRead_spec G hk
    have hlen : ∀ j, Has (firstObj osz (openPacks b)) j → SamePrefix len key j → j = key := by
      intro j hj hs
      obtain ⟨p, _, hq⟩ := has_first.mp hj
      obtain ⟨o, ho⟩ := Option.isSome_iff_exists.mp hq
      exact ((PackIdx.samePrefix_full (by rw [hk, pkObj_len ho]) (by rw [pkObj_len ho]; exact hl)).mp hs).symm
    refine ⟨G', S, ?_⟩
    cases hf : firstObj osz (openPacks b) key with
    | some o =>
      rw [r1 o hf]
      refine ⟨.one (by unfold Has; rw [hf]; rfl) rfl hlen, fun i x h => ?_⟩
      simp only [bind, Res.bind] at h
      injection h with h
      injection h with h1 h2
      rw [← h1, ← h2]
      exact hf
    | none =>
      rw [r2 hf]
      refine ⟨.none fun j hj hs => ?_, fun i x h => (by simp [bind, Res.bind] at h)⟩
      rw [hlen j hj hs] at hj
      unfold Has at hj
      rw [hf] at hj
      cases hj
  · obtain ⟨G', S, L, v⟩ := entryFindPrefix_spec G hk hp
    refine ⟨G', S, ?_⟩
    generalize (entryFindPrefix b key len).2 = r at L v
    cases r with
    | ok e =>
      obtain ⟨o, h1, h2⟩ := v e rfl
      simp only [bind, Res.bind, h1]
      refine ⟨L, fun i x h => ?_⟩
      injection h with h
      injection h with h3 h4
      rw [← h3, ← h4]
      exact h2
    | err e => exact ⟨L, fun i x h => (by simp [bind, Res.bind] at h)⟩
    | ub => exact ⟨L, fun i x h => (by simp [bind, Res.bind] at h)⟩

theorem packHasPrefix_spec (G : PackGood osz U b) {key : Bytes} {len : Nat} (hk : key.length = osz) (hp : Padded len key) :
    PackGood osz U (packHasPrefix b key len).1 ∧ SameButLast b (packHasPrefix b key len).1 ∧ Looked (Has (firstObj osz (openPacks b))) key len (packHasPrefix b key len).2 := by
  obtain ⟨G', S, L, _⟩ := entryFindPrefix_spec G hk hp
  refine ⟨G', S, ?_⟩
  unfold packHasPrefix
  generalize (entryFindPrefix b key len).2 = r at L
  cases r <;> exact L

theorem back_grows (s : Back) (G : BackGood osz U s) (id : Bytes) (o : Obj) (h : backSees osz s id = some o) : backAfter osz s id = some o := by
  cases s with
  | loose b => exact h
  | pack b =>
    have G : PackGood osz U b := G
    simp only [backAfter, backSees] at h ⊢
    split
    · obtain ⟨p, hp, h2⟩ := (firstObj_iff (good_open G)).mp h
      exact (firstObj_iff G.agree).mpr ⟨p, List.mem_append_left _ hp, h2⟩
    · exact h

theorem loose_header (b : LooseB) (id : Bytes) : (∀ o, looseRead b id = .ok o → looseHeader b id = .ok (o.data.length, o.type)) ∧ (looseRead b id = .err (-3) → looseHeader b id = .err (-3)) := by
  unfold looseHeader
  exact ⟨fun o h => by rw [h]; rfl, fun h => by rw [h]; rfl⟩

theorem loose_wrote {b : LooseB} (G : LooseGood osz b) (h1 : 1 ≤ osz) {id : Bytes} (hi : id.length = osz) (o : Obj) : LooseGood osz (looseWrite b id o).1 ∧
    (((looseWrite b id o).2 = .ok () ∧ looseObjs (looseWrite b id o).1 = With (looseObjs b) id o) ∨
      (∃ e, (looseWrite b id o).2 = .err e ∧ e < 0 ∧ e ≠ -30 ∧ looseObjs (looseWrite b id o).1 = looseObjs b)) := by
  obtain ⟨G', h⟩ := looseWrite_spec G h1 hi o
  refine ⟨G', ?_⟩
  rcases h with ⟨_, a, c⟩ | ⟨_, a, c⟩
  · exact .inl ⟨a, c⟩
  · exact .inr ⟨-1, a, by decide, by decide, by rw [c]⟩

theorem backHonest (h1 : 1 ≤ osz) : Honest backOps osz (BackGood osz U) (backSees osz) (backAfter osz) (fun id _ => id.length = osz) where
  grows := back_grows
  fixed s _ h := by
    cases s with
    | loose b => rfl
    | pack b => cases h
  read s G id hi := by
    cases s with
    | loose b =>
      obtain ⟨r1, r2⟩ := looseRead_spec G h1 hi
      exact ⟨G, rfl, rfl, rfl, fun o h => (r1 o h).1, fun h => .inl (r2 h).1⟩
    | pack b =>
      obtain ⟨G', S, r1, r2⟩ := packRead_spec G hi
      exact ⟨G', (same_sees S).1, (same_sees S).2, rfl, r1, fun h => .inl (r2 h)⟩
  header s G id hi := by
    cases s with
    | loose b =>
      obtain ⟨r1, r2⟩ := looseRead_spec G h1 hi
      exact ⟨G, rfl, rfl, rfl, .inr ⟨fun o h => (loose_header b id).1 o (r1 o h).1, fun h => (loose_header b id).2 (r2 h).1⟩⟩
    | pack b =>
      obtain ⟨G', S, r1, r2⟩ := packRead_spec G hi
      have e := packHeader_eq b id
      refine ⟨?_, ?_, ?_, rfl, .inr ⟨fun o h => ?_, fun h => ?_⟩⟩
      · show PackGood osz U (packHeader b id).1
        rw [e]; exact G'
      · show backSees osz (.pack (packHeader b id).1) = _
        rw [e]; exact (same_sees S).1
      · show backAfter osz (.pack (packHeader b id).1) = _
        rw [e]; exact (same_sees S).2
      · show (packHeader b id).2 = _
        rw [e, r1 o h]; rfl
      · show (packHeader b id).2 = _
        rw [e, r2 h]; rfl
  has s G id hi := by
    cases s with
    | loose b =>
      obtain ⟨r1, r2⟩ := looseRead_spec G h1 hi
      refine ⟨G, rfl, rfl, rfl, ?_⟩
      show (locate b id).isSome = (looseObjs b id).isSome
      cases h : looseObjs b id with
      | some o => exact (r1 o h).2
      | none => exact (r2 h).2
    | pack b =>
      obtain ⟨G', S, h⟩ := entryFind_spec G hi
      refine ⟨G', (same_sees S).1, (same_sees S).2, rfl, ?_⟩
      show (match (entryFind b id).2 with
        | .ok _ => true
        | _ => false) = (firstObj osz (openPacks b) id).isSome
      rcases h with ⟨e, o', e1, e2, e3⟩ | ⟨e1, e2⟩
      · rw [e1, e3]; rfl
      · rw [e1, e2]; rfl
  readPrefix s G key len hk h4 _ hp := by
    cases s with
    | loose b =>
      obtain ⟨L, v⟩ := looseReadPrefix_spec G h1 hk h4
      exact ⟨G, rfl, rfl, rfl, .inl L, v⟩
    | pack b =>
      obtain ⟨G', S, L, v⟩ := packReadPrefix_spec G hk h4 hp
      exact ⟨G', (same_sees S).1, (same_sees S).2, rfl, .inl L, v⟩
  hasPrefix s G key len hk h4 _ hp := by
    cases s with
    | loose b => exact ⟨G, rfl, rfl, rfl, .inl (locateShort_spec G h1 hk h4)⟩
    | pack b =>
      obtain ⟨G', S, L⟩ := packHasPrefix_spec G hk hp
      exact ⟨G', (same_sees S).1, (same_sees S).2, rfl, .inl L⟩
  refresh s G h := by
    cases s with
    | loose b => cases h
    | pack b =>
      obtain ⟨G', e, h2, h3, _⟩ := packRefresh_spec (b0 := b) G
      exact ⟨G', e, h2, h3, rfl⟩
  freshen s G f hf id hi := by
    cases s with
    | loose b =>
      injection hf with hf
      subst hf
      refine ⟨G, rfl, rfl, rfl, fun h => ?_⟩
      obtain ⟨r1, r2⟩ := looseRead_spec G h1 hi
      show (looseObjs b id).isSome = true
      cases hn : looseObjs b id with
      | some o => rfl
      | none =>
        have := (r2 hn).2
        simp only [looseFreshen] at h
        cases hl : locate b id with
        | none => rw [hl] at h; cases h
        | some f => rw [hl] at this; cases this
    | pack b =>
      injection hf with hf
      subst hf
      obtain ⟨G', S, h⟩ := entryFind_spec G hi
      refine ⟨G', (same_sees S).1, (same_sees S).2, rfl, fun hq => ?_⟩
      show (firstObj osz (openPacks b) id).isSome = true
      rcases h with ⟨e, o', e1, e2, e3⟩ | ⟨e1, e2⟩
      · rw [e3]; rfl
      · simp only [packFreshen, e1] at hq
        cases hq
  write s G f hf id o hv := by
    cases s with
    | loose b =>
      injection hf with hf
      subst hf
      obtain ⟨G', h⟩ := loose_wrote G h1 hv o
      refine ⟨G', rfl, ?_⟩
      rcases h with ⟨a, c⟩ | ⟨e, a, c, d, f⟩
      · exact .inl ⟨a, c, c⟩
      · exact .inr ⟨e, a, c, d, f, f⟩
    | pack b => cases hf
  finish s G hf id o hv := by
    cases s with
    | loose b =>
      obtain ⟨G', h⟩ := loose_wrote G h1 hv o
      refine ⟨G', rfl, ?_⟩
      rcases h with ⟨a, c⟩ | ⟨e, a, c, _, f⟩
      · exact .inl ⟨a, c, c⟩
      · exact .inr ⟨e, a, c, f, f⟩
    | pack b => exact (hf rfl).elim
  stream s G r hr := by
    cases s with
    | loose b =>
      injection hr with hr
      subst hr
      cases b.ro with
      | true => exact .inr ⟨-1, rfl, by decide, by decide⟩
      | false => exact .inl rfl
    | pack b => cases hr

theorem loose_ro (b : LooseB) (id : Bytes) (o : Obj) : (looseWrite b id o).1.ro = b.ro := by
  unfold looseWrite
  split
  · rfl
  · split <;> rfl

/-- the same where loose objects can be written -/
theorem backHonest_rw (h1 : 1 ≤ osz) : Honest backOps osz (fun s => BackGood osz U s ∧ Writable s) (backSees osz) (backAfter osz) (fun id _ => id.length = osz) where
  grows s G := (backHonest h1).grows s G.1
  fixed s G := (backHonest h1).fixed s G.1
  read s G id hi := by
    obtain ⟨a, r⟩ := (backHonest h1).read s G.1 id hi
    refine ⟨⟨a, ?_⟩, r⟩
    cases s with
    | loose b => exact G.2
    | pack b => exact trivial
  header s G id hi := by
    obtain ⟨a, r⟩ := (backHonest h1).header s G.1 id hi
    refine ⟨⟨a, ?_⟩, r⟩
    cases s with
    | loose b => exact G.2
    | pack b => exact trivial
  has s G id hi := by
    obtain ⟨a, r⟩ := (backHonest h1).has s G.1 id hi
    refine ⟨⟨a, ?_⟩, r⟩
    cases s with
    | loose b => exact G.2
    | pack b => exact trivial
  readPrefix s G key len hk h4 h hp := by
    obtain ⟨a, r⟩ := (backHonest h1).readPrefix s G.1 key len hk h4 h hp
    refine ⟨⟨a, ?_⟩, r⟩
    cases s with
    | loose b => exact G.2
    | pack b => exact trivial
  hasPrefix s G key len hk h4 h hp := by
    obtain ⟨a, r⟩ := (backHonest h1).hasPrefix s G.1 key len hk h4 h hp
    refine ⟨⟨a, ?_⟩, r⟩
    cases s with
    | loose b => exact G.2
    | pack b => exact trivial
  refresh s G h := by
    obtain ⟨a, r⟩ := (backHonest h1).refresh s G.1 h
    refine ⟨⟨a, ?_⟩, r⟩
    cases s with
    | loose b => exact G.2
    | pack b => exact trivial
  freshen s G f hf id hi := by
    obtain ⟨a, r⟩ := (backHonest h1).freshen s G.1 f hf id hi
    refine ⟨⟨a, ?_⟩, r⟩
    cases s with
    | loose b =>
      injection hf with hf
      subst hf
      exact G.2
    | pack b =>
      injection hf with hf
      subst hf
      exact trivial
  write s G f hf id o hv := by
    obtain ⟨a, r⟩ := (backHonest h1).write s G.1 f hf id o hv
    refine ⟨⟨a, ?_⟩, r⟩
    cases s with
    | loose b =>
      injection hf with hf
      subst hf
      exact (loose_ro b id o).trans G.2
    | pack b => cases hf
  finish s G hf id o hv := by
    obtain ⟨a, r⟩ := (backHonest h1).finish s G.1 hf id o hv
    refine ⟨⟨a, ?_⟩, r⟩
    cases s with
    | loose b => exact (loose_ro b id o).trans G.2
    | pack b => exact (hf rfl).elim
  stream s G := (backHonest h1).stream s G.1

end Verif.Odb
