import Verif.Odb.Lemmas7
/-! # The directory of packs: refreshing -/
namespace Verif.Odb
open Spec

variable {osz : Nat} {U : Bytes → Pk} {b0 b : PackB}

/-- how the state changes while it is refreshed: packs are opened, none is lost -/
structure Refr (b0 b : PackB) : Prop where
  osz : b.osz = b0.osz
  folder : b.folder = b0.folder
  disk : b.disk = b0.disk
  last : b.last = b0.last
  sub : ∀ p ∈ openPacks b, p ∈ openPacks b0 ++ diskPacks b0
  sup : ∀ p ∈ openPacks b0, p ∈ openPacks b

/-- the multi-pack-index and its packs -/
def MidxOk (osz : Nat) (U : Bytes → Pk) (b : PackB) : Prop :=
  (b.midx = none → b.midxPacks = []) ∧ ∀ m, b.midx = some m → MidxRight osz U m ∧ b.midxPacks.map some = m.names.map fun n => (stemOf n).map U

theorem refr_refl : Refr b0 b0 := ⟨rfl, rfl, rfl, rfl, fun p h => by simp [h], fun _ h => h⟩

theorem disk_mem {b : PackB} {n stem : Bytes} {p : Pk} (hn : n ∈ b.disk.listing) (hs : stemOf n = some stem) (ho : b.disk.openPack n = .ok p) : p ∈ diskPacks b := by
  unfold diskPacks
  rw [List.mem_filterMap]
  exact ⟨n, hn, by simp only [hs, ho]⟩

theorem refr_good (G : PackGood osz U b0) (R : Refr b0 b) (M : MidxOk osz U b) : PackGood osz U b := by
  have hd : diskPacks b = diskPacks b0 := by unfold diskPacks; rw [R.disk]
  have hsub : ∀ p ∈ openPacks b ++ diskPacks b, p ∈ openPacks b0 ++ diskPacks b0 := by
    intro p hp
    rcases List.mem_append.mp hp with h | h
    · exact R.sub p h
    · rw [hd] at h; simp [h]
  have hknown : ∀ p ∈ openPacks b0 ++ diskPacks b0, ∃ stem, p = U stem := by
    intro p hp
    rcases List.mem_append.mp hp with h | h
    · exact G.known p h
    · unfold diskPacks at h
      obtain ⟨n, _, h2⟩ := List.mem_filterMap.mp h
      cases hs : stemOf n with
      | none => simp [hs] at h2
      | some st =>
        cases ho : b0.disk.openPack n with
        | ok q =>
          simp only [hs, ho] at h2
          injection h2 with h2
          subst h2
          obtain ⟨stem, _, h3⟩ := G.opens n q ho
          exact ⟨stem, h3⟩
        | err e => simp [hs, ho] at h2
        | ub => simp [hs, ho] at h2
  refine ⟨R.osz.trans G.size, fun p hp => G.right p (hsub p hp), fun p hp q hq => G.agree p (hsub p hp) q (hsub q hq), fun p hp => hknown p (R.sub p hp), ?_, G.named, ?_, M.2, M.1, ?_, ?_, ?_, ?_⟩
  · rw [R.disk]; exact G.opens
  · rw [R.disk]; exact fun n stem h1 h2 p hp => G.apart n stem h1 h2 p (hsub p hp)
  · rw [R.last]; exact fun p hp => R.sup p (G.last p hp)
  · rw [R.folder, R.disk]; exact G.dir
  · rw [R.disk]; exact G.listing
  · rw [R.disk]; exact G.diskMidx

theorem remove_mem (b : PackB) (p : Pk) : p ∈ openPacks (removeMidx b) ↔ p ∈ openPacks b := by
  simp only [openPacks, removeMidx, List.nil_append, List.mem_append]
  exact or_comm

theorem refr_remove (R : Refr b0 b) : Refr b0 (removeMidx b) :=
  ⟨R.osz, R.folder, R.disk, R.last, fun p h => R.sub p ((remove_mem b p).mp h), fun p h => (remove_mem b p).mpr (R.sup p h)⟩

theorem midxOk_remove : MidxOk osz U (removeMidx b) := ⟨fun _ => rfl, fun m h => (by simp [removeMidx] at h)⟩

theorem byName_spec {stem : Bytes} {ps : List Pk} {i : Nat} (h : byName stem ps = some i) : ∃ p, ps[i]? = some p ∧ stem <+: p.name := by
  unfold byName at h
  rw [List.findIdx?_eq_some_iff_getElem] at h
  obtain ⟨hi, h1, _⟩ := h
  exact ⟨ps[i], List.getElem?_eq_getElem hi, List.isPrefixOf_iff_prefix.mp h1⟩

theorem mem_erase {ps : List Pk} {i : Nat} {p : Pk} (h : ps[i]? = some p) (q : Pk) : (q = p ∨ q ∈ ps.eraseIdx i) ↔ q ∈ ps := by
  rw [List.mem_eraseIdx_iff_getElem?, List.mem_iff_getElem?]
  constructor
  · rintro (rfl | ⟨j, _, hj⟩)
    · exact ⟨i, h⟩
    · exact ⟨j, hj⟩
  · rintro ⟨j, hj⟩
    by_cases e : j = i
    · subst e
      rw [h] at hj
      injection hj with hj
      exact .inl hj.symm
    · exact .inr ⟨j, e, hj⟩

/-- one pack of the multi-pack-index -/
theorem processMidxPack_spec (G : PackGood osz U b0) (R : Refr b0 b) {m : MidxF} (hm : b0.disk.midx = some m) {n : Bytes} (hn : n ∈ m.names) {b' : PackB} (h : processMidxPack b n = .ok b') :
    Refr b0 b' ∧ b'.midx = b.midx ∧ ∃ stem, stemOf n = some stem ∧ b'.midxPacks = b.midxPacks ++ [U stem] := by
  unfold processMidxPack at h
  cases hs : stemOf n with
  | none => rw [hs] at h; cases h
  | some stem =>
    rw [hs] at h
    dsimp only at h
    cases hb : byName stem b.packs with
    | some i =>
      rw [hb] at h
      obtain ⟨p, hp, hpre⟩ := byName_spec hb
      dsimp only at h
      rw [hp] at h
      injection h with h
      subst h
      have hpm : p ∈ b.packs := List.mem_of_getElem? hp
      have hpU : p = U stem := G.apart n stem hs (.inr ⟨m, hm, hn⟩) p (R.sub p (by simp [openPacks, hpm])) hpre
      have hmem : ∀ q, q ∈ openPacks { b with midxPacks := b.midxPacks ++ [p], packs := b.packs.eraseIdx i } ↔ q ∈ openPacks b := by
        intro q
        simp only [openPacks, List.mem_append, List.mem_singleton]
        rw [or_assoc, mem_erase hp]
      exact ⟨⟨R.osz, R.folder, R.disk, R.last, fun q hq => R.sub q ((hmem q).mp hq), fun q hq => (hmem q).mpr (R.sup q hq)⟩, rfl, stem, rfl, by rw [hpU]⟩
    | none =>
      rw [hb] at h
      dsimp only at h
      rw [R.disk] at h
      cases ho : b0.disk.openPack n with
      | ok p =>
        rw [ho] at h
        injection h with h
        subst h
        obtain ⟨stem', h1, h2⟩ := G.opens n p ho
        rw [hs] at h1
        injection h1 with h1
        subst h1
        have hpd : p ∈ diskPacks b0 := disk_mem ((G.diskMidx m hm).2 n hn p ho) hs ho
        refine ⟨⟨R.osz, R.folder, rfl, R.last, fun q hq => ?_, fun q hq => ?_⟩, rfl, stem, rfl, by rw [h2]⟩
        · simp only [openPacks, List.mem_append, List.mem_singleton] at hq
          rcases hq with (hq | hq) | hq
          · exact R.sub q (by simp [openPacks, hq])
          · rw [hq]; simp [hpd]
          · exact R.sub q (by simp [openPacks, hq])
        · have := R.sup q hq
          simp only [openPacks, List.mem_append, List.mem_singleton] at this ⊢
          rcases this with h | h
          · exact .inl (.inl h)
          · exact .inr h
      | err e => rw [ho] at h; cases h
      | ub => rw [ho] at h; cases h

theorem processMidx_spec (G : PackGood osz U b0) {m : MidxF} (hm : b0.disk.midx = some m) : ∀ (ns : List Bytes) (b : PackB) (done : List Bytes), Refr b0 b → b.midx = some m → m.names = done ++ ns →
    b.midxPacks.map some = done.map (fun n => (stemOf n).map U) → Refr b0 (processMidx ns b) ∧ MidxOk osz U (processMidx ns b)
  | [], b, done, R, h1, h2, h3 => by
    unfold processMidx
    refine ⟨R, ⟨fun h => (by rw [h1] at h; cases h), fun m' h => ?_⟩⟩
    rw [h1] at h
    injection h with h
    subst h
    refine ⟨(G.diskMidx m hm).1, ?_⟩
    rw [h3, h2, List.append_nil]
  | n :: ns, b, done, R, h1, h2, h3 => by
    unfold processMidx
    cases hp : processMidxPack b n with
    | ok b' =>
      dsimp only
      obtain ⟨R', e1, stem, e2, e3⟩ := processMidxPack_spec G R hm (by rw [h2]; simp) hp
      refine processMidx_spec G hm ns b' (done ++ [n]) R' (e1.trans h1) (by rw [h2]; simp) ?_
      rw [e3, List.map_append, List.map_append, h3]
      simp [e2]
    | err e => exact ⟨refr_remove R, midxOk_remove⟩
    | ub => exact ⟨refr_remove R, midxOk_remove⟩

theorem openMidx_spec (G : PackGood osz U b0) (R : Refr b0 b) (h0 : b.midx = none) (h1 : b.midxPacks = []) : Refr b0 (openMidx b) ∧ MidxOk osz U (openMidx b) := by
  unfold openMidx
  rw [R.disk]
  cases hm : b0.disk.midx with
  | none => exact ⟨R, fun _ => h1, fun m h => by rw [h0] at h; cases h⟩
  | some m =>
    dsimp only
    refine processMidx_spec G hm m.names _ [] ⟨R.osz, R.folder, rfl, R.last, fun p hp => R.sub p ?_, fun p hp => ?_⟩ rfl rfl rfl
    · simp only [openPacks, List.nil_append] at hp
      simp [openPacks, hp]
    · have := R.sup p hp
      simp only [openPacks, h1, List.nil_append] at this ⊢
      exact this

theorem refreshMidx_spec (G : PackGood osz U b0) : Refr b0 (refreshMidx b0) ∧ MidxOk osz U (refreshMidx b0) := by
  unfold refreshMidx
  cases hm : b0.midx with
  | none => exact openMidx_spec G refr_refl hm (G.nomidx hm)
  | some m =>
    dsimp only
    by_cases hc : midxSame m b0.disk.midx = true
    · rw [if_pos hc]
      exact ⟨refr_refl, G.nomidx, G.midx⟩
    · rw [if_neg hc]
      exact openMidx_spec G (refr_remove refr_refl) rfl rfl

theorem loadPack_spec (G : PackGood osz U b0) (R : Refr b0 b) {n : Bytes} (hn : n ∈ b0.disk.listing) : ∃ b', loadPack b n = .ok b' ∧ Refr b0 b' ∧ b'.midx = b.midx ∧ b'.midxPacks = b.midxPacks ∧
    (∀ p ∈ openPacks b, p ∈ openPacks b') ∧ (∀ p, (stemOf n).isSome → b0.disk.openPack n = .ok p → p ∈ openPacks b') := by
  unfold loadPack
  cases hs : stemOf n with
  | none => exact ⟨b, rfl, R, rfl, rfl, fun _ h => h, fun p h => (by cases h)⟩
  | some stem =>
    dsimp only
    have loaded : ∀ (ps : List Pk), (∀ p ∈ ps, p ∈ openPacks b) → (byName stem ps).isSome = true → ∀ p, b0.disk.openPack n = .ok p → p ∈ openPacks b := by
      intro ps hps hi p ho
      obtain ⟨i, hi⟩ := Option.isSome_iff_exists.mp hi
      obtain ⟨q, hq, hpre⟩ := byName_spec hi
      have hqm := hps q (List.mem_of_getElem? hq)
      have := G.apart n stem hs (.inl hn) q (R.sub q hqm) hpre
      obtain ⟨stem', h1, h2⟩ := G.opens n p ho
      rw [hs] at h1
      injection h1 with h1
      rw [h2, ← h1, ← this]
      exact hqm
    split
    · rename_i h
      exact ⟨b, rfl, R, rfl, rfl, fun _ h => h, fun p _ => loaded _ (fun p hp => by simp [openPacks, hp]) h p⟩
    · split
      · rename_i h
        exact ⟨b, rfl, R, rfl, rfl, fun _ h => h, fun p _ => loaded _ (fun p hp => by simp [openPacks, hp]) h p⟩
      · rw [R.disk]
        rcases G.listing n hn with ⟨p, ho⟩ | ho | ho
        · rw [ho]
          have hpd : p ∈ diskPacks b0 := disk_mem hn hs ho
          have hmem : ∀ q, q ∈ openPacks { b with packs := b.packs ++ [p] } ↔ q ∈ openPacks b ∨ q = p := by
            intro q
            simp only [openPacks, List.mem_append, List.mem_singleton, or_assoc]
          refine ⟨_, rfl, ⟨R.osz, R.folder, rfl, R.last, fun q hq => ?_, fun q hq => (hmem q).mpr (.inl (R.sup q hq))⟩, rfl, rfl, fun q hq => (hmem q).mpr (.inl hq), fun q _ hq => (hmem q).mpr (.inr ?_)⟩
          · rcases (hmem q).mp hq with h | h
            · exact R.sub q h
            · rw [h]; simp [hpd]
          · injection hq with hq
            exact hq.symm
        · rw [ho]
          exact ⟨b, rfl, R, rfl, rfl, fun _ h => h, fun p _ h => (by cases h)⟩
        · rw [hs] at ho; cases ho

theorem loadPacks_spec (G : PackGood osz U b0) : ∀ (ns : List Bytes) (b : PackB), Refr b0 b → (∀ n ∈ ns, n ∈ b0.disk.listing) →
    Refr b0 (loadPacks ns b).1 ∧ (loadPacks ns b).2 = .ok () ∧ (loadPacks ns b).1.midx = b.midx ∧ (loadPacks ns b).1.midxPacks = b.midxPacks ∧
    (∀ p ∈ openPacks b, p ∈ openPacks (loadPacks ns b).1) ∧ (∀ n ∈ ns, ∀ p, (stemOf n).isSome → b0.disk.openPack n = .ok p → p ∈ openPacks (loadPacks ns b).1)
  | [], b, R, _ => ⟨R, rfl, rfl, rfl, fun _ h => h, fun n h => (by cases h)⟩
  | n :: ns, b, R, h => by
    obtain ⟨b', e, R', h1, h2, h3, h4⟩ := loadPack_spec G R (h n (by simp))
    unfold loadPacks
    rw [e]
    dsimp only
    obtain ⟨R'', g1, g2, g3, g4, g5⟩ := loadPacks_spec G ns b' R' fun x hx => h x (by simp [hx])
    refine ⟨R'', g1, g2.trans h1, g3.trans h2, fun p hp => g4 p (h3 p hp), fun x hx p hp ho => ?_⟩
    rcases List.mem_cons.mp hx with hx | hx
    · subst hx
      exact g4 p (h4 p hp ho)
    · exact g5 x hx p hp ho

theorem insPack_mem (p q : Pk) : ∀ ps : List Pk, q ∈ insPack p ps ↔ q = p ∨ q ∈ ps
  | [] => by simp [insPack]
  | x :: xs => by
    unfold insPack
    split
    · simp
    · simp only [List.mem_cons, insPack_mem p q xs]
      constructor
      · rintro (h | h | h)
        · exact .inr (.inl h)
        · exact .inl h
        · exact .inr (.inr h)
      · rintro (h | h | h)
        · exact .inr (.inl h)
        · exact .inl h
        · exact .inr (.inr h)

theorem sortPacks_mem (q : Pk) : ∀ ps : List Pk, q ∈ sortPacks ps ↔ q ∈ ps
  | [] => by simp [sortPacks]
  | p :: ps => by simp [sortPacks, insPack_mem, sortPacks_mem q ps]

theorem packRefresh_spec (G : PackGood osz U b0) : PackGood osz U (packRefresh b0).1 ∧ (packRefresh b0).2 = .ok () ∧
    firstObj osz (openPacks (packRefresh b0).1) = backAfter osz (.pack b0) ∧ backAfter osz (.pack (packRefresh b0).1) = backAfter osz (.pack b0) ∧
    ((b0.folder = true) → ∀ p, p ∈ openPacks (packRefresh b0).1 ↔ p ∈ openPacks b0 ++ diskPacks b0) := by
  unfold packRefresh
  cases hf : b0.folder with
  | false => exact ⟨G, rfl, by simp [backAfter, hf], rfl, fun h => (by cases h)⟩
  | true =>
    simp only [Bool.not_true, Bool.false_eq_true, if_false, G.dir hf]
    obtain ⟨R0, M0⟩ := refreshMidx_spec G
    obtain ⟨R, h1, h2, h3, h4, h5⟩ := loadPacks_spec G b0.disk.listing _ R0 fun _ h => h
    generalize hr : loadPacks b0.disk.listing (refreshMidx b0) = r at R h1 h2 h3 h4 h5
    have hmem : ∀ q, q ∈ openPacks { r.1 with packs := sortPacks r.1.packs } ↔ q ∈ openPacks r.1 := by
      intro q
      simp only [openPacks, List.mem_append, sortPacks_mem]
    have R' : Refr b0 { r.1 with packs := sortPacks r.1.packs } :=
      ⟨R.osz, R.folder, R.disk, R.last, fun q hq => R.sub q ((hmem q).mp hq), fun q hq => (hmem q).mpr (R.sup q hq)⟩
    have M' : MidxOk osz U { r.1 with packs := sortPacks r.1.packs } := by
      refine ⟨fun h => ?_, fun m h => ?_⟩
      · exact h3.trans (M0.1 (h2.symm.trans h))
      · exact ⟨(M0.2 m (h2.symm.trans h)).1, by
          show r.1.midxPacks.map some = _
          rw [h3]; exact (M0.2 m (h2.symm.trans h)).2⟩
    have G' := refr_good G R' M'
    have hall : ∀ p, p ∈ openPacks { r.1 with packs := sortPacks r.1.packs } ↔ p ∈ openPacks b0 ++ diskPacks b0 := by
      intro p
      refine ⟨R'.sub p, fun hp => (hmem p).mpr ?_⟩
      rcases List.mem_append.mp hp with h | h
      · exact R.sup p h
      · unfold diskPacks at h
        obtain ⟨n, hn, h'⟩ := List.mem_filterMap.mp h
        cases hs : stemOf n with
        | none => simp [hs] at h'
        | some st =>
          cases ho : b0.disk.openPack n with
          | ok q =>
            simp only [hs, ho] at h'
            injection h' with h'
            subst h'
            exact h5 n hn q (by rw [hs]; rfl) ho
          | err e => simp [hs, ho] at h'
          | ub => simp [hs, ho] at h'
    refine ⟨G', h1, ?_, ?_, fun _ => hall⟩
    · simp only [backAfter, hf, if_true]
      exact firstObj_congr (good_open G') hall
    · have hf' : ({ r.1 with packs := sortPacks r.1.packs } : PackB).folder = true := R'.folder.trans hf
      simp only [backAfter]
      rw [if_pos hf, if_pos (show r.1.folder = true from hf')]
      refine firstObj_congr G'.agree fun p => ?_
      have hd : diskPacks { r.1 with packs := sortPacks r.1.packs } = diskPacks b0 := by unfold diskPacks; rw [R'.disk]
      show p ∈ openPacks { r.1 with packs := sortPacks r.1.packs } ++ diskPacks { r.1 with packs := sortPacks r.1.packs } ↔ _
      rw [hd, List.mem_append, hall, List.mem_append]
      constructor
      · rintro (h | h)
        · exact h
        · exact .inr h
      · exact .inl

end Verif.Odb
