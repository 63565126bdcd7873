import Verif.PackObjects.Lemmas7
import Verif.PackObjects.Lemmas9
/-! # Writing never goes wrong -/
namespace Verif.PackObjects
open Verif.Delta Verif.Pack.Spec Spec

theorem compressed_plain {E : Env} {t : DState} {d : Bytes} (h : t.zsize = 0) : compressed E t d.length d = .ok (E.deflate d) := by
  unfold compressed
  rw [if_neg (by rw [h]; simp), slice_all]

theorem entryBytes_total {E : Env} {objs : List PObj} {inflate : Bytes → Option Bytes} (hz : Compresses E.deflate inflate) (hp : Plausible E.odb) (hl : Listed E objs)
    {i : Nat} (hi : i < objs.length) {t : DState} (hd : DeltaOk E objs i t) (hs : t.delta.isSome = true → (objAt objs i).size ≤ 715827860) :
    ∃ bs, entryBytes E objs i t = .ok bs := by
  unfold entryBytes
  unfold DeltaOk at hd
  obtain ⟨di, g1, g2, g3⟩ := load_ok hl hi
  cases hb : t.delta with
  | none =>
    rw [hb] at hd
    unfold payload
    rw [hb]
    simp only
    rw [g2]
    simp only
    obtain ⟨t1, t2⟩ := hp.type _ _ _ g2
    have t3 := hp.size _ _ _ g2
    obtain ⟨hh, e1, e2, e3⟩ := Pack.objectHeader_spec (objAt objs i).type di.length t1 (by omega) (by omega)
    rw [e1]
    simp only
    rw [compressed_plain hd.2]
    exact ⟨_, rfl⟩
  | some b =>
    rw [hb] at hd
    obtain ⟨d, ⟨hbn, ty, sd, td, mx, o1, o2, hmx, hcr⟩, hsz, hk⟩ := hd
    have hlen := create_max hcr hmx
    obtain ⟨hh, e1, e2, e3⟩ := Pack.objectHeader_spec 7 d.length (by omega) (by omega) (by omega)
    obtain ⟨c1, c2⟩ := entry_of_kept hz hsz hk
    have hR : Pack.REF_DELTA = 7 := rfl
    unfold payload
    rw [hb]
    simp only
    cases hdata : t.data with
    | some x =>
      simp only
      rw [hR, hsz, e1]
      simp only
      rw [← hsz, c1 x hdata]
      exact ⟨_, rfl⟩
    | none =>
      simp only
      have htd : td.length ≤ 715827860 := by
        rw [g2] at o2
        cases o2
        have := hs (by rw [hb]; rfl)
        omega
      have hg : getDelta E objs i b t.dsize = .ok d := by
        unfold getDelta
        rw [o1, o2]
        simp only
        rw [create_again htd hcr]
        simp only
        rw [if_neg (by omega)]
      rw [hg]
      simp only
      rw [hR, hsz, e1]
      simp only
      rw [← hsz, c2 hdata d hsz.symm]
      exact ⟨_, rfl⟩

theorem finishOne_total {E : Env} {objs : List PObj} {i : Nat} {s : WState} (h : ∃ bs, entryBytes E objs i (s.ds i) = .ok bs) :
    ∃ r, finishOne E objs i s = .ok r := by
  obtain ⟨bs, h⟩ := h
  unfold finishOne writeObject
  simp only
  rw [h]
  exact ⟨_, rfl⟩

theorem writeOne_total {E : Env} {objs : List PObj} {ds0 : Nat → DState} {hdr : Bytes} {rank : Nat → Nat} (hF : Forest objs.length (fun i => (ds0 i).delta) rank)
    (he : ∀ i, i < objs.length → ∃ bs, entryBytes E objs i (ds0 i) = .ok bs) :
    ∀ (fuel i : Nat) (s : WState) (lg : List Nat) (ent : Nat → Bytes), WInv E objs ds0 hdr s lg ent → i < objs.length → rank i < fuel →
      (∀ j, s.recursing j = true → rank i < rank j) → ∃ r, writeOne E objs fuel i s = .ok r := by
  intro fuel
  induction fuel with
  | zero => intro i s lg ent _ _ h; omega
  | succ fuel ih =>
    intro i s lg ent H hi hf hr
    unfold writeOne
    split
    · exact ⟨_, rfl⟩
    · split
      · exact ⟨_, rfl⟩
      · rename_i hw
        have hw' : s.written i = false := by simpa using hw
        cases hd : (s.ds i).delta with
        | none => simp only; exact finishOne_total (by rw [H.ds i hw']; exact he i hi)
        | some b =>
          simp only
          have hd0 : (ds0 i).delta = some b := by rw [← H.delta i]; exact hd
          obtain ⟨g1, g2, g3⟩ := hF i b hd0
          have H0 : WInv E objs ds0 hdr { s with recursing := upd s.recursing i true } lg ent :=
            ⟨H.ds, H.delta, H.nodup, H.iff, H.lt, H.entOk, H.out, H.hashed, H.first⟩
          have hr' : ∀ j, ({ s with recursing := upd s.recursing i true } : WState).recursing j = true → rank b < rank j := by
            intro j hj
            change upd s.recursing i true j = true at hj
            by_cases he : j = i
            · subst he; exact g3
            · rw [upd_ne _ _ he] at hj
              have := hr j hj; omega
          obtain ⟨⟨st, s1⟩, h1⟩ := ih b _ lg ent H0 g2 (by omega) hr'
          rw [h1]
          simp only
          obtain ⟨k1, ⟨lg1, ent1, k2⟩, k3, k4, k5, k6⟩ := writeOne_sound hF fuel b _ s1 lg ent st H0 g2 hr' h1
          have hdrop : dropBase i st s1 = s1 := by unfold dropBase; rw [if_neg k1]
          rw [hdrop]
          have hw1 : s1.written i = false := by
            cases e : s1.written i with
            | false => rfl
            | true =>
              rcases k6 i e with h | h
              · exact absurd h hw
              · omega
          exact finishOne_total (by rw [k2.ds i hw1]; exact he i hi)

theorem writeLoop_total {E : Env} {objs : List PObj} {ds0 : Nat → DState} {hdr : Bytes} {rank : Nat → Nat} (hF : Forest objs.length (fun i => (ds0 i).delta) rank)
    (he : ∀ i, i < objs.length → ∃ bs, entryBytes E objs i (ds0 i) = .ok bs) {fuel : Nat} (hf : ∀ i, i < objs.length → rank i < fuel) :
    ∀ (l : List Nat) (s : WState) (lg : List Nat) (ent : Nat → Bytes), (∀ i ∈ l, i < objs.length) → WInv E objs ds0 hdr s lg ent → (∀ j, s.recursing j = false) →
      ∃ s', writeLoop E objs fuel l s = .ok s' := by
  intro l
  induction l with
  | nil => intro s lg ent _ _ _; exact ⟨s, rfl⟩
  | cons i l ih =>
    intro s lg ent hl H hr
    have hi := hl i List.mem_cons_self
    have hr' : ∀ j, s.recursing j = true → rank i < rank j := fun j hj => by rw [hr j] at hj; cases hj
    obtain ⟨⟨st, s1⟩, h1⟩ := writeOne_total hF he fuel i s lg ent H hi (hf i hi) hr'
    unfold writeLoop
    rw [h1]
    simp only
    obtain ⟨k1, ⟨lg1, ent1, k2⟩, k3, k4, k5, k6⟩ := writeOne_sound hF fuel i s s1 lg ent st H hi hr' h1
    exact ih s1 lg1 ent1 (fun j hj => hl j (List.mem_cons_of_mem _ hj)) k2 (fun j => by rw [k5 j]; exact hr j)

theorem writePack_total {E : Env} {inflate : Bytes → Option Bytes} (hz : Compresses E.deflate inflate) (hp : Plausible E.odb) {objs : List PObj} (hl : Listed E objs)
    {depth : Nat} {ds : Nat → DState} {rank dep : Nat → Nat} (hR : Ready E objs depth ds rank dep) (hsm : ∀ i b, (ds i).delta = some b → (objAt objs i).size ≤ 715827860)
    (tagged : Nat → Bool) : ∃ F, ∀ fuel, F ≤ fuel → ∃ file, writePack E objs tagged ds fuel = .ok file := by
  have hF : Forest objs.length (fun i => (ds i).delta) rank := fun i b hb => ⟨(hR.base i b hb).1, (hR.base i b hb).2.1, (hR.base i b hb).2.2.1⟩
  obtain ⟨F, wo, hwo⟩ := writeOrder_total (tagged := tagged) hF
  obtain ⟨M, hM⟩ := rank_bound rank objs.length
  refine ⟨max F (M + 1), fun fuel hf => ?_⟩
  unfold writePack
  rw [hwo fuel (by omega)]
  simp only
  have hperm := writeOrder_sound hF (hwo fuel (by omega))
  have H0 : WInv E objs ds (packHeader objs.length) (emit (packHeader objs.length) ⟨ds, fun _ => false, fun _ => false, [], []⟩) [] (fun _ => []) := by
    refine ⟨fun _ _ => rfl, fun _ => rfl, List.nodup_nil, (fun i => by simp [emit]), (fun i hi => by cases hi), (fun i hi => by cases hi), by simp [emit], rfl, ?_⟩
    intro pre i post e
    simp at e
  obtain ⟨s, hs⟩ := writeLoop_total (hdr := packHeader objs.length) hF
    (fun i hi => entryBytes_total hz hp hl hi (hR.ok i) fun hsome => by
      obtain ⟨b, hb⟩ := Option.isSome_iff_exists.mp hsome
      exact hsm i b hb) (fuel := fuel) (fun i hi => by have := hM i hi; omega) wo _ [] _
    (fun i hi => List.mem_range.mp (hperm.mem_iff.mp hi)) H0 (fun _ => rfl)
  rw [hs]
  exact ⟨_, rfl⟩

end Verif.PackObjects
