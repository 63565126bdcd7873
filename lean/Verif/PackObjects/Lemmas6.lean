import Verif.PackObjects.Lemmas5
/-! # Writing: each object once, its base before it -/
namespace Verif.PackObjects
open Verif.Delta Verif.Pack.Spec Spec

/-- the base of each object comes before it -/
def BasesFirst (delta : Nat → Option Nat) (lg : List Nat) : Prop := ∀ pre i post, lg = pre ++ i :: post → ∀ b, delta i = some b → b ∈ pre

theorem basesFirst_snoc {delta : Nat → Option Nat} {lg : List Nat} {i : Nat} (h : BasesFirst delta lg) (hi : ∀ b, delta i = some b → b ∈ lg) : BasesFirst delta (lg ++ [i]) := by
  intro pre j post e b hb
  rcases List.eq_nil_or_concat post with rfl | ⟨post', x, rfl⟩
  · have e' : lg ++ [i] = pre ++ [j] := e
    obtain ⟨rfl, e2⟩ := List.append_inj' e' rfl
    cases e2
    exact hi b hb
  · have e' : lg ++ [i] = (pre ++ j :: post') ++ [x] := by rw [e]; simp
    obtain ⟨rfl, e2⟩ := List.append_inj' e' rfl
    exact h pre j post' rfl b hb

/-- the state of writing when the objects `lg` have been written, with the bytes `ent` -/
structure WInv (E : Env) (objs : List PObj) (ds0 : Nat → DState) (hdr : Bytes) (s : WState) (lg : List Nat) (ent : Nat → Bytes) : Prop where
  ds : ∀ i, s.written i = false → s.ds i = ds0 i
  delta : ∀ i, (s.ds i).delta = (ds0 i).delta
  nodup : lg.Nodup
  iff : ∀ i, i ∈ lg ↔ s.written i = true
  lt : ∀ i ∈ lg, i < objs.length
  entOk : ∀ i ∈ lg, entryBytes E objs i (ds0 i) = .ok (ent i)
  out : s.out = hdr ++ (lg.map ent).flatten
  hashed : s.hashed = s.out
  first : BasesFirst (fun i => (ds0 i).delta) lg

theorem finishOne_sound {E : Env} {objs : List PObj} {ds0 : Nat → DState} {hdr : Bytes} {s s' : WState} {lg : List Nat} {ent : Nat → Bytes} {i : Nat} {st : Status}
    (H : WInv E objs ds0 hdr s lg ent) (hi : i < objs.length) (hw : s.written i = false) (hb : ∀ b, (ds0 i).delta = some b → s.written b = true)
    (h : finishOne E objs i s = .ok (st, s')) :
    st = .written ∧ (∃ lg' ent', WInv E objs ds0 hdr s' lg' ent') ∧ s'.written = upd s.written i true ∧ s'.recursing = upd s.recursing i false := by
  unfold finishOne at h
  split at h
  · cases h
  · cases h
  · rename_i s1 h1
    cases h
    unfold writeObject at h1
    simp only at h1
    rw [H.ds i hw] at h1
    split at h1
    · cases h1
    · cases h1
    · rename_i bs hbs
      cases h1
      have hnot : i ∉ lg := fun hm => by rw [H.iff i, hw] at hm; cases hm
      refine ⟨rfl, ⟨lg ++ [i], upd ent i bs, ?_⟩, rfl, rfl⟩
      have hne : ∀ j ∈ lg, j ≠ i := fun j hj e => hnot (e ▸ hj)
      refine ⟨?_, ?_, ?_, ?_, ?_, ?_, ?_, ?_, ?_⟩
      · intro j hj
        change upd s.written i true j = false at hj
        show upd s.ds i (release (ds0 i)) j = _
        by_cases he : j = i
        · subst he; rw [upd_self] at hj; cases hj
        · rw [upd_ne _ _ he] at hj ⊢
          exact H.ds j hj
      · intro j
        show (upd s.ds i (release (ds0 i)) j).delta = _
        by_cases he : j = i
        · subst he
          rw [upd_self]
          unfold release
          split <;> rfl
        · rw [upd_ne _ _ he]; exact H.delta j
      · rw [List.nodup_append]
        refine ⟨H.nodup, by simp, fun a ha b hb => ?_⟩
        rw [List.mem_singleton] at hb
        subst hb
        exact hne a ha
      · intro j
        show j ∈ lg ++ [i] ↔ upd s.written i true j = true
        rw [List.mem_append, List.mem_singleton]
        by_cases he : j = i
        · subst he; rw [upd_self]; simp
        · rw [upd_ne _ _ he, ← H.iff j]; simp [he]
      · intro j hj
        rw [List.mem_append, List.mem_singleton] at hj
        rcases hj with hj | rfl
        · exact H.lt j hj
        · exact hi
      · intro j hj
        rw [List.mem_append, List.mem_singleton] at hj
        rcases hj with hj | rfl
        · rw [upd_ne _ _ (hne j hj)]; exact H.entOk j hj
        · rw [upd_self]; exact hbs
      · show s.out ++ bs = _
        rw [H.out, List.map_append, List.flatten_append, List.append_assoc]
        have : lg.map (upd ent i bs) = lg.map ent := List.map_congr_left fun j hj => upd_ne _ _ (hne j hj)
        rw [this]
        simp [upd_self]
      · show s.hashed ++ bs = s.out ++ bs
        rw [H.hashed]
      · exact basesFirst_snoc H.first fun b hb' => (H.iff b).mpr (hb b hb')

theorem writeOne_sound {E : Env} {objs : List PObj} {ds0 : Nat → DState} {hdr : Bytes} {rank : Nat → Nat} (hF : Forest objs.length (fun i => (ds0 i).delta) rank) :
    ∀ (fuel i : Nat) (s s' : WState) (lg : List Nat) (ent : Nat → Bytes) (st : Status), WInv E objs ds0 hdr s lg ent → i < objs.length →
      (∀ j, s.recursing j = true → rank i < rank j) → writeOne E objs fuel i s = .ok (st, s') →
      st ≠ .recursive ∧ (∃ lg' ent', WInv E objs ds0 hdr s' lg' ent') ∧ s'.written i = true ∧ (∀ j, s.written j = true → s'.written j = true) ∧
      (∀ j, s'.recursing j = s.recursing j) ∧ (∀ j, s'.written j = true → s.written j = true ∨ rank j ≤ rank i) := by
  intro fuel
  induction fuel with
  | zero => intro i s s' lg ent st _ _ _ h; unfold writeOne at h; cases h
  | succ fuel ih =>
    intro i s s' lg ent st H hi hr h
    unfold writeOne at h
    have hri : s.recursing i = false := by
      cases e : s.recursing i with
      | false => rfl
      | true => have := hr i e; omega
    rw [if_neg (by rw [hri]; simp)] at h
    by_cases hw : s.written i = true
    · rw [if_pos hw] at h
      cases h
      exact ⟨(fun e => by cases e), ⟨lg, ent, H⟩, hw, fun _ h => h, fun _ => rfl, fun j h => .inl h⟩
    · rw [if_neg hw] at h
      have hw' : s.written i = false := by simpa using hw
      have fin : ∀ (s1 : WState) (lg1 : List Nat) (ent1 : Nat → Bytes), WInv E objs ds0 hdr s1 lg1 ent1 → s1.written i = false →
          (∀ b, (ds0 i).delta = some b → s1.written b = true) → finishOne E objs i s1 = .ok (st, s') →
          (∀ j, s.written j = true → s1.written j = true) → (∀ j, j ≠ i → s1.recursing j = s.recursing j) →
          (∀ j, s1.written j = true → s.written j = true ∨ rank j ≤ rank i) →
          st ≠ .recursive ∧ (∃ lg' ent', WInv E objs ds0 hdr s' lg' ent') ∧ s'.written i = true ∧ (∀ j, s.written j = true → s'.written j = true) ∧
          (∀ j, s'.recursing j = s.recursing j) ∧ (∀ j, s'.written j = true → s.written j = true ∨ rank j ≤ rank i) := by
        intro s1 lg1 ent1 H1 hw1 hb1 hf1 hm1 hr1 hk1
        obtain ⟨f1, f2, f3, f4⟩ := finishOne_sound H1 hi hw1 hb1 hf1
        refine ⟨(fun e => by rw [f1] at e; cases e), f2, ?_, fun j hj => ?_, fun j => ?_, fun j hj => ?_⟩
        · rw [f3, upd_self]
        · rw [f3]
          by_cases he : j = i
          · subst he; rw [upd_self]
          · rw [upd_ne _ _ he]; exact hm1 j hj
        · rw [f4]
          by_cases he : j = i
          · subst he; rw [upd_self, hri]
          · rw [upd_ne _ _ he]; exact hr1 j he
        · rw [f3] at hj
          by_cases he : j = i
          · subst he; exact .inr (Nat.le_refl _)
          · rw [upd_ne _ _ he] at hj; exact hk1 j hj
      cases hd : (s.ds i).delta with
      | none =>
        rw [hd] at h
        simp only at h
        refine fin s lg ent H hw' (fun b hb => ?_) h (fun _ h => h) (fun _ _ => rfl) (fun j hj => .inl hj)
        rw [← H.delta i, hd] at hb; cases hb
      | some b =>
        rw [hd] at h
        simp only at h
        have hd0 : (ds0 i).delta = some b := by rw [← H.delta i]; exact hd
        obtain ⟨g1, g2, g3⟩ := hF i b hd0
        split at h
        · cases h
        · cases h
        · rename_i st1 s1 h1
          have H0 : WInv E objs ds0 hdr { s with recursing := upd s.recursing i true } lg ent :=
            ⟨H.ds, H.delta, H.nodup, H.iff, H.lt, H.entOk, H.out, H.hashed, H.first⟩
          obtain ⟨k1, ⟨lg1, ent1, k2⟩, k3, k4, k5, k6⟩ := ih b _ s1 lg ent st1 H0 g2 (fun j hj => by
            change upd s.recursing i true j = true at hj
            by_cases he : j = i
            · subst he; exact g3
            · rw [upd_ne _ _ he] at hj
              have := hr j hj; omega) h1
          have hdrop : dropBase i st1 s1 = s1 := by unfold dropBase; rw [if_neg k1]
          rw [hdrop] at h
          have hw1 : s1.written i = false := by
            cases e : s1.written i with
            | false => rfl
            | true =>
              rcases k6 i e with h | h
              · exact absurd h hw
              · omega
          refine fin s1 lg1 ent1 k2 hw1 (fun b' hb' => ?_) h k4 (fun j hj => ?_) (fun j hj => ?_)
          · rw [hd0] at hb'; cases hb'; exact k3
          · have := k5 j
            change s1.recursing j = upd s.recursing i true j at this
            rw [this, upd_ne _ _ hj]
          · rcases k6 j hj with h | h
            · exact .inl h
            · exact .inr (by omega)

theorem writeLoop_sound {E : Env} {objs : List PObj} {ds0 : Nat → DState} {hdr : Bytes} {rank : Nat → Nat} (hF : Forest objs.length (fun i => (ds0 i).delta) rank) {fuel : Nat} :
    ∀ (l : List Nat) (s s' : WState) (lg : List Nat) (ent : Nat → Bytes), WInv E objs ds0 hdr s lg ent → (∀ i ∈ l, i < objs.length) → (∀ j, s.recursing j = false) →
      writeLoop E objs fuel l s = .ok s' → (∃ lg' ent', WInv E objs ds0 hdr s' lg' ent') ∧ (∀ i ∈ l, s'.written i = true) ∧ ∀ j, s.written j = true → s'.written j = true := by
  intro l
  induction l with
  | nil => intro s s' lg ent H _ _ h; unfold writeLoop at h; cases h; exact ⟨⟨lg, ent, H⟩, (fun i hi => by cases hi), fun _ h => h⟩
  | cons i l ih =>
    intro s s' lg ent H hl hr h
    unfold writeLoop at h
    split at h
    · cases h
    · cases h
    · rename_i st s1 h1
      obtain ⟨k1, ⟨lg1, ent1, k2⟩, k3, k4, k5, k6⟩ := writeOne_sound hF _ _ _ _ _ _ _ H (hl i (by simp)) (fun j hj => by rw [hr j] at hj; cases hj) h1
      obtain ⟨m1, m2, m3⟩ := ih s1 s' lg1 ent1 k2 (fun j hj => hl j (List.mem_cons_of_mem _ hj)) (fun j => by rw [k5 j]; exact hr j) h
      refine ⟨m1, fun j hj => ?_, fun j hj => m3 j (k4 j hj)⟩
      rcases List.mem_cons.mp hj with rfl | hj
      · exact m3 _ k3
      · exact m2 j hj

/-! ## What an entry is -/

/-- the bytes written for an object stand for it -/
def EntryFor (E : Env) (objs : List PObj) (i : Nat) (t : DState) (bs : Bytes) : Prop :=
  (t.delta = none ∧ ∃ h ty d, E.odb (objAt objs i).id = some (ty, d) ∧ EncodesHeader ty d.length h ∧ h.length ≤ 10 ∧ bs = h ++ E.deflate d) ∨
  (∃ b h dl ty sd td, t.delta = some b ∧ b < objs.length ∧ E.odb (objAt objs b).id = some (ty, sd) ∧ E.odb (objAt objs i).id = some (ty, td) ∧ EncodesHeader 7 dl.length h ∧
    h.length ≤ 10 ∧ Makes sd dl td ∧ dl.length + 1 < 2 ^ 64 ∧ bs = h ++ (objAt objs b).id ++ E.deflate dl)

theorem create_makes {sd td d : Bytes} {mx : Nat} (h : create sd td mx = .ok (some d)) : Makes sd d td :=
  (C06_exact sd d td).mp (C05_create_apply sd td mx d h)

theorem slice_all (d : Bytes) : slice d 0 d.length = .ok d := by
  unfold slice
  rw [if_pos (by omega)]
  simp

theorem entry_of_kept {E : Env} {inflate : Bytes → Option Bytes} (hz : Compresses E.deflate inflate) {t : DState} {d : Bytes} (hs : t.dsize = d.length) (hk : Kept E d t) :
    (∀ x, t.data = some x → compressed E t t.dsize x = .ok (E.deflate d)) ∧ (t.data = none → ∀ x, x.length = t.dsize → compressed E t t.dsize x = .ok (E.deflate x)) := by
  rcases hk with ⟨h1, h2⟩ | ⟨h1, h2⟩ | ⟨h1, h2⟩
  · refine ⟨(fun x hx => by rw [h1] at hx; cases hx), fun _ x hx => ?_⟩
    unfold compressed
    rw [if_neg (by rw [h2]; simp), ← hx, slice_all]
  · refine ⟨fun x hx => ?_, (fun hn => by rw [h1] at hn; cases hn)⟩
    rw [h1] at hx; cases hx
    unfold compressed
    rw [if_neg (by rw [h2]; simp), hs, slice_all]
  · refine ⟨fun x hx => ?_, (fun hn => by rw [h1] at hn; cases hn)⟩
    rw [h1] at hx; cases hx
    unfold compressed
    have : (E.deflate d).length ≠ 0 := fun e => hz.some' d (List.length_eq_zero_iff.mp e)
    rw [if_pos (by rw [h2]; exact this), h2, slice_all]

theorem entryBytes_sound {E : Env} {objs : List PObj} {inflate : Bytes → Option Bytes} (hz : Compresses E.deflate inflate) (hp : Plausible E.odb) {i : Nat} {t : DState} {bs : Bytes}
    (hd : DeltaOk E objs i t) (h : entryBytes E objs i t = .ok bs) : EntryFor E objs i t bs := by
  unfold entryBytes at h
  unfold DeltaOk at hd
  cases hb : t.delta with
  | none =>
    rw [hb] at hd
    unfold payload at h
    rw [hb] at h
    simp only at h
    split at h
    · cases h
    · cases h
    · rename_i ty len data hpl
      split at hpl
      · cases hpl
      · rename_i ty' d hodb
        cases hpl
        obtain ⟨t1, t2⟩ := hp.type _ _ _ hodb
        have t3 := hp.size _ _ _ hodb
        obtain ⟨hh, e1, e2, e3⟩ := Pack.objectHeader_spec ty data.length t1 (by omega) (by omega)
        rw [e1] at h
        simp only at h
        unfold compressed at h
        rw [if_neg (by rw [hd.2]; simp), slice_all] at h
        simp only at h
        cases h
        refine .inl ⟨hb, hh, ty, data, hodb, e2, e3, ?_⟩
        unfold baseId
        rw [hb]
        simp
  | some b =>
    rw [hb] at hd
    obtain ⟨d, ⟨hbn, ty, sd, td, mx, o1, o2, hmx, hcr⟩, hs, hk⟩ := hd
    have hlen := create_max hcr hmx
    obtain ⟨hh, e1, e2, e3⟩ := Pack.objectHeader_spec 7 d.length (by omega) (by omega) (by omega)
    obtain ⟨c1, c2⟩ := entry_of_kept hz hs hk
    unfold payload at h
    rw [hb] at h
    simp only at h
    have hbase : baseId objs t = (objAt objs b).id := by unfold baseId; rw [hb]
    cases hdata : t.data with
    | some x =>
      rw [hdata] at h
      simp only at h
      have hR : Pack.REF_DELTA = 7 := rfl
      rw [hR, hs, e1] at h
      simp only at h
      rw [← hs, c1 x hdata] at h
      simp only at h
      cases h
      refine .inr ⟨b, hh, d, ty, sd, td, hb, hbn, o1, o2, e2, e3, create_makes hcr, hlen, ?_⟩
      rw [hbase]
    | none =>
      rw [hdata] at h
      simp only at h
      split at h
      · cases h
      · cases h
      · rename_i ty' len data hpl
        split at hpl
        · cases hpl
        · cases hpl
        · rename_i d' hgd
          cases hpl
          unfold getDelta at hgd
          rw [o1, o2] at hgd
          simp only at hgd
          split at hgd
          · cases hgd
          · cases hgd
          · cases hgd
          · rename_i d'' hc0
            split at hgd
            · cases hgd
            · rename_i hl
              cases hgd
              have hl' : data.length = t.dsize := by omega
              have hR : Pack.REF_DELTA = 7 := rfl
              rw [hR, hs, e1] at h
              simp only at h
              rw [← hs, c2 hdata data hl'] at h
              simp only at h
              cases h
              refine .inr ⟨b, hh, data, ty, sd, td, hb, hbn, o1, o2, ?_, e3, create_makes hc0, by omega, ?_⟩
              · have : data.length = d.length := by omega
                rw [this]; exact e2
              · rw [hbase]

end Verif.PackObjects
