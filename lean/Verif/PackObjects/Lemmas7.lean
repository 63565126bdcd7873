import Verif.PackObjects.Lemmas6
/-! # The file that is written -/
namespace Verif.PackObjects
open Verif.Pack.Spec Spec

theorem flatten_drop {α : Type} : ∀ (l : List (List α)) (k : Nat), l.flatten.drop ((l.take k).map List.length).sum = (l.drop k).flatten := by
  intro l
  induction l with
  | nil => intro k; simp
  | cons x l ih =>
    intro k
    cases k with
    | zero => simp
    | succ k =>
      rw [List.take_succ_cons, List.map_cons, List.sum_cons, List.flatten_cons, List.drop_succ_cons, ← ih k]
      rw [← List.drop_drop]
      simp

theorem count4_header (n : Nat) (h : n < 2 ^ 32) : packHeader n = b!"PACK" ++ [0, 0, 0, 2] ++ count4 n := by
  have h1 : (UInt32.ofNat n).toNat = n := by
    rw [UInt32.toNat_ofNat']
    exact Nat.mod_eq_of_lt h
  have h2 : be32 (UInt32.ofNat n) = count4 n := by unfold be32 count4; rw [h1]
  unfold packHeader
  rw [h2]
  rfl

/-- the entries as pairs of id and bytes -/
def entriesOf (objs : List PObj) (lg : List Nat) (ent : Nat → Bytes) : List (Bytes × Bytes) := lg.map fun i => ((objAt objs i).id, ent i)

theorem entriesOf_get {objs : List PObj} {lg : List Nat} {ent : Nat → Bytes} {k : Nat} {id bs : Bytes} (h : (entriesOf objs lg ent)[k]? = some (id, bs)) :
    ∃ i, lg[k]? = some i ∧ id = (objAt objs i).id ∧ bs = ent i := by
  unfold entriesOf at h
  rw [List.getElem?_map] at h
  cases hk : lg[k]? with
  | none => rw [hk] at h; cases h
  | some i => rw [hk] at h; cases h; exact ⟨i, rfl, rfl, rfl⟩

theorem file_drop {hdr sha : Bytes} (hh : hdr.length = 12) (objs : List PObj) (lg : List Nat) (ent : Nat → Bytes) (k i : Nat) (hk : lg[k]? = some i) :
    ∃ rest, (hdr ++ (lg.map ent).flatten ++ sha).drop (offset (entriesOf objs lg ent) k) = ent i ++ (rest ++ sha) := by
  have ho : offset (entriesOf objs lg ent) k = hdr.length + (((lg.map ent).take k).map List.length).sum := by
    unfold offset entriesOf
    rw [hh, ← List.map_take, ← List.map_take, List.map_map, List.map_map]
    rfl
  have hlt : k < lg.length := by
    by_contra hc
    rw [List.getElem?_eq_none (by omega)] at hk; cases hk
  refine ⟨((lg.map ent).drop (k + 1)).flatten, ?_⟩
  rw [ho, List.append_assoc, ← List.drop_drop, List.drop_left]
  have e : (lg.map ent).drop k = ent i :: (lg.map ent).drop (k + 1) := by
    rw [← List.getElem_cons_drop (by simpa using hlt)]
    congr 1
    rw [List.getElem_map]
    rw [List.getElem?_eq_getElem hlt] at hk
    cases hk; rfl
  have hle : (((lg.map ent).take k).map List.length).sum ≤ (lg.map ent).flatten.length := by
    rw [List.length_flatten]
    have : ((lg.map ent).map List.length).sum = (((lg.map ent).take k).map List.length).sum + (((lg.map ent).drop k).map List.length).sum := by
      rw [← List.sum_append, ← List.map_append, List.take_append_drop]
    omega
  rw [List.drop_append_of_le_length hle, flatten_drop, e, List.flatten_cons, List.append_assoc]

theorem pack_sound {E : Env} {inflate : Bytes → Option Bytes} (hz : Compresses E.deflate inflate) (hp : Plausible E.odb) (hsha : ∀ b, (E.sha b).length = 20)
    {objs : List PObj} (hn : objs.length < 2 ^ 32) {depth : Nat} {ds : Nat → DState} {rank dep : Nat → Nat} (hR : Ready E objs depth ds rank dep)
    {tagged : Nat → Bool} {fuel : Nat} {file : Bytes} (h : writePack E objs tagged ds fuel = .ok file) :
    PackOf ⟨E.odb, inflate, E.sha⟩ depth (objs.map fun o => o.id) file := by
  have hF : Forest objs.length (fun i => (ds i).delta) rank := fun i b hb => ⟨(hR.base i b hb).1, (hR.base i b hb).2.1, (hR.base i b hb).2.2.1⟩
  unfold writePack at h
  split at h
  · cases h
  · cases h
  · rename_i wo hwo
    have hperm := writeOrder_sound hF hwo
    split at h
    · cases h
    · cases h
    · rename_i s hs
      cases h
      have H0 : WInv E objs ds (packHeader objs.length) (emit (packHeader objs.length) ⟨ds, fun _ => false, fun _ => false, [], []⟩) [] (fun _ => []) :=
        ⟨fun _ _ => rfl, fun _ => rfl, List.nodup_nil, (fun i => by simp [emit]), (fun i hi => by cases hi), (fun i hi => by cases hi), by simp [emit], rfl,
          (fun pre i post e => by simp at e)⟩
      obtain ⟨⟨lg, ent, H⟩, hall, _⟩ := writeLoop_sound hF wo _ _ _ _ H0 (fun i hi => List.mem_range.mp (hperm.mem_iff.mp hi)) (fun _ => rfl) hs
      have hlg : lg.Perm (List.range objs.length) := by
        rw [List.perm_ext_iff_of_nodup H.nodup List.nodup_range]
        intro i
        constructor
        · intro hi; exact List.mem_range.mpr (H.lt i hi)
        · intro hi
          rw [H.iff]
          exact hall i (hperm.mem_iff.mpr hi)
      have hlen : (entriesOf objs lg ent).length = objs.length := by
        unfold entriesOf
        rw [List.length_map, hlg.length_eq, List.length_range]
      have hsnd : (entriesOf objs lg ent).map (fun e => e.2) = lg.map ent := by
        unfold entriesOf
        rw [List.map_map]; rfl
      have hhdr : (packHeader objs.length).length = 12 := rfl
      refine ⟨entriesOf objs lg ent, ?_, ⟨?_, by rw [hlen]; exact hn⟩, ?_⟩
      · -- the ids
        have e1 : (entriesOf objs lg ent).map (fun e => e.1) = lg.map fun i => (objAt objs i).id := by
          unfold entriesOf
          rw [List.map_map]; rfl
        rw [e1]
        have e2 : objs.map (fun o => o.id) = (List.range objs.length).map fun i => (objAt objs i).id := by
          apply List.ext_getElem
          · simp
          · intro k h1 h2
            simp only [List.getElem_map, List.getElem_range]
            unfold objAt
            rw [List.getD_eq_getElem?_getD, List.getElem?_eq_getElem (by simpa using h1)]
            rfl
        rw [e2]
        exact hlg.map _
      · -- the layout
        rw [H.hashed, H.out, hlen, hsnd, count4_header _ hn]
      · suffices key : ∀ k i, lg[k]? = some i → ∀ find : Bytes → Option Nat,
            (∀ j id' bs', j < k → (entriesOf objs lg ent)[j]? = some (id', bs') → find id' = some (offset (entriesOf objs lg ent) j)) →
            ∃ t d, E.odb (objAt objs i).id = some (t, d) ∧ Source.Entry ⟨s.out ++ E.sha s.hashed, find, inflate⟩ (offset (entriesOf objs lg ent) k) t d ∧
              Hops ⟨s.out ++ E.sha s.hashed, find, inflate⟩ (offset (entriesOf objs lg ent) k) (dep i) by
          intro k id bs hk find hfind
          obtain ⟨i, hi, rfl, rfl⟩ := entriesOf_get hk
          obtain ⟨t, d, q1, q2, q3⟩ := key k i hi find hfind
          exact ⟨t, d, q1, q2, dep i, hR.depLe i, q3⟩
        intro k
        induction k using Nat.strong_induction_on with
        | _ k ih =>
          intro i hi find hfind
          have him : i ∈ lg := List.mem_of_getElem? hi
          have hef := entryBytes_sound hz hp (hR.ok i) (H.entOk i him)
          obtain ⟨rest, hdrop⟩ := file_drop (sha := E.sha s.hashed) hhdr objs lg ent k i hi
          rw [← H.out] at hdrop
          generalize hfile : s.out ++ E.sha s.hashed = file at hdrop ih ⊢
          generalize hoff : offset (entriesOf objs lg ent) k = off at hdrop ⊢
          have hsl := hsha s.hashed
          have hflen : file.length = off + (ent i).length + rest.length + 20 ∨ file.length ≤ off := by
            have := congrArg List.length hdrop
            rw [List.length_drop, List.length_append, List.length_append, hsl] at this
            omega
          rcases hef with ⟨hd, hh, ty, d, o1, eh, hl10, hbs⟩ | ⟨b, hh, dl, ty, sd, td, hd, hbn, o1, o2, eh, hl10, hmk, hdl, hbs⟩
          · have hsz := hp.size _ _ _ o1
            obtain ⟨t1, t2⟩ := hp.type _ _ _ o1
            have hne : 0 < (ent i).length := by
              rw [hbs, List.length_append]
              have : (E.deflate d).length ≠ 0 := fun e => hz.some' d (List.length_eq_zero_iff.mp e)
              omega
            have hflen' : file.length = off + (ent i).length + rest.length + 20 := by
              rcases hflen with h | h
              · exact h
              · rw [List.drop_eq_nil_of_le h] at hdrop
                have := congrArg List.length hdrop
                rw [List.length_append] at this
                simp at this; omega
            have hbl : (ent i).length = hh.length + (E.deflate d).length := by rw [hbs, List.length_append]
            have hdr1 : file.drop off = hh ++ (E.deflate d ++ (rest ++ E.sha s.hashed)) := by rw [hdrop, hbs, List.append_assoc]
            refine ⟨ty, d, o1, ?_, by rw [hR.root i hd]; exact Hops.whole hdr1 eh t1 t2⟩
            refine Source.Entry.whole hdr1 eh hl10 (by rw [Nat.mod_eq_of_lt (by omega)]) (by omega) ⟨?_, ?_, rfl, hsz⟩
            · show off + hh.length + 20 ≤ file.length
              omega
            · show inflate (file.drop (off + hh.length)) = some d
              rw [← List.drop_drop, hdr1, List.drop_left]
              exact hz.back d _
          · have hid : (objAt objs b).id.length = 20 := hp.id _ _ o1
            have hbl : (ent i).length = hh.length + 20 + (E.deflate dl).length := by rw [hbs, List.length_append, List.length_append, hid]
            have hflen' : file.length = off + (ent i).length + rest.length + 20 := by
              rcases hflen with h | h
              · exact h
              · rw [List.drop_eq_nil_of_le h] at hdrop
                have := congrArg List.length hdrop
                rw [List.length_append] at this
                simp at this; omega
            have hdr1 : file.drop off = hh ++ ((objAt objs b).id ++ (E.deflate dl ++ (rest ++ E.sha s.hashed))) := by
              rw [hdrop, hbs]; simp only [List.append_assoc]
            have hdr2 : file.drop (off + hh.length) = (objAt objs b).id ++ (E.deflate dl ++ (rest ++ E.sha s.hashed)) := by
              rw [← List.drop_drop, hdr1, List.drop_left]
            have htake : (file.drop (off + hh.length)).take 20 = (objAt objs b).id := by rw [hdr2, ← hid, List.take_left]
            -- the base is an earlier entry
            have hsplit : lg = lg.take k ++ i :: lg.drop (k + 1) := by
              have hlt : k < lg.length := by
                by_contra hc
                rw [List.getElem?_eq_none (by omega)] at hi; cases hi
              rw [List.getElem?_eq_getElem hlt] at hi
              cases hi
              rw [List.getElem_cons_drop, List.take_append_drop]
            have hbpre : b ∈ lg.take k := H.first _ _ _ hsplit b hd
            obtain ⟨j, hj⟩ := List.mem_iff_getElem?.mp hbpre
            have hjk : j < k ∧ lg[j]? = some b := by
              rw [List.getElem?_take] at hj
              split at hj
              · exact ⟨by assumption, hj⟩
              · cases hj
            have hje : (entriesOf objs lg ent)[j]? = some ((objAt objs b).id, ent b) := by
              unfold entriesOf
              rw [List.getElem?_map, hjk.2]; rfl
            obtain ⟨tb, db, p1, p2, p4⟩ := ih j hjk.1 b hjk.2 find (fun j' id' bs' hj' he' => hfind j' id' bs' (by omega) he')
            have p1' : E.odb (objAt objs b).id = some (tb, db) := p1
            rw [o1] at p1'
            cases p1'
            have hfb : find (objAt objs b).id = some (offset (entriesOf objs lg ent) j) := hfind j _ _ hjk.1 hje
            refine ⟨ty, td, o2, ?_, ?_⟩
            · refine Source.Entry.delta hdr1 eh hl10 rfl (Source.Base.ref (offset (entriesOf objs lg ent) j) ?_ ?_ ?_) p2 ⟨?_, ?_, ?_, ?_⟩ hmk
              · show off + hh.length + 20 ≤ file.length
                omega
              · show find ((file.drop (off + hh.length)).take 20) = _
                rw [htake]; exact hfb
              · unfold offset; omega
              · show off + hh.length + 20 + 20 ≤ file.length
                omega
              · show inflate (file.drop (off + hh.length + 20)) = some dl
                rw [← List.drop_drop, hdr2, ← hid, List.drop_left]
                exact hz.back dl _
              · exact (Nat.mod_eq_of_lt (by omega)).symm
              · rw [Nat.mod_eq_of_lt (by omega)]; exact hdl
            · rw [(hR.base i b hd).2.2.2]
              refine Hops.delta hdr1 eh ?_ p4
              show find ((file.drop (off + hh.length)).take 20) = _
              rw [htake]; exact hfb

end Verif.PackObjects
