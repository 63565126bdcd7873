import Verif.Indexer.Lemmas6
import Verif.PackIdx.Lemmas3
/-! # What is written -/
namespace Verif.Indexer
open Spec Verif.Pack Verif.Pack.Spec Verif.PackObjects.Spec

theorem rd32_bytes {b : Bytes} {off : Nat} {v : UInt32} (h : rd32 b off = .ok v) : off + 4 ≤ b.length ∧ (b.drop off).take 4 = count4 v.toNat := by
  unfold rd32 slice at h
  by_cases hl : off + 4 ≤ b.length
  · rw [if_pos hl] at h
    refine ⟨hl, ?_⟩
    have hlen : ((b.drop off).take 4).length = 4 := by rw [List.length_take, List.length_drop]; omega
    match hh : (b.drop off).take 4, hlen with
    | [w, x, y, z], _ =>
      rw [hh] at h
      have h := Res.ok.inj h
      subst h
      have hw := w.toNat_lt
      have hx := x.toNat_lt
      have hy := y.toNat_lt
      have hz := z.toNat_lt
      unfold count4
      rw [UInt32.toNat_ofNat', Nat.mod_eq_of_lt (by omega)]
      simp only [List.cons.injEq, and_true]
      refine ⟨?_, ?_, ?_, ?_⟩ <;> apply UInt8.toNat_inj.mp <;> rw [UInt8.toNat_ofNat'] <;> omega
  · rw [if_neg hl] at h; cases h

theorem hdr_layout {F : Bytes} {n : Nat} (h : Hdr F n) : F.take 12 = b!"PACK" ++ [0, 0, 0, 2] ++ count4 n ∧ n < 2 ^ 32 := by
  obtain ⟨h1, h2, m, h3, rfl⟩ := h
  obtain ⟨_, a1⟩ := rd32_bytes h1
  obtain ⟨_, a2⟩ := rd32_bytes h2
  obtain ⟨_, a3⟩ := rd32_bytes h3
  refine ⟨?_, m.toNat_lt⟩
  rw [show (12 : Nat) = 4 + (4 + 4) from rfl, List.take_add, List.take_add, List.drop_drop, ← a3]
  rw [List.drop_zero] at a1
  rw [a1, a2, List.append_assoc]
  rfl

theorem named_hash {sha : Bytes → Bytes} {t : Nat} {d id : Bytes} (hl : d.length < 2 ^ 63) (h : Loose.hashObj sha ⟨t, d.length, d⟩ = .ok id) : Named sha t d id := by
  unfold Loose.hashObj at h
  dsimp only at h
  by_cases ht : ¬ Loose.typeIsValid (t : Int) = true
  · rw [if_pos ht] at h; cases h
  · rw [if_neg ht, if_neg (Nat.lt_irrefl _)] at h
    obtain ⟨hd, e1, e2, _⟩ := Loose.C44_format t d.length (by simpa using ht) hl
    rw [e1] at h
    dsimp only at h
    rw [List.take_length] at h
    exact ⟨hd, e2, (Res.ok.inj h).symm⟩

theorem named_object {E : Env} {t : Nat} {d id : Bytes} (ht : 1 ≤ t ∧ t ≤ 4) (hl : d.length < 2 ^ 63) (h : objectId E t d.length d = .ok id) : Named E.sha t d id := by
  unfold objectId at h
  obtain ⟨hd, e1, e2, _⟩ := Loose.C44_format t d.length (by
    obtain ⟨a, b⟩ := ht
    rcases (by omega : t = 1 ∨ t = 2 ∨ t = 3 ∨ t = 4) with rfl | rfl | rfl | rfl <;> decide) hl
  rw [e1, Res.bind_ok] at h
  exact ⟨hd, e2, (Res.ok.inj h).symm⟩

/-- the entry of a delta is not that of a whole object, and so what it makes is below 4 GiB -/
theorem delta_length {F : Bytes} {find : Bytes → Option Nat} {inf : Bytes → Option Bytes} {e : Ent} (hh : openEnt F e.off = .ok (e.type, e.size, e.start)) (hd : isDelta e.type = true)
    {t : Nat} {d : Bytes} (h : (⟨F, find, inf⟩ : Source).Entry e.off t d) : d.length < 2 ^ 63 := by
  cases h with
  | @whole off t n size hb rest d e1 e2 e3 e4 e5 e6 =>
    exfalso
    unfold openEnt at hh
    rw [(unpackHeader1_ok _ t (n % 2 ^ 64) hb.length).mpr ⟨hb, rest, n, e1, e2, e3, rfl, rfl⟩, Res.bind_ok] at hh
    dsimp only at hh
    rw [if_neg (by omega), if_neg (by omega)] at hh
    simp only [Res.ok.injEq, Prod.mk.injEq] at hh
    rw [← hh.1] at hd
    have h6 : ¬ t = 6 := by omega
    have h7 : ¬ t = 7 := by omega
    simp [isDelta, OFS_DELTA, REF_DELTA, h6, h7] at hd
  | delta _ _ _ _ _ _ _ hm =>
    obtain ⟨h1, h2, ops, is, _, _, ⟨m, _, _, hl⟩, _⟩ := hm
    rw [hl]
    omega

theorem entF_entry {E : Env} {F : Bytes} (hF : F.length < 2 ^ 63) {e : Ent} (h : EntF E F e) : EntryOf E.inflate F e :=
  ⟨(openEnt_head (by have := h.room; omega)).mp h.head, h.stream, Nat.le_of_lt h.after⟩

theorem isDelta_whole (e : Ent) : isDelta e.type = false ↔ Whole e := by
  unfold Whole
  by_cases h6 : e.type = 6 <;> by_cases h7 : e.type = 7 <;> simp [isDelta, OFS_DELTA, REF_DELTA, h6, h7]

/-- what was saved stands -/
theorem saved_stands {E : Env} {F : Bytes} {find : Bytes → Option Nat} {e : Ent} {x : PackIdx.Entry} (hent : EntF E F e) (hstop : e.start + 20 ≤ F.length) (h : Saved E F find e x) :
    Stands E.inflate E.sha F find e x.id := by
  constructor
  · intro hw
    have hd : isDelta e.type = true := by
      by_contra hc
      exact hw ((isDelta_whole e).mp (by simpa using hc))
    obtain ⟨t, d, h1, h2⟩ := h.delta hd
    exact ⟨t, d, h1, named_hash (delta_length hent.head hd h1) h2⟩
  · rintro ⟨h1, h2, h3, h4⟩
    have h6 : e.type ≠ 6 := by omega
    have h7 : e.type ≠ 7 := by omega
    have hid := h.whole ((isDelta_whole e).mpr ⟨h6, h7⟩)
    rw [← h3] at hid
    refine ⟨?_, named_object ⟨h1, h2⟩ (by omega) hid⟩
    have hh := hent.head
    unfold openEnt at hh
    cases hu : unpackHeader1 (F.drop e.off) with
    | err y => rw [hu] at hh; cases hh
    | ub => rw [hu] at hh; cases hh
    | ok r =>
      obtain ⟨t, z, u⟩ := r
      obtain ⟨hb, rest, n, e1, e2, e3, e4, e5⟩ := (unpackHeader1_ok _ _ _ _).mp hu
      rw [hu, Res.bind_ok] at hh
      dsimp only at hh
      have ht : t ≠ 7 ∧ t ≠ 6 := by
        constructor
        · rintro rfl
          rw [if_pos rfl] at hh
          simp only [Res.ok.injEq, Prod.mk.injEq] at hh
          omega
        · rintro rfl
          rw [if_neg (by decide), if_pos rfl] at hh
          cases hb' : ofsBase (F.drop (e.off + u)) e.off with
          | err y => rw [hb'] at hh; cases hh
          | ub => rw [hb'] at hh; cases hh
          | ok b =>
            rw [hb', Res.bind_ok] at hh
            simp only [Res.ok.injEq, Prod.mk.injEq] at hh
            omega
      rw [if_neg ht.1, if_neg ht.2] at hh
      simp only [Res.ok.injEq, Prod.mk.injEq] at hh
      obtain ⟨q1, q2, q3⟩ := hh
      rw [← q1]
      refine .whole e1 e2 e3 e4 (by omega) ⟨?_, ?_, ?_, ?_⟩
      · show e.off + hb.length + 20 ≤ F.length
        omega
      · show contents E.inflate (F.drop (e.off + hb.length)) = _
        unfold contents
        rw [show e.off + hb.length = e.start by omega, hent.stream]
      · omega
      · omega

/-- what an index finds -/
def findBy (p : PackIdx.Idx) (id : Bytes) : Option Nat := match PackIdx.findOffset 20 p id 40 with | .ok (off, _) => some off | _ => none

theorem find_of_looked {es : List PackIdx.Entry} {p : PackIdx.Idx} (hid : ∀ e ∈ es, e.id.length = 20)
    (hlook : ∀ short len, short.length = 20 → PackIdx.Spec.Padded len short → PackIdx.Spec.Looked (es.map fun e => (e.id, e.off)) short len (PackIdx.findOffset 20 p short len))
    {id : Bytes} (hl : id.length = 20) {b : Nat} (h : (id, b) ∈ es.map fun e => (e.id, e.off)) : PackIdx.findOffset 20 p id 40 = .ok (b, id) := by
  have hfull : ∀ e ∈ es.map (fun e => (e.id, e.off)), PackIdx.Spec.SamePrefix 40 id e.1 → id = e.1 := by
    intro e he hs
    obtain ⟨x, hx, rfl⟩ := List.mem_map.mp he
    exact (PackIdx.samePrefix_full (by rw [hl, hid x hx]) (by rw [hid x hx])).mp hs
  have hk := hlook id 40 hl (by
    intro c hc
    rw [List.drop_eq_nil_of_le (by rw [PackIdx.hex_length, hl])] at hc
    cases hc)
  generalize PackIdx.findOffset 20 p id 40 = r at hk
  cases hk with
  | one id' x h1 h2 h3 =>
    have := hfull _ h1 h2
    dsimp only at this
    subst this
    have := h3 _ h rfl
    simp only [Prod.mk.injEq] at this
    rw [this.2]
  | none h1 => exact absurd rfl (h1 _ h)
  | more d e h1 h2 h3 h4 h5 => exact absurd ((hfull _ h1 h4).symm.trans (hfull _ h2 h5)) h3

theorem findIn_mem {l : List PackIdx.Entry} {id : Bytes} {b : Nat} (h : findIn l id = some b) : (id, b) ∈ l.map fun e => (e.id, e.off) := by
  unfold findIn at h
  cases hx : l.find? fun e => e.id == id with
  | none => rw [hx] at h; cases h
  | some x =>
    rw [hx] at h
    have h1 := List.find?_some hx
    simp only [beq_iff_eq] at h1
    simp only [Option.map_some, Option.some.injEq] at h
    exact List.mem_map.mpr ⟨x, List.mem_of_find?_eq_some hx, by rw [h1, h]⟩

theorem objectsCmp_order : Sort.Spec.TotalPreorder objectsCmp :=
  ⟨fun a b => by unfold objectsCmp; rw [bcmp_neg a.id b.id]; omega, fun _ _ _ => bcmp_trans⟩

theorem write_crc {fanout : Nat → Nat} {es : List PackIdx.Entry} {trailer : Bytes} {sum : Bytes → Bytes} (hid : ∀ e ∈ es, e.id.length = 20) (i : Nat) (hi : i < es.length) :
    rd32 (PackIdx.writeIdx fanout es trailer sum) (1032 + 20 * es.length + 4 * i) = .ok es[i].crc := by
  unfold PackIdx.writeIdx
  dsimp only
  generalize sum _ = S
  have hF : ((List.range 256).flatMap fun i => be32 (UInt32.ofNat (fanout i))).length = 1024 := by
    rw [PackIdx.flatMap_len (w := 4) fun _ _ => rfl]; simp
  have hI : (es.flatMap (·.id)).length = es.length * 20 := PackIdx.flatMap_len hid
  have h2 : (be32 0xff744f63 ++ be32 2).length = 8 := rfl
  obtain ⟨a, b, hab, ha⟩ := PackIdx.flatMap_split (g := fun e : PackIdx.Entry => be32 e.crc) (w := 4) (xs := es) (fun _ _ => rfl) (i := i) hi
  refine PackIdx.rd32_mid (pre := be32 0xff744f63 ++ be32 2 ++ ((List.range 256).flatMap fun i => be32 (UInt32.ofNat (fanout i))) ++ es.flatMap (·.id))
    (by simp only [List.append_assoc]; rfl) hab ?_
  rw [List.length_append, List.length_append, h2, hF, hI, ha]
  omega

theorem saved_id {E : Env} (hsha : ∀ b, (E.sha b).length = 20) {F : Bytes} {find : Bytes → Option Nat} {e : Ent} {x : PackIdx.Entry} (h : Saved E F find e x) : x.id.length = 20 := by
  by_cases hd : isDelta e.type = true
  · obtain ⟨t, d, _, h2⟩ := h.delta hd
    unfold Loose.hashObj at h2
    split at h2
    · cases h2
    · split at h2
      · cases h2
      · cases hf : Loose.formatHeader 64 d.length t with
        | ok hd => rw [hf] at h2; rw [← Res.ok.inj h2]; exact hsha _
        | err y => rw [hf] at h2; cases h2
        | ub => rw [hf] at h2; cases h2
  · have := h.whole (by simpa using hd)
    unfold objectId at this
    cases hf : Loose.formatHeader 64 e.size e.type with
    | ok hd => rw [hf, Res.bind_ok] at this; rw [← Res.ok.inj this]; exact hsha _
    | err y => rw [hf] at this; cases this
    | ub => rw [hf] at this; cases this

theorem run_mem {E : Env} {F : Bytes} {l : List Ent} : ∀ {a b : Nat}, Run a l b → (∀ e ∈ l, EntF E F e) → ∀ e ∈ l, e.stop ≤ b := by
  induction l with
  | nil => intro a b _ _ e he; cases he
  | cons x l ih =>
    intro a b h hl e he
    have hl' : ∀ e ∈ l, EntF E F e := fun e he => hl e (List.mem_cons_of_mem _ he)
    rcases List.mem_cons.mp he with rfl | he
    · exact (run_le h.2 hl').1
    · exact ih h.2 hl' e he

/-- the index that is written for objects that were saved -/
theorem stored_index {E : Env} (hsha : ∀ b, (E.sha b).length = 20) {F : Bytes} (hF : F.length < 2 ^ 63) {ents : List Ent} {stop : Nat} (hent : ∀ e ∈ ents, EntF E F e)
    (hrun : Run 12 ents stop) (hstop : stop + 20 ≤ F.length) {ix : PackIdx.Indexer} {n : Nat} (S : Stored E F ents ix n []) (hn : n < 2 ^ 26) {sorted : List PackIdx.Entry}
    (hs : Sort.tsort objectsCmp ix.objects = .ok sorted) {sum : Bytes} (hsum : sum.length = 20) :
    ∃ p listed, PackIdx.checkIndex 20 (PackIdx.writeIdx ix.fanout sorted sum E.sha) = .ok p ∧ PackIdx.foreachEntry 20 p = .ok listed ∧ listed.length = n ∧ ents.length = n ∧
      (listed.map (·.1)).Pairwise (· < ·) ∧ (listed.map (·.2)).Perm (ents.map (·.off)) ∧
      listed.Perm (ix.objects.map fun x => (x.id, x.off)) ∧ (∀ id b, id.length = 20 → findIn ix.objects id = some b → findBy p id = some b) ∧
      ∀ i (h : i < listed.length), ∃ e ∈ ents, e.off = listed[i].2 ∧ PackIdx.findOffset 20 p listed[i].1 40 = .ok (listed[i].2, listed[i].1) ∧
        rd32 (PackIdx.writeIdx ix.fanout sorted sum E.sha) (1032 + 20 * listed.length + 4 * i) = .ok (E.crc ((F.drop e.off).take (e.stop - e.off))) ∧
        Stands E.inflate E.sha F (findBy p) e listed[i].1 := by
  obtain ⟨es, hes⟩ := S.saved
  obtain ⟨ho, hnd, _⟩ := PackIdx.saveAll_ok hes (by simp)
  simp only [List.nil_append] at ho
  have hp := S.perm
  rw [List.append_nil] at hp
  have hcount : ents.length = n := by
    have := hp.length_eq
    rw [List.length_map, List.length_map, ← S.count] at this
    exact this.symm
  have hidl : ∀ x ∈ ix.objects, x.id.length = 20 := fun x hx => by
    obtain ⟨e, _, hs⟩ := S.each x hx
    exact saved_id hsha hs
  have hsort : sorted.Perm ix.objects ∧ sorted.Pairwise fun a b => a.id ≤ b.id := by
    rcases Sort.C26_sorts_any objectsCmp_order ix.objects with ⟨out, h1, h2⟩ | ⟨_, h1⟩
    · rw [hs] at h1
      cases h1
      refine ⟨h2.stable.perm, h2.sorted.imp ?_⟩
      intro a b hab
      exact bcmp_le.mp hab
    · rw [hs] at h1; cases h1
  have hoffs : ∀ x ∈ ix.objects, x.off < 2 ^ 63 := fun x hx => by
    obtain ⟨e, he, hs⟩ := S.each x hx
    have := (hent e he).room
    have := hs.off
    omega
  obtain ⟨p, g1, g2, g3, g4⟩ := PackIdx.C45_written (osz := 20) (by decide) (by decide) hes (by rw [← ho]; exact hidl) (by rw [← ho]; exact hoffs) (by
      intro hne
      rw [← ho] at hne ⊢
      cases hents : ents with
      | nil =>
        rw [hents] at hp
        have := List.Perm.length_eq hp
        rw [List.length_map] at this
        exact absurd (List.length_eq_zero_iff.mp this) hne
      | cons e es' =>
        have hrun' := hrun
        rw [hents] at hrun'
        have : (12 : Nat) ∈ ix.objects.map (·.off) := by
          rw [hp.mem_iff, hents, List.map_cons, hrun'.1]
          simp
        obtain ⟨x, hx, h12⟩ := List.mem_map.mp this
        exact ⟨x, hx, by rw [h12]; decide⟩) (by rw [← ho, ← S.count]; exact hn) hsort.1 hsort.2 hsum hsha
  have hlenl : sorted.length = n := by rw [hsort.1.length_eq, S.count]
  have hfind : ∀ (id : Bytes) (b : Nat), id.length = 20 → (id, b) ∈ es.map (fun e => (e.id, e.off)) → PackIdx.findOffset 20 p id 40 = .ok (b, id) :=
    fun id b hl h => find_of_looked (by rw [← ho]; exact hidl) g4 hl h
  have hmono : ∀ id b, id.length = 20 → findIn ix.objects id = some b → findBy p id = some b := by
    intro id b hl h
    have := hfind id b hl (by rw [← ho]; exact findIn_mem h)
    unfold findBy
    rw [this]
  refine ⟨p, _, g1, g2, ?_, hcount, ?_, ?_, hsort.1.map _, hmono, ?_⟩
  · rw [List.length_map]; exact hlenl
  · rw [List.map_map]
    have hnd' : (sorted.map (·.id)).Nodup := (hsort.1.map _).nodup_iff.mpr hnd
    rw [List.nodup_iff_pairwise_ne, List.pairwise_map] at hnd'
    rw [List.pairwise_map]
    exact hsort.2.imp₂ (fun a b h1 h2 => B.lt_of_le_of_ne h1 h2) hnd'
  · rw [List.map_map]
    exact (hsort.1.map _).trans hp
  · intro i hi
    rw [List.length_map] at hi
    simp only [List.getElem_map]
    have hmem : sorted[i] ∈ ix.objects := hsort.1.mem_iff.mp (List.getElem_mem hi)
    obtain ⟨e, he, hsv⟩ := S.each _ hmem
    refine ⟨e, he, hsv.off.symm, ?_, ?_, ?_⟩
    · exact hfind _ _ (hidl _ hmem) (by rw [← ho]; exact List.mem_map.mpr ⟨_, hmem, rfl⟩)
    · rw [List.length_map, write_crc (fun x hx => hidl x (hsort.1.mem_iff.mp hx)) i hi, hsv.crc]
      rfl
    · have hst := run_mem hrun hent e he
      have haf := (hent e he).after
      exact saved_stands (hent e he) (by omega) (saved_mono hmono hsv)

end Verif.Indexer
