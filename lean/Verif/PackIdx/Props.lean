import Verif.PackIdx.Lemmas3
/-! # C45: looking an object up in a pack index -/
namespace Verif.PackIdx
open Spec Verif.Oid.Spec Verif.B

/-- **C45 (safety).** Whatever is in a file that is accepted as an index, no lookup of an (abbreviated) id and no listing reads outside it. -/
theorem C45_safe {osz : Nat} (h8 : 8 ≤ osz) {file : Bytes} {p : Idx} (h : checkIndex osz file = .ok p) :
    (∀ short len, short.length = osz → findOffset osz p short len ≠ .ub) ∧ foreachEntry osz p ≠ .ub := by
  obtain ⟨_, ha⟩ := check_accepted h
  refine ⟨fun short len hs => findOffset_safe ha hs (by omega) len, ?_⟩
  unfold foreachEntry
  rcases ha.version with ⟨hv, _⟩ | ⟨hv, _⟩
  · rw [if_neg (by omega)]
    obtain ⟨r, hr, _⟩ := foreach1_ok ha hv p.nr (Nat.le_refl _)
    rw [hr]; exact fun h => nomatch h
  · rw [if_pos (by omega)]
    rcases foreach2_safe ha hv h8 p.nr (Nat.le_refl _) with ⟨e, he⟩ | ⟨r, hr, _⟩
    · rw [he]; exact fun h => nomatch h
    · rw [hr]; exact fun h => nomatch h

/-- the entries listed are the ids of the table, in its order, with the offsets the lookup finds -/
theorem foreach_entries {osz : Nat} (h8 : 8 ≤ osz) {p : Idx} {base : Nat} (ha : Accepted osz p base) (hlt : p.file.length < 2 ^ 32)
    {es : List (Bytes × Nat)} (he : foreachEntry osz p = .ok es) :
    es.length = p.nr ∧ es.map (·.1) = idsOf osz p ∧ ∀ i (h : i < es.length), nthOffset osz p i = .ok es[i].2 := by
  have key : es.length = p.nr ∧ ∀ j (hj : j < es.length), Table.get osz (tableOf osz p) (p.nr - p.nr + j) = .ok es[j].1 ∧
      nthOffset osz p (p.nr - p.nr + j) = .ok es[j].2 := by
    unfold foreachEntry at he
    rcases ha.version with ⟨hv, _⟩ | ⟨hv, _⟩
    · rw [if_neg (by omega)] at he
      obtain ⟨r, hr, hl, hg⟩ := foreach1_ok ha hv p.nr (Nat.le_refl _)
      rw [hr] at he
      rw [← Res.ok.inj he]
      exact ⟨hl, hg⟩
    · rw [if_pos (by omega)] at he
      rcases foreach2_safe ha hv h8 p.nr (Nat.le_refl _) with ⟨e, hh⟩ | ⟨r, hr, hl, hg⟩
      · rw [hh] at he; cases he
      · rw [hr] at he
        rw [← Res.ok.inj he]
        exact ⟨hl, fun j hj => ⟨(hg j hj).1, (hg j hj).2 hlt⟩⟩
  obtain ⟨hl, hg⟩ := key
  rw [Nat.sub_self] at hg
  simp only [Nat.zero_add] at hg
  refine ⟨hl, ?_, fun i h => (hg i h).2⟩
  refine List.ext_getElem (by rw [List.length_map, hl, idsOf_length]) fun i h1 h2 => ?_
  have h3 := (hg i (by simpa using h1)).1
  rw [(idsOf_ok ha).get i h2] at h3
  rw [List.getElem_map]
  exact (Res.ok.inj h3).symm

/-- **C45 (lookup).** In an accepted index whose ids are listed in order and whose fan-out table counts them, looking an abbreviation up gives
the offset of the only id with that prefix, "not found" when there is none, and "ambiguous" when there are several. -/
theorem C45_find {osz : Nat} (h8 : 8 ≤ osz) {file : Bytes} {p : Idx} (h : checkIndex osz file = .ok p) (hlt : file.length < 2 ^ 32)
    {es : List (Bytes × Nat)} (he : foreachEntry osz p = .ok es) (hoff : ∀ e ∈ es, e.2 < 2 ^ 63)
    (hsort : (es.map (·.1)).Pairwise (· < ·)) (hfan : FanRight file (if p.version = 2 then 8 else 0) (es.map (·.1)))
    {short : Bytes} {len : Nat} (hs : short.length = osz) (hp : Padded len short) : Looked es short len (findOffset osz p short len) := by
  obtain ⟨hfile, ha⟩ := check_accepted h
  have hbase : (if p.version = 2 then 8 else 0) = if p.version > 1 then 8 else 0 := by
    rcases ha.version with ⟨hv, _⟩ | ⟨hv, _⟩
    · rw [if_neg (by omega), if_neg (by omega)]
    · rw [if_pos (by omega), if_pos (by omega)]
  rw [hbase] at hfan
  generalize (if p.version > 1 then 8 else 0) = base at ha hfan
  subst hfile
  obtain ⟨hl, hids, hnth⟩ := foreach_entries h8 ha hlt he
  rw [hids] at hsort hfan
  have hfa : ∀ b < 256, fanAt p.file base b = ((idsOf osz p).filter fun id => (id.headD 0).toNat ≤ b).length := by
    intro b hb
    obtain ⟨v, hv, hv2⟩ := hfan b hb
    unfold fanAt
    rw [hv]; exact hv2
  have hok := idsOf_ok ha
  have hcount : ∀ b < 256, ∀ i (hi : i < (idsOf osz p).length), i < fanAt p.file base b ↔ (((idsOf osz p)[i].headD 0).toNat ≤ b) := by
    intro b hb i hi
    rw [hfa b hb]
    rw [lt_count hsort (fun id => decide ((id.headD 0).toNat ≤ b)) (fun x hx y hy hxy h => ?_) i hi, decide_eq_true_eq]
    have := head_mono hxy (by rw [hok.size x hx, hok.size y hy])
    rw [decide_eq_true_eq] at h ⊢
    omega
  cases short with
  | nil => simp at hs; omega
  | cons b0 rest =>
    have hb := b0.toNat_lt
    rw [findOffset_eq ha]
    have hle := fan_le ha b0
    have hlo : ∀ i (h : i < (idsOf osz p).length), i < (if b0 = 0 then 0 else fanAt p.file base (b0.toNat - 1)) → (idsOf osz p)[i] < b0 :: rest := by
      intro i hi hlt
      split at hlt
      · omega
      · rename_i h0
        have hne : b0.toNat ≠ 0 := fun hh => h0 (UInt8.toNat_inj.mp hh)
        have := (hcount (b0.toNat - 1) (by omega) i hi).mp hlt
        refine lt_of_head ?_
        rw [List.headD_cons]; omega
    have hhi : ∀ i (h : i < (idsOf osz p).length), fanAt p.file base b0.toNat ≤ i → b0 :: rest < (idsOf osz p)[i] := by
      intro i hi hlt
      have := mt (hcount b0.toNat (by omega) i hi).mpr (by omega)
      refine lt_of_head ?_
      rw [List.headD_cons]; omega
    have hin : ∀ i (h : i < (idsOf osz p).length), ∃ h2 : i < es.length, es[i].1 = (idsOf osz p)[i] := by
      intro i hi
      have h2 : i < es.length := by rw [hl, ← idsOf_length osz p]; exact hi
      refine ⟨h2, ?_⟩
      have : (es.map (·.1))[i]'(by rw [List.length_map]; exact h2) = (idsOf osz p)[i] := by simp only [hids]
      rw [← this, List.getElem_map]
    have hof : ∀ e ∈ es, ∃ i, ∃ h : i < (idsOf osz p).length, ∃ h2 : i < es.length, e = es[i] ∧ e.1 = (idsOf osz p)[i] := by
      intro e hem
      obtain ⟨i, hi, rfl⟩ := List.getElem_of_mem hem
      have h1 : i < (idsOf osz p).length := by rw [idsOf_length, ← hl]; exact hi
      exact ⟨i, h1, hi, rfl, (hin i h1).2⟩
    rcases find_right hok hsort hs hp hle.1 (by rw [idsOf_length]; exact hle.2) hlo hhi with ⟨i, hi, hf, h1, h2⟩ | ⟨hf, h1⟩ | ⟨hf, i, j, hi, hj, hij, h1, h2⟩ <;>
      rw [idsOf_length] at hf <;> rw [hf]
    · obtain ⟨hie, hid⟩ := hin i hi
      rw [bind_ok]
      dsimp only
      rw [hnth i hie, bind_ok, if_neg (by have := hoff _ (List.getElem_mem hie); omega)]
      rw [← hid]
      refine .one _ _ (List.getElem_mem hie) (by rw [hid]; exact h1) fun e hem hpre => ?_
      obtain ⟨j, hj1, hj2, rfl, he2⟩ := hof e hem
      rw [he2] at hpre
      have := h2 j hj1 hpre
      subst this
      rfl
    · rw [bind_err]
      refine .none fun e hem hpre => ?_
      obtain ⟨j, hj1, hj2, rfl, he2⟩ := hof e hem
      rw [he2] at hpre
      exact h1 _ (List.getElem_mem hj1) hpre
    · rw [bind_err]
      obtain ⟨hie, hid⟩ := hin i hi
      obtain ⟨hje, hjd⟩ := hin j hj
      refine .more es[i] es[j] (List.getElem_mem _) (List.getElem_mem _) ?_ (by rw [hid]; exact h1) (by rw [hjd]; exact h2)
      rw [hid, hjd]
      intro heq
      have := List.pairwise_iff_getElem.mp hsort i j hi hj hij
      rw [heq] at this
      exact lt_irrefl this

/-! ### written indexes -/

/-- listing a written file -/
theorem written_list {osz : Nat} {fanout : Nat → Nat} {es : List Entry} {f : Bytes} (hp : Parts osz fanout es f) (h8 : 8 ≤ osz) (hlt : es.length < 2 ^ 26)
    (hoff : ∀ e ∈ es, e.off < 2 ^ 63) : ∀ n, n ≤ es.length →
    foreachLoop osz ⟨f, 2, es.length⟩ n = .ok ((es.drop (es.length - n)).map fun e => (e.id, e.off)) := by
  intro n
  induction n with
  | zero => intro _; rw [foreachLoop, Nat.sub_zero, List.drop_length]; rfl
  | succ n ih =>
    intro hn
    have hi : es.length - (n + 1) < es.length := by omega
    have hlen := hp.len
    have e1 : (osz + 4) * es.length = es.length * (osz + 4) := Nat.mul_comm _ _
    have e2 : (osz + 8) * es.length = es.length * (osz + 8) := Nat.mul_comm _ _
    have e3 : osz * (es.length - (n + 1)) = (es.length - (n + 1)) * osz := Nat.mul_comm _ _
    rw [List.drop_eq_getElem_cons hi, List.map_cons, foreachLoop]
    dsimp only
    rw [show 8 + 4 * 256 + (osz + 4) * es.length + 4 * (es.length - (n + 1)) = 1032 + es.length * (osz + 4) + 4 * (es.length - (n + 1)) by omega,
      hp.off _ hi, bind_ok]
    rw [show 8 + 4 * 256 + osz * (es.length - (n + 1)) = 1032 + (es.length - (n + 1)) * osz by omega, hp.id _ hi]
    rw [show es.length - (n + 1) + 1 = es.length - n by omega, ih (by omega)]
    have hlong := hp.long (es.length - (n + 1)) hi
    have h63 := hoff _ (List.getElem_mem hi)
    have hfl : ((es.take (es.length - (n + 1))).filter isLong).length ≤ es.length := by
      have h1 := List.length_filter_le isLong (es.take (es.length - (n + 1)))
      rw [List.length_take] at h1
      omega
    have hg := filter_getElem es _ hi
    generalize es[es.length - (n + 1)] = e at h63 hlong hg ⊢
    generalize ((es.take (es.length - (n + 1))).filter isLong).length = k at hfl hlong hg ⊢
    rw [UInt32.toNat_ofNat']
    by_cases hL : isLong e = true
    · rw [if_pos hL, Nat.mod_eq_of_lt (by omega), if_pos (by omega), show (2 ^ 31 + k) % 2 ^ 31 = k by omega,
        show 8 + 4 * 256 + (osz + 8) * es.length + k * 8 = 1032 + es.length * (osz + 8) + k * 8 by omega, if_neg (by have := (hg hL).1; omega),
        (hlong hL).1, bind_ok, (hlong hL).2, bind_ok]
      rw [UInt32.toNat_ofNat', UInt32.toNat_ofNat', Nat.mod_eq_of_lt (a := e.off / 2 ^ 32) (by omega), Nat.mod_eq_of_lt (a := e.off % 2 ^ 32) (by omega),
        show e.off / 2 ^ 32 * 2 ^ 32 + e.off % 2 ^ 32 = e.off by omega]
      rfl
    · have hle : e.off ≤ 0x7fffffff := by
        unfold isLong at hL
        simpa using hL
      rw [if_neg hL, Nat.mod_eq_of_lt (by omega), if_neg (by omega)]
      rfl

/-- **C45 (written).** The index written for the objects saved by the indexer - with distinct ids, at any offsets below 2^63, the first of them
not beyond 2^31 - is accepted, lists exactly these objects with their offsets, and finds every object by every abbreviation of its id. -/
theorem C45_written {osz : Nat} (h8 : 8 ≤ osz) (h32 : osz ≤ 32) {es sorted : List Entry} {s : Indexer} (hs : saveAll es {} = .ok s)
    (hid : ∀ e ∈ es, e.id.length = osz) (hoff : ∀ e ∈ es, e.off < 2 ^ 63) (hfirst : es ≠ [] → ∃ e ∈ es, e.off < 2 ^ 31) (hnr : es.length < 2 ^ 26)
    (hperm : sorted.Perm s.objects) (hsort : sorted.Pairwise fun a b => a.id ≤ b.id)
    {trailer : Bytes} (ht : trailer.length = osz) {sum : Bytes → Bytes} (hsum : ∀ b, (sum b).length = osz) :
    ∃ p, checkIndex osz (writeIdx s.fanout sorted trailer sum) = .ok p ∧
      foreachEntry osz p = .ok (sorted.map fun e => (e.id, e.off)) ∧
      (∀ e ∈ es, (e.id, e.off) ∈ sorted.map fun e => (e.id, e.off)) ∧
      ∀ short len, short.length = osz → Padded len short → Looked (es.map fun e => (e.id, e.off)) short len (findOffset osz p short len) := by
  obtain ⟨ho, hnd, hfan⟩ := saveAll_ok hs (by simp)
  simp only [List.nil_append, Nat.zero_add] at ho hfan
  rw [ho] at hperm hnd
  have hlen : sorted.length = es.length := hperm.length_eq
  have hmem : ∀ e, e ∈ sorted ↔ e ∈ es := fun e => hperm.mem_iff
  have hP := write_parts s.fanout (fun e he => hid e ((hmem e).mp he)) ht hsum (es := sorted)
  generalize hf : writeIdx s.fanout sorted trailer sum = f at hP
  have hlt : ((sorted.map fun e => (e.id, e.off)).map (·.1)).Pairwise (· < ·) := by
    rw [List.map_map]
    have hnd' : (sorted.map (·.id)).Nodup := (hperm.map _).nodup_iff.mpr hnd
    rw [List.nodup_iff_pairwise_ne, List.pairwise_map] at hnd'
    rw [List.pairwise_map]
    exact hsort.imp₂ (fun a b h1 h2 => lt_of_le_of_ne h1 h2) hnd'
  have hcnt : ∀ i < 256, s.fanout i = (((sorted.map fun e => (e.id, e.off)).map (·.1)).filter fun id => (id.headD 0).toNat ≤ i).length := by
    intro i hi
    rw [hfan i hi, List.map_map, List.filter_map, List.length_map]
    exact (hperm.filter _).length_eq.symm
  have hle : ∀ i < 256, s.fanout i ≤ sorted.length := by
    intro i hi
    rw [hcnt i hi]
    refine Nat.le_trans (List.length_filter_le _ _) ?_
    simp
  have hfv : ∀ i < 256, fanAt f 8 i = s.fanout i := by
    intro i hi
    unfold fanAt
    rw [hP.fan i hi]
    show (UInt32.ofNat (s.fanout i)).toNat = _
    rw [UInt32.toNat_ofNat', Nat.mod_eq_of_lt (by have := hle i hi; omega)]
  have hnrfan : fanAt f 8 255 = sorted.length := by
    rw [hfv 255 (by omega), hcnt 255 (by omega), List.filter_eq_self.mpr]
    · simp
    · intro id _
      have := (id.headD 0).toNat_lt
      simp only [decide_eq_true_eq]; omega
  have hlong : (sorted.filter isLong).length ≤ sorted.length - 1 := by
    by_cases hne : es = []
    · have : sorted = [] := by rw [← List.length_eq_zero_iff, hlen, hne]; rfl
      rw [this]; simp
    · obtain ⟨e, he, hsmall⟩ := hfirst hne
      have : (sorted.filter isLong).length ≠ sorted.length := by
        intro h
        have := List.filter_eq_self.mp (List.filter_sublist.eq_of_length h) e ((hmem e).mpr he)
        unfold isLong at this
        simp at this
        omega
      have := List.length_filter_le isLong sorted
      omega
  have hflen := hP.len
  have hcheck : checkIndex osz f = .ok ⟨f, 2, sorted.length⟩ := by
    unfold checkIndex
    rw [if_neg (by omega), hP.sig, bind_ok, hP.version, bind_ok, if_neg (by simp)]
    rw [if_pos rfl]
    show (fanLoop f 8 256 0 >>= _) = _
    rw [fanLoop_of (fun j hj => ⟨_, hP.fan j hj, ?_⟩) (fun i j hij hj => ?_) 256 0 (Nat.le_refl _) (fun _ => Nat.zero_le _), if_neg (by omega), hnrfan, bind_ok]
    · show (if (2 : UInt32).toNat = 1 then _ else if f.length < 8 + 4 * 256 + sorted.length * (osz + 4 + 4) + osz * 2 ∨
        f.length > (if sorted.length ≠ 0 then 8 + 4 * 256 + sorted.length * (osz + 4 + 4) + osz * 2 + (sorted.length - 1) * 8
          else 8 + 4 * 256 + sorted.length * (osz + 4 + 4) + osz * 2) then Res.err (-1) else Res.ok _) = _
      rw [if_neg (by decide), if_neg]
      · rfl
      · rw [show osz + 4 + 4 = osz + 8 from rfl]
        split <;> omega
    · rw [hfv j hj, UInt32.toNat_ofNat', Nat.mod_eq_of_lt (by have := hle j hj; omega)]
    · rw [hfv j hj, hfv i (by omega), hcnt j hj, hcnt i (by omega)]
      rw [← List.countP_eq_length_filter, ← List.countP_eq_length_filter]
      refine List.countP_mono_left fun id _ h => ?_
      rw [decide_eq_true_eq] at h ⊢
      omega
  have hlist : foreachEntry osz ⟨f, 2, sorted.length⟩ = .ok (sorted.map fun e => (e.id, e.off)) := by
    have := written_list hP h8 (by omega) (fun e he => hoff e ((hmem e).mp he)) sorted.length (Nat.le_refl _)
    rw [Nat.sub_self, List.drop_zero] at this
    exact this
  refine ⟨_, hcheck, hlist, fun e he => List.mem_map.mpr ⟨e, (hmem e).mpr he, rfl⟩, fun short len hsl hpad => ?_⟩
  have hsmall : f.length < 2 ^ 32 := by
    have h1 : sorted.length * (osz + 8) ≤ 2 ^ 26 * 40 := Nat.mul_le_mul (by omega) (by omega)
    omega
  have hL := C45_find h8 hcheck hsmall hlist (fun e he => ?_) hlt (fun b hb => ⟨_, hP.fan b hb, ?_⟩) hsl hpad
  · have hsub : ∀ x, x ∈ sorted.map (fun e => (e.id, e.off)) ↔ x ∈ es.map fun e => (e.id, e.off) := fun x => (hperm.map _).mem_iff
    generalize findOffset osz ⟨f, 2, sorted.length⟩ short len = r at hL ⊢
    cases hL with
    | one id x h1 h2 h3 => exact .one id x ((hsub _).mp h1) h2 fun e he => h3 e ((hsub _).mpr he)
    | none h => exact .none fun e he => h e ((hsub _).mpr he)
    | more d e h1 h2 h3 h4 h5 => exact .more d e ((hsub _).mp h1) ((hsub _).mp h2) h3 h4 h5
  · obtain ⟨x, hx, rfl⟩ := List.mem_map.mp he
    exact hoff x ((hmem x).mp hx)
  · rw [← hcnt b hb, UInt32.toNat_ofNat', Nat.mod_eq_of_lt (by have := hle b hb; omega)]

/-! ### examples -/

/-- two ids that agree in their first 5 digits, and one that does not; the last object is beyond 4 GB -/
def exEntries : List Entry :=
  [⟨[0xab, 0xcd, 0xe1, 0, 0, 0, 0, 1], 7, 12⟩, ⟨[0xab, 0xcd, 0xe2, 0, 0, 0, 0, 1], 8, 5000⟩, ⟨[0x12, 0, 0, 0, 0, 0, 0, 9], 9, 5000000000⟩]

def exSorted : List Entry :=
  [⟨[0x12, 0, 0, 0, 0, 0, 0, 9], 9, 5000000000⟩, ⟨[0xab, 0xcd, 0xe1, 0, 0, 0, 0, 1], 7, 12⟩, ⟨[0xab, 0xcd, 0xe2, 0, 0, 0, 0, 1], 8, 5000⟩]

def exIndexer : Indexer := match saveAll exEntries {} with | .ok s => s | _ => {}

/-- the example meets the hypotheses of `C45_written` -/
example : saveAll exEntries {} = .ok exIndexer := rfl
example : (∀ e ∈ exEntries, e.id.length = 8) ∧ (∀ e ∈ exEntries, e.off < 2 ^ 63) ∧ (∃ e ∈ exEntries, e.off < 2 ^ 31) ∧
    exSorted.Perm exIndexer.objects ∧ (exSorted.Pairwise fun a b => a.id ≤ b.id) := by decide +kernel

/-- the written file of the example -/
def exFile : Bytes := writeIdx exIndexer.fanout exSorted (List.replicate 8 5) fun _ => List.replicate 8 6

example : checkIndex 8 exFile = .ok ⟨exFile, 2, 3⟩ := by decide +kernel
example : findOffset 8 ⟨exFile, 2, 3⟩ [0x12, 0, 0, 0, 0, 0, 0, 0] 2 = .ok (5000000000, [0x12, 0, 0, 0, 0, 0, 0, 9]) := by decide +kernel
example : findOffset 8 ⟨exFile, 2, 3⟩ [0xab, 0xcd, 0xe0, 0, 0, 0, 0, 0] 5 = .err (-5) := by decide +kernel
example : findOffset 8 ⟨exFile, 2, 3⟩ [0xab, 0xcd, 0xe2, 0, 0, 0, 0, 0] 6 = .ok (5000, [0xab, 0xcd, 0xe2, 0, 0, 0, 0, 1]) := by decide +kernel
example : findOffset 8 ⟨exFile, 2, 3⟩ [0xab, 0xcd, 0xe3, 0, 0, 0, 0, 0] 6 = .err (-3) := by decide +kernel

/-- the abbreviation has to be filled up with zeros: with anything else behind the five digits, one of the two ids is found as if it were the only one -/
theorem C45_unpadded : findOffset 8 ⟨exFile, 2, 3⟩ [0xab, 0xcd, 0xe1, 0xff, 0, 0, 0, 0] 5 = .ok (5000, [0xab, 0xcd, 0xe2, 0, 0, 0, 0, 1]) := by
  decide +kernel

/-- an index whose fan-out table does not count the ids -/
def exBad : Bytes :=
  writeIdx (fun i => if i < 0x20 then 0 else 2) [⟨[0x12, 0, 0, 0, 0, 0, 0, 9], 9, 12⟩, ⟨[0x13, 0, 0, 0, 0, 0, 0, 9], 9, 40⟩] (List.replicate 8 5) fun _ =>
    List.replicate 8 6

/-- such an index is accepted, and an id that it lists is not found -/
theorem C45_bad_fanout : checkIndex 8 exBad = .ok ⟨exBad, 2, 2⟩ ∧
    foreachEntry 8 ⟨exBad, 2, 2⟩ = .ok [([0x12, 0, 0, 0, 0, 0, 0, 9], 12), ([0x13, 0, 0, 0, 0, 0, 0, 9], 40)] ∧
    findOffset 8 ⟨exBad, 2, 2⟩ [0x13, 0, 0, 0, 0, 0, 0, 9] 16 = .err (-3) := by
  decide +kernel

end Verif.PackIdx
