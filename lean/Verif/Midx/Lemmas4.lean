import Verif.Midx.Lemmas3
/-! # Lemmas: the file of the writer -/
namespace Verif.Midx
open PackIdx (bind_ok_inv bind_ok bind_err ENOTFOUND flatMap_len flatMap_split)
open CommitGraph (sum_perm)
open PackIdx.Spec Spec Verif.B

theorem padTo4_ok (b : Bytes) : ∃ pad, padTo4 b = b ++ pad ∧ pad.length < 4 := ⟨_, rfl, by rw [List.length_replicate]; omega⟩

theorem names_len : ∀ l : List Pack, (∀ p ∈ l, Named p) → (l.flatMap fun p => idxName p ++ [0]).length = (l.map fun p => p.name.length).sum
  | [], _ => rfl
  | p :: l, h => by
    obtain ⟨stem, -, h2, -⟩ := h p (by simp)
    have : (idxName p ++ [0]).length = p.name.length := by
      unfold idxName
      rw [h2]
      simp
    rw [List.flatMap_cons, List.length_append, this, names_len l fun q hq => h q (by simp [hq]), List.map_cons, List.sum_cons]

/-- what `git_midx_writer_dump` does -/
structure Written (osz : Nat) (sum : Bytes → Bytes) (packs ps : List Pack) (f : File) (es : List Entry) : Prop where
  write : write sum packs = .ok f.file
  parse : parse osz f.file = .ok f
  perm : ps.Perm packs
  names : f.names = ps.map idxName
  ids : idTable osz f = es.map (·.id)
  entry : ∀ i (h : i < es.length) id, entryAt f i id = .ok ⟨es[i].pack, es[i].off, id⟩
  fan : FanRight f.file f.fanout (idTable osz f)
  sorted : es.Pairwise fun a b => a.id < b.id
  from_ : ∀ e ∈ es, e ∈ allEntries 0 ps
  all : ∀ e ∈ allEntries 0 ps, ∃ d ∈ es, d.id = e.id

theorem count_mono (l : List Bytes) {i j : Nat} (h : i ≤ j) :
    (l.filter fun id => (id.headD 0).toNat ≤ i).length ≤ (l.filter fun id => (id.headD 0).toNat ≤ j).length := by
  induction l with
  | nil => exact Nat.le_refl _
  | cons x l ih =>
    rw [List.filter_cons, List.filter_cons]
    simp only [decide_eq_true_eq]
    split
    · rw [if_pos (by omega)]
      simp only [List.length_cons]
      omega
    · split
      · simp only [List.length_cons]; omega
      · exact ih

theorem written {osz : Nat} {sum : Bytes → Bytes} {packs : List Pack} (hg : Good osz packs) (h0 : 0 < osz) (h32 : osz ≤ 32) (hsum : ∀ b, (sum b).length = osz) :
    ∃ ps f es, Written osz sum packs ps f es := by
  have hnamed : ∀ p ∈ packs, Named p := hg.names
  -- the number of packs
  have hpl : packs.length ≤ (packs.map fun p => p.name.length).sum := by
    have : ∀ l : List Pack, (∀ p ∈ l, Named p) → l.length ≤ (l.map fun p => p.name.length).sum := by
      intro l
      induction l with
      | nil => intro _; exact Nat.le_refl _
      | cons p l ih =>
        intro h
        obtain ⟨stem, -, h2, -⟩ := h p (by simp)
        have := ih fun q hq => h q (by simp [hq])
        have : 0 < p.name.length := by rw [h2]; simp
        simp only [List.length_cons, List.map_cons, List.sum_cons]
        omega
    exact this packs hnamed
  have hshort := hg.short
  have hfew := hg.few
  obtain ⟨ps, s1, s2⟩ := Sort.C26_sorts packCmp_order packs (by omega)
  have hp : ps.Perm packs := s2.stable.perm
  have hnamed' : ∀ p ∈ ps, Named p := fun p h => hnamed p (hp.mem_iff.mp h)
  -- the names are in order
  have hdist : ps.Pairwise fun p q => p.name ≠ q.name := hp.symm.pairwise hg.distinct (fun h e => h e.symm)
  have hlt : (ps.map idxName).Pairwise (· < ·) := by
    rw [List.pairwise_map]
    have hboth := hdist.and s2.sorted
    rw [List.pairwise_iff_getElem] at hboth ⊢
    intro i j hi hj hij
    obtain ⟨a, b⟩ := hboth i j hi hj hij
    refine named_lt (hnamed' _ (List.getElem_mem hi)) (hnamed' _ (List.getElem_mem hj)) ?_
    exact lt_of_le_of_ne (bcmp_le.mp b) a
  have hnb := nameBytes_ok ps hnamed'
  have hlen_ps : ps.length = packs.length := hp.length_eq
  have hall := allEntries_length 0 ps
  rw [sum_perm (fun p : Pack => p.entries.length) hp] at hall
  obtain ⟨l, t1, t2⟩ := Sort.C26_sorts entryCmp_order (allEntries 0 ps) (by omega)
  have hlp : l.Perm (allEntries 0 ps) := t2.stable.perm
  obtain ⟨u1, u2, u3⟩ := uniq_ok l t2.sorted
  have ulen := (sublist_uniq l).length_le
  rw [hlp.length_eq, hall] at ulen
  generalize hes : uniq l = es at *
  have hfrom : ∀ e ∈ es, e ∈ allEntries 0 ps := fun e h => hlp.mem_iff.mp (u2 e h)
  have hallm : ∀ e ∈ allEntries 0 ps, ∃ d ∈ es, d.id = e.id := fun e h => u3 e (hlp.mem_iff.mpr h)
  have hsz : ∀ e ∈ es, e.id.length = osz ∧ e.off < 2 ^ 63 ∧ e.pack < ps.length := by
    intro e he
    obtain ⟨k, hk, e1, e2⟩ := (mem_allEntries 0 ps e).mp (hfrom e he)
    obtain ⟨a, b⟩ := hg.entries _ (hp.mem_iff.mp (List.getElem_mem hk)) _ e2
    exact ⟨a, b, by omega⟩
  have hne : 0 < es.length := by
    obtain ⟨p, hpm, hpe⟩ := hg.some
    obtain ⟨x, hx⟩ := List.exists_mem_of_ne_nil _ hpe
    obtain ⟨k, hk, hkp⟩ := List.getElem_of_mem (hp.mem_iff.mpr hpm)
    obtain ⟨d, hd, -⟩ := hallm ⟨k, x.2, x.1⟩ ((mem_allEntries 0 ps _).mpr ⟨k, hk, by simp, by rw [hkp]; exact hx⟩)
    exact List.length_pos_iff.mpr fun h => by rw [h] at hd; exact absurd hd List.not_mem_nil
  have hget := fanTable_get (es := es) (osz := osz) (fun e he => (hsz e he).1) u1
  obtain ⟨d1, d2, d3⟩ := offsetLoop_split es 0
  have hnl := names_len ps hnamed'
  rw [sum_perm (fun p : Pack => p.name.length) hp] at hnl
  have hfm : (ps.flatMap fun p => idxName p ++ [0]) = (ps.map idxName).flatMap fun x => x ++ [0] := by rw [List.flatMap_map]
  have hpos : 0 < (ps.map fun p => p.name.length).sum := by
    rw [sum_perm (fun p : Pack => p.name.length) hp]
    obtain ⟨p, hpm, -⟩ := hg.some
    have := List.length_pos_of_mem hpm
    omega
  rw [sum_perm (fun p : Pack => p.name.length) hp] at hpos
  have hlarge : (es.filter fun e => e.off ≥ 2 ^ 31).length ≤ es.length := List.length_filter_le _ _
  generalize hD : offsetLoop es 0 = D at *
  obtain ⟨offs, large⟩ := D
  dsimp only at *
  obtain ⟨pad, hpad, hpadl⟩ := padTo4_ok (ps.flatMap fun p => idxName p ++ [0])
  have ht : Tables osz es.length (ps.map idxName) (padTo4 (ps.flatMap fun p => idxName p ++ [0])) (fanTable 256 es 0) (es.flatMap (·.id)) offs large := by
    refine ⟨?_, ?_, by rw [List.length_map]; omega, fanTable_len es, fun i j hi hj hij => ?_, fun h => ?_, ⟨hne, by omega⟩, ?_, d1, by omega, by omega⟩
    · rw [hpad, hfm]
      exact nameLoop_of _ pad none (fun x hx => by
        obtain ⟨p, hpm, rfl⟩ := List.mem_map.mp hx
        exact named_idx (hnamed' p hpm)) hlt
    · rw [hpad, List.length_append, hnl]
      omega
    · rw [hget i hi, hget j hj]
      exact count_mono _ hij
    · rw [hget 255 h, List.filter_eq_self.mpr]
      · simp
      · intro c _
        rw [decide_eq_true_eq]
        have := (c.headD 0).toNat_lt
        omega
    · exact flatMap_len fun e he => (hsz e he).1
  obtain ⟨pre, p1, p2, p3⟩ := parse_written (s := sum (body (ps.map idxName).length (padTo4 (ps.flatMap fun p => idxName p ++ [0])) (fanTable 256 es 0) (es.flatMap (·.id)) offs large)) ht h0 h32 (hsum _)
  have hcnt : (ps.map idxName).length = packs.length := by rw [List.length_map, hlen_ps]
  rw [hcnt] at p2 p3
  generalize hnm : padTo4 (ps.flatMap fun p => idxName p ++ [0]) = names at *
  generalize hb : body packs.length names (fanTable 256 es 0) (es.flatMap (·.id)) offs large = bd at *
  generalize hsm : sum bd = s at *
  generalize hE : (if large.length > 0 then start large + names.length + 1024 + es.length * osz + es.length * 8 else 0) = E at *
  have hfl : ((fanTable 256 es 0).flatMap word).length = 1024 := by rw [fan_bytes, ht.fanLen]
  have hil : (es.flatMap (·.id)).length = es.length * osz := ht.lookupLen
  have hids : idTable osz ⟨bd ++ s, ps.map idxName, start large + names.length, es.length, start large + names.length + 1024, start large + names.length + 1024 + es.length * osz, E, large.length / 8, s⟩ =
      es.map (·.id) := by
    apply List.ext_getElem
    · rw [idTable_length, List.length_map]
    · intro i h1 h2
      rw [List.length_map] at h2
      rw [List.getElem_map]
      simp only [idTable, List.getElem_map, List.getElem_range]
      obtain ⟨a, b, e1, e2⟩ := flatMap_split (g := fun e : Entry => e.id) (w := osz) (xs := es) (fun e he => (hsz e he).1) h2
      have hz := (hsz _ (List.getElem_mem h2)).1
      rw [p2, e1, show start large + names.length + 1024 + i * osz = (pre ++ names ++ (fanTable 256 es 0).flatMap word ++ a).length by
        simp only [List.length_append, p1, hfl, e2]]
      rw [show pre ++ names ++ (fanTable 256 es 0).flatMap word ++ (a ++ es[i].id ++ b) ++ offs ++ large ++ s =
        (pre ++ names ++ (fanTable 256 es 0).flatMap word ++ a) ++ (es[i].id ++ (b ++ offs ++ large ++ s)) by simp only [List.append_assoc], List.drop_left, ← hz, List.take_left]
  refine ⟨ps, _, es, ⟨?_, p3, hp, rfl, hids, fun i hi id => ?_, ?_, u1, hfrom, hallm⟩⟩
  · unfold Midx.write
    rw [s1, bind_ok, hnb, bind_ok, t1, bind_ok]
    dsimp only
    rw [hes, hD, hnm, hb, hsm]
  · obtain ⟨a, b, w, e1, e2, e3⟩ := d3 i hi
    obtain ⟨z1, z2, z3⟩ := hsz _ (List.getElem_mem hi)
    have hw : w < 2 ^ 32 := by rcases e3 with ⟨_, e3⟩ | ⟨_, k, _, _, e4, -, -⟩ <;> omega
    obtain ⟨v1, q1, q2⟩ := rd32_word (f := bd ++ s) (pre := pre ++ names ++ (fanTable 256 es 0).flatMap word ++ es.flatMap (·.id) ++ a ++ word es[i].pack) (post := b ++ large ++ s) (n := w)
      (pos := start large + names.length + 1024 + es.length * osz + i * 8 + 4) (by rw [p2, e1]; simp only [List.append_assoc])
      (by simp only [List.length_append, p1, hfl, hil, e2, word_len]) hw
    obtain ⟨v2, q3, q4⟩ := rd32_word (f := bd ++ s) (pre := pre ++ names ++ (fanTable 256 es 0).flatMap word ++ es.flatMap (·.id) ++ a) (post := word w ++ b ++ large ++ s) (n := es[i].pack)
      (pos := start large + names.length + 1024 + es.length * osz + i * 8) (by rw [p2, e1]; simp only [List.append_assoc])
      (by simp only [List.length_append, p1, hfl, hil, e2]) (by omega)
    unfold entryAt
    dsimp only
    rw [q1, bind_ok, q2]
    have hend : ∀ o : Nat, (rd32 (bd ++ s) (start large + names.length + 1024 + es.length * osz + i * 8) >>= fun pack =>
        if pack.toNat ≥ (ps.map idxName).length then Res.err (-1) else .ok (⟨pack.toNat, o, id⟩ : Entry)) = .ok ⟨es[i].pack, o, id⟩ := by
      intro o
      rw [q3, bind_ok, q4, if_neg (by rw [List.length_map]; omega)]
    rcases e3 with ⟨e3, rfl⟩ | ⟨e3, k, a', b', e4, e5, e6⟩
    · rw [if_neg (by omega), bind_ok]
      exact hend _
    · have hll : large.length = a'.length + 8 + b'.length := by rw [e5]; simp only [List.length_append, offset64_len]
      rw [if_pos ⟨by omega, by omega⟩, show w % 2 ^ 31 = k by omega, if_neg (by omega)]
      rw [if_pos (by omega)] at hE
      unfold offset64 at e5
      obtain ⟨v3, q5, q6⟩ := rd32_word (f := bd ++ s) (pre := pre ++ names ++ (fanTable 256 es 0).flatMap word ++ es.flatMap (·.id) ++ offs ++ a')
        (post := word (es[i].off % 2 ^ 32) ++ b' ++ s) (n := es[i].off / 2 ^ 32) (pos := E + 8 * k % 2 ^ 32) (by rw [p2, e5]; simp only [List.append_assoc])
        (by simp only [List.length_append, p1, hfl, hil, d1]; omega) (by omega)
      obtain ⟨v4, q7, q8⟩ := rd32_word (f := bd ++ s) (pre := pre ++ names ++ (fanTable 256 es 0).flatMap word ++ es.flatMap (·.id) ++ offs ++ a' ++ word (es[i].off / 2 ^ 32))
        (post := b' ++ s) (n := es[i].off % 2 ^ 32) (pos := E + 8 * k % 2 ^ 32 + 4) (by rw [p2, e5]; simp only [List.append_assoc])
        (by simp only [List.length_append, p1, hfl, hil, d1, word_len]; omega) (by omega)
      rw [q5, bind_ok, q7, bind_ok, bind_ok, q6, q8, show es[i].off / 2 ^ 32 * 2 ^ 32 + es[i].off % 2 ^ 32 = es[i].off by omega]
      exact hend _
  · rw [hids]
    intro b hb256
    dsimp only
    have hb2 : b < (fanTable 256 es 0).length := by rw [ht.fanLen]; exact hb256
    obtain ⟨v, q1, q2⟩ := fan_read (file := bd ++ s) (pre := pre ++ names) (post := es.flatMap (·.id) ++ offs ++ large ++ s) (by rw [p2]; simp only [List.append_assoc]) ht.fanLt b hb2
    rw [List.length_append, p1] at q1
    exact ⟨v, q1, by rw [q2, hget b hb2]⟩

end Verif.Midx
