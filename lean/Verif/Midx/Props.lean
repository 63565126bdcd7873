import Verif.Midx.Lemmas4
import Verif.CommitGraph.Props
/-! # C63, C64: multi-pack-index files -/
namespace Verif.Midx
open PackIdx (bind_ok_inv bind_ok bind_err ENOTFOUND EAMBIGUOUS)
open CommitGraph (blt_ne)
open PackIdx.Spec Spec Verif.B

/-! ## C63: reading a file from anywhere -/

/-- C63: whatever the contents of the file are, neither opening it nor looking up objects by (abbreviated) id nor listing them reads outside the file. -/
theorem C63_safe (osz : Nat) (h0 : 0 < osz) (file : Bytes) :
    parse osz file ≠ .ub ∧ ∀ f, parse osz file = .ok f → (∀ short len, short.length = osz → entryFind osz f short len ≠ .ub) ∧ foreachEntry osz f = .ok (idTable osz f) := by
  obtain ⟨h1, h2⟩ := parse_spec (osz := osz) (file := file)
  refine ⟨h1, fun f hf => ?_⟩
  obtain ⟨-, ha, -⟩ := h2 f hf
  refine ⟨fun short len hs => (entryFind_ok ha h0 hs len).1, ?_⟩
  unfold foreachEntry
  rw [foreachLoop_ok ha _ (Nat.le_refl _), Nat.sub_self, List.drop_zero]

/-- C63: the names of an accepted file are distinct names of ".idx" files in the directory itself (they have no slashes), and an object that is found has an id
of the table and a pack with such a name. -/
theorem C63_names (osz : Nat) (h0 : 0 < osz) (file : Bytes) (f : File) (h : parse osz file = .ok f) :
    (∀ x ∈ f.names, LocalIdx x) ∧ f.names.Nodup ∧
    ∀ short len e, short.length = osz → entryFind osz f short len = .ok e → e.id ∈ idTable osz f ∧ ∃ x, f.names[e.pack]? = some x ∧ LocalIdx x := by
  obtain ⟨-, ha, -⟩ := (parse_spec (osz := osz) (file := file)).2 f h
  refine ⟨ha.names.1, ha.names.2.imp fun h => blt_ne h, fun short len e hs he => ?_⟩
  obtain ⟨g1, g2⟩ := (entryFind_ok ha h0 hs len).2 e he
  exact ⟨g1, f.names[e.pack], List.getElem?_eq_getElem g2, ha.names.1 _ (List.getElem_mem g2)⟩

/-- C63: in an accepted file whose ids are in order and whose fan-out table counts them, a lookup finds the only object with that prefix, and says whether there
is none or more than one. (The entry that is found may still be refused if its pack or its large offset is not there.) -/
theorem C63_find (osz : Nat) (h0 : 0 < osz) (file : Bytes) (f : File) (h : parse osz file = .ok f) (hsorted : (idTable osz f).Pairwise (· < ·))
    (hfan : FanRight file f.fanout (idTable osz f)) (short : Bytes) (len : Nat) (hs : short.length = osz) (hp : Padded len short) :
    (∃ id ∈ idTable osz f, SamePrefix len short id ∧ (∀ x ∈ idTable osz f, SamePrefix len short x → x = id) ∧ ∀ e, entryFind osz f short len = .ok e → e.id = id) ∨
    (entryFind osz f short len = .err (-3) ∧ ∀ id ∈ idTable osz f, ¬ SamePrefix len short id) ∨
    (entryFind osz f short len = .err (-5) ∧ ∃ a ∈ idTable osz f, ∃ b ∈ idTable osz f, a ≠ b ∧ SamePrefix len short a ∧ SamePrefix len short b) := by
  obtain ⟨hf, ha, -⟩ := (parse_spec (osz := osz) (file := file)).2 f h
  rw [← hf] at hfan
  have hpw := List.pairwise_iff_getElem.mp hsorted
  rcases entryFind_right ha h0 hsorted hfan hs hp with ⟨i, hi, g1, g2, g3⟩ | ⟨g1, g2⟩ | ⟨g1, i, j, hi, hj, hij, g2, g3⟩
  · refine .inl ⟨_, List.getElem_mem hi, g2, fun id hid hpre => ?_, fun e he => ?_⟩
    · obtain ⟨j, hj, rfl⟩ := List.getElem_of_mem hid
      have := g3 j hj hpre
      subst this
      rfl
    · rw [g1] at he
      exact ((entryAt_ok ha i (by rw [← idTable_length osz f]; exact hi) _).2 e he).1
  · exact .inr (.inl ⟨g1, g2⟩)
  · exact .inr (.inr ⟨g1, _, List.getElem_mem hi, _, List.getElem_mem hj, blt_ne (hpw i j hi hj hij), g2, g3⟩)

/-- C63: an open file is kept only while the file on the disk has the same length and the same checksum at its end. -/
theorem C63_refresh (osz : Nat) (file now : Bytes) (f : File) (h : parse osz file = .ok f) (hn : needsRefresh osz f now = false) :
    now.length = file.length ∧ now.drop (now.length - osz) = file.drop (file.length - osz) := by
  obtain ⟨h1, -, -, h4⟩ := (parse_spec (osz := osz) (file := file)).2 f h
  unfold needsRefresh at hn
  rw [h1, h4] at hn
  simpa using hn

/-! ## C64: what is written can be read -/

theorem points_of {osz : Nat} {sum : Bytes → Bytes} {packs ps : List Pack} {f : File} {es : List Entry} (w : Written osz sum packs ps f es) {e : Entry} (he : e ∈ es) :
    Points f packs e := by
  obtain ⟨k, hk, h1, h2⟩ := (mem_allEntries 0 ps e).mp (w.from_ e he)
  refine ⟨ps[k], w.perm.mem_iff.mp (List.getElem_mem hk), h2, ?_⟩
  rw [w.names, show e.pack = k by omega, List.getElem?_map, List.getElem?_eq_getElem hk]
  rfl

theorem all_ids {osz : Nat} {sum : Bytes → Bytes} {packs ps : List Pack} {f : File} {es : List Entry} (w : Written osz sum packs ps f es) (id : Bytes) :
    id ∈ es.map (·.id) ↔ ∃ p ∈ packs, ∃ x ∈ p.entries, x.1 = id := by
  constructor
  · intro h
    obtain ⟨e, he, rfl⟩ := List.mem_map.mp h
    obtain ⟨p, h1, h2, -⟩ := points_of w he
    exact ⟨p, h1, _, h2, rfl⟩
  · rintro ⟨p, h1, x, h2, rfl⟩
    obtain ⟨k, hk, hkp⟩ := List.getElem_of_mem (w.perm.mem_iff.mpr h1)
    obtain ⟨d, hd, h3⟩ := w.all ⟨k, x.2, x.1⟩ ((mem_allEntries 0 ps _).mpr ⟨k, hk, by simp, by rw [hkp]; exact h2⟩)
    exact List.mem_map.mpr ⟨d, hd, h3⟩

/-- C64: the file of the writer is accepted, it names the indexes of exactly the packs, it lists every object once, and looking up any abbreviated id in it finds
the only object with that prefix, with a pack that has the object, and where, or says rightly that there is none or more than one. -/
theorem C64_written (osz : Nat) (h0 : 0 < osz) (h32 : osz ≤ 32) (sum : Bytes → Bytes) (hsum : ∀ b, (sum b).length = osz) (packs : List Pack) (hg : Good osz packs) :
    ∃ file f ids, write sum packs = .ok file ∧ parse osz file = .ok f ∧ f.names.Perm (packs.map idxName) ∧
      foreachEntry osz f = .ok ids ∧ ids.Nodup ∧ (∀ id, id ∈ ids ↔ ∃ p ∈ packs, ∃ x ∈ p.entries, x.1 = id) ∧
      ∀ short len, short.length = osz → Padded len short →
        (∃ e, entryFind osz f short len = .ok e ∧ Points f packs e ∧ SamePrefix len short e.id ∧
          ∀ p ∈ packs, ∀ x ∈ p.entries, SamePrefix len short x.1 → x.1 = e.id) ∨
        ((∀ p ∈ packs, ∀ x ∈ p.entries, ¬ SamePrefix len short x.1) ∧ entryFind osz f short len = .err (-3)) ∨
        ((∃ p ∈ packs, ∃ q ∈ packs, ∃ x ∈ p.entries, ∃ y ∈ q.entries, x.1 ≠ y.1 ∧ SamePrefix len short x.1 ∧ SamePrefix len short y.1) ∧
          entryFind osz f short len = .err (-5)) := by
  obtain ⟨ps, f, es, w⟩ := written hg h0 h32 hsum
  obtain ⟨-, ha, -⟩ := (parse_spec (osz := osz) (file := f.file)).2 f w.parse
  have hsorted : (idTable osz f).Pairwise (· < ·) := by rw [w.ids, List.pairwise_map]; exact w.sorted
  have hmem := all_ids w
  refine ⟨f.file, f, idTable osz f, w.write, w.parse, ?_, ?_, hsorted.imp fun h => blt_ne h, fun id => by rw [w.ids]; exact hmem id, fun short len hs hp => ?_⟩
  · rw [w.names]
    exact w.perm.map _
  · unfold foreachEntry
    rw [foreachLoop_ok ha _ (Nat.le_refl _), Nat.sub_self, List.drop_zero]
  have hlen : ∀ i, i < (idTable osz f).length → i < es.length := fun i h => by rw [w.ids, List.length_map] at h; exact h
  have hget : ∀ i (h : i < (idTable osz f).length), (idTable osz f)[i] = (es[i]'(hlen i h)).id := fun i h => by simp [w.ids]
  have hpw := List.pairwise_iff_getElem.mp w.sorted
  rcases entryFind_right ha h0 hsorted w.fan hs hp with ⟨i, hi, g1, g2, g3⟩ | ⟨g1, g2⟩ | ⟨g1, i, j, hi, hj, hij, g2, g3⟩
  · refine .inl ⟨es[i]'(hlen i hi), ?_, points_of w (List.getElem_mem _), by rw [← hget i hi]; exact g2, fun p hpm x hx hpre => ?_⟩
    · rw [g1, w.entry i (hlen i hi), hget i hi]
    · have : x.1 ∈ idTable osz f := by rw [w.ids]; exact (hmem _).mpr ⟨p, hpm, x, hx, rfl⟩
      obtain ⟨j, hj, hjx⟩ := List.getElem_of_mem this
      have := g3 j hj (by rw [hjx]; exact hpre)
      subst this
      rw [← hjx]
      exact hget j hj
  · refine .inr (.inl ⟨fun p hpm x hx => ?_, g1⟩)
    exact g2 _ (by rw [w.ids]; exact (hmem _).mpr ⟨p, hpm, x, hx, rfl⟩)
  · obtain ⟨p, hp1, x, hx, ex⟩ := (hmem (es[i]'(hlen i hi)).id).mp (List.mem_map.mpr ⟨_, List.getElem_mem (hlen i hi), rfl⟩)
    obtain ⟨q, hq1, y, hy, ey⟩ := (hmem (es[j]'(hlen j hj)).id).mp (List.mem_map.mpr ⟨_, List.getElem_mem (hlen j hj), rfl⟩)
    refine .inr (.inr ⟨⟨p, hp1, q, hq1, x, hx, y, hy, ?_, ?_, ?_⟩, g1⟩)
    · rw [ex, ey]
      exact blt_ne (hpw i j (hlen i hi) (hlen j hj) hij)
    · rw [ex, ← hget i hi]; exact g2
    · rw [ey, ← hget j hj]; exact g3

/-- C64: an object that is in some pack is found by its full id. -/
theorem C64_every (osz : Nat) (h0 : 0 < osz) (h32 : osz ≤ 32) (sum : Bytes → Bytes) (hsum : ∀ b, (sum b).length = osz) (packs : List Pack) (hg : Good osz packs) :
    ∃ file f, write sum packs = .ok file ∧ parse osz file = .ok f ∧
      ∀ p ∈ packs, ∀ x ∈ p.entries, ∃ e, entryFind osz f x.1 (2 * osz) = .ok e ∧ e.id = x.1 ∧ Points f packs e := by
  obtain ⟨file, f, ids, h1, h2, -, -, -, -, h7⟩ := C64_written osz h0 h32 sum hsum packs hg
  refine ⟨file, f, h1, h2, fun p hp x hx => ?_⟩
  have hxl := (hg.entries p hp x hx).1
  rcases h7 x.1 (2 * osz) hxl (CommitGraph.full_padded hxl) with ⟨e, e1, e2, -, e4⟩ | ⟨g1, -⟩ | ⟨⟨p', hp', q', hq', y, hy, z, hz, hne, g1, g2⟩, -⟩
  · exact ⟨e, e1, (e4 p hp x hx rfl).symm, e2⟩
  · exact absurd rfl (g1 p hp x hx)
  · have a := (CommitGraph.same_full hxl (hg.entries _ hp' _ hy).1).mp g1
    have b := (CommitGraph.same_full hxl (hg.entries _ hq' _ hz).1).mp g2
    exact absurd (a.symm.trans b) hne

/-! ### examples -/

def exSum := CommitGraph.exSum
def exFile (l : List Pack) : Bytes := match write exSum l with | .ok b => b | _ => []
def exMidx (l : List Pack) : File := match parse 4 (exFile l) with | .ok f => f | _ => ⟨[], [], 0, 0, 0, 0, 0, 0, []⟩

/-- an object is in both packs, another is far into its pack -/
def exPacks : List Pack :=
  [⟨b!"b.pack", [([0x10, 0, 0, 1], 12), ([0x10, 0, 0, 2], 2 ^ 33 + 7), ([0x80, 0, 0, 1], 99)]⟩, ⟨b!"a.pack", [([0x20, 0, 0, 1], 40), ([0x10, 0, 0, 1], 77)]⟩]

theorem exPacks_good : Good 4 exPacks := by
  refine ⟨fun p hp => ?_, by decide +kernel, by decide +kernel, ⟨_, by simp [exPacks]; exact .inl rfl, by simp⟩, by decide +kernel, by decide +kernel⟩
  rcases List.mem_cons.mp hp with rfl | hp
  · exact ⟨b!"b", by decide +kernel, rfl, by decide +kernel⟩
  · rcases List.mem_cons.mp hp with rfl | hp
    · exact ⟨b!"a", by decide +kernel, rfl, by decide +kernel⟩
    · exact absurd hp List.not_mem_nil

example : parse 4 (exFile exPacks) = .ok (exMidx exPacks) ∧ (exMidx exPacks).names = [b!"a.idx", b!"b.idx"] ∧ (exMidx exPacks).num = 4 ∧ (exMidx exPacks).numLarge = 1 := by decide +kernel
example : entryFind 4 (exMidx exPacks) [0x10, 0, 0, 2] 8 = .ok ⟨1, 2 ^ 33 + 7, [0x10, 0, 0, 2]⟩ ∧ entryFind 4 (exMidx exPacks) [0x80, 0, 0, 0] 1 = .ok ⟨1, 99, [0x80, 0, 0, 1]⟩ ∧
    entryFind 4 (exMidx exPacks) [0x20, 0, 0, 0] 2 = .ok ⟨0, 40, [0x20, 0, 0, 1]⟩ := by decide +kernel
example : entryFind 4 (exMidx exPacks) [0x10, 0, 0, 0] 7 = .err (-5) ∧ entryFind 4 (exMidx exPacks) [0x11, 0, 0, 0] 2 = .err (-3) := by decide +kernel
example : foreachEntry 4 (exMidx exPacks) = .ok [[0x10, 0, 0, 1], [0x10, 0, 0, 2], [0x20, 0, 0, 1], [0x80, 0, 0, 1]] := by decide +kernel
example : needsRefresh 4 (exMidx exPacks) (exFile exPacks) = false ∧ needsRefresh 4 (exMidx exPacks) (exFile exPacks ++ [0]) = true := by decide +kernel
example : FanRight (exFile exPacks) (exMidx exPacks).fanout (idTable 4 (exMidx exPacks)) ∧ (idTable 4 (exMidx exPacks)).Pairwise (· < ·) := by
  refine ⟨?_, by decide +kernel⟩
  obtain ⟨ps, f, es, w⟩ := written (sum := exSum) exPacks_good (by decide) (by decide) CommitGraph.exSum_len
  have e1 : f.file = exFile exPacks := by unfold exFile; rw [w.write]
  have e2 : f = exMidx exPacks := by unfold exMidx; rw [← e1, w.parse]
  rw [← e1, ← e2]
  exact w.fan

/-- Why the stems must be without dots: the writer sorts the names of the packs, and the reader wants the names of the indexes in order. -/
theorem C64_dots : write exSum [⟨b!"a.pack", [([1, 0, 0, 1], 12)]⟩, ⟨b!"a.m.pack", [([2, 0, 0, 1], 12)]⟩] =
      .ok (exFile [⟨b!"a.pack", [([1, 0, 0, 1], 12)]⟩, ⟨b!"a.m.pack", [([2, 0, 0, 1], 12)]⟩]) ∧
    parse 4 (exFile [⟨b!"a.pack", [([1, 0, 0, 1], 12)]⟩, ⟨b!"a.m.pack", [([2, 0, 0, 1], 12)]⟩]) = .err (-1) := by decide +kernel

/-- Why the names must be distinct and without slashes, and why there must be an object: these files are written, and refused. -/
theorem C64_refused : ∀ packs ∈ ([[⟨b!"a.pack", [([1, 0, 0, 1], 12)]⟩, ⟨b!"a.pack", [([1, 0, 0, 1], 12)]⟩], [⟨b!"d/a.pack", [([1, 0, 0, 1], 12)]⟩],
      [⟨b!"a.pack", []⟩], []] : List (List Pack)),
    write exSum packs = .ok (exFile packs) ∧ parse 4 (exFile packs) = .err (-1) := by decide +kernel

/-- What is not verified when a file is read: the checksum, ... -/
theorem C63_unchecked : parse 4 ((exFile exPacks).dropLast ++ [(exFile exPacks).getLastD 0 + 1]) =
    .ok { exMidx exPacks with file := (exFile exPacks).dropLast ++ [(exFile exPacks).getLastD 0 + 1],
                              checksum := (exMidx exPacks).checksum.dropLast ++ [(exFile exPacks).getLastD 0 + 1] } := by decide +kernel

end Verif.Midx
