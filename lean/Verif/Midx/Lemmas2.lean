import Verif.Midx.Lemmas1
import Verif.CommitGraph.Lemmas10
/-! # Lemmas: the tables of a written multi-pack-index -/
namespace Verif.Midx
open PackIdx (bind_ok_inv bind_ok bind_err ENOTFOUND flatMap_len flatMap_split head_mono)
open CommitGraph (sum_sublist sum_perm)
open PackIdx.Spec Spec Verif.B

/-! ### the names -/

/-- without dots, the order of the packs is that of the indexes -/
theorem stem_lt : ∀ s t : Bytes, (∀ c ∈ s, c ≠ c!".") → (∀ c ∈ t, c ≠ c!".") → s ++ b!".pack" < t ++ b!".pack" → s ++ b!".idx" < t ++ b!".idx"
  | [], [], _, _, h => absurd h (by decide)
  | [], c :: t, _, ht, h => by
    have hc := ht c (by simp)
    have h1 : (c!"." :: b!"pack" : Bytes) < c :: (t ++ b!".pack") := h
    change (c!"." :: b!"idx" : Bytes) < c :: (t ++ b!".idx")
    rw [List.cons_lt_cons_iff] at h1 ⊢
    rcases h1 with h1 | ⟨h1, -⟩
    · exact .inl h1
    · exact absurd h1.symm hc
  | c :: s, [], hs, _, h => by
    have hc := hs c (by simp)
    have h1 : c :: (s ++ b!".pack") < (c!"." :: b!"pack" : Bytes) := h
    change c :: (s ++ b!".idx") < (c!"." :: b!"idx" : Bytes)
    rw [List.cons_lt_cons_iff] at h1 ⊢
    rcases h1 with h1 | ⟨h1, -⟩
    · exact .inl h1
    · exact absurd h1 hc
  | c :: s, d :: t, hs, ht, h => by
    have h1 : c :: (s ++ b!".pack") < d :: (t ++ b!".pack") := h
    change c :: (s ++ b!".idx") < d :: (t ++ b!".idx")
    rw [List.cons_lt_cons_iff] at h1 ⊢
    rcases h1 with h1 | ⟨h1, h2⟩
    · exact .inl h1
    · exact .inr ⟨h1, stem_lt s t (fun c hc => hs c (by simp [hc])) (fun c hc => ht c (by simp [hc])) h2⟩

/-- the name of a pack -/
def Named (p : Pack) : Prop := ∃ stem, stem ≠ [] ∧ p.name = stem ++ b!".pack" ∧ ∀ c ∈ stem, c ≠ 0 ∧ c ≠ c!"/" ∧ c ≠ 92 ∧ c ≠ c!"."

theorem named_idx {p : Pack} (h : Named p) : LocalIdx (idxName p) := by
  obtain ⟨stem, h1, h2, h3⟩ := h
  have : idxName p = stem ++ b!".idx" := by
    unfold idxName
    rw [h2, List.length_append, show stem.length + (b!".pack" : Bytes).length - 5 = stem.length by simp, List.take_left]
  rw [this]
  refine ⟨⟨stem, h1, rfl⟩, fun c hc => ?_⟩
  rcases List.mem_append.mp hc with hc | hc
  · obtain ⟨a, b, d, -⟩ := h3 c hc
    exact ⟨a, b, d⟩
  · have hd : ∀ c ∈ (b!".idx" : Bytes), c ≠ 0 ∧ c ≠ c!"/" ∧ c ≠ 92 := by decide +kernel
    exact hd c hc

theorem named_lt {p q : Pack} (hp : Named p) (hq : Named q) (h : p.name < q.name) : idxName p < idxName q := by
  have key : ∀ {p : Pack} {stem : Bytes}, p.name = stem ++ b!".pack" → idxName p = stem ++ b!".idx" := by
    intro p stem h2
    unfold idxName
    rw [h2, List.length_append, show stem.length + (b!".pack" : Bytes).length - 5 = stem.length by simp, List.take_left]
  obtain ⟨s, -, h2, h3⟩ := hp
  obtain ⟨t, -, h5, h6⟩ := hq
  rw [key h2, key h5]
  rw [h2, h5] at h
  exact stem_lt s t (fun c hc => (h3 c hc).2.2.2) (fun c hc => (h6 c hc).2.2.2) h

theorem nameBytes_ok : ∀ ps : List Pack, (∀ p ∈ ps, Named p) → nameBytes ps = .ok (ps.flatMap fun p => idxName p ++ [0])
  | [], _ => rfl
  | p :: ps, h => by
    obtain ⟨stem, h1, h2, h3⟩ := h p (by simp)
    have hl : (b!".pack" : Bytes).length = 5 := rfl
    have h0 : 0 < stem.length := List.length_pos_iff.mpr h1
    rw [nameBytes, if_neg, nameBytes_ok ps fun q hq => h q (by simp [hq]), bind_ok, List.flatMap_cons]
    · rfl
    · rw [suffixed_iff.mpr ⟨stem, h2⟩, h2]
      simp
      omega

theorem takeWhile_name {x : Bytes} (hx : ∀ c ∈ x, c ≠ 0) (rest : Bytes) : (x ++ 0 :: rest).takeWhile (fun c => decide (c ≠ 0)) = x := by
  induction x with
  | nil => rfl
  | cons c x ih =>
    rw [List.cons_append, List.takeWhile_cons, if_pos (by simpa using hx c (by simp)), ih fun d hd => hx d (by simp [hd])]

theorem nameLoop_of : ∀ (l : List Bytes) (pad : Bytes) (prev : Option Bytes), (∀ x ∈ l, LocalIdx x) → (prev.toList ++ l).Pairwise (· < ·) →
    nameLoop l.length ((l.flatMap fun x => x ++ [0]) ++ pad) prev = .ok l
  | [], _, _, _, _ => rfl
  | x :: l, pad, prev, hl, hs => by
    obtain ⟨⟨stem, h1, h2⟩, h3⟩ := hl x (by simp)
    have h0 : 0 < stem.length := List.length_pos_iff.mpr h1
    have hlen : x.length = stem.length + 4 := by rw [h2, List.length_append]; rfl
    have hrest : (((x :: l).flatMap fun x => x ++ [0]) ++ pad) = x ++ 0 :: ((l.flatMap fun x => x ++ [0]) ++ pad) := by simp
    have hlt : ∀ p, prev = some p → bcmp p x < 0 := by
      intro p hp
      subst hp
      rw [Option.toList, List.singleton_append, List.pairwise_cons] at hs
      exact bcmp_lt.mpr (hs.1 x (by simp))
    have hs' : ((some x).toList ++ l).Pairwise (· < ·) := by
      rw [Option.toList, List.singleton_append]
      cases prev with
      | none => exact hs
      | some p =>
        rw [Option.toList, List.singleton_append, List.pairwise_cons] at hs
        exact hs.2
    rw [hrest, List.length_cons, nameLoop, takeWhile_name fun c hc => (h3 c hc).1]
    rw [if_neg (by omega), if_neg (by simp), if_neg, if_neg, if_neg]
    · rw [show x.length + 1 = (x ++ [0]).length by simp, show x ++ 0 :: ((l.flatMap fun x => x ++ [0]) ++ pad) = (x ++ [0]) ++ ((l.flatMap fun x => x ++ [0]) ++ pad) by simp,
        List.drop_left, nameLoop_of l pad (some x) (fun y hy => hl y (by simp [hy])) hs', bind_ok]
    · simp only [Bool.or_eq_true, not_or, List.contains_iff_mem]
      exact ⟨fun h => (h3 _ h).2.1 rfl, fun h => (h3 _ h).2.2 rfl⟩
    · rw [suffixed_iff.mpr ⟨stem, h2⟩]
      simp
      omega
    · cases prev with
      | none => simp [notAfter]
      | some p =>
        have := hlt p rfl
        simp [notAfter]
        omega

/-! ### the objects -/

theorem mem_allEntries : ∀ (i : Nat) (ps : List Pack) (e : Entry), e ∈ allEntries i ps ↔ ∃ k, ∃ h : k < ps.length, e.pack = i + k ∧ (e.id, e.off) ∈ ps[k].entries
  | i, [], e => by simp [allEntries]
  | i, p :: ps, e => by
    rw [allEntries, List.mem_append, mem_allEntries (i + 1) ps e, List.mem_map]
    constructor
    · rintro (⟨⟨a, b⟩, h1, rfl⟩ | ⟨k, h, h1, h2⟩)
      · exact ⟨0, by simp, rfl, h1⟩
      · exact ⟨k + 1, by simpa using h, by omega, h2⟩
    · rintro ⟨k, h, h1, h2⟩
      cases k with
      | zero => exact .inl ⟨(e.id, e.off), h2, by cases e; simp at h1 ⊢; exact h1.symm⟩
      | succ k => exact .inr ⟨k, by simpa using h, by omega, h2⟩

theorem allEntries_length : ∀ (i : Nat) (ps : List Pack), (allEntries i ps).length = (ps.map fun p => p.entries.length).sum
  | _, [] => rfl
  | i, p :: ps => by rw [allEntries, List.length_append, allEntries_length]; simp

theorem entryCmp_order : Sort.Spec.TotalPreorder entryCmp :=
  ⟨fun a b => by unfold entryCmp; rw [bcmp_neg a.id b.id]; omega, fun _ _ _ => bcmp_trans⟩

theorem packCmp_order : Sort.Spec.TotalPreorder packCmp :=
  ⟨fun a b => by unfold packCmp; rw [bcmp_neg a.name b.name]; omega, fun _ _ _ => bcmp_trans⟩

theorem uniq_ok : ∀ l : List Entry, Sort.Spec.Sorted entryCmp l → (uniq l).Pairwise (fun a b => a.id < b.id) ∧ (∀ c ∈ uniq l, c ∈ l) ∧
    ∀ c ∈ l, ∃ d ∈ uniq l, d.id = c.id
  | [], _ => ⟨.nil, fun _ h => h, fun _ h => absurd h List.not_mem_nil⟩
  | [a], _ => ⟨by simp [uniq], fun _ h => h, fun c h => ⟨c, h, rfl⟩⟩
  | a :: b :: r, h => by
    unfold Sort.Spec.Sorted at h
    rw [List.pairwise_cons] at h
    obtain ⟨h1, h2, h3⟩ := uniq_ok (b :: r) h.2
    rw [uniq]
    split
    · rename_i h0
      refine ⟨h1, fun c hc => List.mem_cons_of_mem _ (h2 c hc), fun c hc => ?_⟩
      rcases List.mem_cons.mp hc with rfl | hc
      · obtain ⟨d, hd, he⟩ := h3 b (by simp)
        exact ⟨d, hd, by rw [he]; exact (bcmp_zero.mp h0).symm⟩
      · exact h3 c hc
    · rename_i h0
      refine ⟨List.pairwise_cons.mpr ⟨fun d hd => ?_, h1⟩, fun c hc => ?_, fun c hc => ?_⟩
      · have hab : a.id < b.id := bcmp_lt.mp (by have := h.1 b (by simp); unfold entryCmp at this h0; omega)
        rcases List.mem_cons.mp (h2 d hd) with rfl | hdr
        · exact hab
        · have hbd := (List.pairwise_cons.mp h.2).1 d hdr
          exact lt_of_lt_of_le hab (bcmp_le.mp hbd)
      · rcases List.mem_cons.mp hc with rfl | hc
        · simp
        · exact List.mem_cons_of_mem _ (h2 c hc)
      · rcases List.mem_cons.mp hc with rfl | hc
        · exact ⟨c, by simp, rfl⟩
        · obtain ⟨d, hd, he⟩ := h3 c hc
          exact ⟨d, List.mem_cons_of_mem _ hd, he⟩

theorem sublist_uniq : ∀ l : List Entry, (uniq l).Sublist l
  | [] => .slnil
  | [a] => List.Sublist.refl _
  | a :: b :: r => by
    rw [uniq]
    split
    · exact (sublist_uniq (b :: r)).cons a
    · exact (sublist_uniq (b :: r)).cons_cons a

/-! ### the fan-out table -/

/-- the same loop as for commits -/
def asCommit (e : Entry) : CommitGraph.Commit := ⟨e.id, [], 0, []⟩

theorem fanCount_map (i : Nat) : ∀ (es : List Entry) (k : Nat), CommitGraph.fanCount i (es.map asCommit) k = ((fanCount i es k).1, (fanCount i es k).2.map asCommit)
  | [], _ => rfl
  | e :: es, k => by
    rw [List.map_cons, CommitGraph.fanCount, fanCount]
    change (if (e.id.headD 0).toNat ≤ i then _ else _) = _
    split
    · exact fanCount_map i es (k + 1)
    · rfl

theorem fanTable_map : ∀ (n : Nat) (es : List Entry) (k : Nat), CommitGraph.fanTable n (es.map asCommit) k = fanTable n es k
  | 0, _, _ => rfl
  | n + 1, es, k => by
    rw [CommitGraph.fanTable, fanTable, fanCount_map]
    dsimp only
    rw [fanTable_map]

theorem fanTable_len (es : List Entry) : (fanTable 256 es 0).length = 256 := by rw [← fanTable_map]; exact CommitGraph.fanTable_len _ _ _

theorem fanTable_get {osz : Nat} {es : List Entry} (hsz : ∀ e ∈ es, e.id.length = osz) (hs : es.Pairwise fun a b => a.id < b.id) (j : Nat)
    (h : j < (fanTable 256 es 0).length) : (fanTable 256 es 0)[j] = ((es.map (·.id)).filter fun id => (id.headD 0).toNat ≤ j).length := by
  have hhead : (es.map asCommit).Pairwise fun a b => CommitGraph.headOf a ≤ CommitGraph.headOf b := by
    have := List.pairwise_iff_getElem.mp hs
    rw [List.pairwise_map, List.pairwise_iff_getElem]
    intro i j hi hj hij
    exact head_mono (this i j hi hj hij) (by change es[i].id.length = es[j].id.length; rw [hsz _ (List.getElem_mem hi), hsz _ (List.getElem_mem hj)])
  have hm := fanTable_map 256 es 0
  have h' : j < (CommitGraph.fanTable 256 (es.map asCommit) 0).length := by rw [hm]; exact h
  have := CommitGraph.fanTable_get 256 (es.map asCommit) 0 (Nat.le_refl _) hhead j h'
  simp only [hm] at this
  rw [this, Nat.zero_add, show 256 - 256 + j = j by omega, ← CommitGraph.filter_map_head, List.map_map]
  rfl

/-! ### the offsets -/

theorem word_len (n : Nat) : (word n).length = 4 := rfl
theorem offset64_len (n : Nat) : (offset64 n).length = 8 := rfl
theorem chunkHeader_len (id off : Nat) : (chunkHeader id off).length = 12 := rfl

theorem rd32_word {f pre post : Bytes} {n pos : Nat} (hf : f = pre ++ word n ++ post) (hp : pre.length = pos) (hn : n < 2 ^ 32) :
    ∃ v, rd32 f pos = .ok v ∧ v.toNat = n := CommitGraph.rd32_word hf hp hn

theorem offsetLoop_split : ∀ (es : List Entry) (k0 : Nat),
    (offsetLoop es k0).1.length = es.length * 8 ∧ (offsetLoop es k0).2.length = 8 * (es.filter fun e => e.off ≥ 2 ^ 31).length ∧
    ∀ i (hi : i < es.length), ∃ a b w, (offsetLoop es k0).1 = a ++ word es[i].pack ++ word w ++ b ∧ a.length = i * 8 ∧
      ((es[i].off < 2 ^ 31 ∧ w = es[i].off) ∨
        (2 ^ 31 ≤ es[i].off ∧ ∃ k a' b', w = 2 ^ 31 + k % 2 ^ 31 ∧ (offsetLoop es k0).2 = a' ++ offset64 es[i].off ++ b' ∧ a'.length + 8 * k0 = 8 * k))
  | [], k0 => ⟨rfl, rfl, fun i hi => absurd hi (Nat.not_lt_zero _)⟩
  | e :: es, k0 => by
    rw [offsetLoop]
    by_cases h : e.off ≥ 2 ^ 31
    · obtain ⟨g1, g2, g3⟩ := offsetLoop_split es (k0 + 1)
      rw [if_pos h]
      dsimp only
      refine ⟨?_, ?_, fun i hi => ?_⟩
      · simp only [List.length_append, word_len, g1, List.length_cons]; omega
      · rw [List.length_append, offset64_len, g2, List.filter_cons_of_pos (by simpa using h), List.length_cons]; omega
      · cases i with
        | zero =>
          refine ⟨[], (offsetLoop es (k0 + 1)).1, 2 ^ 31 + k0 % 2 ^ 31, by simp, by simp, .inr ⟨h, k0, [], (offsetLoop es (k0 + 1)).2, rfl, by simp, by simp⟩⟩
        | succ i =>
          obtain ⟨a, b, w, e1, e2, e3⟩ := g3 i (by simpa using hi)
          refine ⟨word e.pack ++ word (2 ^ 31 + k0 % 2 ^ 31) ++ a, b, w, by rw [e1]; simp, by simp only [List.length_append, word_len, e2]; omega, ?_⟩
          rcases e3 with e3 | ⟨e3, k, a', b', e4, e5, e6⟩
          · exact .inl e3
          · exact .inr ⟨e3, k, offset64 e.off ++ a', b', e4, by rw [e5]; simp, by rw [List.length_append, offset64_len]; omega⟩
    · obtain ⟨g1, g2, g3⟩ := offsetLoop_split es k0
      rw [if_neg h]
      dsimp only
      refine ⟨?_, ?_, fun i hi => ?_⟩
      · simp only [List.length_append, word_len, g1, List.length_cons]; omega
      · rw [g2, List.filter_cons_of_neg (by simpa using h)]
      · cases i with
        | zero => exact ⟨[], (offsetLoop es k0).1, e.off, by simp, by simp, .inl ⟨by simp; omega, rfl⟩⟩
        | succ i =>
          obtain ⟨a, b, w, e1, e2, e3⟩ := g3 i (by simpa using hi)
          exact ⟨word e.pack ++ word e.off ++ a, b, w, by rw [e1]; simp, by simp only [List.length_append, word_len, e2]; omega, e3⟩

end Verif.Midx
