import Verif.CommitGraph.Lemmas6
/-! # Lemmas: the layout of a written commit-graph -/
namespace Verif.CommitGraph
open PackIdx (bind_ok_inv bind_ok bind_err ENOTFOUND fanLoop fanAt fanLoop_of flatMap_len flatMap_split rd32_mid slice_mid)
open Verif.B

theorem word_len (n : Nat) : (word n).length = 4 := rfl
theorem chunkHeader_len (id off : Nat) : (chunkHeader id off).length = 12 := rfl

theorem rd32_word {f pre post : Bytes} {n pos : Nat} (hf : f = pre ++ word n ++ post) (hp : pre.length = pos) (hn : n < 2 ^ 32) :
    ∃ v, rd32 f pos = .ok v ∧ v.toNat = n := by
  refine ⟨UInt32.ofNat n, by rw [hf]; exact rd32_at hp, ?_⟩
  rw [UInt32.toNat_ofNat']
  omega

theorem chunk_step {file pre post : Bytes} {trailer n id off lastOff : Nat} {last : Option Kind} {cs : Chunks} {k : Kind} {pos : Nat}
    (hf : file = pre ++ chunkHeader id off ++ post) (hp : pre.length = pos) (hoff : off < 2 ^ 63) (h1 : lastOff ≤ off) (h2 : off < trailer)
    (hk : kindOf (UInt32.ofNat id) = some k) :
    chunkLoop file trailer (n + 1) pos lastOff last cs = chunkLoop file trailer n (pos + 12) off (some k) (setOff (setLen cs last (off - lastOff)) k off) := by
  unfold chunkHeader at hf
  have r0 : rd32 file pos = .ok (UInt32.ofNat id) := by
    rw [hf, show pre ++ (word id ++ word (off / 2 ^ 32) ++ word (off % 2 ^ 32)) ++ post = pre ++ word id ++ (word (off / 2 ^ 32) ++ word (off % 2 ^ 32) ++ post) by simp]
    exact rd32_at hp
  obtain ⟨h, r1, e1⟩ := rd32_word (f := file) (pre := pre ++ word id) (post := word (off % 2 ^ 32) ++ post) (n := off / 2 ^ 32) (pos := pos + 4)
    (by rw [hf]; simp) (by simp [word_len, hp]) (by omega)
  obtain ⟨l, r2, e2⟩ := rd32_word (f := file) (pre := pre ++ word id ++ word (off / 2 ^ 32)) (post := post) (n := off % 2 ^ 32) (pos := pos + 8)
    (by rw [hf]; simp) (by simp [word_len, hp]) (by omega)
  rw [chunkLoop, r1, bind_ok, r2, bind_ok]
  dsimp only
  rw [e1, e2, show off / 2 ^ 32 * 2 ^ 32 + off % 2 ^ 32 = off by omega, if_neg (by omega), if_neg (by omega), r0, bind_ok, hk]

theorem lookupLoop_of {osz : Nat} {file : Bytes} : ∀ (l : List Bytes) (pre post prev : Bytes), file = pre ++ l.flatMap (fun x => x) ++ post →
    (∀ x ∈ l, x.length = osz) → prev.length = osz → (prev :: l).Pairwise (· < ·) → lookupLoop osz file l.length pre.length prev = .ok ()
  | [], _, _, _, _, _, _, _ => rfl
  | x :: l, pre, post, prev, hf, hl, hp, hs => by
    rw [List.length_cons, lookupLoop]
    have hx : x.length = osz := hl x (by simp)
    have r : slice file pre.length osz = .ok x := by
      rw [hf, List.flatMap_cons, show pre ++ (x ++ l.flatMap fun x => x) ++ post = pre ++ x ++ ((l.flatMap fun x => x) ++ post) by simp]
      exact slice_append rfl hx
    rw [r, bind_ok]
    unfold Oid.cmp
    rw [List.pairwise_cons] at hs
    have hlt := bcmp_lt.mpr (hs.1 x (by simp))
    rw [memcmp_bcmp osz _ _ hp hx, bind_ok, if_neg (by omega)]
    have := lookupLoop_of (file := file) l (pre ++ x) post x (by rw [hf]; simp) (fun y hy => hl y (by simp [hy])) hx hs.2
    rw [List.length_append, hx] at this
    exact this

/-! ### the fan-out table -/

def headOf (c : Commit) : Nat := (c.id.headD 0).toNat

theorem fanCount_eq (i : Nat) : ∀ (cs : List Commit) (k : Nat), cs.Pairwise (fun a b => headOf a ≤ headOf b) →
    fanCount i cs k = (k + (cs.filter fun c => headOf c ≤ i).length, cs.filter fun c => ¬ headOf c ≤ i)
  | [], k, _ => rfl
  | c :: cs, k, h => by
    rw [List.pairwise_cons] at h
    rw [fanCount]
    change (if headOf c ≤ i then fanCount i cs (k + 1) else (k, c :: cs)) = _
    by_cases hc : headOf c ≤ i
    · rw [if_pos hc, fanCount_eq i cs (k + 1) h.2]
      simp [hc]
      omega
    · rw [if_neg hc]
      have hall : ∀ d ∈ cs, ¬ headOf d ≤ i := fun d hd => by have := h.1 d hd; omega
      have e1 : cs.filter (fun c => decide (headOf c ≤ i)) = [] := List.filter_eq_nil_iff.mpr (by simpa using hall)
      have e2 : cs.filter (fun c => decide (¬ headOf c ≤ i)) = cs := List.filter_eq_self.mpr (by simpa using hall)
      rw [List.filter_cons_of_neg (by simpa using hc), List.filter_cons_of_pos (by simpa using hc), e1, e2]
      rfl

theorem fanTable_len : ∀ n cs k, (fanTable n cs k).length = n
  | 0, _, _ => rfl
  | n + 1, cs, k => by simp [fanTable, fanTable_len n]

theorem count_split (cs : List Commit) (i b : Nat) (h : i ≤ b) : (cs.filter fun c => headOf c ≤ i).length +
    ((cs.filter fun c => ¬ headOf c ≤ i).filter fun c => headOf c ≤ b).length = (cs.filter fun c => headOf c ≤ b).length := by
  induction cs with
  | nil => rfl
  | cons c cs ih =>
    by_cases h1 : headOf c ≤ i
    · have h2 : headOf c ≤ b := by omega
      simp [List.filter_cons, h1, h2] at ih ⊢; omega
    · have h3 := Nat.lt_of_not_le h1
      by_cases h2 : headOf c ≤ b
      · simp [List.filter_cons, h1, h2, h3] at ih ⊢; omega
      · simp [List.filter_cons, h1, h2, h3] at ih ⊢; omega

theorem fanTable_get : ∀ n cs k, n ≤ 256 → cs.Pairwise (fun a b => headOf a ≤ headOf b) → ∀ j (h : j < (fanTable n cs k).length),
    (fanTable n cs k)[j] = k + (cs.filter fun c => headOf c ≤ 256 - n + j).length
  | 0, _, _, _, _, j, h => absurd h (Nat.not_lt_zero _)
  | n + 1, cs, k, hn, hs, j, h => by
    have hfc := fanCount_eq (256 - (n + 1)) cs k hs
    have hft : fanTable (n + 1) cs k = (k + (cs.filter fun c => headOf c ≤ 256 - (n + 1)).length) ::
        fanTable n (cs.filter fun c => ¬ headOf c ≤ 256 - (n + 1)) (k + (cs.filter fun c => headOf c ≤ 256 - (n + 1)).length) := by
      rw [fanTable, hfc]
    cases j with
    | zero => simp only [hft, List.getElem_cons_zero, Nat.add_zero]
    | succ j =>
      simp only [hft, List.getElem_cons_succ]
      rw [fanTable_get n _ _ (by omega) (hs.sublist List.filter_sublist) j]
      have := count_split cs (256 - (n + 1)) (256 - n + j) (by omega)
      rw [show 256 - (n + 1) + (j + 1) = 256 - n + j by omega]
      omega

/-! ### the records -/

theorem dataRow_len {osz : Nat} {c : Commit} (h : c.tree.length = osz) (ps : List Nat) (g k : Nat) : (dataRow c ps g k).length = osz + 16 := by
  unfold dataRow
  simp [word_len, h]

theorem edgeWords_len : ∀ ps, (edgeWords ps).length = 4 * ps.length
  | [] => rfl
  | [p] => rfl
  | p :: q :: ps => by rw [edgeWords, List.length_append, edgeWords_len (q :: ps), word_len]; simp only [List.length_cons]; omega; simp

theorem edgeWords_split : ∀ (ps : List Nat) (k : Nat) (h : k < ps.length), (∀ p ∈ ps, p < 2 ^ 31) →
    ∃ a b, edgeWords ps = a ++ word (if k + 1 = ps.length then ps[k] + 2 ^ 31 else ps[k]) ++ b ∧ a.length = 4 * k
  | [p], 0, _, hp => by
    have := hp p (by simp)
    exact ⟨[], [], by rw [edgeWords, show p % 2 ^ 32 % 2 ^ 31 = p by omega]; simp, rfl⟩
  | [p], k + 1, h, _ => by simp at h
  | p :: q :: ps, 0, _, _ => ⟨[], edgeWords (q :: ps), by simp [edgeWords], rfl⟩
  | p :: q :: ps, k + 1, h, hp => by
    obtain ⟨a, b, h1, h2⟩ := edgeWords_split (q :: ps) k (by simpa using h) fun x hx => hp x (by simp [List.mem_cons.mp hx])
    refine ⟨word p ++ a, b, ?_, by simp [word_len, h2]; omega⟩
    rw [edgeWords, h1]
    · simp
    · simp

theorem dataLoop_split {osz : Nat} : ∀ (cs : List Commit) (pss : List (List Nat)) (gs : List Nat) (k0 : Nat), (∀ c ∈ cs, c.tree.length = osz) →
    pss.length = cs.length → gs.length = cs.length →
    (dataLoop cs pss gs k0).1.length = cs.length * (osz + 16) ∧ (dataLoop cs pss gs k0).2.length = 4 * (pss.map fun ps => if ps.length > 2 then ps.length - 1 else 0).sum ∧
    ∀ i (hi : i < cs.length) (hp : i < pss.length) (hg : i < gs.length), ∃ a b k, (dataLoop cs pss gs k0).1 = a ++ dataRow cs[i] pss[i] gs[i] k ++ b ∧
      a.length = i * (osz + 16) ∧ (pss[i].length > 2 → ∃ a' b', (dataLoop cs pss gs k0).2 = a' ++ edgeWords pss[i].tail ++ b' ∧ a'.length + 4 * k0 = 4 * k)
  | [], pss, gs, k0, _, h1, h2 => by
    rw [List.length_eq_zero_iff.mp h1]
    exact ⟨by simp [dataLoop], by simp [dataLoop], fun i hi => absurd hi (Nat.not_lt_zero _)⟩
  | c :: cs, ps :: pss, g :: gs, k0, ht, h1, h2 => by
    have hrow := dataRow_len (ht c (by simp)) ps g k0
    obtain ⟨g1, g2, g3⟩ := dataLoop_split cs pss gs (if ps.length > 2 then k0 + (ps.length - 1) else k0) (fun x hx => ht x (by simp [hx])) (by simpa using h1) (by simpa using h2)
    rw [dataLoop]
    dsimp only
    have hmore : (if ps.length > 2 then edgeWords ps.tail else []).length = 4 * (if ps.length > 2 then ps.length - 1 else 0) := by
      split
      · rw [edgeWords_len, List.length_tail]
      · rfl
    refine ⟨?_, ?_, fun i hi hp hg => ?_⟩
    · rw [List.length_append, hrow, g1, List.length_cons, Nat.succ_mul]; omega
    · rw [List.length_append, hmore, g2, List.map_cons, List.sum_cons]; omega
    · cases i with
      | zero =>
        refine ⟨[], _, k0, by simp only [List.nil_append, List.getElem_cons_zero]; rfl, by simp, fun hl => ?_⟩
        simp only [List.getElem_cons_zero] at hl ⊢
        rw [if_pos hl]
        exact ⟨[], _, by simp only [List.nil_append]; rfl, by simp⟩
      | succ i =>
        obtain ⟨a, b, k, e1, e2, e3⟩ := g3 i (by simpa using hi) (by simpa using hp) (by simpa using hg)
        refine ⟨dataRow c ps g k0 ++ a, b, k, ?_, ?_, fun hl => ?_⟩
        · rw [e1]; simp
        · rw [List.length_append, hrow, e2, Nat.succ_mul]; omega
        · obtain ⟨a', b', e4, e5⟩ := e3 (by simpa using hl)
          refine ⟨(if ps.length > 2 then edgeWords ps.tail else []) ++ a', b', ?_, ?_⟩
          · rw [e4]; simp
          · rw [List.length_append, hmore]
            split at e5
            · rename_i hx; rw [if_pos hx]; omega
            · rename_i hx; rw [if_neg hx]; omega

end Verif.CommitGraph
