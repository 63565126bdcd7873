import Verif.CommitGraph.Lemmas8
/-! # Lemmas: reading a written commit-graph -/
namespace Verif.CommitGraph
open PackIdx (bind_ok_inv bind_ok bind_err ENOTFOUND fanLoop fanAt fanLoop_of flatMap_len flatMap_split rd32_mid slice_mid Table)
open Spec Verif.B

/-- a file that holds these records -/
structure Holds (osz : Nat) (f : File) (cs : List Commit) (pss : List (List Nat)) (gs : List Nat) : Prop where
  num : f.num = cs.length
  small : cs.length ≤ MISSING
  plen : pss.length = cs.length
  glen : gs.length = cs.length
  tree : ∀ c ∈ cs, c.tree.length = osz
  id : ∀ i (h : i < cs.length), slice f.file (f.lookup + i * osz) osz = .ok cs[i].id
  range : ∀ ps ∈ pss, ∀ p ∈ ps, p < cs.length
  edges : f.numEdges ≤ 2 ^ 31
  record : ∀ i (hi : i < cs.length) (hp : i < pss.length) (hg : i < gs.length), ∃ a b k, f.file = a ++ dataRow cs[i] pss[i] gs[i] k ++ b ∧
    a.length = f.data + i * (osz + 16) ∧ (pss[i].length > 2 → ∃ a' b', f.file = a' ++ edgeWords pss[i].tail ++ b' ∧ a'.length = f.edges + 4 * k ∧
      k + (pss[i].length - 1) ≤ f.numEdges)

theorem countExtra_written {f : File} : ∀ (L : List Nat) (n pos count : Nat), L ≠ [] → L.length ≤ n → (∀ p ∈ L, p < 2 ^ 31) →
    (∀ j (h : j < L.length), ∃ v, rd32 f.file (f.edges + (pos + j) * 4) = .ok v ∧ v.toNat = if j + 1 = L.length then L[j] + 2 ^ 31 else L[j]) →
    countExtra f n pos count = .ok (count + (L.length - 1))
  | [], _, _, _, h, _, _, _ => absurd rfl h
  | [p], n, pos, count, _, hn, _, hr => by
    obtain ⟨v, h1, h2⟩ := hr 0 (by simp)
    cases n with
    | zero => simp at hn
    | succ n =>
      rw [countExtra]
      rw [Nat.add_zero] at h1
      simp only [List.length_singleton, Nat.zero_add, if_true, List.getElem_cons_zero] at h2
      rw [h1, bind_ok, if_neg (by omega)]
      rfl
  | p :: q :: L, n, pos, count, _, hn, hp, hr => by
    obtain ⟨v, h1, h2⟩ := hr 0 (by simp)
    cases n with
    | zero => simp at hn
    | succ n =>
      rw [countExtra]
      rw [Nat.add_zero] at h1
      rw [if_neg (by simp), List.getElem_cons_zero] at h2
      have := hp p (by simp)
      rw [h1, bind_ok, if_pos (by omega), countExtra_written (q :: L) n (pos + 1) (count + 1) (by simp) (by simpa using hn) (fun x hx => hp x (by simp [List.mem_cons.mp hx])) ?_]
      · congr 1
        simp only [List.length_cons]
        omega
      · intro j hj
        obtain ⟨w, h3, h4⟩ := hr (j + 1) (by simpa using hj)
        refine ⟨w, by rw [show pos + 1 + j = pos + (j + 1) by omega]; exact h3, ?_⟩
        rw [h4]
        simp only [List.length_cons, List.getElem_cons_succ, Nat.add_right_cancel_iff]

/-- the record of a commit -/
theorem get_row {osz : Nat} {f : File} {i n : Nat} {c : Commit} {ps : List Nat} {g k : Nat} {a b : Bytes} (h1 : f.file = a ++ dataRow c ps g k ++ b)
    (h2 : a.length = f.data + i * (osz + 16))
    (h3 : ps.length > 2 → ∃ a' b', f.file = a' ++ edgeWords ps.tail ++ b' ∧ a'.length = f.edges + 4 * k ∧ k + (ps.length - 1) ≤ f.numEdges)
    (hid : slice f.file (f.lookup + i * osz) osz = .ok c.id) (ht : c.tree.length = osz) (hrange : ∀ p ∈ ps, p < n) (hsmall : n ≤ MISSING)
    (hed : f.numEdges ≤ 2 ^ 31) (hnum : f.num = n) (hi : i < n) : ∃ e, getByIndex osz f i = .ok e ∧ e.id = c.id ∧ e.tree = c.tree ∧ (e.time : Int) = c.time % 2 ^ 34 ∧
      e.generation = min GENMAX g ∧ e.count = ps.length ∧ (∀ h : 0 < ps.length, e.p0 = ps[0]) ∧ (∀ h : ps.length = 2, e.p1 = ps[1]) ∧
      (ps.length > 2 → ∃ k, e.extra = some k ∧ ∀ n (_ : 0 < n) (hn : n < ps.length), ∃ v, rd32 f.file (f.edges + (k + n - 1) * 4) = .ok v ∧ v.toNat % 2 ^ 31 = ps[n]) := by
  have hM : MISSING = 0x70000000 := rfl
  have hG : GENMAX = 0x3FFFFFFF := rfl
  unfold dataRow at h1
  generalize hw0 : word0 ps = w0 at h1
  generalize hw1 : word1 k ps = w1 at h1
  generalize hg' : (if g > GENMAX then GENMAX else g) = g' at h1
  have hgm : g' = min GENMAX g := by rw [← hg']; split <;> omega
  dsimp only at h1
  generalize htt : (c.time % 2 ^ 64).toNat = t at h1
  have e0 : w0 < 2 ^ 32 ∧ ((if w0 ≠ MISSING then 1 else 0) = if ps.length = 0 then 0 else 1) ∧ ∀ h : 0 < ps.length, w0 = ps[0] := by
    cases ps with
    | nil => dsimp only [word0] at hw0; subst hw0; exact ⟨by omega, by simp, fun h => absurd h (Nat.lt_irrefl _)⟩
    | cons p ps =>
      dsimp only [word0] at hw0
      subst hw0
      have := hrange p (by simp)
      exact ⟨by omega, by rw [if_pos (by omega)]; simp, fun _ => rfl⟩
  have r1 : slice f.file (f.data + i * (osz + 16)) osz = .ok c.tree := by
    rw [h1]
    simp only [List.append_assoc]
    rw [← List.append_assoc]
    exact slice_append h2 ht
  obtain ⟨v0, r2, q2⟩ := rd32_word (f := f.file) (pre := a ++ c.tree) (n := w0) (post := word w1 ++ (word (g' * 4 + t / 2 ^ 32 % 4) ++ (word (t % 2 ^ 32) ++ b))) (pos := f.data + i * (osz + 16) + osz)
    (by rw [h1]; simp only [List.append_assoc]) (by simp [h2, ht]) e0.1
  have e1 : w1 < 2 ^ 32 := by
    rw [← hw1]
    match ps, hrange with
    | [], _ => dsimp only [word1]; omega
    | [_], _ => dsimp only [word1]; omega
    | [x, p], hr => have := hr p (by simp); dsimp only [word1]; omega
    | x :: y :: z :: r, _ => dsimp only [word1]; omega
  obtain ⟨v1, r3, q3⟩ := rd32_word (f := f.file) (pre := a ++ c.tree ++ word w0) (n := w1) (post := word (g' * 4 + t / 2 ^ 32 % 4) ++ (word (t % 2 ^ 32) ++ b)) (pos := f.data + i * (osz + 16) + osz + 4)
    (by rw [h1]; simp only [List.append_assoc]) (by simp [h2, ht, word_len]; omega) e1
  obtain ⟨v2, r4, q4⟩ := rd32_word (f := f.file) (pre := a ++ c.tree ++ word w0 ++ word w1) (n := g' * 4 + t / 2 ^ 32 % 4) (post := word (t % 2 ^ 32) ++ b) (pos := f.data + i * (osz + 16) + osz + 8)
    (by rw [h1]; simp only [List.append_assoc]) (by simp [h2, ht, word_len]; omega) (by omega)
  obtain ⟨v3, r5, q5⟩ := rd32_word (f := f.file) (pre := a ++ c.tree ++ word w0 ++ word w1 ++ word (g' * 4 + t / 2 ^ 32 % 4)) (n := t % 2 ^ 32) (post := b) (pos := f.data + i * (osz + 16) + osz + 12)
    (by rw [h1]; simp only [List.append_assoc]) (by simp [h2, ht, word_len]; omega) (by omega)
  have hgen : (g' * 4 + t / 2 ^ 32 % 4) / 4 = min GENMAX g := by omega
  have htime : ((t % 2 ^ 32 + (g' * 4 + t / 2 ^ 32 % 4) % 4 * 2 ^ 32 : Nat) : Int) = c.time % 2 ^ 34 := by
    have : (t : Int) = c.time % 2 ^ 64 := by rw [← htt]; omega
    omega
  unfold getByIndex
  rw [if_neg (by omega)]
  dsimp only
  rw [r1, bind_ok, r2, bind_ok, r3, bind_ok, r4, bind_ok, r5, bind_ok, q2, q3, q4, q5, e0.2.1]
  match ps, hw1, h3, hrange, e0.2.2 with
  | [], hw1, _, _, e0 =>
    dsimp only [word1] at hw1
    subst hw1
    rw [if_neg (by omega), bind_ok, hid, bind_ok]
    exact ⟨_, rfl, rfl, rfl, htime, hgen, by simp, e0, by simp, by simp⟩
  | [p], hw1, _, _, e0 =>
    dsimp only [word1] at hw1
    subst hw1
    rw [if_neg (by omega), bind_ok, hid, bind_ok]
    exact ⟨_, rfl, rfl, rfl, htime, hgen, by simp, e0, by simp, by simp⟩
  | [p, q], hw1, _, hr, e0 =>
    dsimp only [word1] at hw1
    subst hw1
    have := hr q (by simp)
    rw [if_neg (by omega), bind_ok, hid, bind_ok]
    refine ⟨_, rfl, rfl, rfl, htime, hgen, ?_, e0, fun _ => rfl, by simp⟩
    dsimp only
    rw [if_neg (by simp), if_pos (by omega)]
    rfl
  | x :: y :: z :: r, hw1, h3, hr, e0 =>
    obtain ⟨a', b', g1, g2, g3⟩ := h3 (by simp)
    have hlen : (x :: y :: z :: r).length = r.length + 3 := rfl
    rw [hlen] at g3
    dsimp only [word1] at hw1
    have hk : k < 2 ^ 31 := by omega
    have hw : w1 = 2 ^ 31 + k := by omega
    have hread : ∀ j (h : j < (y :: z :: r).length), ∃ v, rd32 f.file (f.edges + (k + j) * 4) = .ok v ∧
        v.toNat = if j + 1 = (y :: z :: r).length then (y :: z :: r)[j] + 2 ^ 31 else (y :: z :: r)[j] := by
      intro j hj
      obtain ⟨u, w, g4, g5⟩ := edgeWords_split (y :: z :: r) j hj fun p hp => by
        have := hr p (List.mem_cons_of_mem _ hp); omega
      rw [List.tail_cons] at g1
      have := hr _ (List.mem_cons_of_mem x (List.getElem_mem hj))
      exact rd32_word (pre := a' ++ u) (post := w ++ b') (by rw [g1, g4]; simp only [List.append_assoc]) (by simp [g2, g5]; omega) (by split <;> omega)
    have hce := countExtra_written (f := f) (y :: z :: r) (f.numEdges - k) k ((if (x :: y :: z :: r).length = 0 then 0 else 1) + 1) (by simp) (by simp only [List.length_cons]; omega)
      (fun p hp => by have := hr p (List.mem_cons_of_mem _ hp); omega) hread
    rw [hw, if_pos (by omega), show (2 ^ 31 + k) % 2 ^ 31 = k by omega, if_neg (by omega)]
    rw [if_pos (show 2 ^ 31 + k ≠ MISSING by omega), hce, bind_ok, bind_ok, hid, bind_ok]
    refine ⟨_, rfl, rfl, rfl, htime, hgen, ?_, e0, fun h => by simp at h, fun _ => ⟨k, rfl, fun n hn0 hn => ?_⟩⟩
    · dsimp only
      rw [hlen, if_neg (by omega)]
      simp only [List.length_cons]
      omega
    · cases n with
      | zero => omega
      | succ n =>
        obtain ⟨v, s1, s2⟩ := hread n (by simpa using hn)
        refine ⟨v, by rw [show k + (n + 1) - 1 = k + n by omega]; exact s1, ?_⟩
        rw [s2, List.getElem_cons_succ]
        have := hr _ (List.mem_cons_of_mem x (List.getElem_mem (show n < (y :: z :: r).length by simpa using hn)))
        split <;> omega

theorem get_written {osz : Nat} {f : File} {cs : List Commit} {pss : List (List Nat)} {gs : List Nat} (hH : Holds osz f cs pss gs) (i : Nat) (hi : i < cs.length)
    (hp : i < pss.length) (hg : i < gs.length) : ∃ e, getByIndex osz f i = .ok e ∧ e.id = cs[i].id ∧ e.tree = cs[i].tree ∧ (e.time : Int) = cs[i].time % 2 ^ 34 ∧
      e.generation = min GENMAX gs[i] ∧ e.count = pss[i].length ∧ (∀ h : 0 < pss[i].length, e.p0 = pss[i][0]) ∧ (∀ h : pss[i].length = 2, e.p1 = pss[i][1]) ∧
      (pss[i].length > 2 → ∃ k, e.extra = some k ∧ ∀ n (_ : 0 < n) (hn : n < pss[i].length), ∃ v, rd32 f.file (f.edges + (k + n - 1) * 4) = .ok v ∧ v.toNat % 2 ^ 31 = pss[i][n]) := by
  obtain ⟨a, b, k, h1, h2, h3⟩ := hH.record i hi hp hg
  exact get_row h1 h2 h3 (hH.id i hi) (hH.tree _ (List.getElem_mem hi)) (hH.range _ (List.getElem_mem hp)) hH.small hH.edges hH.num hi

/-- reading a commit and its parents -/
theorem describes_written {osz : Nat} {f : File} {cs : List Commit} {pss : List (List Nat)} {gs : List Nat} (hH : Holds osz f cs pss gs)
    (hI : ∀ k (h : k < pss.length) (h' : k < cs.length), IndicesOK cs cs[k] pss[k]) (i : Nat) (hi : i < cs.length) :
    ∃ e, getByIndex osz f i = .ok e ∧ Describes osz f e cs[i] ∧ (∃ h : i < gs.length, e.generation = min GENMAX gs[i]) ∧
      ∀ n (hp : i < pss.length) (hn : n < pss[i].length), entryParent osz f e n = getByIndex osz f pss[i][n] := by
  have hp : i < pss.length := by rw [hH.plen]; exact hi
  have hg : i < gs.length := by rw [hH.glen]; exact hi
  obtain ⟨e, h1, h2, h3, h4, h5, h6, h7, h8, h9⟩ := get_written hH i hi hp hg
  have hIi := hI i hp hi
  have hany : ∀ j < cs.length, ∃ e', getByIndex osz f j = .ok e' ∧ ∃ h : j < cs.length, e'.id = cs[j].id := by
    intro j hj
    obtain ⟨e', g1, g2, -⟩ := get_written hH j hj (by rw [hH.plen]; exact hj) (by rw [hH.glen]; exact hj)
    exact ⟨e', g1, hj, g2⟩
  have hpar : ∀ n (hn : n < pss[i].length), entryParent osz f e n = getByIndex osz f pss[i][n] := by
    intro n hnp
    unfold entryParent
    rw [if_neg (by omega)]
    by_cases hn0 : n = 0
    · subst hn0
      rw [if_pos rfl, h7 (by omega)]
    · rw [if_neg hn0]
      by_cases hn1 : n = 1 ∧ e.count = 2
      · rw [if_pos hn1]
        obtain ⟨rfl, hc⟩ := hn1
        rw [h8 (by omega)]
      · rw [if_neg hn1]
        obtain ⟨k, g5, g6⟩ := h9 (by omega)
        rw [g5]
        dsimp only
        obtain ⟨v, g7, g8⟩ := g6 n (by omega) hnp
        rw [g7, bind_ok, g8]
  refine ⟨e, h1, ⟨h2, h3, h4, by rw [h6, hIi.len], fun n => ⟨fun hn => ?_, fun hn => ?_⟩⟩, ⟨hg, h5⟩, fun n _ hn => hpar n hn⟩
  · have hnp : n < pss[i].length := by rw [hIi.len]; exact hn
    obtain ⟨g1, g2⟩ := hIi.get n hnp hn
    obtain ⟨e', g3, _, g4⟩ := hany _ g1
    exact ⟨e', by rw [hpar n hnp]; exact g3, by rw [g4, g2]⟩
  · unfold entryParent
    rw [if_pos (by rw [h6, hIi.len]; exact hn)]
    rfl

end Verif.CommitGraph
