import Verif.Hashsig.Lemmas2
/-! # C90, C91: similarity signatures -/
namespace Verif.Hashsig
open Spec

/-! ## Making a signature -/

theorem init_inv : WInv ⟨heapInit, heapInit, 0⟩ := ⟨heapInit_inv, heapInit_inv, Iff.rfl⟩

theorem blocks_ok (o : Opts) : ∀ (reads : List (Bytes × Bytes)) use w, (∀ r ∈ reads, r.2 ≠ []) → WInv w →
    ∃ w', blocks o reads use w = .ok w' ∧ WInv w' := by
  intro reads
  induction reads with
  | nil => intro use w _ hw; exact ⟨w, rfl, hw⟩
  | cons r rs ih =>
    intro use w h hw
    obtain ⟨d, a⟩ := r
    obtain ⟨w1, u1, g1, g2⟩ := hashLoop_ok o a (h (d, a) (by simp)) (d.length + 1) d use w (by omega) hw
    obtain ⟨w2, k1, k2⟩ := ih u1 w1 (fun r hr => h r (by simp [hr])) g2
    refine ⟨w2, ?_, k2⟩
    rw [blocks, addHashes, g1]
    exact k1

theorem create_eq (o : Opts) (after data : Bytes) : create o after data = createFromFile o [(data, after)] := by
  unfold create createFromFile
  simp only [blocks]
  split
  · rfl
  · cases addHashes o after data (decide (o.ignore = true ∨ o.smart = true)) ⟨heapInit, heapInit, 0⟩ <;> rfl

/-- a signature that was made: from a buffer, or from a file, where in memory some byte follows every part that was read -/
inductive Made : HSig → Prop
  | buffer {o after data s} : after ≠ [] → create o after data = .ok s → Made s
  | file {o reads s} : (∀ r ∈ reads, r.2 ≠ []) → createFromFile o reads = .ok s → Made s

theorem fromFile_cases (o : Opts) (reads : List (Bytes × Bytes)) (h : ∀ r ∈ reads, r.2 ≠ []) :
    (o.ignore = true ∧ o.smart = true ∧ createFromFile o reads = .err (-1)) ∨
    (¬ (o.ignore = true ∧ o.smart = true) ∧ ∃ w, blocks o reads (o.ignore ∨ o.smart) ⟨heapInit, heapInit, 0⟩ = .ok w ∧ WInv w ∧
      createFromFile o reads = finalize o w) := by
  by_cases ho : o.ignore = true ∧ o.smart = true
  · exact .inl ⟨ho.1, ho.2, by rw [createFromFile, if_pos ho]⟩
  · obtain ⟨w, g1, g2⟩ := blocks_ok o reads (o.ignore ∨ o.smart) _ h init_inv
    refine .inr ⟨ho, w, g1, g2, ?_⟩
    rw [createFromFile, if_neg ho, g1]
    rfl

/-- C90: making a signature of a file never goes outside the memory or a heap, and ends, when in memory a byte follows every part read; it fails
only when both ways to look at blanks are asked for and when there is too little text -/
theorem file_total (o : Opts) (reads : List (Bytes × Bytes)) (h : ∀ r ∈ reads, r.2 ≠ []) :
    (∃ s, createFromFile o reads = .ok s) ∨ (createFromFile o reads = .err (-1) ∧ o.ignore = true ∧ o.smart = true) ∨
      (createFromFile o reads = .err (-6) ∧ o.small = false) := by
  rcases fromFile_cases o reads h with ⟨h1, h2, h3⟩ | ⟨-, w, -, -, h3⟩
  · exact .inr (.inl ⟨h3, h1, h2⟩)
  · rw [h3]
    unfold finalize
    split
    · rename_i hc; exact .inr (.inr ⟨rfl, by simpa using hc.2⟩)
    · exact .inl ⟨_, rfl⟩

/-- C90: and the same of a buffer -/
theorem buffer_total (o : Opts) (after data : Bytes) (h : after ≠ []) :
    (∃ s, create o after data = .ok s) ∨ (create o after data = .err (-1) ∧ o.ignore = true ∧ o.smart = true) ∨
      (create o after data = .err (-6) ∧ o.small = false) := by
  rw [create_eq]
  exact file_total o _ (by simpa using h)

/-- what a signature that was made looks like -/
theorem made_shape {s : HSig} (h : Made s) : s.mins.length ≤ 127 ∧ s.maxs.length ≤ 127 ∧ (s.mins.length = 0 ↔ s.maxs.length = 0) := by
  have key : ∀ o reads, (∀ r ∈ reads, r.2 ≠ []) → createFromFile o reads = .ok s →
      s.mins.length ≤ 127 ∧ s.maxs.length ≤ 127 ∧ (s.mins.length = 0 ↔ s.maxs.length = 0) := by
    intro o reads hr hs
    rcases fromFile_cases o reads hr with ⟨-, -, h3⟩ | ⟨-, w, -, hw, h3⟩
    · rw [h3] at hs; cases hs
    · rw [h3] at hs
      unfold finalize at hs
      split at hs
      · cases hs
      · cases hs
        simp only [heapSort_length _ _ hw.1, heapSort_length _ _ hw.2.1]
        exact ⟨hw.1.2, hw.2.1.2, hw.2.2⟩
  cases h with
  | buffer ha hs => rw [create_eq] at hs; exact key _ _ (by simpa using ha) hs
  | file hr hs => exact key _ _ hr hs

/-! ## Comparing -/

theorem heapCompare_ok (mins : Bool) (a b : List UInt32) (h : a.length + b.length ≠ 0) :
    ∃ n, heapCompare mins a b = .ok n ∧ n ≤ 100 ∧ heapCompare mins b a = .ok n := by
  obtain ⟨m, g1, g2, g3, g4⟩ := matchLoop_ok mins (a.length + b.length + 1) a b 0 (by omega)
  refine ⟨100 * (m * 2) / (a.length + b.length), ?_, ?_, ?_⟩
  · rw [heapCompare, g1]
    simp only [Res.bind_ok, Nat.zero_add]
    rw [if_neg h]
  · refine Nat.div_le_of_le_mul ?_
    have : m * 2 ≤ a.length + b.length := by omega
    rw [Nat.mul_comm]
    exact Nat.mul_le_mul_right _ this
  · rw [heapCompare, Nat.add_comm b.length, g4]
    simp only [Res.bind_ok, Nat.zero_add]
    rw [if_neg h]

/-- C90: any two signatures that were made can be compared, and the score is a percentage -/
theorem compare_percent {a b : HSig} (ha : Made a) (hb : Made b) : ∃ n, compare a b = .ok n ∧ n ≤ 100 := by
  obtain ⟨-, -, a3⟩ := made_shape ha
  obtain ⟨-, -, b3⟩ := made_shape hb
  unfold compare
  split
  · split
    · exact ⟨_, rfl, by omega⟩
    · exact ⟨_, rfl, by omega⟩
  · rename_i h0
    obtain ⟨n, g1, g2, -⟩ := heapCompare_ok true a.mins b.mins (by omega)
    split
    · exact ⟨n, g1, g2⟩
    · obtain ⟨m, k1, k2, -⟩ := heapCompare_ok false a.maxs b.maxs (by omega)
      rw [g1]
      simp only [Res.bind_ok]
      rw [k1]
      exact ⟨_, rfl, by omega⟩

theorem heapCompare_self (mins : Bool) (a : List UInt32) (h : a.length ≠ 0) : heapCompare mins a a = .ok 100 := by
  rw [heapCompare, matchLoop_self mins _ _ _ (by omega)]
  simp only [Res.bind_ok, Nat.zero_add]
  rw [if_neg (by omega)]
  congr 1
  rw [Nat.mul_two]
  exact Nat.mul_div_cancel _ (by omega)

/-- C90: whatever has a hash in it is entirely similar to itself, and so is what has no line, and, blanks being ignored, what has no hash -/
theorem compare_self {s : HSig} (hs : Made s) (h : s.mins ≠ [] ∨ s.lines = 0 ∨ s.opt.ignore = true) : compare s s = .ok 100 := by
  obtain ⟨-, -, h3⟩ := made_shape hs
  unfold compare
  split
  · rename_i h0
    rcases h with h | h | h
    · exact absurd (List.length_eq_zero_iff.mp h0.1) h
    · simp [h]
    · simp [h]
  · rename_i h0
    rw [heapCompare_self _ _ (by omega)]
    split
    · rfl
    · rw [heapCompare_self _ _ (by omega)]
      rfl

/-- but what has lines and no hash, when blanks are not ignored, is not similar to itself at all -/
theorem compare_self_zero {s : HSig} (h1 : s.mins = []) (h2 : s.lines ≠ 0) (h3 : s.opt.ignore = false) : compare s s = .ok 0 := by
  simp [compare, h1, h2, h3]

/-! ## The pieces -/

/-- every text has pieces -/
theorem create_pieces (o : Opts) (hs : o.smart = false) (after data : Bytes) (ha : after ≠ []) :
    ∃ w ps, create o after data = finalize o w ∧ WInv w ∧ Pieces (seen o.ignore data) ps ∧
      heapAll true heapInit (ps.map pieceHash) = .ok w.mins ∧ heapAll false heapInit (ps.map pieceHash) = .ok w.maxs := by
  obtain ⟨w, ps, g1, g2, g3, g4⟩ := hashLoop_spec o hs after ha (data.length + 1) data ⟨heapInit, heapInit, 0⟩ (by omega) init_inv
  obtain ⟨w', u', k1, k2⟩ := hashLoop_ok o after ha (data.length + 1) data o.ignore ⟨heapInit, heapInit, 0⟩ (by omega) init_inv
  rw [g1] at k1
  have e : w = w' := by injection k1 with k1; exact (Prod.mk.inj k1).1
  subst e
  refine ⟨w, ps, ?_, k2, g2, g3, g4⟩
  unfold create
  rw [if_neg (by simp [hs])]
  have e : decide (o.ignore = true ∨ o.smart = true) = o.ignore := by simp [hs]
  rw [e, addHashes, g1]
  rfl

theorem piece_split {p q r s : Bytes} (h : p ++ r = q ++ s) (hp : ∀ c ∈ p, ¬ Break c) (hq : ∀ c ∈ q, ¬ Break c)
    (h1 : p.length = 80 ∨ (p.length < 80 ∧ ∀ c, r.head? = some c → Break c))
    (h2 : q.length = 80 ∨ (q.length < 80 ∧ ∀ c, s.head? = some c → Break c)) : p = q ∧ r = s := by
  have key : ∀ {p q r s : Bytes}, p ++ r = q ++ s → (∀ c ∈ q, ¬ Break c) →
      (p.length = 80 ∨ (p.length < 80 ∧ ∀ c, r.head? = some c → Break c)) → q.length ≤ 80 → ¬ p.length < q.length := by
    intro p q r s h hq h1 hl hlt
    rcases h1 with h1 | ⟨-, h1⟩
    · omega
    · rw [List.append_eq_append_iff] at h
      rcases h with ⟨t, rfl, rfl⟩ | ⟨t, rfl, rfl⟩
      · cases t with
        | nil => simp at hlt
        | cons c t => exact hq c (by simp) (h1 c (by simp))
      · simp at hlt; omega
  have e : p.length = q.length := by
    have a := key h hq h1 (by omega)
    have b := key h.symm hp h2 (by omega)
    omega
  exact List.append_inj h e

/-- C91: a text has only one list of pieces -/
theorem pieces_unique {d : Bytes} {ps qs : List Bytes} (hp : Pieces d ps) (hq : Pieces d qs) : ps = qs := by
  suffices ∀ d ps, Pieces d ps → ∀ d' qs, Pieces d' qs → d = d' → ps = qs from this _ _ hp _ _ hq rfl
  intro d ps hp
  induction hp with
  | nil =>
    intro d' qs hq e
    cases hq with
    | nil => rfl
    | brk => cases e
    | piece h => exact absurd (List.append_eq_nil_iff.mp e.symm).1 h
  | @brk c rest ps hb hp ih =>
    intro d' qs hq e
    cases hq with
    | nil => cases e
    | brk hb' hq' => exact ih _ _ hq' (List.cons.inj e).2
    | @piece q r qs h1 h2 h3 h4 =>
      cases q with
      | nil => exact absurd rfl h1
      | cons x q => exact absurd hb (by rw [(List.cons.inj e).1]; exact h2 x (by simp))
  | @piece p rest ps h1 h2 h3 hp ih =>
    intro d' qs hq e
    cases hq with
    | nil => exact absurd (List.append_eq_nil_iff.mp e).1 h1
    | brk hb =>
      cases p with
      | nil => exact absurd rfl h1
      | cons x p => exact absurd hb (by rw [← (List.cons.inj e).1]; exact h2 x (by simp))
    | piece k1 k2 k3 k4 =>
      obtain ⟨rfl, rfl⟩ := piece_split e h2 k2 h3 k3
      rw [ih _ _ k4 rfl]

theorem heapInsert_four (mins : Bool) (h h' : Heap) (x : UInt32) (hs : 4 ≤ h.size) (he : heapInsert mins h x = .ok h') : 4 ≤ h'.size := by
  unfold heapInsert at he
  split at he
  · rw [bind_eq_ok] at he
    obtain ⟨v, -, he⟩ := he
    rw [bind_eq_ok] at he
    obtain ⟨v', -, he⟩ := he
    cases he
    simp; omega
  · rename_i hn
    have hn : ¬ h.size < 127 := hn
    rw [bind_eq_ok] at he
    obtain ⟨t, -, he⟩ := he
    split at he
    · rw [bind_eq_ok] at he
      obtain ⟨_, -, he⟩ := he
      rw [bind_eq_ok] at he
      obtain ⟨_, -, he⟩ := he
      rw [bind_eq_ok] at he
      obtain ⟨_, -, he⟩ := he
      cases he
      simp; omega
    · cases he; exact hs

theorem heapAll_four (mins : Bool) : ∀ (xs : List UInt32) (h h' : Heap), 4 ≤ h.size → heapAll mins h xs = .ok h' → 4 ≤ h'.size := by
  intro xs
  induction xs with
  | nil => intro h h' hs he; cases he; exact hs
  | cons x xs ih =>
    intro h h' hs he
    rw [heapAll, bind_eq_ok] at he
    obtain ⟨h1, g1, g2⟩ := he
    exact ih _ _ (heapInsert_four mins h h1 x hs g1) g2

/-- fewer than four values are in the heap only when fewer than four were put in -/
theorem heapAll_small (mins : Bool) (xs : List UInt32) (h' : Heap) (he : heapAll mins heapInit xs = .ok h') : h'.size < 4 ↔ xs.length < 4 := by
  obtain ⟨h1, g1, g2, -, g4⟩ := heapAll_ok mins xs heapInit heapInit_inv
  rw [he] at g1
  have e : h' = h1 := by injection g1
  subst e
  by_cases hl : xs.length ≤ 127
  · obtain ⟨k1, -⟩ := g4 (by simpa [heapInit] using hl)
    simp only [heapInit] at k1
    omega
  · constructor
    · intro hlt
      exfalso
      rw [← List.take_append_drop 4 xs, heapAll_append, bind_eq_ok] at he
      obtain ⟨h2, m1, m2⟩ := he
      obtain ⟨h3, n1, -, -, n4⟩ := heapAll_ok mins (xs.take 4) heapInit heapInit_inv
      rw [m1] at n1
      have e : h2 = h3 := by injection n1
      subst e
      obtain ⟨n5, -⟩ := n4 (by simp [heapInit]; omega)
      have : h2.size = 4 := by rw [n5]; simp [heapInit]; omega
      have := heapAll_four mins _ _ _ (by omega) m2
      omega
    · intro h; omega

/-- C91: a signature is refused exactly when the text has fewer than four pieces and small texts were not allowed -/
theorem refused_iff (o : Opts) (hs : o.smart = false) (after data : Bytes) (ha : after ≠ []) (ps : List Bytes) (hp : Pieces (seen o.ignore data) ps) :
    create o after data = .err (-6) ↔ ps.length < 4 ∧ o.small = false := by
  obtain ⟨w, qs, g1, g2, g3, g4, g5⟩ := create_pieces o hs after data ha
  have e := pieces_unique hp g3
  subst e
  have := heapAll_small true _ _ g4
  rw [List.length_map] at this
  rw [g1, finalize]
  by_cases h : w.mins.size < 4 ∧ ¬ o.small = true
  · rw [if_pos h]
    exact ⟨fun _ => ⟨this.1 h.1, by simpa using h.2⟩, fun _ => rfl⟩
  · rw [if_neg h]
    constructor
    · intro hh; cases hh
    · intro hh; exact absurd ⟨this.2 hh.1, by simp [hh.2]⟩ h

/-- what is in a signature of a text of at most 127 pieces: exactly the hashes of the pieces, in order -/
theorem create_mem (o : Opts) (hs : o.smart = false) (after data : Bytes) (ha : after ≠ []) (ps : List Bytes) (hp : Pieces (seen o.ignore data) ps)
    (hl : ps.length ≤ 127) (s : HSig) (hc : create o after data = .ok s) :
    s.opt = o ∧ s.mins.Perm (ps.map pieceHash) ∧ s.maxs.Perm (ps.map pieceHash) ∧ s.mins.Pairwise (fun x y => cmp true x y ≤ 0) ∧
      s.maxs.Pairwise (fun x y => cmp false x y ≤ 0) := by
  obtain ⟨w, qs, g1, g2, g3, g4, g5⟩ := create_pieces o hs after data ha
  have e := pieces_unique hp g3
  subst e
  rw [g1] at hc
  unfold finalize at hc
  split at hc
  · cases hc
  · cases hc
    have key : ∀ mins h, heapAll mins heapInit (ps.map pieceHash) = .ok h → (heapSort mins h).Perm (ps.map pieceHash) := by
      intro mins h hh
      obtain ⟨h1, k1, -, -, k4⟩ := heapAll_ok mins (ps.map pieceHash) heapInit heapInit_inv
      rw [hh] at k1
      have e : h = h1 := by injection k1
      subst e
      obtain ⟨-, k5⟩ := k4 (by simpa [heapInit] using hl)
      simp only [heapInit, List.take_zero, List.nil_append] at k5
      exact (heapSort_perm mins h).trans k5
    exact ⟨rfl, key _ _ g4, key _ _ g5, heapSort_sorted _ _, heapSort_sorted _ _⟩

theorem heapCompare_dice (mins : Bool) (a b xs ys : List UInt32) (ha : a.Perm xs) (hb : b.Perm ys)
    (h1 : a.Pairwise (fun x y => cmp mins x y ≤ 0)) (h2 : b.Pairwise (fun x y => cmp mins x y ≤ 0)) (h : xs.length + ys.length ≠ 0) :
    heapCompare mins a b = .ok (dice xs ys) := by
  have e1 := ha.length_eq
  have e2 := hb.length_eq
  rw [heapCompare, matchLoop_common mins _ a b 0 (by omega) h1 h2]
  simp only [Res.bind_ok, Nat.zero_add]
  rw [if_neg (by omega), dice, e1, e2, common_perm_left ha, common_perm_right hb, Nat.mul_comm (common xs ys)]

/-- C91: two texts of at most 127 pieces each, not both without any, are as similar as the share of pieces (by their hashes) they have in common -/
theorem compare_dice (o o' : Opts) (hs : o.smart = false) (hs' : o'.smart = false) (after after' data data' : Bytes) (ha : after ≠ []) (ha' : after' ≠ [])
    (ps qs : List Bytes) (hp : Pieces (seen o.ignore data) ps) (hq : Pieces (seen o'.ignore data') qs) (hl : ps.length ≤ 127) (hl' : qs.length ≤ 127)
    (hne : ps ≠ [] ∨ qs ≠ []) (a b : HSig) (hca : create o after data = .ok a) (hcb : create o' after' data' = .ok b) :
    compare a b = .ok (dice (ps.map pieceHash) (qs.map pieceHash)) := by
  obtain ⟨-, a1, a2, a3, a4⟩ := create_mem o hs after data ha ps hp hl a hca
  obtain ⟨-, b1, b2, b3, b4⟩ := create_mem o' hs' after' data' ha' qs hq hl' b hcb
  have hne : ps.length + qs.length ≠ 0 := by
    rcases hne with h | h <;> have := List.length_pos_iff.mpr h <;> omega
  have e1 := a1.length_eq
  have e2 := b1.length_eq
  simp only [List.length_map] at e1 e2
  unfold compare
  rw [if_neg (by omega)]
  rw [heapCompare_dice true _ _ _ _ a1 b1 a3 b3 (by simpa using hne), heapCompare_dice false _ _ _ _ a2 b2 a4 b4 (by simpa using hne)]
  split
  · rfl
  · simp only [Res.bind_ok]
    congr 1
    omega

theorem common_self (xs : List UInt32) : common xs xs = xs.length := by
  induction xs with
  | nil => rfl
  | cons x xs ih => simp [common, ih]

/-- C91: the order of the pieces does not matter then -/
theorem compare_order (o o' : Opts) (hs : o.smart = false) (hs' : o'.smart = false) (after after' data data' : Bytes) (ha : after ≠ []) (ha' : after' ≠ [])
    (ps qs : List Bytes) (hp : Pieces (seen o.ignore data) ps) (hq : Pieces (seen o'.ignore data') qs) (hl : ps.length ≤ 127)
    (hne : ps ≠ []) (hperm : ps.Perm qs) (a b : HSig) (hca : create o after data = .ok a) (hcb : create o' after' data' = .ok b) :
    compare a b = .ok 100 := by
  rw [compare_dice o o' hs hs' after after' data data' ha ha' ps qs hp hq hl (by rw [← hperm.length_eq]; exact hl) (.inl hne) a b hca hcb, dice]
  have := hperm.map pieceHash
  rw [← common_perm_right this, common_self, ← this.length_eq, List.length_map]
  have : 0 < ps.length := List.length_pos_iff.mpr hne
  congr 1
  rw [show 100 * (2 * ps.length) = 100 * (ps.length + ps.length) by omega]
  exact Nat.mul_div_cancel _ (by omega)

theorem compare_symm_of {a b : HSig} (ha : a.mins.length = a.maxs.length) (hb : b.mins.length = b.maxs.length)
    (h : a.mins.length < 127 ∧ b.mins.length < 127) (ho : a.opt = b.opt) : compare a b = compare b a := by
  unfold compare heapSize
  rw [if_pos h.1, if_pos h.2]
  by_cases h0 : a.mins.length = 0 ∧ b.mins.length = 0
  · have h0' : b.mins.length = 0 ∧ a.mins.length = 0 := ⟨h0.2, h0.1⟩
    rw [if_pos h0, if_pos h0', ho]
    simp only [And.comm]
  · rw [if_neg h0, if_neg (fun hh => h0 ⟨hh.2, hh.1⟩)]
    obtain ⟨n, g1, -, g2⟩ := heapCompare_ok true a.mins b.mins (by omega)
    rw [g1, g2]

theorem common_symm (xs ys : List UInt32) : common xs ys = common ys xs := by
  let f := fun l : List UInt32 => heapSort true ⟨l, l.length⟩
  have hf : ∀ l, (f l).Perm l := fun l => by simpa using heapSort_perm true ⟨l, l.length⟩
  have hs : ∀ l, (f l).Pairwise (fun x y => cmp true x y ≤ 0) := fun l => heapSort_sorted true ⟨l, l.length⟩
  obtain ⟨m, g1, -, -, g2⟩ := matchLoop_ok true ((f xs).length + (f ys).length + 1) (f xs) (f ys) 0 (by omega)
  rw [matchLoop_common true _ _ _ _ (by omega) (hs xs) (hs ys)] at g1
  rw [matchLoop_common true _ _ _ _ (by omega) (hs ys) (hs xs)] at g2
  have e1 : 0 + common (f xs) (f ys) = 0 + m := by injection g1
  have e2 : 0 + common (f ys) (f xs) = 0 + m := by injection g2
  rw [← common_perm_left (hf xs), ← common_perm_right (hf ys), ← common_perm_left (hf ys), ← common_perm_right (hf xs)]
  omega

/-- C91: and the score does not depend on which text is first -/
theorem compare_symm (o : Opts) (hs : o.smart = false) (after after' data data' : Bytes) (ha : after ≠ []) (ha' : after' ≠ [])
    (ps qs : List Bytes) (hp : Pieces (seen o.ignore data) ps) (hq : Pieces (seen o.ignore data') qs) (hl : ps.length ≤ 127) (hl' : qs.length ≤ 127)
    (a b : HSig) (hca : create o after data = .ok a) (hcb : create o after' data' = .ok b) : compare a b = compare b a := by
  by_cases hne : ps ≠ [] ∨ qs ≠ []
  · rw [compare_dice o o hs hs after after' data data' ha ha' ps qs hp hq hl hl' hne a b hca hcb,
      compare_dice o o hs hs after' after data' data ha' ha qs ps hq hp hl' hl hne.symm b a hcb hca, dice, dice,
      common_symm, Nat.add_comm]
  · obtain ⟨a0, a1, a2, -⟩ := create_mem o hs after data ha ps hp hl a hca
    obtain ⟨b0, b1, b2, -⟩ := create_mem o hs after' data' ha' qs hq hl' b hcb
    have hp0 : ps = [] := Classical.byContradiction fun h => hne (.inl h)
    have hq0 : qs = [] := Classical.byContradiction fun h => hne (.inr h)
    refine compare_symm_of ?_ ?_ ?_ (a0.trans b0.symm)
    · rw [a1.length_eq, a2.length_eq]
    · rw [b1.length_eq, b2.length_eq]
    · rw [a1.length_eq, b1.length_eq, hp0, hq0]; decide

/-- C91: with blanks ignored, texts that differ in blanks only are both refused or are entirely similar, however long they are -/
theorem blanks_ignored (o : Opts) (hs : o.smart = false) (hi : o.ignore = true) (after after' data data' : Bytes) (ha : after ≠ []) (ha' : after' ≠ [])
    (he : data.filter (fun c => ¬ Blank c) = data'.filter (fun c => ¬ Blank c)) :
    (create o after data = .err (-6) ∧ create o after' data' = .err (-6)) ∨
      ∃ a b, create o after data = .ok a ∧ create o after' data' = .ok b ∧ a.mins = b.mins ∧ a.maxs = b.maxs ∧ compare a b = .ok 100 := by
  obtain ⟨w, ps, g1, g2, g3, g4, g5⟩ := create_pieces o hs after data ha
  obtain ⟨v, qs, k1, k2, k3, k4, k5⟩ := create_pieces o hs after' data' ha'
  have hseen : seen o.ignore data = seen o.ignore data' := by simp only [seen, hi, if_true]; exact he
  rw [hseen] at g3
  have e := pieces_unique g3 k3
  subst e
  rw [g4] at k4
  rw [g5] at k5
  have e1 : w.mins = v.mins := by injection k4
  have e2 : w.maxs = v.maxs := by injection k5
  by_cases hsm : w.mins.size < 4 ∧ ¬ o.small = true
  · left
    rw [g1, k1, finalize, finalize, if_pos hsm, ← e1, if_pos hsm]
    exact ⟨rfl, rfl⟩
  · right
    have f1 : create o after data = .ok ⟨heapSort true w.mins, heapSort false w.maxs, w.lines, o⟩ := by rw [g1, finalize, if_neg hsm]
    have f2 : create o after' data' = .ok ⟨heapSort true v.mins, heapSort false v.maxs, v.lines, o⟩ := by rw [k1, finalize, if_neg (by rw [← e1]; exact hsm)]
    refine ⟨_, _, f1, f2, by simp only [e1], by simp only [e2], ?_⟩
    have h := compare_self (.buffer ha f1) (.inr (.inr hi))
    simp only [compare, hi, or_true] at h ⊢
    rw [← e1, ← e2]
    exact h

/-- C91: without it, equal texts are entirely similar or have no piece -/
theorem equal_similar (o : Opts) (after after' data : Bytes) (ha : after ≠ []) (s t : HSig) (hs : o.smart = false) (ha' : after' ≠ [])
    (h1 : create o after data = .ok s) (h2 : create o after' data = .ok t) : s.mins = t.mins ∧ s.maxs = t.maxs ∧ (s.mins ≠ [] → compare s t = .ok 100) := by
  obtain ⟨w, ps, g1, g2, g3, g4, g5⟩ := create_pieces o hs after data ha
  obtain ⟨v, qs, k1, k2, k3, k4, k5⟩ := create_pieces o hs after' data ha'
  have e := pieces_unique g3 k3
  subst e
  rw [g4] at k4
  rw [g5] at k5
  have e1 : w.mins = v.mins := by injection k4
  have e2 : w.maxs = v.maxs := by injection k5
  have hm := Made.buffer ha h1
  rw [g1] at h1
  rw [k1] at h2
  unfold finalize at h1 h2
  split at h1
  · cases h1
  · split at h2
    · cases h2
    · injection h1 with d1
      injection h2 with d2
      subst d1 d2
      refine ⟨by simp only [e1], by simp only [e2], fun hne => ?_⟩
      have h := compare_self hm (.inl hne)
      unfold compare at h ⊢
      simp only [e1, e2] at h hne ⊢
      have hl : (heapSort true v.mins).length ≠ 0 := fun hh => hne (List.length_eq_zero_iff.mp hh)
      simp only [hl, false_and, if_false] at h ⊢
      exact h

/-! ## Concrete cases -/

def plain : Opts := ⟨false, false, true⟩
def blank : Opts := ⟨true, false, true⟩

/-- the hypotheses of the theorems are met, and the score of texts that have two of three lines in common is 66 -/
example : (match create plain [0] (b!"one\ntwo\nthree\n") with
  | .ok a => match create plain [0] (b!"two\nfour\none\n") with
    | .ok b => match compare a b with | .ok n => n | _ => 0
    | _ => 0
  | _ => 0) = 66 := by decide +kernel

/-- the byte after the text is read: with blanks ignored, a text that ends in a blank and is followed by nothing is read past its end -/
theorem read_past_end : (match create blank [] (b!"one ") with | .ub => true | _ => false) = true := by decide +kernel

/-- a text of `n` lines, all different -/
def sample (n : Nat) : Bytes := (List.range n).flatMap fun i => [UInt8.ofNat (33 + 8 * i % 90), UInt8.ofNat (33 + i / 90 + 1), 10]

/-- `compare a b` of the signatures of two texts -/
def score (o : Opts) (x y : Bytes) : Option Nat :=
  match create o [0] x, create o [0] y with
  | .ok a, .ok b => match compare a b with | .ok n => some n | _ => none
  | _, _ => none

/-- a file of empty lines is not similar to itself -/
theorem empty_lines_differ : score plain (b!"\n\n") (b!"\n\n") = some 0 := by decide +kernel

/-- with more than 127 pieces, a value that finds the heap full takes the largest out and is not put in, so that fewer are kept -/
theorem full_heap_loses : (match create plain [0] (sample 128) with | .ok s => some (s.mins.length, s.maxs.length) | _ => none) = some (126, 126) := by
  decide +kernel

/-- and then the score depends on which text is first -/
theorem long_not_symmetric : score plain (sample 146) (sample 127) = some 93 ∧ score plain (sample 127) (sample 146) = some 92 := by
  decide +kernel

/-- a state is not carried from one part that is read of a file to the next: the same contents have other pieces -/
theorem split_differs : (match createFromFile plain [(b!"ab", [0]), (b!"c", [0])], create plain [0] (b!"abc") with
  | .ok s, .ok t => decide (compare s t = .ok 0) | _, _ => false) = true := by decide +kernel

end Verif.Hashsig
