import Verif.Hashsig.Lemmas
/-! # Going through the text -/
namespace Verif.Hashsig
open Spec

theorem skip_spec (p : UInt8 → Bool) (after : Bytes) (ha : after ≠ []) : ∀ (t : Bytes) (ch : UInt8),
    ∃ ch', skip p after ch (ch :: t) = .ok (ch', (ch :: t).dropWhile p) ∧ ∀ c t', (ch :: t).dropWhile p = c :: t' → ch' = c := by
  intro t
  induction t with
  | nil =>
    intro ch
    by_cases hp : p ch = true
    · obtain ⟨c, hc⟩ : ∃ c, peek after [] = .ok c := by
        cases after with
        | nil => exact absurd rfl ha
        | cons c _ => exact ⟨c, rfl⟩
      refine ⟨c, by simp [skip, hp, hc], ?_⟩
      intro c t' h; simp [hp] at h
    · refine ⟨ch, by simp [skip, hp], ?_⟩
      intro c t' h; simp [hp] at h; exact h.1
  | cons x t ih =>
    intro ch
    by_cases hp : p ch = true
    · obtain ⟨ch', g1, g2⟩ := ih x
      refine ⟨ch', ?_, ?_⟩
      · rw [skip, if_pos hp]
        simp only [peek, List.cons_append, Res.bind_ok, List.dropWhile_cons, hp, if_true]
        rw [g1]; simp only [List.dropWhile_cons]
      · intro c t' h
        rw [List.dropWhile_cons, if_pos hp] at h
        exact g2 c t' h
    · refine ⟨ch, by simp [skip, hp], ?_⟩
      intro c t' h; simp [hp] at h; exact h.1

/-- what is passed over before a byte is looked at -/
def passed (o : Opts) (use : Bool) : UInt8 → Bool :=
  if use then isspaceNonlf else if o.ignore ∨ o.smart then (· = c!"\r") else fun _ => false

/-- one turn of `runLoop` -/
theorem runLoop_step (o : Opts) (after : Bytes) (ha : after ≠ []) (fuel : Nat) (d : Bytes) (hd : d ≠ []) (len : Nat) (hl : len < 80) (st : UInt64)
    (use : Bool) (lines : Nat) : ∃ ch, (∀ c t', d.dropWhile (passed o use) = c :: t' → ch = c) ∧
      runLoop o after (fuel + 1) ⟨d, len, st, use, lines⟩ =
        (if d.dropWhile (passed o use) = [] then .ok ⟨[], len, st, if o.smart then decide (ch = c!"\n") else use, lines⟩
         else if ch = c!"\n" ∨ ch = 0 then
           .ok ⟨(d.dropWhile (passed o use)).drop 1, len, st, if o.smart then decide (ch = c!"\n") else use, lines + 1⟩
         else runLoop o after fuel ⟨(d.dropWhile (passed o use)).drop 1, len + 1, st <<< 5 - st + UInt64.ofNat ch.toNat,
           if o.smart then decide (ch = c!"\n") else use, lines⟩) := by
  obtain ⟨c, t, rfl⟩ := List.exists_cons_of_ne_nil hd
  have hsk : ∃ ch, (∀ c' t', (c :: t).dropWhile (passed o use) = c' :: t' → ch = c') ∧
      passOver o use after c (c :: t) = .ok (ch, (c :: t).dropWhile (passed o use)) := by
    unfold passed passOver
    by_cases hu : use = true
    · simp only [hu, if_true]
      obtain ⟨ch, g1, g2⟩ := skip_spec isspaceNonlf after ha t c
      exact ⟨ch, g2, g1⟩
    · simp only [hu, Bool.false_eq_true, if_false]
      by_cases ho : o.ignore = true ∨ o.smart = true
      · simp only [ho, if_true]
        obtain ⟨ch, g1, g2⟩ := skip_spec (· = c!"\r") after ha t c
        exact ⟨ch, g2, g1⟩
      · simp only [ho, if_false]
        refine ⟨c, ?_, ?_⟩
        · intro c' t' h; simp at h; exact h.1
        · simp
  obtain ⟨ch, h1, h2⟩ := hsk
  refine ⟨ch, h1, ?_⟩
  rw [runLoop]
  rw [if_neg (by simp; omega)]
  simp only [peek, List.cons_append, Res.bind_ok]
  rw [h2]
  simp only [Res.bind_ok]
  split
  · rename_i h; rw [h]
  · rfl

theorem dropWhile_length_le (p : UInt8 → Bool) (d : Bytes) : (d.dropWhile p).length ≤ d.length := by
  induction d with
  | nil => simp
  | cons c d ih => rw [List.dropWhile_cons]; split <;> simp <;> omega

/-- a run always ends, and goes on in the text unless it is full -/
theorem runLoop_ok (o : Opts) (after : Bytes) (ha : after ≠ []) : ∀ fuel (d : Bytes) len st use lines, d.length < fuel →
    ∃ r, runLoop o after fuel ⟨d, len, st, use, lines⟩ = .ok r ∧ r.d.length ≤ d.length ∧ (d ≠ [] → len < 80 → r.d.length < d.length) := by
  intro fuel
  induction fuel with
  | zero => intro d len st use lines h; omega
  | succ fuel ih =>
    intro d len st use lines h
    by_cases hd : d = []
    · rw [runLoop, if_pos (.inl hd)]; exact ⟨_, rfl, Nat.le_refl _, fun h => absurd hd h⟩
    by_cases hl : len < 80
    · obtain ⟨ch, h1, h2⟩ := runLoop_step o after ha fuel d hd len hl st use lines
      have hle := dropWhile_length_le (passed o use) d
      have hpos : 0 < d.length := List.length_pos_iff.mpr hd
      rw [h2]
      split
      · exact ⟨_, rfl, by simp, fun _ _ => by simpa using hpos⟩
      · split
        · refine ⟨_, rfl, ?_, ?_⟩
          · simp; omega
          · intro _ _; simp; omega
        · obtain ⟨r, g1, g2, -⟩ := ih ((d.dropWhile (passed o use)).drop 1) (len + 1) (st <<< 5 - st + UInt64.ofNat ch.toNat)
            (if o.smart then decide (ch = c!"\n") else use) lines (by simp; omega)
          simp only [List.length_drop] at g2
          exact ⟨r, g1, by omega, fun _ _ => by omega⟩
    · rw [runLoop, if_pos (.inr (by simp only; omega))]
      exact ⟨_, rfl, Nat.le_refl _, fun _ h => absurd h hl⟩

def WInv (w : Work) : Prop := HInv w.mins ∧ HInv w.maxs ∧ (w.mins.size = 0 ↔ w.maxs.size = 0)

theorem insert_ok (w : Work) (hw : WInv w) (x : UInt32) : ∃ w', insert w x = .ok w' ∧ WInv w' ∧ w'.lines = w.lines ∧
    heapInsert true w.mins x = .ok w'.mins ∧ heapInsert false w.maxs x = .ok w'.maxs := by
  obtain ⟨h1, h2, -⟩ := hw
  obtain ⟨a, a1, a2, a3, -⟩ := heapInsert_ok true w.mins h1 x
  obtain ⟨b, b1, b2, b3, -⟩ := heapInsert_ok false w.maxs h2 x
  unfold insert
  rw [a1, b1]
  exact ⟨_, rfl, ⟨a2, b2, ⟨fun h => by simp at h; omega, fun h => by simp at h; omega⟩⟩, rfl, rfl, rfl⟩

theorem hashLoop_ok (o : Opts) (after : Bytes) (ha : after ≠ []) : ∀ fuel (d : Bytes) use w, d.length < fuel → WInv w →
    ∃ w' use', hashLoop o after fuel d use w = .ok (w', use') ∧ WInv w' := by
  intro fuel
  induction fuel with
  | zero => intro d use w h; omega
  | succ fuel ih =>
    intro d use w h hw
    unfold hashLoop
    by_cases hd : d = []
    · rw [if_pos hd]; exact ⟨_, _, rfl, hw⟩
    · rw [if_neg hd]
      obtain ⟨r, g1, -, g2⟩ := runLoop_ok o after ha (d.length + 1) d 0 0x012345678ABCDEF0 use w.lines (by omega)
      have g2 := g2 hd (by omega)
      rw [g1]
      simp only [Res.bind_ok]
      split
      · obtain ⟨w', k1, k2, -⟩ := insert_ok { w with lines := r.lines } hw r.state.toUInt32
        rw [k1]
        simp only [Res.bind_ok]
        have := dropWhile_length_le (fun c => decide (c = c!"\n" ∨ c = 0)) r.d
        exact ih _ _ _ (by omega) k2
      · exact ih _ _ _ (by omega) hw

/-! ## The pieces -/

theorem passed_ign (o : Opts) (hs : o.smart = false) (c : UInt8) : passed o o.ignore c = true ↔ o.ignore = true ∧ Blank c := by
  unfold passed
  by_cases hi : o.ignore = true
  · simp [hi, isspaceNonlf, Blank]
  · simp [hi, hs]

theorem seen_dropWhile (o : Opts) (hs : o.smart = false) (d : Bytes) : seen o.ignore (d.dropWhile (passed o o.ignore)) = seen o.ignore d := by
  induction d with
  | nil => rfl
  | cons c d ih =>
    rw [List.dropWhile_cons]
    split
    · rename_i h
      obtain ⟨h1, h2⟩ := (passed_ign o hs c).1 h
      rw [ih]
      simp [seen, h1, h2]
    · rfl

theorem seen_cons (o : Opts) (hs : o.smart = false) (c : UInt8) (d : Bytes) (h : ¬ passed o o.ignore c = true) :
    seen o.ignore (c :: d) = c :: seen o.ignore d := by
  rw [passed_ign o hs] at h
  unfold seen
  by_cases hi : o.ignore = true
  · have : ¬ Blank c := fun hb => h ⟨hi, hb⟩
    simp [hi, this]
  · simp [hi]

theorem seen_nil (b : Bool) : seen b [] = [] := by unfold seen; split <;> rfl

theorem dropWhile_head' {p : UInt8 → Bool} {d : Bytes} {c : UInt8} {t : Bytes} (h : d.dropWhile p = c :: t) : ¬ p c = true := by
  induction d with
  | nil => cases h
  | cons x d ih =>
    rw [List.dropWhile_cons] at h
    split at h
    · exact ih h
    · rename_i hx; cases h; exact hx

theorem mix_eq (s : UInt64) (c : UInt8) : s <<< 5 - s + UInt64.ofNat c.toNat = s * 31 + UInt64.ofNat c.toNat := by
  have h : s <<< 5 - s = s * 31 := by
    apply UInt64.toBitVec_inj.mp
    have h1 : (s <<< 5).toBitVec = s.toBitVec * 32#64 := by
      rw [UInt64.toBitVec_shiftLeft]
      apply BitVec.eq_of_toNat_eq
      simp [Nat.shiftLeft_eq]
    rw [UInt64.toBitVec_sub, h1, UInt64.toBitVec_mul]
    have h2 : (31 : UInt64).toBitVec = 32#64 - 1#64 := by decide
    rw [h2, BitVec.mul_sub, BitVec.mul_one]
  rw [h]

/-- a run is the rest of a piece -/
theorem runLoop_spec (o : Opts) (hs : o.smart = false) (after : Bytes) (ha : after ≠ []) : ∀ fuel (d : Bytes) len st lines, d.length < fuel → len ≤ 80 →
    ∃ r p, runLoop o after fuel ⟨d, len, st, o.ignore, lines⟩ = .ok r ∧ r.use = o.ignore ∧ (∀ c ∈ p, ¬ Break c) ∧ r.len = len + p.length ∧ r.len ≤ 80 ∧
      r.state = p.foldl (fun s c => s * 31 + UInt64.ofNat c.toNat) st ∧
      ((r.len = 80 ∧ seen o.ignore d = p ++ seen o.ignore r.d) ∨ (r.len < 80 ∧ ∃ c, Break c ∧ seen o.ignore d = p ++ c :: seen o.ignore r.d) ∨
        (seen o.ignore d = p ∧ r.d = [])) := by
  intro fuel
  induction fuel with
  | zero => intro d len st lines h; omega
  | succ fuel ih =>
    intro d len st lines h hl
    by_cases hd : d = []
    · rw [runLoop, if_pos (.inl hd)]
      exact ⟨_, [], rfl, rfl, by simp, rfl, hl, rfl, .inr (.inr ⟨by rw [hd, seen_nil], hd⟩)⟩
    by_cases hl' : len < 80
    · obtain ⟨ch, h1, h2⟩ := runLoop_step o after ha fuel d hd len hl' st o.ignore lines
      rw [h2]
      simp only [hs, Bool.false_eq_true, if_false]
      have hseen := seen_dropWhile o hs d
      cases hdw : d.dropWhile (passed o o.ignore) with
      | nil =>
        rw [hdw] at hseen
        rw [if_pos rfl]
        exact ⟨_, [], rfl, rfl, by simp, rfl, hl, rfl, .inr (.inr ⟨by rw [← hseen, seen_nil], rfl⟩)⟩
      | cons c t =>
        have hc := h1 c t hdw
        subst hc
        rw [hdw, seen_cons o hs _ _ (dropWhile_head' hdw)] at hseen
        rw [if_neg (by simp)]
        simp only [List.drop_one, List.tail_cons]
        by_cases hb : ch = c!"\n" ∨ ch = 0
        · rw [if_pos hb]
          exact ⟨_, [], rfl, rfl, by simp, rfl, hl, rfl, .inr (.inl ⟨hl', ch, hb, by rw [← hseen]; rfl⟩)⟩
        · rw [if_neg hb]
          have hlt : t.length < fuel := by
            have := dropWhile_length_le (passed o o.ignore) d
            rw [hdw] at this
            simp at this; omega
          obtain ⟨r, p, g1, g2, g3, g4, g5, g6, g7⟩ := ih t (len + 1) (st <<< 5 - st + UInt64.ofNat ch.toNat) lines hlt (by omega)
          refine ⟨r, ch :: p, g1, g2, ?_, by simp; omega, g5, ?_, ?_⟩
          · intro c hc
            rcases List.mem_cons.mp hc with rfl | hc
            · exact hb
            · exact g3 c hc
          · rw [g6, List.foldl_cons, mix_eq]
          · rw [← hseen]
            rcases g7 with ⟨k1, k2⟩ | ⟨k0, c, k1, k2⟩ | ⟨k1, k2⟩
            · exact .inl ⟨k1, by rw [k2]; rfl⟩
            · exact .inr (.inl ⟨k0, c, k1, by rw [k2]; rfl⟩)
            · exact .inr (.inr ⟨by rw [k1], k2⟩)
    · have : len = 80 := by omega
      rw [runLoop, if_pos (.inr (by simp only; omega))]
      exact ⟨_, [], rfl, rfl, by simp, rfl, hl, rfl, .inl ⟨this, rfl⟩⟩

theorem pieces_dropWhile (o : Opts) (d : Bytes) (ps : List Bytes)
    (h : Pieces (seen o.ignore (d.dropWhile (fun c => decide (c = c!"\n" ∨ c = 0)))) ps) : Pieces (seen o.ignore d) ps := by
  induction d with
  | nil => exact h
  | cons c d ih =>
    rw [List.dropWhile_cons] at h
    split at h
    · rename_i hc
      have hc : Break c := by simpa [Break] using hc
      have hb : ¬ Blank c := by rcases hc with rfl | rfl <;> decide
      have : seen o.ignore (c :: d) = c :: seen o.ignore d := by
        unfold seen; by_cases hi : o.ignore = true <;> simp [hi, hb]
      rw [this]
      exact .brk hc (ih h)
    · exact h

theorem hashLoop_spec (o : Opts) (hs : o.smart = false) (after : Bytes) (ha : after ≠ []) : ∀ fuel (d : Bytes) w, d.length < fuel → WInv w →
    ∃ w' ps, hashLoop o after fuel d o.ignore w = .ok (w', o.ignore) ∧ Pieces (seen o.ignore d) ps ∧
      heapAll true w.mins (ps.map pieceHash) = .ok w'.mins ∧ heapAll false w.maxs (ps.map pieceHash) = .ok w'.maxs := by
  intro fuel
  induction fuel with
  | zero => intro d w h; omega
  | succ fuel ih =>
    intro d w h hw
    unfold hashLoop
    by_cases hd : d = []
    · rw [if_pos hd]
      exact ⟨w, [], rfl, by rw [hd, seen_nil]; exact .nil, rfl, rfl⟩
    · rw [if_neg hd]
      obtain ⟨r', g1', -, glt⟩ := runLoop_ok o after ha (d.length + 1) d 0 0x012345678ABCDEF0 o.ignore w.lines (by omega)
      have glt := glt hd (by omega)
      obtain ⟨r, p, g1, g2, g3, g4, g5, g6, g7⟩ := runLoop_spec o hs after ha (d.length + 1) d 0 0x012345678ABCDEF0 w.lines (by omega) (by omega)
      rw [g1] at g1'
      have e : r = r' := by injection g1'
      subst e
      rw [g1]
      simp only [Res.bind_ok, g2]
      by_cases hl : 0 < r.len
      · rw [if_pos hl]
        obtain ⟨w1, k1, k2, -, k3, k4⟩ := insert_ok { w with lines := r.lines } hw r.state.toUInt32
        rw [k1]
        simp only [Res.bind_ok]
        have := dropWhile_length_le (fun c => decide (c = c!"\n" ∨ c = 0)) r.d
        obtain ⟨w2, ps, m1, m2, m3, m4⟩ := ih (r.d.dropWhile (fun c => decide (c = c!"\n" ∨ c = 0))) w1 (by omega) k2
        have hps := pieces_dropWhile o r.d ps m2
        have hp : p ≠ [] := by rintro rfl; simp at g4; omega
        have hh : r.state.toUInt32 = pieceHash p := by rw [g6]; rfl
        refine ⟨w2, p :: ps, m1, ?_, ?_, ?_⟩
        · rcases g7 with ⟨a1, a2⟩ | ⟨a0, c, a1, a2⟩ | ⟨a1, a2⟩
          · rw [a2]; exact .piece hp g3 (.inl (by omega)) hps
          · rw [a2]
            refine .piece hp g3 (.inr ⟨by omega, ?_⟩) (.brk a1 hps)
            intro c' hc'; simp at hc'; subst hc'; exact a1
          · rw [a2, seen_nil] at hps
            have e : seen o.ignore d = p ++ [] := by rw [a1, List.append_nil]
            rw [e]
            refine .piece hp g3 ?_ hps
            by_cases h80 : p.length = 80
            · exact .inl h80
            · exact .inr ⟨by omega, by simp⟩
        · rw [List.map_cons, heapAll, ← hh, k3]
          exact m3
        · rw [List.map_cons, heapAll, ← hh, k4]
          exact m4
      · rw [if_neg hl]
        obtain ⟨w2, ps, m1, m2, m3, m4⟩ := ih r.d { w with lines := r.lines } (by omega) hw
        have hp : p = [] := List.length_eq_zero_iff.mp (by omega)
        subst hp
        refine ⟨w2, ps, m1, ?_, m3, m4⟩
        rcases g7 with ⟨a1, a2⟩ | ⟨a0, c, a1, a2⟩ | ⟨a1, a2⟩
        · simp at g4; omega
        · rw [a2]; exact .brk a1 m2
        · rw [a2, seen_nil] at m2; rw [a1]; exact m2

end Verif.Hashsig
