import Verif.Delta.Props
/-! # A delta that was found under a size limit is found again without one -/
namespace Verif.PackObjects
open Verif.Delta

/-- the same up to the size of the buffer -/
def Sim (s t : St) : Prop := t = { s with bufsize := t.bufsize }

theorem put_again {b1 b2 : Nat} {buf bs x : Bytes} (h : put b1 buf bs = .ok x) : put b2 buf bs = .ub ∨ put b2 buf bs = .ok x := by
  unfold put at h ⊢
  split at h
  · cases h
    split
    · exact .inr rfl
    · exact .inl rfl
  · cases h

theorem sim_fields {s t : St} (h : Sim s t) : t.buf = s.buf ∧ t.inscnt = s.inscnt ∧ t.data = s.data ∧ t.moff = s.moff ∧ t.msize = s.msize ∧ t.val = s.val := by
  unfold Sim at h
  rw [h]
  exact ⟨rfl, rfl, rfl, rfl, rfl, rfl⟩

theorem sim_mk {s t : St} (h1 : t.buf = s.buf) (h2 : t.inscnt = s.inscnt) (h3 : t.data = s.data) (h4 : t.moff = s.moff) (h5 : t.msize = s.msize) (h6 : t.val = s.val) : Sim s t := by
  cases s; cases t
  simp only at h1 h2 h3 h4 h5 h6
  subst h1 h2 h3 h4 h5 h6
  rfl

theorem insertStep_again {trg : Bytes} {s t s' : St} (hs : Sim s t) (h : insertStep trg s = .ok s') : insertStep trg t = .ub ∨ ∃ t', insertStep trg t = .ok t' ∧ Sim s' t' := by
  obtain ⟨e1, e2, e3, e4, e5, e6⟩ := sim_fields hs
  unfold insertStep at h ⊢
  rw [e1, e2, e3]
  cases hc : trg[s.data]? with
  | none => exact .inl rfl
  | some c =>
    rw [hc] at h
    simp only at h ⊢
    cases hp : put s.bufsize s.buf (if s.inscnt = 0 then [0, c] else [c]) with
    | err e => rw [hp] at h; cases h
    | ub => rw [hp] at h; cases h
    | ok x =>
      rw [hp] at h
      simp only [Res.bind_ok] at h
      rcases put_again (b2 := t.bufsize) hp with h' | h'
      · rw [h']; exact .inl rfl
      · rw [h']
        simp only [Res.bind_ok]
        right
        split at h
        · rename_i hh
          rw [if_pos hh]
          cases h
          exact ⟨_, rfl, sim_mk rfl rfl rfl e4 rfl e6⟩
        · rename_i hh
          rw [if_neg hh]
          cases h
          exact ⟨_, rfl, sim_mk rfl rfl rfl e4 rfl e6⟩

theorem copyStep_again {ref trg : Bytes} {s t s' : St} (hs : Sim s t) (h : copyStep ref trg s = .ok s') : copyStep ref trg t = .ub ∨ ∃ t', copyStep ref trg t = .ok t' ∧ Sim s' t' := by
  obtain ⟨e1, e2, e3, e4, e5, e6⟩ := sim_fields hs
  have hfl : flushInsert ref trg t = flushInsert ref trg s := by unfold flushInsert; rw [e1, e2, e3, e4, e5]
  unfold copyStep at h ⊢
  rw [hfl]
  cases hf : flushInsert ref trg s with
  | err e => rw [hf] at h; cases h
  | ub => rw [hf] at h; cases h
  | ok b =>
    rw [hf] at h
    simp only [Res.bind_ok] at h ⊢
    generalize hleft : (if b.msize < 0x10000 then 0 else b.msize - 0x10000) = left at h ⊢
    cases hp : put s.bufsize b.buf (copyOp b.moff (b.msize - left)) with
    | err e => rw [hp] at h; cases h
    | ub => rw [hp] at h; cases h
    | ok x =>
      rw [hp] at h
      simp only [Res.bind_ok] at h
      rcases put_again (b2 := t.bufsize) hp with h' | h'
      · rw [h']; exact .inl rfl
      · rw [h']
        simp only [Res.bind_ok]
        right
        split at h
        · rename_i h1
          rw [if_pos h1]
          split at h
          · cases h
          · rename_i h2
            rw [if_neg h2]
            cases hsl : slice trg (b.data + (b.msize - left) - RABIN_WINDOW) RABIN_WINDOW with
            | err e => rw [hsl] at h; cases h
            | ub => rw [hsl] at h; cases h
            | ok w =>
              rw [hsl] at h
              simp only [Res.bind_ok] at h ⊢
              cases hr : rollAll 0 w with
              | err e => rw [hr] at h; cases h
              | ub => rw [hr] at h; cases h
              | ok v =>
                rw [hr] at h
                simp only [Res.bind_ok] at h ⊢
                cases h
                exact ⟨_, rfl, sim_mk rfl rfl rfl rfl rfl rfl⟩
        · rename_i h1
          rw [if_neg h1]
          cases h
          exact ⟨_, rfl, sim_mk rfl rfl rfl rfl rfl e6⟩

theorem searchStep_again {ix : Index} {trg : Bytes} {s t s' : St} (hs : Sim s t) (h : searchStep ix trg s = .ok s') : ∃ t', searchStep ix trg t = .ok t' ∧ Sim s' t' := by
  obtain ⟨e1, e2, e3, e4, e5, e6⟩ := sim_fields hs
  unfold searchStep at h ⊢
  rw [e3, e4, e5, e6]
  split at h
  · rename_i h1
    rw [if_pos h1]
    split at h
    · cases h
    · rename_i h2
      rw [if_neg h2]
      split at h
      · rename_i old c ho hc
        split at h
        · cases h
        · rename_i u hu
          cases hr : roll (s.val ^^^ u) c with
          | err e => rw [hr] at h; cases h
          | ub => rw [hr] at h; cases h
          | ok v =>
            rw [hr] at h
            simp only [Res.bind_ok] at h ⊢
            cases h
            exact ⟨_, rfl, sim_mk e1 e2 rfl rfl rfl rfl⟩
      · cases h
  · rename_i h1
    rw [if_neg h1]
    cases h
    exact ⟨t, rfl, hs⟩

theorem loopStep_again {ix : Index} {trg : Bytes} {mx : Nat} {s t s' : St} (hs : Sim s t) (h : loopStep ix trg mx s = .ok (true, s')) :
    loopStep ix trg 0 t = .ub ∨ ∃ t', loopStep ix trg 0 t = .ok (true, t') ∧ Sim s' t' := by
  unfold loopStep at h ⊢
  cases h1 : searchStep ix trg s with
  | err e => rw [h1] at h; cases h
  | ub => rw [h1] at h; cases h
  | ok s1 =>
    obtain ⟨t1, f1, f2⟩ := searchStep_again hs h1
    rw [h1] at h
    rw [f1]
    simp only [Res.bind_ok] at h ⊢
    have hms : t1.msize = s1.msize := (sim_fields f2).2.2.2.2.1
    rw [hms]
    have key : ∀ (r r' : Res St), (∀ s2, r = .ok s2 → r' = .ub ∨ ∃ t2, r' = .ok t2 ∧ Sim s2 t2) →
        (do let s ← r
            match growStep mx s with
            | none => .ok (false, s)
            | some s => .ok (true, s) : Res (Bool × St)) = .ok (true, s') →
        (do let s ← r'
            match growStep 0 s with
            | none => .ok (false, s)
            | some s => .ok (true, s) : Res (Bool × St)) = .ub ∨
        ∃ t', (do let s ← r'
                  match growStep 0 s with
                  | none => .ok (false, s)
                  | some s => .ok (true, s) : Res (Bool × St)) = .ok (true, t') ∧ Sim s' t' := by
      intro r r' hrr hr
      cases r with
      | err e => cases hr
      | ub => cases hr
      | ok s2 =>
        simp only [Res.bind_ok] at hr
        rcases hrr s2 rfl with rfl | ⟨t2, rfl, g2⟩
        · exact .inl rfl
        · right
          simp only [Res.bind_ok]
          obtain ⟨e1, e2, e3, e4, e5, e6⟩ := sim_fields g2
          have hg : ∃ t3, growStep 0 t2 = some t3 ∧ Sim t2 t3 := by
            unfold growStep
            split
            · dsimp only
              rw [if_neg (by simp), if_neg (by simp)]
              exact ⟨_, rfl, sim_mk rfl rfl rfl rfl rfl rfl⟩
            · exact ⟨t2, rfl, rfl⟩
          obtain ⟨t3, g3, g4⟩ := hg
          rw [g3]
          refine ⟨t3, rfl, ?_⟩
          obtain ⟨k1, k2, k3, k4, k5, k6⟩ := sim_fields g4
          have hs2 : Sim s2 s' := by
            cases hgr : growStep mx s2 with
            | none => rw [hgr] at hr; cases hr
            | some s3 =>
              rw [hgr] at hr
              simp only at hr
              cases hr
              unfold growStep at hgr
              split at hgr
              · dsimp only at hgr
                split at hgr
                · cases hgr
                · cases hgr; exact sim_mk rfl rfl rfl rfl rfl rfl
              · cases hgr; rfl
          obtain ⟨m1, m2, m3, m4, m5, m6⟩ := sim_fields hs2
          exact sim_mk (by rw [k1, e1, m1]) (by rw [k2, e2, m2]) (by rw [k3, e3, m3]) (by rw [k4, e4, m4]) (by rw [k5, e5, m5]) (by rw [k6, e6, m6])
    by_cases hlt : s1.msize < 4
    · rw [if_pos hlt] at h ⊢
      exact key _ _ (fun s2 h2 => insertStep_again f2 h2) h
    · rw [if_neg hlt] at h ⊢
      exact key _ _ (fun s2 h2 => copyStep_again f2 h2) h

/-- a loop that was cut short has written too much -/
theorem loopStep_broke {ix : Index} {trg : Bytes} {mx : Nat} {s s' : St} (h : loopStep ix trg mx s = .ok (false, s')) : mx ≠ 0 ∧ mx < s'.buf.length := by
  unfold loopStep at h
  cases h1 : searchStep ix trg s with
  | err e => rw [h1] at h; cases h
  | ub => rw [h1] at h; cases h
  | ok s1 =>
    rw [h1] at h
    simp only [Res.bind_ok] at h
    have key : ∀ (r : Res St), (do let s ← r
                                   match growStep mx s with
                                   | none => .ok (false, s)
                                   | some s => .ok (true, s) : Res (Bool × St)) = .ok (false, s') → mx ≠ 0 ∧ mx < s'.buf.length := by
      intro r hr
      cases r with
      | err e => cases hr
      | ub => cases hr
      | ok s2 =>
        simp only [Res.bind_ok] at hr
        cases hg : growStep mx s2 with
        | some s3 => rw [hg] at hr; cases hr
        | none =>
          rw [hg] at hr
          simp only at hr
          cases hr
          unfold growStep at hg
          split at hg
          · dsimp only at hg
            split at hg
            · assumption
            · cases hg
          · cases hg
    exact key _ h

theorem mainLoop_again {ix : Index} {trg : Bytes} {mx : Nat} : ∀ (fuel : Nat) (s t s' : St), Sim s t → mainLoop ix trg mx fuel s = .ok s' → ¬ (mx ≠ 0 ∧ mx < s'.buf.length) →
    mainLoop ix trg 0 fuel t = .ub ∨ ∃ t', mainLoop ix trg 0 fuel t = .ok t' ∧ Sim s' t' := by
  intro fuel
  induction fuel with
  | zero =>
    intro s t s' hs h _
    unfold mainLoop at h ⊢
    rw [(sim_fields hs).2.2.1]
    split at h
    · cases h
    · rename_i h1
      rw [if_neg h1]
      cases h
      exact .inr ⟨t, rfl, hs⟩
  | succ fuel ih =>
    intro s t s' hs h hb
    unfold mainLoop at h ⊢
    rw [(sim_fields hs).2.2.1]
    split at h
    · rename_i h1
      rw [if_pos h1]
      split at h
      · cases h
      · cases h
      · rename_i s1 hl
        rcases loopStep_again hs hl with h' | ⟨t1, h', h''⟩
        · rw [h']; exact .inl rfl
        · rw [h']
          exact ih s1 t1 s' h'' h hb
      · rename_i s1 hl
        cases h
        exact absurd (loopStep_broke hl) hb
    · rename_i h1
      rw [if_neg h1]
      cases h
      exact .inr ⟨t, rfl, hs⟩

theorem create_again {sd td d : Bytes} {mx : Nat} (hl : td.length ≤ 715827860) (h : create sd td mx = .ok (some d)) : create sd td 0 = .ok (some d) := by
  have hsafe := C05_safe sd td 0 hl
  unfold create at h hsafe ⊢
  cases hi : indexInit sd with
  | err e => rw [hi] at h; cases h
  | ub => rw [hi] at h; cases h
  | ok r =>
    rw [hi] at h hsafe
    simp only [Res.bind_ok] at h hsafe ⊢
    cases r with
    | none => simp at h
    | some ix =>
      simp only at h hsafe ⊢
      unfold createFromIndex at h hsafe ⊢
      split at h
      · cases h
      · rename_i h1
        rw [if_neg h1] at hsafe ⊢
        split at h
        · cases h
        · rename_i h2
          have h2' : ¬ (UINT_MAX < ix.src.length ∨ UINT_MAX < td.length ∨ UINT_MAX - MAX_OP_SIZE - 1 < 0) := by
            intro hc
            rcases hc with hc | hc | hc
            · exact h2 (.inl hc)
            · exact h2 (.inr (.inl hc))
            · omega
          rw [if_neg h2'] at hsafe ⊢
          cases hs : initState ix.src.length td mx with
          | err e => rw [hs] at h; cases h
          | ub => rw [hs] at h; cases h
          | ok s =>
            rw [hs] at h
            simp only [Res.bind_ok] at h
            -- the start
            have hinit : initState ix.src.length td 0 = .ub ∨ ∃ t, initState ix.src.length td 0 = .ok t ∧ Sim s t := by
              unfold initState at hs ⊢
              dsimp only at hs ⊢
              cases hp1 : put (if mx ≠ 0 ∧ mx ≤ 8192 then mx + MAX_OP_SIZE + 1 else 8192) [] (hdrBytes ix.src.length ++ hdrBytes td.length) with
              | err e => rw [hp1] at hs; cases hs
              | ub => rw [hp1] at hs; cases hs
              | ok b1 =>
                rw [hp1] at hs
                simp only [Res.bind_ok] at hs
                rcases put_again (b2 := (if (0 : Nat) ≠ 0 ∧ 0 ≤ 8192 then 0 + MAX_OP_SIZE + 1 else 8192)) hp1 with h' | h'
                · rw [h']; exact .inl rfl
                · rw [h']
                  simp only [Res.bind_ok]
                  cases hp2 : put (if mx ≠ 0 ∧ mx ≤ 8192 then mx + MAX_OP_SIZE + 1 else 8192) b1 (0 :: td.take RABIN_WINDOW) with
                  | err e => rw [hp2] at hs; cases hs
                  | ub => rw [hp2] at hs; cases hs
                  | ok b2 =>
                    rw [hp2] at hs
                    simp only [Res.bind_ok] at hs
                    rcases put_again (b2 := (if (0 : Nat) ≠ 0 ∧ 0 ≤ 8192 then 0 + MAX_OP_SIZE + 1 else 8192)) hp2 with h'' | h''
                    · rw [h'']; exact .inl rfl
                    · rw [h'']
                      simp only [Res.bind_ok]
                      cases hr : rollAll 0 (td.take RABIN_WINDOW) with
                      | err e => rw [hr] at hs; cases hs
                      | ub => rw [hr] at hs; cases hs
                      | ok v =>
                        rw [hr] at hs
                        simp only [Res.bind_ok] at hs ⊢
                        cases hs
                        exact .inr ⟨_, rfl, sim_mk rfl rfl rfl rfl rfl rfl⟩
            rcases hinit with h' | ⟨t, h', hsim⟩
            · rw [h'] at hsafe; exact absurd rfl hsafe
            · rw [h'] at hsafe ⊢
              simp only [Res.bind_ok] at hsafe ⊢
              cases hm : mainLoop ix td mx td.length s with
              | err e => rw [hm] at h; cases h
              | ub => rw [hm] at h; cases h
              | ok s1 =>
                rw [hm] at h
                simp only [Res.bind_ok] at h
                have hbuf : ∀ x : St, (if x.inscnt ≠ 0 then x.buf.set (x.buf.length - x.inscnt - 1) (UInt8.ofNat x.inscnt) else x.buf).length = x.buf.length := by
                  intro x; split
                  · exact List.length_set
                  · rfl
                rw [hbuf] at h
                by_cases hnb : mx ≠ 0 ∧ mx < s1.buf.length
                · rw [if_pos hnb] at h; cases h
                · rw [if_neg hnb] at h
                  cases h
                  rcases mainLoop_again _ _ _ _ hsim hm hnb with h'' | ⟨t1, h'', hsim'⟩
                  · rw [h''] at hsafe; exact absurd rfl hsafe
                  · rw [h'']
                    simp only [Res.bind_ok]
                    obtain ⟨e1, e2, _⟩ := sim_fields hsim'
                    rw [e1, e2, if_neg (by simp)]

end Verif.PackObjects
