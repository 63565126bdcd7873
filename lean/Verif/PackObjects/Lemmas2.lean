import Verif.PackObjects.Lemmas
import Verif.Sort.Props
/-! # The search for deltas: the invariant of the threads -/
namespace Verif.PackObjects

/-- all objects that are still on a list -/
def pending (s : Work) : List Nat := s.jobs.flatMap fun j => j.list

/-- the window of a thread -/
structure WinOk (window : Nat) (done : List Nat) (dep : Nat → Nat) (w : Win) : Prop where
  len : w.slots.length = window
  idx : w.idx < window
  count : w.count < window
  slots : SlotsOk (· ∈ done) dep w.slots

/-- `done` are the objects that have been looked at, `rank` the order in which that happened, `dep` the depth of each -/
structure Inv (E : Env) (objs : List PObj) (window depth : Nat) (s : Work) (done : List Nat) (rank dep : Nat → Nat) (R : Nat) : Prop where
  nodup : (done ++ pending s).Nodup
  lt : ∀ i ∈ done ++ pending s, i < objs.length
  fresh : ∀ i, i ∉ done → s.ds i = DState.zero
  ok : ∀ i ∈ done, DeltaOk E objs i (s.ds i)
  base : ∀ i b, (s.ds i).delta = some b → b ∈ done ∧ rank b < rank i ∧ dep i = dep b + 1
  root : ∀ i, (s.ds i).delta = none → dep i = 0
  depLe : ∀ i, dep i ≤ depth
  rankLt : ∀ i ∈ done, rank i < R
  wins : ∀ j ∈ s.jobs, WinOk window done dep j.win

theorem flatMap_set {α β : Type} (f : α → List β) : ∀ (l : List α) (i : Nat) (a b : α), l[i]? = some a →
    ∃ pre post, l.flatMap f = pre ++ f a ++ post ∧ (l.set i b).flatMap f = pre ++ f b ++ post := by
  intro l
  induction l with
  | nil => intro i a b h; cases h
  | cons x l ih =>
    intro i a b h
    cases i with
    | zero =>
      simp only [List.getElem?_cons_zero, Option.some.injEq] at h
      subst h
      exact ⟨[], l.flatMap f, by simp, by simp⟩
    | succ i =>
      simp only [List.getElem?_cons_succ] at h
      obtain ⟨pre, post, h1, h2⟩ := ih i a b h
      exact ⟨f x ++ pre, post, by simp [h1], by simp [h2]⟩

theorem upd_self {α : Type} (f : Nat → α) (i : Nat) (v : α) : upd f i v i = v := by unfold upd; rw [if_pos rfl]
theorem upd_ne {α : Type} (f : Nat → α) {i j : Nat} (v : α) (h : j ≠ i) : upd f i v j = f j := by unfold upd; rw [if_neg h]

/-- a round of `find_deltas`, for what it leaves in the object -/
theorem search_sound {E : Env} {objs : List PObj} (hl : Listed E objs) {window depth po ev : Nat} {cache : Nat → Bool} {w : Win} {done : List Nat} {dep : Nat → Nat}
    (hd : ∀ i ∈ done, i < objs.length) (hpo : po < objs.length) (hw : WinOk window done dep w) {c : Cur}
    (h : search E objs window depth po ev cache DState.zero w = .ok c) :
    CurOk E objs (· ∈ done) dep po depth (opened window po ev w).slots w.idx c := by
  unfold search at h
  split at h
  · cases h
  · obtain ⟨o1, o2, o3, o4, o5⟩ := opened_spec (window := window) (po := po) (ev := ev) hw.slots
    have := hw.idx
    refine tryLoop_sound hl hd hpo hw.idx (by rw [o1, hw.len]) o5 _ _ _ (by omega) ?_ h
    exact ⟨rfl, .inl ⟨rfl, rfl, rfl, rfl⟩⟩

theorem curOk_delta {E : Env} {objs : List PObj} {P : Nat → Prop} {dep : Nat → Nat} {po depth : Nat} {slots : List (Option Slot)} {idx : Nat} {c : Cur}
    (h : CurOk E objs P dep po depth slots idx c) :
    (∀ b, c.t.delta = some b → P b ∧ c.depth = dep b + 1) ∧ (c.t.delta = none → c.depth = 0) ∧ c.depth ≤ depth := by
  obtain ⟨hz, h | ⟨m, k, d, h1, h2, h3, h4, h5, h6, h7, h8, h9, h10, h11⟩⟩ := h
  · refine ⟨fun b hb => ?_, fun _ => h.2.2.1, by omega⟩
    rw [h.1] at hb; cases hb
  · refine ⟨fun b hb => ?_, fun hn => ?_, h8⟩
    · rw [h1] at hb; cases hb
      exact ⟨h5, by omega⟩
    · rw [h1] at hn; cases hn

/-- adding an object that has been looked at -/
theorem Inv.add {E : Env} {objs : List PObj} {window depth : Nat} {s : Work} {done : List Nat} {rank dep : Nat → Nat} {R : Nat}
    (H : Inv E objs window depth s done rank dep R) {po : Nat} {t : DState} {d : Nat} {jobs : List Job}
    (hnot : po ∉ done) (hnd : (done ++ [po] ++ pending ⟨jobs, upd s.ds po t⟩).Nodup) (hlt : ∀ i ∈ done ++ [po] ++ pending ⟨jobs, upd s.ds po t⟩, i < objs.length)
    (hok : DeltaOk E objs po t) (h1 : ∀ b, t.delta = some b → b ∈ done ∧ d = dep b + 1) (h2 : t.delta = none → d = 0) (h3 : d ≤ depth)
    (hw : ∀ j ∈ jobs, WinOk window (done ++ [po]) (upd dep po d) j.win) :
    Inv E objs window depth ⟨jobs, upd s.ds po t⟩ (done ++ [po]) (upd rank po R) (upd dep po d) (R + 1) := by
  have hne : ∀ b ∈ done, b ≠ po := fun b hb e => hnot (e ▸ hb)
  refine ⟨hnd, hlt, ?_, ?_, ?_, ?_, ?_, ?_, hw⟩
  · intro i hi
    rw [List.mem_append, List.mem_singleton, not_or] at hi
    show upd s.ds po t i = _
    rw [upd_ne _ _ hi.2]
    exact H.fresh i hi.1
  · intro i hi
    show DeltaOk E objs i (upd s.ds po t i)
    rw [List.mem_append, List.mem_singleton] at hi
    rcases hi with hi | rfl
    · rw [upd_ne _ _ (hne i hi)]
      exact H.ok i hi
    · rw [upd_self]; exact hok
  · intro i b hb
    change (upd s.ds po t i).delta = some b at hb
    by_cases he : i = po
    · subst he
      rw [upd_self] at hb
      obtain ⟨b1, b2⟩ := h1 b hb
      refine ⟨List.mem_append_left _ b1, ?_, ?_⟩
      · rw [upd_self, upd_ne _ _ (hne b b1)]; exact H.rankLt b b1
      · rw [upd_self, upd_ne _ _ (hne b b1)]; exact b2
    · rw [upd_ne _ _ he] at hb
      obtain ⟨b1, b2, b3⟩ := H.base i b hb
      rw [upd_ne _ _ he, upd_ne _ _ he, upd_ne _ _ (hne b b1), upd_ne _ _ (hne b b1)]
      exact ⟨List.mem_append_left _ b1, b2, b3⟩
  · intro i hi
    change (upd s.ds po t i).delta = none at hi
    by_cases he : i = po
    · subst he
      rw [upd_self] at hi ⊢
      exact h2 hi
    · rw [upd_ne _ _ he] at hi ⊢
      exact H.root i hi
  · intro i
    by_cases he : i = po
    · subst he; rw [upd_self]; exact h3
    · rw [upd_ne _ _ he]; exact H.depLe i
  · intro i hi
    by_cases he : i = po
    · subst he; rw [upd_self]; omega
    · rw [upd_ne _ _ he]
      rw [List.mem_append, List.mem_singleton] at hi
      rcases hi with hi | hi
      · have := H.rankLt i hi; omega
      · exact absurd hi he

theorem WinOk.mono {window : Nat} {done : List Nat} {dep : Nat → Nat} {w : Win} (h : WinOk window done dep w) {po d : Nat} (hne : po ∉ done) :
    WinOk window (done ++ [po]) (upd dep po d) w := by
  refine ⟨h.len, h.idx, h.count, fun s hs => ?_⟩
  obtain ⟨h1, h2⟩ := h.slots s hs
  refine ⟨List.mem_append_left _ h1, ?_⟩
  have hne' : s.obj ≠ po := fun e => hne (e ▸ h1)
  rw [upd_ne _ _ hne']
  exact h2

theorem winOk_fresh {window : Nat} (hw : 0 < window) (done : List Nat) (dep : Nat → Nat) : WinOk window done dep (Win.fresh window) := by
  refine ⟨by simp [Win.fresh], hw, hw, fun s hs => ?_⟩
  unfold Win.fresh at hs
  have := List.eq_of_mem_replicate hs
  cases this

theorem mem_jobs_set {jobs : List Job} {i : Nat} {a j : Job} (h : j ∈ jobs.set i a) : j ∈ jobs ∨ j = a := mem_set_cases h

theorem victim_spec (window : Nat) : ∀ (js : List Job) (i : Nat) (v : Option (Nat × List Nat)) (r : Nat × List Nat),
    (∀ x, v = some x → 2 * window < x.2.length) → victim window js i v = some r → 2 * window < r.2.length ∧
      (v = some r ∨ ∃ k j, js[k]? = some j ∧ r = (i + k, j.list)) := by
  intro js
  induction js with
  | nil => intro i v r hv h; unfold victim at h; exact ⟨hv r h, .inl h⟩
  | cons j js ih =>
    intro i v r hv h
    unfold victim at h
    split at h
    · rename_i hc
      obtain ⟨h1, h2⟩ := ih _ _ _ (fun x hx => by cases hx; exact hc.1) h
      refine ⟨h1, .inr ?_⟩
      rcases h2 with h2 | ⟨k, j', h3, h4⟩
      · cases h2; exact ⟨0, j, rfl, rfl⟩
      · exact ⟨k + 1, j', by simpa using h3, by rw [h4]; congr 1; omega⟩
    · obtain ⟨h1, h2⟩ := ih _ _ _ hv h
      refine ⟨h1, ?_⟩
      rcases h2 with h2 | ⟨k, j', h3, h4⟩
      · exact .inl h2
      · exact .inr ⟨k + 1, j', by simpa using h3, by rw [h4]; congr 1; omega⟩

theorem step_inv {E : Env} {objs : List PObj} (hl : Listed E objs) {window depth : Nat} (hwin : 0 < window) {s s' : Work} {done : List Nat} {rank dep : Nat → Nat} {R : Nat}
    (H : Inv E objs window depth s done rank dep R) (h : Step E objs window depth s s') :
    ∃ done' rank' dep' R', Inv E objs window depth s' done' rank' dep' R' := by
  have hdlt : ∀ i ∈ done, i < objs.length := fun i hi => H.lt i (List.mem_append_left _ hi)
  cases h with
  | @take i po rest w w' t ev cache hj hf =>
    obtain ⟨pre, post, e1, e2⟩ := flatMap_set (fun j : Job => j.list) s.jobs i ⟨po :: rest, w⟩ ⟨rest, w'⟩ hj
    have hpend : pending s = pre ++ po :: rest ++ post := e1
    have hpo : po ∈ pending s := by rw [hpend]; simp
    have hnot : po ∉ done := fun hm => (List.nodup_append.mp H.nodup).2.2 po hm po hpo rfl
    have hpolt : po < objs.length := H.lt po (List.mem_append_right _ hpo)
    have hww : WinOk window done dep w := H.wins ⟨po :: rest, w⟩ (List.mem_of_getElem? hj)
    rw [H.fresh po hnot] at hf
    unfold findStep at hf
    split at hf
    · cases hf
    · cases hf
    · rename_i c hs
      have hc := search_sound hl hdlt hpolt hww hs
      split at hf
      · cases hf
      · cases hf
      · rename_i t' hcm
        split at hf
        · cases hf
        · cases hf
        · rename_i w'' hp
          cases hf
          obtain ⟨c1, c2, c3⟩ := curOk_delta hc
          obtain ⟨z1, z2, _⟩ := compress_spec hcm
          obtain ⟨o1, o2, o3, o4, o5⟩ := opened_spec (window := window) (po := po) (ev := ev) hww.slots
          have hcount := hww.count
          obtain ⟨p1, p2, p3, p4⟩ := place_spec (P := (· ∈ done)) (dep := dep) (by rw [o1, hww.len]) (by rw [o2]; exact hww.idx) (by omega) o4 (by rw [o2]; exact o5) hp
          -- the new list of pending objects
          have hperm : (po :: pending ⟨s.jobs.set i ⟨rest, w'⟩, upd s.ds po t⟩).Perm (pending s) := by
            show (po :: (s.jobs.set i ⟨rest, w'⟩).flatMap fun j => j.list).Perm (pending s)
            rw [hpend, e2]
            simp only [List.append_assoc, List.cons_append]
            exact List.perm_middle.symm
          have hnd2 : (done ++ po :: pending ⟨s.jobs.set i ⟨rest, w'⟩, upd s.ds po t⟩).Nodup :=
            (List.Perm.append_left done hperm).nodup_iff.mpr H.nodup
          refine ⟨done ++ [po], upd rank po R, upd dep po c.depth, R + 1, ?_⟩
          have hne : ∀ b ∈ done, b ≠ po := fun b hb e => hnot (e ▸ hb)
          have hdel : ∀ b, t.delta = some b → b ∈ done ∧ c.depth = dep b + 1 := fun b hb => c1 b (by rw [← z1]; exact hb)
          refine H.add hnot (by rw [List.append_assoc]; exact hnd2) ?_ (compress_deltaOk hc hcm) hdel (fun hx => c2 (by rw [← z1]; exact hx)) c3 ?_
          · intro x hx
            apply H.lt x
            rw [List.append_assoc] at hx
            exact (List.Perm.append_left done hperm).mem_iff.mp hx
          · intro j hj'
            rcases mem_jobs_set hj' with hj' | rfl
            · exact (H.wins j hj').mono hnot
            · refine ⟨p1, p2, p3, fun sl hsl => ?_⟩
              rcases p4 sl hsl with ⟨q1, q2⟩ | rfl
              · exact ⟨List.mem_append_left _ q1, by rw [upd_ne _ _ (hne _ q1)]; exact q2⟩
              · exact ⟨by simp, by rw [upd_self]⟩
  | @steal i v w j l hi hv hj =>
    -- the lists are cut and pasted
    obtain ⟨v1, v2⟩ := victim_spec window _ _ _ _ (fun x hx => by cases hx) hv
    rcases v2 with v2 | ⟨k, j', v3, v4⟩
    · cases v2
    · simp only [Prod.mk.injEq, Nat.zero_add] at v4
      obtain ⟨rfl, rfl⟩ := v4
      rw [hj] at v3
      cases v3
      have hne : i ≠ v := by
        intro e; subst e
        rw [hi] at hj; cases hj
        simp at v1
      generalize hN : j.list.length - stealCount objs j.list = N
      obtain ⟨pre, post, e1, e2⟩ := flatMap_set (fun j : Job => j.list) s.jobs v j ⟨j.list.take N, j.win⟩ hj
      have hi' : (s.jobs.set v ⟨j.list.take N, j.win⟩)[i]? = some ⟨[], w⟩ := by
        rw [List.getElem?_set, if_neg (Ne.symm hne)]; exact hi
      obtain ⟨pre2, post2, e3, e4⟩ := flatMap_set (fun j : Job => j.list) _ i ⟨[], w⟩ ⟨j.list.drop N, Win.fresh window⟩ hi'
      have hperm : ((s.jobs.set v ⟨j.list.take N, j.win⟩).set i ⟨j.list.drop N, Win.fresh window⟩).flatMap (fun j => j.list) |>.Perm (pending s) := by
        rw [e4]
        unfold pending
        rw [e1]
        simp only [List.append_nil, List.append_assoc] at e3 e2 ⊢
        rw [e3] at e2
        have hsplit : j.list = j.list.take N ++ j.list.drop N := (List.take_append_drop N j.list).symm
        rw [List.perm_iff_count]
        intro a
        have q1 := congrArg (List.count a) e2
        have q2 := congrArg (List.count a) hsplit
        simp only [List.count_append] at q1 q2 ⊢
        omega
      refine ⟨done, rank, dep, R, ?_⟩
      refine ⟨(List.Perm.append_left done hperm).nodup_iff.mpr H.nodup, fun x hx => H.lt x ((List.Perm.append_left done hperm).mem_iff.mp hx),
        H.fresh, H.ok, H.base, H.root, H.depLe, H.rankLt, ?_⟩
      intro x hx
      rcases mem_jobs_set hx with hx | rfl
      · rcases mem_jobs_set hx with hx | rfl
        · exact H.wins x hx
        · exact H.wins j (List.mem_of_getElem? hj)
      · exact winOk_fresh hwin _ _
  | @fail i j hj =>
    obtain ⟨pre, post, e1, e2⟩ := flatMap_set (fun j : Job => j.list) s.jobs i j ⟨[], j.win⟩ hj
    have hsub : (done ++ (s.jobs.set i ⟨[], j.win⟩).flatMap fun j => j.list).Sublist (done ++ pending s) := by
      unfold pending
      rw [e1, e2]
      refine List.Sublist.append (List.Sublist.refl _) ?_
      simp only [List.append_nil]
      exact List.Sublist.append (List.sublist_append_left _ _) (List.Sublist.refl _)
    refine ⟨done, rank, dep, R, ⟨H.nodup.sublist hsub, fun x hx => H.lt x (hsub.subset hx), H.fresh, H.ok, H.base, H.root, H.depLe, H.rankLt, ?_⟩⟩
    intro x hx
    rcases mem_jobs_set hx with hx | rfl
    · exact H.wins x hx
    · exact H.wins j (List.mem_of_getElem? hj)
  | @failDeflate i po rest w c ev cache hj hs =>
    obtain ⟨pre, post, e1, e2⟩ := flatMap_set (fun j : Job => j.list) s.jobs i ⟨po :: rest, w⟩ ⟨[], w⟩ hj
    have hpend : pending s = pre ++ po :: rest ++ post := e1
    have hpo : po ∈ pending s := by rw [hpend]; simp
    have hnot : po ∉ done := fun hm => (List.nodup_append.mp H.nodup).2.2 po hm po hpo rfl
    have hpolt : po < objs.length := H.lt po (List.mem_append_right _ hpo)
    have hww : WinOk window done dep w := H.wins ⟨po :: rest, w⟩ (List.mem_of_getElem? hj)
    rw [H.fresh po hnot] at hs
    have hc := search_sound hl hdlt hpolt hww hs
    obtain ⟨c1, c2, c3⟩ := curOk_delta hc
    have hne : ∀ b ∈ done, b ≠ po := fun b hb e => hnot (e ▸ hb)
    have hsubp : ((s.jobs.set i ⟨[], w⟩).flatMap fun j => j.list).Sublist (pre ++ rest ++ post) := by
      rw [e2]
      simp only [List.append_nil]
      exact List.Sublist.append (List.sublist_append_left _ _) (List.Sublist.refl _)
    have hperm : (po :: (pre ++ rest ++ post)).Perm (pending s) := by
      rw [hpend]
      simp only [List.append_assoc, List.cons_append]
      exact List.perm_middle.symm
    have hsub : (done ++ [po] ++ (s.jobs.set i ⟨[], w⟩).flatMap fun j => j.list).Sublist (done ++ po :: (pre ++ rest ++ post)) := by
      rw [List.append_assoc]
      exact List.Sublist.append (List.Sublist.refl _) (List.Sublist.cons_cons _ hsubp)
    refine ⟨done ++ [po], upd rank po R, upd dep po c.depth, R + 1, ?_⟩
    refine H.add hnot (((List.Perm.append_left done hperm).nodup_iff.mpr H.nodup).sublist hsub)
      (fun x hx => H.lt x ((List.Perm.append_left done hperm).mem_iff.mp (hsub.subset hx))) (curOk_deltaOk hc) c1 c2 c3 ?_
    · intro j hj'
      rcases mem_jobs_set hj' with hj' | rfl
      · exact (H.wins j hj').mono hnot
      · exact hww.mono hnot

end Verif.PackObjects
