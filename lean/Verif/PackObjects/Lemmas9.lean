import Verif.PackObjects.Lemmas3
import Verif.PackObjects.Lemmas8
/-! # The search for deltas never goes wrong -/
namespace Verif.PackObjects
open Verif.Delta

theorem maxSize_total {size : Nat} {t : DState} {td sd md : Nat} (h1 : sd < md) (h2 : md < 2 ^ 63) (h3 : t.delta.isSome = true → td ≤ md) : ∃ mx, maxSize size t td sd md = .ok mx := by
  unfold maxSize
  dsimp only
  rw [if_neg]
  · exact ⟨_, rfl⟩
  · cases hd : t.delta.isSome with
    | true =>
      have := h3 hd
      simp only [if_true]
      omega
    | false =>
      simp only [Bool.false_eq_true, if_false]
      omega

theorem tryDelta_total {E : Env} {objs : List PObj} (hl : Listed E objs) {i b : Nat} (hi : i < objs.length) (hb : b < objs.length) (hsz : (objAt objs i).size ≤ 715827860)
    {t : DState} {td sd md : Nat} (hmd : md < 2 ^ 63) (htd : t.delta.isSome = true → td ≤ md) :
    ∃ r, tryDelta E (objAt objs i) (objAt objs b) t td sd md = .ok r := by
  unfold tryDelta
  split
  · exact ⟨_, rfl⟩
  · split
    · exact ⟨_, rfl⟩
    · rename_i hs
      obtain ⟨mx, hm⟩ := maxSize_total (size := (objAt objs i).size) (t := t) (td := td) (sd := sd) (md := md) (by omega) hmd htd
      rw [hm]
      simp only
      split
      · exact ⟨_, rfl⟩
      · split
        · exact ⟨_, rfl⟩
        · split
          · exact ⟨_, rfl⟩
          · obtain ⟨di, e1, _, e2⟩ := load_ok hl hi
            obtain ⟨db, e3, _, _⟩ := load_ok hl hb
            unfold tryCreate
            rw [e1, e3]
            simp only
            have := C05_safe db di mx (by omega)
            split
            · rename_i hc; exact absurd hc this
            · exact ⟨_, rfl⟩
            · exact ⟨_, rfl⟩
            · split <;> exact ⟨_, rfl⟩

theorem tryLoop_total {E : Env} {objs : List PObj} (hl : Listed E objs) {P : Nat → Prop} {dep : Nat → Nat} (hP : ∀ i, P i → i < objs.length) {window idx po depth : Nat}
    {slots : List (Option Slot)} {cache : Nat → Bool} (hpo : po < objs.length) (hsz : (objAt objs po).size ≤ 715827860) (hdep : depth < 2 ^ 63) (hi : idx < window)
    (hlen : slots.length = window) (hs : ∀ (k : Nat) (s : Slot), k ≠ idx → slots[k]? = some (some s) → P s.obj ∧ s.depth = dep s.obj) :
    ∀ j (c : Cur), j < window → CurOk E objs P dep po depth slots idx c → ∃ c', tryLoop E objs window idx po depth slots cache j c = .ok c' := by
  intro j
  induction j with
  | zero => intro c _ _; exact ⟨c, rfl⟩
  | succ j ih =>
    intro c hj hc
    unfold tryLoop
    obtain ⟨o1, o2⟩ := otherIdx_spec hi (Nat.succ_pos j) hj
    obtain ⟨x, hx⟩ : ∃ x, slots[otherIdx window idx (j + 1)]? = some x := ⟨_, List.getElem?_eq_getElem (by rw [hlen]; exact o1)⟩
    rw [hx]
    cases x with
    | none => exact ⟨c, rfl⟩
    | some m =>
      simp only
      obtain ⟨p1, p2⟩ := hs _ m o2 hx
      obtain ⟨r, hr⟩ := tryDelta_total hl hpo (hP _ p1) hsz (t := c.t) (td := c.depth) (sd := m.depth) hdep (fun _ => (curOk_delta hc).2.2)
      rw [hr]
      cases r with
      | mismatch => exact ⟨c, rfl⟩
      | skip => exact ih c (by omega) hc
      | took d =>
        simp only
        refine ih _ (by omega) ?_
        obtain ⟨q1, q2⟩ := tryDelta_took hl hpo (hP _ p1) hr
        refine ⟨hc.1, .inr ⟨m, _, d, rfl, rfl, o2, hx, p1, p2, rfl, ?_, q1, rfl, ?_⟩⟩
        · show m.depth + 1 ≤ depth
          omega
        · unfold took
          cases cache (j + 1)
          · exact .inl rfl
          · exact .inr rfl

theorem compress_total {E : Env} {objs : List PObj} {P : Nat → Prop} {dep : Nat → Nat} {po depth : Nat} {slots : List (Option Slot)} {idx : Nat} {c : Cur}
    (h : CurOk E objs P dep po depth slots idx c) : ∃ t', compress E c.t = .ok t' := by
  unfold compress
  obtain ⟨hz, h | ⟨m, k, d, h1, h2, h3, h4, h5, h6, h7, h8, h9, h10, h11⟩⟩ := h
  · rw [h.2.1]; exact ⟨_, rfl⟩
  · rcases h11 with h | h
    · rw [h]; exact ⟨_, rfl⟩
    · rw [h]
      simp only
      rw [h10]
      have : slice d 0 d.length = .ok d := by
        unfold slice
        rw [if_pos (by omega)]
        simp
      rw [this]
      exact ⟨_, rfl⟩

theorem rotateLoop_total (window : Nat) (hw : 0 < window) (swap : Option Slot) : ∀ (dist dst : Nat) (slots : List (Option Slot)),
    slots.length = window → dst < window → ∃ out, rotateLoop window swap dist dst slots = .ok out := by
  intro dist
  induction dist with
  | zero => intro dst slots h1 h2; unfold rotateLoop; rw [if_pos (by omega)]; exact ⟨_, rfl⟩
  | succ dist ih =>
    intro dst slots h1 h2
    unfold rotateLoop
    have hm : (dst + 1) % window < window := Nat.mod_lt _ hw
    rw [List.getElem?_eq_getElem (by omega : (dst + 1) % window < slots.length)]
    simp only
    rw [if_pos (by omega)]
    exact ih _ _ (by rw [List.length_set, h1]) hm

theorem place_total {window depth po : Nat} {w : Win} {c : Cur} (hw : 0 < window) (hlen : w.slots.length = window)
    (hb : c.t.delta.isSome = true → ∃ k, c.best = some k ∧ k < window) : ∃ w', place window depth po w c = .ok w' := by
  unfold place
  dsimp only
  split
  · exact ⟨_, rfl⟩
  · split
    · rename_i hs
      obtain ⟨k, hk, hkw⟩ := hb hs
      unfold rotate
      rw [hk]
      simp only
      rw [List.getElem?_eq_getElem (by rw [List.length_set]; omega : k < (w.slots.set w.idx (some ⟨po, c.depth⟩)).length)]
      simp only
      obtain ⟨out, ho⟩ := rotateLoop_total window hw ((w.slots.set w.idx (some ⟨po, c.depth⟩))[k]'(by rw [List.length_set]; omega)) ((window + w.idx - k) % window) k
        (w.slots.set w.idx (some ⟨po, c.depth⟩)) (by rw [List.length_set, hlen]) hkw
      rw [ho]
      exact ⟨_, rfl⟩
    · exact ⟨_, rfl⟩

/-- a round of `find_deltas` never goes wrong -/
theorem findStep_total {E : Env} {objs : List PObj} (hl : Listed E objs) {window depth po ev : Nat} {cache : Nat → Bool} {w : Win} {done : List Nat} {dep : Nat → Nat}
    (hd : ∀ i ∈ done, i < objs.length) (hpo : po < objs.length) (hsz : (objAt objs po).size ≤ 715827860) (hdep : depth < 2 ^ 63) (hw : WinOk window done dep w) :
    ∃ r, findStep E objs window depth po ev cache DState.zero w = .ok r := by
  obtain ⟨o1, o2, o3, o4, o5⟩ := opened_spec (window := window) (po := po) (ev := ev) hw.slots
  have hidx := hw.idx
  obtain ⟨c, hc⟩ : ∃ c, search E objs window depth po ev cache DState.zero w = .ok c := by
    unfold search
    rw [if_neg (by rw [hw.len]; omega)]
    exact tryLoop_total hl hd hpo hsz hdep hw.idx (by rw [o1, hw.len]) o5 _ _ (by omega) ⟨rfl, .inl ⟨rfl, rfl, rfl, rfl⟩⟩
  have hcur := search_sound hl hd hpo hw hc
  obtain ⟨t', ht'⟩ := compress_total hcur
  unfold findStep
  rw [hc]
  simp only
  rw [ht']
  simp only
  obtain ⟨w', hw'⟩ := place_total (window := window) (depth := depth) (po := po) (w := opened window po ev w) (c := { c with t := t' }) (by omega) (by rw [o1, hw.len]) (by
    intro hs
    change t'.delta.isSome = true at hs
    rw [(compress_spec ht').1] at hs
    obtain ⟨hz, h | ⟨m, k, d, h1, h2, h3, h4, _⟩⟩ := hcur
    · rw [h.1] at hs; cases hs
    · refine ⟨k, h2, ?_⟩
      have := (List.getElem?_eq_some_iff.mp h4).1
      rw [o1, hw.len] at this
      exact this)
  rw [hw']
  exact ⟨_, rfl⟩

/-- the objects that are looked at are those that were on the lists -/
def Within (S : List Nat) (s : Work) : Prop := (∀ i ∈ pending s, i ∈ S) ∧ ∀ i, i ∉ S → s.ds i = DState.zero

theorem mem_pending {s : Work} {i : Nat} : i ∈ pending s ↔ ∃ j ∈ s.jobs, i ∈ j.list := by
  unfold pending
  exact List.mem_flatMap

theorem step_within {E : Env} {objs : List PObj} {window depth : Nat} {S : List Nat} {a b : Work} (h : Step E objs window depth a b) (H : Within S a) : Within S b := by
  have key : ∀ (i po : Nat) (rest : List Nat) (w : Win), a.jobs[i]? = some (⟨po :: rest, w⟩ : Job) → po ∈ S ∧ ∀ x ∈ rest, x ∈ S := by
    intro i po rest w hj
    have hm := List.mem_of_getElem? hj
    exact ⟨H.1 po (mem_pending.mpr ⟨_, hm, List.mem_cons_self⟩), fun x hx => H.1 x (mem_pending.mpr ⟨_, hm, List.mem_cons_of_mem _ hx⟩)⟩
  have one : ∀ (po : Nat) (t : DState), po ∈ S → ∀ i, i ∉ S → upd a.ds po t i = DState.zero := by
    intro po t hpo i hi
    rw [upd_ne a.ds t (show i ≠ po from fun e => hi (e ▸ hpo))]
    exact H.2 i hi
  have old : ∀ j ∈ a.jobs, ∀ x ∈ j.list, x ∈ S := fun j hj x hx => H.1 x (mem_pending.mpr ⟨j, hj, hx⟩)
  cases h with
  | @take i po rest w w' t ev cache hj hf =>
    obtain ⟨k1, k2⟩ := key _ _ _ _ hj
    refine ⟨fun x hx => ?_, one po t k1⟩
    obtain ⟨j, hjm, hxj⟩ := mem_pending.mp hx
    rcases mem_jobs_set hjm with hjm | rfl
    · exact old j hjm x hxj
    · exact k2 x hxj
  | @steal i v w j l hi hv hj =>
    refine ⟨fun x hx => ?_, H.2⟩
    obtain ⟨j', hjm, hxj⟩ := mem_pending.mp hx
    have hjo := old j (List.mem_of_getElem? hj)
    rcases mem_jobs_set hjm with hjm | rfl
    · rcases mem_jobs_set hjm with hjm | rfl
      · exact old j' hjm x hxj
      · exact hjo x (List.mem_of_mem_take hxj)
    · exact hjo x (List.mem_of_mem_drop hxj)
  | @fail i j hj =>
    refine ⟨fun x hx => ?_, H.2⟩
    obtain ⟨j', hjm, hxj⟩ := mem_pending.mp hx
    rcases mem_jobs_set hjm with hjm | rfl
    · exact old j' hjm x hxj
    · cases hxj
  | @failDeflate i po rest w c ev cache hj hs =>
    obtain ⟨k1, k2⟩ := key _ _ _ _ hj
    refine ⟨fun x hx => ?_, one po c.t k1⟩
    obtain ⟨j', hjm, hxj⟩ := mem_pending.mp hx
    rcases mem_jobs_set hjm with hjm | rfl
    · exact old j' hjm x hxj
    · cases hxj

theorem steps_within {E : Env} {objs : List PObj} {window depth : Nat} {S : List Nat} {a b : Work} (h : Steps E objs window depth a b) (H : Within S a) : Within S b := by
  induction h with
  | refl => exact H
  | tail _ h ih => exact step_within h ih

theorem startWork_pending (E : Env) (objs : List PObj) (window : Nat) (l : List Nat) : pending (startWork E objs window l) = l := by
  unfold pending startWork
  obtain ⟨k, hk⟩ : ∃ k, max 1 E.threads = k + 1 := ⟨max 1 E.threads - 1, by omega⟩
  rw [hk, List.flatMap_map]
  have := partition_flatten objs window k l
  rwa [← List.flatMap_id] at this

theorem mem_candidates {E : Env} {objs : List PObj} {i : Nat} (h : i ∈ candidates E objs) : (objAt objs i).size ≤ E.bigFile := by
  have := (List.mem_filter.mp h).2
  simp only [Bool.not_eq_eq_eq_not, Bool.not_true, Bool.or_eq_false_iff, decide_eq_false_iff_not] at this
  omega

/-- only objects that are not too large have deltas -/
theorem prepared_small {E : Env} {objs : List PObj} {ds : Nat → DState} (h : Prepared E objs ds) : ∀ i b, (ds i).delta = some b → (objAt objs i).size ≤ E.bigFile := by
  cases h with
  | none => intro i b hb; cases hb
  | @deltas l s hn hs hst hfin =>
    obtain ⟨_, _, h3⟩ := sorted_candidates hs
    have hw : Within (candidates E objs) s := steps_within hst ⟨fun i hi => by
      rw [startWork_pending] at hi
      exact h3.mem_iff.mp hi, fun _ _ => rfl⟩
    intro i b hb
    by_cases hi : i ∈ candidates E objs
    · exact mem_candidates hi
    · rw [hw.2 i hi] at hb; cases hb

/-! ## Getting to the end -/

/-- what is left to look at -/
def left (s : Work) : Nat := (pending s).length

/-- in a state with objects left, a thread can always take the next one -/
theorem can_take {E : Env} {objs : List PObj} (hl : Listed E objs) (hbig : E.bigFile ≤ 715827860) {window depth : Nat} (hdep : depth < 2 ^ 63) {s : Work}
    {done : List Nat} {rank dep : Nat → Nat} {R : Nat} (H : Inv E objs window depth s done rank dep R) (hw : Within (candidates E objs) s)
    {i po : Nat} {rest : List Nat} {w : Win} (hj : s.jobs[i]? = some ⟨po :: rest, w⟩) (ev : Nat) (cache : Nat → Bool) :
    ∃ t w', findStep E objs window depth po ev cache (s.ds po) w = .ok (t, w') := by
  have hm := List.mem_of_getElem? hj
  have hp : po ∈ pending s := mem_pending.mpr ⟨_, hm, List.mem_cons_self⟩
  have hnot : po ∉ done := fun hd => (List.nodup_append.mp H.nodup).2.2 po hd po hp rfl
  rw [H.fresh po hnot]
  obtain ⟨⟨t, w'⟩, h⟩ := findStep_total (ev := ev) (cache := cache) hl (fun i hi => H.lt i (List.mem_append_left _ hi)) (H.lt po (List.mem_append_right _ hp))
    (Nat.le_trans (mem_candidates (hw.1 po hp)) hbig) hdep (H.wins _ hm)
  exact ⟨t, w', h⟩

theorem steps_trans {E : Env} {objs : List PObj} {window depth : Nat} {a b c : Work} (h1 : Steps E objs window depth a b) (h2 : Steps E objs window depth b c) :
    Steps E objs window depth a c := by
  induction h2 with
  | refl => exact h1
  | tail _ h ih => exact .tail ih h

theorem finish_work {E : Env} {objs : List PObj} (hl : Listed E objs) (hbig : E.bigFile ≤ 715827860) {window depth : Nat} (hwin : 0 < window) (hdep : depth < 2 ^ 63) :
    ∀ (n : Nat) (s : Work) (done : List Nat) (rank dep : Nat → Nat) (R : Nat), left s = n → Inv E objs window depth s done rank dep R → Within (candidates E objs) s →
      ∃ s', Steps E objs window depth s s' ∧ ∀ j ∈ s'.jobs, j.list = [] := by
  intro n
  induction n with
  | zero =>
    intro s done rank dep R hn H hw
    refine ⟨s, .refl s, fun j hj => ?_⟩
    have h0 : pending s = [] := List.length_eq_zero_iff.mp hn
    cases hjl : j.list with
    | nil => rfl
    | cons x l =>
      have : x ∈ pending s := mem_pending.mpr ⟨j, hj, by rw [hjl]; exact List.mem_cons_self⟩
      rw [h0] at this; cases this
  | succ n ih =>
    intro s done rank dep R hn H hw
    have hne : pending s ≠ [] := fun e => by unfold left at hn; rw [e] at hn; cases hn
    obtain ⟨x, hx⟩ := List.exists_mem_of_ne_nil _ hne
    obtain ⟨j, hj, hxj⟩ := mem_pending.mp hx
    obtain ⟨i, hi⟩ := List.mem_iff_getElem?.mp hj
    obtain ⟨list, w⟩ := j
    cases list with
    | nil => cases hxj
    | cons po rest =>
      obtain ⟨t, w', hf⟩ := can_take hl hbig hdep H hw hi 0 (fun _ => true)
      have hst : Step E objs window depth s ⟨s.jobs.set i ⟨rest, w'⟩, upd s.ds po t⟩ := .take 0 (fun _ => true) hi hf
      obtain ⟨done', rank', dep', R', H'⟩ := step_inv hl hwin H hst
      have hw' := step_within hst hw
      obtain ⟨pre, post, e1, e2⟩ := flatMap_set (fun j : Job => j.list) s.jobs i ⟨po :: rest, w⟩ ⟨rest, w'⟩ hi
      have hlen : left ⟨s.jobs.set i ⟨rest, w'⟩, upd s.ds po t⟩ = n := by
        unfold left pending at hn ⊢
        simp only at hn ⊢
        rw [e1] at hn
        rw [e2]
        simp only [List.length_append, List.length_cons] at hn ⊢
        omega
      obtain ⟨s', g1, g2⟩ := ih _ _ _ _ _ hlen H' hw'
      exact ⟨s', steps_trans (.tail (.refl s) hst) g1, g2⟩

end Verif.PackObjects
