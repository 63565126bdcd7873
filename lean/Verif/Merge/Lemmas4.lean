import Verif.Merge.Lemmas3
/-! # All paths: the marks, the loop over the changes, the resulting index -/
namespace Verif.Merge
open Verif.Index Spec Verif.Index.Spec

/-! ## The marks by path -/

def Next (qs : List Bytes) (p q : Bytes) : Prop := q ∈ qs ∧ p < q ∧ ∀ r ∈ qs, p < r → ¬ r < q

open Classical in
theorem fwd_next (D : Bytes → Diff) (qs : List Bytes) (hs : qs.Pairwise (fun a b => a < b)) :
    fwd (qs.map D) = qs.map (fun p => ({ D p with kind := .none }, decide (∃ q, Next qs p q ∧ adj (D p) (D q) = true))) := by
  induction qs with
  | nil => rfl
  | cons x qs ih =>
    obtain ⟨hx, hs'⟩ := List.pairwise_cons.mp hs
    have hrest : qs.map (fun p => (({ D p with kind := .none } : Diff), decide (∃ q, Next qs p q ∧ adj (D p) (D q) = true))) =
        qs.map (fun p => ({ D p with kind := .none }, decide (∃ q, Next (x :: qs) p q ∧ adj (D p) (D q) = true))) := by
      apply List.map_congr_left
      intro p hp
      have hxp := hx p hp
      have : (∃ q, Next qs p q ∧ adj (D p) (D q) = true) ↔ (∃ q, Next (x :: qs) p q ∧ adj (D p) (D q) = true) := by
        constructor
        · rintro ⟨q, ⟨h1, h2, h3⟩, h4⟩
          refine ⟨q, ⟨List.mem_cons_of_mem _ h1, h2, ?_⟩, h4⟩
          intro r hr hpr
          rcases List.mem_cons.mp hr with rfl | hr
          · exact absurd (B.lt_trans hxp hpr) B.lt_irrefl
          · exact h3 r hr hpr
        · rintro ⟨q, ⟨h1, h2, h3⟩, h4⟩
          rcases List.mem_cons.mp h1 with rfl | h1
          · exact absurd (B.lt_trans hxp h2) B.lt_irrefl
          · exact ⟨q, ⟨h1, h2, fun r hr => h3 r (List.mem_cons_of_mem _ hr)⟩, h4⟩
      simp only [this]
    rw [List.map_cons, List.map_cons]
    cases qs with
    | nil =>
      simp only [List.map_nil, fwd, List.cons.injEq, Prod.mk.injEq, true_and, and_true]
      symm
      rw [decide_eq_false_iff_not]
      rintro ⟨q, ⟨h1, h2, -⟩, -⟩
      rw [List.mem_singleton] at h1
      rw [h1] at h2
      exact B.lt_irrefl h2
    | cons y rest =>
      rw [List.map_cons, fwd, ← List.map_cons, ih hs', hrest]
      congr 2
      symm
      have hy := hx y List.mem_cons_self
      have hn : Next (x :: y :: rest) x y := by
        refine ⟨by simp, hy, ?_⟩
        intro r hr hxr hry
        rcases List.mem_cons.mp hr with rfl | hr
        · exact B.lt_irrefl hxr
        · rcases List.mem_cons.mp hr with rfl | hr
          · exact B.lt_irrefl hry
          · exact B.lt_irrefl (B.lt_trans hry ((List.pairwise_cons.mp hs').1 r hr))
      have hu : ∀ q, Next (x :: y :: rest) x q → q = y := by
        rintro q ⟨h1, h2, h3⟩
        have h4 := h3 y (by simp) hy
        have h5 := hn.2.2 q h1 h2
        exact B.le_antisymm (B.not_lt.mp h4) (B.not_lt.mp h5)
      cases hadj : adj (D x) (D y) with
      | true => exact decide_eq_true ⟨y, hn, hadj⟩
      | false =>
        rw [decide_eq_false_iff_not]
        rintro ⟨q, h1, h2⟩
        rw [hu q h1, hadj] at h2
        cases h2

theorem item_none {l : List Entry} {p : Bytes} : itemAt l p = none ↔ entryAt l p = none := by
  rw [itemAt_eq, Option.map_eq_none_iff]

theorem present_of_changed {a o t : List Entry} {p : Bytes} (h : Changed a o t p) : (entryAt a p).isSome ∨ (entryAt o p).isSome ∨ (entryAt t p).isSome := by
  by_contra hc
  apply h
  simp only [not_or, Bool.not_eq_true, Option.isSome_eq_false_iff, Option.isNone_iff_eq_none] at hc
  simp [itemAt_eq, hc.1, hc.2.1, hc.2.2]

theorem added_present {a x : Option Item} (h : AddedOrModified a x) : x.isSome = true := by
  cases x with
  | none => cases a <;> exact h.elim
  | some x => rfl

open Classical in
/-- the differences that are found: the unchanged entries, and the changed paths in order with their marks -/
theorem differences {a o t : List Entry} (ha : IsTree a) (ho : IsTree o) (ht : IsTree t) :
    ∃ ps : List Bytes, ps.Pairwise (fun a b => a < b) ∧ (∀ p, p ∈ ps ↔ (entryAt a p).isSome ∨ (entryAt o p).isSome ∨ (entryAt t p).isSome) ∧
      (findDifferences a o t).staged = (ps.filter (fun p => ! decide (Changed a o t p))).map (fun p => (entryAt a p).getD zeroEntry) ∧
      (findDifferences a o t).conflicts.reverse.map strip =
        (ps.filter (fun p => decide (Changed a o t p))).map (fun p => ({ diffAt a o t p with kind := .none }, decide (DirFile a o t p))) := by
  obtain ⟨ps, h1, h2, h3⟩ := findDifferences_eq ha ho ht
  have hmod : ∀ p ∈ ps, modAt a o t p = decide (Changed a o t p) := by
    intro p hp
    have := modified_iff (okay_at ha p) (okay_at ho p) (okay_at ht p) ((h2 p).mp hp)
    rw [Bool.eq_iff_iff, decide_eq_true_iff]
    exact this
  have f1 : ps.filter (modAt a o t) = ps.filter (fun p => decide (Changed a o t p)) := List.filter_congr hmod
  have f2 : ps.filter (fun p => ! modAt a o t p) = ps.filter (fun p => ! decide (Changed a o t p)) :=
    List.filter_congr (fun p hp => by rw [hmod p hp])
  refine ⟨ps, h1, h2, ?_, ?_⟩
  · rw [h3, f2]
  · rw [h3, f1]
    simp only
    set qs := ps.filter (fun p => decide (Changed a o t p)) with hqs
    have hq : ∀ p, p ∈ qs ↔ Changed a o t p := by
      intro p
      rw [hqs, List.mem_filter, decide_eq_true_iff]
      exact ⟨fun h => h.2, fun h => ⟨(h2 p).mpr (present_of_changed h), h⟩⟩
    have hsorted : qs.Pairwise (fun a b => a < b) := h1.filter _
    have hpath : ∀ p, Changed a o t p → diffPath (diffAt a o t p) = p := fun p hp =>
      diffPath_eq (okay_at ha p) (okay_at ho p) (okay_at ht p) (present_of_changed hp)
    have htouch : ∀ p, anyAddedOrModified (diffAt a o t p) = true ↔ Touched a o t p := fun p =>
      touched_iff (okay_at ha p) (okay_at ho p) (okay_at ht p)
    have hm := fold_marks (fun p => (entryAt o p).isSome = true) (fun p => (entryAt t p).isSome = true)
      (by
        intro p q h1 h2 hu
        obtain ⟨e, he⟩ := Option.isSome_iff_exists.mp h1
        obtain ⟨e', he'⟩ := Option.isSome_iff_exists.mp h2
        obtain ⟨m1, rfl⟩ := entryAt_mem he
        obtain ⟨m2, rfl⟩ := entryAt_mem he'
        exact ho.files e m1 e' m2 hu)
      (by
        intro p q h1 h2 hu
        obtain ⟨e, he⟩ := Option.isSome_iff_exists.mp h1
        obtain ⟨e', he'⟩ := Option.isSome_iff_exists.mp h2
        obtain ⟨m1, rfl⟩ := entryAt_mem he
        obtain ⟨m2, rfl⟩ := entryAt_mem he'
        exact ht.files e m1 e' m2 hu)
      (qs.map (diffAt a o t))
      (by
        intro c hc hm
        obtain ⟨p, hp, rfl⟩ := List.mem_map.mp hc
        rw [hpath p ((hq p).mp hp)]
        rcases (htouch p).mp hm with h | h
        · left; have := added_present h; rwa [itemAt_eq, Option.isSome_map] at this
        · right; have := added_present h; rwa [itemAt_eq, Option.isSome_map] at this)
      (by
        intro c hc
        obtain ⟨p, hp, rfl⟩ := List.mem_map.mp hc
        exact kind_ne _ _ _)
      [] ⟨[], [], none⟩ (by simp) rfl (by simp)
    rw [List.append_nil] at hm
    rw [List.map_reverse, hm, flags_fwd, fwd_next _ _ hsorted]
    apply List.map_congr_left
    intro p hp
    have hpc := (hq p).mp hp
    congr 1
    have : (∃ q, Next qs p q ∧ adj (diffAt a o t p) (diffAt a o t q) = true) ↔ DirFile a o t p := by
      constructor
      · rintro ⟨q, ⟨g1, g2, g3⟩, g4⟩
        have hqc := (hq q).mp g1
        simp only [adj, Bool.and_eq_true] at g4
        obtain ⟨⟨k1, k2⟩, k3⟩ := g4
        rw [hpath p hpc, hpath q hqc] at k3
        refine ⟨hpc, (htouch p).mp k1, q, hqc, g2, ?_, (htouch q).mp k2, pathIsPrefixed_iff.mp k3⟩
        intro r h1 h2 hr
        exact g3 r ((hq r).mpr hr) h1 h2
      · rintro ⟨-, k1, q, hqc, g2, g3, k2, k3⟩
        refine ⟨q, ⟨(hq q).mpr hqc, g2, fun r hr h1 h2 => g3 r h1 h2 ((hq r).mp hr)⟩, ?_⟩
        simp only [adj, Bool.and_eq_true]
        refine ⟨⟨(htouch p).mpr k1, (htouch q).mpr k2⟩, ?_⟩
        rw [hpath p hpc, hpath q hqc]
        exact pathIsPrefixed_iff.mpr k3
    simp only [this]

/-! ## The loop over the changes -/

def sides (c : Diff) : List (Option Entry) := [side c.ancestor, side c.ours, side c.theirs]

theorem sides_strip {c c' : Diff} (h : strip c = strip c') : sides c = sides c' := by
  have := congrArg Prod.fst h
  simp only [strip] at this
  cases c; cases c'
  simp only [Diff.mk.injEq, true_and] at this
  obtain ⟨rfl, rfl, rfl, -, -⟩ := this
  rfl

def Out.stagedOf : Res Out → List Entry
  | .ok (.resolved e) => e.toList
  | _ => []

/-- the resolution of the marked difference `d` -/
theorem resolveAll_ok (drv : Driver) (fail : Bool) (g : Bytes → Diff) (qs : List Bytes) : ∀ (ds : List Diff), ds.map strip = qs.map (fun p => strip (g p)) →
    ∀ (staged : List Entry) (conflicts : List Diff),
    (∃ x, resolveAll drv fail ds staged conflicts = .err x ∧
      ((∃ p ∈ qs, resolve drv (g p) = .err x) ∨ (fail = true ∧ x = EMERGECONFLICT ∧ ∃ p ∈ qs, resolve drv (g p) = .ok .unresolved))) ∨
    (resolveAll drv fail ds staged conflicts = .ub ∧ ∃ p ∈ qs, resolve drv (g p) = .ub) ∨
    (∃ r, resolveAll drv fail ds staged conflicts = .ok r ∧ (∀ p ∈ qs, ∃ out, resolve drv (g p) = .ok out) ∧
      (fail = true → ∀ p ∈ qs, resolve drv (g p) ≠ .ok .unresolved) ∧
      r.1 = staged ++ qs.flatMap (fun p => Out.stagedOf (resolve drv (g p))) ∧
      r.2.map sides = conflicts.map sides ++ (qs.filter (fun p => decide (resolve drv (g p) = .ok .unresolved))).map (fun p => sides (g p))) := by
  induction qs with
  | nil =>
    intro ds hds staged conflicts
    have : ds = [] := by simpa using hds
    subst this
    right; right
    exact ⟨(staged, conflicts), rfl, by simp, by simp, by simp, by simp⟩
  | cons p qs ih =>
    intro ds hds staged conflicts
    cases ds with
    | nil => simp at hds
    | cons d ds =>
      simp only [List.map_cons, List.cons.injEq] at hds
      obtain ⟨hd, hds⟩ := hds
      have hres := resolve_kind drv d (g p) hd
      have hsd := sides_strip hd
      rw [resolveAll, hres]
      cases hr : resolve drv (g p) with
      | err x =>
        left
        exact ⟨x, rfl, .inl ⟨p, by simp, hr⟩⟩
      | ub =>
        right; left
        exact ⟨rfl, p, by simp, hr⟩
      | ok out =>
        cases out with
        | resolved e =>
          simp only
          rcases ih ds hds (staged ++ e.toList) conflicts with ⟨x, h1, h2⟩ | ⟨h1, q, hq, h2⟩ | ⟨r, h1, h2, h3, h4, h5⟩
          · left
            refine ⟨x, h1, ?_⟩
            rcases h2 with ⟨q, hq, h⟩ | ⟨hf, hx, q, hq, h⟩
            · exact .inl ⟨q, List.mem_cons_of_mem _ hq, h⟩
            · exact .inr ⟨hf, hx, q, List.mem_cons_of_mem _ hq, h⟩
          · right; left
            exact ⟨h1, q, List.mem_cons_of_mem _ hq, h2⟩
          · right; right
            refine ⟨r, h1, ?_, ?_, ?_, ?_⟩
            · intro q hq
              rcases List.mem_cons.mp hq with rfl | hq
              · exact ⟨_, hr⟩
              · exact h2 q hq
            · intro hf q hq
              rcases List.mem_cons.mp hq with rfl | hq
              · rw [hr]; simp
              · exact h3 hf q hq
            · rw [h4, List.flatMap_cons, hr]
              simp [Out.stagedOf]
            · rw [h5, List.filter_cons_of_neg (by simp [hr])]
        | unresolved =>
          simp only
          by_cases hf : fail = true
          · left
            rw [if_pos hf]
            exact ⟨_, rfl, .inr ⟨hf, rfl, p, by simp, hr⟩⟩
          · rw [if_neg hf]
            rcases ih ds hds staged (conflicts ++ [d]) with ⟨x, h1, h2⟩ | ⟨h1, q, hq, h2⟩ | ⟨r, h1, h2, h3, h4, h5⟩
            · left
              refine ⟨x, h1, ?_⟩
              rcases h2 with ⟨q, hq, h⟩ | ⟨hf, hx, q, hq, h⟩
              · exact .inl ⟨q, List.mem_cons_of_mem _ hq, h⟩
              · exact .inr ⟨hf, hx, q, List.mem_cons_of_mem _ hq, h⟩
            · right; left
              exact ⟨h1, q, List.mem_cons_of_mem _ hq, h2⟩
            · right; right
              refine ⟨r, h1, ?_, fun h => absurd h hf, ?_, ?_⟩
              · intro q hq
                rcases List.mem_cons.mp hq with rfl | hq
                · exact ⟨_, hr⟩
                · exact h2 q hq
              · rw [h4, List.flatMap_cons, hr]
                simp [Out.stagedOf]
              · rw [h5, List.filter_cons_of_pos (by simp [hr])]
                simp [hsd]

/-! ## The index -/

theorem ordInsert_mem (e : Entry) (l : List Entry) (x : Entry) : x ∈ ordInsert e l ↔ x = e ∨ x ∈ l := by
  induction l with
  | nil => simp [ordInsert]
  | cons y ys ih =>
    rw [ordInsert]
    split
    · simp
    · rw [List.mem_cons, ih, List.mem_cons]
      constructor
      · rintro (h | h | h)
        · exact .inr (.inl h)
        · exact .inl h
        · exact .inr (.inr h)
      · rintro (h | h | h)
        · exact .inr (.inl h)
        · exact .inl h
        · exact .inr (.inr h)

theorem ordInsert_sorted (e : Entry) (l : List Entry) (hs : l.Pairwise (fun a b => entryCmp a b < 0)) (hk : ∀ x ∈ l, ¬ (x.path = e.path ∧ x.stage = e.stage)) :
    (ordInsert e l).Pairwise (fun a b => entryCmp a b < 0) := by
  induction l with
  | nil => simp [ordInsert]
  | cons y ys ih =>
    obtain ⟨h1, h2⟩ := List.pairwise_cons.mp hs
    rw [ordInsert]
    split
    · rename_i hlt
      rw [List.pairwise_cons]
      refine ⟨?_, hs⟩
      intro z hz
      rcases List.mem_cons.mp hz with rfl | hz
      · exact hlt
      · exact entryCmp_lt_trans hlt (h1 z hz)
    · rename_i hge
      have hne : entryCmp e y ≠ 0 := by
        intro h0
        have := entryCmp_zero.mp h0
        exact hk y List.mem_cons_self ⟨this.1.symm, this.2.symm⟩
      have hye : entryCmp y e < 0 := by rw [entryCmp_flip]; omega
      rw [List.pairwise_cons]
      refine ⟨?_, ih h2 (fun x hx => hk x (List.mem_cons_of_mem _ hx))⟩
      intro z hz
      rcases (ordInsert_mem e ys z).mp hz with rfl | hz
      · exact hye
      · exact h1 z hz

theorem fill_fold (es : List Entry) : ∀ (l : List Entry) (m), Inv ⟨l, m⟩ → (∀ e ∈ es, ∀ x ∈ l, ¬ (x.path = e.path ∧ x.stage = e.stage)) →
    es.Pairwise (fun a b => ¬ (a.path = b.path ∧ a.stage = b.stage)) →
    Inv ⟨es.foldl (fun l e => ordInsert e l) l, es.foldl putmap m⟩ ∧ ∀ x, x ∈ es.foldl (fun l e => ordInsert e l) l ↔ x ∈ l ∨ x ∈ es := by
  induction es with
  | nil => intro l m hi _ _; exact ⟨hi, by simp⟩
  | cons e es ih =>
    intro l m hi hnew hp
    obtain ⟨p1, p2⟩ := List.pairwise_cons.mp hp
    have hno := hnew e List.mem_cons_self
    have hi' : Inv ⟨ordInsert e l, putmap m e⟩ := by
      refine ⟨ordInsert_sorted e l hi.sorted hno, ?_⟩
      intro p s x
      simp only [putmap, ordInsert_mem]
      split
      · rename_i hk
        constructor
        · intro h; cases h; exact ⟨.inl rfl, hk.1.symm, hk.2.symm⟩
        · rintro ⟨rfl | hx, h1, h2⟩
          · rfl
          · exact absurd ⟨h1.trans hk.1, h2.trans hk.2⟩ (hno x hx)
      · rename_i hk
        have := hi.agree p s x
        simp only at this
        rw [this]
        constructor
        · rintro ⟨h1, h2⟩; exact ⟨.inr h1, h2⟩
        · rintro ⟨rfl | hx, h1, h2⟩
          · exact absurd ⟨h1.symm, h2.symm⟩ hk
          · exact ⟨hx, h1, h2⟩
    obtain ⟨g1, g2⟩ := ih (ordInsert e l) (putmap m e) hi' (by
      intro e' he' x hx
      rcases (ordInsert_mem e l x).mp hx with rfl | hx
      · exact p1 e' he'
      · exact hnew e' (List.mem_cons_of_mem _ he') x hx) p2
    refine ⟨g1, ?_⟩
    intro x
    rw [List.foldl_cons, g2, ordInsert_mem, List.mem_cons]
    constructor
    · rintro ((h | h) | h)
      · exact .inr (.inl h)
      · exact .inl h
      · exact .inr (.inr h)
    · rintro (h | h | h)
      · exact .inl (.inr h)
      · exact .inl (.inl h)
      · exact .inr h

theorem fill_ok (S : List Entry) (h0 : ∀ e ∈ S, e.stage = 0) (hp : S.Pairwise (fun a b => a.path ≠ b.path)) :
    Inv (fill S) ∧ ∀ x, x ∈ (fill S).entries ↔ ∃ e ∈ S, x = stored e 0 := by
  obtain ⟨h1, h2⟩ := fill_fold (S.map (fun e => { e with mode := createMode e.mode })) [] (fun _ _ => none) inv_init (by simp) (by
    rw [List.pairwise_map]
    exact hp.imp (fun h hk => h hk.1))
  refine ⟨h1, ?_⟩
  intro x
  have : x ∈ (fill S).entries ↔ x ∈ S.map (fun e => { e with mode := createMode e.mode }) := by
    have := h2 x
    rw [show (x ∈ ([] : List Entry) ∨ x ∈ S.map (fun e => { e with mode := createMode e.mode })) ↔ x ∈ S.map (fun e => { e with mode := createMode e.mode }) from by simp] at this
    exact this
  rw [this, List.mem_map]
  constructor
  · rintro ⟨e, he, rfl⟩
    refine ⟨e, he, ?_⟩
    rw [stored, ← h0 e he]
  · rintro ⟨e, he, rfl⟩
    refine ⟨e, he, ?_⟩
    rw [stored, ← h0 e he]

theorem addConflicts_ok (pv : Bytes → Bool) {a o t : List Entry} (ha : IsTree a) (ho : IsTree o) (ht : IsTree t) (qs : List Bytes) : ∀ (cs : List Diff),
    cs.map sides = qs.map (items a o t) → qs.Nodup → ∀ st : St, Inv st →
    (∀ x ∈ st.entries, x.stage ≠ 0 → ∃ l, [a, o, t][x.stage - 1]? = some l ∧ (entryAt l x.path).isSome = true) →
    (∀ p ∈ qs, ∀ x ∈ st.entries, x.path ≠ p) →
    (∃ st', addConflicts ⟨pv, fun _ _ => true⟩ cs st = .ok st' ∧ Inv st' ∧ (∀ p ∈ qs, ∀ e, some e ∈ items a o t p → pv p = true ∧ StoredMode e.mode) ∧
      ∀ x, x ∈ st'.entries ↔ x ∈ st.entries ∨ ∃ p ∈ qs, ∃ i e, (items a o t p)[i]? = some (some e) ∧ x = stored e (1 + i)) ∨
    (addConflicts ⟨pv, fun _ _ => true⟩ cs st = .err (-1) ∧ ∃ p ∈ qs, ∃ e, some e ∈ items a o t p ∧ ¬ (pv p = true ∧ StoredMode e.mode)) := by
  have hcons : ∀ (i : Nat) l, [a, o, t][i]? = some l → ∀ p q, (entryAt l p).isSome = true → (entryAt l q).isSome = true → ¬ Collide p q := by
    intro i l hl p q h1 h2 hc
    have hl : IsTree l := by
      have := List.mem_of_getElem? hl
      simp only [List.mem_cons, List.not_mem_nil, or_false] at this
      rcases this with rfl | rfl | rfl <;> assumption
    obtain ⟨e, he⟩ := Option.isSome_iff_exists.mp h1
    obtain ⟨e', he'⟩ := Option.isSome_iff_exists.mp h2
    obtain ⟨m1, rfl⟩ := entryAt_mem he
    obtain ⟨m2, rfl⟩ := entryAt_mem he'
    rcases hc with hc | hc
    · exact hl.files e m1 e' m2 hc
    · exact hl.files e' m2 e m1 hc
  have hitem : ∀ p (i : Nat) e, (items a o t p)[i]? = some (some e) → e.path = p ∧ ∃ l, [a, o, t][i]? = some l ∧ entryAt l p = some e := by
    intro p i e hi
    have : items a o t p = [a, o, t].map (fun l => entryAt l p) := rfl
    rw [this, List.getElem?_map, Option.map_eq_some_iff] at hi
    obtain ⟨l, h1, h2⟩ := hi
    exact ⟨(entryAt_mem h2).2, l, h1, h2⟩
  have hitem' : ∀ p e, some e ∈ items a o t p → e.path = p := by
    intro p e he
    obtain ⟨i, hi⟩ := List.mem_iff_getElem?.mp he
    exact (hitem p i e hi).1
  induction qs with
  | nil =>
    intro cs hcs _ st hi _ _
    have : cs = [] := by simpa using hcs
    subst this
    left
    exact ⟨st, rfl, hi, by simp, by simp⟩
  | cons p qs ih =>
    intro cs hcs hnd st hi hst hnew
    obtain ⟨hp, hnd'⟩ := List.nodup_cons.mp hnd
    cases cs with
    | nil => simp at hcs
    | cons c cs =>
      simp only [List.map_cons, List.cons.injEq] at hcs
      obtain ⟨hc, hcs⟩ := hcs
      have hsa : side c.ancestor = entryAt a p ∧ side c.ours = entryAt o p ∧ side c.theirs = entryAt t p := by
        simpa [sides, items] using hc
      rw [addConflicts, hsa.1, hsa.2.1, hsa.2.2]
      rcases conflictAdd_cases ⟨pv, fun _ _ => true⟩ hi (entryAt a p) (entryAt o p) (entryAt t p) with ⟨h1, e, he, hne⟩ | ⟨hall, st0, st', k, h1, h2, h3, h4, h5, h6, h7, h8⟩
      · right
        rw [h1]
        refine ⟨by simp, p, by simp, e, he, ?_⟩
        rw [hitem' p e he] at hne
        exact hne
      · have hk : k = 0 := h5.mpr (fun e _ => .inr rfl)
        subst hk
        rw [h1]
        simp only [show ¬ ((0 : Int) < 0) from by decide, if_false]
        have hmem : ∀ x, x ∈ st'.entries ↔ x ∈ st.entries ∨ ∃ i e, (items a o t p)[i]? = some (some e) ∧ x = stored e (1 + i) := by
          intro x
          constructor
          · intro hx
            rcases h7 x hx with h | h
            · exact .inr h
            · exact .inl ((h4 x).mp h).1
          · rintro (hx | ⟨i, e, h, rfl⟩)
            · have hx0 : x ∈ st0.entries := by
                rw [h4]
                refine ⟨hx, ?_⟩
                rintro ⟨-, e, he, hep⟩
                rw [hitem' p e he] at hep
                exact hnew p List.mem_cons_self x hx hep.symm
              rcases h8 x hx0 with h | ⟨i, e, g1, g2, g3⟩
              · exact h
              · exfalso
                obtain ⟨hep, l, hl, hle⟩ := hitem p i e g1
                rcases g3 with g3 | g3
                · exact hnew p List.mem_cons_self x hx (g3.trans hep)
                · obtain ⟨l', hl', hle'⟩ := hst x hx (by omega)
                  have : x.stage - 1 = i := by omega
                  rw [this, hl] at hl'
                  cases hl'
                  rw [hep] at g3
                  exact hcons i l hl p x.path (by rw [hle]; rfl) hle' g3
            · exact h6 rfl i e h
        have hst' : ∀ x ∈ st'.entries, x.stage ≠ 0 → ∃ l, [a, o, t][x.stage - 1]? = some l ∧ (entryAt l x.path).isSome = true := by
          intro x hx hs
          rcases (hmem x).mp hx with hx | ⟨i, e, h, rfl⟩
          · exact hst x hx hs
          · obtain ⟨hep, l, hl, hle⟩ := hitem p i e h
            refine ⟨l, ?_, ?_⟩
            · have : (stored e (1 + i)).stage - 1 = i := by simp only [stored]; omega
              rw [this]; exact hl
            · have : (stored e (1 + i)).path = p := hep
              rw [this, hle]; rfl
        have hnew' : ∀ q ∈ qs, ∀ x ∈ st'.entries, x.path ≠ q := by
          intro q hq x hx hxq
          rcases (hmem x).mp hx with hx | ⟨i, e, h, rfl⟩
          · exact hnew q (List.mem_cons_of_mem _ hq) x hx hxq
          · have : (stored e (1 + i)).path = p := (hitem p i e h).1
            rw [this] at hxq
            rw [hxq] at hp
            exact hp hq
        rcases ih cs hcs hnd' st' h3 hst' hnew' with ⟨st2, k1, k2, k3, k4⟩ | ⟨k1, q, hq, k2⟩
        · left
          refine ⟨st2, k1, k2, ?_, ?_⟩
          · intro q hq e he
            rcases List.mem_cons.mp hq with rfl | hq
            · have := hall e he
              rw [hitem' _ e he] at this
              exact this
            · exact k3 q hq e he
          · intro x
            rw [k4, hmem]
            constructor
            · rintro ((h | h) | ⟨q, hq, h⟩)
              · exact .inl h
              · exact .inr ⟨p, by simp, h⟩
              · exact .inr ⟨q, List.mem_cons_of_mem _ hq, h⟩
            · rintro (h | ⟨q, hq, h⟩)
              · exact .inl (.inl h)
              · rcases List.mem_cons.mp hq with rfl | hq
                · exact .inl (.inr h)
                · exact .inr ⟨q, hq, h⟩
        · right
          exact ⟨k1, q, List.mem_cons_of_mem _ hq, k2⟩

end Verif.Merge
