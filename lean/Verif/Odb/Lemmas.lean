import Verif.Odb.Spec
import Verif.PackIdx.Lemmas
import Mathlib.Data.List.Forall2
/-! # The loops over the backends -/
namespace Verif.Odb
open Spec
open PackIdx.Spec (SamePrefix Padded)

/-- only a lookup came between -/
structure Quiet {σ : Type} (ops : Ops σ) (Good : σ → Prop) (sees after : σ → Objs) (s t : Slot σ) : Prop where
  good : Good t.st
  sees : sees t.st = sees s.st
  after : after t.st = after s.st
  can : ops.canRefresh t.st = ops.canRefresh s.st
  alt : t.alternate = s.alternate

/-- it has been refreshed -/
structure Fresh {σ : Type} (ops : Ops σ) (Good : σ → Prop) (sees after : σ → Objs) (s t : Slot σ) : Prop where
  good : Good t.st
  sees : sees t.st = after s.st
  after : after t.st = after s.st
  can : ops.canRefresh t.st = ops.canRefresh s.st
  alt : t.alternate = s.alternate

/-- one or the other -/
structure Later {σ : Type} (ops : Ops σ) (Good : σ → Prop) (sees after : σ → Objs) (s t : Slot σ) : Prop where
  good : Good t.st
  sees : sees t.st = sees s.st ∨ sees t.st = after s.st
  after : after t.st = after s.st
  can : ops.canRefresh t.st = ops.canRefresh s.st
  alt : t.alternate = s.alternate

variable {σ α : Type} {ops : Ops σ} {Good : σ → Prop} {sees after : σ → Objs} {Valid : Bytes → Obj → Prop} {osz : Nat} {cfg : Cfg} {P : Obj → Prop}

theorem Quiet.refl {s : Slot σ} (h : Good s.st) : Quiet ops Good sees after s s := ⟨h, rfl, rfl, rfl, rfl⟩

theorem quiet_all {ss : List (Slot σ)} (h : ∀ s ∈ ss, Good s.st) : List.Forall₂ (Quiet ops Good sees after) ss ss := by
  induction ss with
  | nil => exact .nil
  | cons a l ih => exact .cons (Quiet.refl (h a (by simp))) (ih fun s hs => h s (by simp [hs]))

theorem later_of_quiet {s t : Slot σ} (h : Quiet ops Good sees after s t) : Later ops Good sees after s t := ⟨h.good, .inl h.sees, h.after, h.can, h.alt⟩

theorem later_of_fresh {s t : Slot σ} (h : Fresh ops Good sees after s t) : Later ops Good sees after s t := ⟨h.good, .inr h.sees, h.after, h.can, h.alt⟩

theorem Later.trans {s t u : Slot σ} (h : Later ops Good sees after s t) (k : Later ops Good sees after t u) : Later ops Good sees after s u := by
  refine ⟨k.good, ?_, k.after.trans h.after, k.can.trans h.can, k.alt.trans h.alt⟩
  rcases k.sees with a | a
  · rw [a]; exact h.sees
  · rw [a, h.after]; exact .inr rfl

theorem forall₂_trans {R S T : Slot σ → Slot σ → Prop} (hh : ∀ a b c, R a b → S b c → T a c) : ∀ {x y z : List (Slot σ)}, List.Forall₂ R x y → List.Forall₂ S y z → List.Forall₂ T x z := by
  intro x y z h
  induction h generalizing z with
  | nil => intro k; cases k; exact .nil
  | cons a _ ih => intro k; cases k with | cons b l => exact .cons (hh _ _ _ a b) (ih l)

theorem forall₂_mem {R : Slot σ → Slot σ → Prop} : ∀ {x y : List (Slot σ)}, List.Forall₂ R x y → ∀ b ∈ y, ∃ a ∈ x, R a b := by
  intro x y h
  induction h with
  | nil => intro b hb; cases hb
  | cons a _ ih =>
    intro b hb
    rcases List.mem_cons.mp hb with rfl | hb
    · exact ⟨_, by simp, a⟩
    · obtain ⟨c, hc, hr⟩ := ih b hb; exact ⟨c, by simp [hc], hr⟩

theorem forall₂_mem' {R : Slot σ → Slot σ → Prop} : ∀ {x y : List (Slot σ)}, List.Forall₂ R x y → ∀ a ∈ x, ∃ b ∈ y, R a b := by
  intro x y h
  induction h with
  | nil => intro b hb; cases hb
  | cons a _ ih =>
    intro b hb
    rcases List.mem_cons.mp hb with rfl | hb
    · exact ⟨_, by simp, a⟩
    · obtain ⟨c, hc, hr⟩ := ih b hb; exact ⟨c, by simp [hc], hr⟩

/-- the loop: some backend that was asked has answered, or none has -/
theorem firstLoop_spec {only : Bool} {f : σ → σ × Res α} {R : σ → Res α → Prop}
    (hf : ∀ s : Slot σ, Good s.st → Quiet ops Good sees after s ⟨(f s.st).1, s.alternate⟩ ∧ R s.st (f s.st).2 ∧
      ((∃ x, (f s.st).2 = .ok x) ∨ (f s.st).2 = .err (-3) ∨ (f s.st).2 = .err (-30))) :
    ∀ ss : List (Slot σ), (∀ s ∈ ss, Good s.st) → List.Forall₂ (Quiet ops Good sees after) ss (firstLoop ops only f ss).1 ∧
      ((∃ s ∈ ss, ∃ x, (firstLoop ops only f ss).2.1 = .ok x ∧ R s.st (.ok x)) ∨
        ((firstLoop ops only f ss).2.1 = .err (-3) ∧ ∀ s ∈ ss, (only = false ∨ ops.canRefresh s.st = true) →
          R s.st (.err (-3)) ∨ ((firstLoop ops only f ss).2.2 = true ∧ R s.st (.err (-30))))) := by
  intro ss
  induction ss with
  | nil => intro _; exact ⟨.nil, .inr ⟨rfl, fun s hs => by cases hs⟩⟩
  | cons s ss ih =>
    intro hg
    have hgs := hg s (by simp)
    obtain ⟨i1, i2⟩ := ih fun t ht => hg t (by simp [ht])
    obtain ⟨q, hr, hc⟩ := hf s hgs
    unfold firstLoop
    by_cases ho : only = true ∧ ops.canRefresh s.st = false
    · rw [if_pos (by simp [ho])]
      refine ⟨.cons (.refl hgs) i1, ?_⟩
      rcases i2 with ⟨t, ht, x, hx⟩ | ⟨h1, h2⟩
      · exact .inl ⟨t, by simp [ht], x, hx⟩
      · refine .inr ⟨h1, fun t ht hw => ?_⟩
        rcases List.mem_cons.mp ht with rfl | ht
        · rcases hw with h | h
          · rw [ho.1] at h; cases h
          · rw [ho.2] at h; cases h
        · exact h2 t ht hw
    · rw [if_neg (by intro h; apply ho; simpa using h)]
      generalize hfs : f s.st = r at q hr hc ⊢
      obtain ⟨t, r⟩ := r
      dsimp only at q hr hc
      rcases hc with ⟨x, rfl⟩ | rfl | rfl
      · exact ⟨.cons q (quiet_all fun t ht => hg t (by simp [ht])), .inl ⟨s, by simp, x, rfl, hr⟩⟩
      · simp only [ENOTFOUND, PASSTHROUGH, or_true, if_true]
        refine ⟨.cons q i1, ?_⟩
        rcases i2 with ⟨u, hu, x, hx⟩ | ⟨h1, h2⟩
        · exact .inl ⟨u, by simp [hu], x, hx⟩
        · refine .inr ⟨h1, fun u hu hw => ?_⟩
          rcases List.mem_cons.mp hu with rfl | hu
          · exact .inl hr
          · simpa using h2 u hu hw
      · simp only [ENOTFOUND, PASSTHROUGH, true_or, if_true]
        refine ⟨.cons q i1, ?_⟩
        rcases i2 with ⟨u, hu, x, hx⟩ | ⟨h1, h2⟩
        · exact .inl ⟨u, by simp [hu], x, hx⟩
        · refine .inr ⟨h1, fun u hu hw => ?_⟩
          rcases List.mem_cons.mp hu with rfl | hu
          · exact .inr ⟨by simp, hr⟩
          · rcases h2 u hu hw with h | ⟨_, h⟩
            · exact .inl h
            · exact .inr ⟨by simp, h⟩

theorem refreshLoop_spec (H : Honest ops osz Good sees after Valid) : ∀ ss : List (Slot σ), (∀ s ∈ ss, Good s.st) →
    List.Forall₂ (Fresh ops Good sees after) ss (refreshLoop ops ss).1 ∧ (refreshLoop ops ss).2 = .ok () := by
  intro ss
  induction ss with
  | nil => intro _; exact ⟨.nil, rfl⟩
  | cons s ss ih =>
    intro hg
    have hgs := hg s (by simp)
    obtain ⟨i1, i2⟩ := ih fun t ht => hg t (by simp [ht])
    unfold refreshLoop
    cases hc : ops.canRefresh s.st with
    | false => exact ⟨.cons ⟨hgs, (H.fixed _ hgs hc).symm, rfl, rfl, rfl⟩ i1, i2⟩
    | true =>
      obtain ⟨a, b, c, d, e⟩ := H.refresh _ hgs hc
      generalize hr : ops.refresh s.st = r at a b c d e ⊢
      obtain ⟨t, r⟩ := r
      dsimp only at b
      subst b
      exact ⟨.cons ⟨a, c, d, by simp [e, hc], rfl⟩ i1, i2⟩

theorem refresh_spec (H : Honest ops osz Good sees after Valid) {db : Db σ} (hg : ∀ s ∈ db.slots, Good s.st) :
    List.Forall₂ (Fresh ops Good sees after) db.slots (refresh ops db).1.slots ∧ (refresh ops db).2 = .ok () ∧ (refresh ops db).1.cache = db.cache :=
  ⟨(refreshLoop_spec H _ hg).1, (refreshLoop_spec H _ hg).2, rfl⟩

/-- the loop for an abbreviation -/
theorem prefixLoop_spec {only : Bool} {f : σ → σ × Res (Bytes × α)} {key : Bytes} {len : Nat}
    (hf : ∀ s : Slot σ, Good s.st → Quiet ops Good sees after s ⟨(f s.st).1, s.alternate⟩ ∧ Answer (Has (sees s.st)) key len (idOnly (f s.st).2)) :
    ∀ (ss : List (Slot σ)) (found : Option (Bytes × α)) (U : Bytes → Prop), (∀ s ∈ ss, Good s.st) →
      Looked U key len (idOnly (match found with
        | some x => .ok x
        | none => .err (-3))) →
      List.Forall₂ (Quiet ops Good sees after) ss (prefixLoop ops only f found ss).1 ∧
      Looked (fun i => U i ∨ ∃ s ∈ ss, (only = false ∨ ops.canRefresh s.st = true) ∧ Has (sees s.st) i) key len (idOnly (prefixLoop ops only f found ss).2) ∧
      (∀ x, (prefixLoop ops only f found ss).2 = .ok x → found = some x ∨ ∃ s ∈ ss, (f s.st).2 = .ok x) := by
  intro ss
  induction ss with
  | nil =>
    intro found U _ hU
    refine ⟨.nil, ?_, ?_⟩
    · have he : (fun i => U i ∨ ∃ s ∈ ([] : List (Slot σ)), (only = false ∨ ops.canRefresh s.st = true) ∧ Has (sees s.st) i) = U := by funext i; simp
      rw [he]
      unfold prefixLoop
      cases found <;> exact hU
    · intro x hx
      unfold prefixLoop at hx
      cases found with
      | none => cases hx
      | some y => exact .inl (by simpa using hx)
  | cons s ss ih =>
    intro found U hg hU
    have hgs := hg s (by simp)
    have hgt : ∀ t ∈ ss, Good t.st := fun t ht => hg t (by simp [ht])
    obtain ⟨q, ha⟩ := hf s hgs
    unfold prefixLoop
    by_cases ho : only = true ∧ ops.canRefresh s.st = false
    · rw [if_pos (by simp [ho])]
      obtain ⟨i1, i2, i3⟩ := ih found U hgt hU
      refine ⟨.cons (.refl hgs) i1, ?_, ?_⟩
      · have he : (fun i => U i ∨ ∃ t ∈ s :: ss, (only = false ∨ ops.canRefresh t.st = true) ∧ Has (sees t.st) i) =
            (fun i => U i ∨ ∃ t ∈ ss, (only = false ∨ ops.canRefresh t.st = true) ∧ Has (sees t.st) i) := by
          funext i
          simp [ho.1, ho.2]
        rw [he]
        exact i2
      · intro x hx
        rcases i3 x hx with h | ⟨t, ht, h⟩
        · exact .inl h
        · exact .inr ⟨t, by simp [ht], h⟩
    · rw [if_neg (by intro h; apply ho; simpa using h)]
      have hin : only = false ∨ ops.canRefresh s.st = true := by
        cases only with
        | false => exact .inl rfl
        | true =>
          cases hc : ops.canRefresh s.st with
          | true => exact .inr rfl
          | false => exact (ho ⟨rfl, hc⟩).elim
      have he : (fun i => U i ∨ ∃ t ∈ s :: ss, (only = false ∨ ops.canRefresh t.st = true) ∧ Has (sees t.st) i) =
          (fun i => (U i ∨ Has (sees s.st) i) ∨ ∃ t ∈ ss, (only = false ∨ ops.canRefresh t.st = true) ∧ Has (sees t.st) i) := by
        funext i
        simp only [List.mem_cons, exists_eq_or_imp, hin, true_and, or_assoc]
      rw [he]
      have hskip : Looked (Has (sees s.st)) key len (.err (-3)) → Looked (fun i => U i ∨ Has (sees s.st) i) key len (idOnly (match found with
          | some x => .ok x
          | none => .err (-3))) := by
        intro hn
        cases hn with
        | none hn =>
          cases found with
          | none =>
            cases hU with
            | none hu => exact .none fun j hj => hj.elim (hu j) (hn j)
          | some x =>
            cases hU with
            | one h1 h2 h3 => exact .one (.inl h1) h2 fun j hj hs => hj.elim (fun h => h3 j h hs) fun h => (hn j h hs).elim
      generalize hfs : f s.st = r at q ha ⊢
      obtain ⟨t, r⟩ := r
      cases r with
      | ub =>
        rcases ha with h | ⟨h, _⟩
        · cases h
        · cases h
      | err e =>
        have hns : (e = -30 ∨ e = -3) → Looked (Has (sees s.st)) key len (.err (-3)) := by
          rintro (rfl | rfl)
          · rcases ha with h | ⟨_, h⟩
            · cases h
            · exact h
          · rcases ha with h | ⟨_, h⟩
            · exact h
            · exact h
        by_cases hp : e = -30 ∨ e = -3
        · dsimp only
          rw [if_pos (show e = PASSTHROUGH ∨ e = ENOTFOUND from hp)]
          obtain ⟨i1, i2, i3⟩ := ih found (fun i => U i ∨ Has (sees s.st) i) hgt (hskip (hns hp))
          refine ⟨.cons q i1, i2, fun x hx => ?_⟩
          rcases i3 x hx with h | ⟨t, ht, h⟩
          · exact .inl h
          · exact .inr ⟨t, by simp [ht], h⟩
        · dsimp only
          rw [if_neg (show ¬ (e = PASSTHROUGH ∨ e = ENOTFOUND) from hp)]
          refine ⟨.cons q (quiet_all hgt), ?_, fun x hx => by cases hx⟩
          rcases ha with h | ⟨h, _⟩
          · change Looked _ _ _ (.err e)
            change Looked _ _ _ (.err e) at h
            cases h with
            | none => exact (hp (.inr rfl)).elim
            | more h1 h2 h3 h4 h5 => exact .more (.inl (.inr h1)) (.inl (.inr h2)) h3 h4 h5
          · have h : (Res.err e : Res Bytes) = .err (-30) := h
            exact (hp (.inl (by injection h))).elim
      | ok x =>
        dsimp only
        replace ha : Looked (Has (sees s.st)) key len (.ok x.1) := by
          rcases ha with h | ⟨h, _⟩
          · exact h
          · cases h
        cases ha with
        | one h1 h2 h3 =>
          cases found with
          | none =>
            simp only [Bool.false_eq_true, if_false]
            have hU' : Looked (fun i => U i ∨ Has (sees s.st) i) key len (idOnly (match some x with
                | some x => .ok x
                | none => .err (-3))) := by
              cases hU with
              | none hu => exact .one (.inr h1) h2 fun j hj hs => hj.elim (fun h => (hu j h hs).elim) fun h => h3 j h hs
            obtain ⟨i1, i2, i3⟩ := ih (some x) (fun i => U i ∨ Has (sees s.st) i) hgt hU'
            refine ⟨.cons q i1, i2, fun y hy => ?_⟩
            rcases i3 y hy with h | ⟨t, ht, h⟩
            · injection h with h; subst h; exact .inr ⟨s, by simp, by rw [hfs]⟩
            · exact .inr ⟨t, by simp [ht], h⟩
          | some y =>
            cases hU with
            | one u1 u2 u3 =>
              by_cases hyx : y.1 = x.1
              · rw [if_neg (by simp [hyx])]
                have hU' : Looked (fun i => U i ∨ Has (sees s.st) i) key len (idOnly (match some x with
                    | some x => .ok x
                    | none => .err (-3))) :=
                  .one (.inr h1) h2 fun j hj hs => hj.elim (fun h => (u3 j h hs).trans hyx) fun h => h3 j h hs
                obtain ⟨i1, i2, i3⟩ := ih (some x) (fun i => U i ∨ Has (sees s.st) i) hgt hU'
                refine ⟨.cons q i1, i2, fun z hz => ?_⟩
                rcases i3 z hz with h | ⟨t, ht, h⟩
                · injection h with h; subst h; exact .inr ⟨s, by simp, by rw [hfs]⟩
                · exact .inr ⟨t, by simp [ht], h⟩
              · rw [if_pos (by simp [hyx])]
                exact ⟨.cons q (quiet_all hgt), .more (.inl (.inl u1)) (.inl (.inr h1)) hyx u2 h2, fun z hz => by cases hz⟩

end Verif.Odb
