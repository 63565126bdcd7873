import Verif.PackObjects.Lemmas4
/-! # The order in which objects are written: the walk over the descendants ends and misses nobody -/
namespace Verif.PackObjects

/-- `i` is a delta of a delta … of `s` -/
inductive Desc (delta : Nat → Option Nat) (s : Nat) : Nat → Prop
  | base {i : Nat} : delta i = some s → Desc delta s i
  | step {i b : Nat} : delta i = some b → Desc delta s b → Desc delta s i

theorem Desc.first {delta : Nat → Option Nat} {s i : Nat} (h : Desc delta s i) : ∃ c, delta c = some s ∧ (i = c ∨ Desc delta c i) := by
  induction h with
  | base h => exact ⟨_, h, .inl rfl⟩
  | step h _ ih =>
    obtain ⟨c, h1, rfl | h2⟩ := ih
    · exact ⟨_, h1, .inr (.base h)⟩
    · exact ⟨c, h1, .inr (.step h h2)⟩

/-- with enough fuel the walk gets from the first state to the second -/
def Leads (delta : Nat → Option Nat) (L : Links) (p : Option Nat) (add : Bool) (o : Order) (p' : Option Nat) (o' : Order) : Prop :=
  ∃ k F, ∀ f, F ≤ f → descendants delta L (f + k) p add o = descendants delta L f p' false o'

/-- where the walk goes on after the descendants of `s` -/
def Next (delta : Nat → Option Nat) (L : Links) (s : Nat) (x : Option Nat) : Prop := ∃ F, ∀ f, F ≤ f → goOn delta L f s = .ok x

theorem Leads.trans {delta : Nat → Option Nat} {L : Links} {p q r : Option Nat} {add : Bool} {o1 o2 o3 : Order} (h1 : Leads delta L p add o1 q o2)
    (h2 : Leads delta L q false o2 r o3) : Leads delta L p add o1 r o3 := by
  obtain ⟨k1, F1, e1⟩ := h1
  obtain ⟨k2, F2, e2⟩ := h2
  refine ⟨k2 + k1, max F1 F2, fun f hf => ?_⟩
  rw [← Nat.add_assoc, e1 (f + k2) (by omega), e2 f (by omega)]

theorem rank_bound (rank : Nat → Nat) : ∀ n, ∃ M, ∀ i, i < n → rank i ≤ M := by
  intro n
  induction n with
  | zero => exact ⟨0, fun i hi => by omega⟩
  | succ n ih =>
    obtain ⟨M, hM⟩ := ih
    refine ⟨max M (rank n), fun i hi => ?_⟩
    by_cases h : i < n
    · have := hM i h; omega
    · have : i = n := by omega
      subst this; omega

section
variable {n : Nat} {delta : Nat → Option Nat} {rank : Nat → Nat} {L : Links} (hF : Forest n delta rank) (hL : LinksOk n delta 0 L)
include hF hL

theorem climb_total (r : Nat) : ∀ p, (∀ x, p = some x → rank x < r) → ∃ F y, ∀ f, F ≤ f → climb delta L f p = .ok y := by
  induction r with
  | zero =>
    intro p hp
    cases p with
    | none => exact ⟨0, none, fun f _ => by unfold climb; cases f <;> rfl⟩
    | some x => have := hp x rfl; omega
  | succ r ih =>
    intro p hp
    cases p with
    | none => exact ⟨0, none, fun f _ => by unfold climb; cases f <;> rfl⟩
    | some x =>
      cases hs : L.sibling x with
      | some s =>
        refine ⟨1, some x, fun f hf => ?_⟩
        obtain ⟨f, rfl⟩ : ∃ g, f = g + 1 := ⟨f - 1, by omega⟩
        unfold climb; rw [hs]
      | none =>
        obtain ⟨F, y, h⟩ := ih (delta x) (fun b hb => by have := hF x b hb; have := hp x rfl; omega)
        refine ⟨F + 1, y, fun f hf => ?_⟩
        obtain ⟨f, rfl⟩ : ∃ g, f = g + 1 := ⟨f - 1, by omega⟩
        unfold climb; rw [hs]
        exact h f (by omega)

theorem next_total (s : Nat) : ∃ x, Next delta L s x := by
  cases hs : L.sibling s with
  | some t => exact ⟨some t, 0, fun f _ => by unfold goOn; rw [hs]⟩
  | none =>
    obtain ⟨F, y, h⟩ := climb_total hF hL (rank s) (delta s) (fun b hb => (hF s b hb).2.2)
    cases y with
    | none => exact ⟨none, F, fun f hf => by unfold goOn; rw [hs, h f hf]⟩
    | some p => exact ⟨L.sibling p, F, fun f hf => by unfold goOn; rw [hs, h f hf]⟩

omit hF in
theorem next_last {s c : Nat} (hc : delta c = some s) (hs : L.sibling c = none) {x : Option Nat} (h : Next delta L s x) : Next delta L c x := by
  obtain ⟨F, h⟩ := h
  refine ⟨F + 1, fun f hf => ?_⟩
  obtain ⟨f, rfl⟩ : ∃ g, f = g + 1 := ⟨f - 1, by omega⟩
  have h' := h f (by omega)
  unfold goOn at h' ⊢
  rw [hs, hc]
  simp only
  unfold climb
  cases e : L.sibling s with
  | some t => rw [e] at h'; simp only at h' ⊢; rw [e]; exact h'
  | none => rw [e] at h'; simp only at h' ⊢; exact h'

omit hF hL in
theorem kids_tail {p : Nat} : ∀ (m a c : Nat) (rest : List Nat), n - a = m → kids delta n p a = c :: rest → rest = kids delta n p (c + 1) := by
  intro m
  induction m with
  | zero =>
    intro a c rest hm h
    unfold kids at h
    rw [hm] at h; cases h
  | succ m ih =>
    intro a c rest hm h
    rw [kids_step (by omega)] at h
    split at h
    · simp only [List.cons_append, List.nil_append, List.cons.injEq] at h
      obtain ⟨rfl, rfl⟩ := h
      rfl
    · exact ih (a + 1) c rest (by omega) h

omit hF in
theorem addSiblings_total {p : Nat} : ∀ (l : List Nat) (a : Nat) (o : Order), kids delta n p a = l → OrderOk n o →
    ∃ F o', (∀ f, F ≤ f → addSiblings L f l.head? o = .ok o') ∧ ∀ j ∈ l, o'.filled j = true := by
  intro l
  induction l with
  | nil => intro a o _ _; exact ⟨0, o, fun f _ => by cases f <;> rfl, (fun j hj => by cases hj)⟩
  | cons c l ih =>
    intro a o h ho
    have hc : c ∈ kids delta n p a := by rw [h]; simp
    obtain ⟨_, c1, c2⟩ := mem_kids.mp hc
    have ht := kids_tail (n - a) a c l rfl h
    obtain ⟨a1, a2, a3⟩ := addOne_ok ho c1
    obtain ⟨F, o', e1, e2⟩ := ih (c + 1) (addOne c o) ht.symm a1
    have hsib : L.sibling c = l.head? := by rw [hL.sib c p (Nat.zero_le _) c2, ← ht]
    refine ⟨F + 1, o', fun f hf => ?_, fun j hj => ?_⟩
    · obtain ⟨f, rfl⟩ : ∃ g, f = g + 1 := ⟨f - 1, by omega⟩
      show addSiblings L f (L.sibling c) (addOne c o) = _
      rw [hsib]
      exact e1 f (by omega)
    · rcases List.mem_cons.mp hj with rfl | hj
      · have := e1 F (Nat.le_refl _)
        exact (addSiblings_ok hL _ _ _ _ a1 (fun y hy => by rw [← hsib] at hy; exact (sibling_lt hL hy).1) this).2 _ a3
      · exact e2 j hj

/-- the descendants of `s` are all added, and the walk goes on after them -/
def Walks (delta : Nat → Option Nat) (L : Links) (n s : Nat) : Prop :=
  ∀ o, OrderOk n o → ∀ x, Next delta L s x → ∃ o', Leads delta L (some s) false o x o' ∧ OrderOk n o' ∧ Le o o' ∧ ∀ i, Desc delta s i → o'.filled i = true

omit hF in
theorem walks_list {s : Nat} {x : Option Nat} (hx : Next delta L s x) : ∀ (l : List Nat) (a : Nat) (o : Order), kids delta n s a = l → l ≠ [] → (∀ c ∈ l, Walks delta L n c) → OrderOk n o →
    ∃ o', Leads delta L l.head? false o x o' ∧ OrderOk n o' ∧ Le o o' ∧ ∀ c ∈ l, ∀ i, Desc delta c i → o'.filled i = true := by
  intro l
  induction l with
  | nil => intro a o _ h; exact absurd rfl h
  | cons c l ih =>
    intro a o h _ hw ho
    have hc : c ∈ kids delta n s a := by rw [h]; simp
    obtain ⟨_, c1, c2⟩ := mem_kids.mp hc
    have ht := kids_tail (n - a) a c l rfl h
    have hsib : L.sibling c = l.head? := by rw [hL.sib c s (Nat.zero_le _) c2, ← ht]
    cases l with
    | nil =>
      obtain ⟨o', e1, e2, e3, e4⟩ := hw c (by simp) o ho x (next_last hL c2 (by rw [hsib]; rfl) hx)
      exact ⟨o', e1, e2, e3, fun c' hc' i hi => by rw [List.mem_singleton] at hc'; subst hc'; exact e4 i hi⟩
    | cons d l =>
      have hn : Next delta L c (some d) := ⟨0, fun f _ => by unfold goOn; rw [hsib]; rfl⟩
      obtain ⟨o1, e1, e2, e3, e4⟩ := hw c (by simp) o ho _ hn
      obtain ⟨o2, f1, f2, f3, f4⟩ := ih (c + 1) o1 ht.symm (by simp) (fun c' hc' => hw c' (List.mem_cons_of_mem _ hc')) e2
      refine ⟨o2, e1.trans f1, f2, e3.trans f3, fun c' hc' i hi => ?_⟩
      rcases List.mem_cons.mp hc' with rfl | hc'
      · exact f3 _ (e4 i hi)
      · exact f4 c' hc' i hi

omit hF hL in
theorem leads_level {c : Nat} {o o1 o2 : Order} {x : Option Nat} {F : Nat} (h1 : ∀ f, F ≤ f → addLevel L f c true o = .ok o1) (h2 : Leads delta L (some c) false o1 x o2) :
    Leads delta L (some c) true o x o2 := by
  obtain ⟨k, G, h2⟩ := h2
  refine ⟨k, max F G + 1, fun f hf => ?_⟩
  rw [← h2 f (by omega)]
  obtain ⟨g, hg⟩ : ∃ g, f + k = g + 1 := ⟨f + k - 1, by omega⟩
  rw [hg]
  unfold descendants
  rw [h1 g (by omega)]
  rfl

theorem walks_all (M : Nat) (hM : ∀ i, i < n → rank i ≤ M) : ∀ (m s : Nat), s < n → M - rank s < m → Walks delta L n s := by
  intro m
  induction m with
  | zero => intro s _ h; omega
  | succ m ih =>
    intro s hs hm o ho x hx
    cases hk : kids delta n s 0 with
    | nil =>
      have hc : L.child s = none := by rw [hL.child, hk]; rfl
      obtain ⟨F, hF'⟩ := hx
      refine ⟨o, ⟨1, F, fun f hf => ?_⟩, ho, Le.refl _, fun i hi => ?_⟩
      · show descendants delta L (f + 1) (some s) false o = _
        rw [descendants]
        show (match L.child s with
          | some c => descendants delta L f (some c) true o
          | none => match goOn delta L f s with
            | .ub => .ub
            | .err e => .err e
            | .ok next => descendants delta L f next false o) = _
        rw [hc, hF' f hf]
      · obtain ⟨c, h1, _⟩ := hi.first
        have : c ∈ kids delta n s 0 := mem_kids.mpr ⟨Nat.zero_le _, (hF c s h1).1, h1⟩
        rw [hk] at this; cases this
    | cons c rest =>
      have hcm : ∀ d ∈ c :: rest, d < n ∧ delta d = some s := fun d hd => by
        rw [← hk] at hd
        exact ⟨(mem_kids.mp hd).2.1, (mem_kids.mp hd).2.2⟩
      have hc : L.child s = some c := by rw [hL.child, hk]; rfl
      have ht := kids_tail (n - 0) 0 c rest rfl hk
      have hsib : L.sibling c = rest.head? := by rw [hL.sib c s (Nat.zero_le _) (hcm c (by simp)).2, ← ht]
      obtain ⟨a1, a2, a3⟩ := addOne_ok ho (hcm c (by simp)).1
      obtain ⟨F, o1, e1, e2⟩ := addSiblings_total hL rest (c + 1) (addOne c o) ht.symm a1
      have hlev : ∀ f, F ≤ f → addLevel L f c true o = .ok o1 := by
        intro f hf
        unfold addLevel
        rw [if_pos rfl, hsib]
        exact e1 f hf
      obtain ⟨b1, b2⟩ := addLevel_ok hL ho (hcm c (by simp)).1 (hlev F (Nat.le_refl _))
      have b3 := (addSiblings_ok hL _ _ _ _ a1 (fun y hy => by rw [← hsib] at hy; exact (sibling_lt hL hy).1) (e1 F (Nat.le_refl _))).2
      obtain ⟨o2, f1, f2, f3, f4⟩ := walks_list hL hx (c :: rest) 0 o1 hk (by simp)
        (fun d hd => ih d (hcm d hd).1 (by
          have := hM d (hcm d hd).1
          have := (hF d s (hcm d hd).2).2.2
          omega)) b1
      obtain ⟨k, G, hlead⟩ := leads_level hlev f1
      refine ⟨o2, ⟨k + 1, G, fun f hf => ?_⟩, f2, b2.trans f3, fun i hi => ?_⟩
      · rw [← hlead f hf, ← Nat.add_assoc]
        rw [descendants]
        show (match L.child s with
          | some c => descendants delta L (f + k) (some c) true o
          | none => match goOn delta L (f + k) s with
            | .ub => .ub
            | .err e => .err e
            | .ok next => descendants delta L (f + k) next false o) = _
        rw [hc]
      · obtain ⟨d, h1, h2⟩ := hi.first
        have hd : d ∈ c :: rest := by rw [← hk]; exact mem_kids.mpr ⟨Nat.zero_le _, (hF d s h1).1, h1⟩
        rcases h2 with rfl | h2
        · rcases List.mem_cons.mp hd with rfl | hd
          · exact f3 _ (b3 _ a3)
          · exact f3 _ (e2 _ hd)
        · exact f4 d hd i h2

omit hL in
theorem rootOf_total : ∀ (r po : Nat), rank po < r → ∃ F root, (∀ f, F ≤ f → rootOf delta f po = .ok root) ∧ delta root = none ∧ (root = po ∨ Desc delta root po) := by
  intro r
  induction r with
  | zero => intro po h; omega
  | succ r ih =>
    intro po h
    cases hd : delta po with
    | none =>
      refine ⟨1, po, fun f hf => ?_, hd, .inl rfl⟩
      obtain ⟨f, rfl⟩ : ∃ g, f = g + 1 := ⟨f - 1, by omega⟩
      unfold rootOf; rw [hd]
    | some b =>
      obtain ⟨F, root, h1, h2, h3⟩ := ih b (by have := (hF po b hd).2.2; omega)
      refine ⟨F + 1, root, fun f hf => ?_, h2, .inr ?_⟩
      · obtain ⟨f, rfl⟩ : ∃ g, f = g + 1 := ⟨f - 1, by omega⟩
        unfold rootOf; rw [hd]
        exact h1 f (by omega)
      · rcases h3 with rfl | h3
        · exact .base hd
        · exact .step hd h3

theorem family_total {po : Nat} {o : Order} (hp : po < n) (ho : OrderOk n o) :
    ∃ F o', (∀ f, F ≤ f → family delta L f po o = .ok o') ∧ OrderOk n o' ∧ Le o o' ∧ o'.filled po = true := by
  obtain ⟨F, root, h1, h2, h3⟩ := rootOf_total hF (rank po + 1) po (by omega)
  have hrn : root < n := rootOf_lt hF F po root hp (h1 F (Nat.le_refl _))
  obtain ⟨M, hM⟩ := rank_bound rank n
  have hnext : Next delta L root none := ⟨0, fun f _ => by
    unfold goOn
    rw [hL.none root (.inl h2), h2]
    cases f <;> rfl⟩
  obtain ⟨a1, a2, a3⟩ := addOne_ok ho hrn
  obtain ⟨o', e1, e2, e3, e4⟩ := walks_all hF hL M hM (M - rank root + 1) root hrn (by omega) (addOne root o) a1 none hnext
  have hlev : ∀ f, 0 ≤ f → addLevel L f root true o = .ok (addOne root o) := by
    intro f _
    unfold addLevel
    rw [if_pos rfl, hL.none root (.inl h2)]
    cases f <;> rfl
  obtain ⟨k, G, hlead⟩ := leads_level hlev e1
  refine ⟨max F (G + k), o', fun f hf => ?_, e2, a2.trans e3, ?_⟩
  · unfold family
    rw [h1 f (by omega)]
    have := hlead (f - k) (by omega)
    have e : f - k + k = f := by omega
    rw [e] at this
    simp only
    rw [this]
    cases f - k <;> rfl
  · rcases h3 with rfl | h3
    · exact e3 _ a3
    · exact e4 po h3

theorem families_total : ∀ (l : List Nat) (o : Order), (∀ i ∈ l, i < n) → OrderOk n o →
    ∃ F o', (∀ f, F ≤ f → families delta L f l o = .ok o') ∧ OrderOk n o' ∧ Le o o' ∧ ∀ i ∈ l, o'.filled i = true := by
  intro l
  induction l with
  | nil => intro o _ ho; exact ⟨0, o, fun f _ => rfl, ho, Le.refl _, (fun i hi => by cases hi)⟩
  | cons i l ih =>
    intro o hl ho
    have hl' : ∀ j ∈ l, j < n := fun j hj => hl j (List.mem_cons_of_mem _ hj)
    by_cases hf : o.filled i = true
    · obtain ⟨F, o', h1, h2, h3, h4⟩ := ih o hl' ho
      refine ⟨F, o', fun f hf' => ?_, h2, h3, fun j hj => ?_⟩
      · unfold families; rw [if_pos hf]; exact h1 f hf'
      · rcases List.mem_cons.mp hj with rfl | hj
        · exact h3 _ hf
        · exact h4 j hj
    · obtain ⟨F1, o1, g1, g2, g3, g4⟩ := family_total hF hL (hl i (by simp)) ho
      obtain ⟨F, o', h1, h2, h3, h4⟩ := ih o1 hl' g2
      refine ⟨max F F1, o', fun f hf' => ?_, h2, g3.trans h3, fun j hj => ?_⟩
      · unfold families; rw [if_neg hf, g1 f (by omega)]; exact h1 f (by omega)
      · rcases List.mem_cons.mp hj with rfl | hj
        · exact h3 _ g4
        · exact h4 j hj

end

theorem writeOrder_total {objs : List PObj} {tagged : Nat → Bool} {delta : Nat → Option Nat} {rank : Nat → Nat} (hF : Forest objs.length delta rank) :
    ∃ F wo, ∀ f, F ≤ f → writeOrder objs tagged delta f = .ok wo := by
  obtain ⟨s1, s2⟩ := orderStart_ok objs tagged
  obtain ⟨F, o, h1, h2, h3, h4⟩ := families_total hF (links_ok _ _ fun i b hb => (hF i b hb).1) ((List.range objs.length).drop (lastUntagged tagged objs.length)) _
    (fun i hi => List.mem_range.mp (List.mem_of_mem_drop hi)) s1
  refine ⟨F, o.wo, fun f hf => ?_⟩
  unfold writeOrder
  rw [h1 f hf]
  simp only
  rw [if_neg]
  have hall : List.range objs.length ⊆ o.wo := by
    intro i hi
    rw [h2.iff]
    rw [← List.take_append_drop (lastUntagged tagged objs.length) (List.range objs.length), List.mem_append] at hi
    rcases hi with hi | hi
    · exact h3 _ (s2 i hi)
    · exact h4 i hi
  have l1 := (List.subperm_of_subset List.nodup_range hall).length_le
  have l2 := (List.subperm_of_subset h2.nodup (fun i hi => List.mem_range.mpr (h2.lt i hi))).length_le
  rw [List.length_range] at l1 l2
  omega

end Verif.PackObjects
