import Verif.PackObjects.Lemmas3
import Mathlib.Data.List.Perm.Subperm
/-! # The order in which objects are written: a permutation of all objects -/
namespace Verif.PackObjects

/-- the order so far -/
structure OrderOk (n : Nat) (o : Order) : Prop where
  nodup : o.wo.Nodup
  iff : ∀ i, i ∈ o.wo ↔ o.filled i = true
  lt : ∀ i ∈ o.wo, i < n

/-- nothing is taken out -/
def Le (o o' : Order) : Prop := ∀ i, o.filled i = true → o'.filled i = true

theorem Le.refl (o : Order) : Le o o := fun _ h => h
theorem Le.trans {a b c : Order} (h : Le a b) (h' : Le b c) : Le a c := fun i hi => h' i (h i hi)

theorem addOne_ok {n i : Nat} {o : Order} (h : OrderOk n o) (hi : i < n) : OrderOk n (addOne i o) ∧ Le o (addOne i o) ∧ (addOne i o).filled i = true := by
  unfold addOne
  by_cases hf : o.filled i = true
  · rw [if_pos hf]; exact ⟨h, Le.refl _, hf⟩
  · rw [if_neg hf]
    refine ⟨⟨?_, ?_, ?_⟩, ?_, upd_self _ _ _⟩
    · rw [List.nodup_append]
      refine ⟨h.nodup, by simp, ?_⟩
      intro a ha b hb
      rw [List.mem_singleton] at hb
      subst hb
      intro e; subst e
      exact hf ((h.iff a).mp ha)
    · intro j
      show j ∈ o.wo ++ [i] ↔ upd o.filled i true j = true
      rw [List.mem_append, List.mem_singleton]
      by_cases he : j = i
      · subst he; rw [upd_self]; simp
      · rw [upd_ne _ _ he, ← h.iff j]
        simp [he]
    · intro j hj
      rw [List.mem_append, List.mem_singleton] at hj
      rcases hj with hj | rfl
      · exact h.lt j hj
      · exact hi
    · intro j hj
      show upd o.filled i true j = true
      by_cases he : j = i
      · subst he; rw [upd_self]
      · rw [upd_ne _ _ he]; exact hj

/-- the deltas form a forest on the objects -/
def Forest (n : Nat) (delta : Nat → Option Nat) (rank : Nat → Nat) : Prop :=
  ∀ i b, delta i = some b → i < n ∧ b < n ∧ rank b < rank i

/-- the children of `p` from number `a` on -/
def kids (delta : Nat → Option Nat) (n p a : Nat) : List Nat := (List.range' a (n - a)).filter fun j => decide (delta j = some p)

/-- what the links are -/
structure LinksOk (n : Nat) (delta : Nat → Option Nat) (a : Nat) (L : Links) : Prop where
  child : ∀ p, L.child p = (kids delta n p a).head?
  sib : ∀ j p, a ≤ j → delta j = some p → L.sibling j = (kids delta n p (j + 1)).head?
  none : ∀ j, delta j = none ∨ j < a → L.sibling j = none

theorem kids_step {delta : Nat → Option Nat} {n p a : Nat} (h : a < n) :
    kids delta n p a = (if delta a = some p then [a] else []) ++ kids delta n p (a + 1) := by
  unfold kids
  have : n - a = (n - (a + 1)) + 1 := by omega
  rw [this, List.range'_succ, List.filter_cons]
  by_cases hd : delta a = some p
  · rw [if_pos hd, if_pos (by simpa using hd)]; rfl
  · rw [if_neg hd, if_neg (by simpa using hd)]; rfl

theorem mem_kids {delta : Nat → Option Nat} {n p a j : Nat} : j ∈ kids delta n p a ↔ a ≤ j ∧ j < n ∧ delta j = some p := by
  unfold kids
  rw [List.mem_filter, List.mem_range'_1]
  constructor
  · intro ⟨h1, h2⟩; exact ⟨h1.1, by omega, by simpa using h2⟩
  · intro ⟨h1, h2, h3⟩; exact ⟨⟨h1, by omega⟩, by simpa using h3⟩

theorem connect_ok {n : Nat} {delta : Nat → Option Nat} : ∀ i L, i ≤ n → LinksOk n delta i L → LinksOk n delta 0 (connect delta i L) := by
  intro i
  induction i with
  | zero => intro L _ h; exact h
  | succ i ih =>
    intro L hi h
    unfold connect
    split
    · rename_i hd
      refine ih L (by omega) ⟨fun p => ?_, fun j p hj hp => ?_, fun j hj => ?_⟩
      · rw [h.child, kids_step (by omega : i < n), hd]; rfl
      · by_cases he : j = i
        · subst he; rw [hd] at hp; cases hp
        · exact h.sib j p (by omega) hp
      · rcases hj with hj | hj
        · exact h.none j (.inl hj)
        · exact h.none j (.inr (by omega))
    · rename_i b hd
      refine ih _ (by omega) ⟨fun p => ?_, fun j p hj hp => ?_, fun j hj => ?_⟩
      · show upd L.child b (some i) p = _
        rw [kids_step (by omega : i < n), hd]
        by_cases he : p = b
        · subst he; rw [upd_self, if_pos rfl]; rfl
        · rw [upd_ne _ _ he, if_neg (fun e => he (by cases e; rfl)), h.child]; rfl
      · show upd L.sibling i (L.child b) j = _
        by_cases he : j = i
        · subst he
          rw [hd] at hp; cases hp
          rw [upd_self, h.child]
        · rw [upd_ne _ _ he]
          exact h.sib j p (by omega) hp
      · show upd L.sibling i (L.child b) j = _
        have he : j ≠ i := by
          intro e; subst e
          rcases hj with hj | hj
          · rw [hd] at hj; cases hj
          · omega
        rw [upd_ne _ _ he]
        rcases hj with hj | hj
        · exact h.none j (.inl hj)
        · exact h.none j (.inr (by omega))

theorem links_ok (n : Nat) (delta : Nat → Option Nat) (hlt : ∀ i b, delta i = some b → i < n) : LinksOk n delta 0 (links delta n) := by
  unfold links
  refine connect_ok n _ (Nat.le_refl _) ⟨fun p => ?_, fun j p hj hp => ?_, fun j _ => rfl⟩
  · unfold kids; rw [Nat.sub_self]; rfl
  · have := hlt j p hp; omega

theorem head?_lt {delta : Nat → Option Nat} {n p a j : Nat} (h : (kids delta n p a).head? = some j) : j < n ∧ delta j = some p ∧ a ≤ j := by
  have hm : j ∈ kids delta n p a := List.mem_of_mem_head? (by rw [h]; rfl)
  obtain ⟨h1, h2, h3⟩ := mem_kids.mp hm
  exact ⟨h2, h3, h1⟩

section
variable {n : Nat} {delta : Nat → Option Nat} {rank : Nat → Nat} {L : Links} (hF : Forest n delta rank) (hL : LinksOk n delta 0 L)
include hL

theorem sibling_lt {j s : Nat} (h : L.sibling j = some s) : s < n ∧ delta s = delta j ∧ j < s := by
  cases hd : delta j with
  | none => rw [hL.none j (.inl hd)] at h; cases h
  | some p =>
    rw [hL.sib j p (Nat.zero_le _) hd] at h
    obtain ⟨h1, h2, h3⟩ := head?_lt h
    exact ⟨h1, h2, by omega⟩

theorem child_lt {p c : Nat} (h : L.child p = some c) : c < n ∧ delta c = some p := by
  rw [hL.child] at h
  exact ⟨(head?_lt h).1, (head?_lt h).2.1⟩

theorem addSiblings_ok : ∀ (fuel : Nat) (s : Option Nat) (o o' : Order), OrderOk n o → (∀ x, s = some x → x < n) → addSiblings L fuel s o = .ok o' → OrderOk n o' ∧ Le o o' := by
  intro fuel
  induction fuel with
  | zero =>
    intro s o o' ho hs h
    cases s with
    | none => unfold addSiblings at h; cases h; exact ⟨ho, Le.refl _⟩
    | some x => unfold addSiblings at h; cases h
  | succ fuel ih =>
    intro s o o' ho hs h
    cases s with
    | none => unfold addSiblings at h; cases h; exact ⟨ho, Le.refl _⟩
    | some x =>
      unfold addSiblings at h
      obtain ⟨a1, a2, a3⟩ := addOne_ok ho (hs x rfl)
      obtain ⟨b1, b2⟩ := ih _ _ _ a1 (fun y hy => (sibling_lt hL hy).1) h
      exact ⟨b1, a2.trans b2⟩

theorem addLevel_ok {fuel po : Nat} {add : Bool} {o o' : Order} (ho : OrderOk n o) (hp : po < n) (h : addLevel L fuel po add o = .ok o') : OrderOk n o' ∧ Le o o' := by
  unfold addLevel at h
  split at h
  · obtain ⟨a1, a2, a3⟩ := addOne_ok ho hp
    obtain ⟨b1, b2⟩ := addSiblings_ok hL _ _ _ _ a1 (fun y hy => (sibling_lt hL hy).1) h
    exact ⟨b1, a2.trans b2⟩
  · cases h; exact ⟨ho, Le.refl _⟩

theorem goOn_lt {fuel po x : Nat} (h : goOn delta L fuel po = .ok (some x)) : x < n := by
  unfold goOn at h
  split at h
  · rename_i s hs; cases h; exact (sibling_lt hL hs).1
  · split at h
    · cases h
    · cases h
    · cases h
    · rename_i p _
      simp only [Res.ok.injEq] at h
      exact (sibling_lt hL h).1

theorem descendants_ok : ∀ (fuel : Nat) (po : Option Nat) (add : Bool) (o o' : Order), OrderOk n o → (∀ x, po = some x → x < n) →
    descendants delta L fuel po add o = .ok o' → OrderOk n o' ∧ Le o o' := by
  intro fuel
  induction fuel with
  | zero =>
    intro po add o o' ho hp h
    cases po with
    | none => unfold descendants at h; cases h; exact ⟨ho, Le.refl _⟩
    | some x => unfold descendants at h; cases h
  | succ fuel ih =>
    intro po add o o' ho hp h
    cases po with
    | none => unfold descendants at h; cases h; exact ⟨ho, Le.refl _⟩
    | some x =>
      unfold descendants at h
      split at h
      · cases h
      · cases h
      · rename_i o1 h1
        obtain ⟨a1, a2⟩ := addLevel_ok hL ho (hp x rfl) h1
        split at h
        · rename_i c hc
          obtain ⟨b1, b2⟩ := ih _ _ _ _ a1 (fun y hy => by cases hy; exact (child_lt hL hc).1) h
          exact ⟨b1, a2.trans b2⟩
        · split at h
          · cases h
          · cases h
          · rename_i next hn
            obtain ⟨b1, b2⟩ := ih _ _ _ _ a1 (fun y hy => by subst hy; exact goOn_lt hL hn) h
            exact ⟨b1, a2.trans b2⟩

end

theorem rootOf_lt {n : Nat} {delta : Nat → Option Nat} {rank : Nat → Nat} (hF : Forest n delta rank) : ∀ (fuel po r : Nat), po < n → rootOf delta fuel po = .ok r → r < n := by
  intro fuel
  induction fuel with
  | zero => intro po r _ h; unfold rootOf at h; cases h
  | succ fuel ih =>
    intro po r hp h
    unfold rootOf at h
    split at h
    · cases h; exact hp
    · rename_i b hb; exact ih _ _ (hF po b hb).2.1 h

theorem families_ok {n : Nat} {delta : Nat → Option Nat} {rank : Nat → Nat} {L : Links} (hF : Forest n delta rank) (hL : LinksOk n delta 0 L) {fuel : Nat} :
    ∀ (l : List Nat) (o o' : Order), (∀ i ∈ l, i < n) → OrderOk n o → families delta L fuel l o = .ok o' → OrderOk n o' ∧ Le o o' := by
  intro l
  induction l with
  | nil => intro o o' _ ho h; unfold families at h; cases h; exact ⟨ho, Le.refl _⟩
  | cons i l ih =>
    intro o o' hl ho h
    unfold families at h
    split at h
    · exact ih _ _ (fun j hj => hl j (List.mem_cons_of_mem _ hj)) ho h
    · split at h
      · cases h
      · cases h
      · rename_i o1 h1
        unfold family at h1
        split at h1
        · cases h1
        · cases h1
        · rename_i r hr
          have hrn := rootOf_lt hF _ _ _ (hl i (by simp)) hr
          obtain ⟨a1, a2⟩ := descendants_ok hL _ _ _ _ _ ho (fun x hx => by cases hx; exact hrn) h1
          obtain ⟨b1, b2⟩ := ih _ _ (fun j hj => hl j (List.mem_cons_of_mem _ hj)) a1 h
          exact ⟨b1, a2.trans b2⟩

theorem foldl_addOne_ok {n : Nat} : ∀ (l : List Nat) (o : Order), (∀ i ∈ l, i < n) → OrderOk n o →
    OrderOk n (l.foldl (fun o i => addOne i o) o) ∧ Le o (l.foldl (fun o i => addOne i o) o) ∧ ∀ i ∈ l, (l.foldl (fun o i => addOne i o) o).filled i = true := by
  intro l
  induction l with
  | nil => intro o _ ho; exact ⟨ho, Le.refl _, (fun i hi => by cases hi)⟩
  | cons i l ih =>
    intro o hl ho
    obtain ⟨a1, a2, a3⟩ := addOne_ok ho (hl i (by simp))
    obtain ⟨b1, b2, b3⟩ := ih (addOne i o) (fun j hj => hl j (List.mem_cons_of_mem _ hj)) a1
    refine ⟨b1, a2.trans b2, fun j hj => ?_⟩
    rcases List.mem_cons.mp hj with rfl | hj
    · exact b2 _ a3
    · exact b3 j hj

theorem addWhere_ok {n : Nat} (p : Nat → Bool) (l : List Nat) (o : Order) (hl : ∀ i ∈ l, i < n) (ho : OrderOk n o) :
    OrderOk n (addWhere p l o) ∧ Le o (addWhere p l o) ∧ ∀ i ∈ l, p i = true → (addWhere p l o).filled i = true := by
  obtain ⟨a1, a2, a3⟩ := foldl_addOne_ok (n := n) (l.filter p) o (fun i hi => hl i (List.mem_filter.mp hi).1) ho
  exact ⟨a1, a2, fun i hi hp => a3 i (List.mem_filter.mpr ⟨hi, hp⟩)⟩

theorem orderStart_ok (objs : List PObj) (tagged : Nat → Bool) : OrderOk objs.length (orderStart objs tagged) ∧
    ∀ i ∈ (List.range objs.length).take (lastUntagged tagged objs.length), (orderStart objs tagged).filled i = true := by
  unfold orderStart
  dsimp only
  have ht : ∀ i ∈ (List.range objs.length).take (lastUntagged tagged objs.length), i < objs.length := fun i hi => List.mem_range.mp (List.mem_of_mem_take hi)
  have hd : ∀ i ∈ (List.range objs.length).drop (lastUntagged tagged objs.length), i < objs.length := fun i hi => List.mem_range.mp (List.mem_of_mem_drop hi)
  have h0 : OrderOk objs.length ⟨[], fun _ => false⟩ := ⟨List.nodup_nil, (fun i => by simp), (fun i hi => by cases hi)⟩
  obtain ⟨a1, a2, a3⟩ := addWhere_ok (fun _ => true) _ _ ht h0
  obtain ⟨b1, b2, _⟩ := addWhere_ok tagged _ _ hd a1
  obtain ⟨c1, c2, _⟩ := addWhere_ok (fun i => decide ((objAt objs i).type = 1) || decide ((objAt objs i).type = 4)) _ _ hd b1
  obtain ⟨d1, d2, _⟩ := addWhere_ok (fun i => decide ((objAt objs i).type = 2)) _ _ hd c1
  exact ⟨d1, fun i hi => d2 _ (c2 _ (b2 _ (a3 i hi rfl)))⟩

theorem perm_range {n : Nat} {l : List Nat} (h1 : l.Nodup) (h2 : ∀ i ∈ l, i < n) (h3 : l.length = n) : l.Perm (List.range n) := by
  have hs : l ⊆ List.range n := fun i hi => List.mem_range.mpr (h2 i hi)
  exact (List.subperm_of_subset h1 hs).perm_of_length_le (by rw [List.length_range, h3])

theorem writeOrder_sound {objs : List PObj} {tagged : Nat → Bool} {delta : Nat → Option Nat} {rank : Nat → Nat} {fuel : Nat} {wo : List Nat}
    (hF : Forest objs.length delta rank) (h : writeOrder objs tagged delta fuel = .ok wo) : wo.Perm (List.range objs.length) := by
  unfold writeOrder at h
  split at h
  · cases h
  · cases h
  · rename_i o ho
    split at h
    · cases h
    · rename_i hlen
      cases h
      have := (families_ok hF (links_ok _ _ fun i b hb => (hF i b hb).1) _ _ _ (fun i hi => List.mem_range.mp (List.mem_of_mem_drop hi)) (orderStart_ok objs tagged).1 ho).1
      exact perm_range this.nodup this.lt (by omega)

end Verif.PackObjects
