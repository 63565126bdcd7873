import Verif.Patch.Lemmas8
/-! # The pieces of a hunk of two files -/
namespace Verif.Patch
open Spec

/-- all lines but the last end with a newline -/
def Ends (ls : List Bytes) : Prop := ∀ l ∈ ls.dropLast, l.getLast? = some c!"\n"

theorem mem_dropLast_middle {α : Type} (a m b : List α) (x : α) (h : x ∈ m.dropLast) : x ∈ (a ++ m ++ b).dropLast := by
  cases b with
  | nil =>
    rw [List.append_nil]
    rw [List.dropLast_append_of_ne_nil (by intro e; rw [e] at h; cases h)]
    exact List.mem_append_right _ h
  | cons y b =>
    rw [List.dropLast_append_of_ne_nil (by simp)]
    exact List.mem_append_left _ (List.mem_append_right _ (List.dropLast_subset _ h))

theorem Ends.middle {a m b : List Bytes} (h : Ends (a ++ m ++ b)) : Ends m := fun l hl => h l (mem_dropLast_middle a m b l hl)

theorem Ends.cons {l : Bytes} {ls : List Bytes} (h : Ends (l :: ls)) : (l.getLast? ≠ some c!"\n" → ls = []) ∧ Ends ls := by
  cases ls with
  | nil => exact ⟨fun _ => rfl, by intro x hx; cases hx⟩
  | cons x xs =>
    refine ⟨fun hl => absurd (h l (by rw [List.dropLast_cons_cons]; exact List.mem_cons_self)) hl, fun y hy => h y ?_⟩
    rw [List.dropLast_cons_cons]
    exact List.mem_cons_of_mem _ hy

theorem good_of : ∀ ps : List Piece, Tidy ps → (∀ l ∈ before ps, l ≠ [] ∧ c!"\n" ∉ l.dropLast ∧ 0 ∉ l) → (∀ l ∈ after ps, l ≠ [] ∧ c!"\n" ∉ l.dropLast ∧ 0 ∉ l) →
    Ends (before ps) → Ends (after ps) → Good ps := by
  intro ps
  induction ps with
  | nil => intros; trivial
  | cons p ps ih =>
    intro ht hb ha eb ea
    cases p with
    | keep x =>
      obtain ⟨h1, h2, h3⟩ := hb x List.mem_cons_self
      exact ⟨h1, h2, h3, eb.cons.1, ih ht (fun l hl => hb l (List.mem_cons_of_mem _ hl)) (fun l hl => ha l (List.mem_cons_of_mem _ hl)) eb.cons.2 ea.cons.2⟩
    | del x =>
      obtain ⟨h1, h2, h3⟩ := hb x List.mem_cons_self
      exact ⟨h1, h2, h3, eb.cons.1, ih ht (fun l hl => hb l (List.mem_cons_of_mem _ hl)) ha eb.cons.2 ea⟩
    | add x =>
      obtain ⟨h1, h2, h3⟩ := ha x List.mem_cons_self
      exact ⟨h1, h2, h3, fun hl => ht.1 (ea.cons.1 hl), ih ht.2 hb (fun l hl => ha l (List.mem_cons_of_mem _ hl)) eb ea.cons.2⟩

theorem oldOf_mem : ∀ (parts : List Part) (tail : List Bytes), ∀ p ∈ parts, ∃ a b, oldOf parts tail = a ++ before p.pieces ++ b := by
  intro parts
  induction parts with
  | nil => intro tail p hp; cases hp
  | cons q qs ih =>
    intro tail p hp
    rw [oldOf]
    rcases List.mem_cons.mp hp with rfl | hp
    · exact ⟨_, _, rfl⟩
    · obtain ⟨a, b, e⟩ := ih tail p hp
      exact ⟨q.gap ++ before q.pieces ++ a, b, by rw [e]; simp only [List.append_assoc]⟩

theorem newOf_mem : ∀ (parts : List Part) (tail : List Bytes), ∀ p ∈ parts, ∃ a b, newOf parts tail = a ++ after p.pieces ++ b := by
  intro parts
  induction parts with
  | nil => intro tail p hp; cases hp
  | cons q qs ih =>
    intro tail p hp
    rw [newOf]
    rcases List.mem_cons.mp hp with rfl | hp
    · exact ⟨_, _, rfl⟩
    · obtain ⟨a, b, e⟩ := ih tail p hp
      exact ⟨q.gap ++ after q.pieces ++ a, b, by rw [e]; simp only [List.append_assoc]⟩

theorem good_parts {parts : List Part} {tail : List Bytes} {o n : Bytes} (ho : Lines (oldOf parts tail) o) (hn : Lines (newOf parts tail) n) (zo : 0 ∉ o) (zn : 0 ∉ n)
    (ht : ∀ p ∈ parts, Tidy p.pieces) : ∀ p ∈ parts, Good p.pieces := by
  have nz : ∀ {ls : List Bytes} {t : Bytes}, Lines ls t → 0 ∉ t → ∀ l ∈ ls, l ≠ [] ∧ c!"\n" ∉ l.dropLast ∧ (0 : UInt8) ∉ l := by
    intro ls t h hz l hl
    refine ⟨h.2.1 l hl, h.2.2.1 l hl, fun hm => hz ?_⟩
    rw [← h.1]
    exact List.mem_flatten.mpr ⟨l, hl, hm⟩
  intro p hp
  obtain ⟨a, b, e⟩ := oldOf_mem parts tail p hp
  obtain ⟨a', b', e'⟩ := newOf_mem parts tail p hp
  refine good_of _ (ht p hp) (fun l hl => nz ho zo l ?_) (fun l hl => nz hn zn l ?_) ?_ ?_
  · rw [e]; exact List.mem_append_left _ (List.mem_append_right _ hl)
  · rw [e']; exact List.mem_append_left _ (List.mem_append_right _ hl)
  · have := ho.2.2.2; rw [e] at this; exact Ends.middle this
  · have := hn.2.2.2; rw [e'] at this; exact Ends.middle this

end Verif.Patch
