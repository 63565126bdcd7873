/-!
# Common vocabulary of the model

Bytes are `UInt8`, buffers are `List UInt8`.  `Res` is the outcome of a C function that can fail
and that has preconditions on the memory it reads.
-/

namespace Verif

/-- Bytes of a C buffer. -/
abbrev Bytes := List UInt8

/-- Outcome of a modelled C function.
* `ok a`  : the function reports success with result `a`;
* `err e` : the function reports the (negative) error code `e`;
* `ub`    : the C code would read or write outside its buffers, or execute an operation that is undefined in C. -/
inductive Res (α : Type u) where
  | ok (a : α)
  | err (e : Int)
  | ub
  deriving Repr, DecidableEq

namespace Res

def bind {α β : Type} (r : Res α) (f : α → Res β) : Res β :=
  match r with
  | ok a => f a
  | err e => err e
  | ub => ub

instance : Monad Res where
  pure := Res.ok
  bind := Res.bind

@[simp] theorem bind_ok {α β : Type} (a : α) (f : α → Res β) : (Res.ok a >>= f) = f a := rfl
@[simp] theorem bind_err {α β : Type} (e : Int) (f : α → Res β) : (Res.err e >>= f) = Res.err e := rfl
@[simp] theorem bind_ub {α β : Type} (f : α → Res β) : (Res.ub >>= f) = Res.ub := rfl
@[simp] theorem pure_eq {α : Type} (a : α) : (pure a : Res α) = Res.ok a := rfl

end Res

/-- `b!"abc"` is the literal list of the bytes of an ASCII string literal, `[97, 98, 99]`. -/
macro:max "b!" s:str : term => do
  let elems ← s.getString.toList.toArray.mapM fun c =>
    `(($(Lean.Syntax.mkNumLit (toString c.toNat)) : UInt8))
  `(([$elems,*] : List UInt8))

/-- `c!"x"` is the byte of a one-character ASCII string literal. -/
macro:max "c!" s:str : term => do
  match s.getString.toList with
  | [c] => `(($(Lean.Syntax.mkNumLit (toString c.toNat)) : UInt8))
  | _ => Lean.Macro.throwUnsupported

/-- Reading `len` bytes at offset `off` (`memcpy` source, pointer + length); outside the buffer it is undefined. -/
def slice (b : Bytes) (off len : Nat) : Res Bytes :=
  if off + len ≤ b.length then .ok ((b.drop off).take len) else .ub

/-- Lifting a kernel-checked exhaustive table over the 256 byte values. -/
theorem forall_uint8 {p : UInt8 → Prop} (h : ∀ n : Fin 256, p (UInt8.ofNat n.val)) : ∀ c, p c := by
  intro c
  have := h ⟨c.toNat, c.toNat_lt⟩
  simpa using this

instance decidableForallUInt8 {p : UInt8 → Prop} [DecidablePred p] : Decidable (∀ c, p c) :=
  decidable_of_iff (∀ n : Fin 256, p (UInt8.ofNat n.val)) ⟨forall_uint8, fun h _ => h _⟩

/-- induction on a list from its end -/
theorem list_snoc_induction {α : Type} {p : List α → Prop} (hnil : p []) (hsnoc : ∀ l a, p l → p (l ++ [a])) (l : List α) : p l := by
  have : ∀ r : List α, p r.reverse := by
    intro r
    induction r with
    | nil => simpa using hnil
    | cons a r ih => simpa using hsnoc _ a ih
  simpa using this l.reverse

/-- `dropWhile` over a prefix that satisfies the test and stops before an element that does not -/
theorem dropWhile_append_stop {α : Type} (p : α → Bool) (a b : List α) (ha : ∀ x ∈ a, p x = true)
    (hb : ∀ x, b.head? = some x → p x = false) : (a ++ b).dropWhile p = b := by
  induction a with
  | nil =>
    cases b with
    | nil => rfl
    | cons y ys => simp [hb y rfl]
  | cons x xs ih =>
    have := ha x (by simp)
    simp [this, ih (fun y hy => ha y (List.mem_cons_of_mem _ hy))]

theorem takeWhile_append_stop {α : Type} (p : α → Bool) (a b : List α) (ha : ∀ x ∈ a, p x = true)
    (hb : ∀ x, b.head? = some x → p x = false) : (a ++ b).takeWhile p = a := by
  induction a with
  | nil =>
    cases b with
    | nil => rfl
    | cons y ys => simp [hb y rfl]
  | cons x xs ih =>
    have := ha x (by simp)
    simp [this, ih (fun y hy => ha y (List.mem_cons_of_mem _ hy))]

theorem takeWhile_all {α : Type} (p : α → Bool) (a : List α) : ∀ x ∈ a.takeWhile p, p x = true := by
  induction a with
  | nil => simp
  | cons y ys ih =>
    simp only [List.takeWhile_cons]
    split
    · rename_i h
      intro x hx
      rcases List.mem_cons.mp hx with rfl | hx
      · exact h
      · exact ih x hx
    · simp

theorem dropWhile_head {α : Type} (p : α → Bool) (a : List α) : ∀ x, (a.dropWhile p).head? = some x → p x = false := by
  induction a with
  | nil => simp
  | cons y ys ih =>
    simp only [List.dropWhile_cons]
    split
    · exact ih
    · rename_i h
      intro x hx
      simp at hx
      subst hx
      simpa using h

end Verif
