import Verif.Base
/-! # Concurrent processes over shared state

A program is a finite tree of atomic commands (system calls).  Several programs run interleaved over one shared state; a process may
stop at any point (it is then simply never scheduled again), which is how crashes of processes are covered: every reachable
configuration is also a configuration in which any set of processes has crashed.

The second half is a rely/guarantee logic for such programs, proved sound here. -/
namespace Verif.Conc

/-- Process identifiers. -/
abbrev Pid := Nat

/-- A program issuing commands `c : Cmd` with answers in `R c`, and returning an `α`. -/
inductive Prog (Cmd : Type) (R : Cmd → Type) (α : Type) where
  | ret (a : α)
  | act (c : Cmd) (k : R c → Prog Cmd R α)

namespace Prog
variable {Cmd : Type} {R : Cmd → Type} {α β : Type}

def bind : Prog Cmd R α → (α → Prog Cmd R β) → Prog Cmd R β
  | .ret a, f => f a
  | .act c k, f => .act c (fun r => (k r).bind f)

instance : Monad (Prog Cmd R) where
  pure := .ret
  bind := Prog.bind

/-- issue one command -/
def cmd (c : Cmd) : Prog Cmd R (R c) := .act c .ret

@[simp] theorem pure_eq (a : α) : (pure a : Prog Cmd R α) = .ret a := rfl
@[simp] theorem ret_bind (a : α) (f : α → Prog Cmd R β) : (Prog.ret a >>= f) = f a := rfl
@[simp] theorem act_bind (c : Cmd) (k : R c → Prog Cmd R α) (f : α → Prog Cmd R β) :
    (Prog.act c k >>= f) = .act c (fun r => k r >>= f) := rfl
@[simp] theorem cmd_bind (c : Cmd) (f : R c → Prog Cmd R β) : (cmd c >>= f) = .act c f := rfl

end Prog

/-- What one command of process `p` can do to the shared state, with which answer. -/
abbrev Sem (Cmd : Type) (R : Cmd → Type) (σ : Type) := Pid → (c : Cmd) → σ → R c → σ → Prop

/-- The whole system: the shared state and what every process still has to do. -/
structure Config (Cmd : Type) (R : Cmd → Type) (σ α : Type) where
  st : σ
  procs : Pid → Prog Cmd R α

/-- One process executes one command. -/
inductive Step {Cmd : Type} {R : Cmd → Type} {σ α : Type} (exec : Sem Cmd R σ) : Pid → Config Cmd R σ α → Config Cmd R σ α → Prop where
  | mk (p : Pid) (s s' : σ) (procs : Pid → Prog Cmd R α) (c : Cmd) (k : R c → Prog Cmd R α) (r : R c)
      (hp : procs p = .act c k) (he : exec p c s r s') :
      Step exec p ⟨s, procs⟩ ⟨s', fun q => if q = p then k r else procs q⟩

/-- Every interleaving: `Run exec c₀ c` when `c` can be reached from `c₀`. -/
inductive Run {Cmd : Type} {R : Cmd → Type} {σ α : Type} (exec : Sem Cmd R σ) (c₀ : Config Cmd R σ α) : Config Cmd R σ α → Prop where
  | start : Run exec c₀ c₀
  | next {c c' : Config Cmd R σ α} (p : Pid) (h : Run exec c₀ c) (hs : Step exec p c c') : Run exec c₀ c'

/-! ## Rely/guarantee -/

section RG
variable {Cmd : Type} {R : Cmd → Type} {σ α β : Type}

/-- any number of steps of the environment -/
inductive Star (r : σ → σ → Prop) : σ → σ → Prop where
  | refl (s) : Star r s s
  | tail {a b c} (h : Star r a b) (hs : r b c) : Star r a c

theorem Star.trans {r : σ → σ → Prop} {a b c : σ} (h1 : Star r a b) (h2 : Star r b c) : Star r a c := by
  induction h2 with
  | refl => exact h1
  | tail _ hs ih => exact .tail ih hs

theorem Star.single {r : σ → σ → Prop} {a b : σ} (h : r a b) : Star r a b := .tail (.refl a) h

/-- The program, started by `p` in state `s` with an environment whose steps are in `rely`, only makes steps in `guar`, and if it
returns `a` then `post a` holds from then on. -/
def Ok (exec : Sem Cmd R σ) (p : Pid) (rely guar : σ → σ → Prop) (post : α → σ → Prop) : Prog Cmd R α → σ → Prop
  | .ret a, s => ∀ s', Star rely s s' → post a s'
  | .act c k, s => ∀ s', Star rely s s' → ∀ r s'', exec p c s' r s'' → guar s' s'' ∧ Ok exec p rely guar post (k r) s''

variable {exec : Sem Cmd R σ} {p : Pid} {rely guar : σ → σ → Prop}

theorem Ok.stable {post : α → σ → Prop} {P : Prog Cmd R α} {s s' : σ} (h : Ok exec p rely guar post P s) (hr : Star rely s s') :
    Ok exec p rely guar post P s' := by
  cases P with
  | ret a => intro s'' h2; exact h s'' (hr.trans h2)
  | act c k => intro s'' h2 r t he; exact h s'' (hr.trans h2) r t he

theorem Ok.bind {post : β → σ → Prop} {P : Prog Cmd R α} {f : α → Prog Cmd R β} {s : σ}
    (h : Ok exec p rely guar (fun a s => Ok exec p rely guar post (f a) s) P s) : Ok exec p rely guar post (P >>= f) s := by
  induction P generalizing s with
  | ret a => exact h s (.refl s)
  | act c k ih =>
    intro s' hr r s'' he
    obtain ⟨h1, h2⟩ := h s' hr r s'' he
    exact ⟨h1, ih r h2⟩

theorem Ok.mono {post post' : α → σ → Prop} {P : Prog Cmd R α} {s : σ} (h : Ok exec p rely guar post P s)
    (hp : ∀ a s, post a s → post' a s) : Ok exec p rely guar post' P s := by
  induction P generalizing s with
  | ret a => intro s' hr; exact hp a s' (h s' hr)
  | act c k ih =>
    intro s' hr r s'' he
    obtain ⟨h1, h2⟩ := h s' hr r s'' he
    exact ⟨h1, ih r h2⟩

theorem Ok.ret {post : α → σ → Prop} {a : α} {s : σ} (h : ∀ s', Star rely s s' → post a s') : Ok exec p rely guar post (.ret a) s := h

/-- one command: `I` holds before and is kept by the environment; the step is in the guarantee and leads to a state from which
the continuation is fine -/
theorem Ok.act {post : α → σ → Prop} {c : Cmd} {k : R c → Prog Cmd R α} {s : σ} (I : σ → Prop) (hI : I s)
    (hst : ∀ a b, I a → rely a b → I b)
    (h : ∀ s', I s' → ∀ r s'', exec p c s' r s'' → guar s' s'' ∧ Ok exec p rely guar post (k r) s'') :
    Ok exec p rely guar post (.act c k) s := by
  intro s' hr r s'' he
  have hI' : I s' := by
    clear he
    induction hr with
    | refl => exact hI
    | tail _ hs ih => exact hst _ _ ih hs
  exact h s' hI' r s'' he

/-- `Ok.act` for a command followed by a continuation -/
theorem Ok.cmd {post : α → σ → Prop} {c : Cmd} {k : R c → Prog Cmd R α} {s : σ} (I : σ → Prop) (hI : I s)
    (hst : ∀ a b, I a → rely a b → I b)
    (h : ∀ s', I s' → ∀ r s'', exec p c s' r s'' → guar s' s'' ∧ Ok exec p rely guar post (k r) s'') :
    Ok exec p rely guar post (Prog.cmd c >>= k) s := Ok.act (k := k) I hI hst h

theorem Ok.retI {post : α → σ → Prop} {a : α} {s : σ} (I : σ → Prop) (hI : I s) (hst : ∀ a b, I a → rely a b → I b)
    (h : ∀ s', I s' → post a s') : Ok exec p rely guar post (.ret a) s := by
  intro s' hr
  refine h s' ?_
  induction hr with
  | refl => exact hI
  | tail _ hs ih => exact hst _ _ ih hs

/-- Soundness: if every process is fine under the assumption that the others keep their guarantees, then in every reachable
configuration every process is still fine, and every step of a process is in its guarantee. -/
theorem rg_sound (exec : Sem Cmd R σ) (guar : Pid → σ → σ → Prop) (post : Pid → α → σ → Prop) (c₀ : Config Cmd R σ α)
    (h₀ : ∀ p, Ok exec p (fun a b => ∃ q, q ≠ p ∧ guar q a b) (guar p) (post p) (c₀.procs p) c₀.st)
    {c : Config Cmd R σ α} (hr : Run exec c₀ c) :
    (∀ p, Ok exec p (fun a b => ∃ q, q ≠ p ∧ guar q a b) (guar p) (post p) (c.procs p) c.st) ∧
    (∀ p c', Step exec p c c' → guar p c.st c'.st) := by
  have step : ∀ (c : Config Cmd R σ α), (∀ p, Ok exec p (fun a b => ∃ q, q ≠ p ∧ guar q a b) (guar p) (post p) (c.procs p) c.st) →
      ∀ p c', Step exec p c c' → guar p c.st c'.st ∧
        ∀ q, Ok exec q (fun a b => ∃ r, r ≠ q ∧ guar r a b) (guar q) (post q) (c'.procs q) c'.st := by
    intro c hc p c' hs
    cases hs with
    | mk s s' procs cc k r hp he =>
      have hpp := hc p
      simp only at hpp
      rw [hp] at hpp
      obtain ⟨h1, h2⟩ := hpp s (.refl s) r s' he
      refine ⟨h1, fun q => ?_⟩
      by_cases hq : q = p
      · subst hq; simpa using h2
      · simp only [hq, if_false]
        exact (hc q).stable (.single ⟨p, fun e => hq e.symm, h1⟩)
  have : ∀ p, Ok exec p (fun a b => ∃ q, q ≠ p ∧ guar q a b) (guar p) (post p) (c.procs p) c.st := by
    induction hr with
    | start => exact h₀
    | next p _ hs ih => exact (step _ ih p _ hs).2
  exact ⟨this, fun p c' hs => (step c this p c' hs).1⟩

/-- a process that has returned satisfies its postcondition -/
theorem rg_post (exec : Sem Cmd R σ) (guar : Pid → σ → σ → Prop) (post : Pid → α → σ → Prop) (c₀ : Config Cmd R σ α)
    (h₀ : ∀ p, Ok exec p (fun a b => ∃ q, q ≠ p ∧ guar q a b) (guar p) (post p) (c₀.procs p) c₀.st)
    {c : Config Cmd R σ α} (hr : Run exec c₀ c) (p : Pid) (a : α) (h : c.procs p = .ret a) : post p a c.st := by
  have := (rg_sound exec guar post c₀ h₀ hr).1 p
  rw [h] at this
  exact this _ (.refl _)

/-- an invariant of the state that every guarantee step keeps holds in every reachable configuration -/
theorem rg_inv (exec : Sem Cmd R σ) (guar : Pid → σ → σ → Prop) (post : Pid → α → σ → Prop) (c₀ : Config Cmd R σ α)
    (h₀ : ∀ p, Ok exec p (fun a b => ∃ q, q ≠ p ∧ guar q a b) (guar p) (post p) (c₀.procs p) c₀.st)
    (I : σ → Prop) (hI : I c₀.st) (hst : ∀ p a b, I a → guar p a b → I b)
    {c : Config Cmd R σ α} (hr : Run exec c₀ c) : I c.st := by
  induction hr with
  | start => exact hI
  | next p h hs ih => exact hst p _ _ ih ((rg_sound exec guar post c₀ h₀ h).2 p _ hs)

end RG
end Verif.Conc
