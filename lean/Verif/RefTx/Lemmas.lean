import Verif.RefTx.Model
import Mathlib.Data.List.Forall2
/-! # What the calls of a transaction keep -/
namespace Verif.RefTx
open Spec

theorem upd_same {α : Type} (f : Name → α) (n : Name) (x : α) : upd f n x n = x := by simp [upd]

theorem upd_other {α : Type} (f : Name → α) {n m : Name} (x : α) (h : m ≠ n) : upd f n x m = f m := by simp [upd, h]

/-- nothing happened to what we have locked, except perhaps to `n` -/
structure Frame (n : Name) (w w' : World) : Prop where
  lock : ∀ m, m ≠ n → (w'.lock m = some .us ↔ w.lock m = some .us)
  refs : ∀ m, m ≠ n → w.lock m = some .us → w'.refs m = w.refs m
  out : ∀ m, m ≠ n → w'.out m = w.out m

theorem Frame.refl (n : Name) (w : World) : Frame n w w := ⟨fun _ _ => Iff.rfl, fun _ _ _ => rfl, fun _ _ => rfl⟩

theorem Frame.trans {n : Name} {a b c : World} (h : Frame n a b) (g : Frame n b c) : Frame n a c :=
  ⟨fun m hm => (g.lock m hm).trans (h.lock m hm), fun m hm hl => (g.refs m hm ((h.lock m hm).2 hl)).trans (h.refs m hm hl),
    fun m hm => (g.out m hm).trans (h.out m hm)⟩

theorem pass_lock {E : Env} (hE : Fair E.move) (w : World) (n : Name) : (pass E w).lock n = some .us ↔ w.lock n = some .us := hE.lock _ _ _

theorem pass_refs {E : Env} (hE : Fair E.move) (w : World) (n : Name) (h : w.lock n = some .us) : (pass E w).refs n = w.refs n := hE.refs _ _ _ h

theorem pass_out (E : Env) (w : World) : (pass E w).out = w.out := rfl

theorem pass_frame {E : Env} (hE : Fair E.move) (w : World) (n : Name) : Frame n w (pass E w) :=
  ⟨fun m _ => pass_lock hE w m, fun m _ => pass_refs hE w m, fun _ _ => rfl⟩

theorem cleanup_frame (w : World) (n : Name) : Frame n w (cleanup w n) :=
  ⟨fun m h => by simp [cleanup, upd, h], fun _ _ _ => rfl, fun m h => by simp [cleanup, upd, h]⟩

theorem refs_frame (w : World) (n : Name) (v : Option Val) : Frame n w { w with refs := upd w.refs n v } :=
  ⟨fun _ _ => Iff.rfl, fun m h _ => by simp [upd, h], fun _ _ => rfl⟩

theorem logs_frame (w : World) (n : Name) (l : Name → List Bytes) : Frame n w { w with logs := l } :=
  ⟨fun _ _ => Iff.rfl, fun _ _ _ => rfl, fun _ _ => rfl⟩

/-- the reference `n` was let go of with value `x`, after the values `o` -/
structure Gone (n : Name) (o : List (Option Val)) (x : Option Val) (w : World) : Prop where
  lock : w.lock n ≠ some .us
  out : w.out n = o ++ [x]

theorem cleanup_gone (w : World) (n : Name) : Gone n (w.out n) (w.refs n) (cleanup w n) :=
  ⟨by simp [cleanup, upd], by simp [cleanup, upd]⟩

theorem pass_gone {E : Env} (hE : Fair E.move) {n : Name} {o x} {w : World} (h : Gone n o x w) : Gone n o x (pass E w) :=
  ⟨fun hh => h.lock ((pass_lock hE w n).1 hh), h.out⟩

theorem gone_pass (E : Env) (w : World) (n : Name) : Gone n (w.out n) ((pass E w).refs n) (cleanup (pass E w) n) := cleanup_gone (pass E w) n

/-- what appending to a reflog keeps -/
theorem appendLog_ok {E : Env} (hE : Fair E.move) (w : World) (n : Name) (v : Val) (sig msg : Option Bytes) (hl : w.lock n = some .us) :
    Frame n w (appendLog E w n v sig msg).2 ∧ (appendLog E w n v sig msg).2.lock n = some .us ∧
      (appendLog E w n v sig msg).2.refs n = w.refs n ∧ (appendLog E w n v sig msg).2.out n = w.out n ∧ (appendLog E w n v sig msg).1 ≤ 0 := by
  have h1 := pass_frame hE w n
  have h2 := (pass_lock hE w n).2 hl
  have h3 := pass_refs hE w n hl
  unfold appendLog
  simp only []
  split
  · exact ⟨h1, h2, h3, rfl, by simp⟩
  · split
    · exact ⟨h1.trans (logs_frame _ n _), h2, h3, rfl, by simp⟩
    · exact ⟨h1, h2, h3, rfl, by simp⟩

/-- a value was written, or the old one stayed -/
theorem writeTail_ok {E : Env} (hE : Fair E.move) (w : World) (n : Name) (v : Val) (u : Bool) (sig msg : Option Bytes) (hl : w.lock n = some .us) :
    Frame n w (writeTail E w n v u sig msg).2 ∧ ∃ x, Gone n (w.out n) x (writeTail E w n v u sig msg).2 ∧ (x = w.refs n ∨ x = some v) ∧
      (writeTail E w n v u sig msg).1 ≤ 0 ∧ ((writeTail E w n v u sig msg).1 = 0 → x = some v) := by
  have f1 := pass_frame hE w n
  have l1 := (pass_lock hE w n).2 hl
  have r1 := pass_refs hE w n hl
  unfold writeTail
  simp only []
  split
  · exact ⟨f1.trans (cleanup_frame _ _), _, gone_pass E w n, .inl r1, by simp [ENOTFOUND], fun h => absurd h (by simp [ENOTFOUND])⟩
  split
  · rename_i hv
    exact ⟨f1.trans (cleanup_frame _ _), _, gone_pass E w n, .inl r1, by simp, fun _ => hv⟩
  have key : ∃ q : Int × World, (if u = true then appendLog E (pass E w) n v sig msg else (0, pass E w)) = q ∧ Frame n (pass E w) q.2 ∧
      q.2.lock n = some .us ∧ q.2.refs n = (pass E w).refs n ∧ q.2.out n = (pass E w).out n ∧ q.1 ≤ 0 := by
    cases u with
    | true => exact ⟨_, rfl, appendLog_ok hE (pass E w) n v sig msg l1⟩
    | false => exact ⟨_, rfl, .refl _ _, l1, rfl, rfl, by simp⟩
  obtain ⟨q, hq, q1, q2, q3, q4, q5⟩ := key
  rw [hq]
  have o1 : q.2.out n = w.out n := q4
  split
  · rename_i hneg
    refine ⟨f1.trans (q1.trans (cleanup_frame _ _)), q.2.refs n, ?_, .inl (q3.trans r1), by simp only []; omega, ?_⟩
    · rw [← o1]; exact cleanup_gone _ _
    · intro h; simp only [] at h; omega
  · have f2 := pass_frame hE q.2 n
    have r2 := pass_refs hE q.2 n q2
    have o2 : (pass E q.2).out n = w.out n := o1
    split
    · refine ⟨f1.trans (q1.trans (f2.trans (cleanup_frame _ _))), (pass E q.2).refs n, ?_, .inl (r2.trans (q3.trans r1)), by simp, ?_⟩
      · rw [← o2]; exact cleanup_gone _ _
      · intro h; exact absurd h (by simp)
    · refine ⟨f1.trans (q1.trans (f2.trans ((refs_frame _ _ _).trans (cleanup_frame _ _)))), some v, ?_, .inr rfl, by simp, fun _ => rfl⟩
      have := cleanup_gone { pass E q.2 with refs := upd (pass E q.2).refs n (some v) } n
      simp only [upd_same, o2] at this
      exact this

/-- a reference was removed, or stayed -/
theorem deleteTail_ok {E : Env} (hE : Fair E.move) (w : World) (n : Name) (hl : w.lock n = some .us) :
    Frame n w (deleteTail E w n).2 ∧ ∃ x, Gone n (w.out n) x (deleteTail E w n).2 ∧ (x = w.refs n ∨ x = none) ∧
      (deleteTail E w n).1 ≤ 0 ∧ ((deleteTail E w n).1 = 0 → x = none) := by
  have f1 := pass_frame hE w n
  have r1 := pass_refs hE w n hl
  unfold deleteTail
  simp only []
  split
  · by_cases hlost : E.lost (pass E w).tick = true
    · rw [if_pos hlost]
      refine ⟨f1.trans ((refs_frame _ _ _).trans (cleanup_frame _ _)), none, ?_, .inr rfl, by simp, fun _ => rfl⟩
      have := cleanup_gone { pass E w with refs := upd (pass E w).refs n none } n
      simp only [upd_same, pass_out] at this
      exact this
    · rw [if_neg hlost]
      exact ⟨f1.trans (cleanup_frame _ _), _, gone_pass E w n, .inl r1, by simp [ENOTFOUND], fun h => absurd h (by simp [ENOTFOUND])⟩
  · split
    · exact ⟨f1.trans (cleanup_frame _ _), _, gone_pass E w n, .inl r1, by simp [ENOTFOUND], fun h => absurd h (by simp [ENOTFOUND])⟩
    · refine ⟨f1.trans ((refs_frame _ _ _).trans ((cleanup_frame _ _).trans (pass_frame hE _ _))), none, ?_, .inr rfl, ?_, fun _ => rfl⟩
      · refine pass_gone hE ?_
        have := cleanup_gone { pass E w with refs := upd (pass E w).refs n none } n
        simp only [upd_same, pass_out] at this
        exact this
      · simp only []; split <;> simp

/-- what a node stands for -/
def Node.want (x : Node) : Want := if x.remove then .gone else match x.value with | some v => .value v | none => .keep

/-- a node before the commit -/
structure Held (x : Node) (w : World) : Prop where
  live : x.live = true
  open' : x.committed = false
  lock : w.lock x.name = some .us
  refs : w.refs x.name = x.old
  out : w.out x.name = []
  removal : x.remove = true → x.value.isSome

theorem Held.frame {x : Node} {n : Name} {w w' : World} (h : Held x w) (hf : Frame n w w') (hn : x.name ≠ n) : Held x w' :=
  ⟨h.live, h.open', (hf.lock _ hn).2 h.lock, (hf.refs _ hn h.lock).trans h.refs, (hf.out _ hn).trans h.out, h.removal⟩

theorem Held.pass {E : Env} (hE : Fair E.move) {x : Node} {w : World} (h : Held x w) : Held x (pass E w) :=
  ⟨h.live, h.open', (pass_lock hE _ _).2 h.lock, (pass_refs hE _ _ h.lock).trans h.refs, h.out, h.removal⟩

/-- what has become of a node: it is still held and the commit has failed, or it was let go of, once -/
def Done (e : Int) (x y : Node) (w : World) : Prop :=
  (y = x ∧ e < 0 ∧ Held x w) ∨
    (y.name = x.name ∧ y.committed = true ∧ y.live = false ∧
      ∃ v, Gone x.name [] v w ∧ (v = x.old ∨ v = x.want.apply x.old) ∧ (e = 0 → v = x.want.apply x.old))

theorem commitNode_ok {E : Env} (hE : Fair E.move) (w : World) (x : Node) (h : Held x w) :
    ∃ e y w', commitNode E w x = .ok (e, y, w') ∧ e ≤ 0 ∧ Frame x.name w w' ∧ Done e x y w' := by
  have f1 := pass_frame hE w x.name
  have h1 := h.pass hE
  unfold commitNode
  simp only []
  split
  · exact ⟨_, _, _, rfl, by decide, f1, .inl ⟨rfl, by decide, h1⟩⟩
  · have key : ∃ w1, writeReflog (RefTx.pass E w) x = w1 ∧ Frame x.name (RefTx.pass E w) w1 ∧ Held x w1 := by
      refine ⟨_, rfl, ?_, ?_⟩
      · unfold writeReflog; split
        · exact logs_frame _ _ _
        · exact .refl _ _
      · unfold writeReflog; split
        · exact ⟨h1.live, h1.open', h1.lock, h1.refs, h1.out, h1.removal⟩
        · exact h1
    obtain ⟨w1, hw, f2, h2⟩ := key
    rw [hw, if_neg (by simp [h.live])]
    cases hv : x.value with
    | none =>
      have hr : x.remove = false := by
        cases hr : x.remove with
        | false => rfl
        | true => have := h.removal hr; rw [hv] at this; cases this
      refine ⟨_, _, _, rfl, by decide, f1.trans (f2.trans (cleanup_frame _ _)), .inr ⟨rfl, rfl, rfl, x.old, ?_, .inl rfl, fun _ => ?_⟩⟩
      · have := cleanup_gone w1 x.name
        rwa [h2.out, h2.refs] at this
      · simp [Node.want, hr, hv, Want.apply]
    | some v =>
      simp only [updateTarget]
      by_cases hr : x.remove = true
      · simp only [hr, if_true]
        obtain ⟨f3, y, g1, g2, g3, g4⟩ := deleteTail_ok hE w1 x.name h2.lock
        rw [h2.out] at g1
        rw [h2.refs] at g2
        have hw : x.want.apply x.old = none := by simp [Node.want, hr, Want.apply]
        exact ⟨_, _, _, rfl, g3, f1.trans (f2.trans f3), .inr ⟨rfl, rfl, rfl, y, g1, by rw [hw]; exact g2, by rw [hw]; exact g4⟩⟩
      · simp only [hr, Bool.false_eq_true, if_false]
        obtain ⟨f3, y, g1, g2, g3, g4⟩ := writeTail_ok hE w1 x.name v x.reflog.isNone x.sig x.message h2.lock
        rw [h2.out] at g1
        rw [h2.refs] at g2
        have hw : x.want.apply x.old = some v := by simp [Node.want, hr, hv, Want.apply]
        exact ⟨_, _, _, rfl, g3, f1.trans (f2.trans f3), .inr ⟨rfl, rfl, rfl, y, g1, by rw [hw]; exact g2, by rw [hw]; exact g4⟩⟩

theorem Done.frame {e : Int} {x y : Node} {n : Name} {w w' : World} (h : Done e x y w) (hf : Frame n w w') (hn : x.name ≠ n) : Done e x y w' := by
  rcases h with ⟨h1, h2, h3⟩ | ⟨h1, h2, h3, v, h4, h5⟩
  · exact .inl ⟨h1, h2, h3.frame hf hn⟩
  · exact .inr ⟨h1, h2, h3, v, ⟨fun hh => h4.lock ((hf.lock _ hn).1 hh), (hf.out _ hn).trans h4.out⟩, h5⟩

/-- nothing happened to `m` as far as we have it locked -/
structure Same (m : Name) (w w' : World) : Prop where
  lock : w'.lock m = some .us ↔ w.lock m = some .us
  refs : w.lock m = some .us → w'.refs m = w.refs m
  out : w'.out m = w.out m

theorem Frame.same {n m : Name} {w w' : World} (h : Frame n w w') (hm : m ≠ n) : Same m w w' := ⟨h.lock m hm, h.refs m hm, h.out m hm⟩

theorem Same.refl (m : Name) (w : World) : Same m w w := ⟨Iff.rfl, fun _ => rfl, rfl⟩

theorem Same.trans {m : Name} {a b c : World} (h : Same m a b) (g : Same m b c) : Same m a c :=
  ⟨g.lock.trans h.lock, fun hl => (g.refs (h.lock.2 hl)).trans (h.refs hl), g.out.trans h.out⟩

theorem Held.same {x : Node} {w w' : World} (h : Held x w) (hf : Same x.name w w') : Held x w' :=
  ⟨h.live, h.open', hf.lock.2 h.lock, (hf.refs h.lock).trans h.refs, hf.out.trans h.out, h.removal⟩

theorem Done.same {e : Int} {x y : Node} {w w' : World} (h : Done e x y w) (hf : Same x.name w w') : Done e x y w' := by
  rcases h with ⟨h1, h2, h3⟩ | ⟨h1, h2, h3, v, h4, h5⟩
  · exact .inl ⟨h1, h2, h3.same hf⟩
  · exact .inr ⟨h1, h2, h3, v, ⟨fun hh => h4.lock (hf.lock.1 hh), hf.out.trans h4.out⟩, h5⟩

theorem Done.mono {e : Int} {x y : Node} {w : World} (h : Done 0 x y w) : Done e x y w := by
  rcases h with ⟨-, h, -⟩ | ⟨h1, h2, h3, v, h4, h5, h6⟩
  · omega
  · exact .inr ⟨h1, h2, h3, v, h4, h5, fun _ => h6 rfl⟩

theorem Done.name {e : Int} {x y : Node} {w : World} (h : Done e x y w) : y.name = x.name := by
  rcases h with ⟨rfl, -⟩ | ⟨h, -⟩
  · rfl
  · exact h

/-- committing: never uses a freed lock; every node is let go of, or the commit has failed -/
theorem commit_ok {E : Env} (hE : Fair E.move) : ∀ (xs : List Node) (w : World), (xs.map Node.name).Nodup → (∀ x ∈ xs, Held x w) →
    ∃ e ys w', commit E w xs = .ok (e, ys, w') ∧ e ≤ 0 ∧ List.Forall₂ (fun x y => Done e x y w') xs ys ∧
      (∀ m, m ∉ xs.map Node.name → Same m w w') := by
  intro xs
  induction xs with
  | nil => intro w _ _; exact ⟨0, [], w, rfl, by decide, .nil, fun m _ => .refl _ _⟩
  | cons x xs ih =>
    intro w hnd hh
    simp only [List.map_cons, List.nodup_cons] at hnd
    obtain ⟨e, y, w1, g1, g2, g3, g4⟩ := commitNode_ok hE w x (hh x (by simp))
    have hne : ∀ z ∈ xs, z.name ≠ x.name := fun z hz he => hnd.1 (by rw [← he]; exact List.mem_map_of_mem hz)
    have hrest : ∀ z ∈ xs, Held z w1 := fun z hz => (hh z (by simp [hz])).frame g3 (hne z hz)
    rw [commit, g1]
    simp only [Res.bind_ok]
    by_cases he : e < 0
    · rw [if_pos he]
      refine ⟨e, y :: xs, w1, rfl, g2, .cons g4 ?_, fun m hm => g3.same (fun h => hm (by simp [h]))⟩
      clear ih hnd hh hne g4
      induction xs with
      | nil => exact .nil
      | cons z zs ihz => exact .cons (.inl ⟨rfl, he, hrest z (by simp)⟩) (ihz (fun z' hz' => hrest z' (by simp [hz'])))
    · rw [if_neg he]
      have he : e = 0 := by omega
      subst he
      obtain ⟨e', ys, w2, k1, k2, k3, k4⟩ := ih w1 hnd.2 hrest
      rw [k1]
      refine ⟨e', y :: ys, w2, rfl, k2, .cons (g4.mono.same (k4 _ hnd.1)) k3, fun m hm => ?_⟩
      simp only [List.map_cons, List.mem_cons, not_or] at hm
      exact (g3.same hm.1).trans (k4 m hm.2)

/-- freeing: what is held is let go of with the value it has -/
theorem free_ok {E : Env} (hE : Fair E.move) : ∀ (xs : List Node) (w : World), (xs.map Node.name).Nodup →
    (∀ x ∈ xs, x.committed = true ∨ Held x w) →
    ∃ w', free E w xs = .ok w' ∧ (∀ x ∈ xs, (x.committed = true ∧ Same x.name w w') ∨ (x.committed = false ∧ Gone x.name [] x.old w')) ∧
      (∀ m, m ∉ xs.map Node.name → Same m w w') := by
  intro xs
  induction xs with
  | nil => intro w _ _; exact ⟨w, rfl, by simp, fun m _ => .refl _ _⟩
  | cons x xs ih =>
    intro w hnd hh
    simp only [List.map_cons, List.nodup_cons] at hnd
    have hne : ∀ z ∈ xs, z.name ≠ x.name := fun z hz he => hnd.1 (by rw [← he]; exact List.mem_map_of_mem hz)
    by_cases hc : x.committed = true
    · obtain ⟨w', k1, k2, k3⟩ := ih w hnd.2 (fun z hz => hh z (by simp [hz]))
      refine ⟨w', by rw [free, if_pos hc]; exact k1, ?_, fun m hm => k3 m (fun h => hm (by simp [h]))⟩
      intro z hz
      rcases List.mem_cons.mp hz with rfl | hz
      · exact .inl ⟨hc, k3 _ hnd.1⟩
      · exact k2 z hz
    · have hx : Held x w := (hh x (by simp)).resolve_left hc
      have hf : Frame x.name w (cleanup (pass E w) x.name) := (pass_frame hE w _).trans (cleanup_frame _ _)
      obtain ⟨w', k1, k2, k3⟩ := ih (cleanup (pass E w) x.name) hnd.2 (fun z hz => (hh z (by simp [hz])).imp id (fun h => h.frame hf (hne z hz)))
      refine ⟨w', by rw [free, if_neg hc, if_neg (by simp [hx.live])]; exact k1, ?_, fun m hm => ?_⟩
      · intro z hz
        rcases List.mem_cons.mp hz with rfl | hz
        · right
          refine ⟨hx.open', ?_⟩
          have hg := cleanup_gone (pass E w) z.name
          rw [(hx.pass hE).out, (hx.pass hE).refs] at hg
          have hs := k3 _ hnd.1
          exact ⟨fun h => hg.lock (hs.lock.1 h), hs.out.trans hg.out⟩
        · rcases k2 z hz with ⟨a, b⟩ | h
          · exact .inl ⟨a, (hf.same (hne z hz)).trans b⟩
          · exact .inr h
      · simp only [List.map_cons, List.mem_cons, not_or] at hm
        exact (hf.same hm.1).trans (k3 m hm.2)

/-! ## Before the commit -/

theorem find_some {tx : List Node} {n : Name} {x : Node} (h : find tx n = some x) : x ∈ tx ∧ x.name = n :=
  ⟨List.mem_of_find?_eq_some h, by have := List.find?_some h; simpa using this⟩

theorem find_none {tx : List Node} {n : Name} (h : find tx n = none) : ∀ x ∈ tx, x.name ≠ n := by
  intro x hx
  have := List.find?_eq_none.mp h x hx
  simpa using this

theorem putNode_mem {tx : List Node} {y z : Node} (h : z ∈ putNode tx y) : z = y ∨ (z ∈ tx ∧ z.name ≠ y.name) := by
  unfold putNode at h
  split at h
  · obtain ⟨u, hu, rfl⟩ := List.mem_map.mp h
    split
    · exact .inl rfl
    · rename_i hn; exact .inr ⟨hu, hn⟩
  · rename_i hn
    rcases List.mem_append.mp h with h | h
    · refine .inr ⟨h, find_none ?_ z h⟩
      cases hf : find tx y.name with
      | none => rfl
      | some u => rw [hf] at hn; simp at hn
    · exact .inl (by simpa using h)

theorem putNode_names_found {tx : List Node} {y x : Node} (h : find tx y.name = some x) : (putNode tx y).map Node.name = tx.map Node.name := by
  unfold putNode
  rw [h, if_pos (by rfl), List.map_map]
  refine List.map_congr_left fun u _ => ?_
  simp only [Function.comp]
  split
  · rename_i hu; exact hu.symm
  · rfl

theorem putNode_names_new {tx : List Node} {y : Node} (h : find tx y.name = none) : (putNode tx y).map Node.name = tx.map Node.name ++ [y.name] := by
  unfold putNode
  rw [h, if_neg (by simp)]
  simp

/-- before the commit -/
structure Inv (tx : List Node) (w : World) (tr : List (Call × Int)) : Prop where
  nodup : (tx.map Node.name).Nodup
  held : ∀ x ∈ tx, Held x w
  only : ∀ n, w.lock n = some .us → n ∈ tx.map Node.name
  out : ∀ n, w.out n = []
  want : ∀ x ∈ tx, x.want = wanted x.name tr
  locked : ∀ n, n ∈ tx.map Node.name ↔ locked n tr
  none : ∀ n, n ∉ tx.map Node.name → wanted n tr = .keep

theorem wanted_snoc (n : Name) (tr : List (Call × Int)) (c : Call × Int) : wanted n (tr ++ [c]) = Want.next n (wanted n tr) c := by
  simp [wanted]

theorem locked_snoc (n : Name) (tr : List (Call × Int)) (c : Call × Int) : Spec.locked n (tr ++ [c]) ↔ Spec.locked n tr ∨ (Call.lock n, 0) = c := by
  simp [Spec.locked]

/-- a call that fails, or says nothing on targets -/
theorem Inv.idle {tx : List Node} {w w' : World} {tr : List (Call × Int)} (h : Inv tx w tr) (hw : ∀ n, Same n w w') (c : Call) (e : Int)
    (hc : ∀ n u, Want.next n u (c, e) = u) (hl : ∀ n, (Call.lock n, (0 : Int)) ≠ (c, e)) : Inv tx w' (tr ++ [(c, e)]) where
  nodup := h.nodup
  held x hx := (h.held x hx).same (hw _)
  only n hn := h.only n ((hw n).lock.1 hn)
  out n := (hw n).out.trans (h.out n)
  want x hx := by rw [wanted_snoc, hc]; exact h.want x hx
  locked n := by rw [locked_snoc, h.locked n]; exact ⟨.inl, fun h => h.resolve_right (hl n)⟩
  none n hn := by rw [wanted_snoc, hc]; exact h.none n hn

/-- a node is changed -/
theorem Inv.change {tx : List Node} {w w' : World} {tr : List (Call × Int)} (h : Inv tx w tr) (hw : ∀ n, Same n w w') (c : Call) (e : Int)
    {x y : Node} (hx : find tx y.name = some x) (hlive : y.live = x.live) (hopen : y.committed = x.committed) (hold : y.old = x.old)
    (hrem : y.remove = true → y.value.isSome)
    (hc : ∀ n u, n ≠ y.name → Want.next n u (c, e) = u) (hy : Want.next y.name x.want (c, e) = y.want)
    (hl : ∀ n, (Call.lock n, (0 : Int)) ≠ (c, e)) : Inv (putNode tx y) w' (tr ++ [(c, e)]) where
  nodup := by rw [putNode_names_found hx]; exact h.nodup
  held z hz := by
    rcases putNode_mem hz with rfl | ⟨hz, -⟩
    · obtain ⟨hm, hn⟩ := find_some hx
      have := (h.held x hm).same (hw _)
      exact ⟨hlive.trans this.live, hopen.trans this.open', by rw [← hn]; exact this.lock, by rw [← hn, hold]; exact this.refs,
        by rw [← hn]; exact this.out, hrem⟩
    · exact (h.held z hz).same (hw _)
  only n hn := by rw [putNode_names_found hx]; exact h.only n ((hw n).lock.1 hn)
  out n := (hw n).out.trans (h.out n)
  want z hz := by
    rw [wanted_snoc]
    rcases putNode_mem hz with rfl | ⟨hz, hne⟩
    · obtain ⟨hm, hn⟩ := find_some hx
      have := h.want x hm
      rw [hn] at this
      rw [← this, hy]
    · rw [hc _ _ hne]; exact h.want z hz
  locked n := by rw [putNode_names_found hx, locked_snoc, h.locked n]; exact ⟨.inl, fun h => h.resolve_right (hl n)⟩
  none n hn := by
    rw [putNode_names_found hx] at hn
    rw [wanted_snoc, hc]
    · exact h.none n hn
    · rintro rfl
      obtain ⟨hm, he⟩ := find_some hx
      exact hn (by rw [← he]; exact List.mem_map_of_mem hm)

theorem pass_same {E : Env} (hE : Fair E.move) (w : World) (n : Name) : Same n w (pass E w) :=
  ⟨pass_lock hE w n, pass_refs hE w n, rfl⟩

theorem copyCommon_ok (log : Option Bytes) (x : Node) (sig msg : Option Bytes) :
    ((copyCommon log x sig msg).1 = 0 ∨ (copyCommon log x sig msg).1 = -1) ∧ (copyCommon log x sig msg).2.name = x.name ∧
    (copyCommon log x sig msg).2.live = x.live ∧ (copyCommon log x sig msg).2.committed = x.committed ∧ (copyCommon log x sig msg).2.old = x.old ∧
    (copyCommon log x sig msg).2.remove = x.remove ∧ (copyCommon log x sig msg).2.value = x.value := by
  unfold copyCommon
  cases sig <;> cases msg <;> cases hx : x.sig <;> cases log <;> simp [hx]

theorem want_eq {x y : Node} (h1 : y.remove = x.remove) (h2 : y.value = x.value) : y.want = x.want := by simp [Node.want, h1, h2]

theorem setValue_inv {E : Env} (hE : Fair E.move) {tx : List Node} {w : World} {tr : List (Call × Int)} (h : Inv tx w tr) (log : Option Bytes)
    (n : Name) (v : Val) (sig msg : Option Bytes) (c : Call) (hcl : ∀ m, Call.lock m ≠ c) (hc0 : ∀ m u, m ≠ n → Want.next m u (c, 0) = u)
    (hc1 : ∀ u, Want.next n u (c, 0) = if u = .gone then .gone else .value v) :
    Inv (setValue log tx n v sig msg).2 (pass E w) (tr ++ [(c, (setValue log tx n v sig msg).1)]) := by
  have herr : ∀ m u e, e ≠ 0 → Want.next m u (c, e) = u := by intro m u e he; simp [Want.next, he]
  have hlock : ∀ m e, (Call.lock m, (0 : Int)) ≠ (c, e) := fun m e he => hcl m (Prod.mk.inj he).1
  unfold setValue
  cases hf : find tx n with
  | none => exact h.idle (pass_same hE w) c _ (fun m u => herr m u _ (by simp [ENOTFOUND])) (fun m => hlock m _)
  | some x =>
    obtain ⟨hm, hn⟩ := find_some hf
    have hx := h.held x hm
    obtain ⟨c1, c2, c3, c4, c5, c6, c7⟩ := copyCommon_ok log x sig msg
    simp only []
    split
    · rename_i hneg
      have he : (copyCommon log x sig msg).1 ≠ 0 := by omega
      refine h.change (pass_same hE w) c _ (x := x) (by rw [c2, hn]; exact hf) c3 c4 c5 ?_ (fun m u _ => herr m u _ he) ?_ (fun m => hlock m _)
      · rw [c6, c7]; exact hx.removal
      · rw [herr _ _ _ he, want_eq c6 c7]
    · refine h.change (pass_same hE w) c 0 (x := x) (by simp only [c2, hn]; exact hf) c3 c4 c5 (fun _ => rfl) (fun m u hm => hc0 m u ?_) ?_
        (fun m => hlock m _)
      · simpa only [c2, hn] using hm
      · simp only [c2, hn]
        rw [hc1]
        unfold Node.want
        simp only [c6]
        by_cases hr : x.remove = true
        · simp [hr]
        · simp only [hr, Bool.false_eq_true, if_false]
          cases x.value <;> simp

theorem lockRef_inv {E : Env} (hE : Fair E.move) {tx : List Node} {w : World} {tr : List (Call × Int)} (h : Inv tx w tr) (n : Name) :
    Inv (lockRef E tx w n).2.1 (lockRef E tx w n).2.2 (tr ++ [(.lock n, (lockRef E tx w n).1)]) := by
  have hnext : ∀ m u e, Want.next m u (.lock n, e) = u := by intro m u e; simp [Want.next]
  by_cases hfail : E.fails (pass E w).tick = true
  · have e : lockRef E tx w n = (-1, tx, pass E w) := by simp [lockRef, backendLock, hfail]
    rw [e]
    exact h.idle (pass_same hE w) _ _ (fun m u => hnext m u _) (fun m he => by have := (Prod.mk.inj he).2; simp at this)
  by_cases hlk : ((pass E w).lock n).isSome = true
  · have e : lockRef E tx w n = (ELOCKED, tx, pass E w) := by simp [lockRef, backendLock, hfail, hlk, ELOCKED]
    rw [e]
    exact h.idle (pass_same hE w) _ _ (fun m u => hnext m u _) (fun m he => by have := (Prod.mk.inj he).2; simp [ELOCKED] at this)
  have e : lockRef E tx w n = (0, putNode tx ⟨n, true, none, none, none, none, false, false, (pass E w).refs n⟩,
      { pass E w with lock := upd (pass E w).lock n (some .us) }) := by
    have hb : backendLock E w n = (0, { pass E w with lock := upd (pass E w).lock n (some .us) }) := by
      simp only [backendLock]
      rw [if_neg hfail, if_neg hlk]
    simp [lockRef, hb]
  rw [e]
  have hs : ∀ m, Same m w (pass E w) := pass_same hE w
  have hfree : (pass E w).lock n ≠ some .us := by intro hh; rw [hh] at hlk; simp at hlk
  have hnot : n ∉ tx.map Node.name := by
    intro hm
    obtain ⟨x, hx, he⟩ := List.mem_map.mp hm
    exact hfree (by rw [← he]; exact ((h.held x hx).same (hs _)).lock)
  have hfind : find tx n = none := by
    cases hf : find tx n with
    | none => rfl
    | some x => obtain ⟨a, b⟩ := find_some hf; exact absurd (by rw [← b]; exact List.mem_map_of_mem a) hnot
  have hs2 : ∀ m, m ≠ n → Same m w { pass E w with lock := upd (pass E w).lock n (some .us) } := by
    intro m hm
    exact (hs m).trans ⟨by simp [upd, hm], fun _ => rfl, rfl⟩
  have hnames : ∀ y : Node, y.name = n → (putNode tx y).map Node.name = tx.map Node.name ++ [n] := by
    intro y hy
    rw [putNode_names_new (by rw [hy]; exact hfind), hy]
  refine ⟨?_, ?_, ?_, fun m => h.out m, ?_, ?_, ?_⟩
  · rw [hnames _ rfl]
    exact List.nodup_append.mpr ⟨h.nodup, by simp, fun a ha b hb => by simp at hb; rw [hb]; rintro rfl; exact hnot ha⟩
  · intro z hz
    rcases putNode_mem hz with rfl | ⟨hz, hne⟩
    · exact ⟨rfl, rfl, upd_same _ _ _, rfl, h.out n, fun hh => by cases hh⟩
    · exact (h.held z hz).same (hs2 _ hne)
  · intro m hm
    rw [hnames _ rfl]
    by_cases he : m = n
    · simp [he]
    · exact List.mem_append_left _ (h.only m ((hs2 m he).lock.1 hm))
  · intro z hz
    rw [wanted_snoc, hnext]
    rcases putNode_mem hz with rfl | ⟨hz, -⟩
    · exact (h.none n hnot).symm
    · exact h.want z hz
  · intro m
    rw [hnames _ rfl, locked_snoc, List.mem_append, h.locked m]
    simp
  · intro m hm
    rw [hnames _ rfl] at hm
    rw [wanted_snoc, hnext]
    exact h.none m (fun hh => hm (List.mem_append_left _ hh))

theorem call_inv {E : Env} (hE : Fair E.move) (log : Bytes) {tx : List Node} {w : World} {tr : List (Call × Int)} (h : Inv tx w tr) (c : Call) :
    Inv (call E log tx w c).2.1 (call E log tx w c).2.2 (tr ++ [(c, (call E log tx w c).1)]) := by
  cases c with
  | lock n => exact lockRef_inv hE h n
  | setTarget n id sig msg =>
    refine setValue_inv hE h _ n (.oid id) sig msg _ (fun m hh => nomatch hh) (fun m u hm => ?_) (fun u => ?_)
    · simp [Want.next, Ne.symm hm]
    · simp only [Want.next]; by_cases hu : u = .gone <;> simp [hu]
  | setSymbolic n t sig msg =>
    refine setValue_inv hE h _ n (.sym t) sig msg _ (fun m hh => nomatch hh) (fun m u hm => ?_) (fun u => ?_)
    · simp [Want.next, Ne.symm hm]
    · simp only [Want.next]; by_cases hu : u = .gone <;> simp [hu]
  | remove n =>
    simp only [call, remove]
    cases hf : find tx n with
    | none => exact h.idle (pass_same hE w) _ _ (fun m u => by simp [Want.next, ENOTFOUND]) (fun m he => by simp at he)
    | some x =>
      obtain ⟨hm, hn⟩ := find_some hf
      refine h.change (pass_same hE w) _ 0 (x := x) (by simp only [hn]; exact hf) rfl rfl rfl (fun _ => rfl) (fun m u hm => ?_) ?_ (fun m he => by simp at he)
      · simp only [hn] at hm; simp [Want.next, Ne.symm hm]
      · simp only [hn, Want.next, Node.want]
        by_cases hr : x.remove = true <;> simp [hr]
  | setReflog n m l =>
    simp only [call, setReflog]
    cases hf : find tx n with
    | none => exact h.idle (pass_same hE w) _ _ (fun m u => by simp [Want.next]) (fun m he => by simp at he)
    | some x =>
      obtain ⟨hm, hn⟩ := find_some hf
      exact h.change (pass_same hE w) _ 0 (x := x) (by simp only [hn]; exact hf) rfl rfl rfl (h.held x hm).removal (fun m u _ => by simp [Want.next])
        (by simp [Want.next, Node.want]) (fun m he => by simp at he)

theorem calls_inv {E : Env} (hE : Fair E.move) (log : Bytes) : ∀ (cs : List Call) (tx : List Node) (w : World) (tr : List (Call × Int)), Inv tx w tr →
    ∃ tr' tx' w', calls E log cs tx w tr = (tr', tx', w') ∧ Inv tx' w' tr' := by
  intro cs
  induction cs with
  | nil => intro tx w tr h; exact ⟨_, _, _, rfl, h⟩
  | cons c cs ih =>
    intro tx w tr h
    exact ih _ _ _ (call_inv hE log h c)

end Verif.RefTx
