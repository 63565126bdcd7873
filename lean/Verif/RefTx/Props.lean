import Verif.RefTx.Lemmas
/-! # C92, C93: transactions on references -/
namespace Verif.RefTx
open Spec

/-- a new transaction on a repository -/
structure Fresh (w : World) : Prop where
  lock : ∀ n, w.lock n ≠ some .us
  out : ∀ n, w.out n = []

theorem fresh_inv {w : World} (h : Fresh w) : Inv [] w [] where
  nodup := List.nodup_nil
  held _ hx := nomatch hx
  only n hn := absurd hn (h.lock n)
  out := h.out
  want _ hx := nomatch hx
  locked n := by simp [Spec.locked]
  none n _ := by simp [wanted]

/-- the nodes in the order of a map, which can be any -/
theorem Inv.perm {tx tx' : List Node} {w : World} {tr : List (Call × Int)} (h : Inv tx w tr) (hp : tx'.Perm tx) : Inv tx' w tr where
  nodup := (hp.map _).nodup_iff.2 h.nodup
  held x hx := h.held x (hp.mem_iff.1 hx)
  only n hn := (hp.map _).mem_iff.2 (h.only n hn)
  out := h.out
  want x hx := h.want x (hp.mem_iff.1 hx)
  locked n := by rw [(hp.map _).mem_iff]; exact h.locked n
  none n hn := h.none n (fun hh => hn ((hp.map _).mem_iff.2 hh))

/-- every reference that is locked has a node, which holds its value -/
theorem Inv.node {tx : List Node} {w : World} {tr : List (Call × Int)} (h : Inv tx w tr) {n : Name} (hn : Spec.locked n tr) :
    ∃ x ∈ tx, x.name = n ∧ Held x w := by
  obtain ⟨x, hx, he⟩ := List.mem_map.mp ((h.locked n).2 hn)
  exact ⟨x, hx, he, h.held x hx⟩

/-- C92: before the commit, whatever others do and whatever fails: the references locked by the calls that succeeded are exactly those we hold, and
none has been let go of -/
theorem C92_held {E : Env} (hE : Fair E.move) (log : Bytes) (cs : List Call) (w0 : World) (h0 : Fresh w0) :
    ∃ tr tx w, calls E log cs [] w0 [] = (tr, tx, w) ∧ ∀ n, (w.lock n = some .us ↔ Spec.locked n tr) ∧ w.out n = [] := by
  obtain ⟨tr, tx, w, h1, h2⟩ := calls_inv hE log cs [] w0 [] (fresh_inv h0)
  refine ⟨tr, tx, w, h1, fun n => ⟨⟨fun hn => (h2.locked n).1 (h2.only n hn), fun hn => ?_⟩, h2.out n⟩⟩
  obtain ⟨x, -, rfl, hx⟩ := h2.node hn
  exact hx.lock

/-- C92: nobody else can change a reference while we hold it: from any point of the session to any later one, it keeps its value -/
theorem C92_stable {E : Env} (hE : Fair E.move) (log : Bytes) (cs ds : List Call) (w0 : World) (h0 : Fresh w0) :
    ∀ n, Spec.locked n (calls E log cs [] w0 []).1 →
      (calls E log (cs ++ ds) [] w0 []).2.2.refs n = (calls E log cs [] w0 []).2.2.refs n := by
  have happ : ∀ (cs : List Call) tx w tr, calls E log (cs ++ ds) tx w tr =
      calls E log ds (calls E log cs tx w tr).2.1 (calls E log cs tx w tr).2.2 (calls E log cs tx w tr).1 := by
    intro cs
    induction cs with
    | nil => intro tx w tr; rfl
    | cons c cs ih => intro tx w tr; exact ih _ _ _
  have hstep : ∀ (ds : List Call) tx w tr, Inv tx w tr → ∀ n, Spec.locked n tr → (calls E log ds tx w tr).2.2.refs n = w.refs n := by
    intro ds
    induction ds with
    | nil => intro tx w tr _ n _; rfl
    | cons d ds ih =>
      intro tx w tr hI n hn
      have hI' := call_inv hE log hI d
      rw [calls, ih _ _ _ hI' n ((locked_snoc _ _ _).2 (.inl hn))]
      obtain ⟨x, -, hx1, hx2⟩ := hI.node hn
      have hl : w.lock n = some .us := by rw [← hx1]; exact hx2.lock
      have hp := pass_refs hE w n hl
      cases d with
      | lock m =>
        simp only [call, lockRef, backendLock]
        by_cases a : E.fails (pass E w).tick = true
        · simpa [a] using hp
        · by_cases b : ((pass E w).lock m).isSome = true
          · simpa [a, b, ELOCKED] using hp
          · simpa [a, b] using hp
      | setTarget => exact hp
      | setSymbolic => exact hp
      | remove => exact hp
      | setReflog => exact hp
  intro n hn
  obtain ⟨tr, tx, w, h1, h2⟩ := calls_inv hE log cs [] w0 [] (fresh_inv h0)
  rw [h1] at hn
  rw [happ, h1]
  exact hstep ds tx w tr h2 n hn

/-- C93: a transaction that is committed, in whatever order of its references, and freed: no lock is used after it was freed, none is left, and every
reference that was locked was let go of exactly once, with the value before or with the one that is wanted — the latter if the commit succeeded -/
theorem C93_commit {E : Env} (hE : Fair E.move) (log : Bytes) (cs : List Call) (w0 : World) (h0 : Fresh w0) (order : List Node)
    (ho : order.Perm (calls E log cs [] w0 []).2.1) :
    ∃ tr tx w1, calls E log cs [] w0 [] = (tr, tx, w1) ∧
      ∃ e nodes w2 w3, commit E w1 order = .ok (e, nodes, w2) ∧ e ≤ 0 ∧ free E w2 nodes = .ok w3 ∧
        (∀ n, w3.lock n ≠ some .us) ∧ (e = 0 → ∀ n, w2.lock n ≠ some .us) ∧
        ∀ n, (Spec.locked n tr → ∃ v, w3.out n = [v] ∧ (v = w1.refs n ∨ v = (wanted n tr).apply (w1.refs n)) ∧
            (e = 0 → w2.out n = [v] ∧ v = (wanted n tr).apply (w1.refs n))) ∧
          (¬ Spec.locked n tr → w3.out n = []) := by
  obtain ⟨tr, tx, w1, h1, h2⟩ := calls_inv hE log cs [] w0 [] (fresh_inv h0)
  rw [h1] at ho
  refine ⟨tr, tx, w1, h1, ?_⟩
  have h2 := h2.perm ho
  obtain ⟨e, nodes, w2, g1, g2, g3, g4⟩ := commit_ok hE order w1 h2.nodup h2.held
  have hnames : nodes.map Node.name = order.map Node.name := by
    clear g1 ho h2 g4
    induction g3 with
    | nil => rfl
    | cons h _ ih => simp [h.name, ih]
  have hleft : ∀ y ∈ nodes, ∃ x ∈ order, Done e x y w2 := by
    clear g1 ho h2 g4 hnames
    induction g3 with
    | nil => simp
    | cons h _ ih =>
      intro y hy
      rcases List.mem_cons.mp hy with rfl | hy
      · exact ⟨_, by simp, h⟩
      · obtain ⟨x, hx, hd⟩ := ih y hy; exact ⟨x, by simp [hx], hd⟩
  have hright : ∀ x ∈ order, ∃ y ∈ nodes, Done e x y w2 := by
    clear g1 ho h2 g4 hnames hleft
    induction g3 with
    | nil => simp
    | cons h _ ih =>
      intro y hy
      rcases List.mem_cons.mp hy with rfl | hy
      · exact ⟨_, by simp, h⟩
      · obtain ⟨x, hx, hd⟩ := ih y hy; exact ⟨x, by simp [hx], hd⟩
  obtain ⟨w3, k1, k2, k3⟩ := free_ok hE nodes w2 (by rw [hnames]; exact h2.nodup) (by
    intro y hy
    obtain ⟨x, -, hd⟩ := hleft y hy
    rcases hd with ⟨rfl, -, hh⟩ | ⟨-, hc, -⟩
    · exact .inr hh
    · exact .inl hc)
  have hout : ∀ n, n ∉ order.map Node.name → Same n w1 w3 := fun n hn => (g4 n hn).trans (k3 n (by rw [hnames]; exact hn))
  -- what became of one node
  have hnode : ∀ x ∈ order, ∃ v, Gone x.name [] v w3 ∧ (v = x.old ∨ v = x.want.apply x.old) ∧
      (e = 0 → Gone x.name [] v w2 ∧ v = x.want.apply x.old) := by
    intro x hx
    obtain ⟨y, hy, hd⟩ := hright x hx
    rcases hd with ⟨rfl, he, hh⟩ | ⟨hn, hc, -, v, hg, hv1, hv2⟩
    · rcases k2 y hy with ⟨hc, -⟩ | ⟨-, hg⟩
      · rw [hh.open'] at hc; cases hc
      · exact ⟨y.old, hg, .inl rfl, fun h => by omega⟩
    · rcases k2 y hy with ⟨-, hs⟩ | ⟨hc', -⟩
      · rw [hn] at hs
        exact ⟨v, ⟨fun hl => hg.lock (hs.lock.1 hl), hs.out.trans hg.out⟩, hv1, fun he => ⟨hg, hv2 he⟩⟩
      · rw [hc] at hc'; cases hc'
  have hlk : ∀ n, n ∉ order.map Node.name → w1.lock n ≠ some .us := fun n hn hl => hn (h2.only n hl)
  refine ⟨e, nodes, w2, w3, g1, g2, k1, ?_, ?_, ?_⟩
  · intro n hl
    by_cases hn : n ∈ order.map Node.name
    · obtain ⟨x, hx, rfl⟩ := List.mem_map.mp hn
      obtain ⟨v, hg, -⟩ := hnode x hx
      exact hg.lock hl
    · exact hlk n hn ((hout n hn).lock.1 hl)
  · intro he n hl
    by_cases hn : n ∈ order.map Node.name
    · obtain ⟨x, hx, rfl⟩ := List.mem_map.mp hn
      obtain ⟨v, -, -, hg⟩ := hnode x hx
      exact (hg he).1.lock hl
    · exact hlk n hn ((g4 n hn).lock.1 hl)
  · intro n
    constructor
    · intro hn
      obtain ⟨x, hx, rfl, hh⟩ := h2.node hn
      obtain ⟨v, hg, hv, he⟩ := hnode x hx
      rw [← hh.refs, h2.want x hx] at *
      exact ⟨v, hg.out, hv, fun h => ⟨(he h).1.out, (he h).2⟩⟩
    · intro hn
      have : n ∉ order.map Node.name := fun hm => hn ((h2.locked n).1 hm)
      exact (hout n this).out.trans (h2.out n)

/-- C92: a transaction that is freed without a commit: every reference that was locked is let go of once with the value it had, no lock is left -/
theorem C92_abort {E : Env} (hE : Fair E.move) (log : Bytes) (cs : List Call) (w0 : World) (h0 : Fresh w0) (order : List Node)
    (ho : order.Perm (calls E log cs [] w0 []).2.1) :
    ∃ tr tx w1, calls E log cs [] w0 [] = (tr, tx, w1) ∧ ∃ w2, free E w1 order = .ok w2 ∧ (∀ n, w2.lock n ≠ some .us) ∧
      ∀ n, (Spec.locked n tr → w2.out n = [w1.refs n]) ∧ (¬ Spec.locked n tr → w2.out n = []) := by
  obtain ⟨tr, tx, w1, h1, h2⟩ := calls_inv hE log cs [] w0 [] (fresh_inv h0)
  rw [h1] at ho
  refine ⟨tr, tx, w1, h1, ?_⟩
  have h2 := h2.perm ho
  obtain ⟨w2, k1, k2, k3⟩ := free_ok hE order w1 h2.nodup (fun x hx => .inr (h2.held x hx))
  have hg : ∀ x ∈ order, Gone x.name [] x.old w2 := by
    intro x hx
    rcases k2 x hx with ⟨hc, -⟩ | ⟨-, hg⟩
    · rw [(h2.held x hx).open'] at hc; cases hc
    · exact hg
  refine ⟨w2, k1, ?_, fun n => ⟨?_, ?_⟩⟩
  · intro n hl
    by_cases hn : n ∈ order.map Node.name
    · obtain ⟨x, hx, rfl⟩ := List.mem_map.mp hn
      exact (hg x hx).lock hl
    · exact hn (h2.only n ((k3 n hn).lock.1 hl))
  · intro hn
    obtain ⟨x, hx, rfl, hh⟩ := h2.node hn
    rw [(hg x hx).out, hh.refs]
    rfl
  · intro hn
    have : n ∉ order.map Node.name := fun hm => hn ((h2.locked n).1 hm)
    exact (k3 n this).out.trans (h2.out n)

/-- C92: a reference that is locked, by us or by others, cannot be locked, and nothing is changed by trying -/
theorem C92_exclusive (E : Env) (log : Bytes) (tx : List Node) (w : World) (n : Name) (h : (pass E w).lock n ≠ none) :
    (call E log tx w (.lock n)).1 < 0 ∧ (call E log tx w (.lock n)).2 = (tx, pass E w) := by
  have hs : ((pass E w).lock n).isSome = true := by
    cases hl : (pass E w).lock n with
    | none => exact absurd hl h
    | some x => rfl
  simp only [call, lockRef, backendLock]
  by_cases hf : E.fails (pass E w).tick = true
  · simp [hf]
  · simp [hf, hs, ELOCKED]

/-- C92: a reference that we have not locked cannot be given a value -/
theorem C92_unlocked (E : Env) (log : Bytes) (tx : List Node) (w : World) (n : Name) (h : n ∉ tx.map Node.name) (c : Call)
    (hc : (∃ id sig msg, c = .setTarget n id sig msg) ∨ (∃ t sig msg, c = .setSymbolic n t sig msg) ∨ c = .remove n ∨ ∃ m l, c = .setReflog n m l) :
    call E log tx w c = (ENOTFOUND, tx, pass E w) := by
  have hf : find tx n = none := by
    cases hf : find tx n with
    | none => rfl
    | some x => obtain ⟨a, b⟩ := find_some hf; exact absurd (by rw [← b]; exact List.mem_map_of_mem a) h
  rcases hc with ⟨id, sig, msg, rfl⟩ | ⟨t, sig, msg, rfl⟩ | rfl | ⟨m, l, rfl⟩ <;> simp [call, setValue, remove, setReflog, hf]

/-! ## Nothing else is changed -/

/-- nobody else does anything -/
def Alone (E : Env) : Prop := ∀ t w, E.move t w = w

theorem alone_pass {E : Env} (h : Alone E) (w : World) : (pass E w).refs = w.refs := by
  show (E.move w.tick w).refs = _
  rw [h]

theorem alone_append {E : Env} (h : Alone E) (w : World) (n : Name) (v : Val) (sig msg : Option Bytes) : (appendLog E w n v sig msg).2.refs = w.refs := by
  unfold appendLog
  simp only []
  split
  · exact alone_pass h w
  · split <;> exact alone_pass h w

theorem alone_write {E : Env} (h : Alone E) (w : World) (n m : Name) (hm : m ≠ n) (v : Val) (u : Bool) (sig msg : Option Bytes) :
    (writeTail E w n v u sig msg).2.refs m = w.refs m := by
  unfold writeTail
  simp only [cleanup]
  split
  · simp [alone_pass h]
  · split
    · simp [alone_pass h]
    · cases u
      · simp only [Bool.false_eq_true, if_false]
        split
        · simp [alone_pass h]
        · split <;> simp [alone_pass h, upd, hm]
      · simp only [if_true]
        split
        · simp [alone_append h, alone_pass h]
        · split <;> simp [alone_append h, alone_pass h, upd, hm]

theorem alone_delete {E : Env} (h : Alone E) (w : World) (n m : Name) (hm : m ≠ n) : (deleteTail E w n).2.refs m = w.refs m := by
  unfold deleteTail
  simp only [cleanup]
  split
  · split <;> simp [alone_pass h, upd, hm]
  · split <;> simp [alone_pass h, upd, hm]

theorem alone_node {E : Env} (h : Alone E) (w : World) (x y : Node) (e : Int) (w' : World) (hc : commitNode E w x = .ok (e, y, w')) (m : Name)
    (hm : m ≠ x.name) : w'.refs m = w.refs m := by
  have hr : ∀ u : World, (writeReflog u x).refs = u.refs := by intro u; unfold writeReflog; split <;> rfl
  unfold commitNode at hc
  simp only [] at hc
  split at hc
  · cases hc; rw [alone_pass h]
  · split at hc
    · cases hc
    · split at hc
      · cases hc
        simp only [cleanup]
        rw [hr, alone_pass h]
      · cases hc
        unfold updateTarget
        split
        · rw [alone_delete h _ _ _ hm, hr, alone_pass h]
        · rw [alone_write h _ _ _ hm, hr, alone_pass h]

theorem alone_commit {E : Env} (h : Alone E) : ∀ (xs : List Node) (w w' : World) (e : Int) (ys : List Node), commit E w xs = .ok (e, ys, w') →
    ∀ m, m ∉ xs.map Node.name → w'.refs m = w.refs m := by
  intro xs
  induction xs with
  | nil => intro w w' e ys hc m _; cases hc; rfl
  | cons x xs ih =>
    intro w w' e ys hc m hm
    simp only [List.map_cons, List.mem_cons, not_or] at hm
    rw [commit] at hc
    cases hn : commitNode E w x with
    | err e => rw [hn] at hc; cases hc
    | ub => rw [hn] at hc; cases hc
    | ok r =>
      obtain ⟨e1, y, w1⟩ := r
      have h1 := alone_node h w x y e1 w1 hn m hm.1
      rw [hn] at hc
      simp only [Res.bind_ok] at hc
      split at hc
      · cases hc; exact h1
      · cases hr : commit E w1 xs with
        | err e => rw [hr] at hc; cases hc
        | ub => rw [hr] at hc; cases hc
        | ok s =>
          rw [hr] at hc
          cases hc
          rw [ih w1 s.2.2 s.1 s.2.1 hr m hm.2, h1]

theorem alone_free {E : Env} (h : Alone E) : ∀ (xs : List Node) (w w' : World), free E w xs = .ok w' → w'.refs = w.refs := by
  intro xs
  induction xs with
  | nil => intro w w' hf; cases hf; rfl
  | cons x xs ih =>
    intro w w' hf
    rw [free] at hf
    split at hf
    · exact ih _ _ hf
    · split at hf
      · cases hf
      · rw [ih _ _ hf]; simp [cleanup, alone_pass h]

theorem alone_calls {E : Env} (h : Alone E) (log : Bytes) : ∀ (cs : List Call) tx w tr, (calls E log cs tx w tr).2.2.refs = w.refs := by
  intro cs
  induction cs with
  | nil => intros; rfl
  | cons c cs ih =>
    intro tx w tr
    rw [calls, ih]
    cases c with
    | lock n =>
      simp only [call, lockRef, backendLock]
      by_cases a : E.fails (pass E w).tick = true
      · simpa [a] using alone_pass h w
      · by_cases b : ((pass E w).lock n).isSome = true
        · simpa [a, b, ELOCKED] using alone_pass h w
        · simpa [a, b] using alone_pass h w
    | setTarget => exact alone_pass h w
    | setSymbolic => exact alone_pass h w
    | remove => exact alone_pass h w
    | setReflog => exact alone_pass h w

/-- C93: when nobody else does anything, and whatever fails, references that were not locked keep their values, and all references do when there is no
commit -/
theorem C93_nothing_else {E : Env} (hE : Fair E.move) (h : Alone E) (log : Bytes) (cs : List Call) (w0 : World) (h0 : Fresh w0) (order : List Node)
    (ho : order.Perm (calls E log cs [] w0 []).2.1) :
    (∀ w3, free E (calls E log cs [] w0 []).2.2 order = .ok w3 → w3.refs = w0.refs) ∧
      ∀ e nodes w2 w3, commit E (calls E log cs [] w0 []).2.2 order = .ok (e, nodes, w2) → free E w2 nodes = .ok w3 →
        ∀ n, ¬ Spec.locked n (calls E log cs [] w0 []).1 → w3.refs n = w0.refs n := by
  have hc := alone_calls h log cs [] w0 []
  refine ⟨fun w3 hf => (alone_free h _ _ _ hf).trans hc, fun e nodes w2 w3 h1 h2 n hn => ?_⟩
  obtain ⟨tr, tx, w, k1, k2⟩ := calls_inv hE log cs [] w0 [] (fresh_inv h0)
  rw [k1] at hn ho h1 hc
  rw [alone_free h _ _ _ h2, alone_commit h _ _ _ _ _ h1 n, hc]
  intro hm
  exact hn ((k2.locked n).1 ((ho.map _).mem_iff.1 hm))

/-! ## Concrete cases -/

/-- nobody else, no failures, no lines in the reflogs -/
def calm : Env := ⟨fun _ w => w, fun _ => false, fun _ => false, fun _ _ _ _ _ => none⟩

theorem calm_fair : Fair calm.move := ⟨fun _ _ _ _ => rfl, fun _ _ _ => Iff.rfl⟩

/-- a repository with two references -/
def repo : World := ⟨fun n => if n = b!"refs/a" then some (.oid [1]) else if n = b!"refs/b" then some (.oid [2]) else none, fun _ => [], fun _ => none,
  fun _ => [], 0⟩

theorem repo_fresh : Fresh repo := ⟨fun _ => (fun h => nomatch h), fun _ => rfl⟩

/-- run calls, commit twice or not -/
def demo (E : Env) (cs : List Call) (n : Name) : Option (Int × Option Val) :=
  match calls E [] cs [] repo [] with
  | (_, tx, w) => match commit E w tx with
    | .ok (e, _, w) => some (e, w.refs n)
    | _ => none

/-- the hypotheses are met: two references are changed in one transaction -/
example : demo calm [.lock b!"refs/a", .lock b!"refs/b", .setTarget b!"refs/a" [7] none none, .remove b!"refs/b"] b!"refs/a" = some (0, some (.oid [7])) ∧
    demo calm [.lock b!"refs/a", .lock b!"refs/b", .setTarget b!"refs/a" [7] none none, .remove b!"refs/b"] b!"refs/b" = some (0, none) := by
  decide +kernel

/-- a removal is not taken back by a value given later: the reference is deleted -/
theorem C93_removal_sticks : demo calm [.lock b!"refs/a", .remove b!"refs/a", .setTarget b!"refs/a" [7] none none] b!"refs/a" = some (0, none) := by
  decide +kernel

/-- a transaction is not all or nothing: when the second reference cannot be written, the first has been -/
theorem C93_not_atomic : demo { calm with fails := fun t => t = 10 } [.lock b!"refs/a", .lock b!"refs/b", .setTarget b!"refs/a" [7] none none,
    .setTarget b!"refs/b" [8] none none] b!"refs/a" = some (-1, some (.oid [7])) ∧
  demo { calm with fails := fun t => t = 10 } [.lock b!"refs/a", .lock b!"refs/b", .setTarget b!"refs/a" [7] none none,
    .setTarget b!"refs/b" [8] none none] b!"refs/b" = some (-1, some (.oid [2])) := by
  decide +kernel

/-- the reflog that is replaced is the one named in the reflog, which need not be locked -/
theorem C93_other_reflog : (match calls calm [] [.lock b!"refs/a", .setReflog b!"refs/a" b!"refs/b" [[1]]] [] repo [] with
  | (_, tx, w) => match commit calm w tx with
    | .ok (_, _, w) => (w.logs b!"refs/a", w.logs b!"refs/b")
    | _ => ([], [])) = ([], [[1]]) := by
  decide +kernel

/-- committing again uses locks that were freed -/
theorem C93_commit_twice : (match calls calm [] [.lock b!"refs/a"] [] repo [] with
  | (_, tx, w) => match commit calm w tx with
    | .ok (_, tx, w) => match commit calm w tx with | .ub => true | _ => false
    | _ => false) = true := by
  decide +kernel

end Verif.RefTx
