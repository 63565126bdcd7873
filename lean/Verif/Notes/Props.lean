import Verif.Notes.Lemmas5
/-! # C65, C66: notes of objects -/
namespace Verif.Notes
open Spec IndexTree
open IndexTree.Spec (Collisionless trees conv)

/-! ## C65 -/

theorem noteWrite_grows {nv : NEnv} {s s' : Repo} {es : List Tree.Entry} {t note : Bytes} {ow : Bool} {r : Res (Bytes × Bytes)} (h : noteWrite nv s es t note ow = (s', r)) :
    (∃ ext, s'.trees = s.trees ++ ext) ∧ (∃ ext, s'.blobs = s.blobs ++ ext) := by
  unfold noteWrite at h
  dsimp only at h
  cases hm : manip (envFor nv (s.blobs ++ [(nv.blobId (cstr note), cstr note)])) (.insert ow (nv.blobId (cstr note))) s.trees t es with
  | mk odb r0 =>
    rw [hm] at h
    obtain ⟨e, he⟩ := manip_grows hm
    cases r0 <;> cases h <;> exact ⟨⟨e, he⟩, ⟨_, rfl⟩⟩

theorem commitCreate_grows {nv : NEnv} {s s' : Repo} {p : Option Bytes} {oid note : Bytes} {ow : Bool} {r : Res (Bytes × Bytes)} (h : commitCreate nv s p oid note ow = (s', r)) :
    (∃ ext, s'.trees = s.trees ++ ext) ∧ (∃ ext, s'.blobs = s.blobs ++ ext) := by
  unfold commitCreate at h
  cases p with
  | none => exact noteWrite_grows h
  | some tree =>
    dsimp only at h
    split at h
    · cases h; exact ⟨⟨[], by simp⟩, ⟨[], by simp⟩⟩
    · cases h; exact ⟨⟨[], by simp⟩, ⟨[], by simp⟩⟩
    · exact noteWrite_grows h

theorem commitRemove_grows {nv : NEnv} {s s' : Repo} {tree oid : Bytes} {r : Res Bytes} (h : commitRemove nv s tree oid = (s', r)) :
    (∃ ext, s'.trees = s.trees ++ ext) ∧ (∃ ext, s'.blobs = s.blobs ++ ext) := by
  unfold commitRemove at h
  split at h
  · cases h; exact ⟨⟨[], by simp⟩, ⟨[], by simp⟩⟩
  · cases h; exact ⟨⟨[], by simp⟩, ⟨[], by simp⟩⟩
  · next es _ =>
    cases hm : manip (envFor nv s.blobs) .remove s.trees (target oid) es with
    | mk odb r0 =>
      rw [hm] at h
      obtain ⟨e, he⟩ := manip_grows hm
      cases r0 <;> cases h <;> exact ⟨⟨e, he⟩, ⟨[], by simp⟩⟩

theorem call_grows (nv : NEnv) (s : Repo) (op : Op) : (∃ ext, (call nv s op).1.trees = s.trees ++ ext) ∧ (∃ ext, (call nv s op).1.blobs = s.blobs ++ ext) := by
  have nothing : (∃ ext, s.trees = s.trees ++ ext) ∧ (∃ ext, s.blobs = s.blobs ++ ext) := ⟨⟨[], by simp⟩, ⟨[], by simp⟩⟩
  cases op with
  | create oid note ow =>
    unfold call create
    dsimp only
    cases h : commitCreate nv s s.ref.tree oid note ow with
    | mk s1 r => have hg := commitCreate_grows h; cases r <;> exact hg
  | remove oid =>
    unfold call remove
    dsimp only
    cases hr : s.ref with
    | missing => exact nothing
    | other => exact nothing
    | commit tree =>
      dsimp only
      cases h : commitRemove nv s tree oid with
      | mk s1 r => have hg := commitRemove_grows h; cases r <;> exact hg
  | read oid =>
    unfold call
    dsimp only
    cases read s oid <;> exact nothing

theorem callAll_grows (nv : NEnv) (ops : List Op) : ∀ (s : Repo), (∃ ext, (callAll nv s ops).1.trees = s.trees ++ ext) ∧ (∃ ext, (callAll nv s ops).1.blobs = s.blobs ++ ext) := by
  induction ops with
  | nil => intro s; exact ⟨⟨[], by simp [callAll]⟩, ⟨[], by simp [callAll]⟩⟩
  | cons op ops ih =>
    intro s
    obtain ⟨⟨a, ha⟩, b, hb⟩ := ih (call nv s op).1
    obtain ⟨⟨c, hc⟩, d, hd⟩ := call_grows nv s op
    exact ⟨⟨c ++ a, by rw [callAll]; dsimp only; rw [ha, hc, List.append_assoc]⟩, ⟨d ++ b, by rw [callAll]; dsimp only; rw [hb, hd, List.append_assoc]⟩⟩

/-- **C65.** The notes of a repository are a map from objects to texts: from a tree of notes as git writes it (flat, fanned out or mixed, perhaps with other files in it) or from no notes
at all, every sequence of calls of `git_note_create`, `git_note_remove` and `git_note_read` answers as the map does, error codes included, and leaves the notes that the map has; and it
leaves a tree of notes again. (As long as no two different objects get the same id, and no directory gets 2^30 entries.) -/
theorem C65_notes_are_a_map {n : NEnv} (hn : EnvOk n) {pure : Prop} (ops : List Op) : ∀ {k : Nat} {s : Repo} {m : Map}, k + ops.length < 2 ^ 30 → Fit pure k s → Shows s m →
    (∀ op ∈ ops, op.oid.length = 20) → Collisionless (callAll n s ops).1.trees → Collisionless (callAll n s ops).1.blobs →
    (callAll n s ops).2 = (applyAll m ops).2 ∧ Shows (callAll n s ops).1 (applyAll m ops).1 ∧ Fit pure (k + ops.length) (callAll n s ops).1 := by
  induction ops with
  | nil => intro k s m _ hf hm _ _ _; exact ⟨rfl, hm, hf⟩
  | cons op ops ih =>
    intro k s m hk hf hm ho hc1 hc2
    rw [callAll] at hc1 hc2
    dsimp only at hc1 hc2
    obtain ⟨⟨e1, he1⟩, e2, he2⟩ := callAll_grows n ops (call n s op).1
    have hs := call_spec hn (by simp only [List.length_cons] at hk; omega) hf hm (ho op (by simp)) (show call n s op = ((call n s op).1, (call n s op).2) from rfl)
      (by rw [he1] at hc1; exact Collisionless.left hc1) (by rw [he2] at hc2; exact Collisionless.left hc2)
    obtain ⟨h1, h2, h3⟩ := hs
    obtain ⟨g1, g2, g3⟩ := ih (k := k + 1) (by simp only [List.length_cons] at hk; omega) h3 h2 (fun x hx => ho x (by simp [hx])) hc1 hc2
    rw [callAll, applyAll]
    dsimp only
    refine ⟨by rw [h1, g1], g2, ?_⟩
    have : k + (op :: ops).length = k + 1 + ops.length := by simp only [List.length_cons]; omega
    rw [this]
    exact g3

theorem at_unique {pure : Prop} {k n : Nat} {odb blobs : Odb} {es : List Tree.Entry} (h : NoteTree pure k odb blobs n es) : ∀ {u i j : Bytes}, (∀ c ∈ u, Digit c) → u.length = n →
    At odb es u i → At odb es u j → i = j := by
  induction h with
  | @mk n es h1 h2 h3 h4 h5 h6 h7 h8 h9 ih =>
    intro u i j hu hl hi hj
    have clash : ∀ {e d : Tree.Entry} {a b : UInt8} {t : Bytes}, e ∈ es → e.name = u → d ∈ es → d.isTree = true → d.name = [a, b] → u = a :: b :: t → False := by
      intro e d a b t he hen hd hdt hdn hut
      refine h8 d hd hdt (by rw [hdn]; rfl) e he (by rw [hen, hl]) (by rw [hen]; exact any_of_digit hu) ?_
      rw [hdn, hen, hut]; exact ⟨t, rfl⟩
    generalize huu : u = u' at hj
    cases hi with
    | @here _ e he het =>
      cases hj with
      | @here _ e2 he2 het2 => rw [nodup_inj h1 he he2 huu]
      | @inside _ sub2 d a b t _ hd hdt hdn hs hin => exact (clash he rfl hd hdt hdn huu).elim
    | @inside _ sub d a b t _ hd hdt hdn hs hin =>
      cases hj with
      | @here _ e2 he2 het2 => exact (clash he2 huu.symm hd hdt hdn rfl).elim
      | @inside _ sub2 d2 a2 b2 t2 _ hd2 hdt2 hdn2 hs2 hin2 =>
        cases huu
        have := nodup_inj h1 hd hd2 (by rw [hdn, hdn2])
        subst this
        rw [hs] at hs2; cases hs2
        have hdig : ∀ c ∈ d.name, AnyDigit c := by
          rw [hdn]
          refine any_of_digit (fun c hc => hu c ?_)
          simp only [List.mem_cons, List.not_mem_nil, or_false] at hc
          rcases hc with rfl | rfl <;> simp
        exact ih d hd hdt (by rw [hdn]; rfl) hdig sub hs (fun c hc => hu c (by simp [hc])) (by simp only [List.length_cons] at hl; omega) hin hin2

/-- **C65.** Every repository with a tree of notes has a map: what `git_note_read` gives. -/
theorem C65_has_a_map {pure : Prop} {k : Nat} {s : Repo} (hf : Fit pure k s) : ∃ m, Shows s m := by
  rcases hf with hf | ⟨tree, es, hc, hl, ht⟩
  · refine ⟨fun _ => none, fun oid _ text => ?_⟩
    constructor
    · intro h; cases h
    · rintro ⟨_, _, _, _, h, _⟩; rw [hf] at h; cases h
  · refine ⟨fun oid => match read s oid with | .ok (_, text) => some text | _ => none, fun oid ho text => ?_⟩
    have huniq : ∀ i j, At s.trees es (Oid.Spec.hex oid) i → At s.trees es (Oid.Spec.hex oid) j → i = j := fun i j hi hj => at_unique ht (hex_digit oid) (hex_len ho).1 hi hj
    unfold read commitRead
    rw [hc]
    dsimp only
    rw [hl]
    dsimp only
    rw [target_eq]
    unfold noteLookup
    rcases findSubtree_spec ht (hex_digit oid) (hex_len ho).1 (hex_len ho).2 with ⟨sub, rest, i, b, h1, h2, h3, h4⟩ | ⟨h1, h2⟩
    · rw [h1]; dsimp only; rw [h2]; dsimp only; rw [h4]; dsimp only
      constructor
      · intro h; cases h; exact ⟨tree, es, i, b, rfl, hl, h3, h4, rfl⟩
      · rintro ⟨t', es', j, b', hr, hl', hj, hb', rfl⟩
        cases hr
        rw [hl] at hl'; cases hl'
        rw [huniq i j h3 hj, hb'] at h4
        cases h4
        rfl
    · rw [h1]; dsimp only
      constructor
      · intro h; cases h
      · rintro ⟨t', es', j, b', hr, hl', hj, _⟩
        cases hr
        rw [hl] at hl'; cases hl'
        exact absurd hj (h2 j)

/-- **C65 (what is not so).** If the notes reference is there but does not lead to a commit that can be read, `git_note_create` does not fail: it writes a new first commit whose only
note is the new one, and lets the reference lead to that. Whatever notes there were are not reachable any more. -/
theorem C65_broken_reference_is_replaced {n : NEnv} (hn : EnvOk n) {s : Repo} (hr : s.ref = .other) {oid text : Bytes} {ow : Bool} (ho : oid.length = 20)
    (hc1 : Collisionless (call n s (.create oid text ow)).1.trees) (hc2 : Collisionless (call n s (.create oid text ow)).1.blobs) :
    (call n s (.create oid text ow)).2 = .ok [] ∧ Shows (call n s (.create oid text ow)).1 (fun x => if x = oid then some (textOf text) else none) := by
  have key : ∀ r : Ref, call n s (.create oid text ow) = match noteWrite n s [] (target oid) text ow with
      | (s, .ok (tree, _)) => ({ s with ref := .commit tree }, .ok [])
      | (s, .err x) => (s, .err x)
      | (s, .ub) => (s, .ub) := by
    intro r
    unfold call create commitCreate
    rw [hr]
    simp only [Ref.tree]
    cases noteWrite n s [] (target oid) text ow with
    | mk s1 r1 => cases r1 <;> rfl
  rw [key .other] at hc1 hc2 ⊢
  cases hw : noteWrite n s [] (target oid) text ow with
  | mk s1 r1 =>
    rw [hw] at hc1 hc2
    have hs1 : Collisionless s1.trees ∧ Collisionless s1.blobs := by cases r1 <;> exact ⟨hc1, hc2⟩
    have hT : Tells s.trees s.blobs [] (fun _ => none) := by
      intro o _ t
      constructor
      · intro h; cases h
      · rintro ⟨_, _, h, _⟩; exact (at_nil h).elim
    obtain ⟨g1, g2, g3, g4⟩ := noteWrite_spec hn (k := 0) (pure := True) (by decide) (nt_nil (k := 0)) hT ho hw hs1.1 hs1.2
    rcases g4 with ⟨a1, _⟩ | ⟨a1, tree, es', id, rfl, b1, b2, b3⟩
    · cases a1
    · exact ⟨rfl, (shows_commit (s := ⟨s1.trees, s1.blobs, .commit tree⟩) rfl b1).mpr b3⟩

/-- **C65.** No call takes an object away: what can be read by its id, trees and notes, is still there. For every repository. -/
theorem C65_objects_stay (n : NEnv) (ops : List Op) (s : Repo) : (∃ ext, (callAll n s ops).1.trees = s.trees ++ ext) ∧ (∃ ext, (callAll n s ops).1.blobs = s.blobs ++ ext) :=
  callAll_grows n ops s

/-! ## C66 -/

theorem digit_hexVal : ∀ c : UInt8, Digit c → ∃ v, Oid.Spec.hexVal c = some v ∧ v < 16 ∧ Oid.Spec.digit v = c := by
  intro c
  have : ∀ c : UInt8, Digit c → (Oid.Spec.hexVal c).isSome = true ∧ (Oid.Spec.hexVal c).getD 0 < 16 ∧ Oid.Spec.digit ((Oid.Spec.hexVal c).getD 0) = c := by unfold Digit; decide +kernel
  intro h
  obtain ⟨h1, h2, h3⟩ := this c h
  obtain ⟨v, hv⟩ := Option.isSome_iff_exists.mp h1
  rw [hv] at h2 h3
  exact ⟨v, hv, h2, h3⟩

theorem pack_nibbles : ∀ a b : UInt8, a < 16 → b < 16 → (a * 16 + b) / 16 = a ∧ (a * 16 + b) % 16 = b := by decide +kernel

theorem hex_of_digits : ∀ (n : Nat) {u : Bytes}, u.length = 2 * n → (∀ c ∈ u, Digit c) → ∃ o : Bytes, o.length = n ∧ Oid.Spec.hex o = u := by
  intro n
  induction n with
  | zero => intro u hl _; exact ⟨[], rfl, (List.length_eq_zero_iff.mp hl).symm⟩
  | succ n ih =>
    intro u hl hd
    rcases u with _ | ⟨a, _ | ⟨b, u⟩⟩
    · simp at hl
    · simp only [List.length_cons, List.length_nil] at hl; omega
    · obtain ⟨o, ho1, ho2⟩ := ih (u := u) (by simp only [List.length_cons] at hl; omega) (fun c hc => hd c (by simp [hc]))
      obtain ⟨x, _, hx, hx'⟩ := digit_hexVal a (hd a (by simp))
      obtain ⟨y, _, hy, hy'⟩ := digit_hexVal b (hd b (by simp))
      obtain ⟨p1, p2⟩ := pack_nibbles x y hx hy
      refine ⟨(x * 16 + y) :: o, by simp [ho1], ?_⟩
      have : Oid.Spec.hex ((x * 16 + y) :: o) = Oid.Spec.digit ((x * 16 + y) / 16) :: Oid.Spec.digit ((x * 16 + y) % 16) :: Oid.Spec.hex o := rfl
      rw [this, p1, p2, hx', hy', ho2]

theorem digit_lt : ∀ a b : UInt8, a < 16 → b < 16 → Oid.Spec.digit a < Oid.Spec.digit b → a < b := by decide +kernel

theorem digit_inj : ∀ a b : UInt8, a < 16 → b < 16 → Oid.Spec.digit a = Oid.Spec.digit b → a = b := by decide +kernel

theorem half_lt (a : UInt8) : a / 16 < 16 ∧ a % 16 < 16 := by
  have : ∀ a : UInt8, a / 16 < 16 ∧ a % 16 < 16 := by decide +kernel
  exact this a

theorem byte_lt {a b : UInt8} (h : a / 16 < b / 16 ∨ (a / 16 = b / 16 ∧ a % 16 < b % 16)) : a < b := by
  simp only [UInt8.lt_iff_toNat_lt, UInt8.toNat_div, UInt8.toNat_mod, ← UInt8.toNat_inj, show (16 : UInt8).toNat = 16 from rfl] at *
  omega

theorem byte_eq {a b : UInt8} (h1 : a / 16 = b / 16) (h2 : a % 16 = b % 16) : a = b := by
  simp only [UInt8.toNat_div, UInt8.toNat_mod, ← UInt8.toNat_inj, show (16 : UInt8).toNat = 16 from rfl] at *
  omega

theorem hex_lt : ∀ {a b : Bytes}, Oid.Spec.hex a < Oid.Spec.hex b → a < b := by
  intro a
  induction a with
  | nil =>
    intro b h
    cases b with
    | nil => exact absurd h (List.lt_irrefl _)
    | cons y b => exact List.nil_lt_cons y b
  | cons x a ih =>
    intro b h
    cases b with
    | nil => exact absurd h (List.not_lt_nil _)
    | cons y b =>
      have e1 : ∀ (x : UInt8) a, Oid.Spec.hex (x :: a) = Oid.Spec.digit (x / 16) :: Oid.Spec.digit (x % 16) :: Oid.Spec.hex a := fun _ _ => rfl
      rw [e1, e1] at h
      simp only [List.cons_lt_cons_iff] at h ⊢
      rcases h with h | ⟨h, h' | ⟨h', h''⟩⟩
      · exact Or.inl (byte_lt (Or.inl (digit_lt _ _ (half_lt x).1 (half_lt y).1 h)))
      · exact Or.inl (byte_lt (Or.inr ⟨digit_inj _ _ (half_lt x).1 (half_lt y).1 h, digit_lt _ _ (half_lt x).2 (half_lt y).2 h'⟩))
      · exact Or.inr ⟨byte_eq (digit_inj _ _ (half_lt x).1 (half_lt y).1 h) (digit_inj _ _ (half_lt x).2 (half_lt y).2 h'), ih h''⟩

theorem foreach_spec {odb : Odb} {es : List Tree.Entry} {k : Nat} {blobs : Odb} (h : NoteTree True k odb blobs 40 es) : ∀ {out : List TreeDiff.Item}, (∀ x ∈ out, ∃ u, Way odb es x.path u x.id) →
    out.Pairwise (fun a b => a.path < b.path) → ∀ prev, ∃ L, foreach prev out = .ok L ∧ (∀ i o, (i, o) ∈ L ↔ o.length = 20 ∧ ∃ x ∈ out, x.id = i ∧ Way odb es x.path (Oid.Spec.hex o) i) ∧
      L.Pairwise (fun a b => a.2 < b.2) := by
  intro out
  induction out with
  | nil => intro _ _ prev; exact ⟨[], rfl, by simp, .nil⟩
  | cons x xs ih =>
    intro hw hs prev
    rw [List.pairwise_cons] at hs
    obtain ⟨u, hu⟩ := hw x (by simp)
    obtain ⟨g1, g2, g3⟩ := way_strip h (by decide) hu
    obtain ⟨o, ho, rfl⟩ := hex_of_digits 20 (u := u) g2 g3
    have hp : processPath prev x.path = .ok o := by
      unfold processPath
      rw [g1]
      dsimp only
      rw [if_neg (by rw [g2]; simp)]
      obtain ⟨t, ht1, _, ht3⟩ := Oid.C02_roundtrip o (by intro hx; rw [hx] at ho; cases ho) []
      rw [Oid.C02_fmt] at ht1
      cases ht1
      rw [ho] at ht3
      exact ht3
    obtain ⟨L, l1, l2, l3⟩ := ih (fun y hy => hw y (by simp [hy])) hs.2 o
    refine ⟨(x.id, o) :: L, ?_, ?_, ?_⟩
    · rw [foreach, hp]; dsimp only; rw [l1]
    · intro i o'
      rw [List.mem_cons, l2]
      constructor
      · rintro (h' | ⟨h1, y, hy, h2⟩)
        · cases h'; exact ⟨ho, x, by simp, rfl, hu⟩
        · exact ⟨h1, y, by simp [hy], h2⟩
      · rintro ⟨h1, y, hy, h2, h3⟩
        rcases List.mem_cons.mp hy with rfl | hy
        · left
          obtain ⟨k1, _, _⟩ := way_strip h (by decide) h3
          rw [g1] at k1
          rw [h2, hex_inj (Option.some.inj k1)]
        · exact Or.inr ⟨h1, y, hy, h2, h3⟩
    · refine List.pairwise_cons.mpr ⟨?_, l3⟩
      rintro ⟨i, o'⟩ hm
      obtain ⟨_, y, hy, h2, h3⟩ := (l2 i o').mp hm
      exact hex_lt (way_lt h (by decide) hu h3 (hs.1 y hy))

/-- **C66.** Going through the notes (`git_note_foreach`, or an iterator and `git_note_next`) gives every note exactly once, with the id of its object, in the order of those ids, and
nothing else. For every tree of notes as git writes it (flat, fanned out to whatever depth, or mixed) that has nothing but notes in it; whatever was in the variable for the id before. -/
theorem C66_foreach {k : Nat} {odb blobs : Odb} {es : List Tree.Entry} (h : NoteTree True k odb blobs 40 es) :
    ∃ out, TreeDiff.Spec.Yields (trees odb) (TreeDiff.initCommon iterOpts) (TreeDiff.newIter (TreeDiff.initCommon iterOpts) (some (es.map conv))) out ∧
      ∀ prev, ∃ L, foreach prev out = .ok L ∧ (∀ i o, (i, o) ∈ L ↔ o.length = 20 ∧ At odb es (Oid.Spec.hex o) i) ∧ L.Pairwise (fun a b => a.2 < b.2) := by
  obtain ⟨out, o1, o2, o3⟩ := TreeDiff.C55_tree_iterator (trees odb) iterOpts (some (es.map conv)) (fun es' he => by cases he; exact good_of h) (by simp [iterOpts])
    (by intro q hq; simp [iterOpts] at hq)
  refine ⟨out, o1, fun prev => ?_⟩
  have hin : ∀ p : Bytes, TreeDiff.Spec.InRange iterOpts.start iterOpts.stop p := fun p => ⟨fun s hs => (by cases hs), fun s hs => (by cases hs)⟩
  have hway : ∀ x ∈ out, ∃ u, Way odb es x.path u x.id := by
    rintro ⟨p, mode, id⟩ hx
    obtain ⟨es', e, he, hat, _, rfl, _, _, _, ht⟩ := (o3 p mode id).mp hx
    cases he
    refine way_of_path h hat ?_
    by_contra hc
    rw [Bool.not_eq_false] at hc
    rcases ht hc with h | h <;> cases h
  obtain ⟨L, l1, l2, l3⟩ := foreach_spec h hway o2 prev
  refine ⟨L, l1, fun i o => ?_, l3⟩
  rw [l2, ← way_iff_at]
  refine and_congr_right fun ho => ⟨?_, ?_⟩
  · rintro ⟨x, _, _, hx⟩; exact ⟨x.path, hx⟩
  · rintro ⟨p, hp⟩
    obtain ⟨d, k1, k2, k3⟩ := path_of_way h hp
    exact ⟨⟨p, d.mode, d.id⟩, (o3 _ _ _).mpr ⟨_, d, rfl, k1, rfl, rfl, by simp [iterOpts], Or.inl (hin p), Or.inl rfl, by rw [k2]; simp⟩, k3, hp⟩

/-- **C66.** The notes that are gone through are those that can be read: the objects of the list are those that have a note in the map of C65. -/
theorem C66_foreach_is_the_map {k : Nat} {s : Repo} {m : Map} {tree : Bytes} {es : List Tree.Entry} (hr : s.ref = .commit tree) (hl : lookupTree s.trees tree = .ok es)
    (h : NoteTree True k s.trees s.blobs 40 es) (hm : Shows s m) :
    ∃ out, TreeDiff.Spec.Yields (trees s.trees) (TreeDiff.initCommon iterOpts) (TreeDiff.newIter (TreeDiff.initCommon iterOpts) (some (es.map conv))) out ∧
      ∀ prev, ∃ L, foreach prev out = .ok L ∧ L.Pairwise (fun a b => a.2 < b.2) ∧ ∀ o : Bytes, o.length = 20 → ((∃ i, (i, o) ∈ L) ↔ (m o).isSome = true) := by
  obtain ⟨out, o1, o2⟩ := C66_foreach h
  refine ⟨out, o1, fun prev => ?_⟩
  obtain ⟨L, l1, l2, l3⟩ := o2 prev
  refine ⟨L, l1, l3, fun o ho => ?_⟩
  rw [← there_iff h ((shows_commit hr hl).mp hm) ho]
  exact exists_congr fun i => by rw [l2]; exact and_iff_right ho

/-! ## Examples -/

/-- ids for the examples: 20 bytes, not null -/
def exHash (tag : UInt8) (b : Bytes) : Bytes :=
  tag :: (List.range 19).map fun i => UInt8.ofNat ((b.foldl (fun h c => (h * 31 + c.toNat) % 2 ^ 64) 17) / 256 ^ (i % 8))
def exId (b : Bytes) : Bytes := exHash 7 b
def exEnv : NEnv := ⟨⟨fun n => n ≠ b!".git", fun p => p ≠ b!".git", fun n => n.length, exId, true, fun _ => true⟩, exHash 9⟩

theorem exEnvOk : EnvOk exEnv := by
  have hh : ∀ (t : UInt8) b, (exHash t b).length = 20 ∧ t ∈ exHash t b := fun t b => ⟨by simp [exHash], List.mem_cons_self ..⟩
  refine ⟨fun b => ⟨(hh 7 b).1, 7, (hh 7 b).2, by decide⟩, fun b => ⟨(hh 9 b).1, 9, (hh 9 b).2, by decide⟩, fun t ht hd => ?_⟩
  show decide (t ≠ b!".git") = true
  rw [decide_eq_true_eq]
  rintro rfl
  have := hd c!"." (by decide)
  revert this; unfold Digit; decide

/-- ids that begin with a byte -/
def exO (a b : UInt8) : Bytes := a :: b :: List.replicate 18 5

/-- a tree that is fanned out at 0x11, with a file that is not a note in it -/
def exSub : Bytes := b!"100644 " ++ (Oid.Spec.hex (exO 0x11 0x22)).drop 2 ++ [0] ++ exEnv.blobId b!"old"
def exTop : Bytes := b!"40000 11" ++ [0] ++ exId exSub ++ b!"100644 README" ++ [0] ++ exEnv.blobId b!"old"
def exRepo : Repo := ⟨[(exId exSub, exSub), (exId exTop, exTop)], [(exEnv.blobId b!"old", b!"old")], .commit (exId exTop)⟩

def exSubEs : List Tree.Entry := [⟨0o100644, (Oid.Spec.hex (exO 0x11 0x22)).drop 2, exEnv.blobId b!"old"⟩]
def exTopEs : List Tree.Entry := [⟨0o040000, b!"11", exId exSub⟩, ⟨0o100644, b!"README", exEnv.blobId b!"old"⟩]

theorem exSub_look : lookupTree exRepo.trees (exId exSub) = .ok exSubEs := by decide +kernel
theorem exTop_look : lookupTree exRepo.trees (exId exTop) = .ok exTopEs := by decide +kernel

theorem exSub_tree (pure : Prop) : NoteTree pure 2 exRepo.trees exRepo.blobs 38 exSubEs := by
  have hall : ∀ e ∈ exSubEs, e.attr < 65536 ∧ e.name ≠ [] ∧ (0 : UInt8) ∉ e.name ∧ e.name.length ≤ 65535 ∧ c!"/" ∉ e.name ∧ e.oid.length = 20 ∧ e.isTree = false ∧ e.name.length = 38 ∧
      (readObj exRepo.blobs e.oid).isSome = true ∧ ∀ c ∈ e.name, (c!"0" ≤ c ∧ c ≤ c!"9") ∨ (c!"a" ≤ c ∧ c ≤ c!"f") := by decide +kernel
  have ht : ∀ e ∈ exSubEs, e.isTree = true → False := fun e he h => by rw [(hall e he).2.2.2.2.2.2.1] at h; cases h
  refine .mk (by decide +kernel) (by decide +kernel) (by decide +kernel) ?_ ?_ (fun e he h => (ht e he h).elim) (fun e he h => (ht e he h).elim) (fun e he h => (ht e he h).elim) ?_
  · intro e he
    obtain ⟨h1, h2, h3, h4, h5, h6, _⟩ := hall e he
    exact ⟨h1, ⟨h2, h3, h4⟩, h5, h6⟩
  · intro e he _ _
    obtain ⟨_, _, _, _, _, _, h7, _, h9, _⟩ := hall e he
    exact ⟨h7, Option.isSome_iff_exists.mp h9⟩
  · intro _ e he
    obtain ⟨_, _, _, _, _, _, h7, h8, _, h10⟩ := hall e he
    exact ⟨h10, Or.inr ⟨h7, h8⟩⟩

theorem exTop_tree : NoteTree False 2 exRepo.trees exRepo.blobs 40 exTopEs := by
  have hall : ∀ e ∈ exTopEs, e.attr < 65536 ∧ e.name ≠ [] ∧ (0 : UInt8) ∉ e.name ∧ e.name.length ≤ 65535 ∧ c!"/" ∉ e.name ∧ e.oid.length = 20 ∧ e.name.length ≠ 40 ∧
      (e.isTree = true → e.oid = exId exSub) := by decide +kernel
  refine .mk (by decide +kernel) (by decide +kernel) (by decide +kernel) ?_ ?_ ?_ ?_ ?_ (fun h => h.elim)
  · intro e he
    obtain ⟨h1, h2, h3, h4, h5, h6, _⟩ := hall e he
    exact ⟨h1, ⟨h2, h3, h4⟩, h5, h6⟩
  · intro e he h _
    exact absurd h (hall e he).2.2.2.2.2.2.1
  · intro e he h _ _
    rw [(hall e he).2.2.2.2.2.2.2 h]
    exact ⟨_, exSub_look⟩
  · intro e he h _ _ sub hs
    rw [(hall e he).2.2.2.2.2.2.2 h, exSub_look] at hs
    cases hs
    exact exSub_tree False
  · intro e _ _ _ x hx hl
    exact absurd hl (hall x hx).2.2.2.2.2.2.1

/-- the hypotheses of C65 are met by a tree that is fanned out, and with another file in it -/
theorem exFit : Fit False 2 exRepo := Or.inr ⟨_, _, rfl, exTop_look, exTop_tree⟩

def exOps : List Op := [.read (exO 0x11 0x22), .create (exO 0x11 0x33) (b!"one" ++ [0] ++ b!"!") false, .create (exO 0x44 0) b!"two" false, .create (exO 0x44 0) b!"2" false, .create (exO 0x44 0) b!"2" true,
  .remove (exO 0x11 0x22), .read (exO 0x11 0x22), .read (exO 0x11 0x33), .read (exO 0x44 0), .remove (exO 0x55 0)]

example : (callAll exEnv exRepo exOps).2 = [.ok b!"old", .ok [], .ok [], .err (-4), .ok [], .ok [], .err (-3), .ok b!"one", .ok b!"2", .err (-3)] := by decide +kernel
instance (odb : Odb) : Decidable (Collisionless odb) := by unfold Collisionless; infer_instance
example : Collisionless (callAll exEnv exRepo exOps).1.trees ∧ Collisionless (callAll exEnv exRepo exOps).1.blobs := by decide +kernel
example : ∀ op ∈ exOps, op.oid.length = 20 := by decide +kernel

/-- what is under the notes reference then: the note of 0x11 in its directory, that of 0x44 at the top -/
def exNames (s : Repo) : Ref → List (Nat × Bytes)
  | .commit t => match lookupTree s.trees t with
    | .ok es => es.map fun e => (e.attr, e.name)
    | _ => []
  | _ => []
example : exNames (callAll exEnv exRepo exOps).1 (callAll exEnv exRepo exOps).1.ref = [(0o040000, b!"11"), (0o100644, Oid.Spec.hex (exO 0x44 0)), (0o100644, b!"README")] := by decide +kernel

/-- from no notes at all -/
example : (callAll exEnv ⟨[], [], .missing⟩ [.read (exO 1 2), .remove (exO 1 2), .create (exO 1 2) b!"x" false, .read (exO 1 2)]).2 = [.err (-3), .err (-3), .ok [], .ok b!"x"] := by decide +kernel

/-- a tree of notes only, for C66 -/
def exPure : Repo := (callAll exEnv ⟨[], [], .missing⟩ [.create (exO 0x44 0) b!"two" false, .create (exO 0x11 0x33) b!"one" false]).1
example : exNames exPure exPure.ref = [(0o100644, Oid.Spec.hex (exO 0x11 0x33)), (0o100644, Oid.Spec.hex (exO 0x44 0))] := by decide +kernel
theorem exPure_fit : Fit True 2 exPure := by
  obtain ⟨m, hm⟩ := C65_has_a_map (pure := True) (k := 0) (s := ⟨[], [], .missing⟩) (Or.inl rfl)
  exact (C65_notes_are_a_map exEnvOk [.create (exO 0x44 0) b!"two" false, .create (exO 0x11 0x33) b!"one" false] (k := 0) (pure := True) (by decide) (Or.inl rfl) hm (by decide +kernel)
    (by decide +kernel) (by decide +kernel)).2.2

/-- what one gets, in the order of the objects, with whatever was in the variable before -/
example : foreach [] [⟨b!"11/" ++ (Oid.Spec.hex (exO 0x11 0x33)).drop 2, 0o100644, [1]⟩, ⟨Oid.Spec.hex (exO 0x44 0), 0o100644, [2]⟩] = .ok [([1], exO 0x11 0x33), ([2], exO 0x44 0)] := by decide +kernel

/-- A file that is not a note is given as if it were one, with the object of the note before it (or whatever was in the variable, for the first one). -/
example : foreach [] [⟨b!"11/" ++ (Oid.Spec.hex (exO 0x11 0x33)).drop 2, 0o100644, [1]⟩, ⟨b!"README", 0o100644, [2]⟩] = .ok [([1], exO 0x11 0x33), ([2], exO 0x11 0x33)] ∧
    foreach [0xcc] [⟨b!"README", 0o100644, [2]⟩] = .ok [([2], [0xcc])] := by decide +kernel

/-- Capital letters: the note is gone through, but cannot be read. -/
def exUpper : Bytes := b!"100644 AB" ++ List.replicate 38 c!"0" ++ [0] ++ exEnv.blobId b!"old"
example : foreach [] [⟨b!"AB" ++ List.replicate 38 c!"0", 0o100644, [1]⟩] = .ok [([1], 0xab :: List.replicate 19 0)] ∧
    read ⟨[(exId exUpper, exUpper)], [(exEnv.blobId b!"old", b!"old")], .commit (exId exUpper)⟩ (0xab :: List.replicate 19 0) = .err (-3) := by decide +kernel

/-- A directory of the fan-out that is missing in the object database: the note is taken for absent, and another one is written beside the directory (where it is not found). -/
example : (callAll exEnv { exRepo with trees := exRepo.trees.drop 1 } [.read (exO 0x11 0x22), .create (exO 0x11 0x22) b!"new" false]).2 = [.err (-3), .ok []] ∧
    (callAll exEnv { exRepo with trees := exRepo.trees.drop 1 } [.create (exO 0x11 0x22) b!"new" false, .read (exO 0x11 0x22)]).2 = [.ok [], .err (-3)] := by decide +kernel

/-- A reference that leads to no readable commit: only the new note is there then. -/
example : (callAll exEnv { exRepo with ref := .other } [.read (exO 0x11 0x22), .remove (exO 0x11 0x22), .create (exO 0x44 0) b!"two" false, .read (exO 0x44 0), .read (exO 0x11 0x22)]).2 =
    [.err (-1), .err (-1), .ok [], .ok b!"two", .err (-3)] := by decide +kernel

end Verif.Notes
