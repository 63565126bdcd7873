import Verif.Notes.Lemmas1
import Mathlib.Data.List.Nodup
/-! # Changing one note in a tree of notes -/
namespace Verif.Notes
open Spec IndexTree
open IndexTree.Spec (Collisionless NotNull)

theorem lookup_ext {odb : Odb} {id : Bytes} {es : List Tree.Entry} (ext : Odb) (h : lookupTree odb id = .ok es) : lookupTree (odb ++ ext) id = .ok es := by
  unfold lookupTree at h ⊢
  cases hr : readObj odb id with
  | none => rw [hr] at h; cases h
  | some b => rw [hr] at h; rw [readObj_append ext hr]; exact h

theorem at_ext {odb : Odb} {es : List Tree.Entry} {t id : Bytes} (ext : Odb) (h : At odb es t id) : At (odb ++ ext) es t id := by
  induction h with
  | here h1 h2 => exact .here h1 h2
  | inside h1 h2 h3 h4 _ ih => exact .inside h1 h2 h3 (lookup_ext ext h4) ih

/-- what a tree of notes is -/
structure NT (pure : Prop) (k : Nat) (trees blobs : Odb) (n : Nat) (es : List Tree.Entry) : Prop where
  nodup : (es.map (·.name)).Nodup
  sorted : es.Pairwise (fun a b => Tree.Spec.gitKey a.attr a.name < Tree.Spec.gitKey b.attr b.name)
  size : es.length ≤ k
  ent : ∀ e ∈ es, EntOk e
  note : ∀ e ∈ es, e.name.length = n → (∀ c ∈ e.name, AnyDigit c) → e.isTree = false ∧ ∃ b, readObj blobs e.oid = some b
  dir : ∀ e ∈ es, e.isTree = true → e.name.length = 2 → (∀ c ∈ e.name, AnyDigit c) → ∃ sub, lookupTree trees e.oid = .ok sub ∧ NoteTree pure k trees blobs (n - 2) sub
  clash : ∀ e ∈ es, e.isTree = true → e.name.length = 2 → ∀ x ∈ es, x.name.length = n → (∀ c ∈ x.name, AnyDigit c) → ¬ e.name <+: x.name
  pur : pure → ∀ e ∈ es, (∀ c ∈ e.name, Digit c) ∧ ((e.isTree = true ∧ e.name.length = 2) ∨ (e.isTree = false ∧ e.name.length = n))

theorem nt_iff {pure : Prop} {k : Nat} {trees blobs : Odb} {n : Nat} {es : List Tree.Entry} : NoteTree pure k trees blobs n es ↔ NT pure k trees blobs n es := by
  constructor
  · intro h
    cases h with
    | mk h1 h2 h3 h4 h5 h6 h7 h8 h9 =>
      exact ⟨h1, h2, h3, h4, h5, fun e he h h' h'' => by
        obtain ⟨sub, hs⟩ := h6 e he h h' h''
        exact ⟨sub, hs, h7 e he h h' h'' sub hs⟩, h8, h9⟩
  · intro h
    refine .mk h.nodup h.sorted h.size h.ent h.note (fun e he h1 h2 h3 => ?_) (fun e he h1 h2 h3 sub hs => ?_) h.clash h.pur
    · obtain ⟨sub, hs, _⟩ := h.dir e he h1 h2 h3
      exact ⟨sub, hs⟩
    · obtain ⟨sub', hs', ht⟩ := h.dir e he h1 h2 h3
      rw [hs] at hs'; cases hs'
      exact ht

theorem nt_ext {pure : Prop} {k k' : Nat} (hk : k ≤ k') {trees blobs : Odb} (ext ext2 : Odb) {n : Nat} {es : List Tree.Entry} (h : NoteTree pure k trees blobs n es) :
    NoteTree pure k' (trees ++ ext) (blobs ++ ext2) n es := by
  induction h with
  | mk h1 h2 h3 h4 h5 h6 h7 h8 h9 ih =>
    refine .mk h1 h2 (by omega) h4 (fun e he ha hb => ?_) (fun e he ha hb hc => ?_) (fun e he ha hb hc sub hs => ?_) h8 h9
    · obtain ⟨g1, b, g2⟩ := h5 e he ha hb
      exact ⟨g1, b, readObj_append ext2 g2⟩
    · obtain ⟨sub, hs⟩ := h6 e he ha hb hc
      exact ⟨sub, lookup_ext ext hs⟩
    · obtain ⟨sub', hs'⟩ := h6 e he ha hb hc
      rw [lookup_ext ext hs'] at hs; cases hs
      exact ih e he ha hb hc sub hs'

theorem at_back {pure : Prop} {k : Nat} {trees blobs : Odb} {ext : Odb} {n : Nat} {es : List Tree.Entry} (h : NoteTree pure k trees blobs n es) :
    ∀ {u x : Bytes}, (∀ c ∈ u, Digit c) → At (trees ++ ext) es u x → At trees es u x := by
  induction h with
  | mk h1 h2 h3 h4 h5 h6 h7 h8 h9 ih =>
    intro u x hu hat
    cases hat with
    | here a b => exact .here a b
    | @inside _ sub e a b t id g1 g2 g3 g4 g5 =>
      have hd : ∀ c ∈ e.name, AnyDigit c := by
        intro c hc; rw [g3] at hc
        exact digit_any c (hu c (by simp only [List.mem_cons, List.not_mem_nil, or_false] at hc ⊢; rcases hc with h | h <;> simp [h]))
      obtain ⟨sub', hs'⟩ := h6 e g1 g2 (by rw [g3]; rfl) hd
      have := lookup_ext ext hs'
      rw [g4] at this; cases this
      exact .inside g1 g2 g3 hs' (ih e g1 g2 (by rw [g3]; rfl) hd sub hs' (fun c hc => hu c (by simp [hc])) g5)

/-- an entry that is put into a directory of notes -/
structure NewEnt (pure : Prop) (k : Nat) (trees blobs : Odb) (n : Nat) (es : List Tree.Entry) (e0 : Tree.Entry) : Prop where
  note : e0.name.length = n → (∀ c ∈ e0.name, AnyDigit c) → e0.isTree = false ∧ ∃ b, readObj blobs e0.oid = some b
  dir : e0.isTree = true → e0.name.length = 2 → (∀ c ∈ e0.name, AnyDigit c) → ∃ sub, lookupTree trees e0.oid = .ok sub ∧ NoteTree pure k trees blobs (n - 2) sub
  clash1 : e0.isTree = true → e0.name.length = 2 → ∀ x ∈ es, x.name.length = n → (∀ c ∈ x.name, AnyDigit c) → ¬ e0.name <+: x.name
  clash2 : e0.name.length = n → (∀ c ∈ e0.name, AnyDigit c) → ∀ e ∈ es, e.name ≠ e0.name → e.isTree = true → e.name.length = 2 → ¬ e.name <+: e0.name
  pur : pure → (∀ c ∈ e0.name, Digit c) ∧ ((e0.isTree = true ∧ e0.name.length = 2) ∨ (e0.isTree = false ∧ e0.name.length = n))

theorem nt_written {pure : Prop} {k : Nat} {odb odb' blobs : Odb} {n : Nat} {es es' : List Tree.Entry} {name id : Bytes} {val : Option (Nat × Bytes)}
    (h : NoteTree pure k odb blobs n es) (w : Written odb odb' es name val id es')
    (hnew : ∀ m i, val = some (m, i) → NewEnt pure (k + 1) odb' blobs n es ⟨m, name, i⟩) : NoteTree pure (k + 1) odb' blobs n es' := by
  rw [nt_iff] at h ⊢
  obtain ⟨ext, hext⟩ := w.grows
  have hcase : ∀ e ∈ es', (e ∈ es ∧ e.name ≠ name) ∨ (e.name = name ∧ NewEnt pure (k + 1) odb' blobs n es e) := by
    intro e he
    rcases (w.mem e).mp he with ⟨h1, h2⟩ | ⟨h1, h2⟩
    · exact Or.inl ⟨h2, h1⟩
    · refine Or.inr ⟨h1, ?_⟩
      have := hnew _ _ h2
      rw [← h1] at this
      exact this
  refine ⟨w.nodup, w.sorted, by have := w.size; have := h.size; omega, w.ent, ?_, ?_, ?_, ?_⟩
  · intro e he h1 h2
    rcases hcase e he with ⟨hm, _⟩ | ⟨_, hn⟩
    · exact h.note e hm h1 h2
    · exact hn.note h1 h2
  · intro e he h1 h2 h3
    rcases hcase e he with ⟨hm, _⟩ | ⟨_, hn⟩
    · obtain ⟨sub, hs, ht⟩ := h.dir e hm h1 h2 h3
      refine ⟨sub, hext ▸ lookup_ext ext hs, ?_⟩
      have := nt_ext (Nat.le_succ k) ext [] ht
      rw [List.append_nil, ← hext] at this
      exact this
    · exact hn.dir h1 h2 h3
  · intro e he h1 h2 x hx h3 h4
    rcases hcase e he with ⟨hm, hen⟩ | ⟨he1, hn⟩
    · rcases hcase x hx with ⟨hmx, _⟩ | ⟨hx1, hnx⟩
      · exact h.clash e hm h1 h2 x hmx h3 h4
      · exact hnx.clash2 h3 h4 e hm (by rw [hx1]; exact hen) h1 h2
    · rcases hcase x hx with ⟨hmx, _⟩ | ⟨hx1, hnx⟩
      · exact hn.clash1 h1 h2 x hmx h3 h4
      · have := hn.note (by rw [he1, ← hx1]; exact h3) (by rw [he1, ← hx1]; exact h4)
        rw [h1] at this
        exact absurd this.1 (by simp)
  · intro hp e he
    rcases hcase e he with ⟨hm, _⟩ | ⟨_, hn⟩
    · exact h.pur hp e hm
    · exact hn.pur hp

/-- no directory is there for the digits -/
def NoDir (es : List Tree.Entry) (t : Bytes) : Prop := ∀ e ∈ es, e.isTree = true → e.name.length = 2 → e.name ≠ t.take 2

theorem isTree_blob {n i : Bytes} : (⟨0o100644, n, i⟩ : Tree.Entry).isTree = false := by rw [Tree.isTree_iff _ (by simp)]; simp

theorem isTree_tree {n i : Bytes} : (⟨0o040000, n, i⟩ : Tree.Entry).isTree = true := by rw [Tree.isTree_iff _ (by simp)]; simp

theorem at_leaf {pure : Prop} {k : Nat} {odb odb' blobs : Odb} {n : Nat} {es es' : List Tree.Entry} {t id : Bytes} {val : Option Bytes} (h : NoteTree pure k odb blobs n es)
    (w : Written odb odb' es t (val.map (fun i => (0o100644, i))) id es') (ht : ∀ c ∈ t, Digit c) (hn : t.length = n) (hno : NoDir es t) :
    ∀ u x : Bytes, (∀ c ∈ u, Digit c) → (At odb' es' u x ↔ if u = t then val = some x else At odb es u x) := by
  intro u x hu
  obtain ⟨ext, hext⟩ := w.grows
  have hblob : ∀ e ∈ es', e.name = t → e.isTree = false ∧ val = some e.oid := by
    intro e he hen
    rcases (w.mem e).mp he with ⟨h1, _⟩ | ⟨_, h2⟩
    · exact absurd hen h1
    · cases val with
      | none => cases h2
      | some v =>
        simp only [Option.map_some, Option.some.injEq, Prod.mk.injEq] at h2
        refine ⟨?_, by rw [h2.2]⟩
        rw [Tree.isTree_iff e (by rw [← h2.1]; decide), ← h2.1]
        rfl
  have hold : ∀ e ∈ es', e.name ≠ t → e ∈ es := by
    intro e he hen
    rcases (w.mem e).mp he with ⟨_, h2⟩ | ⟨h1, _⟩
    · exact h2
    · exact absurd h1 hen
  constructor
  · intro hat
    have hat0 := hat
    cases hat with
    | @here _ e a b =>
      by_cases hut : e.name = t
      · rw [if_pos hut]; exact (hblob e a hut).2
      · rw [if_neg hut]; exact .here (hold e a hut) b
    | @inside _ sub e a b v _ g1 g2 g3 g4 g5 =>
      have hen : e.name ≠ t := fun hen => by rw [(hblob e g1 hen).1] at g2; cases g2
      have hes := hold e g1 hen
      have hut : (a :: b :: v : Bytes) ≠ t := fun hut => by
        apply hno e hes g2 (by rw [g3]; rfl)
        rw [← hut, g3]; rfl
      rw [if_neg hut]
      have : At (odb ++ ext) es (a :: b :: v) x := .inside hes g2 g3 (by rw [← hext]; exact g4) (by rw [← hext]; exact g5)
      exact at_back h hu this
  · intro hat
    split at hat
    · rename_i hut
      subst hut
      have : (⟨0o100644, u, x⟩ : Tree.Entry) ∈ es' := (w.mem _).mpr (Or.inr ⟨rfl, by rw [hat]; rfl⟩)
      exact .here this isTree_blob
    · rename_i hut
      cases hat with
      | @here _ e a b => exact .here ((w.mem e).mpr (Or.inl ⟨hut, a⟩)) b
      | @inside _ sub e a b v _ g1 g2 g3 g4 g5 =>
        refine .inside ((w.mem e).mpr (Or.inl ⟨?_, g1⟩)) g2 g3 (hext ▸ lookup_ext ext g4) (hext ▸ at_ext ext g5)
        intro hen
        have := (nt_iff.mp h).note e g1 (by rw [hen]; exact hn) (fun c hc => digit_any c (ht c (hen ▸ hc)))
        rw [g2] at this
        exact absurd this.1 (by simp)

theorem nodup_inj {es : List Tree.Entry} (h : (es.map (·.name)).Nodup) {x y : Tree.Entry} (hx : x ∈ es) (hy : y ∈ es) (hn : x.name = y.name) : x = y :=
  List.inj_on_of_nodup_map h hx hy hn

theorem at_dir {pure : Prop} {k : Nat} {odb odb1 odb' blobs : Odb} {n : Nat} {es es' sub sub' : List Tree.Entry} {a b : UInt8} {t id id' : Bytes} {e0 : Tree.Entry} {val : Option Bytes}
    (h : NoteTree pure k odb blobs n es) (h0 : e0 ∈ es) (h0t : e0.isTree = true) (h0n : e0.name = [a, b]) (h0s : lookupTree odb e0.oid = .ok sub)
    (hsub' : NoteTree pure (k + 1) odb1 blobs (n - 2) sub') (hs' : lookupTree odb1 id' = .ok sub')
    (hg : ∃ ext, odb1 = odb ++ ext) (w : Written odb1 odb' es [a, b] (some (0o040000, id')) id es') (ht : ∀ c ∈ (a :: b :: t : Bytes), Digit c) (hn : t.length + 2 = n)
    (ih : ∀ v x : Bytes, (∀ c ∈ v, Digit c) → v.length = n - 2 → (At odb1 sub' v x ↔ if v = t then val = some x else At odb sub v x)) :
    ∀ u x : Bytes, (∀ c ∈ u, Digit c) → u.length = n → (At odb' es' u x ↔ if u = a :: b :: t then val = some x else At odb es u x) := by
  intro u x hu hul
  obtain ⟨ext, hext⟩ := w.grows
  obtain ⟨ext1, hext1⟩ := hg
  have H := nt_iff.mp h
  have hnew : ∀ e ∈ es', e.name = [a, b] → e.attr = 0o040000 ∧ e.oid = id' := by
    intro e he hen
    rcases (w.mem e).mp he with ⟨h1, _⟩ | ⟨_, h2⟩
    · exact absurd hen h1
    · simp only [Option.some.injEq, Prod.mk.injEq] at h2
      exact ⟨h2.1.symm, h2.2.symm⟩
  have hold : ∀ e ∈ es', e.name ≠ [a, b] → e ∈ es := by
    intro e he hen
    rcases (w.mem e).mp he with ⟨_, h2⟩ | ⟨h1, _⟩
    · exact h2
    · exact absurd h1 hen
  have hnewt : ∀ e ∈ es', e.name = [a, b] → e.isTree = true := by
    intro e he hen
    rw [Tree.isTree_iff e (by rw [(hnew e he hen).1]; decide), (hnew e he hen).1]
    rfl
  have hmem0 : (⟨0o040000, [a, b], id'⟩ : Tree.Entry) ∈ es' := (w.mem _).mpr (Or.inr ⟨rfl, rfl⟩)
  constructor
  · intro hat
    cases hat with
    | @here _ e g1 g2 =>
      have hen : e.name ≠ [a, b] := fun hen => by rw [hnewt e g1 hen] at g2; cases g2
      have hes := hold e g1 hen
      have hut : e.name ≠ a :: b :: t := fun hut =>
        H.clash e0 h0 h0t (by rw [h0n]; rfl) e hes hul (fun c hc => digit_any c (hu c hc)) (by rw [h0n, hut]; exact ⟨t, rfl⟩)
      rw [if_neg hut]
      exact .here hes g2
    | @inside _ sub2 e a2 b2 v _ g1 g2 g3 g4 g5 =>
      have hv : ∀ c ∈ v, Digit c := fun c hc => hu c (by simp [hc])
      have hvl : v.length = n - 2 := by simp only [List.length_cons] at hul; omega
      by_cases hen : e.name = [a, b]
      · rw [hen] at g3
        cases g3
        rw [(hnew e g1 hen).2, hext, lookup_ext ext hs'] at g4
        cases g4
        have := (ih v x hv hvl).mp (at_back hsub' hv (hext ▸ g5))
        by_cases hvt : v = t
        · subst hvt; rw [if_pos rfl] at this ⊢; exact this
        · rw [if_neg hvt] at this
          rw [if_neg (fun h => hvt (by simpa using h))]
          exact .inside h0 h0t h0n h0s this
      · have hes := hold e g1 hen
        rw [if_neg (fun h => hen (by rw [g3]; simp only [List.cons.injEq] at h; rw [h.1, h.2.1]))]
        have : At (odb ++ (ext1 ++ ext)) es (a2 :: b2 :: v) x := by
          rw [← List.append_assoc, ← hext1, ← hext]
          exact .inside hes g2 g3 g4 g5
        exact at_back h hu this
  · intro hat
    split at hat
    · rename_i hut
      subst hut
      refine .inside hmem0 isTree_tree rfl (hext ▸ lookup_ext ext hs') ?_
      rw [hext]
      apply at_ext
      rw [ih t x (fun c hc => ht c (by simp [hc])) (by omega), if_pos rfl]
      exact hat
    · rename_i hut
      cases hat with
      | @here _ e g1 g2 =>
        refine .here ((w.mem e).mpr (Or.inl ⟨?_, g1⟩)) g2
        intro hen
        rw [nodup_inj H.nodup g1 h0 (hen.trans h0n.symm), h0t] at g2
        cases g2
      | @inside _ sub2 e a2 b2 v _ g1 g2 g3 g4 g5 =>
        have hv : ∀ c ∈ v, Digit c := fun c hc => hu c (by simp [hc])
        have hvl : v.length = n - 2 := by simp only [List.length_cons] at hul; omega
        by_cases hen : e.name = [a, b]
        · have he0 := nodup_inj H.nodup g1 h0 (hen.trans h0n.symm)
          subst he0
          rw [hen] at g3
          cases g3
          rw [h0s] at g4
          cases g4
          refine .inside hmem0 isTree_tree rfl (hext ▸ lookup_ext ext hs') ?_
          rw [hext]
          apply at_ext
          rw [ih v x hv hvl, if_neg (fun h => hut (by rw [h]))]
          exact g5
        · refine .inside (sub := sub2) ((w.mem e).mpr (Or.inl ⟨hen, g1⟩)) g2 g3 ?_ ?_
          · rw [hext, hext1, List.append_assoc]; exact lookup_ext _ g4
          · rw [hext, hext1, List.append_assoc]; exact at_ext _ g5

end Verif.Notes
