import Verif.Notes.Lemmas2
/-! # `manipulate_note_in_tree_r` -/
namespace Verif.Notes
open Spec IndexTree
open IndexTree.Spec (Collisionless NotNull)

/-- the note after an action -/
def Act.value : Act → Option Bytes
  | .insert _ note => some note
  | .remove => none

/-- when an action fails, and how -/
def Act.fails (there : Prop) (x : Int) : Act → Prop
  | .insert ow _ => there ∧ ow = false ∧ x = EEXISTS
  | .remove => ¬ there ∧ x = ENOTFOUND

/-- what is changed -/
structure Changed (pure : Prop) (k : Nat) (odb odb' blobs : Odb) (n : Nat) (es : List Tree.Entry) (t : Bytes) (act : Act) (id : Bytes) (es' : List Tree.Entry) : Prop where
  look : lookupTree odb' id = .ok es'
  idLen : id.length = 20
  notNull : NotNull id
  tree : NoteTree pure (k + 1) odb' blobs n es'
  at_ : ∀ u x : Bytes, (∀ c ∈ u, Digit c) → u.length = n → (At odb' es' u x ↔ if u = t then act.value = some x else At odb es u x)

theorem existsCb_grows {env : Env} {act : Act} {odb odb' : Odb} {t : Bytes} {es : List Tree.Entry} {r : Res (Bytes × List Tree.Entry)} (h : existsCb env odb es t act = (odb', r)) :
    ∃ ext, odb' = odb ++ ext := by
  rcases act with ⟨_ | _, note⟩ | _
  · cases h; exact ⟨[], by simp⟩
  · exact treeWrite_grows h
  · exact treeWrite_grows h

theorem notFoundCb_grows {env : Env} {act : Act} {odb odb' : Odb} {t : Bytes} {es : List Tree.Entry} {r : Res (Bytes × List Tree.Entry)} (h : notFoundCb env odb es t act = (odb', r)) :
    ∃ ext, odb' = odb ++ ext := by
  rcases act with ⟨_ | _, note⟩ | _
  · exact treeWrite_grows h
  · exact treeWrite_grows h
  · cases h; exact ⟨[], by simp⟩

theorem manip_grows {env : Env} {act : Act} : ∀ {odb odb' : Odb} {t : Bytes} {es : List Tree.Entry} {r : Res (Bytes × List Tree.Entry)},
    manip env act odb t es = (odb', r) → ∃ ext, odb' = odb ++ ext := by
  have base : ∀ {odb odb' : Odb} {t : Bytes} {es : List Tree.Entry} {x : Int} {r : Res (Bytes × List Tree.Entry)},
      (if x = EEXISTS then existsCb env odb es t act else if x = ENOTFOUND then notFoundCb env odb es t act else (odb, .err x)) = (odb', r) → ∃ ext, odb' = odb ++ ext := by
    intro odb odb' t es x r h
    split at h
    · exact existsCb_grows h
    · split at h
      · exact notFoundCb_grows h
      · cases h; exact ⟨[], by simp⟩
  intro odb odb' t
  induction hl : t.length using Nat.strong_induction_on generalizing odb odb' t with
  | _ l ih =>
    intro es r h
    rcases t with _ | ⟨a, _ | ⟨b, t⟩⟩
    · unfold manip at h
      split at h
      · cases h; exact ⟨[], by simp⟩
      · exact base h
      · cases h; exact ⟨[], by simp⟩
    · unfold manip at h
      split at h
      · cases h; exact ⟨[], by simp⟩
      · exact base h
      · cases h; exact ⟨[], by simp⟩
    · unfold manip at h
      split at h
      · cases h; exact ⟨[], by simp⟩
      · exact base h
      · rename_i sub _
        cases hm : manip env act odb t sub with
        | mk odb1 r1 =>
          obtain ⟨e1, h1⟩ := ih t.length (by simp only [List.length_cons] at hl; omega) rfl hm
          rw [hm] at h
          cases r1 with
          | err x => cases h; exact ⟨e1, h1⟩
          | ub => cases h; exact ⟨e1, h1⟩
          | ok p =>
            obtain ⟨e2, h2⟩ := treeWrite_grows h
            exact ⟨e1 ++ e2, by rw [h2, h1, List.append_assoc]⟩

/-- what is asked of an environment -/
structure EOk (env : Env) (blobs : Odb) (act : Act) : Prop where
  id : ∀ b, (env.idOf b).length = 20 ∧ ∃ c ∈ env.idOf b, c ≠ 0
  name : ∀ t, t ≠ [] → (∀ c ∈ t, Digit c) → env.nameValid t = true
  blob : ∀ i b, readObj blobs i = some b → env.isBlob i = true
  act : ∀ i, act.value = some i → i.length = 20 ∧ NotNull i ∧ ∃ b, readObj blobs i = some b

theorem digit_plain {t : Bytes} (ht : ∀ c ∈ t, Digit c) : (0 : UInt8) ∉ t ∧ c!"/" ∉ t := by
  have h1 : ¬ Digit 0 := by unfold Digit; decide
  have h2 : ¬ Digit c!"/" := by unfold Digit; decide
  exact ⟨fun h => h1 (ht _ h), fun h => h2 (ht _ h)⟩

/-- the note is put in, or taken out of, this directory -/
theorem leaf_spec {pure : Prop} {k n : Nat} {env : Env} {act : Act} {odb odb' blobs : Odb} {t : Bytes} {es : List Tree.Entry} {r : Res (Bytes × List Tree.Entry)} (he : EOk env blobs act)
    (h : NoteTree pure k odb blobs n es) (hk : k < 2 ^ 30) (ht : ∀ c ∈ t, Digit c) (hn : t.length = n) (h0 : t ≠ []) (hn2 : n ≤ 40) (hno : NoDir es t)
    (hrem : act.value = none → ∃ e ∈ es, e.name = t)
    (hw : treeWrite env odb es t (act.value.map (fun i => (0o100644, i))) = (odb', r)) (hc : Collisionless odb') :
    ∃ id es', r = .ok (id, es') ∧ Changed pure k odb odb' blobs n es t act id es' := by
  have H := nt_iff.mp h
  have hpl := digit_plain ht
  obtain ⟨id, es', hr, w⟩ := treeWrite_spec he.id H.ent H.nodup (by have := H.size; omega) (by
    intro m i hv
    cases hval : act.value with
    | none => rw [hval] at hv; cases hv
    | some v =>
      rw [hval] at hv
      simp only [Option.map_some, Option.some.injEq, Prod.mk.injEq] at hv
      obtain ⟨hm, hi⟩ := hv
      subst hm; subst hi
      obtain ⟨g1, g2, b, g3⟩ := he.act v hval
      refine ⟨check_ok (by decide) h0 (he.name t h0 ht) g2 (Or.inr ?_), (by simp), ⟨h0, hpl.1, (by show t.length ≤ 65535; omega)⟩, hpl.2, g1⟩
      unfold objectValid
      rw [if_neg (by decide), he.blob v b g3]; simp) (by
    intro hv
    apply hrem
    cases hval : act.value with
    | none => rfl
    | some v => rw [hval] at hv; cases hv) hw hc
  refine ⟨id, es', hr, w.look, w.idLen, w.notNull, ?_, fun u x hu _ => at_leaf h w ht hn hno u x hu⟩
  apply nt_written h w
  intro m i hv
  cases hval : act.value with
  | none => rw [hval] at hv; cases hv
  | some v =>
    rw [hval] at hv
    simp only [Option.map_some, Option.some.injEq, Prod.mk.injEq] at hv
    obtain ⟨hm, hi⟩ := hv
    subst hm; subst hi
    refine ⟨fun _ _ => ⟨isTree_blob, (he.act v hval).2.2⟩, ?_, ?_, ?_, fun _ => ⟨ht, Or.inr ⟨isTree_blob, hn⟩⟩⟩
    · intro hx; rw [isTree_blob] at hx; cases hx
    · intro hx; rw [isTree_blob] at hx; cases hx
    · intro _ _ e hes _ h1 h2 hp
      obtain ⟨s, hs⟩ := hp
      refine hno e hes h1 h2 ?_
      have hs' : e.name ++ s = t := hs
      rw [← hs', List.take_append_of_le_length (by omega), List.take_of_length_le (by omega)]

theorem manip_spec {pure : Prop} {k n : Nat} {env : Env} {act : Act} {odb blobs : Odb} {es : List Tree.Entry} (he : EOk env blobs act) (hk : k < 2 ^ 30)
    (h : NoteTree pure k odb blobs n es) :
    ∀ {t : Bytes} {odb' : Odb} {r : Res (Bytes × List Tree.Entry)}, (∀ c ∈ t, Digit c) → t.length = n → t ≠ [] → n ≤ 40 → manip env act odb t es = (odb', r) → Collisionless odb' →
      (∃ x, act.fails (∃ i, At odb es t i) x ∧ r = .err x) ∨
      ((∀ x, ¬ act.fails (∃ i, At odb es t i) x) ∧ ∃ id es', r = .ok (id, es') ∧ Changed pure k odb odb' blobs n es t act id es') := by
  have base : ∀ {n : Nat} {es : List Tree.Entry} {t : Bytes} {odb' : Odb} {r : Res (Bytes × List Tree.Entry)}, NoteTree pure k odb blobs n es → (∀ c ∈ t, Digit c) → t.length = n → t ≠ [] → n ≤ 40 →
      NoDir es t → ∀ {x : Int}, findLevel odb t es = .err x →
      (if x = EEXISTS then existsCb env odb es t act else if x = ENOTFOUND then notFoundCb env odb es t act else (odb, .err x)) = (odb', r) → Collisionless odb' →
      (∃ x, act.fails (∃ i, At odb es t i) x ∧ r = .err x) ∨
      ((∀ x, ¬ act.fails (∃ i, At odb es t i) x) ∧ ∃ id es', r = .ok (id, es') ∧ Changed pure k odb odb' blobs n es t act id es') := by
    intro n es t odb' r h ht hn h0 hn2 hno x hx hr hc
    have H := nt_iff.mp h
    have hat : (∃ i, At odb es t i) ↔ ∃ e ∈ es, e.name = t := by
      constructor
      · rintro ⟨i, hi⟩
        cases hi with
        | @here _ e g1 g2 => exact ⟨e, g1, rfl⟩
        | @inside _ sub e a b v _ g1 g2 g3 g4 g5 => exact absurd (by rw [g3]; rfl) (hno e g1 g2 (by rw [g3]; rfl))
      · rintro ⟨e, h1, h2⟩
        refine ⟨e.oid, ?_⟩
        have := (H.note e h1 (by rw [h2]; exact hn) (fun c hc => digit_any c (ht c (h2 ▸ hc)))).1
        have := At.here (odb := odb) h1 this
        rwa [h2] at this
    have hhex : ishex t = true := ishex_iff.mpr (fun c hc => digit_any c (ht c hc))
    have hno' : ∀ e ∈ es, ishex e.name = true → e.isTree = true → e.name.length = 2 → e.name ≠ t.take 2 := fun e h1 _ h2 h3 => hno e h1 h2 h3
    by_cases hthere : ∃ e ∈ es, e.name = t
    · rw [findLevel_there hhex hno' hthere] at hx
      cases hx
      rw [if_pos rfl] at hr
      rcases act with ⟨_ | _, note⟩ | _
      · cases hr
        exact Or.inl ⟨EEXISTS, ⟨hat.mpr hthere, rfl, rfl⟩, rfl⟩
      · refine Or.inr ⟨(by rintro x ⟨_, hf, _⟩; cases hf), leaf_spec he h hk ht hn h0 hn2 hno (fun h => by cases h) hr hc⟩
      · refine Or.inr ⟨fun x hx => hx.1 (hat.mpr hthere), leaf_spec he h hk ht hn h0 hn2 hno (fun _ => hthere) hr hc⟩
    · rw [findLevel_absent hno' (fun e h1 h2 => hthere ⟨e, h1, h2⟩)] at hx
      cases hx
      rw [if_neg (by decide), if_pos rfl] at hr
      rcases act with ⟨_ | _, note⟩ | _
      · exact Or.inr ⟨fun x hx => hthere (hat.mp hx.1), leaf_spec he h hk ht hn h0 hn2 hno (fun h => by cases h) hr hc⟩
      · exact Or.inr ⟨fun x hx => hthere (hat.mp hx.1), leaf_spec he h hk ht hn h0 hn2 hno (fun h => by cases h) hr hc⟩
      · cases hr
        exact Or.inl ⟨ENOTFOUND, ⟨fun h => hthere (hat.mp h), rfl⟩, rfl⟩
  induction h with
  | @mk n es h1 h2 h3 h4 h5 h6 h7 h8 h9 ih =>
    have h : NoteTree pure k odb blobs n es := .mk h1 h2 h3 h4 h5 h6 h7 h8 h9
    have H := nt_iff.mp h
    intro t odb' r ht hn h0 hn2 hm hc
    -- a name that is too short for a directory
    have short : t.length < 2 → NoDir es t := by
      intro hl e he1 he2 he3 he4
      rw [he4] at he3
      simp at he3; omega
    rcases t with _ | ⟨a, _ | ⟨b, t⟩⟩
    · exact absurd rfl h0
    · unfold manip at hm
      have hnd := short (by simp)
      split at hm
      · rename_i heq
        exfalso
        by_cases hthere : ∃ e ∈ es, e.name = [a]
        · rw [findLevel_there (ishex_iff.mpr (fun c hc => digit_any c (ht c hc))) (fun e h1 _ h2 h3 => hnd e h1 h2 h3) hthere] at heq; cases heq
        · rw [findLevel_absent (fun e h1 _ h2 h3 => hnd e h1 h2 h3) (fun e h1 h2 => hthere ⟨e, h1, h2⟩)] at heq; cases heq
      · rename_i x hx
        exact base h ht hn h0 hn2 hnd hx hm hc
      · rename_i sub heq
        exfalso
        by_cases hthere : ∃ e ∈ es, e.name = [a]
        · rw [findLevel_there (ishex_iff.mpr (fun c hc => digit_any c (ht c hc))) (fun e h1 _ h2 h3 => hnd e h1 h2 h3) hthere] at heq; cases heq
        · rw [findLevel_absent (fun e h1 _ h2 h3 => hnd e h1 h2 h3) (fun e h1 h2 => hthere ⟨e, h1, h2⟩)] at heq; cases heq
    · unfold manip at hm
      have htd : ∀ c ∈ t, Digit c := fun c hc => ht c (by simp [hc])
      have hhex : ishex (a :: b :: t) = true := ishex_iff.mpr (fun c hc => digit_any c (ht c hc))
      by_cases hd : ∃ e ∈ es, e.isTree = true ∧ e.name = [a, b]
      · obtain ⟨e, he1, he2, he3⟩ := hd
        have hed : ∀ c ∈ e.name, AnyDigit c := by
          intro c hc; rw [he3] at hc
          exact digit_any c (ht c (by simp only [List.mem_cons, List.not_mem_nil, or_false] at hc ⊢; rcases hc with h | h <;> simp [h]))
        obtain ⟨sub, hs⟩ := h6 e he1 he2 (by rw [he3]; rfl) hed
        have hne : ∀ x ∈ es, x.name ≠ a :: b :: t := fun x hx hxn => h8 e he1 he2 (by rw [he3]; rfl) x hx (by rw [hxn]; exact hn)
            (by rw [hxn]; exact fun c hc => digit_any c (ht c hc)) (by rw [he3, hxn]; exact ⟨t, rfl⟩)
        rw [findLevel_sub he2 (by rw [he3]; rfl) (by rw [he3]; rfl) (ishex_iff.mpr hed) h1 hne he1, hs] at hm
        simp only at hm
        have htn : t.length = n - 2 := by rw [← hn]; simp
        have hn2' : n ≠ 2 := fun hx => by
          have := (h5 e he1 (by rw [he3, hx]; rfl) hed).1
          rw [he2] at this; cases this
        have ht0 : t ≠ [] := fun hx => hn2' (by rw [← hn, hx]; rfl)
        have hatiff : (∃ i, At odb es (a :: b :: t) i) ↔ ∃ i, At odb sub t i := by
          constructor
          · rintro ⟨i, hi⟩
            generalize htt : (a :: b :: t : Bytes) = tt at hi
            cases hi with
            | @here _ x g1 g2 => exact absurd htt.symm (hne x g1)
            | @inside _ sub2 x _ _ _ _ g1 g2 g3 g4 g5 =>
              cases htt
              have := nodup_inj h1 g1 he1 (g3.trans he3.symm)
              subst this
              rw [hs] at g4; cases g4
              exact ⟨i, g5⟩
          · rintro ⟨i, hi⟩
            exact ⟨i, .inside he1 he2 he3 hs hi⟩
        cases hmm : manip env act odb t sub with
        | mk odb1 r1 =>
          rw [hmm] at hm
          obtain ⟨e1, hg1⟩ := manip_grows hmm
          have hc1 : Collisionless odb1 := by
            cases r1 with
            | err x => cases hm; exact hc
            | ub => cases hm; exact hc
            | ok p =>
              obtain ⟨e2, hg2⟩ := treeWrite_grows hm
              rw [hg2] at hc
              exact IndexTree.Collisionless.left hc
          rcases ih e he1 he2 (by rw [he3]; rfl) hed sub hs htd htn ht0 (by omega) hmm hc1 with ⟨x, hx, rfl⟩ | ⟨hnf, id', sub', rfl, ch⟩
          · cases hm
            refine Or.inl ⟨x, ?_, rfl⟩
            rw [hatiff]; exact hx
          · refine Or.inr ⟨fun x hx => hnf x (by rw [← hatiff]; exact hx), ?_⟩
            simp only at hm
            have hk' : NoteTree pure k (odb ++ e1) (blobs ++ []) n es := nt_ext (Nat.le_refl k) e1 [] h
            rw [List.append_nil, ← hg1] at hk'
            have hab : ∀ c ∈ [a, b], Digit c := fun c hc => ht c (by simp only [List.mem_cons, List.not_mem_nil, or_false] at hc ⊢; rcases hc with h | h <;> simp [h])
            have hpl := digit_plain hab
            obtain ⟨id, es', hr, w⟩ := treeWrite_spec he.id H.ent h1 (by omega) (by
              intro m i hv
              simp only [Option.some.injEq, Prod.mk.injEq] at hv
              obtain ⟨hm', hi'⟩ := hv
              subst hm'; subst hi'
              refine ⟨check_ok (by decide) (by simp) (he.name _ (by simp) hab) ch.notNull (Or.inr ?_), by simp, ⟨by simp, hpl.1, by simp⟩, hpl.2, ch.idLen⟩
              unfold objectValid
              rw [if_pos (by decide)]
              have := ch.look
              unfold lookupTree at this
              split at this
              · cases this
              · rename_i hrd; rw [hrd]; simp) (fun h => by cases h) hm hc
            refine ⟨id, es', hr, w.look, w.idLen, w.notNull, ?_, at_dir h he1 he2 he3 hs ch.tree ch.look ⟨e1, hg1⟩ w ht (by rw [← hn]; simp) ch.at_⟩
            obtain ⟨e2, hg2⟩ := w.grows
            apply nt_written hk' w
            intro m i hv
            simp only [Option.some.injEq, Prod.mk.injEq] at hv
            obtain ⟨hm', hi'⟩ := hv
            subst hm'; subst hi'
            refine ⟨fun hx _ => absurd hx.symm hn2', fun _ _ _ => ⟨sub', hg2 ▸ lookup_ext e2 ch.look, ?_⟩, ?_, fun hx _ => absurd hx.symm hn2',
              fun _ => ⟨hab, Or.inl ⟨isTree_tree, rfl⟩⟩⟩
            · have := nt_ext (Nat.le_refl (k + 1)) e2 [] ch.tree
              rw [List.append_nil, ← hg2] at this
              exact this
            · intro _ _ x hx hxl hxd hp
              exact h8 e he1 he2 (by rw [he3]; rfl) x hx hxl hxd (by rw [he3]; exact hp)
      · have hnd : NoDir es (a :: b :: t) := fun e g1 g2 g3 g4 => hd ⟨e, g1, g2, g4⟩
        split at hm
        · rename_i heq
          exfalso
          by_cases hthere : ∃ e ∈ es, e.name = a :: b :: t
          · rw [findLevel_there hhex (fun e h1 _ h2 h3 => hnd e h1 h2 h3) hthere] at heq; cases heq
          · rw [findLevel_absent (fun e h1 _ h2 h3 => hnd e h1 h2 h3) (fun e h1 h2 => hthere ⟨e, h1, h2⟩)] at heq; cases heq
        · rename_i x hx
          exact base h ht hn h0 hn2 hnd hx hm hc
        · rename_i sub heq
          exfalso
          by_cases hthere : ∃ e ∈ es, e.name = a :: b :: t
          · rw [findLevel_there hhex (fun e h1 _ h2 h3 => hnd e h1 h2 h3) hthere] at heq; cases heq
          · rw [findLevel_absent (fun e h1 _ h2 h3 => hnd e h1 h2 h3) (fun e h1 h2 => hthere ⟨e, h1, h2⟩)] at heq; cases heq

end Verif.Notes
