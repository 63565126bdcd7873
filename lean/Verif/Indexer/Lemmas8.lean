import Verif.Indexer.Lemmas7
/-! # Verifying -/
namespace Verif.Indexer
open Spec Verif.Pack Verif.Pack.Spec

/-- the ids an object names are known, or expected, or there; unless the object itself is known -/
def Link (E : Env) (ix : PackIdx.Indexer) (exp : List Bytes) (id : Bytes) (t : Nat) (d : Bytes) : Prop :=
  ∃ ids, E.refs t d = some ids ∧ (known E id = true ∨ ∀ r ∈ ids, known E r = true ∨ r ∈ exp ∨ (findIn ix.objects r).isSome = true)

/-- the objects that were saved are linked -/
def Linked (E : Env) (F : Bytes) (ents : List Ent) (ix : PackIdx.Indexer) (exp : List Bytes) : Prop :=
  ∀ x ∈ ix.objects, (∃ e ∈ ents, e.off = x.off ∧ isDelta e.type = false ∧ ¬ (1 ≤ e.type ∧ e.type ≤ 4)) ∨
    ∃ t d, (⟨F, findIn ix.objects, infl E⟩ : Source).Entry x.off t d ∧ Link E ix exp x.id t d

theorem addExp_sub (E : Env) (ix : PackIdx.Indexer) (exp : List Bytes) (id : Bytes) : (∀ r ∈ exp, r ∈ addExp E ix exp id) ∧
    (known E id = true ∨ id ∈ addExp E ix exp id ∨ (findIn ix.objects id).isSome = true) := by
  unfold addExp
  by_cases h : (!known E id && ((ix.objects.find? fun e => e.id == id).map fun e => e.off).isNone && !exp.contains id) = true
  · rw [if_pos h]
    exact ⟨fun r hr => List.mem_append_left _ hr, .inr (.inl (by simp))⟩
  · rw [if_neg h]
    refine ⟨fun r hr => hr, ?_⟩
    by_cases h1 : known E id = true
    · exact .inl h1
    · right
      by_cases h2 : ((ix.objects.find? fun e => e.id == id).map fun e => e.off).isNone = true
      · left
        have h3 : exp.contains id = true := by
          by_contra h3
          refine h ?_
          rw [h2, Bool.not_eq_true _ |>.mp h1, Bool.not_eq_true _ |>.mp h3]
          rfl
        simpa using h3
      · right
        unfold findIn
        cases hx : (ix.objects.find? fun e => e.id == id).map fun e => e.off with
        | none => rw [hx] at h2; exact absurd rfl h2
        | some b => rfl

theorem foldl_addExp (E : Env) (ix : PackIdx.Indexer) (ids : List Bytes) : ∀ exp : List Bytes, (∀ r ∈ exp, r ∈ ids.foldl (addExp E ix) exp) ∧
    ∀ r ∈ ids, known E r = true ∨ r ∈ ids.foldl (addExp E ix) exp ∨ (findIn ix.objects r).isSome = true := by
  induction ids with
  | nil => intro exp; exact ⟨fun r h => h, (fun r h => nomatch h)⟩
  | cons id ids ih =>
    intro exp
    obtain ⟨h1, h2⟩ := ih (addExp E ix exp id)
    obtain ⟨g1, g2⟩ := addExp_sub E ix exp id
    rw [List.foldl_cons]
    refine ⟨fun r hr => h1 r (g1 r hr), fun r hr => ?_⟩
    rcases List.mem_cons.mp hr with rfl | hr
    · rcases g2 with g | g | g
      · exact .inl g
      · exact .inr (.inl (h1 _ g))
      · exact .inr (.inr g)
    · exact h2 r hr

theorem verify_link {E : Env} (hv : E.verify = true) {ix : PackIdx.Indexer} {exp exp' : List Bytes} {t : Nat} {d : Bytes} (ht : 1 ≤ t ∧ t ≤ 4) (h : verifyExp E ix exp t d = .ok exp') :
    ∃ id, objectId E t d.length d = .ok id ∧ (∀ r ∈ exp, r ≠ id → r ∈ exp') ∧ Link E ix exp' id t d := by
  unfold verifyExp at h
  rw [if_pos hv, if_neg (by rw [not_not]; show t = 1 ∨ t = 2 ∨ t = 3 ∨ t = 4; omega)] at h
  cases hr : E.refs t d with
  | none => rw [hr] at h; cases h
  | some ids =>
    rw [hr] at h
    dsimp only at h
    cases ho : objectId E t d.length d with
    | err x => rw [ho] at h; cases h
    | ub => rw [ho] at h; cases h
    | ok id =>
      rw [ho, Res.bind_ok] at h
      refine ⟨id, rfl, ?_⟩
      have hf : ∀ r ∈ exp, r ≠ id → r ∈ exp.filter fun x => x ≠ id := fun r hr hne => List.mem_filter.mpr ⟨hr, by simpa using hne⟩
      by_cases hk : known E id = true
      · rw [if_pos hk] at h
        rw [← Res.ok.inj h]
        exact ⟨hf, ids, hr, .inl hk⟩
      · rw [if_neg hk] at h
        rw [← Res.ok.inj h]
        obtain ⟨h1, h2⟩ := foldl_addExp E ix ids (exp.filter fun x => x ≠ id)
        exact ⟨fun r hr hne => h1 r (hf r hr hne), ids, hr, .inr h2⟩

theorem findIn_last (l : List PackIdx.Entry) (x : PackIdx.Entry) : (findIn (l ++ [x]) x.id).isSome = true := by
  unfold findIn
  rw [List.find?_append]
  cases h : l.find? fun e => e.id == x.id with
  | some y => rfl
  | none => simp

theorem isSome_mono {l : List PackIdx.Entry} {r : Bytes} (l' : List PackIdx.Entry) (h : (findIn l r).isSome = true) : (findIn (l ++ l') r).isSome = true := by
  cases hx : findIn l r with
  | none => rw [hx] at h; cases h
  | some b => rw [findIn_mono l l' r b hx]; rfl

/-- one more object -/
theorem linked_grow {E : Env} {F : Bytes} {ents ents' : List Ent} {ix ix' : PackIdx.Indexer} {exp exp' : List Bytes} {x : PackIdx.Entry} (L : Linked E F ents ix exp)
    (h : PackIdx.saveEntry ix x = .ok ix') (hsub : ∀ e ∈ ents, e ∈ ents') (hexp : ∀ r ∈ exp, r ≠ x.id → r ∈ exp')
    (hx : (∃ e ∈ ents', e.off = x.off ∧ isDelta e.type = false ∧ ¬ (1 ≤ e.type ∧ e.type ≤ 4)) ∨
      ∃ t d, (⟨F, findIn ix.objects, infl E⟩ : Source).Entry x.off t d ∧ Link E ix exp' x.id t d) : Linked E F ents' ix' exp' := by
  have ho := saveEntry_objects h
  have hm : ∀ id b, id.length = 20 → findIn ix.objects id = some b → findIn ix'.objects id = some b := by
    intro id b _ hb
    rw [ho]
    exact findIn_mono _ _ _ _ hb
  intro y hy
  rw [ho] at hy
  rcases List.mem_append.mp hy with h' | h'
  · rcases L y h' with ⟨e, he, g⟩ | ⟨t, d, h1, ids, h2, h3⟩
    · exact .inl ⟨e, hsub e he, g⟩
    · refine .inr ⟨t, d, entry_mono hm h1, ids, h2, h3.imp_right fun g r hr => ?_⟩
      rcases g r hr with g | g | g
      · exact .inl g
      · by_cases hr : r = x.id
        · subst hr
          exact .inr (.inr (by rw [ho]; exact findIn_last _ _))
        · exact .inr (.inl (hexp r g hr))
      · exact .inr (.inr (by rw [ho]; exact isSome_mono _ g))
  · rw [List.mem_singleton.mp h']
    rcases hx with g | ⟨t, d, h1, ids, h2, h3⟩
    · exact .inl g
    · refine .inr ⟨t, d, entry_mono hm h1, ids, h2, h3.imp_right fun g r hr => ?_⟩
      rcases g r hr with g | g | g
      · exact .inl g
      · exact .inr (.inl g)
      · exact .inr (.inr (by rw [ho]; exact isSome_mono _ g))

theorem linked_same {E : Env} {F : Bytes} {ents ents' : List Ent} {ix : PackIdx.Indexer} {exp exp' : List Bytes} (L : Linked E F ents ix exp)
    (hsub : ∀ e ∈ ents, e ∈ ents') (hexp : ∀ r ∈ exp, r ∈ exp' ∨ (findIn ix.objects r).isSome = true) : Linked E F ents' ix exp' := by
  intro y hy
  rcases L y hy with ⟨e, he, g⟩ | ⟨t, d, h1, ids, h2, h3⟩
  · exact .inl ⟨e, hsub e he, g⟩
  · refine .inr ⟨t, d, h1, ids, h2, h3.imp_right fun g r hr => ?_⟩
    rcases g r hr with g | g | g
    · exact .inl g
    · exact .inr (hexp r g)
    · exact .inr (.inr g)

/-- the whole objects are as long as their headers say -/
def Lengths (ents : List Ent) : Prop := ∀ e ∈ ents, Whole e → e.data.length = e.size ∧ e.size < 2 ^ 63

theorem linked_put {E : Env} (hv : E.verify = true) {F : Bytes} {ents : List Ent} {c c' : Core} {e : Ent} (hent : EntF E F e) (hstop : e.stop + 20 ≤ F.length)
    (hl : Whole e → e.data.length = e.size ∧ e.size < 2 ^ 63) (L : Linked E F ents c.ix c.expected) (h : put E F c e = .ok c') : Linked E F (ents ++ [e]) c'.ix c'.expected := by
  have hsub : ∀ x ∈ ents, x ∈ ents ++ [e] := fun x hx => List.mem_append_left _ hx
  unfold put at h
  by_cases hd : isDelta e.type = true
  · rw [if_pos hd] at h
    cases h
    exact linked_same L hsub fun r hr => .inl hr
  · rw [if_neg hd] at h
    cases ho : objectId E e.type e.size e.data with
    | err x => rw [ho] at h; cases h
    | ub => rw [ho] at h; cases h
    | ok id =>
      rw [ho, Res.bind_ok] at h
      cases hve : verifyExp E c.ix c.expected e.type e.data with
      | err x => rw [hve] at h; cases h
      | ub => rw [hve] at h; cases h
      | ok exp =>
        rw [hve, Res.bind_ok] at h
        cases hs : PackIdx.saveEntry c.ix ⟨id, crcOf E F e, e.off⟩ with
        | err x => rw [hs] at h; cases h
        | ub => rw [hs] at h; cases h
        | ok ix =>
          rw [hs, Res.bind_ok] at h
          cases h
          have hd' : isDelta e.type = false := by simpa using hd
          have hw := (isDelta_whole e).mp hd'
          obtain ⟨l1, l2⟩ := hl hw
          by_cases ht : 1 ≤ e.type ∧ e.type ≤ 4
          · obtain ⟨id', h1, h2, h3⟩ := verify_link hv ht hve
            rw [l1, ho] at h1
            have := Res.ok.inj h1
            subst this
            refine linked_grow L hs hsub h2 (.inr ⟨e.type, e.data, ?_, h3⟩)
            have := hent.after
            exact ((saved_stands (find := findIn c.ix.objects) hent (by omega) (x := ⟨id, crcOf E F e, e.off⟩) ⟨rfl, rfl, fun _ => ho, fun h' => absurd h' hd⟩).whole
              ⟨ht.1, ht.2, l1, l2⟩).1
          · refine linked_grow L hs hsub (fun r hr _ => ?_) (.inl ⟨e, by simp, rfl, hd', ht⟩)
            unfold verifyExp at hve
            rw [if_pos hv, if_pos (by
              intro hc
              have hc : e.type = 1 ∨ e.type = 2 ∨ e.type = 3 ∨ e.type = 4 := hc
              omega)] at hve
            rw [← Res.ok.inj hve]
            exact hr

theorem linked_putAll {E : Env} (hv : E.verify = true) {F : Bytes} (l : List Ent) : ∀ {ents : List Ent} {c c' : Core}, (∀ e ∈ l, EntF E F e) → (∀ e ∈ l, e.stop + 20 ≤ F.length) →
    Lengths l → Linked E F ents c.ix c.expected → putAll E F l c = .ok c' → Linked E F (ents ++ l) c'.ix c'.expected := by
  induction l with
  | nil => intro ents c c' _ _ _ L h; cases h; rw [List.append_nil]; exact L
  | cons e l ih =>
    intro ents c c' h1 h2 h3 L h
    have h : (put E F c e >>= putAll E F l) = .ok c' := h
    cases hp : put E F c e with
    | err x => rw [hp] at h; cases h
    | ub => rw [hp] at h; cases h
    | ok c1 =>
      rw [hp, Res.bind_ok] at h
      have := ih (fun x hx => h1 x (List.mem_cons_of_mem _ hx)) (fun x hx => h2 x (List.mem_cons_of_mem _ hx)) (fun x hx => h3 x (List.mem_cons_of_mem _ hx))
        (linked_put hv (h1 e List.mem_cons_self) (h2 e List.mem_cons_self) (h3 e List.mem_cons_self) L hp) h
      rwa [List.append_assoc] at this

theorem entry_type {s : Source} {off t : Nat} {d : Bytes} (h : s.Entry off t d) : 1 ≤ t ∧ t ≤ 4 := by
  induction h with
  | whole _ _ _ _ ht _ => omega
  | delta _ _ _ _ _ _ _ _ ih => exact ih

theorem hashObj_eq {E : Env} {t : Nat} {d : Bytes} (ht : 1 ≤ t ∧ t ≤ 4) : Loose.hashObj E.sha ⟨t, d.length, d⟩ = objectId E t d.length d := by
  unfold Loose.hashObj objectId
  dsimp only
  rw [if_neg (by rcases (by omega : t = 1 ∨ t = 2 ∨ t = 3 ∨ t = 4) with rfl | rfl | rfl | rfl <;> decide), if_neg (Nat.lt_irrefl _), List.take_length]
  cases Loose.formatHeader 64 d.length t <;> rfl

theorem saveEntry_err {ix : PackIdx.Indexer} {x : PackIdx.Entry} {e : Int} (h : PackIdx.saveEntry ix x = .err e) : (findIn ix.objects x.id).isSome = true := by
  unfold PackIdx.saveEntry at h
  split at h
  · rename_i ha
    obtain ⟨y, hy, hi⟩ := List.any_eq_true.mp ha
    unfold findIn
    rw [Option.isSome_map, List.find?_isSome]
    exact ⟨y, hy, by simpa using hi⟩
  · split at h <;> cases h

theorem linked_resolve {E : Env} (hv : E.verify = true) {F : Bytes} (hF : F.length < 2 ^ 63) {ents : List Ent} {fuel : Nat} {s s' : St} {o : Nat} {r : Bool} (hf : s.file = F)
    (L : Linked E F ents s.ix s.expected) (h : resolveOne E fuel s o = some (.ok (s', r))) : Linked E F ents s'.ix s'.expected := by
  have hent : ∀ t d a, unpack (view E s) (fun _ _ => none) fuel o = some (.ok ((t, d), a)) → (⟨F, findIn s.ix.objects, infl E⟩ : Source).Entry o t d := by
    intro t d a hu
    have := (C52_unpack (view E s) (winOk_view E s (by rw [hf]; exact hF)) (fun _ _ => none) (fun k off raw h => by cases h) fuel o t d a hu).1
    rw [src_view, hf] at this
    exact this
  obtain ⟨_, hc⟩ := resolveOne_cases h
  rcases hc with ⟨rfl, g1, g2, g3⟩ | ⟨rfl, g1, t, d, ad, id, g2, g3, g4, g5⟩
  · rw [g1]
    rcases g3 with g3 | ⟨t, d, a, q1, q2, q3⟩
    · rw [g3]; exact L
    · have ht := entry_type (hent _ _ _ q1)
      obtain ⟨id, h1, h2, h3⟩ := verify_link hv ht q2
      refine linked_same L (fun _ h => h) fun r hr => ?_
      by_cases hri : r = id
      · right
        subst hri
        rw [hashObj_eq ht, h1] at q3
        rcases q3 with ⟨x, q3⟩ | ⟨id', x, q3, q4⟩
        · cases q3
        · have := Res.ok.inj q3
          subst this
          exact saveEntry_err q4
      · exact .inl (h2 r hr hri)
  · have he := hent _ _ _ g2
    have ht := entry_type he
    obtain ⟨id', h1, h2, h3⟩ := verify_link hv ht g5
    rw [hashObj_eq ht, h1] at g3
    have := Res.ok.inj g3
    subst this
    exact linked_grow L g4 (fun _ h => h) h2 (.inr ⟨t, d, he, h3⟩)

theorem linked_start (E : Env) (F : Bytes) : Linked E F [] {} [] := fun _ h => nomatch h

/-- what is linked in the end -/
theorem linked_end {E : Env} {F : Bytes} (hF : F.length < 2 ^ 63) {ents : List Ent} {ix : PackIdx.Indexer} (hent : ∀ e ∈ ents, EntF E F e) (L : Linked E F ents ix []) {x : PackIdx.Entry}
    (hx : x ∈ ix.objects) {find : Bytes → Option Nat} (hm : ∀ id b, id.length = 20 → findIn ix.objects id = some b → find id = some b) {t : Nat} {d : Bytes}
    (he : (⟨F, find, infl E⟩ : Source).Entry x.off t d) (hk : known E x.id = false) :
    ∃ ids, E.refs t d = some ids ∧ ∀ r ∈ ids, known E r = true ∨ r ∈ ix.objects.map (·.id) := by
  rcases L x hx with ⟨e, h1, h2, h3, h4⟩ | ⟨t', d', h1, ids, h2, h3⟩
  · exfalso
    have hh := (hent e h1).head
    rw [h2] at hh
    have key : ∀ {t0 n : Nat} {hb rest : Bytes}, F.drop x.off = hb ++ rest → EncodesHeader t0 n hb → hb.length ≤ 10 → (1 ≤ t0 ∧ t0 ≤ 4) ∨ t0 = 6 ∨ t0 = 7 → False := by
      intro t0 n hb rest e1 e2 e3 hcase
      unfold openEnt at hh
      rw [(unpackHeader1_ok _ t0 (n % 2 ^ 64) hb.length).mpr ⟨hb, rest, n, e1, e2, e3, rfl, rfl⟩, Res.bind_ok] at hh
      dsimp only at hh
      have hw := (isDelta_whole e).mp h3
      unfold Whole at hw
      by_cases c7 : t0 = 7
      · rw [if_pos c7] at hh
        simp only [Res.ok.injEq, Prod.mk.injEq] at hh
        omega
      · rw [if_neg c7] at hh
        by_cases c6 : t0 = 6
        · rw [if_pos c6] at hh
          cases hb' : ofsBase (F.drop (x.off + hb.length)) x.off with
          | err y => rw [hb'] at hh; cases hh
          | ub => rw [hb'] at hh; cases hh
          | ok b =>
            rw [hb', Res.bind_ok] at hh
            simp only [Res.ok.injEq, Prod.mk.injEq] at hh
            omega
        · rw [if_neg c6] at hh
          simp only [Res.ok.injEq, Prod.mk.injEq] at hh
          omega
    cases he with
    | whole e1 e2 e3 e4 e5 e6 => exact key e1 e2 e3 (by omega)
    | delta e1 e2 e3 e4 e5 e6 e7 e8 =>
      refine key e1 e2 e3 ?_
      cases e5 with
      | ofs => exact .inr (.inl rfl)
      | ref => exact .inr (.inr rfl)
  · have h1' := entry_mono hm h1
    obtain ⟨rfl, rfl⟩ := C52_unique ⟨F, fun _ => F.length, find, infl E, -1⟩ ⟨hF, fun _ => .inr (by show F.length - _ ≤ F.length; omega)⟩ x.off _ _ _ _ h1' he
    refine ⟨ids, h2, fun r hr => ?_⟩
    rcases h3 with h3 | h3
    · rw [hk] at h3; cases h3
    · rcases h3 r hr with g | g | g
      · exact .inl g
      · cases g
      · right
        cases hf : findIn ix.objects r with
        | none => rw [hf] at g; cases g
        | some b =>
          obtain ⟨y, hy, hy2⟩ := List.mem_map.mp (findIn_mem hf)
          simp only [Prod.mk.injEq] at hy2
          exact List.mem_map.mpr ⟨y, hy, hy2.1⟩

end Verif.Indexer
