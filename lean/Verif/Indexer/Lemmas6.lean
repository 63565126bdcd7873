import Verif.Indexer.Lemmas5
import Verif.Pack.Props
import Verif.PackIdx.Props
import Verif.Loose.Props
import Verif.Sort.Props
/-! # What is saved -/
namespace Verif.Indexer
open Spec Verif.Pack Verif.Pack.Spec

/-- the decompressor of `view` -/
abbrev infl (E : Env) : Bytes → Option Bytes := contents E.inflate

theorem src_view (E : Env) (s : St) : src (view E s) = ⟨s.file, lookup s, infl E⟩ := rfl

theorem winOk_view (E : Env) (s : St) (h : s.file.length < 2 ^ 63) : WinOk (view E s) :=
  ⟨h, fun _ => .inr (by show s.file.length - _ ≤ s.file.length; omega)⟩

/-- an entry means the same when more objects are found -/
theorem entry_mono {f : Bytes} {find find' : Bytes → Option Nat} {inf : Bytes → Option Bytes} (hf : ∀ id b, id.length = 20 → find id = some b → find' id = some b) {off t : Nat} {d : Bytes}
    (h : (⟨f, find, inf⟩ : Source).Entry off t d) : (⟨f, find', inf⟩ : Source).Entry off t d := by
  induction h with
  | whole e1 e2 e3 e4 e5 e6 => exact .whole e1 e2 e3 e4 e5 e6
  | @delta off t n size h rest base pos tb db dl out e1 e2 e3 e4 e5 e6 e7 e8 ih =>
    refine .delta e1 e2 e3 e4 (base := base) (pos := pos) (db := db) ?_ ih e7 e8
    cases e5 with
    | ofs bs rest g1 g2 g3 g4 g5 => exact .ofs bs rest g1 g2 g3 g4 g5
    | ref base g1 g2 g3 =>
      refine .ref base g1 (hf _ _ ?_ g2) g3
      have : off + h.length + 20 ≤ f.length := g1
      show ((f.drop (off + h.length)).take 20).length = 20
      rw [List.length_take, List.length_drop]
      omega

/-- what was saved for the entry `e` -/
structure Saved (E : Env) (F : Bytes) (find : Bytes → Option Nat) (e : Ent) (x : PackIdx.Entry) : Prop where
  off : x.off = e.off
  crc : x.crc = crcOf E F e
  whole : isDelta e.type = false → objectId E e.type e.size e.data = .ok x.id
  delta : isDelta e.type = true → ∃ t d, (⟨F, find, infl E⟩ : Source).Entry e.off t d ∧ Loose.hashObj E.sha ⟨t, d.length, d⟩ = .ok x.id

theorem saved_mono {E : Env} {F : Bytes} {find find' : Bytes → Option Nat} {e : Ent} {x : PackIdx.Entry} (hf : ∀ id b, id.length = 20 → find id = some b → find' id = some b)
    (h : Saved E F find e x) : Saved E F find' e x :=
  ⟨h.off, h.crc, h.whole, fun hd => by obtain ⟨t, d, h1, h2⟩ := h.delta hd; exact ⟨t, d, entry_mono hf h1, h2⟩⟩

def findIn (l : List PackIdx.Entry) (id : Bytes) : Option Nat := (l.find? fun e => e.id == id).map fun e => e.off

theorem findIn_mono (l l' : List PackIdx.Entry) (id : Bytes) (b : Nat) (h : findIn l id = some b) : findIn (l ++ l') id = some b := by
  unfold findIn at h ⊢
  rw [List.find?_append]
  cases hx : l.find? fun e => e.id == id with
  | none => rw [hx] at h; cases h
  | some x => rw [hx] at h; exact h

/-- the objects saved for `ents`, where the offsets in `pend` wait to be resolved -/
structure Stored (E : Env) (F : Bytes) (ents : List Ent) (ix : PackIdx.Indexer) (indexed : Nat) (pend : List Nat) : Prop where
  saved : ∃ es, PackIdx.saveAll es {} = .ok ix
  count : indexed = ix.objects.length
  perm : (ix.objects.map (·.off) ++ pend).Perm (ents.map (·.off))
  each : ∀ x ∈ ix.objects, ∃ e ∈ ents, Saved E F (findIn ix.objects) e x
  wait : ∀ o ∈ pend, ∃ e ∈ ents, e.off = o ∧ isDelta e.type = true

theorem saveAll_append (a b : List PackIdx.Entry) : ∀ s, PackIdx.saveAll (a ++ b) s = PackIdx.saveAll a s >>= PackIdx.saveAll b := by
  induction a with
  | nil => intro s; rfl
  | cons e a ih =>
    intro s
    show (PackIdx.saveEntry s e >>= PackIdx.saveAll (a ++ b)) = (PackIdx.saveEntry s e >>= PackIdx.saveAll a) >>= PackIdx.saveAll b
    cases PackIdx.saveEntry s e with
    | err e => rfl
    | ub => rfl
    | ok s => exact ih s

theorem saveEntry_objects {ix ix' : PackIdx.Indexer} {x : PackIdx.Entry} (h : PackIdx.saveEntry ix x = .ok ix') : ix'.objects = ix.objects ++ [x] := by
  unfold PackIdx.saveEntry at h
  split at h
  · cases h
  · split at h
    · cases h
    · cases h; rfl

/-- one more object -/
theorem stored_save {E : Env} {F : Bytes} {ents ents' : List Ent} {ix ix' : PackIdx.Indexer} {n : Nat} {pend pend' : List Nat} {x : PackIdx.Entry} (S : Stored E F ents ix n pend)
    (h : PackIdx.saveEntry ix x = .ok ix') (hsub : ∀ e ∈ ents, e ∈ ents') (hp : (x.off :: (ix.objects.map (·.off) ++ pend')).Perm (ents'.map (·.off)))
    (hw : ∀ o ∈ pend', o ∈ pend) (hx : ∃ e ∈ ents', Saved E F (findIn ix.objects) e x) : Stored E F ents' ix' (n + 1) pend' := by
  have ho := saveEntry_objects h
  obtain ⟨es, hes⟩ := S.saved
  have hm : ∀ id b, id.length = 20 → findIn ix.objects id = some b → findIn ix'.objects id = some b := by
    intro id b _ hb
    rw [ho]
    exact findIn_mono _ _ _ _ hb
  refine ⟨⟨es ++ [x], ?_⟩, ?_, ?_, ?_, ?_⟩
  · rw [saveAll_append, hes, Res.bind_ok]
    show (PackIdx.saveEntry ix x >>= PackIdx.saveAll []) = _
    rw [h]; rfl
  · rw [ho, List.length_append, S.count]; rfl
  · rw [ho, List.map_append, List.append_assoc]
    refine List.Perm.trans ?_ hp
    exact List.perm_middle
  · intro y hy
    rw [ho] at hy
    rcases List.mem_append.mp hy with h' | h'
    · obtain ⟨e, he, hs⟩ := S.each y h'
      exact ⟨e, hsub e he, saved_mono hm hs⟩
    · rw [List.mem_singleton.mp h']
      obtain ⟨e, he, hs⟩ := hx
      exact ⟨e, he, saved_mono hm hs⟩
  · intro o h'
    obtain ⟨e, he, g⟩ := S.wait o (hw o h')
    exact ⟨e, hsub e he, g⟩

theorem stored_delta {E : Env} {F : Bytes} {ents : List Ent} {ix : PackIdx.Indexer} {n : Nat} {pend : List Nat} (S : Stored E F ents ix n pend) (e : Ent) (hd : isDelta e.type = true) :
    Stored E F (ents ++ [e]) ix n (pend ++ [e.off]) := by
  refine ⟨S.saved, S.count, ?_, fun x hx => ?_, fun o ho => ?_⟩
  · rw [List.map_append, ← List.append_assoc]
    exact S.perm.append_right _
  · obtain ⟨y, hy, hs⟩ := S.each x hx
    exact ⟨y, List.mem_append_left _ hy, hs⟩
  · rcases List.mem_append.mp ho with h | h
    · obtain ⟨y, hy, g⟩ := S.wait o h
      exact ⟨y, List.mem_append_left _ hy, g⟩
    · exact ⟨e, by simp, (List.mem_singleton.mp h).symm, hd⟩

theorem stored_put {E : Env} {F : Bytes} {ents : List Ent} {c c' : Core} {e : Ent} (S : Stored E F ents c.ix c.indexed c.deltas) (h : put E F c e = .ok c') :
    Stored E F (ents ++ [e]) c'.ix c'.indexed c'.deltas := by
  unfold put at h
  by_cases hd : isDelta e.type = true
  · rw [if_pos hd] at h
    cases h
    exact stored_delta S e hd
  · rw [if_neg hd] at h
    cases ho : objectId E e.type e.size e.data with
    | err x => rw [ho] at h; cases h
    | ub => rw [ho] at h; cases h
    | ok id =>
      rw [ho, Res.bind_ok] at h
      cases hv : verifyExp E c.ix c.expected e.type e.data with
      | err x => rw [hv] at h; cases h
      | ub => rw [hv] at h; cases h
      | ok exp =>
        rw [hv, Res.bind_ok] at h
        cases hs : PackIdx.saveEntry c.ix ⟨id, crcOf E F e, e.off⟩ with
        | err x => rw [hs] at h; cases h
        | ub => rw [hs] at h; cases h
        | ok ix =>
          rw [hs, Res.bind_ok] at h
          cases h
          refine stored_save S hs (fun x hx => List.mem_append_left _ hx) ?_ (fun o ho => ho) ⟨e, by simp, rfl, rfl, fun _ => ho, fun h' => absurd h' hd⟩
          rw [List.map_append]
          exact (S.perm.cons e.off).trans (List.perm_append_comm (l₁ := [e.off]))

theorem stored_putAll {E : Env} {F : Bytes} (l : List Ent) : ∀ {ents : List Ent} {c c' : Core}, Stored E F ents c.ix c.indexed c.deltas → putAll E F l c = .ok c' →
    Stored E F (ents ++ l) c'.ix c'.indexed c'.deltas := by
  induction l with
  | nil => intro ents c c' S h; cases h; rw [List.append_nil]; exact S
  | cons e l ih =>
    intro ents c c' S h
    have h : (put E F c e >>= putAll E F l) = .ok c' := h
    cases hp : put E F c e with
    | err x => rw [hp] at h; cases h
    | ub => rw [hp] at h; cases h
    | ok c1 =>
      rw [hp, Res.bind_ok] at h
      have := ih (stored_put S hp) h
      rwa [List.append_assoc] at this

theorem stored_start (E : Env) (F : Bytes) : Stored E F [] {} 0 [] :=
  ⟨⟨[], rfl⟩, rfl, .refl _, (fun x hx => nomatch hx), (fun x hx => nomatch hx)⟩

/-! ## resolving -/

/-- where the entry of a delta that was unpacked ends -/
theorem entryEnd_eq {E : Env} {s : St} {e : Ent} {fuel : Nat} {x : Raw × List (Nat × Raw)} (he : EntF E s.file e) (hd : isDelta e.type = true)
    (hu : unpack (view E s) (fun _ _ => none) fuel e.off = some (.ok x)) : entryEnd E s e.off = e.stop := by
  have hh := he.head
  unfold openEnt at hh
  have hv := view_header E s e.off
  cases hu1 : unpackHeader1 (s.file.drop e.off) with
  | err y => rw [hu1] at hh; cases hh
  | ub => rw [hu1] at hh; cases hh
  | ok r =>
    obtain ⟨t, z, u⟩ := r
    rw [hu1, Res.bind_ok] at hh
    rw [hu1] at hv
    dsimp only at hh hv
    have hstart : ∃ base, getDeltaBase (view E s) (e.off + u) t e.off = .ok (base, e.start) := by
      have hg : ∃ b, getDeltaBase (view E s) (e.off + u) t e.off = .ok b := by
        have htd : isDelta t = true := by
          by_cases h7 : t = 7
          · subst h7; rfl
          · rw [if_neg h7] at hh
            by_cases h6 : t = 6
            · subst h6; rfl
            · rw [if_neg h6] at hh
              simp only [Res.ok.injEq, Prod.mk.injEq] at hh
              rw [hh.1]
              exact hd
        unfold unpack at hu
        cases hc : chain (view E s) (fun _ _ => none) fuel 0 e.off [] with
        | none => rw [hc] at hu; cases hu
        | some y =>
          rw [hc] at hu
          cases y with
          | err y => cases hu
          | ub => cases hu
          | ok y =>
            cases fuel with
            | zero => cases hc
            | succ fuel =>
              unfold chain at hc
              dsimp only at hc
              rw [hv] at hc
              dsimp only at hc
              rw [if_neg (by rw [htd]; decide)] at hc
              cases hb : getDeltaBase (view E s) (e.off + u) t e.off with
              | ok b => exact ⟨b, rfl⟩
              | err y => rw [hb] at hc; cases hc
              | ub => rw [hb] at hc; cases hc
      obtain ⟨⟨base, pos⟩, hg⟩ := hg
      refine ⟨base, ?_⟩
      by_cases h7 : t = 7
      · subst h7
        rw [if_pos rfl] at hh
        have hst : e.start = e.off + u + 20 := by
          simp only [Res.ok.injEq, Prod.mk.injEq] at hh
          omega
        have hg' := hg
        unfold getDeltaBase at hg'
        cases hwo : (view E s).windowOpen (e.off + u) with
        | none => rw [hwo] at hg'; cases hg'
        | some w =>
          rw [hwo] at hg'
          dsimp only at hg'
          rw [if_neg (by decide), if_pos (by decide)] at hg'
          by_cases hl : w.length < OIDSZ
          · rw [if_pos hl] at hg'; cases hg'
          · rw [if_neg hl] at hg'
            cases hf : (view E s).find (w.take OIDSZ) with
            | none => rw [hf] at hg'; cases hg'
            | some b =>
              rw [hf] at hg'
              dsimp only at hg'
              by_cases hb0 : b = 0
              · rw [if_pos hb0] at hg'; cases hg'
              · rw [if_neg hb0] at hg'
                have h2 := Res.ok.inj hg'
                simp only [Prod.mk.injEq] at h2
                rw [hg, hst, ← h2.2]
                rfl
      · rw [if_neg h7] at hh
        by_cases h6 : t = 6
        · subst h6
          rw [if_pos rfl] at hh
          rw [view_ofs] at hg ⊢
          by_cases hl : s.file.length < e.off + u + 20
          · rw [if_pos hl] at hg; cases hg
          · rw [if_neg hl] at hg ⊢
            cases hb : ofsBase (s.file.drop (e.off + u)) e.off with
            | err y => rw [hb] at hg; cases hg
            | ub => rw [hb] at hg; cases hg
            | ok b =>
              rw [hb] at hh hg
              rw [Res.bind_ok] at hh hg ⊢
              simp only [Res.ok.injEq, Prod.mk.injEq] at hh
              by_cases hb0 : b.1 = 0
              · rw [if_pos hb0] at hg; cases hg
              · rw [if_neg hb0] at hg ⊢
                simp only [Res.ok.injEq, Prod.mk.injEq] at hg ⊢
                omega
        · rw [if_neg h6] at hh
          exfalso
          simp only [Res.ok.injEq, Prod.mk.injEq] at hh
          rw [← hh.1] at hd
          simp [isDelta, OFS_DELTA, REF_DELTA, h6, h7] at hd
    obtain ⟨base, hb⟩ := hstart
    unfold entryEnd
    rw [hv]
    dsimp only
    rw [hb]
    dsimp only
    rw [he.stream]
    have := he.after
    show e.start + (e.stop - e.start) = e.stop
    omega

/-- verifying only changes the expected ids -/
theorem verified_ok {E : Env} {s s' : St} {t : Nat} {d : Bytes} (h : verified E s t d = .ok s') : s' = { s with expected := s'.expected } := by
  rw [verified_eq] at h
  cases hv : verifyExp E s.ix s.expected t d with
  | err x => rw [hv] at h; cases h
  | ub => rw [hv] at h; cases h
  | ok exp => rw [hv, Res.bind_ok] at h; cases h; rfl

/-- what `resolve_deltas` leaves alone -/
structure Quiet (s s' : St) : Prop where
  file : s'.file = s.file
  nr : s'.nr = s.nr
  injected : s'.injected = s.injected

theorem resolveOne_cases {E : Env} {fuel : Nat} {s s' : St} {o : Nat} {r : Bool} (h : resolveOne E fuel s o = some (.ok (s', r))) :
    Quiet s s' ∧
    ((r = false ∧ s'.ix = s.ix ∧ s'.indexed = s.indexed ∧ (s'.expected = s.expected ∨
       ∃ t d a, unpack (view E s) (fun _ _ => none) fuel o = some (.ok ((t, d), a)) ∧ verifyExp E s.ix s.expected t d = .ok s'.expected ∧
         ((∃ x, Loose.hashObj E.sha ⟨t, d.length, d⟩ = .err x) ∨
          ∃ id x, Loose.hashObj E.sha ⟨t, d.length, d⟩ = .ok id ∧ PackIdx.saveEntry s.ix ⟨id, crcObject E s o (entryEnd E s o), o⟩ = .err x))) ∨
     (r = true ∧ s'.indexed = s.indexed + 1 ∧ ∃ t d a id, unpack (view E s) (fun _ _ => none) fuel o = some (.ok ((t, d), a)) ∧ Loose.hashObj E.sha ⟨t, d.length, d⟩ = .ok id ∧
       PackIdx.saveEntry s.ix ⟨id, crcObject E s o (entryEnd E s o), o⟩ = .ok s'.ix ∧ verifyExp E s.ix s.expected t d = .ok s'.expected)) := by
  unfold resolveOne at h
  cases hu : unpack (view E s) (fun _ _ => none) fuel o with
  | none => rw [hu] at h; cases h
  | some x =>
    rw [hu] at h
    cases x with
    | ub => cases h
    | err e =>
      simp only [Option.some.injEq] at h
      by_cases he : e = PASSTHROUGH
      · rw [if_pos he] at h; cases h; exact ⟨⟨rfl, rfl, rfl⟩, .inl ⟨rfl, rfl, rfl, .inl rfl⟩⟩
      · rw [if_neg he] at h; cases h
    | ok x =>
      obtain ⟨⟨t, d⟩, a⟩ := x
      dsimp only at h
      cases hv : verified E s t d with
      | ub => rw [hv] at h; cases h
      | err e => rw [hv] at h; cases h; exact ⟨⟨rfl, rfl, rfl⟩, .inl ⟨rfl, rfl, rfl, .inl rfl⟩⟩
      | ok s1 =>
        rw [hv] at h
        have h1 := verified_ok hv
        have hve : verifyExp E s.ix s.expected t d = .ok s1.expected := by
          rw [verified_eq] at hv
          cases hx : verifyExp E s.ix s.expected t d with
          | err x => rw [hx] at hv; cases hv
          | ub => rw [hx] at hv; cases hv
          | ok exp => rw [hx, Res.bind_ok] at hv; rw [← Res.ok.inj hv]
        dsimp only at h
        generalize s1.expected = ex at h1 hve
        subst h1
        have hhs : hashAndSave E { s with expected := ex } t d o = Loose.hashObj E.sha ⟨t, d.length, d⟩ >>= fun id =>
            PackIdx.saveEntry s.ix ⟨id, crcObject E s o (entryEnd E s o), o⟩ >>= fun ix => .ok { s with expected := ex, ix := ix } := rfl
        rw [hhs] at h
        cases hid : Loose.hashObj E.sha ⟨t, d.length, d⟩ with
        | ub => rw [hid] at h; cases h
        | err e =>
          rw [hid] at h
          cases h
          exact ⟨⟨rfl, rfl, rfl⟩, .inl ⟨rfl, rfl, rfl, .inr ⟨t, d, a, rfl, hve, .inl ⟨e, hid⟩⟩⟩⟩
        | ok id =>
          rw [hid, Res.bind_ok] at h
          cases hs : PackIdx.saveEntry s.ix ⟨id, crcObject E s o (entryEnd E s o), o⟩ with
          | ub => rw [hs] at h; cases h
          | err e =>
            rw [hs] at h
            cases h
            exact ⟨⟨rfl, rfl, rfl⟩, .inl ⟨rfl, rfl, rfl, .inr ⟨t, d, a, rfl, hve, .inr ⟨id, e, hid, hs⟩⟩⟩⟩
          | ok ix =>
            rw [hs, Res.bind_ok] at h
            cases h
            exact ⟨⟨rfl, rfl, rfl⟩, .inr ⟨rfl, rfl, t, d, a, id, rfl, hid, hs, hve⟩⟩

/-- a delta that is resolved -/
theorem stored_resolve {E : Env} {F : Bytes} (hF : F.length < 2 ^ 63) {ents : List Ent} (hent : ∀ e ∈ ents, EntF E F e) {fuel : Nat} {s s' : St} {o : Nat} {r : Bool} {a b : List Nat}
    (hf : s.file = F) (S : Stored E F ents s.ix s.indexed (a ++ o :: b)) (h : resolveOne E fuel s o = some (.ok (s', r))) :
    Stored E F ents s'.ix s'.indexed (if r then a ++ b else a ++ o :: b) := by
  obtain ⟨_, hc⟩ := resolveOne_cases h
  rcases hc with ⟨rfl, g1, g2, _⟩ | ⟨rfl, g1, t, d, ad, id, g2, g3, g4, _⟩
  · rw [g1, g2]; exact S
  · rw [if_pos rfl, g1]
    obtain ⟨e, he, heo, hd⟩ := S.wait o (by simp)
    subst heo
    refine stored_save S g4 (fun _ h => h) ?_ (fun x hx => ?_) ⟨e, he, rfl, ?_, (fun h' => by rw [hd] at h'; cases h'), fun _ => ⟨t, d, ?_, g3⟩⟩
    · refine List.Perm.trans ?_ S.perm
      refine List.Perm.trans (List.perm_middle (a := e.off)).symm ?_
      exact List.Perm.append_left _ (List.perm_middle (a := e.off)).symm
    · simp only [List.mem_append, List.mem_cons] at hx ⊢
      rcases hx with hx | hx
      · exact .inl hx
      · exact .inr (.inr hx)
    · show crcObject E s e.off (entryEnd E s e.off) = _
      rw [entryEnd_eq (by rw [hf]; exact hent e he) hd g2]
      unfold crcObject crcOf
      rw [hf]
    · have := (C52_unpack (view E s) (winOk_view E s (by rw [hf]; exact hF)) (fun _ _ => none) (fun k off raw h => by cases h) fuel e.off t d ad g2).1
      rw [src_view, hf] at this
      exact this

theorem stored_keeps {E : Env} {F : Bytes} (hF : F.length < 2 ^ 63) {ents : List Ent} (hent : ∀ e ∈ ents, EntF E F e) (fuel : Nat) :
    (∀ (s s' : St) (o : Nat) (r : Bool) (a b : List Nat), s.file = F → Stored E F ents s.ix s.indexed (a ++ o :: b) → resolveOne E fuel s o = some (.ok (s', r)) →
      Stored E F ents s'.ix s'.indexed (if r then a ++ b else a ++ o :: b)) :=
  fun _ _ _ _ _ _ hf S h => stored_resolve hF hent hf S h

theorem pass_quiet {E : Env} {fuel : Nat} : ∀ (ds : List Nat) {s s' : St} {left : List Nat} {r : Bool}, resolvePass E fuel ds s = some (.ok (s', left, r)) → Quiet s s' := by
  intro ds
  induction ds with
  | nil => intro s s' left r h; cases h; exact ⟨rfl, rfl, rfl⟩
  | cons o ds ih =>
    intro s s' left r h
    unfold resolvePass at h
    cases ho : resolveOne E fuel s o with
    | none => rw [ho] at h; cases h
    | some x =>
      rw [ho] at h
      cases x with
      | ub => cases h
      | err e => cases h
      | ok x =>
        obtain ⟨s1, r1⟩ := x
        dsimp only at h
        have q := (resolveOne_cases ho).1
        cases hr : resolvePass E fuel ds s1 with
        | none => rw [hr] at h; cases h
        | some y =>
          rw [hr] at h
          cases y with
          | ub => cases h
          | err e => cases h
          | ok y =>
            obtain ⟨s2, l2, r2⟩ := y
            have := ih hr
            cases h
            exact ⟨this.file.trans q.file, this.nr.trans q.nr, this.injected.trans q.injected⟩

/-- a property of the states that resolving keeps -/
structure Keeps (E : Env) (F : Bytes) (fuel : Nat) (P : St → List Nat → Prop) : Prop where
  one : ∀ (s s' : St) (o : Nat) (r : Bool) (a b : List Nat), s.file = F → P s (a ++ o :: b) → resolveOne E fuel s o = some (.ok (s', r)) → P s' (if r then a ++ b else a ++ o :: b)
  deltas : ∀ (s : St) (l pend : List Nat), P s pend → P { s with deltas := l } pend

theorem pass_inv {E : Env} {F : Bytes} {fuel : Nat} {P : St → List Nat → Prop} (K : Keeps E F fuel P) : ∀ (ds : List Nat) {a : List Nat} {s s' : St}
    {left : List Nat} {r : Bool}, s.file = F → P s (a ++ ds) → resolvePass E fuel ds s = some (.ok (s', left, r)) → P s' (a ++ left) := by
  intro ds
  induction ds with
  | nil => intro a s s' left r hf S h; cases h; exact S
  | cons o ds ih =>
    intro a s s' left r hf S h
    unfold resolvePass at h
    cases ho : resolveOne E fuel s o with
    | none => rw [ho] at h; cases h
    | some x =>
      rw [ho] at h
      cases x with
      | ub => cases h
      | err e => cases h
      | ok x =>
        obtain ⟨s1, r1⟩ := x
        dsimp only at h
        have q := (resolveOne_cases ho).1
        have S1 := K.one _ _ _ _ _ _ hf S ho
        cases hr : resolvePass E fuel ds s1 with
        | none => rw [hr] at h; cases h
        | some y =>
          rw [hr] at h
          cases y with
          | ub => cases h
          | err e => cases h
          | ok y =>
            obtain ⟨s2, l2, r2⟩ := y
            cases r1 with
            | true =>
              have := ih (a := a) (by rw [q.file]; exact hf) S1 hr
              cases h
              exact this
            | false =>
              have := ih (a := a ++ [o]) (by rw [q.file]; exact hf) (by rw [List.append_assoc]; exact S1) hr
              cases h
              rw [List.append_assoc] at this
              exact this

theorem objectHeader_pos {size type : Nat} {h : Bytes} (he : Pack.objectHeader size type = .ok h) : 0 < h.length := by
  unfold Pack.objectHeader at he
  split at he
  · cases he
  · cases he
    rw [List.length_map]
    unfold headerLoop
    split <;> simp

theorem fix_cases {E : Env} {s s' : St} (h : fixThinPack E s = .ok s') : s' = s ∨ s.file.length < s'.file.length := by
  unfold fixThinPack at h
  cases ho : E.odb with
  | none => rw [ho] at h; cases h
  | some odb =>
    rw [ho] at h
    dsimp only at h
    cases hr : firstRef E s s.deltas with
    | err e => rw [hr] at h; cases h
    | ub => rw [hr] at h; cases h
    | ok pos =>
      rw [hr, Res.bind_ok] at h
      split at h
      · cases h
      · split at h
        · cases h; exact .inl rfl
        · right
          unfold inject at h
          split at h
          · cases h
          · rename_i type data _
            cases hh : Pack.objectHeader data.length type with
            | err e => rw [hh] at h; cases h
            | ub => rw [hh] at h; cases h
            | ok hdr =>
              rw [hh, Res.bind_ok] at h
              dsimp only at h
              have hp := objectHeader_pos hh
              generalize hsv : PackIdx.saveEntry s.ix _ = sv at h
              cases sv with
              | err e => cases h
              | ub => cases h
              | ok ix =>
                rw [Res.bind_ok] at h
                cases h
                show s.file.length < (s.file.take (s.file.length - 20) ++ (hdr ++ E.deflate data) ++ List.replicate 20 0).length
                rw [List.length_append, List.length_append, List.length_append, List.length_take, List.length_replicate]
                omega

/-- `resolve_deltas`: all deltas are saved, or the file has grown -/
theorem resolve_inv {E : Env} {F : Bytes} {fuel : Nat} {P : St → List Nat → Prop} (K : Keeps E F fuel P) : ∀ (turns : Nat) {s s' : St},
    (s.file = F ∧ s.injected = 0 ∧ P s s.deltas) ∨ F.length < s.file.length → resolveDeltas E fuel turns s = some (.ok s') →
    s'.nr = s.nr ∧ ((s'.file = F ∧ s'.injected = 0 ∧ P s' []) ∨ F.length < s'.file.length) := by
  intro turns
  induction turns with
  | zero => intro s s' _ h; cases h
  | succ turns ih =>
    intro s s' H h
    unfold resolveDeltas at h
    by_cases hd : s.deltas = []
    · rw [if_pos hd] at h
      cases h
      rw [hd] at H
      exact ⟨rfl, H⟩
    · rw [if_neg hd] at h
      cases hp : resolvePass E fuel s.deltas s with
      | none => rw [hp] at h; cases h
      | some x =>
        rw [hp] at h
        cases x with
        | ub => cases h
        | err e => cases h
        | ok x =>
          obtain ⟨s1, left, r⟩ := x
          dsimp only at h
          have q := pass_quiet _ hp
          have H1 : (s1.file = F ∧ s1.injected = 0 ∧ P s1 left) ∨ F.length < s1.file.length := by
            rcases H with ⟨g1, g2, g3⟩ | g
            · exact .inl ⟨by rw [q.file]; exact g1, by rw [q.injected]; exact g2, pass_inv K _ (a := []) g1 g3 hp⟩
            · exact .inr (by rw [q.file]; exact g)
          by_cases hr : r = true
          · rw [if_pos hr] at h
            have := ih (s := { s1 with deltas := left }) (H1.imp_left fun g => ⟨g.1, g.2.1, K.deltas _ _ _ g.2.2⟩) h
            exact ⟨this.1.trans q.nr, this.2⟩
          · rw [if_neg hr] at h
            cases hx : fixThinPack E { s1 with deltas := left } with
            | err e => rw [hx] at h; cases h
            | ub => rw [hx] at h; cases h
            | ok s2 =>
              rw [hx] at h
              dsimp only at h
              rcases fix_cases hx with h2 | h2
              · rw [h2] at h
                have := ih (s := { s1 with deltas := left }) (H1.imp_left fun g => ⟨g.1, g.2.1, K.deltas _ _ _ g.2.2⟩) h
                exact ⟨this.1.trans q.nr, this.2⟩
              · have h3 : F.length < s2.file.length := by
                  have h2 : s1.file.length < s2.file.length := h2
                  rcases H1 with ⟨g1, _⟩ | g
                  · rw [← g1]; exact h2
                  · omega
                have hn : s2.nr = s1.nr := by
                  unfold fixThinPack at hx
                  cases ho : E.odb with
                  | none => rw [ho] at hx; cases hx
                  | some odb =>
                    rw [ho] at hx
                    dsimp only at hx
                    generalize firstRef E _ left = fr at hx
                    cases fr with
                    | err e => cases hx
                    | ub => cases hx
                    | ok pos =>
                      rw [Res.bind_ok] at hx
                      split at hx
                      · cases hx
                      · split at hx
                        · cases hx; rfl
                        · unfold inject at hx
                          split at hx
                          · cases hx
                          · rename_i type data _
                            cases hh : Pack.objectHeader data.length type with
                            | err e => rw [hh] at hx; cases hx
                            | ub => rw [hh] at hx; cases hx
                            | ok hdr =>
                              rw [hh, Res.bind_ok] at hx
                              dsimp only at hx
                              generalize hsv : PackIdx.saveEntry s1.ix _ = sv at hx
                              cases sv with
                              | err e => cases hx
                              | ub => cases hx
                              | ok ix => rw [Res.bind_ok] at hx; cases hx; rfl
                have := ih (s := s2) (.inr h3) h
                exact ⟨this.1.trans (hn.trans q.nr), this.2⟩

end Verif.Indexer
