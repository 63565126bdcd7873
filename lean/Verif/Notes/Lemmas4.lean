import Verif.Notes.Lemmas3
import Verif.Oid.Props
/-! # Reading notes; one call -/
namespace Verif.Notes
open Spec IndexTree
open IndexTree.Spec (Collisionless NotNull)

theorem findBlob_spec {t : Bytes} : ∀ {es : List Tree.Entry}, (es.map (·.name)).Nodup → ∀ {e : Tree.Entry}, e ∈ es → e.name = t → findBlob t es = .ok e.oid := by
  intro es
  induction es with
  | nil => intro _ e h; cases h
  | cons x es ih =>
    intro hnd e he hn
    simp only [List.map_cons, List.nodup_cons, List.mem_map, not_exists, not_and] at hnd
    unfold findBlob
    rcases List.mem_cons.mp he with rfl | he
    · rw [if_pos hn]
    · rw [if_neg (fun h => hnd.1 e he (hn.trans h.symm))]
      exact ih hnd.2 he hn

theorem findSubtree_spec {pure : Prop} {k n : Nat} {odb blobs : Odb} {es : List Tree.Entry} (h : NoteTree pure k odb blobs n es) : ∀ {t : Bytes}, (∀ c ∈ t, Digit c) → t.length = n → t ≠ [] →
    (∃ sub rest i b, findSubtree odb t es = .ok (sub, rest) ∧ findBlob rest sub = .ok i ∧ At odb es t i ∧ readObj blobs i = some b) ∨
    (findSubtree odb t es = .err ENOTFOUND ∧ ∀ i, ¬ At odb es t i) := by
  induction h with
  | @mk n es h1 h2 h3 h4 h5 h6 h7 h8 h9 ih =>
    intro t ht hn h0
    have hhex : ishex t = true := ishex_iff.mpr (fun c hc => digit_any c (ht c hc))
    by_cases hd : ∃ e ∈ es, e.isTree = true ∧ e.name.length = 2 ∧ e.name = t.take 2
    · obtain ⟨e, he1, he2, hel, he3⟩ := hd
      rcases t with _ | ⟨a, _ | ⟨b, t⟩⟩
      · exact absurd rfl h0
      · rw [he3] at hel; cases hel
      · have he3 : e.name = [a, b] := he3
        have hed : ∀ c ∈ e.name, AnyDigit c := by
          intro c hc; rw [he3] at hc
          exact digit_any c (ht c (by simp only [List.mem_cons, List.not_mem_nil, or_false] at hc ⊢; rcases hc with h | h <;> simp [h]))
        obtain ⟨sub, hs⟩ := h6 e he1 he2 (by rw [he3]; rfl) hed
        have hne : ∀ x ∈ es, x.name ≠ a :: b :: t := fun x hx hxn => h8 e he1 he2 (by rw [he3]; rfl) x hx (by rw [hxn]; exact hn)
            (by rw [hxn]; exact fun c hc => digit_any c (ht c hc)) (by rw [he3, hxn]; exact ⟨t, rfl⟩)
        have hn2' : n ≠ 2 := fun hx => by
          have := (h5 e he1 (by rw [he3, hx]; rfl) hed).1
          rw [he2] at this; cases this
        have hfs : findSubtree odb (a :: b :: t) es = findSubtree odb t sub := by
          rw [findSubtree, findLevel_sub he2 (by rw [he3]; rfl) (by rw [he3]; rfl) (ishex_iff.mpr hed) h1 hne he1, hs]
        rcases ih e he1 he2 (by rw [he3]; rfl) hed sub hs (t := t) (fun c hc => ht c (by simp [hc])) (by rw [← hn]; simp) (fun hx => hn2' (by rw [← hn, hx]; rfl)) with
          ⟨s', r', i, b', g1, g2, g3, g4⟩ | ⟨g1, g2⟩
        · exact Or.inl ⟨s', r', i, b', hfs.trans g1, g2, .inside he1 he2 he3 hs g3, g4⟩
        · refine Or.inr ⟨hfs.trans g1, ?_⟩
          intro i hi
          generalize htt : (a :: b :: t : Bytes) = tt at hi
          cases hi with
          | @here _ x g1 g2 => exact absurd htt.symm (hne x g1)
          | @inside _ sub2 x _ _ _ _ k1 k2 k3 k4 k5 =>
            cases htt
            have := nodup_inj h1 k1 he1 (k3.trans he3.symm)
            subst this
            rw [hs] at k4; cases k4
            exact g2 i k5
    · have hnd : ∀ e ∈ es, ishex e.name = true → e.isTree = true → e.name.length = 2 → e.name ≠ t.take 2 := fun e g1 _ g2 g3 g4 => hd ⟨e, g1, g2, g3, g4⟩
      have hf : ∀ x, findLevel odb t es = .err x → findSubtree odb t es = if x = EEXISTS then .ok (es, t) else .err x := by
        intro x hx
        rcases t with _ | ⟨a, _ | ⟨b, t⟩⟩ <;> rw [findSubtree, hx] <;> simp
      by_cases hthere : ∃ e ∈ es, e.name = t
      · have hfl := hf _ (findLevel_there hhex hnd hthere)
        obtain ⟨e, g1, g2⟩ := hthere
        obtain ⟨g3, b, g4⟩ := h5 e g1 (by rw [g2]; exact hn) (by rw [g2]; exact fun c hc => digit_any c (ht c hc))
        refine Or.inl ⟨es, t, e.oid, b, by rw [hfl, if_pos rfl], findBlob_spec h1 g1 g2, ?_, g4⟩
        have := At.here (odb := odb) g1 g3
        rwa [g2] at this
      · refine Or.inr ⟨?_, ?_⟩
        · rw [hf _ (findLevel_absent hnd (fun e g1 g2 => hthere ⟨e, g1, g2⟩)), if_neg (by decide)]
        · intro i hi
          cases hi with
          | @here _ x g1 g2 => exact hthere ⟨x, g1, rfl⟩
          | @inside _ sub2 x a b _ _ k1 k2 k3 k4 k5 => exact hd ⟨x, k1, k2, by rw [k3]; rfl, by rw [k3]; rfl⟩

theorem at_blob {pure : Prop} {k n : Nat} {odb blobs : Odb} {es : List Tree.Entry} (h : NoteTree pure k odb blobs n es) : ∀ {u i : Bytes}, (∀ c ∈ u, Digit c) → u.length = n →
    At odb es u i → ∃ b, readObj blobs i = some b := by
  induction h with
  | mk h1 h2 h3 h4 h5 h6 h7 h8 h9 ih =>
    intro u i hu hl hat
    cases hat with
    | @here _ e g1 g2 => exact (h5 e g1 hl (fun c hc => digit_any c (hu c hc))).2
    | @inside _ sub e a b v _ g1 g2 g3 g4 g5 =>
      have hed : ∀ c ∈ e.name, AnyDigit c := by
        intro c hc; rw [g3] at hc
        exact digit_any c (hu c (by simp only [List.mem_cons, List.not_mem_nil, or_false] at hc ⊢; rcases hc with h | h <;> simp [h]))
      exact ih e g1 g2 (by rw [g3]; rfl) hed sub g4 (fun c hc => hu c (by simp [hc])) (by rw [← hl]; simp) g5

theorem hex_digit (oid : Bytes) : ∀ c ∈ Oid.Spec.hex oid, Digit c := by
  intro c hc
  unfold Oid.Spec.hex at hc
  obtain ⟨n, hn, rfl⟩ := List.mem_map.mp hc
  have := Oid.nibbles_lt oid n hn
  revert this
  unfold Digit
  revert n
  have : ∀ n : UInt8, n < 16 → (c!"0" ≤ Oid.Spec.digit n ∧ Oid.Spec.digit n ≤ c!"9") ∨ (c!"a" ≤ Oid.Spec.digit n ∧ Oid.Spec.digit n ≤ c!"f") := by decide +kernel
  exact fun n _ _ => this n

theorem hex_inj {a b : Bytes} (h : Oid.Spec.hex a = Oid.Spec.hex b) : a = b := by
  have h1 := Oid.mapM_hexVal_digits _ (Oid.nibbles_lt a)
  have h2 := Oid.mapM_hexVal_digits _ (Oid.nibbles_lt b)
  have : (Oid.Spec.nibbles a).map Oid.Spec.digit = (Oid.Spec.nibbles b).map Oid.Spec.digit := h
  rw [this, h2] at h1
  exact (Oid.nibbles_inj (Option.some.inj h1)).symm

theorem target_eq (oid : Bytes) : target oid = Oid.Spec.hex oid := by unfold target; rw [Oid.C02_fmt]

theorem hex_len {oid : Bytes} (h : oid.length = 20) : (Oid.Spec.hex oid).length = 40 ∧ Oid.Spec.hex oid ≠ [] := by
  have : (Oid.Spec.hex oid).length = 40 := by simp [h]
  exact ⟨this, fun hx => by rw [hx] at this; cases this⟩

/-- the notes of a tree are these -/
def Tells (trees blobs : Odb) (es : List Tree.Entry) (m : Map) : Prop :=
  ∀ oid : Bytes, oid.length = 20 → ∀ text, m oid = some text ↔ ∃ id b, At trees es (Oid.Spec.hex oid) id ∧ readObj blobs id = some b ∧ text = textOf b

theorem at_nil {odb : Odb} {t i : Bytes} (h : At odb [] t i) : False := by cases h <;> contradiction

theorem shows_missing {s : Repo} {m : Map} (h : s.ref = .missing) (hs : Shows s m) : Tells s.trees s.blobs [] m := by
  intro oid ho text
  rw [hs oid ho text]
  constructor
  · rintro ⟨_, _, _, _, hr, _⟩; rw [h] at hr; cases hr
  · rintro ⟨_, _, hat, _⟩; exact absurd hat at_nil

theorem shows_commit {s : Repo} {m : Map} {tree : Bytes} {es : List Tree.Entry} (h : s.ref = .commit tree) (hl : lookupTree s.trees tree = .ok es) : Shows s m ↔ Tells s.trees s.blobs es m := by
  unfold Shows Tells
  refine forall_congr' fun oid => forall_congr' fun ho => forall_congr' fun text => iff_congr Iff.rfl ?_
  constructor
  · rintro ⟨t, es', id, b, hr, hl', hat, hb⟩
    rw [h] at hr; cases hr
    rw [hl] at hl'; cases hl'
    exact ⟨id, b, hat, hb⟩
  · rintro ⟨id, b, hat, hb⟩
    exact ⟨tree, es, id, b, h, hl, hat, hb⟩

theorem nt_nil {pure : Prop} {k n : Nat} {odb blobs : Odb} : NoteTree pure k odb blobs n [] :=
  .mk (by simp) (by simp) (by simp) (by simp) (by simp) (by simp) (by simp) (by simp) (by simp)

theorem tells_change {pure : Prop} {k : Nat} {odb odb' blobs ext : Odb} {es es' : List Tree.Entry} {m : Map} {act : Act} {oid id : Bytes} (ht : NoteTree pure k odb blobs 40 es)
    (hm : Tells odb blobs es m) (hch : Changed pure k odb odb' (blobs ++ ext) 40 es (Oid.Spec.hex oid) act id es') (v : Option Bytes)
    (hv : ∀ text, v = some text ↔ ∃ i b, act.value = some i ∧ readObj (blobs ++ ext) i = some b ∧ text = textOf b) :
    Tells odb' (blobs ++ ext) es' (fun x => if x = oid then v else m x) := by
  intro o ho text
  simp only
  by_cases hoo : o = oid
  · subst hoo
    rw [if_pos rfl, hv]
    refine exists_congr fun i => exists_congr fun b => ?_
    rw [hch.at_ _ _ (hex_digit o) (hex_len ho).1, if_pos rfl]
  · rw [if_neg hoo, hm o ho]
    refine exists_congr fun i => ?_
    have hat := hch.at_ _ i (hex_digit o) (hex_len ho).1
    rw [if_neg (fun h => hoo (hex_inj h))] at hat
    constructor
    · rintro ⟨b, h1, h2, h3⟩
      exact ⟨b, hat.mpr h1, readObj_append ext h2, h3⟩
    · rintro ⟨b, h1, h2, h3⟩
      obtain ⟨b', hb'⟩ := at_blob ht (hex_digit o) (hex_len ho).1 (hat.mp h1)
      have := readObj_append ext hb'
      rw [h2] at this; cases this
      exact ⟨b, hat.mp h1, hb', h3⟩

theorem there_iff {pure : Prop} {k : Nat} {odb blobs : Odb} {es : List Tree.Entry} {m : Map} {oid : Bytes} (ht : NoteTree pure k odb blobs 40 es) (hm : Tells odb blobs es m)
    (ho : oid.length = 20) : (∃ i, At odb es (Oid.Spec.hex oid) i) ↔ (m oid).isSome = true := by
  constructor
  · rintro ⟨i, hi⟩
    obtain ⟨b, hb⟩ := at_blob ht (hex_digit oid) (hex_len ho).1 hi
    rw [(hm oid ho (textOf b)).mpr ⟨i, b, hi, hb, rfl⟩]; rfl
  · intro h
    obtain ⟨text, ht⟩ := Option.isSome_iff_exists.mp h
    obtain ⟨i, b, hi, _⟩ := (hm oid ho text).mp ht
    exact ⟨i, hi⟩

theorem textOf_cstr (s : Bytes) : textOf (cstr s) = textOf s := by
  unfold textOf cstr
  induction s with
  | nil => rfl
  | cons c s ih =>
    rw [List.takeWhile_cons]
    split
    · rename_i hc
      rw [List.takeWhile_cons, if_pos hc, ih]
    · rfl

/-- what a step does -/
def StepOk (pure : Prop) (k : Nat) (m : Map) (op : Op) (s' : Repo) (r : Res Bytes) : Prop := r = (apply m op).2 ∧ Shows s' (apply m op).1 ∧ Fit pure (k + 1) s'

theorem shows_same {s s' : Repo} {pure : Prop} {k k' : Nat} {m : Map} (hk : k ≤ k') (hf : Fit pure k s) (hm : Shows s m) (hr : s'.ref = s.ref) (h1 : ∃ ext, s'.trees = s.trees ++ ext) (h2 : ∃ ext, s'.blobs = s.blobs ++ ext) :
    Shows s' m ∧ Fit pure k' s' := by
  obtain ⟨e1, h1⟩ := h1
  obtain ⟨e2, h2⟩ := h2
  rcases hf with hf | ⟨tree, es, hc, hl, ht⟩
  · refine ⟨?_, Or.inl (hr.trans hf)⟩
    intro oid ho text
    rw [shows_missing hf hm oid ho]
    constructor
    · rintro ⟨_, _, hat, _⟩; exact absurd hat at_nil
    · rintro ⟨_, _, _, _, hr', _⟩; rw [hr, hf] at hr'; cases hr'
  · have hl' : lookupTree s'.trees tree = .ok es := by rw [h1]; exact lookup_ext e1 hl
    refine ⟨(shows_commit (hr.trans hc) hl').mpr ?_, Or.inr ⟨tree, es, hr.trans hc, hl', by rw [h1, h2]; exact nt_ext hk e1 e2 ht⟩⟩
    intro oid ho text
    rw [(shows_commit hc hl).mp hm oid ho]
    refine exists_congr fun i => ?_
    constructor
    · rintro ⟨b, g1, g2, g3⟩
      exact ⟨b, by rw [h1]; exact at_ext e1 g1, by rw [h2]; exact readObj_append e2 g2, g3⟩
    · rintro ⟨b, g1, g2, g3⟩
      rw [h1] at g1
      have g1 := at_back ht (hex_digit oid) g1
      obtain ⟨b', hb'⟩ := at_blob ht (hex_digit oid) (hex_len ho).1 g1
      have := readObj_append e2 hb'
      rw [← h2, g2] at this; cases this
      exact ⟨b, g1, hb', g3⟩

theorem read_step {pure : Prop} {k : Nat} {s : Repo} {m : Map} {oid : Bytes} (hf : Fit pure k s) (hm : Shows s m) (ho : oid.length = 20) :
    (∃ i text, read s oid = .ok (i, text) ∧ m oid = some text) ∨ (read s oid = .err ENOTFOUND ∧ m oid = none) := by
  unfold read
  rcases hf with hf | ⟨tree, es, hc, hl, ht⟩
  · rw [hf]
    refine Or.inr ⟨rfl, ?_⟩
    cases hmo : m oid with
    | none => rfl
    | some text =>
      obtain ⟨_, _, hat, _⟩ := (shows_missing hf hm oid ho text).mp hmo
      exact absurd hat at_nil
  · rw [hc]
    simp only
    unfold commitRead
    rw [hl]
    simp only
    unfold noteLookup
    rw [target_eq]
    have hT := (shows_commit hc hl).mp hm
    rcases findSubtree_spec ht (hex_digit oid) (hex_len ho).1 (hex_len ho).2 with ⟨sub, rest, i, b, g1, g2, g3, g4⟩ | ⟨g1, g2⟩
    · rw [g1]; simp only; rw [g2]; simp only; rw [g4]
      exact Or.inl ⟨i, cstr b, rfl, (hT oid ho (cstr b)).mpr ⟨i, b, g3, g4, rfl⟩⟩
    · rw [g1]
      refine Or.inr ⟨rfl, ?_⟩
      cases hmo : m oid with
      | none => rfl
      | some text =>
        obtain ⟨_, _, hat, _⟩ := (hT oid ho text).mp hmo
        exact absurd hat (g2 _)

theorem noteWrite_spec {nv : NEnv} (hn : EnvOk nv) {pure : Prop} {k : Nat} (hk : k < 2 ^ 30) {s s' : Repo} {es : List Tree.Entry} {oid note : Bytes} {ow : Bool} {r : Res (Bytes × Bytes)} {m : Map}
    (ht : NoteTree pure k s.trees s.blobs 40 es) (hT : Tells s.trees s.blobs es m) (ho : oid.length = 20) (h : noteWrite nv s es (target oid) note ow = (s', r))
    (hc1 : Collisionless s'.trees) (hc2 : Collisionless s'.blobs) :
    s'.ref = s.ref ∧ (∃ ext, s'.trees = s.trees ++ ext) ∧ (∃ ext, s'.blobs = s.blobs ++ ext) ∧
    (((m oid).isSome = true ∧ ow = false ∧ r = .err EEXISTS) ∨
     (¬ ((m oid).isSome = true ∧ ow = false) ∧ ∃ tree es' id, r = .ok (tree, id) ∧ lookupTree s'.trees tree = .ok es' ∧ NoteTree pure (k + 1) s'.trees s'.blobs 40 es' ∧
        Tells s'.trees s'.blobs es' (fun x => if x = oid then some (textOf note) else m x))) := by
  unfold noteWrite at h
  simp only at h
  rw [target_eq] at h
  cases hm : manip (envFor nv (s.blobs ++ [(nv.blobId (cstr note), cstr note)])) (.insert ow (nv.blobId (cstr note))) s.trees (Oid.Spec.hex oid) es with
  | mk odb r0 =>
    rw [hm] at h
    have hst : s' = ⟨odb, s.blobs ++ [(nv.blobId (cstr note), cstr note)], s.ref⟩ := by
      cases r0 with
      | ok p => cases h; rfl
      | err x => cases h; rfl
      | ub => cases h; rfl
    obtain ⟨e1, hg⟩ := manip_grows hm
    rw [hst] at hc1 hc2
    have hblob : readObj (s.blobs ++ [(nv.blobId (cstr note), cstr note)]) (nv.blobId (cstr note)) = some (cstr note) := readObj_snoc hc2
    have hE : EOk (envFor nv (s.blobs ++ [(nv.blobId (cstr note), cstr note)])) (s.blobs ++ [(nv.blobId (cstr note), cstr note)]) (.insert ow (nv.blobId (cstr note))) :=
      ⟨hn.idOf, hn.name, fun i b hb => by unfold envFor; simp [hb], fun i hi => by cases hi; exact ⟨(hn.blobId _).1, (hn.blobId _).2, _, hblob⟩⟩
    have ht2 := nt_ext (Nat.le_refl k) [] [(nv.blobId (cstr note), cstr note)] ht
    rw [List.append_nil] at ht2
    have hth := there_iff ht hT ho
    refine ⟨by rw [hst], ⟨e1, by rw [hst]; exact hg⟩, ⟨_, by rw [hst]⟩, ?_⟩
    rcases manip_spec hE hk ht2 (hex_digit oid) (hex_len ho).1 (hex_len ho).2 (Nat.le_refl _) hm hc1 with ⟨x, ⟨g1, g2, g3⟩, rfl⟩ | ⟨g1, id, es', rfl, ch⟩
    · cases h
      exact Or.inl ⟨hth.mp g1, g2, by rw [g3]⟩
    · cases h
      refine Or.inr ⟨fun hx => g1 EEXISTS ⟨hth.mpr hx.1, hx.2, rfl⟩, id, es', _, rfl, ch.look, ch.tree, tells_change ht hT ch _ ?_⟩
      intro text
      constructor
      · intro hx; cases hx
        exact ⟨_, _, rfl, hblob, (textOf_cstr note).symm⟩
      · rintro ⟨i, b, hi, hb, rfl⟩
        cases hi
        rw [hblob] at hb; cases hb
        rw [textOf_cstr]

theorem call_spec {nv : NEnv} (hn : EnvOk nv) {pure : Prop} {k : Nat} (hk : k < 2 ^ 30) {s s' : Repo} {m : Map} {op : Op} {r : Res Bytes} (hf : Fit pure k s) (hm : Shows s m)
    (ho : op.oid.length = 20) (h : call nv s op = (s', r)) (hc1 : Collisionless s'.trees) (hc2 : Collisionless s'.blobs) : StepOk pure k m op s' r := by
  have same : ∀ {s' : Repo}, s'.ref = s.ref → (∃ ext, s'.trees = s.trees ++ ext) → (∃ ext, s'.blobs = s.blobs ++ ext) → Shows s' m ∧ Fit pure (k + 1) s' :=
    fun h1 h2 h3 => shows_same (Nat.le_succ k) hf hm h1 h2 h3
  cases op with
  | read oid =>
    have ho : oid.length = 20 := ho
    unfold call at h
    simp only at h
    unfold StepOk apply
    rcases read_step hf hm ho with ⟨i, text, h1, h2⟩ | ⟨h1, h2⟩
    · rw [h1] at h; cases h
      simp only [h2]
      exact ⟨trivial, same rfl ⟨[], by simp⟩ ⟨[], by simp⟩⟩
    · rw [h1] at h; cases h
      simp only [h2]
      exact ⟨rfl, same rfl ⟨[], by simp⟩ ⟨[], by simp⟩⟩
  | create oid note ow =>
    have ho : oid.length = 20 := ho
    have key : ∀ (es : List Tree.Entry), commitCreate nv s s.ref.tree oid note ow = noteWrite nv s es (target oid) note ow → NoteTree pure k s.trees s.blobs 40 es →
        Tells s.trees s.blobs es m → StepOk pure k m (.create oid note ow) s' r := by
      intro es he ht hT
      cases hw : noteWrite nv s es (target oid) note ow with
      | mk s1 r1 =>
        simp only [call, create, he, hw] at h
        have hs1 : s1.trees = s'.trees ∧ s1.blobs = s'.blobs := by
          cases r1 with
          | ok p => cases h; exact ⟨rfl, rfl⟩
          | err x => cases h; exact ⟨rfl, rfl⟩
          | ub => cases h; exact ⟨rfl, rfl⟩
        obtain ⟨g1, g2, g3, g4⟩ := noteWrite_spec hn hk ht hT ho hw (hs1.1 ▸ hc1) (hs1.2 ▸ hc2)
        unfold StepOk apply
        rcases g4 with ⟨a1, a2, rfl⟩ | ⟨a1, tree, es', id, rfl, b1, b2, b3⟩
        · cases h
          simp only [a1, a2, and_self, if_true]
          exact ⟨rfl, same g1 g2 g3⟩
        · cases h
          simp only [if_neg a1]
          exact ⟨trivial, (shows_commit (s := ⟨s1.trees, s1.blobs, .commit tree⟩) rfl b1).mpr b3, Or.inr ⟨tree, es', rfl, b1, b2⟩⟩
    rcases hf with hf | ⟨tree, es, hc, hl, ht⟩
    · exact key [] (by unfold commitCreate; rw [hf]; rfl) nt_nil (shows_missing hf hm)
    · exact key es (by unfold commitCreate; rw [hc]; simp only [Ref.tree, hl]) ht ((shows_commit hc hl).mp hm)
  | remove oid =>
    have ho : oid.length = 20 := ho
    have hth0 : (m oid).isSome = false → (apply m (.remove oid)) = (m, .err (-3)) := by intro h; simp [apply, h]
    have hth1 : (m oid).isSome = true → (apply m (.remove oid)) = (fun x => if x = oid then none else m x, .ok []) := by intro h; simp [apply, h]
    unfold call remove at h
    unfold StepOk
    rcases hf with hf | ⟨tree, es, hc, hl, ht⟩
    · rw [hf] at h
      cases h
      have : (m oid).isSome = false := by
        cases hmo : m oid with
        | none => rfl
        | some text =>
          obtain ⟨_, _, hat, _⟩ := (shows_missing hf hm oid ho text).mp hmo
          exact absurd hat at_nil
      rw [hth0 this]
      exact ⟨rfl, shows_same (Nat.le_succ k) (Or.inl hf) hm rfl ⟨[], by simp⟩ ⟨[], by simp⟩⟩
    · rw [hc] at h
      simp only [commitRemove, hl, target_eq] at h
      have hT := (shows_commit hc hl).mp hm
      have hth := there_iff ht hT ho
      cases hmm : manip (envFor nv s.blobs) .remove s.trees (Oid.Spec.hex oid) es with
      | mk odb r0 =>
        rw [hmm] at h
        obtain ⟨e1, hg⟩ := manip_grows hmm
        have hodb : odb = s'.trees := by
          cases r0 with
          | ok p => cases h; rfl
          | err x => cases h; rfl
          | ub => cases h; rfl
        have hE : EOk (envFor nv s.blobs) s.blobs .remove := ⟨hn.idOf, hn.name, fun i b hb => by unfold envFor; simp [hb], fun i hi => by cases hi⟩
        rcases manip_spec hE hk ht (hex_digit oid) (hex_len ho).1 (hex_len ho).2 (Nat.le_refl _) hmm (hodb ▸ hc1) with ⟨x, ⟨g1, g2⟩, rfl⟩ | ⟨g1, id, es', rfl, ch⟩
        · cases h
          rw [hth0 (by rw [← Bool.not_eq_true, ← hth]; exact g1), g2]
          exact ⟨rfl, shows_same (Nat.le_succ k) (Or.inr ⟨tree, es, hc, hl, ht⟩) hm rfl ⟨e1, hg⟩ ⟨[], by simp⟩⟩
        · cases h
          have hthere : ∃ i, At s.trees es (Oid.Spec.hex oid) i := by
            by_contra hx
            exact g1 ENOTFOUND ⟨hx, rfl⟩
          rw [hth1 (hth.mp hthere)]
          have ch' : Changed pure k s.trees odb (s.blobs ++ []) 40 es (Oid.Spec.hex oid) .remove id es' := by rw [List.append_nil]; exact ch
          have hT' := tells_change ht hT ch' none (by
            intro text
            constructor
            · intro hx; cases hx
            · rintro ⟨i, b, hi, _⟩; cases hi)
          rw [List.append_nil] at hT'
          refine ⟨rfl, ?_, Or.inr ⟨id, es', rfl, ch.look, ch.tree⟩⟩
          exact (shows_commit (s := ⟨odb, s.blobs, .commit id⟩) rfl ch.look).mpr hT'

end Verif.Notes
