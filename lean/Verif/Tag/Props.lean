import Verif.Commit.Props
import Verif.RefName.Props
import Verif.Tag.Spec
namespace Verif.Tag
open Verif.Sig Verif.Sig.Spec Verif.Commit Verif.Commit.Spec Verif.Tag.Spec

theorem parseType_fwd {i : Nat} {word : Bytes} (h : TypeWord i word) (x : Bytes) :
    parseType (word ++ c!"\n" :: (b!"tag " ++ x)) 1 [b!"commit\n", b!"tree\n", b!"blob\n", b!"tag\n"] = .ok (i, b!"tag " ++ x) ∧ i ≠ 0 := by
  cases h <;> simp [parseType]

theorem parseType_inv {buf r : Bytes} {i : Nat} (h : parseType buf 1 [b!"commit\n", b!"tree\n", b!"blob\n", b!"tag\n"] = .ok (i, r)) (hi : i ≠ 0) :
    ∃ word, TypeWord i word ∧ buf = word ++ c!"\n" :: r := by
  have split : ∀ t : Bytes, buf.take t.length = t → buf = t ++ buf.drop t.length := fun t e => by
    conv => lhs; rw [← List.take_append_drop t.length buf, e]
  simp only [parseType] at h
  by_cases a1 : buf.length ≤ (b!"commit\n").length
  · rw [if_pos a1] at h; cases h
  rw [if_neg a1] at h
  by_cases b1 : buf.take (b!"commit\n").length = b!"commit\n"
  · rw [if_pos b1] at h
    obtain ⟨rfl, rfl⟩ := Prod.mk.inj (Res.ok.inj h)
    exact ⟨_, .commit, split _ b1⟩
  rw [if_neg b1] at h
  by_cases a2 : buf.length ≤ (b!"tree\n").length
  · rw [if_pos a2] at h; cases h
  rw [if_neg a2] at h
  by_cases b2 : buf.take (b!"tree\n").length = b!"tree\n"
  · rw [if_pos b2] at h
    obtain ⟨rfl, rfl⟩ := Prod.mk.inj (Res.ok.inj h)
    exact ⟨_, .tree, split _ b2⟩
  rw [if_neg b2] at h
  by_cases a3 : buf.length ≤ (b!"blob\n").length
  · rw [if_pos a3] at h; cases h
  rw [if_neg a3] at h
  by_cases b3 : buf.take (b!"blob\n").length = b!"blob\n"
  · rw [if_pos b3] at h
    obtain ⟨rfl, rfl⟩ := Prod.mk.inj (Res.ok.inj h)
    exact ⟨_, .blob, split _ b3⟩
  rw [if_neg b3] at h
  by_cases a4 : buf.length ≤ (b!"tag\n").length
  · rw [if_pos a4] at h; cases h
  rw [if_neg a4] at h
  by_cases b4 : buf.take (b!"tag\n").length = b!"tag\n"
  · rw [if_pos b4] at h
    obtain ⟨rfl, rfl⟩ := Prod.mk.inj (Res.ok.inj h)
    exact ⟨_, .tag, split _ b4⟩
  rw [if_neg b4] at h
  obtain ⟨rfl, rfl⟩ := Prod.mk.inj (Res.ok.inj h)
  exact absurd rfl hi

theorem parseType_ne_ub (buf : Bytes) (i : Nat) (ts : List Bytes) : parseType buf i ts ≠ .ub := by
  induction ts generalizing i with
  | nil => simp [parseType]
  | cons t ts ih =>
    rw [parseType]
    split
    · simp
    · split
      · simp
      · exact ih _

/-- any text is lines, then an unfinished line or a blank line and more -/
theorem decompose (b : Bytes) : ∃ ls last tail, (∀ l ∈ ls, Line l) ∧ c!"\n" ∉ last ∧ (tail.head? = some c!"\n" ∨ tail = []) ∧ (last ≠ [] → tail = []) ∧
    b = unlines ls ++ last ++ tail := by
  obtain ⟨ls, last, tail, h1, h2, h3, h4, h5, _⟩ := parseHeaders_inv (n := b.length + 1) (b := b) (enc := none) (by omega)
  exact ⟨ls, last, tail, h1, h2, h3, h4, h5⟩

theorem splitHeader_inv {b x y : Bytes} (h : splitHeader b = some (x, y)) (hb : b.head? ≠ some c!"\n") :
    ∃ ls m, (∀ l ∈ ls, Line l) ∧ y = c!"\n" :: m ∧ b = unlines ls ++ c!"\n" :: m := by
  obtain ⟨ls, last, tail, h1, h2, h3, h4, h5⟩ := decompose b
  rcases h3 with h3 | h3
  · cases tail with
    | nil => cases h3
    | cons c m =>
      have : c = c!"\n" := by simpa using h3
      subst this
      have hl : last = [] := Decidable.byContradiction fun hl => absurd (h4 hl) (by simp)
      subst hl
      rw [List.append_nil] at h5
      have h0 : ls ≠ [] := by
        rintro rfl
        rw [h5] at hb
        exact hb rfl
      rw [h5, splitHeader_lines h1 h0] at h
      obtain ⟨_, rfl⟩ := Prod.mk.inj (Option.some.inj h)
      exact ⟨ls, m, h1, rfl, h5⟩
  · subst h3
    rw [List.append_nil] at h5
    rw [h5, splitHeader_none h1 h2] at h
    cases h

/-- **C14 (what is read).** Reading bytes as a tag succeeds exactly when they are a tag (`IsTag`: object, type, name, perhaps a tagger and further
headers, blank line, message), and gives exactly these fields (text as C strings). -/
theorem C14_exact {size : Nat} (hs : 0 < size) (data : Bytes) (tag : Tag) :
    tagParse size data = .ok tag ↔ ∃ name message, IsTag size data tag.target tag.type name tag.tagger message ∧ tag.name = cstr name ∧
      tag.message = message.map cstr := by
  constructor
  · intro h
    unfold tagParse at h
    cases h1 : parseOidHeader size b!"object " data with
    | ub => rw [h1] at h; cases h
    | err e => rw [h1] at h; cases h
    | ok o =>
      rw [h1] at h
      dsimp only at h
      obtain ⟨ol, ho, e1⟩ := (parseOidHeader_iff hs).1 (show parseOidHeader size b!"object " data = .ok (o.1, o.2) from h1)
      unfold parseTypeLine at h
      by_cases c1 : o.2.length ≤ 5
      · rw [if_pos c1] at h; cases h
      rw [if_neg c1] at h
      by_cases c2 : o.2.take 5 ≠ b!"type "
      · rw [if_pos c2] at h; cases h
      rw [if_neg c2] at h
      have c2' : o.2.take 5 = b!"type " := Decidable.of_not_not c2
      have e2 : o.2 = b!"type " ++ o.2.drop 5 := by conv => lhs; rw [← List.take_append_drop 5 o.2, c2']
      cases h2 : parseType (o.2.drop 5) 1 [b!"commit\n", b!"tree\n", b!"blob\n", b!"tag\n"] with
      | ub => rw [h2] at h; cases h
      | err e => rw [h2] at h; cases h
      | ok t =>
        rw [h2] at h
        simp only [Res.bind_ok] at h
        by_cases c3 : t.1 = 0
        · rw [if_pos c3] at h; cases h
        rw [if_neg c3] at h
        obtain ⟨word, hw, e3⟩ := parseType_inv (show _ = Res.ok (t.1, t.2) from h2) c3
        unfold parseName at h
        by_cases c4 : t.2.length ≤ 4
        · rw [if_pos c4] at h; cases h
        rw [if_neg c4] at h
        by_cases c5 : t.2.take 4 ≠ b!"tag "
        · rw [if_pos c5] at h; cases h
        rw [if_neg c5] at h
        have c5' : t.2.take 4 = b!"tag " := Decidable.of_not_not c5
        have e4 : t.2 = b!"tag " ++ t.2.drop 4 := by conv => lhs; rw [← List.take_append_drop 4 t.2, c5']
        dsimp only at h
        by_cases c6 : ¬ (t.2.drop 4).contains c!"\n" = true
        · rw [if_pos c6] at h; cases h
        rw [if_neg c6] at h
        obtain ⟨name, r, e5, hn⟩ := split_line (b := t.2.drop 4) (by simpa using c6)
        rw [e5, drop_line hn, take_line hn] at h
        simp only [List.drop_succ_cons, List.drop_zero] at h
        have e6 : data = unlines [ol, b!"type " ++ word, b!"tag " ++ name] ++ r := by
          rw [e1, e2, e3, e4, e5]
          simp [unlines]
        cases h3 : parseTagger r with
        | ub => rw [h3] at h; cases h
        | err e => rw [h3] at h; cases h
        | ok tg =>
          rw [h3] at h
          simp only [Res.bind_ok] at h
          cases h4 : parseMessage tg.2 with
          | ub => rw [h4] at h; cases h
          | err e => rw [h4] at h; cases h
          | ok m =>
            rw [h4] at h
            have h := Res.ok.inj h
            subst h
            have htag : (tg.1 = none ∧ tg.2 = r ∧ (r = [] ∨ r.head? = some c!"\n")) ∨ ∃ s l, tg.1 = some s ∧ SigLine b!"tagger " s l ∧ r = l ++ c!"\n" :: tg.2 := by
              unfold parseTagger at h3
              cases r with
              | nil => rw [← Res.ok.inj h3]; exact .inl ⟨rfl, rfl, .inl rfl⟩
              | cons c r =>
                dsimp only at h3
                by_cases hc : c ≠ c!"\n"
                · rw [if_pos hc] at h3
                  cases hp : parse (c :: r) b!"tagger " c!"\n" with
                  | ub => rw [hp] at h3; cases h3
                  | err e => rw [hp] at h3; cases h3
                  | ok q =>
                    rw [hp] at h3
                    obtain ⟨l, hl, e⟩ := (sigparse_iff (by decide) (by decide)).1 (show parse (c :: r) b!"tagger " c!"\n" = .ok (q.1, q.2) from hp)
                    rw [← Res.ok.inj h3]
                    exact .inr ⟨q.1, l, rfl, hl, e⟩
                · rw [if_neg hc] at h3
                  rw [← Res.ok.inj h3]
                  exact .inl ⟨rfl, rfl, .inr (by simpa using hc)⟩
            have hmsg : (tg.2 = [] ∧ m = none) ∨ ∃ ls x, (∀ l ∈ ls, Line l) ∧ tg.2 = unlines ls ++ c!"\n" :: x ∧ m = some (cstr x) := by
              unfold parseMessage at h4
              cases h5 : tg.2 with
              | nil => rw [h5] at h4; exact .inl ⟨rfl, (Res.ok.inj h4).symm⟩
              | cons c y =>
                rw [h5] at h4
                dsimp only at h4
                by_cases hc : c ≠ c!"\n"
                · rw [if_pos hc] at h4
                  cases hp : splitHeader (c :: y) with
                  | none => rw [hp] at h4; cases h4
                  | some q =>
                    rw [hp] at h4
                    obtain ⟨ls, x, g1, g2, g3⟩ := splitHeader_inv (show splitHeader (c :: y) = some (q.1, q.2) from hp) (by simpa using hc)
                    refine .inr ⟨ls, x, g1, g3, ?_⟩
                    rw [← Res.ok.inj h4, g2]
                    rfl
                · rw [if_neg hc] at h4
                  have : c = c!"\n" := Decidable.of_not_not hc
                  subst this
                  exact .inr ⟨[], y, by simp, rfl, (Res.ok.inj h4).symm⟩
            rcases hmsg with ⟨g1, rfl⟩ | ⟨ls, x, g1, g2, rfl⟩
            · refine ⟨name, none, ⟨ol, word, ?_⟩, rfl, rfl⟩
              rcases htag with ⟨f1, f2, f3⟩ | ⟨s, l, f1, f2, f3⟩
              · refine ⟨[], [], ?_, ho, hw, hn, ?_, by simp, by simp⟩
                · rw [e6, ← f2, g1]; simp
                · rw [f1]; exact ⟨rfl, rfl⟩
              · refine ⟨[l], [], ?_, ho, hw, hn, ?_, by simp, by simp⟩
                · rw [e6, f3, g1]; simp [unlines]
                · rw [f1]; exact ⟨l, rfl, f2⟩
            · refine ⟨name, some x, ⟨ol, word, ?_⟩, rfl, rfl⟩
              rcases htag with ⟨f1, f2, f3⟩ | ⟨s, l, f1, f2, f3⟩
              · have hls : ls = [] := by
                  cases ls with
                  | nil => rfl
                  | cons l ls =>
                    have := unlines_head g1 (by simp) (c!"\n" :: x)
                    rw [← g2, f2] at this
                    rcases f3 with f3 | f3
                    · exact absurd f3 this.2
                    · exact absurd f3 this.1
                subst hls
                refine ⟨[], [], ?_, ho, hw, hn, ?_, by simp, by simp⟩
                · rw [e6, ← f2, g2]; simp [unlines]
                · rw [f1]; exact ⟨rfl, rfl⟩
              · refine ⟨[l], ls, ?_, ho, hw, hn, ?_, g1, by simp⟩
                · rw [e6, f3, g2]; simp [unlines]
                · rw [f1]; exact ⟨l, rfl, f2⟩
  · rintro ⟨name, message, ⟨o, word, ts, more, hd, ho, hw, hn, ht, hm, hm0⟩, en, em⟩
    have hd : data = unlines ([o, b!"type " ++ word, b!"tag " ++ name] ++ ts ++ more) ++ tailOf message := hd
    generalize htl : tailOf message = tail at hd
    have hd : data = o ++ c!"\n" :: (b!"type " ++ (word ++ c!"\n" :: (b!"tag " ++ (name ++ c!"\n" :: (unlines ts ++ (unlines more ++ tail)))))) := by
      rw [hd]; simp [unlines]
    unfold tagParse
    rw [(parseOidHeader_iff hs).2 ⟨o, ho, hd⟩]
    dsimp only
    unfold parseTypeLine
    rw [if_neg (by simp), if_neg (by simp)]
    have e1 : ∀ x : Bytes, (b!"type " ++ x).drop 5 = x := fun x => rfl
    rw [e1, (parseType_fwd hw _).1]
    simp only [Res.bind_ok]
    rw [if_neg (parseType_fwd hw []).2]
    unfold parseName
    rw [if_neg (by simp), if_neg (by simp)]
    have e2 : ∀ x : Bytes, (b!"tag " ++ x).drop 4 = x := fun x => rfl
    dsimp only
    rw [e2, if_neg (by simp), drop_line hn, take_line hn]
    simp only [List.drop_succ_cons, List.drop_zero]
    have htag : parseTagger (unlines ts ++ (unlines more ++ tail)) = .ok (tag.tagger, unlines more ++ tail) := by
      unfold parseTagger
      cases hg : tag.tagger with
      | none =>
        rw [hg] at ht
        obtain ⟨rfl, rfl⟩ := ht
        show (match tail with | [] => _ | c :: _ => _) = Res.ok (none, tail)
        subst htl
        cases message with
        | none => rfl
        | some m => simp [tailOf, unlines]
      | some s =>
        rw [hg] at ht
        obtain ⟨l, rfl, hl⟩ := ht
        have e3 : unlines [l] ++ (unlines more ++ tail) = l ++ c!"\n" :: (unlines more ++ tail) := by simp [unlines]
        rw [e3, ]
        have hp : parse (l ++ c!"\n" :: (unlines more ++ tail)) b!"tagger " c!"\n" = .ok (s, unlines more ++ tail) :=
          (sigparse_iff (by decide) (by decide)).2 ⟨l, hl, rfl⟩
        obtain ⟨z, rfl, _, _⟩ := id hl
        show (if c!"t" ≠ c!"\n" then _ else _) = _
        rw [if_pos (by decide)]
        show parse (b!"tagger " ++ z ++ c!"\n" :: (unlines more ++ tail)) b!"tagger " c!"\n" >>= _ = _
        rw [hp]
        rfl
    rw [htag]
    simp only [Res.bind_ok]
    have hmsg : parseMessage (unlines more ++ tail) = .ok (message.map cstr) := by
      unfold parseMessage
      subst htl
      cases message with
      | none => rw [hm0 rfl]; rfl
      | some m =>
        show (match unlines more ++ c!"\n" :: m with | [] => _ | c :: more => _) = Res.ok (some (cstr m))
        by_cases hmo : more = []
        · subst hmo
          show (if c!"\n" ≠ c!"\n" then _ else _) = _
          rw [if_neg (by simp)]
        · have h1 := unlines_head hm hmo (c!"\n" :: m)
          have h2 := splitHeader_lines hm hmo m
          rw [show tailOf (some m) = c!"\n" :: m from rfl]
          generalize hg : unlines more ++ c!"\n" :: m = z at h1 h2 ⊢
          cases z with
          | nil => exact absurd rfl h1.2
          | cons c z =>
            dsimp only
            rw [if_pos (by simpa using h1.1), h2]
            rfl
    rw [hmsg]
    simp only [Res.bind_ok]
    rw [← em, ← en]

/-- **C14 (safety).** Reading any bytes as a tag stays inside of them. -/
theorem C14_safe (size : Nat) (data : Bytes) : tagParse size data ≠ .ub := by
  have hm : ∀ b, parseMessage b ≠ .ub := by
    intro b
    unfold parseMessage
    split
    · simp
    · split
      · split <;> simp
      · simp
  have ht : ∀ b, parseTagger b ≠ .ub := by
    intro b
    unfold parseTagger
    split
    · simp
    · split
      · cases hp : parse _ b!"tagger " c!"\n" with
        | ub => exact absurd hp (C12_safe _ _ _)
        | err e => simp
        | ok q => simp
      · simp
  have hn : ∀ a i b, parseName a i b ≠ .ub := by
    intro a i b
    unfold parseName
    split
    · simp
    split
    · simp
    dsimp only
    split
    · simp
    cases h3 : parseTagger (((b.drop 4).dropWhile (· ≠ c!"\n")).drop 1) with
    | ub => exact absurd h3 (ht _)
    | err e => simp
    | ok t =>
      simp only [Res.bind_ok]
      cases h4 : parseMessage t.2 with
      | ub => exact absurd h4 (hm _)
      | err e => simp
      | ok m => simp
  have hl : ∀ a b, parseTypeLine a b ≠ .ub := by
    intro a b
    unfold parseTypeLine
    split
    · simp
    split
    · simp
    cases h2 : parseType (b.drop 5) 1 [b!"commit\n", b!"tree\n", b!"blob\n", b!"tag\n"] with
    | ub => exact absurd h2 (parseType_ne_ub _ _ _)
    | err e => simp
    | ok t =>
      simp only [Res.bind_ok]
      split
      · simp
      · exact hn _ _ _
  unfold tagParse
  cases h1 : parseOidHeader size b!"object " data with
  | ub => exact absurd h1 parseOidHeader_ne_ub
  | err e => simp
  | ok o => exact hl _ _

/-- **C14 (round trip).** A tag annotation written for any target, type, one-line name, tagger made by `git_signature_new` (of one-line strings) and message
is read back with the same target, type, name, tagger and message. -/
theorem C14_roundtrip {size : Nat} (hs : 0 < size) {name target : Bytes} {type : Nat} {word : Bytes} {tagger : Signature} {message : Bytes} (hn : OneLine name)
    (ht : target.length = size) (hw : TypeWord type word) (hg : Made tagger) (hm : CString message) :
    ∃ data, annotation size name target type tagger message = .ok data ∧ tagParse size data = .ok ⟨target, type, name, some tagger, some message⟩ := by
  obtain ⟨o, o1, o2⟩ := writeOidHeader_ok hs b!"object " ht
  obtain ⟨l, l1, l2⟩ := writebuf_line hg (header := b!"tagger ") (by decide) (by decide)
  have hword : typeName type = word := by cases hw <;> rfl
  refine ⟨_, by unfold annotation; rw [o1]; rfl, ?_⟩
  refine (C14_exact hs _ _).2 ⟨name, some message, ⟨o, word, [l], [], ?_, o2, hw, hn.1, ⟨l, rfl, l2⟩, by simp, by simp⟩, (cstr_id hn.2).symm, ?_⟩
  · rw [hword, l1]; simp [unlines]
  · simp [cstr_id hm]

theorem joinpath_mem {c : UInt8} {name : Bytes} (h : c ∈ name) : c = c!"/" ∨ c ∈ RefName.joinpath b!"refs/tags/" name := by
  unfold RefName.joinpath
  rw [if_neg (by simp)]
  dsimp only
  rw [if_neg (by simp)]
  have := List.takeWhile_append_dropWhile (p := (· == c!"/")) (l := name)
  rw [← this] at h
  rcases List.mem_append.mp h with h | h
  · exact .inl (by simpa using takeWhile_all _ _ c h)
  · exact .inr (List.mem_append.mpr (.inr h))

theorem accepted_name {name ref : Bytes} (h : RefName.normalizeName 1024 (RefName.joinpath b!"refs/tags/" name) ⟨true, false, false, false⟩ = .ok ref) :
    OneLine name ∧ name ≠ [] ∧ RefName.Spec.Valid true false false (RefName.joinpath b!"refs/tags/" name) ∧ ref = RefName.Spec.squeeze (RefName.joinpath b!"refs/tags/" name) := by
  obtain ⟨h1, h2⟩ := (RefName.C15_buffer _ _ _).1 _ h
  have hV : RefName.Spec.Valid true false false (RefName.joinpath b!"refs/tags/" name) ∧ ref = RefName.Spec.squeeze (RefName.joinpath b!"refs/tags/" name) := by
    rw [RefName.normalize_eq true _ _ rfl] at h1
    split at h1
    · rename_i hV
      exact ⟨hV.1, by simpa using h1.symm⟩
    · cases h1
  obtain ⟨hV, e⟩ := hV
  have hun : RefName.Spec.uncaret (RefName.joinpath b!"refs/tags/" name) = RefName.joinpath b!"refs/tags/" name := by
    unfold RefName.joinpath
    rw [if_neg (by simp)]
    dsimp only
    rw [if_neg (by simp)]
    rfl
  have hp := hV.plain
  rw [hun] at hp
  refine ⟨⟨fun hm => ?_, fun hm => ?_⟩, ?_, hV, e⟩
  · rcases joinpath_mem hm with hm | hm
    · exact absurd hm (by decide)
    · exact absurd (hp _ hm).1 (by decide)
  · rcases joinpath_mem hm with hm | hm
    · exact absurd hm (by decide)
    · exact absurd (hp _ hm).1 (by decide)
  · rintro rfl
    exact hV.noSlashLast (by decide)

/-- **C14 (creating).** When `git_tag_create` succeeds, the tag that was asked for has been written - reading it gives the same target, type, name, tagger and
message -, its name makes a valid reference name under refs/tags/ which is the reference that was created, the name does not start with a dash, and no
reference of that name existed unless overwriting was requested. -/
theorem C14_create {size : Nat} (hs : 0 < size) {w : World} {name target : Bytes} {type : Nat} {word : Bytes} {tagger : Signature} {message : Bytes} {force : Bool}
    (ht : target.length = size) (hw : TypeWord type word) (hg : Made tagger) (hm : CString message)
    (h : (create size w name target type tagger message force).ret = 0) (hneg : ∀ r, w.lookup r ≤ 0) :
    ∃ data ref, create size w name target type tagger message force = ⟨0, some data, some ref⟩ ∧
      tagParse size data = .ok ⟨target, type, name, some tagger, some message⟩ ∧
      RefName.Spec.Valid true false false (RefName.joinpath b!"refs/tags/" name) ∧ ref = RefName.Spec.squeeze (RefName.joinpath b!"refs/tags/" name) ∧
      name.head? ≠ some c!"-" ∧ (w.lookup ref = ENOTFOUND ∨ w.lookup ref = 0 ∧ force = true) := by
  unfold create at h ⊢
  by_cases c1 : name.head? = some c!"-"
  · rw [if_pos c1] at h; cases h
  rw [if_neg c1] at h ⊢
  cases hn : RefName.normalizeName 1024 (RefName.joinpath b!"refs/tags/" name) ⟨true, false, false, false⟩ with
  | ub => rw [hn] at h; cases h
  | err e =>
    rw [hn] at h
    dsimp only at h
    subst h
    exfalso
    unfold RefName.normalizeName at hn
    rw [RefName.normalize_eq true _ _ rfl] at hn
    split at hn
    · simp only [Res.bind_ok, if_true] at hn
      rw [if_neg (by decide)] at hn
      by_cases hl : (RefName.Spec.squeeze (RefName.joinpath b!"refs/tags/" name)).length > 1024 - 1
      · rw [if_pos hl] at hn; cases hn
      · rw [if_neg hl] at hn; cases hn
    · cases hn
  | ok ref =>
    rw [hn] at h
    obtain ⟨hv1, hv2, hv3, hv4⟩ := accepted_name hn
    dsimp only at h ⊢
    by_cases c2 : w.lookup ref < 0 ∧ w.lookup ref ≠ ENOTFOUND
    · rw [if_pos c2] at h
      dsimp only at h
      omega
    rw [if_neg c2] at h ⊢
    by_cases c3 : w.lookup ref = 0 ∧ ¬ force = true
    · rw [if_pos c3] at h; cases h
    rw [if_neg c3] at h ⊢
    obtain ⟨data, d1, d2⟩ := C14_roundtrip hs hv1 ht hw hg hm
    unfold createAnnotated at h ⊢
    rw [d1] at h ⊢
    dsimp only at h ⊢
    by_cases c4 : w.writes = true
    · rw [if_pos c4] at h ⊢
      dsimp only at h
      rw [h]
      refine ⟨data, ref, rfl, d2, hv3, hv4, c1, ?_⟩
      have := hneg ref
      by_cases c5 : w.lookup ref = ENOTFOUND
      · exact .inl c5
      · refine .inr ⟨?_, ?_⟩
        · exact Decidable.byContradiction fun hh => c2 ⟨by omega, c5⟩
        · exact Decidable.byContradiction fun hh => c3 ⟨Decidable.byContradiction fun hh' => c2 ⟨by omega, c5⟩, hh⟩
    · rw [if_neg c4] at h; cases h

/-- **C14 (no overwriting).** When a reference of that name exists and overwriting was not requested, nothing is written and GIT_EEXISTS is reported. -/
theorem C14_exists {size : Nat} {w : World} {name target : Bytes} {type : Nat} {tagger : Signature} {message : Bytes} {ref : Bytes} (hd : name.head? ≠ some c!"-")
    (hr : RefName.normalizeName 1024 (RefName.joinpath b!"refs/tags/" name) ⟨true, false, false, false⟩ = .ok ref) (he : w.lookup ref = 0) :
    create size w name target type tagger message false = ⟨EEXISTS, none, none⟩ := by
  unfold create
  rw [if_neg hd, hr]
  simp [he]

/-- **C14 (failure).** A creation that reports an error has not set any reference, whatever the store did. -/
theorem C14_failed {size : Nat} {w : World} {name target : Bytes} {type : Nat} {tagger : Signature} {message : Bytes} {force : Bool}
    (h : (create size w name target type tagger message force).ret ≠ 0) : (create size w name target type tagger message force).ref = none := by
  unfold create at h ⊢
  by_cases c1 : name.head? = some c!"-"
  · rw [if_pos c1]
  rw [if_neg c1] at h ⊢
  cases hn : RefName.normalizeName 1024 (RefName.joinpath b!"refs/tags/" name) ⟨true, false, false, false⟩ with
  | ub => rfl
  | err e => rfl
  | ok ref =>
    rw [hn] at h
    dsimp only at h ⊢
    by_cases c2 : w.lookup ref < 0 ∧ w.lookup ref ≠ ENOTFOUND
    · rw [if_pos c2]
    rw [if_neg c2] at h ⊢
    by_cases c3 : w.lookup ref = 0 ∧ ¬ force = true
    · rw [if_pos c3]
    rw [if_neg c3] at h ⊢
    unfold createAnnotated at h ⊢
    cases ha : annotation size name target type tagger message with
    | ub => rfl
    | err e => rfl
    | ok data =>
      rw [ha] at h
      dsimp only at h ⊢
      by_cases c4 : w.writes = true
      · rw [if_pos c4] at h ⊢
        dsimp only at h ⊢
        rw [if_neg h]
      · rw [if_neg c4]

/-! ### examples -/

/-- a failing reference update -/
example : (create 20 ⟨fun _ => ENOTFOUND, true, -1⟩ b!"v1" (List.replicate 20 7) 1 ⟨b!"A", b!"e", 1, 0, c!"+"⟩ b!"m" false).ret ≠ 0 := by
  unfold create
  decide +kernel

def exT : Signature := ⟨b!"A", b!"e", 1, 0, c!"+"⟩
theorem exT_made : Made exT := ⟨b!"A", b!"e", 1, 0, by decide +kernel, by decide, by decide, by decide, by decide, by decide⟩

/-- the hypotheses of the round trip can be met -/
example : ∃ data, annotation 20 b!"v1.0" (List.replicate 20 7) 1 exT b!"release\n" = .ok data ∧
    tagParse 20 data = .ok ⟨List.replicate 20 7, 1, b!"v1.0", some exT, some b!"release\n"⟩ :=
  C14_roundtrip (by decide) (by decide) rfl .commit exT_made (by decide)

/-- a tag without tagger, one without message, one with a further header -/
example : tagParse 2 b!"object abcd\ntype blob\ntag x\n\nold" = .ok ⟨[0xab, 0xcd], 3, b!"x", none, some b!"old"⟩ ∧
    tagParse 2 b!"object abcd\ntype blob\ntag x\n" = .ok ⟨[0xab, 0xcd], 3, b!"x", none, none⟩ ∧
    tagParse 2 b!"object abcd\ntype tag\ntag x\ntagger A <e> 1 +0000\nfoo bar\n\nm\n\nn" = .ok ⟨[0xab, 0xcd], 4, b!"x", some exT, some b!"m\n\nn"⟩ := by
  decide +kernel

/-- The name must be in one line: `git_tag_annotation_create` does not check its name, and a line feed in it forges the tagger and the message. -/
theorem C14_inject : ∃ data, annotation 2 b!"v1\ntagger Boss <b> 1 +0000\n\nforged" [0xab, 0xcd] 1 exT b!"real" = .ok data ∧
    ∃ m, tagParse 2 data = .ok ⟨[0xab, 0xcd], 1, b!"v1", some ⟨b!"Boss", b!"b", 1, 0, c!"+"⟩, some m⟩ := by
  obtain ⟨o, o1, o2⟩ := writeOidHeader_ok (size := 2) (by decide) b!"object " (id := [0xab, 0xcd]) rfl
  refine ⟨_, by unfold annotation; rw [o1]; rfl, cstr (b!"forged\n" ++ writebuf b!"tagger " exT ++ b!"\nreal"), ?_⟩
  refine (C14_exact (by decide) _ _).2 ⟨b!"v1", some (b!"forged\n" ++ writebuf b!"tagger " exT ++ b!"\nreal"), ⟨o, b!"commit", [b!"tagger Boss <b> 1 +0000"], [], ?_, o2, .commit, by decide,
    ⟨_, rfl, b!"Boss <b> 1 +0000", rfl, by decide, by decide +kernel⟩, by simp, by simp⟩, by decide, rfl⟩
  simp [unlines, typeName]

end Verif.Tag
