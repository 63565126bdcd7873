import Verif.Commit.Lemmas
namespace Verif.Commit
open Verif.Sig Verif.Sig.Spec Verif.Commit.Spec

def tailOf (message : Option Bytes) : Bytes := match message with | some m => c!"\n" :: m | none => []

theorem encodingOf_last (ls : List Bytes) (last : Bytes) : encodingOf (ls ++ if last = [] then [] else [last]) = encodingOf (ls ++ [last]) := by
  by_cases h : last = []
  · subst h; simp [encodingOf, List.filter_append]
  · simp [h]

theorem commitParse_fwd {size : Nat} (hs : 0 < size) {data header tree : Bytes} {parents : List Bytes} {author committer : Signature} {more : List Bytes}
    {last : Bytes} {message : Option Bytes} (h : IsCommit size data header tree parents author committer more last message) :
    commitParse size data false = .ok ⟨some tree, parents, some author, committer, encodingOf (more ++ [last]), some (cstr header), some (cstr (message.getD []))⟩ ∧
    commitParse size data true = .ok ⟨none, parents, none, committer, none, none, none⟩ := by
  obtain ⟨t, ps, a, as, c, hd, ht, hp, ha, has, hc⟩ := h.exists_lines
  obtain ⟨ax, hae, _, _⟩ := id ha
  obtain ⟨cx, hce, _, _⟩ := id hc
  have hparts : data = header ++ tailOf message := h.parts
  have e0 : data = t ++ c!"\n" :: (unlines ps ++ (a ++ c!"\n" :: (unlines as ++ (c ++ c!"\n" :: (unlines more ++ last ++ tailOf message))))) := by
    rw [hparts, hd]
    simp [unlines, List.append_assoc]
  have hlen : (unlines ps).length + (unlines as).length + (unlines more).length + 3 ≤ data.length := by
    rw [e0]; simp; omega
  have hlp := length_unlines ps
  have hla := length_unlines as
  have hlm := length_unlines more
  have hpar : ∀ r, parseParents size (data.length + 1) (unlines ps ++ (a ++ c!"\n" :: r)) = .ok (parents, a ++ c!"\n" :: r) := by
    intro r
    refine parseParents_fwd hs hp (noParent_of ?_) (by omega)
    rw [isPrefixOf_line (by decide), hae]; rfl
  have hskip : ∀ r, skipAuthors (data.length + 1) (unlines as ++ (c ++ c!"\n" :: r)) = .ok (c ++ c!"\n" :: r) := by
    intro r
    refine skipAuthors_fwd has ?_ (by omega)
    rw [isPrefixOf_line (by decide), hce]; rfl
  have hskip' : ∀ r, skipAuthors (data.length + 1) (a ++ c!"\n" :: (unlines as ++ (c ++ c!"\n" :: r))) = .ok (c ++ c!"\n" :: r) := by
    intro r
    rw [← unlines_cons]
    refine skipAuthors_fwd ?_ ?_ (by simp; omega)
    · intro l hl
      rcases List.mem_cons.mp hl with rfl | hl
      · exact ⟨_, ha⟩
      · exact has l hl
    · rw [isPrefixOf_line (by decide), hce]; rfl
  have hcom : ∀ r, parse (c ++ c!"\n" :: r) b!"committer " c!"\n" = .ok (committer, r) := fun r =>
    (sigparse_iff (by decide) (by decide)).2 ⟨c, hc, rfl⟩
  have haut : ∀ r, parse (a ++ c!"\n" :: r) b!"author " c!"\n" = .ok (author, r) := fun r =>
    (sigparse_iff (by decide) (by decide)).2 ⟨a, ha, rfl⟩
  have htail : (tailOf message).head? = some c!"\n" ∨ tailOf message = [] := by
    cases message with
    | none => exact .inr rfl
    | some m => exact .inl rfl
  have hlt : last ≠ [] → tailOf message = [] := fun hl => by rw [h.last_only hl]; rfl
  have hhead := parseHeaders_fwd h.more_lines h.last_line htail hlt (n := data.length + 1) (by omega) none
  constructor
  · unfold commitParse parseTree parseAuthor
    rw [if_neg (by decide)]
    have : parseOidHeader size b!"tree " data = .ok (tree, (unlines ps ++ (a ++ c!"\n" :: (unlines as ++ (c ++ c!"\n" :: (unlines more ++ last ++ tailOf message)))))) :=
      (parseOidHeader_iff hs).2 ⟨t, ht, e0⟩
    rw [this]
    simp only [Res.bind_ok]
    rw [hpar]
    simp only [Res.bind_ok]
    rw [if_neg (by decide), haut]
    simp only [Res.bind_ok]
    rw [hskip]
    simp only [Res.bind_ok]
    rw [hcom]
    simp only [Res.bind_ok]
    rw [hhead]
    simp only [Res.bind_ok]
    rw [if_neg (by decide)]
    have e1 : data.length - (tailOf message).length = header.length := by rw [hparts]; simp
    have e2 : data.take (data.length - (tailOf message).length) = header := by rw [e1, hparts]; simp
    have e3 : (if data.length - (tailOf message).length + 1 ≤ data.length then cstr (data.drop (data.length - (tailOf message).length + 1)) else []) = cstr (message.getD []) := by
      rw [e1]
      cases message with
      | none =>
        rw [if_neg (by rw [hparts]; simp [tailOf])]
        rfl
      | some m =>
        rw [if_pos (by rw [hparts]; simp [tailOf])]
        congr 1
        rw [hparts, show header ++ tailOf (some m) = (header ++ b!"\n") ++ m by simp [tailOf],
          show header.length + 1 = (header ++ b!"\n").length by simp, List.drop_left]
        rfl
    rw [e2, e3, encStep_foldl, encodingOf_last]
    simp
  · unfold commitParse parseTree parseAuthor
    have : ¬ data.length < 5 + 2 * size + 1 := by
      obtain ⟨x, rfl, hx, _⟩ := ht
      rw [e0]; simp; omega
    rw [if_pos rfl, if_neg this]
    have e4 : data.drop (5 + 2 * size + 1) = unlines ps ++ (a ++ c!"\n" :: (unlines as ++ (c ++ c!"\n" :: (unlines more ++ last ++ tailOf message)))) := by
      obtain ⟨x, rfl, hx, _⟩ := ht
      have hd : ∀ r, (b!"tree " ++ x ++ c!"\n" :: r).drop (5 + 2 * size + 1) = r := by
        intro r
        rw [show 5 + 2 * size + 1 = (b!"tree " ++ x ++ b!"\n").length by simp [hx]; omega,
          show b!"tree " ++ x ++ c!"\n" :: r = (b!"tree " ++ x ++ b!"\n") ++ r by simp, List.drop_left]
      rw [e0, hd]
    simp only [Res.bind_ok]
    rw [e4, hpar]
    simp only [Res.bind_ok, if_true]
    rw [hskip']
    simp only [Res.bind_ok]
    rw [hcom]
    rfl

theorem commitParse_inv {size : Nat} (hs : 0 < size) {data : Bytes} {c : Commit} (h : commitParse size data false = .ok c) :
    ∃ header tree author more last message, IsCommit size data header tree c.parents author c.committer more last message := by
  unfold commitParse parseTree parseAuthor at h
  rw [if_neg (by decide)] at h
  cases h1 : parseOidHeader size b!"tree " data with
  | ub => rw [h1] at h; cases h
  | err e => rw [h1] at h; cases h
  | ok t =>
    rw [h1] at h
    obtain ⟨tl, ht, e1⟩ := (parseOidHeader_iff hs).1 (show parseOidHeader size b!"tree " data = .ok (t.1, t.2) from h1)
    simp only [Res.bind_ok] at h
    cases h2 : parseParents size (data.length + 1) t.2 with
    | ub => rw [h2] at h; cases h
    | err e => rw [h2] at h; cases h
    | ok p =>
      rw [h2] at h
      obtain ⟨ps, hp, e2⟩ := parseParents_inv hs (show _ = Res.ok (p.1, p.2) from h2)
      simp only [Res.bind_ok] at h
      rw [if_neg (by decide)] at h
      cases h3 : parse p.2 b!"author " c!"\n" with
      | ub => rw [h3] at h; cases h
      | err e => rw [h3] at h; cases h
      | ok a =>
        rw [h3] at h
        obtain ⟨al, ha, e3⟩ := (sigparse_iff (by decide) (by decide)).1 (show parse p.2 b!"author " c!"\n" = .ok (a.1, a.2) from h3)
        simp only [Res.bind_ok] at h
        cases h4 : skipAuthors (data.length + 1) a.2 with
        | ub => rw [h4] at h; cases h
        | err e => rw [h4] at h; cases h
        | ok b =>
          rw [h4] at h
          obtain ⟨as, has, e4⟩ := skipAuthors_inv h4
          simp only [Res.bind_ok] at h
          cases h5 : parse b b!"committer " c!"\n" with
          | ub => rw [h5] at h; cases h
          | err e => rw [h5] at h; cases h
          | ok cm =>
            rw [h5] at h
            obtain ⟨cl, hc, e5⟩ := (sigparse_iff (by decide) (by decide)).1 (show parse b b!"committer " c!"\n" = .ok (cm.1, cm.2) from h5)
            simp only [Res.bind_ok] at h
            rw [if_neg (by decide)] at h
            have hlen : cm.2.length < data.length + 1 := by
              rw [e1, e2, e3, e4, e5]; simp; omega
            obtain ⟨ls, last, tail, g1, g2, g3, g4, g5, g6⟩ := parseHeaders_inv (enc := none) hlen
            rw [g6] at h
            simp only [Res.bind_ok] at h
            have h := Res.ok.inj h
            have hmsg : ∃ message, tail = tailOf message ∧ (last ≠ [] → message = none) := by
              rcases g3 with g3 | g3
              · cases tail with
                | nil => cases g3
                | cons x m =>
                  have : x = c!"\n" := by simpa using g3
                  subst this
                  exact ⟨some m, rfl, fun hl => absurd (g4 hl) (by simp)⟩
              · exact ⟨none, g3, fun _ => rfl⟩
            obtain ⟨message, rfl, hlo⟩ := hmsg
            refine ⟨_, t.1, a.1, ls, last, message, ⟨?_, ⟨tl, ps, al, as, cl, rfl, ht, ?_, ha, has, ?_⟩, g1, g2, hlo⟩⟩
            · show data = _ ++ tailOf message
              rw [e1, e2, e3, e4, e5, g5]
              simp [unlines, List.append_assoc]
            · rw [← h]; exact hp
            · rw [← h]; exact hc

/-- **C13 (what is read).** Reading bytes as a commit succeeds exactly when they are a commit (`IsCommit`: tree, parents, authors, committer, further
headers, blank line, message) and then gives exactly the tree, the parents in order, the first author, the committer, the last
encoding header, the whole header and the message (as a C string). -/
theorem C13_exact {size : Nat} (hs : 0 < size) (data : Bytes) (c : Commit) :
    commitParse size data false = .ok c ↔ ∃ header tree author more last message, IsCommit size data header tree c.parents author c.committer more last message ∧
      c.tree = some tree ∧ c.author = some author ∧ c.encoding = encodingOf (more ++ [last]) ∧ c.rawHeader = some (cstr header) ∧
      c.rawMessage = some (cstr (message.getD [])) := by
  constructor
  · intro h
    obtain ⟨header, tree, author, more, last, message, hc⟩ := commitParse_inv hs h
    have h' := (commitParse_fwd hs hc).1
    rw [h] at h'
    have := Res.ok.inj h'
    refine ⟨header, tree, author, more, last, message, hc, ?_, ?_, ?_, ?_, ?_⟩ <;> rw [this]
  · rintro ⟨header, tree, author, more, last, message, hc, h1, h2, h3, h4, h5⟩
    rw [(commitParse_fwd hs hc).1, ← h1, ← h2, ← h3, ← h4, ← h5]

/-- **C13 (quick parse).** Whenever a commit can be read, reading it the quick way (as history walks do) gives the same parents and the same committer and time. -/
theorem C13_quick {size : Nat} (hs : 0 < size) {data : Bytes} {c : Commit} (h : commitParse size data false = .ok c) :
    ∃ q, commitParse size data true = .ok q ∧ q.parents = c.parents ∧ q.committer = c.committer := by
  obtain ⟨header, tree, author, more, last, message, hc⟩ := commitParse_inv hs h
  exact ⟨_, (commitParse_fwd hs hc).2, rfl, rfl⟩

/-- **C13 (safety).** Reading any bytes as a commit stays inside of them, and ends. -/
theorem C13_safe {size : Nat} (hs : 0 < size) (data : Bytes) (quick : Bool) : commitParse size data quick ≠ .ub := by
  unfold commitParse
  have ht : parseTree size data quick ≠ .ub ∧ ∀ t, parseTree size data quick = .ok t → t.2.length ≤ data.length := by
    unfold parseTree
    by_cases hq : quick = true
    · rw [if_pos hq]
      split
      · simp
      · refine ⟨by simp, fun t h => ?_⟩
        rw [← Res.ok.inj h]; simp
    · rw [if_neg hq]
      cases h1 : parseOidHeader size b!"tree " data with
      | ub => exact absurd h1 parseOidHeader_ne_ub
      | err e => simp
      | ok t =>
        obtain ⟨tl, _, e1⟩ := (parseOidHeader_iff hs).1 (show parseOidHeader size b!"tree " data = .ok (t.1, t.2) from h1)
        refine ⟨by simp, fun t' h => ?_⟩
        rw [← Res.ok.inj h, e1]; simp; omega
  cases h1 : parseTree size data quick with
  | ub => exact absurd h1 ht.1
  | err e => simp
  | ok t =>
    have l1 := ht.2 t h1
    simp only [Res.bind_ok]
    cases h2 : parseParents size (data.length + 1) t.2 with
    | ub => exact absurd h2 (parseParents_ne_ub hs (by omega))
    | err e => simp
    | ok p =>
      obtain ⟨ps, _, e2⟩ := parseParents_inv hs (show _ = Res.ok (p.1, p.2) from h2)
      have l2 : p.2.length ≤ data.length := by rw [e2] at l1; simp at l1; omega
      simp only [Res.bind_ok]
      have ha : parseAuthor p.2 quick ≠ .ub ∧ ∀ a, parseAuthor p.2 quick = .ok a → a.2.length ≤ data.length := by
        unfold parseAuthor
        by_cases hq : quick = true
        · rw [if_pos hq]
          exact ⟨by simp, fun a h => by rw [← Res.ok.inj h]; exact l2⟩
        · rw [if_neg hq]
          cases h3 : parse p.2 b!"author " c!"\n" with
          | ub => exact absurd h3 (C12_safe _ _ _)
          | err e => simp
          | ok a =>
            obtain ⟨al, _, e3⟩ := (sigparse_iff (by decide) (by decide)).1 (show parse p.2 b!"author " c!"\n" = .ok (a.1, a.2) from h3)
            refine ⟨by simp, fun a' h => ?_⟩
            rw [← Res.ok.inj h]
            rw [e3] at l2
            simp at l2 ⊢; omega
      cases h3 : parseAuthor p.2 quick with
      | ub => exact absurd h3 ha.1
      | err e => simp
      | ok a =>
        have l3 := ha.2 a h3
        simp only [Res.bind_ok]
        cases h4 : skipAuthors (data.length + 1) a.2 with
        | ub => exact absurd h4 (skipAuthors_ne_ub (by omega))
        | err e => simp
        | ok b =>
          obtain ⟨as, _, e4⟩ := skipAuthors_inv h4
          simp only [Res.bind_ok]
          cases h5 : parse b b!"committer " c!"\n" with
          | ub => exact absurd h5 (C12_safe _ _ _)
          | err e => simp
          | ok cm =>
            obtain ⟨cl, _, e5⟩ := (sigparse_iff (by decide) (by decide)).1 (show parse b b!"committer " c!"\n" = .ok (cm.1, cm.2) from h5)
            simp only [Res.bind_ok]
            split
            · simp
            · obtain ⟨ls, last, tail, _, _, _, _, _, g6⟩ := parseHeaders_inv (b := cm.2) (n := data.length + 1) (enc := none) (by
                rw [e4, e5] at l3; simp at l3; omega)
              rw [g6]
              simp

/-! ### writing -/

theorem writeOidHeader_ok {size : Nat} (hs : 0 < size) (header : Bytes) {id : Bytes} (h : id.length = size) :
    ∃ l, writeOidHeader size header id = .ok (l ++ b!"\n") ∧ IdLine size header id l := by
  unfold writeOidHeader
  rw [if_neg (by omega)]
  subst h
  rw [Oid.C02_fmt]
  refine ⟨header ++ Oid.Spec.hex id, by simp, _, rfl, by simp, ?_⟩
  exact Oid.mapM_hexVal_digits _ (Oid.nibbles_lt id)

theorem writeParents_ok {size : Nat} (hs : 0 < size) {ps : List Bytes} (h : ∀ p ∈ ps, p.length = size) :
    ∃ ls, writeParents size ps = .ok (unlines ls) ∧ List.Forall₂ (IdLine size b!"parent ") ps ls := by
  induction ps with
  | nil => exact ⟨[], rfl, .nil⟩
  | cons p ps ih =>
    obtain ⟨ls, h1, h2⟩ := ih fun q hq => h q (List.mem_cons_of_mem _ hq)
    obtain ⟨l, h3, h4⟩ := writeOidHeader_ok hs b!"parent " (h p (by simp))
    refine ⟨l :: ls, ?_, .cons h4 h2⟩
    rw [writeParents, h3]
    simp only [Res.bind_ok]
    rw [h1]
    simp [unlines]

theorem writebuf_line {s : Signature} (h : Made s) {header : Bytes} (hh : c!"\n" ∉ header) (h0 : header ≠ []) :
    ∃ l, writebuf header s = l ++ b!"\n" ∧ SigLine header s l := by
  obtain ⟨n, e, t, o, h1, h2, h3, h4, h5, h6⟩ := h
  have := C12_roundtrip h1 h2 h3 h4 ⟨h5, h6⟩ hh []
  obtain ⟨l, hl, e⟩ := (sigparse_iff h0 hh).1 this
  exact ⟨l, by simpa using e, hl⟩

theorem cstr_id {s : Bytes} (h : CString s) : cstr s = s := by
  unfold cstr
  have := takeWhile_append_stop (· ≠ (0 : UInt8)) s [] (fun x hx => by simpa using fun e : x = 0 => h (e ▸ hx)) (by simp)
  simpa using this

/-- **C13 (round trip).** A commit created from any tree, parents, signatures made by `git_signature_new` (of one-line strings), encoding (in one
line) and message is written, and what is written is read back with the same tree, parents in order, author, committer, encoding and message. -/
theorem C13_roundtrip {size : Nat} (hs : 0 < size) {author committer : Signature} (ha : Made author) (hc : Made committer) {encoding : Option Bytes}
    (he : ∀ e, encoding = some e → OneLine e) {message tree : Bytes} (hm : CString message) (ht : tree.length = size) {parents : List Bytes}
    (hp : ∀ p ∈ parents, p.length = size) :
    ∃ data c, createBuffer size author committer encoding message tree parents = .ok data ∧ commitParse size data false = .ok c ∧
      c.tree = some tree ∧ c.parents = parents ∧ c.author = some author ∧ c.committer = committer ∧ c.encoding = encoding ∧ c.rawMessage = some message := by
  obtain ⟨tl, t1, t2⟩ := writeOidHeader_ok hs b!"tree " ht
  obtain ⟨ps, p1, p2⟩ := writeParents_ok hs hp
  obtain ⟨al, a1, a2⟩ := writebuf_line ha (header := b!"author ") (by decide) (by decide)
  obtain ⟨cl, c1, c2⟩ := writebuf_line hc (header := b!"committer ") (by decide) (by decide)
  let more : List Bytes := match encoding with | some e => [b!"encoding " ++ e] | none => []
  have hmore : ∀ l ∈ more, Line l := by
    cases encoding with
    | none => simp [more]
    | some e =>
      intro l hl
      have : l = b!"encoding " ++ e := by simpa [more] using hl
      subst this
      refine ⟨by simp, fun hm => ?_⟩
      rcases List.mem_append.mp hm with hm | hm
      · exact absurd hm (by decide)
      · exact (he e rfl).1 hm
  have hic : IsCommit size (unlines ([tl] ++ ps ++ [al] ++ [] ++ [cl] ++ more) ++ [] ++ c!"\n" :: message) _ tree parents author committer more [] (some message) :=
    ⟨rfl, ⟨tl, ps, al, [], cl, rfl, t2, p2, a2, by simp, c2⟩, hmore, by simp, by simp⟩
  refine ⟨_, _, ?_, (commitParse_fwd hs hic).1, rfl, rfl, rfl, rfl, ?_, ?_⟩
  · unfold createBuffer
    rw [t1]
    simp only [Res.bind_ok]
    rw [p1]
    simp only [Res.bind_ok]
    rw [a1, c1]
    cases encoding with
    | none => simp [unlines, more]
    | some e => simp [unlines, more]
  · cases encoding with
    | none => simp [more, encodingOf]
    | some e =>
      have : cstr e = e := cstr_id (he e rfl).2
      simp [more, encodingOf, List.filter, this]
  · simp [cstr_id hm]

end Verif.Commit
