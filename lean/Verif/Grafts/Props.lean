import Verif.Grafts.Lemmas3
/-! # C85, C86, C87: grafts and shallow roots -/
namespace Verif.Grafts
open HashMap.Spec (lookup)
open Spec (IsId Line File IsText parentsOf Graft lastRead Settled Tells UpToDate Says Event EventOk rootsFile)

/-! ## C85 -/

/-- **C85 (format).** Whatever is in the file: the grafts are those of its lines up to the first that is not one (the last line for a commit counts),
and the code is 0 exactly if all lines are grafts. -/
theorem C85_format (size : Nat) (h0 : 0 < size) (text : Bytes) (ls : List Bytes) (ht : IsText text ls) :
    ∃ gs c m, parse size text = .ok (m, c) ∧ File size ls gs c ∧ (∀ id, lookup m id = parentsOf gs id) ∧ (m.map (·.1)).Nodup := by
  obtain ⟨gs, c, m, h1, h2, h3⟩ := parse_spec size h0 text ls ht
  exact ⟨gs, c, m, h1, h2, h3, parseLoop_keys _ _ _ _ _ (by simp [Keys]) h1⟩

/-- **C85 (format).** Every text consists of lines, in one way; a line says one thing, and so does a file. -/
theorem C85_unambiguous (size : Nat) (text : Bytes) : ∃ ls, IsText text ls ∧ (∀ ls', IsText text ls' → ls' = ls) ∧
    ∀ gs c gs' c', File size ls gs c → File size ls gs' c' → gs = gs' ∧ c = c' := by
  obtain ⟨ls, h⟩ := isText_exists text
  refine ⟨ls, h, ?_, fun gs c gs' c' h h' => file_unique h h'⟩
  intro ls' h'
  have key : ∀ (ls : List Bytes) (text : Bytes) (ls' : List Bytes), IsText text ls → IsText text ls' → ls' = ls := by
    intro ls
    induction ls with
    | nil =>
      intro text ls' h h'
      rcases isText_cases h with ⟨rfl, _⟩ | ⟨_, _, _, e, _⟩ | ⟨e, _⟩
      · rcases isText_cases h' with ⟨_, e⟩ | ⟨_, _, _, _, _, e, _⟩ | ⟨_, _, e⟩
        · exact e
        · simp at e
        · exact absurd rfl e
      · cases e
      · cases e
    | cons l ls ih =>
      intro text ls' h h'
      rcases isText_cases h with ⟨_, e⟩ | ⟨l1, ls1, rest, e, hl, ht, hr⟩ | ⟨e, hl, hne⟩
      · cases e
      · cases e
        rcases isText_cases h' with ⟨e, _⟩ | ⟨l2, ls2, rest2, e, hl2, ht2, hr2⟩ | ⟨_, e, _⟩
        · rw [e] at ht; simp at ht
        · rw [ht] at ht2
          have := FetchHead.strsep_found (b := rest) hl
          rw [ht2, FetchHead.strsep_found hl2] at this
          cases this
          rw [e, ih rest ls2 hr hr2]
        · rw [ht] at e; simp at e
      · rcases isText_cases h' with ⟨e', _⟩ | ⟨l2, ls2, rest2, e', hl2, ht2, hr2⟩ | ⟨e', _⟩
        · exact absurd e' hne
        · rw [ht2] at hl; simp at hl
        · rw [e', e]
  exact key ls text ls' h h'

/-! ## C86 -/

/-- **C86 (refresh).** Whatever was found before: if the contents found are not those read last, or have been there ever since they were not, the
grafts in force are those of the contents. The code tells about an invalid file only the first time. -/
theorem C86_in_force (sha : Bytes → Bytes) (size : Nat) (h0 : 0 < size) (files : List (Option Bytes)) (ht : Tells sha files) (text : Bytes) (n : Nat)
    (hs : Settled files text n) (gs : List Graft) (c : Int) (hf : Says size (some text) gs c) :
    ∃ g, lookAll sha size new 0 files = .ok (g, if n = 0 then c else 0) ∧ ∀ id, lookup g.map id = parentsOf gs id := by
  obtain ⟨ls, hl, hff⟩ := hf
  obtain ⟨g, h1, _, h3⟩ := settled_spec h0 files ht text n hs ls hl gs c hff
  exact ⟨g, h1, h3⟩

/-- **C86 (refresh).** When there is no file, nothing is in force. -/
theorem C86_gone (sha : Bytes → Bytes) (size : Nat) (h0 : 0 < size) (pre : List (Option Bytes)) :
    ∃ g, lookAll sha size new 0 (pre ++ [none]) = .ok (g, 0) ∧ g.map = [] := by
  obtain ⟨g, h1, h2, _⟩ := gone_spec (sha := sha) h0 pre
  exact ⟨g, h1, h2⟩

/-- **C86 (finding).** A file that goes away and comes back with the contents that were read last is not read: no grafts are in force, and no error
is reported, however often it is looked at. -/
theorem C86_stale (sha : Bytes → Bytes) (size : Nat) (h0 : 0 < size) (pre : List (Option Bytes)) (text : Bytes) (n : Nat)
    (hp : lastRead pre = some text) :
    ∃ g, lookAll sha size new 0 (pre ++ [none] ++ List.replicate (n + 1) (some text)) = .ok (g, 0) ∧ g.map = [] := by
  obtain ⟨g, h1, h2, h3⟩ := gone_spec (sha := sha) h0 pre
  rw [hp] at h3
  refine ⟨g, ?_, h2⟩
  rw [lookAll_append, h1, Res.bind_ok, same_again _ _ _ h3]
  simp

/-- **C86.** There are no other cases: what is found at the end of a history is nothing, or settled, or has come back. -/
theorem C86_cases (files : List (Option Bytes)) (hne : files ≠ []) : files.getLast? = some none ∨ (∃ text n, Settled files text n) ∨
    ∃ pre text n, files = pre ++ [none] ++ List.replicate (n + 1) (some text) ∧ lastRead pre = some text := by
  revert hne
  refine list_snoc_induction (p := fun files => files ≠ [] → files.getLast? = some none ∨ (∃ text n, Settled files text n) ∨
    ∃ pre text n, files = pre ++ [none] ++ List.replicate (n + 1) (some text) ∧ lastRead pre = some text) (fun h => absurd rfl h) ?_ files
  intro a f ih _
  cases f with
  | none => exact .inl (by rw [List.getLast?_concat])
  | some t =>
    refine .inr ?_
    by_cases hl : lastRead a = some t
    · have hane : a ≠ [] := by rintro rfl; simp [lastRead] at hl
      rcases ih hane with h | ⟨text, n, pre, e, hp⟩ | ⟨pre, text, n, e, hp⟩
      · obtain ⟨pre, rfl⟩ : ∃ pre, a = pre ++ [none] := ⟨a.dropLast, by
          rw [List.getLast?_eq_some_getLast hane] at h
          rw [← Option.some.inj h, List.dropLast_concat_getLast]⟩
        rw [lastRead_snoc] at hl
        exact .inr ⟨pre, t, 0, rfl, hl⟩
      · have : text = t := by
          rw [e, List.replicate_succ', ← List.append_assoc, lastRead_snoc] at hl
          exact Option.some.inj hl
        subst this
        exact .inl ⟨text, n + 1, pre, by rw [e, List.replicate_succ' (n := n + 1), List.append_assoc], hp⟩
      · have : text = t := by
          rw [e, List.replicate_succ', ← List.append_assoc, lastRead_snoc] at hl
          exact Option.some.inj hl
        subst this
        exact .inr ⟨pre, text, n + 1, by rw [e, List.replicate_succ' (n := n + 1)]; simp only [List.append_assoc], hp⟩
    · exact .inl ⟨t, 0, a, rfl, hl⟩

/-! ## C87 -/

/-- **C87 (open).** Opening a repository fails exactly if one of the files is invalid; otherwise the parents of every commit are those of
`info/grafts`, or else of `shallow`, or else its own. -/
theorem C87_open (sha : Bytes → Bytes) (size : Nat) (h0 : 0 < size) (gf sf : Option Bytes) (tg : Tells sha [gf]) (ts : Tells sha [sf])
    (gs ss : List Graft) (cg cs : Int) (fg : Says size gf gs cg) (fs : Says size sf ss cs) :
    if cg = 0 ∧ cs = 0 then
      ∃ r, openRepo sha size gf sf = .ok (r, 0) ∧ Looked sha size r.grafts [gf] ∧ Looked sha size r.shallow [sf] ∧
        ∀ id own, commitParents r id own = ((parentsOf gs id).or (parentsOf ss id)).getD own
    else ∃ r, openRepo sha size gf sf = .ok (r, -1) := by
  have := openRepo_ok (sha := sha) h0 gf sf tg ts gs ss cg cs fg fs
  split
  · rename_i h
    rw [if_pos h] at this
    obtain ⟨g, s, h1, h2, h3, h4, h5⟩ := this
    refine ⟨_, h1, h2, h3, ?_⟩
    intro id own
    unfold commitParents get
    simp only [Option.bind_some, h4, h5]
    cases parentsOf gs id with
    | some x => rfl
    | none => cases parentsOf ss id <;> rfl
  · rename_i h
    rw [if_neg h] at this
    exact this

/-- **C87 (store).** After a fetch has stored the roots, the repository is shallow exactly if there are any; the next fetch gets exactly these
roots, each once; and the roots have no parents, unless `info/grafts` says otherwise, the other commits those that they had without `shallow`. -/
theorem C87_store (sha : Bytes → Bytes) (size : Nat) (h0 : 0 < size) (h32 : size ≤ 32) (r : Repo) (gfs sfs : List (Option Bytes)) (roots : List Bytes)
    (hroots : ∀ id ∈ roots, id.length = size) (hg : Looked sha size r.grafts gfs) (hs : Looked sha size r.shallow sfs)
    (tg : Tells sha (gfs ++ [r.graftsFile])) (ts : Tells sha (sfs ++ [some (rootsFile roots)])) (ug : UpToDate (gfs ++ [r.graftsFile]))
    (us : UpToDate (sfs ++ [some (rootsFile roots)])) (gs : List Graft) (fg : Says size r.graftsFile gs 0) :
    ∃ r', shallowRootsWrite sha size r roots true = .ok (r', 0) ∧ r'.graftsFile = r.graftsFile ∧
      r'.shallowFile = (if roots = [] then none else some (rootsFile roots)) ∧
      isShallow r' = (if roots = [] then 0 else 1) ∧
      (∀ id own, commitParents r' id own = (parentsOf gs id).getD (if id ∈ roots then [] else own)) ∧
      ∃ r'' l, shallowRoots sha size r' = .ok (r'', 0, l) ∧ l.Nodup ∧ (∀ id, id ∈ l ↔ id ∈ roots) ∧
        ∀ id own, commitParents r'' id own = commitParents r' id own := by
  have hload := loadGrafts_ok h0 { r with shallowFile := some (rootsFile roots) } hg hs tg ts ug us gs (roots.map fun id => ⟨id, []⟩) fg (roots_say roots hroots)
  obtain ⟨g, s, h1, h2, h3, h4⟩ := hload
  dsimp only at h1 h2
  have hw : shallowRootsWrite sha size r roots true =
      .ok (⟨r.graftsFile, if roots = [] then none else some (rootsFile roots), some g, some s⟩, 0) := by
    unfold shallowRootsWrite afterWrite
    rw [rootsText_spec h32 roots hroots, Res.bind_ok, if_pos rfl, h1, Res.bind_ok, if_neg (by simp)]
    by_cases hr : roots = []
    · subst hr; rfl
    · rw [if_neg (by simpa using hr), if_neg hr]
  have hpar : ∀ (sh : Option Bytes) id own, commitParents ⟨r.graftsFile, sh, some g, some s⟩ id own =
      (parentsOf gs id).getD (if id ∈ roots then [] else own) := by
    intro sh id own
    unfold commitParents get
    simp only [Option.bind_some, h3, h4, parentsOf_roots]
    cases parentsOf gs id with
    | some x => rfl
    | none =>
      by_cases hid : id ∈ roots
      · simp [hid]
      · simp [hid]
  have hroots' : ∃ s' l, shallowRoots sha size ⟨r.graftsFile, if roots = [] then none else some (rootsFile roots), some g, some s⟩ =
      .ok (⟨r.graftsFile, if roots = [] then none else some (rootsFile roots), some g, some s'⟩, 0, l) ∧ l.Nodup ∧
      (∀ id, id ∈ l ↔ id ∈ roots) ∧ ∀ id, lookup s'.map id = if id ∈ roots then some [] else none := by
    by_cases hr : roots = []
    · rw [if_pos hr]
      obtain ⟨s', l, e1, e2, e3, e4, _⟩ := refreshRoots_ok h0 ⟨r.graftsFile, none, some g, some s⟩ h2 (tells_none (tells_again ts))
        (.inl (by rw [List.getLast?_concat])) [] ⟨rfl, rfl⟩
      refine ⟨s', l, e1, e2, ?_, ?_⟩
      · intro id; rw [e3, hr]; simp [parentsOf]
      · intro id; rw [e4, hr]; simp [parentsOf]
    · rw [if_neg hr]
      obtain ⟨s', l, e1, e2, e3, e4, _⟩ := refreshRoots_ok h0 ⟨r.graftsFile, some (rootsFile roots), some g, some s⟩ h2
        (tells_again (tells_again ts)) (upToDate_again (upToDate_again us)) _ (roots_say roots hroots)
      refine ⟨s', l, e1, e2, ?_, ?_⟩
      · intro id; rw [e3, parentsOf_roots]; by_cases hid : id ∈ roots <;> simp [hid]
      · intro id; rw [e4, parentsOf_roots]
  obtain ⟨s', l, e1, e2, e3, e4⟩ := hroots'
  refine ⟨_, hw, rfl, rfl, ?_, hpar _, _, l, e1, e2, e3, ?_⟩
  · unfold isShallow
    by_cases hr : roots = []
    · rw [if_pos hr, if_pos hr]
    · rw [if_neg hr, if_neg hr]
      dsimp only
      rw [if_neg]
      intro h
      cases roots with
      | nil => exact hr rfl
      | cons a b => simp [rootsFile] at h
  · intro id own
    rw [hpar]
    unfold commitParents get
    simp only [Option.bind_some, h3, e4]
    cases parentsOf gs id with
    | some x => rfl
    | none => by_cases hid : id ∈ roots <;> simp [hid]

/-- **C87 (roots).** A fetch that begins gets exactly the commits that `shallow` names as it is then, each once; what was loaded before does not
matter, if the file is up to date in the sense of C86. -/
theorem C87_roots (sha : Bytes → Bytes) (size : Nat) (h0 : 0 < size) (r : Repo) (sfs : List (Option Bytes)) (hs : Looked sha size r.shallow sfs)
    (ts : Tells sha (sfs ++ [r.shallowFile])) (us : UpToDate (sfs ++ [r.shallowFile])) (ss : List Graft) (fs : Says size r.shallowFile ss 0) :
    ∃ r' l, shallowRoots sha size r = .ok (r', 0, l) ∧ l.Nodup ∧ (∀ id, id ∈ l ↔ ∃ g ∈ ss, g.oid = id) ∧
      ∀ id own, get r'.grafts id = none → commitParents r' id own = (parentsOf ss id).getD own := by
  obtain ⟨s', l, e1, e2, e3, e4, _⟩ := refreshRoots_ok h0 r hs ts us ss fs
  refine ⟨_, l, e1, e2, ?_, ?_⟩
  · intro id
    rw [e3]
    unfold parentsOf
    simp only [Option.isSome_map, List.find?_isSome, List.mem_reverse, decide_eq_true_eq]
  · intro id own hg
    unfold commitParents
    rw [hg]
    unfold get
    simp only [Option.bind_some, e4]
    cases parentsOf ss id <;> rfl

/-- **C87 (is shallow).** A repository whose `shallow` is valid is shallow exactly if some commit is named in it. -/
theorem C87_is_shallow (size : Nat) (r : Repo) (ss : List Graft) (fs : Says size r.shallowFile ss 0) : isShallow r = if ss = [] then 0 else 1 := by
  unfold isShallow
  cases hf : r.shallowFile with
  | none => rw [hf] at fs; rw [fs.1]; rfl
  | some text =>
    rw [hf] at fs
    obtain ⟨ls, hl, h⟩ := fs
    dsimp only
    cases h with
    | done =>
      rcases isText_cases hl with ⟨rfl, _⟩ | ⟨_, _, _, e, _⟩ | ⟨e, _⟩
      · rfl
      · cases e
      · cases e
    | good l ls g gs c hg h =>
      rw [if_neg (List.cons_ne_nil _ _), if_neg]
      intro e
      rw [List.length_eq_zero_iff] at e
      subst e
      rcases isText_cases hl with ⟨_, e⟩ | ⟨_, _, _, _, _, e, _⟩ | ⟨_, _, e⟩
      · cases e
      · simp at e
      · exact e rfl

/-- **C87 (reachable states).** Whatever happens to a repository that was opened, no operation reads outside a buffer, and what is in memory comes
from looking at the files: the states that C87_store and C87_roots speak of are all there are. -/
theorem C87_reachable (sha : Bytes → Bytes) (size : Nat) (h0 : 0 < size) (h32 : size ≤ 32) (gf sf : Option Bytes) (r : Repo)
    (ho : openRepo sha size gf sf = .ok (r, 0)) (es : List Event) (he : ∀ e ∈ es, EventOk size e) :
    ∃ r', events sha size r es = .ok r' ∧ ∃ gfs sfs, Looked sha size r'.grafts gfs ∧ Looked sha size r'.shallow sfs := by
  refine loaded_events h0 h32 es r ?_ he
  obtain ⟨g, cg, h1, _⟩ := refresh_total (sha := sha) h0 new (by simp [Keys, new]) gf
  obtain ⟨s, cs, h2, _⟩ := refresh_total (sha := sha) h0 new (by simp [Keys, new]) sf
  unfold openRepo loadGrafts openBoth openOrRefresh at ho
  simp only [h1, h2, Res.bind_ok] at ho
  by_cases hc : cg < 0
  · rw [if_pos hc, Res.bind_ok, if_pos hc] at ho
    cases ho
    exact absurd hc (by decide)
  · rw [if_neg hc, Res.bind_ok, if_neg (by simp)] at ho
    by_cases hd : cs < 0
    · rw [if_pos hd, Res.bind_ok] at ho
      cases ho
      exact absurd hd (by decide)
    · rw [if_neg hd, Res.bind_ok] at ho
      cases ho
      exact ⟨[gf], [sf], looked_new gf h1, looked_new sf h2⟩

/-! ### Concrete cases -/

/-- a checksum for the examples: the first 32 bytes, and a mark -/
def mark (b : Bytes) : Bytes := 1 :: b

theorem mark_tells (files : List (Option Bytes)) : Tells mark files :=
  ⟨fun a b _ _ h => by unfold mark at h; simpa using h, fun a _ h => by unfold mark at h; simp [List.replicate_succ] at h⟩

example : IsText b!"12ab cd34\nffff" [b!"12ab cd34", b!"ffff"] := ⟨by decide, .inr ⟨[b!"12ab cd34"], b!"ffff", rfl, by decide, rfl⟩⟩

example : parse 2 b!"12ab cd34 FFFF\nffff\n12AB\n" = .ok ([([0x12, 0xab], []), ([0xff, 0xff], [])], 0) := by decide +kernel

example : Settled [some b!"ffff\n", none, some b!"12ab\n", some b!"12ab\n"] b!"12ab\n" 1 := ⟨[some b!"ffff\n", none], rfl, by decide⟩

example : ∃ r r' l, openRepo mark 2 (some b!"12ab\n") none = .ok (r, 0) ∧ shallowRootsWrite mark 2 r [[0xff, 0xff]] true = .ok (r', 0) ∧
    shallowRoots mark 2 r' = .ok l ∧ l.2.2 = [[0xff, 0xff]] ∧ isShallow r' = 1 ∧ commitParents r' [0xff, 0xff] [[1, 2]] = [] ∧
    commitParents r' [0, 0] [[1, 2]] = [[1, 2]] :=
  ⟨_, _, _, rfl, rfl, rfl, by decide +kernel, by decide +kernel, by decide +kernel, by decide +kernel⟩

/-- Finding: blank lines and comments, which git skips, make the file invalid, and a repository with such an `info/grafts` cannot be opened. -/
theorem C85_comment : ((openRepo mark 2 (some b!"# grafts\n12ab\n") none).bind fun r => .ok r.2) = .ok (-1) ∧
    ((openRepo mark 2 (some b!"\n12ab\n") none).bind fun r => .ok r.2) = .ok (-1) ∧
    ((openRepo mark 2 (some b!"12ab\r\n") none).bind fun r => .ok r.2) = .ok (-1) := by decide +kernel

/-- Finding: an invalid file is an error only once; after that the lines before the invalid one are in force. -/
theorem C86_invalid_then_accepted : ∃ g, lookAll mark 2 new 0 [some b!"12ab\n?\nffff\n"] = .ok (g, -1) ∧
    lookAll mark 2 new 0 [some b!"12ab\n?\nffff\n", some b!"12ab\n?\nffff\n"] = .ok (g, 0) ∧ g.map = [([0x12, 0xab], [])] :=
  ⟨⟨[([0x12, 0xab], [])], mark b!"12ab\n?\nffff\n"⟩, by decide +kernel, by decide +kernel, rfl⟩

/-- Finding: that the file could not be put into place is not noticed; storing roots succeeds, and there are none. -/
theorem C87_not_placed : ∃ r r', openRepo mark 2 none none = .ok (r, 0) ∧ shallowRootsWrite mark 2 r [[0xff, 0xff]] false = .ok (r', 0) ∧
    isShallow r' = 0 := ⟨_, _, rfl, rfl, rfl⟩

/-- Finding: roots that were stored, and that someone else has removed since, are not in force when the same roots are stored again. -/
theorem C87_stored_again : ∃ r r', events mark 2 ⟨none, some b!"ffff\n", some new, some ⟨[([0xff, 0xff], [])], mark b!"ffff\n"⟩⟩
      [.shallowFile none, .roots] = .ok r ∧ shallowRootsWrite mark 2 r [[0xff, 0xff]] true = .ok (r', 0) ∧ isShallow r' = 1 ∧
    commitParents r' [0xff, 0xff] [[1, 2]] = [[1, 2]] := ⟨_, _, rfl, rfl, rfl, by decide +kernel⟩

end Verif.Grafts
