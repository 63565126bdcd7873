import Verif.Tree.LemmasBuilder
import Verif.Tree.LemmasSearch
/-! # C09, C10, C11: tree objects -/
namespace Verif.Tree
open Spec

/-! ## C09 -/

/-- Parsing succeeds exactly on the byte strings that are a sequence of well-formed records, and returns these records in order. -/
theorem C09_parse_exact (data : Bytes) (es : List Entry) :
    parseRaw data = .ok es ↔ TreeText data (es.map (fun e => (e.attr, e.name, e.oid))) := by
  unfold parseRaw
  rcases parseLoop_cases (data.length + 1) data (by omega) with ⟨es', e1, e2⟩ | ⟨e1, e2⟩
  · rw [e1]
    constructor
    · intro h; cases h; exact e2
    · intro h
      have := treeText_unique e2 h
      rw [(List.map_inj_right (f := Entry.toSpec) toSpec_inj).mp this]
  · rw [e1]
    constructor
    · intro h; cases h
    · intro h; exact absurd h (e2 _)

/-- On anything else parsing reports `GIT_EINVALID`; it never reads outside the buffer. -/
theorem C09_parse_total (data : Bytes) : (∃ es, parseRaw data = .ok es) ∨ parseRaw data = .err EINVALID := by
  unfold parseRaw
  rcases parseLoop_cases (data.length + 1) data (by omega) with ⟨es', e1, e2⟩ | ⟨e1, e2⟩
  · exact .inl ⟨es', e1⟩
  · exact .inr e1

/-- Writing any entries with 16-bit modes, names and 20-byte ids and parsing the result gives these entries in the same order. -/
theorem C09_roundtrip (es : List Entry) (h : ∀ e ∈ es, e.attr < 65536 ∧ Name e.name ∧ e.oid.length = 20) :
    parseRaw (writeEntries es) = .ok es := by
  rw [C09_parse_exact]
  induction es with
  | nil => exact .nil
  | cons e es ih =>
    obtain ⟨h1, h2, h3⟩ := h e (by simp)
    have hw : writeEntries (e :: es) = octal e.attr ++ b!" " ++ e.name ++ [0] ++ e.oid ++ writeEntries es := by
      unfold writeEntries writeEntry Entry.flen
      rw [List.flatMap_cons, Nat.mod_eq_of_lt (by have := h2.2.2; omega), List.take_of_length_le (by simp)]
      simp
    rw [hw, List.map_cons]
    refine .cons ⟨[], octal e.attr, rfl, octal_ne_nil _, octal_spells _, h1, .inl rfl⟩ h2 h3 (ih (fun x hx => h x (by simp [hx])))

/-- two entries, one of them with the largest mode -/
def exEntries : List Entry := [⟨0o100644, b!"a.c", List.replicate 20 7⟩, ⟨0o040000, b!"lib", List.replicate 20 9⟩, ⟨65535, b!"z", List.replicate 20 0⟩]

example : ∀ e ∈ exEntries, e.attr < 65536 ∧ Name e.name ∧ e.oid.length = 20 := by unfold Name exEntries; decide

example : writeEntries exEntries = b!"100644 a.c" ++ [0] ++ List.replicate 20 7 ++ b!"40000 lib" ++ [0] ++ List.replicate 20 9 ++ b!"177777 z" ++ [0] ++ List.replicate 20 0 := by decide +kernel

example : parseRaw (b!"+0100644 a" ++ [0] ++ List.replicate 20 1) = .ok [⟨0o100644, b!"a", List.replicate 20 1⟩] := by decide +kernel
example : parseRaw (b!"100644 " ++ [0] ++ List.replicate 20 1) = .err EINVALID := by decide +kernel
example : parseRaw (b!"100644 a" ++ [0] ++ List.replicate 19 1) = .err EINVALID := by decide +kernel
example : parseRaw (b!"200000 a" ++ [0] ++ List.replicate 20 1) = .err EINVALID := by decide +kernel

/-! ## C10 -/

/-- one call on a builder; a call that reports an error leaves it as it is -/
def editM (env : Env) (h : Bld) : Edit → Res Bld
  | .insert name oid mode => match insert env h name oid mode with
    | .err _ => .ok h
    | r => r
  | .remove name => match remove env h name with
    | .err _ => .ok h
    | r => r
  | .filter f => filter env (fun e => f (e.attr, e.name, e.oid)) h
  | .clear => .ok (clear h)

/-- a sequence of calls -/
def runM (env : Env) : Bld → List Edit → Res Bld
  | h, [] => .ok h
  | h, ed :: eds => match editM env h ed with
    | .ok h => runM env h eds
    | .err e => .err e
    | .ub => .ub

/-- the contents of a source tree: the last entry of each name -/
def ofSource (c : Contents) (es : List Entry) : Contents :=
  es.foldl (fun c e => fun n => if n = e.name then some (e.attr, e.oid) else c n) c

/-- what the library promises about accepted names (C42): they are non-empty components without a slash (or NUL, being C strings) -/
def NamesOk (env : Env) : Prop := ∀ n, env.pathValid n = true → c!"/" ∉ n ∧ (0 : UInt8) ∉ n

/-- the length limit of names, not enforced by the library (finding) -/
def ShortNames : Edit → Prop
  | .insert name _ _ => name.length ≤ 65535
  | _ => True

theorem new_ok {env : Env} (es : List Entry) : ∀ (h : Bld) (c : Contents), BRel env h c → h.size + es.length < 2 ^ 30 →
    ∃ h', new env h es = .ok h' ∧ BRel env h' (ofSource c es) ∧ h'.size ≤ h.size + es.length := by
  induction es with
  | nil => intro h c hr _; exact ⟨h, rfl, hr, by omega⟩
  | cons e es ih =>
    intro h c hr hs
    simp only [List.length_cons] at hs
    obtain ⟨h1, e1, r1⟩ := append_ok hr (by omega) e
    have hz := size_put hr.inv e1 r1.inv (by omega)
    obtain ⟨h2, e2, r2, z2⟩ := ih h1 _ r1 (by omega)
    refine ⟨h2, ?_, r2, by simp only [List.length_cons]; omega⟩
    rw [new]; unfold appendEntry; rw [e1]; exact e2

theorem validFilemode_lt {m : Nat} (h : validFilemode m = true) : m < 65536 := by
  unfold validFilemode at h
  simp only [decide_eq_true_eq] at h
  omega

theorem edit_ok {env : Env} {h : Bld} {c : Contents} (hr : BRel env h c) (hs : h.size < 2 ^ 30) (ed : Edit) :
    ∃ h', editM env h ed = .ok h' ∧ BRel env h' (edit (checkEntry env) c ed) ∧ h'.size ≤ h.size + 1 := by
  cases ed with
  | insert name oid mode =>
    by_cases hck : checkEntry env name oid mode = true
    · have hm : mode < 65536 := by
        unfold checkEntry at hck
        simp only [Bool.decide_and, Bool.and_eq_true, decide_eq_true_eq] at hck
        exact validFilemode_lt hck.1
      obtain ⟨h', e1, r1⟩ := insert_ok hr hs name oid mode hck hm
      refine ⟨h', by simp [editM, e1], ?_, ?_⟩
      · simpa [edit, hck] using r1
      · unfold insert at e1
        rw [if_pos hck] at e1
        split at e1
        · split at e1
          · cases e1
          · cases e1; simp
        · exact size_put hr.inv e1 r1.inv hs
        · cases e1
    · refine ⟨h, ?_, ?_, by omega⟩
      · simp [editM, insert, hck]
      · simpa [edit, hck] using hr
  | remove name =>
    rcases remove_ok hr name with ⟨h1, h2⟩ | ⟨h', e1, r1, z1⟩
    · refine ⟨h, by simp [editM, h2], ?_, by omega⟩
      have : edit (checkEntry env) c (.remove name) = c := by
        funext n
        simp only [edit]
        split
        · rename_i hn; rw [hn, h1]
        · rfl
      rw [this]; exact hr
    · exact ⟨h', by simp [editM, e1], r1, by omega⟩
  | filter f =>
    obtain ⟨h', e1, z1, r1⟩ := filter_ok hr (fun e => f (e.attr, e.name, e.oid))
    exact ⟨h', e1, r1, by omega⟩
  | clear =>
    refine ⟨_, rfl, clear_ok hr, ?_⟩
    unfold clear HashMap.clear
    split
    · omega
    · simp

theorem run_ok {env : Env} (eds : List Edit) : ∀ (h : Bld) (c : Contents), BRel env h c → h.size + eds.length < 2 ^ 30 →
    ∃ h', runM env h eds = .ok h' ∧ BRel env h' (eds.foldl (edit (checkEntry env)) c) ∧ h'.size ≤ h.size + eds.length := by
  induction eds with
  | nil => intro h c hr _; exact ⟨h, rfl, hr, by omega⟩
  | cons ed eds ih =>
    intro h c hr hs
    simp only [List.length_cons] at hs
    obtain ⟨h1, e1, r1, z1⟩ := edit_ok hr (by omega) ed
    obtain ⟨h2, e2, r2, z2⟩ := ih h1 _ r1 (by omega)
    exact ⟨h2, by rw [runM, e1]; exact e2, r2, by simp only [List.length_cons]; omega⟩

/-- all entries of some contents are fit for the sort order -/
def PlainC (c : Contents) : Prop := ∀ n m id, c n = some (m, id) → Plain ⟨m, n, id⟩

theorem edit_plain {env : Env} (hv : NamesOk env) {c : Contents} (hc : PlainC c) (ed : Edit) (hs : ShortNames ed) :
    PlainC (edit (checkEntry env) c ed) := by
  intro n m id h
  cases ed with
  | insert name oid mode =>
    simp only [edit] at h
    split at h
    · rename_i hck
      simp only at h
      split at h
      · rename_i hn
        subst hn
        simp only [Option.some.injEq, Prod.mk.injEq] at h
        obtain ⟨rfl, rfl⟩ := h
        unfold checkEntry validEntryName at hck
        simp only [Bool.decide_and, Bool.and_eq_true, decide_eq_true_eq] at hck
        obtain ⟨h1, ⟨h2, h3⟩, h4⟩ := hck
        exact ⟨validFilemode_lt h1, (hv n h3).1, (hv n h3).2, hs⟩
      · exact hc _ _ _ h
    · exact hc _ _ _ h
  | remove name =>
    simp only [edit] at h
    split at h
    · cases h
    · exact hc _ _ _ h
  | filter f =>
    simp only [edit] at h
    split at h
    · rename_i heq
      split at h
      · cases h
      · cases h; exact hc _ _ _ heq
    · cases h
  | clear => cases h

theorem source_plain (es : List Entry) (hp : ∀ e ∈ es, Plain e) : ∀ c, PlainC c → PlainC (ofSource c es) := by
  induction es with
  | nil => intro c h; exact h
  | cons e es ih =>
    intro c hc
    apply ih (fun x hx => hp x (by simp [hx]))
    intro n m id h
    simp only at h
    split at h
    · rename_i hn
      cases h
      subst hn
      exact hp e (by simp)
    · exact hc _ _ _ h

/-- A builder started from any source tree and edited by any sequence of insert, remove, filter and clear calls, with any hash function:
every call returns; afterwards `get` gives for each name the contents that the edits define, and writing succeeds with the canonical tree object of these
contents. Fewer than `2^30` entries and calls. -/
theorem C10_builder (env : Env) (source : List Entry) (eds : List Edit) (hv : NamesOk env)
    (hsrc : ∀ e ∈ source, Plain e) (hshort : ∀ ed ∈ eds, ShortNames ed) (hsize : source.length + eds.length < 2 ^ 30) :
    ∃ h0 h, new env HashMap.init source = .ok h0 ∧ runM env h0 eds = .ok h ∧
      (∀ n, get env h n = (eds.foldl (edit (checkEntry env)) (ofSource (fun _ => none) source) n).map (fun p => ⟨p.1, n, p.2⟩)) ∧
      (∃ bytes, write h = .ok bytes ∧ Canonical (eds.foldl (edit (checkEntry env)) (ofSource (fun _ => none) source)) bytes) := by
  have hr0 : BRel env (HashMap.init : Bld) (fun _ => none) :=
    brel_of (HashMap.init_inv _) (fun n e => by
      constructor
      · rintro ⟨i, h, _⟩; cases h
      · rintro ⟨_, h⟩; cases h)
  obtain ⟨h0, e0, r0, z0⟩ := new_ok source HashMap.init (fun _ => none) hr0 (by show 0 + source.length < 2 ^ 30; omega)
  have hz : h0.size ≤ source.length := by simpa [HashMap.init] using z0
  obtain ⟨h, e1, r1, z1⟩ := run_ok eds h0 _ r0 (by omega)
  have hpl : ∀ (eds : List Edit) c, PlainC c → (∀ ed ∈ eds, ShortNames ed) → PlainC (eds.foldl (edit (checkEntry env)) c) := by
    intro eds
    induction eds with
    | nil => intro c hc _; exact hc
    | cons ed eds ih =>
      intro c hc hs
      exact ih _ (edit_plain hv hc ed (hs ed (by simp))) (fun x hx => hs x (by simp [hx]))
  have hp := hpl eds _ (source_plain source hsrc (fun _ => none) (fun _ _ _ h => by cases h)) hshort
  obtain ⟨bytes, hw⟩ := write_small r1 hp (by omega)
  exact ⟨h0, h, e0, e1, r1.get, bytes, hw, write_ok r1 hp hw⟩

/-- Contents determine the tree object: whatever the order of edits (and the order in which the hash map iterates), equal contents give
identical bytes. -/
theorem C10_canonical_unique (c : Contents) (b b' : Bytes) (h : Canonical c b) (h' : Canonical c b') : b = b' := canonical_unique h h'

def exEnv : Env := ⟨fun n => n.all (fun c => c ≠ c!"/" ∧ c ≠ 0) && decide (n ≠ b!".git"), fun _ _ => true, fun n => n.length⟩
def exEdits : List Edit := [.insert b!"a" (List.replicate 20 1) 0o040000, .insert b!"a-b" (List.replicate 20 2) 0o100644,
  .insert b!"x" (List.replicate 20 3) 0o100644, .insert b!".git" (List.replicate 20 3) 0o100644, .remove b!"x", .remove b!"nope",
  .insert b!"a0" (List.replicate 20 4) 0o100755, .insert b!"a-b" (List.replicate 20 5) 0o120000, .filter (fun e => e.1 = 0o100755)]

example : NamesOk exEnv := by
  intro n h
  simp only [exEnv, Bool.and_eq_true, List.all_eq_true, decide_eq_true_eq] at h
  exact ⟨fun hc => absurd rfl (h.1 _ hc).1, fun hc => absurd rfl (h.1 _ hc).2⟩
example : (∀ e ∈ [(⟨0o100644, b!"README", List.replicate 20 8⟩ : Entry)], Plain e) ∧ (∀ ed ∈ exEdits, ShortNames ed) := by
  constructor
  · intro e he
    simp only [List.mem_singleton] at he
    subst he
    exact ⟨by decide, by decide, by decide, by decide⟩
  · unfold exEdits ShortNames
    intro ed hed
    simp only [List.mem_cons, List.not_mem_nil, or_false] at hed
    rcases hed with rfl | rfl | rfl | rfl | rfl | rfl | rfl | rfl | rfl <;> simp

/-- the written bytes of the example: `a-b` sorts before the directory `a`, which sorts as `a/` -/
example : (match new exEnv HashMap.init [⟨0o100644, b!"README", List.replicate 20 8⟩] with
    | .ok h => (match runM exEnv h exEdits with | .ok h => write h | .err e => .err e | .ub => .ub)
    | .err e => .err e | .ub => .ub) =
    .ok (b!"100644 README" ++ [0] ++ List.replicate 20 8 ++ (b!"120000 a-b" ++ [0] ++ List.replicate 20 5) ++ (b!"40000 a" ++ [0] ++ List.replicate 20 1)) := by
  decide +kernel

/-- FINDING. On names that contain a slash (which `git_treebuilder_new` takes from a source tree unchecked) the order is not transitive. -/
example : entrySortCmp ⟨0o100644, b!"a/c", []⟩ ⟨0o040000, b!"a", []⟩ = 0 ∧ entrySortCmp ⟨0o040000, b!"a", []⟩ ⟨0o100644, b!"a/b", []⟩ = 0 ∧
    entrySortCmp ⟨0o100644, b!"a/c", []⟩ ⟨0o100644, b!"a/b", []⟩ = 1 := by decide

/-! ## C11 -/

/-- In a tree in git order, looking a name up finds an entry exactly when one with that name exists, and what is found has that name.
The search never reads outside the array of entries. -/
theorem C11_byname (es : List Entry) (hp : ∀ e ∈ es, Plain e)
    (hs : es.Pairwise (fun a b => gitKey a.attr a.name ≤ gitKey b.attr b.name)) (name : Bytes) :
    (∃ e, entryByname es name = .ok (some e) ∧ e ∈ es ∧ e.name = name) ∨
    (entryByname es name = .ok none ∧ ∀ e ∈ es, e.name ≠ name) := by
  unfold entryByname
  rcases treeKeySearch_total es name with h | ⟨p, e, h, h1, h2⟩
  · right
    rw [h]
    refine ⟨rfl, ?_⟩
    rintro e he rfl
    obtain ⟨p, e', h', _⟩ := treeKeySearch_finds hp hs he
    rw [h] at h'; cases h'
  · left
    rw [h]
    simp only [h1]
    have hm := List.mem_of_getElem? h1
    exact ⟨e, rfl, hm, (nameMatches_iff (hp e hm)).mp h2⟩

/-- On any array of entries, sorted or not, the search stays inside the array and what it finds has the requested name. -/
theorem C11_safe (es : List Entry) (name : Bytes) (hp : ∀ e ∈ es, Plain e) :
    entryByname es name = .ok none ∨ ∃ e, entryByname es name = .ok (some e) ∧ e ∈ es ∧ e.name = name := by
  unfold entryByname
  rcases treeKeySearch_total es name with h | ⟨p, e, h, h1, h2⟩
  · left; rw [h]
  · right
    rw [h]
    simp only [h1]
    have hm := List.mem_of_getElem? h1
    exact ⟨e, rfl, hm, (nameMatches_iff (hp e hm)).mp h2⟩

/-- the file/directory corner: `a-b` and `a.c` come before the directory `a`, `a0` after it -/
def exTree : List Entry := [⟨0o100644, b!"a-b", []⟩, ⟨0o100644, b!"a.c", []⟩, ⟨0o040000, b!"a", []⟩, ⟨0o100644, b!"a0", []⟩, ⟨0o100644, b!"b", []⟩]
example : exTree.Pairwise (fun a b => gitKey a.attr a.name ≤ gitKey b.attr b.name) := by unfold exTree gitKey; decide
example : ∀ e ∈ exTree, Plain e := by
  intro e he
  simp only [exTree, List.mem_cons, List.not_mem_nil, or_false] at he
  rcases he with rfl | rfl | rfl | rfl | rfl <;> exact ⟨by decide, by decide, by decide, by decide⟩
example : entryByname exTree b!"a" = .ok (some ⟨0o040000, b!"a", []⟩) := by decide +kernel
example : entryByname exTree b!"a-" = .ok none := by decide +kernel

end Verif.Tree
