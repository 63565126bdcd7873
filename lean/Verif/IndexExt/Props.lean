import Verif.IndexExt.Lemmas4
import Verif.IndexFile.Props
/-! # C88, C89: the extensions of the index file -/
namespace Verif.IndexExt
open Spec
open IndexTree (Cache)

/-! ## C89: reading -/

/-- **C89 (resolved conflicts).** Reading any bytes as a `REUC` extension, whatever follows them in the file (at least one byte does), never reads
outside the file and ends; it succeeds exactly on the texts of the documented form, and with the entries that text gives. -/
theorem C89_reuc (data after : Bytes) (ha : after ≠ []) : readReuc (data ++ after) data.length ≠ .ub ∧
    ∀ es, readReuc (data ++ after) data.length = .ok es ↔ ReucText data es :=
  ⟨reucLoop_ne_ub after ha _ _ (by omega), fun es => reucLoop_iff after ha _ _ es (by omega)⟩

/-- **C89 (conflict names).** The same for a `NAME` extension. -/
theorem C89_names (data after : Bytes) : readNames (data ++ after) data.length ≠ .ub ∧
    ∀ ns, readNames (data ++ after) data.length = .ok ns ↔ NamesText data ns :=
  ⟨namesLoop_ne_ub after _ _ (by omega), fun ns => namesLoop_iff after _ _ ns (by omega)⟩

/-- **C89 (cached trees).** The same for a `TREE` extension: exactly one tree, and nothing after it. -/
theorem C89_tree (data after : Bytes) (ha : after ≠ []) : readTree (data ++ after) data.length ≠ .ub ∧
    ∀ c, readTree (data ++ after) data.length = .ok c ↔ TreeText data c [] := by
  obtain ⟨h1, h2⟩ := (read_iff after ha (2 * data.length + 1)).1 data (by omega)
  unfold readTree
  constructor
  · refine bind_ne_ub _ _ h1 ?_
    rintro ⟨c, b, n⟩ -
    simp only
    split <;> simp
  · intro c
    constructor
    · intro h
      rw [bind_eq_ok] at h
      obtain ⟨⟨c', b, n⟩, g, h⟩ := h
      obtain ⟨t, rfl, rfl, ht⟩ := (h2 _ _ _).1 g
      simp only at h
      split at h
      · cases h
      · rename_i hn
        cases h
        have : t = [] := List.length_eq_zero_iff.mp (by omega)
        subst this
        exact ht
    · intro h
      rw [(h2 _ _ _).2 ⟨[], rfl, rfl, h⟩]
      simp

/-- a text is read in one way only -/
theorem C89_deterministic (data : Bytes) : (∀ es es', ReucText data es → ReucText data es' → es = es') ∧
    (∀ ns ns', NamesText data ns → NamesText data ns' → ns = ns') ∧ (∀ c c', TreeText data c [] → TreeText data c' [] → c = c') := by
  refine ⟨fun a b h1 h2 => ?_, fun a b h1 h2 => ?_, fun a b h1 h2 => ?_⟩
  · have e1 := ((C89_reuc data [0] (by simp)).2 a).2 h1
    rw [((C89_reuc data [0] (by simp)).2 b).2 h2] at e1
    cases e1; rfl
  · have e1 := ((C89_names data [0]).2 a).2 h1
    rw [((C89_names data [0]).2 b).2 h2] at e1
    cases e1; rfl
  · have e1 := ((C89_tree data [0] (by simp)).2 a).2 h1
    rw [((C89_tree data [0] (by simp)).2 b).2 h2] at e1
    cases e1; rfl

theorem res_ctx {α : Type} {x y : Res α} (P : α → Prop) (hx : x ≠ .ub) (hy : y ≠ .ub) (h1 : ∀ a, x = .ok a ↔ P a) (h2 : ∀ a, y = .ok a ↔ P a) :
    ∀ a, x = .ok a ↔ y = .ok a := fun a => (h1 a).trans (h2 a).symm

/-- **C89 (context).** What follows the extension in the file makes no difference. -/
theorem C89_context (a b : Bytes) (ha : a ≠ []) (hb : b ≠ []) (s s' : Side) (x : IndexFile.Ext) :
    readExtData a s x ≠ .ub ∧ (readExtData a s x = .ok s' ↔ readExtData b s x = .ok s') := by
  have t := C89_tree x.data a ha
  have t' := C89_tree x.data b hb
  have r := C89_reuc x.data a ha
  have r' := C89_reuc x.data b hb
  have n := C89_names x.data a
  have n' := C89_names x.data b
  unfold readExtData
  refine ⟨?_, ?_⟩
  · split
    · exact bind_ne_ub _ _ t.1 (fun _ _ => by simp)
    split
    · exact bind_ne_ub _ _ r.1 (fun _ _ => by simp)
    split
    · exact bind_ne_ub _ _ n.1 (fun _ _ => by simp)
    · simp
  · split
    · simp only [bind_eq_ok, t.2, t'.2]
    split
    · simp only [bind_eq_ok, r.2, r'.2]
    split
    · simp only [bind_eq_ok, n.2, n'.2]
    · rfl

theorem extOk_iff (sig data : Bytes) : extOk sig data = true ↔ (sig = b!"TREE" → ∃ c, TreeText data c []) ∧
    (sig = b!"REUC" → ∃ es, ReucText data es) ∧ (sig = b!"NAME" → ∃ ns, NamesText data ns) := by
  have t := (C89_tree data [0] (by simp)).2
  have r := (C89_reuc data [0] (by simp)).2
  have n := (C89_names data [0]).2
  have key : extOk sig data = true ↔ ∃ s', readExtData [0] ⟨none, [], []⟩ ⟨sig, data⟩ = .ok s' := by
    unfold extOk
    split
    · rename_i s h; simp [h]
    · rename_i h
      constructor
      · intro h; cases h
      · rintro ⟨s', h'⟩; exact absurd h' (h s')
  rw [key]
  unfold readExtData
  by_cases h1 : sig = b!"TREE"
  · subst h1
    simp only [if_true, bind_eq_ok, t]
    constructor
    · rintro ⟨s', c, hc, -⟩
      exact ⟨fun _ => ⟨c, hc⟩, fun h => absurd h (by decide), fun h => absurd h (by decide)⟩
    · rintro ⟨h, -⟩
      obtain ⟨c, hc⟩ := h trivial
      exact ⟨_, c, hc, rfl⟩
  rw [if_neg h1]
  by_cases h2 : sig = b!"REUC"
  · subst h2
    simp only [if_true, bind_eq_ok, r]
    constructor
    · rintro ⟨s', c, hc, -⟩
      exact ⟨fun h => absurd h h1, fun _ => ⟨c, hc⟩, fun h => absurd h (by decide)⟩
    · rintro ⟨-, h, -⟩
      obtain ⟨c, hc⟩ := h trivial
      exact ⟨_, c, hc, rfl⟩
  rw [if_neg h2]
  by_cases h3 : sig = b!"NAME"
  · subst h3
    simp only [if_true, bind_eq_ok, n]
    constructor
    · rintro ⟨s', c, hc, -⟩
      exact ⟨fun h => absurd h h1, fun h => absurd h h2, fun _ => ⟨c, hc⟩⟩
    · rintro ⟨-, -, h⟩
      obtain ⟨c, hc⟩ := h trivial
      exact ⟨_, c, hc, rfl⟩
  rw [if_neg h3]
  exact ⟨fun _ => ⟨fun h => absurd h h1, fun h => absurd h h2, fun h => absurd h h3⟩, fun _ => ⟨_, rfl⟩⟩

theorem readExtensions_sound (env : IndexFile.Env) : ∀ fuel b xs b', IndexFile.readExtensions env fuel b = .ok (xs, b') → ∀ x ∈ xs,
    (x.sig = b!"TREE" ∨ x.sig = b!"REUC" ∨ x.sig = b!"NAME") → env.extOk x.sig x.data = true := by
  intro fuel
  induction fuel with
  | zero => intro b xs b' h; cases h
  | succ fuel ih =>
    intro b xs b' h x hx hs
    unfold IndexFile.readExtensions at h
    split at h
    · cases h; simp at hx
    rw [bind_eq_ok] at h
    obtain ⟨⟨y, size⟩, g, h⟩ := h
    simp only at h
    split at h
    · cases h
    rw [bind_eq_ok] at h
    obtain ⟨⟨ys, b2⟩, g2, h⟩ := h
    cases h
    rcases List.mem_cons.mp hx with rfl | hx
    · unfold IndexFile.readExtension at g
      rw [bind_eq_ok] at g
      obtain ⟨sg, k1, g⟩ := g
      rw [bind_eq_ok] at g
      obtain ⟨sz, k2, g⟩ := g
      simp only at g
      split at g
      · cases g
      split at g
      · cases g
      split at g
      · cases g
      rename_i hn
      cases g
      simp only [not_and, Decidable.not_not] at hn
      exact hn hs
    · exact ih _ _ _ g2 x hx hs

/-- **C89 (whole file).** In an index file that is accepted, every extension of a known kind has contents of the documented form. -/
theorem C89_accepted (env : IndexFile.Env) (he : env.extOk = extOk) (file : Bytes) (p : IndexFile.Parsed) (h : IndexFile.parse env file = .ok p) :
    ∀ x ∈ p.exts, (x.sig = b!"TREE" → ∃ c, TreeText x.data c []) ∧ (x.sig = b!"REUC" → ∃ es, ReucText x.data es) ∧
      (x.sig = b!"NAME" → ∃ ns, NamesText x.data ns) := by
  intro x hx
  unfold IndexFile.parse at h
  split at h
  · cases h
  rw [bind_eq_ok] at h
  obtain ⟨sig, -, h⟩ := h
  rw [bind_eq_ok] at h
  obtain ⟨ver, -, h⟩ := h
  rw [bind_eq_ok] at h
  obtain ⟨cnt, -, h⟩ := h
  split at h
  · cases h
  split at h
  · cases h
  rw [bind_eq_ok] at h
  obtain ⟨⟨es, b1⟩, -, h⟩ := h
  simp only at h
  rw [bind_eq_ok] at h
  obtain ⟨⟨xs, b2⟩, g, h⟩ := h
  simp only at h
  split at h
  · cases h
  split at h
  · cases h
  cases h
  have := readExtensions_sound env _ _ _ _ g x hx
  rw [he] at this
  by_cases hs : x.sig = b!"TREE" ∨ x.sig = b!"REUC" ∨ x.sig = b!"NAME"
  · exact (extOk_iff _ _).1 (this hs)
  · simp only [not_or] at hs
    exact ⟨fun h => absurd h hs.1, fun h => absurd h hs.2.1, fun h => absurd h hs.2.2⟩

/-! ## C88: what is written is read -/

/-- **C88 (resolved conflicts).** What is written of a list of resolved conflicts reads as that list, exactly if the last of them has some stage;
otherwise it cannot be read at all. -/
theorem C88_reuc (es : List Reuc) (h : ∀ e ∈ es, Reuc.Ok e) (after : Bytes) (ha : after ≠ []) :
    ((∀ e, es.getLast? = some e → e.mode0 ≠ 0 ∨ e.mode1 ≠ 0 ∨ e.mode2 ≠ 0) →
      readReuc (writeReuc es ++ after) (writeReuc es).length = .ok es) ∧
    ((∃ e, es.getLast? = some e ∧ e.mode0 = 0 ∧ e.mode1 = 0 ∧ e.mode2 = 0) →
      ∃ code, readReuc (writeReuc es ++ after) (writeReuc es).length = .err code) := by
  obtain ⟨h1, h2⟩ := C89_reuc (writeReuc es) after ha
  refine ⟨fun hl => (h2 es).2 (writeReuc_text es h hl), ?_⟩
  rintro ⟨e, hl, z0, z1, z2⟩
  have hb := writeReuc_bad es h e hl (by simp [Staged, z0, z1, z2])
  cases hr : readReuc (writeReuc es ++ after) (writeReuc es).length with
  | ok es' => exact absurd ((h2 es').1 hr) (hb es')
  | err code => exact ⟨code, rfl⟩
  | ub => exact absurd hr h1

/-- **C88 (conflict names).** What is written of a list of conflict names reads as that list. -/
theorem C88_names (ns : List Name) (h : ∀ n ∈ ns, Name.Ok n) (after : Bytes) :
    readNames (writeNames ns ++ after) (writeNames ns).length = .ok ns :=
  ((C89_names (writeNames ns) after).2 ns).2 (writeNames_text ns h)

/-- **C88 (cached trees).** What is written of a cache tree reads as a tree with the same names, counts and shape, and the same ids where they are
valid. -/
theorem C88_tree (c : Cache) (h : CacheOk c) (after : Bytes) (ha : after ≠ []) :
    ∃ c', readTree (writeTree c ++ after) (writeTree c).length = .ok c' ∧ Same c c' := by
  obtain ⟨c', h1, h2⟩ := writeTree_text h []
  rw [List.append_nil] at h1
  exact ⟨c', ((C89_tree (writeTree c) after ha).2 c').2 h1, h2⟩

/-- what a program may have in memory beside the entries -/
structure Side.Ok (s : Side) : Prop where
  tree : ∀ c, s.tree = some c → CacheOk c ∧ (writeTree c).length < 2 ^ 32
  names : (∀ n ∈ s.names, Name.Ok n) ∧ (writeNames s.names).length < 2 ^ 32
  reuc : (∀ e ∈ s.reuc, Reuc.Ok e ∧ (e.mode0 ≠ 0 ∨ e.mode1 ≠ 0 ∨ e.mode2 ≠ 0)) ∧ (writeReuc s.reuc).length < 2 ^ 32

theorem sideExts_ok (env : IndexFile.Env) (he : env.extOk = extOk) (s : Side) (h : Side.Ok s) :
    ∀ x ∈ sideExts s, IndexFile.Spec.Ext.Ok env x := by
  intro x hx
  unfold sideExts at hx
  simp only [List.mem_append] at hx
  rcases hx with (hx | hx) | hx
  · cases ht : s.tree with
    | none => rw [ht] at hx; simp at hx
    | some c =>
      rw [ht] at hx
      simp only [List.mem_singleton] at hx
      subst hx
      obtain ⟨h1, h2⟩ := h.tree c ht
      obtain ⟨c', h3, -⟩ := writeTree_text h1 []
      rw [List.append_nil] at h3
      refine ⟨rfl, (by decide : (65 : UInt8) ≤ 84 ∧ (84 : UInt8) ≤ 90), h2, fun _ => ?_⟩
      rw [he, extOk_iff]
      exact ⟨fun _ => ⟨c', h3⟩, fun h => absurd h (by simp), fun h => absurd h (by simp)⟩
  · split at hx
    · simp only [List.mem_singleton] at hx
      subst hx
      refine ⟨rfl, (by decide : (65 : UInt8) ≤ 78 ∧ (78 : UInt8) ≤ 90), h.names.2, fun _ => ?_⟩
      rw [he, extOk_iff]
      exact ⟨fun h => absurd h (by simp), fun h => absurd h (by simp), fun _ => ⟨_, writeNames_text _ h.names.1⟩⟩
    · simp at hx
  · split at hx
    · simp only [List.mem_singleton] at hx
      subst hx
      refine ⟨rfl, (by decide : (65 : UInt8) ≤ 82 ∧ (82 : UInt8) ≤ 90), h.reuc.2, fun _ => ?_⟩
      rw [he, extOk_iff]
      exact ⟨fun h => absurd h (by simp), fun _ => ⟨_, writeReuc_text _ (fun e h' => (h.reuc.1 e h').1)
        (fun e hl => (h.reuc.1 e (List.mem_of_getLast? hl)).2)⟩, fun h => absurd h (by simp)⟩
    · simp at hx

/-- the extensions written are read back into an index that had none -/
theorem C88_side (s : Side) (h : Side.Ok s) (after : Bytes) (ha : after ≠ []) : ∃ s', readExtsData after ⟨none, [], []⟩ (sideExts s) = .ok s' ∧
    s'.names = s.names ∧ s'.reuc = s.reuc ∧ (s.tree = none → s'.tree = none) ∧ (∀ c, s.tree = some c → ∃ c', s'.tree = some c' ∧ Same c c') := by
  have hn := C88_names s.names h.names.1 after
  have hr := (C88_reuc s.reuc (fun e h' => (h.reuc.1 e h').1) after ha).1 (fun e hl => (h.reuc.1 e (List.mem_of_getLast? hl)).2)
  have tail : ∀ t : Option Cache, readExtsData after ⟨t, [], []⟩ ((if 0 < s.names.length then [⟨b!"NAME", writeNames s.names⟩] else []) ++
      (if 0 < s.reuc.length then [⟨b!"REUC", writeReuc s.reuc⟩] else [])) = .ok ⟨t, s.names, s.reuc⟩ := by
    intro t
    have k1 : ∀ (t : Option Cache) (ns : List Name), readExtsData after ⟨t, ns, []⟩
        (if 0 < s.reuc.length then [⟨b!"REUC", writeReuc s.reuc⟩] else []) = .ok ⟨t, ns, s.reuc⟩ := by
      intro t ns
      by_cases hl : 0 < s.reuc.length
      · rw [if_pos hl, readExtsData, readExtData, if_neg (by simp), if_pos rfl, hr]
        simp [readExtsData]
      · have : s.reuc = [] := List.length_eq_zero_iff.mp (by omega)
        rw [if_neg hl, this]; rfl
    by_cases hl : 0 < s.names.length
    · rw [if_pos hl, List.singleton_append, readExtsData, readExtData, if_neg (by simp), if_neg (by simp), if_pos rfl, hn]
      simp only [Res.bind_ok, List.nil_append]
      exact k1 t s.names
    · have : s.names = [] := List.length_eq_zero_iff.mp (by omega)
      rw [if_neg hl, this, List.nil_append]
      exact k1 t []
  unfold sideExts
  cases ht : s.tree with
  | none =>
    refine ⟨⟨none, s.names, s.reuc⟩, ?_, rfl, rfl, fun _ => rfl, (fun c hc => nomatch hc)⟩
    simp only [List.nil_append]
    exact tail none
  | some c =>
    obtain ⟨c', h1, h2⟩ := C88_tree c (h.tree c ht).1 after ha
    refine ⟨⟨some c', s.names, s.reuc⟩, ?_, rfl, rfl, (fun hc => nomatch hc), ?_⟩
    · rw [List.append_assoc, List.singleton_append, readExtsData, readExtData, if_pos rfl, h1]
      simp only [Res.bind_ok]
      exact tail (some c')
    · intro d hd
      cases hd
      exact ⟨c', rfl, h2⟩

/-- **C88 (whole file).** An index with entries, a cache tree, conflict names and resolved conflicts is written to a file that reads as the same
index, for the formats 2, 3 and 4. -/
theorem C88_index (env : IndexFile.Env) (he : env.extOk = extOk) (hh : ∀ m, (env.hash m).length = 20) (version : Nat)
    (hv : version = 2 ∨ version = 3 ∨ version = 4) (es : List IndexFile.Entry) (s : Side) (hs : Side.Ok s) (hn : es.length < 2 ^ 32)
    (hes : ∀ e ∈ es, IndexFile.Spec.Entry.Ok e ∧ env.pathValid e.path = true ∧
      (version = 4 → e.path.length < 4096 ∧ (e.flagsExt &&& 0x6000 ≠ 0 → e.flags &&& 0x4000 ≠ 0))) (after : Bytes) (ha : after ≠ []) :
    ∃ file p s', IndexFile.write env version es (sideExts s) = .ok file ∧ IndexFile.parse env file = .ok p ∧
      p.entries.map IndexFile.Spec.kept = es.map IndexFile.Spec.kept ∧
      readExtsData after ⟨none, [], []⟩ p.exts = .ok s' ∧ s'.names = s.names ∧ s'.reuc = s.reuc ∧
      (s.tree = none → s'.tree = none) ∧ (∀ c, s.tree = some c → ∃ c', s'.tree = some c' ∧ Same c c') := by
  obtain ⟨s', k1, k2, k3, k4, k5⟩ := C88_side s hs after ha
  by_cases h4 : version = 4
  · subst h4
    obtain ⟨file, h1, h2⟩ := IndexFile.C23_roundtrip_v4 env hh es (sideExts s)
      (fun e h => ⟨(hes e h).1, (hes e h).2.1, ((hes e h).2.2 rfl).1, ((hes e h).2.2 rfl).2⟩) hn (sideExts_ok env he s hs)
    refine ⟨file, _, s', h1, h2, ?_, k1, k2, k3, k4, k5⟩
    simp only [List.map_map]
    refine List.map_congr_left ?_
    intro e h
    simp [IndexFile.Spec.kept, UInt16.and_assoc]
  · obtain ⟨file, h1, h2⟩ := IndexFile.C23_roundtrip_v2_v3 env hh version (by omega) es (sideExts s)
      (fun e h => ⟨(hes e h).1, (hes e h).2.1⟩) hn (sideExts_ok env he s hs)
    refine ⟨file, _, s', h1, h2, ?_, k1, k2, k3, k4, k5⟩
    simp only [List.map_map]
    refine List.map_congr_left ?_
    intro e h
    simp only [Function.comp, IndexFile.Spec.kept, UInt16.and_assoc, UInt16.and_self]
    by_cases hz : e.flagsExt &&& 24576 = 0
    · simp [hz, UInt16.and_assoc]
    · simp [hz, UInt16.or_assoc]

/-! ## Concrete cases -/

def exReuc : List Reuc := [⟨b!"a/b", 0o100644, 0, 0o100755, List.replicate 20 1, List.replicate 20 0, List.replicate 20 2⟩,
  ⟨b!"c", 0, 0o120000, 0, List.replicate 20 0, List.replicate 20 3, List.replicate 20 0⟩]
def exNames : List Name := [⟨some b!"old", some b!"new", none⟩, ⟨none, none, some b!"x"⟩]
def exTree : Cache := .mk [] (-1) (List.replicate 20 0) [.mk b!"dir" 3 (List.replicate 20 7) [.mk b!"sub" 1 (List.replicate 20 8) []],
  .mk b!"e" 0 (List.replicate 20 9) []]

example : writeReuc exReuc = b!"a/b" ++ [0] ++ b!"100644" ++ [0] ++ b!"0" ++ [0] ++ b!"100755" ++ [0] ++ List.replicate 20 1 ++ List.replicate 20 2 ++
    b!"c" ++ [0] ++ b!"0" ++ [0] ++ b!"120000" ++ [0] ++ b!"0" ++ [0] ++ List.replicate 20 3 := by decide +kernel
example : readReuc (writeReuc exReuc ++ [1]) (writeReuc exReuc).length = .ok exReuc := by decide +kernel
example : readNames (writeNames exNames ++ [1]) (writeNames exNames).length = .ok exNames := by decide +kernel
example : (∀ e ∈ exReuc, Reuc.Ok e) ∧ (∀ n ∈ exNames, Name.Ok n) := by
  refine ⟨?_, ?_⟩
  · intro e he
    simp only [exReuc, List.mem_cons, List.not_mem_nil, or_false] at he
    rcases he with rfl | rfl <;> exact ⟨by decide, by decide, by decide, by decide⟩
  · intro n hn s hs
    simp only [exNames, List.mem_cons, List.not_mem_nil, or_false] at hn
    rcases hn with rfl | rfl <;> simp at hs <;> rcases hs with rfl | rfl <;> decide
example : CacheOk exTree := by
  refine .mk (by decide) (by decide) (by decide) (by decide) (by decide) ?_
  intro c hc
  simp only [List.mem_cons, List.not_mem_nil, or_false] at hc
  rcases hc with rfl | rfl
  · refine .mk (by decide) (by decide) (by decide) (by decide) (by decide) ?_
    intro c hc
    simp only [List.mem_cons, List.not_mem_nil, or_false] at hc
    subst hc
    exact .mk (by decide) (by decide) (by decide) (by decide) (by decide) (by simp)
  · exact .mk (by decide) (by decide) (by decide) (by decide) (by decide) (by simp)
example : writeTree exTree = [0] ++ b!"-1 2\n" ++ (b!"dir" ++ [0] ++ b!"3 1\n" ++ List.replicate 20 7 ++ (b!"sub" ++ [0] ++ b!"1 0\n" ++
    List.replicate 20 8)) ++ (b!"e" ++ [0] ++ b!"0 0\n" ++ List.replicate 20 9) := by decide +kernel
/-- a resolved conflict without any stage, which `git_index_reuc_add` accepts, makes the written index unreadable -/
example : readReuc (writeReuc [⟨b!"a", 0, 0, 0, List.replicate 20 0, List.replicate 20 0, List.replicate 20 0⟩] ++ [1])
    (writeReuc [⟨b!"a", 0, 0, 0, List.replicate 20 0, List.replicate 20 0, List.replicate 20 0⟩]).length = .err (-1) := by decide +kernel
/-- an entry count below -1 is read without an id -/
example : TreeText ([0] ++ b!"-5 0\n") (.mk [] (-5) (List.replicate 20 0) []) [] := by
  have h := (C89_tree ([0] ++ b!"-5 0\n") [1] (by simp)).2 (.mk [] (-5) (List.replicate 20 0) [])
  refine h.1 ?_
  rfl
/-- but written with one, and then cannot be read: the twenty bytes are taken for what follows the tree -/
example : (match readTree (writeTree (.mk [] (-5) (List.replicate 20 0) []) ++ [1]) (writeTree (.mk [] (-5) (List.replicate 20 0) [])).length with
    | .err _ => true | _ => false) = true := by decide +kernel
/-- an empty name reads as no name; blanks and signs are accepted before a mode -/
example : readNames (writeNames [⟨some [], some b!"a", none⟩] ++ [1]) (writeNames [⟨some [], some b!"a", none⟩]).length =
    .ok [⟨none, some b!"a", none⟩] := by decide +kernel
example : readReuc (b!"p" ++ [0] ++ b!" +17" ++ [0] ++ b!"-0" ++ [0] ++ b!"\n0" ++ [0] ++ List.replicate 20 4 ++ [1]) 33 =
    .ok [⟨b!"p", 15, 0, 0, List.replicate 20 4, List.replicate 20 0, List.replicate 20 0⟩] := by decide +kernel

end Verif.IndexExt
