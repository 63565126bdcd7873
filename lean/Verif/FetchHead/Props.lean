import Verif.FetchHead.Lemmas3
/-! # FETCH_HEAD is read back as it was written (C83), and means what its lines say (C84) -/
namespace Verif.FetchHead
open Spec

/-- What `git_fetchhead_write` adds to a FETCH_HEAD is read back after what was there: all references, those to be merged first and
otherwise by name, each as it was given (a `HEAD` without its name and to be merged). -/
theorem C83_round_trip (size : Nat) (h0 : 0 < size) (h32 : size ≤ 32) (old : Bytes) (es refs : List Ref) (hz : (0 : UInt8) ∉ old)
    (hold : foreach size old (fun _ => 0) = .ok (es, 0)) (hrefs : ∀ r ∈ refs, RefOk size r) (hlen : refs.length ≤ 2 ^ 47) :
    ∃ (file : Bytes) (out : List Ref), write size old refs = .ok file ∧ out.Perm refs ∧ out.Pairwise Before ∧
      foreach size file (fun _ => 0) = .ok (es ++ out.map shown, 0) ∧ (0 : UInt8) ∉ file := by
  obtain ⟨out, s1, s2⟩ := Sort.C26_sorts refCmp_preorder refs hlen
  have hout : ∀ r ∈ out, RefOk size r := fun r hr => hrefs r (s2.stable.perm.mem_iff.mp hr)
  obtain ⟨text, w1, w2, w3⟩ := writeRefs_read size h0 h32 out hout
  have hcut : ∀ s : Bytes, (0 : UInt8) ∉ s → s.takeWhile (· ≠ 0) = s := by
    intro s hs
    induction s with
    | nil => rfl
    | cons a s ih =>
      rw [List.takeWhile_cons_of_pos (by simp; rintro rfl; exact hs (by simp)), ih (fun h => hs (by simp [h]))]
  have hzf : (0 : UInt8) ∉ old ++ text := fun h => (List.mem_append.mp h).elim hz w2
  refine ⟨old ++ text, out, ?_, s2.stable.perm, ?_, ?_, hzf⟩
  · unfold write; rw [s1, Res.bind_ok, w1, Res.bind_ok]
  · exact List.Pairwise.imp before_of_cmp s2.sorted
  · unfold foreach at hold ⊢
    rw [hcut _ hz] at hold
    rw [hcut _ hzf]
    obtain ⟨m', ha⟩ := loop_append size _ old false es hold
    have h1 := ha _ _ _ _ (w3 m')
    obtain ⟨rs, c, h2⟩ := loop_total size noStop ((old ++ text).length + 1) (old ++ text) false (by omega)
    have e1 := loop_mono size noStop _ (max ((old ++ text).length + 1) (old.length + 1 + (out.length + 1))) _ _ _ (Nat.le_max_right _ _) h1
    have e2 := loop_mono size noStop _ (max ((old ++ text).length + 1) (old.length + 1 + (out.length + 1))) _ _ _ (Nat.le_max_left _ _) h2
    rw [e1] at e2
    cases e2
    exact h2

/-- Whatever the file holds, reading it ends, stays inside it, and reports what a callback that never refuses would get, up to the first refusal. -/
theorem C83_callback (size : Nat) (file : Bytes) : ∃ es c, (c = 0 ∨ c = -1) ∧ foreach size file (fun _ => 0) = .ok (es, c) ∧
    ∀ cb, foreach size file cb = .ok (seen cb es c) := by
  have hle : (file.takeWhile (· ≠ 0)).length < file.length + 1 := by
    have := (List.takeWhile_sublist (p := (fun x : UInt8 => decide (x ≠ 0))) (l := file)).length_le
    omega
  obtain ⟨es, c, h⟩ := loop_total size noStop (file.length + 1) (file.takeWhile (· ≠ 0)) false hle
  refine ⟨es, c, ?_, h, fun cb => loop_seen size cb _ _ _ es c h⟩
  have : ∀ (f : Nat) (buf : Bytes) (m : Bool) (es : List Ref) (c : Int), foreachLoop size noStop f buf m = .ok (es, c) → c = 0 ∨ c = -1 := by
    intro f
    induction f with
    | zero => intro buf m es c h; unfold foreachLoop at h; cases h
    | succ f ih =>
      intro buf m es c h
      unfold foreachLoop at h
      split at h
      · split at h
        · cases h; exact .inl rfl
        · cases h; exact .inr rfl
      · rename_i line buf' _
        rcases parse_total size line m with ⟨r, hr⟩ | hr
        · rw [hr] at h
          dsimp only at h
          rw [if_neg (by simp [noStop])] at h
          cases hl : foreachLoop size noStop f buf' r.isMerge with
          | ok q => rw [hl] at h; cases h; exact ih _ _ _ _ hl
          | err e => rw [hl] at h; cases h
          | ub => rw [hl] at h; cases h
        · rw [hr] at h; cases h; exact .inr rfl
  exact this _ _ _ _ _ h

/-- A FETCH_HEAD without NUL bytes, given by its lines (each ended by a line feed) and what follows the last of them, is read as its lines say. -/
theorem C84_format (size : Nat) (h0 : 0 < size) (ls : List Bytes) (last : Bytes) (hl : ∀ l ∈ ls, OneLine l) (hlast : OneLine last) :
    ∃ es c, foreach size (ls.flatMap (fun l => l ++ b!"\n") ++ last) (fun _ => 0) = .ok (es, c) ∧ File size false ls last es c := by
  obtain ⟨es, c, h1, h2⟩ := loop_file size h0 last hlast.2 ls false hl
  refine ⟨es, c, ?_, h2⟩
  have hz : (0 : UInt8) ∉ ls.flatMap (fun l => l ++ b!"\n") ++ last := by
    intro h
    rcases List.mem_append.mp h with h | h
    · obtain ⟨l, h3, h4⟩ := List.mem_flatMap.mp h
      rcases List.mem_append.mp h4 with h4 | h4
      · exact (hl l h3).1 h4
      · revert h4; decide
    · exact hlast.1 h
  have hcut : ∀ s : Bytes, (0 : UInt8) ∉ s → s.takeWhile (· ≠ 0) = s := by
    intro s hs
    induction s with
    | nil => rfl
    | cons a s ih =>
      rw [List.takeWhile_cons_of_pos (by simp; rintro rfl; exact hs (by simp)), ih (fun h => hs (by simp [h]))]
  unfold foreach
  rw [hcut _ hz]
  refine loop_mono size noStop _ _ _ _ _ ?_ h1
  have : ∀ ls : List Bytes, ls.length ≤ (ls.flatMap (fun l => l ++ b!"\n")).length := by
    intro ls
    induction ls with
    | nil => simp
    | cons l ls ih => rw [List.flatMap_cons]; simp only [List.length_append, List.length_cons, List.length_nil]; omega
  have := this ls
  simp only [List.length_append]; omega

/-- A line says at most one thing (given what was said before it). -/
theorem C84_unambiguous (size : Nat) (h0 : 0 < size) (prev : Bool) (l : Bytes) (hl : OneLine l) (r r' : Ref) (h : Line size prev l r)
    (h' : Line size prev l r') : r = r' := by
  have h1 := (parse_iff size h0 prev l hl.1 r).mpr h
  rw [(parse_iff size h0 prev l hl.1 r').mpr h'] at h1
  cases h1; rfl

/-! ### Concrete cases -/

example : Line 2 false b!"12AB\tnot-for-merge\tbranch 'm' of u" ⟨[0x12, 0xab], false, some b!"refs/heads/m", some b!"u"⟩ :=
  .named b!"12AB" [0x12, 0xab] false b!"branch " b!"refs/heads/" b!"m" b!"u" ⟨rfl, by decide⟩ (by decide) (by decide)

example : foreach 2 b!"12ab\tmaybe\tu\n" (fun _ => 0) = .ok ([], -1) := by decide +kernel

example : foreach 2 b!"12ab\n12ab\t\tu" (fun _ => 0) = .ok ([⟨[0x12, 0xab], true, none, none⟩], -1) := by decide +kernel


/-- ids of two bytes, to keep the examples short -/
def o1 : Bytes := [0x12, 0xab]

/-- a branch to be merged, another, and a tag, in another order than they are recorded -/
def sampleRefs : List Ref := [⟨o1, false, some b!"refs/tags/v1", some b!"u"⟩, ⟨o1, false, some b!"refs/heads/b", some b!"u"⟩, ⟨o1, true, some b!"refs/heads/m", some b!"u"⟩]

example : write 2 b!"12ab\t\tbranch 'x' of y\n" sampleRefs = .ok (b!"12ab\t\tbranch 'x' of y\n12ab\t\tbranch 'm' of u\n" ++
    b!"12ab\tnot-for-merge\tbranch 'b' of u\n12ab\tnot-for-merge\ttag 'v1' of u\n") := by decide +kernel

theorem nameOk_of {n : Bytes} (h : ((0 : UInt8) ∉ n ∧ c!"\n" ∉ n) ∧ c!" " ∉ n ∧ n ≠ [] ∧ ¬ b!"refs/heads//" <+: n ∧ ¬ b!"refs/tags//" <+: n) : NameOk n :=
  ⟨h.1, h.2.1, h.2.2.1, h.2.2.2.1, h.2.2.2.2⟩

example : ∀ r ∈ sampleRefs, RefOk 2 r := by
  intro r hr
  simp only [sampleRefs, List.mem_cons, List.not_mem_nil, or_false] at hr
  rcases hr with rfl | rfl | rfl <;>
    exact ⟨rfl, ⟨_, rfl, nameOk_of (by decide)⟩, _, rfl, ⟨by decide, by decide⟩, by decide⟩

example : foreach 2 b!"12ab\t\tbranch 'x' of y\n" (fun _ => 0) = .ok ([⟨o1, true, some b!"refs/heads/x", some b!"y"⟩], 0) := by decide +kernel

/-- A fetched `HEAD` that is not to be merged is read back as one to be merged. -/
theorem C83_head_merges : ∃ file, write 2 [] [⟨o1, false, some b!"HEAD", some b!"u"⟩] = .ok file ∧
    foreach 2 file (fun _ => 0) = .ok ([⟨o1, true, none, some b!"u"⟩], 0) := ⟨b!"12ab\t\tu\n", by decide +kernel, by decide +kernel⟩

/-- A url with a line feed makes the file unreadable, or adds a reference of its choice. -/
theorem C83_url_injects : ∃ file, write 2 [] [⟨o1, false, some b!"refs/heads/m", some b!"u\nffff\t\tbranch 'evil' of u"⟩] = .ok file ∧
    foreach 2 file (fun _ => 0) = .ok ([⟨o1, false, some b!"refs/heads/m", some b!"u"⟩, ⟨[0xff, 0xff], true, some b!"refs/heads/evil", some b!"u"⟩], 0) :=
  ⟨b!"12ab\tnot-for-merge\tbranch 'm' of u\nffff\t\tbranch 'evil' of u\n", by decide +kernel, by decide +kernel⟩

/-- A line that ends after the tab takes over whether the reference is to be merged from the line before. -/
theorem C83_merge_inherited : foreach 2 b!"12ab\tnot-for-merge\t'a' of u\n12ab\t\n" (fun _ => 0) =
      .ok ([⟨o1, false, some b!"a", some b!"u"⟩, ⟨o1, false, none, none⟩], 0) ∧
    foreach 2 b!"12ab\t\t'a' of u\n12ab\t\n" (fun _ => 0) = .ok ([⟨o1, true, some b!"a", some b!"u"⟩, ⟨o1, true, none, none⟩], 0) := by decide +kernel

/-- A NUL byte ends the file without an error; what is written after it is never read. -/
theorem C83_nul_hides (rest : Bytes) : foreach 2 (b!"12ab\t\t'a' of u\n" ++ 0 :: rest) (fun _ => 0) = .ok ([⟨o1, true, some b!"a", some b!"u"⟩], 0) := by
  unfold foreach
  have : (b!"12ab\t\t'a' of u\n" ++ 0 :: rest).takeWhile (· ≠ 0) = b!"12ab\t\t'a' of u\n" := by
    rw [List.takeWhile_append_of_pos (by decide +kernel)]; simp
  rw [this]
  refine loop_mono 2 noStop 2 _ _ _ _ (by simp) (by decide +kernel)

end Verif.FetchHead
