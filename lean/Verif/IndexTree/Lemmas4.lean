import Verif.IndexTree.Lemmas3
/-! # `write_tree` succeeds -/
namespace Verif.IndexTree
open Spec

variable {env : Env} {cache : Option Cache}

/-- what is asked for, of the entries -/
structure AccA (env : Env) (A : List Index.Entry) : Prop where
  mode : ∀ e ∈ A, Tree.validFilemode e.mode = true
  name : ∀ e ∈ A, ∀ w, Component w e.path → env.nameValid w = true
  id : ∀ e ∈ A, NotNull e.id
  obj : ∀ e ∈ A, env.strict = true → e.mode = 0o160000 ∨ env.isBlob e.id = true

theorem check_ok {odb : Odb} {n i : Bytes} {m : Nat} (h1 : Tree.validFilemode m = true) (h2 : n ≠ []) (h3 : env.nameValid n = true) (h4 : NotNull i)
    (h5 : m = 0o160000 ∨ objectValid env odb i (Tree.otypeFromMode m) = true) : Tree.checkEntry (treeEnv env odb) n i m = true := by
  unfold Tree.checkEntry Tree.validEntryName treeEnv
  obtain ⟨c, hc, hz⟩ := h4
  simp only [h1, h2, h3, ne_eq, not_false_eq_true, and_self, decide_true, true_and, decide_eq_true_eq]
  exact ⟨fun h => hz (h c hc), h5⟩

theorem append_succ {odb : Odb} {bld : Tree.Bld} {c : Tree.Spec.Contents} {n i : Bytes} {m : Nat} (hr : Tree.BRel (treeEnv env odb) bld c) (hs : bld.size < 2 ^ 30)
    (hck : Tree.checkEntry (treeEnv env odb) n i m = true) : ∃ bld', append env odb bld n i m = .ok bld' := by
  unfold append
  rw [if_pos hck]
  obtain ⟨h1, e1, _⟩ := Tree.append_ok hr hs ⟨m % 65536, n, i⟩
  exact ⟨h1, e1⟩

/-- what is returned when nothing goes wrong -/
def Done (env : Env) (A : List Index.Entry) (d : Bytes) (rest : List Index.Entry) (r : Res (Bytes × List Index.Entry × Odb)) : Prop :=
  ∃ id rest' odb', r = .ok (id, rest', odb') ∧ (∃ b, readObj odb' id = some b) ∧ NotNull id ∧ rest' <:+ A ∧ rest'.length ≤ rest.length ∧
    (∀ e es, rest = e :: es → pre d <+: e.path → rest'.length ≤ es.length)

theorem finish_done {A : List Index.Entry} (hid : ∀ b, ∃ c ∈ env.idOf b, c ≠ 0) {odb : Odb} {d : Bytes} {bld : Tree.Bld} {c : Tree.Spec.Contents} {rest : List Index.Entry}
    (hr : Tree.BRel (treeEnv env odb) bld c) (hp : Tree.PlainC c) (hs : bld.size < 2 ^ 30) (hsuf : rest <:+ A) (hd : ∀ e es, rest = e :: es → ¬ pre d <+: e.path) :
    Done env A d rest (finish env odb bld rest) := by
  obtain ⟨bytes, hw⟩ := Tree.write_small hr hp (by omega)
  refine ⟨env.idOf bytes, rest, odb ++ [(env.idOf bytes, bytes)], ?_, readObj_isSome (b := bytes) (by simp), hid bytes, hsuf, Nat.le_refl _, fun e es h h' => absurd h' (hd e es h)⟩
  unfold finish
  rw [hw]; rfl

theorem writeLoop_done {A : List Index.Entry} (hA : FitA A) (hac : AccA env A) (hid : ∀ b, ∃ c ∈ env.idOf b, c ≠ 0) {M : Nat} (hM : ∀ e ∈ A, e.path.length ≤ M) (fuel : Nat) :
    ∀ {odb : Odb} {d : Bytes} {bld : Tree.Bld} {c : Tree.Spec.Contents} {rest : List Index.Entry},
    (∀ d c, cacheGet cache d = some c → 0 ≤ c.count → (∃ b, readObj odb c.oid = some b) ∧ NotNull c.oid) →
    Tree.BRel (treeEnv env odb) bld c → Tree.PlainC c → bld.size + rest.length ≤ A.length → rest <:+ A → rest.length + 2 * (M - (pre d).length) + 1 ≤ fuel →
    Done env A d rest (writeLoop env cache fuel odb d bld rest) := by
  induction fuel with
  | zero => intro odb d bld c rest _ _ _ _ _ h; omega
  | succ fuel ih =>
    intro odb d bld c rest hcr hr hp hsz hsuf hf
    have hbig := hA.size
    cases rest with
    | nil => exact finish_done hid hr hp (by simp only [List.length_nil] at hsz; omega) hsuf (by intro _ _ h; cases h)
    | cons e es =>
      simp only [List.length_cons] at hsz hf
      have hbs : bld.size < 2 ^ 30 := by omega
      have heA : e ∈ A := hsuf.subset (by simp)
      have hesuf : es <:+ A := (List.suffix_cons e es).trans hsuf
      unfold writeLoop
      by_cases hin : inDir d e.path = true
      · rw [if_neg (not_not_intro hin)]
        obtain ⟨q, hq⟩ := inDir_iff.mp hin
        have hgp : GoodPath (pre d ++ q) := by rw [hq]; exact hA.path e heA
        have hfn : fileName d e.path = q := by rw [← hq]; exact fileName_eq hgp
        have hq0 := hgp.2 (pre d) q rfl (pre_ends d)
        have hnul : (0 : UInt8) ∉ q := fun hc => hgp.1 (List.mem_append_right _ hc)
        have hqlen : q.length ≤ 65535 := by have := hA.len e heA; rw [← hq, List.length_append] at this; omega
        have hplain : ∀ m i, m < 65536 → Tree.Plain ⟨m, comp q, i⟩ := by
          intro m i hm
          refine ⟨hm, comp_noslash q, ?_, ?_⟩
          · intro hc
            have : (0 : UInt8) ∈ q := by
              rcases comp_split q with h' | ⟨r, h'⟩
              · rw [h']; exact hc
              · rw [h']; simp [show (0 : UInt8) ∈ comp q from hc]
            exact hnul this
          · have : (comp q).length ≤ q.length := by
              rcases comp_split q with h' | ⟨r, h'⟩
              · rw [← h']
              · conv => rhs; rw [h']
                simp only [List.length_append]; omega
            show (comp q).length ≤ 65535
            omega
        have hputp : ∀ m i, m < 65536 → Tree.PlainC (put c (comp q) m i) := by
          intro m i hm n m' i' hc
          unfold put at hc
          split at hc
          · rename_i hn; cases hc; subst hn; exact hplain m i hm
          · exact hp n m' i' hc
        have hname : env.nameValid (comp q) = true := by
          refine hac.name e heA (comp q) ?_
          rcases comp_split q with h' | ⟨r, h'⟩
          · exact ⟨pre d, [], by rw [← hq, ← h']; simp, pre_ends d, .inl rfl, comp_noslash q⟩
          · refine ⟨pre d, b!"/" ++ r, ?_, pre_ends d, .inr rfl, comp_noslash q⟩
            rw [← hq]
            conv => lhs; rw [h']
            simp
        rw [hfn, findIdx_slash]
        by_cases hsl : c!"/" ∈ q
        · rw [if_pos hsl]
          dsimp only
          obtain ⟨r, hr'⟩ : ∃ r, q = comp q ++ b!"/" ++ r := by
            rcases comp_split q with h' | h'
            · rw [h'] at hsl; exact absurd hsl (comp_noslash q)
            · exact h'
          have hw0 : comp q ≠ [] := by
            intro h0
            rw [h0] at hr'
            apply hq0.2
            rw [hr']; rfl
          have hsub : e.path.take (e.path.length - q.length + (comp q).length) = pre d ++ comp q := by
            have := subdir_eq (d := d) (w := comp q) (r := r) (by rw [← hr']; exact hgp) (comp_noslash q)
            rw [← hr', hq, hfn] at this
            exact this
          rw [hsub]
          have hpre : pre (pre d ++ comp q) = pre d ++ comp q ++ b!"/" := pre_sub hw0
          have hinS : pre (pre d ++ comp q) <+: e.path := by
            rw [hpre, ← hq]
            refine ⟨r, ?_⟩
            conv => rhs; rw [hr']
            simp
          have hen : Done env A (pre d ++ comp q) (e :: es) (enter cache (writeLoop env cache fuel) odb (pre d ++ comp q) (e :: es)) := by
            rcases enter_cases (rfl : enter cache (writeLoop env cache fuel) odb (pre d ++ comp q) (e :: es) = _) with ⟨cc, h1, h2, h3⟩ | h3
            · rw [h3]
              refine ⟨_, _, _, rfl, (hcr _ _ h1 h2).1, (hcr _ _ h1 h2).2, (findNextDir_suffix _ _).trans hsuf, findNextDir_length _ _, ?_⟩
              intro e' es' he hpe
              cases he
              rw [findNextDir, if_pos (inDir_iff.mpr hpe)]
              exact findNextDir_length _ _
            · rw [← h3]
              refine ih hcr (c := fun _ => none) brel_init (fun _ _ _ h => by cases h) ?_ hsuf ?_
              · have := hsuf.length_le
                simpa [HashMap.init] using this
              · have h1 := hinS.length_le
                have h2 := hM e heA
                have h4 : (pre (pre d ++ comp q)).length = (pre d).length + (comp q).length + 1 := by rw [hpre]; simp only [List.length_append, List.length_singleton]
                have h5 := List.length_pos_of_ne_nil hw0
                simp only [List.length_cons]
                omega
          obtain ⟨sub, rest1, odb1, h1, ⟨b, hb⟩, h3, h4, h5, h6⟩ := hen
          have hgr : Grows env odb odb1 := by
            rcases enter_cases h1 with ⟨_, _, _, hr⟩ | hr
            · cases hr; exact Grows.refl
            · exact writeLoop_grows fuel hr
          obtain ⟨ext1, hext1, _⟩ := hgr
          rw [h1]
          dsimp only
          rw [lastComp_eq (comp_noslash q)]
          have hck : Tree.checkEntry (treeEnv env odb1) (comp q) sub 0o040000 = true :=
            check_ok (by decide) hw0 hname h3 (.inr (by simp [objectValid, Tree.otypeFromMode, hb]))
          obtain ⟨bld1, hap⟩ := append_succ (brel_env (odb' := odb1) hr) hbs hck
          rw [hap]
          dsimp only
          obtain ⟨_, hbrel, hbsz⟩ := append_inv (brel_env hr) hbs hap
          have h6' := h6 e es rfl hinS
          obtain ⟨id, rest', odb', g1, g2, g3, g4, g5, _⟩ := ih (d := d) (rest := rest1) (by
            intro d' c' a1 a2
            obtain ⟨⟨b', hb'⟩, hn⟩ := hcr d' c' a1 a2
            exact ⟨⟨b', by rw [hext1]; exact readObj_append ext1 hb'⟩, hn⟩) hbrel (hputp 0o040000 sub (by decide)) (by omega) h4 (by omega)
          refine ⟨id, rest', odb', g1, g2, g3, g4, by simp only [List.length_cons]; omega, ?_⟩
          intro e' es' he _
          cases he
          omega
        · rw [if_neg hsl]
          dsimp only
          have hcq : comp q = q := comp_file hsl
          have hv := hac.mode e heA
          have hck : Tree.checkEntry (treeEnv env odb) q e.id e.mode = true := by
            refine check_ok hv hq0.1 (hcq ▸ hname) (hac.id e heA) ?_
            cases hst : env.strict with
            | false => right; simp [objectValid, hst]
            | true =>
              rcases hac.obj e heA hst with h' | h'
              · exact .inl h'
              · by_cases hg : e.mode = 0o160000
                · exact .inl hg
                · right
                  have : Tree.otypeFromMode e.mode = 3 := by
                    unfold Tree.otypeFromMode
                    rw [if_neg (hA.mode e heA), if_neg hg]
                  rw [this]
                  simp [objectValid, h']
          obtain ⟨bld1, hap⟩ := append_succ hr hbs hck
          rw [hap]
          dsimp only
          obtain ⟨_, hbrel, hbsz⟩ := append_inv hr hbs hap
          obtain ⟨id, rest', odb', g1, g2, g3, g4, g5, _⟩ := ih (d := d) (rest := es) hcr hbrel (hcq ▸ hputp e.mode e.id (valid_lt hv)) (by omega) hesuf (by omega)
          refine ⟨id, rest', odb', g1, g2, g3, g4, by simp only [List.length_cons]; omega, ?_⟩
          intro e' es' he _
          cases he
          omega
      · rw [if_pos hin]
        have hnp : ¬ pre d <+: e.path := by rw [← inDir_iff]; exact hin
        exact finish_done hid hr hp hbs hsuf (by intro e' es' h; cases h; exact hnp)

end Verif.IndexTree
