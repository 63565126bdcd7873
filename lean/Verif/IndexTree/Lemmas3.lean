import Verif.IndexTree.Lemmas2
/-! # The loop of `write_tree` -/
namespace Verif.IndexTree
open Spec
open TreeDiff.Spec (At Good Has)

variable {env : Env} {cache : Option Cache}

theorem finish_ext {odb : Odb} {bld : Tree.Bld} {rest : List Index.Entry} {id : Bytes} {rest' : List Index.Entry} {odb' : Odb}
    (h : finish env odb bld rest = .ok (id, rest', odb')) : ∃ bytes, Tree.write bld = .ok bytes ∧ id = env.idOf bytes ∧ rest' = rest ∧ odb' = odb ++ [(id, bytes)] := by
  unfold finish at h
  cases hw : Tree.write bld with
  | err e => rw [hw] at h; cases h
  | ub => rw [hw] at h; cases h
  | ok bytes =>
    rw [hw] at h
    simp only [Res.ok.injEq, Prod.mk.injEq] at h
    obtain ⟨rfl, rfl, rfl⟩ := h
    exact ⟨bytes, rfl, rfl, rfl, rfl⟩

/-- growing, with objects that have their ids -/
def Grows (env : Env) (odb odb' : Odb) : Prop := ∃ ext, odb' = odb ++ ext ∧ ∀ o ∈ ext, o.1 = env.idOf o.2

theorem Grows.refl {odb : Odb} : Grows env odb odb := ⟨[], by simp, by simp⟩

theorem Grows.trans {a b c : Odb} (h1 : Grows env a b) (h2 : Grows env b c) : Grows env a c := by
  obtain ⟨x, rfl, hx⟩ := h1
  obtain ⟨y, rfl, hy⟩ := h2
  refine ⟨x ++ y, by simp, ?_⟩
  intro o ho
  rcases List.mem_append.mp ho with ho | ho
  · exact hx o ho
  · exact hy o ho

theorem enter_cases {rec : Odb → Bytes → Tree.Bld → List Index.Entry → Res (Bytes × List Index.Entry × Odb)} {odb : Odb} {d : Bytes} {rest : List Index.Entry}
    {r : Res (Bytes × List Index.Entry × Odb)} (h : enter cache rec odb d rest = r) :
    (∃ c, cacheGet cache d = some c ∧ 0 ≤ c.count ∧ r = .ok (c.oid, findNextDir d rest, odb)) ∨ rec odb d HashMap.init rest = r := by
  unfold enter at h
  cases hg : cacheGet cache d with
  | none => rw [hg] at h; exact .inr h
  | some c =>
    rw [hg] at h
    dsimp only at h
    by_cases hc : 0 ≤ c.count
    · rw [if_pos hc] at h; exact .inl ⟨c, rfl, hc, h.symm⟩
    · rw [if_neg hc] at h; exact .inr h

theorem writeLoop_grows (fuel : Nat) : ∀ {odb : Odb} {d : Bytes} {bld : Tree.Bld} {rest : List Index.Entry} {id : Bytes} {rest' : List Index.Entry} {odb' : Odb},
    writeLoop env cache fuel odb d bld rest = .ok (id, rest', odb') → Grows env odb odb' := by
  induction fuel with
  | zero => intro odb d bld rest id rest' odb' h; cases h
  | succ fuel ih =>
    intro odb d bld rest id rest' odb' h
    have hfin : ∀ {r : List Index.Entry}, finish env odb bld r = .ok (id, rest', odb') → Grows env odb odb' := by
      intro r hf
      obtain ⟨bytes, _, h1, _, h2⟩ := finish_ext hf
      exact ⟨_, h2, by simp [h1]⟩
    cases rest with
    | nil => exact hfin h
    | cons e es =>
      unfold writeLoop at h
      split at h
      · exact hfin h
      · split at h
        · split at h
          · exact ih h
          · cases h
          · cases h
        · dsimp only at h
          split at h
          · cases h
          · cases h
          · rename_i sub rest1 odb1 he
            have h1 : Grows env odb odb1 := by
              rcases enter_cases he with ⟨c, _, _, hr⟩ | hr
              · cases hr; exact Grows.refl
              · exact ih hr
            split at h
            · exact h1.trans (ih h)
            · cases h
            · cases h

/-- the invariant of the loop -/
structure LInv (env : Env) (A : List Index.Entry) (T : Prop) (odb : Odb) (π : Bytes) (bld : Tree.Bld) (c : Tree.Spec.Contents) (rest : List Index.Entry) : Prop where
  brel : Tree.BRel (treeEnv env odb) bld c
  size : bld.size + rest.length ≤ A.length
  suf : rest <:+ A
  low : π = [] ∨ ∃ y ∈ A, π <+: y.path ∧ ∀ x ∈ rest, y.path ≤ x.path
  cover : ∀ x ∈ A, ∀ q, x.path = π ++ q → x ∈ rest ∨ c (comp q) ≠ none
  fresh : ∀ y ∈ rest, ∀ q, y.path = π ++ q → c (comp q) = none
  ent : ∀ n m i, c n = some (m, i) → Ent A T odb π n m i

theorem brel_env {odb odb' : Odb} {bld : Tree.Bld} {c : Tree.Spec.Contents} (h : Tree.BRel (treeEnv env odb) bld c) : Tree.BRel (treeEnv env odb') bld c :=
  ⟨h.inv, h.name, h.has⟩

theorem brel_init {odb : Odb} : Tree.BRel (treeEnv env odb) (HashMap.init : Tree.Bld) (fun _ => none) :=
  Tree.brel_of (HashMap.init_inv _) (fun n e => by
    constructor
    · rintro ⟨i, h, _⟩; cases h
    · rintro ⟨_, h⟩; cases h)

/-- putting one entry -/
def put (c : Tree.Spec.Contents) (n : Bytes) (m : Nat) (i : Bytes) : Tree.Spec.Contents := fun n' => if n' = n then some (m, i) else c n'

theorem put_none {c : Tree.Spec.Contents} {n n' : Bytes} {m : Nat} {i : Bytes} (h : c n' ≠ none) : put c n m i n' ≠ none := by
  unfold put; split
  · simp
  · exact h

theorem append_inv {odb : Odb} {bld bld' : Tree.Bld} {c : Tree.Spec.Contents} {n i : Bytes} {m : Nat} (hr : Tree.BRel (treeEnv env odb) bld c) (hs : bld.size < 2 ^ 30)
    (h : append env odb bld n i m = .ok bld') :
    Tree.checkEntry (treeEnv env odb) n i m = true ∧ Tree.BRel (treeEnv env odb) bld' (put c n m i) ∧ bld'.size ≤ bld.size + 1 := by
  unfold append at h
  split at h
  · rename_i hck
    refine ⟨hck, ?_⟩
    have hm : m % 65536 = m := by
      apply Nat.mod_eq_of_lt
      unfold Tree.checkEntry at hck
      simp only [Bool.decide_and, Bool.and_eq_true, decide_eq_true_eq] at hck
      exact valid_lt hck.1
    rw [hm] at h
    obtain ⟨h1, e1, r1⟩ := Tree.append_ok hr hs ⟨m, n, i⟩
    unfold Tree.appendEntry at h
    rw [e1] at h
    cases h
    exact ⟨r1, Tree.size_put hr.inv e1 r1.inv hs⟩
  · cases h

theorem check_mode {odb : Odb} {n i : Bytes} {m : Nat} (h : Tree.checkEntry (treeEnv env odb) n i m = true) : Tree.validFilemode m = true := by
  unfold Tree.checkEntry at h
  simp only [Bool.decide_and, Bool.and_eq_true, decide_eq_true_eq] at h
  exact h.1

theorem asc_suffix {A rest : List Index.Entry} (h : Asc A) (hs : rest <:+ A) : Asc rest := h.sublist hs.sublist

theorem readObj_snoc {odb : Odb} {id bytes : Bytes} (hc : Collisionless (odb ++ [(id, bytes)])) : readObj (odb ++ [(id, bytes)]) id = some bytes :=
  readObj_of_mem hc (by simp)

theorem finish_right {A : List Index.Entry} (hA : FitA A) {T : Prop} {odb : Odb} {d : Bytes} {bld : Tree.Bld} {c : Tree.Spec.Contents} {rest : List Index.Entry}
    (hi : LInv env A T odb (pre d) bld c rest) (hrest : ∀ x ∈ rest, ¬ pre d <+: x.path) {id : Bytes} {rest' : List Index.Entry} {odb' : Odb}
    (h : finish env odb bld rest = .ok (id, rest', odb')) (hcl : Collisionless odb') :
    Represents odb' id (filesP A (pre d)) ∧ (T → Tidy odb' id) ∧ rest' = rest := by
  obtain ⟨bytes, hw, rfl, rfl, rfl⟩ := finish_ext h
  have hcan := Tree.write_ok hi.brel (fun n m i hc => by
    have := hi.ent n m i hc
    exact ⟨this.attr, this.noslash, this.nonul, this.len⟩) hw
  obtain ⟨h1, h2⟩ := represents_of_canonical hA (T := T) (odb := odb ++ [(env.idOf bytes, bytes)]) (π := pre d) (pre_ends d)
    (fun n m i hc => (hi.ent n m i hc).append _) (by
      intro x hx q hq
      rcases hi.cover x hx q hq with h | h
      · exact absurd ⟨q, hq.symm⟩ (hrest x h)
      · exact h) hcan (readObj_snoc hcl)
  exact ⟨h1, h2, rfl⟩

/-- what `write_tree` returns -/
def Right (env : Env) (A : List Index.Entry) (T : Prop) (d : Bytes) (rest : List Index.Entry) (id : Bytes) (rest' : List Index.Entry) (odb' : Odb) : Prop :=
  Represents odb' id (filesP A (pre d)) ∧ (T → Tidy odb' id) ∧ rest' = findNextDir d rest

theorem findNextDir_none' {d : Bytes} {e : Index.Entry} {es : List Index.Entry} (h : ¬ pre d <+: e.path) : findNextDir d (e :: es) = e :: es := by
  rw [findNextDir, if_neg (by rw [inDir_iff]; exact h)]

theorem enter_right {A : List Index.Entry} {T : Prop} {fuel : Nat} {odb : Odb} {d : Bytes} {rest : List Index.Entry}
    (hcr : ∀ d c, cacheGet cache d = some c → 0 ≤ c.count → Represents odb c.oid (filesP A (pre d)) ∧ (T → Tidy odb c.oid))
    (ih : ∀ {c : Tree.Spec.Contents} {bld : Tree.Bld} {id : Bytes} {rest' : List Index.Entry} {odb' : Odb}, LInv env A T odb (pre d) bld c rest →
      writeLoop env cache fuel odb d bld rest = .ok (id, rest', odb') → Collisionless odb' → Right env A T d rest id rest' odb')
    (hsuf : rest <:+ A) (hlow : pre d = [] ∨ ∃ y ∈ A, pre d <+: y.path ∧ ∀ x ∈ rest, y.path ≤ x.path) (hall : ∀ x ∈ A, pre d <+: x.path → x ∈ rest)
    {id : Bytes} {rest' : List Index.Entry} {odb' : Odb}
    (h : enter cache (writeLoop env cache fuel) odb d rest = .ok (id, rest', odb')) (hcl : Collisionless odb') : Right env A T d rest id rest' odb' := by
  rcases enter_cases h with ⟨c, hg, hc, hr⟩ | hr
  · cases hr
    exact ⟨(hcr d c hg hc).1, (hcr d c hg hc).2, rfl⟩
  · refine ih (c := fun _ => none) ⟨brel_init, ?_, hsuf, hlow, ?_, ?_, ?_⟩ hr hcl
    · have := hsuf.length_le
      simpa [HashMap.init] using this
    · intro x hx q hq
      exact .inl (hall x hx ⟨q, hq.symm⟩)
    · intro _ _ _ _; rfl
    · intro n m i hc; cases hc

theorem writeLoop_right {A : List Index.Entry} {T : Prop} (hA : FitA A) (hid : ∀ b, (env.idOf b).length = 20) (fuel : Nat) : ∀ {odb : Odb} {d : Bytes} {bld : Tree.Bld} {c : Tree.Spec.Contents}
    {rest : List Index.Entry} {id : Bytes} {rest' : List Index.Entry} {odb' : Odb},
    (∀ d c, cacheGet cache d = some c → 0 ≤ c.count → Represents odb c.oid (filesP A (pre d)) ∧ c.oid.length = 20 ∧ (T → Tidy odb c.oid)) → LInv env A T odb (pre d) bld c rest →
    writeLoop env cache fuel odb d bld rest = .ok (id, rest', odb') → Collisionless odb' → Right env A T d rest id rest' odb' ∧ id.length = 20 := by
  induction fuel with
  | zero => intro odb d bld c rest id rest' odb' _ _ h; cases h
  | succ fuel ih =>
    intro odb d bld c rest id rest' odb' hcr hi h hcl
    have hsz := hA.size
    have hfin : ∀ {id rest' odb'}, finish env odb bld rest = .ok (id, rest', odb') → id.length = 20 := by
      intro id rest' odb' h
      obtain ⟨bytes, _, rfl, _, _⟩ := finish_ext h
      exact hid _
    cases rest with
    | nil =>
      refine ⟨?_, hfin h⟩
      obtain ⟨h1, h2, h3⟩ := finish_right hA hi (by simp) h hcl
      exact ⟨h1, h2, h3⟩
    | cons e es =>
      have hbs : bld.size < 2 ^ 30 := by have := hi.size; simp only [List.length_cons] at this; omega
      have heA : e ∈ A := hi.suf.subset (by simp)
      have hasc : Asc (e :: es) := asc_suffix hA.asc hi.suf
      have hesuf : es <:+ A := (List.suffix_cons e es).trans hi.suf
      have hasc' := List.pairwise_cons.mp hasc
      unfold writeLoop at h
      by_cases hin : inDir d e.path = true
      · rw [if_neg (not_not_intro hin)] at h
        obtain ⟨q, hq⟩ := inDir_iff.mp hin
        have hgp : GoodPath (pre d ++ q) := by rw [hq]; exact hA.path e heA
        have hfn : fileName d e.path = q := by rw [← hq]; exact fileName_eq hgp
        have hq0 := hgp.2 (pre d) q rfl (pre_ends d)
        have hnul : (0 : UInt8) ∉ q := fun hc => hgp.1 (List.mem_append_right _ hc)
        have hqlen : q.length ≤ 65535 := by have := hA.len e heA; rw [← hq, List.length_append] at this; omega
        rw [hfn, findIdx_slash] at h
        by_cases hsl : c!"/" ∈ q
        · -- a subdirectory
          rw [if_pos hsl] at h
          dsimp only at h
          obtain ⟨r, hr⟩ : ∃ r, q = comp q ++ b!"/" ++ r := by
            rcases comp_split q with h' | h'
            · rw [h'] at hsl; exact absurd hsl (comp_noslash q)
            · exact h'
          have hw0 : comp q ≠ [] := by
            intro h0
            rw [h0] at hr
            apply hq0.2
            rw [hr]; rfl
          have hsub : e.path.take (e.path.length - q.length + (comp q).length) = pre d ++ comp q := by
            have := subdir_eq (d := d) (w := comp q) (r := r) (by rw [← hr]; exact hgp) (comp_noslash q)
            rw [← hr, hq, hfn] at this
            exact this
          rw [hsub] at h
          have hpre : pre (pre d ++ comp q) = pre d ++ comp q ++ b!"/" := pre_sub hw0
          have hinS : pre (pre d ++ comp q) <+: e.path := by
            rw [hpre, ← hq]
            refine ⟨r, ?_⟩
            conv => rhs; rw [hr]
            simp
          have hcw : c (comp q) = none := hi.fresh e (by simp) q hq.symm
          cases hen : enter cache (writeLoop env cache fuel) odb (pre d ++ comp q) (e :: es) with
          | err x => rw [hen] at h; cases h
          | ub => rw [hen] at h; cases h
          | ok t =>
            obtain ⟨sub, rest1, odb1⟩ := t
            rw [hen] at h
            dsimp only at h
            rw [lastComp_eq (comp_noslash q)] at h
            cases hap : append env odb1 bld (comp q) sub 0o040000 with
            | err x => rw [hap] at h; cases h
            | ub => rw [hap] at h; cases h
            | ok bld1 =>
              rw [hap] at h
              dsimp only at h
              obtain ⟨ext, hext, _⟩ := writeLoop_grows fuel h
              have hcl1 : Collisionless odb1 := by rw [hext] at hcl; exact IndexTree.Collisionless.left hcl
              have hgr : Grows env odb odb1 := by
                rcases enter_cases hen with ⟨_, _, _, hr⟩ | hr
                · cases hr; exact Grows.refl
                · exact writeLoop_grows fuel hr
              obtain ⟨ext1, hext1, _⟩ := hgr
              have hright : Right env A T (pre d ++ comp q) (e :: es) sub rest1 odb1 := by
                refine enter_right (fun d c h1 h2 => ⟨(hcr d c h1 h2).1, (hcr d c h1 h2).2.2⟩) (fun hi h hcl => (ih hcr hi h hcl).1) hi.suf (.inr ⟨e, heA, hinS, ?_⟩) ?_ hen hcl1
                · intro x hx
                  rcases List.mem_cons.mp hx with rfl | hx
                  · exact B.le_rfl
                  · exact B.le_of_lt (hasc'.1 x hx)
                · intro x hx hpx
                  obtain ⟨t, ht⟩ := hpx
                  rw [hpre] at ht
                  have hxp : x.path = pre d ++ (comp q ++ b!"/" ++ t) := by rw [← ht]; simp
                  rcases hi.cover x hx _ hxp with h' | h'
                  · exact h'
                  · rw [comp_dir (comp_noslash q)] at h'
                    exact absurd hcw h'
              have hsublen : sub.length = 20 := by
                rcases enter_cases hen with ⟨cc, h1, h2, hr⟩ | hr
                · cases hr; exact (hcr _ _ h1 h2).2.1
                · refine (ih hcr (c := fun _ => none) (rest := e :: es) ⟨brel_init, ?_, hi.suf, .inr ⟨e, heA, hinS, ?_⟩, ?_, fun _ _ _ _ => rfl, fun _ _ _ h => by cases h⟩ hr hcl1).2
                  · have := hi.suf.length_le
                    simpa [HashMap.init] using this
                  · intro x hx
                    rcases List.mem_cons.mp hx with rfl | hx
                    · exact B.le_rfl
                    · exact B.le_of_lt (hasc'.1 x hx)
                  · intro x hx t hxp
                    rw [hpre] at hxp
                    have hxp : x.path = pre d ++ (comp q ++ b!"/" ++ t) := by rw [hxp]; simp
                    rcases hi.cover x hx _ hxp with h' | h'
                    · exact .inl h'
                    · rw [comp_dir (comp_noslash q)] at h'
                      exact absurd hcw h'
              obtain ⟨hrep, htidy, hrest1⟩ := hright
              obtain ⟨hck, hbrel, hbsz⟩ := append_inv (brel_env hi.brel) hbs hap
              have hfd : findNextDir (pre d ++ comp q) (e :: es) = findNextDir (pre d ++ comp q) es := by
                rw [findNextDir, if_pos (inDir_iff.mpr hinS)]
              have hri : rest1 <:+ A := by rw [hrest1]; exact (findNextDir_suffix _ _).trans hi.suf
              have hmemr : ∀ x ∈ rest1, x ∈ e :: es := fun x hx => (findNextDir_suffix _ _).subset (hrest1 ▸ hx)
              have := ih (c := put c (comp q) 0o040000 sub) (fun d c h1 h2 => by
                  rw [hext1]
                  exact ⟨represents_append ext1 (hcr d c h1 h2).1, (hcr d c h1 h2).2.1, fun t => tidy_append ext1 ((hcr d c h1 h2).2.2 t)⟩)
                ⟨hbrel, by
                  have h1 := hi.size
                  have h2 := findNextDir_length (pre d ++ comp q) es
                  rw [← hfd, ← hrest1] at h2
                  simp only [List.length_cons] at h1
                  omega, hri, ?_, ?_, ?_, ?_⟩ h hcl
              · obtain ⟨⟨g1, g2, g3⟩, g4⟩ := this
                refine ⟨⟨g1, g2, ?_⟩, g4⟩
                rw [g3, hrest1]
                apply findNextDir_sub
                rw [hpre]
                exact ⟨comp q ++ b!"/", by simp⟩
              · rcases hi.low with h' | ⟨y, hy, hyp, hyl⟩
                · exact .inl h'
                · exact .inr ⟨y, hy, hyp, fun x hx => hyl x (hmemr x hx)⟩
              · intro x hx t hxp
                rcases hi.cover x hx t hxp with h' | h'
                · rcases findNextDir_mem (d := pre d ++ comp q) h' with h'' | h''
                  · left; rw [hrest1]; exact h''
                  · right
                    obtain ⟨s, hs⟩ := h''
                    rw [hpre, hxp, List.append_assoc, List.append_assoc] at hs
                    have hs := List.append_cancel_left hs
                    have : comp t = comp q := by rw [← hs, ← List.append_assoc, comp_dir (comp_noslash q)]
                    rw [this]
                    simp [put]
                · exact .inr (put_none h')
              · intro y hy t hyp
                unfold put
                rw [if_neg]
                · exact hi.fresh y (hmemr y hy) t hyp
                · intro heq
                  rcases comp_split t with h' | ⟨s, h'⟩
                  · refine hA.clash y (hri.subset hy) e heA r ?_
                    rw [hyp, h', heq, ← hq]
                    conv => lhs; rw [hr]
                    simp
                  · refine findNextDir_none (d := pre d ++ comp q) hasc hinS y (hrest1 ▸ hy) ?_
                    rw [hpre, hyp, h', heq]
                    exact ⟨s, by simp⟩
              · intro n m i hc
                unfold put at hc
                split at hc
                · rename_i hn
                  cases hc
                  subst hn
                  refine ⟨hw0, comp_noslash q, ?_, ?_, hsublen, .inr ⟨rfl, ⟨e, heA, hpre ▸ hinS⟩, hpre ▸ hrep, htidy⟩⟩
                  · intro hc; apply hnul; rw [hr]; simp [hc]
                  · have : (comp q).length ≤ q.length := by
                      conv => rhs; rw [hr]
                      simp only [List.length_append]; omega
                    omega
                · rw [hext1]; exact (hi.ent n m i hc).append ext1
        · -- a file
          rw [if_neg hsl] at h
          dsimp only at h
          have hcq : comp q = q := comp_file hsl
          cases hap : append env odb bld q e.id e.mode with
          | err x => rw [hap] at h; cases h
          | ub => rw [hap] at h; cases h
          | ok bld1 =>
            rw [hap] at h
            dsimp only at h
            obtain ⟨hck, hbrel, hbsz⟩ := append_inv hi.brel hbs hap
            have := ih (c := put c q e.mode e.id) hcr ⟨hbrel, by
                have h1 := hi.size
                simp only [List.length_cons] at h1
                omega, hesuf, ?_, ?_, ?_, ?_⟩ h hcl
            · obtain ⟨⟨g1, g2, g3⟩, g4⟩ := this
              refine ⟨⟨g1, g2, ?_⟩, g4⟩
              rw [g3, findNextDir, if_pos hin]
            · rcases hi.low with h' | ⟨y, hy, hyp, hyl⟩
              · exact .inl h'
              · exact .inr ⟨y, hy, hyp, fun x hx => hyl x (by simp [hx])⟩
            · intro x hx t hxp
              rcases hi.cover x hx t hxp with h' | h'
              · rcases List.mem_cons.mp h' with rfl | h''
                · right
                  rw [← hq] at hxp
                  have := List.append_cancel_left hxp
                  rw [← this, hcq]
                  simp [put]
                · exact .inl h''
              · exact .inr (put_none h')
            · intro y hy t hyp
              unfold put
              rw [if_neg]
              · exact hi.fresh y (by simp [hy]) t hyp
              · intro heq
                rcases comp_split t with h' | ⟨s, h'⟩
                · have h2 := hasc'.1 y hy
                  rw [hyp, h', heq, hq] at h2
                  exact B.lt_irrefl h2
                · refine hA.clash e heA y (hesuf.subset hy) s ?_
                  rw [hyp, h', heq, ← hq]
                  simp
            · intro n m i hc
              unfold put at hc
              split at hc
              · rename_i hn
                cases hc
                subst hn
                exact ⟨hq0.1, hsl, hnul, hqlen, hA.id e heA, .inl ⟨check_mode hck, hA.mode e heA, e, heA, hq.symm, rfl, rfl⟩⟩
              · exact hi.ent n m i hc
      · rw [if_pos hin] at h
        have hnp : ¬ pre d <+: e.path := by rw [← inDir_iff]; exact hin
        obtain ⟨h1, h2, h3⟩ := finish_right hA hi (by
          intro x hx hp
          rcases hi.low with h' | ⟨y, hy, hyp, hyl⟩
          · rw [h'] at hnp; exact hnp List.nil_prefix
          · have hye := hyl e (by simp)
            have hex : e.path ≤ x.path := by
              rcases List.mem_cons.mp hx with rfl | hx
              · exact B.le_rfl
              · exact B.le_of_lt (hasc'.1 x hx)
            exact hnp (B.convex' (B.le_trans (B.prefix_le hyp) hye) hex hp)) h hcl
        refine ⟨⟨h1, h2, ?_⟩, hfin h⟩
        rw [h3, findNextDir_none' hnp]

end Verif.IndexTree
