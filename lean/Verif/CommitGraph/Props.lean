import Verif.CommitGraph.Lemmas10
/-! # C60–C62: commit-graph files -/
namespace Verif.CommitGraph
open PackIdx (bind_ok_inv bind_ok bind_err ENOTFOUND EAMBIGUOUS)
open PackIdx.Spec Spec Verif.B

theorem blt_ne {a b : Bytes} (h : a < b) : a ≠ b := fun e => by
  subst e
  have := bcmp_lt.mpr h
  have h0 : bcmp a a = 0 := bcmp_zero.mpr rfl
  omega

theorem blt_total {a b : Bytes} (h : a ≠ b) : a < b ∨ b < a := by
  rcases Int.lt_trichotomy (bcmp a b) 0 with h1 | h1 | h1
  · exact .inl (bcmp_lt.mp h1)
  · exact absurd (bcmp_zero.mp h1) h
  · refine .inr (bcmp_lt.mp ?_)
    have := bcmp_neg a b
    omega

theorem blt_irrefl (a : Bytes) : ¬ a < a := fun h => blt_ne h rfl

/-! ## C60: reading a file from anywhere -/

theorem reached_ok {osz : Nat} {f : File} (ha : Acc osz f) (h4 : 4 ≤ osz) {e : Entry} (h : Reached osz f e) : EntryOK f e := by
  induction h with
  | byIndex pos e h => exact ((get_ok ha pos).2 e h).1
  | byId short len e hs h => exact (entryFind_ok ha (by omega) hs len).2 e h
  | parent e n e' _ h ih => exact (parent_ok ha h4 ih n).2 e' h

/-- C60: whatever the contents of the file are, neither opening it nor looking up commits by position or by (abbreviated) id nor asking an entry for its
parents reads outside the file. -/
theorem C60_safe (osz : Nat) (h4 : 4 ≤ osz) (file : Bytes) :
    parse osz file ≠ .ub ∧ ∀ f, parse osz file = .ok f →
      (∀ pos, getByIndex osz f pos ≠ .ub) ∧ (∀ short len, short.length = osz → entryFind osz f short len ≠ .ub) ∧
      ∀ e, Reached osz f e → ∀ n, entryParent osz f e n ≠ .ub := by
  obtain ⟨h1, h2⟩ := parse_spec (osz := osz) (file := file)
  refine ⟨h1, fun f hf => ?_⟩
  obtain ⟨-, ha, -⟩ := h2 f hf
  exact ⟨fun pos => (get_ok ha pos).1, fun short len hs => (entryFind_ok ha (by omega) hs len).1, fun e he n => (parent_ok ha h4 (reached_ok ha h4 he) n).1⟩

/-- C60: `git_commit_graph_open` accepts a file only if it ends with the hash of what comes before. -/
theorem C60_checksum (osz : Nat) (sum : Bytes → Bytes) (file : Bytes) (f : File) (h : openGraph osz sum file = .ok f) :
    parse osz file = .ok f ∧ osz ≤ file.length ∧ sum (file.take (file.length - osz)) = file.drop (file.length - osz) := by
  unfold openGraph at h
  obtain ⟨g, h1, h2⟩ := bind_ok_inv h
  split at h2
  · cases h2
  · rename_i hs
    cases h2
    obtain ⟨-, -, h3, h4⟩ := (parse_spec (osz := osz) (file := file)).2 f h1
    exact ⟨h1, h3, by rw [← h4]; exact Classical.byContradiction hs⟩

theorem idTable_eq {osz : Nat} {f : File} (ha : Acc osz f) : idTable osz f = ids osz f := by
  apply List.ext_getElem
  · simp [idTable, ids]
  · intro i h1 h2
    have := ha.table.get i h2
    unfold PackIdx.Table.get at this
    dsimp only at this
    have e1 : (ids osz f)[i] = idAt osz f i := by simp [ids]
    have e2 : (idTable osz f)[i] = (f.file.drop (f.lookup + i * osz)).take osz := by simp [idTable]
    rw [e1, e2]
    unfold idAt
    unfold slice at *
    split
    · rename_i h; split at h
      · cases h; rfl
      · cases h
    · rename_i h
      split at this
      · rename_i hh; rw [if_pos hh] at h; exact absurd rfl (h _)
      · cases this

/-- C60: in an accepted file whose fan-out table counts its ids, a lookup finds the only commit with that prefix, and says whether there is none or more than
one. (The entry that is found may still be refused if its extra edges are not there.) -/
theorem C60_find (osz : Nat) (h0 : 0 < osz) (file : Bytes) (f : File) (h : parse osz file = .ok f) (hfan : FanRight file f.fanout (idTable osz f))
    (short : Bytes) (len : Nat) (hs : short.length = osz) (hp : Padded len short) :
    (∃ i, ∃ hi : i < (idTable osz f).length, entryFind osz f short len = getByIndex osz f i ∧ SamePrefix len short (idTable osz f)[i] ∧
      (∀ id ∈ idTable osz f, SamePrefix len short id → id = (idTable osz f)[i]) ∧
      ∀ e, entryFind osz f short len = .ok e → e.id = (idTable osz f)[i]) ∨
    (entryFind osz f short len = .err (-3) ∧ ∀ id ∈ idTable osz f, ¬ SamePrefix len short id) ∨
    (entryFind osz f short len = .err (-5) ∧ ∃ a ∈ idTable osz f, ∃ b ∈ idTable osz f, a ≠ b ∧ SamePrefix len short a ∧ SamePrefix len short b) := by
  obtain ⟨hf, ha, -⟩ := (parse_spec (osz := osz) (file := file)).2 f h
  rw [idTable_eq ha] at hfan
  rw [← hf] at hfan
  have hpw := List.pairwise_iff_getElem.mp ha.sorted
  simp only [idTable_eq ha]
  rcases entryFind_right ha h0 hfan hs hp with ⟨i, hi, g1, g2, g3⟩ | ⟨g1, g2⟩ | ⟨g1, i, j, hi, hj, hij, g2, g3⟩
  · refine .inl ⟨i, hi, g1, g2, fun id hid hpre => ?_, fun e he => ?_⟩
    · obtain ⟨j, hj, rfl⟩ := List.getElem_of_mem hid
      have := g3 j hj hpre
      subst this
      rfl
    · rw [g1] at he
      obtain ⟨-, _, h2⟩ := (get_ok ha i).2 e he
      exact h2
  · exact .inr (.inl ⟨g1, g2⟩)
  · exact .inr (.inr ⟨g1, _, List.getElem_mem hi, _, List.getElem_mem hj, blt_ne (hpw i j hi hj hij), g2, g3⟩)

/-! ## C61: what is written can be read -/

/-- what a caller may ask the writer for: at least one commit, no more than the format can number -/
structure Fits (commits : List Commit) : Prop where
  some : commits ≠ []
  few : commits.length ≤ 0x70000000
  edges : (commits.map fun c => c.parents.length).sum ≤ 2 ^ 31

/-- C61: if the parents of all the commits are there, the file of the writer is accepted, and looking up any abbreviated id in it finds the only commit with that
prefix, with its tree, time and parents, or says rightly that there is none or more than one. -/
theorem C61_written (osz : Nat) (h0 : 0 < osz) (h32 : osz ≤ 32) (sum : Bytes → Bytes) (hsum : ∀ b, (sum b).length = osz) (commits : List Commit)
    (hc : Closed osz commits) (hfit : Fits commits) : ∃ file f, write sum commits = .ok file ∧ openGraph osz sum file = .ok f ∧ f.num ≤ commits.length ∧
      ∀ short len, short.length = osz → Padded len short →
        (∃ c ∈ commits, SamePrefix len short c.id ∧ (∀ d ∈ commits, SamePrefix len short d.id → d = c) ∧ ∃ e, entryFind osz f short len = .ok e ∧ Describes osz f e c) ∨
        ((∀ c ∈ commits, ¬ SamePrefix len short c.id) ∧ entryFind osz f short len = .err (-3)) ∨
        ((∃ c ∈ commits, ∃ d ∈ commits, c.id ≠ d.id ∧ SamePrefix len short c.id ∧ SamePrefix len short d.id) ∧ entryFind osz f short len = .err (-5)) := by
  obtain ⟨f, cs, pss, gs, w⟩ := written hc hfit.some h0 h32 hsum hfit.few hfit.edges
  obtain ⟨-, ha, -⟩ := (parse_spec (osz := osz) (file := f.file)).2 f w.parse
  have hids := holds_ids w.holds
  refine ⟨f.file, f, w.write, w.open_, ?_, fun short len hs hp => ?_⟩
  · rw [w.holds.num]
    exact w.count
  have hlen : ∀ i, i < (ids osz f).length → i < cs.length := fun i h => by rw [hids, List.length_map] at h; exact h
  have hget : ∀ i (h : i < (ids osz f).length), (ids osz f)[i] = (cs[i]'(hlen i h)).id := fun i h => by
    simp [hids]
  have hpw := List.pairwise_iff_getElem.mp w.sorted
  rcases entryFind_right ha h0 w.fan hs hp with ⟨i, hi, g1, g2, g3⟩ | ⟨g1, g2⟩ | ⟨g1, i, j, hi, hj, hij, g2, g3⟩
  · obtain ⟨e, e1, e2, -⟩ := describes_written w.holds w.idx i (hlen i hi)
    refine .inl ⟨_, (w.mem _).mp (List.getElem_mem (hlen i hi)), by rw [← hget i hi]; exact g2, fun d hd hpre => ?_, e, by rw [g1]; exact e1, e2⟩
    obtain ⟨j, hj, rfl⟩ := List.getElem_of_mem ((w.mem d).mpr hd)
    have hj' : j < (ids osz f).length := by rw [hids, List.length_map]; exact hj
    have := g3 j hj' (by rw [hget j hj']; exact hpre)
    subst this
    rfl
  · refine .inr (.inl ⟨fun c hcm => ?_, g1⟩)
    have : c.id ∈ ids osz f := by rw [hids]; exact List.mem_map_of_mem ((w.mem c).mpr hcm)
    exact g2 _ this
  · refine .inr (.inr ⟨⟨_, (w.mem _).mp (List.getElem_mem (hlen i hi)), _, (w.mem _).mp (List.getElem_mem (hlen j hj)), ?_, ?_, ?_⟩, g1⟩)
    · exact blt_ne (hpw i j (hlen i hi) (hlen j hj) hij)
    · rw [← hget i hi]; exact g2
    · rw [← hget j hj]; exact g3

theorem same_full {osz : Nat} {a b : Bytes} (ha : a.length = osz) (hb : b.length = osz) : SamePrefix (2 * osz) a b ↔ a = b := by
  unfold SamePrefix
  have l1 : (Oid.Spec.hex a).length = 2 * osz := by rw [PackIdx.hex_length, ha]
  have l2 : (Oid.Spec.hex b).length = 2 * osz := by rw [PackIdx.hex_length, hb]
  rw [← l1, List.take_length, l1, ← l2, List.take_length]
  refine ⟨fun h => ?_, fun h => by rw [h]⟩
  apply Classical.byContradiction
  intro hne
  rcases blt_total hne with h' | h'
  · exact blt_ne ((Oid.hex_lt_iff a b).mpr h') h
  · exact blt_ne ((Oid.hex_lt_iff b a).mpr h') h.symm

theorem full_padded {osz : Nat} {a : Bytes} (ha : a.length = osz) : Padded (2 * osz) a := by
  unfold Padded
  rw [List.drop_eq_nil_of_le (by rw [PackIdx.hex_length, ha])]
  exact fun c h => absurd h List.not_mem_nil

/-- the entry of a commit -/
theorem find_full {osz : Nat} (h0 : 0 < osz) {sum : Bytes → Bytes} {commits : List Commit} {f : File} {cs : List Commit} {pss : List (List Nat)} {gs : List Nat}
    (w : Written osz sum commits f cs pss gs) (hc : Closed osz commits) (i : Nat) (hi : i < cs.length) :
    entryFind osz f cs[i].id (2 * osz) = getByIndex osz f i := by
  obtain ⟨-, ha, -⟩ := (parse_spec (osz := osz) (file := f.file)).2 f w.parse
  have hids := holds_ids w.holds
  have hlen : ∀ i, i < (ids osz f).length → i < cs.length := fun i h => by rw [hids, List.length_map] at h; exact h
  have hget : ∀ i (h : i < (ids osz f).length), (ids osz f)[i] = (cs[i]'(hlen i h)).id := fun i h => by simp [hids]
  have hsz : ∀ i (h : i < cs.length), cs[i].id.length = osz := fun i h => (hc.size _ ((w.mem _).mp (List.getElem_mem h))).1
  have hi' : i < (ids osz f).length := by rw [hids, List.length_map]; exact hi
  have hpw := List.pairwise_iff_getElem.mp ha.sorted
  have hme : SamePrefix (2 * osz) cs[i].id (ids osz f)[i] := by rw [hget i hi']; exact (same_full (hsz i hi) (hsz i hi)).mpr rfl
  rcases entryFind_right ha h0 w.fan (hsz i hi) (full_padded (hsz i hi)) with ⟨j, hj, g1, g2, g3⟩ | ⟨g1, g2⟩ | ⟨g1, j, k, hj, hk, hjk, g2, g3⟩
  · rw [g1, g3 i hi' hme]
  · exact absurd hme (g2 _ (List.getElem_mem hi'))
  · rw [hget j hj, same_full (hsz i hi) (hsz j (hlen j hj))] at g2
    rw [hget k hk, same_full (hsz i hi) (hsz k (hlen k hk))] at g3
    have := hpw j k hj hk hjk
    rw [hget j hj, hget k hk, ← g2, ← g3] at this
    exact absurd this (blt_irrefl _)

/-- C61: in that file every commit is found by its full id, and asking it for a parent is the same as looking up the id of the parent, so the history can be
walked along the entries. -/
theorem C61_walk (osz : Nat) (h0 : 0 < osz) (h32 : osz ≤ 32) (sum : Bytes → Bytes) (hsum : ∀ b, (sum b).length = osz) (commits : List Commit)
    (hc : Closed osz commits) (hfit : Fits commits) : ∃ file f, write sum commits = .ok file ∧ openGraph osz sum file = .ok f ∧
      ∀ c ∈ commits, ∃ e, entryFind osz f c.id (2 * osz) = .ok e ∧ Describes osz f e c ∧
        ∀ n (h : n < c.parents.length), entryParent osz f e n = entryFind osz f c.parents[n] (2 * osz) := by
  obtain ⟨f, cs, pss, gs, w⟩ := written hc hfit.some h0 h32 hsum hfit.few hfit.edges
  refine ⟨f.file, f, w.write, w.open_, fun c hcm => ?_⟩
  obtain ⟨i, hi, rfl⟩ := List.getElem_of_mem ((w.mem c).mpr hcm)
  obtain ⟨e, e1, e2, -, e4⟩ := describes_written w.holds w.idx i hi
  refine ⟨e, by rw [find_full h0 w hc i hi]; exact e1, e2, fun n hn => ?_⟩
  have hp : i < pss.length := by rw [w.holds.plen]; exact hi
  have hI := w.idx i hp hi
  have hn' : n < pss[i].length := by rw [hI.len]; exact hn
  obtain ⟨q1, q2⟩ := hI.get n hn' hn
  rw [e4 n hp hn', ← q2, find_full h0 w hc _ q1]

/-- C61: the order in which the commits were added, and how often, does not matter: the file is the same. -/
theorem C61_canonical (sum : Bytes → Bytes) (l l' : List Commit) (h : ∀ c, c ∈ l ↔ c ∈ l') (hid : ∀ c ∈ l, ∀ d ∈ l, c.id = d.id → c = d)
    (hl : l.length ≤ 2 ^ 47) (hl' : l'.length ≤ 2 ^ 47) : write sum l = write sum l' := by
  have key : ∀ x : List Commit, x.length ≤ 2 ^ 47 → (∀ c ∈ x, ∀ d ∈ x, c.id = d.id → c = d) →
      ∃ y, Sort.tsort commitCmp x = .ok y ∧ (uniq y).Pairwise (fun a b => a.id < b.id) ∧ ∀ c, c ∈ uniq y ↔ c ∈ x := by
    intro x hx hxid
    obtain ⟨y, h1, h2, h3, h4⟩ := prepare hx
    refine ⟨y, h1, h2, fun c => ⟨h3 c, fun hcx => ?_⟩⟩
    obtain ⟨d, hd, he⟩ := h4 c hcx
    exact hxid d (h3 d hd) c hcx he ▸ hd
  obtain ⟨y, h1, h2, h3⟩ := key l hl hid
  obtain ⟨y', h1', h2', h3'⟩ := key l' hl' fun c hc d hd => hid c ((h c).mpr hc) d ((h d).mpr hd)
  have : uniq y = uniq y' := by
    have n1 : (uniq y).Nodup := h2.imp fun h e => by subst e; exact blt_irrefl _ h
    have n2 : (uniq y').Nodup := h2'.imp fun h e => by subst e; exact blt_irrefl _ h
    have hp : (uniq y).Perm (uniq y') := (List.perm_ext_iff_of_nodup n1 n2).mpr fun c => by rw [h3, h3', h]
    exact hp.eq_of_pairwise (fun a b _ _ p q => absurd (B.lt_trans p q) (blt_irrefl _)) h2 h2'
  unfold write
  rw [h1, h1', bind_ok, bind_ok, this]

/-- C61: if a parent is missing, no file is written. -/
theorem C61_missing_parent (sum : Bytes → Bytes) (commits : List Commit) (hid : ∀ c ∈ commits, ∀ d ∈ commits, c.id = d.id → c = d)
    (hl : commits.length ≤ 2 ^ 47) (c : Commit) (hc : c ∈ commits) (p : Bytes) (hp : p ∈ c.parents) (hno : ∀ d ∈ commits, d.id ≠ p) :
    write sum commits = .err (-3) := by
  obtain ⟨y, h1, h2, h3, h4⟩ := prepare hl
  obtain ⟨d, hd, he⟩ := h4 c hc
  have hdc : d = c := hid d (h3 d hd) c hc he
  subst hdc
  unfold write
  rw [h1, bind_ok]
  dsimp only
  rcases allIndices_spec (uniq y) (uniq y) with ⟨g1, -⟩ | ⟨r, g1, g2, g3⟩
  · rw [g1]
    rfl
  · obtain ⟨k, hk, rfl⟩ := List.getElem_of_mem hd
    obtain ⟨j, hj, rfl⟩ := List.getElem_of_mem hp
    have hI := g3 k (by omega) hk
    obtain ⟨q1, q2⟩ := hI.get j (by rw [hI.len]; exact hj) hj
    exact absurd q2 (hno _ (h3 _ (List.getElem_mem q1)))

/-! ## C62: generation numbers -/

theorem depth_get {commits cs : List Commit} {depth : Bytes → Nat} (hd : IsDepth commits depth) {pss : List (List Nat)}
    (hidx : ∀ k (h : k < pss.length) (h' : k < cs.length), IndicesOK cs cs[k] pss[k]) (hmem : ∀ c ∈ cs, c ∈ commits) (hlen : pss.length = cs.length) (i : Nat) (hi : i < cs.length) :
    depth cs[i].id = 1 + ((par pss i).map fun j => depth ((cs[j]?.map (·.id)).getD [])).foldr max 0 := by
  rw [hd _ (hmem _ (List.getElem_mem hi))]
  have hp : i < pss.length := by omega
  have hI := hidx i hp hi
  have : par pss i = pss[i] := by unfold par; rw [List.getD_eq_getElem?_getD, List.getElem?_eq_getElem hp]; rfl
  rw [this]
  congr 2
  apply List.ext_getElem
  · simp [hI.len]
  · intro n h1 h2
    rw [List.length_map] at h1 h2
    obtain ⟨q1, q2⟩ := hI.get n h2 h1
    simp [List.getElem?_eq_getElem q1, q2]

/-- C62: the generation number of a commit in the file is at least one, and at most its depth: one more than the greatest of its parents' depths. In a history
without merges it is the depth.

What is missing: that it is the depth in every history. `C62_merge` shows that this is false. -/
theorem C62_generation_partial (osz : Nat) (h0 : 0 < osz) (h32 : osz ≤ 32) (sum : Bytes → Bytes) (hsum : ∀ b, (sum b).length = osz) (commits : List Commit)
    (hc : Closed osz commits) (hfit : Fits commits) (depth : Bytes → Nat) (hd : IsDepth commits depth) :
    ∃ file f, write sum commits = .ok file ∧ openGraph osz sum file = .ok f ∧ ∀ c ∈ commits, ∃ e, entryFind osz f c.id (2 * osz) = .ok e ∧
      1 ≤ e.generation ∧ e.generation ≤ min 0x3FFFFFFF (depth c.id) ∧
      ((∀ d ∈ commits, d.parents.length ≤ 1) → e.generation = min 0x3FFFFFFF (depth c.id)) := by
  obtain ⟨f, cs, pss, gs, w⟩ := written hc hfit.some h0 h32 hsum hfit.few hfit.edges
  refine ⟨f.file, f, w.write, w.open_, fun c hcm => ?_⟩
  obtain ⟨i, hi, rfl⟩ := List.getElem_of_mem ((w.mem c).mpr hcm)
  obtain ⟨e, e1, -, ⟨hg, e3⟩, -⟩ := describes_written w.holds w.idx i hi
  have hplen := w.holds.plen
  have hpar : ∀ i, ∀ p ∈ par pss i, p < cs.length := by
    intro i p hp
    unfold par at hp
    by_cases hi : i < pss.length
    · rw [List.getD_eq_getElem?_getD, List.getElem?_eq_getElem hi] at hp
      exact w.holds.range _ (List.getElem_mem hi) p hp
    · rw [List.getD_eq_getElem?_getD, List.getElem?_eq_none (by omega)] at hp
      exact absurd hp List.not_mem_nil
  have hD : ∀ i < cs.length, (fun j => depth ((cs[j]?.map (·.id)).getD [])) i = 1 + ((par pss i).map fun j => depth ((cs[j]?.map (·.id)).getD [])).foldr max 0 := by
    intro i hi
    dsimp only
    rw [← depth_get hd w.idx (fun c h => (w.mem c).mp h) hplen i hi, List.getElem?_eq_getElem hi]
    rfl
  have hdi : (fun j => depth ((cs[j]?.map (·.id)).getD [])) i = depth cs[i].id := by
    dsimp only
    rw [List.getElem?_eq_getElem hi]
    rfl
  have hG : GENMAX = 0x3FFFFFFF := rfl
  refine ⟨e, by rw [find_full h0 w hc i hi]; exact e1, ?_⟩
  obtain ⟨gs', k1, k2, k3⟩ := generations_ok hpar (d := fun j => depth ((cs[j]?.map (·.id)).getD [])) fun i hi => by
    rw [← hD i hi]
    exact Nat.min_le_right _ _
  have hgs : gs = gs' := by have := w.gens.symm.trans k1; cases this; rfl
  subst hgs
  obtain ⟨k4, k5, k6⟩ := k3 i hg
  dsimp only at hdi
  rw [hdi] at k6
  refine ⟨by omega, by omega, fun hone => ?_⟩
  obtain ⟨gs', k1', -, k3'⟩ := generations_linear hpar (d := fun j => depth ((cs[j]?.map (·.id)).getD [])) hD fun i => by
    unfold par
    by_cases hi : i < pss.length
    · rw [List.getD_eq_getElem?_getD, List.getElem?_eq_getElem hi]
      have := (w.idx i hi (by omega)).len
      have h2 := hone _ ((w.mem _).mp (List.getElem_mem (show i < cs.length by omega)))
      rw [← this] at h2
      exact h2
    · rw [List.getD_eq_getElem?_getD, List.getElem?_eq_none (by omega)]
      exact Nat.zero_le _
  have hgs : gs = gs' := by have := w.gens.symm.trans k1'; cases this; rfl
  subst hgs
  have := k3' i hg
  rw [hdi] at this
  omega

/-! ### examples -/

/-- a root, a child, and their merge, whose id is the greatest: the merge is taken from the stack first -/
def exMerge : List Commit :=
  [⟨[0x30, 0, 0, 1], [9, 9, 9, 3], 1000, [[0x10, 0, 0, 1], [0x20, 0, 0, 1]]⟩, ⟨[0x10, 0, 0, 1], [9, 9, 9, 1], 800, []⟩,
   ⟨[0x20, 0, 0, 1], [9, 9, 9, 2], 900, [[0x10, 0, 0, 1]]⟩]

def exSum : Bytes → Bytes := fun b => b.foldl (fun s x => [s.getD 1 0 + x, s.getD 2 0, s.getD 3 0, s.getD 0 0]) [0, 0, 0, 0]
def exFile (l : List Commit) : Bytes := match write exSum l with | .ok b => b | _ => []
def exGraph (l : List Commit) : File := match openGraph 4 exSum (exFile l) with | .ok f => f | _ => ⟨[], 0, 0, 0, 0, 0, 0, []⟩

theorem exSum_len (b : Bytes) : (exSum b).length = 4 := by
  unfold exSum
  suffices ∀ (b s : Bytes), s.length = 4 → (b.foldl (fun s x => [s.getD 1 0 + x, s.getD 2 0, s.getD 3 0, s.getD 0 0]) s).length = 4 from this b _ rfl
  intro b
  induction b with
  | nil => exact fun s h => h
  | cons x b ih => exact fun s _ => ih _ rfl

def exDepth : Bytes → Nat
  | 0x10 :: _ => 1
  | 0x20 :: _ => 2
  | 0x30 :: _ => 3
  | _ => 0

theorem exMerge_closed : Closed 4 exMerge := ⟨by decide, by decide, by decide, by decide⟩
theorem exMerge_fits : Fits exMerge := ⟨by decide, by decide, by decide⟩
theorem exMerge_depth : IsDepth exMerge exDepth := by unfold IsDepth; decide

/-- C62 is false of the code: the middle commit of this history has depth two, and the written file says that its generation is one (as it says of its parent). -/
theorem C62_merge : Closed 4 exMerge ∧ Fits exMerge ∧ IsDepth exMerge exDepth ∧ write exSum exMerge = .ok (exFile exMerge) ∧
    openGraph 4 exSum (exFile exMerge) = .ok (exGraph exMerge) ∧
    ∃ e, entryFind 4 (exGraph exMerge) [0x20, 0, 0, 1] 8 = .ok e ∧ e.generation = 1 ∧ exDepth [0x20, 0, 0, 1] = 2 := by
  refine ⟨exMerge_closed, exMerge_fits, exMerge_depth, by decide +kernel, by decide +kernel,
    ⟨[0x20, 0, 0, 1], [9, 9, 9, 2], 1, 900, 1, 0, MISSING, none⟩, by decide +kernel, rfl, rfl⟩

/-- an octopus merge -/
def exOctopus : List Commit :=
  [⟨[0x10, 0, 0, 1], [9, 9, 9, 1], 800, []⟩, ⟨[0x10, 0, 0, 2], [9, 9, 9, 2], 17179869184 + 5, []⟩, ⟨[0x20, 0, 0, 1], [9, 9, 9, 3], 900, [[0x10, 0, 0, 1]]⟩,
   ⟨[0x05, 0, 0, 1], [9, 9, 9, 4], -1, [[0x20, 0, 0, 1], [0x10, 0, 0, 2], [0x10, 0, 0, 1]]⟩]
example : Closed 4 exOctopus ∧ Fits exOctopus := ⟨⟨by decide, by decide, by decide, by decide⟩, ⟨by decide, by decide, by decide⟩⟩
example : openGraph 4 exSum (exFile exOctopus) = .ok (exGraph exOctopus) ∧ (exGraph exOctopus).numEdges = 2 ∧ (exGraph exOctopus).num = 4 := by decide +kernel
/-- its times were outside of 34 bits -/
example : entryFind 4 (exGraph exOctopus) [0x05, 0, 0, 1] 8 = .ok ⟨[0x05, 0, 0, 1], [9, 9, 9, 4], 3, 2 ^ 34 - 1, 3, 3, 2 ^ 31, some 0⟩ ∧
    entryFind 4 (exGraph exOctopus) [0x10, 0, 0, 2] 8 = .ok ⟨[0x10, 0, 0, 2], [9, 9, 9, 2], 1, 5, 0, MISSING, MISSING, none⟩ := by decide +kernel
example : entryParent 4 (exGraph exOctopus) ⟨[0x05, 0, 0, 1], [9, 9, 9, 4], 3, 2 ^ 34 - 1, 3, 3, 2 ^ 31, some 0⟩ 2 =
    entryFind 4 (exGraph exOctopus) [0x10, 0, 0, 1] 8 := by decide +kernel
example : entryFind 4 (exGraph exOctopus) [0x10, 0, 0, 0] 7 = .err (-5) ∧ entryFind 4 (exGraph exOctopus) [0x11, 0, 0, 0] 2 = .err (-3) := by decide +kernel
example : FanRight (exFile exOctopus) (exGraph exOctopus).fanout (idTable 4 (exGraph exOctopus)) := by
  intro b hb
  exact (show ∀ b < 256, ∃ v, rd32 (exFile exOctopus) ((exGraph exOctopus).fanout + 4 * b) = .ok v ∧
    v.toNat = ((idTable 4 (exGraph exOctopus)).filter fun id => (id.headD 0).toNat ≤ b).length from fun b hb => by
      obtain ⟨f, cs, pss, gs, w⟩ := written (sum := exSum) (commits := exOctopus) ⟨by decide, by decide, by decide, by decide⟩ (by decide) (by decide) (by decide) exSum_len (by decide) (by decide)
      have e1 : f.file = exFile exOctopus := by unfold exFile; rw [w.write]
      have e2 : f = exGraph exOctopus := by unfold exGraph; rw [← e1, w.open_]
      obtain ⟨-, ha, -⟩ := (parse_spec (osz := 4) (file := f.file)).2 f w.parse
      rw [← e1, ← e2, idTable_eq ha]
      exact w.fan b hb) b hb
/-- a parent that is missing -/
example : write exSum [⟨[0x20, 0, 0, 1], [9, 9, 9, 3], 900, [[0x10, 0, 0, 1]]⟩] = .err (-3) := by decide +kernel

/-- no commits: the file that is written is refused -/
theorem C61_empty : ∃ file, write exSum [] = .ok file ∧ openGraph 4 exSum file = .err (-1) := ⟨exFile [], by decide +kernel, by decide +kernel⟩

end Verif.CommitGraph
