import Verif.CommitGraph.Lemmas6
import Verif.CommitGraph.Lemmas9
/-! # Lemmas: the file of the writer -/
namespace Verif.CommitGraph
open PackIdx (bind_ok_inv bind_ok bind_err ENOTFOUND flatMap_len flatMap_split slice_mid head_mono)
open PackIdx.Spec Spec Verif.B

theorem sum_sublist {α : Type} (g : α → Nat) : ∀ {a b : List α}, a.Sublist b → (a.map g).sum ≤ (b.map g).sum
  | _, _, .slnil => Nat.le_refl _
  | _, _, .cons x h => by have := sum_sublist g h; simp; omega
  | _, _, .cons_cons x h => by have := sum_sublist g h; simp; omega

theorem sum_perm {α : Type} (g : α → Nat) : ∀ {a b : List α}, a.Perm b → (a.map g).sum = (b.map g).sum := by
  intro a b h
  induction h with
  | nil => rfl
  | cons x _ ih => simp [ih]
  | swap x y l => simp; omega
  | trans _ _ ih1 ih2 => omega

/-- the commits in order -/
theorem prepare2 {osz : Nat} {commits : List Commit} (hc : Closed osz commits) (hlen : commits.length ≤ 2 ^ 47) :
    ∃ l, Sort.tsort commitCmp commits = .ok l ∧ (uniq l).Pairwise (fun a b => a.id < b.id) ∧ (∀ c, c ∈ uniq l ↔ c ∈ commits) ∧
      (uniq l).length ≤ commits.length ∧ ∀ g : Commit → Nat, ((uniq l).map g).sum ≤ (commits.map g).sum := by
  obtain ⟨l, h1, h2⟩ := Sort.C26_sorts commitCmp_order commits hlen
  obtain ⟨g1, g2, g3⟩ := uniq_ok l h2.sorted
  have hp := h2.stable.perm
  have hm : ∀ c, c ∈ l ↔ c ∈ commits := fun c => hp.mem_iff
  refine ⟨l, h1, g1, fun c => ⟨fun h => (hm c).mp (g2 c h), fun h => ?_⟩, ?_, fun g => ?_⟩
  · obtain ⟨d, hd, he⟩ := g3 c ((hm c).mpr h)
    have : d = c := hc.ids d ((hm d).mp (g2 d hd)) c h he
    exact this ▸ hd
  · have := (sublist_uniq l).length_le
    rw [hp.length_eq] at this
    exact this
  · have := sum_sublist g (sublist_uniq l)
    rw [sum_perm g hp] at this
    exact this

theorem filter_map_head (cs : List Commit) (b : Nat) :
    ((cs.map (·.id)).filter fun id => (id.headD 0).toNat ≤ b).length = (cs.filter fun c => headOf c ≤ b).length := by
  rw [List.filter_map, List.length_map]
  rfl

/-- the four tables of the writer -/
theorem tables_of {osz : Nat} {cs : List Commit} {pss : List (List Nat)} {gs : List Nat} (h0 : 0 < osz) (hsz : ∀ c ∈ cs, c.id.length = osz ∧ c.tree.length = osz)
    (hnn : ∀ c ∈ cs, c.id ≠ List.replicate osz 0) (hs : cs.Pairwise fun a b => a.id < b.id) (hne : cs ≠ []) (hlen : cs.length < 2 ^ 31) (hp : pss.length = cs.length)
    (hg : gs.length = cs.length) : Tables osz cs.length (fanTable 256 cs 0) (cs.map (·.id)) (dataLoop cs pss gs 0).1 (dataLoop cs pss gs 0).2 := by
  have hhead : cs.Pairwise fun a b => headOf a ≤ headOf b := by
    have := List.pairwise_iff_getElem.mp hs
    rw [List.pairwise_iff_getElem]
    intro i j hi hj hij
    exact head_mono (this i j hi hj hij) (by rw [(hsz _ (List.getElem_mem hi)).1, (hsz _ (List.getElem_mem hj)).1])
  obtain ⟨g1, g2, -⟩ := dataLoop_split (osz := osz) cs pss gs 0 (fun c hc => (hsz c hc).2) hp hg
  have hget : ∀ j (h : j < (fanTable 256 cs 0).length), (fanTable 256 cs 0)[j] = (cs.filter fun c => headOf c ≤ j).length := by
    intro j h
    rw [fanTable_get 256 cs 0 (Nat.le_refl _) hhead j h, Nat.zero_add, show 256 - 256 + j = j by omega]
  refine ⟨fanTable_len _ _ _, fun i j hi hj hij => ?_, fun h => ?_, ⟨?_, hlen⟩, by simp, fun x hx => ?_, ?_, g1, by omega⟩
  · rw [hget i hi, hget j hj]
    have := count_split cs i j hij
    omega
  · rw [hget 255 h, List.filter_eq_self.mpr]
    · intro c _
      rw [decide_eq_true_eq]
      have := (c.id.headD 0).toNat_lt
      unfold headOf
      omega
  · exact List.length_pos_iff.mpr hne
  · obtain ⟨c, hc, rfl⟩ := List.mem_map.mp hx
    exact (hsz c hc).1
  · rw [List.pairwise_cons]
    refine ⟨fun x hx => ?_, List.pairwise_map.mpr hs⟩
    obtain ⟨c, hc, rfl⟩ := List.mem_map.mp hx
    refine lt_of_le_of_ne ?_ (Ne.symm (hnn c hc))
    have := replicate_zero_le c.id
    rw [(hsz c hc).1] at this
    exact this

theorem holds_ids {osz : Nat} {f : File} {cs : List Commit} {pss : List (List Nat)} {gs : List Nat} (hH : Holds osz f cs pss gs) : ids osz f = cs.map (·.id) := by
  apply List.ext_getElem
  · rw [ids_length, hH.num, List.length_map]
  · intro i h1 h2
    rw [List.length_map] at h2
    have : (ids osz f)[i] = idAt osz f i := by simp [ids]
    rw [this, List.getElem_map]
    unfold idAt
    rw [hH.id i h2]

/-- what `git_commit_graph_writer_dump` does -/
structure Written (osz : Nat) (sum : Bytes → Bytes) (commits : List Commit) (f : File) (cs : List Commit) (pss : List (List Nat)) (gs : List Nat) : Prop where
  write : write sum commits = .ok f.file
  parse : parse osz f.file = .ok f
  open_ : openGraph osz sum f.file = .ok f
  holds : Holds osz f cs pss gs
  idx : ∀ k (h : k < pss.length) (h' : k < cs.length), IndicesOK cs cs[k] pss[k]
  fan : FanRight f.file f.fanout (ids osz f)
  mem : ∀ c, c ∈ cs ↔ c ∈ commits
  sorted : cs.Pairwise fun a b => a.id < b.id
  count : cs.length ≤ commits.length
  gens : generations cs.length pss = .ok gs

theorem written {osz : Nat} {sum : Bytes → Bytes} {commits : List Commit} (hc : Closed osz commits) (hne : commits ≠ []) (h0 : 0 < osz) (h32 : osz ≤ 32)
    (hsum : ∀ b, (sum b).length = osz) (hlen : commits.length ≤ MISSING) (hedges : (commits.map fun c => c.parents.length).sum ≤ 2 ^ 31) :
    ∃ f cs pss gs, Written osz sum commits f cs pss gs := by
  have hM : MISSING = 0x70000000 := rfl
  obtain ⟨l, h1, h2, h3, h4, h5⟩ := prepare2 hc (by omega)
  generalize hcs : uniq l = cs at *
  have hne' : cs ≠ [] := by
    intro h
    obtain ⟨c, hc'⟩ := List.exists_mem_of_ne_nil _ hne
    have := (h3 c).mpr hc'
    rw [h] at this
    exact absurd this List.not_mem_nil
  have hsz : ∀ c ∈ cs, c.id.length = osz ∧ c.tree.length = osz := fun c h => hc.size c ((h3 c).mp h)
  have hnn : ∀ c ∈ cs, c.id ≠ List.replicate osz 0 := fun c h => hc.notNull c ((h3 c).mp h)
  rcases allIndices_spec cs cs with ⟨-, c, g1, p, g2, g3⟩ | ⟨pss, g1, g2, g3⟩
  · obtain ⟨d, g4, g5⟩ := hc.parents c ((h3 c).mp g1) p g2
    exact absurd g5 (g3 d ((h3 d).mpr g4))
  have hrange : ∀ ps ∈ pss, ∀ p ∈ ps, p < cs.length := by
    intro ps hps p hp
    obtain ⟨k, hk, rfl⟩ := List.getElem_of_mem hps
    obtain ⟨j, hj, rfl⟩ := List.getElem_of_mem hp
    have hI := g3 k hk (by omega)
    obtain ⟨q, -⟩ := hI.get j hj (by rw [← hI.len]; exact hj)
    exact q
  have hpar : ∀ i, ∀ p ∈ par pss i, p < cs.length := by
    intro i p hp
    unfold par at hp
    by_cases hi : i < pss.length
    · rw [List.getD_eq_getElem?_getD, List.getElem?_eq_getElem hi] at hp
      exact hrange _ (List.getElem_mem hi) p hp
    · rw [List.getD_eq_getElem?_getD, List.getElem?_eq_none (by omega)] at hp
      exact absurd hp List.not_mem_nil
  obtain ⟨gs, k1, k2, -⟩ := generations_ok (n := cs.length) hpar (d := fun _ => GENMAX) fun i _ => Nat.min_le_left _ _
  have ht := tables_of (osz := osz) (cs := cs) (pss := pss) (gs := gs) h0 hsz hnn h2 hne' (by omega) g2 k2
  obtain ⟨d1, d2, d3⟩ := dataLoop_split (osz := osz) cs pss gs 0 (fun c hc => (hsz c hc).2) g2 k2
  have hesum : (pss.map fun ps => if ps.length > 2 then ps.length - 1 else 0).sum ≤ 2 ^ 31 := by
    have a1 : pss.map (fun ps => ps.length) = cs.map fun c => c.parents.length := by
      apply List.ext_getElem
      · simp [g2]
      · intro i i1 i2
        rw [List.getElem_map, List.getElem_map]
        exact (g3 i (by simpa using i1) (by simpa using i2)).len
    have a2 : ∀ L : List (List Nat), (L.map fun ps => if ps.length > 2 then ps.length - 1 else 0).sum ≤ (L.map fun ps => ps.length).sum := by
      intro L
      induction L with
      | nil => simp
      | cons x L ih => simp only [List.map_cons, List.sum_cons]; split <;> omega
    have := a2 pss
    rw [a1] at this
    have := h5 fun c => c.parents.length
    omega
  generalize hD : dataLoop cs pss gs 0 = D at *
  obtain ⟨data, edges⟩ := D
  dsimp only at *
  obtain ⟨pre, p1, p2, p3⟩ := parse_written (s := sum (body (fanTable 256 cs 0) (cs.flatMap (·.id)) data edges)) ht h0 h32 (hsum _) (by omega)
  have hfm : ((cs.map (·.id)).flatMap fun x => x) = cs.flatMap (·.id) := by rw [List.flatMap_map]
  rw [hfm] at p2 p3
  generalize hb : body (fanTable 256 cs 0) (cs.flatMap (·.id)) data edges = bd at *
  generalize hsm : sum bd = s at *
  have hslen : s.length = osz := by rw [← hsm]; exact hsum _
  generalize hE : (if edges.length > 0 then start edges + 1024 + cs.length * osz + cs.length * (osz + 16) else 0) = E at *
  have hfl : ((fanTable 256 cs 0).flatMap word).length = 1024 := by rw [fan_bytes, ht.fanLen]
  have hil : (cs.flatMap (·.id)).length = cs.length * osz := flatMap_len fun c hc => (hsz c hc).1
  have hH : Holds osz ⟨bd ++ s, start edges, cs.length, start edges + 1024, start edges + 1024 + cs.length * osz, E, edges.length / 4, s⟩ cs pss gs := by
    refine ⟨rfl, by omega, g2, k2, fun c hc => (hsz c hc).2, fun i hi => ?_, hrange, by dsimp only; omega, fun i hi hp hg => ?_⟩
    · dsimp only
      obtain ⟨a, b, e1, e2⟩ := flatMap_split (g := fun c : Commit => c.id) (w := osz) (xs := cs) (fun c hc => (hsz c hc).1) hi
      rw [p2, e1]
      have := slice_append (pre := pre ++ (fanTable 256 cs 0).flatMap word ++ a) (mid := cs[i].id) (post := b ++ data ++ edges ++ s) (off := start edges + 1024 + i * osz) (len := osz)
        (by simp only [List.length_append, p1, hfl, e2]) (hsz _ (List.getElem_mem hi)).1
      rw [← this]
      simp only [List.append_assoc]
    · dsimp only
      obtain ⟨a, b, k, e1, e2, e3⟩ := d3 i hi hp hg
      refine ⟨pre ++ (fanTable 256 cs 0).flatMap word ++ cs.flatMap (·.id) ++ a, b ++ edges ++ s, k, ?_, ?_, fun hl => ?_⟩
      · rw [p2, e1]
        simp only [List.append_assoc]
      · simp only [List.length_append, p1, hfl, hil, e2]
      · obtain ⟨a', b', e4, e5⟩ := e3 hl
        have hel : edges.length = a'.length + 4 * (pss[i].length - 1) + b'.length := by
          rw [e4, List.length_append, List.length_append, edgeWords_len, List.length_tail]
        refine ⟨pre ++ (fanTable 256 cs 0).flatMap word ++ cs.flatMap (·.id) ++ data ++ a', b' ++ s, ?_, ?_, by omega⟩
        · rw [p2, e4]
          simp only [List.append_assoc]
        · rw [if_pos (by omega)] at hE
          simp only [List.length_append, p1, hfl, hil, d1]
          omega
  refine ⟨_, cs, pss, gs, ⟨?_, p3, ?_, hH, g3, ?_, h3, h2, h4, k1⟩⟩
  · unfold CommitGraph.write
    rw [h1, bind_ok]
    dsimp only
    rw [hcs, g1, bind_ok, k1, bind_ok, hD, hb, hsm]
  · unfold openGraph
    rw [p3, bind_ok]
    dsimp only
    rw [List.length_append, hslen, Nat.add_sub_cancel, List.take_left, hsm, if_neg (by simp)]
  · rw [holds_ids hH]
    intro b hb256
    dsimp only
    have hb2 : b < (fanTable 256 cs 0).length := by rw [ht.fanLen]; exact hb256
    have hfanlt : ∀ x ∈ fanTable 256 cs 0, x < 2 ^ 32 := by
      intro x hx
      obtain ⟨i, hi, rfl⟩ := List.getElem_of_mem hx
      have h255 : 255 < (fanTable 256 cs 0).length := by rw [ht.fanLen]; omega
      have := ht.mono i 255 hi h255 (by have := ht.fanLen; omega)
      rw [ht.last h255] at this
      omega
    obtain ⟨v, q1, q2⟩ := fan_read (file := bd ++ s) (pre := pre) (post := cs.flatMap (·.id) ++ data ++ edges ++ s) (by rw [p2]; simp only [List.append_assoc]) hfanlt b hb2
    rw [p1] at q1
    refine ⟨v, q1, ?_⟩
    rw [q2, filter_map_head]
    have hhead : cs.Pairwise fun a b => headOf a ≤ headOf b := by
      have := List.pairwise_iff_getElem.mp h2
      rw [List.pairwise_iff_getElem]
      intro i j hi hj hij
      exact head_mono (this i j hi hj hij) (by rw [(hsz _ (List.getElem_mem hi)).1, (hsz _ (List.getElem_mem hj)).1])
    rw [fanTable_get 256 cs 0 (Nat.le_refl _) hhead b hb2, Nat.zero_add, show 256 - 256 + b = b by omega]

end Verif.CommitGraph
