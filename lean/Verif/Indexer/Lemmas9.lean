import Verif.Indexer.Lemmas8
/-! # What is accepted -/
namespace Verif.Indexer
open Spec Verif.Pack Verif.Pack.Spec Verif.PackObjects.Spec

/-- what holds while deltas are resolved -/
def During (E : Env) (F : Bytes) (ents : List Ent) (s : St) (pend : List Nat) : Prop :=
  Stored E F ents s.ix s.indexed pend ∧ (E.verify = true → Lengths ents → Linked E F ents s.ix s.expected)

theorem during_keeps {E : Env} {F : Bytes} (hF : F.length < 2 ^ 63) {ents : List Ent} (hent : ∀ e ∈ ents, EntF E F e) (fuel : Nat) : Keeps E F fuel (During E F ents) where
  one _ _ _ _ _ _ hf S h := ⟨stored_resolve hF hent hf S.1 h, fun hv hl => linked_resolve hv hF hf (S.2 hv hl) h⟩
  deltas _ _ _ h := h

/-- accepting a pack, nothing being added -/
theorem sound {E : Env} (hz : Zlib E.inflate) (hsha : ∀ b, (E.sha b).length = 20) {fuel : Nat} {F : Bytes} {ps : List Bytes} {r : Done} (hps : ∀ d ∈ ps, d.length < 2 ^ 31) (hf : ps.flatten = F)
    (hF : F.length < 2 ^ 63) (hn : ∀ m, rd32 F 8 = .ok m → m.toNat < 2 ^ 26) (h : index E fuel ps = some (.ok r)) (hsame : r.pack = F) :
    ∃ ents stop p listed, Layout E.inflate E.sha F ents stop ∧ r.name = F.drop (F.length - 20) ∧ PackIdx.checkIndex 20 r.idx = .ok p ∧ PackIdx.foreachEntry 20 p = .ok listed ∧
      (listed.map (·.1)).Pairwise (· < ·) ∧ (listed.map (·.2)).Perm (ents.map (·.off)) ∧
      (∀ i (h : i < listed.length), ∃ e ∈ ents, e.off = listed[i].2 ∧ PackIdx.findOffset 20 p listed[i].1 40 = .ok (listed[i].2, listed[i].1) ∧
        rd32 r.idx (1032 + 20 * listed.length + 4 * i) = .ok (E.crc ((F.drop e.off).take (e.stop - e.off))) ∧
        Stands E.inflate E.sha F (findBy p) e listed[i].1) ∧
      (E.verify = true → (∀ e ∈ ents, Whole e → e.data.length = e.size ∧ e.size < 2 ^ 63) → ∀ x ∈ listed, ∀ t d, (⟨F, findBy p, contents E.inflate⟩ : Source).Entry x.2 t d →
        known E x.1 = false → ∃ ids, E.refs t d = some ids ∧ ∀ r ∈ ids, known E r = true ∨ r ∈ listed.map (·.1)) := by
  obtain ⟨s, a1, a2⟩ := index_ok h
  obtain ⟨G, hf'⟩ := appendAll_good hz ps (good_start E F) hps (by rw [hf]; rfl) a1
  obtain ⟨c1, c2, c3, s', c4, c5⟩ := commit_ok a2
  rw [hf'] at c2 c3
  obtain ⟨hh, ents, cur, H, _⟩ := G.entries c1
  have hcur := cur_le H c2
  have S0 := stored_putAll ents (stored_start E F) H.made
  rw [List.nil_append] at S0
  have L0 : E.verify = true → Lengths ents → Linked E F ents s.ix s.expected := fun hv hl => by
    have := linked_putAll hv ents H.entry (fun e he => by have := run_mem H.run H.entry e he; omega) hl (linked_start E F) H.made
    rwa [List.nil_append] at this
  have hres := resolve_inv (during_keeps hF H.entry fuel) fuel (s := { s with stream := none, inbuf := [] }) (.inl ⟨hf', G.injected, S0, L0⟩) c4
  obtain ⟨hnr, hres⟩ := hres
  have hnr : s'.nr = s.nr := hnr
  have hhash : E.sha s.hashed = F.drop (F.length - 20) := c3
  have hk : s.hashed = F.take (F.length - 20) := by rw [kept_hashed G.kept, hf']
  unfold writeOut at c5
  by_cases hi : s'.indexed ≠ s'.nr
  · rw [if_pos hi] at c5; cases c5
  · rw [if_neg hi] at c5
    dsimp only at c5
    by_cases he0 : s'.expected ≠ []
    · rw [if_pos he0] at c5; cases c5
    · rw [if_neg he0] at c5
      cases hs : Sort.tsort objectsCmp s'.ix.objects with
      | err e => rw [hs] at c5; cases c5
      | ub => rw [hs] at c5; cases c5
      | ok sorted =>
        rw [hs, Res.bind_ok] at c5
        have c5 := Res.ok.inj c5
        rcases hres with ⟨r1, r2, r3, r4⟩ | hgrow
        · rw [if_neg (by omega)] at c5
          subst c5
          dsimp only at hsame ⊢
          have hcount : s'.indexed < 2 ^ 26 := by
            obtain ⟨_, _, m, hm, hmn⟩ := hh
            have := hn m hm
            omega
          obtain ⟨p, listed, q1, q2, q3, q4, q5, q6, q8, q9, q7⟩ := stored_index hsha hF H.entry H.run hcur r3 hcount hs (hsha s.hashed)
          have hl := hdr_layout hh
          refine ⟨ents, cur, p, listed, ⟨?_, ?_, H.run, hcur, fun e he => entF_entry hF (H.entry e he), ?_⟩, hhash, q1, q2, q5, q6, q7, fun hv hl x hx t d he hk => ?_⟩
          · rw [hl.1, q4, Decidable.not_not.mp hi, hnr]
          · rw [q4]; omega
          · rw [← hk]; exact hhash.symm
          · have L := r4 hv hl
            rw [Decidable.not_not.mp he0] at L
            obtain ⟨y, hy, rfl⟩ := List.mem_map.mp (q8.mem_iff.mp hx)
            obtain ⟨ids, w1, w2⟩ := linked_end hF H.entry L hy q9 he hk
            refine ⟨ids, w1, fun r hr => (w2 r hr).imp_right fun h => ?_⟩
            obtain ⟨z, hz1, hz2⟩ := List.mem_map.mp h
            exact List.mem_map.mpr ⟨(z.id, z.off), q8.mem_iff.mpr (List.mem_map.mpr ⟨z, hz1, rfl⟩), hz2⟩
        · exfalso
          have hroom : 32 ≤ F.length := by
            have := (run_le H.run H.entry).1
            omega
          have hlen : r.pack.length = s'.file.length := by
            rw [← c5]
            dsimp only
            split
            · unfold rehash
              dsimp only
              rw [List.length_append, hsha, List.length_take]
              simp only [List.length_append, be32_length, List.length_drop]
              omega
            · rfl
          rw [hsame] at hlen
          omega

/-- without a database nothing is added -/
theorem resolve_none {E : Env} (hodb : E.odb = none) {fuel : Nat} : ∀ (turns : Nat) {s s' : St}, resolveDeltas E fuel turns s = some (.ok s') → Quiet s s' := by
  intro turns
  induction turns with
  | zero => intro s s' h; cases h
  | succ turns ih =>
    intro s s' h
    unfold resolveDeltas at h
    by_cases hd : s.deltas = []
    · rw [if_pos hd] at h
      cases h
      exact ⟨rfl, rfl, rfl⟩
    · rw [if_neg hd] at h
      cases hp : resolvePass E fuel s.deltas s with
      | none => rw [hp] at h; cases h
      | some x =>
        rw [hp] at h
        cases x with
        | ub => cases h
        | err e => cases h
        | ok x =>
          obtain ⟨s1, left, r⟩ := x
          dsimp only at h
          have q := pass_quiet _ hp
          by_cases hr : r = true
          · rw [if_pos hr] at h
            have := ih h
            exact ⟨this.file.trans q.file, this.nr.trans q.nr, this.injected.trans q.injected⟩
          · rw [if_neg hr] at h
            have : fixThinPack E { s1 with deltas := left } = .err (-1) := by unfold fixThinPack; rw [hodb]
            rw [this] at h
            cases h

theorem unchanged {E : Env} (hz : Zlib E.inflate) (hodb : E.odb = none) {fuel : Nat} {ps : List Bytes} {r : Done} (hps : ∀ d ∈ ps, d.length < 2 ^ 31) (h : index E fuel ps = some (.ok r)) :
    r.pack = ps.flatten := by
  obtain ⟨s, a1, a2⟩ := index_ok h
  obtain ⟨G, hf'⟩ := appendAll_good hz ps (good_start E ps.flatten) hps rfl a1
  obtain ⟨c1, c2, c3, s', c4, c5⟩ := commit_ok a2
  have q := resolve_none hodb _ c4
  have hi : s'.injected = 0 := by rw [q.injected]; exact G.injected
  have hff : s'.file = ps.flatten := by rw [q.file]; exact hf'
  unfold writeOut at c5
  split at c5
  · cases c5
  · dsimp only at c5
    split at c5
    · cases c5
    · rw [if_neg (by omega)] at c5
      cases hs : Sort.tsort objectsCmp s'.ix.objects with
      | err e => rw [hs] at c5; cases c5
      | ub => rw [hs] at c5; cases c5
      | ok sorted =>
        rw [hs, Res.bind_ok] at c5
        cases c5
        exact hff

end Verif.Indexer
