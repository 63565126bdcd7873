import Verif.PackIdx.Lemmas2
/-! # Lemmas: writing index files -/
namespace Verif.PackIdx
open Spec Verif.Oid.Spec Verif.B

/-! ### tables of equally sized records -/

theorem flatMap_len {α : Type} {g : α → Bytes} {w : Nat} {xs : List α} (h : ∀ x ∈ xs, (g x).length = w) : (xs.flatMap g).length = xs.length * w := by
  induction xs with
  | nil => simp
  | cons x xs ih =>
    rw [List.flatMap_cons, List.length_append, h x (by simp), ih fun y hy => h y (List.mem_cons_of_mem _ hy), List.length_cons, Nat.add_mul]
    omega

theorem flatMap_split {α : Type} {g : α → Bytes} {w : Nat} {xs : List α} (h : ∀ x ∈ xs, (g x).length = w) {i : Nat} (hi : i < xs.length) :
    ∃ a b, xs.flatMap g = a ++ g xs[i] ++ b ∧ a.length = i * w := by
  refine ⟨(xs.take i).flatMap g, (xs.drop (i + 1)).flatMap g, ?_, ?_⟩
  · conv => lhs; rw [← List.take_append_drop i xs, List.drop_eq_getElem_cons hi]
    rw [List.flatMap_append, List.flatMap_cons, List.append_assoc]
  · rw [flatMap_len (w := w) fun x hx => h x (List.mem_of_mem_take hx), List.length_take, Nat.min_eq_left (Nat.le_of_lt hi)]

/-- reading out of the middle -/
theorem rd32_mid {f pre x post : Bytes} (hf : f = pre ++ x ++ post) {a b : Bytes} {v : UInt32} (hx : x = a ++ be32 v ++ b) {off : Nat}
    (ho : off = pre.length + a.length) : rd32 f off = .ok v := by
  subst hf hx
  rw [show pre ++ (a ++ be32 v ++ b) ++ post = (pre ++ a) ++ be32 v ++ (b ++ post) by simp]
  exact rd32_at (by simp [ho])

theorem slice_mid {f pre x post : Bytes} (hf : f = pre ++ x ++ post) {a b m : Bytes} (hx : x = a ++ m ++ b) {off n : Nat}
    (ho : off = pre.length + a.length) (hn : m.length = n) : slice f off n = .ok m := by
  subst hf hx
  rw [show pre ++ (a ++ m ++ b) ++ post = (pre ++ a) ++ m ++ (b ++ post) by simp]
  exact slice_append (by simp [ho]) hn

/-! ### the indexer's tables -/

def isLong (e : Entry) : Bool := e.off > 0x7fffffff

theorem offsetTable_len (es : List Entry) : ∀ k, (offsetTable es k).length = 4 * es.length := by
  induction es with
  | nil => intro k; rfl
  | cons e es ih =>
    intro k
    rw [offsetTable]
    split <;> rw [List.length_append, ih, be32_length, List.length_cons] <;> omega

theorem offsetTable_split (es : List Entry) : ∀ k i (hi : i < es.length),
    ∃ a b, offsetTable es k = a ++ be32 (UInt32.ofNat (if isLong es[i] then 2 ^ 31 + (k + ((es.take i).filter isLong).length) else es[i].off)) ++ b ∧ a.length = 4 * i := by
  induction es with
  | nil => intro k i hi; simp at hi
  | cons e es ih =>
    intro k i hi
    rw [offsetTable]
    cases i with
    | zero =>
      by_cases h : e.off > 0x7fffffff
      · rw [if_pos h]
        refine ⟨[], offsetTable es (k + 1), ?_, rfl⟩
        simp [isLong, h]
      · rw [if_neg h]
        refine ⟨[], offsetTable es k, ?_, rfl⟩
        simp [isLong, h]
    | succ i =>
      by_cases h : e.off > 0x7fffffff
      · rw [if_pos h]
        obtain ⟨a, b, hab, ha⟩ := ih (k + 1) i (by simpa using hi)
        refine ⟨be32 (UInt32.ofNat (2 ^ 31 + k)) ++ a, b, ?_, by rw [List.length_append, ha, be32_length]; omega⟩
        rw [hab, List.take_succ_cons, List.filter_cons_of_pos (by simp [isLong, h])]
        simp only [List.getElem_cons_succ, List.length_cons, List.append_assoc]
        rw [show k + 1 + ((es.take i).filter isLong).length = k + (((es.take i).filter isLong).length + 1) by omega]
      · rw [if_neg h]
        obtain ⟨a, b, hab, ha⟩ := ih k i (by simpa using hi)
        refine ⟨be32 (UInt32.ofNat e.off) ++ a, b, ?_, by rw [List.length_append, ha, be32_length]; omega⟩
        rw [hab, List.take_succ_cons, List.filter_cons_of_neg (by simp [isLong, h])]
        simp only [List.getElem_cons_succ, List.append_assoc]

theorem longTable_eq (es : List Entry) : longTable es = (es.filter isLong).flatMap fun e => be32 (UInt32.ofNat (e.off / 2 ^ 32)) ++ be32 (UInt32.ofNat (e.off % 2 ^ 32)) := rfl

theorem filter_getElem (es : List Entry) : ∀ i (hi : i < es.length), isLong es[i] = true →
    ∃ h : ((es.take i).filter isLong).length < (es.filter isLong).length, (es.filter isLong)[((es.take i).filter isLong).length] = es[i] := by
  intro i hi hl
  have h : es.filter isLong = (es.take i).filter isLong ++ es[i] :: (es.drop (i + 1)).filter isLong := by
    conv => lhs; rw [← List.take_append_drop i es, List.drop_eq_getElem_cons hi]
    rw [List.filter_append, List.filter_cons_of_pos hl]
  have hlt : ((es.take i).filter isLong).length < (es.filter isLong).length := by rw [h]; simp
  refine ⟨hlt, ?_⟩
  simp only [h]
  simp

theorem longTable_split (es : List Entry) (i : Nat) (hi : i < es.length) (hl : isLong es[i] = true) :
    ∃ a b, longTable es = a ++ (be32 (UInt32.ofNat (es[i].off / 2 ^ 32)) ++ be32 (UInt32.ofNat (es[i].off % 2 ^ 32))) ++ b ∧
      a.length = ((es.take i).filter isLong).length * 8 := by
  obtain ⟨h, he⟩ := filter_getElem es i hi hl
  obtain ⟨a, b, hab, ha⟩ := flatMap_split (g := fun e : Entry => be32 (UInt32.ofNat (e.off / 2 ^ 32)) ++ be32 (UInt32.ofNat (e.off % 2 ^ 32))) (w := 8)
    (xs := es.filter isLong) (fun x _ => rfl) h
  rw [he] at hab
  exact ⟨a, b, by rw [longTable_eq, hab], ha⟩

theorem longTable_len (es : List Entry) : (longTable es).length = (es.filter isLong).length * 8 := by
  rw [longTable_eq]
  exact flatMap_len fun x _ => rfl

/-! ### the entries saved -/

theorem saveEntry_ok {s s' : Indexer} {e : Entry} (h : saveEntry s e = .ok s') :
    s'.objects = s.objects ++ [e] ∧ (∀ x ∈ s.objects, x.id ≠ e.id) ∧
      ∀ i < 256, s'.fanout i = s.fanout i + if (e.id.headD 0).toNat ≤ i then 1 else 0 := by
  unfold saveEntry at h
  by_cases hany : s.objects.any (fun x => x.id = e.id) = true
  · rw [if_pos hany] at h; cases h
  rw [if_neg hany] at h
  cases he : e.id with
  | nil => rw [he] at h; cases h
  | cons b0 rest =>
    rw [he] at h
    have := Res.ok.inj h
    subst this
    refine ⟨rfl, fun x hx hh => hany (List.any_eq_true.mpr ⟨x, hx, by simpa [he] using hh⟩), fun i hi => ?_⟩
    dsimp only
    rw [List.headD_cons]
    by_cases hb : b0.toNat ≤ i
    · rw [if_pos ⟨hb, hi⟩, if_pos hb]
    · rw [if_neg (fun h => hb h.1), if_neg hb]; rfl

theorem saveAll_ok {es : List Entry} : ∀ {s s' : Indexer}, saveAll es s = .ok s' → (s.objects.map (·.id)).Nodup →
    s'.objects = s.objects ++ es ∧ (s'.objects.map (·.id)).Nodup ∧
      ∀ i < 256, s'.fanout i = s.fanout i + (es.filter fun e => (e.id.headD 0).toNat ≤ i).length := by
  induction es with
  | nil =>
    intro s s' h hn
    have := Res.ok.inj h
    subst this
    exact ⟨by simp, hn, by simp⟩
  | cons e es ih =>
    intro s s' h hn
    rw [saveAll] at h
    obtain ⟨s1, h1, h2⟩ := bind_ok_inv h
    obtain ⟨g1, g2, g3⟩ := saveEntry_ok h1
    have hn1 : (s1.objects.map (·.id)).Nodup := by
      rw [g1, List.map_append, List.nodup_append]
      refine ⟨hn, by simp, fun a ha b hb => ?_⟩
      simp only [List.map_cons, List.map_nil, List.mem_singleton] at hb
      subst hb
      obtain ⟨x, hx, rfl⟩ := List.mem_map.mp ha
      exact g2 x hx
    obtain ⟨k1, k2, k3⟩ := ih h2 hn1
    refine ⟨by rw [k1, g1]; simp, k2, fun i hi => ?_⟩
    rw [k3 i hi, g3 i hi]
    by_cases hb : (e.id.headD 0).toNat ≤ i
    · rw [if_pos hb, List.filter_cons_of_pos (by simpa using hb), List.length_cons]; omega
    · rw [if_neg hb, List.filter_cons_of_neg (by simpa using hb)]; omega

/-! ### the file -/

/-- the written file and its parts -/
structure Parts (osz : Nat) (fanout : Nat → Nat) (es : List Entry) (f : Bytes) : Prop where
  ids : ∀ e ∈ es, e.id.length = osz
  len : f.length = 1032 + es.length * (osz + 8) + (es.filter isLong).length * 8 + osz * 2
  sig : rd32 f 0 = .ok 0xff744f63
  version : rd32 f 4 = .ok 2
  fan : ∀ i < 256, rd32 f (8 + 4 * i) = .ok (UInt32.ofNat (fanout i))
  id : ∀ i (h : i < es.length), slice f (1032 + i * osz) osz = .ok es[i].id
  off : ∀ i (h : i < es.length), rd32 f (1032 + es.length * (osz + 4) + 4 * i) =
    .ok (UInt32.ofNat (if isLong es[i] then 2 ^ 31 + ((es.take i).filter isLong).length else es[i].off))
  long : ∀ i (h : i < es.length), isLong es[i] = true →
    rd32 f (1032 + es.length * (osz + 8) + ((es.take i).filter isLong).length * 8) = .ok (UInt32.ofNat (es[i].off / 2 ^ 32)) ∧
    rd32 f (1032 + es.length * (osz + 8) + ((es.take i).filter isLong).length * 8 + 4) = .ok (UInt32.ofNat (es[i].off % 2 ^ 32))

theorem write_parts {osz : Nat} (fanout : Nat → Nat) {es : List Entry} {trailer : Bytes} {sum : Bytes → Bytes} (hid : ∀ e ∈ es, e.id.length = osz)
    (ht : trailer.length = osz) (hsum : ∀ b, (sum b).length = osz) : Parts osz fanout es (writeIdx fanout es trailer sum) := by
  unfold writeIdx
  dsimp only
  generalize hS : sum _ = S
  have hSl : S.length = osz := by rw [← hS]; exact hsum _
  have hF : ((List.range 256).flatMap fun i => be32 (UInt32.ofNat (fanout i))).length = 1024 := by
    rw [flatMap_len (w := 4) fun _ _ => rfl]; simp
  have hI : (es.flatMap (·.id)).length = es.length * osz := flatMap_len hid
  have hC : (es.flatMap fun e => be32 e.crc).length = es.length * 4 := flatMap_len fun _ _ => rfl
  have hO := offsetTable_len es 0
  have hL := longTable_len es
  have m4 : es.length * (osz + 4) = es.length * osz + es.length * 4 := Nat.mul_add _ _ _
  have m8 : es.length * (osz + 8) = es.length * osz + es.length * 8 := Nat.mul_add _ _ _
  have h2 : (be32 0xff744f63 ++ be32 2).length = 8 := rfl
  refine ⟨hid, ?_, ?_, ?_, fun i hi => ?_, fun i hi => ?_, fun i hi => ?_, fun i hi hl => ?_⟩
  · simp only [List.length_append, hF, hI, hC, hO, hL, ht, hSl, be32_length]
    omega
  · exact rd32_mid (pre := []) (x := be32 0xff744f63) (a := []) (b := []) (by simp only [List.append_assoc, List.nil_append]; rfl) rfl rfl
  · exact rd32_mid (pre := be32 0xff744f63) (x := be32 2) (a := []) (b := []) (by simp only [List.append_assoc]; rfl) rfl rfl
  · obtain ⟨a, b, hab, ha⟩ := flatMap_split (g := fun i => be32 (UInt32.ofNat (fanout i))) (w := 4) (xs := List.range 256) (fun _ _ => rfl) (i := i) (by simpa using hi)
    rw [List.getElem_range] at hab
    refine rd32_mid (pre := be32 0xff744f63 ++ be32 2) (by simp only [List.append_assoc]; rfl) hab ?_
    rw [h2, ha]; omega
  · obtain ⟨a, b, hab, ha⟩ := flatMap_split (g := fun e : Entry => e.id) hid hi
    refine slice_mid (pre := be32 0xff744f63 ++ be32 2 ++ (List.range 256).flatMap fun i => be32 (UInt32.ofNat (fanout i)))
      (by simp only [List.append_assoc]; rfl) hab ?_ (hid _ (List.getElem_mem hi))
    rw [List.length_append, h2, hF, ha]
  · obtain ⟨a, b, hab, ha⟩ := offsetTable_split es 0 i hi
    rw [Nat.zero_add] at hab
    refine rd32_mid (pre := be32 0xff744f63 ++ be32 2 ++ ((List.range 256).flatMap fun i => be32 (UInt32.ofNat (fanout i))) ++ es.flatMap (·.id) ++
      es.flatMap fun e => be32 e.crc) (by simp only [List.append_assoc]; rfl) hab ?_
    rw [List.length_append, List.length_append, List.length_append, h2, hF, hI, hC, ha]
    omega
  · obtain ⟨a, b, hab, ha⟩ := longTable_split es i hi hl
    constructor
    · refine rd32_mid (pre := be32 0xff744f63 ++ be32 2 ++ ((List.range 256).flatMap fun i => be32 (UInt32.ofNat (fanout i))) ++ es.flatMap (·.id) ++
        (es.flatMap fun e => be32 e.crc) ++ offsetTable es 0) (x := longTable es) (a := a) (b := be32 (UInt32.ofNat (es[i].off % 2 ^ 32)) ++ b)
        (by simp only [List.append_assoc]; rfl) (by rw [hab]; simp only [List.append_assoc]) ?_
      simp only [List.length_append, be32_length, hF, hI, hC, hO, ha]
      omega
    · refine rd32_mid (pre := be32 0xff744f63 ++ be32 2 ++ ((List.range 256).flatMap fun i => be32 (UInt32.ofNat (fanout i))) ++ es.flatMap (·.id) ++
        (es.flatMap fun e => be32 e.crc) ++ offsetTable es 0) (x := longTable es) (a := a ++ be32 (UInt32.ofNat (es[i].off / 2 ^ 32))) (b := b)
        (by simp only [List.append_assoc]; rfl) (by rw [hab]; simp only [List.append_assoc]) ?_
      simp only [List.length_append, be32_length, hF, hI, hC, hO, ha]
      omega

end Verif.PackIdx
