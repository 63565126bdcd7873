import Verif.Odb.Spec2
import Verif.Odb.Lemmas3
/-! # The directory of loose objects does what it should -/
namespace Verif.Odb
open Spec
open PackIdx.Spec (SamePrefix Padded)
open Oid.Spec (hex nibbles digit)

variable {osz : Nat} {b : LooseB}

theorem fmt_hex {id : Bytes} (h : id.length = osz) : Oid.fmt osz id = .ok (hex id) := by subst h; exact Oid.C02_fmt id

theorem hex_inj {a b : Bytes} (hl : a.length = b.length) (h : hex a = hex b) : a = b := by
  refine (PackIdx.samePrefix_full (len := 2 * b.length) hl (Nat.le_refl _)).mp ?_
  unfold SamePrefix
  rw [h]

theorem find?_congr' {α : Type} {p q : α → Bool} : ∀ {l : List α}, (∀ x ∈ l, p x = q x) → l.find? p = l.find? q
  | [], _ => rfl
  | a :: l, h => by
    rw [List.find?_cons, List.find?_cons, h a (by simp), find?_congr' fun x hx => h x (by simp [hx])]

theorem split_iff {d n h : Bytes} (hd : d.length = 2) (hh : 2 ≤ h.length) : (d = h.take 2 ∧ n = h.drop 2) ↔ d ++ n = h := by
  constructor
  · rintro ⟨rfl, rfl⟩; exact List.take_append_drop 2 h
  · rintro rfl; simp [← hd]

theorem locate_eq (G : LooseGood osz b) (h1 : 1 ≤ osz) {id : Bytes} (hi : id.length = osz) : locate b id = b.files.find? fun f => f.dir ++ f.name = hex id := by
  unfold locate
  rw [G.size, fmt_hex hi]
  refine find?_congr' fun f hf => ?_
  have := split_iff (n := f.name) (h := hex id) (G.files f hf).1 (by rw [PackIdx.hex_length]; omega)
  simp [this]

theorem once_unique : ∀ {l : List LFile}, (l.Pairwise fun f g => ¬ (f.dir = g.dir ∧ f.name = g.name)) → ∀ {f g : LFile}, f ∈ l → g ∈ l → f.dir = g.dir → f.name = g.name → f = g
  | [], _, f, g, hf, _, _, _ => by cases hf
  | a :: l, h, f, g, hf, hg, hd, hn => by
    rw [List.pairwise_cons] at h
    rcases List.mem_cons.mp hf with rfl | hf <;> rcases List.mem_cons.mp hg with rfl | hg
    · rfl
    · exact (h.1 g hg ⟨hd, hn⟩).elim
    · rename_i hf'
      exact (h.1 f (by first | exact hf | exact hf') ⟨hd.symm, hn.symm⟩).elim
    · exact once_unique h.2 hf hg hd hn

theorem holds_file (G : LooseGood osz b) (h1 : 1 ≤ osz) {f : LFile} (hf : f ∈ b.files) {id : Bytes} (hi : id.length = osz) (he : f.dir ++ f.name = hex id) :
    f.isDir = false ∧ ∃ o, Holds f id o := by
  obtain ⟨hd, hh⟩ := G.files f hf
  have hl : f.dir.length + f.name.length = 2 * osz := by rw [← List.length_append, he, PackIdx.hex_length, hi]
  obtain ⟨h2, id', o, hi', ho⟩ := hh (by omega)
  have : id' = id := hex_inj (by rw [hi', hi]) (by rw [← ho.1, he])
  subst this
  exact ⟨h2, o, ho⟩

theorem looseObjs_len (G : LooseGood osz b) {id : Bytes} {o : Obj} (h : looseObjs b id = some o) : id.length = osz := by
  unfold looseObjs at h
  split at h
  · rename_i h2; rw [h2, G.size]
  · cases h

theorem looseObjs_iff (G : LooseGood osz b) {id : Bytes} (hi : id.length = osz) {o : Obj} : looseObjs b id = some o ↔ ∃ f ∈ b.files, Holds f id o := by
  unfold looseObjs
  rw [if_pos (by rw [hi, G.size])]
  constructor
  · intro h
    split at h
    · rename_i f hf
      have hm := List.mem_of_find?_eq_some hf
      have he := List.find?_some hf
      simp only [decide_eq_true_eq] at he
      split at h
      · rename_i x hx
        injection h with h
        subst h
        exact ⟨f, hm, he, (G.files f hm).1, hx⟩
      · cases h
    · cases h
  · rintro ⟨f, hf, h2, h3, h4⟩
    split
    · rename_i g hg
      have hm := List.mem_of_find?_eq_some hg
      have he := List.find?_some hg
      simp only [decide_eq_true_eq] at he
      have hp : g.dir = f.dir ∧ g.name = f.name := List.append_inj (by rw [he, h2]) (by rw [(G.files g hm).1, h3])
      have := once_unique G.once hm hf hp.1 hp.2
      subst this
      rw [h4]
    · rename_i hn
      rw [List.find?_eq_none] at hn
      exact (hn f hf (by simpa using h2)).elim

theorem looseRead_spec (G : LooseGood osz b) (h1 : 1 ≤ osz) {id : Bytes} (hi : id.length = osz) :
    (∀ o, looseObjs b id = some o → looseRead b id = .ok o ∧ (locate b id).isSome = true) ∧
    (looseObjs b id = none → looseRead b id = .err (-3) ∧ (locate b id).isSome = false) := by
  unfold looseRead
  rw [locate_eq G h1 hi]
  cases hf : b.files.find? fun f => f.dir ++ f.name = hex id with
  | none =>
    have : looseObjs b id = none := by unfold looseObjs; rw [hf]; simp
    rw [this]
    exact ⟨fun o h => (by cases h), fun _ => ⟨rfl, rfl⟩⟩
  | some f =>
    have hm := List.mem_of_find?_eq_some hf
    have he := List.find?_some hf
    simp only [decide_eq_true_eq] at he
    obtain ⟨_, o, ho⟩ := holds_file G h1 hm hi he
    have : looseObjs b id = some o := (looseObjs_iff G hi).mpr ⟨f, hm, ho⟩
    rw [this]
    refine ⟨fun o' h => ?_, fun h => (by cases h)⟩
    injection h with h
    subst h
    exact ⟨ho.2.2, rfl⟩

/-! ## abbreviations -/

/-- the condition in the scan -/
def scanHit (osz : Nat) (s : Bytes) (len : Nat) (f : LFile) : Bool :=
  decide (f.dir = s.take 2 ∧ f.name.length = 2 * osz - 2 ∧ f.isDir = false ∧ f.name.take (len - 2) = (s.drop 2).take (len - 2))

theorem scanShort_one (s : Bytes) (len : Nat) (res : Bytes) : ∀ fs : List LFile, scanShort osz s len fs 1 res = match fs.filter (scanHit osz s len) with
    | [] => (1, res)
    | _ :: _ => (2, res)
  | [] => rfl
  | f :: fs => by
    unfold scanShort
    by_cases h : scanHit osz s len f = true
    · rw [List.filter_cons_of_pos h]
      unfold scanHit at h
      rw [decide_eq_true_eq] at h
      rw [if_pos h]
      rfl
    · rw [List.filter_cons_of_neg (by simpa using h)]
      unfold scanHit at h
      rw [decide_eq_true_eq] at h
      rw [if_neg h]
      exact scanShort_one s len res fs

theorem scanShort_zero (s : Bytes) (len : Nat) : ∀ fs : List LFile, scanShort osz s len fs 0 [] = match fs.filter (scanHit osz s len) with
    | [] => (0, [])
    | [f] => (1, f.name)
    | f :: _ :: _ => (2, f.name)
  | [] => rfl
  | f :: fs => by
    unfold scanShort
    by_cases h : scanHit osz s len f = true
    · rw [List.filter_cons_of_pos h]
      unfold scanHit at h
      rw [decide_eq_true_eq] at h
      rw [if_pos h, if_neg (by omega)]
      simp only [if_true, Nat.zero_add]
      rw [scanShort_one]
      cases fs.filter (scanHit osz s len) <;> rfl
    · rw [List.filter_cons_of_neg (by simpa using h)]
      unfold scanHit at h
      rw [decide_eq_true_eq] at h
      rw [if_neg h]
      exact scanShort_zero s len fs

theorem hit_iff (G : LooseGood osz b) (h1 : 1 ≤ osz) {key : Bytes} {len : Nat} (hk : key.length = osz) (h4 : 4 ≤ len) {f : LFile} (hf : f ∈ b.files) :
    scanHit osz (hex key) len f = true ↔ ∃ id o, id.length = osz ∧ Holds f id o ∧ SamePrefix len key id := by
  obtain ⟨hd, hh⟩ := G.files f hf
  have hkl := PackIdx.hex_length key
  have conv : ∀ id : Bytes, f.dir ++ f.name = hex id → ((f.dir = (hex key).take 2 ∧ f.name.take (len - 2) = ((hex key).drop 2).take (len - 2)) ↔ SamePrefix len key id) := by
    intro id he
    unfold SamePrefix
    have e1 : (hex id).take len = f.dir ++ f.name.take (len - 2) := by
      rw [← he, List.take_append, hd, List.take_of_length_le (by omega)]
    have e2 : (hex key).take len = (hex key).take 2 ++ ((hex key).drop 2).take (len - 2) := by
      conv => lhs; rw [← List.take_append_drop 2 (hex key)]
      rw [List.take_append, List.take_take, List.length_take]
      have e3 : min 2 (hex key).length = 2 := by omega
      have e4 : min len 2 = 2 := by omega
      rw [e3, e4]
    rw [e1, e2]
    constructor
    · rintro ⟨a, c⟩; rw [← a, ← c]
    · intro h
      have := List.append_inj h (by rw [List.length_take]; omega)
      exact ⟨this.1.symm, this.2.symm⟩
  unfold scanHit
  rw [decide_eq_true_eq]
  constructor
  · rintro ⟨a, c, d, e⟩
    obtain ⟨_, id, o, hi, ho⟩ := hh c
    exact ⟨id, o, hi, ho, (conv id ho.1).mp ⟨a, e⟩⟩
  · rintro ⟨id, o, hi, ho, hp⟩
    obtain ⟨a, e⟩ := (conv id ho.1).mpr hp
    refine ⟨a, ?_, (holds_file G h1 hf hi ho.1).1, e⟩
    have hl : f.dir.length + f.name.length = 2 * osz := by rw [← List.length_append, ho.1, PackIdx.hex_length, hi]
    omega

theorem fromPrefix_hex (h1 : 1 ≤ osz) {id : Bytes} (hi : id.length = osz) : Oid.fromPrefix osz (hex id) (2 * osz) = .ok id := by
  subst hi
  obtain ⟨t, h2, h3, _⟩ := Oid.C02_roundtrip id (by intro h; subst h; simp at h1) []
  rw [Oid.C02_fmt] at h2
  injection h2 with h2
  subst h2
  simpa using h3

theorem locateShort_spec (G : LooseGood osz b) (h1 : 1 ≤ osz) {key : Bytes} {len : Nat} (hk : key.length = osz) (h4 : 4 ≤ len) :
    Looked (Has (looseObjs b)) key len (locateShort b key len) := by
  have hit : ∀ f, f ∈ b.files.filter (scanHit osz (hex key) len) → ∃ id o, id.length = osz ∧ Holds f id o ∧ SamePrefix len key id ∧ Has (looseObjs b) id := by
    intro f hf
    obtain ⟨hf, hh⟩ := List.mem_filter.mp hf
    obtain ⟨id, o, hi, ho, hp⟩ := (hit_iff G h1 hk h4 hf).mp hh
    refine ⟨id, o, hi, ho, hp, ?_⟩
    unfold Has
    rw [(looseObjs_iff G hi).mpr ⟨f, hf, ho⟩]
    rfl
  have back : ∀ id, Has (looseObjs b) id → SamePrefix len key id → ∃ f ∈ b.files.filter (scanHit osz (hex key) len), ∃ o, Holds f id o := by
    intro id h hp
    obtain ⟨o, ho⟩ := Option.isSome_iff_exists.mp h
    have hi := looseObjs_len G ho
    obtain ⟨f, hf, hh⟩ := (looseObjs_iff G hi).mp ho
    exact ⟨f, List.mem_filter.mpr ⟨hf, (hit_iff G h1 hk h4 hf).mpr ⟨id, o, hi, hh, hp⟩⟩, o, hh⟩
  unfold locateShort
  rw [G.size, fmt_hex hk]
  change Looked _ _ _ (if (scanShort osz (hex key) len b.files 0 []).1 = 0 then _ else _)
  rw [scanShort_zero]
  have hpw : (b.files.filter (scanHit osz (hex key) len)).Pairwise fun f g => ¬ (f.dir = g.dir ∧ f.name = g.name) := G.once.sublist List.filter_sublist
  generalize hl : b.files.filter (scanHit osz (hex key) len) = l at hit back hpw
  match l, hit, back, hpw with
  | [], hit, back, _ =>
    refine .none fun j hj hs => ?_
    obtain ⟨f, hf, _⟩ := back j hj hs
    cases hf
  | [f], hit, back, _ =>
    obtain ⟨id, o, hi, ho, hp, hh⟩ := hit f (by simp)
    have hm : f ∈ b.files := by have : f ∈ b.files.filter (scanHit osz (hex key) len) := by rw [hl]; simp
                                exact (List.mem_filter.mp this).1
    have hsc : scanHit osz (hex key) len f = true := by
      have : f ∈ b.files.filter (scanHit osz (hex key) len) := by rw [hl]; simp
      exact (List.mem_filter.mp this).2
    unfold scanHit at hsc
    rw [decide_eq_true_eq] at hsc
    change Looked _ _ _ (Oid.fromPrefix osz ((hex key).take 2 ++ f.name) (2 * osz))
    rw [← hsc.1, ho.1, fromPrefix_hex h1 hi]
    refine .one hh hp fun j hj hs => ?_
    obtain ⟨g, hg, o', ho'⟩ := back j hj hs
    have hg : g = f := by simpa using hg
    subst hg
    obtain ⟨x, hx⟩ := Option.isSome_iff_exists.mp hj
    exact hex_inj (by rw [hi, looseObjs_len G hx]) (by rw [← ho.1, ← ho'.1])
  | f :: g :: r, hit, back, hpw =>
    obtain ⟨i, o, hi, ho, hp, hh⟩ := hit f (by simp)
    obtain ⟨j, o', hj, ho', hp', hh'⟩ := hit g (by simp)
    refine .more hh hh' (fun e => ?_) hp hp'
    subst e
    have hp : f.dir = g.dir ∧ f.name = g.name := List.append_inj (by rw [ho.1, ho'.1]) (by rw [ho.2.1, ho'.2.1])
    rw [List.pairwise_cons] at hpw
    exact hpw.1 g (by simp) hp

theorem looseReadPrefix_spec (G : LooseGood osz b) (h1 : 1 ≤ osz) {key : Bytes} {len : Nat} (hk : key.length = osz) (h4 : 4 ≤ len) :
    Looked (Has (looseObjs b)) key len (idOnly (looseReadPrefix b key len)) ∧ ∀ i o, looseReadPrefix b key len = .ok (i, o) → looseObjs b i = some o := by
  unfold looseReadPrefix
  rw [G.size]
  by_cases hn : len = 2 * osz
  · rw [if_pos hn]
    obtain ⟨r1, r2⟩ := looseRead_spec G h1 hk
    cases ho : looseObjs b key with
    | some o =>
      rw [(r1 o ho).1]
      refine ⟨.one (by unfold Has; rw [ho]; rfl) rfl fun j hj hs => ?_, fun i x h => ?_⟩
      · obtain ⟨x, hx⟩ := Option.isSome_iff_exists.mp hj
        exact ((PackIdx.samePrefix_full (by rw [hk, looseObjs_len G hx]) (by rw [looseObjs_len G hx]; omega)).mp hs).symm
      · injection h with h
        injection h with h2 h3
        rw [← h2, ← h3, ho]
    | none =>
      rw [(r2 ho).1]
      refine ⟨.none fun j hj hs => ?_, fun i x h => (by cases h)⟩
      obtain ⟨x, hx⟩ := Option.isSome_iff_exists.mp hj
      have := (PackIdx.samePrefix_full (by rw [hk, looseObjs_len G hx]) (by rw [looseObjs_len G hx]; omega)).mp hs
      rw [← this, ho] at hx
      cases hx
  · rw [if_neg hn]
    have hL := locateShort_spec G h1 hk h4
    generalize locateShort b key len = r at hL ⊢
    cases hL with
    | one h2 h3 h5 =>
      rename_i i
      obtain ⟨o, ho⟩ := Option.isSome_iff_exists.mp h2
      have hr := ((looseRead_spec G h1 (looseObjs_len G ho)).1 o ho).1
      change Looked _ _ _ (idOnly ((looseRead b i) >>= fun o => .ok (i, o))) ∧ ∀ i' o, ((looseRead b i) >>= fun o => .ok (i, o)) = .ok (i', o) → _
      rw [hr]
      refine ⟨.one h2 h3 h5, fun i' x h => ?_⟩
      injection h with h
      injection h with h2 h3
      rw [← h2, ← h3, ho]
    | none h2 => exact ⟨.none h2, fun i x h => (by cases h)⟩
    | more a c d e f => exact ⟨.more a c d e f, fun i x h => (by cases h)⟩

/-! ## writing -/

theorem looseWrite_spec (G : LooseGood osz b) (h1 : 1 ≤ osz) {id : Bytes} (hi : id.length = osz) (o : Obj) :
    LooseGood osz (looseWrite b id o).1 ∧
    ((b.ro = false ∧ (looseWrite b id o).2 = .ok () ∧ looseObjs (looseWrite b id o).1 = With (looseObjs b) id o) ∨
      (b.ro = true ∧ (looseWrite b id o).2 = .err (-1) ∧ (looseWrite b id o).1 = b)) := by
  unfold looseWrite
  cases hr : b.ro with
  | true => exact ⟨G, .inr ⟨rfl, rfl, rfl⟩⟩
  | false =>
    have hsz := G.size
    subst hsz
    rw [if_neg (by simp), fmt_hex hi]
    dsimp only
    have hhl : (hex id).length = 2 * b.osz := by rw [PackIdx.hex_length, hi]
    have hnew : Holds ⟨(hex id).take 2, (hex id).drop 2, false, .ok o⟩ id o := ⟨List.take_append_drop 2 _, by rw [List.length_take]; omega, rfl⟩
    have G' : LooseGood b.osz { b with files := ⟨(hex id).take 2, (hex id).drop 2, false, .ok o⟩ :: b.files.filter fun f => ¬ (f.dir = (hex id).take 2 ∧ f.name = (hex id).drop 2) } := by
      refine ⟨G.size, fun f hf => ?_, ?_⟩
      · rcases List.mem_cons.mp hf with rfl | hf
        · exact ⟨hnew.2.1, fun _ => ⟨rfl, id, o, hi, hnew⟩⟩
        · exact G.files f (List.mem_filter.mp hf).1
      · refine List.pairwise_cons.mpr ⟨fun g hg => ?_, G.once.sublist List.filter_sublist⟩
        have := (List.mem_filter.mp hg).2
        simp only [decide_eq_true_eq] at this
        exact fun ⟨a, c⟩ => this ⟨a.symm, c.symm⟩
    refine ⟨by rw [hr] at G'; exact G', .inl ⟨rfl, rfl, ?_⟩⟩
    rw [hr] at G'
    funext i
    unfold With
    by_cases hii : i = id
    · subst hii
      rw [if_pos rfl]
      exact (looseObjs_iff G' hi).mpr ⟨_, by simp, hnew⟩
    · rw [if_neg hii]
      by_cases hl : i.length = b.osz
      · refine Option.ext fun x => ?_
        rw [looseObjs_iff G' hl, looseObjs_iff G hl]
        constructor
        · rintro ⟨f, hf, hh⟩
          rcases List.mem_cons.mp hf with rfl | hf
          · exact (hii (hex_inj (by rw [hl, hi]) (hh.1.symm.trans hnew.1))).elim
          · exact ⟨f, (List.mem_filter.mp hf).1, hh⟩
        · rintro ⟨f, hf, hh⟩
          refine ⟨f, by
            refine List.mem_cons_of_mem _ (List.mem_filter.mpr ⟨hf, ?_⟩)
            simp only [decide_eq_true_eq]
            rintro ⟨a, c⟩
            exact hii (hex_inj (by rw [hl, hi]) (by rw [← hh.1, a, c, List.take_append_drop])), hh⟩
      · have e1 : looseObjs b i = none := by
          cases h : looseObjs b i with
          | none => rfl
          | some x => exact (hl (looseObjs_len G h)).elim
        rw [e1]
        cases h : looseObjs _ i with
        | none => rfl
        | some x => exact (hl (looseObjs_len G' h)).elim

end Verif.Odb
