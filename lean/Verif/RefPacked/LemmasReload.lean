import Verif.RefPacked.LemmasSearch
namespace Verif.RefPacked
open Verif.RefPacked.Spec Verif.Oid.Spec Verif.Oid

/-! ## Parsing the whole file -/

theorem strchrNl_found (b : Bytes) (pos : Nat) (U R : Bytes) (hb : b.drop pos = U ++ c!"\n" :: R) (hU : (10 : UInt8) ∉ U) (h0 : (0 : UInt8) ∉ U) :
    strchrNl b pos = some (pos + U.length) := by
  unfold strchrNl
  have ht : (b.drop pos).takeWhile (fun x => x != c!"\n" && x != 0) = U := by
    rw [hb]
    refine takeWhile_append_stop _ _ _ ?_ (by simp)
    intro x hx
    have h1 : x ≠ 10 := fun e => hU (e ▸ hx)
    have h2 : x ≠ 0 := fun e => h0 (e ▸ hx)
    simp [h1, h2]
  have hx : b[pos + U.length]? = some c!"\n" := by
    have : (b.drop pos)[U.length]? = some c!"\n" := by rw [hb]; simp
    simpa using this
  simp only [ht, hx, if_true]

/-- what the parser of the whole file needs in addition: no NUL in the name and no CR at its end -/
def TextName (n : Bytes) : Prop := (0 : UInt8) ∉ n ∧ n.getLast? ≠ some c!"\r"

theorem reloadPeel_ok {size : Nat} (hs : 0 < size) (b : Bytes) (base : Nat) (r : Rec) (hr : r.Valid size) (r2 : List Rec)
    (h2 : ∀ r ∈ r2, r.Valid size) (hb : b.drop base = line2 r ++ flat r2) :
    reloadPeel size b base = .ok (r.peel, base + (line2 r).length) := by
  have hhead : b[base]? = (line2 r ++ flat r2).head? := by
    rw [← hb, List.head?_eq_getElem?]; simp
  unfold reloadPeel
  cases hp : r.peel with
  | none =>
    have hl2 : line2 r = [] := by unfold line2; rw [hp]
    rw [hl2] at hhead ⊢
    have : b[base]? ≠ some c!"^" := by
      rw [hhead]
      cases r2 with
      | nil => simp [flat]
      | cons a r2 =>
        obtain ⟨y, hy, hy'⟩ := head_after hs (a :: r2) h2 [] (by have := text_pos a; simp only [flat, List.flatMap_cons, List.length_append]; omega)
        simp only [List.append_nil] at hy
        simp only [List.nil_append, hy]
        simpa using hy'
    rw [if_neg this]; rfl
  | some p =>
    have hl2 : line2 r = c!"^" :: (hex p ++ [c!"\n"]) := by unfold line2; rw [hp]; rfl
    have hpl := hr.peel_len p hp
    rw [hl2] at hhead hb
    rw [if_pos (by rw [hhead]; rfl)]
    have hd1 : b.drop (base + 1) = hex p ++ (c!"\n" :: flat r2) := by
      rw [← List.drop_drop, hb]; simp
    unfold oidAt
    rw [hd1, List.append_assoc, fromPrefix_hex hs p hpl]
    simp only [Res.bind_ok]
    have hlen : b.length - base = 1 + 2 * size + 1 + (flat r2).length := by
      have := congrArg List.length hb
      simp [hpl] at this; omega
    rw [if_pos (by omega)]
    have hd2 : b.drop (base + 2 * size + 1) = [] ++ c!"\n" :: flat r2 := by
      rw [show base + 2 * size + 1 = base + 1 + 2 * size by omega, ← List.drop_drop, hd1, List.drop_append,
        List.drop_of_length_le (by simp [hpl])]
      simp [hpl]
    rw [strchrNl_found b _ [] _ hd2 (by simp) (by simp), hl2]
    simp [hpl]; omega

theorem reloadLoop_ok {size : Nat} (hs : 0 < size) (b : Bytes) (fuel : Nat) :
    ∀ (recs : List Rec) (pre : Bytes) (cache : List PackRef), b = pre ++ flat recs → (∀ r ∈ recs, r.Valid size) →
    (∀ r ∈ recs, TextName r.name) → recs.length < fuel →
    reloadLoop size b fuel pre.length cache = .ok (recs.foldl (fun c r => upsert c r.name r.oid r.peel) cache) := by
  induction fuel with
  | zero => intro recs pre cache _ _ _ h; omega
  | succ fuel ih =>
    intro recs pre cache hb hv ht hf
    unfold reloadLoop
    cases recs with
    | nil => rw [if_neg (by rw [hb]; simp [flat])]; rfl
    | cons r recs =>
      have hr := hv r (by simp)
      have hd : b.drop pre.length = hex r.oid ++ c!" " :: (r.name ++ c!"\n" :: (line2 r ++ flat recs)) := by
        rw [hb, List.drop_left]; simp [flat, text_eq, line1]
      have hlen := congrArg List.length hd
      simp [hr.oid_len] at hlen
      rw [if_pos (by omega)]
      unfold oidAt
      rw [hd, List.append_assoc, fromPrefix_hex hs _ hr.oid_len]
      simp only [Res.bind_ok]
      have hsp : b[pre.length + 2 * size]? = some c!" " := by
        have : (b.drop pre.length)[2 * size]? = some c!" " := by
          rw [hd, List.getElem?_append_right (by simp [hr.oid_len])]; simp [hr.oid_len]
        rw [List.getElem?_drop] at this; exact this
      rw [if_pos hsp]
      have hd2 : b.drop (pre.length + 2 * size + 1) = r.name ++ c!"\n" :: (line2 r ++ flat recs) := by
        rw [show pre.length + 2 * size + 1 = pre.length + (2 * size + 1) by omega, ← List.drop_drop, hd, List.drop_append,
          List.drop_of_length_le (by simp [hr.oid_len])]
        simp [hr.oid_len]
      obtain ⟨ht1, ht2⟩ := ht r (by simp)
      rw [strchrNl_found b _ r.name _ hd2 hr.name_nl ht1]
      simp only
      have hname : lineName b (pre.length + 2 * size + 1) (pre.length + 2 * size + 1 + r.name.length) = r.name := by
        unfold lineName
        rw [hd2, show pre.length + 2 * size + 1 + r.name.length - (pre.length + 2 * size + 1) = r.name.length by omega]
        simp only [List.take_left']
        rw [if_neg ht2]
      rw [hname]
      have hd3 : b.drop (pre.length + 2 * size + 1 + r.name.length + 1) = line2 r ++ flat recs := by
        rw [show pre.length + 2 * size + 1 + r.name.length + 1 = pre.length + 2 * size + 1 + (r.name.length + 1) by omega, ← List.drop_drop, hd2,
          List.drop_append, List.drop_of_length_le (by omega)]
        simp
      rw [reloadPeel_ok hs b _ r hr recs (fun x hx => hv x (by simp [hx])) hd3]
      simp only [Res.bind_ok]
      have e : pre.length + 2 * size + 1 + r.name.length + 1 + (line2 r).length = (pre ++ r.text).length := by
        rw [text_eq, line1]; simp [hr.oid_len]; omega
      rw [e]
      rw [ih recs (pre ++ r.text) _ (by rw [hb]; simp [flat]) (fun x hx => hv x (by simp [hx])) (fun x hx => ht x (by simp [hx]))
        (by simp at hf; omega)]
      rfl

theorem reloadHeader_ok {size : Nat} (hs : 0 < size) (b : Bytes) (lines : List Bytes) (hl : ∀ l ∈ lines, (10 : UInt8) ∉ l ∧ (0 : UInt8) ∉ l)
    (recs : List Rec) (hv : ∀ r ∈ recs, r.Valid size) (fuel : Nat) :
    ∀ pre : Bytes, b = pre ++ (header lines ++ flat recs) → lines.length < fuel →
    reloadHeader b fuel pre.length = .ok (pre.length + (header lines).length) := by
  induction lines generalizing fuel with
  | nil =>
    intro pre hb hf
    obtain ⟨fuel, rfl⟩ : ∃ f, fuel = f + 1 := ⟨fuel - 1, by omega⟩
    unfold reloadHeader
    rw [if_neg ?_]
    · simp [header]
    · cases recs with
      | nil => rw [hb]; simp [header, flat]
      | cons r recs =>
        obtain ⟨x, t, e, _, hx⟩ := text_head hs (hv r (by simp))
        have : b[pre.length]? = some x := by rw [hb]; simp [header, flat, e]
        rw [this]; simpa using hx
  | cons l lines ih =>
    intro pre hb hf
    obtain ⟨fuel, rfl⟩ : ∃ f, fuel = f + 1 := ⟨fuel - 1, by simp at hf; omega⟩
    have hd : b.drop pre.length = (c!"#" :: l) ++ c!"\n" :: (header lines ++ flat recs) := by
      rw [hb, List.drop_left]; simp [header]
    have hb0 : b[pre.length]? = some c!"#" := by
      have : (b.drop pre.length)[0]? = some c!"#" := by rw [hd]; rfl
      simpa using this
    unfold reloadHeader
    rw [if_pos hb0]
    rw [strchrNl_found b _ (c!"#" :: l) _ hd (by
      intro h; rcases List.mem_cons.mp h with h | h
      · cases h
      · exact (hl l (by simp)).1 h) (by
      intro h; rcases List.mem_cons.mp h with h | h
      · cases h
      · exact (hl l (by simp)).2 h)]
    simp only
    have := ih (fun x hx => hl x (by simp [hx])) fuel (pre ++ (c!"#" :: l) ++ [c!"\n"]) (by
      rw [hb]; simp [header]) (by simp at hf; omega)
    rw [show (pre ++ (c!"#" :: l) ++ [c!"\n"]).length = pre.length + (c!"#" :: l).length + 1 by simp; omega] at this
    rw [this]
    simp [header]; omega

theorem header_length (lines : List Bytes) : lines.length ≤ (header lines).length := by
  induction lines with
  | nil => simp
  | cons l ls ih =>
    simp only [header, List.flatMap_cons, List.length_append, List.length_cons] at ih ⊢; omega

theorem flat_length (recs : List Rec) : recs.length ≤ (flat recs).length := by
  induction recs with
  | nil => simp
  | cons r rs ih =>
    have := text_pos r
    simp only [flat, List.flatMap_cons, List.length_append, List.length_cons] at ih ⊢; omega

theorem traits_prefix {size : Nat} (hs : 0 < size) (recs : List Rec) (hv : ∀ r ∈ recs, r.Valid size) :
    traitsHeader.isPrefixOf (flat recs) = false := by
  cases recs with
  | nil => rfl
  | cons r recs =>
    obtain ⟨x, t, e, _, hx⟩ := text_head hs (hv r (by simp))
    have : (35 : UInt8) ≠ x := fun h => hx h.symm
    simp [traitsHeader, flat, e, List.isPrefixOf, this]

theorem isPrefixOf_iff (a b : Bytes) : a.isPrefixOf b = true ↔ ∃ t, b = a ++ t := by
  rw [List.isPrefixOf_iff_prefix]
  constructor
  · rintro ⟨t, h⟩; exact ⟨t, h.symm⟩
  · rintro ⟨t, h⟩; exact ⟨t, h.symm⟩

/-- `packed_set_peeling_mode` either leaves the scan at the start or moves it over the first comment line -/
theorem setPeelingMode_ok {size : Nat} (hs : 0 < size) (lines : List Bytes) (hl : ∀ l ∈ lines, (10 : UInt8) ∉ l) (recs : List Rec)
    (hv : ∀ r ∈ recs, r.Valid size) (w : Bool) :
    ∃ s, (setPeelingMode (file lines recs) w = .ok (s, 0)) ∨
      (∃ l ls, lines = l :: ls ∧ setPeelingMode (file lines recs) w = .ok (s, (header [l]).length)) := by
  unfold setPeelingMode
  split
  · rename_i hpre
    cases lines with
    | nil => rw [show file [] recs = flat recs by simp [file, header, flat], traits_prefix hs recs hv] at hpre; cases hpre
    | cons l ls =>
      obtain ⟨t, ht⟩ := (isPrefixOf_iff _ _).mp hpre
      have hf : file (l :: ls) recs = (c!"#" :: l) ++ c!"\n" :: (header ls ++ flat recs) := by simp [file, header, flat]
      -- the header text has no newline, so it is a prefix of the first line
      have hle : traitsHeader.length ≤ (c!"#" :: l).length := by
        rcases Nat.lt_or_ge (c!"#" :: l).length traitsHeader.length with hlt | hge
        · exfalso
          have h1 : (file (l :: ls) recs)[(c!"#" :: l).length]? = some c!"\n" := by rw [hf]; simp
          have h2 : (file (l :: ls) recs)[(c!"#" :: l).length]? = traitsHeader[(c!"#" :: l).length]? := by
            rw [ht, List.getElem?_append_left hlt]
          have h3 : (10 : UInt8) ∈ traitsHeader := List.mem_of_getElem? (h2 ▸ h1)
          exact absurd h3 (by decide)
        · exact hge
      have hdrop : (file (l :: ls) recs).drop traitsHeader.length
          = (c!"#" :: l).drop traitsHeader.length ++ c!"\n" :: (header ls ++ flat recs) := by
        rw [hf, List.drop_append_of_le_length hle]
      have hnl : (10 : UInt8) ∉ (c!"#" :: l).drop traitsHeader.length := by
        intro h
        rcases List.mem_cons.mp (List.mem_of_mem_drop h) with h | h
        · cases h
        · exact hl l (by simp) h
      have htw : ((file (l :: ls) recs).drop traitsHeader.length).takeWhile (· != c!"\n") = (c!"#" :: l).drop traitsHeader.length := by
        rw [hdrop]
        refine takeWhile_append_stop _ _ _ ?_ (by simp)
        intro x hx
        have : x ≠ 10 := fun e => hnl (e ▸ hx)
        simpa using this
      refine ⟨hasInfix (b!" sorted ") ((c!"#" :: l).drop traitsHeader.length), .inr ⟨l, ls, rfl, ?_⟩⟩
      · simp only
        rw [if_pos (by rw [hdrop]; simp), htw]
        congr 2
        simp only [List.length_drop, List.length_cons, header, List.flatMap_cons, List.flatMap_nil, List.length_append] at hle ⊢
        simp; omega
  · exact ⟨w, .inl rfl⟩

theorem packedReload_ok {size : Nat} (hs : 0 < size) (lines : List Bytes) (hl : ∀ l ∈ lines, (10 : UInt8) ∉ l ∧ (0 : UInt8) ∉ l) (recs : List Rec)
    (hv : ∀ r ∈ recs, r.Valid size) (ht : ∀ r ∈ recs, TextName r.name) :
    packedReload size (file lines recs) = .ok (recs.foldl (fun c r => upsert c r.name r.oid r.peel) []) := by
  unfold packedReload
  have hfile : (file lines recs).length = (header lines).length + (flat recs).length := by simp [file, flat]
  have hfl := flat_length recs
  have hhl := header_length lines
  obtain ⟨s, h | ⟨l, ls, rfl, h⟩⟩ := setPeelingMode_ok hs lines (fun l h => (hl l h).1) recs hv false
  · rw [h]
    simp only [Res.bind_ok]
    have h1 := reloadHeader_ok hs (file lines recs) lines hl recs hv ((file lines recs).length + 1) [] rfl (by omega)
    simp only [List.length_nil, Nat.zero_add] at h1
    rw [h1]
    simp only [Res.bind_ok]
    exact reloadLoop_ok hs _ _ recs (header lines) [] rfl hv ht (by omega)
  · rw [h]
    simp only [Res.bind_ok]
    have h1 := reloadHeader_ok hs (file (l :: ls) recs) ls (fun x hx => hl x (by simp [hx])) recs hv ((file (l :: ls) recs).length + 1) (header [l])
      (by simp [file, header, flat]) (by simp only [List.length_cons] at hhl; omega)
    rw [h1]
    simp only [Res.bind_ok]
    have e : (header [l]).length + (header ls).length = (header (l :: ls)).length := by simp [header]; omega
    rw [e]
    exact reloadLoop_ok hs _ _ recs (header (l :: ls)) [] rfl hv ht (by omega)

/-! ## The cache as a map -/

theorem upsert_find (c : List PackRef) (n o : Bytes) (p : Option Bytes) (m : Bytes) :
    (upsert c n o p).find? (fun r => r.name = m) =
      if m = n then some ⟨n, o, p.or ((c.find? (fun r => r.name = n)).bind PackRef.peel)⟩ else c.find? (fun r => r.name = m) := by
  induction c with
  | nil =>
    by_cases h : m = n
    · subst h; simp [upsert]
    · have h' : ¬ n = m := fun e => h e.symm
      simp [upsert, h, h']
  | cons r rs ih =>
    unfold upsert
    by_cases hr : r.name = n
    · subst hr
      simp only [if_true]
      by_cases h : m = r.name
      · subst h; simp
      · have h' : ¬ r.name = m := fun e => h e.symm
        simp [List.find?_cons, h, h']
    · rw [if_neg hr]
      simp only [List.find?_cons]
      by_cases h : m = n
      · subst h
        simp only [hr, decide_false, ih, if_true]
      · simp only [ih, h, if_false]

/-- the record list after loading: the last record of a name gives its id -/
theorem foldl_find (recs : List Rec) (m : Bytes) (c : List PackRef) :
    ((recs.foldl (fun c r => upsert c r.name r.oid r.peel) c).find? (fun r => r.name = m)).map PackRef.oid =
      ((recs.reverse.find? (fun r => r.name = m)).map Rec.oid).or ((c.find? (fun r => r.name = m)).map PackRef.oid) := by
  induction recs generalizing c with
  | nil => simp
  | cons r recs ih =>
    simp only [List.foldl_cons, List.reverse_cons, List.find?_append]
    rw [ih, upsert_find]
    by_cases h : m = r.name
    · subst h
      simp
    · have h' : ¬ r.name = m := fun e => h e.symm
      simp [h, h']

theorem foldl_find_distinct (recs : List Rec) (m : Bytes) (c : List PackRef) (hd : recs.Pairwise (fun a b => a.name ≠ b.name))
    (hc : ∀ r ∈ recs, ∀ p ∈ c, p.name ≠ r.name) :
    (recs.foldl (fun c r => upsert c r.name r.oid r.peel) c).find? (fun r => r.name = m) =
      ((recs.find? (fun r => r.name = m)).map (fun r => ⟨r.name, r.oid, r.peel⟩)).or (c.find? (fun r => r.name = m)) := by
  induction recs generalizing c with
  | nil => simp
  | cons r recs ih =>
    simp only [List.foldl_cons]
    obtain ⟨hd1, hd2⟩ := List.pairwise_cons.mp hd
    have hnone : c.find? (fun x => decide (x.name = r.name)) = none := by
      rw [List.find?_eq_none]; intro x hx; simpa using hc r (by simp) x hx
    have hmem : ∀ p ∈ upsert c r.name r.oid r.peel, p.name = r.name ∨ p ∈ c := by
      clear ih hc hnone
      induction c with
      | nil => intro p hp; simp [upsert] at hp; left; rw [hp]
      | cons q c ihc =>
        intro p hp
        unfold upsert at hp
        split at hp
        · rcases List.mem_cons.mp hp with h | h
          · left; rw [h]
          · right; simp [h]
        · rcases List.mem_cons.mp hp with h | h
          · right; simp [h]
          · rcases ihc p h with h | h
            · left; exact h
            · right; simp [h]
    rw [ih _ hd2 (by
      intro x hx p hp
      rcases hmem p hp with h | h
      · rw [h]; exact hd1 x hx
      · exact hc x (by simp [hx]) p h)]
    rw [upsert_find, hnone]
    by_cases h : m = r.name
    · subst h
      have : recs.find? (fun x => decide (x.name = r.name)) = none := by
        rw [List.find?_eq_none]; intro x hx; simpa using fun e => hd1 x hx e.symm
      simp [this]
    · have h' : ¬ r.name = m := fun e => h e.symm
      simp [h, h']

/-! ## Writing -/

theorem writeRef_ok {size : Nat} (r : PackRef) (h1 : r.oid.length = size) (h2 : ∀ p, r.peel = some p → p.length = size) :
    writeRef size r = .ok (Rec.text ⟨r.name, r.oid, r.peel⟩) := by
  unfold writeRef Rec.text
  subst h1
  rw [Oid.C02_fmt]
  cases hp : r.peel with
  | none => simp
  | some p =>
    have := h2 p hp
    simp only [Res.bind_ok]
    rw [← this, Oid.C02_fmt]; simp

theorem writeRefs_ok {size : Nat} (rs : List PackRef) (h1 : ∀ r ∈ rs, r.oid.length = size) (h2 : ∀ r ∈ rs, ∀ p, r.peel = some p → p.length = size) :
    writeRefs size rs = .ok (flat (rs.map (fun r => ⟨r.name, r.oid, r.peel⟩))) := by
  induction rs with
  | nil => rfl
  | cons r rs ih =>
    unfold writeRefs
    rw [writeRef_ok r (h1 r (by simp)) (h2 r (by simp)), ih (fun x hx => h1 x (by simp [hx])) (fun x hx => h2 x (by simp [hx]))]
    simp [flat]

end Verif.RefPacked
