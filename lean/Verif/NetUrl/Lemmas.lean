import Verif.NetUrl.Model
import Verif.NetHost.Lemmas
namespace Verif.NetUrl
open Verif.NetHost

theorem tw (p : Char → Bool) (d t : Str) (hd : ∀ c ∈ d, p c = true) (ht : ∀ c r, t = c :: r → p c = false) : (d ++ t).takeWhile p = d := by
  rw [List.takeWhile_append_of_pos hd]
  cases t with
  | nil => simp
  | cons c r => simp [ht c r rfl]

theorem decode_free (cs s : Str) (h : Free cs s) : decode 0 s = s := by
  induction s with
  | nil => rfl
  | cons c s ih =>
    have hc : c ≠ '%' := (h c (by simp)).2.1
    have : escape (c :: s) = none := by
      unfold escape
      split
      · rename_i e; simp at e; exact absurd e.1 hc
      · rfl
    simp only [decode, this]
    rw [ih (fun x hx => h x (by simp [hx]))]

theorem detach_free (s : Str) (h : s ≠ []) (h0 : '\x00' ∉ s) : detach s = some s := by
  unfold detach
  rw [if_neg h]
  have := tw (fun c => decide (c ≠ '\x00')) s [] (fun c hc => by simp; rintro rfl; exact h0 hc) (by simp)
  simp only [List.append_nil] at this
  rw [this]

theorem Free.nul {cs s : Str} (h : Free cs s) : '\x00' ∉ s := fun hc => (h _ hc).2.2 rfl

theorem detach_decode (cs s : Str) (h : s ≠ []) (hf : Free cs s) : detach (decode 0 s) = some s := by
  rw [decode_free cs s hf, detach_free s h hf.nul]

theorem run_userpass (ssh : Bool) (l rest : Str) (acc : Str) (a : Auth) (h : ':' ∉ l ∧ '@' ∉ l) :
    authority ssh .userpass (l ++ rest) acc a = authority ssh .userpass rest (l.reverse ++ acc) a := by
  induction l generalizing acc with
  | nil => rfl
  | cons c l ih =>
    simp only [List.mem_cons, not_or] at h
    rw [List.cons_append]
    conv => lhs; unfold authority
    rw [if_neg (fun e => h.2.1 e.1.symm), if_neg (fun e => h.1.1 e.symm), ih _ ⟨h.1.2, h.2.2⟩]
    simp

theorem hostStep_free (c : Char) (acc : Str) (a : Auth) (h : c ≠ ':' ∧ c ≠ '@' ∧ c ≠ '[' ∧ c ≠ ']') :
    hostStep c acc a = some (.host, c :: acc, a) := by
  unfold hostStep; simp [h]

theorem run_host (ssh : Bool) (l rest : Str) (acc : Str) (a : Auth) (h : ∀ c ∈ l, c ≠ ':' ∧ c ≠ '@' ∧ c ≠ '[' ∧ c ≠ ']') :
    authority ssh .host (l ++ rest) acc a = authority ssh .host rest (l.reverse ++ acc) a := by
  induction l generalizing acc with
  | nil => rfl
  | cons c l ih =>
    rw [List.cons_append]
    conv => lhs; unfold authority
    rw [hostStep_free c acc a (h c (by simp))]
    dsimp only
    rw [ih _ (fun x hx => h x (by simp [hx]))]
    simp

theorem hostport_host (ssh : Bool) (l rest : Str) (acc : Str) (a : Auth) (h : ∀ c ∈ l, c ≠ ':' ∧ c ≠ '@' ∧ c ≠ '[' ∧ c ≠ ']')
    (hr : rest = [] ∨ ∃ r, rest = '@' :: r) :
    authority ssh .hostport (l ++ rest) acc a = authority ssh .host (l ++ rest) acc a := by
  induction l generalizing acc with
  | nil =>
    rcases hr with rfl | ⟨r, rfl⟩
    · rfl
    · simp only [List.nil_append]
      conv => lhs; unfold authority
      conv => rhs; unfold authority
      rw [if_neg (by decide), if_pos (by decide)]
  | cons c l ih =>
    rw [List.cons_append]
    have hc := h c (by simp)
    conv => lhs; unfold authority
    conv => rhs; unfold authority
    rw [if_neg hc.1, hostStep_free c acc a hc]
    dsimp only
    rw [ih _ (fun x hx => h x (by simp [hx]))]
    split <;> rfl

theorem run_port (ssh : Bool) (l rest : Str) (acc : Str) (a : Auth) (h : ∀ c ∈ l, '0' ≤ c ∧ c ≤ '9') :
    authority ssh .hostport (l ++ ':' :: rest) acc a = authority ssh .host rest [] { a with port := l.reverse ++ acc } := by
  induction l generalizing acc with
  | nil => rw [List.nil_append]; conv => lhs; unfold authority
           rw [if_pos rfl]; rfl
  | cons c l ih =>
    rw [List.cons_append]
    have hc := h c (by simp)
    conv => lhs; unfold authority
    rw [if_neg (by rintro rfl; exact absurd hc (by decide)), if_neg (by simp [hc]), ih _ (fun x hx => h x (by simp [hx]))]
    simp

/-- the authority of plain parts -/
theorem authority_plain (x : Parts) (hx : x.Plain) (ssh : Bool) :
    authority ssh .hostport (userText x.user ++ x.host ++ opt ':' x.port).reverse [] ⟨[], [], [], []⟩ =
      some ⟨(x.user.map (·.1)).getD [], (x.user.bind (·.2)).getD [], x.host, x.port.getD []⟩ := by
  have hh : ∀ c ∈ x.host.reverse, c ≠ ':' ∧ c ≠ '@' ∧ c ≠ '[' ∧ c ≠ ']' := by
    intro c hc
    have := (hx.host.2 c (by simpa using hc)).1
    simp at this
    exact ⟨this.1, this.2.1, this.2.2.2.1, this.2.2.2.2⟩
  -- user and password
  have hU : ∀ (p : Str), authority ssh .host ((userText x.user).reverse) x.host ⟨[], [], [], p⟩ =
      some ⟨(x.user.map (·.1)).getD [], (x.user.bind (·.2)).getD [], x.host, p⟩ := by
    intro p
    cases hu : x.user with
    | none => rfl
    | some up =>
      obtain ⟨u, pw⟩ := up
      obtain ⟨hu1, hu2, hu3⟩ := hx.user u pw hu
      have free : ∀ s, Free [':', '@', '/'] s → ':' ∉ s.reverse ∧ '@' ∉ s.reverse := by
        intro s hs
        simp only [List.mem_reverse]
        exact ⟨fun h => (hs _ h).1 (by simp), fun h => (hs _ h).1 (by simp)⟩
      simp only [userText, List.reverse_append, List.reverse_cons, List.reverse_nil, List.nil_append, List.cons_append]
      conv => lhs; unfold authority
      have e : hostStep '@' x.host ⟨[], [], [], p⟩ = some (.userpass, [], ⟨[], [], x.host, p⟩) := by
        unfold hostStep; simp
      rw [e]
      dsimp only
      cases pw with
      | none =>
        have := run_userpass ssh u.reverse [] [] ⟨[], [], x.host, p⟩ (free u hu2)
        simp only [List.append_nil, List.reverse_reverse] at this
        simp only [opt, List.reverse_nil, List.nil_append]
        rw [this]
        rfl
      | some q =>
        obtain ⟨_, hq⟩ := hu3 q rfl
        simp only [opt, List.reverse_cons, List.append_assoc]
        rw [run_userpass ssh q.reverse _ [] _ (free q hq)]
        simp only [List.reverse_reverse, List.append_nil, List.cons_append, List.nil_append]
        conv => lhs; unfold authority
        rw [if_neg (by simp), if_pos rfl]
        simp
  cases hp : x.port with
  | none =>
    simp only [opt, List.append_nil, List.reverse_append]
    have hr : (userText x.user).reverse = [] ∨ ∃ r, (userText x.user).reverse = '@' :: r := by
      cases x.user with
      | none => left; rfl
      | some up => right; obtain ⟨u, pw⟩ := up; exact ⟨(u ++ opt ':' pw).reverse, by simp [userText]⟩
    rw [hostport_host ssh _ _ _ _ hh hr, run_host ssh _ _ _ _ hh]
    simp only [List.reverse_reverse, List.append_nil]
    exact hU []
  | some p =>
    obtain ⟨hp1, hp2⟩ := hx.port p hp
    simp only [opt, List.reverse_append, List.reverse_cons, List.append_assoc, List.cons_append, List.nil_append]
    rw [run_port ssh p.reverse _ [] _ (fun c hc => hp2 c (by simpa using hc)), run_host ssh _ _ _ _ hh]
    simp only [List.reverse_reverse, List.append_nil]
    exact hU p

theorem splitPath_plain (x : Parts) (hx : x.Plain) :
    splitPath (x.path ++ opt '?' x.query ++ opt '#' x.fragment) = (x.path, x.query.getD [], x.fragment.getD []) := by
  have e : (x.path ++ opt '?' x.query ++ opt '#' x.fragment).takeWhile (fun c => decide (c ≠ '?' ∧ c ≠ '#')) = x.path := by
    rw [List.append_assoc]
    apply tw
    · intro c hc
      simp only [decide_eq_true_eq]
      exact ⟨fun h => hx.path.2.1 (h ▸ hc), fun h => hx.path.2.2.1 (h ▸ hc)⟩
    · intro c r h
      cases hq : x.query with
      | some q => rw [hq] at h; simp [opt] at h; simp [← h.1]
      | none =>
        cases hf : x.fragment with
        | some f => rw [hq, hf] at h; simp [opt] at h; simp [← h.1]
        | none => rw [hq, hf] at h; simp [opt] at h
  unfold splitPath
  dsimp only
  rw [e, List.append_assoc, List.drop_left]
  cases hq : x.query with
  | none =>
    cases hf : x.fragment with
    | none => rfl
    | some f => simp [opt]
  | some q =>
    have eq : (q ++ opt '#' x.fragment).takeWhile (fun c => decide (c ≠ '#')) = q := by
      apply tw
      · intro c hc
        have := ((hx.query q hq).2 c hc).1
        simpa using this
      · intro c r h
        cases hf : x.fragment with
        | none => rw [hf] at h; simp [opt] at h
        | some f => rw [hf] at h; simp [opt] at h; simp [← h.1]
    rw [show opt '?' (some q) = '?' :: q from rfl, List.cons_append]
    dsimp only
    rw [if_pos rfl, eq]
    cases hf : x.fragment with
    | none => simp [opt]
    | some f => simp [opt, List.drop_append]

end Verif.NetUrl
