import Verif.NetUrl.PropsFmt
/-! # C99: requests to a service, and following a redirect of one -/
namespace Verif.NetUrl
open Verif.NetHost

theorem dropWhile_id (s : Str) (h : ¬ ['/'] <+: s) : s.dropWhile (· = '/') = s := by
  cases s with
  | nil => rfl
  | cons c r =>
    have : ¬ c = '/' := fun e => h (by simp [e])
    simp [this]

theorem stripEnd_id (s : Str) (h : ¬ ['/'] <:+ s) : stripEnd s = s := by
  unfold stripEnd
  rw [dropWhile_id _ (by rwa [← List.reverse_suffix, List.reverse_reverse] ), List.reverse_reverse]

theorem stripEnd_slash (b : Str) (n : Nat) (h : ¬ ['/'] <:+ b) : stripEnd (b ++ List.replicate n '/') = b := by
  induction n with
  | zero => simpa using stripEnd_id b h
  | succ n ih =>
    rw [List.replicate_succ', ← List.append_assoc]
    unfold stripEnd at ih ⊢
    rw [List.reverse_append]
    simpa using ih

/-- **C99**: the request for a service: its path after that of the url, with one slash between them, however many there are, and its query; where it
goes and who asks are those of the url -/
theorem C99_request (out one : Url) (b e q : Str) (m n : Nat) (hp : one.path = some (b ++ List.replicate m '/')) (hb : ¬ ['/'] <:+ b)
    (he : ¬ ['/'] <+: e) (h2 : '?' ∉ e) :
    (joinpath out one (List.replicate n '/' ++ e ++ '?' :: q)).path = some (b ++ '/' :: e) ∧
    (joinpath out one (List.replicate n '/' ++ e ++ '?' :: q)).query = (if q = [] then none else some q) ∧
    (joinpath out one (List.replicate n '/' ++ e)).path = some (b ++ '/' :: e) ∧
    (joinpath out one (List.replicate n '/' ++ e)).query = none ∧
    ∀ two, (joinpath out one two).scheme = one.scheme ∧ (joinpath out one two).host = one.host ∧ (joinpath out one two).port = one.port ∧
      (joinpath out one two).username = one.username ∧ (joinpath out one two).password = one.password := by
  have hfree : ∀ c ∈ List.replicate n '/' ++ e, decide (c ≠ '?') = true := by
    intro c hc
    simp only [List.mem_append, List.mem_replicate] at hc
    rcases hc with ⟨_, rfl⟩ | hc
    · decide
    · simp only [decide_eq_true_eq]; rintro rfl; exact h2 hc
  have t1 : (List.replicate n '/' ++ e ++ '?' :: q).takeWhile (· ≠ '?') = List.replicate n '/' ++ e :=
    tw _ _ _ hfree (by intro c r h; simp at h; simp [← h.1])
  have t2 : (List.replicate n '/' ++ e).takeWhile (· ≠ '?') = List.replicate n '/' ++ e := by
    have := tw _ _ [] hfree (by simp)
    simpa using this
  have d : ∀ k, (List.replicate k '/' ++ e).dropWhile (· = '/') = e := by
    intro k
    induction k with
    | zero => simpa using dropWhile_id e he
    | succ k ih => rw [List.replicate_succ]; simpa using ih
  refine ⟨?_, ?_, ?_, ?_, fun _ => ⟨rfl, rfl, rfl, rfl, rfl⟩⟩
  · simp only [joinpath, servicePath, t1, d, hp, Option.getD_some, stripEnd_slash b m hb]
  · simp only [joinpath, serviceQuery, t1]
    rw [show (List.replicate n '/' ++ e ++ '?' :: q).drop ((List.replicate n '/' ++ e).length + 1) = q by
      rw [← List.drop_drop, List.drop_left]; rfl]
  · simp only [joinpath, servicePath, t2, d, hp, Option.getD_some, stripEnd_slash b m hb]
  · simp only [joinpath, serviceQuery, t2]
    rw [if_pos (by simp)]

/-- **C99**: after a redirect to a url for the same service was followed, the next request for it is for that url -/
theorem C99_follow (parse : Str → Option Url) (u t v out : Url) (loc b e q : Str) (offsite : Bool)
    (hl : ¬ ['/'] <+: loc) (ht : parse loc = some t) (hp : t.path = some (b ++ '/' :: e)) (hq : t.query = some q) (hb : ¬ ['/'] <:+ b) (hbq : '?' ∉ b)
    (he : ¬ ['/'] <+: e) (h2 : '?' ∉ e) (hqn : q ≠ []) (h : applyRedirect parse u loc offsite (some ('/' :: e ++ '?' :: q)) = .ok v) :
    joinpath out v ('/' :: e ++ '?' :: q) = { t with fragment := none, portSpecified := out.portSpecified } := by
  obtain ⟨t', h1, h3, _, h4⟩ := C96_redirect parse u v loc offsite _ h
  rcases h1 with ⟨hx, _⟩ | ⟨_, hx, _⟩
  · exact absurd hx hl
  rw [ht] at hx
  cases hx
  obtain ⟨p, p', h5, h6, h7⟩ := h4 _ rfl
  rw [hp] at h5
  cases h5
  have h2' : '?' ∉ ('/' :: e) := by simp [h2]
  have hp' : p' = if b = [] then ['/'] else b := by
    rcases h7 with ⟨b', e', h8, h9, _, h10⟩ | ⟨_, h10, _⟩
    · rcases h10 with h10 | ⟨_, q', h11, h12, _⟩
      · rw [h10] at h8
        have hm : '?' ∈ b ++ '/' :: e := by rw [h8]; simp
        simp [hbq, h2] at hm
      · have a1 := tw_app '?' e' ('?' :: q') h12 (.inr ⟨_, rfl⟩)
        have a2 := tw_app '?' ('/' :: e) ('?' :: q) h2' (.inr ⟨_, rfl⟩)
        have a3 : e' = '/' :: e := by rw [← a1, ← a2, h11]
        rw [a3] at h8
        have a4 : b' = b := (List.append_cancel_right h8).symm
        rw [h9, a4]
        by_cases hb0 : b = [] <;> simp [hb0]
    · exact absurd hq (h10 ('/' :: e) q (by simp) (by simp) h2' ⟨b, rfl⟩)
  have key : v.path = some ((if b = [] then [] else b) ++ List.replicate (if b = [] then 1 else 0) '/') := by
    rw [h6, hp']
    by_cases hb0 : b = [] <;> simp [hb0]
  have hb2 : ¬ ['/'] <:+ (if b = [] then [] else b) := by by_cases hb0 : b = [] <;> simp [hb0, hb]
  obtain ⟨k1, k2, _, _, k3⟩ := C99_request out v _ e q _ 1 key hb2 he h2
  obtain ⟨k4, k5, k6, k7, k8⟩ := k3 ('/' :: e ++ '?' :: q)
  have hv : v.scheme = t.scheme ∧ v.host = t.host ∧ v.port = t.port ∧ v.username = t.username ∧ v.password = t.password := by
    rw [h3]; exact ⟨rfl, rfl, rfl, rfl, rfl⟩
  have k1' : (joinpath out v ('/' :: e ++ '?' :: q)).path = t.path := by
    rw [hp]
    have : (if b = [] then [] else b) = b := by by_cases hb0 : b = [] <;> simp [hb0]
    rw [this] at k1
    exact k1
  have k2' : (joinpath out v ('/' :: e ++ '?' :: q)).query = t.query := by
    rw [hq]; rw [if_neg hqn] at k2; exact k2
  generalize hw : '/' :: e ++ '?' :: q = two at *
  have e0 : joinpath out v two = ⟨(joinpath out v two).scheme, (joinpath out v two).username, (joinpath out v two).password,
    (joinpath out v two).host, (joinpath out v two).port, (joinpath out v two).path, (joinpath out v two).query, none, out.portSpecified⟩ := rfl
  rw [e0, k4, k5, k6, k7, k8, k1', k2', hv.1, hv.2.1, hv.2.2.1, hv.2.2.2.1, hv.2.2.2.2]

/-! ## Examples -/
/-- a fetch that is redirected: the request, the url that is kept, and the next request -/
example : let sfx := "/info/refs?service=git-upload-pack".toList
    ((parse "https://a.org/old/".toList).bind (fun u => fmt (joinpath u u sfx)) = some "https://a.org/old/info/refs?service=git-upload-pack".toList) ∧
    ((parse "https://a.org/old/".toList).bind (fun u =>
      match applyRedirect parse u "https://b.org:81/new/info/refs?service=git-upload-pack".toList true (some sfx) with
      | .ok v => (fmt v).bind (fun x => (fmt (joinpath u v sfx)).map (fun y => (x, y)))
      | _ => none)) = some ("https://b.org:81/new".toList, "https://b.org:81/new/info/refs?service=git-upload-pack".toList) := by decide +kernel
/-- the service at the root -/
example : let sfx := "/info/refs?service=git-upload-pack".toList
    ((parse "https://a.org/old/".toList).bind (fun u =>
      match applyRedirect parse u "https://a.org/info/refs?service=git-upload-pack".toList false (some sfx) with
      | .ok v => (fmt v).bind (fun x => (fmt (joinpath u v sfx)).map (fun y => (x, y)))
      | _ => none)) = some ("https://a.org/".toList, "https://a.org/info/refs?service=git-upload-pack".toList) := by decide +kernel
/-- slashes -/
example : (parse "https://a.org/x//".toList).bind (fun u => fmt (joinpath u u "//y/?".toList)) = some "https://a.org/x/y/".toList := by decide +kernel

end Verif.NetUrl
