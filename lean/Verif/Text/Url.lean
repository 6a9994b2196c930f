import Verif.Text.Params

/-!
# URLs

Model of `Url::Parse` (common/url.cc:25-45).  The header calls it "a very simple parser"; what it reads correctly and what it does not is
stated below.  `tolower` is the one of the C locale.
-/

namespace Verif.Text.Url

open Verif.Text.Flags (Str isDigit)
open Verif.Text.Params (str lower)

/-- `Url`, url.h:24-36. -/
structure Url where
  protocol : Str
  host : Str
  port : Str
deriving DecidableEq, Repr

/-- `[^:^?/]`, url.cc:29: the second `^` is an ordinary member of the class. -/
def hostChar (c : UInt8) : Bool := c != 58 && c != 94 && c != 63 && c != 47

/-- `.` of an ECMAScript expression: anything but a line terminator. -/
def dot (c : UInt8) : Bool := c != 10 && c != 13

/-- `https?` and `://`, url.cc:29. -/
def scheme (s : Str) : Option (Str × Str) :=
  if (str "https://").isPrefixOf s then some (str "https", s.drop 8)
  else if (str "http://").isPrefixOf s then some (str "http", s.drop 7)
  else none

/-- `(?::([0-9]+))?`, url.cc:29: the port, empty if the group took no part, and what is left. -/
def portOf (s : Str) : Str × Str := match s with
  | 58 :: t => if t.takeWhile isDigit = [] then ([], s) else (t.takeWhile isDigit, t.dropWhile isDigit)
  | _ => ([], s)

/-- `Url::Parse`, url.cc:25-45. The expression matches greedily; if the longest host and port leave a line terminator, so do all
shorter ones. -/
def parse (url : Str) : Option Url :=
  let s := url.map lower
  match scheme s with
  | none => none
  | some (p, r) =>
    let host := r.takeWhile hostChar
    if host = [] then none
    else
      let (port, rest) := portOf (r.dropWhile hostChar)
      if rest.all dot then
        some ⟨p, host, if port ≠ [] then port else if p.getLast? = some 115 then str "443" else str "80"⟩
      else none

/-! ### Specification -/

/-- A string that matches `(https?)://([^:^?/]+)(?::([0-9]+))?.*` in some way. -/
def Matches (s : Str) : Prop := ∃ p host port rest : Str, (p = str "http" ∨ p = str "https") ∧ host ≠ [] ∧ (∀ c ∈ host, c ∉ str ":^?/") ∧
  (port = [] ∨ ∃ d : Str, d ≠ [] ∧ (∀ c ∈ d, 48 ≤ c ∧ c ≤ 57) ∧ port = 58 :: d) ∧ (∀ c ∈ rest, c ≠ 10 ∧ c ≠ 13) ∧ s = p ++ str "://" ++ host ++ port ++ rest

/-! ### Proofs -/

theorem hostChar_iff (c : UInt8) : hostChar c = true ↔ c ∉ str ":^?/" := by
  have : str ":^?/" = [58, 94, 63, 47] := by decide +kernel
  rw [this]
  simp [hostChar, and_assoc]

theorem takeWhile_host {h t : Str} (hh : ∀ c ∈ h, hostChar c = true) (ht : t = [] ∨ ∃ c r, t = c :: r ∧ hostChar c = false) :
    (h ++ t).takeWhile hostChar = h ∧ (h ++ t).dropWhile hostChar = t := by
  rw [List.takeWhile_append_of_pos hh, List.dropWhile_append_of_pos hh]
  rcases ht with rfl | ⟨c, r, rfl, hc⟩
  · simp
  · simp [hc]

theorem takeWhile_digit {h t : Str} (hh : ∀ c ∈ h, isDigit c = true) (ht : t = [] ∨ ∃ c r, t = c :: r ∧ isDigit c = false) :
    (h ++ t).takeWhile isDigit = h ∧ (h ++ t).dropWhile isDigit = t := by
  rw [List.takeWhile_append_of_pos hh, List.dropWhile_append_of_pos hh]
  rcases ht with rfl | ⟨c, r, rfl, hc⟩
  · simp
  · simp [hc]

theorem scheme_http (r : Str) : scheme (str "http" ++ str "://" ++ r) = some (str "http", r) := by
  have e : str "http" ++ str "://" = [104, 116, 116, 112, 58, 47, 47] := by decide +kernel
  have e1 : str "https://" = [104, 116, 116, 112, 115, 58, 47, 47] := by decide +kernel
  have e2 : str "http://" = [104, 116, 116, 112, 58, 47, 47] := by decide +kernel
  rw [e, scheme, e1, e2]
  simp [List.isPrefixOf]

theorem scheme_https (r : Str) : scheme (str "https" ++ str "://" ++ r) = some (str "https", r) := by
  have e : str "https" ++ str "://" = [104, 116, 116, 112, 115, 58, 47, 47] := by decide +kernel
  have e1 : str "https://" = [104, 116, 116, 112, 115, 58, 47, 47] := by decide +kernel
  rw [e, scheme, e1]
  simp [List.isPrefixOf]

theorem scheme_some {s p r : Str} (h : scheme s = some (p, r)) : (p = str "http" ∨ p = str "https") ∧ s = p ++ str "://" ++ r := by
  unfold scheme at h
  have e1 : str "https://" = str "https" ++ str "://" := by decide +kernel
  have e2 : str "http://" = str "http" ++ str "://" := by decide +kernel
  have l1 : (str "https://").length = 8 := by decide +kernel
  have l2 : (str "http://").length = 7 := by decide +kernel
  split at h
  · rename_i hp
    obtain ⟨u, hu⟩ := List.isPrefixOf_iff_prefix.1 hp
    cases h
    refine ⟨Or.inr rfl, ?_⟩
    rw [← hu, ← l1, List.drop_left, ← e1]
  · split at h
    · rename_i hp
      obtain ⟨u, hu⟩ := List.isPrefixOf_iff_prefix.1 hp
      cases h
      refine ⟨Or.inl rfl, ?_⟩
      rw [← hu, ← l2, List.drop_left, ← e2]
    · cases h

theorem scheme_of {p : Str} (hp : p = str "http" ∨ p = str "https") (r : Str) : scheme (p ++ str "://" ++ r) = some (p, r) := by
  rcases hp with rfl | rfl
  · exact scheme_http r
  · exact scheme_https r

theorem portOf_split (s : Str) : ∃ m, s = m ++ (portOf s).2 ∧
    ((m = [] ∧ (portOf s).1 = []) ∨ ((portOf s).1 ≠ [] ∧ (∀ c ∈ (portOf s).1, isDigit c = true) ∧ m = 58 :: (portOf s).1)) := by
  unfold portOf
  split
  · rename_i t
    split
    · exact ⟨[], rfl, Or.inl ⟨rfl, rfl⟩⟩
    · rename_i hne
      refine ⟨58 :: t.takeWhile isDigit, ?_, Or.inr ⟨hne, fun c hc => ?_, rfl⟩⟩
      · rw [List.cons_append, List.takeWhile_append_dropWhile]
      · have := List.all_takeWhile (p := isDigit) (l := t)
        exact List.all_eq_true.1 this c hc
  · exact ⟨[], rfl, Or.inl ⟨rfl, rfl⟩⟩

theorem dropWhile_suffix_all {p : UInt8 → Bool} {q : UInt8 → Bool} {a : Str} (h : ∀ c ∈ a, q c = true) : ∀ c ∈ a.dropWhile p, q c = true :=
  fun c hc => h c ((List.dropWhile_suffix p).subset hc)

theorem digit_iff (c : UInt8) : isDigit c = true ↔ 48 ≤ c ∧ c ≤ 57 := by simp [isDigit]

/-- What is left after the longest host and port is at the end of what is left after any other host and port. -/
theorem rest_dots {host port rest : Str} (h1 : ∀ c ∈ host, hostChar c = true)
    (h2 : port = [] ∨ ∃ d : Str, d ≠ [] ∧ (∀ c ∈ d, isDigit c = true) ∧ port = 58 :: d) (h3 : ∀ c ∈ rest, dot c = true) :
    (portOf ((host ++ port ++ rest).dropWhile hostChar)).2.all dot = true := by
  rw [List.all_eq_true]
  intro c hc
  have hsub : ∀ s c, c ∈ (portOf s).2 → c ∈ s := by
    intro s c hc
    obtain ⟨m, hm, _⟩ := portOf_split s
    rw [hm]; exact List.mem_append_right _ hc
  rw [List.append_assoc, List.dropWhile_append_of_pos h1] at hc
  rcases h2 with rfl | ⟨d, hd1, hd2, rfl⟩
  · exact h3 c ((List.dropWhile_suffix _).subset (hsub _ _ hc))
  · have e : ((58 :: d) ++ rest).dropWhile hostChar = (58 :: d) ++ rest := by
      rw [List.cons_append, List.dropWhile_cons_of_neg (by decide)]
    rw [e] at hc
    have := hsub _ _ hc
    rcases List.mem_append.1 this with h | h
    · rcases List.mem_cons.1 h with rfl | h
      · decide
      · have := (digit_iff c).1 (hd2 c h)
        have h1 : (48 : UInt8).toNat ≤ c.toNat := this.1
        have n1 : c ≠ 10 := by rintro rfl; exact absurd h1 (by decide)
        have n2 : c ≠ 13 := by rintro rfl; exact absurd h1 (by decide)
        simp [dot, n1, n2]
    · exact h3 c h

/-- C178: a string is accepted exactly if it is, in small letters, http or https, "://", a host and anything, on one line. -/
theorem C178_accepts (url : Str) : (parse url).isSome = true ↔ Matches (url.map lower) := by
  unfold parse
  generalize url.map lower = s
  simp only
  constructor
  · intro h
    cases hs : scheme s with
    | none => rw [hs] at h; cases h
    | some pr =>
      obtain ⟨p, r⟩ := pr
      rw [hs] at h
      simp only at h
      obtain ⟨h1, h2⟩ := scheme_some hs
      split at h
      · cases h
      · rename_i hne
        split at h
        · rename_i hd
          obtain ⟨m, hm1, hm2⟩ := portOf_split (r.dropWhile hostChar)
          refine ⟨p, r.takeWhile hostChar, m, (portOf (r.dropWhile hostChar)).2, h1, hne, fun c hc => ?_, ?_, fun c hc => ?_, ?_⟩
          · exact (hostChar_iff c).1 (List.all_eq_true.1 (List.all_takeWhile (p := hostChar) (l := r)) c hc)
          · rcases hm2 with ⟨h, _⟩ | ⟨a, b, c⟩
            · exact Or.inl h
            · exact Or.inr ⟨_, a, fun x hx => (digit_iff x).1 (b x hx), c⟩
          · have := List.all_eq_true.1 hd c hc
            simpa [dot] using this
          · rw [h2]
            simp only [List.append_assoc]
            rw [← hm1, List.takeWhile_append_dropWhile]
        · cases h
  · rintro ⟨p, host, port, rest, hp, hne, hh, hport, hrest, rfl⟩
    have hh : ∀ c ∈ host, hostChar c = true := fun c hc => (hostChar_iff c).2 (hh c hc)
    have e := scheme_of hp (host ++ port ++ rest)
    rw [← List.append_assoc, ← List.append_assoc] at e
    rw [e]
    simp only
    have hne' : (host ++ port ++ rest).takeWhile hostChar ≠ [] := by
      rw [List.append_assoc, List.takeWhile_append_of_pos hh]
      simp [hne]
    rw [if_neg hne', if_pos (rest_dots hh (by
      rcases hport with h | ⟨d, a, b, c⟩
      · exact Or.inl h
      · exact Or.inr ⟨d, a, fun x hx => (digit_iff x).2 (b x hx), c⟩) (fun c hc => by simpa [dot] using hrest c hc))]
    rfl

/-- C178: scheme, host and port, in any case, with a path or a query, are read correctly, the port being that of the scheme if none is
given. -/
theorem C178_reads_partial (scheme host port tail : Str) (hs : scheme.map lower = str "http" ∨ scheme.map lower = str "https") (hne : host ≠ [])
    (hh : ∀ c ∈ host, c ∉ str ":^?/") (hp : ∀ c ∈ port, 48 ≤ c ∧ c ≤ 57) (ht : tail = [] ∨ ∃ c r, tail = c :: r ∧ (c = 47 ∨ c = 63))
    (hl : ∀ c ∈ tail, c ≠ 10 ∧ c ≠ 13) :
    parse (scheme ++ str "://" ++ host ++ (if port = [] then [] else 58 :: port) ++ tail) = some ⟨scheme.map lower, host.map lower,
      if port ≠ [] then port else if scheme.map lower = str "https" then str "443" else str "80"⟩ := by
  have low : ∀ c : UInt8, (hostChar (lower c) = hostChar c) ∧ (dot c = true → dot (lower c) = true) ∧ (isDigit c = true → lower c = c) := by
    have : ∀ n : Fin 256, (hostChar (lower (UInt8.ofNat n)) = hostChar (UInt8.ofNat n)) ∧ (dot (UInt8.ofNat n) = true → dot (lower (UInt8.ofNat n)) = true) ∧
      (isDigit (UInt8.ofNat n) = true → lower (UInt8.ofNat n) = UInt8.ofNat n) := by decide +kernel
    intro c
    have := this ⟨c.toNat, c.toNat_lt⟩
    simpa using this
  have hport : port.map lower = port := by
    conv => rhs; rw [← List.map_id port]
    exact List.map_congr_left fun c hc => (low c).2.2 ((digit_iff c).2 (hp c hc))
  have hhl : ∀ c ∈ host.map lower, hostChar c = true := by
    intro c hc
    obtain ⟨d, hd, rfl⟩ := List.mem_map.1 hc
    rw [(low d).1]; exact (hostChar_iff d).2 (hh d hd)
  have htl : tail.map lower = [] ∨ ∃ c r, tail.map lower = c :: r ∧ (c = 47 ∨ c = 63) := by
    rcases ht with rfl | ⟨c, r, rfl, hc⟩
    · exact Or.inl rfl
    · refine Or.inr ⟨c, r.map lower, ?_, hc⟩
      rcases hc with rfl | rfl <;> rfl
  have hdl : ∀ c ∈ tail.map lower, dot c = true := by
    intro c hc
    obtain ⟨d, hd, rfl⟩ := List.mem_map.1 hc
    exact (low d).2.1 (by simpa [dot] using hl d hd)
  have e58 : ∀ p : Str, (if p = [] then [] else 58 :: p).map lower = if p = [] then [] else 58 :: p.map lower := by
    intro p; split <;> rfl
  have ecs : (str "://").map lower = str "://" := by decide +kernel
  unfold parse
  simp only [List.map_append, e58, hport, ecs]
  have hne' : host.map lower ≠ [] := by simpa using hne
  generalize scheme.map lower = p at hs ⊢
  generalize host.map lower = h at hhl hne' ⊢
  generalize tail.map lower = t at htl hdl ⊢
  have e := scheme_of hs (h ++ (if port = [] then [] else 58 :: port) ++ t)
  rw [← List.append_assoc, ← List.append_assoc] at e
  rw [e]
  have hsplit : portOf ((if port = [] then [] else 58 :: port) ++ t) = (port, t) := by
    by_cases hp0 : port = []
    · rw [if_pos hp0, hp0, List.nil_append]
      rcases htl with rfl | ⟨c, r, rfl, rfl | rfl⟩ <;> rfl
    · rw [if_neg hp0, List.cons_append]
      have := takeWhile_digit (h := port) (t := t) (fun c hc => (digit_iff c).2 (hp c hc)) (by
        rcases htl with rfl | ⟨c, r, rfl, rfl | rfl⟩
        · exact Or.inl rfl
        · exact Or.inr ⟨_, _, rfl, by decide⟩
        · exact Or.inr ⟨_, _, rfl, by decide⟩)
      show (if _ then _ else _) = _
      rw [this.1, this.2, if_neg hp0]
  have hrest := takeWhile_host (h := h) (t := (if port = [] then [] else 58 :: port) ++ t) hhl (by
    by_cases hp0 : port = []
    · rw [if_pos hp0, List.nil_append]
      rcases htl with rfl | ⟨c, r, rfl, rfl | rfl⟩
      · exact Or.inl rfl
      · exact Or.inr ⟨_, _, rfl, by decide⟩
      · exact Or.inr ⟨_, _, rfl, by decide⟩
    · rw [if_neg hp0]; exact Or.inr ⟨_, _, rfl, by decide⟩)
  simp only [List.append_assoc]
  rw [hrest.1, hrest.2, hsplit, if_neg hne']
  simp only
  rw [if_pos (List.all_eq_true.2 hdl)]
  have hlast : (p.getLast? = some 115) ↔ p = str "https" := by
    rcases hs with rfl | rfl <;> decide +kernel
  simp only [hlast]

/-- C178 does not hold for hosts after a user's name and password: the name is taken for the host. -/
theorem C178_user_violated (name : Str) (hn : name ≠ []) (hc : ∀ c ∈ name, c ∉ str ":^?/") :
    ∃ u, parse (str "http://" ++ name ++ str ":pw@host/") = some u ∧ u.host = name.map lower ∧ u.port = str "80" := by
  have low : ∀ c : UInt8, hostChar (lower c) = hostChar c := by
    have : ∀ n : Fin 256, hostChar (lower (UInt8.ofNat n)) = hostChar (UInt8.ofNat n) := by decide +kernel
    intro c
    have := this ⟨c.toNat, c.toNat_lt⟩
    simpa using this
  have hhl : ∀ c ∈ name.map lower, hostChar c = true := by
    intro c hc'
    obtain ⟨d, hd, rfl⟩ := List.mem_map.1 hc'
    rw [low d]; exact (hostChar_iff d).2 (hc d hd)
  have hne' : name.map lower ≠ [] := by simpa using hn
  unfold parse
  have e1 : (str "http://").map lower = str "http" ++ str "://" := by decide +kernel
  have e2 : (str ":pw@host/").map lower = 58 :: str "pw@host/" := by decide +kernel
  simp only [List.map_append, e1, e2]
  generalize name.map lower = h at hhl hne' ⊢
  have e := scheme_of (Or.inl rfl) (h ++ 58 :: str "pw@host/")
  rw [← List.append_assoc] at e
  rw [e]
  have hrest := takeWhile_host (h := h) (t := 58 :: str "pw@host/") hhl (Or.inr ⟨_, _, rfl, by decide⟩)
  simp only
  rw [hrest.1, hrest.2, if_neg hne']
  have e3 : portOf (58 :: str "pw@host/") = ([], 58 :: str "pw@host/") := by decide +kernel
  rw [e3]
  simp only
  rw [if_pos (by decide +kernel)]
  exact ⟨_, rfl, rfl, (by decide +kernel : (if ([] : Str) ≠ [] then [] else if (str "http").getLast? = some 115 then str "443" else str "80") = str "80")⟩

/-- C178 does not hold for IPv6 addresses, fragments and ports with other characters. -/
theorem C178_others_violated : (parse (str "http://[::1]:8080/")).map (·.host) = some (str "[") ∧
    (parse (str "http://host#part")).map (·.host) = some (str "host#part") ∧
    (parse (str "http://host:80x/")).map (·.port) = some (str "80") ∧ (parse (str "http://host:99999/")).map (·.port) = some (str "99999") := by
  decide +kernel

example : parse (str "HTTPS://Stadia.dev:8443/a/b?c=d") = some ⟨str "https", str "stadia.dev", str "8443"⟩ ∧ parse (str "ftp://h") = none := by
  decide +kernel

end Verif.Text.Url
