import Verif.Spec.Url
import Verif.Props.Conf
/-!
# C156: name, password, host and port from a URL
-/
namespace Verif.Rpc
open Verif Sus

/-- What a user of `RawProxy(service_url)` expects: the server of the URL is asked, at its port or the standard one, with the name and the
password of the URL, and for its path. -/
def C156_statement : Prop := ∀ (u : Url) (n w : Str), u.Good → u.login = some (n, w) → connect u.https u.text =
  .ok ⟨u.https, some (u.host.map Char.toLower), u.port.elim u.standard (·), n ++ ':' :: w, u.path⟩

/-- The host and the port as written. -/
theorem hp_plain {u : Url} (h : u.Good) : ∀ c ∈ u.host ++ (match u.port with | some p => ':' :: dec p | none => []), c ∉ ['@', '[', ']', '/', '?', '#'] := by
  intro c hc
  rcases List.mem_append.mp hc with hc | hc
  · have := h.host.2 c hc
    simp only [List.mem_cons, List.not_mem_nil, or_false, not_or] at this ⊢
    tauto
  · cases hp : u.port with
    | none => rw [hp] at hc; cases hc
    | some p =>
      rw [hp] at hc
      rcases List.mem_cons.mp hc with rfl | hc
      · decide
      · have := (dec_plain (p := (p : Int)) (by omega)).2 c hc
        simp only [List.mem_cons, List.not_mem_nil, or_false, not_or] at this ⊢
        tauto

theorem net_hostPort {u : Url} (h : u.Good) {l : Str} (hl : l = [] ∨ ∃ a, l = a ++ ['@']) :
    hostPort (l ++ (u.host ++ (match u.port with | some p => ':' :: dec p | none => []))) =
      (u.host, match u.port with | some p => dec p | none => []) := by
  have e : (rpart '@' (l ++ (u.host ++ (match u.port with | some p => ':' :: dec p | none => [])))).2 =
      u.host ++ (match u.port with | some p => ':' :: dec p | none => []) := by
    have hn : '@' ∉ u.host ++ (match u.port with | some p => ':' :: dec p | none => []) := fun hc => absurd (hp_plain h _ hc) (by decide)
    rcases hl with rfl | ⟨a, rfl⟩
    · unfold rpart
      rw [List.nil_append, if_neg hn]
    · rw [List.append_assoc, List.singleton_append, rpart_at hn]
  unfold hostPort
  simp only
  rw [e, lpart_none (c := '[') (fun hc => absurd (hp_plain h _ hc) (by decide))]
  simp only
  have hc : ':' ∉ u.host := fun hc => absurd (h.host.2 _ hc) (by decide)
  cases u.port with
  | none => rw [List.append_nil, lpart_none hc]; rfl
  | some p => rw [lpart_at hc]; rfl

theorem rpart_none {c : Char} {s : Str} (h : c ∉ s) : rpart c s = (none, s) := by
  unfold rpart
  rw [if_neg h]

theorem net_auth {u : Url} (h : u.Good) {n w : Str} :
    authText ((n ++ ':' :: (w ++ ['@'])) ++ (u.host ++ (match u.port with | some p => ':' :: dec p | none => []))) = n ++ ':' :: w := by
  have hn : '@' ∉ u.host ++ (match u.port with | some p => ':' :: dec p | none => []) := fun hc => absurd (hp_plain h _ hc) (by decide)
  have e : (n ++ ':' :: (w ++ ['@'])) ++ (u.host ++ (match u.port with | some p => ':' :: dec p | none => [])) =
      (n ++ ':' :: w) ++ '@' :: (u.host ++ (match u.port with | some p => ':' :: dec p | none => [])) := by simp
  unfold authText
  rw [e, rpart_at hn]
  exact lpart_join (by simp)

theorem path_of {u : Url} (h : u.Good) : urlPath (u.path ++ (match u.query with | some q => '?' :: q | none => [])) = u.path := by
  have e : (u.path ++ (match u.query with | some q => '?' :: q | none => [])).takeWhile (fun c => decide (c ≠ '?' ∧ c ≠ '#')) = u.path := by
    refine takeWhile_append_stop ?_ ?_
    · intro c hc
      have := h.plain c hc
      simp only [List.mem_cons, List.not_mem_nil, or_false, not_or] at this
      exact decide_eq_true ⟨this.1, this.2.1⟩
    · intro x t ht
      cases hq : u.query with
      | none => rw [hq] at ht; cases ht
      | some q => rw [hq] at ht; cases ht; rfl
  have hs : ∀ s : Str, (∀ c ∈ s, c ≠ ';') → s.takeWhile (fun c => decide (c ≠ ';')) = s := by
    intro s hs
    have := takeWhile_append_stop (t := []) (p := fun c => decide (c ≠ ';')) (fun c hc => decide_eq_true (hs c hc)) nofun
    rwa [List.append_nil] at this
  have hp : ∀ c ∈ u.path, c ≠ ';' := by
    rintro c hc rfl
    exact absurd (h.plain _ hc) (by decide)
  unfold urlPath
  simp only
  rw [e]
  by_cases hm : '/' ∈ u.path
  · obtain ⟨a, b, hab, hb⟩ : ∃ a b, u.path = a ++ '/' :: b ∧ '/' ∉ b := by
      obtain ⟨b, a, hab, hb⟩ := List.eq_append_cons_of_mem (List.mem_reverse.mpr hm)
      refine ⟨a.reverse, b.reverse, ?_, fun hc => hb (List.mem_reverse.mp hc)⟩
      have := congrArg List.reverse hab
      simpa using this
    rw [hab, rpart_at hb]
    simp only
    rw [hs b fun c hc => hp c (by rw [hab]; simp [hc])]
  · rw [rpart_none hm]
    simp only
    exact hs _ hp

theorem net_of {u : Url} (h : u.Good) {l : Str} (hl : ∀ c ∈ l, stopChar c = false) :
    (l ++ (u.host ++ ((match u.port with | some p => ':' :: dec p | none => []) ++ (u.path ++ (match u.query with | some q => '?' :: q | none => []))))).takeWhile
      (fun c => !stopChar c) = l ++ (u.host ++ (match u.port with | some p => ':' :: dec p | none => [])) := by
  have e : l ++ (u.host ++ ((match u.port with | some p => ':' :: dec p | none => []) ++ (u.path ++ (match u.query with | some q => '?' :: q | none => [])))) =
      (l ++ (u.host ++ (match u.port with | some p => ':' :: dec p | none => []))) ++ (u.path ++ (match u.query with | some q => '?' :: q | none => [])) := by
    simp only [List.append_assoc]
  rw [e]
  refine takeWhile_append_stop ?_ ?_
  · intro c hc
    rcases List.mem_append.mp hc with hc | hc
    · rw [hl c hc]; rfl
    · have := hp_plain h c hc
      cases hs : stopChar c with
      | false => rfl
      | true => rcases (stopChar_iff c).mp hs with rfl | rfl | rfl <;> simp at this
  · intro c t ht
    rcases h.path with hp | hp
    · rw [hp, List.nil_append] at ht
      cases hq : u.query with
      | none => rw [hq] at ht; cases ht
      | some q => rw [hq] at ht; cases ht; rfl
    · cases hq : u.path with
      | nil => rw [hq] at hp; cases hp
      | cons d s =>
        rw [hq] at hp ht
        cases hp
        cases ht
        rfl

theorem connect_of {u : Url} (h : u.Good) {l : Str} (hl : ∀ c ∈ l, stopChar c = false) (ha : l = [] ∨ ∃ a, l = a ++ ['@'])
    (hb : '[' ∉ l ∧ ']' ∉ l) :
    connect u.https (l ++ (u.host ++ ((match u.port with | some p => ':' :: dec p | none => []) ++ (u.path ++ (match u.query with | some q => '?' :: q | none => []))))) =
      .ok ⟨u.https, some (u.host.map Char.toLower), u.port.elim 80 (fun p => (p : Int)),
        authText (l ++ (u.host ++ (match u.port with | some p => ':' :: dec p | none => []))), u.path⟩ := by
  rw [connect_def, net_of h hl, net_hostPort h ha]
  have b1 : '[' ∉ l ++ (u.host ++ (match u.port with | some p => ':' :: dec p | none => [])) := by
    intro hc
    rcases List.mem_append.mp hc with hc | hc
    · exact hb.1 hc
    · exact absurd (hp_plain h _ hc) (by decide)
  have b2 : ']' ∉ l ++ (u.host ++ (match u.port with | some p => ':' :: dec p | none => [])) := by
    intro hc
    rcases List.mem_append.mp hc with hc | hc
    · exact hb.2 hc
    · exact absurd (hp_plain h _ hc) (by decide)
  have hd : (l ++ (u.host ++ ((match u.port with | some p => ':' :: dec p | none => []) ++ (u.path ++ (match u.query with | some q => '?' :: q | none => []))))).drop
      (l ++ (u.host ++ (match u.port with | some p => ':' :: dec p | none => []))).length =
      u.path ++ (match u.query with | some q => '?' :: q | none => []) := by
    have e : l ++ (u.host ++ ((match u.port with | some p => ':' :: dec p | none => []) ++ (u.path ++ (match u.query with | some q => '?' :: q | none => [])))) =
        (l ++ (u.host ++ (match u.port with | some p => ':' :: dec p | none => []))) ++ (u.path ++ (match u.query with | some q => '?' :: q | none => [])) := by
      simp only [List.append_assoc]
    rw [e, List.drop_left]
  have hport : urlPort (match u.port with | some p => dec p | none => []) = .ok (u.port.elim 80 (fun p => (p : Int))) := by
    cases hp : u.port with
    | none => rfl
    | some p => exact urlPort_dec ⟨by omega, by have := h.port p hp; omega⟩
  have hh : u.host.map Char.toLower ≠ [] := by
    intro e
    exact h.host.1 (List.map_eq_nil_iff.mp e)
  rw [if_neg (by simp [b1, b2]), hport, Except.bind_ok, hd, path_of h, if_neg hh]

/-- C156: so it is with a port or with `http`: the query is not sent.  Without a port it is port 80, also for
`https`. -/
theorem C156_exact_partial {u : Url} {n w : Str} (h : u.Good) (hl : u.login = some (n, w)) :
    connect u.https u.text = .ok ⟨u.https, some (u.host.map Char.toLower), u.port.elim 80 (fun p => (p : Int)), n ++ ':' :: w, u.path⟩ := by
  obtain ⟨h1, h2⟩ := h.name n w hl
  have hm : ∀ c ∈ n ++ ':' :: (w ++ ['@']), c ∉ ['/', '?', '#', '[', ']'] := by
    intro c hc
    rcases List.mem_append.mp hc with hc | hc
    · have := h1 c hc
      simp only [List.mem_cons, List.not_mem_nil, or_false, not_or] at this ⊢
      tauto
    · rcases List.mem_cons.mp hc with rfl | hc
      · decide
      · rcases List.mem_append.mp hc with hc | hc
        · exact h2 c hc
        · rw [List.mem_singleton.mp hc]
          decide
  unfold Url.text
  rw [hl]
  simp only
  have hs : ∀ c ∈ n ++ ':' :: (w ++ ['@']), stopChar c = false := by
    intro c hc
    have := hm c hc
    cases hs : stopChar c with
    | false => rfl
    | true => rcases (stopChar_iff c).mp hs with rfl | rfl | rfl <;> simp at this
  have e := connect_of h hs (.inr ⟨n ++ ':' :: w, by simp⟩) ⟨fun hc => absurd (hm _ hc) (by decide), fun hc => absurd (hm _ hc) (by decide)⟩
  rw [net_auth h] at e
  exact e

/-- C156: the expectation is met exactly unless it is `https` without a port. -/
theorem C156_standard_partial {u : Url} {n w : Str} (h : u.Good) (hl : u.login = some (n, w)) :
    connect u.https u.text = .ok ⟨u.https, some (u.host.map Char.toLower), u.port.elim u.standard (fun p => (p : Int)), n ++ ':' :: w, u.path⟩ ↔
      ¬ (u.https = true ∧ u.port = none) := by
  rw [C156_exact_partial h hl]
  unfold Url.standard
  cases u.port with
  | none => cases u.https <;> simp
  | some p => simp

/-- C156: without name and password the text `None:None` is sent as if they were. -/
theorem C156_anonymous_partial {u : Url} (h : u.Good) (hl : u.login = none) :
    connect u.https u.text =
      .ok ⟨u.https, some (u.host.map Char.toLower), u.port.elim 80 (fun p => (p : Int)), "None:None".toList, u.path⟩ := by
  unfold Url.text
  rw [hl]
  simp only
  have e := connect_of h (l := []) (fun c hc => absurd hc List.not_mem_nil) (.inl rfl) ⟨List.not_mem_nil, List.not_mem_nil⟩
  unfold authText at e
  simp only [List.nil_append] at e
  rw [rpart_none (s := u.host ++ _) fun hc => absurd (hp_plain h _ hc) (by decide)] at e
  exact e

/-- C156: whatever the URL, no name or password with a slash, a question mark or a `#` is ever sent: `%2F` is not made into a slash. -/
theorem C156_never_partial {https : Bool} {rest : Str} {x : Conn} (h : connect https rest = .ok x) :
    x.https = https ∧ '/' ∉ x.auth ∧ '?' ∉ x.auth ∧ '#' ∉ x.auth := by
  rw [connect_def] at h
  split at h
  · cases h
  · obtain ⟨q, _, h⟩ := Except.bind_eq_ok h
    cases h
    have key : ∀ c, stopChar c = true → c ∉ authText (rest.takeWhile fun c => !stopChar c) := by
      intro c hs hc
      rcases authText_mem hc with hc | hc
      · have := takeWhile_mem hc
        simp [hs] at this
      · have : ∀ c ∈ "None:None".toList, stopChar c = false := by decide
        rw [this c hc] at hs
        cases hs
    exact ⟨rfl, key _ (by decide), key _ (by decide), key _ (by decide)⟩

/-- A URL. -/
def Ex.url : Url := ⟨true, some ("alice".toList, "se%2Fcr@t".toList), "Node.example.com".toList, none, "/rpc/v1".toList, some "a=/b".toList⟩

theorem Ex.url_good : Ex.url.Good where
  name := by rintro n w ⟨⟩; decide +kernel
  host := by decide +kernel
  port := nofun
  path := .inr rfl
  plain := by decide +kernel

/-- False: `https` without a port. -/
theorem C156_refuted : ¬ C156_statement := by
  intro h
  exact (C156_standard_partial Ex.url_good rfl).mp (h _ _ _ Ex.url_good rfl) ⟨rfl, rfl⟩

/-- The connection made. -/
example : Ex.url.text = "alice:se%2Fcr@t@Node.example.com/rpc/v1?a=/b".toList ∧
    connect true Ex.url.text = .ok ⟨true, some "node.example.com".toList, 80, "alice:se%2Fcr@t".toList, "/rpc/v1".toList⟩ := by decide +kernel
/-- Ports that are none. -/
example : connect false "a:b@c:65536".toList = .error .valueError ∧ connect false "a:b@c:x".toList = .error .valueError ∧
    connect false "a:b@[c".toList = .error .valueError := by decide +kernel

end Verif.Rpc
