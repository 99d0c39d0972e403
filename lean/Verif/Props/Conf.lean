import Verif.Lemmas.Conf
import Verif.Lemmas.SusText
import Mathlib.Tactic.Tauto
/-!
# C123: name, password and port from bitcoin.conf
-/
namespace Verif.Rpc
open Verif Sus

theorem lpart_join {c : Char} {s : Str} (h : c ∈ s) : (lpart c s).1 ++ c :: ((lpart c s).2.getD "None".toList) = s := by
  unfold lpart
  simp only [if_pos h, Option.getD_some]
  have e := List.takeWhile_append_dropWhile (p := fun x => decide (x ≠ c)) (l := s)
  cases hd : s.dropWhile (fun x => decide (x ≠ c)) with
  | nil =>
    rw [hd, List.append_nil] at e
    rw [← e] at h
    have := takeWhile_mem h
    simp at this
  | cons y ys =>
    have hy : y = c := by simpa using dropWhile_head hd
    rw [hd, hy] at e
    rw [List.drop_one, List.tail_cons]
    exact e

theorem lpart_at {c : Char} {a b : Str} (h : c ∉ a) : lpart c (a ++ c :: b) = (a, some b) := by
  have ha : ∀ x ∈ a, decide (x ≠ c) = true := by
    intro x hx
    simp only [ne_eq, decide_not, Bool.not_eq_true', decide_eq_false_iff_not]
    rintro rfl
    exact h hx
  unfold lpart
  rw [takeWhile_append_stop ha (by rintro x t ⟨⟩; simp), if_pos (by simp), dropWhile_append ha, List.dropWhile_cons_of_neg (by simp)]
  rfl

theorem rpart_at {c : Char} {a b : Str} (h : c ∉ b) : rpart c (a ++ c :: b) = (some a, b) := by
  have hb : ∀ x ∈ b.reverse, decide (x ≠ c) = true := by
    intro x hx
    simp only [ne_eq, decide_not, Bool.not_eq_true', decide_eq_false_iff_not]
    rintro rfl
    exact h (List.mem_reverse.mp hx)
  unfold rpart
  have e : (a ++ c :: b).reverse = b.reverse ++ c :: a.reverse := by simp
  rw [if_pos (by simp), e, takeWhile_append_stop hb (by rintro x t ⟨⟩; simp), dropWhile_append hb, List.dropWhile_cons_of_neg (by simp)]
  simp

theorem lpart_none {c : Char} {s : Str} (h : c ∉ s) : lpart c s = (s, none) := by
  have ha : ∀ x ∈ s, decide (x ≠ c) = true := by
    intro x hx
    simp only [ne_eq, decide_not, Bool.not_eq_true', decide_eq_false_iff_not]
    rintro rfl
    exact h hx
  unfold lpart
  rw [if_neg h]
  have := takeWhile_append_stop (t := []) ha nofun
  rw [List.append_nil] at this
  rw [this]

theorem dec_plain {p : Int} (hp : 0 ≤ p) : dec p ≠ [] ∧ ∀ c ∈ dec p, c ∉ ['@', ':', '[', ']', '/', '?', '#'] := by
  unfold dec
  rw [if_neg (by omega)]
  refine ⟨decNat_ne _, fun c hc => ?_⟩
  obtain ⟨d, rfl⟩ := mem_decNat _ hc
  clear hc hp p
  revert d
  decide

def stopChar (c : Char) : Bool := c = '/' || c = '?' || c = '#'

theorem stopChar_iff (c : Char) : stopChar c = true ↔ c = '/' ∨ c = '?' ∨ c = '#' := by
  unfold stopChar
  simp [or_assoc]

theorem tail_plain {p : Int} (hp : 0 ≤ p) : ∀ c ∈ "localhost:".toList ++ dec p, c ∉ ['@', '[', ']', '/', '?', '#'] := by
  intro c hc
  rcases List.mem_append.mp hc with h | h
  · clear hc
    revert h c
    clear hp p
    decide
  · have := (dec_plain hp).2 c h
    simp only [List.mem_cons, List.not_mem_nil, or_false, not_or] at this ⊢
    exact ⟨this.1, this.2.2⟩

theorem confRest_eq (u w : Str) (p : Int) : confRest u w p = (u ++ ':' :: w) ++ '@' :: ("localhost:".toList ++ dec p) := by
  unfold confRest
  simp

theorem authText_conf {u w : Str} {p : Int} (hp : 0 ≤ p) : authText (confRest u w p) = u ++ ':' :: w := by
  unfold authText
  rw [confRest_eq, rpart_at (fun h => absurd (tail_plain hp _ h) (by decide))]
  exact lpart_join (by simp)

theorem hostPort_conf {u w : Str} {p : Int} (hp : 0 ≤ p) : hostPort (confRest u w p) = ("localhost".toList, dec p) := by
  unfold hostPort
  rw [confRest_eq, rpart_at (fun h => absurd (tail_plain hp _ h) (by decide))]
  simp only
  rw [lpart_none (c := '[') (fun h => absurd (tail_plain hp _ h) (by decide))]
  have : "localhost:".toList ++ dec p = "localhost".toList ++ ':' :: dec p := rfl
  rw [this, lpart_at (by decide)]
  rfl

theorem authText_mem {n : Str} {c : Char} (h : c ∈ authText n) : c ∈ n ∨ c ∈ "None:None".toList := by
  unfold authText at h
  cases hr : (rpart '@' n).1 with
  | none => rw [hr] at h; exact .inr h
  | some i =>
    rw [hr] at h
    simp only at h
    have hi : ∀ c ∈ i, c ∈ n := by
      unfold rpart at hr
      split at hr
      · simp only [Option.some.injEq] at hr
        subst hr
        intro c hc
        exact List.mem_reverse.mp ((List.dropWhile_suffix _).subset ((List.drop_suffix _ _).subset (List.mem_reverse.mp hc)))
      · cases hr
    by_cases hm : ':' ∈ i
    · rw [lpart_join hm] at h
      exact .inl (hi c h)
    · rw [lpart_none hm] at h
      rcases List.mem_append.mp h with h | h
      · exact .inl (hi c h)
      · refine .inr ?_
        rcases List.mem_cons.mp h with rfl | h
        · decide
        · have e : "None:None".toList = "None".toList ++ ':' :: "None".toList := rfl
          rw [e]
          simp only [Option.getD_none] at h
          exact List.mem_append_left _ h

theorem connect_def (https : Bool) (rest : Str) : connect https rest =
    if ('[' ∈ rest.takeWhile fun c => !stopChar c) ≠ (']' ∈ rest.takeWhile fun c => !stopChar c) then .error .valueError
    else urlPort (hostPort (rest.takeWhile fun c => !stopChar c)).2 >>= fun port =>
      .ok ⟨https, if (hostPort (rest.takeWhile fun c => !stopChar c)).1.map Char.toLower = [] then none
        else some ((hostPort (rest.takeWhile fun c => !stopChar c)).1.map Char.toLower), port, authText (rest.takeWhile fun c => !stopChar c),
        urlPath (rest.drop (rest.takeWhile fun c => !stopChar c).length)⟩ := rfl

theorem urlPort_dec {p : Int} (h : 0 ≤ p ∧ p ≤ 65535) : urlPort (dec p) = .ok p := by
  unfold urlPort
  rw [if_neg (dec_plain h.1).1, pyInt_dec h.1, Except.bind_ok, if_pos h]
  rfl

theorem urlPort_big {p : Int} (h : 65535 < p) : urlPort (dec p) = .error .valueError := by
  have hp : 0 ≤ p := by omega
  unfold urlPort
  rw [if_neg (dec_plain hp).1, pyInt_dec hp, Except.bind_ok, if_neg (by omega)]

theorem conf_whole {u w : Str} {p : Int} (hp : 0 ≤ p) (h : ∀ c ∈ u ++ w, stopChar c = false) :
    (confRest u w p).takeWhile (fun c => !stopChar c) = confRest u w p := by
  have all : ∀ c ∈ confRest u w p, (!stopChar c) = true := by
    intro c hc
    rw [confRest_eq] at hc
    have : stopChar c = false := by
      rcases List.mem_append.mp hc with hc | hc
      · rcases List.mem_append.mp hc with hc | hc
        · exact h c (by simp [hc])
        · rcases List.mem_cons.mp hc with rfl | hc
          · decide
          · exact h c (by simp [hc])
      · rcases List.mem_cons.mp hc with rfl | hc
        · decide
        · have := tail_plain hp c hc
          cases hs : stopChar c with
          | false => rfl
          | true =>
            rcases (stopChar_iff c).mp hs with rfl | rfl | rfl <;> simp at this
    rw [this]
    rfl
  have := takeWhile_append_stop (t := []) all nofun
  rwa [List.append_nil] at this

theorem bracket_conf {u w : Str} {p : Int} (hp : 0 ≤ p) {c : Char} (hc : c = '[' ∨ c = ']') : c ∈ confRest u w p ↔ c ∈ u ++ w := by
  rw [confRest_eq]
  have h1 : c ∉ "localhost:".toList ++ dec p := by
    intro h
    have := tail_plain hp c h
    rcases hc with rfl | rfl <;> simp at this
  have h2 : c ≠ ':' ∧ c ≠ '@' := by rcases hc with rfl | rfl <;> decide
  simp only [List.mem_append, List.mem_cons, h2.1, h2.2, false_or] at h1 ⊢
  tauto

/-! ## C123 -/

section
variable {lines : List Str} {port p : Int} {ssl : Bool} {u w : Str}

theorem confPort_of (h : PortIs lines port p) : confPort lines port = .ok p := by
  unfold confPort
  cases h with
  | unset h => rw [confGet_unset h]
  | set h1 h2 =>
    rw [confGet_setting h1]
    exact (pyInt_iff _ _).mpr h2

theorem confSsl_of (h : SslIs lines ssl) : confSsl ((confGet lines "rpcssl").getD "0".toList) = .ok ssl := by
  cases h with
  | unset h => rw [confGet_unset h]; rfl
  | off h1 h2 =>
    rw [confGet_setting h1]
    simp only [List.mem_cons, List.not_mem_nil, or_false] at h2
    unfold confSsl
    simp only [Option.getD_some]
    rw [if_pos h2]
  | on h1 h2 =>
    rw [confGet_setting h1]
    simp only [List.mem_cons, List.not_mem_nil, or_false] at h2
    unfold confSsl
    simp only [Option.getD_some]
    rw [if_neg (by rcases h2 with h2 | h2 <;> rw [h2] <;> decide), if_pos h2]

theorem confUrl_of (hp : PortIs lines port p) (hs : SslIs lines ssl) (hu : Setting lines "rpcuser" u) (hw : Setting lines "rpcpassword" w) :
    confUrl lines port = .ok (ssl, confRest u w p) := by
  unfold confUrl confNeed
  rw [confPort_of hp, Except.bind_ok, confSsl_of hs, Except.bind_ok, confGet_setting hu, confGet_setting hw]
  rfl

/-- What a user of the configuration file expects: name and password are sent as they are, to the port on this machine. -/
def C123_statement : Prop := ∀ (lines : List Str) (port p : Int) (ssl : Bool) (u w : Str), PortIs lines port p → 0 ≤ p ∧ p ≤ 65535 → SslIs lines ssl →
  Setting lines "rpcuser" u → Setting lines "rpcpassword" w → connectConf lines port = .ok ⟨ssl, some "localhost".toList, p, u ++ ':' :: w, []⟩

theorem Setting.no_hash {k : String} {v : Str} (h : Setting lines k v) : '#' ∉ v := by
  obtain ⟨_, _, _, _, h, _⟩ := h
  exact h.value

/-- C123: this is so exactly for names and passwords without `/`, `?`, and with brackets of both kinds or none. -/
theorem C123_exact_partial (hp : PortIs lines port p) (hr : 0 ≤ p ∧ p ≤ 65535) (hs : SslIs lines ssl) (hu : Setting lines "rpcuser" u)
    (hw : Setting lines "rpcpassword" w) :
    connectConf lines port = .ok ⟨ssl, some "localhost".toList, p, u ++ ':' :: w, []⟩ ↔ UrlSafe (u ++ w) := by
  unfold connectConf
  rw [confUrl_of hp hs hu hw, Except.bind_ok]
  simp only
  rw [connect_def]
  constructor
  · intro h
    split at h
    · cases h
    · rename_i hb
      obtain ⟨q, _, h⟩ := Except.bind_eq_ok h
      have ha : authText ((confRest u w p).takeWhile fun c => !stopChar c) = u ++ ':' :: w := congrArg Conn.auth (Except.ok.inj h)
      have safe : ∀ c ∈ u ++ w, stopChar c = false := by
        intro c hc
        have hc' : c ∈ u ++ ':' :: w := by
          simp only [List.mem_append, List.mem_cons] at hc ⊢
          tauto
        rw [← ha] at hc'
        rcases authText_mem hc' with h | h
        · simpa using takeWhile_mem h
        · clear hc hc'
          have key : ∀ c ∈ "None:None".toList, stopChar c = false := by decide
          exact key c h
      rw [conf_whole hr.1 safe, bracket_conf hr.1 (.inl rfl), bracket_conf hr.1 (.inr rfl)] at hb
      refine ⟨fun h => ?_, fun h => ?_, ?_⟩
      · exact absurd (safe _ h) (by decide)
      · exact absurd (safe _ h) (by decide)
      · simpa using hb
  · rintro ⟨h1, h2, h3⟩
    have safe : ∀ c ∈ u ++ w, stopChar c = false := by
      intro c hc
      cases hs : stopChar c with
      | false => rfl
      | true =>
        rcases (stopChar_iff c).mp hs with rfl | rfl | rfl
        · exact absurd hc h1
        · exact absurd hc h2
        · rcases List.mem_append.mp hc with h | h
          · exact absurd h hu.no_hash
          · exact absurd h hw.no_hash
    rw [conf_whole hr.1 safe, if_neg (by simpa [bracket_conf hr.1] using h3), hostPort_conf hr.1, urlPort_dec hr,
      authText_conf hr.1, List.drop_length]
    rfl

/-- C123: otherwise with brackets of one kind, but no slashes, `ValueError` is raised. -/
theorem C123_brackets_partial (hp : PortIs lines port p) (hr : 0 ≤ p) (hs : SslIs lines ssl) (hu : Setting lines "rpcuser" u)
    (hw : Setting lines "rpcpassword" w) (h1 : '/' ∉ u ++ w) (h2 : '?' ∉ u ++ w) (h3 : ¬ ('[' ∈ u ++ w ↔ ']' ∈ u ++ w)) :
    connectConf lines port = .error .valueError := by
  unfold connectConf
  rw [confUrl_of hp hs hu hw, Except.bind_ok]
  simp only
  have safe : ∀ c ∈ u ++ w, stopChar c = false := by
    intro c hc
    cases hs : stopChar c with
    | false => rfl
    | true =>
      rcases (stopChar_iff c).mp hs with rfl | rfl | rfl
      · exact absurd hc h1
      · exact absurd hc h2
      · rcases List.mem_append.mp hc with h | h
        · exact absurd h hu.no_hash
        · exact absurd h hw.no_hash
  rw [connect_def, conf_whole hr safe, if_pos (by simpa [bracket_conf hr] using h3)]

/-- C123: with a slash or a question mark in the name, the name without what comes after it is the host, and nothing of name and password is in the header but what may
come before an `@`. -/
theorem C123_slash_partial {a b : Str} {c : Char} (hp : PortIs lines port p) (hs : SslIs lines ssl) (hu : Setting lines "rpcuser" u)
    (hw : Setting lines "rpcpassword" w) (hc : c = '/' ∨ c = '?') (h : u ++ ':' :: w = a ++ c :: b) (ha : '/' ∉ a ∧ '?' ∉ a) :
    connectConf lines port = connect ssl (a ++ c :: (b ++ '@' :: ("localhost:".toList ++ dec p))) ∧
    ∀ x, connectConf lines port = .ok x → x.auth = authText a ∧ ('@' ∉ a → x.auth = "None:None".toList) := by
  have e : connectConf lines port = connect ssl (a ++ c :: (b ++ '@' :: ("localhost:".toList ++ dec p))) := by
    unfold connectConf
    rw [confUrl_of hp hs hu hw, Except.bind_ok]
    simp only
    rw [confRest_eq, h]
    simp
  refine ⟨e, fun x hx => ?_⟩
  have hh : '#' ∉ a := by
    intro hm
    have : '#' ∈ u ++ ':' :: w := by rw [h]; simp [hm]
    rcases List.mem_append.mp this with h | h
    · exact hu.no_hash h
    · rcases List.mem_cons.mp h with h | h
      · cases h
      · exact hw.no_hash h
  have hn : (a ++ c :: (b ++ '@' :: ("localhost:".toList ++ dec p))).takeWhile (fun c => !stopChar c) = a := by
    apply takeWhile_append_stop
    · intro y hy
      cases hs : stopChar y with
      | false => rfl
      | true =>
        rcases (stopChar_iff y).mp hs with rfl | rfl | rfl
        · exact absurd hy ha.1
        · exact absurd hy ha.2
        · exact absurd hy hh
    · rintro y t ⟨⟩
      have := (stopChar_iff c).mpr (by tauto)
      rw [this]
      rfl
  rw [e, connect_def, hn] at hx
  split at hx
  · cases hx
  · obtain ⟨q, _, hx⟩ := Except.bind_eq_ok hx
    have hau : authText a = x.auth := congrArg Conn.auth (Except.ok.inj hx)
    refine ⟨hau.symm, fun hat => ?_⟩
    rw [← hau]
    unfold authText rpart
    rw [if_neg hat]

/-- C123: what is missing or wrong in the file is reported. -/
theorem C123_errors_partial :
    (∀ {s}, Setting lines "rpcport" s → (¬ ∃ p, IntText s p) → connectConf lines port = .error .valueError) ∧
    (∀ {s p}, PortIs lines port p → Setting lines "rpcssl" s → s.map Char.toLower ∉ ["0".toList, "false".toList, "1".toList, "true".toList] →
      connectConf lines port = .error .valueError) ∧
    (∀ {p ssl}, PortIs lines port p → SslIs lines ssl → Unset lines "rpcuser" ∨ Unset lines "rpcpassword" → connectConf lines port = .error .keyError) ∧
    (∀ {p ssl u w}, PortIs lines port p → SslIs lines ssl → Setting lines "rpcuser" u → Setting lines "rpcpassword" w → UrlSafe (u ++ w) → 65535 < p →
      connectConf lines port = .error .valueError) := by
  refine ⟨fun h1 h2 => ?_, fun h1 h2 h3 => ?_, fun h1 h2 h3 => ?_, fun {p ssl u w} hp hs hu hw h hr => ?_⟩
  · unfold connectConf confUrl confPort
    rw [confGet_setting h1]
    simp only
    rename_i s
    cases hi : pyInt s with
    | ok i => exact absurd ⟨i, (pyInt_iff _ _).mp hi⟩ h2
    | error e => rw [pyInt_error s e hi]; rfl
  · unfold connectConf confUrl
    rw [confPort_of h1, Except.bind_ok, confGet_setting h2]
    unfold confSsl
    simp only [Option.getD_some]
    simp only [List.mem_cons, List.not_mem_nil, or_false, not_or] at h3
    rw [if_neg (by tauto), if_neg (by tauto)]
    rfl
  · unfold connectConf confUrl
    rw [confPort_of h1, Except.bind_ok, confSsl_of h2, Except.bind_ok]
    unfold confNeed
    rcases h3 with h3 | h3
    · rw [confGet_unset h3]
      rfl
    · rw [confGet_unset h3]
      cases confGet lines "rpcuser" <;> rfl
  · have hr' : 0 ≤ p := by omega
    unfold connectConf
    rw [confUrl_of hp hs hu hw, Except.bind_ok]
    simp only
    obtain ⟨h1, h2, h3⟩ := h
    have safe : ∀ c ∈ u ++ w, stopChar c = false := by
      intro c hc
      cases hs : stopChar c with
      | false => rfl
      | true =>
        rcases (stopChar_iff c).mp hs with rfl | rfl | rfl
        · exact absurd hc h1
        · exact absurd hc h2
        · rcases List.mem_append.mp hc with h | h
          · exact absurd h hu.no_hash
          · exact absurd h hw.no_hash
    rw [connect_def, conf_whole hr' safe, if_neg (by simpa [bracket_conf hr'] using h3), hostPort_conf hr']
    rw [urlPort_big hr]
    rfl
end

namespace Ex

/-- A configuration file. -/
def conf (u w : String) : List Str := ["# my node".toList, ("rpcuser = ".toList ++ u.toList), "server=1  # of course".toList, "rpcpassword=".toList ++ w.toList ++ " # secret".toList]

theorem assigns_simple {k v : Str} (hk : '=' ∉ k ∧ '#' ∉ k) (hv : '#' ∉ v) (h1 : Trimmed k) (h2 : Trimmed v) : Assigns (k ++ '=' :: v) k v :=
  ⟨⟨[], [], [], [], [], by simp, nofun, nofun, nofun, nofun, .inl rfl⟩, hk, hv, h1, h2⟩

end Ex

/-- It connects to the right place with `@` and `:` in name and password; with a slash in the password it asks the host with the name of the user, on a port
that is the beginning of the password, and sends no password; with another slash there is no such port. -/
example : connectConf (Ex.conf "al:ice" "p@ss:w[o]rd") 8332 = .ok ⟨false, some "localhost".toList, 8332, "al:ice:p@ss:w[o]rd".toList, []⟩ ∧
    connectConf (Ex.conf "alice.example.com" "80/secret") 8332 = .ok ⟨false, some "alice.example.com".toList, 80, "None:None".toList, "/secret@localhost:8332".toList⟩ ∧
    connectConf (Ex.conf "alice" "pass/word") 8332 = .error .valueError ∧
    connectConf (Ex.conf "alice" "pass[word") 8332 = .error .valueError ∧
    connectConf (Ex.conf "alice" "word" ++ ["rpcport=0x10".toList]) 8332 = .error .valueError ∧
    connectConf (Ex.conf "alice" "word" ++ ["rpcport = 18_332".toList, "rpcssl=True".toList]) 8332 = .ok ⟨true, some "localhost".toList, 18332, "alice:word".toList, []⟩ := by
  decide +kernel

theorem confLine_unset {lines : List Str} {k : String} (h : ∀ l ∈ lines, ∀ kv, confLine l = some kv → kv.1 ≠ k.toList) : Unset lines k :=
  fun l hl v hv => h l hl _ ((confLine_iff _ _ _).mpr hv) rfl

theorem confLine_setting {l1 l2 : List Str} {line : Str} {k : String} {v : Str} (h : confLine line = some (k.toList, v)) (h2 : ∀ l ∈ l2, ∀ kv, confLine l = some kv → kv.1 ≠ k.toList) :
    Setting (l1 ++ line :: l2) k v := ⟨l1, line, l2, rfl, (confLine_iff _ _ _).mp h, confLine_unset h2⟩

instance {α} {o : Option α} {p : α → Prop} [DecidablePred p] : Decidable (∀ a, o = some a → p a) :=
  match o with
  | none => .isTrue nofun
  | some a => if h : p a then .isTrue (by rintro _ ⟨⟩; exact h) else .isFalse fun g => h (g a rfl)

/-- False: the password `80/secret`. -/
theorem C123_refuted : ¬ C123_statement := by
  intro h
  have h1 := h (Ex.conf "alice.example.com" "80/secret") 8332 8332 false "alice.example.com".toList "80/secret".toList (.unset (confLine_unset (by decide +kernel))) (by decide)
    (.unset (confLine_unset (by decide +kernel)))
    (confLine_setting (l1 := ["# my node".toList]) (line := "rpcuser = alice.example.com".toList)
      (l2 := ["server=1  # of course".toList, "rpcpassword=".toList ++ "80/secret".toList ++ " # secret".toList]) (by decide +kernel) (by decide +kernel))
    (confLine_setting (l1 := ["# my node".toList, "rpcuser = alice.example.com".toList, "server=1  # of course".toList])
      (line := "rpcpassword=".toList ++ "80/secret".toList ++ " # secret".toList) (l2 := []) (by decide +kernel) (by decide +kernel))
  have h2 : connectConf (Ex.conf "alice.example.com" "80/secret") 8332 = .ok ⟨false, some "alice.example.com".toList, 80, "None:None".toList, "/secret@localhost:8332".toList⟩ := by
    decide +kernel
  rw [h2] at h1
  exact absurd (congrArg Conn.port (Except.ok.inj h1)) (by decide)

end Verif.Rpc
