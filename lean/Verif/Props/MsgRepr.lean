import Verif.Model.MsgRepr
import Verif.Lemmas.Repr3
import Verif.Props.Net
/-!
# C134: a message can be printed
-/
namespace Verif.Rp
open Verif Verif.Btc Verif.Sus

/-- The claim: whatever message is received, it can be printed, if its time can. -/
def C134_statement : Prop := ∀ (H : HashFns) (ctime : Int → Py Str) (magic s rest : Bytes) (m : Msg), (∀ t, ∃ text, ctime t = .ok text) →
  Msg.streamDeser H magic s = .ok (some m, rest) → ∃ text, reprMsg ctime m = .ok text

/-- A time for the examples. -/
def exTime (_ : Int) : Py Str := .ok "Thu Jan  1 00:00:00 1970".toList

/-- What a node sends that knows a kind of inventory this library does not know, here 4. -/
def newInv : Msg := .inv [⟨4, List.replicate 32 0#8⟩]

theorem C134_refuted : ¬ C134_statement := fun h => by
  have h1 : (do let b ← newInv.toBytes realHash quads mainMagic; Msg.streamDeser realHash mainMagic b) = .ok (some newInv, []) := by decide +kernel
  obtain ⟨b, -, hr⟩ := Except.bind_eq_ok h1
  obtain ⟨text, ht⟩ := h realHash exTime mainMagic b [] newInv (fun t => ⟨_, rfl⟩) hr
  have h2 : reprMsg exTime newInv = .error .keyError := by decide +kernel
  rw [h2] at ht
  cases ht

/-- The kinds of inventory that have a name. -/
def KnownInv (i : CInv) : Prop := 0 ≤ i.type ∧ i.type ≤ 3

/-- What is necessary to print a message. -/
def Printable (ctime : Int → Py Str) : Msg → Prop
  | .version m => (∃ t, ctime m.nTime = .ok t) ∧ m.nNonce ≠ none ∧ m.nStartingHeight ≠ none
  | .inv is => ∀ i ∈ is, KnownInv i
  | .getdata is => ∀ i ∈ is, KnownInv i
  | _ => True

theorem reprInv_ok (i : CInv) : (KnownInv i ∧ ∃ t, reprInv i = .ok t) ∨ (¬ KnownInv i ∧ reprInv i = .error .keyError) := by
  unfold KnownInv reprInv typemap
  by_cases h0 : i.type = 0
  · left; rw [if_pos h0]; exact ⟨by omega, _, rfl⟩
  rw [if_neg h0]
  by_cases h1 : i.type = 1
  · left; rw [if_pos h1]; exact ⟨by omega, _, rfl⟩
  rw [if_neg h1]
  by_cases h2 : i.type = 2
  · left; rw [if_pos h2]; exact ⟨by omega, _, rfl⟩
  rw [if_neg h2]
  by_cases h3 : i.type = 3
  · left; rw [if_pos h3]; exact ⟨by omega, _, rfl⟩
  rw [if_neg h3]
  right
  exact ⟨by omega, rfl⟩

theorem reprInvs_ok (is : List CInv) :
    ((∀ i ∈ is, KnownInv i) ∧ ∃ ts, is.mapM reprInv = .ok ts) ∨ ((¬ ∀ i ∈ is, KnownInv i) ∧ is.mapM reprInv = .error .keyError) := by
  induction is with
  | nil => exact Or.inl ⟨by simp, [], rfl⟩
  | cons i is ih =>
    rcases reprInv_ok i with ⟨h1, t, h2⟩ | ⟨h1, h2⟩
    · rcases ih with ⟨h3, ts, h4⟩ | ⟨h3, h4⟩
      · refine Or.inl ⟨?_, t :: ts, ?_⟩
        · intro j hj
          rcases List.mem_cons.1 hj with rfl | hj
          · exact h1
          · exact h3 j hj
        · rw [List.mapM_cons, h2, h4]; rfl
      · refine Or.inr ⟨fun h => h3 fun j hj => h j (List.mem_cons_of_mem _ hj), ?_⟩
        rw [List.mapM_cons, h2, h4]; rfl
    · refine Or.inr ⟨fun h => h1 (h i (by simp)), ?_⟩
      rw [List.mapM_cons, h2]; rfl

theorem mapM_all {α β} {f : α → Py β} {xs : List α} (h : ∀ x, ∃ y, f x = .ok y) : ∃ ys, xs.mapM f = .ok ys := by
  induction xs with
  | nil => exact ⟨[], rfl⟩
  | cons x xs ih =>
    obtain ⟨y, hy⟩ := h x
    obtain ⟨ys, hys⟩ := ih
    exact ⟨y :: ys, by rw [List.mapM_cons, hy, hys]; rfl⟩

theorem reprTx_ok (l : Bool) (t : CTransaction) : ∃ text, reprTx l t = .ok text := by
  obtain ⟨is, h1⟩ := mapM_all (f := reprTxIn) (xs := t.vin) fun i => by
    obtain ⟨s, -, hs, -⟩ := script_shown i.scriptSig
    exact ⟨_, by rw [reprTxIn, hs]; rfl⟩
  obtain ⟨os, h2⟩ := mapM_all (f := reprTxOut) (xs := t.vout) fun o => by
    obtain ⟨s, -, hs, -⟩ := script_shown o.scriptPubKey
    rw [reprTxOut, hs, Except.bind_ok]
    split
    · exact ⟨_, rfl⟩
    · exact ⟨_, rfl⟩
  exact ⟨_, by rw [reprTx, h1, h2]; rfl⟩

theorem reprVersion_cases (ctime : Int → Py Str) (m : VersionMsg) :
    (∃ text, reprVersion ctime m = .ok text ∧ (∃ t, ctime m.nTime = .ok t) ∧ m.nNonce ≠ none ∧ m.nStartingHeight ≠ none) ∨
    (∃ e, reprVersion ctime m = .error e ∧ (ctime m.nTime = .error e ∨ (e = .typeError ∧ (m.nNonce = none ∨ m.nStartingHeight = none)))) := by
  unfold reprVersion
  cases hc : ctime m.nTime with
  | error e => exact Or.inr ⟨e, rfl, Or.inl rfl⟩
  | ok t =>
    cases hn : m.nNonce with
    | none => exact Or.inr ⟨_, rfl, Or.inr ⟨rfl, Or.inl rfl⟩⟩
    | some n =>
      cases hh : m.nStartingHeight with
      | none => exact Or.inr ⟨_, rfl, Or.inr ⟨rfl, Or.inr rfl⟩⟩
      | some k => exact Or.inl ⟨_, rfl, ⟨t, rfl⟩, by simp, by simp⟩

/-- C134, exactly: `repr` of a message, received or not, fails if and only if something is missing in a `msg_version`, or its time cannot
be shown, or a kind of inventory is unknown. -/
theorem C134_printable_partial (ctime : Int → Py Str) (m : Msg) : (∃ text, reprMsg ctime m = .ok text) ↔ Printable ctime m := by
  have inv : ∀ {is : List CInv} {f : List Str → Str}, (∃ text, (do let ts ← is.mapM reprInv; return f ts : Py Str) = .ok text) ↔ ∀ i ∈ is, KnownInv i := by
    intro is f
    rcases reprInvs_ok is with ⟨h1, ts, h2⟩ | ⟨h1, h2⟩
    · rw [h2]; exact ⟨fun _ => h1, fun _ => ⟨_, rfl⟩⟩
    · rw [h2]; exact ⟨fun ⟨_, h⟩ => (by cases h), fun h => absurd h h1⟩
  cases m with
  | version m =>
    show (∃ text, reprVersion ctime m = .ok text) ↔ ((∃ t, ctime m.nTime = .ok t) ∧ m.nNonce ≠ none ∧ m.nStartingHeight ≠ none)
    rcases reprVersion_cases ctime m with ⟨text, h1, h2⟩ | ⟨e, h1, h2⟩
    · exact ⟨fun _ => h2, fun _ => ⟨text, h1⟩⟩
    · constructor
      · rintro ⟨_, h⟩; rw [h1] at h; cases h
      · rintro ⟨⟨t, a⟩, b, c⟩
        rcases h2 with h2 | ⟨-, h2 | h2⟩
        · rw [h2] at a; cases a
        · exact absurd h2 b
        · exact absurd h2 c
  | inv is => exact inv
  | getdata is => exact inv
  | tx t =>
    obtain ⟨text, ht⟩ := reprTx_ok false t
    exact ⟨fun _ => trivial, fun _ => ⟨_, by rw [reprMsg, ht]; rfl⟩⟩
  | verack => exact ⟨fun _ => trivial, fun _ => ⟨_, rfl⟩⟩
  | addr _ => exact ⟨fun _ => trivial, fun _ => ⟨_, rfl⟩⟩
  | alert _ => exact ⟨fun _ => trivial, fun _ => ⟨_, rfl⟩⟩
  | getblocks _ _ => exact ⟨fun _ => trivial, fun _ => ⟨_, rfl⟩⟩
  | getheaders _ _ => exact ⟨fun _ => trivial, fun _ => ⟨_, rfl⟩⟩
  | headers _ => exact ⟨fun _ => trivial, fun _ => ⟨_, rfl⟩⟩
  | block _ => exact ⟨fun _ => trivial, fun _ => ⟨_, rfl⟩⟩
  | getaddr => exact ⟨fun _ => trivial, fun _ => ⟨_, rfl⟩⟩
  | ping _ => exact ⟨fun _ => trivial, fun _ => ⟨_, rfl⟩⟩
  | pong _ => exact ⟨fun _ => trivial, fun _ => ⟨_, rfl⟩⟩
  | mempool => exact ⟨fun _ => trivial, fun _ => ⟨_, rfl⟩⟩

/-- The fields of a version that was read. -/
theorem version_read {s rest : Bytes} {m : VersionMsg} (h : VersionMsg.deser s = .ok (m, rest)) :
    (m.nStartingHeight ≠ none ↔ 209 ≤ m.nVersion) ∧ (m.nNonce ≠ none ↔ 106 ≤ m.nVersion) := by
  unfold VersionMsg.deser at h
  obtain ⟨v, s1, -, h⟩ := P.bind_inv h
  obtain ⟨sv, s2, -, h⟩ := P.bind_inv h
  obtain ⟨t, s3, -, h⟩ := P.bind_inv h
  obtain ⟨dst, s4, -, h⟩ := P.bind_inv h
  generalize (if unpackS 4 v = 10300 then 300 else unpackS 4 v) = w at h
  by_cases h1 : w ≥ 106
  · rw [if_pos h1] at h
    obtain ⟨frm, s5, -, h⟩ := P.bind_inv h
    obtain ⟨n, s6, -, h⟩ := P.bind_inv h
    obtain ⟨sub, s7, -, h⟩ := P.bind_inv h
    by_cases h2 : w ≥ 209
    · rw [if_pos h2] at h
      obtain ⟨k, s8, -, h⟩ := P.bind_inv h
      cases h
      simp; omega
    · rw [if_neg h2] at h
      cases h
      simp; omega
  · rw [if_neg h1] at h
    cases h
    simp; omega

theorem lookup_mem' {α β} [BEq α] [LawfulBEq α] {k : α} {v : β} : ∀ {l : List (α × β)}, l.lookup k = some v → (k, v) ∈ l
  | [], h => by cases h
  | (a, b) :: l, h => by
    rw [List.lookup_cons] at h
    cases hk : k == a with
    | true =>
      rw [hk] at h
      cases h
      rw [eq_of_beq hk]
      simp
    | false =>
      rw [hk] at h
      exact List.mem_cons_of_mem _ (lookup_mem' h)

/-- A received version was read by `VersionMsg.deser`. -/
theorem version_received {H : HashFns} {magic s rest : Bytes} {m : VersionMsg} (h : Msg.streamDeser H magic s = .ok (some (.version m), rest)) :
    ∃ b r, VersionMsg.deser b = .ok (m, r) := by
  unfold Msg.streamDeser at h
  obtain ⟨head, s1, -, h⟩ := P.bind_inv h
  split at h
  · cases h
  obtain ⟨more, s2, -, h⟩ := P.bind_inv h
  obtain ⟨msg, s3, -, h⟩ := P.bind_inv h
  split at h
  · cases h
  generalize hde : (messagemap H).lookup _ = o at h
  cases o with
  | some de =>
    obtain ⟨r, s4, h4, h⟩ := P.bind_inv h
    obtain ⟨h4, -⟩ := P.lift_inv h4
    have hm : r.1 = .version m := by
      obtain ⟨h, -⟩ := P.pure_inv h
      injection h
    obtain ⟨r1, r2⟩ := r
    simp only at hm
    subst hm
    have hmem := lookup_mem' hde
    clear hde
    simp only [messagemap, List.mem_cons, Prod.mk.injEq, List.not_mem_nil, or_false] at hmem
    rcases hmem with ⟨-, rfl⟩ | ⟨-, rfl⟩ | ⟨-, rfl⟩ | ⟨-, rfl⟩ | ⟨-, rfl⟩ | ⟨-, rfl⟩ | ⟨-, rfl⟩ | ⟨-, rfl⟩ | ⟨-, rfl⟩ | ⟨-, rfl⟩ | ⟨-, rfl⟩ | ⟨-, rfl⟩ | ⟨-, rfl⟩ | ⟨-, rfl⟩ | ⟨-, rfl⟩
    · obtain ⟨vm, s5, h5, h6⟩ := P.bind_inv h4
      obtain ⟨h6, -⟩ := P.pure_inv h6
      injection h6 with h6
      subst h6
      exact ⟨_, _, h5⟩
    all_goals
      exfalso
      first
        | (obtain ⟨_, _, _, h6⟩ := P.bind_inv h4
           obtain ⟨h6, -⟩ := P.pure_inv h6
           cases h6)
        | (obtain ⟨h6, -⟩ := P.pure_inv h4
           cases h6)
  | none =>
    simp only at h
    split at h
    · obtain ⟨h, -⟩ := P.pure_inv h
      cases h
    · cases h

/-- What is necessary to print a message that was received. -/
def PrintableReceived (ctime : Int → Py Str) : Msg → Prop
  | .version m => 209 ≤ m.nVersion ∧ ∃ t, ctime m.nTime = .ok t
  | .inv is => ∀ i ∈ is, KnownInv i
  | .getdata is => ∀ i ∈ is, KnownInv i
  | _ => True

/-- C134: a received message can be printed exactly if it is not a version before 209 or with a time that cannot be shown, and no
inventory of an unknown kind. -/
theorem C134_received_partial {H : HashFns} (ctime : Int → Py Str) {magic s rest : Bytes} {m : Msg}
    (h : Msg.streamDeser H magic s = .ok (some m, rest)) : (∃ text, reprMsg ctime m = .ok text) ↔ PrintableReceived ctime m := by
  rw [C134_printable_partial]
  cases m with
  | version m =>
    obtain ⟨b, r, hv⟩ := version_received h
    obtain ⟨h1, h2⟩ := version_read hv
    show ((∃ t, ctime m.nTime = .ok t) ∧ m.nNonce ≠ none ∧ m.nStartingHeight ≠ none) ↔ (209 ≤ m.nVersion ∧ ∃ t, ctime m.nTime = .ok t)
    rw [h1, h2]
    constructor
    · rintro ⟨a, b, c⟩; exact ⟨c, a⟩
    · rintro ⟨a, b⟩; exact ⟨b, by omega, a⟩
  | _ => exact Iff.rfl

/-- C134: otherwise `repr` raises `KeyError`, or `TypeError`, or what `time.ctime` raises. -/
theorem C134_raises_partial (ctime : Int → Py Str) {m : Msg} {e : PyErr} (h : reprMsg ctime m = .error e) :
    (∃ v, m = .version v ∧ (ctime v.nTime = .error e ∨ (e = .typeError ∧ (v.nNonce = none ∨ v.nStartingHeight = none)))) ∨
    (∃ is, (m = .inv is ∨ m = .getdata is) ∧ e = .keyError ∧ ∃ i ∈ is, ¬ KnownInv i) := by
  have hn : ¬ Printable ctime m := by
    rw [← C134_printable_partial, h]
    rintro ⟨_, h⟩
    cases h
  cases m with
  | version v =>
    refine Or.inl ⟨v, rfl, ?_⟩
    have h' : reprVersion ctime v = .error e := h
    rcases reprVersion_cases ctime v with ⟨text, h1, h2⟩ | ⟨e', h1, h2⟩
    · rw [h1] at h'; cases h'
    · rw [h1] at h'; cases h'; exact h2
  | inv is =>
    rcases reprInvs_ok is with ⟨h1, _⟩ | ⟨h1, h2⟩
    · exact absurd h1 hn
    · have h' : (do let ts ← is.mapM reprInv; return "msg_inv(inv=".toList ++ (reprSeq true ts ++ ")".toList) : Py Str) = .error e := h
      rw [h2] at h'
      cases h'
      push Not at h1
      exact Or.inr ⟨is, Or.inl rfl, rfl, h1⟩
  | getdata is =>
    rcases reprInvs_ok is with ⟨h1, _⟩ | ⟨h1, h2⟩
    · exact absurd h1 hn
    · have h' : (do let ts ← is.mapM reprInv; return "msg_getdata(inv=".toList ++ (reprSeq true ts ++ ")".toList) : Py Str) = .error e := h
      rw [h2] at h'
      cases h'
      push Not at h1
      exact Or.inr ⟨is, Or.inr rfl, rfl, h1⟩
  | _ => exact absurd trivial hn

/-- An old version is received but not printed. -/
example : (do let b ← (Msg.version ⟨208, 1, 0, {}, some {}, some 0, some [], some 0⟩).toBytes realHash quads mainMagic
              let m ← Msg.fromBytes realHash b
              match m with
              | some m => reprMsg exTime m
              | none => .ok []) = .error .typeError := by decide +kernel
/-- Texts of messages. -/
example : reprMsg exTime (.inv [⟨1, [0xab#8]⟩]) = .ok "msg_inv(inv=[CInv(type=TX hash=b'ab')])".toList := by decide +kernel
example : reprMsg exTime (.ping 255) = .ok "msg_ping(0xff)".toList := by decide +kernel
example : reprMsg exTime exVersion = .ok ("msg_version(nVersion=60002 nServices=1 nTime=Thu Jan  1 00:00:00 1970 ".toList ++
  "addrTo=CAddress(nTime=0 nServices=1 ip=0.0.0.0 port=0) addrFrom=CAddress(nTime=0 nServices=1 ip=127.0.0.1 port=8333) ".toList ++
  "nNonce=0x0000000000000007 strSubVer=b'/python-bitcoin-0.0.1/' nStartingHeight=-1)".toList) := by decide +kernel
example : reprBytes [0x27#8, 0x00#8, 0x5c#8] = "b\"'\\x00\\\\\"".toList := by decide +kernel

end Verif.Rp
