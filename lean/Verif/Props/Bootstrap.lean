import Verif.Model.Bootstrap
import Verif.Spec.Bootstrap
import Verif.Props.Chain
import Verif.Props.RpcNode
import Verif.Props.RpcExamples
/-! # C128: examples/make-bootstrap-rpc.py -/
namespace Verif.Boot
open Verif Btc Rpc
open Verif.Sus (Str pyInt)

variable {σ : Type} {S : Server σ} {H : HashFns} {magic : Bytes} {clock : Nat → Bool}

theorem answers_later {s : PSt σ} {m : String} {ps : List Json} {r : Json} {t : σ} (h : Answers S s m ps r t) {s0 : σ} (hl : Later S s0 s.node) : Later S s0 t := by
  obtain ⟨l, h1, _⟩ := h
  have : t = (S.handle s.node ⟨m.toList, ps, s.count + 1⟩).2 := by rw [h1]
  rw [this]
  exact .step _ hl

theorem packS_length {b : Bytes} (h : b.length < 2 ^ 31) : packS 4 b.length = .ok (leBytes 4 b.length) := by
  unfold packS
  rw [if_pos ⟨by omega, by omega⟩]
  congr 2
  omega

theorem packS_long {b : Bytes} (h : ¬ b.length < 2 ^ 31) : packS 4 b.length = .error .structError := by
  unfold packS
  rw [if_neg (by omega)]

/-! ## Any node -/

/-- The block that the node gives for a height, in the states `st` to `st'`. -/
def Gives (S : Server σ) (H : HashFns) (i : Nat) (raw : Bytes) (st st' : PSt σ) : Prop :=
  ∃ hash b st1, getblockhash S i st = (.ok hash, st1) ∧ getblock S H hash st1 = (.ok b, st') ∧ b.ser = .ok raw

theorem bind_cases {α β : Type} {x : RM σ α} {f : α → RM σ β} {s : PSt σ} {b : β} {s' : PSt σ} (h : (x >>= f) s = (.ok b, s')) :
    ∃ a s1, x s = (.ok a, s1) ∧ f a s1 = (.ok b, s') := by
  change RM.bind x f s = _ at h
  unfold RM.bind at h
  split at h
  · exact ⟨_, _, by assumption, h⟩
  · cases h

theorem blockBytes_ok {i : Nat} {raw : Bytes} {st st' : PSt σ} : blockBytes S H clock i st = (.ok raw, st') ↔ Gives S H i raw st st' ∧ clock i = true := by
  unfold blockBytes
  constructor
  · intro h
    obtain ⟨hash, st1, h1, h⟩ := bind_cases h
    obtain ⟨b, st2, h2, h⟩ := bind_cases h
    obtain ⟨raw', st3, h3, h⟩ := bind_cases h
    have e3 : b.ser = .ok raw' ∧ st2 = st3 := by
      unfold RM.lift at h3
      cases e : b.ser with
      | ok a => rw [e] at h3; cases h3; exact ⟨rfl, rfl⟩
      | error e' => rw [e] at h3; cases h3
    have e4 : clock i = true ∧ st3 = st' ∧ raw' = raw := by
      by_cases hc : clock i = false
      · simp only [hc, if_true] at h
        obtain ⟨_, _, h4, _⟩ := bind_cases h
        cases h4
      · simp only [hc, if_false] at h
        cases h
        exact ⟨by simpa using hc, rfl, rfl⟩
    obtain ⟨e3, rfl⟩ := e3
    obtain ⟨e4, rfl, rfl⟩ := e4
    exact ⟨⟨hash, b, st1, h1, h2, e3⟩, e4⟩
  · rintro ⟨⟨hash, b, st1, h1, h2, h3⟩, h4⟩
    rw [RM.bind_ok h1, RM.bind_ok h2, RM.bind_ok (RM.lift_ok h3), if_neg (by simp [h4])]
    rfl

/-- One block after the other, from a height on. -/
inductive GivesAll (S : Server σ) (H : HashFns) : Nat → List Bytes → PSt σ → PSt σ → Prop where
  | nil {i st} : GivesAll S H i [] st st
  | cons {i raw l st st1 st2} : Gives S H i raw st st1 → GivesAll S H (i + 1) l st1 st2 → GivesAll S H i (raw :: l) st st2

theorem step_of {i : Nat} {raw : Bytes} {st st' : PSt σ} {p : Py Bytes} (h : blockBytes S H clock i st = (.ok raw, st')) (hp : packS 4 raw.length = p) :
    step S H magic clock i st = write magic raw p st' := by
  subst hp
  unfold step
  simp only [h]

theorem step_cases (i : Nat) (st : PSt σ) :
    (∃ raw st', Gives S H i raw st st' ∧ clock i = true ∧ raw.length < 2 ^ 31 ∧ step S H magic clock i st = (magic ++ (leBytes 4 raw.length ++ raw), .done, st')) ∨
    (∃ e st', step S H magic clock i st = ([], .died e, st')) ∨
    (∃ e raw st', Gives S H i raw st st' ∧ ¬ raw.length < 2 ^ 31 ∧ step S H magic clock i st = (magic, .died e, st')) := by
  rcases h : blockBytes S H clock i st with ⟨r, st'⟩
  cases r with
  | error e =>
    refine .inr (.inl ⟨e, st', ?_⟩)
    unfold step
    rw [h]
  | ok raw =>
    obtain ⟨h1, h2⟩ := blockBytes_ok.mp h
    by_cases hl : raw.length < 2 ^ 31
    · exact .inl ⟨raw, st', h1, h2, hl, step_of h (packS_length hl)⟩
    · exact .inr (.inr ⟨_, raw, st', h1, hl, step_of h (packS_long hl)⟩)

theorem loop_any : ∀ (k i : Nat) (st : PSt σ), ∃ l stop st', l.length ≤ k ∧ GivesAll S H i l st stop ∧
    (∃ o, Records magic l o ∧ ((loop S H magic clock i k st = (o, .done, st') ∧ l.length = k) ∨
      ∃ e, l.length < k ∧ (loop S H magic clock i k st = (o, .died e, st') ∨
        loop S H magic clock i k st = (o ++ magic, .died e, st') ∧ ∃ raw s, Gives S H (i + l.length) raw stop s ∧ 2 ^ 31 ≤ raw.length)))
  | 0, i, st => ⟨[], st, st, le_refl _, .nil, [], .nil, .inl ⟨rfl, rfl⟩⟩
  | k + 1, i, st => by
    rcases step_cases (S := S) (H := H) (magic := magic) (clock := clock) i st with ⟨raw, st1, h1, h2, h3, h4⟩ | ⟨e, st', h⟩ | ⟨e, raw, st', h1, h2, h⟩
    · obtain ⟨l, stop, st', g1, g2, o, g3, g4⟩ := loop_any k (i + 1) st1
      have hl : loop S H magic clock i (k + 1) st = (magic ++ (leBytes 4 raw.length ++ raw) ++ (loop S H magic clock (i + 1) k st1).1, (loop S H magic clock (i + 1) k st1).2) := by
        rw [loop]
        simp only [h4]
      refine ⟨raw :: l, stop, st', by simpa using g1, .cons h1 g2, _, .cons h3 g3, ?_⟩
      rcases g4 with ⟨g4, g5⟩ | ⟨e, g5, g4 | ⟨g4, raw', s, g6, g7⟩⟩
      · refine .inl ⟨?_, by simpa using g5⟩
        rw [hl, g4]
        simp only [List.append_assoc]
      · refine .inr ⟨e, by simpa using g5, .inl ?_⟩
        rw [hl, g4]
        simp only [List.append_assoc]
      · refine .inr ⟨e, by simpa using g5, .inr ⟨?_, raw', s, ?_, g7⟩⟩
        · rw [hl, g4]
          simp only [List.append_assoc]
        · rw [List.length_cons, Nat.add_comm l.length, ← Nat.add_assoc]
          exact g6
    · refine ⟨[], st, st', Nat.zero_le _, .nil, [], .nil, .inr ⟨e, by simp, .inl ?_⟩⟩
      rw [loop]
      simp only [h]
    · refine ⟨[], st, st', Nat.zero_le _, .nil, [], .nil, .inr ⟨e, by simp, .inr ⟨?_, raw, st', h1, by omega⟩⟩⟩
      rw [loop]
      simp only [h]
      rfl

/-! ## A node with a chain -/

theorem gives_serves {s0 : σ} {chain : List Bytes} (hs : Serves H S s0 chain) {i : Nat} {raw : Bytes} (hi : chain[i]? = some raw) {b : CBlock} (hb : b.ser = .ok raw)
    (hf : ∀ x ∈ b.vtx, x.ScriptsFit) {st : PSt σ} (hl : Later S s0 st.node) : ∃ st', Gives S H i raw st st' ∧ Later S s0 st'.node := by
  obtain ⟨⟨t, ht⟩, _⟩ := hs st hl i raw hi
  have hl1 := answers_later ht hl
  obtain ⟨_, ⟨u, hu⟩⟩ := hs ⟨st.count + 1, t⟩ hl1 i raw hi
  refine ⟨⟨st.count + 1 + 1, u⟩, ⟨H.hash256 (raw.take 80), b, ⟨st.count + 1, t⟩, ?_, ?_, hb⟩, answers_later hu hl1⟩
  · exact C119_blockhash ((Sus.unhex_iff _ _).mp (unhex_hexText _)) ht
  · exact C119_getblock hb hf ((Sus.unhex_iff _ _).mp (unhex_hexText _)) hu

theorem loop_serves {s0 : σ} {chain : List Bytes} (hs : Serves H S s0 chain)
    (hb : ∀ raw ∈ chain, raw.length < 2 ^ 31 ∧ ∃ b : CBlock, b.ser = .ok raw ∧ ∀ x ∈ b.vtx, x.ScriptsFit) (hc : ∀ i, clock i = true) :
    ∀ (k i : Nat) (st : PSt σ), i + k ≤ chain.length → Later S s0 st.node → ∃ o st', loop S H magic clock i k st = (o, .done, st') ∧ Records magic ((chain.drop i).take k) o
  | 0, i, st, _, _ => ⟨[], st, rfl, by rw [List.take_zero]; exact .nil⟩
  | k + 1, i, st, hk, hl => by
    have hi : i < chain.length := by omega
    have hx : chain[i]? = some chain[i] := List.getElem?_eq_getElem hi
    obtain ⟨h1, b, h2, h3⟩ := hb _ (List.getElem_mem hi)
    obtain ⟨st1, g1, g2⟩ := gives_serves hs hx h2 h3 hl
    obtain ⟨o, st', g3, g4⟩ := loop_serves hs hb hc k (i + 1) st1 (by omega) g2
    have hst : step S H magic clock i st = (magic ++ (leBytes 4 chain[i].length ++ chain[i]), .done, st1) :=
      step_of (blockBytes_ok.mpr ⟨g1, hc i⟩) (packS_length h1)
    refine ⟨magic ++ (leBytes 4 chain[i].length ++ (chain[i] ++ o)), st', ?_, ?_⟩
    · rw [loop]
      simp only [hst, g3, List.append_assoc]
    · rw [List.drop_eq_getElem_cons hi, List.take_succ_cons]
      exact .cons h1 g4

/-! ## C128 -/

/-- The network that is named by the arguments, if there is one. -/
inductive Chooses : List Str → Network → Prop where
  | none : Chooses [] .main
  | some (n : Network) : Chooses [n.name] n

theorem arguments_ok {prog arg : Str} {n : Int} (hn : pyInt arg = .ok n) {more : List Str} {net : Network} (hm : Chooses more net) :
    ∃ g, arguments (prog :: arg :: more) atImport = some (n, g) ∧ g.params.magic = net.startBytes ∧ g.params.rpcPort = net.rpc := by
  cases hm with
  | none => exact ⟨atImport, by simp only [arguments, hn], rfl, rfl⟩
  | some =>
    refine ⟨chosen net, ?_, ?_, ?_⟩
    · simp only [arguments, hn, selectParams_named]
    · cases net <;> rfl
    · cases net <;> rfl

/-- C128: from a node that has a chain the program writes the blocks up to the height given, as records of the network chosen; it asks the node on the port of this network. -/
theorem C128_chain {lines : List Str} {node : Conn → Server σ} {s : σ} {prog arg : Str} {n : Nat} (hn : pyInt arg = .ok (n : Int)) {more : List Str} {net : Network} (hm : Chooses more net)
    {conn : Conn} (hc : connectConf lines net.rpc = .ok conn) {chain : List Bytes} (hs : Serves H (node conn) s chain)
    (hb : ∀ raw ∈ chain, raw.length < 2 ^ 31 ∧ ∃ b : CBlock, b.ser = .ok raw ∧ ∀ x ∈ b.vtx, x.ScriptsFit) (hl : n < chain.length) (hk : ∀ i, clock i = true) :
    ∃ o, run H clock lines node s (prog :: arg :: more) = (o, .done) ∧ Records net.startBytes (chain.take (n + 1)) o := by
  obtain ⟨g, h1, h2, h3⟩ := arguments_ok (prog := prog) hn hm
  obtain ⟨o, st', g1, g2⟩ := loop_serves (magic := net.startBytes) hs hb hk (n + 1) 0 ⟨0, s⟩ (by omega) .now
  refine ⟨o, ?_, g2⟩
  unfold run
  rw [h1]
  simp only [connectNow, h3, hc, h2]
  rw [show ((n : Int) + 1).toNat = n + 1 by omega, g1]

/-- C128: whatever the node does, and however the program ends, what it has written are the blocks that the node gave for the first heights, as records, and all
of them if it ends normally.  Just when a block has at least 2^31 bytes, there are the first bytes of another record. -/
theorem C128_any {lines : List Str} {node : Conn → Server σ} {s : σ} {prog arg : Str} {n : Int} (hn : pyInt arg = .ok n) {more : List Str} {net : Network} (hm : Chooses more net)
    {conn : Conn} (hc : connectConf lines net.rpc = .ok conn) :
    ∃ l o stop, Records net.startBytes l o ∧ GivesAll (node conn) H 0 l ⟨0, s⟩ stop ∧
      ((run H clock lines node s (prog :: arg :: more) = (o, .done) ∧ l.length = (n + 1).toNat) ∨
       (∃ e, l.length < (n + 1).toNat ∧ (run H clock lines node s (prog :: arg :: more) = (o, .died e) ∨
          run H clock lines node s (prog :: arg :: more) = (o ++ net.startBytes, .died e) ∧ ∃ raw s', Gives (node conn) H l.length raw stop s' ∧ 2 ^ 31 ≤ raw.length))) := by
  obtain ⟨g, h1, h2, h3⟩ := arguments_ok (prog := prog) hn hm
  obtain ⟨l, stop, st', _, g2, o, g3, g4⟩ := loop_any (S := node conn) (H := H) (magic := net.startBytes) (clock := clock) (n + 1).toNat 0 ⟨0, s⟩
  have hr : run H clock lines node s (prog :: arg :: more) =
      ((loop (node conn) H net.startBytes clock 0 (n + 1).toNat ⟨0, s⟩).1, (loop (node conn) H net.startBytes clock 0 (n + 1).toNat ⟨0, s⟩).2.1) := by
    unfold run
    rw [h1]
    simp only [connectNow, h3, hc, h2]
  refine ⟨l, o, stop, g3, g2, ?_⟩
  rw [hr]
  rcases g4 with ⟨g4, g5⟩ | ⟨e, g5, g4 | ⟨g4, raw, s', g6, g7⟩⟩
  · exact .inl ⟨by rw [g4], g5⟩
  · exact .inr ⟨e, g5, .inl (by rw [g4])⟩
  · refine .inr ⟨e, g5, .inr ⟨by rw [g4], raw, s', by rwa [Nat.zero_add] at g6, g7⟩⟩

/-- C128: any other arguments give the usage message, and nothing is written. -/
theorem C128_usage {lines : List Str} {node : Conn → Server σ} {s : σ} {argv : List Str}
    (h : ∀ prog arg more net n, pyInt arg = .ok n → Chooses more net → argv ≠ prog :: arg :: more) : run H clock lines node s argv = ([], .usage) := by
  have : arguments argv atImport = none := by
    unfold arguments
    split
    · rename_i prog arg
      cases e : pyInt arg with
      | ok n => exact absurd rfl (h prog arg [] .main n e .none)
      | error _ => rfl
    · rename_i prog arg network
      cases e : pyInt arg with
      | error _ => rfl
      | ok n =>
        cases hn : Network.named network with
        | none => simp only [selectParams_other hn]
        | some net =>
          have := named_some.mp hn
          subst this
          exact absurd rfl (h prog arg _ net n e (.some net))
    · rfl
  unfold run
  rw [this]

/-- C128: the records can be read back: there is one list of data that a file consists of. -/
theorem C128_readable {start : Bytes} : ∀ {l l' : List Bytes} {o : Bytes}, start.length = 4 → Records start l o → Records start l' o → l = l'
  | [], [], _, _, _, _ => rfl
  | [], raw :: l', o, hs, h, h' => by
    cases h
    generalize ho : ([] : Bytes) = o at h'
    cases h' with
    | cons _ _ =>
      have := congrArg List.length ho
      simp only [List.length_nil, List.length_append, hs] at this
      omega
  | raw :: l, [], o, hs, h, h' => by
    cases h'
    generalize ho : ([] : Bytes) = o at h
    cases h with
    | cons _ _ =>
      have := congrArg List.length ho
      simp only [List.length_nil, List.length_append, hs] at this
      omega
  | raw :: l, raw' :: l', o, hs, h, h' => by
    cases h with
    | @cons _ _ rest a b =>
      generalize ho : start ++ (leBytes 4 raw.length ++ (raw ++ rest)) = o at h'
      cases h' with
      | @cons _ _ rest' a' b' =>
        have h1 := List.append_cancel_left ho
        obtain ⟨h2, h3⟩ := List.append_inj h1 (by rw [leBytes_length, leBytes_length])
        have h4 := congrArg leNat h2
        rw [leNat_leBytes 4 _ (by omega), leNat_leBytes 4 _ (by omega)] at h4
        obtain ⟨rfl, rfl⟩ := List.append_inj h3 h4
        rw [C128_readable hs b b']

/-- C128: what a record has is read as the block it came from. -/
theorem C128_blocks {S : Server σ} {H : HashFns} {i : Nat} {l : List Bytes} {st st' : PSt σ} (h : GivesAll S H i l st st') :
    ∀ raw ∈ l, ∃ b : CBlock, b.ser = .ok raw ∧ ((∀ x ∈ b.vtx, x.ScriptsFit) → deserializeAll (CBlock.deser H) raw = .ok b) := by
  induction h with
  | nil => simp
  | cons h _ ih =>
    intro raw hr
    rcases List.mem_cons.mp hr with rfl | hr
    · obtain ⟨_, b, _, _, _, h⟩ := h
      exact ⟨b, h, fun hf => C88_block_roundtrip h hf⟩
    · exact ih raw hr

/-! ## An example: a node that has just one block -/

namespace Ex

/-- It says always the same of this block. -/
def only (H : HashFns) (raw : Bytes) : Server Unit := ⟨fun _ r =>
  (Rpc.Ex.okR (.str (if r.method = T "getblockhash" then shownHash (H.hash256 (raw.take 80)) else hexText raw)), ())⟩

theorem only_serves (H : HashFns) (raw : Bytes) : Serves H (only H raw) () [raw] := by
  intro p _ i x hi
  have hx : x = raw := by
    cases i with
    | zero => exact (Option.some.inj hi).symm
    | succ i => simp at hi
  subst hx
  exact ⟨⟨(), _, rfl, rfl, rfl⟩, ⟨(), _, rfl, rfl, rfl⟩⟩

/-- The first block of the main network, in a file. -/
example : ∃ raw o, Btc.Ex.genesis.ser = .ok raw ∧
    run realHash (fun _ => true) ["rpcuser=u".toList, "rpcpassword=x".toList] (fun _ => only realHash raw) () ["make-bootstrap-rpc.py".toList, "0".toList] = (o, .done) ∧ o = mainMagic ++ leBytes 4 285 ++ raw := by
  obtain ⟨raw, hr, hl⟩ : ∃ raw, Btc.Ex.genesis.ser = .ok raw ∧ raw.length = 285 := by
    cases h : Btc.Ex.genesis.ser with
    | ok raw => exact ⟨raw, rfl, by
        have : (Btc.Ex.genesis.ser.toOption.map List.length) = some 285 := by decide +kernel
        rw [h] at this
        exact Option.some.inj this⟩
    | error e =>
      have : (Btc.Ex.genesis.ser.toOption.map List.length) = some 285 := by decide +kernel
      rw [h] at this
      cases this
  obtain ⟨conn, hc⟩ : ∃ conn, connectConf ["rpcuser=u".toList, "rpcpassword=x".toList] Network.main.rpc = .ok conn := by
    cases h : connectConf ["rpcuser=u".toList, "rpcpassword=x".toList] Network.main.rpc with
    | ok c => exact ⟨c, rfl⟩
    | error e =>
      have : (connectConf ["rpcuser=u".toList, "rpcpassword=x".toList] Network.main.rpc).toOption.isSome = true := by decide +kernel
      rw [h] at this
      cases this
  obtain ⟨o, h1, h2⟩ := C128_chain (H := realHash) (clock := fun _ => true) (node := fun _ => only realHash raw) (s := ()) (prog := "make-bootstrap-rpc.py".toList) (arg := "0".toList) (n := 0) (by decide +kernel) .none hc
    (only_serves realHash raw) (by
      intro x hx
      rw [List.mem_singleton.mp hx]
      exact ⟨by omega, Btc.Ex.genesis, hr, firstBlock_fit .main⟩) (by simp) (fun _ => rfl)
  refine ⟨raw, o, hr, h1, ?_⟩
  cases h2 with
  | cons _ h =>
    cases h
    rw [hl, List.append_nil, List.append_assoc]
    rfl

end Ex

end Verif.Boot
