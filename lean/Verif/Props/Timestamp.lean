import Verif.Model.Timestamp
import Verif.Model.Sha256
import Verif.Lemmas.Codec
/-!
# C136: timestamp-op-ret.py
-/
namespace Verif.Stamp
open Verif Btc Rpc
open Verif.Sus (Str unhex)

/-- C136, the claim, as weak as possible: there is a node for which the program, given something to timestamp, ends normally. -/
def C136_statement : Prop := ∃ (σ : Type) (H : HashFns) (files : Str → File) (lines : List Str) (node : Conn → Server σ) (s : σ) (argv : List Str),
  (∃ d ds, digests H files argv = .ok (d :: ds)) ∧ (run H files lines node s argv).1 = .ok ()

/-- The name is not imported: `__all__` of `bitcoin.core` does not have it. -/
theorem useName_script : useName "script" = .error .nameError := by
  unfold useName
  rw [if_neg (by decide +kernel)]

section
variable {σ : Type}

theorem bind_error {α β : Type} {x : RM σ α} {f : α → RM σ β} (h : ∀ a s, ∃ e s', f a s = (.error e, s')) (s : PSt σ) : ∃ e s', (x >>= f) s = (.error e, s') := by
  change ∃ e s', RM.bind x f s = (.error e, s')
  unfold RM.bind
  split
  · exact h _ _
  · exact ⟨_, _, rfl⟩

/-- One digest ends in an exception, whatever the node does. -/
theorem stamp_error (S : Server σ) (H : HashFns) (p : Prefixes) (d : Bytes) (s : PSt σ) : ∃ e s', stamp S H p d s = (.error e, s') := by
  unfold stamp
  refine bind_error (fun a s => bind_error (fun b s => bind_error (fun c s => bind_error (fun g s => bind_error (fun i s => bind_error (fun j s => ?_) s) s) s) s) s) s
  rw [useName_script]
  exact ⟨_, _, rfl⟩

/-- Nothing that holds of the node before, and that answering these requests does not change, is changed. -/
def Keeps {α : Type} (Q : σ → Prop) (x : RM σ α) : Prop := ∀ s, Q s.node → Q (x s).2.node

theorem Keeps.bind {α β : Type} {Q : σ → Prop} {x : RM σ α} {f : α → RM σ β} (hx : Keeps Q x) (hf : ∀ a, Keeps Q (f a)) : Keeps Q (x >>= f) := fun s hs => by
  have h := hx s hs
  change Q (RM.bind x f s).2.node
  unfold RM.bind
  split
  · rename_i e
    rw [e] at h
    exact hf _ _ h
  · rename_i e
    rw [e] at h
    exact h

theorem Keeps.lift {α : Type} {Q : σ → Prop} (x : Py α) : Keeps Q (RM.lift x) := fun _ hs => hs

theorem Keeps.call {Q : σ → Prop} {S : Server σ} {m : Str} (h : ∀ s ps i, Q s → Q (S.handle s ⟨m, ps, i⟩).2) (ps : List Json) : Keeps Q (call S m ps) := fun _ hs => h _ _ _ hs

/-- The requests that the program can make. -/
def Asked (m : Str) : Prop := m = T "listunspent" ∨ m = T "getnewaddress" ∨ m = T "validateaddress"

theorem stamp_keeps {Q : σ → Prop} {S : Server σ} (h : ∀ s m ps i, Asked m → Q s → Q (S.handle s ⟨m, ps, i⟩).2) (H : HashFns) (p : Prefixes) (d : Bytes) : Keeps Q (stamp S H p d) := by
  unfold stamp
  refine Keeps.bind ?_ fun _ => Keeps.bind ?_ fun _ => Keeps.bind ?_ fun _ => Keeps.bind ?_ fun _ => Keeps.bind (.lift _) fun _ => Keeps.bind (.lift _) fun _ => .lift _
  · exact Keeps.bind (.lift _) fun _ => Keeps.bind (.call (fun s ps i => h s _ ps i (.inl rfl)) _) fun _ => .lift _
  · exact .lift _
  · exact Keeps.bind (.call (fun s ps i => h s _ ps i (.inr (.inl rfl))) _) fun _ => .lift _
  · exact Keeps.bind (.lift _) fun _ => Keeps.bind (.call (fun s ps i => h s _ ps i (.inr (.inr rfl))) _) fun _ => .lift _

theorem stampAll_cons (S : Server σ) (H : HashFns) (p : Prefixes) (d : Bytes) (ds : List Bytes) (s : PSt σ) : stampAll S H p (d :: ds) s = stamp S H p d s := by
  obtain ⟨e, s', h⟩ := stamp_error S H p d s
  change RM.bind (stamp S H p d) _ s = _
  unfold RM.bind
  rw [h]

/-- C136, exactly: the program ends normally if and only if bitcoin.conf can be used, there is an argument, and nothing at all is found to timestamp: every
argument is a file that exists and cannot be read. -/
theorem C136_ends_partial (H : HashFns) (files : Str → File) (lines : List Str) (node : Conn → Server σ) (s : σ) (argv : List Str) :
    (run H files lines node s argv).1 = .ok () ↔ (∃ c, connectNow atImport lines = .ok c) ∧ argv ≠ [] ∧ ∀ f ∈ argv, files f = .ioError := by
  have key : ∀ argv, digests H files argv = .ok [] ↔ ∀ f ∈ argv, files f = .ioError := by
    intro argv
    induction argv with
    | nil => simp [digests]
    | cons f fs ih =>
      rw [digests]
      cases hf : files f with
      | data b =>
        refine iff_of_false (fun h => ?_) (fun h => ?_)
        · obtain ⟨ds, -, h2⟩ := Except.bind_eq_ok h
          cases h2
        · have := h f (List.mem_cons_self ..)
          rw [hf] at this
          cases this
      | notFound =>
        refine iff_of_false (fun h => ?_) (fun h => ?_)
        · simp only at h
          split at h
          · obtain ⟨d, -, h2⟩ := Except.bind_eq_ok h
            obtain ⟨ds, -, h2⟩ := Except.bind_eq_ok h2
            cases h2
          · cases h
        · have := h f (List.mem_cons_self ..)
          rw [hf] at this
          cases this
      | ioError =>
        simp only
        rw [ih]
        constructor
        · intro h g hg
          rcases List.mem_cons.mp hg with rfl | hg
          · exact hf
          · exact h g hg
        · exact fun h g hg => h g (List.mem_cons_of_mem _ hg)
  rw [← key]
  unfold run
  cases hc : connectNow atImport lines with
  | error e => exact iff_of_false (fun h => by cases h) (fun h => by obtain ⟨⟨c, h⟩, -⟩ := h; cases h)
  | ok c =>
    simp only
    by_cases ha : argv = []
    · rw [if_pos ha]
      exact iff_of_false (fun h => by cases h) (fun h => h.2.1 ha)
    · rw [if_neg ha]
      cases hd : digests H files argv with
      | error e => exact iff_of_false (fun h => by cases h) (fun h => by cases h.2.2)
      | ok ds =>
        cases ds with
        | nil => exact iff_of_true rfl ⟨⟨c, rfl⟩, ha, rfl⟩
        | cons d ds =>
          refine iff_of_false (fun h => ?_) (fun h => by cases h.2.2)
          simp only at h
          rw [stampAll_cons] at h
          obtain ⟨e, s', h2⟩ := stamp_error (node c) H atImport.params.prefixes d ⟨0, s⟩
          rw [h2] at h
          cases h

/-- C136: the node is asked nothing but `listunspent`, `getnewaddress` and `validateaddress`: whatever these leave as it is, for instance which transactions
were signed and sent, is left as it is by the program. -/
theorem C136_harmless_partial {Q : σ → Prop} {node : Conn → Server σ} (h : ∀ c s m ps i, Asked m → Q s → Q ((node c).handle s ⟨m, ps, i⟩).2) (H : HashFns) (files : Str → File)
    (lines : List Str) {s : σ} (hs : Q s) (argv : List Str) : Q (run H files lines node s argv).2 := by
  unfold run
  split
  · exact hs
  · split
    · exact hs
    · split
      · exact hs
      · rename_i c _ _ _ ds _
        cases ds with
        | nil => exact hs
        | cons d ds =>
          simp only
          rw [stampAll_cons]
          exact stamp_keeps (h c) H _ d _ hs

end

/-- C136 is false: the name `script` (line 58) was not imported. -/
theorem C136_refuted : ¬ C136_statement := by
  rintro ⟨σ, H, files, lines, node, s, argv, ⟨d, ds, hd⟩, h⟩
  obtain ⟨-, ha, hf⟩ := (C136_ends_partial H files lines node s argv).mp h
  have : ∀ argv, (∀ f ∈ argv, files f = .ioError) → digests H files argv = .ok [] := by
    intro argv
    induction argv with
    | nil => intro _; rfl
    | cons f fs ih =>
      intro h
      rw [digests, h f (List.mem_cons_self ..)]
      exact ih fun g hg => h g (List.mem_cons_of_mem _ hg)
  rw [this argv hf] at hd
  cases hd

/-- A node with one unspent output and a key, that counts what is signed and sent. -/
def exNode : Server Nat := ⟨fun s r =>
  let ok (j : Json) : Option Json := some (.obj [(T "error", .null), (T "result", j)])
  let a : Json := .str (T "1A1zP1eP5QGefi2DMPTfTL5SLmv7DivfNa")
  if r.method = T "listunspent" then (ok (.arr [.obj [(T "txid", .str (List.replicate 64 '0')), (T "vout", .int 0), (T "address", a), (T "scriptPubKey", .str []), (T "amount", .dec 1 0)]]), s)
  else if r.method = T "getnewaddress" then (ok a, s)
  else if r.method = T "validateaddress" then (ok (.obj [(T "isvalid", .bool true), (T "address", a), (T "pubkey", .str (T "00"))]), s)
  else (none, s + 1)⟩

def dies : Except RErr Unit × Nat → Option (Option PyErr × Nat)
  | (.error (.py e), n) => some (some e, n)
  | (.error (.rpc _), n) => some (none, n)
  | (.ok (), _) => none

/-- With it, all three requests are answered, and the program dies of `NameError`. -/
example : dies (run realHash (fun _ => .data []) [T "rpcuser=a\n", T "rpcpassword=b\n"] (fun _ => exNode) 0 [T "file"]) = some (some .nameError, 0) := by decide +kernel

/-- Its hypotheses can be met. -/
example (c : Nat) : ∀ s m ps i, Asked m → s = c → (exNode.handle s ⟨m, ps, i⟩).2 = c := by
  rintro s m ps i (rfl | rfl | rfl) rfl <;> rfl

end Verif.Stamp
