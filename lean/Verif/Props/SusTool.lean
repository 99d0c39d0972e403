import Verif.Lemmas.SusTool
import Mathlib.Data.List.Nodup
/-!
# The command line tool

The classes are those of the repository, with any `GuMap` subclass; the hash functions are arbitrary.  A command starts in any
world whose heap a program can get into, in particular in one with an empty heap.
-/
namespace Verif.Sus
open Verif Btc Seal

section
variable {H : HashFns} {g : GuMapDecl}
local notation "C" => classes H g

/-! ## Example data -/

namespace Ex
/-- A seal for the outpoint of the example, as the present code serializes it. -/
def sealBytes (nonce : Bytes) : Bytes := hex "0024af8ef445ce8dd7a4ff0d57ca5d6c866d9b1f6bbb2cc5a1a878147f2ab3c5a69800000000" ++ nonce
/-- A witness. -/
def witnessBytes : Bytes := hex "00" ++ sealBytes Seal.Ex.nonce ++ (hex "000000c901" ++ Seal.Ex.txBytes) ++ (hex "000000c901" ++ Seal.Ex.txBytes)
def nonce2 : Bytes := List.replicate 16 0x01#8
/-- Some files. -/
def world : World := { files := fun f =>
  if f = "a.seal".toList then some (sealBytes Seal.Ex.nonce)
  else if f = "b.seal".toList then some (sealBytes nonce2)
  else if f = "w".toList then some witnessBytes
  else none }
/-- The digest as argument. -/
def digestArg : Str := "deadbeefdeadbeefdeadbeefdeadbeefdeadbeefdeadbeefdeadbeefdeadbeef".toList
theorem reachable : Reachable C H world.heap := Steps.refl
theorem op_valid : Seal.Ex.op.Valid := by decide +kernel
theorem seal_typed {n : Bytes} (hn : n.length = 16) : (sealT Seal.Ex.op n).WellTyped C Cls.btcSeal := by
  obtain ⟨e, he⟩ := COutPoint.ser_total op_valid
  refine ⟨rfl, ⟨rfl, trivial, _, by show (do let b ← Seal.Ex.op.ser; return PrimTy.lenPrefixed b) = _; rw [he]; rfl⟩, ⟨?_, trivial, _, rfl⟩, trivial⟩
  show (if _ then _ else _) = _
  rw [if_neg (by omega)]
end Ex

/-! ## C56 -/

/-- The full C56: `mkseal` succeeds if the file does not exist, and the file then holds a seal for the outpoint. -/
def C56_statement : Prop := ∀ (H : HashFns) (g : GuMapDecl) (w : World) (o : COutPoint) (file : Str), Reachable (classes H g) H w.heap → o.Valid → w.files file = none →
  (mkseal (classes H g) H (b2lx o.hash ++ ':' :: dec o.n) file w).1 = .ok () ∧
  ∃ n, HoldsSeal (classes H g) H (mkseal (classes H g) H (b2lx o.hash ++ ':' :: dec o.n) file w).2.files file (o, n)

/-- What holds of C56: `mkseal` never succeeds.  If the argument is not an outpoint or the file exists, nothing changes; otherwise an empty file
is left behind, and a `KeyError` is reported, because the nonce is missing. -/
theorem C56_mkseal_partial (w : World) (arg file : Str) :
    (∀ e, strToCOutPoint arg = .error e → mkseal C H arg file w = (.error e, w)) ∧
    (∀ o b, strToCOutPoint arg = .ok o → w.files file = some b → mkseal C H arg file w = (.error .systemExit, w)) ∧
    (∀ o, strToCOutPoint arg = .ok o → w.files file = none → (mkseal C H arg file w).1 = .error .keyError ∧ (mkseal C H arg file w).2.out = w.out ∧
      (mkseal C H arg file w).2.files = fun f => if f = file then some [] else w.files f) := by
  refine ⟨fun e he => ?_, fun o b ho hf => ?_, fun o ho hf => ?_⟩
  · unfold mkseal
    rw [TM.bind_of_error (w' := w) (e := e)]
    rw [he]; rfl
  · unfold mkseal
    rw [TM.bind_of_eq (TM.lift_ok ho w), TM.bind_of_error (w' := w) (e := .systemExit)]
    unfold TM.openX
    rw [hf]
  · have hnew : ∀ s : PState, Prf.new C Cls.btcSeal [.prim (.outpoint o)] s = (.error .keyError, (Prf.initClass Cls.btcSeal s).2) := fun s => rfl
    have h5 : TM.openX file .systemExit w = (.ok (), { w with files := fun f' => if f' = file then some [] else w.files f' }) := by
      unfold TM.openX
      rw [hf]
    have : mkseal C H arg file w = (.error .keyError, { w with files := (fun f' => if f' = file then some [] else w.files f'), heap := (Prf.initClass Cls.btcSeal w.heap).2 }) := by
      unfold mkseal
      rw [TM.bind_of_eq (TM.lift_ok ho w), TM.bind_of_eq h5,
        TM.bind_of_error (TM.heap_eq (w := { w with files := fun f' => if f' = file then some [] else w.files f' }) (hnew w.heap))]
    rw [this]
    exact ⟨rfl, rfl, rfl⟩

/-- C56 does not hold. -/
theorem C56_refuted : ¬ C56_statement := by
  intro h
  have h1 := (h realHash intGuMap Ex.world Seal.Ex.op "new".toList Ex.reachable Ex.op_valid (by decide +kernel)).1
  have harg : strToCOutPoint (b2lx Seal.Ex.op.hash ++ ':' :: dec Seal.Ex.op.n) = .ok Seal.Ex.op := by decide +kernel
  rw [((C56_mkseal_partial (H := realHash) (g := intGuMap) Ex.world _ "new".toList).2.2 _ harg (by decide +kernel)).1] at h1
  cases h1

/-- The conditions are met: the outpoint of the example, typed in the usual way; no file `new`. -/
example : strToCOutPoint "98a6c5b32a7f1478a8a1c52cbb6b1f9b6d866c5dca570dffa4d78dce45f48eaf:0".toList = .ok Seal.Ex.op ∧ Ex.world.files "new".toList = none ∧
    Ex.world.files "a.seal".toList ≠ none ∧ strToCOutPoint "98a6:0".toList = .error .systemExit := by decide +kernel

/-! ## C57 -/

/-- The full C57: if `mkclosetx` succeeds, it prints a transaction that spends the outpoints of the seals in the files, in order, and no outpoint
twice. -/
def C57_statement : Prop := ∀ (H : HashFns) (g : GuMapDecl) (w : World) (arg : Str) (files : List Str) (m : Meth), Reachable (classes H g) H w.heap →
  (mkclosetx (classes H g) H arg files m w).1 = .ok () →
  ∃ (seals : List (COutPoint × Bytes)) (x : CTransaction) (b : Bytes), List.Forall₂ (HoldsSeal (classes H g) H w.files) files seals ∧ x.ser = .ok b ∧
    x.vin.map (·.prevout) = seals.map (·.1) ∧ (seals.map (·.1)).Nodup ∧ (mkclosetx (classes H g) H arg files m w).2.out = w.out ++ [b2x b]

theorem strToDigest_length {s : Str} {d : Bytes} (h : strToDigest s = .ok d) : d.length = 32 := by
  unfold strToDigest exitOn at h
  split at h
  · cases h
  · obtain ⟨a, _, h⟩ := Except.bind_eq_ok h
    split at h
    · cases h
    · rename_i hl
      cases h
      simpa using hl

theorem forall₂_left {α β : Type} {R : α → β → Prop} {l : List α} {m : List β} (h : List.Forall₂ R l m) : ∀ a ∈ l, ∃ b, R a b := by
  induction h with
  | nil => intro a h; cases h
  | cons h1 _ ih =>
    intro a h
    rcases List.mem_cons.mp h with rfl | h
    · exact ⟨_, h1⟩
    · exact ih a h

theorem seals_valid {s : PState} {rs : List Nat} {ps : List (COutPoint × Bytes)} (h : Seals s rs ps) : ∀ p ∈ ps, p.1.Valid := by
  induction h with
  | nil => intro p h; cases h
  | cons h1 _ ih =>
    intro p h
    rcases List.mem_cons.mp h with rfl | h
    · exact h1.2
    · exact ih p h

/-- The closing transaction can be serialized. -/
theorem makeCloseTx_shape {d : Bytes} {ps : List (COutPoint × Bytes)} {m : Meth} {x : CTransaction} {o : CTxOut} (hx : makeCloseTx H d (ps.map (·.1)) m 600 = .ok x) (ho : x.vout = [o]) :
    x = ⟨1, ps.map fun p => ⟨p.1, [], 0xffffffff⟩, [o], 0⟩ := by
  unfold makeCloseTx at hx
  obtain ⟨o', _, hx⟩ := Except.bind_eq_ok hx
  cases o' with
  | none => cases hx
  | some o' =>
    cases hx
    cases ho
    simp [List.map_map, Function.comp_def]

theorem makeCloseTx_ser {d : Bytes} (hd : d.length = 32) {os : List COutPoint} {m : Meth} {x : CTransaction} (hx : makeCloseTx H d os m 600 = .ok x)
    (hos : ∀ o ∈ os, o.Valid) (hl : os.length < 2 ^ 64) : ∃ b, x.ser = .ok b := by
  unfold makeCloseTx at hx
  obtain ⟨o, ho, hx⟩ := Except.bind_eq_ok hx
  cases o with
  | none => cases hx
  | some o =>
  have h20 : (h160 H d).length = 20 := H.ripemd160_len _
  have hov : o.scriptPubKey.length ≤ 100 ∧ 0 ≤ o.nValue ∧ o.nValue ≤ 600 := by
    rcases closeTxOut_eq hd ho with ⟨_, rfl⟩ | ⟨_, rfl⟩ | ⟨_, rfl⟩ <;> refine ⟨?_, by simp, by simp⟩ <;>
      simp [opReturnScript, p2shScript, p2pkhScript, hd, h20]
  cases hx
  refine CTransaction.ser_total ⟨fun i hi => ?_, by simp, by simp⟩ ⟨fun i hi => ?_, fun o' ho' => ?_⟩ ⟨by simp, by simp⟩ (fun o' ho' => ?_) (by simpa using hl) (by
    simp only [List.length_singleton]; decide)
  · obtain ⟨o, ho, rfl⟩ := List.mem_map.mp hi
    exact ⟨hos o ho, by simp, by simp⟩
  · obtain ⟨o, ho, rfl⟩ := List.mem_map.mp hi
    show 0 ≤ MAX_SIZE
    omega
  · cases List.mem_singleton.mp ho'
    exact Nat.le_trans hov.1 (by decide)
  · cases List.mem_singleton.mp ho'
    omega

/-- What holds of C57: `mkclosetx` does not touch files.  If it reports an error it prints nothing.  If it succeeds, the files hold seals with
different hashes (so no two with the same outpoint and nonce), and one line is printed: a transaction that spends the outpoints of the seals, in order, and
whose only output commits to the digest.  And it succeeds if all files hold seals with different hashes, the digest is 32 hex-encoded bytes and the
method is known.  What is missing: two seals may have the same outpoint and different nonces. -/
theorem C57_mkclosetx_partial (w : World) (hw : Reachable C H w.heap) (arg : Str) (files : List Str) (m : Meth) :
    ∃ y w', mkclosetx C H arg files m w = (y, w') ∧ w'.files = w.files ∧ (∀ e, y = .error e → w'.out = w.out) ∧
      (y = .ok () → ∃ (digest : Bytes) (seals : List (COutPoint × Bytes)) (x : CTransaction) (out : CTxOut) (b : Bytes), strToDigest arg = .ok digest ∧ digest.length = 32 ∧
        List.Forall₂ (HoldsSeal C H w.files) files seals ∧ (seals.map fun p => (sealT p.1 p.2).hash C H).Nodup ∧ seals.Nodup ∧
        x.vin.map (·.prevout) = seals.map (·.1) ∧ x.vout = [out] ∧ CommitsTo H digest out.scriptPubKey ∧
        out.nValue = (if m = .opReturn then 0 else 600) ∧ x = ⟨1, seals.map fun p => ⟨p.1, [], 0xffffffff⟩, [out], 0⟩ ∧ x.ser = .ok b ∧ w'.out = w.out ++ [b2x b]) ∧
      (∀ (digest : Bytes) (seals : List (COutPoint × Bytes)), strToDigest arg = .ok digest → List.Forall₂ (HoldsSeal C H w.files) files seals →
        (seals.map fun p => (sealT p.1 p.2).hash C H).Nodup → m ≠ .unknown → files.length < 2 ^ 64 → y = .ok ()) := by
  unfold mkclosetx
  cases hd : strToDigest arg with
  | error e =>
    refine ⟨.error e, w, by rw [TM.bind_of_error (w' := w) (e := e)]; rfl, rfl, fun _ _ => rfl, (fun h => by cases h), ?_⟩
    intro digest seals h; cases h
  | ok digest =>
  have hdl := strToDigest_length hd
  rw [TM.bind_of_eq (TM.lift_ok rfl w)]
  rcases openAll_spec files w with ⟨ho, hex⟩ | ⟨ho, f, hf, hn⟩
  swap
  · refine ⟨.error .systemExit, w, by rw [TM.bind_of_error ho], rfl, fun _ _ => rfl, (fun h => by cases h), ?_⟩
    intro d seals _ hall
    exfalso
    obtain ⟨p, b, hb, _⟩ := forall₂_left hall f hf
    rw [hn] at hb; cases hb
  rw [TM.bind_of_eq ho]
  obtain ⟨y, w1, hr, hfiles, hout, hst, hA, hB⟩ := readSeals_spec (H := H) (g := g) files w [] [] hw .nil .nil
  cases y with
  | error e =>
    refine ⟨.error e, w1, by rw [TM.bind_of_error hr], hfiles, fun _ _ => hout, (fun h => by cases h), ?_⟩
    intro d seals _ hall hnd _ _
    obtain ⟨rs, h⟩ := hB seals hall (by simpa using hnd)
    cases h
  | ok rs =>
  rw [TM.bind_of_eq hr]
  obtain ⟨seals, hall, hsl, hnd⟩ := hA rs rfl
  simp only [List.nil_append] at hsl hnd
  by_cases hm : m = .unknown
  · subst hm
    refine ⟨.error .attributeError, w1, ?_, hfiles, fun _ _ => hout, (fun h => by cases h), ?_⟩
    · rw [TM.bind_of_eq (TM.lift_ok (show closeTxOut H digest .unknown 600 = .ok none from rfl) w1), TM.bind_of_eq (TM.heap_eq (outpoints_spec hsl))]
      rfl
    · intro _ _ _ _ _ h; exact absurd rfl h
  obtain ⟨o, hco, hcm, _⟩ := C46_scripts (H := H) hdl hm 600
  rw [TM.bind_of_eq (TM.lift_ok hco w1), TM.bind_of_eq (TM.heap_eq (outpoints_spec hsl))]
  obtain ⟨x, o', hx, hvin, hvout, hcm', hval, _⟩ := (C48_template (H := H) hdl (seals.map (·.1)) 600).1 m hm
  rw [TM.bind_of_eq (TM.lift_ok hx _)]
  have hndp : seals.Nodup := List.Nodup.of_map _ hnd
  cases hser : x.ser with
  | error e =>
    refine ⟨.error e, w1, rfl, hfiles, fun _ _ => hout, (fun h => by cases h), ?_⟩
    intro d seals' _ _ _ _ hlen
    have hl : seals.length = files.length := hall.length_eq.symm
    obtain ⟨b, hb⟩ := makeCloseTx_ser hdl hx (fun o ho => by
      obtain ⟨p, hp, rfl⟩ := List.mem_map.mp ho
      exact seals_valid hsl p hp) (by rw [List.length_map]; omega)
    rw [hb] at hser; cases hser
  | ok b =>
    refine ⟨.ok (), { w1 with out := w1.out ++ [b2x b] }, rfl, hfiles, (fun e h => by cases h), fun _ => ?_, fun _ _ _ _ _ _ _ => rfl⟩
    exact ⟨digest, seals, x, o', b, rfl, hdl, hall, hnd, hndp, hvin, hvout, hcm', hval, makeCloseTx_shape hx hvout, hser, by rw [← hout]⟩

/-- The outcome of reading the two attributes of what `b` deserializes to tells what `b` holds. -/
theorem holds_of_run {b : Bytes} {o : COutPoint} {n : Bytes} (h : ((do
    let r ← Prf.deserialize C Cls.btcSeal b
    let x ← Prf.getAttr C r 0
    let y ← Prf.getAttr C r 1
    return (x, y) : HM (HVal × HVal)) {}).1 = .ok (.prim (.outpoint o), .prim (.bytes n))) : Holds C H Cls.btcSeal b (sealT o n) := by
  rcases deser_seal (H := H) (g := g) b with ⟨o', n', _, _, hall⟩ | ⟨d, hall⟩ | ⟨e, hall⟩
  · obtain ⟨s', h1, hw, _⟩ := hall {}
    rw [HM.bind_of_eq h1, HM.bind_of_eq (hw.getAttr_prim (T := C) (i := 0) (a := .outpoint o') rfl),
      HM.bind_of_eq (hw.getAttr_prim (T := C) (i := 1) (a := .bytes n') rfl)] at h
    cases h
    exact holds_of_deser hall
  · have h1 := hall {}
    obtain ⟨e, s', h2, _⟩ := pruned_getAttr 0 (Steps.trans reachable_init (deser_steps (H := H) _ _ _ h1)) (pruned_represents rfl)
    rw [HM.bind_of_eq h1, HM.bind_of_error h2] at h
    cases h
  · rw [HM.bind_of_error (hall {})] at h
    cases h

theorem holds_unique {b : Bytes} {p q : COutPoint × Bytes} (hp : Holds C H Cls.btcSeal b (sealT p.1 p.2)) (hq : Holds C H Cls.btcSeal b (sealT q.1 q.2)) :
    p = q := by
  obtain ⟨r, s, h1, h2⟩ := hp {} reachable_init
  obtain ⟨r', s', h3, h4⟩ := hq {} reachable_init
  rw [h1] at h3
  cases h3
  have := rep_unique (Steps.trans reachable_init (deser_steps (H := H) _ _ _ h1)) h2 h4
  simp only [sealT, PTree.node.injEq, PFields.prim.injEq, PVal.outpoint.injEq, PVal.bytes.injEq, true_and, and_true] at this
  exact Prod.ext this.1 this.2

namespace Ex
theorem a_seal : HoldsSeal (classes realHash intGuMap) realHash world.files "a.seal".toList (Seal.Ex.op, Seal.Ex.nonce) :=
  ⟨sealBytes Seal.Ex.nonce, by decide +kernel, holds_of_run (by decide +kernel)⟩
theorem b_seal : HoldsSeal (classes realHash intGuMap) realHash world.files "b.seal".toList (Seal.Ex.op, nonce2) :=
  ⟨sealBytes nonce2, by decide +kernel, holds_of_run (by decide +kernel)⟩
end Ex

/-- C57 does not hold: the files `a.seal` and `b.seal` hold seals with the same outpoint. -/
theorem C57_refuted : ¬ C57_statement := by
  intro h
  obtain ⟨seals, x, b, hall, _, _, hnd, _⟩ := h realHash intGuMap Ex.world Ex.digestArg ["a.seal".toList, "b.seal".toList] .opReturn Ex.reachable (by decide +kernel)
  cases hall with
  | cons h1 h2 =>
  cases h2 with
  | cons h2 h3 =>
  cases h3
  obtain ⟨b1, hb1, h1⟩ := h1
  obtain ⟨b2, hb2, h2⟩ := h2
  obtain ⟨b3, hb3, h3⟩ := Ex.a_seal
  obtain ⟨b4, hb4, h4⟩ := Ex.b_seal
  rw [hb1] at hb3; cases hb3
  rw [hb2] at hb4; cases hb4
  have e1 := holds_unique h1 h3
  have e2 := holds_unique h2 h4
  subst e1 e2
  simp at hnd

/-- The conditions are met: two files with seals that have different hashes, a digest. -/
example : strToDigest Ex.digestArg = .ok Seal.Ex.digest ∧ List.Forall₂ (HoldsSeal (classes realHash intGuMap) realHash Ex.world.files) ["a.seal".toList, "b.seal".toList]
      [(Seal.Ex.op, Seal.Ex.nonce), (Seal.Ex.op, Ex.nonce2)] ∧
    ([(Seal.Ex.op, Seal.Ex.nonce), (Seal.Ex.op, Ex.nonce2)].map fun p => (sealT p.1 p.2).hash (classes realHash intGuMap) realHash).Nodup :=
  ⟨by decide +kernel, .cons Ex.a_seal (.cons Ex.b_seal .nil), by decide +kernel⟩
example : (mkclosetx (classes realHash intGuMap) realHash Ex.digestArg ["a.seal".toList, "a.seal".toList] .opReturn Ex.world).1 = .error .systemExit := by
  decide +kernel

/-! ## C58 -/

/-- The transaction `mkwitness` is given: in hex, or as the id of a transaction the node knows. -/
def Given (getraw : Bytes → Py Bytes) (arg : TxArg) (x : CTransaction) : Prop :=
  match arg with
  | .tx h => ∃ b, unhex h = .ok b ∧ deserializeAll CTransaction.deser b = .ok x
  | .txid h => ∃ id b, lx h = .ok id ∧ getraw id = .ok b ∧ deserializeAll CTransaction.deser b = .ok x

/-- C58: `mkwitness` does not alter or remove files.  Every file it creates is the witness file of one of the seal files given; it holds a witness
for the seal in that file and the transaction given, on which `verify()` succeeds, even if an error is reported.  If no error is
reported, there is a new witness file for each seal file.  No error is reported if the transaction has at most 2^32 inputs, and each file is named once,
holds a seal, its witness file does not exist, and the transaction spends its outpoint. -/
theorem C58_mkwitness (w : World) (hw : Reachable C H w.heap) (getraw : Bytes → Py Bytes) (files : List Str) (arg : TxArg) :
    ∃ y w', mkwitness C H getraw files arg w = (y, w') ∧ w'.out = w.out ∧ (∀ f b, w.files f = some b → w'.files f = some b) ∧
      (∀ f b, w'.files f = some b → w.files f = some b ∨
        w.files f = none ∧ ∃ x, Given getraw arg x ∧ ∃ sn ∈ files, f = witnessName sn ∧ WitnessFor C H w.files sn x b) ∧
      (y = .ok () → ∀ sn ∈ files, w.files (witnessName sn) = none ∧ ∃ b, w'.files (witnessName sn) = some b) ∧
      (∀ x, Given getraw arg x → files.Nodup → x.vin.length ≤ 2 ^ 32 →
        (∀ sn ∈ files, w.files (witnessName sn) = none ∧ ∃ p, HoldsSeal C H w.files sn p ∧ ∃ inp ∈ x.vin, inp.prevout = p.1) → y = .ok ()) := by
  have stop : ∀ (e : PyErr), ¬ (∃ x, Given getraw arg x ∧ (∀ sn ∈ files, ∃ p, HoldsSeal C H w.files sn p)) →
      mkwitness C H getraw files arg w = (.error e, w) → ∃ y w', mkwitness C H getraw files arg w = (y, w') ∧ w'.out = w.out ∧ (∀ f b, w.files f = some b → w'.files f = some b) ∧
      (∀ f b, w'.files f = some b → w.files f = some b ∨
        w.files f = none ∧ ∃ x, Given getraw arg x ∧ ∃ sn ∈ files, f = witnessName sn ∧ WitnessFor C H w.files sn x b) ∧
      (y = .ok () → ∀ sn ∈ files, w.files (witnessName sn) = none ∧ ∃ b, w'.files (witnessName sn) = some b) ∧
      (∀ x, Given getraw arg x → files.Nodup → x.vin.length ≤ 2 ^ 32 →
        (∀ sn ∈ files, w.files (witnessName sn) = none ∧ ∃ p, HoldsSeal C H w.files sn p ∧ ∃ inp ∈ x.vin, inp.prevout = p.1) → y = .ok ()) :=
    fun e hno h => ⟨_, w, h, rfl, fun _ _ h => h, fun _ _ h => .inl h, (fun h => by cases h), fun x hx _ _ hall =>
      absurd ⟨x, hx, fun sn hsn => by obtain ⟨_, p, hp, _⟩ := hall sn hsn; exact ⟨p, hp⟩⟩ hno⟩
  have hexit : ∀ {α} {x : Py α} {a : α}, x = .ok a → exitOn x = .ok a := fun h => by rw [h]; rfl
  have hexit' : ∀ {α} {x : Py α} {a : α}, exitOn x = .ok a → x = .ok a := fun {α x a} h => by
    unfold exitOn at h
    split at h
    · cases h
    · exact h
  cases ha : arg.parse with
  | error e =>
    refine stop e ?_ ?_
    · rintro ⟨x, hx, _⟩
      cases arg with
      | tx h => obtain ⟨b, hb, _⟩ := hx; rw [TxArg.parse, hexit hb] at ha; cases ha
      | txid h => obtain ⟨i, b, hb, _⟩ := hx; rw [TxArg.parse, hexit hb] at ha; cases ha
    · unfold mkwitness
      rw [ha]
      exact TM.bind_of_error rfl
  | ok a =>
  have h1 : TM.lift arg.parse w = (.ok a, w) := TM.lift_ok ha w
  rcases openAll_spec files w with ⟨ho, hex⟩ | ⟨ho, f, hf, hn⟩
  swap
  · refine stop .systemExit ?_ ?_
    · rintro ⟨x, _, hall⟩
      obtain ⟨p, b, hb, _⟩ := hall f hf
      rw [hn] at hb; cases hb
    · unfold mkwitness
      rw [TM.bind_of_eq h1, TM.bind_of_error ho]
  have hgiven : ∀ x, Given getraw arg x ↔ ∃ b, arg.raw getraw a = .ok b ∧ deserializeAll CTransaction.deser b = .ok x := by
    intro x
    cases arg with
    | tx h =>
      show (∃ b, unhex h = .ok b ∧ _) ↔ _
      rw [hexit' ha]; rfl
    | txid h =>
      show (∃ id b, lx h = .ok id ∧ _) ↔ _
      rw [hexit' ha]
      constructor
      · rintro ⟨id, b, h, h'⟩; cases h; exact ⟨b, h'⟩
      · rintro ⟨b, h⟩; exact ⟨a, b, rfl, h⟩
  cases hraw : arg.raw getraw a with
  | error e =>
    refine stop e ?_ ?_
    · rintro ⟨x, hx, _⟩
      obtain ⟨b, hb, _⟩ := (hgiven x).mp hx
      rw [hraw] at hb; cases hb
    · unfold mkwitness
      rw [TM.bind_of_eq h1, TM.bind_of_eq ho]
      exact TM.bind_of_error (by rw [hraw]; rfl)
  | ok raw =>
  have h2 : TM.lift (arg.raw getraw a) w = (.ok raw, w) := TM.lift_ok hraw w
  cases hd : deserializeAll CTransaction.deser raw with
  | error e =>
    refine stop e ?_ ?_
    · rintro ⟨x, hx, _⟩
      obtain ⟨b, hb, hx⟩ := (hgiven x).mp hx
      rw [hraw] at hb; cases hb
      rw [hd] at hx; cases hx
    · unfold mkwitness
      rw [TM.bind_of_eq h1, TM.bind_of_eq ho, TM.bind_of_eq h2]
      exact TM.bind_of_error (by rw [hd]; rfl)
  | ok x =>
  have hg : Given getraw arg x := (hgiven x).mpr ⟨raw, hraw, hd⟩
  have hg' : ∀ x', Given getraw arg x' → x' = x := fun x' h => by
    obtain ⟨b, hb, h⟩ := (hgiven x').mp h
    rw [hraw] at hb; cases hb
    rw [hd] at h; cases h; rfl
  obtain ⟨hser, hfit⟩ := CTransaction.deser_ser (deserializeAll_ok hd)
  obtain ⟨s1, hnew, hwhole, _, hst⟩ := new_whole (T := C) (H := H) (s := w.heap) Cls.txProof (vs := [.prim (.tx x)]) (fs := .prim (.tx x) .nil)
    (.prim .nil) (txT_checked x)
  obtain ⟨y, w', hy, hout, hA, hB, hC, hD⟩ := mkWitnesses_spec (H := H) (g := g) hser hfit (tp := w.heap.objs.length) files { w with heap := s1 } (hw.trans hst) hwhole hex
  refine ⟨y, w', ?_, hout, hA, fun f b h => ?_, hC, fun x' hx' hnd hl hall => ?_⟩
  · unfold mkwitness
    rw [TM.bind_of_eq h1, TM.bind_of_eq ho, TM.bind_of_eq h2, TM.bind_of_eq (TM.lift_ok hd w), TM.bind_of_eq (TM.heap_eq hnew), hy]
  · rcases hB f b h with h | ⟨h, sn, hsn, he, hwf⟩
    · exact .inl h
    · exact .inr ⟨h, x, hg, sn, hsn, he, hwf⟩
  · cases hg' x' hx'
    exact hD hnd hl hall

/-- The conditions are met: the seal file `a.seal`, and the transaction of the example, which spends its outpoint. -/
example : Given (fun _ => .error .other) (.tx (b2x Seal.Ex.txBytes)) Seal.Ex.tx ∧ Ex.world.files (witnessName "a.seal".toList) = none ∧
    HoldsSeal (classes realHash intGuMap) realHash Ex.world.files "a.seal".toList (Seal.Ex.op, Seal.Ex.nonce) ∧ ∃ inp ∈ Seal.Ex.tx.vin, inp.prevout = Seal.Ex.op :=
  ⟨⟨_, unhex_b2x _, by decide +kernel⟩, by decide +kernel, Ex.a_seal, by decide +kernel⟩
example : ((mkwitness (classes realHash intGuMap) realHash (fun _ => .error .other) ["a.seal".toList] (.tx (b2x Seal.Ex.txBytes)) Ex.world).2.files "a.seal.witness".toList) =
    some Ex.witnessBytes := by decide +kernel
/-- An existing witness file stops the command. -/
example : (mkwitness (classes realHash intGuMap) realHash (fun _ => .error .other) ["a.seal".toList, "a.seal".toList] (.tx (b2x Seal.Ex.txBytes)) Ex.world).1 =
    .error .fileExists := by decide +kernel

/-! ## C59 -/

/-- The full C59: `verifywitness` succeeds exactly if the file holds a witness on which `verify()` succeeds, on which `verify_hash()` succeeds for the
digest if there is one, whose seal is the one in the seal file if there is one, and whose seal has the hash given if there is one. -/
def C59_statement : Prop := ∀ (H : HashFns) (g : GuMapDecl) (w : World) (file : Str) (digest sealFile sealId : Option Str), Reachable (classes H g) H w.heap →
  ((verifywitness (classes H g) H file digest sealFile sealId w).1 = .ok () ↔
    ∃ b r s t, w.files file = some b ∧ Prf.deserialize (classes H g) Cls.btcWitness b w.heap = (.ok r, s) ∧ Represents s r t ∧
      ((witnessVerify []).run (classes H g) H r s).1 = .ok (.ok ()) ∧
      (∀ d, digest = some d → ∃ h, strToDigest d = .ok h ∧ ((witnessVerifyHash H h []).run (classes H g) H r s).1 = .ok (.ok ())) ∧
      (∀ f, sealFile = some f → ∃ p : COutPoint × Bytes, HoldsSeal (classes H g) H w.files f p ∧ ∃ i o, t = witnessT (sealT p.1 p.2) i o) ∧
      ∀ d, sealId = some d → ∃ h, strToDigest d = .ok h ∧ ∃ sl i o, t = witnessT sl i o ∧ sl.hash (classes H g) H = .ok h)

theorem deser_rep {c : Nat} {b : Bytes} {s s' : PState} {r : Nat} (hs : Reachable C H s) (h : Prf.deserialize C c b s = (.ok r, s')) : ∃ t, Represents s' r t := by
  obtain ⟨τ, hi⟩ := hs.inv classes_wf
  obtain ⟨τ', hi', _, hq⟩ := deserialize_own (H := H) classes_wf hi c b
  unfold Prf.deserialize at h
  rcases hc : Prf.ctxDeserialize C c b s with ⟨e | ⟨r', b'⟩, s1⟩
  · rw [HM.bind_of_error hc] at h; cases h
  · rw [HM.bind_of_eq hc] at h
    rw [hc] at hq hi'
    obtain ⟨_, t, ht, _⟩ := hq r' b' rfl
    cases h
    exact ⟨t, hi'.represents _ _ ht⟩

theorem runM_ok {α} {p : Prog α} {r : Nat} {s : PState} {a : α} : (p.runM C H r s).1 = .ok a ↔ (p.run C H r s).1 = .ok (.ok a) := by
  unfold Prog.runM
  rw [HM.bind_apply]
  rcases p.run C H r s with ⟨e | x, s'⟩
  · constructor <;> intro h <;> cases h
  · simp only [HM.lift_apply, Except.ok.injEq]

theorem runM_steps {α} (p : Prog α) (r : Nat) (s : PState) : Steps C H s (p.runM C H r s).2 := by
  have h1 := run_steps (T := C) (H := H) p r s
  unfold Prog.runM
  rw [HM.bind_apply]
  rcases hh : p.run C H r s with ⟨e | x, s'⟩ <;> rw [hh] at h1 <;> exact h1

theorem lift_apply {α} (x : Py α) (w : World) : TM.lift x w = (x, w) := rfl

theorem openR_ok {f : Str} {w : World} : (∃ u w1, TM.openR f w = (.ok u, w1)) ↔ ∃ b, w.files f = some b := by
  unfold TM.openR
  cases w.files f with
  | none => simp
  | some b => simp

theorem mapM_openR {o : Option Str} {w : World} : ∃ x, o.mapM TM.openR w = (x, w) ∧ ((∃ a, x = .ok a) ↔ ∀ f, o = some f → ∃ b, w.files f = some b) := by
  cases o with
  | none => exact ⟨_, rfl, by simp⟩
  | some f =>
    cases hf : w.files f with
    | none =>
      refine ⟨.error .systemExit, ?_, by simp [hf]⟩
      have : TM.openR f w = (.error .systemExit, w) := by unfold TM.openR; rw [hf]
      exact TM.bind_of_error this
    | some b =>
      have : TM.openR f w = (.ok (), w) := by unfold TM.openR; rw [hf]
      exact ⟨.ok (some ()), TM.bind_of_eq this, by simp [hf]⟩

theorem mapM_digest {o : Option Str} : (∃ a, o.mapM strToDigest = .ok a) ↔ ∀ d, o = some d → ∃ h, strToDigest d = .ok h := by
  cases o with
  | none => exact ⟨(fun _ d h => by cases h), fun _ => ⟨none, rfl⟩⟩
  | some d =>
    constructor
    · rintro ⟨a, h⟩ d' hd
      cases hd
      obtain ⟨x, hx, _⟩ := Except.bind_eq_ok h
      exact ⟨x, hx⟩
    · intro h
      obtain ⟨x, hx⟩ := h d rfl
      exact ⟨some x, by show (strToDigest d >>= fun x => (pure (some x) : Py _)) = _; rw [hx]; rfl⟩

/-- What holds of C59: `verifywitness` succeeds exactly if the file holds a witness on which `verify()` succeeds, and `verify_hash()` for the digest if there is
one.  Of the seal options, only the form matters: the seal file must exist, the seal id must be 32 hex-encoded bytes. -/
theorem C59_verifywitness_partial (w : World) (hw : Reachable C H w.heap) (file : Str) (digest sealFile sealId : Option Str) :
    (verifywitness C H file digest sealFile sealId w).1 = .ok () ↔
      (∃ b r s, w.files file = some b ∧ Prf.deserialize C Cls.btcWitness b w.heap = (.ok r, s) ∧
        ((witnessVerify []).run C H r s).1 = .ok (.ok ()) ∧
        ∀ d, digest = some d → ∃ h, strToDigest d = .ok h ∧ ((witnessVerifyHash H h []).run C H r s).1 = .ok (.ok ())) ∧
      (∀ f, sealFile = some f → ∃ b, w.files f = some b) ∧ ∀ d, sealId = some d → ∃ h, strToDigest d = .ok h := by
  unfold verifywitness
  cases hf : w.files file with
  | none =>
    rw [TM.bind_of_error (w' := w) (e := .systemExit) (by unfold TM.openR; rw [hf])]
    constructor
    · intro h; cases h
    · rintro ⟨⟨_, _, _, h, _⟩, _⟩; cases h
  | some b =>
  rw [TM.bind_of_eq (a := ()) (w' := w) (by unfold TM.openR; rw [hf])]
  cases hd : digest.mapM strToDigest with
  | error e =>
    rw [TM.bind_of_error (lift_apply (.error e) w)]
    constructor
    · intro h; cases h
    · rintro ⟨⟨_, _, _, _, _, _, h⟩, _⟩
      obtain ⟨a, ha⟩ := mapM_digest.mpr (fun d hd => by obtain ⟨x, hx, _⟩ := h d hd; exact ⟨x, hx⟩)
      rw [hd] at ha; cases ha
  | ok d =>
  rw [TM.bind_of_eq (TM.lift_ok rfl w)]
  obtain ⟨x, hx, hxok⟩ := mapM_openR (o := sealFile) (w := w)
  cases x with
  | error e =>
    rw [TM.bind_of_error hx]
    constructor
    · intro h; cases h
    · rintro ⟨_, h, _⟩
      obtain ⟨a, ha⟩ := hxok.mpr h
      cases ha
  | ok x =>
  rw [TM.bind_of_eq hx]
  have hxok := hxok.mp ⟨x, rfl⟩
  cases hi : sealId.mapM strToDigest with
  | error e =>
    rw [TM.bind_of_error (lift_apply (.error e) w)]
    constructor
    · intro h; cases h
    · rintro ⟨_, _, h⟩
      obtain ⟨a, ha⟩ := mapM_digest.mpr h
      rw [hi] at ha; cases ha
  | ok si =>
  rw [TM.bind_of_eq (TM.lift_ok rfl w), TM.bind_of_eq (a := b) (w' := w) (by unfold TM.read; rw [hf])]
  have hiok := mapM_digest.mp ⟨si, hi⟩
  rcases hde : Prf.deserialize C Cls.btcWitness b w.heap with ⟨e | r, s⟩
  · rw [TM.bind_of_error (TM.heap_eq hde)]
    constructor
    · intro h; cases h
    · rintro ⟨⟨b', r, s', h1, h2, _⟩, _⟩
      cases h1; rw [hde] at h2; cases h2
  rw [TM.bind_of_eq (TM.heap_eq hde)]
  obtain ⟨t, ht⟩ := deser_rep hw hde
  have hs : Reachable C H s := hw.trans (deser_steps _ _ _ hde)
  rcases hv : (witnessVerify []).runM C H r s with ⟨e | u, s1⟩
  · rw [TM.bind_of_error (TM.heap_eq (w := { w with heap := s }) hv)]
    constructor
    · intro h; cases h
    · rintro ⟨⟨b', r', s', h1, h2, h3, _⟩, _⟩
      cases h1; rw [hde] at h2; cases h2
      have h4 := runM_ok.mpr h3
      rw [hv] at h4; cases h4
  rw [TM.bind_of_eq (TM.heap_eq (w := { w with heap := s }) hv)]
  have hvr := runM_ok.mp (show ((witnessVerify []).runM C H r s).1 = .ok () by rw [hv])
  have hst : Steps C H s s1 := by
    have := runM_steps (H := H) (g := g) (witnessVerify []) r s
    rw [hv] at this; exact this
  have hlater : ∀ h, ((witnessVerifyHash H h []).run C H r s1).1 = .ok (.ok ()) ↔ ((witnessVerifyHash H h []).run C H r s).1 = .ok (.ok ()) := by
    intro h
    rw [run_eq classes_wf _ hs ht, run_eq classes_wf _ (hs.trans hst) (hst.represents classes_wf hs ht), verifyHash_inv (hs.checked classes_wf ht),
      verifyHash_inv (hs.checked classes_wf ht)]
  cases digest with
  | none =>
    cases hd
    refine ⟨fun _ => ⟨⟨b, r, s, rfl, hde, hvr, fun d h => by cases h⟩, hxok, hiok⟩, fun _ => rfl⟩
  | some ds =>
    obtain ⟨d', hd', hd⟩ := Except.bind_eq_ok hd
    cases hd
    simp only
    rw [show (TM.heap ((witnessVerifyHash H d' []).runM C H r) { w with heap := s1 }).1 = ((witnessVerifyHash H d' []).runM C H r s1).1 from rfl, runM_ok, hlater]
    constructor
    · intro h
      exact ⟨⟨b, r, s, rfl, hde, hvr, fun d hd => by cases hd; exact ⟨d', hd', h⟩⟩, hxok, hiok⟩
    · rintro ⟨⟨b', r', s', h1, h2, _, h3⟩, _⟩
      cases h1; rw [hde] at h2; cases h2
      obtain ⟨h, h4, h5⟩ := h3 ds rfl
      rw [hd'] at h4; cases h4
      exact h5

/-- What holds of C59, spelled out for a digest: the witness shows, completely, that the seal is closed over that digest. -/
theorem C59_digest_partial (w : World) (hw : Reachable C H w.heap) (file ds : Str) :
    (verifywitness C H file (some ds) none none w).1 = .ok () ↔ ∃ b r s d o n i x j x', w.files file = some b ∧ strToDigest ds = .ok d ∧
      Prf.deserialize C Cls.btcWitness b w.heap = (.ok r, s) ∧ Represents s r (fullWitnessT o n i x j x') ∧ Shows H o i x j x' d := by
  rw [C59_verifywitness_partial w hw]
  constructor
  · rintro ⟨⟨b, r, s, h1, h2, h3, h4⟩, _⟩
    obtain ⟨d, hd, h5⟩ := h4 ds rfl
    obtain ⟨t, ht⟩ := deser_rep hw h2
    obtain ⟨o, n, i, x, j, x', rfl, hsh⟩ := C47_sound (hw.trans (deser_steps _ _ _ h2)) ht .refl h3 h5
    exact ⟨b, r, s, d, o, n, i, x, j, x', h1, hd, h2, ht, hsh⟩
  · rintro ⟨b, r, s, d, o, n, i, x, j, x', h1, hd, h2, ht, hsh⟩
    obtain ⟨h3, h4⟩ := C47_complete (hw.trans (deser_steps _ _ _ h2)) ht hsh
    exact ⟨⟨b, r, s, h1, h2, h3, fun d' hd' => by cases hd'; exact ⟨d, hd, h4⟩⟩, (fun f h => by cases h), (fun f h => by cases h)⟩

/-- C59 does not hold: any seal id is accepted. -/
theorem C59_refuted : ¬ C59_statement := by
  intro h
  have h1 := (h realHash intGuMap Ex.world "w".toList none none (some Ex.digestArg) Ex.reachable).mp (by decide +kernel)
  have h2 := (h realHash intGuMap Ex.world "w".toList none none (some (List.replicate 64 '0')) Ex.reachable).mp (by decide +kernel)
  obtain ⟨b, r, s, t, hb, hd, ht, _, _, _, h1⟩ := h1
  obtain ⟨b', r', s', t', hb', hd', ht', _, _, _, h2⟩ := h2
  rw [hb] at hb'; cases hb'
  rw [hd] at hd'; cases hd'
  have he := rep_unique (Steps.trans reachable_init (deser_steps (H := realHash) _ _ _ hd)) ht ht'
  subst he
  obtain ⟨d, hd1, sl, i, o, rfl, he⟩ := h1 _ rfl
  obtain ⟨d', hd2, sl', i', o', he', hf⟩ := h2 _ rfl
  simp only [witnessT, PTree.node.injEq, PFields.sub.injEq, true_and, and_true] at he'
  obtain ⟨rfl, rfl, rfl⟩ := he'
  rw [he] at hf
  cases hf
  rw [show strToDigest Ex.digestArg = .ok Seal.Ex.digest by decide +kernel] at hd1
  cases hd1
  exact absurd hd2 (by decide +kernel)

/-- The conditions are met: the file `w` holds a witness that is accepted for the digest, and not for another one. -/
example : (verifywitness (classes realHash intGuMap) realHash "w".toList (some Ex.digestArg) none none Ex.world).1 = .ok () ∧
    (verifywitness (classes realHash intGuMap) realHash "w".toList (some (List.replicate 64 '0')) none none Ex.world).1 = .error .assertion := by decide +kernel

/-! ## C60 -/

/-- What `sealinfo` and `witnessinfo` print as outpoint can be used as argument of `mkseal`. -/
def C60_statement : Prop := ∀ (H : HashFns) (g : GuMapDecl) (w : World) (file : Str), Reachable (classes H g) H w.heap →
  (∀ o n, HoldsSeal (classes H g) H w.files file (o, n) → ∃ l s, (sealinfo (classes H g) H file w).1 = .ok () ∧
    (sealinfo (classes H g) H file w).2.out = w.out ++ [l, "OutPoint:\t".toList ++ s] ∧ strToCOutPoint s = .ok o) ∧
  (∀ b o n i x j x', w.files file = some b → Holds (classes H g) H Cls.btcWitness b (fullWitnessT o n i x j x') → 
    (witnessinfo (classes H g) H file w).1 = .ok () → ∃ l1 l2 l3 s, (witnessinfo (classes H g) H file w).2.out = w.out ++ [l1, l2, l3, "Seal OutPoint:\t".toList ++ s] ∧
      strToCOutPoint s = .ok o)

theorem print_bind {β} {l : Str} {f : Unit → TM β} {w : World} : (TM.print l >>= f) w = f () { w with out := w.out ++ [l] } := rfl

/-- C60, for `sealinfo`: it prints the hash of the seal, and an outpoint that `mkseal` reads as the outpoint of the seal. -/
theorem C60_sealinfo_partial (w : World) (hw : Reachable C H w.heap) (file : Str) {o : COutPoint} {n : Bytes} (hf : HoldsSeal C H w.files file (o, n)) :
    ∃ h s, (sealT o n).hash C H = .ok h ∧ (sealinfo C H file w).1 = .ok () ∧
      (sealinfo C H file w).2.out = w.out ++ ["Hash:\t\t".toList ++ b2x h, "OutPoint:\t".toList ++ s] ∧ strToCOutPoint s = .ok o := by
  obtain ⟨b, hb, hh⟩ := hf
  obtain ⟨hv, hn, hall⟩ := holds_seal hh
  obtain ⟨s1, hd, hwh, hst, _⟩ := hall w.heap
  obtain ⟨h, hhash⟩ := sealHash_ok (H := H) (g := g) (p := (o, n)) hv
  obtain ⟨s2, h2, hst2⟩ := hash_rep (hw.trans hst) hwh.represents
  have hhash' : (sealT o n).hash C H = .ok h := hhash
  rw [hhash'] at h2
  refine ⟨h, b2lx o.hash ++ ':' :: dec o.n, hhash', ?_⟩
  have hrun : sealinfo C H file w = (.ok (), { w with heap := s2, out := w.out ++ ["Hash:\t\t".toList ++ b2x h] ++ ["OutPoint:\t".toList ++ (b2lx o.hash ++ ':' :: dec o.n)] }) := by
    unfold sealinfo
    rw [TM.bind_of_eq (a := ()) (w' := w) (by unfold TM.openR; rw [hb]), TM.bind_of_eq (a := b) (w' := w) (by unfold TM.read; rw [hb]), TM.bind_of_eq (TM.heap_eq hd),
      TM.bind_of_eq (TM.heap_eq (w := { w with heap := s1 }) h2),
      print_bind, TM.bind_of_eq (TM.heap_eq (w := { w with heap := s2, out := w.out ++ ["Hash:\t\t".toList ++ b2x h] })
        (sealOutpoint_spec (H := H) (g := g) (hwh.steps classes_wf (hw.trans hst) hst2)))]
    unfold TM.print
    rw [List.append_assoc "OutPoint:\t".toList]
  rw [hrun]
  refine ⟨rfl, by simp, ?_⟩
  obtain ⟨h1, h2, h3⟩ := hv
  unfold b2lx
  rw [strToCOutPoint_text ⟨by rw [List.length_reverse]; exact h1, h2, h3⟩, List.reverse_reverse]

theorem witness_hash_ok {o : COutPoint} {n : Bytes} {i j : Int} {x x' : CTransaction} {id id' : Bytes} (ho : o.Valid) (hid : HasTxid H x id) (hid' : HasTxid H x' id') :
    ∃ h, (fullWitnessT o n i x j x').hash C H = .ok h := by
  obtain ⟨h0, hs⟩ := sealHash_ok (H := H) (g := g) (p := (o, n)) ho
  have h0' : (sealT o n).hash C H = .ok h0 := hs
  have h1 : (txT x).hash C H = .ok (Prf.xorWithPad id) := hash_txT_ok.mpr ⟨id, hid, rfl⟩
  have h2 : (txT x').hash C H = .ok (Prf.xorWithPad id') := hash_txT_ok.mpr ⟨id', hid', rfl⟩
  have h3 : ∃ h, (txinT i (txT x)).hash C H = .ok h := by
    refine ⟨?_, ?_⟩
    swap
    · show (do
        let b ← (do let a ← PrimTy.uint32.ser (.int i); let b ← (do let a ← (txT x).hash C H; let b ← (Except.ok [] : Py Bytes); return a ++ b); return a ++ b)
        Prf.tagHash C H Cls.txInProof (H.sha256 b)) = _
      rw [h1]; rfl
  have h4 : ∃ h, (txoutT j (txT x')).hash C H = .ok h := by
    refine ⟨?_, ?_⟩
    swap
    · show (do
        let b ← (do let a ← PrimTy.uint32.ser (.int j); let b ← (do let a ← (txT x').hash C H; let b ← (Except.ok [] : Py Bytes); return a ++ b); return a ++ b)
        Prf.tagHash C H Cls.txOutProof (H.sha256 b)) = _
      rw [h2]; rfl
  obtain ⟨y3, h3⟩ := h3
  obtain ⟨y4, h4⟩ := h4
  refine ⟨?_, ?_⟩
  swap
  · show (do
      let b ← (do let a ← (sealT o n).hash C H; let b ← (do let a ← (txinT i (txT x)).hash C H; let b ← (do let a ← (txoutT j (txT x')).hash C H; let b ← (Except.ok [] : Py Bytes); return a ++ b); return a ++ b); return a ++ b)
      Prf.tagHash C H Cls.btcWitness (H.sha256 b)) = _
    rw [h0', h3, h4]; rfl

/-- What holds of C60, for `witnessinfo`: it prints the hash of the witness, the transaction id, the hash of the seal, and an outpoint that
`mkseal` reads as a wrong outpoint: with the bytes of the hash in reverse order. -/
theorem C60_witnessinfo_partial (w : World) (hw : Reachable C H w.heap) (file : Str) {b : Bytes} {o : COutPoint} {n : Bytes} {i j : Int} {x x' : CTransaction} {id id' : Bytes}
    (hb : w.files file = some b) (hh : Holds C H Cls.btcWitness b (fullWitnessT o n i x j x')) (ho : o.Valid) (hid : HasTxid H x id) (hid' : HasTxid H x' id') :
    ∃ h k s, (fullWitnessT o n i x j x').hash C H = .ok h ∧ (sealT o n).hash C H = .ok k ∧ (witnessinfo C H file w).1 = .ok () ∧
      (witnessinfo C H file w).2.out = w.out ++ ["Hash:\t\t".toList ++ b2x h, "Txid:\t\t".toList ++ b2lx id, "Seal Hash:\t".toList ++ b2x k, "Seal OutPoint:\t".toList ++ s] ∧
      strToCOutPoint s = .ok ⟨o.hash.reverse, o.n⟩ := by
  obtain ⟨r, s1, hd, hr⟩ := hh w.heap hw
  have hs1 : Reachable C H s1 := hw.trans (deser_steps _ _ _ hd)
  obtain ⟨h, hhash⟩ := witness_hash_ok (H := H) (g := g) (n := n) (i := i) (j := j) ho hid hid'
  obtain ⟨k, hk⟩ := sealHash_ok (H := H) (g := g) (p := (o, n)) ho
  have hk : (sealT o n).hash C H = .ok k := hk
  obtain ⟨s2, h2, hst2⟩ := hash_rep hs1 hr
  rw [hhash] at h2
  have hs2 : Reachable C H s2 := hs1.trans hst2
  have hr2 := hst2.represents classes_wf hs1 hr
  have run : ∀ {α} (p : Prog α) {a : α} {s : PState}, Reachable C H s → Represents s r (fullWitnessT o n i x j x') → p.eval C H s.inited (fullWitnessT o n i x j x') = .ok (.ok a) →
      ∃ s', p.runM C H r s = (.ok a, s') ∧ Reachable C H s' ∧ Represents s' r (fullWitnessT o n i x j x') := by
    intro α p a s hs hr he
    have hst := runM_steps (H := H) (g := g) p r s
    exact ⟨_, Prod.ext (runM_ok.mpr (by rw [run_eq classes_wf _ hs hr, he])) rfl, hs.trans hst, hst.represents classes_wf hs hr⟩
  obtain ⟨s3, h3, hs3, hr3⟩ := run (txproof [1] txhash) (a := id) hs2 hr2 (by
    rw [show (txproof [1] txhash).eval C H s2.inited (fullWitnessT o n i x j x') = (txhash [1, 1]).eval C H s2.inited (fullWitnessT o n i x j x') from rfl]
    unfold txhash
    rw [eval_onCls_ok, eval_hash_ok]
    refine ⟨⟨_, rfl, rfl⟩, _, _, rfl, hash_txT_ok.mpr ⟨id, hid, rfl⟩, ?_⟩
    rw [xorWithPad_xorWithPad hid.length]; rfl)
  obtain ⟨s4, h4, hs4, hr4⟩ := run (hashAt [0]) (a := k) hs3 hr3 (by
    show ((sealT o n).hash C H >>= fun y => (Except.ok (Except.ok y) : Py (Py Bytes))) = _
    rw [hk]; rfl)
  obtain ⟨s5, h5, hs5, hr5⟩ := run (outpoint [0]) (a := o) hs4 hr4 (by rfl)
  refine ⟨h, k, b2x o.hash ++ ':' :: dec o.n, hhash, hk, ?_⟩
  have hrun : witnessinfo C H file w = (.ok (), { w with heap := s5, out := w.out ++ ["Hash:\t\t".toList ++ b2x h] ++ ["Txid:\t\t".toList ++ b2lx id] ++
      ["Seal Hash:\t".toList ++ b2x k] ++ ["Seal OutPoint:\t".toList ++ (b2x o.hash ++ ':' :: dec o.n)] }) := by
    unfold witnessinfo
    rw [TM.bind_of_eq (a := ()) (w' := w) (by unfold TM.openR; rw [hb]), TM.bind_of_eq (a := b) (w' := w) (by unfold TM.read; rw [hb]), TM.bind_of_eq (TM.heap_eq hd),
      TM.bind_of_eq (TM.heap_eq (w := { w with heap := s1 }) h2), print_bind, TM.bind_of_eq (TM.heap_eq (w := { w with heap := s2, out := _ }) h3), print_bind,
      TM.bind_of_eq (TM.heap_eq (w := { w with heap := s3, out := _ }) h4), print_bind, TM.bind_of_eq (TM.heap_eq (w := { w with heap := s4, out := _ }) h5)]
    unfold TM.print
    rw [List.append_assoc "Seal OutPoint:\t".toList]
  rw [hrun]
  exact ⟨rfl, by simp, strToCOutPoint_text ho⟩

/-- The encoding of a well-typed proof holds it. -/
theorem holds_of_enc {c : Nat} {b : Bytes} {t : PTree} (hw : t.WellTyped C c) (he : t.enc C = .ok b) : Holds C H c b t := by
  intro s hs
  obtain ⟨τ, hi⟩ := hs.inv classes_wf
  obtain ⟨τ', hi', _, r, hr, hf⟩ := deserialize_rt classes_wf hi hw he
  exact ⟨r, _, Prod.ext hr rfl, hi'.represents _ _ hf.1⟩

namespace Ex
theorem w_file : world.files "w".toList = some witnessBytes := by decide +kernel
theorem w_holds : Holds (classes realHash intGuMap) realHash Cls.btcWitness witnessBytes (fullWitnessT Seal.Ex.op Seal.Ex.nonce (0 : Nat) Seal.Ex.tx (0 : Nat) Seal.Ex.tx) := by
  refine holds_of_enc (fullWitness_typed (by decide) (by decide) (COutPoint.ser_total op_valid) (by decide +kernel) ⟨_, Seal.Ex.tx_ser⟩ (by decide +kernel)) ?_
  decide +kernel
end Ex

/-- C60 does not hold: what `witnessinfo` prints is another outpoint. -/
theorem C60_refuted : ¬ C60_statement := by
  intro h
  have h1 := (h realHash intGuMap Ex.world "w".toList Ex.reachable).2 _ _ _ _ _ _ _ Ex.w_file Ex.w_holds
  obtain ⟨h', k, s, _, _, h2, h3, h4⟩ := C60_witnessinfo_partial (H := realHash) (g := intGuMap) Ex.world Ex.reachable "w".toList Ex.w_file Ex.w_holds Ex.op_valid Seal.Ex.has_txid Seal.Ex.has_txid
  obtain ⟨l1, l2, l3, s', h5, h6⟩ := h1 h2
  rw [h3] at h5
  have h7 := List.append_cancel_left h5
  simp only [List.cons.injEq, and_true] at h7
  have h8 := List.append_cancel_left h7.2.2.2
  subst h8
  rw [h4] at h6
  have h9 := Except.ok.inj h6
  revert h9
  decide +kernel

/-- The conditions are met: the files `a.seal` and `w`. -/
example : HoldsSeal (classes realHash intGuMap) realHash Ex.world.files "a.seal".toList (Seal.Ex.op, Seal.Ex.nonce) := Ex.a_seal
example : (sealinfo (classes realHash intGuMap) realHash "a.seal".toList Ex.world).2.out.drop 1 =
    ["OutPoint:\t98a6c5b32a7f1478a8a1c52cbb6b1f9b6d866c5dca570dffa4d78dce45f48eaf:0".toList] := by decide +kernel
example : (witnessinfo (classes realHash intGuMap) realHash "w".toList Ex.world).2.out.drop 3 =
    ["Seal OutPoint:\taf8ef445ce8dd7a4ff0d57ca5d6c866d9b1f6bbb2cc5a1a878147f2ab3c5a698:0".toList] := by decide +kernel

end
end Verif.Sus
