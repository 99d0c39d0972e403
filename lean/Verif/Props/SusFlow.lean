import Verif.Props.SusTool
/-!
# Commands of the tool one after the other

Each command is a process of its own, possibly on another machine: nothing is assumed of its heap (but that a program can get into it), and of
its files only that those it is about are there.
-/
namespace Verif.Sus
open Verif Btc Seal

section
variable {H : HashFns} {g : GuMapDecl}
local notation "C" => classes H g

theorem commits_iff {d d' spk : Bytes} (hcf : CollisionFree (h160 H) [d, d']) (h : CommitsTo H d spk) : CommitsTo H d' spk ↔ d' = d := by
  constructor
  · intro h'
    exact (hcf _ (by simp) _ (by simp) (commits_unique h h')).symm
  · rintro rfl; exact h

theorem forall₂_mem {α β : Type} {R : α → β → Prop} {l : List α} {m : List β} (h : List.Forall₂ R l m) : ∀ a ∈ l, ∃ b ∈ m, R a b := by
  induction h with
  | nil => intro a h; cases h
  | cons h1 _ ih =>
    intro a h
    rcases List.mem_cons.mp h with rfl | h
    · exact ⟨_, by simp, h1⟩
    · obtain ⟨b, hb, hr⟩ := ih a h
      exact ⟨b, by simp [hb], hr⟩

/-- Two files given to `mkclosetx` are never the same file. -/
theorem nodup_files {files : Str → Option Bytes} {l : List Str} {seals : List (COutPoint × Bytes)} (h : List.Forall₂ (HoldsSeal C H files) l seals) (hn : seals.Nodup) : l.Nodup := by
  induction h with
  | nil => exact .nil
  | @cons f p fs ps hf hfs ih =>
    rw [List.nodup_cons] at hn ⊢
    refine ⟨fun hm => hn.1 ?_, ih hn.2⟩
    obtain ⟨q, hq, b, hb, hh⟩ := forall₂_mem hfs f hm
    obtain ⟨b', hb', hh'⟩ := hf
    rw [hb] at hb'; cases hb'
    rw [← holds_unique hh hh']; exact hq

/-! ## C112 -/

theorem given_unique {getraw : Bytes → Py Bytes} {targ : TxArg} {x y : CTransaction} (hx : Given getraw targ x) (hy : Given getraw targ y) : x = y := by
  cases targ with
  | tx h =>
    obtain ⟨b, h1, h2⟩ := hx
    obtain ⟨b', h3, h4⟩ := hy
    rw [h1] at h3; cases h3
    rw [h2] at h4; exact Except.ok.inj h4
  | txid h =>
    obtain ⟨i, b, h0, h1, h2⟩ := hx
    obtain ⟨i', b', h0', h3, h4⟩ := hy
    rw [h0] at h0'; cases h0'
    rw [h1] at h3; cases h3
    rw [h2] at h4; exact Except.ok.inj h4

/-- What `verifywitness` says about a file with a witness that `mkwitness` made. -/
theorem witnessFor_verify {files : Str → Option Bytes} {sn : Str} {x : CTransaction} {wb : Bytes} (hwf : WitnessFor C H files sn x wb) {out : CTxOut}
    (ho : x.vout[0]? = some out) (w : World) (hw : Reachable C H w.heap) (f : Str) (hf : w.files f = some wb) (arg : Str) :
    (verifywitness C H f (some arg) none none w).1 = .ok () ↔ ∃ d, strToDigest arg = .ok d ∧ CommitsTo H d out.scriptPubKey := by
  rw [C59_digest_partial w hw]
  obtain ⟨p, i, _, hi, hall⟩ := hwf
  obtain ⟨r, s, hd, hr, hv⟩ := hall w.heap hw
  have hs : Reachable C H s := hw.trans (deser_steps _ _ _ hd)
  constructor
  · rintro ⟨b, r', s', d, o, n, i', y, j, y', hb, had, hd', hr', hsh⟩
    rw [hf] at hb; cases hb
    rw [hd] at hd'; cases hd'
    have he := rep_unique hs hr hr'
    simp only [fullWitnessT, witnessT, txoutT, txT, PTree.node.injEq, PFields.sub.injEq, PFields.prim.injEq, PVal.int.injEq, PVal.tx.injEq, true_and, and_true] at he
    obtain ⟨_, _, rfl, rfl⟩ := he
    obtain ⟨out', ho', hc⟩ := hsh.commits
    rw [show (0 : Int).toNat = 0 from rfl, ho] at ho'
    cases ho'
    exact ⟨d, had, hc⟩
  · rintro ⟨d, had, hc⟩
    refine ⟨wb, r, s, d, p.1, p.2, i, x, 0, x, hf, had, hd, hr, strToDigest_length had, by omega, by omega, ?_, ⟨out, ho, hc⟩, ?_⟩
    · rw [Int.toNat_natCast]
      cases hx : x.vin[i]? with
      | none => rw [hx] at hi; cases hi
      | some inp => rw [hx] at hi; exact ⟨inp, rfl, Option.some.inj hi⟩
    · have hv := hv s .refl
      rw [run_eq classes_wf _ hs hr] at hv
      obtain ⟨o, n, i', y, c, he, _, _, _, hh⟩ := verify_inv (hs.checked classes_wf hr) hv
      simp only [fullWitnessT, witnessT, txinT, txT, PTree.node.injEq, PFields.sub.injEq, PFields.prim.injEq, PVal.int.injEq, PVal.tx.injEq, true_and, and_true] at he
      obtain ⟨_, ⟨_, rfl⟩, rfl⟩ := he
      obtain ⟨hh, h1, _⟩ := hh _ _ rfl
      obtain ⟨id, hid, _⟩ := hash_txT_ok.mp h1
      exact ⟨id, hid, hid⟩

theorem witnessName_inj {a b : Str} (h : witnessName a = witnessName b) : a = b := List.append_cancel_right h

/-- C112: closing seals over a digest, from the beginning to the end.  If `mkclosetx` reports no error, it printed a transaction template.  Any
transaction that spends the outpoints the template spends, and whose first output has the script of the output of the template (for instance
the template, signed), can be given to `mkwitness` with the same seal files, in any form; it reports no error, and makes a witness file for each of the seals,
unless one exists.  Wherever and whenever such a witness file is given to `verifywitness`, it is accepted for the digest, and not for any other. -/
theorem C112_workflow (w w' : World) (hw : Reachable C H w.heap) {arg : Str} {files : List Str} {m : Meth}
    (h : mkclosetx C H arg files m w = (.ok (), w')) :
    ∃ (x : CTransaction) (b d : Bytes), x.ser = .ok b ∧ w'.out = w.out ++ [b2x b] ∧ strToDigest arg = .ok d ∧
      ∀ (getraw : Bytes → Py Bytes) (targ : TxArg) (x' : CTransaction), Given getraw targ x' → x'.vin.length ≤ 2 ^ 32 →
        (∀ i ∈ x.vin, ∃ i' ∈ x'.vin, i'.prevout = i.prevout) → x'.vout.head?.map (·.scriptPubKey) = x.vout.head?.map (·.scriptPubKey) →
        ∀ w1 : World, Reachable C H w1.heap → (∀ sn ∈ files, w1.files sn = w.files sn ∧ w1.files (witnessName sn) = none) →
        ∃ w2, mkwitness C H getraw files targ w1 = (.ok (), w2) ∧ ∀ sn ∈ files, ∃ wb, w2.files (witnessName sn) = some wb ∧ WitnessFor C H w1.files sn x' wb ∧
          ∀ (w3 : World) (f arg' : Str), Reachable C H w3.heap → w3.files f = some wb →
            (∀ d', strToDigest arg' = .ok d' → CollisionFree (h160 H) [d, d'] → ((verifywitness C H f (some arg') none none w3).1 = .ok () ↔ d' = d)) ∧
            (verifywitness C H f (some arg) none none w3).1 = .ok () := by
  obtain ⟨y, w'', hm, _, _, hok, _⟩ := C57_mkclosetx_partial (H := H) (g := g) w hw arg files m
  rw [h] at hm; cases hm
  obtain ⟨d, seals, x, out, b, hd, _, hall, _, hnd, hvin, hvout, hcm, _, _, hser, hout⟩ := hok rfl
  refine ⟨x, b, d, hser, hout, hd, ?_⟩
  intro getraw targ x' hg hl hin hfirst w1 hw1 hfiles
  obtain ⟨y1, w2, hrun, _, _, hnew, hthere, hsucc⟩ := C58_mkwitness (H := H) (g := g) w1 hw1 getraw files targ
  have hy : y1 = .ok () := by
    refine hsucc x' hg (nodup_files hall hnd) hl fun sn hsn => ⟨(hfiles sn hsn).2, ?_⟩
    obtain ⟨p, hp, bb, hb, hh⟩ := forall₂_mem hall sn hsn
    refine ⟨p, ⟨bb, by rw [(hfiles sn hsn).1, hb], hh⟩, ?_⟩
    have : p.1 ∈ x.vin.map (·.prevout) := by rw [hvin]; exact List.mem_map_of_mem hp
    obtain ⟨i, hi, he⟩ := List.mem_map.mp this
    obtain ⟨i', hi', he'⟩ := hin i hi
    exact ⟨i', hi', by rw [he', he]⟩
  subst hy
  refine ⟨w2, hrun, fun sn hsn => ?_⟩
  obtain ⟨hnone, wb, hwb⟩ := hthere rfl sn hsn
  have hwf : WitnessFor C H w1.files sn x' wb := by
    rcases hnew _ _ hwb with hc | ⟨_, x'', hx'', sn', _, he, hwf⟩
    · rw [hnone] at hc; cases hc
    · rw [witnessName_inj he, ← given_unique hx'' hg]; exact hwf
  refine ⟨wb, hwb, hwf, ?_⟩
  obtain ⟨out', ho', hspk⟩ : ∃ out', x'.vout[0]? = some out' ∧ out'.scriptPubKey = out.scriptPubKey := by
    rw [hvout] at hfirst
    cases hv : x'.vout with
    | nil => rw [hv] at hfirst; cases hfirst
    | cons o os => rw [hv] at hfirst; exact ⟨o, rfl, Option.some.inj hfirst⟩
  intro w3 f arg' hw3 hf
  constructor
  · intro d' hd' hcf
    rw [witnessFor_verify hwf ho' w3 hw3 f hf, hspk, hd', ← commits_iff hcf hcm]
    exact ⟨fun ⟨_, h1, h2⟩ => Except.ok.inj h1 ▸ h2, fun h => ⟨_, rfl, h⟩⟩
  · rw [witnessFor_verify hwf ho' w3 hw3 f hf, hspk]
    exact ⟨d, hd, hcm⟩

/-- The conditions are met: `mkclosetx` for `a.seal`; the transaction of the example spends the outpoint, and its first output has the script. -/
example : (mkclosetx (classes realHash intGuMap) realHash Ex.digestArg ["a.seal".toList] .opReturn Ex.world).1 = .ok () ∧
    Given (fun _ => .error .other) (.tx (b2x Seal.Ex.txBytes)) Seal.Ex.tx ∧ (∃ i ∈ Seal.Ex.tx.vin, i.prevout = Seal.Ex.op) ∧
    Seal.Ex.tx.vout.head?.map (·.scriptPubKey) = some (opReturnScript Seal.Ex.digest) ∧ Ex.world.files (witnessName "a.seal".toList) = none :=
  ⟨by decide +kernel, ⟨_, unhex_b2x _, by decide +kernel⟩, by decide +kernel, by decide +kernel, by decide +kernel⟩
/-- And the three commands, run. -/
example : let w2 := (mkwitness (classes realHash intGuMap) realHash (fun _ => .error .other) ["a.seal".toList] (.tx (b2x Seal.Ex.txBytes)) Ex.world).2
    (verifywitness (classes realHash intGuMap) realHash "a.seal.witness".toList (some Ex.digestArg) none none { files := w2.files }).1 = .ok () ∧
    (verifywitness (classes realHash intGuMap) realHash "a.seal.witness".toList (some (List.replicate 64 '0')) none none { files := w2.files }).1 = .error .assertion := by
  decide +kernel

/-! ## C113 -/

/-- Transactions that spend the same outpoint have the same id: no outpoint is spent twice. -/
def NoDoubleSpend (H : HashFns) (chain : CTransaction → Prop) : Prop :=
  ∀ x y, chain x → chain y → (∃ i ∈ x.vin, ∃ j ∈ y.vin, i.prevout = j.prevout) → ∃ id, HasTxid H x id ∧ HasTxid H y id

/-- C113: a seal is closed over one digest.  Take two witness files that `mkwitness` made, at any two times and places, for seals with the same outpoint, from
transactions among those of a chain on which no outpoint is spent twice.  The digests that `verifywitness` accepts for them are the same. -/
theorem C113_one_digest {chain : CTransaction → Prop} (hch : NoDoubleSpend H chain) {files files' : Str → Option Bytes} {sn sn' : Str} {x x' : CTransaction} {wb wb' : Bytes}
    (hx : chain x) (hx' : chain x') (hwf : WitnessFor C H files sn x wb) (hwf' : WitnessFor C H files' sn' x' wb')
    {o : COutPoint} {n n' : Bytes} (hs : HoldsSeal C H files sn (o, n)) (hs' : HoldsSeal C H files' sn' (o, n'))
    {w w' : World} (hw : Reachable C H w.heap) (hw' : Reachable C H w'.heap) {f f' arg arg' : Str} (hf : w.files f = some wb) (hf' : w'.files f' = some wb')
    (hv : (verifywitness C H f (some arg) none none w).1 = .ok ()) (hv' : (verifywitness C H f' (some arg') none none w').1 = .ok ())
    (hcf : ∀ b b', x.ser = .ok b → x'.ser = .ok b' → CollisionFree H.sha256 [b, b', H.sha256 b, H.sha256 b'])
    (hcf' : ∀ d d', strToDigest arg = .ok d → strToDigest arg' = .ok d' → CollisionFree (h160 H) [d, d']) :
    ∃ d, strToDigest arg = .ok d ∧ strToDigest arg' = .ok d := by
  have spends : ∀ {files : Str → Option Bytes} {sn : Str} {x : CTransaction} {wb n : Bytes}, WitnessFor C H files sn x wb → HoldsSeal C H files sn (o, n) →
      ∃ i ∈ x.vin, i.prevout = o := by
    intro files sn x wb n hwf hs
    obtain ⟨p, i, ⟨b, hb, hh⟩, hi, _⟩ := hwf
    obtain ⟨b', hb', hh'⟩ := hs
    rw [hb] at hb'; cases hb'
    cases holds_unique hh hh'
    cases hg : x.vin[i]? with
    | none => rw [hg] at hi; cases hi
    | some inp => rw [hg] at hi; exact ⟨inp, List.mem_of_getElem? hg, Option.some.inj hi⟩
  obtain ⟨i, hi, hio⟩ := spends hwf hs
  obtain ⟨j, hj, hjo⟩ := spends hwf' hs'
  obtain ⟨id, ⟨b, hb, he⟩, b', hb', he'⟩ := hch x x' hx hx' ⟨i, hi, j, hj, by rw [hio, hjo]⟩
  have hcf := hcf b b' hb hb'
  have hbb := hcf _ (by simp) _ (by simp) (hcf _ (by simp) _ (by simp) (he.symm.trans he'))
  subst hbb
  have hxx : x = x' := PF.inj PF.tx hb hb'
  subst hxx
  have out : ∃ out, x.vout[0]? = some out := by
    obtain ⟨p, k, _, _, hall⟩ := hwf
    obtain ⟨r, s, hd, hr, _⟩ := hall w.heap hw
    obtain ⟨b, r', s', d, o, n, i', y, j', y', hb, _, hd', hr', hsh⟩ := (C59_digest_partial w hw f arg).mp hv
    rw [hf] at hb; cases hb
    rw [hd] at hd'; cases hd'
    have he := rep_unique (hw.trans (deser_steps _ _ _ hd)) hr hr'
    simp only [fullWitnessT, witnessT, txoutT, txT, PTree.node.injEq, PFields.sub.injEq, PFields.prim.injEq, PVal.int.injEq, PVal.tx.injEq, true_and, and_true] at he
    obtain ⟨_, _, rfl, rfl⟩ := he
    obtain ⟨out, ho, _⟩ := hsh.commits
    exact ⟨out, ho⟩
  obtain ⟨out, ho⟩ := out
  obtain ⟨d, hd, hc⟩ := (witnessFor_verify hwf ho w hw f hf arg).mp hv
  obtain ⟨d', hd', hc'⟩ := (witnessFor_verify hwf' ho w' hw' f' hf' arg').mp hv'
  have := (commits_iff (hcf' d d' hd hd') hc).mp hc'
  subst this
  exact ⟨d', hd, hd'⟩

namespace Ex
theorem a_witness : WitnessFor (classes realHash intGuMap) realHash world.files "a.seal".toList Seal.Ex.tx witnessBytes := by
  have hg : Given (fun _ => .error .other) (.tx (b2x Seal.Ex.txBytes)) Seal.Ex.tx := ⟨_, unhex_b2x _, by decide +kernel⟩
  obtain ⟨y, w', hrun, _, _, hnew, _⟩ := C58_mkwitness (H := realHash) (g := intGuMap) world reachable (fun _ => .error .other) ["a.seal".toList] (.tx (b2x Seal.Ex.txBytes))
  have hf : w'.files "a.seal.witness".toList = some witnessBytes := by
    have : (mkwitness (classes realHash intGuMap) realHash (fun _ => .error .other) ["a.seal".toList] (.tx (b2x Seal.Ex.txBytes)) world).2.files "a.seal.witness".toList =
      some witnessBytes := by decide +kernel
    rw [hrun] at this; exact this
  rcases hnew _ _ hf with h | ⟨_, x, hx, sn, hsn, _, hwf⟩
  · exact absurd h (by decide +kernel)
  · rw [List.mem_singleton] at hsn
    subst hsn
    rw [← given_unique hx hg]; exact hwf
end Ex
/-- The conditions are met: the chain has the transaction of the example only. -/
example : NoDoubleSpend realHash (· = Seal.Ex.tx) ∧ WitnessFor (classes realHash intGuMap) realHash Ex.world.files "a.seal".toList Seal.Ex.tx Ex.witnessBytes ∧
    (verifywitness (classes realHash intGuMap) realHash "w".toList (some Ex.digestArg) none none Ex.world).1 = .ok () :=
  ⟨fun x y hx hy _ => ⟨_, hx ▸ Seal.Ex.has_txid, hy ▸ Seal.Ex.has_txid⟩, Ex.a_witness, by decide +kernel⟩

/-- The seal files in `/repo/examples` (this is `op-ret.seal`, `examples/op-ret.seal`) have no nonce: the code that came with them cannot read them. -/
example : ((Prf.deserialize (classes realHash intGuMap) Cls.btcSeal (hex "0024af8ef445ce8dd7a4ff0d57ca5d6c866d9b1f6bbb2cc5a1a878147f2ab3c5a69800000000") {}).1.toOption).isNone = true := by decide +kernel

end
end Verif.Sus
