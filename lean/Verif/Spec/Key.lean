import Verif.Model.Key
/-! # What is assumed of libssl -/
namespace Verif.Btc
open Verif

/-- For the proper points (those of the curve but infinity): they are read back from either form, which have the usual sizes and first bytes; a hash of
32 bytes can be signed with the secret of the point, and the signature is accepted and has a usual size and first byte. -/
structure Ssl.Works (S : Ssl) (Proper : S.Pt → Prop) : Prop where
  back : ∀ P c, Proper P → S.dec (S.enc c P) = some (P, c)
  size : ∀ P c, Proper P → (S.enc c P).length = if c then 33 else 65
  lead : ∀ P c, Proper P → ∃ b t, S.enc c P = b :: t ∧ b ∈ [0x02#8, 0x03#8, 0x04#8]
  signs : ∀ s P h, S.mul s = some P → Proper P → h.length = 32 →
    ∃ sig, S.sign s h = some sig ∧ S.verify P h sig = true ∧ 20 ≤ sig.length ∧ sig.length ≤ 72 ∧ sig.head? = some 0x30#8

end Verif.Btc
