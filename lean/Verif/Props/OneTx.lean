import Verif.Props.ProofTxLost
import Verif.Props.MmrOneItem
import Verif.Props.MbOneKey
/-!
# C66 and C81, ranges and trees of one item that is a `TxProof`
-/
namespace Verif
open Seal
variable {T : Table} {H : HashFns} {m : Nat} {tag : Bytes}

theorem reveal_unread {q : PTree} {S : List (List Nat)} {π : List Nat} (hn : π ∉ S) : ∃ d, q.reveal T H S π = .pruned q.cls d := by
  cases q with
  | pruned c d => exact ⟨d, by rw [PTree.reveal]; rfl⟩
  | node c fs => rw [PTree.reveal, if_neg hn]; exact ⟨_, rfl⟩

namespace Mmr
variable {k : Kind}

/-- With one item, a `TxProof`: the receiver has a range of one item, a pruned `TxProof`, neither of which has a hash: asking for it
raises TypeError. -/
theorem C66_one_tx_partial (hT : T.WF) (hx : ∀ c, (T c).isTx = true → (T c).hashtag = none) (hD : Declares T H m tag k) {s : PState} {r : Nat} {q : PTree}
    (hs : Reachable T H s) (h : Holds T m k s r [.sub q]) (hv : (PFields.sub q .nil).WellTyped T [k]) (hvar : (T q.cls).variants = none)
    (htx : (T q.cls).isTx = true) {i : Int} {p : Nat} {v : HVal} {b : Bytes} {s1 s2 s3 : PState}
    (hp : Prf.prune T r s = (.ok p, s1)) (hg : getItem m T H p i s1 = (.ok v, s2)) (hb : Prf.serialize T H p s2 = (.ok b, s3)) {s0 : PState} (hs0 : Reachable T H s0) :
    ∃ r' s0' d, Prf.deserialize T m b s0 = (.ok r', s0') ∧ Holds T m k s0' r' [.sub (.pruned q.cls d)] ∧
      (PTree.pruned q.cls d).hash T H = .error .typeError ∧ (Prf.hash T H r' s0').1 = .error .typeError := by
  obtain ⟨t, hist, ht, hr⟩ := h.history (H := H)
  have hty := emb_typed hD ht h.1 (by simpa [PFields.cons] using hv)
  obtain ⟨p', s1', hp', hhp⟩ := C64_prune hT hs h
  rw [hp] at hp'
  cases hp'
  have hs1 : Reachable T H s1 := by
    have := hs.tail (.prune r)
    rwa [hp] at this
  obtain ⟨_, _, ht', hpr⟩ := hhp.history (H := H)
  cases ht'.unique (IsMMR.leaf _)
  have htl : t = .leaf (.sub q) := ht.unique (IsMMR.leaf _)
  subst htl
  have hi := one_index hT hs1 hpr hg
  have hst := getItem_state (T := T) (H := H) (m := m) p i s1
  rw [hg] at hst
  obtain ⟨hrd, hnr⟩ := reads_leaf (T := T) (H := H) (m := m) q s1.objs.length hi
  obtain ⟨d, hd⟩ := reveal_unread (T := T) (H := H) (q := q) hnr
  have hrev : (emb m (.leaf (.sub q))).reveal T H ((item m (s1.objs.length + 1) i).reads T H (emb m (.leaf (.sub q)))) [] = emb m (.leaf (.sub (.pruned q.cls d))) := by
    show PTree.reveal T H _ [] (.node (m + 2) (.sub q .nil)) = .node (m + 2) (.sub (.pruned q.cls d) .nil)
    rw [PTree.reveal, if_pos hrd, PFields.reveal, PFields.reveal, ← hd]
    rfl
  obtain ⟨r', s0', h1, h2, h3⟩ := C37_tx_lost_partial hT hx hs hr hty (item m (s1.objs.length + 1) i) (s2 := s2) hp
    (res := ((item m (s1.objs.length + 1) i).run T H p s1).1) (Prod.ext rfl hst.symm) hb
    (by
      rw [hrev]
      show (PTree.node (m + 2) (.sub (.pruned q.cls d) .nil)).KeepsVariants T
      simp only [PTree.KeepsVariants, PFields.KeepsVariants, hvar, and_self])
    (by
      rw [hrev]
      show (PTree.node (m + 2) (.sub (.pruned q.cls d) .nil)).LosesTx T
      simp only [PTree.LosesTx, PFields.LosesTx, htx, true_or]) hs0
  rw [hrev] at h2
  refine ⟨r', s0', d, h1, ⟨h.1, fun x hx => ?_, _, .leaf _, h2⟩, ?_, h3⟩
  · rw [List.mem_singleton.mp hx]
    have := h.2.1 (.sub q) (by simp)
    cases k <;> simp only [accepts, PTree.cls] at this ⊢ <;> exact this
  · rw [PTree.hash, Prf.tagHash, hx _ htx]

/-- A case: ranges of `TxProof`s, beside the classes of the repository. -/
def Ex.XT : Table := Table.withMmr (classes realHash intGuMap) realHash 1000 intMMRTag (.proof Cls.txProof)

theorem Ex.XT_tx (c : Nat) (h : (Ex.XT c).isTx = true) : (Ex.XT c).hashtag = none ∧ (Ex.XT c).attrs = [.prim .tx] := by
  unfold Ex.XT Table.withMmr at h ⊢
  split at h
  · cases h
  split at h
  · cases h
  split at h
  · cases h
  split at h
  · cases h
  · rename_i h1 h2 h3 h4
    rw [if_neg h1, if_neg h2, if_neg h3, if_neg h4]
    unfold classes at h ⊢
    split at h <;> first | exact ⟨rfl, rfl⟩ | cases h

/-- The range of the one example transaction, pruned after looking at the item, sent, and read again. -/
def Ex.sentTx : HM Nat := do
  let x ← Prf.new Ex.XT Cls.txProof [.prim (.tx Seal.Ex.tx)]
  let r ← ofIterable 1000 Ex.XT realHash [.ref x]
  let p ← Prf.prune Ex.XT r
  let _ ← getItem 1000 Ex.XT realHash p 0
  let b ← Prf.serialize Ex.XT realHash p
  Prf.deserialize Ex.XT 1000 b

example : Ex.XT.WF ∧ (∀ c, (Ex.XT c).isTx = true → (Ex.XT c).hashtag = none) ∧ Declares Ex.XT realHash 1000 intMMRTag (.proof Cls.txProof) ∧
    (Ex.XT (txT Seal.Ex.tx).cls).variants = none ∧ (Ex.XT (txT Seal.Ex.tx).cls).isTx = true :=
  ⟨fun c h => (Ex.XT_tx c h).2, fun c h => (Ex.XT_tx c h).1, ⟨rfl, rfl, rfl, rfl⟩, rfl, rfl⟩
example : ((do let r ← Ex.sentTx; let l ← toList 1000 Ex.XT realHash r; return l.length : HM Nat) {}).1 = .ok 1 := by decide +kernel
example : ((do let r ← Ex.sentTx; Prf.hash Ex.XT realHash r : HM Bytes) {}).1 = .error .typeError := by decide +kernel

end Mmr

namespace Merb
variable {τ : PrimTy} {kd : Kind} {k2p : PVal → Py (List Bool)} {kp : Key τ → List Bool}

/-- With one key, whose value is a `TxProof`: the receiver has a tree of that key with a pruned `TxProof`, neither of which has a hash:
asking for it raises TypeError. -/
theorem C81_one_tx_partial (hT : T.WF) (hx : ∀ c, (T c).isTx = true → (T c).hashtag = none) (hD : Declares T H m tag τ kd) (hk : Prefixes τ k2p kp) {s : PState} {r : Nat}
    {d : Dict (Key τ) TVal} (hs : Reachable T H s) (h : Holds T H m kd kp s r d)
    (hv : ∀ k v, d k = some v → (PFields.prim k.1 (PFields.cons v .nil)).WellTyped T [.prim τ, kd])
    {k0 : Key τ} {q : PTree} (h0 : d k0 = some (.sub q)) (hone : ∀ k, d k ≠ none → k = k0) (hvar : (T q.cls).variants = none) (htx : (T q.cls).isTx = true)
    {k : Key τ} {p : Nat} {v : Py HVal} {b : Bytes} {s1 s2 s3 : PState}
    (hp : Prf.prune T r s = (.ok p, s1)) (hg : getItem m k2p T H p k.1 s1 = (v, s2)) (hb : Prf.serialize T H p s2 = (.ok b, s3)) {s0 : PState} (hs0 : Reachable T H s0) :
    ∃ r' s0' e, Prf.deserialize T m b s0 = (.ok r', s0') ∧ Holds T H m kd kp s0' r' (Dict.set (fun _ => none) k0 (.sub (.pruned q.cls e))) ∧
      (PTree.pruned q.cls e).hash T H = .error .typeError ∧ (Prf.hash T H r' s0').1 = .error .typeError := by
  obtain ⟨t, ht, hr⟩ := h
  have hty := emb_typed hD (t := t) (fun x hx => hv x.1 x.2 ((ht.2 x.1 x.2).mpr hx))
  have hst := getItem_state (T := T) (H := H) (m := m) (k2p := k2p) p k.1 s1
  rw [hg] at hst
  have htl := one_leaf ht h0 hone
  subst htl
  replace hty := hty (by simp [prefixes])
  obtain ⟨hrd, hnr⟩ := reads_leaf (T := T) (H := H) (m := m) hk k k0 q s1.objs.length
  obtain ⟨e, he⟩ := reveal_unread (T := T) (H := H) (q := q) hnr
  have hrev : (emb m (.leaf k0 (.sub q))).reveal T H ((item m k2p (s1.objs.length + 1) k.1).reads T H (emb m (.leaf k0 (.sub q)))) [] =
      emb m (.leaf k0 (.sub (.pruned q.cls e))) := by
    show PTree.reveal T H _ [] (.node (m + 2) (.prim k0.1 (.sub q .nil))) = .node (m + 2) (.prim k0.1 (.sub (.pruned q.cls e) .nil))
    rw [PTree.reveal, if_pos hrd, PFields.reveal, PFields.reveal, PFields.reveal, ← he]
    rfl
  obtain ⟨r', s0', h1, h2, h3⟩ := C37_tx_lost_partial hT hx hs hr hty (item m k2p (s1.objs.length + 1) k.1) (s2 := s2) hp
    (res := ((item m k2p (s1.objs.length + 1) k.1).run T H p s1).1) (Prod.ext rfl hst.symm) hb
    (by
      rw [hrev]
      show (PTree.node (m + 2) (.prim k0.1 (.sub (.pruned q.cls e) .nil))).KeepsVariants T
      simp only [PTree.KeepsVariants, PFields.KeepsVariants, hvar, and_self])
    (by
      rw [hrev]
      show (PTree.node (m + 2) (.prim k0.1 (.sub (.pruned q.cls e) .nil))).LosesTx T
      simp only [PTree.LosesTx, PFields.LosesTx, htx, true_or]) hs0
  rw [hrev] at h2
  refine ⟨r', s0', e, h1, ⟨.leaf k0 (.sub (.pruned q.cls e)), ⟨.inr (.leaf _ _), fun k' v' => ?_⟩, h2⟩, ?_, h3⟩
  · simp only [MB.pairs, Dict.set]
    split
    · rename_i e
      simp [e, eq_comm]
    · rename_i e
      simp [e]
  · rw [PTree.hash, Prf.tagHash, hx _ htx]

/-- A case: trees of `TxProof`s, beside the classes of the repository. -/
def Ex.XT : Table := Table.withMb (classes realHash intGuMap) realHash 1000 intMBTag (.fixed 32) (.proof Cls.txProof)

/-- The tree of one key, pruned after looking up the key, sent, and read again. -/
def Ex.sentTx : HM Nat := do
  let x ← Prf.new Ex.XT Cls.txProof [.prim (.tx Seal.Ex.tx)]
  let r ← ofPairs 1000 Ex.toBits Ex.XT realHash [((Ex.key 0x81).1, .ref x)]
  let p ← Prf.prune Ex.XT r
  let _ ← getItem 1000 Ex.toBits Ex.XT realHash p (Ex.key 0x81).1
  let b ← Prf.serialize Ex.XT realHash p
  Prf.deserialize Ex.XT 1000 b

example : Declares Ex.XT realHash 1000 intMBTag (.fixed 32) (.proof Cls.txProof) ∧
    (Ex.XT (txT Seal.Ex.tx).cls).variants = none ∧ (Ex.XT (txT Seal.Ex.tx).cls).isTx = true := ⟨⟨rfl, rfl, rfl, rfl⟩, rfl, rfl⟩
example : ((do let r ← Ex.sentTx; Merb.length 1000 Ex.XT realHash r : HM Nat) {}).1 = .ok 1 := by decide +kernel
example : ((do let r ← Ex.sentTx; Prf.hash Ex.XT realHash r : HM Bytes) {}).1 = .error .typeError := by decide +kernel

end Merb
end Verif
