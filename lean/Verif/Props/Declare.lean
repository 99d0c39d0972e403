import Verif.Lemmas.Declare
import Verif.Props.MmrProof
import Verif.Props.MbProof
/-!
# The classes made by `make_mmr_subclass` and `make_MerbinnerTree_subclass`

They can be added to any collection of classes.
-/
namespace Verif

/-- The tags of a class and of its variants are all different, and none of them is used by a class of `T`. -/
structure NewTags (T : Table) (tags : List Bytes) : Prop where
  different : tags.Nodup
  unused : ∀ c, ∀ tg ∈ tags, (T c).hashtag ≠ some tg

theorem tagged4 {T T' : Table} {m : Nat} {a b c d : Bytes} (ht : NewTags T [a, b, c, d]) (h0 : (T' m).hashtag = some a) (h1 : (T' (m + 1)).hashtag = some b)
    (h2 : (T' (m + 2)).hashtag = some c) (h3 : (T' (m + 3)).hashtag = some d) :
    (∀ c c', Four m c → Four m c' → (T' c).hashtag = (T' c').hashtag → c = c') ∧
    (∀ c c' tg, Four m c → ¬ Four m c' → (T' c).hashtag = some tg → (T c').hashtag ≠ some tg) := by
  have hd := ht.different
  simp only [List.nodup_cons, List.mem_cons, List.not_mem_nil, or_false, not_or, not_false_eq_true, List.nodup_nil, and_true] at hd
  obtain ⟨⟨d1, d2, d3⟩, ⟨d4, d5⟩, d6⟩ := hd
  constructor
  · intro x y hx hy e
    rcases hx.cases with rfl | rfl | rfl | rfl <;> rcases hy.cases with rfl | rfl | rfl | rfl <;>
      simp_all [eq_comm]
  · intro x y tg hx _ e
    apply ht.unused
    rcases hx.cases with rfl | rfl | rfl | rfl <;> simp only [h0, h1, h2, h3, Option.some.injEq] at e <;> rw [← e] <;> simp

namespace Mmr

/-- Adding a class of mountain ranges to any classes: what is required for C64 holds, and what is required for C65 holds if it does of the classes before,
the new tags are new, and no `ProofUnion` mentions the new classes. -/
theorem C65_classes (T : Table) (H : HashFns) (m : Nat) (tag : Bytes) (k : Kind) (hk : ∀ us, k ≠ .union us) :
    Declares (T.withMmr H m tag k) H m tag k ∧ (T.WF → (T.withMmr H m tag k).WF) ∧
    (T.Binds → NewTags T [tag, H.derive MMR.subtagEmpty tag, H.derive MMR.subtagLeaf tag, H.derive MMR.subtagInner tag] →
      (∀ c us, Kind.union us ∈ (T c).attrs → ∀ u ∈ us, u < m ∨ m + 3 < u) → (T.withMmr H m tag k).Binds) := by
  have e0 : T.withMmr H m tag k m = _ := if_pos rfl
  have e1 : T.withMmr H m tag k (m + 1) = { hashtag := some (H.derive MMR.subtagEmpty tag), attrs := [], variants := some [m + 1, m + 2, m + 3], bases := [m] } := by
    unfold Table.withMmr; rw [if_neg (by omega), if_pos rfl]
  have e2 : T.withMmr H m tag k (m + 2) = { hashtag := some (H.derive MMR.subtagLeaf tag), attrs := [k], variants := some [m + 1, m + 2, m + 3], bases := [m] } := by
    unfold Table.withMmr; rw [if_neg (by omega), if_neg (by omega), if_pos rfl]
  have e3 : T.withMmr H m tag k (m + 3) = { hashtag := some (H.derive MMR.subtagInner tag), attrs := [.proof m, .proof m, .prim .uint64], variants := some [m + 1, m + 2, m + 3], bases := [m] } := by
    unfold Table.withMmr; rw [if_neg (by omega), if_neg (by omega), if_neg (by omega), if_pos rfl]
  have ha : Adds T (T.withMmr H m tag k) m := by
    refine ⟨fun c hc => ?_, fun c hc => ?_, fun c hc => ?_, fun c hc u hu => ?_, fun c hc us => ?_⟩
    · unfold Four at hc
      unfold Table.withMmr
      rw [if_neg (by omega), if_neg (by omega), if_neg (by omega), if_neg (by omega)]
    · rcases hc.cases with rfl | rfl | rfl | rfl <;> simp only [e0, e1, e2, e3]
    · rcases hc.cases with rfl | rfl | rfl | rfl <;> simp only [e0, e1, e2, e3]
    · rcases hc.cases with rfl | rfl | rfl | rfl <;> simpa [e0, e1, e2, e3] using hu
    · rcases hc.cases with rfl | rfl | rfl | rfl <;> simp [e0, e1, e2, e3]
      exact (hk us).symm
  refine ⟨⟨e0, e1, e2, e3⟩, ha.wf, fun hT ht hu => ?_⟩
  obtain ⟨t1, t2⟩ := tagged4 ht (congrArg ClassInfo.hashtag e0) (congrArg ClassInfo.hashtag e1) (congrArg ClassInfo.hashtag e2) (congrArg ClassInfo.hashtag e3)
  exact ha.binds hT (fun c us h u hu' => by have := hu c us h u hu'; unfold Four; omega) t1 t2

end Mmr

namespace Merb

/-- Adding a class of binary trees to any classes: what is required for C79 holds, and what is required for C80 holds if it does of the classes before, the
new tags are new, and no `ProofUnion` mentions the new classes. -/
theorem C80_classes (T : Table) (H : HashFns) (m : Nat) (tag : Bytes) (τ : PrimTy) (kv : Kind) (hk : ∀ us, kv ≠ .union us) :
    Declares (T.withMb H m tag τ kv) H m tag τ kv ∧ (T.WF → (T.withMb H m tag τ kv).WF) ∧
    (T.Binds → NewTags T [tag, H.derive MB.subtagEmpty tag, H.derive MB.subtagLeaf tag, H.derive MB.subtagInner tag] →
      (∀ c us, Kind.union us ∈ (T c).attrs → ∀ u ∈ us, u < m ∨ m + 3 < u) → (T.withMb H m tag τ kv).Binds) := by
  have e0 : T.withMb H m tag τ kv m = _ := if_pos rfl
  have e1 : T.withMb H m tag τ kv (m + 1) = { hashtag := some (H.derive MB.subtagEmpty tag), attrs := [], variants := some [m + 1, m + 2, m + 3], bases := [m] } := by
    unfold Table.withMb; rw [if_neg (by omega), if_pos rfl]
  have e2 : T.withMb H m tag τ kv (m + 2) = { hashtag := some (H.derive MB.subtagLeaf tag), attrs := [.prim τ, kv], variants := some [m + 1, m + 2, m + 3], bases := [m] } := by
    unfold Table.withMb; rw [if_neg (by omega), if_neg (by omega), if_pos rfl]
  have e3 : T.withMb H m tag τ kv (m + 3) = { hashtag := some (H.derive MB.subtagInner tag), attrs := [.prim .bits, .proof m, .proof m], variants := some [m + 1, m + 2, m + 3], bases := [m] } := by
    unfold Table.withMb; rw [if_neg (by omega), if_neg (by omega), if_neg (by omega), if_pos rfl]
  have ha : Adds T (T.withMb H m tag τ kv) m := by
    refine ⟨fun c hc => ?_, fun c hc => ?_, fun c hc => ?_, fun c hc u hu => ?_, fun c hc us => ?_⟩
    · unfold Four at hc
      unfold Table.withMb
      rw [if_neg (by omega), if_neg (by omega), if_neg (by omega), if_neg (by omega)]
    · rcases hc.cases with rfl | rfl | rfl | rfl <;> simp only [e0, e1, e2, e3]
    · rcases hc.cases with rfl | rfl | rfl | rfl <;> simp only [e0, e1, e2, e3]
    · rcases hc.cases with rfl | rfl | rfl | rfl <;> simpa [e0, e1, e2, e3] using hu
    · rcases hc.cases with rfl | rfl | rfl | rfl <;> simp [e0, e1, e2, e3]
      exact (hk us).symm
  refine ⟨⟨e0, e1, e2, e3⟩, ha.wf, fun hT ht hu => ?_⟩
  obtain ⟨t1, t2⟩ := tagged4 ht (congrArg ClassInfo.hashtag e0) (congrArg ClassInfo.hashtag e1) (congrArg ClassInfo.hashtag e2) (congrArg ClassInfo.hashtag e3)
  exact ha.binds hT (fun c us h u hu' => by have := hu c us h u hu'; unfold Four; omega) t1 t2

end Merb

-- a class of mountain ranges of numbers, and one of binary trees whose values are such mountain ranges
example : ((Mmr.Ex.IT).withMb realHash 4 intMBTag (.fixed 32) (.proof 0)).Binds := by
  refine (Merb.C80_classes Mmr.Ex.IT realHash 4 intMBTag (.fixed 32) (.proof 0) (by simp)).2.2 Mmr.Ex.binds ⟨by decide +kernel, ?_⟩ ?_
  · have key : ∀ c < 4, ∀ tg ∈ [intMBTag, realHash.derive MB.subtagEmpty intMBTag, realHash.derive MB.subtagLeaf intMBTag, realHash.derive MB.subtagInner intMBTag],
        (Mmr.Ex.IT c).hashtag ≠ some tg := by decide +kernel
    intro c tg ht
    rcases Nat.lt_or_ge c 4 with h | h
    · exact key c h tg ht
    · unfold Mmr.Ex.IT Table.withMmr
      rw [if_neg (by omega), if_neg (by omega), if_neg (by omega), if_neg (by omega)]
      simp
  · intro c us h
    exfalso
    unfold Mmr.Ex.IT Table.withMmr at h
    split at h
    · simp at h
    split at h
    · simp at h
    split at h
    · simp at h
    split at h <;> simp at h

end Verif
