import Verif.Lemmas.ReadingH
import Verif.Lemmas.Block
/-! # Reading: the bound on the depth does not matter; blocks -/
namespace Verif
open Btc
namespace Reading

theorem Tri.any {α} {E : PyErr → Prop} {k : Nat} {s : PState} {m : HM α} {Q : PState → α → Prop} (h : Tri E k s m Q) : Tri (fun _ => True) k s m Q := by
  obtain ⟨h1, h2⟩ := h
  refine ⟨h1, ?_⟩
  split
  · rename_i a ha
    rw [ha] at h2
    exact h2
  · rename_i e he
    rw [he] at h2
    exact ⟨h2.1, trivial⟩

theorem deserF_any (T : Table) (n c : Nat) (b : Bytes) (h : b.length < n) : Reader (fun _ => True) T (Prf.deserF T n) c b :=
  fun s => (deserF_tri T c n c b .self h s).any

theorem bind_congr_left {α β} {m m' : HM α} {f : α → HM β} {s : PState} (h : m s = m' s) : (m >>= f) s = (m' >>= f) s := by
  change (match m s with | (.ok a, s') => f a s' | (.error e, s') => (.error e, s')) = (match m' s with | (.ok a, s') => f a s' | (.error e, s') => (.error e, s'))
  rw [h]

theorem Tri.bind_congr {α β} {E : PyErr → Prop} {k : Nat} {s : PState} {m : HM α} {Q : PState → α → Prop} {f g : α → HM β} (h : Tri E k s m Q)
    (hf : ∀ a s1, Q s1 a → f a s1 = g a s1) : (m >>= f) s = (m >>= g) s := by
  change (match m s with | (.ok a, s') => f a s' | (.error e, s') => (.error e, s')) = (match m s with | (.ok a, s') => g a s' | (.error e, s') => (.error e, s'))
  obtain ⟨-, h2⟩ := h
  generalize m s = x at h2 ⊢
  obtain ⟨r, s1⟩ := x
  cases r with
  | error e => rfl
  | ok a => exact hf a s1 h2

theorem readBool_par : Par (fun _ => True) readBool (fun _ => 1) := .bool fun _ _ => trivial
theorem varuint_par : Par (fun _ => True) readVaruint (fun _ => 1) := .varuint trivial

theorem attrDeser_congr {df df' : Nat → Bytes → HM (Nat × Bytes)} {κ : Kind} {b : Bytes} (h : ∀ c b' s, b'.length ≤ b.length → df c b' s = df' c b' s) (s : PState) :
    Prf.attrDeser df κ b s = Prf.attrDeser df' κ b s := by
  cases κ with
  | prim τ => rfl
  | proof c => exact bind_congr_left (h c b s (Nat.le_refl _))
  | union us =>
    refine (Tri.read varuint_par (Nat.le_refl _)).bind_congr ?_
    rintro ⟨i, b1⟩ s1 ⟨rfl, -, hl⟩
    dsimp only at hl ⊢
    cases us[i]? with
    | none => rfl
    | some u => exact bind_congr_left (h u b1 s1 (by omega))

theorem deserLoop_congr {T : Table} {df df' : Nat → Bytes → HM (Nat × Bytes)} : ∀ {ks : List Kind} {b : Bytes} (_ : ∀ c b' s, b'.length ≤ b.length → df c b' s = df' c b' s)
    (_ : ∀ c b', b'.length ≤ b.length → Reader (fun _ => True) T df c b') (s : PState), Prf.deserLoop df ks b s = Prf.deserLoop df' ks b s
  | [], _, _, _, _ => rfl
  | κ :: ks, b, h, hr, s => by
    rw [Prf.deserLoop, Prf.deserLoop]
    refine Eq.trans ?_ (bind_congr_left (attrDeser_congr h s))
    refine (attrDeser_tri (T := T) (E := fun _ => True) ⟨fun _ _ => trivial, fun _ _ _ _ => trivial, fun _ _ => trivial⟩
      (fun c b' _ l => hr c b' l) (fun _ u b' _ _ l => hr u b' l) s).bind_congr ?_
    rintro ⟨v, b1⟩ s1 ⟨-, g2, -⟩
    dsimp only at g2 ⊢
    exact bind_congr_left (deserLoop_congr (T := T) (fun c b' s l => h c b' s (by omega)) (fun c b' l => hr c b' (by omega)) s1)

/-- Two bounds beyond the number of bytes: the same. -/
theorem deserF_fuel (T : Table) : ∀ (n m c : Nat) (b : Bytes) (s : PState), b.length < n → b.length < m → Prf.deserF T n c b s = Prf.deserF T m c b s
  | 0, _, _, _, _, h, _ => absurd h (by omega)
  | _ + 1, 0, _, _, _, _, h => absurd h (by omega)
  | n + 1, m + 1, c, b, s, hn, hm => by
    rw [Prf.deserF, Prf.deserF]
    refine (Tri.read readBool_par (Nat.le_refl _)).bind_congr ?_
    rintro ⟨pr, b1⟩ s1 ⟨rfl, -, hl⟩
    dsimp only at hl ⊢
    cases pr with
    | true => rfl
    | false =>
      dsimp only
      have hv : Tri (fun _ => True) s1.objs.length s1 (Prf.variantOf T c b1) (fun _ x => x.2.length ≤ b1.length) := by
        unfold Prf.variantOf
        cases (T c).variants with
        | none => exact .pure (Nat.le_refl _)
        | some us =>
          dsimp only
          refine (Tri.read varuint_par (Nat.le_refl _)).bind ?_
          rintro ⟨i, b2⟩ s2 - ⟨rfl, -, hl2⟩
          dsimp only at hl2 ⊢
          cases us[i]? with
          | none => exact .fail (Nat.le_refl _) trivial
          | some u => exact .pure (by simp only; omega)
      refine hv.bind_congr ?_
      rintro ⟨u, b2⟩ s2 hl2
      dsimp only at hl2 ⊢
      exact bind_congr_left (deserLoop_congr (T := T) (fun d b' s' l => deserF_fuel T n m d b' s' (by omega) (by omega))
        (fun d b' l => deserF_any T n d b' (by omega)) s2)

end Reading

/-! ## Blocks -/
namespace Par
variable {E : PyErr → Prop}

theorem header (h1 : E .btcSer) (h2 : E .btcTrunc) : Par E CBlockHeader.deser (fun _ => 80) := by
  unfold CBlockHeader.deser
  refine (serRead h1 h2).bind fun s0 v r0 e0 => (serRead h1 h2).bind fun s1 p r1 e1 => (serRead h1 h2).bind fun s2 m r2 e2 =>
    (serRead h1 h2).bind fun s3 t r3 e3 => (serRead h1 h2).bind fun s4 n r4 e4 => (serRead h1 h2).bind fun s5 o r5 e5 => ?_
  have a1 := (serRead_ok e1).2
  have a2 := (serRead_ok e2).2
  refine .lift (fun e he => ?_) (fun _ _ => rfl)
  unfold CBlockHeader.new pyAssert at he
  simp [a1, a2] at he
  cases he

theorem merkle_total (H : HashFns) {xs : List CTransaction} (h : ∀ t ∈ xs, ∃ e, t.ser = .ok e) : ∃ t, buildMerkleTreeFromTxs H xs = .ok t := by
  have : ∃ l, xs.mapM (·.getHash H) = .ok l := by
    induction xs with
    | nil => exact ⟨[], rfl⟩
    | cons x xs ih =>
      obtain ⟨e, he⟩ := h x (by simp)
      obtain ⟨l, hl⟩ := ih fun t ht => h t (by simp [ht])
      refine ⟨H.hash256 e :: l, ?_⟩
      rw [List.mapM_cons, hl]
      unfold CTransaction.getHash
      rw [he]
      rfl
  obtain ⟨l, hl⟩ := this
  obtain ⟨t, ht, -⟩ := buildMerkleTree_eq H l
  exact ⟨t, by unfold buildMerkleTreeFromTxs; rw [hl, Except.bind_ok, ht]⟩

theorem block (H : HashFns) (h1 : E .btcSer) (h2 : E .btcTrunc) : Par E (CBlock.deser H) (fun b => 81 + total txCost b.vtx) := by
  unfold CBlock.deser
  refine (header h1 h2).bind fun s0 hd r0 e0 => (vector h1 h2 (tx h1 h2)).bind fun s1 vtx r1 e1 => ?_
  obtain ⟨t, ht⟩ := merkle_total H (xs := vtx) fun t h => by
    obtain ⟨a1, a2, a3, a4, a5, a6⟩ := (deserVector_inv (fun _ _ _ h => CTransaction.deser_valid h) e1).2 t h
    exact CTransaction.ser_total a1 a2 a3 a4 a5 a6
  rw [ht]
  refine Par.bind (g := fun _ => 0) (.lift (fun e he => by cases he) fun _ _ => rfl) fun _ _ _ _ => ?_
  exact .pure (by simp only; omega)

end Par
end Verif
