import Verif.Lemmas.GuShip
import Verif.Props.GuMap
import Verif.Props.Proof
/-! # C144: sending a proof for one key of a map -/
namespace Verif.GuMap
open Verif Seal
section
variable {H : HashFns} {g : GuMapDecl} {t n : PTree}
local notation "C" => classes H g

theorem mem_readsOn {i : Nat} {v : TVal} {π : List Nat} (h : t.get? i = some v) : [] ∈ (TVal.sub t).readsOn (i :: π) := by
  simp [TVal.readsOn, h]

theorem sealHash_reads {q : PTree} {h : Bytes} (hs : SealHashIs C H q h) : [] ∈ sealHash.reads C H q := by
  obtain ⟨ts, hs, _⟩ := hs
  simp only [sealHash, Prog.reads, TVal.readsOn, TVal.walk, List.nil_append]
  unfold sealOf at hs
  have fin : ∀ {i v π}, q.get? i = some v → [] ∈ (Prog.hash (i :: π) fun h => .ret (.ok h) : Prog Bytes).reads C H q := by
    intro i v π h
    simp only [Prog.reads, List.mem_append]
    exact .inl (mem_readsOn h)
  by_cases h1 : q.cls = Cls.unusedPrefix
  · rw [if_pos h1] at hs
    simp only [sealPath, if_pos h1]
    exact fin (sub?_eq.mp hs)
  · rw [if_neg h1] at hs
    unfold witnessOf at hs
    by_cases h2 : q.cls = Cls.leafPrefix
    · rw [if_pos h2] at hs
      simp only [sealPath, if_neg h1, if_pos h2]
      cases hw : q.sub? 0 with
      | none => rw [hw] at hs; cases hs
      | some w => exact fin (sub?_eq.mp hw)
    · rw [if_neg h2] at hs
      by_cases h3 : q.cls = Cls.innerPrefix
      · rw [if_pos h3] at hs
        simp only [sealPath, if_neg h1, if_neg h2, if_pos h3]
        cases hw : q.sub? 1 with
        | none => rw [hw] at hs; cases hs
        | some w => exact fin (sub?_eq.mp hw)
      · rw [if_neg h3] at hs; cases hs

theorem txin_reads {o : Btc.COutPoint} {c : Bytes} {i j : Int} {x x' : Btc.CTransaction} : [1, 1] ∈ (txin [1]).reads C H (fullWitnessT o c i x j x') := by
  simp [txin, onCls, getTx, reads_bind, Prog.reads, TVal.readsOn, TVal.walk, fullWitnessT, witnessT, txinT, txoutT, txT, PTree.get?, PFields.get?, PTree.attr, PTree.cls, Except.bind_ok]

theorem txout_reads {o : Btc.COutPoint} {c : Bytes} {i j : Int} {x x' : Btc.CTransaction} : [2, 1] ∈ (txout [2]).reads C H (fullWitnessT o c i x j x') := by
  simp [txout, onCls, getTx, reads_bind, Prog.reads, TVal.readsOn, TVal.walk, fullWitnessT, witnessT, txinT, txoutT, txT, PTree.get?, PFields.get?, PTree.attr, PTree.cls, Except.bind_ok]

theorem outpoint_eval {o : Btc.COutPoint} {c : Bytes} {i j : Int} {x x' : Btc.CTransaction} {ini : List Nat} : (outpoint [0]).eval C H ini (fullWitnessT o c i x j x') = .ok (.ok o) := by
  simp [outpoint, onCls, Prog.eval, TVal.walk, fullWitnessT, witnessT, sealT, PTree.get?, PFields.get?, PTree.attr, PTree.cls, Except.bind_ok, TVal.asProof]

theorem verify_reads {o : Btc.COutPoint} {c : Bytes} {i j : Int} {x x' : Btc.CTransaction} : [1, 1] ∈ (witnessVerify []).reads C H (fullWitnessT o c i x j x') := by
  unfold witnessVerify onCls
  rw [Prog.reads]
  simp only [TVal.readsOn, TVal.walk, List.nil_append]
  rw [show (fullWitnessT o c i x j x').cls = Cls.btcWitness from rfl, if_pos rfl, reads_bind, outpoint_eval]
  refine List.mem_append_right _ ?_
  rw [thenReads_ok, reads_bind]
  exact List.mem_append_left _ txin_reads

theorem verifyHash_reads {o : Btc.COutPoint} {c : Bytes} {i j : Int} {x x' : Btc.CTransaction} {h : Bytes} (hl : h.length = 32) :
    [2, 1] ∈ (verifyHash H h).reads C H (fullWitnessT o c i x j x') := by
  unfold verifyHash
  rw [Prog.reads]
  simp only [TVal.readsOn, TVal.walk, List.nil_append]
  rw [show (fullWitnessT o c i x j x').cls = Cls.btcWitness from rfl, if_neg (by decide), if_pos rfl]
  unfold witnessVerifyHash onCls
  rw [Prog.reads]
  simp only [TVal.readsOn, TVal.walk, List.nil_append]
  rw [show (fullWitnessT o c i x j x').cls = Cls.btcWitness from rfl, if_pos rfl, reads_bind]
  refine List.mem_append_right _ ?_
  rw [show (lift (pyAssert (h.length == 32)) : Prog Unit).eval C H [] (fullWitnessT o c i x j x') = .ok (.ok ()) by rw [hl]; rfl, thenReads_ok, reads_bind]
  exact List.mem_append_left _ txout_reads

/-- What verification of an inner node reads at least. -/
theorem inner_reads (hk : n.Checked C) (hc : n.cls = Cls.innerPrefix) (h : (verifyFull H g).eval C H [] n = .ok (.ok ())) :
    [] ∈ (verifyFull H g).reads C H n ∧ ∃ w l r m, n.get? 1 = some (.sub w) ∧ n.get? 2 = some (.sub l) ∧ n.get? 3 = some (.sub r) ∧
      [2] ∈ (verifyFull H g).reads C H n ∧ [3] ∈ (verifyFull H g).reads C H n ∧ (IsFake w m ∨ (IsClosed H w m ∧ [1, 1, 1] ∈ (verifyFull H g).reads C H n ∧ [1, 2, 1] ∈ (verifyFull H g).reads C H n)) := by
  rcases verifyFull_inv hk h with h' | ⟨w, m, hw, hm, hv⟩
  · rw [hc] at h'; exact absurd h' (by decide)
  have hm' := hm
  cases hm with
  | leaf hc' => rw [hc] at hc'; exact absurd hc' (by decide)
  | @inner l r a b _ hl hr ha hb =>
    rw [witnessOf, if_neg (by rw [hc]; decide), if_pos hc] at hw
    have hw' := sub?_eq.mp hw
    have hl' := sub?_eq.mp hl
    have hr' := sub?_eq.mp hr
    have hea : (sealHash.at [2]).eval C H [] n = .ok (.ok a) := by rw [Prog.eval_at (walk1.mpr hl')]; exact sealHash_ok.mpr ha
    have heb : (sealHash.at [3]).eval C H [] n = .ok (.ok b) := by rw [Prog.eval_at (walk1.mpr hr')]; exact sealHash_ok.mpr hb
    have hin : (innerHash H g).eval C H [] n = .ok (.ok (H.sha256 (innerTag H g ++ (a ++ b)))) := (innerHash_ok hc hl hr).mpr ⟨_, hm', rfl⟩
    obtain ⟨_, hv1, _⟩ := eval_bind_ok.mp (show (verify H g >>= _).eval C H [] n = _ from h)
    have e : (verify H g).reads C H n = (TVal.sub n).readsOn [1] ++ ((sealHash.at [2]).reads C H n ++ ((sealHash.at [3]).reads C H n ++ []) ++
        ((verifyHash H (H.sha256 (innerTag H g ++ (a ++ b)))).at [1]).reads C H n) := by
      simp only [verify, Prog.reads, TVal.readsOn, TVal.walk, List.nil_append, hc]
      rw [if_neg (by decide), if_neg (by decide), if_pos trivial, Prog.reads, walk1.mpr hw']
      simp only
      rw [reads_bind, hin, thenReads_ok]
      unfold innerHash
      rw [reads_bind, hea, thenReads_ok, reads_bind, heb, thenReads_ok]
      rfl
    have e2 : (verifyFull H g).reads C H n = (verify H g).reads C H n ++ ((TVal.sub n).readsOn [1] ++
        (if w.cls = Cls.btcWitness then (witnessVerify []).at [1] else .ret (.ok ()) : Prog Unit).reads C H n) := by
      unfold verifyFull
      rw [reads_bind, hv1, thenReads_ok]
      simp only [Prog.reads, TVal.readsOn, TVal.walk, List.nil_append, hc]
      rw [if_neg (by decide)]
      simp only [show ¬ (Cls.innerPrefix = Cls.leafPrefix) by decide, if_false]
      rw [Prog.reads, walk1.mpr hw']
      rfl
    have h2 := mem_reads_at (T := C) (H := H) (walk1.mpr hl') sealHash (sealHash_reads ha)
    have h3 := mem_reads_at (T := C) (H := H) (walk1.mpr hr') sealHash (sealHash_reads hb)
    refine ⟨?_, w, l, r, H.sha256 (innerTag H g ++ (a ++ b)), hw', hl', hr', ?_, ?_, ?_⟩
    · rw [e2, e]; simp [mem_readsOn hw']
    · rw [e2, e]; simp only [List.mem_append]; exact .inl (.inr (.inl (.inl h2)))
    · rw [e2, e]; simp only [List.mem_append]; exact .inl (.inr (.inl (.inr (.inl h3))))
    · rcases hv with hv | hv
      · exact .inl hv
      · refine .inr ⟨hv, ?_⟩
        obtain ⟨o, c, i, x, j, x', rfl, hs⟩ := hv
        have h4 := mem_reads_at (T := C) (H := H) (walk1.mpr hw') _ (verifyHash_reads hs.len)
        have h5 := mem_reads_at (T := C) (H := H) (walk1.mpr hw') _ verify_reads
        rw [e2, e, if_pos (by rfl)]
        simp only [List.mem_append]
        exact ⟨.inr (.inr h5), .inl (.inr (.inr h4))⟩

/-- What verification of a leaf reads at least. -/
theorem leaf_reads (hk : n.Checked C) (hc : n.cls = Cls.leafPrefix) (h : (verifyFull H g).eval C H [] n = .ok (.ok ())) :
    ∃ w m, n.get? 0 = some (.sub w) ∧ (IsFake w m ∨ (IsClosed H w m ∧ [0, 1, 1] ∈ (verifyFull H g).reads C H n ∧ [0, 2, 1] ∈ (verifyFull H g).reads C H n)) := by
  rcases verifyFull_inv hk h with h' | ⟨w, m, hw, hm, hv⟩
  · rw [hc] at h'; exact absurd h' (by decide)
  rw [witnessOf, if_pos hc] at hw
  have hw' := sub?_eq.mp hw
  have hin : (leafHash H g).eval C H [] n = .ok (.ok (H.sha256 m)) := (leafHash_ok hc).mpr ⟨_, hm, rfl⟩
  obtain ⟨_, hv1, _⟩ := eval_bind_ok.mp (show (verify H g >>= _).eval C H [] n = _ from h)
  have e : (verify H g).reads C H n = (TVal.sub n).readsOn [0] ++ ((leafHash H g).reads C H n ++ ((verifyHash H (H.sha256 m)).at [0]).reads C H n) := by
    simp only [verify, Prog.reads, TVal.readsOn, TVal.walk, List.nil_append, hc]
    rw [if_neg (by decide), if_pos trivial, Prog.reads, walk1.mpr hw']
    simp only
    rw [reads_bind, hin, thenReads_ok]
    rfl
  have e2 : (verifyFull H g).reads C H n = (verify H g).reads C H n ++ ((TVal.sub n).readsOn [0] ++
      (if w.cls = Cls.btcWitness then (witnessVerify []).at [0] else .ret (.ok ()) : Prog Unit).reads C H n) := by
    unfold verifyFull
    rw [reads_bind, hv1, thenReads_ok]
    simp only [Prog.reads, TVal.readsOn, TVal.walk, List.nil_append, hc]
    rw [if_neg (by decide)]
    simp only [if_true]
    rw [Prog.reads, walk1.mpr hw']
    rfl
  refine ⟨w, H.sha256 m, hw', ?_⟩
  rcases hv with hv | hv
  · exact .inl hv
  · refine .inr ⟨hv, ?_⟩
    obtain ⟨o, c, i, x, j, x', rfl, hs⟩ := hv
    have h4 := mem_reads_at (T := C) (H := H) (walk1.mpr hw') _ (verifyHash_reads hs.len)
    have h5 := mem_reads_at (T := C) (H := H) (walk1.mpr hw') _ verify_reads
    rw [e2, e, if_pos (by rfl)]
    simp only [List.mem_append]
    exact ⟨.inr (.inr h5), .inl (.inr (.inr h4))⟩

theorem checkKey_cls (π : List Bool) : ∃ k, checkKey H g π = .cls [] k := by cases π <;> exact ⟨_, rfl⟩

theorem checkKey_nil_ok {ini : List Nat} {a : Option PVal × Option PVal} (h : (checkKey H g []).eval C H ini n = .ok (.ok a)) :
    (verifyFull H g).eval C H ini n = .ok (.ok ()) ∧ n.cls = Cls.leafPrefix ∧ ∃ k v, n.get? 1 = some k ∧ n.get? 2 = some v ∧ a = (k.plain, v.plain) := by
  rw [checkKey, eval_bind_ok] at h
  obtain ⟨_, h1, h2⟩ := h
  rw [eval_onCls_ok] at h2
  obtain ⟨⟨q, hq, hc⟩, h2⟩ := h2
  rw [walk_nil] at hq
  subst hq
  refine ⟨h1, hc, ?_⟩
  rw [eval_read_ok] at h2
  obtain ⟨k, hk, h2⟩ := h2
  rw [eval_read_ok] at h2
  obtain ⟨v, hv, h2⟩ := h2
  refine ⟨k, v, walk1.mp hk, walk1.mp hv, ?_⟩
  have := Except.ok.inj (Except.ok.inj h2)
  rw [← this]
  cases k <;> cases v <;> rfl

theorem checkKey_cons_ok {ini : List Nat} {b : Bool} {π : List Bool} {a : Option PVal × Option PVal} (h : (checkKey H g (b :: π)).eval C H ini n = .ok (.ok a)) :
    (verifyFull H g).eval C H ini n = .ok (.ok ()) ∧ n.cls = Cls.innerPrefix ∧ ∃ q, n.get? (if b then 3 else 2) = some (.sub q) ∧ (checkKey H g π).eval C H ini q = .ok (.ok a) := by
  rw [checkKey, eval_bind_ok] at h
  obtain ⟨_, h1, h2⟩ := h
  rw [eval_onCls_ok] at h2
  obtain ⟨⟨q, hq, hc⟩, h2⟩ := h2
  rw [walk_nil] at hq
  subst hq
  obtain ⟨k, hk⟩ := checkKey_cls (H := H) (g := g) π
  have h3 := h2
  rw [hk] at h3
  obtain ⟨q, hq⟩ := eval_at_inv h3
  rw [Prog.eval_at hq] at h2
  exact ⟨h1, hc, q, walk1.mp hq, h2⟩

/-- What looking up a key below an inner node reads. -/
theorem reads_cons {b : Bool} {π : List Bool} (hc : n.cls = Cls.innerPrefix) {x : List Nat} (hx : x ∈ (checkKey H g (b :: π)).reads C H n) :
    x ∈ (verifyFull H g).reads C H n ∨ x = [] ∨ ∃ q y, n.get? (if b then 3 else 2) = some (.sub q) ∧ y ∈ (checkKey H g π).reads C H q ∧ x = (if b then 3 else 2) :: y := by
  rw [checkKey, reads_bind, List.mem_append] at hx
  rcases hx with hx | hx
  · exact .inl hx
  · right
    obtain ⟨_, _, hx⟩ := mem_thenReads hx
    simp only [onCls, Prog.reads, TVal.readsOn, TVal.walk, List.nil_append, hc] at hx
    rw [if_pos trivial] at hx
    obtain ⟨k, hk⟩ := checkKey_cls (H := H) (g := g) π
    rw [hk] at hx ⊢
    rcases reads_at_cls hx with h | ⟨q, hq, y, hy, rfl⟩
    · exact .inl h
    · exact .inr ⟨q, y, hq, hy, rfl⟩

theorem mem_reads_cons {b : Bool} {π : List Bool} {q : PTree} (hc : n.cls = Cls.innerPrefix) (h : (verifyFull H g).eval C H [] n = .ok (.ok ())) (hq : n.get? (if b then 3 else 2) = some (.sub q))
    {y : List Nat} (hy : y ∈ (checkKey H g π).reads C H q) : (if b then 3 else 2) :: y ∈ (checkKey H g (b :: π)).reads C H n := by
  rw [checkKey, reads_bind, List.mem_append, h, thenReads_ok]
  right
  simp only [onCls, Prog.reads, TVal.readsOn, TVal.walk, List.nil_append, hc]
  rw [if_pos trivial]
  exact mem_reads_at (T := C) (H := H) (walk1.mpr hq) _ hy

theorem reads_nil {x : List Nat} (hc : n.cls = Cls.leafPrefix) (hx : x ∈ (checkKey H g []).reads C H n) : x = [] ∨ ∃ y, x = 0 :: y := by
  rw [checkKey, reads_bind, List.mem_append] at hx
  rcases hx with hx | hx
  · exact reads_leaf hc hx
  · left
    obtain ⟨_, _, hx⟩ := mem_thenReads hx
    simp only [onCls, Prog.reads, TVal.readsOn, TVal.walk, List.nil_append, hc] at hx
    rw [if_pos trivial, Prog.reads, List.mem_append] at hx
    rcases hx with hx | hx
    · exact readsOn_one hx
    · split at hx
      · rw [Prog.reads, List.mem_append] at hx
        rcases hx with hx | hx
        · exact readsOn_one hx
        · split at hx <;> cases hx
      · cases hx

/-- A node of the map is an instance of one of the three classes. -/
theorem node_typed (hw : t.WellTyped C Cls.guMap) : (∃ c fs, t = .node c fs ∧ (c = Cls.unusedPrefix ∨ c = Cls.leafPrefix ∨ c = Cls.innerPrefix) ∧ fs.WellTyped C (C c).attrs) ∨
    t.cls = Cls.guMap := by
  cases t with
  | pruned c d => rw [PTree.WellTyped] at hw; exact .inr hw.1
  | node c fs =>
    left
    rw [PTree.WellTyped, show (C Cls.guMap).variants = some [Cls.unusedPrefix, Cls.leafPrefix, Cls.innerPrefix] from rfl] at hw
    obtain ⟨⟨i, hi, _⟩, hw⟩ := hw
    refine ⟨c, fs, rfl, ?_, hw⟩
    rcases i with _ | _ | _ | i <;> simp at hi
    · exact .inl hi.symm
    · exact .inr (.inl hi.symm)
    · exact .inr (.inr hi.symm)

theorem nodeAt_cons {b : Bool} {π : List Bool} {q : PTree} (hc : n.cls = Cls.innerPrefix) (hq : n.get? (if b then 3 else 2) = some (.sub q)) : nodeAt n (b :: π) = nodeAt q π := by
  rw [nodeAt, if_pos hc, sub?_eq.mpr hq]; rfl

/-- If no inner node is beside the way, nothing that is left pruned is a `VarProof` or a `TxProof`. -/
theorem keeps {S : List (List Nat)} {a : Option PVal × Option PVal} : ∀ (π : List Bool) {ρ : List Nat} {n : PTree}, n.Checked C → n.WellTyped C Cls.guMap →
    (checkKey H g π).eval C H [] n = .ok (.ok a) → ρ ∈ S → (∀ x ∈ (checkKey H g π).reads C H n, ρ ++ x ∈ S) →
    (∀ x, ρ ++ x ∈ S → x ∈ (checkKey H g π).reads C H n ∨ x = [] ∨ (x = [0] ∧ n.cls = Cls.leafPrefix) ∨ (x = [1] ∧ n.cls = Cls.innerPrefix)) →
    ¬ InnerBeside n π → OrdinaryData C n → (n.reveal C H S ρ).KeepsSpecial C
  | [], ρ, n, hk, hw, he, hρ, lo, up, hb, ho => by
    obtain ⟨hv, hc, _⟩ := checkKey_nil_ok he
    obtain ⟨w, m, hw0, hwit⟩ := leaf_reads hk hc hv
    have lo' : ∀ x ∈ (verifyFull H g).reads C H n, ρ ++ x ∈ S := fun x hx => lo x (by rw [checkKey, reads_bind]; exact List.mem_append_left _ hx)
    rcases node_typed hw with ⟨c, fs, rfl, _, hf⟩ | h
    · have hc' : c = Cls.leafPrefix := hc
      subst hc'
      refine keeps_node hρ fun i q hq => ?_
      have hi : i = 0 ∨ i = 1 ∨ i = 2 := by
        rcases i with _ | _ | _ | i
        · exact .inl rfl
        · exact .inr (.inl rfl)
        · exact .inr (.inr rfl)
        · rcases hf.getSub hq with ⟨c, h, _⟩ | ⟨us, v, h, _⟩ <;> simp [classes, Cls.leafPrefix] at h
      rcases hi with rfl | hi
      · cases hw0.symm.trans hq
        rcases hwit with rfl | ⟨⟨o, c, i, x, j, x', rfl, _⟩, h1, h2⟩
        · exact fake_keeps
        · exact closed_keeps (by simpa using lo' _ h1) (by simpa using lo' _ h2)
      · obtain ⟨h1, h2⟩ := ho [] _ i q rfl hc hi hq
        refine keeps_ordinary h1 h2 fun hm => ?_
        exfalso
        rcases up [i] hm with h | h | ⟨h, _⟩ | ⟨_, h⟩
        · rcases reads_nil hc h with h | ⟨y, h⟩
          · cases h
          · cases h; simp at hi
        · cases h
        · cases h; simp at hi
        · rw [hc] at h; exact absurd h (by decide)
    · rw [hc] at h; exact absurd h (by decide)
  | b :: π, ρ, n, hk, hw, he, hρ, lo, up, hb, ho => by
    obtain ⟨hv, hc, q, hq, he'⟩ := checkKey_cons_ok he
    obtain ⟨_, w, l, r, m, hw1, hl, hr, h2, h3, hwit⟩ := inner_reads hk hc hv
    have lo' : ∀ x ∈ (verifyFull H g).reads C H n, ρ ++ x ∈ S := fun x hx => lo x (by rw [checkKey, reads_bind]; exact List.mem_append_left _ hx)
    rcases node_typed hw with ⟨c, fs, rfl, _, hf⟩ | h
    · have hc' : c = Cls.innerPrefix := hc
      subst hc'
      refine keeps_node hρ fun i u hu => ?_
      have hi : i = 1 ∨ i = 2 ∨ i = 3 := by
        rcases i with _ | _ | _ | _ | i
        · rcases hf.getSub hu with ⟨c, h, _⟩ | ⟨us, v, h, _⟩ <;> simp [classes, Cls.innerPrefix] at h
        · exact .inl rfl
        · exact .inr (.inl rfl)
        · exact .inr (.inr rfl)
        · rcases hf.getSub hu with ⟨c, h, _⟩ | ⟨us, v, h, _⟩ <;> simp [classes, Cls.innerPrefix] at h
      rcases hi with rfl | hi
      · cases hw1.symm.trans hu
        rcases hwit with rfl | ⟨⟨o, c, i, x, j, x', rfl, _⟩, h1, h2⟩
        · exact fake_keeps
        · exact closed_keeps (by simpa using lo' _ h1) (by simpa using lo' _ h2)
      · have hmem : ρ ++ [i] ∈ S := by
          rcases hi with rfl | rfl
          · exact lo' _ h2
          · exact lo' _ h3
        have hty : u.WellTyped C Cls.guMap ∧ u.cls ≠ Cls.guMap := by
          have key : ∀ {i}, (i = 2 ∨ i = 3) → fs.get? i = some (.sub u) → u.WellTyped C Cls.guMap ∧ u.cls ≠ Cls.guMap := by
            intro i hi hu
            have hat : (C Cls.innerPrefix).attrs[i]? = some (.proof Cls.guMap) := by rcases hi with rfl | rfl <;> rfl
            rcases hf.getSub hu with ⟨c, h, h1, h2⟩ | ⟨us, v, h, _⟩
            · rw [hat] at h
              cases h
              refine ⟨h1, fun h => ?_⟩
              have := h2 [Cls.unusedPrefix, Cls.leafPrefix, Cls.innerPrefix] rfl
              rw [h] at this
              simp [Table.isInst, classes, Cls.guMap, Cls.unusedPrefix, Cls.leafPrefix, Cls.innerPrefix] at this
            · rw [hat] at h; cases h
          exact key hi hu
        have hku : u.Checked C := hk.sub (sub?_eq.mpr hu)
        by_cases hd : i = if b then 3 else 2
        · subst hd
          cases hq.symm.trans hu
          refine keeps π hku hty.1 he' hmem (fun x hx => ?_) (fun x hx => ?_) ?_ ?_
          · have := lo _ (mem_reads_cons hc hv hq hx)
            simpa using this
          · rcases up ((if b then 3 else 2) :: x) (by simpa using hx) with h | h | ⟨h, _⟩ | ⟨h, _⟩
            · rcases reads_cons hc h with h | h | ⟨q', y, hq', hy, h⟩
              · rcases reads_inner hc h with h | ⟨y, h⟩ | ⟨i, q', _, hq', h⟩
                · cases h
                · have := (List.cons.inj h).1
                  split at this <;> cases this
                · rcases h with h | ⟨h, hq''⟩ | ⟨h, hq''⟩
                  · obtain ⟨e1, e2⟩ := List.cons.inj h
                    exact .inr (.inl e2)
                  · obtain ⟨e1, e2⟩ := List.cons.inj h
                    rw [← e1] at hq'
                    cases hq.symm.trans hq'
                    exact .inr (.inr (.inl ⟨e2, hq''⟩))
                  · obtain ⟨e1, e2⟩ := List.cons.inj h
                    rw [← e1] at hq'
                    cases hq.symm.trans hq'
                    exact .inr (.inr (.inr ⟨e2, hq''⟩))
              · cases h
              · cases hq.symm.trans hq'
                cases (List.cons.inj h).2
                exact .inl hy
            · cases h
            · have := (List.cons.inj h).1
              split at this <;> cases this
            · have := (List.cons.inj h).1
              split at this <;> cases this
          · rintro ⟨σ, b', q', hp, hn, hq'⟩
            refine hb ⟨b :: σ, b', q', ?_, ?_, hq'⟩
            · exact List.cons_prefix_cons.mpr ⟨rfl, hp⟩
            · rw [List.cons_append, nodeAt_cons hc hq]; exact hn
          · intro σ n' i q' hn' h1 h2 h3
            exact ho (b :: σ) n' i q' (by rw [nodeAt_cons hc hq]; exact hn') h1 h2 h3
        · have hd' : i = if !b then 3 else 2 := by cases b <;> rcases hi with rfl | rfl <;> simp_all
          have hsib : ∀ y, ρ ++ i :: y ∈ S → y = [] ∨ (y = [0] ∧ u.cls = Cls.leafPrefix) ∨ (y = [1] ∧ u.cls = Cls.innerPrefix) := by
            intro y hy
            rcases up _ hy with h | h | ⟨h, _⟩ | ⟨h, _⟩
            · rcases reads_cons hc h with h | h | ⟨q', y', hq', hy, h⟩
              · rcases reads_inner hc h with h | ⟨y, h⟩ | ⟨i', q', _, hq', h⟩
                · cases h
                · have := (List.cons.inj h).1
                  rw [this] at hi; simp at hi
                · have e1 : i = i' := by rcases h with h | ⟨h, _⟩ | ⟨h, _⟩ <;> exact (List.cons.inj h).1
                  rw [← e1] at hq'
                  cases hu.symm.trans hq'
                  rcases h with h | ⟨h, hq''⟩ | ⟨h, hq''⟩
                  · exact .inl (List.cons.inj h).2
                  · exact .inr (.inl ⟨(List.cons.inj h).2, hq''⟩)
                  · exact .inr (.inr ⟨(List.cons.inj h).2, hq''⟩)
              · cases h
              · exact absurd (List.cons.inj h).1 hd
            · cases h
            · have := (List.cons.inj h).1
              rw [this] at hi; simp at hi
            · have := (List.cons.inj h).1
              rw [this] at hi; simp at hi
          have hn : nodeAt (.node Cls.innerPrefix fs) [!b] = some u := by
            rw [hd'] at hu
            rw [nodeAt_cons hc hu]; rfl
          have hni : u.cls ≠ Cls.innerPrefix := fun h => hb ⟨[], b, u, by simp, hn, h⟩
          rcases node_typed hty.1 with ⟨c, fu, rfl, hcu, hfu⟩ | h
          · refine keeps_node hmem fun j v hj => ?_
            rcases hcu with rfl | rfl | rfl
            · rcases j with _ | _ | j
              · rcases hfu.getSub hj with ⟨c, h, _⟩ | ⟨us, x, h, _⟩ <;> simp [classes, Cls.unusedPrefix] at h
              · rcases hfu.getSub hj with ⟨c, h, _⟩ | ⟨us, x, h, hx, hvw⟩
                · simp [classes, Cls.unusedPrefix] at h
                · cases h
                  refine seal_keeps (u := x) ?_ hvw
                  simpa using hx
              · rcases hfu.getSub hj with ⟨c, h, _⟩ | ⟨us, x, h, _⟩ <;> simp [classes, Cls.unusedPrefix] at h
            · have hj' : j = 0 ∨ j = 1 ∨ j = 2 := by
                rcases j with _ | _ | _ | j
                · exact .inl rfl
                · exact .inr (.inl rfl)
                · exact .inr (.inr rfl)
                · rcases hfu.getSub hj with ⟨c, h, _⟩ | ⟨us, v, h, _⟩ <;> simp [classes, Cls.leafPrefix] at h
              rcases hj' with rfl | hj'
              · rcases hfu.getSub hj with ⟨c, h, _⟩ | ⟨us, x, h, hx, hvw⟩
                · cases h
                · cases h
                  refine witness_keeps (u := x) (by simpa using hx) hvw ?_ ?_
                  · intro hm
                    rcases hsib [0, 1] (by simpa using hm) with h | ⟨h, _⟩ | ⟨h, _⟩ <;> cases h
                  · intro hm
                    rcases hsib [0, 2] (by simpa using hm) with h | ⟨h, _⟩ | ⟨h, _⟩ <;> cases h
              · obtain ⟨h1, h2⟩ := ho [!b] _ j v hn rfl hj' hj
                refine keeps_ordinary h1 h2 fun hm => ?_
                exfalso
                rcases hsib [j] (by simpa using hm) with h | ⟨h, _⟩ | ⟨_, h⟩
                · cases h
                · cases h; simp at hj'
                · exact absurd (show Cls.leafPrefix = Cls.innerPrefix from h) (by decide)
            · exact absurd rfl hni
          · exact absurd h hty.2
    · rw [hc] at h; exact absurd h (by decide)

/-! ## What is lost -/

theorem base_guMap : (C).Base Cls.guMap := ⟨_, rfl, by simp [Table.isInst, classes, Cls.guMap, Cls.unusedPrefix, Cls.leafPrefix, Cls.innerPrefix]⟩

/-- An inner node has all four attributes. -/
theorem inner_typed (hw : t.WellTyped C Cls.guMap) (hc : t.cls = Cls.innerPrefix) : ∃ p w l r, t = innerT p w l r ∧ l.WellTyped C Cls.guMap ∧ r.WellTyped C Cls.guMap := by
  rcases node_typed hw with ⟨c, fs, rfl, _, hf⟩ | h
  · have hc' : c = Cls.innerPrefix := hc
    subst hc'
    rw [show (C Cls.innerPrefix).attrs = [.prim .bits, .union [Cls.fakeWitness, Cls.btcWitness], .proof Cls.guMap, .proof Cls.guMap] from rfl] at hf
    rcases fs with _ | ⟨p, fs⟩ | ⟨p, fs⟩ <;> simp only [PFields.WellTyped] at hf
    rcases fs with _ | ⟨w, fs⟩ | ⟨w, fs⟩ <;> simp only [PFields.WellTyped, and_false] at hf
    rcases fs with _ | ⟨l, fs⟩ | ⟨l, fs⟩ <;> simp only [PFields.WellTyped, and_false] at hf
    rcases fs with _ | ⟨r, fs⟩ | ⟨r, fs⟩ <;> simp only [PFields.WellTyped, and_false] at hf
    rcases fs with _ | ⟨x, fs⟩ | ⟨x, fs⟩ <;> simp only [PFields.WellTyped, and_false] at hf
    obtain ⟨⟨_, _, e, hp⟩, _, hl, hr, _⟩ := hf
    cases p <;> simp [PrimTy.ser] at hp
    exact ⟨_, w, l, r, rfl, hl.1, hr.1⟩
  · rw [hc] at h; exact absurd h (by decide)

/-- The way to the left child of an inner node beside the way: all attributes are declared to be maps. -/
theorem beside_path {b : Bool} {q : PTree} (hq : q.cls = Cls.innerPrefix) : ∀ (σ : List Bool) {t : PTree}, t.WellTyped C Cls.guMap → nodeAt t (σ ++ [b]) = some q →
    ∃ u, VarPath C t (attrPath (σ ++ [b]) ++ [2]) u
  | σ, t, hw, hn => by
    have hc : t.cls = Cls.innerPrefix := by
      cases σ with
      | nil =>
        rw [List.nil_append, nodeAt] at hn
        split at hn
        · assumption
        · cases hn
      | cons b' σ =>
        rw [List.cons_append, nodeAt] at hn
        split at hn
        · assumption
        · cases hn
    obtain ⟨p, w, l, r, rfl, hl, hr⟩ := inner_typed hw hc
    have step : ∀ {b : Bool} {π : List Nat} {v : PTree}, VarPath C (if b then r else l) π v → VarPath C (innerT p w l r) ((if b then 3 else 2) :: π) v := by
      intro b π v h
      cases b
      · exact .step (i := 2) (b := Cls.guMap) rfl rfl base_guMap h
      · exact .step (i := 3) (b := Cls.guMap) rfl rfl base_guMap h
    have hget : ∀ {b : Bool}, (innerT p w l r).get? (if b then 3 else 2) = some (.sub (if b then r else l)) := by intro b; cases b <;> rfl
    have hty : ∀ {b : Bool}, (if b then r else l).WellTyped C Cls.guMap := by intro b; cases b <;> assumption
    cases σ with
    | nil =>
      rw [List.nil_append, nodeAt_cons rfl hget] at hn
      have hn : (if b then r else l) = q := Option.some.inj hn
      obtain ⟨p', w', l', r', e, _, _⟩ := inner_typed (t := if b then r else l) hty (by rw [hn]; exact hq)
      refine ⟨l', ?_⟩
      show VarPath C _ ((if b then 3 else 2) :: [2]) _
      apply step
      rw [e]
      exact .step (i := 2) (b := Cls.guMap) rfl rfl base_guMap .here
    | cons b' σ =>
      rw [List.cons_append, nodeAt_cons rfl hget] at hn
      obtain ⟨u, hu⟩ := beside_path hq σ hty hn
      exact ⟨u, step hu⟩

/-- That child is not read. -/
theorem beside_unread {b : Bool} {π : List Bool} : ∀ (σ : List Bool) {t q : PTree}, nodeAt t (σ ++ [!b]) = some q →
    attrPath (σ ++ [!b]) ++ [2] ∉ (checkKey H g (σ ++ b :: π)).reads C H t
  | [], t, q, hn, hx => by
    have hc : t.cls = Cls.innerPrefix := by
      rw [List.nil_append, nodeAt] at hn
      split at hn
      · assumption
      · cases hn
    have hx : [if !b then 3 else 2, 2] ∈ (checkKey H g (b :: π)).reads C H t := hx
    rcases reads_cons hc hx with h | h | ⟨_, y, _, _, h⟩
    · rcases reads_inner hc h with h | ⟨y, h⟩ | ⟨i, q', _, _, h | ⟨h, _⟩ | ⟨h, _⟩⟩
      · cases h
      · have := (List.cons.inj h).1; split at this <;> cases this
      · cases (List.cons.inj h).2
      · cases (List.cons.inj (List.cons.inj h).2).1
      · cases (List.cons.inj (List.cons.inj h).2).1
    · cases h
    · have := (List.cons.inj h).1; cases b <;> cases this
  | b' :: σ, t, q, hn, hx => by
    have hc : t.cls = Cls.innerPrefix := by
      rw [List.cons_append, nodeAt] at hn
      split at hn
      · assumption
      · cases hn
    have hx : (if b' then 3 else 2) :: (attrPath (σ ++ [!b]) ++ [2]) ∈ (checkKey H g (b' :: (σ ++ b :: π))).reads C H t := hx
    have hlen : 2 ≤ (attrPath (σ ++ [!b]) ++ [2]).length := by simp [attrPath]
    rcases reads_cons hc hx with h | h | ⟨q', y, hq', hy, h⟩
    · rcases reads_inner hc h with h | ⟨y, h⟩ | ⟨i, q', _, _, h | ⟨h, _⟩ | ⟨h, _⟩⟩
      · cases h
      · have := (List.cons.inj h).1; split at this <;> cases this
      all_goals
        rw [(List.cons.inj h).2] at hlen
        simp at hlen
    · cases h
    · rw [List.cons_append, nodeAt_cons hc hq'] at hn
      rw [(List.cons.inj h).2.symm] at hy
      exact beside_unread σ hn hy

theorem root_read (hw : t.WellTyped C Cls.guMap) (hc : t.cls = Cls.innerPrefix) (b : Bool) (π : List Bool) : [] ∈ (checkKey H g (b :: π)).reads C H t := by
  obtain ⟨p, w, l, r, rfl, _⟩ := inner_typed hw hc
  rw [checkKey, reads_bind]
  apply List.mem_append_left
  unfold verifyFull
  rw [reads_bind]
  apply List.mem_append_left
  simp only [verify, Prog.reads, TVal.readsOn, TVal.walk, List.nil_append, hc]
  rw [if_neg (by decide), if_neg (by decide), if_pos trivial, Prog.reads]
  apply List.mem_append_left
  exact mem_readsOn (v := .sub w) rfl

theorem nodeAt_typed : ∀ (σ : List Bool) {t n : PTree}, t.WellTyped C Cls.guMap → nodeAt t σ = some n → n.WellTyped C Cls.guMap
  | [], t, n, hw, h => by cases h; exact hw
  | b :: σ, t, n, hw, h => by
    have hc : t.cls = Cls.innerPrefix := by
      rw [nodeAt] at h
      split at h
      · assumption
      · cases h
    obtain ⟨p, w, l, r, rfl, hl, hr⟩ := inner_typed hw hc
    have hget : (innerT p w l r).get? (if b then 3 else 2) = some (.sub (if b then r else l)) := by cases b <;> rfl
    rw [nodeAt_cons rfl hget] at h
    exact nodeAt_typed σ (by cases b <;> assumption) h

/-- Maps of plain keys and plain values, such as those of the tests. -/
theorem ordinary_of_prim {τ τ' : PrimTy} (hk : g.key = .prim τ) (hv : g.value = .prim τ') (hw : t.WellTyped C Cls.guMap) : OrdinaryData C t := by
  intro σ n i q hn hc hi hq
  rcases node_typed (nodeAt_typed σ hw hn) with ⟨c, fs, rfl, _, hf⟩ | h
  · have hc' : c = Cls.leafPrefix := hc
    subst hc'
    have hat : (C Cls.leafPrefix).attrs[i]? = some (.prim (if i = 1 then τ else τ')) := by
      show ([.union [Cls.fakeWitness, Cls.btcWitness], g.key, g.value] : List Kind)[i]? = _
      rw [hk, hv]
      rcases hi with rfl | rfl <;> rfl
    rcases hf.getSub hq with ⟨c, h, _⟩ | ⟨us, v, h, _⟩ <;> (rw [hat] at h; cases h)
  · rw [hc] at h; exact absurd h (by decide)

/-! ## C144 -/

theorem check_path {ini : List Nat} {a : Option PVal × Option PVal} : ∀ (π : List Bool) {t : PTree}, (checkKey H g π).eval C H ini t = .ok (.ok a) →
    (∀ ρ n, ρ <+: π → nodeAt t ρ = some n → (verifyFull H g).eval C H ini n = .ok (.ok ())) ∧
      ∃ n k v, nodeAt t π = some n ∧ n.cls = Cls.leafPrefix ∧ n.get? 1 = some k ∧ n.get? 2 = some v ∧ a = (k.plain, v.plain)
  | [], t, h => by
    obtain ⟨h1, hc, k, v, hk, hv, ha⟩ := checkKey_nil_ok h
    refine ⟨fun ρ n hρ hn => ?_, t, k, v, rfl, hc, hk, hv, ha⟩
    rw [List.prefix_nil.mp hρ] at hn
    cases hn
    exact h1
  | b :: π, t, h => by
    obtain ⟨h1, hc, q, hq, h2⟩ := checkKey_cons_ok h
    obtain ⟨h3, n, k, v, hn, hl⟩ := check_path π h2
    refine ⟨fun ρ n hρ hn => ?_, n, k, v, by rw [nodeAt_cons hc hq]; exact hn, hl⟩
    cases ρ with
    | nil => cases hn; exact h1
    | cons b' ρ =>
      obtain ⟨rfl, hρ'⟩ := List.cons_prefix_cons.mp hρ
      rw [nodeAt_cons hc hq] at hn
      exact h3 ρ n hρ' hn

/-- What looking up a key by `checkKey` shows: all nodes on the way verify, and there is a leaf with that key and that value. -/
theorem C144_checks {s : PState} {r : Nat} {π : List Bool} {a : Option PVal × Option PVal} (hs : Reachable C H s) (hr : Represents s r t)
    (h : ((checkKey H g π).run C H r s).1 = .ok (.ok a)) : VerifiedTo C H g s r t π ∧
      ∃ n k v, nodeAt t π = some n ∧ n.cls = Cls.leafPrefix ∧ n.get? 1 = some k ∧ n.get? 2 = some v ∧ a = (k.plain, v.plain) := by
  rw [run_eq classes_wf _ hs hr] at h
  obtain ⟨h1, h2⟩ := check_path π h
  refine ⟨fun ρ n hρ hn => ?_, h2⟩
  rw [run_eq classes_wf _ hs hr, Prog.eval_at (nodeAt_walk ρ hn)]
  exact h1 ρ n hρ hn

/-- C144: look up a key in a pruned view of a map, verifying the nodes on the way, and serialize the view: whoever deserializes it can do the same, with the same result. -/
def C144_statement : Prop :=
  ∀ (H : HashFns) (g : GuMapDecl) (s : PState) (r : Nat) (t : PTree), Reachable (classes H g) H s → Represents s r t → t.WellTyped (classes H g) Cls.guMap →
    OrdinaryData (classes H g) t → ∀ (π : List Bool) (p : Nat) (a : Option PVal × Option PVal) (b : Bytes) (s1 s2 s3 : PState),
      Prf.prune (classes H g) r s = (.ok p, s1) → (checkKey H g π).run (classes H g) H p s1 = (.ok (.ok a), s2) →
      Prf.serialize (classes H g) H p s2 = (.ok b, s3) → ∀ s0, Reachable (classes H g) H s0 →
        ∃ r' s0', Prf.deserialize (classes H g) Cls.guMap b s0 = (.ok r', s0') ∧ ((checkKey H g π).run (classes H g) H r' s0').1 = .ok (.ok a)

/-- It never arrives if somewhere beside the way there is an inner node, and be it only looked at for its seal: the children of that node are left pruned and are
sent without the number of their variant. -/
theorem C144_lost_partial {s : PState} {r : Nat} (hs : Reachable C H s) (hr : Represents s r t) (hw : t.WellTyped C Cls.guMap) {π : List Bool} (hb : InnerBeside t π)
    {p : Nat} {res : Py (Py (Option PVal × Option PVal))} {b : Bytes} {s1 s2 s3 : PState} (hp : Prf.prune C r s = (.ok p, s1))
    (hq : (checkKey H g π).run C H p s1 = (res, s2)) (hser : Prf.serialize C H p s2 = (.ok b, s3)) {s0 : PState} (hs0 : Reachable C H s0) :
    (Prf.deserialize C Cls.guMap b s0).1 = .error .serType := by
  obtain ⟨σ, d, q, ⟨π', rfl⟩, hn, hqc⟩ := hb
  rw [List.append_assoc, List.singleton_append] at hq
  obtain ⟨u, hu⟩ := beside_path hqc σ hw hn
  have hroot : [] ∈ (checkKey H g (σ ++ d :: π')).reads C H t := by
    cases σ with
    | nil =>
      refine root_read hw ?_ _ _
      rw [List.nil_append, nodeAt] at hn
      split at hn
      · assumption
      · cases hn
    | cons e σ =>
      refine root_read hw ?_ _ _
      rw [List.cons_append, nodeAt] at hn
      split at hn
      · assumption
      · cases hn
  exact C37_variant_lost_partial classes_wf hs hr hw _ hp hq hser
    (reveal_loses hu (Reachable.checked classes_wf hs hr) hroot (by rw [List.nil_append]; exact beside_unread σ hn)) hs0

/-- It does arrive if there is none, and the key and the hash of the map are found there: for instance in a map of two keys. -/
theorem C144_arrives_partial {s : PState} {r : Nat} (hs : Reachable C H s) (hr : Represents s r t) (hw : t.WellTyped C Cls.guMap) (ho : OrdinaryData C t) {π : List Bool}
    (hb : ¬ InnerBeside t π) {p : Nat} {a : Option PVal × Option PVal} {b : Bytes} {s1 s2 s3 : PState} (hp : Prf.prune C r s = (.ok p, s1))
    (hq : (checkKey H g π).run C H p s1 = (.ok (.ok a), s2)) (hser : Prf.serialize C H p s2 = (.ok b, s3)) {s0 : PState} (hs0 : Reachable C H s0) :
    ∃ r' s0', Prf.deserialize C Cls.guMap b s0 = (.ok r', s0') ∧ ((checkKey H g π).run C H r' s0').1 = .ok (.ok a) ∧ (Prf.hash C H r' s0').1 = (Prf.hash C H r s).1 := by
  have hev : (checkKey H g π).eval C H [] t = .ok (.ok a) := by
    obtain ⟨τ0, hi0⟩ := hs.inv classes_wf
    obtain ⟨τ1, hi1, _, h2, h3, _⟩ := prune_spec hi0 (hi0.of_represents hr)
    rw [hp] at h2 hi1
    simp only [Except.ok.injEq] at h2
    subst h2
    obtain ⟨_, _, _, h⟩ := run_spec classes_wf (checkKey H g π) _ _ _ _ hi1 h3
    rw [hq] at h
    exact eval_inited _ _ h.symm
  have hk : t.Checked C := Reachable.checked classes_wf hs hr
  refine C37_ship_and_verify_again_partial classes_wf hs hr hw _ hp hq hser ?_ hs0
  refine keeps π hk hw hev ?_ (fun x hx => hx) (fun x hx => .inl hx) hb ho
  cases π with
  | nil =>
    obtain ⟨hv, hc, k, v, h1, _⟩ := checkKey_nil_ok hev
    rw [checkKey, reads_bind, hv, thenReads_ok]
    apply List.mem_append_right
    simp only [onCls, Prog.reads, TVal.readsOn, TVal.walk, List.nil_append, hc]
    rw [if_pos trivial, Prog.reads]
    exact List.mem_append_left _ (mem_readsOn h1)
  | cons b π => exact root_read hw (checkKey_cons_ok hev).2.1 _ _
end

/-! ## Cases -/

mutual
/-- `Whole`, by computation. -/
def wholeB (s : PState) : Nat → PTree → Bool
  | r, .node c fs => match s.objs[r]? with
    | some o => o.cls == c && o.orig.isNone && !o.isFullyPruned && !o.isPruned && wholeFsB s o.fields fs
    | none => false
  | _, .pruned _ _ => false
def wholeFsB (s : PState) : List (Option HVal) → PFields → Bool
  | [], .nil => true
  | some (.prim v) :: vs, .prim v' fs => decide (v = v') && wholeFsB s vs fs
  | some (.ref r) :: vs, .sub t fs => wholeB s r t && wholeFsB s vs fs
  | _, _ => false
end

mutual
theorem wholeB_sound {s : PState} : ∀ (t : PTree) (r : Nat), wholeB s r t = true → Whole s r t
  | .pruned _ _, r, h => by simp [wholeB] at h
  | .node c fs, r, h => by
    rw [wholeB] at h
    split at h
    · next o ho =>
      simp only [Bool.and_eq_true, beq_iff_eq, Option.isNone_iff_eq_none, Bool.not_eq_true'] at h
      obtain ⟨⟨⟨⟨rfl, h1⟩, h2⟩, h3⟩, h4⟩ := h
      exact .node ho h1 h2 h3 (wholeFsB_sound fs o.fields h4)
    · cases h
theorem wholeFsB_sound {s : PState} : ∀ (fs : PFields) (vs : List (Option HVal)), wholeFsB s vs fs = true → WholeFields s vs fs
  | .nil, vs, h => by
    rcases vs with _ | ⟨_ | v | r, vs⟩ <;> simp [wholeFsB] at h
    exact .nil
  | .prim w fs, vs, h => by
    rcases vs with _ | ⟨_ | v | r, vs⟩ <;> simp [wholeFsB] at h
    obtain ⟨rfl, h⟩ := h
    exact .prim (wholeFsB_sound fs vs h)
  | .sub t fs, vs, h => by
    rcases vs with _ | ⟨_ | v | r, vs⟩ <;> simp [wholeFsB] at h
    exact .sub (wholeB_sound t r h.1) (wholeFsB_sound fs vs h.2)
end

/-- Construct the proofs, one after the other. -/
def construct (T : Table) : List (Nat × List HVal) → PState → PState
  | [], s => s
  | (c, vs) :: xs, s => construct T xs (Prf.new T c vs s).2

/-- The references are to objects that exist. -/
def refsOk (T : Table) : List (Nat × List HVal) → PState → Bool
  | [], _ => true
  | (c, vs) :: xs, s => vs.all (fun | .ref r => decide (r < s.objs.length) | _ => true) && refsOk T xs (Prf.new T c vs s).2

theorem construct_reachable {T : Table} {H : HashFns} : ∀ (xs : List (Nat × List HVal)) (s : PState), Reachable T H s → refsOk T xs s = true → Reachable T H (construct T xs s)
  | [], _, hs, _ => hs
  | (c, vs) :: xs, s, hs, h => by
    simp only [refsOk, Bool.and_eq_true, List.all_eq_true] at h
    refine construct_reachable xs _ (.tail hs (.new c vs fun r hr => ?_)) h.2
    simpa using h.1 _ hr

namespace Ex
def p28 : List Bool := List.replicate 28 false
def p31 : List Bool := List.replicate 29 false ++ [true, false]

def innerSealH (a b : Bytes) : Bytes := realHash.sha256 (hex "e5690d7316e34f8fbd4f148c32d37baf" ++ realHash.sha256 (innerH a b))

/-- A map of the keys 4, 5 and 8. -/
def three : PTree := innerT p28 (fakeWitnessT (fakeSealT (innerH (innerSealH (leafSealH 4 1) (leafSealH 5 2)) (leafSealH 8 3)))) (two p31 4 1 5 2) (leaf 8 3)

/-- The map of the keys 4 and 5 is object 8, that of all three object 14. -/
def s14 : PState := construct T [
  (Cls.fakeSeal, [.prim (.bytes (leafH 4 1))]), (Cls.fakeWitness, [.ref 0]), (Cls.leafPrefix, [.ref 1, .prim (.int 4), .prim (.int 1)]),
  (Cls.fakeSeal, [.prim (.bytes (leafH 5 2))]), (Cls.fakeWitness, [.ref 3]), (Cls.leafPrefix, [.ref 4, .prim (.int 5), .prim (.int 2)]),
  (Cls.fakeSeal, [.prim (.bytes (innerH (leafSealH 4 1) (leafSealH 5 2)))]), (Cls.fakeWitness, [.ref 6]), (Cls.innerPrefix, [.prim (.bits p31), .ref 7, .ref 2, .ref 5]),
  (Cls.fakeSeal, [.prim (.bytes (leafH 8 3))]), (Cls.fakeWitness, [.ref 9]), (Cls.leafPrefix, [.ref 10, .prim (.int 8), .prim (.int 3)]),
  (Cls.fakeSeal, [.prim (.bytes (innerH (innerSealH (leafSealH 4 1) (leafSealH 5 2)) (leafSealH 8 3)))]), (Cls.fakeWitness, [.ref 12]),
  (Cls.innerPrefix, [.prim (.bits p28), .ref 13, .ref 8, .ref 11])] {}

theorem s14_reachable : Reachable T realHash s14 := construct_reachable _ _ .refl (by decide +kernel)
theorem s14_three : Represents s14 14 three := (wholeB_sound _ _ (by decide +kernel)).represents
theorem s14_two : Represents s14 8 (two p31 4 1 5 2) := (wholeB_sound _ _ (by decide +kernel)).represents

theorem fakeWitness_typed {h : Bytes} (hl : h.length = 32) : (fakeWitnessT (fakeSealT h)).WellTyped T Cls.fakeWitness := by
  rw [fakeWitnessT, PTree.WellTyped]
  refine ⟨rfl, ?_⟩
  show PFields.WellTyped T _ [.proof Cls.fakeSeal]
  rw [PFields.WellTyped]
  refine ⟨⟨?_, fun us h => by cases h⟩, trivial⟩
  rw [fakeSealT, PTree.WellTyped]
  refine ⟨rfl, ?_⟩
  show PFields.WellTyped T _ [.prim (.fixed 32)]
  rw [PFields.WellTyped]
  exact ⟨⟨by simp [PrimTy.check, hl], trivial, ⟨_, rfl⟩⟩, trivial⟩

theorem union_typed {h : Bytes} (hl : h.length = 32) : ∃ (i u : Nat), [Cls.fakeWitness, Cls.btcWitness][i]? = some u ∧
    (T).First [Cls.fakeWitness, Cls.btcWitness] (fakeWitnessT (fakeSealT h)).cls i ∧ (fakeWitnessT (fakeSealT h)).WellTyped T u :=
  ⟨0, _, rfl, ⟨rfl, fun j hj => by omega⟩, fakeWitness_typed hl⟩

theorem leaf_typed {k v : Byte} (hk : k.toNat < 128) (hv : v.toNat < 128) : (leaf k v).WellTyped T Cls.guMap := by
  rw [leaf, leafT, PTree.WellTyped]
  refine ⟨⟨1, rfl, rfl, rfl, fun j hj => ?_⟩, ?_⟩
  · obtain rfl : j = 0 := by omega
    rfl
  · show PFields.WellTyped T _ [.union [Cls.fakeWitness, Cls.btcWitness], .prim (.uint 0xffffffffffffffff), .prim (.uint 0xffffffffffffffff)]
    simp only [PFields.WellTyped]
    refine ⟨union_typed (sha_len _), ⟨?_, trivial, ?_⟩, ⟨?_, trivial, ?_⟩, trivial⟩
    · simp only [PrimTy.check]; rw [if_neg]; omega
    · exact ⟨_, rfl⟩
    · simp only [PrimTy.check]; rw [if_neg]; omega
    · exact ⟨_, rfl⟩

theorem inner_typed' {p : List Bool} {h : Bytes} {l r : PTree} (hp : PrimTy.RoundTrips .bits (.bits p)) (hs : ∃ e, PrimTy.bits.ser (.bits p) = .ok e) (hl : h.length = 32) (h1 : l.WellTyped T Cls.guMap) (h2 : r.WellTyped T Cls.guMap)
    (n1 : IsNode l) (n2 : IsNode r) : (innerT p (fakeWitnessT (fakeSealT h)) l r).WellTyped T Cls.guMap := by
  have hi : ∀ {q : PTree}, IsNode q → ∀ us, (T Cls.guMap).variants = some us → us.any ((T).isInst q.cls) = true := by
    intro q hq us hus
    cases hus
    rcases hq with h | h | h <;> rw [h] <;> rfl
  rw [innerT, PTree.WellTyped]
  refine ⟨⟨2, rfl, rfl, rfl, fun j hj => ?_⟩, ?_⟩
  · obtain rfl | rfl : j = 0 ∨ j = 1 := by omega
    · rfl
    · rfl
  · show PFields.WellTyped T _ [.prim .bits, .union [Cls.fakeWitness, Cls.btcWitness], .proof Cls.guMap, .proof Cls.guMap]
    simp only [PFields.WellTyped]
    exact ⟨⟨rfl, hp, hs⟩, union_typed hl, ⟨h1, hi n1⟩, ⟨h2, hi n2⟩, trivial⟩

theorem exists_ok {α} {x : Py α} (h : x.toOption.isSome = true) : ∃ e, x = .ok e := by
  cases x with
  | error e => simp [Except.toOption] at h
  | ok a => exact ⟨a, rfl⟩

theorem two_typed : (two p31 4 1 5 2).WellTyped T Cls.guMap :=
  inner_typed' ⟨by decide, by decide⟩ (exists_ok (by decide +kernel)) (sha_len _) (leaf_typed (by decide) (by decide)) (leaf_typed (by decide) (by decide)) (.inr (.inl rfl)) (.inr (.inl rfl))

theorem three_typed : three.WellTyped T Cls.guMap :=
  inner_typed' ⟨by decide, by decide⟩ (exists_ok (by decide +kernel)) (sha_len _) two_typed (leaf_typed (by decide) (by decide)) (.inr (.inr rfl)) (.inr (.inl rfl))

/-- In a map of the keys 4, 5 and 8 a proof for key 8 has the inner node above 4 and 5 beside it. -/
theorem beside8 : InnerBeside three [true] := ⟨[], true, two p31 4 1 5 2, by simp, rfl, rfl⟩
end Ex

/-- C144 is false. -/
theorem C144_refuted : ¬ C144_statement := by
  intro h
  have h1 : (Prf.prune Ex.T 14 Ex.s14).1 = .ok 15 := by decide +kernel
  have h2 : ((checkKey realHash intGuMap [true]).run Ex.T realHash 15 (Prf.prune Ex.T 14 Ex.s14).2).1 = .ok (.ok (some (.int 8), some (.int 3))) := by decide +kernel
  have h3 : (Prf.serialize Ex.T realHash 15 ((checkKey realHash intGuMap [true]).run Ex.T realHash 15 (Prf.prune Ex.T 14 Ex.s14).2).2).1.toOption.isSome = true := by decide +kernel
  rcases e1 : Prf.prune Ex.T 14 Ex.s14 with ⟨p, s1⟩
  rw [e1] at h1 h2 h3
  rcases e2 : (checkKey realHash intGuMap [true]).run Ex.T realHash 15 s1 with ⟨v, s2⟩
  rw [e2] at h2 h3
  rcases e3 : Prf.serialize Ex.T realHash 15 s2 with ⟨b, s3⟩
  rw [e3] at h3
  simp only at h1 h2 h3
  subst h1 h2
  cases b with
  | error e => simp [Except.toOption] at h3
  | ok b =>
    obtain ⟨r', s0', hd, _⟩ := h realHash intGuMap Ex.s14 14 Ex.three Ex.s14_reachable Ex.s14_three Ex.three_typed (ordinary_of_prim rfl rfl Ex.three_typed) [true] 15 _ b s1 s2 s3
      e1 e2 e3 {} .refl
    have := C144_lost_partial Ex.s14_reachable Ex.s14_three Ex.three_typed Ex.beside8 e1 e2 e3 (s0 := {}) .refl
    rw [hd] at this
    cases this

namespace Ex
/-- `C144_lost_partial` applies to key 8 of the map of three keys … -/
example : Reachable T realHash s14 ∧ Represents s14 14 three ∧ three.WellTyped T Cls.guMap ∧ OrdinaryData T three ∧ InnerBeside three [true] :=
  ⟨s14_reachable, s14_three, three_typed, ordinary_of_prim rfl rfl three_typed, beside8⟩

theorem eq_pair {α β} {x : α × β} {a : α} (h : x.1 = a) : x = (a, x.2) := by subst h; rfl

theorem not_beside {σ : List Bool} {b : Bool} {q : PTree} (h : nodeAt (two p31 4 1 5 2) (σ ++ [b]) = some q) : q.cls ≠ Cls.innerPrefix := by
  rcases nodeAt_inner (by show ¬ Cls.leafPrefix = _; decide) (by show ¬ Cls.leafPrefix = _; decide) h with ⟨h, _⟩ | ⟨_, rfl⟩ | ⟨_, rfl⟩
  · simp at h
  · show ¬ Cls.leafPrefix = Cls.innerPrefix; decide
  · show ¬ Cls.leafPrefix = Cls.innerPrefix; decide

/-- … and `C144_arrives_partial` to key 5 of the map of two keys; also to key 4 of the map of three, by way of the inner node. -/
example : Reachable T realHash s14 ∧ Represents s14 8 (two p31 4 1 5 2) ∧ (two p31 4 1 5 2).WellTyped T Cls.guMap ∧ OrdinaryData T (two p31 4 1 5 2) ∧
    ¬ InnerBeside (two p31 4 1 5 2) [true] ∧ ∃ b s1 s2 s3, Prf.prune T 8 s14 = (.ok 15, s1) ∧
      (checkKey realHash intGuMap [true]).run T realHash 15 s1 = (.ok (.ok (some (.int 5), some (.int 2))), s2) ∧ Prf.serialize T realHash 15 s2 = (.ok b, s3) := by
  refine ⟨s14_reachable, s14_two, two_typed, ordinary_of_prim rfl rfl two_typed, ?_, ?_⟩
  · rintro ⟨σ, b, q, _, h, hc⟩
    exact not_beside h hc
  · have h1 : (Prf.prune T 8 s14).1 = .ok 15 := by decide +kernel
    have h2 : ((checkKey realHash intGuMap [true]).run T realHash 15 (Prf.prune T 8 s14).2).1 = .ok (.ok (some (.int 5), some (.int 2))) := by decide +kernel
    have h3 : (Prf.serialize T realHash 15 ((checkKey realHash intGuMap [true]).run T realHash 15 (Prf.prune T 8 s14).2).2).1.toOption.isSome = true := by decide +kernel
    obtain ⟨b, hb⟩ := exists_ok h3
    exact ⟨b, _, _, _, eq_pair h1, eq_pair h2, eq_pair hb⟩

example : ¬ InnerBeside three [false, false] ∧ ((checkKey realHash intGuMap [false, false]).run T realHash 15 (Prf.prune T 14 s14).2).1 = .ok (.ok (some (.int 4), some (.int 1))) := by
  refine ⟨?_, by decide +kernel⟩
  rintro ⟨σ, b, q, hp, h, hc⟩
  have hl := hp.length_le
  rcases σ with _ | ⟨x, σ⟩
  · cases b
    · cases h; exact absurd (show Cls.leafPrefix = Cls.innerPrefix from hc) (by decide)
    · simp [List.cons_prefix_cons] at hp
  · obtain ⟨rfl, _⟩ := List.cons_prefix_cons.mp (by simpa using hp)
    exact not_beside (σ := σ) (b := !b) (by rw [List.cons_append, nodeAt_cons (q := two p31 4 1 5 2) rfl rfl] at h; exact h) hc
end Ex
end Verif.GuMap
