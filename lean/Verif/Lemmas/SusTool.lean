import Verif.Lemmas.SusText
import Verif.Lemmas.BtcDeser
import Verif.Props.Seal
import Verif.Spec.SusTool
/-! # Commands of sus-tool.py: files and proofs -/
namespace Verif

theorem HM.read_ok {α} {p : P α} {b b' : Bytes} {a : α} (h : p b = .ok (a, b')) (s : PState) : HM.read p b s = (.ok (a, b'), s) := by
  unfold HM.read; rw [h]

theorem HM.read_error {α} {p : P α} {b : Bytes} {e : PyErr} (h : p b = .error e) (s : PState) : HM.read p b s = (.error e, s) := by
  unfold HM.read; rw [h]

theorem attrDeser_prim_ok {df : Nat → Bytes → HM (Nat × Bytes)} {τ : PrimTy} {b b' : Bytes} {v : PVal} (h : τ.deser b = .ok (v, b')) (s : PState) :
    Prf.attrDeser df (.prim τ) b s = (.ok (.prim v, b'), s) := by
  show (HM.read τ.deser b >>= fun x => (pure (HVal.prim x.1, x.2) : HM _)) s = _
  rw [HM.bind_of_eq (HM.read_ok h s)]; rfl

theorem attrDeser_prim_error {df : Nat → Bytes → HM (Nat × Bytes)} {τ : PrimTy} {b : Bytes} {e : PyErr} (h : τ.deser b = .error e) (s : PState) :
    Prf.attrDeser df (.prim τ) b s = (.error e, s) := by
  show (HM.read τ.deser b >>= fun x => (pure (HVal.prim x.1, x.2) : HM _)) s = _
  rw [HM.bind_of_error (HM.read_error h s)]

namespace Sus
open Btc Seal

theorem TM.bind_of_eq {α β} {x : TM α} {f : α → TM β} {w w' : World} {a : α} (h : x w = (.ok a, w')) : (x >>= f) w = f a w' := by
  show TM.bind x f w = _
  unfold TM.bind; rw [h]

theorem TM.bind_of_error {α β} {x : TM α} {f : α → TM β} {w w' : World} {e : PyErr} (h : x w = (.error e, w')) : (x >>= f) w = (.error e, w') := by
  show TM.bind x f w = _
  unfold TM.bind; rw [h]

theorem TM.lift_ok {α} {x : Py α} {a : α} (h : x = .ok a) (w : World) : TM.lift x w = (.ok a, w) := by rw [h]; rfl

theorem TM.heap_eq {α} {x : HM α} {a : Py α} {w : World} {s : PState} (h : x w.heap = (a, s)) : TM.heap x w = (a, { w with heap := s }) := by
  unfold TM.heap; rw [h]

section
variable {H : HashFns} {g : GuMapDecl}
local notation "C" => classes H g

theorem outpoint_deser {b rest : Bytes} {v : PVal} (h : PrimTy.outpoint.deser b = .ok (v, rest)) : ∃ o, v = .outpoint o ∧ o.Valid := by
  unfold PrimTy.deser at h
  obtain ⟨l, s1, hl, h⟩ := P.bind_inv h
  obtain ⟨x, s2, hx, h⟩ := P.bind_inv h
  obtain ⟨o, s3, ho, h⟩ := P.bind_inv h
  obtain ⟨rfl, _⟩ := P.pure_inv h
  exact ⟨o, rfl, COutPoint.deser_valid (deserializeAll_ok (P.lift_inv ho).1)⟩

theorem fixed_deser {k : Nat} {b rest : Bytes} {v : PVal} (h : (PrimTy.fixed k).deser b = .ok (v, rest)) : ∃ n, v = .bytes n ∧ n.length = k := by
  unfold PrimTy.deser at h
  obtain ⟨x, s1, hx, h⟩ := P.bind_inv h
  obtain ⟨rfl, _⟩ := P.pure_inv h
  exact ⟨x, rfl, (fdRead_ok hx).2⟩

theorem seal_checked {o : COutPoint} {n : Bytes} (hn : n.length = 16) : (PFields.prim (.outpoint o) (.prim (.bytes n) .nil)).Checked C (C Cls.btcSeal).attrs := by
  have ha : (C Cls.btcSeal).attrs = [.prim .outpoint, .prim (.fixed 16)] := rfl
  rw [ha]
  refine ⟨rfl, ?_, trivial⟩
  show (if _ then _ else _) = _
  rw [if_neg (by omega)]

/-- What comes of deserializing a seal does not depend on the state: a seal, or something pruned, or an error. -/
theorem deser_seal (b : Bytes) :
    (∃ (o : COutPoint) (n : Bytes), o.Valid ∧ n.length = 16 ∧ ∀ s : PState, ∃ s', Prf.deserialize C Cls.btcSeal b s = (.ok s.objs.length, s') ∧
      Whole s' s.objs.length (sealT o n) ∧ Steps C H s s' ∧ ∃ x, s'.objs = s.objs ++ [x]) ∨
    (∃ d : Bytes, ∀ s : PState, Prf.deserialize C Cls.btcSeal b s = (.ok s.objs.length,
      { s with objs := s.objs ++ [{ cls := Cls.btcSeal, fields := [none, none], isPruned := true, isFullyPruned := true, dataHash := some d }] })) ∨
    ∃ e, ∀ s : PState, Prf.deserialize C Cls.btcSeal b s = (.error e, s) := by
  have hun : ∀ s, Prf.deserialize C Cls.btcSeal b s = (do let (r, _) ← Prf.deserF C (b.length + 1) Cls.btcSeal b; return r : HM Nat) s := fun s => rfl
  rcases hb : readBool b with e | ⟨p, b1⟩
  · refine .inr (.inr ⟨e, fun s => ?_⟩)
    rw [hun, HM.bind_of_error (s' := s) (e := e)]
    unfold Prf.deserF
    rw [HM.bind_of_error (HM.read_error hb s)]
  · cases p with
    | true =>
      rcases hd : readBytes 32 b1 with e | ⟨d, b2⟩
      · refine .inr (.inr ⟨e, fun s => ?_⟩)
        rw [hun, HM.bind_of_error (s' := s) (e := e)]
        unfold Prf.deserF
        rw [HM.bind_of_eq (HM.read_ok hb s)]
        simp only
        rw [HM.bind_of_error (HM.read_error hd s)]
      · refine .inr (.inl ⟨d, fun s => ?_⟩)
        rw [hun, HM.bind_of_eq (a := (s.objs.length, b2)) (s' := { s with objs := s.objs ++ [{ cls := Cls.btcSeal, fields := [none, none], isPruned := true, isFullyPruned := true, dataHash := some d }] })]
        · rfl
        unfold Prf.deserF
        rw [HM.bind_of_eq (HM.read_ok hb s)]
        simp only
        rw [HM.bind_of_eq (HM.read_ok hd s)]
        rfl
    | false =>
      have hloop : ∀ s, Prf.deserF C (b.length + 1) Cls.btcSeal b s = (do
          let (vs, b) ← Prf.deserLoop (Prf.deserF C b.length) [.prim .outpoint, .prim (.fixed 16)] b1
          let r ← Prf.new C Cls.btcSeal vs
          return (r, b) : HM (Nat × Bytes)) s := by
        intro s
        conv => lhs; unfold Prf.deserF
        rw [HM.bind_of_eq (HM.read_ok hb s)]
        rfl
      rcases ho : PrimTy.outpoint.deser b1 with e | ⟨v, b2⟩
      · refine .inr (.inr ⟨e, fun s => ?_⟩)
        rw [hun, HM.bind_of_error (s' := s) (e := e)]
        rw [hloop, HM.bind_of_error (s' := s) (e := e)]
        unfold Prf.deserLoop
        rw [HM.bind_of_error (attrDeser_prim_error ho s)]
      · obtain ⟨o, rfl, hov⟩ := outpoint_deser ho
        have h1 : ∀ s, Prf.attrDeser (Prf.deserF C b.length) (.prim .outpoint) b1 s = (.ok (.prim (.outpoint o), b2), s) := attrDeser_prim_ok ho
        rcases hn : (PrimTy.fixed 16).deser b2 with e | ⟨v, b3⟩
        · refine .inr (.inr ⟨e, fun s => ?_⟩)
          rw [hun, HM.bind_of_error (s' := s) (e := e)]
          rw [hloop, HM.bind_of_error (s' := s) (e := e)]
          unfold Prf.deserLoop
          rw [HM.bind_of_eq (h1 s)]
          simp only
          rw [HM.bind_of_error (s' := s) (e := e)]
          unfold Prf.deserLoop
          rw [HM.bind_of_error (attrDeser_prim_error hn s)]
        · obtain ⟨n, rfl, hnl⟩ := fixed_deser hn
          refine .inl ⟨o, n, hov, hnl, fun s => ?_⟩
          have h2 : ∀ s, Prf.attrDeser (Prf.deserF C b.length) (.prim (.fixed 16)) b2 s = (.ok (.prim (.bytes n), b3), s) := attrDeser_prim_ok hn
          obtain ⟨s', hnew, hw, hx, hst⟩ := new_whole (T := C) (H := H) (s := s) Cls.btcSeal (vs := [.prim (.outpoint o), .prim (.bytes n)])
            (.prim (.prim .nil)) (seal_checked hnl)
          refine ⟨s', ?_, hw, hst, hx⟩
          rw [hun, HM.bind_of_eq (a := (s.objs.length, b3)) (s' := s')]
          · rfl
          rw [hloop, HM.bind_of_eq (a := ([.prim (.outpoint o), .prim (.bytes n)], b3)) (s' := s)]
          · simp only
            rw [HM.bind_of_eq hnew]; rfl
          unfold Prf.deserLoop
          rw [HM.bind_of_eq (h1 s)]
          simp only
          rw [HM.bind_of_eq (a := ([.prim (.bytes n)], b3)) (s' := s)]
          · rfl
          unfold Prf.deserLoop
          rw [HM.bind_of_eq (h2 s)]
          rfl


/-! ## Whole proofs stay whole -/

mutual
theorem _root_.Verif.Whole.deep {T : Table} {s : PState} {τ : List PTree} (hi : Inv T H s τ) : ∀ {r : Nat} {t : PTree}, Whole s r t → Deep T s τ r
  | _, _, .node ho h1 h2 h3 hf => by
    have hw := Whole.node ho h1 h2 h3 hf
    exact .mk ho (hi.of_represents hw.represents) h1 (by rw [h3, PTree.full_prunedFlag hw.full]) (fun i c hic => hf.deep hi i c hic)
theorem _root_.Verif.WholeFields.deep {T : Table} {s : PState} {τ : List PTree} (hi : Inv T H s τ) : ∀ {vs : List (Option HVal)} {fs : PFields}, WholeFields s vs fs →
    ∀ (i c : Nat), vs[i]? = some (some (.ref c)) → Deep T s τ c
  | _, _, .nil, i, c, h => by simp at h
  | _, _, .prim hf, i, c, h => by
    cases i with
    | zero => simp at h
    | succ i => exact hf.deep hi i c (by simpa using h)
  | _, _, .sub ht hf, i, c, h => by
    cases i with
    | zero => simp at h; subst h; exact ht.deep hi
    | succ i => exact hf.deep hi i c (by simpa using h)
end

theorem _root_.Verif.Whole.steps {T : Table} (hT : T.WF) {s s' : PState} {r : Nat} {t : PTree} (hs : Reachable T H s) (h : Whole s r t) (hst : Steps T H s s') :
    Whole s' r t := by
  obtain ⟨τ, hi⟩ := hs.inv hT
  obtain ⟨τ', hi', he⟩ := Steps.inv hT hi hst
  exact ((h.deep hi).mono hi hi' he).whole hi' (append_get (hi.of_represents h.represents)) h.full

theorem hash_rep {s : PState} {r : Nat} {t : PTree} (hs : Reachable C H s) (hr : Represents s r t) :
    ∃ s', Prf.hash C H r s = (t.hash C H, s') ∧ Steps C H s s' := by
  obtain ⟨τ, hi⟩ := hs.inv classes_wf
  obtain ⟨_, _, _, h⟩ := hash_spec classes_wf hi (hi.of_represents hr)
  exact ⟨_, Prod.ext h rfl, .tail .refl (.hash r)⟩

theorem rep_unique {s : PState} {r : Nat} {t t' : PTree} (hs : Reachable C H s) (h : Represents s r t) (h' : Represents s r t') : t = t' := by
  obtain ⟨τ, hi⟩ := hs.inv classes_wf
  have h1 := hi.of_represents h
  rw [hi.of_represents h'] at h1
  cases h1; rfl

/-! ## Seals -/

/-- The hash of a seal. -/
abbrev sealHash (H : HashFns) (g : GuMapDecl) (p : COutPoint × Bytes) : Py Bytes := (sealT p.1 p.2).hash (classes H g) H

theorem sealHash_ok {p : COutPoint × Bytes} (hv : p.1.Valid) : ∃ h, sealHash H g p = .ok h := by
  obtain ⟨e, he⟩ := COutPoint.ser_total hv
  refine ⟨H.tagged (hex "b59093bf527f4d2a9a513c2e3d2f0c25") (H.sha256 (PrimTy.lenPrefixed e ++ (p.2 ++ []))), ?_⟩
  show (do let b ← (do let a ← (do let b ← p.1.ser; return PrimTy.lenPrefixed b); let b ← (Except.ok (p.2 ++ []) : Py Bytes); return a ++ b)
           Prf.tagHash C H Cls.btcSeal (H.sha256 b)) = _
  rw [he]; rfl

/-- Objects that are these seals. -/
def Seals (s : PState) : List Nat → List (COutPoint × Bytes) → Prop := List.Forall₂ fun r p => Whole s r (sealT p.1 p.2) ∧ p.1.Valid

theorem Seals.steps {s s' : PState} {rs : List Nat} {ps : List (COutPoint × Bytes)} (hs : Reachable C H s) (h : Seals s rs ps) (hst : Steps C H s s') :
    Seals s' rs ps := by
  refine List.Forall₂.imp ?_ h
  rintro r p ⟨h1, h2⟩
  exact ⟨h1.steps classes_wf hs hst, h2⟩

theorem isIn_spec {r : Nat} {p : COutPoint × Bytes} (hv : p.1.Valid) : ∀ {qs : List Nat} {ps : List (COutPoint × Bytes)} {s : PState}, Reachable C H s →
    Seals s qs ps → Whole s r (sealT p.1 p.2) → ∃ s', isIn C H r qs s = (.ok (decide (sealHash H g p ∈ ps.map (sealHash H g))), s') ∧ Steps C H s s'
  | [], [], s, hs, .nil, hr => by
    obtain ⟨h, hh⟩ := sealHash_ok (H := H) (g := g) hv
    obtain ⟨s', h1, hst⟩ := hash_rep hs hr.represents
    rw [show (sealT p.1 p.2).hash C H = .ok h from hh] at h1
    refine ⟨s', ?_, hst⟩
    unfold isIn
    rw [HM.bind_of_eq h1]
    simp; rfl
  | q :: qs, p' :: ps, s, hs, .cons ⟨hq, hv'⟩ hqs, hr => by
    obtain ⟨h, hh⟩ := sealHash_ok (H := H) (g := g) hv
    obtain ⟨h', hh'⟩ := sealHash_ok (H := H) (g := g) hv'
    obtain ⟨s1, h1, hst1⟩ := hash_rep hs hq.represents
    have hs1 : Reachable C H s1 := hs.trans hst1
    obtain ⟨s2, h2, hst2⟩ := hash_rep hs1 (hr.steps classes_wf hs hst1).represents
    have hs2 : Reachable C H s2 := hs1.trans hst2
    rw [show (sealT p.1 p.2).hash C H = .ok h from hh] at h2
    rw [show (sealT p'.1 p'.2).hash C H = .ok h' from hh'] at h1
    have heq : Prf.eq C H q r s = (.ok (decide (h' = h)), s2) := by
      unfold Prf.eq
      rw [HM.bind_of_eq h1, HM.bind_of_eq h2]; rfl
    unfold isIn
    rw [HM.bind_of_eq heq]
    have hst12 := hst1.trans hst2
    by_cases he : h' = h
    · subst he
      refine ⟨s2, ?_, hst12⟩
      simp [hh, hh']; rfl
    · obtain ⟨s3, h3, hst3⟩ := isIn_spec hv hs2 (Seals.steps hs hqs hst12) (hr.steps classes_wf hs hst12)
      refine ⟨s3, ?_, hst12.trans hst3⟩
      simp only [he, decide_false, Bool.false_eq_true, if_false, h3, List.map_cons, List.mem_cons]
      have : ¬ sealHash H g p = sealHash H g p' := by
        rw [hh, hh']; intro hc; cases hc; exact he rfl
      simp only [this, false_or]

theorem sealOutpoint_spec {s : PState} {r : Nat} {o : COutPoint} {n : Bytes} (h : Whole s r (sealT o n)) : sealOutpoint C r s = (.ok o, s) := by
  unfold sealOutpoint
  rw [HM.bind_of_eq (h.getAttr_prim (T := C) (i := 0) (a := .outpoint o) rfl)]
  rfl

theorem outpoints_spec {s : PState} : ∀ {rs : List Nat} {ps : List (COutPoint × Bytes)}, Seals s rs ps → outpoints C rs s = (.ok (ps.map (·.1)), s)
  | _, _, .nil => rfl
  | _, _, .cons ⟨h, _⟩ hs => by
    unfold outpoints
    rw [HM.bind_of_eq (sealOutpoint_spec h), HM.bind_of_eq (outpoints_spec hs)]; rfl


theorem deser_steps (c : Nat) (b : Bytes) (s : PState) {x : Py Nat} {s' : PState} (h : Prf.deserialize C c b s = (x, s')) : Steps C H s s' := by
  have := Step.deserialize (T := C) (H := H) (s := s) c b
  rw [h] at this
  exact .tail .refl this

theorem reachable_init : Reachable C H {} := Steps.refl

/-- A file that holds a seal is read as that seal. -/
theorem holds_seal {b : Bytes} {o : COutPoint} {n : Bytes} (h : Holds C H Cls.btcSeal b (sealT o n)) :
    o.Valid ∧ n.length = 16 ∧ ∀ s : PState, ∃ s', Prf.deserialize C Cls.btcSeal b s = (.ok s.objs.length, s') ∧
      Whole s' s.objs.length (sealT o n) ∧ Steps C H s s' ∧ ∃ x, s'.objs = s.objs ++ [x] := by
  obtain ⟨r, s', hd, hr⟩ := h {} reachable_init
  have hst := deser_steps _ _ _ hd
  rcases deser_seal (H := H) (g := g) b with ⟨o', n', hv, hn, hall⟩ | ⟨d, hall⟩ | ⟨e, hall⟩
  · obtain ⟨s2, h2, hw, _⟩ := hall {}
    rw [hd] at h2
    cases h2
    have := rep_unique (g := g) (hst : Reachable C H s') hr hw.represents
    simp only [sealT, PTree.node.injEq, PFields.prim.injEq, PVal.bytes.injEq, PVal.outpoint.injEq, true_and, and_true] at this
    obtain ⟨rfl, rfl⟩ := this
    exact ⟨hv, hn, hall⟩
  · have h2 := hall {}
    rw [hd] at h2
    obtain ⟨h3, h4⟩ := Prod.mk.inj h2
    cases h3
    have hp : Represents s' 0 (.pruned Cls.btcSeal d) := by
      subst h4
      exact .hashOnly (o := { cls := Cls.btcSeal, fields := [none, none], isPruned := true, isFullyPruned := true, dataHash := some d }) rfl rfl rfl rfl
    have := rep_unique (g := g) (hst : Reachable C H s') hr hp
    cases this
  · have h2 := hall {}
    rw [hd] at h2
    cases h2

theorem holds_of_deser {b : Bytes} {o : COutPoint} {n : Bytes} (hall : ∀ s : PState, ∃ s', Prf.deserialize C Cls.btcSeal b s = (.ok s.objs.length, s') ∧
      Whole s' s.objs.length (sealT o n) ∧ Steps C H s s' ∧ ∃ x, s'.objs = s.objs ++ [x]) : Holds C H Cls.btcSeal b (sealT o n) := by
  intro s _
  obtain ⟨s', h1, h2, _⟩ := hall s
  exact ⟨_, s', h1, h2.represents⟩

theorem openAll_spec : ∀ (fs : List Str) (w : World), (openAll fs w = (.ok (), w) ∧ ∀ f ∈ fs, ∃ b, w.files f = some b) ∨
    (openAll fs w = (.error .systemExit, w) ∧ ∃ f ∈ fs, w.files f = none)
  | [], w => .inl ⟨rfl, by simp⟩
  | f :: fs, w => by
    unfold openAll
    cases hf : w.files f with
    | none =>
      refine .inr ⟨?_, f, by simp, hf⟩
      rw [TM.bind_of_error (w' := w) (e := .systemExit)]
      unfold TM.openR; rw [hf]
    | some b =>
      have h1 : TM.openR f w = (.ok (), w) := by unfold TM.openR; rw [hf]
      rw [TM.bind_of_eq h1]
      rcases openAll_spec fs w with ⟨h, h'⟩ | ⟨h, f', hf', h'⟩
      · refine .inl ⟨h, fun f' hf' => ?_⟩
        rcases List.mem_cons.mp hf' with rfl | hf'
        · exact ⟨b, hf⟩
        · exact h' f' hf'
      · exact .inr ⟨h, f', by simp [hf'], h'⟩

theorem pruned_getAttr {s : PState} {r c : Nat} {d : Bytes} (i : Nat) (hs : Reachable C H s) (h : Represents s r (.pruned c d)) :
    ∃ e s', Prf.getAttr C r i s = (.error e, s') ∧ Steps C H s s' := by
  obtain ⟨τ, hi⟩ := hs.inv classes_wf
  obtain ⟨_, _, _, h1, _⟩ := getAttr_spec hi (hi.of_represents h) i
  exact ⟨_, _, Prod.ext (h1 _ rfl) rfl, .tail .refl (.getAttr r i)⟩

theorem isIn_steps (r : Nat) : ∀ (qs : List Nat) (s : PState), Steps C H s (isIn C H r qs s).2
  | [], s => by
    unfold isIn
    have h1 : Steps C H s (Prf.hash C H r s).2 := .tail .refl (.hash r)
    rcases hh : Prf.hash C H r s with ⟨e | a, s'⟩ <;> rw [hh] at h1
    · rw [HM.bind_of_error hh]; exact h1
    · rw [HM.bind_of_eq hh]; exact h1
  | q :: qs, s => by
    unfold isIn
    have h0 : Steps C H s (Prf.eq C H q r s).2 := by
      unfold Prf.eq
      have h1 : Steps C H s (Prf.hash C H q s).2 := .tail .refl (.hash q)
      rcases hh : Prf.hash C H q s with ⟨e | a, s'⟩ <;> rw [hh] at h1
      · rw [HM.bind_of_error hh]; exact h1
      · rw [HM.bind_of_eq hh]
        have h2 : Steps C H s' (Prf.hash C H r s').2 := .tail .refl (.hash r)
        rcases hh : Prf.hash C H r s' with ⟨e | a, s''⟩ <;> rw [hh] at h2
        · rw [HM.bind_of_error hh]; exact h1.trans h2
        · rw [HM.bind_of_eq hh]; exact h1.trans h2
    rcases hh : Prf.eq C H q r s with ⟨e | a, s'⟩ <;> rw [hh] at h0
    · rw [HM.bind_of_error hh]; exact h0
    · rw [HM.bind_of_eq hh]
      cases a with
      | true => exact h0
      | false => exact h0.trans (isIn_steps r qs s')

/-- A pruned seal stops the loop. -/
theorem pruned_seal {s : PState} {r : Nat} {d : Bytes} (hs : Reachable C H s) (h : Represents s r (.pruned Cls.btcSeal d)) (rs : List Nat) (fs : List Str) (w : World)
    (hw : w.heap = s) : ∃ e s', (do
      let dup ← TM.heap (isIn C H r rs)
      if dup then TM.fail .systemExit
      else do
        let _ ← TM.heap (Prf.hash C H r)
        let _ ← TM.heap (sealOutpoint C r)
        readSeals C H (rs ++ [r]) fs : TM (List Nat)) w = (.error e, { w with heap := s' }) ∧ Steps C H s s' := by
  subst hw
  have h1 := isIn_steps (H := H) (g := g) r rs w.heap
  rcases hh : isIn C H r rs w.heap with ⟨e | a, s1⟩ <;> rw [hh] at h1
  · exact ⟨e, s1, by rw [TM.bind_of_error (TM.heap_eq hh)], h1⟩
  · rw [TM.bind_of_eq (TM.heap_eq hh)]
    have hs1 : Reachable C H s1 := hs.trans h1
    have hr1 := h1.represents classes_wf hs h
    cases a with
    | true => exact ⟨.systemExit, s1, rfl, h1⟩
    | false =>
      simp only [Bool.false_eq_true, if_false]
      obtain ⟨s2, h2, hst2⟩ := hash_rep hs1 hr1
      have hr2 := hst2.represents classes_wf hs1 hr1
      rcases hx : (PTree.pruned Cls.btcSeal d).hash C H with e | k
      · rw [hx] at h2
        exact ⟨e, s2, by rw [TM.bind_of_error (TM.heap_eq (w := { w with heap := s1 }) h2)], h1.trans hst2⟩
      · rw [hx] at h2
        rw [TM.bind_of_eq (TM.heap_eq (w := { w with heap := s1 }) h2)]
        obtain ⟨e, s3, h3, hst3⟩ := pruned_getAttr 0 (hs1.trans hst2 : Reachable C H s2) hr2
        have h4 : sealOutpoint C r s2 = (.error e, s3) := by
          unfold sealOutpoint
          rw [HM.bind_of_error h3]
        exact ⟨e, s3, by rw [TM.bind_of_error (TM.heap_eq (w := { w with heap := s2 }) h4)], (h1.trans hst2).trans hst3⟩

theorem pruned_represents {s s' : PState} {d : Bytes} 
    (h : s' = { s with objs := s.objs ++ [{ cls := Cls.btcSeal, fields := [none, none], isPruned := true, isFullyPruned := true, dataHash := some d }] }) :
    Represents s' s.objs.length (.pruned Cls.btcSeal d) := by
  subst h
  exact .hashOnly (o := { cls := Cls.btcSeal, fields := [none, none], isPruned := true, isFullyPruned := true, dataHash := some d }) (by simp) rfl rfl rfl

/-- What is read as a pruned seal does not hold a seal. -/
theorem pruned_not_holds {b : Bytes} {d : Bytes} (hall : ∀ s : PState, Prf.deserialize C Cls.btcSeal b s = (.ok s.objs.length,
      { s with objs := s.objs ++ [{ cls := Cls.btcSeal, fields := [none, none], isPruned := true, isFullyPruned := true, dataHash := some d }] }))
    {o : COutPoint} {n : Bytes} (h : Holds C H Cls.btcSeal b (sealT o n)) : False := by
  obtain ⟨_, _, hall'⟩ := holds_seal h
  obtain ⟨s', h4, hw, hst, _⟩ := hall' {}
  have h2 := hall {}
  rw [h4] at h2
  obtain ⟨_, h3⟩ := Prod.mk.inj h2
  have := rep_unique (g := g) (hst : Reachable C H s') hw.represents (pruned_represents h3)
  cases this

/-- What the loop over the seal files does. -/
theorem readSeals_spec : ∀ (fs : List Str) (w : World) (rs : List Nat) (ps : List (COutPoint × Bytes)), Reachable C H w.heap → Seals w.heap rs ps →
    (ps.map (sealHash H g)).Nodup → ∃ x w', readSeals C H rs fs w = (x, w') ∧ w'.files = w.files ∧ w'.out = w.out ∧ Steps C H w.heap w'.heap ∧
      (∀ rs', x = .ok rs' → ∃ qs, List.Forall₂ (HoldsSeal C H w.files) fs qs ∧ Seals w'.heap rs' (ps ++ qs) ∧ ((ps ++ qs).map (sealHash H g)).Nodup) ∧
      ∀ qs, List.Forall₂ (HoldsSeal C H w.files) fs qs → ((ps ++ qs).map (sealHash H g)).Nodup → ∃ rs', x = .ok rs'
  | [], w, rs, ps, hs, hps, hnd => by
    refine ⟨.ok rs, w, rfl, rfl, rfl, .refl, fun rs' h => ?_, fun qs _ _ => ⟨rs, rfl⟩⟩
    cases h
    exact ⟨[], .nil, by rw [List.append_nil]; exact hps, by rw [List.append_nil]; exact hnd⟩
  | f :: fs, w, rs, ps, hs, hps, hnd => by
    unfold readSeals
    cases hf : w.files f with
    | none =>
      refine ⟨.error .fileNotFound, w, ?_, rfl, rfl, .refl, (fun _ h => by cases h), fun qs hq _ => ?_⟩
      · rw [TM.bind_of_error (w' := w) (e := .fileNotFound)]
        unfold TM.read; rw [hf]
      · cases hq with
        | cons h1 h2 =>
          obtain ⟨b, hb, _⟩ := h1
          rw [hf] at hb; cases hb
    | some b =>
      have h1 : TM.read f w = (.ok b, w) := by unfold TM.read; rw [hf]
      rw [TM.bind_of_eq h1]
      rcases deser_seal (H := H) (g := g) b with ⟨o, n, hv, hn, hall⟩ | ⟨d, hall⟩ | ⟨e, hall⟩
      · obtain ⟨s1, h2, hw, hst1, _⟩ := hall w.heap
        rw [TM.bind_of_eq (TM.heap_eq h2)]
        have hs1 : Reachable C H s1 := hs.trans hst1
        obtain ⟨s2, h3, hst2⟩ := isIn_spec (p := (o, n)) hv hs1 (hps.steps hs hst1) hw
        rw [TM.bind_of_eq (TM.heap_eq (w := { w with heap := s1 }) h3)]
        have hs2 : Reachable C H s2 := hs1.trans hst2
        have hholds : Holds C H Cls.btcSeal b (sealT o n) := holds_of_deser hall
        have huniq : ∀ q, HoldsSeal C H w.files f q → q = (o, n) := by
          rintro ⟨o', n'⟩ ⟨b', hb', hq⟩
          rw [hf] at hb'; cases hb'
          obtain ⟨_, _, hall'⟩ := holds_seal hq
          obtain ⟨s', h4, hw', _⟩ := hall' w.heap
          rw [h2] at h4
          cases h4
          have := rep_unique (g := g) hs1 hw'.represents hw.represents
          simp only [sealT, PTree.node.injEq, PFields.prim.injEq, PVal.bytes.injEq, PVal.outpoint.injEq, true_and, and_true] at this
          obtain ⟨rfl, rfl⟩ := this
          rfl
        by_cases hdup : sealHash H g (o, n) ∈ ps.map (sealHash H g)
        · simp only [hdup, decide_true, if_true]
          refine ⟨.error .systemExit, _, rfl, rfl, rfl, hst1.trans hst2, (fun _ h => by cases h), fun qs hq hnd' => ?_⟩
          cases hq with
          | @cons _ q _ qs h4 h5 =>
            rw [huniq q h4] at hnd'
            rw [List.map_append, List.map_cons] at hnd'
            have := (List.nodup_append.mp hnd').2.2 _ hdup _ List.mem_cons_self
            exact absurd rfl this
        · simp only [hdup, decide_false, Bool.false_eq_true, if_false]
          have hw2 := hw.steps classes_wf hs1 hst2
          obtain ⟨h, hh⟩ := sealHash_ok (H := H) (g := g) (p := (o, n)) hv
          obtain ⟨s3, h4, hst3⟩ := hash_rep hs2 hw2.represents
          rw [show (sealT o n).hash C H = .ok h from hh] at h4
          rw [TM.bind_of_eq (TM.heap_eq (w := { w with heap := s2 }) h4)]
          have hw3 := hw2.steps classes_wf hs2 hst3
          rw [TM.bind_of_eq (TM.heap_eq (w := { w with heap := s3 }) (sealOutpoint_spec hw3))]
          have hs3 : Reachable C H s3 := hs2.trans hst3
          have hst13 := (hst1.trans hst2).trans hst3
          have hnd3 : ((ps ++ [(o, n)]).map (sealHash H g)).Nodup := by
            rw [List.map_append, List.nodup_append]
            refine ⟨hnd, by simp, ?_⟩
            intro a ha b hb
            simp only [List.map_cons, List.map_nil, List.mem_singleton] at hb
            subst hb
            exact fun he => hdup (he ▸ ha)
          obtain ⟨x, w', hx, hf', ho', hst', hA, hB⟩ := readSeals_spec fs { w with heap := s3 } (rs ++ [w.heap.objs.length]) (ps ++ [(o, n)]) hs3
            (List.rel_append (hps.steps hs hst13) (.cons ⟨hw3, hv⟩ .nil)) hnd3
          refine ⟨x, w', hx, hf', ho', hst13.trans hst', fun rs' hr => ?_, fun qs hq hnd' => ?_⟩
          · obtain ⟨qs, hq, hsl, hn'⟩ := hA rs' hr
            refine ⟨(o, n) :: qs, .cons ⟨b, hf, hholds⟩ hq, ?_, ?_⟩
            · simpa using hsl
            · simpa using hn'
          · cases hq with
            | @cons _ q _ qs h5 h6 =>
              rw [huniq q h5] at hnd'
              exact hB qs h6 (by simpa using hnd')
      · have h2 := hall w.heap
        obtain ⟨s1, hs1e⟩ : ∃ s1 : PState, s1 = { w.heap with objs := w.heap.objs ++ [{ cls := Cls.btcSeal, fields := [none, none], isPruned := true, isFullyPruned := true, dataHash := some d }] } := ⟨_, rfl⟩
        rw [← hs1e] at h2
        have hst1 := deser_steps _ _ _ h2
        have hs1 : Reachable C H s1 := hs.trans hst1
        rw [TM.bind_of_eq (TM.heap_eq h2)]
        obtain ⟨e, s2, h3, hst2⟩ := pruned_seal hs1 (pruned_represents hs1e) rs fs { w with heap := s1 } rfl
        refine ⟨.error e, _, h3, rfl, rfl, hst1.trans hst2, (fun _ h => by cases h), fun qs hq _ => ?_⟩
        cases hq with
        | cons h1 h2' =>
          obtain ⟨b', hb', hq⟩ := h1
          rw [hf] at hb'; cases hb'
          exact (pruned_not_holds hall hq).elim
      · have h2 := hall w.heap
        refine ⟨.error e, w, ?_, rfl, rfl, .refl, (fun _ h => by cases h), fun qs hq _ => ?_⟩
        · rw [TM.bind_of_error (TM.heap_eq h2)]
        · cases hq with
          | cons h1 h2' =>
            obtain ⟨b', hb', hq⟩ := h1
            rw [hf] at hb'; cases hb'
            obtain ⟨_, _, hall'⟩ := holds_seal hq
            obtain ⟨s', h4, _⟩ := hall' w.heap
            rw [h2] at h4
            cases h4


/-! ## Witnesses -/

theorem verify_spends {ini : List Nat} {o : COutPoint} {n : Bytes} {i j : Int} {x : CTransaction} (hx : ∃ e, x.ser = .ok e) (hi : 0 ≤ i)
    (hin : ∃ inp, x.vin[i.toNat]? = some inp ∧ inp.prevout = o) :
    (witnessVerify []).eval C H ini (fullWitnessT o n i x j x) = .ok (.ok ()) := by
  obtain ⟨inp, hinp, rfl⟩ := hin
  obtain ⟨b, hb⟩ := hx
  have hid : HasTxid H x (H.sha256 (H.sha256 b)) := ⟨b, hb, rfl⟩
  obtain ⟨e, he⟩ := CTransaction.prevout_ser hid hinp
  have h1 : (txT x).hash C H = .ok (Prf.xorWithPad (H.sha256 (H.sha256 b))) := hash_txT_ok.mpr ⟨_, hid, rfl⟩
  unfold witnessVerify
  simp only [eval_onCls_ok, eval_bind_ok, eval_lift_ok, List.nil_append]
  refine ⟨⟨_, rfl, rfl⟩, inp.prevout, ?_, inp, ?_, true, ?_, (), rfl, ?_⟩
  · rw [eval_outpoint_ok]; exact ⟨⟨_, rfl, rfl⟩, rfl⟩
  · unfold txin
    simp only [eval_onCls_ok, eval_bind_ok, eval_lift_ok]
    exact ⟨⟨_, rfl, rfl⟩, x, eval_getTx_ok.mpr ⟨⟨_, rfl, rfl⟩, rfl⟩, i, eval_getI_ok.mpr rfl, (pyGetItem_ok hi).mpr hinp⟩
  · unfold serEq; rw [he]; simp only [Except.bind_ok, beq_self_eq_true]; rfl
  · rw [txproof_ok]
    refine ⟨_, rfl, .inl ⟨.inl rfl, ?_⟩⟩
    rw [txproof_ok]
    refine ⟨_, rfl, .inl ⟨.inr rfl, ?_⟩⟩
    rw [eval_hash_ok]
    refine ⟨_, _, rfl, h1, ?_⟩
    rw [eval_hash_ok]
    refine ⟨_, _, rfl, h1, ?_⟩
    rw [eval_lift_ok, Seal.pyAssert_ok, beq_iff_eq]

/-- With a pruned seal no witness is made. -/
theorem makeWitness_pruned {s : PState} {tp sl : Nat} {x : CTransaction} {d : Bytes} (hs : Reachable C H s) (htp : Whole s tp (txT x))
    (hsl : Represents s sl (.pruned Cls.btcSeal d)) : ∃ y s', makeWitness C tp sl s = (y, s') ∧ (∀ w, y ≠ .ok (some w)) ∧ Steps C H s s' := by
  unfold makeWitness
  rw [HM.bind_of_eq (htp.getAttr_prim (T := C) (i := 0) (a := .tx x) rfl)]
  simp only
  cases hv : x.vin with
  | nil => exact ⟨.ok none, s, rfl, (fun w h => by cases h), .refl⟩
  | cons inp rest =>
    obtain ⟨e, s', h1, hst⟩ := pruned_getAttr 0 hs hsl
    refine ⟨.error e, s', ?_, (fun w h => by cases h), hst⟩
    rw [HM.bind_of_error (e := e) (s' := s')]
    unfold findTxin
    rw [HM.bind_of_error h1]

/-- No witness is made if the number of the input does not fit. -/
theorem makeWitness_big {s : PState} {tp sl : Nat} {x : CTransaction} {o : COutPoint} {n : Bytes}
    (htp : Whole s tp (txT x)) (hsl : Whole s sl (sealT o n)) (ho : ∃ e, o.ser = .ok e) (hx : ∀ inp ∈ x.vin, ∃ e, inp.prevout.ser = .ok e) {i : Nat}
    (hfind : (x.vin.findIdx? fun inp => decide (inp.prevout = o)) = some i) (hbig : ¬ i ≤ 0xffffffff) :
    ∃ e s', makeWitness C tp sl s = (.error e, s') ∧ Steps C H s s' := by
  unfold makeWitness
  rw [HM.bind_of_eq (htp.getAttr_prim (T := C) (i := 0) (a := .tx x) rfl)]
  simp only
  rw [HM.bind_of_eq (findTxin_spec (T := C) hsl ho x.vin 0 hx), hfind]
  simp only [Option.map_some, Nat.zero_add]
  have hnew : Prf.new C Cls.txInProof [.prim (.int i), .ref tp] s = (.error .serValue, (Prf.initClass Cls.txInProof s).2) := by
    unfold Prf.new
    rw [HM.bind_of_eq (show Prf.initClass Cls.txInProof s = (.ok (), (Prf.initClass Cls.txInProof s).2) from rfl)]
    rw [HM.bind_of_error (e := .serValue) (s' := (Prf.initClass Cls.txInProof s).2)]
    show Prf.checkVals C [.prim .uint32, .proof Cls.txProof] [.prim (.int i), .ref tp] _ = _
    unfold Prf.checkVals
    rw [HM.bind_of_error (e := .serValue) (s' := (Prf.initClass Cls.txInProof s).2)]
    rw [Prf.checkVal]
    rw [HM.bind_of_error (e := .serValue) (s' := (Prf.initClass Cls.txInProof s).2)]
    show ((if _ then _ else _ : Py Unit), _) = _
    rw [if_pos (by omega)]
  refine ⟨.serValue, _, by rw [HM.bind_of_error hnew], ?_⟩
  have := Step.new (T := C) (H := H) (s := s) Cls.txInProof [.prim (.int i), .ref tp] (by
    intro r hr
    simp only [List.mem_cons, reduceCtorEq, HVal.ref.injEq, List.not_mem_nil, or_false, false_or] at hr
    subst hr
    exact htp.lt)
  rw [hnew] at this
  exact .tail .refl this

/-- One seal: either nothing comes of it, or a witness that can be written to a file. -/
theorem makeWitness_cases {s : PState} {tp : Nat} {x : CTransaction} (hs : Reachable C H s) (htp : Whole s tp (txT x)) (hx : ∃ e, x.ser = .ok e)
    (hfit : x.ScriptsFit) {o : COutPoint} {n : Bytes} {sl : Nat} (hov : o.Valid) (hn : n.length = 16) (hsl : Whole s sl (sealT o n)) :
    (∃ w s' i b s'', makeWitness C tp sl s = (.ok (some w), s') ∧ Steps C H s s' ∧ (x.vin[i]?).map (·.prevout) = some o ∧
      Prf.serialize C H w s' = (.ok b, s'') ∧ Steps C H s' s'' ∧
      ∀ s0, Reachable C H s0 → ∃ r s0', Prf.deserialize C Cls.btcWitness b s0 = (.ok r, s0') ∧ Represents s0' r (fullWitnessT o n (i : Nat) x 0 x) ∧
        ∀ s1, Steps C H s0' s1 → ((witnessVerify []).run C H r s1).1 = .ok (.ok ())) ∨
    ((∃ y s', makeWitness C tp sl s = (y, s') ∧ (∀ w, y ≠ .ok (some w)) ∧ Steps C H s s') ∧
      ((∀ inp ∈ x.vin, inp.prevout ≠ o) ∨ 2 ^ 32 < x.vin.length)) := by
  have hoser := COutPoint.ser_total hov
  have hpser := vin_ser hx
  cases hfind : (x.vin.findIdx? fun inp => decide (inp.prevout = o)) with
  | none =>
    rw [List.findIdx?_eq_none_iff] at hfind
    have hno : ∀ inp ∈ x.vin, inp.prevout ≠ o := fun inp hinp => by simpa using hfind inp hinp
    exact .inr ⟨⟨_, s, makeWitness_none htp hsl hoser hpser hno, (fun w h => by cases h), .refl⟩, .inl hno⟩
  | some i =>
    by_cases hbig : i ≤ 0xffffffff
    · left
      obtain ⟨hlt, he, hfirst⟩ := List.findIdx?_eq_some_iff_getElem.mp hfind
      have hio : x.vin[i].prevout = o := by simpa using he
      have hinp : x.vin[i]? = some x.vin[i] := List.getElem?_eq_getElem _
      obtain ⟨w, s', hw, hwh, hst, _⟩ := makeWitness_spec hs htp hsl hoser hpser hinp hio (by
        intro k inp' hk hik hc
        have := hfirst k hk
        rw [List.getElem?_eq_getElem (by omega)] at hik
        cases hik
        simp [hc] at this) hbig
      have hs' : Reachable C H s' := hs.trans hst
      have hty : (fullWitnessT o n i x 0 x).WellTyped C Cls.btcWitness := fullWitness_typed (j := 0) hbig (by omega) hoser hn hx hfit
      obtain ⟨b, s'', hser, hrt⟩ := C38_round_trip classes_wf hs' hwh hty
      have hst2 : Steps C H s' s'' := by
        have := Step.serialize (T := C) (H := H) (s := s') w
        rw [hser] at this
        exact .tail .refl this
      refine ⟨w, s', i, b, s'', hw, hst, by rw [hinp, ← hio]; rfl, hser, hst2, fun s0 hs0 => ?_⟩
      obtain ⟨w', s0', hdes, hwh', _⟩ := hrt s0 [] hs0
      have hdes' : Prf.deserialize C Cls.btcWitness b s0 = (.ok w', s0') := by
        unfold Prf.deserialize
        rw [List.append_nil] at hdes
        rw [HM.bind_of_eq hdes]; rfl
      have hst0 := deser_steps _ _ _ hdes'
      refine ⟨w', s0', hdes', hwh'.represents, fun s1 hst1 => ?_⟩
      have hs0' : Reachable C H s0' := hs0.trans hst0
      rw [run_eq classes_wf _ (hs0'.trans hst1) (hst1.represents classes_wf hs0' hwh'.represents)]
      exact verify_spends hx (by omega) ⟨_, by simpa using hinp, hio⟩
    · obtain ⟨e, s', h1, hst⟩ := makeWitness_big (H := H) (g := g) htp hsl hoser hpser hfind hbig
      have hlt := (List.findIdx?_eq_some_iff_getElem.mp hfind).1
      exact .inr ⟨⟨_, s', h1, (fun w h => by cases h), hst⟩, .inr (by omega)⟩

/-- What the loop over the seal files does. -/
theorem mkWitnesses_spec {x : CTransaction} (hx : ∃ e, x.ser = .ok e) (hfit : x.ScriptsFit) {tp : Nat} : ∀ (fs : List Str) (w : World), Reachable C H w.heap →
    Whole w.heap tp (txT x) → (∀ f ∈ fs, ∃ b, w.files f = some b) → ∃ y w', mkWitnesses C H tp fs w = (y, w') ∧ w'.out = w.out ∧ 
      (∀ f b, w.files f = some b → w'.files f = some b) ∧
      (∀ f b, w'.files f = some b → w.files f = some b ∨ w.files f = none ∧ ∃ sn ∈ fs, f = witnessName sn ∧ WitnessFor C H w.files sn x b) ∧
      (y = .ok () → ∀ sn ∈ fs, w.files (witnessName sn) = none ∧ ∃ b, w'.files (witnessName sn) = some b) ∧
      (fs.Nodup → x.vin.length ≤ 2 ^ 32 → (∀ sn ∈ fs, w.files (witnessName sn) = none ∧ ∃ p, HoldsSeal C H w.files sn p ∧ ∃ inp ∈ x.vin, inp.prevout = p.1) →
        y = .ok ())
  | [], w, hs, htp, _ => ⟨.ok (), w, rfl, rfl, fun _ _ h => h, fun _ _ h => .inl h, (fun _ sn h => by cases h), fun _ _ _ => rfl⟩
  | f :: fs, w, hs, htp, hex => by
    unfold mkWitnesses
    obtain ⟨b, hf⟩ := hex f (by simp)
    have h1 : TM.read f w = (.ok b, w) := by unfold TM.read; rw [hf]
    rw [TM.bind_of_eq h1]
    -- when the command ends here, with the files as they are
    have stop : ∀ (y : Py Unit) (s' : PState), (∀ u, y ≠ .ok u) → (fs.Nodup → x.vin.length ≤ 2 ^ 32 → w.files (witnessName f) = none → ∀ p, HoldsSeal C H w.files f p →
        ∀ inp ∈ x.vin, inp.prevout ≠ p.1) → ∃ y' w', (y, { w with heap := s' }) = ((y', w') : Py Unit × World) ∧ w'.out = w.out ∧ 
      (∀ f b, w.files f = some b → w'.files f = some b) ∧
      (∀ f' b, w'.files f' = some b → w.files f' = some b ∨ w.files f' = none ∧ ∃ sn ∈ f :: fs, f' = witnessName sn ∧ WitnessFor C H w.files sn x b) ∧
      (y' = .ok () → ∀ sn ∈ f :: fs, w.files (witnessName sn) = none ∧ ∃ b, w'.files (witnessName sn) = some b) ∧
      ((f :: fs).Nodup → x.vin.length ≤ 2 ^ 32 → (∀ sn ∈ f :: fs, w.files (witnessName sn) = none ∧ ∃ p, HoldsSeal C H w.files sn p ∧ ∃ inp ∈ x.vin, inp.prevout = p.1) →
        y' = .ok ()) := by
      intro y s' hy hc
      refine ⟨y, _, rfl, rfl, fun _ _ h => h, fun _ _ h => .inl h, fun h => absurd h (hy ()), fun hnd hl hall => ?_⟩
      obtain ⟨hn, p, hp, inp, hinp, he⟩ := hall f (by simp)
      exact absurd he (hc (List.nodup_cons.mp hnd).2 hl hn p hp inp hinp)
    rcases deser_seal (H := H) (g := g) b with ⟨o, n, hv, hn, hall⟩ | ⟨d, hall⟩ | ⟨e, hall⟩
    · obtain ⟨s1, h2, hw, hst1, _⟩ := hall w.heap
      rw [TM.bind_of_eq (TM.heap_eq h2)]
      have hs1 : Reachable C H s1 := hs.trans hst1
      have huniq : ∀ q, HoldsSeal C H w.files f q → q = (o, n) := by
        rintro ⟨o', n'⟩ ⟨b', hb', hq⟩
        rw [hf] at hb'; cases hb'
        obtain ⟨_, _, hall'⟩ := holds_seal hq
        obtain ⟨s', h4, hw', _⟩ := hall' w.heap
        rw [h2] at h4
        cases h4
        have := rep_unique (g := g) hs1 hw'.represents hw.represents
        simp only [sealT, PTree.node.injEq, PFields.prim.injEq, PVal.bytes.injEq, PVal.outpoint.injEq, true_and, and_true] at this
        obtain ⟨rfl, rfl⟩ := this
        rfl
      rcases makeWitness_cases hs1 (htp.steps classes_wf hs hst1) hx hfit hv hn hw with
        ⟨wi, s2, i, wb, s3, hmk, hst2, hin, hser, hst3, hrt⟩ | ⟨⟨y, s2, hmk, hy, hst2⟩, hno⟩
      · rw [TM.bind_of_eq (TM.heap_eq (w := { w with heap := s1 }) hmk)]
        simp only
        cases hwn : w.files (witnessName f) with
        | some ob =>
          have h5 : TM.openX (witnessName f) .fileExists { w with heap := s2 } = (.error .fileExists, { w with heap := s2 }) := by
            unfold TM.openX
            simp only [hwn]
          rw [TM.bind_of_error h5]
          exact stop _ _ (fun _ h => by cases h) (fun _ _ h => by rw [hwn] at h; cases h)
        | none =>
          have h5 : TM.openX (witnessName f) .fileExists { w with heap := s2 } =
              (.ok (), { w with heap := s2, files := fun f' => if f' = witnessName f then some [] else w.files f' }) := by
            unfold TM.openX
            simp only [hwn]
          rw [TM.bind_of_eq h5, TM.bind_of_eq (TM.heap_eq (w := { w with heap := s2, files := fun f' => if f' = witnessName f then some [] else w.files f' }) hser)]
          have h6 : TM.write (witnessName f) wb { w with heap := s3, files := fun f' => if f' = witnessName f then some [] else w.files f' } =
              (.ok (), { w with heap := s3, files := fun f' => if f' = witnessName f then some wb else w.files f' }) := by
            unfold TM.write
            simp only [Prod.mk.injEq, World.mk.injEq, true_and, and_true]
            funext f'
            split <;> rfl
          rw [TM.bind_of_eq h6]
          have hst13 := (hst1.trans hst2).trans hst3
          have hs3 : Reachable C H s3 := hs.trans hst13
          have hne : ∀ f' b', w.files f' = some b' → f' ≠ witnessName f := by
            rintro f' b' h rfl
            rw [hwn] at h; cases h
          have hkeep : ∀ f' b', w.files f' = some b' → (if f' = witnessName f then some wb else w.files f') = some b' := by
            intro f' b' h
            rw [if_neg (hne f' b' h), h]
          have hrest : ∀ sn ∈ fs, sn ≠ witnessName f := by
            intro sn hsn
            obtain ⟨b', hb'⟩ := hex sn (by simp [hsn])
            exact hne sn b' hb'
          have hback : ∀ sn ∈ fs, ∀ p, HoldsSeal C H (fun f' => if f' = witnessName f then some wb else w.files f') sn p ↔ HoldsSeal C H w.files sn p := by
            intro sn hsn p
            unfold HoldsSeal
            simp only [if_neg (hrest sn hsn)]
          obtain ⟨y, w', hy, hout, hA, hB, hC, hD⟩ := mkWitnesses_spec hx hfit (tp := tp) fs
            { w with heap := s3, files := fun f' => if f' = witnessName f then some wb else w.files f' } hs3 (htp.steps classes_wf hs hst13) (by
              intro sn hsn
              obtain ⟨b', hb'⟩ := hex sn (by simp [hsn])
              exact ⟨b', hkeep sn b' hb'⟩)
          have hhere : WitnessFor C H w.files f x wb := ⟨(o, n), i, ⟨b, hf, holds_of_deser hall⟩, hin, hrt⟩
          refine ⟨y, w', hy, hout, fun f' b' h => hA f' b' (hkeep f' b' h), fun f' b' h => ?_, fun hyo sn hsn => ?_, fun hnd hl hcond => ?_⟩
          · rcases hB f' b' h with h | ⟨h, sn, hsn, rfl, p, i', hp, hi', hr'⟩
            · simp only at h
              split at h
              · rename_i he
                cases h
                exact .inr ⟨he ▸ hwn, f, by simp, he, hhere⟩
              · exact .inl h
            · simp only at h
              split at h
              · cases h
              · exact .inr ⟨h, sn, by simp [hsn], rfl, p, i', (hback sn hsn p).mp hp, hi', hr'⟩
          · rcases List.mem_cons.mp hsn with rfl | hsn
            · exact ⟨hwn, wb, hA _ _ (by simp)⟩
            · obtain ⟨h7, h8⟩ := hC hyo sn hsn
              simp only at h7
              split at h7
              · cases h7
              · exact ⟨h7, h8⟩
          · obtain ⟨hnf, hnd'⟩ := List.nodup_cons.mp hnd
            refine hD hnd' hl fun sn hsn => ?_
            obtain ⟨h7, p, h8, h9⟩ := hcond sn (by simp [hsn])
            refine ⟨?_, p, (hback sn hsn p).mpr h8, h9⟩
            show (if _ then _ else _) = _
            rw [if_neg, h7]
            intro hc
            unfold witnessName at hc
            have := List.append_cancel_right hc
            subst this
            exact hnf hsn
      · have hc : fs.Nodup → x.vin.length ≤ 2 ^ 32 → w.files (witnessName f) = none → ∀ p, HoldsSeal C H w.files f p → ∀ inp ∈ x.vin, inp.prevout ≠ p.1 := by
          intro _ hl _ p hp
          rw [huniq p hp]
          rcases hno with hno | hno
          · exact hno
          · omega
        rcases y with e | y
        · rw [TM.bind_of_error (TM.heap_eq (w := { w with heap := s1 }) hmk)]
          exact stop _ _ (fun _ h => by cases h) hc
        · cases y with
          | some v => exact absurd rfl (hy v)
          | none =>
            rw [TM.bind_of_eq (TM.heap_eq (w := { w with heap := s1 }) hmk)]
            exact stop (.error .systemExit) s2 (fun _ h => by cases h) hc
    · have h2 := hall w.heap
      obtain ⟨s1, hs1e⟩ : ∃ s1 : PState, s1 = { w.heap with objs := w.heap.objs ++ [{ cls := Cls.btcSeal, fields := [none, none], isPruned := true, isFullyPruned := true, dataHash := some d }] } := ⟨_, rfl⟩
      rw [← hs1e] at h2
      have hst1 := deser_steps _ _ _ h2
      have hs1 : Reachable C H s1 := hs.trans hst1
      rw [TM.bind_of_eq (TM.heap_eq h2)]
      obtain ⟨y, s2, hmk, hy, hst2⟩ := makeWitness_pruned hs1 (htp.steps classes_wf hs hst1) (pruned_represents hs1e)
      have hc : fs.Nodup → x.vin.length ≤ 2 ^ 32 → w.files (witnessName f) = none → ∀ p, HoldsSeal C H w.files f p → ∀ inp ∈ x.vin, inp.prevout ≠ p.1 := by
        rintro _ _ _ p ⟨b', hb', hp⟩
        rw [hf] at hb'; cases hb'
        exact (pruned_not_holds hall hp).elim
      rcases y with e | y
      · rw [TM.bind_of_error (TM.heap_eq (w := { w with heap := s1 }) hmk)]
        exact stop _ _ (fun _ h => by cases h) hc
      · cases y with
        | some v => exact absurd rfl (hy v)
        | none =>
          rw [TM.bind_of_eq (TM.heap_eq (w := { w with heap := s1 }) hmk)]
          exact stop (.error .systemExit) s2 (fun _ h => by cases h) hc
    · have h2 := hall w.heap
      rw [TM.bind_of_error (TM.heap_eq h2)]
      refine stop _ _ (fun _ h => by cases h) ?_
      rintro _ _ _ p ⟨b', hb', hp⟩
      rw [hf] at hb'; cases hb'
      obtain ⟨_, _, hall'⟩ := holds_seal hp
      obtain ⟨s', h4, _⟩ := hall' w.heap
      rw [h2] at h4
      cases h4

end
end Sus
end Verif
