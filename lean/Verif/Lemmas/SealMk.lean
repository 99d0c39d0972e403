import Verif.Lemmas.Seal
import Verif.Lemmas.ProofDecl
import Verif.Spec.ProofShip
/-! # Building whole proofs -/
namespace Verif

section
variable {T : Table} {H : HashFns}

theorem HM.bind_of_eq {α β} {x : HM α} {f : α → HM β} {s s' : PState} {a : α} (h : x s = (.ok a, s')) : (x >>= f) s = f a s' := by
  rw [HM.bind_apply, h]

theorem HM.bind_of_error {α β} {x : HM α} {f : α → HM β} {s s' : PState} {e : PyErr} (h : x s = (.error e, s')) : (x >>= f) s = (.error e, s') := by
  rw [HM.bind_apply, h]

def HVal.WholeIs (s : PState) : HVal → TVal → Prop
  | .prim a, .prim b => a = b
  | .ref q, .sub t => Whole s q t
  | _, _ => False

mutual
theorem Whole.append {s s' : PState} {xs : List Obj} (hs : s'.objs = s.objs ++ xs) : ∀ {r : Nat} {t : PTree}, Whole s r t → Whole s' r t
  | _, _, .node ho h1 h2 h3 hf => .node (by rw [hs, List.getElem?_append_left (by
      rcases Nat.lt_or_ge _ _ with h | h
      · exact h
      · rw [List.getElem?_eq_none h] at ho; cases ho)]; exact ho) h1 h2 h3 (hf.append hs)
theorem WholeFields.append {s s' : PState} {xs : List Obj} (hs : s'.objs = s.objs ++ xs) : ∀ {vs : List (Option HVal)} {fs : PFields},
    WholeFields s vs fs → WholeFields s' vs fs
  | _, _, .nil => .nil
  | _, _, .prim hf => .prim (hf.append hs)
  | _, _, .sub ht hf => .sub (ht.append hs) (hf.append hs)
end

theorem Whole.obj {s : PState} {r : Nat} {t : PTree} (h : Whole s r t) :
    ∃ o, s.objs[r]? = some o ∧ o.cls = t.cls ∧ o.isPruned = false ∧ o.isFullyPruned = false ∧ o.orig = none := by
  cases h with
  | node ho h1 h2 h3 hf => exact ⟨_, ho, rfl, h3, h2, h1⟩

theorem Whole.lt {s : PState} {r : Nat} {t : PTree} (h : Whole s r t) : r < s.objs.length := by
  obtain ⟨o, ho, _⟩ := h.obj
  exact get_lt ho

theorem WholeFields.get {s : PState} : ∀ {vs : List (Option HVal)} {fs : PFields} {i : Nat} {tv : TVal}, WholeFields s vs fs → fs.get? i = some tv →
    ∃ v, vs[i]? = some (some v) ∧ v.WholeIs s tv
  | _, _, i, _, .nil, h => by cases i <;> simp [PFields.get?] at h
  | _, _, 0, _, .prim _, h => by simp [PFields.get?] at h; subst h; exact ⟨_, rfl, rfl⟩
  | _, _, 0, _, .sub ht _, h => by simp [PFields.get?] at h; subst h; exact ⟨_, rfl, ht⟩
  | _, _, i + 1, _, .prim hf, h => by simp only [PFields.get?] at h; simpa using hf.get h
  | _, _, i + 1, _, .sub _ hf, h => by simp only [PFields.get?] at h; simpa using hf.get h

/-- Reading an attribute of a whole proof changes nothing. -/
theorem Whole.getAttr {s : PState} {r : Nat} {t : PTree} (h : Whole s r t) {i : Nat} {tv : TVal} (hg : t.get? i = some tv) :
    ∃ v, Prf.getAttr T r i s = (.ok v, s) ∧ v.WholeIs s tv := by
  cases h with
  | node ho h1 h2 h3 hf =>
    obtain ⟨v, hv, hm⟩ := hf.get hg
    refine ⟨v, ?_, hm⟩
    unfold Prf.getAttr Prf.getAttrF
    rw [HM.bind_obj ho, hv]
    rfl

theorem Whole.getAttr_prim {s : PState} {r : Nat} {t : PTree} (h : Whole s r t) {i : Nat} {a : PVal} (hg : t.get? i = some (.prim a)) :
    Prf.getAttr T r i s = (.ok (.prim a), s) := by
  obtain ⟨v, hv, hm⟩ := h.getAttr (T := T) hg
  cases v with
  | prim b => simp only [HVal.WholeIs] at hm; subst hm; exact hv
  | ref q => exact hm.elim

theorem checkVals_whole {s : PState} : ∀ {vs : List HVal} {fs : PFields} {ks : List Kind}, WholeFields s (vs.map some) fs → fs.Checked T ks →
    Prf.checkVals T ks vs s = (.ok false, s)
  | [], _, [], _, _ => rfl
  | _ :: _, _, [], _, _ => rfl
  | [], .nil, k :: ks, _, hk => by simp [PFields.Checked] at hk
  | .prim v :: vs, .prim w fs, k :: ks, h, hk => by
    rw [List.map_cons] at h
    cases h with
    | prim h =>
    cases k with
    | prim τ =>
      simp only [PFields.Checked] at hk
      have ih := checkVals_whole h hk.2
      unfold Prf.checkVals
      have h1 : Prf.checkVal T (.prim τ) (.prim v) s = (.ok false, s) := by
        rw [Prf.checkVal]
        rw [HM.bind_apply, HM.lift_apply, hk.1]; rfl
      rw [HM.bind_of_eq h1, HM.bind_of_eq ih]; rfl
    | proof c => simp [PFields.Checked] at hk
    | union us => simp [PFields.Checked] at hk
  | .ref r :: vs, .sub t fs, k :: ks, h, hk => by
    rw [List.map_cons] at h
    cases h with
    | sub ht h =>
    simp only [PFields.Checked] at hk
    have ih := checkVals_whole h hk.2.2
    obtain ⟨o, ho, hc, hp, _⟩ := ht.obj
    unfold Prf.checkVals
    have h1 : Prf.checkVal T k (.ref r) s = (.ok false, s) := by
      cases k with
      | prim τ =>
        rw [Prf.checkVal]
        simp only at hk
        rw [HM.bind_apply, HM.lift_apply, hk.1]; rfl
      | proof c =>
        rw [Prf.checkVal]
        rw [HM.bind_obj ho]
        simp only at hk
        cases hv : (T c).variants with
        | none => simp only [hp]; rfl
        | some us => simp only [hc, hk.1 us hv, if_true, hp]; rfl
      | union us =>
        rw [Prf.checkVal]
        rw [HM.bind_obj ho]
        simp only at hk
        rw [hc, hk.1]; rfl
    rw [HM.bind_of_eq h1, HM.bind_of_eq ih]; rfl
  | .prim _ :: _, .nil, _ :: _, h, _ => by rw [List.map_cons] at h; cases h
  | .prim _ :: _, .sub _ _, _ :: _, h, _ => by rw [List.map_cons] at h; cases h
  | .ref _ :: _, .nil, _ :: _, h, _ => by rw [List.map_cons] at h; cases h
  | .ref _ :: _, .prim _ _, _ :: _, h, _ => by rw [List.map_cons] at h; cases h
  | [], .prim _ _, _ :: _, h, _ => by cases h
  | [], .sub _ _, _ :: _, h, _ => by cases h

theorem WholeFields.length {s : PState} : ∀ {vs : List (Option HVal)} {fs : PFields}, WholeFields s vs fs → vs.length = fs.length
  | _, _, .nil => rfl
  | _, _, .prim h => by simp [PFields.length, h.length]
  | _, _, .sub _ h => by simp [PFields.length, h.length]

theorem WholeFields.refs {s : PState} : ∀ {vs : List HVal} {fs : PFields}, WholeFields s (vs.map some) fs → ∀ r, .ref r ∈ vs → r < s.objs.length
  | [], _, _, _, h => by cases h
  | .prim _ :: vs, .prim _ _, h, r, hr => by
    rw [List.map_cons] at h
    cases h with
    | prim h => exact h.refs r (by simpa using hr)
  | .ref q :: vs, .sub _ _, h, r, hr => by
    rw [List.map_cons] at h
    cases h with
    | sub ht h =>
    rcases List.mem_cons.mp hr with hr | hr
    · cases hr; exact ht.lt
    · exact h.refs r hr
  | .prim _ :: _, .nil, h, _, _ => by rw [List.map_cons] at h; cases h
  | .prim _ :: _, .sub _ _, h, _, _ => by rw [List.map_cons] at h; cases h
  | .ref _ :: _, .nil, h, _, _ => by rw [List.map_cons] at h; cases h
  | .ref _ :: _, .prim _ _, h, _, _ => by rw [List.map_cons] at h; cases h

/-- Constructing a proof from whole ones. -/
theorem new_whole {s : PState} (c : Nat) {vs : List HVal} {fs : PFields} (hw : WholeFields s (vs.map some) fs) (hk : fs.Checked T (T c).attrs) :
    ∃ s', Prf.new T c vs s = (.ok s.objs.length, s') ∧ Whole s' s.objs.length (.node c fs) ∧ (∃ o, s'.objs = s.objs ++ [o]) ∧ Steps T H s s' := by
  have hlen : (T c).attrs.length = vs.length := by rw [← hk.length, ← hw.length, List.length_map]
  let o : Obj := { cls := c, fields := vs.map some, isPruned := false }
  let s0 : PState := (Prf.initClass c s).2
  have h0 : s0.objs = s.objs := rfl
  have hw0 : WholeFields s0 (vs.map some) fs := hw.append (xs := []) (by rw [h0, List.append_nil])
  have hnew : Prf.new T c vs s = (.ok s.objs.length, { s0 with objs := s0.objs ++ [o] }) := by
    unfold Prf.new
    rw [HM.bind_of_eq (show Prf.initClass c s = (.ok (), s0) from rfl), HM.bind_of_eq (checkVals_whole hw0 hk), hlen, List.take_length]
    rfl
  refine ⟨_, hnew, ?_, ⟨o, rfl⟩, ?_⟩
  · have hw1 : WholeFields { s0 with objs := s0.objs ++ [o] } o.fields fs := hw0.append (xs := [o]) rfl
    exact .node (o := o) (by show (s.objs ++ [o])[s.objs.length]? = some o; simp) rfl rfl rfl hw1
  · have := Steps.tail (T := T) (H := H) (Steps.refl (s := s)) (Step.new c vs hw.refs)
    rw [hnew] at this
    exact this

theorem Steps.trans {a b c : PState} (h : Steps T H a b) (h' : Steps T H b c) : Steps T H a c := by
  induction h' with
  | refl => exact h
  | tail _ hs ih => exact ih.tail hs

mutual
/-- Every unpruned proof with acceptable attributes can be built. -/
theorem build : ∀ (t : PTree), t.full = true → t.Checked T → ∀ (s : PState), ∃ s' r, Steps T H s s' ∧ (∃ xs, s'.objs = s.objs ++ xs) ∧ Whole s' r t
  | .node c fs, hf, hk, s => by
    obtain ⟨s1, vs, hst, ⟨xs, hxs⟩, hw⟩ := buildFields fs (T c).attrs hf hk s
    obtain ⟨s2, _, hw2, ⟨o, ho⟩, hst2⟩ := new_whole (H := H) c hw hk
    exact ⟨s2, _, hst.trans hst2, ⟨xs ++ [o], by rw [ho, hxs, List.append_assoc]⟩, hw2⟩
  | .pruned c d, hf, _, _ => by cases hf
theorem buildFields : ∀ (fs : PFields) (ks : List Kind), fs.full = true → fs.Checked T ks → ∀ (s : PState),
    ∃ (s' : PState) (vs : List HVal), Steps T H s s' ∧ (∃ xs, s'.objs = s.objs ++ xs) ∧ WholeFields s' (vs.map some) fs
  | .nil, _, _, _, s => ⟨s, [], .refl, ⟨[], by simp⟩, .nil⟩
  | .prim v fs, [], _, hk, s => by simp [PFields.Checked] at hk
  | .prim v fs, k :: ks, hf, hk, s => by
    have hk' : fs.Checked T ks := by cases k <;> simp only [PFields.Checked] at hk; exact hk.2
    obtain ⟨s1, vs, hst, hxs, hw⟩ := buildFields fs ks (by simpa [PFields.full] using hf) hk' s
    exact ⟨s1, .prim v :: vs, hst, hxs, .prim hw⟩
  | .sub t fs, [], _, hk, s => by simp [PFields.Checked] at hk
  | .sub t fs, k :: ks, hf, hk, s => by
    have hf' : t.full = true ∧ fs.full = true := by simpa [PFields.full] using hf
    simp only [PFields.Checked] at hk
    obtain ⟨s1, r, hst, ⟨xs, hxs⟩, hw⟩ := build t hf'.1 hk.2.1 s
    obtain ⟨s2, vs, hst2, ⟨xs2, hxs2⟩, hw2⟩ := buildFields fs ks hf'.2 hk.2.2 s1
    exact ⟨s2, .ref r :: vs, hst.trans hst2, ⟨xs ++ xs2, by rw [hxs2, hxs, List.append_assoc]⟩, .sub (hw.append hxs2) hw2⟩
end

theorem walk_steps (v : HVal) (π : List Nat) (s : PState) : Steps T H s (Prog.walk T v π s).2 := by
  induction π generalizing v s with
  | nil => exact .refl
  | cons i π ih =>
    cases v with
    | prim v => exact .refl
    | ref r =>
      unfold Prog.walk
      simp only [HM.bind_apply]
      have h1 : Steps T H s (Prf.getAttr T r i s).2 := .tail .refl (.getAttr r i)
      rcases hh : Prf.getAttr T r i s with ⟨e | w, s'⟩
      · rw [hh] at h1; exact h1
      · rw [hh] at h1; exact h1.trans (ih w s')

/-- A computation only does what a program can do. -/
theorem run_steps {α} (p : Prog α) (r : Nat) (s : PState) : Steps T H s (p.run T H r s).2 := by
  have hobj : ∀ (q : Nat) (s : PState), (HM.obj q s).2 = s := fun q s => rfl
  have has : ∀ (v : HVal) (s : PState), (Prog.asProof v s).2 = s := fun v s => by cases v <;> rfl
  induction p generalizing s with
  | ret a => exact .refl
  | read π k ih =>
    unfold Prog.run
    simp only [HM.bind_apply]
    have h1 := walk_steps (T := T) (H := H) (.ref r) π s
    rcases hh : Prog.walk T (.ref r) π s with ⟨e | w, s'⟩ <;> rw [hh] at h1
    · exact h1
    · exact h1.trans (ih _ s')
  | cls π k ih =>
    unfold Prog.run
    simp only [HM.bind_apply]
    have h1 := walk_steps (T := T) (H := H) (.ref r) π s
    rcases hh : Prog.walk T (.ref r) π s with ⟨e | w, s'⟩ <;> rw [hh] at h1
    · exact h1
    · have h2 := has w s'
      rcases hh2 : Prog.asProof w s' with ⟨e | q, s2⟩ <;> rw [hh2] at h2 <;> subst h2
      · simp only [hh2]; exact h1
      · simp only [hh2]
        have h3 := hobj q s2
        rcases hh3 : HM.obj q s2 with ⟨e | o, s3⟩ <;> rw [hh3] at h3 <;> subst h3
        · exact h1
        · exact h1.trans (ih _ s3)
  | hash π k ih =>
    unfold Prog.run
    simp only [HM.bind_apply]
    have h1 := walk_steps (T := T) (H := H) (.ref r) π s
    rcases hh : Prog.walk T (.ref r) π s with ⟨e | w, s'⟩ <;> rw [hh] at h1
    · exact h1
    · have h2 := has w s'
      rcases hh2 : Prog.asProof w s' with ⟨e | q, s2⟩ <;> rw [hh2] at h2 <;> subst h2
      · simp only [hh2]; exact h1
      · simp only [hh2]
        have h3 : Steps T H s2 (Prf.hash T H q s2).2 := .tail .refl (.hash q)
        rcases hh3 : Prf.hash T H q s2 with ⟨e | o, s3⟩ <;> rw [hh3] at h3
        · exact h1.trans h3
        · exact (h1.trans h3).trans (ih _ s3)
  | dataHash π k ih =>
    unfold Prog.run
    simp only [HM.bind_apply]
    have h1 := walk_steps (T := T) (H := H) (.ref r) π s
    rcases hh : Prog.walk T (.ref r) π s with ⟨e | w, s'⟩ <;> rw [hh] at h1
    · exact h1
    · have h2 := has w s'
      rcases hh2 : Prog.asProof w s' with ⟨e | q, s2⟩ <;> rw [hh2] at h2 <;> subst h2
      · simp only [hh2]; exact h1
      · simp only [hh2]
        have h3 : Steps T H s2 (Prf.dataHash T H q s2).2 := .tail .refl (.dataHash q)
        rcases hh3 : Prf.dataHash T H q s2 with ⟨e | o, s3⟩ <;> rw [hh3] at h3
        · exact h1.trans h3
        · exact (h1.trans h3).trans (ih _ s3)

/-- The result of a computation, in terms of the tree. -/
theorem run_eq (hT : T.WF) {α} (p : Prog α) {s : PState} {r : Nat} {t : PTree} (hs : Reachable T H s) (hr : Represents s r t) :
    (p.run T H r s).1 = p.eval T H s.inited t := by
  obtain ⟨τ, hi⟩ := hs.inv hT
  obtain ⟨_, _, _, h⟩ := run_spec hT p s τ r t hi (hi.of_represents hr)
  exact h

theorem Steps.represents (hT : T.WF) {s s' : PState} {r : Nat} {t : PTree} (hs : Reachable T H s) (h : Steps T H s s') (hr : Represents s r t) :
    Represents s' r t := by
  obtain ⟨τ, hi⟩ := hs.inv hT
  obtain ⟨τ', hi', _⟩ := Steps.inv hT hi h
  exact hi'.represents r t (append_get (hi.of_represents hr))

theorem Reachable.checked (hT : T.WF) {s : PState} {r : Nat} {t : PTree} (hs : Reachable T H s) (hr : Represents s r t) : t.Checked T := by
  obtain ⟨τ, hi⟩ := hs.inv hT
  exact hi.chk t (List.mem_of_getElem? (hi.of_represents hr))
end

namespace Seal
open Btc
section
variable {T : Table} {H : HashFns}

theorem serEq_total {o o' : COutPoint} (h : ∃ e, o.ser = .ok e) (h' : ∃ e, o'.ser = .ok e) : serEq COutPoint.ser o o' = .ok (decide (o = o')) := by
  obtain ⟨e, he⟩ := h
  obtain ⟨e', he'⟩ := h'
  unfold serEq
  rw [he, he']
  simp only [Except.bind_ok, pure, Except.pure, Except.ok.injEq]
  by_cases hoo : o = o'
  · subst hoo; rw [he] at he'; cases he'; simp
  · rw [decide_eq_false hoo]
    apply beq_false_of_ne
    rintro rfl
    exact hoo (PF.inj PF.outpoint he he')

theorem findTxin_spec {s : PState} {sl : Nat} {o : COutPoint} {n : Bytes} (hsl : Whole s sl (sealT o n)) (ho : ∃ e, o.ser = .ok e) :
    ∀ (l : List CTxIn) (k : Nat), (∀ inp ∈ l, ∃ e, inp.prevout.ser = .ok e) →
      findTxin T sl k l s = (.ok ((l.findIdx? fun inp => decide (inp.prevout = o)).map (k + ·)), s)
  | [], k, _ => rfl
  | inp :: l, k, h => by
    unfold findTxin
    rw [HM.bind_of_eq (hsl.getAttr_prim (T := T) (i := 0) (a := .outpoint o) rfl)]
    simp only
    rw [HM.bind_apply, HM.lift_apply, serEq_total (h inp (by simp)) ho]
    simp only [List.findIdx?_cons]
    by_cases he : inp.prevout = o
    · simp [he]; rfl
    · simp only [he, decide_false, Bool.false_eq_true, if_false]
      rw [findTxin_spec hsl ho l (k + 1) (fun i hi => h i (by simp [hi]))]
      congr 2
      rw [Option.map_map]
      congr 1
      funext j
      simp [Nat.add_comm, Nat.add_left_comm]
end

section
variable {H : HashFns} {g : GuMapDecl}
local notation "C" => classes H g

theorem txT_checked (x : CTransaction) : (txT x).Checked C := by simp [txT, PTree.Checked, PFields.Checked, Cls.txProof, classes, PrimTy.check]

theorem txinT_fields_checked {i : Nat} (x : CTransaction) (hi : i ≤ 0xffffffff) :
    (PFields.prim (.int i) (.sub (txT x) .nil)).Checked C (C Cls.txInProof).attrs := by
  have ha : (C Cls.txInProof).attrs = [.prim .uint32, .proof Cls.txProof] := rfl
  rw [ha]
  refine ⟨?_, ?_, txT_checked x, trivial⟩
  · show (if _ then _ else _) = _
    rw [if_neg (by omega)]
  · intro us h; cases h

theorem txoutT_fields_checked {i : Nat} (x : CTransaction) (hi : i ≤ 0xffffffff) :
    (PFields.prim (.int i) (.sub (txT x) .nil)).Checked C (C Cls.txOutProof).attrs := txinT_fields_checked x hi

/-- A witness is made for the first input that spends the outpoint. -/
theorem makeWitness_spec {s : PState} {tp sl i : Nat} {x : CTransaction} {o : COutPoint} {n : Bytes} {inp : CTxIn} (hs : Reachable C H s)
    (htp : Whole s tp (txT x)) (hsl : Whole s sl (sealT o n)) (ho : ∃ e, o.ser = .ok e) (hx : ∀ inp ∈ x.vin, ∃ e, inp.prevout.ser = .ok e)
    (hi : x.vin[i]? = some inp) (hio : inp.prevout = o) (hfirst : ∀ k inp', k < i → x.vin[k]? = some inp' → inp'.prevout ≠ o) (hbig : i ≤ 0xffffffff) :
    ∃ w s', makeWitness C tp sl s = (.ok (some w), s') ∧ Whole s' w (fullWitnessT o n i x 0 x) ∧ Steps C H s s' ∧ ∃ xs, s'.objs = s.objs ++ xs := by
  unfold makeWitness
  rw [HM.bind_of_eq (htp.getAttr_prim (T := C) (i := 0) (a := .tx x) rfl)]
  simp only
  rw [HM.bind_of_eq (findTxin_spec (T := C) hsl ho x.vin 0 hx)]
  have hfind : (x.vin.findIdx? fun inp => decide (inp.prevout = o)) = some i := by
    rw [List.findIdx?_eq_some_iff_getElem]
    have hil := (List.getElem?_eq_some_iff.mp hi)
    obtain ⟨hlt, he⟩ := hil
    refine ⟨hlt, by simp [he, hio], fun j hj => ?_⟩
    have := hfirst j (x.vin[j]'(by omega)) hj (List.getElem?_eq_getElem _)
    simpa using this
  rw [hfind]
  simp only [Option.map_some, Nat.zero_add]
  obtain ⟨s1, h1, hw1, ⟨o1, ho1⟩, hst1⟩ := new_whole (T := C) (H := H) (s := s) Cls.txInProof (vs := [.prim (.int i), .ref tp]) (.prim (.sub htp .nil))
    (txinT_fields_checked x hbig)
  obtain ⟨s2, h2, hw2, ⟨o2, ho2⟩, hst2⟩ := new_whole (T := C) (H := H) (s := s1) Cls.txOutProof (vs := [.prim (.int 0), .ref tp]) 
    (.prim (.sub (htp.append ho1) .nil)) (txoutT_fields_checked (i := 0) x (by omega))
  have hsl2 := (hsl.append ho1).append ho2
  have hw12 := hw1.append ho2
  have hck : (PFields.sub (sealT o n) (.sub (txinT i (txT x)) (.sub (txoutT 0 (txT x)) .nil))).Checked C (C Cls.btcWitness).attrs := by
    have ha : (C Cls.btcWitness).attrs = [.proof Cls.btcSeal, .proof Cls.txInProof, .proof Cls.txOutProof] := rfl
    rw [ha]
    refine ⟨(fun us h => by cases h), hs.checked classes_wf hsl.represents, (fun us h => by cases h), txinT_fields_checked x hbig,
      (fun us h => by cases h), txoutT_fields_checked (i := 0) x (by omega), trivial⟩
  obtain ⟨s3, h3, hw3, ⟨o3, ho3⟩, hst3⟩ := new_whole (T := C) (H := H) (s := s2) Cls.btcWitness 
    (vs := [.ref sl, .ref s.objs.length, .ref s1.objs.length]) (.sub hsl2 (.sub hw12 (.sub hw2 .nil))) hck
  rw [HM.bind_of_eq h1, HM.bind_of_eq h2, HM.bind_of_eq h3]
  exact ⟨_, s3, rfl, hw3, (hst1.trans hst2).trans hst3, [o1, o2, o3], by rw [ho3, ho2, ho1]; simp⟩

theorem makeWitness_none {s : PState} {tp sl : Nat} {x : CTransaction} {o : COutPoint} {n : Bytes}
    (htp : Whole s tp (txT x)) (hsl : Whole s sl (sealT o n)) (ho : ∃ e, o.ser = .ok e) (hx : ∀ inp ∈ x.vin, ∃ e, inp.prevout.ser = .ok e)
    (hno : ∀ inp ∈ x.vin, inp.prevout ≠ o) : makeWitness C tp sl s = (.ok none, s) := by
  unfold makeWitness
  rw [HM.bind_of_eq (htp.getAttr_prim (T := C) (i := 0) (a := .tx x) rfl)]
  simp only
  rw [HM.bind_of_eq (findTxin_spec (T := C) hsl ho x.vin 0 hx)]
  have hfind : (x.vin.findIdx? fun inp => decide (inp.prevout = o)) = none := by
    rw [List.findIdx?_eq_none_iff]
    intro inp hinp
    simpa using hno inp hinp
  rw [hfind]
  rfl
end
end Seal
end Verif
