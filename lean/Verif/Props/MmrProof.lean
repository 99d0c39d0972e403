import Verif.Lemmas.MmrShip
import Verif.Lemmas.MmrAgree
import Verif.Props.Proof
import Verif.Props.MMR
/-!
# Mountain ranges as proofs (C64–C66, C104)

`T` is any collection of classes in which `m` is a class made by `make_mmr_subclass` with `HASHTAG` `tag` and
`VALUE_SERIALIZER` `k`.
-/
namespace Verif
open Seal
namespace Mmr
variable {T : Table} {H : HashFns} {m : Nat} {tag : Bytes} {k : Kind}

/-- Object `r` stands for the mountain range of `xs` (as documented, `IsMMR`): itself, or as a pruned view of it, or having
been received. -/
def Holds (T : Table) (m : Nat) (k : Kind) (s : PState) (r : Nat) (xs : List TVal) : Prop :=
  xs.length < 2 ^ 63 ∧ (∀ x ∈ xs, accepts T k x = .ok ()) ∧ ∃ t, IsMMR xs t ∧ Represents s r (emb m t)

theorem history_of {xs : List TVal} {t : MMR TVal} (hb : xs.length < 2 ^ 63) (hc : ∀ x ∈ xs, accepts T k x = .ok ()) (h : IsMMR xs t) :
    History (valueSer T H k) xs t := by
  obtain ⟨t', ht'⟩ := C19_extend_total (VS := valueSer T H k) .new hc (by simpa using hb)
  have h1 : History (valueSer T H k) xs t' := by simpa using History.extend .new ht'
  rwa [(C22_documented h1 hb).unique h] at h1

theorem Holds.history {s : PState} {r : Nat} {xs : List TVal} (h : Holds T m k s r xs) :
    ∃ t, History (valueSer T H k) xs t ∧ IsMMR xs t ∧ Represents s r (emb m t) := by
  obtain ⟨hb, hc, t, ht, hr⟩ := h
  exact ⟨t, history_of hb hc ht, ht, hr⟩

/-! ## Example -/
namespace Ex

/-- `IntMMR` of proofmarshal/test/test_mmr.py and its nodes, numbers 0 to 3. -/
def IT : Table := Table.withMmr (fun _ => { hashtag := none, attrs := [] }) realHash 0 intMMRTag (.prim .uint64)

theorem declares : Declares IT realHash 0 intMMRTag (.prim .uint64) := ⟨rfl, rfl, rfl, rfl⟩

theorem not_tx (c : Nat) : (IT c).isTx = false := by
  unfold IT Table.withMmr
  split
  · rfl
  split
  · rfl
  split
  · rfl
  split <;> rfl

theorem wf : IT.WF := fun c h => by rw [not_tx] at h; cases h

theorem binds : IT.Binds where
  tags c c' tg h h' := by
    have key : ∀ c, 4 ≤ c → (IT c).hashtag = none := by
      intro c hc
      unfold IT Table.withMmr
      rw [if_neg (by omega), if_neg (by omega), if_neg (by omega), if_neg (by omega)]
    have hc : c < 4 := by
      rcases Nat.lt_or_ge c 4 with h1 | h1
      · exact h1
      · rw [key c h1] at h; cases h
    have hc' : c' < 4 := by
      rcases Nat.lt_or_ge c' 4 with h1 | h1
      · exact h1
      · rw [key c' h1] at h'; cases h'
    have all : ∀ c < 4, ∀ c' < 4, (IT c).hashtag = (IT c').hashtag → c = c' := by decide +kernel
    exact all c hc c' hc' (h.trans h'.symm)
  tx c k _ c1 c2 _ _ h := by rw [not_tx] at h; cases h
  root c c1 c2 _ _ h := by rw [not_tx] at h; cases h
  txTag c h := by rw [not_tx] at h; cases h

/-- `IntMMR([5, 6, 7])` … -/
def s5 : PState := (ofIterable 0 IT realHash [.prim (.int 5), .prim (.int 6), .prim (.int 7)] {}).2

end Ex

/-! ## C64 -/

/-- C64: the constructor makes of any values that the serializer accepts an object that holds them. -/
theorem C64_new (hT : T.WF) (hD : Declares T H m tag k) {s : PState} (hs : Reachable T H s) {vs : List HVal} {xs : List TVal} (hv : AllRep s vs xs)
    (hc : ∀ x ∈ xs, accepts T k x = .ok ()) (hb : xs.length < 2 ^ 63) :
    ∃ r s', ofIterable m T H vs s = (.ok r, s') ∧ Steps T H s s' ∧ Holds T m k s' r xs := by
  obtain ⟨t, ht⟩ := C19_extend_total (VS := valueSer T H k) .new hc (by simpa using hb)
  have h1 : History (valueSer T H k) xs t := by simpa using History.extend .new ht
  obtain ⟨r, s', e, st, hr⟩ := ofIterable_makes hT hD hs hv ht
  exact ⟨r, s', e, st, hb, hc, t, C22_documented h1 hb, hr⟩

/-- C64: it goes on holding them whatever the program does. -/
theorem C64_kept (hT : T.WF) {s s' : PState} (hs : Reachable T H s) (hst : Steps T H s s') {r : Nat} {xs : List TVal} (h : Holds T m k s r xs) :
    Holds T m k s' r xs := by
  obtain ⟨hb, hc, t, ht, hr⟩ := h
  exact ⟨hb, hc, t, ht, hst.represents hT hs hr⟩

/-- C64: so does its pruned view. -/
theorem C64_prune (hT : T.WF) {s : PState} (hs : Reachable T H s) {r : Nat} {xs : List TVal} (h : Holds T m k s r xs) :
    ∃ p s', Prf.prune T r s = (.ok p, s') ∧ Holds T m k s' p xs := by
  obtain ⟨hb, hc, t, ht, hr⟩ := h
  obtain ⟨τ, hi⟩ := hs.inv hT
  obtain ⟨τ1, hi1, _, h2, h3, _⟩ := prune_spec hi (hi.of_represents hr)
  exact ⟨_, _, Prod.ext h2 rfl, hb, hc, t, ht, hi1.represents _ _ h3⟩

/-- C64: `append`, on it or on its pruned view, gives an object holding one more value, and leaves the one it was called on. -/
theorem C64_append (hT : T.WF) (hD : Declares T H m tag k) {s : PState} (hs : Reachable T H s) {r : Nat} {xs : List TVal} (h : Holds T m k s r xs) {v : HVal} {x : TVal}
    (hv : v.Rep s x) (hc : accepts T k x = .ok ()) (hb : xs.length + 1 < 2 ^ 63) :
    ∃ r' s', append m T H r v s = (.ok r', s') ∧ Steps T H s s' ∧ Holds T m k s' r' (xs ++ [x]) ∧ Holds T m k s' r xs := by
  have h0 := h
  obtain ⟨_, hcs, _⟩ := h
  obtain ⟨t, hist, _, hr⟩ := h0.history (H := H)
  obtain ⟨t', ht'⟩ := C19_append_total hist (v := x) hc hb
  have h1 := History.append hist ht'
  obtain ⟨r', s', e, st, hr'⟩ := append_makes hT hD hs hr hv ht'
  have hb' : (xs ++ [x]).length < 2 ^ 63 := by simpa using hb
  refine ⟨r', s', e, st, ⟨hb', ?_, t', C22_documented h1 hb', hr'⟩, C64_kept hT hs st h0⟩
  intro y hy
  rcases List.mem_append.mp hy with hy | hy
  · exact hcs y hy
  · rw [List.mem_singleton.mp hy]; exact hc

/-- C64: `len()` is the number of values. -/
theorem C64_len (hT : T.WF) {s : PState} (hs : Reachable T H s) {r : Nat} {xs : List TVal} (h : Holds T m k s r xs) :
    ∃ s', (len m).runM T H r s = (.ok xs.length, s') ∧ Steps T H s s' := by
  obtain ⟨t, hist, _, hr⟩ := h.history (H := H)
  exact len_ok hT hs hr (C19_is_its_list hist h.1).2.1

/-- C64: an index finds the value that it finds in the list, or raises `IndexError` as the list does. -/
theorem C64_getitem (hT : T.WF) {s : PState} (hs : Reachable T H s) {r : Nat} {xs : List TVal} (h : Holds T m k s r xs) (i : Int) :
    (∀ x, pyGetItem xs i = .ok x → ∃ v s', getItem m T H r i s = (.ok v, s') ∧ Steps T H s s' ∧ v.Rep s' x) ∧
    (∀ e, pyGetItem xs i = .error e → (getItem m T H r i s).1 = .error e) := by
  obtain ⟨t, hist, _, hr⟩ := h.history (H := H)
  have h1 := getItem_rep hT hs hr i
  rw [← C20_getitem hist h.1 i]
  constructor
  · intro x hx
    rw [hx] at h1
    exact h1
  · intro e he
    rw [he] at h1
    exact h1

/-- C64: iteration gives the values in order. -/
theorem C64_iter (hT : T.WF) {s : PState} (hs : Reachable T H s) {r : Nat} {xs : List TVal} (h : Holds T m k s r xs) :
    ∃ vs s', toList m T H r s = (.ok vs, s') ∧ Steps T H s s' ∧ AllRep s' vs xs := by
  obtain ⟨t, hist, _, hr⟩ := h.history (H := H)
  obtain ⟨vs, s', e, st, hv⟩ := toList_rep hT hs hr
  rw [(C19_is_its_list hist h.1).1] at hv
  exact ⟨vs, s', e, st, hv⟩

/-- C64: the hash is that of the documented tree over the values' digests, however the object came about. -/
theorem C64_hash (hT : T.WF) (hD : Declares T H m tag k) {s : PState} (hs : Reachable T H s) {r : Nat} {xs : List TVal} {t : MMR TVal} (h : Holds T m k s r xs)
    (ht : IsMMR xs t) (hv : ∀ x ∈ xs, ∃ b, (PFields.cons x .nil).hashBytes T H [k] = .ok b) :
    (Prf.hash T H r s).1 = .ok (t.hash H tag (valueSer T H k)) := by
  obtain ⟨t', hist, ht', hr⟩ := h.history (H := H)
  cases ht'.unique ht
  rw [hash_rep hT hs hr]
  exact emb_hash hD (by rw [(C19_is_its_list hist h.1).1]; exact hv)

theorem Ex.accepts (n : Int) (h : 0 ≤ n ∧ n < 2 ^ 64) : Mmr.accepts Ex.IT (.prim .uint64) (.prim (.int n)) = .ok () := by
  show PrimTy.check (.uint _) (.int n) = _
  rw [PrimTy.check, if_neg (by omega)]

/-- … holds these. -/
theorem Ex.holds : Reachable Ex.IT realHash Ex.s5 ∧ Holds Ex.IT 0 (.prim .uint64) Ex.s5 5 [.prim (.int 5), .prim (.int 6), .prim (.int 7)] := by
  obtain ⟨r, s', e, st, h⟩ := C64_new Ex.wf Ex.declares (s := {}) .refl (vs := [.prim (.int 5), .prim (.int 6), .prim (.int 7)])
    (xs := [.prim (.int 5), .prim (.int 6), .prim (.int 7)]) (.prim (.prim (.prim .nil)))
    (by simp only [List.mem_cons, List.not_mem_nil, or_false, forall_eq_or_imp, forall_eq]; exact ⟨Ex.accepts 5 (by decide), Ex.accepts 6 (by decide), Ex.accepts 7 (by decide)⟩)
    (by decide)
  have h5 : (ofIterable 0 Ex.IT realHash [.prim (.int 5), .prim (.int 6), .prim (.int 7)] {}).1 = .ok 5 := by decide +kernel
  have hs : s' = Ex.s5 := by unfold Ex.s5; rw [e]
  rw [e] at h5
  simp only [Except.ok.injEq] at h5
  rw [h5, hs] at h
  rw [hs] at st
  exact ⟨st, h⟩

/-- A pruned view of it; its last item; one more item. -/
example : (Prf.prune Ex.IT 5 Ex.s5).1 = .ok 6 ∧ (getItem 0 Ex.IT realHash 6 (-1) (Prf.prune Ex.IT 5 Ex.s5).2).1 = .ok (.prim (.int 7)) ∧
    (getItem 0 Ex.IT realHash 6 3 (Prf.prune Ex.IT 5 Ex.s5).2).1 = .error .indexError ∧
    (toList 0 Ex.IT realHash 6 (Prf.prune Ex.IT 5 Ex.s5).2).1 = .ok [.prim (.int 5), .prim (.int 6), .prim (.int 7)] := by decide +kernel
example : ∃ r s', append 0 Ex.IT realHash 5 (.prim (.int 8)) Ex.s5 = (.ok r, s') ∧
    Holds Ex.IT 0 (.prim .uint64) s' r [.prim (.int 5), .prim (.int 6), .prim (.int 7), .prim (.int 8)] := by
  obtain ⟨r, s', e, _, h, _⟩ := C64_append Ex.wf Ex.declares Ex.holds.1 Ex.holds.2 (v := .prim (.int 8)) (x := .prim (.int 8)) rfl (Ex.accepts 8 (by decide)) (by decide)
  exact ⟨r, s', e, h⟩

/-! ## C104 -/

theorem C64_same_hash_aux {xs : List TVal} (hT : T.WF) (hD : Declares T H m tag k) {s s' : PState} (hs : Reachable T H s) (hs' : Reachable T H s') {r r' : Nat}
    (h : Holds T m k s r xs) (h' : Holds T m k s' r' xs) (hv : ∀ x ∈ xs, ∃ b, (PFields.cons x .nil).hashBytes T H [k] = .ok b) :
    ∃ d, (Prf.hash T H r s).1 = .ok d ∧ (Prf.hash T H r' s').1 = .ok d := by
  obtain ⟨t, _, ht, _⟩ := h.history (H := H)
  exact ⟨_, C64_hash hT hD hs h ht hv, C64_hash hT hD hs' h' ht hv⟩

/-- C104, every slice with step 1: the slice holds the items from `a` to where `SliceEnd` says (`b` if `a ≤ b`), and the object it
was taken of, which may be a pruned view, goes on holding its items. -/
theorem C104_any (hT : T.WF) (hD : Declares T H m tag k) {s : PState} (hs : Reachable T H s) {r : Nat} {xs : List TVal} (h : Holds T m k s r xs)
    {sl : PySlice} {a b : Nat} (hi : sl.indices xs.length = .ok ((a : Int), (b : Int), 1)) :
    ∃ r' s' e, getSlice m T H r sl s = (.ok r', s') ∧ Steps T H s s' ∧ SliceEnd xs.length a b e ∧ Holds T m k s' r' ((xs.take e).drop a) ∧ Holds T m k s' r xs := by
  obtain ⟨t, hist, _, hr⟩ := h.history (H := H)
  obtain ⟨t', e, h1, h2, h3, h4⟩ := C21_exact_partial hist h.1 hi
  obtain ⟨r', s', e1, st, hr'⟩ := getSlice_makes hT hD hs hr h1
  refine ⟨r', s', e, e1, st, h2, ⟨?_, ?_, t', h4, hr'⟩, C64_kept hT hs st h⟩
  · have := h.1
    rw [List.length_drop, List.length_take]
    omega
  · intro x hx
    exact h.2.1 x (List.mem_of_mem_take (List.mem_of_mem_drop hx))

/-- C104: a slice whose start is not past its stop holds what the slice of the list has, and the object it was taken of, which
may be a pruned view, goes on holding its items. -/
theorem C104_slice (hT : T.WF) (hD : Declares T H m tag k) {s : PState} (hs : Reachable T H s) {r : Nat} {xs : List TVal} (h : Holds T m k s r xs)
    {sl : PySlice} {a b : Int} (hi : sl.indices xs.length = .ok (a, b, 1)) (hab : a ≤ b) :
    ∃ r' s' ys, getSlice m T H r sl s = (.ok r', s') ∧ Steps T H s s' ∧ pySlice xs sl = .ok ys ∧ Holds T m k s' r' ys ∧ Holds T m k s' r xs := by
  obtain ⟨t, hist, _, hr⟩ := h.history (H := H)
  obtain ⟨t', ys, h1, h2, h3, h4⟩ := C21_slice_partial hist h.1 hi hab
  obtain ⟨r', s', e1, st, hr'⟩ := getSlice_makes hT hD hs hr h1
  have hsub : ys.Sublist xs := by
    rw [pySlice_step1 hi] at h2
    cases h2
    exact (List.drop_sublist _ _).trans (List.take_sublist _ _)
  exact ⟨r', s', ys, e1, st, h2, ⟨Nat.lt_of_le_of_lt hsub.length_le h.1, fun x hx => h.2.1 x (hsub.subset hx), t', h4, hr'⟩, C64_kept hT hs st h⟩

/-- C104: the first items of a mountain range that has grown are the mountain range it was, with the hash it had. -/
theorem C104_prefix (hT : T.WF) (hD : Declares T H m tag k) {s s0 : PState} (hs : Reachable T H s) (hs0 : Reachable T H s0) {r r0 : Nat} {xs ys : List TVal}
    (h : Holds T m k s r (xs ++ ys)) (h0 : Holds T m k s0 r0 xs) (hv : ∀ x ∈ xs, ∃ b, (PFields.cons x .nil).hashBytes T H [k] = .ok b) :
    ∃ r' s' d, getSlice m T H r ⟨none, some xs.length, none⟩ s = (.ok r', s') ∧ Holds T m k s' r' xs ∧
      (Prf.hash T H r' s').1 = .ok d ∧ (Prf.hash T H r0 s0).1 = .ok d := by
  have hi : (⟨none, some (xs.length : Int), none⟩ : PySlice).indices (xs ++ ys).length = .ok (((0 : Nat) : Int), ((xs.length : Nat) : Int), 1) := by
    rw [List.length_append]
    have h1 : ¬ ((xs.length : Int) < 0) := by omega
    have h2 : ¬ ((xs.length : Int) > ((xs.length + ys.length : Nat) : Int)) := by omega
    have h3 : ¬ ((1 : Int) < 0) := by decide
    have h4 : ¬ ((1 : Int) = 0) := by decide
    simp only [PySlice.indices, Option.getD, if_neg h1, if_neg h2, if_neg h3, if_neg h4]
    rfl
  obtain ⟨r', s', e, e1, st, h2, h3, _⟩ := C104_any hT hD hs h hi
  cases h2.unique (.forward (Nat.zero_le _))
  rw [List.drop_zero, List.take_left] at h3
  obtain ⟨d, d1, d2⟩ := C64_same_hash_aux hT hD (Steps.trans hs st) hs0 h3 h0 hv
  exact ⟨r', s', d, e1, h3, d1, d2⟩

/-- Two items of the pruned view; an object that has them. -/
example : ∃ r' s', getSlice 0 Ex.IT realHash 5 ⟨some 1, none, none⟩ Ex.s5 = (.ok r', s') ∧ Holds Ex.IT 0 (.prim .uint64) s' r' [.prim (.int 6), .prim (.int 7)] := by
  obtain ⟨r', s', ys, e, _, h, h', _⟩ := C104_slice Ex.wf Ex.declares Ex.holds.1 Ex.holds.2 (sl := ⟨some 1, none, none⟩) (a := 1) (b := 3) (by decide) (by decide)
  cases h
  exact ⟨r', s', e, h'⟩
example : ((do let q ← getSlice 0 Ex.IT realHash 6 ⟨some 1, some 3, none⟩; toList 0 Ex.IT realHash q : HM _) (Prf.prune Ex.IT 5 Ex.s5).2).1 = .ok [.prim (.int 6), .prim (.int 7)] := by
  decide +kernel

/-! ## C65 -/

/-- Two values, in two programs, that cannot be told apart as far as neither is pruned. -/
def SameValue (T : Table) (H : HashFns) (s s' : PState) : HVal → HVal → Prop
  | .prim v, .prim v' => v = v'
  | .ref r, .ref r' => ∃ t t', Represents s r t ∧ Represents s' r' t' ∧ Compat T H t t'
  | _, _ => False

theorem agree_len (hT : T.WF) (hB : T.Binds) {s s' : PState} (hs : Reachable T H s) (hs' : Reachable T H s') {r r' : Nat} {t t' : PTree}
    (ht : Represents s r t) (ht' : Represents s' r' t') (hc : Compat T H t t')
    {a a' : Nat} {s1 s1' : PState} (h1 : (len m).runM T H r s = (.ok a, s1)) (h2 : (len m).runM T H r' s' = (.ok a', s1')) : a = a' := by
  have e1 := ((runM_eq hT (len m) hs ht).2 a).mp (congrArg Prod.fst h1)
  have e2 := ((runM_eq hT (len m) hs' ht').2 a').mp (congrArg Prod.fst h2)
  exact Except.ok.inj (Compat.eval hB _ hc e1 e2)

theorem agree_item (hT : T.WF) (hB : T.Binds) {s s' : PState} (hs : Reachable T H s) (hs' : Reachable T H s') {r r' : Nat} {t t' : PTree}
    (ht : Represents s r t) (ht' : Represents s' r' t') (hc : Compat T H t t')
    {i : Int} {v v' : HVal} {s1 s1' : PState} (h1 : getItem m T H r i s = (.ok v, s1)) (h2 : getItem m T H r' i s' = (.ok v', s1')) :
    SameValue T H s1 s1' v v' := by
  obtain ⟨π, tv, hl, hw, hrep, _⟩ := getItem_inv hT hs ht h1
  obtain ⟨π', tv', hl', hw', hrep', _⟩ := getItem_inv hT hs' ht' h2
  have g1 := locate_mono (n' := max (s.objs.length + 1) (s'.objs.length + 1)) (by omega) hl
  have g2 := locate_mono (n' := max (s.objs.length + 1) (s'.objs.length + 1)) (by omega) hl'
  cases Compat.eval hB _ hc g1 g2
  have hcv : TVal.Compat T H tv tv' := Compat.walk (tv := .sub t) (tv' := .sub t') hc (hw []) (hw' [])
  cases tv <;> cases tv' <;> simp only [TVal.Compat] at hcv <;> cases v <;> cases v' <;> simp only [HVal.Rep] at hrep hrep'
  · subst hcv; subst hrep; exact hrep'.symm
  · exact ⟨_, _, hrep, hrep', hcv⟩

theorem agree_within (hT : T.WF) (hB : T.Binds) {s s' : PState} (hs : Reachable T H s) (hs' : Reachable T H s') {r r' : Nat} {t t' : PTree}
    (ht : Represents s r t) (ht' : Represents s' r' t') (hc : Compat T H t t')
    {i : Int} {v : HVal} {a : Nat} {s1 s1' : PState} (h1 : getItem m T H r i s = (.ok v, s1)) (h2 : (len m).runM T H r' s' = (.ok a, s1')) :
    -(a : Int) ≤ i ∧ i < a := by
  obtain ⟨π, tv, hl, hw, hrep, _⟩ := getItem_inv hT hs ht h1
  obtain ⟨L, hL, h3, h4⟩ := locate_bound hl
  have e2 := ((runM_eq hT (len m) hs' ht').2 a).mp (congrArg Prod.fst h2)
  cases Compat.eval hB _ hc hL e2
  exact ⟨h3, h4⟩

theorem compat_of (hT : T.WF) (hB : T.Binds) (hD : Declares T H m tag k) {s s' : PState} (hs : Reachable T H s) (hs' : Reachable T H s') {r r' : Nat} {t t' : PTree}
    (ht : Represents s r t) (ht' : Represents s' r' t') (hd : t.Declared T) (hd' : t'.Declared T) {h : Bytes}
    (hh : (Prf.hash T H r s).1 = .ok h) (hh' : (Prf.hash T H r' s').1 = .ok h) (hcf : CollisionFree H.sha256 (t.hashed T H ++ t'.hashed T H))
    (hc : t.cls = m + 1 ∨ t.cls = m + 2 ∨ t.cls = m + 3) (hc' : t'.cls = m + 1 ∨ t'.cls = m + 2 ∨ t'.cls = m + 3) : Compat T H t t' := by
  have key : ∀ c, c = m + 1 ∨ c = m + 2 ∨ c = m + 3 → (T c).isTx = false := by
    rintro c (rfl | rfl | rfl)
    · rw [hD.empty]
    · rw [hD.leaf]
    · rw [hD.inner]
  refine (C39_hash_binds_content hT hB hs hs' ht ht' hd hd' ?_ hh hh' hcf).1
  rintro (h | h)
  · rw [key _ hc] at h; cases h
  · rw [key _ hc'] at h; cases h

section
variable (hT : T.WF) (hB : T.Binds) (hD : Declares T H m tag k) {s s' : PState} (hs : Reachable T H s) (hs' : Reachable T H s') {r r' : Nat} {t t' : PTree}
    (ht : Represents s r t) (ht' : Represents s' r' t') (hd : t.Declared T) (hd' : t'.Declared T) {h : Bytes}
    (hh : (Prf.hash T H r s).1 = .ok h) (hh' : (Prf.hash T H r' s').1 = .ok h) (hcf : CollisionFree H.sha256 (t.hashed T H ++ t'.hashed T H))
include hT hB hD hs hs' ht ht' hd hd' hh hh' hcf

/-- C65: two objects with one hash, made or received by whoever, with stored lengths that may be lies, perhaps pruned: no two
lengths. -/
theorem C65_lengths {a a' : Nat} {s1 s1' : PState} (h1 : (len m).runM T H r s = (.ok a, s1)) (h2 : (len m).runM T H r' s' = (.ok a', s1')) : a = a' := by
  have e1 := ((runM_eq hT (len m) hs ht).2 a).mp (congrArg Prod.fst h1)
  have e2 := ((runM_eq hT (len m) hs' ht').2 a').mp (congrArg Prod.fst h2)
  exact agree_len hT hB hs hs' ht ht' (compat_of hT hB hD hs hs' ht ht' hd hd' hh hh' hcf (len_cls e1) (len_cls e2)) h1 h2

/-- C65: no two values at one index. -/
theorem C65_items {i : Int} {v v' : HVal} {s1 s1' : PState} (h1 : getItem m T H r i s = (.ok v, s1)) (h2 : getItem m T H r' i s' = (.ok v', s1')) :
    SameValue T H s1 s1' v v' := by
  obtain ⟨_, _, hl, _⟩ := getItem_inv hT hs ht h1
  obtain ⟨_, _, hl', _⟩ := getItem_inv hT hs' ht' h2
  obtain ⟨_, hL, _⟩ := locate_bound hl
  obtain ⟨_, hL', _⟩ := locate_bound hl'
  exact agree_item hT hB hs hs' ht ht' (compat_of hT hB hD hs hs' ht ht' hd hd' hh hh' hcf (len_cls hL) (len_cls hL')) h1 h2

/-- C65: no value at an index beyond the length, and none before the start. -/
theorem C65_within_length {i : Int} {v : HVal} {a : Nat} {s1 s1' : PState} (h1 : getItem m T H r i s = (.ok v, s1)) (h2 : (len m).runM T H r' s' = (.ok a, s1')) :
    -(a : Int) ≤ i ∧ i < a := by
  obtain ⟨_, _, hl, _⟩ := getItem_inv hT hs ht h1
  obtain ⟨L, hL, _⟩ := locate_bound hl
  have e2 := ((runM_eq hT (len m) hs' ht').2 a).mp (congrArg Prod.fst h2)
  exact agree_within hT hB hs hs' ht ht' (compat_of hT hB hD hs hs' ht ht' hd hd' hh hh' hcf (len_cls hL) (len_cls e2)) h1 h2
end

/-- C65 for objects received as bytes, of which nothing is assumed: they stand for some trees, and unless strings hashed for these
collide, lengths and items agree. -/
theorem C65_received (hT : T.WF) (hB : T.Binds) {s0 s0' s s' : PState} (hs : Reachable T H s0) (hs' : Reachable T H s0') {r r' : Nat} {b b' : Bytes}
    (hr : Prf.deserialize T m b s0 = (.ok r, s)) (hr' : Prf.deserialize T m b' s0' = (.ok r', s')) {h : Bytes}
    (hh : (Prf.hash T H r s).1 = .ok h) (hh' : (Prf.hash T H r' s').1 = .ok h) :
    ∃ t t', Represents s r t ∧ Represents s' r' t' ∧ (CollisionFree H.sha256 (t.hashed T H ++ t'.hashed T H) →
      (∀ a a' s1 s1', (len m).runM T H r s = (.ok a, s1) → (len m).runM T H r' s' = (.ok a', s1') → a = a') ∧
      (∀ i v v' s1 s1', getItem m T H r i s = (.ok v, s1) → getItem m T H r' i s' = (.ok v', s1') → SameValue T H s1 s1' v v') ∧
      (∀ (i : Int) v (a : Nat) s1 s1', getItem m T H r i s = (.ok v, s1) → (len m).runM T H r' s' = (.ok a, s1') → -(a : Int) ≤ i ∧ i < a)) := by
  obtain ⟨rest, hx⟩ := deserialize_ctx hr
  obtain ⟨rest', hx'⟩ := deserialize_ctx hr'
  obtain ⟨t, t', ht, ht', hc⟩ := C39_received hT hB hs hs' hx hx' hh hh'
  have hrs : Reachable T H s := by
    have := hs.tail (.deserialize m b)
    rwa [hr] at this
  have hrs' : Reachable T H s' := by
    have := hs'.tail (.deserialize m b')
    rwa [hr'] at this
  refine ⟨t, t', ht, ht', fun hcf => ?_⟩
  have hc := (hc hcf).1
  exact ⟨fun a a' s1 s1' h1 h2 => agree_len hT hB hrs hrs' ht ht' hc h1 h2, fun i v v' s1 s1' h1 h2 => agree_item hT hB hrs hrs' ht ht' hc h1 h2,
    fun i v a s1 s1' h1 h2 => agree_within hT hB hrs hrs' ht ht' hc h1 h2⟩

/-- A case meeting the conditions: `IntMMR([5, 6, 7])`, and its pruned view. -/
theorem Ex.rep : Represents Ex.s5 5 (emb 0 (.inner (.inner (.leaf (.prim (.int 5))) (.leaf (.prim (.int 6))) 2) (.leaf (.prim (.int 7))) 3)) := by
  obtain ⟨_, _, t, ht, hr⟩ := Ex.holds.2
  have : IsMMR [TVal.prim (.int 5), .prim (.int 6), .prim (.int 7)] (.inner (.inner (.leaf (.prim (.int 5))) (.leaf (.prim (.int 6))) 2) (.leaf (.prim (.int 7))) 3) := by
    have h2 : IsMMR [TVal.prim (.int 5), .prim (.int 6)] (.inner (.leaf (.prim (.int 5))) (.leaf (.prim (.int 6))) 2) :=
      .inner (xs := [_]) (ys := [_]) (by decide) (.inr ⟨fun ⟨j, ⟨e, he⟩, h1, h2⟩ => by
        have hj : j < 2 := h1
        have : j = 0 ∨ j = 1 := by omega
        rcases this with rfl | rfl
        · exact absurd he.symm (by simp)
        · exact absurd h2 (by decide), rfl⟩) (.leaf _) (.leaf _)
    exact .inner (xs := [_, _]) (ys := [_]) (by decide) (.inl ⟨⟨0, rfl⟩, by decide, by decide, fun j ⟨e, he⟩ _ _ => by
        rw [he]; exact Nat.one_le_two_pow⟩) h2 (.leaf _)
  rwa [ht.unique this] at hr

theorem Ex.declared : (emb 0 (.inner (.inner (.leaf (.prim (.int 5))) (.leaf (.prim (.int 6))) 2) (.leaf (.prim (.int 7))) 3)).Declared Ex.IT := by
  have leaf : ∀ n, PrimTy.uint64.check (.int n) = .ok () → (emb 0 (.leaf (.prim (.int n)))).Declared Ex.IT := by
    intro n h
    rw [emb, PTree.Declared, Ex.declares.leaf]
    simp only [PFields.cons, PFields.Declared]
    exact ⟨h, trivial⟩
  have inner : ∀ l r (n : Nat), PrimTy.uint64.check (.int n) = .ok () → (emb 0 l).Declared Ex.IT → (emb 0 r).Declared Ex.IT → (emb 0 (.inner l r n)).Declared Ex.IT := by
    intro l r n h hl hr
    have al : ∀ t, (Kind.proof 0).Allows Ex.IT (emb 0 t).cls := by
      intro t
      refine .inr ⟨_, by rw [Ex.declares.base], ?_⟩
      cases t <;> simp
    rw [emb, PTree.Declared, Ex.declares.inner]
    simp only [PFields.Declared]
    exact ⟨al l, hl, al r, hr, h, trivial⟩
  exact inner _ _ 3 (by decide +kernel) (inner _ _ 2 (by decide +kernel) (leaf 5 (by decide +kernel)) (leaf 6 (by decide +kernel))) (leaf 7 (by decide +kernel))

example : CollisionFree realHash.sha256 ((emb 0 (.inner (.inner (.leaf (.prim (.int 5))) (.leaf (.prim (.int 6))) 2) (.leaf (.prim (.int 7))) 3)).hashed Ex.IT realHash) ∧
    ∃ h, (Prf.hash Ex.IT realHash 5 Ex.s5).1 = .ok h ∧ (Prf.hash Ex.IT realHash 6 (Prf.prune Ex.IT 5 Ex.s5).2).1 = .ok h := by
  refine ⟨by unfold CollisionFree; decide +kernel, hex "df74f62a8168aa70f80da80417867f7c415832061e797c575d7bf98922ee4045", by decide +kernel, by decide +kernel⟩

/-! ## C66 -/

/-- C66: look up an item in a pruned view of a mountain range, serialize the view, deserialize elsewhere: the item can be
looked up there. -/
def C66_statement : Prop :=
  ∀ (T : Table) (H : HashFns) (m : Nat) (tag : Bytes) (k : Kind), T.WF → Declares T H m tag k → ∀ (s : PState) (r : Nat) (xs : List TVal), Reachable T H s →
    Holds T m k s r xs → (∀ x ∈ xs, (PFields.cons x .nil).WellTyped T [k]) → ∀ (i : Int) (p : Nat) (v : HVal) (b : Bytes) (s1 s2 s3 : PState),
      Prf.prune T r s = (.ok p, s1) → getItem m T H p i s1 = (.ok v, s2) → Prf.serialize T H p s2 = (.ok b, s3) → ∀ s0, Reachable T H s0 →
        ∃ r' s0' v' s0'', Prf.deserialize T m b s0 = (.ok r', s0') ∧ getItem m T H r' i s0' = (.ok v', s0'')

/-- What is the case: with two items or more it never arrives, whatever the index and whether there is such an item: some node
is left pruned, is sent without the number of its variant, and arrives as an instance of the base class, which the node
above does not accept as child. -/
theorem C66_never_arrives_partial (hT : T.WF) (hD : Declares T H m tag k) {s : PState} {r : Nat} {xs : List TVal} (hs : Reachable T H s) (h : Holds T m k s r xs)
    (hv : ∀ x ∈ xs, (PFields.cons x .nil).WellTyped T [k]) (h2 : 2 ≤ xs.length) {i : Int} {p : Nat} {v : Py HVal} {b : Bytes} {s1 s2 s3 : PState}
    (hp : Prf.prune T r s = (.ok p, s1)) (hg : getItem m T H p i s1 = (v, s2)) (hb : Prf.serialize T H p s2 = (.ok b, s3)) {s0 : PState} (hs0 : Reachable T H s0) :
    (Prf.deserialize T m b s0).1 = .error .serType := by
  obtain ⟨t, _, ht, hr⟩ := h.history (H := H)
  have hty := emb_typed hD ht h.1 hv
  have hst := getItem_state (T := T) (H := H) (m := m) p i s1
  rw [hg] at hst
  have hq : (item m (s1.objs.length + 1) i).run T H p s1 = (((item m (s1.objs.length + 1) i).run T H p s1).1, s2) := Prod.ext rfl hst.symm
  cases ht with
  | empty => simp at h2
  | leaf v => simp at h2
  | inner _ _ _ =>
    obtain ⟨hu, π, u, hvp, hn⟩ := item_unread (T := T) (H := H) (n := s1.objs.length) (idx := i) hD
    obtain ⟨e, he, hf⟩ := ship_lost hT hs hr (bad := False) hty.sendable _ hp hq hb (reveal_loses hvp (Reachable.checked hT hs hr) hu hn) hs0
    rw [he, hf.false]

/-- C66 is false. -/
theorem C66_refuted : ¬ C66_statement := by
  intro h
  have hv : ∀ x ∈ [TVal.prim (.int 5), .prim (.int 6), .prim (.int 7)], (PFields.cons x .nil).WellTyped Ex.IT [.prim .uint64] := by
    intro x hx
    simp only [List.mem_cons, List.not_mem_nil, or_false] at hx
    have key : ∀ (n : Int) (b : Bytes), PrimTy.uint64.check (.int n) = .ok () → PrimTy.uint64.ser (.int n) = .ok b →
        (PFields.cons (.prim (.int n)) .nil).WellTyped Ex.IT [.prim .uint64] := by
      intro n b h1 h2
      rw [PFields.cons, PFields.WellTyped, PFields.WellTyped]
      exact ⟨⟨h1, trivial, b, h2⟩, trivial⟩
    rcases hx with rfl | rfl | rfl
    · exact key 5 [5] (by decide +kernel) (by decide +kernel)
    · exact key 6 [6] (by decide +kernel) (by decide +kernel)
    · exact key 7 [7] (by decide +kernel) (by decide +kernel)
  have h1 : (Prf.prune Ex.IT 5 Ex.s5).1 = .ok 6 := by decide +kernel
  have h2 : (getItem 0 Ex.IT realHash 6 1 (Prf.prune Ex.IT 5 Ex.s5).2).1 = .ok (.prim (.int 6)) := by decide +kernel
  have h3 : (Prf.serialize Ex.IT realHash 6 (getItem 0 Ex.IT realHash 6 1 (Prf.prune Ex.IT 5 Ex.s5).2).2).1.toOption.isSome = true := by decide +kernel
  rcases e1 : Prf.prune Ex.IT 5 Ex.s5 with ⟨p, s1⟩
  rw [e1] at h1 h2 h3
  rcases e2 : getItem 0 Ex.IT realHash 6 1 s1 with ⟨v, s2⟩
  rw [e2] at h2 h3
  rcases e3 : Prf.serialize Ex.IT realHash 6 s2 with ⟨b, s3⟩
  rw [e3] at h3
  simp only at h1 h2 h3
  subst h1 h2
  cases b with
  | error e => simp [Except.toOption] at h3
  | ok b =>
    obtain ⟨r', s0', v', s0'', hd, _⟩ := h Ex.IT realHash 0 intMMRTag (.prim .uint64) Ex.wf Ex.declares Ex.s5 5 _ Ex.holds.1 Ex.holds.2 hv 1 6 _ b s1 s2 s3
      e1 e2 e3 {} .refl
    have := C66_never_arrives_partial Ex.wf Ex.declares Ex.holds.1 Ex.holds.2 hv (by decide) e1 e2 e3 (s0 := {}) .refl
    rw [hd] at this
    cases this

/-- With one item, of a primitive type, it does arrive, and the same item is found. -/
theorem C66_one_item_partial {τ : PrimTy} (hT : T.WF) (hD : Declares T H m tag (.prim τ)) {s : PState} {r : Nat} {x : PVal} (hs : Reachable T H s) (h : Holds T m (.prim τ) s r [.prim x])
    (hv : (PFields.prim x .nil).WellTyped T [.prim τ]) {i : Int} {p : Nat} {v : HVal} {b : Bytes} {s1 s2 s3 : PState}
    (hp : Prf.prune T r s = (.ok p, s1)) (hg : getItem m T H p i s1 = (.ok v, s2)) (hb : Prf.serialize T H p s2 = (.ok b, s3)) {s0 : PState} (hs0 : Reachable T H s0) :
    ∃ r' s0', Prf.deserialize T m b s0 = (.ok r', s0') ∧ (getItem m T H r' i s0').1 = .ok v ∧ v = .prim x ∧ (Prf.hash T H r' s0').1 = (Prf.hash T H r s).1 := by
  obtain ⟨t, hist, ht, hr⟩ := h.history (H := H)
  have hty := emb_typed hD ht h.1 (by simpa [PFields.cons] using hv)
  obtain ⟨p', s1', hp', hhp⟩ := C64_prune hT hs h
  rw [hp] at hp'
  cases hp'
  have hs1 : Reachable T H s1 := by
    have := hs.tail (.prune r)
    rwa [hp] at this
  obtain ⟨_, _, _, hpr⟩ := hhp.history (H := H)
  have hit : t.items = [.prim x] := (C19_is_its_list hist h.1).1
  have htl : t = .leaf (.prim x) := ht.unique (IsMMR.leaf _)
  subst htl
  obtain ⟨t', _, ht', hpr⟩ := hhp.history (H := H)
  cases ht'.unique (IsMMR.leaf _)
  obtain ⟨π, tv, hl, hw, hrep, _⟩ := getItem_inv hT hs1 hpr hg
  have hi : i = 0 ∨ i = -1 := by
    rw [locate_succ] at hl
    rcases hl with ⟨_, h, _⟩ | ⟨h, _⟩
    · exact h
    · simp at h
  have hget : (MMR.leaf (TVal.prim x)).getItem i = .ok (.prim x) := by
    unfold MMR.getItem
    rw [if_pos hi]
  have hval : ∀ {s : PState} {q : Nat}, Reachable T H s → Represents s q (emb m (.leaf (.prim x))) → (getItem m T H q i s).1 = .ok (.prim x) := by
    intro s q hs hq
    have h1 := getItem_rep hT hs hq i
    rw [hget] at h1
    obtain ⟨v, s', e, _, hv⟩ := h1
    rw [e]
    cases v with
    | prim w => simp only [HVal.Rep] at hv; rw [hv]
    | ref w => exact hv.elim
  have hst := getItem_state (T := T) (H := H) (m := m) p i s1
  rw [hg] at hst
  have hb' : (Prf.serialize T H p ((item m (s1.objs.length + 1) i).run T H p s1).2).1 = .ok b := by rw [← hst, hb]
  have henc := C36_after_running hT hs hp hr _ hb'
  have hrd : [] ∈ (item m (s1.objs.length + 1) i).reads T H (emb m (.leaf (.prim x))) := by
    unfold item
    rw [reads_bind, List.mem_append]
    left
    simp [locate, Prog.reads, TVal.readsOn, TVal.walk, emb, PFields.cons, PTree.get?, PFields.get?, PTree.attr, PTree.cls, Except.bind_ok, hi]
  have hrev : (emb m (.leaf (.prim x))).reveal T H ((item m (s1.objs.length + 1) i).reads T H (emb m (.leaf (.prim x)))) [] = emb m (.leaf (.prim x)) := by
    show PTree.reveal T H _ [] (.node (m + 2) (.prim x .nil)) = .node (m + 2) (.prim x .nil)
    rw [PTree.reveal, if_pos hrd, PFields.reveal, PFields.reveal]
  rw [hrev] at henc
  obtain ⟨τr, hir⟩ := hs0.inv hT
  obtain ⟨τr', hir', _, r', hres, hfresh, _⟩ := deserialize_rt hT hir hty henc
  have hs0' : Reachable T H (Prf.deserialize T m b s0).2 := hs0.tail (.deserialize m b)
  have hr' := hir'.represents _ _ hfresh
  have e := hval hs1 hpr
  rw [hg] at e
  cases e
  refine ⟨r', _, Prod.ext hres rfl, hval hs0' hr', rfl, ?_⟩
  rw [hash_rep hT hs hr, hash_rep hT hs0' hr']
end Mmr
end Verif
