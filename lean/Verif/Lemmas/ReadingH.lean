import Verif.Lemmas.ReadingP
import Mathlib.Data.List.Forall2
/-! Reading proofs: exceptions, and how many objects are made -/
namespace Verif
namespace Reading

/-- Run from `s`, `m` leaves all objects as they are, adds at most up to `k` objects in all if it raises, raises only exceptions in `E`, and otherwise ends
in `Q`. -/
def Tri {α} (E : PyErr → Prop) (k : Nat) (s : PState) (m : HM α) (Q : PState → α → Prop) : Prop :=
  s.objs <+: (m s).2.objs ∧ match (m s).1 with
    | .ok a => Q (m s).2 a
    | .error e => (m s).2.objs.length ≤ k ∧ E e

variable {E : PyErr → Prop} {k : Nat} {s : PState}

theorem Tri.bind {α β} {m : HM α} {f : α → HM β} {Q : PState → α → Prop} {R : PState → β → Prop} (h : Tri E k s m Q)
    (hf : ∀ a s1, s.objs <+: s1.objs → Q s1 a → Tri E k s1 (f a) R) : Tri E k s (m >>= f) R := by
  have e : (m >>= f) s = (match m s with | (.ok a, s') => f a s' | (.error e, s') => (.error e, s')) := rfl
  obtain ⟨h1, h2⟩ := h
  unfold Tri
  rw [e]
  generalize m s = x at h1 h2 ⊢
  obtain ⟨r, s1⟩ := x
  cases r with
  | error e => exact ⟨h1, h2⟩
  | ok a =>
    obtain ⟨g1, g2⟩ := hf a s1 h1 h2
    exact ⟨h1.trans g1, g2⟩

theorem Tri.mono {α} {m : HM α} {Q R : PState → α → Prop} {k' : Nat} (h : Tri E k s m Q) (hk : k ≤ k') (hq : ∀ a s1, s.objs <+: s1.objs → Q s1 a → R s1 a) :
    Tri E k' s m R := by
  obtain ⟨h1, h2⟩ := h
  refine ⟨h1, ?_⟩
  split
  · rename_i a ha
    rw [ha] at h2
    exact hq a _ h1 h2
  · rename_i e he
    rw [he] at h2
    exact ⟨by omega, h2.2⟩

theorem Tri.pure {α} {a : α} {Q : PState → α → Prop} (h : Q s a) : Tri E k s (Pure.pure a : HM α) Q := ⟨List.prefix_rfl, h⟩

theorem Tri.fail {α} {e : PyErr} {Q : PState → α → Prop} (hk : s.objs.length ≤ k) (h : E e) : Tri E k s (HM.fail e : HM α) Q :=
  ⟨List.prefix_rfl, hk, h⟩

theorem Tri.read {α} {p : P α} {b : Bytes} {eats : α → Nat} (hp : Par E p eats) (hk : s.objs.length ≤ k) :
    Tri E k s (HM.read p b) (fun s1 x => s1 = s ∧ p b = .ok x ∧ eats x.1 + x.2.length ≤ b.length) := by
  refine ⟨List.prefix_rfl, ?_⟩
  have e : HM.read p b s = (p b, s) := rfl
  rw [e]
  cases h : p b with
  | ok x => exact ⟨rfl, rfl, hp.ok b x.1 x.2 h⟩
  | error e => exact ⟨hk, hp.err b e h⟩

theorem Tri.alloc {o : Obj} : Tri E k s (HM.alloc o) (fun s1 r => s1.objs = s.objs ++ [o] ∧ r = s.objs.length) :=
  ⟨List.prefix_append _ _, rfl, rfl⟩

variable (T : Table)

/-- The classes that an instance read for the class `c` can have. -/
def Shape (c d : Nat) : Prop := d = c ∨ d ∈ T.forms c

/-- A value as it is read for an attribute. -/
def Fits (s : PState) : Kind → HVal → Prop
  | .prim τ, v => ∃ x, v = .prim x ∧ τ.check x = .ok ()
  | .proof c, v => ∃ r o, v = .ref r ∧ s.objs[r]? = some o ∧ Shape T c o.cls
  | .union us, v => ∃ r o u, v = .ref r ∧ s.objs[r]? = some o ∧ u ∈ us ∧ Shape T u o.cls

theorem prefix_get {s s' : List Obj} (h : s <+: s') {r : Nat} {o : Obj} (hr : s[r]? = some o) : s'[r]? = some o := by
  obtain ⟨t, rfl⟩ := h
  rw [List.getElem?_append_left (List.getElem?_eq_some_iff.mp hr).1, hr]

theorem Fits.mono {s s' : PState} (h : s.objs <+: s'.objs) {κ : Kind} {v : HVal} (hv : Fits T s κ v) : Fits T s' κ v := by
  cases κ with
  | prim τ => exact hv
  | proof c =>
    obtain ⟨r, o, h1, h2, h3⟩ := hv
    exact ⟨r, o, h1, prefix_get h h2, h3⟩
  | union us =>
    obtain ⟨r, o, u, h1, h2, h3⟩ := hv
    exact ⟨r, o, u, h1, prefix_get h h2, h3⟩

/-- An attribute for which a pruned instance is refused. -/
def Lossy : Kind → Prop
  | .prim _ => False
  | .proof d => ∃ us, (T d).variants = some us
  | .union ds => ∃ d ∈ ds, ∃ us, (T d).variants = some us

theorem isInst_self (c : Nat) : T.isInst c c = true := by simp [Table.isInst]

theorem any_of_mem {us : List Nat} {c : Nat} (h : c ∈ us) : us.any (T.isInst c) = true := List.any_eq_true.mpr ⟨c, h, isInst_self T c⟩

theorem checkVal_tri {κ : Kind} {v : HVal} (hv : Fits T s κ v) (hE : Lossy T κ → E .serType) (hk : s.objs.length ≤ k) :
    Tri E k s (Prf.checkVal T κ v) (fun s1 _ => s1 = s) := by
  cases κ with
  | prim τ =>
    obtain ⟨x, rfl, hx⟩ := hv
    have : Prf.checkVal T (.prim τ) (.prim x) s = (.ok false, s) := by
      simp only [Prf.checkVal, hx]
      rfl
    unfold Tri
    rw [this]
    exact ⟨List.prefix_rfl, rfl⟩
  | proof c =>
    obtain ⟨r, o, rfl, h2, h3⟩ := hv
    have h0 : Prf.checkVal T (.proof c) (.ref r) s = (match (T c).variants with
        | none => ((.ok o.isPruned, s) : Py Bool × PState)
        | some us => if us.any (T.isInst o.cls) then (.ok o.isPruned, s) else (.error .serType, s)) := by
      have h : HM.obj r s = (.ok o, s) := by unfold HM.obj; rw [h2]
      change HM.bind (HM.obj r) _ s = _
      unfold HM.bind
      rw [h]
      cases (T c).variants with
      | none => rfl
      | some us =>
        dsimp only
        split <;> rfl
    unfold Tri
    rw [h0]
    cases hc : (T c).variants with
    | none => exact ⟨List.prefix_rfl, rfl⟩
    | some us =>
      dsimp only
      split
      · exact ⟨List.prefix_rfl, rfl⟩
      · exact ⟨List.prefix_rfl, hk, hE ⟨us, hc⟩⟩
  | union us =>
    obtain ⟨r, o, u, rfl, h2, h3, h4⟩ := hv
    have h0 : Prf.checkVal T (.union us) (.ref r) s = (if us.any (T.isInst o.cls) then ((.ok false, s) : Py Bool × PState) else (.error .serType, s)) := by
      have h : HM.obj r s = (.ok o, s) := by unfold HM.obj; rw [h2]
      change HM.bind (HM.obj r) _ s = _
      unfold HM.bind
      rw [h]
      dsimp only
      split <;> rfl
    unfold Tri
    rw [h0]
    split
    · exact ⟨List.prefix_rfl, rfl⟩
    · rename_i hn
      refine ⟨List.prefix_rfl, hk, hE ⟨u, h3, ?_⟩⟩
      cases hu : (T u).variants with
      | some vs => exact ⟨vs, rfl⟩
      | none =>
        refine absurd (any_of_mem T (c := o.cls) ?_) hn
        rcases h4 with h4 | h4
        · rw [h4]; exact h3
        · unfold Table.forms at h4
          rw [hu] at h4
          rw [List.mem_singleton.mp h4]; exact h3

theorem checkVals_tri : ∀ {ks : List Kind} {vs : List HVal}, List.Forall₂ (Fits T s) ks vs → (∀ κ ∈ ks, Lossy T κ → E .serType) → s.objs.length ≤ k →
    Tri E k s (Prf.checkVals T ks vs) (fun s1 _ => s1 = s)
  | [], _, .nil, _, _ => .pure rfl
  | κ :: ks, v :: vs, .cons h hs, hE, hk => by
    rw [Prf.checkVals]
    refine (checkVal_tri T h (hE κ (by simp)) hk).bind fun a s1 _ e => ?_
    rw [e]
    exact (checkVals_tri hs (fun κ' h' => hE κ' (by simp [h'])) hk).bind fun b s2 _ e' => .pure e'

theorem check_read {τ : PrimTy} {b rest : Bytes} {x : PVal} (h : τ.deser b = .ok (x, rest)) : τ.check x = .ok () := by
  cases hb : τ.isBasic with
  | true =>
    rcases PrimTy.deser_basic hb b with ⟨v, r, _, _, h', hc, _⟩ | ⟨e, h', -⟩
    · rw [h] at h'; cases h'; exact hc
    · rw [h] at h'; cases h'
  | false =>
    cases τ with
    | bits => rfl
    | tx =>
      obtain ⟨_, _, _, h⟩ := P.bind_inv h
      obtain ⟨_, _, _, h⟩ := P.bind_inv h
      obtain ⟨_, _, _, h⟩ := P.bind_inv h
      obtain ⟨rfl, _⟩ := P.pure_inv h
      rfl
    | outpoint =>
      obtain ⟨_, _, _, h⟩ := P.bind_inv h
      obtain ⟨_, _, _, h⟩ := P.bind_inv h
      obtain ⟨_, _, _, h⟩ := P.bind_inv h
      obtain ⟨rfl, _⟩ := P.pure_inv h
      rfl
    | _ => cases hb

/-- What reading an instance of `c` from `b` is to be. -/
def Reader (E : PyErr → Prop) (T : Table) (df : Nat → Bytes → HM (Nat × Bytes)) (c : Nat) (b : Bytes) : Prop :=
  ∀ s : PState, Tri E (s.objs.length + b.length) s (df c b)
    (fun s1 x => s1.objs.length + x.2.length ≤ s.objs.length + b.length ∧ x.2.length < b.length ∧ ∃ o, s1.objs[x.1]? = some o ∧ Shape T c o.cls)

variable {T}

/-- The exceptions for one attribute are among those allowed. -/
structure Allows (E : PyErr → Prop) (κ : Kind) : Prop where
  doc : ∀ e, e.isDeserialization = true → E e
  value : ∀ τ, κ = .prim τ → ∀ e, τ.Strange e → E e
  number : ∀ us, κ = .union us → E .nameError

theorem attrDeser_tri {df : Nat → Bytes → HM (Nat × Bytes)} {κ : Kind} {b : Bytes} (hE : Allows E κ)
    (h1 : ∀ c b', κ = .proof c → b'.length ≤ b.length → Reader E T df c b')
    (h2 : ∀ us u b', κ = .union us → u ∈ us → b'.length ≤ b.length → Reader E T df u b') (s : PState) :
    Tri E (s.objs.length + b.length) s (Prf.attrDeser df κ b)
      (fun s1 x => s1.objs.length + x.2.length ≤ s.objs.length + b.length ∧ x.2.length ≤ b.length ∧ Fits T s1 κ x.1) := by
  cases κ with
  | prim τ =>
    refine (Tri.read (Par.prim τ hE.doc (hE.value τ rfl)) (by omega)).bind ?_
    rintro x s1 - ⟨rfl, hx, hl⟩
    exact .pure ⟨by simp only; omega, by simp only; omega, x.1, rfl, check_read hx⟩
  | proof c =>
    refine (h1 c b rfl (Nat.le_refl _) s).bind ?_
    rintro x s1 - ⟨g1, g2, o, g3, g4⟩
    exact .pure ⟨g1, by simp only; omega, x.1, o, rfl, g3, g4⟩
  | union us =>
    refine (Tri.read (Par.varuint (hE.doc _ rfl)) (by omega)).bind ?_
    rintro x s1 - ⟨rfl, -, hl⟩
    dsimp only
    cases hu : us[x.1]? with
    | none => exact .fail (by omega) (hE.number us rfl)
    | some u =>
      have hm : u ∈ us := List.mem_of_getElem? hu
      dsimp only
      refine ((h2 us u x.2 rfl hm (by omega) s1).mono (k' := s1.objs.length + b.length) (by omega) (fun a s2 _ h => h)).bind ?_
      rintro y s2 - ⟨g1, g2, o, g3, g4⟩
      exact .pure ⟨by simp only; omega, by simp only; omega, y.1, o, u, rfl, g3, hm, g4⟩

theorem deserLoop_tri {df : Nat → Bytes → HM (Nat × Bytes)} : ∀ {ks : List Kind} {b : Bytes}, (∀ κ ∈ ks, Allows E κ) →
    (∀ κ ∈ ks, ∀ c b', κ = .proof c → b'.length ≤ b.length → Reader E T df c b') →
    (∀ κ ∈ ks, ∀ us u b', κ = .union us → u ∈ us → b'.length ≤ b.length → Reader E T df u b') → ∀ s : PState,
    Tri E (s.objs.length + b.length) s (Prf.deserLoop df ks b)
      (fun s1 x => s1.objs.length + x.2.length ≤ s.objs.length + b.length ∧ x.2.length ≤ b.length ∧ List.Forall₂ (Fits T s1) ks x.1)
  | [], b, _, _, _, s => .pure ⟨Nat.le_refl _, Nat.le_refl _, .nil⟩
  | κ :: ks, b, hE, h1, h2, s => by
    rw [Prf.deserLoop]
    refine (attrDeser_tri (hE κ (by simp)) (h1 κ (by simp)) (h2 κ (by simp)) s).bind ?_
    rintro x s1 - ⟨g1, g2, g3⟩
    dsimp only
    refine ((deserLoop_tri (fun κ' h => hE κ' (by simp [h])) (fun κ' h c b' e l => h1 κ' (by simp [h]) c b' e (by omega))
      (fun κ' h us u b' e m l => h2 κ' (by simp [h]) us u b' e m (by omega)) s1).mono (k' := s.objs.length + b.length) (by omega) (fun a s2 _ h => h)).bind ?_
    rintro y s2 hs ⟨g4, g5, g6⟩
    exact .pure ⟨by simp only; omega, by simp only; omega, .cons (g3.mono T hs) g6⟩

theorem new_tri {u : Nat} {vs : List HVal} (h : List.Forall₂ (Fits T s) (T u).attrs vs) (hE : ∀ κ ∈ (T u).attrs, Lossy T κ → E .serType) (hk : s.objs.length ≤ k) :
    Tri E k s (Prf.new T u vs) (fun s1 r => s1.objs.length = s.objs.length + 1 ∧ ∃ o, s1.objs[r]? = some o ∧ o.cls = u) := by
  unfold Prf.new
  have hi : Tri E k s (Prf.initClass u) (fun s1 _ => s1.objs = s.objs) := ⟨List.prefix_rfl, rfl⟩
  refine hi.bind ?_
  intro _ s1 hp e
  have h' : List.Forall₂ (Fits T s1) (T u).attrs vs := h.imp fun κ v hv => hv.mono T hp
  refine (checkVals_tri T h' hE (by rw [e]; exact hk)).bind ?_
  rintro a s2 - rfl
  refine Tri.alloc.mono (Nat.le_refl _) ?_
  rintro r s3 - ⟨h1, rfl⟩
  refine ⟨by rw [h1, List.length_append, e]; rfl, _, by rw [h1]; simp; rfl, rfl⟩

/-- Reading for a class to which the class `c0` leads. -/
theorem deserF_tri (T : Table) (c0 : Nat) : ∀ (n c : Nat) (b : Bytes), T.Leads c0 c → b.length < n → Reader (T.MayRaise c0) T (Prf.deserF T n) c b
  | 0, c, b, _, h => absurd h (by omega)
  | n + 1, c, b, hc, hn => fun s => by
    rw [Prf.deserF]
    refine (Tri.read (Par.bool fun e he => .documented he) (by omega)).bind ?_
    rintro ⟨pr, b1⟩ s1 - ⟨rfl, -, hl⟩
    dsimp only at hl ⊢
    cases pr with
    | true =>
      dsimp only
      refine (Tri.read (Par.fdRead (l := 32) (.documented rfl) (fun h => absurd h (by decide))) (by omega)).bind ?_
      rintro ⟨d, b2⟩ s2 - ⟨rfl, -, hl2⟩
      dsimp only at hl2 ⊢
      refine Tri.alloc.bind ?_
      rintro r s3 - ⟨h1, rfl⟩
      refine .pure ⟨by simp only [h1, List.length_append, List.length_singleton]; omega, by simp only; omega, _, by rw [h1]; simp; rfl, .inl rfl⟩
    | false =>
      dsimp only
      have hv : Tri (T.MayRaise c0) (s1.objs.length + b.length) s1 (Prf.variantOf T c b1) (fun s2 x => s2 = s1 ∧ x.2.length ≤ b1.length ∧ x.1 ∈ T.forms c) := by
        unfold Prf.variantOf
        cases hc' : (T c).variants with
        | none =>
          refine .pure ⟨rfl, Nat.le_refl _, ?_⟩
          unfold Table.forms
          rw [hc']
          exact List.mem_singleton.mpr rfl
        | some us =>
          dsimp only
          refine (Tri.read (Par.varuint (.documented rfl)) (by omega)).bind ?_
          rintro ⟨i, b2⟩ s2 - ⟨rfl, -, hl2⟩
          dsimp only at hl2 ⊢
          cases hu : us[i]? with
          | none => exact .fail (by omega) (.variant hc hc')
          | some u =>
            refine .pure ⟨rfl, by simp only; omega, ?_⟩
            unfold Table.forms
            rw [hc']
            exact List.mem_of_getElem? hu
      refine hv.bind ?_
      rintro ⟨u, b2⟩ s2 - ⟨rfl, hl2, hu⟩
      dsimp only at hl2 hu ⊢
      have has : ∀ κ ∈ (T u).attrs, T.Has c0 κ := fun κ h => ⟨c, u, hc, hu, h⟩
      refine ((deserLoop_tri (b := b2) (T := T) (E := T.MayRaise c0) (df := Prf.deserF T n) (ks := (T u).attrs)
        (fun κ h => ⟨fun e he => .documented he, fun τ e' e he => .value (e' ▸ has κ h) he, fun us e' => .union (e' ▸ has κ h)⟩)
        (fun κ h d b' e' hb => deserF_tri T c0 n d b' (.proof hc hu (e' ▸ h)) (by omega))
        (fun κ h us d b' e' hd hb => deserF_tri T c0 n d b' (.union hc hu (e' ▸ h) hd) (by omega)) s2).mono (k' := s2.objs.length + b.length) (by omega)
        (fun a s3 _ h => h)).bind ?_
      rintro ⟨vs, b3⟩ s3 - ⟨g1, g2, g3⟩
      dsimp only at g1 g2 g3 ⊢
      refine (new_tri (k := s2.objs.length + b.length) g3 (fun κ h hκ => ?_) (by omega)).bind ?_
      · cases κ with
        | prim τ => exact hκ.elim
        | proof d =>
          obtain ⟨us, hd⟩ := hκ
          exact .pruned (has _ h) hd
        | union ds =>
          obtain ⟨d, hd, us, hd'⟩ := hκ
          exact .prunedUnion (has _ h) hd hd'
      · rintro r s4 - ⟨g4, o, g5, g6⟩
        exact .pure ⟨by simp only; omega, by simp only; omega, o, g5, .inr (g6 ▸ hu)⟩

end Reading
end Verif
