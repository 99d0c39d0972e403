import Verif.Lemmas.Btc
/-! Serializations are prefix-free, with no size limit on scripts. -/
namespace Verif.Btc
open Verif

/-- Encodings determine the value, whatever follows. -/
def PF {α} (ser : α → Py Bytes) : Prop := ∀ x y e e' r r', ser x = .ok e → ser y = .ok e' → e ++ r = e' ++ r' →
  x = y ∧ r = r'

theorem PF.varInt {m n : Nat} {e e' r r' : Bytes} (h : serVarInt m = .ok e) (h' : serVarInt n = .ok e')
    (he : e ++ r = e' ++ r') : m = n ∧ r = r' := (RT.varInt h).inj_append (RT.varInt h') he

theorem PF.packU {k : Nat} : PF (packU k) := by
  intro x y e e' r r' h h' he
  obtain ⟨h1, h2, _⟩ := packU_ok h
  obtain ⟨g1, g2, _⟩ := packU_ok h'
  obtain ⟨a, b⟩ := List.append_inj he (by omega)
  exact ⟨by rw [← h2, ← g2, a], b⟩

theorem PF.packS {k : Nat} (hk : 0 < k) : PF (packS k) := by
  intro x y e e' r r' h h' he
  obtain ⟨h1, h2⟩ := packS_ok hk h
  obtain ⟨g1, g2⟩ := packS_ok hk h'
  obtain ⟨a, b⟩ := List.append_inj he (by omega)
  exact ⟨by rw [← h2, ← g2, a], b⟩

theorem PF.bytes : PF serBytes := by
  intro x y e e' r r' h h' he
  unfold serBytes at h h'
  obtain ⟨l, hl, h⟩ := Except.bind_eq_ok h
  obtain ⟨l', hl', h'⟩ := Except.bind_eq_ok h'
  cases h; cases h'
  rw [List.append_assoc, List.append_assoc] at he
  obtain ⟨h1, h2⟩ := PF.varInt hl hl' he
  exact List.append_inj h2 h1

theorem PF.each {α} {ser : α → Py Bytes} (hs : PF ser) : ∀ (xs ys : List α) (e e' r r' : Bytes),
    serEach ser xs = .ok e → serEach ser ys = .ok e' → xs.length = ys.length → e ++ r = e' ++ r' → xs = ys ∧ r = r'
  | [], [], e, e', r, r', h, h', _, he => by cases h; cases h'; exact ⟨rfl, he⟩
  | [], _ :: _, _, _, _, _, _, _, hl, _ => by simp at hl
  | _ :: _, [], _, _, _, _, _, _, hl, _ => by simp at hl
  | x :: xs, y :: ys, e, e', r, r', h, h', hl, he => by
    unfold serEach at h h'
    obtain ⟨b, hb, h⟩ := Except.bind_eq_ok h
    obtain ⟨bs, hbs, h⟩ := Except.bind_eq_ok h
    obtain ⟨b', hb', h'⟩ := Except.bind_eq_ok h'
    obtain ⟨bs', hbs', h'⟩ := Except.bind_eq_ok h'
    cases h; cases h'
    rw [List.append_assoc, List.append_assoc] at he
    obtain ⟨rfl, he⟩ := hs _ _ _ _ _ _ hb hb' he
    obtain ⟨rfl, he⟩ := PF.each hs _ _ _ _ _ _ hbs hbs' (by simpa using hl) he
    exact ⟨rfl, he⟩

theorem PF.vector {α} {ser : α → Py Bytes} (hs : PF ser) : PF (serVector ser) := by
  intro x y e e' r r' h h' he
  unfold serVector at h h'
  obtain ⟨l, hl, h⟩ := Except.bind_eq_ok h
  obtain ⟨l', hl', h'⟩ := Except.bind_eq_ok h'
  obtain ⟨b, hb, h⟩ := Except.bind_eq_ok h
  obtain ⟨b', hb', h'⟩ := Except.bind_eq_ok h'
  cases h; cases h'
  rw [List.append_assoc, List.append_assoc] at he
  obtain ⟨h1, h2⟩ := PF.varInt hl hl' he
  exact PF.each hs _ _ _ _ _ _ hb hb' h1 h2

theorem PF.outpoint : PF COutPoint.ser := by
  intro x y e e' r r' h h' he
  exact (RT.outpoint h).inj_append (RT.outpoint h') he

theorem PF.txin : PF CTxIn.ser := by
  intro x y e e' r r' h h' he
  unfold CTxIn.ser at h h'
  obtain ⟨a, ha, h⟩ := Except.bind_eq_ok h
  obtain ⟨b, hb, h⟩ := Except.bind_eq_ok h
  obtain ⟨c, hc, h⟩ := Except.bind_eq_ok h
  obtain ⟨a', ha', h'⟩ := Except.bind_eq_ok h'
  obtain ⟨b', hb', h'⟩ := Except.bind_eq_ok h'
  obtain ⟨c', hc', h'⟩ := Except.bind_eq_ok h'
  cases h; cases h'
  simp only [List.append_assoc] at he
  obtain ⟨h1, he⟩ := PF.outpoint _ _ _ _ _ _ ha ha' he
  obtain ⟨h2, he⟩ := PF.bytes _ _ _ _ _ _ hb hb' he
  obtain ⟨h3, he⟩ := PF.packU _ _ _ _ _ _ hc hc' he
  obtain ⟨⟩ := x; obtain ⟨⟩ := y
  simp_all

theorem PF.txout : PF CTxOut.ser := by
  intro x y e e' r r' h h' he
  unfold CTxOut.ser at h h'
  obtain ⟨a, ha, h⟩ := Except.bind_eq_ok h
  obtain ⟨b, hb, h⟩ := Except.bind_eq_ok h
  obtain ⟨a', ha', h'⟩ := Except.bind_eq_ok h'
  obtain ⟨b', hb', h'⟩ := Except.bind_eq_ok h'
  cases h; cases h'
  simp only [List.append_assoc] at he
  obtain ⟨h1, he⟩ := PF.packS (by omega) _ _ _ _ _ _ ha ha' he
  obtain ⟨h2, he⟩ := PF.bytes _ _ _ _ _ _ hb hb' he
  obtain ⟨⟩ := x; obtain ⟨⟩ := y
  simp_all

theorem PF.tx : PF CTransaction.ser := by
  intro x y e e' r r' h h' he
  unfold CTransaction.ser at h h'
  obtain ⟨a, ha, h⟩ := Except.bind_eq_ok h
  obtain ⟨b, hb, h⟩ := Except.bind_eq_ok h
  obtain ⟨c, hc, h⟩ := Except.bind_eq_ok h
  obtain ⟨d, hd, h⟩ := Except.bind_eq_ok h
  obtain ⟨a', ha', h'⟩ := Except.bind_eq_ok h'
  obtain ⟨b', hb', h'⟩ := Except.bind_eq_ok h'
  obtain ⟨c', hc', h'⟩ := Except.bind_eq_ok h'
  obtain ⟨d', hd', h'⟩ := Except.bind_eq_ok h'
  cases h; cases h'
  simp only [List.append_assoc] at he
  obtain ⟨h1, he⟩ := PF.packS (by omega) _ _ _ _ _ _ ha ha' he
  obtain ⟨h2, he⟩ := PF.vector PF.txin _ _ _ _ _ _ hb hb' he
  obtain ⟨h3, he⟩ := PF.vector PF.txout _ _ _ _ _ _ hc hc' he
  obtain ⟨h4, he⟩ := PF.packU _ _ _ _ _ _ hd hd' he
  obtain ⟨⟩ := x; obtain ⟨⟩ := y
  simp_all

theorem PF.inj {α} {ser : α → Py Bytes} (h : PF ser) {x y : α} {e : Bytes} (hx : ser x = .ok e) (hy : ser y = .ok e) :
    x = y := (h x y e e [] [] hx hy rfl).1

end Verif.Btc
