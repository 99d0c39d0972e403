import Verif.Spec.GuShip
import Verif.Lemmas.GuMapAgree
import Verif.Lemmas.MmrShip
import Verif.Lemmas.ProofShip
/-! # What of a map is read when a key is looked up, and what is sent of it -/
namespace Verif
open Seal
section
variable {T : Table} {H : HashFns} {t : PTree}

/-- What a computation done on an attribute reads, which first asks for the class of the object. -/
theorem reads_at_cls {α} {k : Nat → Prog α} {i : Nat} {x : List Nat} (hx : x ∈ ((Prog.cls [] k).at [i]).reads T H t) :
    x = [] ∨ ∃ q, t.get? i = some (.sub q) ∧ ∃ y ∈ (Prog.cls [] k).reads T H q, x = i :: y := by
  have one : ∀ {x}, x ∈ (TVal.sub t).readsOn [i] → x = [] := by
    intro x h
    simp only [TVal.readsOn] at h
    split at h
    · cases h
    · next w hw => cases w <;> simpa [TVal.readsOn] using h
  by_cases hq : ∃ q, t.get? i = some (.sub q)
  · obtain ⟨q, hq⟩ := hq
    rcases reads_at (T := T) (H := H) (walk1.mpr hq) _ x hx with h | ⟨y, hy, rfl⟩
    · exact .inl (one h)
    · exact .inr ⟨q, hq, y, hy, rfl⟩
  · left
    simp only [Prog.at, Prog.reads, List.append_nil, List.mem_append] at hx
    rcases hx with h | h
    · exact one h
    · rcases hw : (TVal.sub t).walk T [] [i] with e | v | q <;> rw [hw] at h
      · cases h
      · cases h
      · exact absurd ⟨q, walk1.mp hw⟩ hq

/-- What a computation reads of a sub-proof it reads of the proof. -/
theorem mem_reads_at {α} {ρ : List Nat} {q : PTree} (hq : (TVal.sub t).walk T [] ρ = .ok (.sub q)) (p : Prog α) {y : List Nat} :
    y ∈ p.reads T H q → ρ ++ y ∈ (p.at ρ).reads T H t := by
  have key : ∀ π, y ∈ (TVal.sub q).readsOn π → ρ ++ y ∈ (TVal.sub t).readsOn (ρ ++ π) := by
    intro π h
    rw [readsOn_append ρ π _ _ hq, List.mem_append, List.mem_map]
    exact .inr ⟨y, h, rfl⟩
  induction p with
  | ret a => intro h; cases h
  | read π k ih =>
    simp only [Prog.at, Prog.reads, walk_append, hq, Except.bind_ok, List.mem_append]
    rintro (h | h)
    · exact .inl (key π h)
    · right
      cases hw : (TVal.sub q).walk T [] π with
      | error e => rw [hw] at h; cases h
      | ok v => rw [hw] at h; exact ih _ h
  | cls π k ih =>
    simp only [Prog.at, Prog.reads, walk_append, hq, Except.bind_ok, List.mem_append]
    rintro (h | h)
    · exact .inl (key π h)
    · right
      rcases hw : (TVal.sub q).walk T [] π with e | v | u <;> rw [hw] at h
      · cases h
      · cases h
      · exact ih _ h
  | hash π k ih =>
    simp only [Prog.at, Prog.reads, walk_append, hq, Except.bind_ok, List.mem_append]
    rintro (h | h)
    · exact .inl (key π h)
    · right
      rcases hw : (TVal.sub q).walk T [] π with e | v | u <;> rw [hw] at h
      · cases h
      · cases h
      · simp only at h ⊢
        cases hh : u.hash T H with
        | error e => rw [hh] at h; cases h
        | ok d => rw [hh] at h; exact ih _ h
  | dataHash π k ih =>
    simp only [Prog.at, Prog.reads, walk_append, hq, Except.bind_ok, List.mem_append]
    rintro (h | h)
    · exact .inl (key π h)
    · right
      rcases hw : (TVal.sub q).walk T [] π with e | v | u <;> rw [hw] at h
      · cases h
      · cases h
      · simp only at h ⊢
        cases hh : u.dataHash T H with
        | error e => rw [hh] at h; cases h
        | ok d => rw [hh] at h; exact ih _ h

theorem mem_thenReads {α} {x : Py (Py α)} {f : α → List (List Nat)} {y : List Nat} (h : y ∈ thenReads x f) : ∃ a, x = .ok (.ok a) ∧ y ∈ f a := by
  rcases x with e | e | a
  · cases h
  · cases h
  · exact ⟨a, rfl, h⟩

/-! ## Keeping -/

theorem PFields.keeps_of_get : ∀ {fs : PFields}, (∀ i q, fs.get? i = some (.sub q) → q.KeepsSpecial T) → fs.KeepsSpecial T
  | .nil, _ => by rw [PFields.KeepsSpecial]; trivial
  | .prim v fs, h => by rw [PFields.KeepsSpecial]; exact PFields.keeps_of_get fun i q hq => h (i + 1) q hq
  | .sub t fs, h => by rw [PFields.KeepsSpecial]; exact ⟨h 0 t rfl, PFields.keeps_of_get fun i q hq => h (i + 1) q hq⟩

theorem PFields.reveal_get_inv {S : List (List Nat)} {π : List Nat} : ∀ {fs : PFields} {j i : Nat} {q' : PTree}, (fs.reveal T H S π j).get? i = some (.sub q') →
    ∃ q, fs.get? i = some (.sub q) ∧ q' = q.reveal T H S (π ++ [j + i])
  | .nil, _, i, _, h => by rw [PFields.reveal] at h; cases i <;> cases h
  | .prim v fs, j, 0, q, h => by rw [PFields.reveal] at h; cases h
  | .prim v fs, j, i + 1, q, h => by
    rw [PFields.reveal] at h
    obtain ⟨q, h1, h2⟩ := PFields.reveal_get_inv (fs := fs) (j := j + 1) (i := i) h
    exact ⟨q, h1, by rw [h2, show j + 1 + i = j + (i + 1) by omega]⟩
  | .sub t fs, j, 0, q, h => by rw [PFields.reveal] at h; cases h; exact ⟨t, rfl, rfl⟩
  | .sub t fs, j, i + 1, q, h => by
    rw [PFields.reveal] at h
    obtain ⟨q, h1, h2⟩ := PFields.reveal_get_inv (fs := fs) (j := j + 1) (i := i) h
    exact ⟨q, h1, by rw [h2, show j + 1 + i = j + (i + 1) by omega]⟩

theorem keeps_node {S : List (List Nat)} {ρ : List Nat} {c : Nat} {fs : PFields} (hρ : ρ ∈ S)
    (h : ∀ i q, fs.get? i = some (.sub q) → (q.reveal T H S (ρ ++ [i])).KeepsSpecial T) : ((PTree.node c fs).reveal T H S ρ).KeepsSpecial T := by
  rw [PTree.reveal, if_pos hρ, PTree.KeepsSpecial]
  refine PFields.keeps_of_get fun i q' hq' => ?_
  obtain ⟨q, hq, rfl⟩ := PFields.reveal_get_inv hq'
  rw [Nat.zero_add]
  exact h i q hq

/-- A proof that is an ordinary one can be left pruned. -/
theorem keeps_ordinary {S : List (List Nat)} {ρ : List Nat} {q : PTree} (hv : (T q.cls).variants = none) (hx : (T q.cls).isTx = false)
    (h : ρ ∈ S → ∀ i u, q.get? i = some (.sub u) → (u.reveal T H S (ρ ++ [i])).KeepsSpecial T) : (q.reveal T H S ρ).KeepsSpecial T := by
  cases q with
  | pruned c d => rw [PTree.reveal, PTree.KeepsSpecial]; exact ⟨hv, hx⟩
  | node c fs =>
    by_cases hρ : ρ ∈ S
    · exact keeps_node hρ (h hρ)
    · rw [PTree.reveal, if_neg hρ, PTree.stub, PTree.KeepsSpecial]; exact ⟨hv, hx⟩

theorem PFields.WellTyped.getSub : ∀ {fs : PFields} {ks : List Kind} {i : Nat} {q : PTree}, fs.WellTyped T ks → fs.get? i = some (.sub q) →
    (∃ c, ks[i]? = some (.proof c) ∧ q.WellTyped T c ∧ ∀ us, (T c).variants = some us → us.any (T.isInst q.cls) = true) ∨
    ∃ us u, ks[i]? = some (.union us) ∧ u ∈ us ∧ q.WellTyped T u
  | .nil, _, i, _, _, h => by cases i <;> cases h
  | .prim v fs, ks, 0, q, _, h => by cases h
  | .prim v fs, [], i + 1, q, hw, h => by simp [PFields.WellTyped] at hw
  | .prim v fs, k :: ks, i + 1, q, hw, h => by
    cases k with
    | prim τ => rw [PFields.WellTyped] at hw; exact PFields.WellTyped.getSub (i := i) hw.2 h
    | proof c => simp [PFields.WellTyped] at hw
    | union us => simp [PFields.WellTyped] at hw
  | .sub t fs, [], i, q, hw, h => by simp [PFields.WellTyped] at hw
  | .sub t fs, k :: ks, 0, q, hw, h => by
    cases h
    cases k with
    | prim τ => simp [PFields.WellTyped] at hw
    | proof c => rw [PFields.WellTyped] at hw; exact .inl ⟨c, rfl, hw.1.1, hw.1.2⟩
    | union us =>
      rw [PFields.WellTyped] at hw
      obtain ⟨⟨i, u, h1, _, h2⟩, _⟩ := hw
      exact .inr ⟨us, u, rfl, List.mem_of_getElem? h1, h2⟩
  | .sub t fs, k :: ks, i + 1, q, hw, h => by
    cases k with
    | prim τ => simp [PFields.WellTyped] at hw
    | proof c => rw [PFields.WellTyped] at hw; exact PFields.WellTyped.getSub (i := i) hw.2 h
    | union us => rw [PFields.WellTyped] at hw; exact PFields.WellTyped.getSub (i := i) hw.2 h

/-- The class of a proof that stands where an ordinary class is declared. -/
theorem PTree.WellTyped.ordinary {q : PTree} {u : Nat} (hw : q.WellTyped T u) (hu : (T u).variants = none) :
    q.cls = u ∧ ∀ i p, q.get? i = some (.sub p) → (∃ c, (T u).attrs[i]? = some (.proof c) ∧ p.WellTyped T c ∧ ∀ us, (T c).variants = some us → us.any (T.isInst p.cls) = true) ∨
      ∃ us v, (T u).attrs[i]? = some (.union us) ∧ v ∈ us ∧ p.WellTyped T v := by
  cases q with
  | pruned c d => rw [PTree.WellTyped] at hw; exact ⟨hw.1, fun i p h => by cases h⟩
  | node c fs =>
    rw [PTree.WellTyped, hu] at hw
    obtain ⟨rfl, hw⟩ := hw
    exact ⟨rfl, fun i p h => hw.getSub h⟩
end

namespace GuMap
section
variable {H : HashFns} {g : GuMapDecl} {t n : PTree}
local notation "C" => classes H g

theorem seal_keeps {S : List (List Nat)} {ρ : List Nat} {q : PTree} {u : Nat} (hu : u = Cls.fakeSeal ∨ u = Cls.btcSeal) (hw : q.WellTyped C u) :
    (q.reveal C H S ρ).KeepsSpecial C := by
  have hv : (C u).variants = none ∧ (C u).isTx = false ∧ ∀ i : Nat, (∀ c, (C u).attrs[i]? ≠ some (Kind.proof c)) ∧ ∀ us, (C u).attrs[i]? ≠ some (Kind.union us) := by
    rcases hu with rfl | rfl
    · refine ⟨rfl, rfl, fun i => ?_⟩
      rcases i with _ | i <;> simp [classes, Cls.fakeSeal]
    · refine ⟨rfl, rfl, fun i => ?_⟩
      rcases i with _ | _ | i <;> simp [classes, Cls.btcSeal]
  obtain ⟨hc, hs⟩ := hw.ordinary hv.1
  refine keeps_ordinary (by rw [hc]; exact hv.1) (by rw [hc]; exact hv.2.1) fun _ i p hp => ?_
  rcases hs i p hp with ⟨c, h, _⟩ | ⟨us, v, h, _⟩
  · exact absurd h ((hv.2.2 i).1 c)
  · exact absurd h ((hv.2.2 i).2 us)

/-- A witness, when nothing was read of the input and the output. -/
theorem witness_keeps {S : List (List Nat)} {ρ : List Nat} {q : PTree} {u : Nat} (hu : u = Cls.fakeWitness ∨ u = Cls.btcWitness) (hw : q.WellTyped C u)
    (h1 : ρ ++ [1] ∉ S) (h2 : ρ ++ [2] ∉ S) : (q.reveal C H S ρ).KeepsSpecial C := by
  have hv : (C u).variants = none ∧ (C u).isTx = false := by rcases hu with rfl | rfl <;> exact ⟨rfl, rfl⟩
  obtain ⟨hc, hs⟩ := hw.ordinary hv.1
  refine keeps_ordinary (by rw [hc]; exact hv.1) (by rw [hc]; exact hv.2) fun _ i p hp => ?_
  rcases hu with rfl | rfl
  · rcases hs i p hp with ⟨c, h, hw', _⟩ | ⟨us, v, h, _⟩
    · rcases i with _ | i
      · cases h; exact seal_keeps (.inl rfl) hw'
      · simp [classes, Cls.fakeWitness] at h
    · rcases i with _ | i <;> simp [classes, Cls.fakeWitness] at h
  · rcases hs i p hp with ⟨c, h, hw', _⟩ | ⟨us, v, h, _⟩
    · rcases i with _ | _ | _ | i
      · cases h; exact seal_keeps (.inr rfl) hw'
      · cases h
        have := (hw'.ordinary rfl).1
        exact keeps_ordinary (by rw [this]; rfl) (by rw [this]; rfl) fun h => absurd h h1
      · cases h
        have := (hw'.ordinary rfl).1
        exact keeps_ordinary (by rw [this]; rfl) (by rw [this]; rfl) fun h => absurd h h2
      · simp [classes, Cls.btcWitness] at h
    · rcases i with _ | _ | _ | i <;> simp [classes, Cls.btcWitness] at h

theorem fake_keeps {S : List (List Nat)} {ρ : List Nat} {h : Bytes} : ((fakeWitnessT (fakeSealT h)).reveal C H S ρ).KeepsSpecial C := by
  refine keeps_ordinary rfl rfl fun _ i p hp => ?_
  rcases i with _ | i
  · cases hp
    exact keeps_ordinary rfl rfl fun _ i p hp => by rcases i with _ | i <;> cases hp
  · cases hp

/-- A Bitcoin witness, when both transactions were read. -/
theorem closed_keeps {S : List (List Nat)} {ρ : List Nat} {o : Btc.COutPoint} {c : Bytes} {i j : Int} {x x' : Btc.CTransaction}
    (h1 : ρ ++ [1, 1] ∈ S) (h2 : ρ ++ [2, 1] ∈ S) : ((fullWitnessT o c i x j x').reveal C H S ρ).KeepsSpecial C := by
  have htx : ∀ {ρ y}, ρ ∈ S → ((txT y).reveal C H S ρ).KeepsSpecial C := by
    intro ρ y h
    exact keeps_node h fun i p hp => by rcases i with _ | i <;> cases hp
  refine keeps_ordinary rfl rfl fun _ i p hp => ?_
  rcases i with _ | _ | _ | i
  · cases hp
    exact keeps_ordinary rfl rfl fun _ i p hp => by rcases i with _ | _ | i <;> cases hp
  · cases hp
    refine keeps_ordinary rfl rfl fun _ i p hp => ?_
    rcases i with _ | _ | i
    · cases hp
    · cases hp; exact htx (by simpa using h1)
    · cases hp
  · cases hp
    refine keeps_ordinary rfl rfl fun _ i p hp => ?_
    rcases i with _ | _ | i
    · cases hp
    · cases hp; exact htx (by simpa using h2)
    · cases hp
  · cases hp

/-! ## What is read -/

theorem readsOn_one {i : Nat} {x : List Nat} (h : x ∈ (TVal.sub t).readsOn [i]) : x = [] := by
  simp only [TVal.readsOn] at h
  split at h
  · cases h
  · next w hw => cases w <;> simpa [TVal.readsOn] using h

theorem readsOn_two {i j : Nat} {x : List Nat} (h : x ∈ (TVal.sub t).readsOn [i, j]) : x = [] ∨ x = [i] := by
  rw [TVal.readsOn] at h
  split at h
  · cases h
  · next w hw =>
    rcases List.mem_cons.mp h with h | h
    · exact .inl h
    · obtain ⟨y, hy, rfl⟩ := List.mem_map.mp h
      cases w with
      | prim v => cases hy
      | sub q => rw [readsOn_one hy]; exact .inr rfl

theorem reads_sealHash {T : Table} {x : List Nat} (h : x ∈ sealHash.reads T H t) :
    x = [] ∨ (x = [0] ∧ t.cls = Cls.leafPrefix) ∨ (x = [1] ∧ t.cls = Cls.innerPrefix) := by
  simp only [sealHash, Prog.reads, TVal.readsOn, TVal.walk, List.nil_append] at h
  unfold sealPath at h
  have fin : ∀ {π x}, x ∈ (Prog.hash π fun h => .ret (.ok h) : Prog Bytes).reads T H t → x ∈ (TVal.sub t).readsOn π := by
    intro π x h
    simp only [Prog.reads, List.mem_append] at h
    rcases h with h | h
    · exact h
    · split at h
      · split at h <;> cases h
      · cases h
  split at h
  · next π hπ =>
    split at hπ
    · cases hπ; exact .inl (readsOn_one (fin h))
    · split at hπ
      · next hc => cases hπ; rcases readsOn_two (fin h) with h | h
                   · exact .inl h
                   · exact .inr (.inl ⟨h, hc⟩)
      · split at hπ
        · next hc => cases hπ; rcases readsOn_two (fin h) with h | h
                     · exact .inl h
                     · exact .inr (.inr ⟨h, hc⟩)
        · cases hπ
  · cases h

/-- Of the children of an inner node, verification reads at most where the seal is. -/
theorem reads_inner {x : List Nat} (hc : n.cls = Cls.innerPrefix) (hx : x ∈ (verifyFull H g).reads C H n) : x = [] ∨ (∃ y, x = 1 :: y) ∨
    ∃ i q, (i = 2 ∨ i = 3) ∧ n.get? i = some (.sub q) ∧ (x = [i] ∨ (x = [i, 0] ∧ q.cls = Cls.leafPrefix) ∨ (x = [i, 1] ∧ q.cls = Cls.innerPrefix)) := by
  unfold verifyFull at hx
  rw [reads_bind, List.mem_append] at hx
  have hat : ∀ {α} {k : Nat → Prog α} {x}, x ∈ ((Prog.cls [] k).at [1]).reads C H n → x = [] ∨ ∃ y, x = 1 :: y := by
    intro α k x h
    rcases reads_at_cls h with h | ⟨q, _, y, _, h⟩
    · exact .inl h
    · exact .inr ⟨y, h⟩
  have hsl : ∀ {i x}, (i = 2 ∨ i = 3) → x ∈ (sealHash.at [i]).reads C H n → x = [] ∨ (∃ y, x = 1 :: y) ∨
      ∃ i q, (i = 2 ∨ i = 3) ∧ n.get? i = some (.sub q) ∧ (x = [i] ∨ (x = [i, 0] ∧ q.cls = Cls.leafPrefix) ∨ (x = [i, 1] ∧ q.cls = Cls.innerPrefix)) := by
    intro i x hi h
    rcases reads_at_cls h with h | ⟨q, hq, y, hy, rfl⟩
    · exact .inl h
    · right; right
      refine ⟨i, q, hi, hq, ?_⟩
      rcases reads_sealHash hy with rfl | ⟨rfl, h'⟩ | ⟨rfl, h'⟩
      · exact .inl rfl
      · exact .inr (.inl ⟨rfl, h'⟩)
      · exact .inr (.inr ⟨rfl, h'⟩)
  rcases hx with hx | hx
  · simp only [verify, Prog.reads, TVal.readsOn, TVal.walk, List.nil_append, hc] at hx
    rw [if_neg (by decide), if_neg (by decide), if_pos trivial] at hx
    rw [Prog.reads, List.mem_append] at hx
    rcases hx with hx | hx
    · exact .inl (readsOn_one hx)
    · split at hx
      · rw [reads_bind, List.mem_append] at hx
        rcases hx with hx | hx
        · unfold innerHash at hx
          rw [reads_bind, List.mem_append] at hx
          rcases hx with hx | hx
          · exact hsl (.inl rfl) hx
          · obtain ⟨a, _, hx⟩ := mem_thenReads hx
            rw [reads_bind, List.mem_append] at hx
            rcases hx with hx | hx
            · exact hsl (.inr rfl) hx
            · obtain ⟨b, _, hx⟩ := mem_thenReads hx
              cases hx
        · obtain ⟨a, _, hx⟩ := mem_thenReads hx
          rcases hat hx with h | h
          · exact .inl h
          · exact .inr (.inl h)
      · cases hx
  · obtain ⟨_, _, hx⟩ := mem_thenReads hx
    simp only [Prog.reads, TVal.readsOn, TVal.walk, List.nil_append, hc] at hx
    rw [if_neg (by decide)] at hx
    simp only [show ¬ (Cls.innerPrefix = Cls.leafPrefix) by decide, if_false] at hx
    rw [Prog.reads, List.mem_append] at hx
    rcases hx with hx | hx
    · exact .inl (readsOn_one hx)
    · split at hx
      · split at hx
        · rcases hat hx with h | h
          · exact .inl h
          · exact .inr (.inl h)
        · cases hx
      · cases hx

/-- Of a leaf, verification reads its attributes and below only the witness. -/
theorem reads_leaf {x : List Nat} (hc : n.cls = Cls.leafPrefix) (hx : x ∈ (verifyFull H g).reads C H n) : x = [] ∨ ∃ y, x = 0 :: y := by
  unfold verifyFull at hx
  rw [reads_bind, List.mem_append] at hx
  have hat : ∀ {α} {k : Nat → Prog α} {x}, x ∈ ((Prog.cls [] k).at [0]).reads C H n → x = [] ∨ ∃ y, x = 0 :: y := by
    intro α k x h
    rcases reads_at_cls h with h | ⟨q, _, y, _, h⟩
    · exact .inl h
    · exact .inr ⟨y, h⟩
  have hdg : ∀ {k : Kind} {i x}, x ∈ (digestAt k [i]).reads C H n → x = [] := by
    intro k i x h
    unfold digestAt at h
    split at h
    · simp only [Prog.reads, List.mem_append] at h
      rcases h with h | h
      · exact readsOn_one h
      · split at h
        · split at h <;> cases h
        · cases h
    · simp only [Prog.reads, List.mem_append] at h
      rcases h with h | h
      · exact readsOn_one h
      · split at h
        · split at h <;> cases h
        · cases h
  rcases hx with hx | hx
  · simp only [verify, Prog.reads, TVal.readsOn, TVal.walk, List.nil_append, hc] at hx
    rw [if_neg (by decide), if_pos trivial] at hx
    rw [Prog.reads, List.mem_append] at hx
    rcases hx with hx | hx
    · exact .inl (readsOn_one hx)
    · split at hx
      · rw [reads_bind, List.mem_append] at hx
        rcases hx with hx | hx
        · unfold leafHash at hx
          rw [reads_bind, List.mem_append] at hx
          rcases hx with hx | hx
          · exact .inl (hdg hx)
          · obtain ⟨a, _, hx⟩ := mem_thenReads hx
            rw [reads_bind, List.mem_append] at hx
            rcases hx with hx | hx
            · exact .inl (hdg hx)
            · obtain ⟨b, _, hx⟩ := mem_thenReads hx
              cases hx
        · obtain ⟨a, _, hx⟩ := mem_thenReads hx
          exact hat hx
      · cases hx
  · obtain ⟨_, _, hx⟩ := mem_thenReads hx
    simp only [Prog.reads, TVal.readsOn, TVal.walk, List.nil_append, hc] at hx
    rw [if_neg (by decide)] at hx
    simp only [if_true] at hx
    rw [Prog.reads, List.mem_append] at hx
    rcases hx with hx | hx
    · exact .inl (readsOn_one hx)
    · split at hx
      · split at hx
        · exact hat hx
        · cases hx
      · cases hx
end
end GuMap
end Verif
