import Verif.Lemmas.MbProof
import Verif.Lemmas.MmrAgree
/-! # Lemmas about looking keys up in any proof, be it a merbinner tree or not -/
namespace Verif
open Seal
namespace Merb
open Mmr (eval_cls_here)
variable {T : Table} {H : HashFns} {ini : List Nat} {m : Nat} {t : PTree} {q : List Bool} {k2p : PVal → Py (List Bool)}

theorem descend_sub {ρ : List Nat} {n : Nat} {x : List Nat × List (List Nat)} (h : ((descend m q n).at ρ).eval T H ini t = .ok (.ok x)) :
    ∃ u, (TVal.sub t).walk T ini ρ = .ok (.sub u) ∧ (descend m q n).eval T H ini u = .ok (.ok x) := by
  cases n with
  | zero => cases h
  | succ n =>
    have h' := h
    simp only [descend, Prog.at, List.append_nil, eval_cls_ok] at h'
    obtain ⟨u, hu, _⟩ := h'
    exact ⟨u, hu, by rwa [Prog.eval_at hu] at h⟩

theorem descend_succ {n : Nat} {x : List Nat × List (List Nat)} (h : (descend m q (n + 1)).eval T H ini t = .ok (.ok x)) :
    ((t.cls = m + 1 ∨ t.cls = m + 2) ∧ x = ([], [])) ∨ (t.cls = m + 3 ∧ ∃ p, (TVal.sub t).walk T ini [0] = .ok (.prim (.bits p)) ∧
      ((¬ (p.length ≤ q.length ∧ p.isPrefixOf q = true) ∧ x = ([], [])) ∨
       ((p.length ≤ q.length ∧ p.isPrefixOf q = true) ∧ q[p.length]? = some true ∧ ∃ y, ((descend m q n).at [2]).eval T H ini t = .ok (.ok y) ∧
          (∃ u, (TVal.sub t).walk T ini [1] = .ok (.sub u)) ∧ x = (2 :: y.1, y.2.map (2 :: ·) ++ [[1]])) ∨
       ((p.length ≤ q.length ∧ p.isPrefixOf q = true) ∧ q[p.length]? = some false ∧ ∃ y, ((descend m q n).at [1]).eval T H ini t = .ok (.ok y) ∧
          (∃ u, (TVal.sub t).walk T ini [2] = .ok (.sub u)) ∧ x = (1 :: y.1, y.2.map (1 :: ·) ++ [[2]])))) := by
  rw [descend, eval_cls_here] at h
  by_cases h1 : t.cls = m + 1 ∨ t.cls = m + 2
  · rw [if_pos h1] at h
    cases h
    exact .inl ⟨h1, rfl⟩
  rw [if_neg h1] at h
  by_cases h3 : t.cls = m + 3
  swap
  · rw [if_neg h3] at h; cases h
  rw [if_pos h3, eval_read_ok] at h
  obtain ⟨v, hv, h⟩ := h
  right
  refine ⟨h3, ?_⟩
  cases v with
  | sub u => cases h
  | prim v =>
    cases v with
    | bits p =>
      refine ⟨p, hv, ?_⟩
      simp only at h
      by_cases hp : p.length ≤ q.length ∧ p.isPrefixOf q = true
      · rw [if_pos hp] at h
        right
        cases hq : q[p.length]? with
        | none => rw [hq] at h; cases h
        | some b =>
          rw [hq] at h
          cases b with
          | true =>
            left
            simp only [eval_bind_ok, eval_cls_ok] at h
            obtain ⟨y, hy, u, hu, h⟩ := h
            cases h
            exact ⟨hp, rfl, y, hy, ⟨u, hu⟩, rfl⟩
          | false =>
            right
            simp only [eval_bind_ok, eval_cls_ok] at h
            obtain ⟨y, hy, u, hu, h⟩ := h
            cases h
            exact ⟨hp, rfl, y, hy, ⟨u, hu⟩, rfl⟩
      · rw [if_neg hp] at h
        cases h
        exact .inl ⟨hp, rfl⟩
    | _ => cases h

theorem descend_cls {n : Nat} {x : List Nat × List (List Nat)} (h : (descend m q n).eval T H ini t = .ok (.ok x)) : t.cls = m + 1 ∨ t.cls = m + 2 ∨ t.cls = m + 3 := by
  cases n with
  | zero => cases h
  | succ n =>
    rcases descend_succ h with ⟨h | h, _⟩ | ⟨h, _⟩
    · exact .inl h
    · exact .inr (.inl h)
    · exact .inr (.inr h)

theorem descend_mono : ∀ {n n' : Nat} {t : PTree} {x : List Nat × List (List Nat)}, n ≤ n' → (descend m q n).eval T H ini t = .ok (.ok x) →
    (descend m q n').eval T H ini t = .ok (.ok x)
  | 0, _, _, _, _, h => by cases h
  | n + 1, 0, _, _, h, _ => by omega
  | n + 1, n' + 1, t, x, hn, h => by
    have at_mono : ∀ {ρ : List Nat} {y}, ((descend m q n).at ρ).eval T H ini t = .ok (.ok y) → ((descend m q n').at ρ).eval T H ini t = .ok (.ok y) := by
      intro ρ y hx
      obtain ⟨u, hu, hx⟩ := descend_sub hx
      rw [Prog.eval_at hu]
      exact descend_mono (by omega) hx
    rw [descend, eval_cls_here]
    rcases descend_succ h with ⟨h1, rfl⟩ | ⟨h3, p, hv, h⟩
    · rw [if_pos h1]; rfl
    · rw [if_neg (by omega), if_pos h3, eval_read_here hv]
      simp only
      rcases h with ⟨hp, rfl⟩ | ⟨hp, hq, y, hy, ⟨u, hu⟩, rfl⟩ | ⟨hp, hq, y, hy, ⟨u, hu⟩, rfl⟩
      · rw [if_neg hp]; rfl
      · rw [if_pos hp, hq]
        simp only
        rw [eval_bind, at_mono hy, Except.bind_ok]
        exact eval_cls_at hu
      · rw [if_pos hp, hq]
        simp only
        rw [eval_bind, at_mono hy, Except.bind_ok]
        exact eval_cls_at hu

/-- What `descend` raises. -/
theorem descend_raises : ∀ {n : Nat} {t : PTree} {e : PyErr}, (descend m q n).eval T H ini t = .ok (.error e) → e ≠ .keyError
  | 0, _, _, h => by cases h; simp
  | n + 1, t, e, h => by
    have at_raises : ∀ {ρ : List Nat}, ((descend m q n).at ρ).eval T H ini t = .ok (.error e) → e ≠ .keyError := by
      intro ρ h
      cases n with
      | zero => cases h; simp
      | succ n =>
        rcases hw : (TVal.sub t).walk T ini ρ with e' | v | u
        · simp only [descend, Prog.at, Prog.eval, List.append_nil, hw, Except.bind_error] at h; cases h
        · simp only [descend, Prog.at, Prog.eval, List.append_nil, hw, Except.bind_ok, TVal.asProof, Except.bind_error] at h; cases h
        · rw [Prog.eval_at hw] at h
          exact descend_raises h
    have rest : ∀ {ρ ρ' : List Nat} {f : List Nat × List (List Nat) → List Nat × List (List Nat)},
        ((do let x ← (descend m q n).at ρ; .cls ρ' fun _ => .ret (.ok (f x)) : Prog (List Nat × List (List Nat)))).eval T H ini t = .ok (.error e) → e ≠ .keyError := by
      intro ρ ρ' f h
      rw [eval_bind] at h
      rcases hd : ((descend m q n).at ρ).eval T H ini t with e' | e' | x <;> rw [hd] at h
      · cases h
      · cases h; exact at_raises hd
      · simp only [Except.bind_ok, Prog.eval] at h
        rcases hw : (TVal.sub t).walk T ini ρ' with e' | v | u <;> rw [hw] at h
        · cases h
        · cases h
        · cases h
    rw [descend, eval_cls_here] at h
    split at h
    · cases h
    split at h
    · simp only [Prog.eval] at h
      cases hw : (TVal.sub t).walk T ini [0] with
      | error e' => rw [hw] at h; cases h
      | ok v =>
        rw [hw, Except.bind_ok] at h
        split at h
        · split at h
          · split at h
            · cases h; simp
            · exact rest (f := fun x => (2 :: x.1, x.2.map (2 :: ·) ++ [[1]])) h
            · exact rest (f := fun x => (1 :: x.1, x.2.map (1 :: ·) ++ [[2]])) h
          · cases h
        · cases h; simp
    · cases h; simp

theorem walk_not_keyError : ∀ {v : TVal} {π : List Nat}, v.walk T ini π ≠ .error .keyError
  | v, [] => by intro h; cases h
  | .prim v, i :: π => by intro h; cases h
  | .sub t, i :: π => by
    intro h
    simp only [TVal.walk] at h
    cases ha : t.attr T ini i with
    | error e =>
      rw [ha, Except.bind_error] at h
      cases h
      unfold PTree.attr at ha
      split at ha
      · cases ha
      · cases t with
        | node c fs => cases ha
        | pruned c d =>
          simp only [Prf.missing] at ha
          split at ha
          · split at ha <;> cases ha
          · cases ha
    | ok w =>
      rw [ha, Except.bind_ok] at h
      exact walk_not_keyError h

theorem read_not_keyError {α} {π : List Nat} {k : Option PVal → Prog α} (h : (Prog.read π k).eval T H ini t = .error .keyError) : ∃ v, (k v).eval T H ini t = .error .keyError := by
  simp only [Prog.eval] at h
  cases hw : (TVal.sub t).walk T ini π with
  | error e => rw [hw, Except.bind_error] at h; cases h; exact absurd hw walk_not_keyError
  | ok v => rw [hw, Except.bind_ok] at h; exact ⟨_, h⟩

theorem cls_not_keyError {α} {π : List Nat} {k : Nat → Prog α} (h : (Prog.cls π k).eval T H ini t = .error .keyError) : ∃ c, (k c).eval T H ini t = .error .keyError := by
  simp only [Prog.eval] at h
  rcases hw : (TVal.sub t).walk T ini π with e | v | u
  · rw [hw, Except.bind_error] at h; cases h; exact absurd hw walk_not_keyError
  · rw [hw, Except.bind_ok] at h; cases h
  · rw [hw, Except.bind_ok] at h; exact ⟨_, h⟩

theorem bind_not_keyError {α β} {p : Prog α} {f : α → Prog β} (h : (p >>= f).eval T H ini t = .error .keyError) :
    p.eval T H ini t = .error .keyError ∨ ∃ a, (f a).eval T H ini t = .error .keyError := by
  rw [eval_bind] at h
  rcases hp : p.eval T H ini t with e | e | a <;> rw [hp] at h
  · left; cases h; rfl
  · cases h
  · right; exact ⟨a, h⟩

theorem descend_not_keyError : ∀ {n : Nat} {t : PTree}, (descend m q n).eval T H ini t ≠ .error .keyError
  | 0, _ => by intro h; cases h
  | n + 1, t => by
    have at_not : ∀ {ρ : List Nat}, ((descend m q n).at ρ).eval T H ini t ≠ .error .keyError := by
      intro ρ h
      cases n with
      | zero => cases h
      | succ n =>
        rcases hw : (TVal.sub t).walk T ini ρ with e' | v | u
        · simp only [descend, Prog.at, Prog.eval, List.append_nil, hw, Except.bind_error] at h; cases h; exact walk_not_keyError hw
        · simp only [descend, Prog.at, Prog.eval, List.append_nil, hw, Except.bind_ok, TVal.asProof, Except.bind_error] at h; cases h
        · rw [Prog.eval_at hw] at h
          exact descend_not_keyError h
    intro h
    rw [descend, eval_cls_here] at h
    split at h
    · cases h
    split at h
    · obtain ⟨v, h⟩ := read_not_keyError h
      split at h
      · split at h
        · split at h
          · cases h
          · rcases bind_not_keyError h with h | ⟨_, h⟩
            · exact at_not h
            · obtain ⟨c, h⟩ := cls_not_keyError h; cases h
          · rcases bind_not_keyError h with h | ⟨_, h⟩
            · exact at_not h
            · obtain ⟨c, h⟩ := cls_not_keyError h; cases h
        · cases h
      · cases h
    · cases h

/-- Looking up a key: found, or found to be absent. -/
def Settled (x : Py (List Nat)) : Prop := (∃ π, x = .ok π) ∨ x = .error .keyError

theorem locate_ok {n : Nat} {key : PVal} {p : List Bool} (hp : k2p key = .ok p) {x : Py (List Nat)} (hx : Settled x) (h : (locate m k2p n key).eval T H ini t = .ok x) :
    ∃ y, (descend m p n).eval T H ini t = .ok (.ok y) ∧ (Prog.cls y.1 fun c =>
      if c = m + 2 then .read (y.1 ++ [0]) fun k => if k = some key then .ret (.ok (y.1 ++ [1])) else .ret (.error .keyError)
      else .ret (.error .keyError) : Prog (List Nat)).eval T H ini t = .ok x := by
  unfold locate at h
  rw [eval_bind] at h
  simp only [Prog.eval, hp, Except.bind_ok] at h
  rw [eval_bind] at h
  rcases hd : (descend m p n).eval T H ini t with e | e | y
  · rw [hd] at h; cases h
  · rw [hd] at h
    cases h
    rcases hx with ⟨π, h⟩ | h
    · cases h
    · cases h; exact absurd rfl (descend_raises hd)
  · rw [hd] at h
    exact ⟨y, rfl, h⟩

theorem locate_mono {n n' : Nat} {key : PVal} {p : List Bool} (hp : k2p key = .ok p) {x : Py (List Nat)} (hx : Settled x) (hn : n ≤ n')
    (h : (locate m k2p n key).eval T H ini t = .ok x) : (locate m k2p n' key).eval T H ini t = .ok x := by
  obtain ⟨y, hy, h⟩ := locate_ok hp hx h
  unfold locate
  rw [eval_bind]
  simp only [Prog.eval, hp, Except.bind_ok]
  rw [eval_bind, descend_mono hn hy]
  exact h

theorem locate_cls {n : Nat} {key : PVal} {p : List Bool} (hp : k2p key = .ok p) {x : Py (List Nat)} (hx : Settled x) (h : (locate m k2p n key).eval T H ini t = .ok x) :
    t.cls = m + 1 ∨ t.cls = m + 2 ∨ t.cls = m + 3 := by
  obtain ⟨y, hy, _⟩ := locate_ok hp hx h
  exact descend_cls hy

theorem locate_pfx {n : Nat} {key : PVal} {π : List Nat} (h : (locate m k2p n key).eval T H ini t = .ok (.ok π)) : ∃ p, k2p key = .ok p := by
  unfold locate at h
  rw [eval_bind_ok] at h
  obtain ⟨a, ha, _⟩ := h
  cases hk : k2p key with
  | error e => simp only [Prog.eval, hk] at ha; cases ha
  | ok p => exact ⟨p, rfl⟩

/-- What a successful look-up on the heap means. -/
theorem getItem_inv (hT : T.WF) {s s1 : PState} (hs : Reachable T H s) {r : Nat} (hr : Represents s r t) {key : PVal} {v : HVal}
    (h : getItem m k2p T H r key s = (.ok v, s1)) : ∃ π tv, (locate m k2p (s.objs.length + 1) key).eval T H s.inited t = .ok (.ok π) ∧
      (∀ ini, (TVal.sub t).walk T ini π = .ok tv) ∧ v.Rep s1 tv ∧ Steps T H s s1 := by
  unfold getItem at h
  obtain ⟨π, s2, e2, h⟩ := HM.bind_ok_inv h
  obtain ⟨st, hv⟩ := runM_eq hT (locate m k2p (s.objs.length + 1) key) hs hr
  rw [e2] at st hv
  have hπ := (hv π).mp rfl
  have hs2 : Reachable T H s2 := Steps.trans hs st
  obtain ⟨st2, h3, h4⟩ := walk_rep hT hs2 (st.represents hT hs hr) π
  rw [h] at st2 h3 h4
  cases hw : (TVal.sub t).walk T s2.inited π with
  | error e => have := h3 e hw; cases this
  | ok tv =>
    obtain ⟨v', hv', hrep⟩ := h4 tv hw
    cases hv'
    exact ⟨π, tv, hπ, fun ini => TVal.walk_inited _ ini _ _ _ hw, hrep, Steps.trans st st2⟩

/-- What a `KeyError` means. -/
theorem getItem_absent (hT : T.WF) {s : PState} (hs : Reachable T H s) {r : Nat} (hr : Represents s r t) {key : PVal} {p : List Bool} (hp : k2p key = .ok p)
    (h : (getItem m k2p T H r key s).1 = .error .keyError) : (locate m k2p (s.objs.length + 1) key).eval T H s.inited t = .ok (.error .keyError) := by
  have hv := runM_val hT (locate m k2p (s.objs.length + 1) key) hs hr
  obtain ⟨st, hok⟩ := runM_eq hT (locate m k2p (s.objs.length + 1) key) hs hr
  unfold getItem at h
  rw [HM.bind_apply] at h
  rcases hr2 : (locate m k2p (s.objs.length + 1) key).runM T H r s with ⟨e | π, s2⟩
  · rw [hr2] at h hv
    simp only [Except.error.injEq] at h
    subst h
    rcases he : (locate m k2p (s.objs.length + 1) key).eval T H s.inited t with e | e | π
    · rw [he, Except.bind_error] at hv
      cases hv
      exfalso
      unfold locate at he
      rcases bind_not_keyError he with he | ⟨a, he⟩
      · cases he
      rcases bind_not_keyError he with he | ⟨a, he⟩
      · exact descend_not_keyError he
      obtain ⟨c, he⟩ := cls_not_keyError he
      split at he
      · obtain ⟨v, he⟩ := read_not_keyError he
        split at he <;> cases he
      · cases he
    · rw [he, Except.bind_ok] at hv
      cases hv
      rfl
    · rw [he, Except.bind_ok] at hv
      cases hv
  · rw [hr2] at h st hok
    simp only at h
    exfalso
    have hs2 : Reachable T H s2 := Steps.trans hs st
    obtain ⟨_, h3, h4⟩ := walk_rep hT hs2 (st.represents hT hs hr) π
    rcases hw : (TVal.sub t).walk T s2.inited π with e | tv
    · rw [h3 e hw] at h
      cases h
      exact walk_not_keyError hw
    · obtain ⟨v, hv', _⟩ := h4 tv hw
      rw [hv'] at h
      cases h

end Merb
end Verif
