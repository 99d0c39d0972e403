import Verif.Lemmas.MmrProof
import Verif.Lemmas.ProofLost
/-! # What is read of a mountain range, and what is lost of it when it is sent -/
namespace Verif
open Seal

/-- `c` is declared somewhere where variants of a `VarProof` go: attributes are pruned to something that is not one. -/
def Table.Base (T : Table) (c : Nat) : Prop := ∃ us, (T c).variants = some us ∧ us.any (T.isInst c) = false

/-- From `t` to the sub-proof `u` by attributes all declared to be some `VarProof`. -/
inductive VarPath (T : Table) : PTree → List Nat → PTree → Prop where
  | here {t} : VarPath T t [] t
  | step {c fs i q π u b} : fs.get? i = some (.sub q) → (T c).attrs[i]? = some (.proof b) → T.Base b → VarPath T q π u → VarPath T (.node c fs) (i :: π) u

section
variable {T : Table} {H : HashFns} {t : PTree}

/-- What the rest of a computation reads. -/
def thenReads {α} (x : Py (Py α)) (f : α → List (List Nat)) : List (List Nat) :=
  match x with
  | .ok (.ok a) => f a
  | _ => []

@[simp] theorem thenReads_ok {α} {a : α} {f : α → List (List Nat)} : thenReads (.ok (.ok a)) f = f a := rfl
@[simp] theorem thenReads_raise {α} {e : PyErr} {f : α → List (List Nat)} : thenReads (.ok (.error e)) f = [] := rfl

theorem reads_bind {α β} (p : Prog α) (f : α → Prog β) : (p >>= f).reads T H t =
    p.reads T H t ++ thenReads (p.eval T H [] t) (fun a => (f a).reads T H t) := by
  show (p.bind f).reads T H t = _
  induction p with
  | ret a => cases a <;> simp [Prog.bind, Prog.reads, Prog.eval, thenReads]
  | read π k ih =>
    simp only [Prog.bind, Prog.reads, Prog.eval, thenReads] at ih ⊢
    cases (TVal.sub t).walk T [] π with
    | error e => simp [Except.bind_error]
    | ok v => cases v <;> simp only [Except.bind_ok, ih, List.append_assoc]
  | cls π k ih =>
    simp only [Prog.bind, Prog.reads, Prog.eval, thenReads] at ih ⊢
    rcases (TVal.sub t).walk T [] π with e | v | q
    · simp [Except.bind_error]
    · simp [Except.bind_ok, TVal.asProof, Except.bind_error]
    · simp only [Except.bind_ok, ih, List.append_assoc, TVal.asProof]
  | hash π k ih =>
    simp only [Prog.bind, Prog.reads, Prog.eval, thenReads] at ih ⊢
    rcases (TVal.sub t).walk T [] π with e | v | q
    · simp [Except.bind_error]
    · simp [Except.bind_ok, TVal.asProof, Except.bind_error]
    · simp only [Except.bind_ok, TVal.asProof]
      cases q.hash T H with
      | error e => simp [Except.bind_error]
      | ok h => simp only [Except.bind_ok, ih, List.append_assoc]
  | dataHash π k ih =>
    simp only [Prog.bind, Prog.reads, Prog.eval, thenReads] at ih ⊢
    rcases (TVal.sub t).walk T [] π with e | v | q
    · simp [Except.bind_error]
    · simp [Except.bind_ok, TVal.asProof, Except.bind_error]
    · simp only [Except.bind_ok, TVal.asProof]
      cases q.dataHash T H with
      | error e => simp [Except.bind_error]
      | ok h => simp only [Except.bind_ok, ih, List.append_assoc]

theorem readsOn_append : ∀ (ρ π : List Nat) (v w : TVal), v.walk T [] ρ = .ok w → v.readsOn (ρ ++ π) = v.readsOn ρ ++ (w.readsOn π).map (ρ ++ ·)
  | [], π, v, w, h => by
    cases h
    cases v with
    | prim v => simp [TVal.readsOn]
    | sub t => cases π <;> simp [TVal.readsOn]
  | i :: ρ, π, .prim v, w, h => by cases h
  | i :: ρ, π, .sub t, w, h => by
    simp only [TVal.walk] at h
    obtain ⟨u, hu, h⟩ := Except.bind_eq_ok h
    have hu' := attr_ok.mp hu
    simp only [List.cons_append, TVal.readsOn, hu', readsOn_append ρ π u w h, List.map_append, List.map_map, List.cons.injEq, true_and]
    rfl

/-- What is read by a computation done on the sub-proof at `ρ`. -/
theorem reads_at {α} {ρ : List Nat} {q : PTree} (hq : (TVal.sub t).walk T [] ρ = .ok (.sub q)) (p : Prog α) (x : List Nat) :
    x ∈ (p.at ρ).reads T H t → x ∈ (TVal.sub t).readsOn ρ ∨ ∃ y ∈ p.reads T H q, x = ρ ++ y := by
  have key : ∀ π, x ∈ (TVal.sub t).readsOn (ρ ++ π) → x ∈ (TVal.sub t).readsOn ρ ∨ ∃ y ∈ (TVal.sub q).readsOn π, x = ρ ++ y := by
    intro π h
    rw [readsOn_append ρ π _ _ hq, List.mem_append, List.mem_map] at h
    rcases h with h | ⟨y, hy, rfl⟩
    · exact .inl h
    · exact .inr ⟨y, hy, rfl⟩
  induction p with
  | ret a => intro h; cases h
  | read π k ih =>
    simp only [Prog.at, Prog.reads, walk_append, hq, Except.bind_ok, List.mem_append]
    rintro (h | h)
    · rcases key π h with h | ⟨y, hy, rfl⟩
      · exact .inl h
      · exact .inr ⟨y, .inl hy, rfl⟩
    · cases hw : (TVal.sub q).walk T [] π with
      | error e => rw [hw] at h; cases h
      | ok v =>
        rw [hw] at h
        rcases ih _ h with h | ⟨y, hy, rfl⟩
        · exact .inl h
        · exact .inr ⟨y, .inr hy, rfl⟩
  | cls π k ih =>
    simp only [Prog.at, Prog.reads, walk_append, hq, Except.bind_ok, List.mem_append]
    rintro (h | h)
    · rcases key π h with h | ⟨y, hy, rfl⟩
      · exact .inl h
      · exact .inr ⟨y, .inl hy, rfl⟩
    · rcases hw : (TVal.sub q).walk T [] π with e | v | u <;> rw [hw] at h
      · cases h
      · cases h
      · rcases ih _ h with h | ⟨y, hy, rfl⟩
        · exact .inl h
        · exact .inr ⟨y, .inr hy, rfl⟩
  | hash π k ih =>
    simp only [Prog.at, Prog.reads, walk_append, hq, Except.bind_ok, List.mem_append]
    rintro (h | h)
    · rcases key π h with h | ⟨y, hy, rfl⟩
      · exact .inl h
      · exact .inr ⟨y, .inl hy, rfl⟩
    · rcases hw : (TVal.sub q).walk T [] π with e | v | u <;> rw [hw] at h
      · cases h
      · cases h
      · simp only at h ⊢
        cases hh : u.hash T H with
        | error e => rw [hh] at h; cases h
        | ok d =>
          rw [hh] at h
          rcases ih _ h with h | ⟨y, hy, rfl⟩
          · exact .inl h
          · exact .inr ⟨y, .inr hy, rfl⟩
  | dataHash π k ih =>
    simp only [Prog.at, Prog.reads, walk_append, hq, Except.bind_ok, List.mem_append]
    rintro (h | h)
    · rcases key π h with h | ⟨y, hy, rfl⟩
      · exact .inl h
      · exact .inr ⟨y, .inl hy, rfl⟩
    · rcases hw : (TVal.sub q).walk T [] π with e | v | u <;> rw [hw] at h
      · cases h
      · cases h
      · simp only at h ⊢
        cases hh : u.dataHash T H with
        | error e => rw [hh] at h; cases h
        | ok d =>
          rw [hh] at h
          rcases ih _ h with h | ⟨y, hy, rfl⟩
          · exact .inl h
          · exact .inr ⟨y, .inr hy, rfl⟩

theorem PFields.loses_of : ∀ {fs : PFields} {ks : List Kind} {i : Nat} {q : PTree} {b : Nat}, fs.get? i = some (.sub q) → ks[i]? = some (.proof b) →
    fs.length = ks.length → ((∃ c d, q = .pruned c d ∧ T.Base b) ∨ q.Loses T) → fs.Loses T ks
  | .nil, _, i, q, b, h, _, _, _ => by cases i <;> cases h
  | .prim v fs, [], _, _, _, _, hk, _, _ => by simp at hk
  | .sub v fs, [], _, _, _, _, hk, _, _ => by simp at hk
  | .prim v fs, k :: ks, 0, q, b, h, _, _, _ => by cases h
  | .prim v fs, k :: ks, i + 1, q, b, h, hk, hl, hq => by
    rw [PFields.Loses]
    exact PFields.loses_of (i := i) h hk (by simpa [PFields.length] using hl) hq
  | .sub t fs, k :: ks, 0, q, b, h, hk, hl, hq => by
    cases h
    cases hk
    rcases hq with ⟨c, d, rfl, hb⟩ | hq
    · rw [PFields.Loses]; exact .inl hb
    · cases t with
      | pruned c d => rw [PTree.Loses] at hq; exact hq.elim
      | node c fs' => rw [PFields.Loses]; exact .inl hq
  | .sub t fs, k :: ks, i + 1, q, b, h, hk, hl, hq => by
    have ih := PFields.loses_of (i := i) (fs := fs) h hk (by simpa [PFields.length] using hl) hq
    cases t <;> cases k <;> rw [PFields.Loses] <;> first | exact .inr ih | exact ih | (intros; simp_all)

theorem PFields.reveal_get {S : List (List Nat)} {π : List Nat} : ∀ {fs : PFields} {j i : Nat} {q : PTree}, fs.get? i = some (.sub q) →
    (fs.reveal T H S π j).get? i = some (.sub (q.reveal T H S (π ++ [j + i])))
  | .nil, _, i, _, h => by cases i <;> cases h
  | .prim v fs, j, 0, q, h => by cases h
  | .prim v fs, j, i + 1, q, h => by
    rw [PFields.reveal]
    have := PFields.reveal_get (S := S) (π := π) (fs := fs) (j := j + 1) (i := i) (q := q) h
    rw [show j + 1 + i = j + (i + 1) by omega] at this
    exact this
  | .sub t fs, j, 0, q, h => by cases h; rw [PFields.reveal]; rfl
  | .sub t fs, j, i + 1, q, h => by
    rw [PFields.reveal]
    have := PFields.reveal_get (S := S) (π := π) (fs := fs) (j := j + 1) (i := i) (q := q) h
    rw [show j + 1 + i = j + (i + 1) by omega] at this
    exact this

theorem PFields.reveal_length {S : List (List Nat)} {π : List Nat} : ∀ {fs : PFields} {j : Nat}, (fs.reveal T H S π j).length = fs.length
  | .nil, _ => by simp [PFields.reveal]
  | .prim v fs, j => by simp [PFields.reveal, PFields.length, PFields.reveal_length]
  | .sub t fs, j => by simp [PFields.reveal, PFields.length, PFields.reveal_length]

/-- If an attribute of `t` was read, but none of some proof found from `t` by attributes declared to be `VarProof`s, what is
sent of `t` cannot be received. -/
theorem reveal_loses {S : List (List Nat)} {t u : PTree} {π : List Nat} (hp : VarPath T t π u) : ∀ {ρ : List Nat}, t.Checked T → ρ ∈ S → ρ ++ π ∉ S →
    (t.reveal T H S ρ).Loses T := by
  induction hp with
  | here => intro ρ _ h h'; rw [List.append_nil] at h'; exact absurd h h'
  | @step c fs i q π u b hi hk hb _ ih =>
    intro ρ hc hρ hn
    rw [PTree.reveal, if_pos hρ, PTree.Loses]
    have hlen : fs.length = (T c).attrs.length := PFields.Checked.length T hc
    have hg := PFields.reveal_get (T := T) (H := H) (S := S) (π := ρ) (j := 0) hi
    rw [Nat.zero_add] at hg
    refine PFields.loses_of hg hk (by rw [PFields.reveal_length, hlen]) ?_
    have hqc : q.Checked T := PFields.Checked.getSub (i := i) hc hi
    by_cases hm : ρ ++ [i] ∈ S
    · right
      exact ih hqc hm (by simpa using hn)
    · left
      cases q with
      | pruned c' d => exact ⟨c', d, by rw [PTree.reveal], hb⟩
      | node c' fs' => rw [PTree.reveal, if_neg hm]; exact ⟨_, _, rfl, hb⟩
end

namespace Mmr
variable {T : Table} {H : HashFns} {m : Nat} {tag : Bytes} {k : Kind}

theorem base_base (hD : Declares T H m tag k) : T.Base m := by
  refine ⟨_, by rw [hD.base], ?_⟩
  simp [Table.isInst, hD.base]

theorem reads_len {t : MMR TVal} {x : List Nat} (h : x ∈ (len m).reads T H (emb m t)) : x = [] ∧ ∃ l r n, t = .inner l r n := by
  cases t with
  | empty => simp [len, Prog.reads, TVal.readsOn, TVal.walk] at h
  | leaf v => simp [len, Prog.reads, TVal.readsOn, TVal.walk] at h
  | inner l r n =>
    refine ⟨?_, l, r, n, rfl⟩
    simp [len, Prog.reads, TVal.readsOn, TVal.walk, emb, PTree.get?, PFields.get?, PTree.attr, PTree.cls, Except.bind_ok] at h
    exact h

theorem readsOn_child {l r : MMR TVal} {n i : Nat} {x : List Nat} (h : x ∈ (TVal.sub (emb m (.inner l r n))).readsOn [i]) : x = [] := by
  simp only [TVal.readsOn] at h
  split at h
  · cases h
  · next w hw =>
    cases w <;> simpa [TVal.readsOn] using h

theorem reads_len_inner {l r : MMR TVal} {n : Nat} : [] ∈ (len m).reads T H (emb m (.inner l r n)) := by
  simp [len, Prog.reads, TVal.readsOn, TVal.walk, emb, PTree.get?, PFields.get?, PTree.attr, PTree.cls, Except.bind_ok]

/-- Looking up an item reads the root, and either finds it on the left and does not read the right side, or finds it on the
right and reads of the left side at most its length. -/
theorem reads_locate {l r : MMR TVal} {len' n : Nat} {idx : Int} : [] ∈ (locate m (n + 1) idx).reads T H (emb m (.inner l r len')) ∧
    (([1] ∉ (locate m (n + 1) idx).reads T H (emb m (.inner l r len')) ∧
        ∀ π, (locate m (n + 1) idx).eval T H [] (emb m (.inner l r len')) = .ok (.ok π) → ∃ π', π = 0 :: π') ∨
      ((∀ y, 0 :: y ∈ (locate m (n + 1) idx).reads T H (emb m (.inner l r len')) → y = [] ∧ ∃ a b c, l = .inner a b c) ∧
        ∀ π, (locate m (n + 1) idx).eval T H [] (emb m (.inner l r len')) = .ok (.ok π) → ∃ π', π = 1 :: π')) := by
  have key : ∀ {p : Prog (List Nat)}, (∃ f : Nat → Prog (List Nat), p = (len m >>= f) ∧ ∀ L, (((∀ x ∈ (f L).reads T H (emb m (.inner l r len')), x ≠ [1]) ∧
        ∀ π, (f L).eval T H [] (emb m (.inner l r len')) = .ok (.ok π) → ∃ π', π = 0 :: π') ∨
      ((∀ y, 0 :: y ∈ (f L).reads T H (emb m (.inner l r len')) → y = [] ∧ ∃ a b c, l = .inner a b c) ∧
        ∀ π, (f L).eval T H [] (emb m (.inner l r len')) = .ok (.ok π) → ∃ π', π = 1 :: π'))) →
      [] ∈ p.reads T H (emb m (.inner l r len')) ∧ (([1] ∉ p.reads T H (emb m (.inner l r len')) ∧
        ∀ π, p.eval T H [] (emb m (.inner l r len')) = .ok (.ok π) → ∃ π', π = 0 :: π') ∨
      ((∀ y, 0 :: y ∈ p.reads T H (emb m (.inner l r len')) → y = [] ∧ ∃ a b c, l = .inner a b c) ∧
        ∀ π, p.eval T H [] (emb m (.inner l r len')) = .ok (.ok π) → ∃ π', π = 1 :: π')) := by
    rintro p ⟨f, rfl, hf⟩
    rw [reads_bind, eval_bind, eval_len]
    refine ⟨List.mem_append_left _ reads_len_inner, ?_⟩
    cases (MMR.inner l r len').len with
    | error e =>
      left
      simp only [List.append_nil, thenReads_raise]
      exact ⟨(fun h => by cases (reads_len h).1), (fun π h => by cases h)⟩
    | ok L =>
      simp only [Except.bind_ok, thenReads_ok]
      rcases hf L with ⟨h, he⟩ | ⟨h, he⟩
      · left
        refine ⟨?_, he⟩
        rw [List.mem_append]
        rintro (h' | h')
        · cases (reads_len h').1
        · exact h _ h' rfl
      · right
        refine ⟨?_, he⟩
        intro y hy
        rw [List.mem_append] at hy
        rcases hy with h' | h'
        · cases (reads_len h').1
        · exact h y h'
  have hbody : ∃ p : Prog (List Nat), (p = do
        let l' ← len m
        let idx := if idx < 0 then (l' : Int) + idx else idx
        if ¬ (0 ≤ idx ∧ idx < l') then .ret (.error .indexError)
        else do
          let a ← (len m).at [0]
          if 0 ≤ idx ∧ idx < a then do
            let π ← (locate m n idx).at [0]
            return 0 :: π
          else do
            let b ← (len m).at [1]
            if (a : Int) ≤ idx ∧ idx < (a : Int) + b then do
              let π ← (locate m n (idx - a)).at [1]
              return 1 :: π
            else .ret (.error .assertion)) ∧ (locate m (n + 1) idx).reads T H (emb m (.inner l r len')) = p.reads T H (emb m (.inner l r len')) ∧
        (locate m (n + 1) idx).eval T H [] (emb m (.inner l r len')) = p.eval T H [] (emb m (.inner l r len')) := by
    refine ⟨_, rfl, ?_, ?_⟩
    · simp only [locate, Prog.reads, TVal.readsOn, TVal.walk, List.nil_append, emb_cls_inner, ne31, ne32, if_false, if_true]
    · simp only [locate, eval_cls_here, emb_cls_inner, ne31, ne32, if_false, if_true]
  obtain ⟨p, hp, e1, e2⟩ := hbody
  rw [e1, e2]
  apply key
  refine ⟨_, hp, fun L => ?_⟩
  clear hp e1 e2 key
  simp only
  generalize (if idx < 0 then (L : Int) + idx else idx) = idx
  by_cases h1 : ¬ (0 ≤ idx ∧ idx < L)
  · rw [if_pos h1]; left; exact ⟨(fun x hx => by cases hx), (fun π h => by cases h)⟩
  rw [if_neg h1, reads_bind, eval_bind, Prog.eval_at (walk_left l r len'), eval_len]
  have hleft : ∀ x ∈ ((len m).at [0]).reads T H (emb m (.inner l r len')), x = [] ∨ (x = [0] ∧ ∃ a b c, l = .inner a b c) := by
    intro x hx
    rcases reads_at (walk_left l r len') _ x hx with h | ⟨y, hy, rfl⟩
    · exact .inl (readsOn_child h)
    · obtain ⟨rfl, h⟩ := reads_len hy; exact .inr ⟨rfl, h⟩
  have hright : ∀ x ∈ ((len m).at [1]).reads T H (emb m (.inner l r len')), x = [] ∨ x = [1] := by
    intro x hx
    rcases reads_at (walk_right l r len') _ x hx with h | ⟨y, hy, rfl⟩
    · exact .inl (readsOn_child h)
    · obtain ⟨rfl, h⟩ := reads_len hy; exact .inr rfl
  cases l.len with
  | error e =>
    left
    refine ⟨?_, fun π h => by cases h⟩
    intro x hx
    simp only [List.append_nil, thenReads_raise] at hx
    rcases hleft x hx with h | ⟨h, _⟩ <;> rw [h] <;> simp
  | ok a =>
    simp only [Except.bind_ok, thenReads_ok]
    by_cases h2 : 0 ≤ idx ∧ idx < a
    · rw [if_pos h2]
      left
      constructor
      · intro x hx
        rw [List.mem_append] at hx
        rcases hx with hx | hx
        · rcases hleft x hx with h | ⟨h, _⟩ <;> rw [h] <;> simp
        · rw [reads_bind, List.mem_append] at hx
          rcases hx with hx | hx
          · rcases reads_at (walk_left l r len') _ x hx with h | ⟨y, hy, rfl⟩
            · rw [readsOn_child h]; simp
            · simp
          · (unfold thenReads at hx; split at hx <;> cases hx)
      · intro π h
        rw [eval_bind_ok] at h
        obtain ⟨π', _, h⟩ := h
        cases h
        exact ⟨π', rfl⟩
    · rw [if_neg h2]
      right
      constructor
      · intro y hy
        rw [List.mem_append] at hy
        rcases hy with hx | hx
        · rcases hleft _ hx with h | ⟨h, h'⟩
          · cases h
          · cases h; exact ⟨rfl, h'⟩
        · rw [reads_bind, List.mem_append] at hx
          rcases hx with hx | hx
          · rcases hright _ hx with h | h <;> cases h
          · rw [Prog.eval_at (walk_right l r len'), eval_len] at hx
            cases hrl : r.len with
            | error e => rw [hrl] at hx; cases hx
            | ok b =>
              rw [hrl] at hx
              simp only [thenReads_ok] at hx
              split at hx
              · rw [reads_bind, List.mem_append] at hx
                rcases hx with hx | hx
                · rcases reads_at (walk_right l r len') _ _ hx with h | ⟨y, hy, h⟩
                  · cases readsOn_child h
                  · cases h
                · (unfold thenReads at hx; split at hx <;> cases hx)
              · cases hx
      · intro π h
        rw [eval_bind_ok] at h
        obtain ⟨b, _, h⟩ := h
        split at h
        · rw [eval_bind_ok] at h
          obtain ⟨π', _, h⟩ := h
          cases h
          exact ⟨π', rfl⟩
        · cases h

theorem varPath_left (hD : Declares T H m tag k) {l r : MMR TVal} {n : Nat} {π : List Nat} {u : PTree} (h : VarPath T (emb m l) π u) :
    VarPath T (emb m (.inner l r n)) (0 :: π) u :=
  .step (i := 0) (b := m) rfl (by rw [hD.inner]; rfl) (base_base hD) h

theorem varPath_right (hD : Declares T H m tag k) {l r : MMR TVal} {n : Nat} {π : List Nat} {u : PTree} (h : VarPath T (emb m r) π u) :
    VarPath T (emb m (.inner l r n)) (1 :: π) u :=
  .step (i := 1) (b := m) rfl (by rw [hD.inner]; rfl) (base_base hD) h

/-- `self[idx]` as one computation: what it does to the heap. -/
def item (m n : Nat) (idx : Int) : Prog Unit := do
  let π ← locate m n idx
  .read π fun _ => .ret (.ok ())

theorem readsOn_head {t : PTree} {i : Nat} {π x : List Nat} (h : x ∈ (TVal.sub t).readsOn (i :: π)) : x = [] ∨ ∃ y, x = i :: y := by
  simp only [TVal.readsOn] at h
  split at h
  · cases h
  · rcases List.mem_cons.mp h with h | h
    · exact .inl h
    · obtain ⟨y, _, rfl⟩ := List.mem_map.mp h
      exact .inr ⟨y, rfl⟩

/-- Some node is not read when an item is looked up. -/
theorem item_unread (hD : Declares T H m tag k) {l r : MMR TVal} {len' n : Nat} {idx : Int} :
    [] ∈ (item m (n + 1) idx).reads T H (emb m (.inner l r len')) ∧
    ∃ π u, VarPath T (emb m (.inner l r len')) π u ∧ π ∉ (item m (n + 1) idx).reads T H (emb m (.inner l r len')) := by
  obtain ⟨h0, h1⟩ := reads_locate (T := T) (H := H) (m := m) (l := l) (r := r) (len' := len') (n := n) (idx := idx)
  unfold item
  rw [reads_bind]
  refine ⟨List.mem_append_left _ h0, ?_⟩
  have rest : ∀ {i : Nat} {x : List Nat}, (∀ π, (locate m (n + 1) idx).eval T H [] (emb m (.inner l r len')) = .ok (.ok π) → ∃ π', π = i :: π') →
      x ∈ thenReads ((locate m (n + 1) idx).eval T H [] (emb m (.inner l r len')))
        (fun a => (Prog.read a fun _ => .ret (.ok ()) : Prog Unit).reads T H (emb m (.inner l r len'))) → x = [] ∨ ∃ y, x = i :: y := by
    intro i x hpi hx
    rcases he : (locate m (n + 1) idx).eval T H [] (emb m (.inner l r len')) with e | e | π <;> rw [he] at hx
    · cases hx
    · cases hx
    · obtain ⟨π', rfl⟩ := hpi π he
      simp only [thenReads_ok, Prog.reads, List.mem_append] at hx
      rcases hx with hx | hx
      · exact readsOn_head hx
      · split at hx <;> cases hx
  rcases h1 with ⟨h, hπ⟩ | ⟨h, hπ⟩
  · refine ⟨[1], _, varPath_right hD .here, ?_⟩
    rw [List.mem_append]
    rintro (h' | h')
    · exact h h'
    · rcases rest hπ h' with h | ⟨y, h⟩ <;> cases h
  · have h2 : ∀ y, 0 :: y ∈ (locate m (n + 1) idx).reads T H (emb m (.inner l r len')) ++ thenReads ((locate m (n + 1) idx).eval T H [] (emb m (.inner l r len')))
        (fun a => (Prog.read a fun _ => .ret (.ok ()) : Prog Unit).reads T H (emb m (.inner l r len'))) → y = [] ∧ ∃ a b c, l = .inner a b c := by
      intro y hy
      rw [List.mem_append] at hy
      rcases hy with hy | hy
      · exact h y hy
      · rcases rest hπ hy with h | ⟨y, h⟩ <;> cases h
    cases l with
    | inner a b c => exact ⟨[0, 0], _, varPath_left hD (varPath_left hD .here), fun h' => by cases (h2 _ h').1⟩
    | empty => exact ⟨[0], _, varPath_left hD .here, fun h' => by obtain ⟨_, _, _, _, h'⟩ := h2 _ h'; cases h'⟩
    | leaf v => exact ⟨[0], _, varPath_left hD .here, fun h' => by obtain ⟨_, _, _, _, h'⟩ := h2 _ h'; cases h'⟩

theorem HM.bind_assoc {α β γ} (x : HM α) (f : α → HM β) (g : β → HM γ) : (x >>= f) >>= g = x >>= fun a => f a >>= g := by
  funext s
  simp only [HM.bind_apply]
  rcases x s with ⟨_ | _, _⟩ <;> rfl

theorem HM.bind_eta {α β} (x : HM α) (f g : α → HM β) (h : ∀ a, f a = g a) : x >>= f = x >>= g := by
  rw [funext h]

theorem run_bind {α β} (p : Prog α) (f : α → Prog β) (r : Nat) : (p >>= f).run T H r =
    p.run T H r >>= fun x => (match x with | .ok a => (f a).run T H r | .error e => pure (.error e)) := by
  show (p.bind f).run T H r = _
  induction p with
  | ret a => cases a <;> rfl
  | read π k ih => simp only [Prog.bind, Prog.run, HM.bind_assoc, ih]
  | cls π k ih => simp only [Prog.bind, Prog.run, HM.bind_assoc, ih]
  | hash π k ih => simp only [Prog.bind, Prog.run, HM.bind_assoc, ih]
  | dataHash π k ih => simp only [Prog.bind, Prog.run, HM.bind_assoc, ih]

theorem getItem_state (r : Nat) (idx : Int) (s : PState) : (getItem m T H r idx s).2 = ((item m (s.objs.length + 1) idx).run T H r s).2 := by
  unfold getItem item
  unfold Prog.runM
  rw [run_bind, HM.bind_assoc, HM.bind_apply, HM.bind_apply]
  rcases (locate m (s.objs.length + 1) idx).run T H r s with ⟨e | e | π, s'⟩
  · rfl
  · rfl
  · simp only [HM.lift_apply, Prog.run, HM.bind_apply]
    rcases Prog.walk T (.ref r) π s' with ⟨e | v, s''⟩ <;> rfl

/-! ## Types and hashes -/

theorem emb_typed (hD : Declares T H m tag k) {xs : List TVal} {t : MMR TVal} (h : IsMMR xs t) (hb : xs.length < 2 ^ 63)
    (hv : ∀ v ∈ xs, (PFields.cons v .nil).WellTyped T [k]) : (emb m t).WellTyped T m := by
  induction h with
  | empty =>
    rw [emb, PTree.WellTyped, hD.base, hD.empty]
    refine ⟨⟨0, rfl, rfl, by simp [Table.isInst], fun j hj => by omega⟩, trivial⟩
  | leaf v =>
    rw [emb, PTree.WellTyped, hD.base, hD.leaf]
    refine ⟨⟨1, rfl, rfl, by simp [Table.isInst], fun j hj => ?_⟩, hv v (by simp)⟩
    obtain rfl : j = 0 := by omega
    simp [Table.isInst, hD.leaf]
  | @inner xs ys l r h1 h2 h3 h4 ih1 ih2 =>
    rw [List.length_append] at hb
    have hl := ih1 (by omega) fun v h => hv v (List.mem_append_left _ h)
    have hr := ih2 (by omega) fun v h => hv v (List.mem_append_right _ h)
    rw [emb, PTree.WellTyped, hD.base, hD.inner]
    refine ⟨⟨2, rfl, rfl, by simp [Table.isInst], fun j hj => ?_⟩, ?_⟩
    · obtain rfl | rfl : j = 0 ∨ j = 1 := by omega
      · simp [Table.isInst, hD.inner]
      · simp [Table.isInst, hD.inner]
    · simp only [PFields.WellTyped]
      refine ⟨⟨hl, ?_⟩, ⟨hr, ?_⟩, ⟨?_, trivial, _, rfl⟩, trivial⟩
      · intro us hus; rw [hD.base] at hus; cases hus; exact inst_variant hD l
      · intro us hus; rw [hD.base] at hus; cases hus; exact inst_variant hD r
      · simp only [PrimTy.uint64, PrimTy.check, List.length_append]
        rw [if_neg]
        omega

theorem emb_hash (hD : Declares T H m tag k) {t : MMR TVal} (hv : ∀ v ∈ t.items, ∃ b, (PFields.cons v .nil).hashBytes T H [k] = .ok b) :
    (emb m t).hash T H = .ok (t.hash H tag (valueSer T H k)) := by
  induction t with
  | empty => simp [emb, PTree.hash, hD.empty, PFields.hashBytes, Prf.tagHash, MMR.hash, Except.bind_ok]
  | leaf v =>
    obtain ⟨b, hb⟩ := hv v (by simp [MMR.items])
    simp [emb, PTree.hash, hD.leaf, hb, Prf.tagHash, MMR.hash, Except.bind_ok, valueSer]
  | inner l r n ih1 ih2 =>
    have h1 := ih1 fun v h => hv v (by rw [MMR.items]; exact List.mem_append_left _ h)
    have h2 := ih2 fun v h => hv v (by rw [MMR.items]; exact List.mem_append_right _ h)
    simp [emb, PTree.hash, hD.inner, PFields.hashBytes, h1, h2, Prf.tagHash, MMR.hash, Except.bind_ok, PrimTy.uint64, PrimTy.ser, writeVaruintInt_nonneg]
end Mmr
end Verif
