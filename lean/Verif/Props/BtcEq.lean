import Verif.Spec.BtcEq
import Verif.Props.Block
/-!
# C143: Bitcoin objects are compared by content
-/
namespace Verif.Btc
open BtcObj

theorem ofIn_inj : Function.Injective BtcContent.ofIn := by
  rintro ⟨⟨a, b⟩, c, d⟩ ⟨⟨a', b'⟩, c', d'⟩ h
  cases h; rfl

theorem ofOut_inj : Function.Injective BtcContent.ofOut := by
  rintro ⟨a, b⟩ ⟨a', b'⟩ h
  cases h; rfl

theorem ofTx_inj : Function.Injective BtcContent.ofTx := by
  rintro ⟨a, b, c, d⟩ ⟨a', b', c', d'⟩ h
  simp only [BtcContent.ofTx, BtcContent.tx.injEq, List.map_inj_right (fun _ _ => @ofIn_inj _ _), List.map_inj_right (fun _ _ => @ofOut_inj _ _)] at h
  simp [h]

theorem ofHeader_inj : Function.Injective BtcContent.ofHeader := by
  rintro ⟨a, b, c, d, e, f⟩ ⟨a', b', c', d', e', f'⟩ h
  cases h; rfl

theorem sub_iff (a b : BtcObj) : (b.cls.sub a.cls = true ∨ a.cls.sub b.cls = true) ↔ a.kind = b.kind := by
  rcases a with ⟨m, x⟩ | ⟨m, x⟩ | ⟨m, x⟩ | ⟨m, x⟩ | x | x <;> rcases b with ⟨n, y⟩ | ⟨n, y⟩ | ⟨n, y⟩ | ⟨n, y⟩ | y | y <;>
    (try cases m) <;> (try cases n) <;> simp [cls, BtcCls.sub, kind]

/-- A block is never written as a header is. -/
theorem header_ne_block {x : CBlockHeader} {y : CBlock} {e : Bytes} (h : x.ser = .ok e) (h' : y.ser = .ok e) : False := by
  obtain ⟨hb, _, h1, _, v, h2, rfl⟩ := CBlock.ser_serialized h'
  have l1 := (CBlockHeader.ser_ok h).1
  have l2 := (CBlockHeader.ser_ok h1).1
  rw [List.length_append, l2] at l1
  have hv : v = [] := List.length_eq_zero_iff.mp (by omega)
  subst hv
  unfold serVector at h2
  obtain ⟨l, hl, h2⟩ := Except.bind_eq_ok h2
  obtain ⟨bs, hb, h2⟩ := Except.bind_eq_ok h2
  cases l with
  | nil =>
    unfold serVarInt at hl
    split at hl
    · cases hl
    · split at hl
      · cases hl
      · split at hl
        · obtain ⟨_, _, hl⟩ := Except.bind_eq_ok hl; cases hl
        · split at hl <;> (obtain ⟨_, _, hl⟩ := Except.bind_eq_ok hl; cases hl)
  | cons c l => cases h2

/-- Objects of one kind are written in the same way only if they have the same content. -/
theorem ser_inj {a b : BtcObj} {e : Bytes} (hk : a.kind = b.kind) (h : a.ser = .ok e) (h' : b.ser = .ok e) : a.content = b.content := by
  rcases a with ⟨m, x⟩ | ⟨m, x⟩ | ⟨m, x⟩ | ⟨m, x⟩ | x | x <;> rcases b with ⟨n, y⟩ | ⟨n, y⟩ | ⟨n, y⟩ | ⟨n, y⟩ | y | y <;>
    first | (exfalso; simp [kind] at hk; done) | skip
  · rw [PF.outpoint.inj h h']; rfl
  · rw [PF.txin.inj h h']; rfl
  · rw [PF.txout.inj h h']; rfl
  · rw [PF.tx.inj h h']; rfl
  · rw [(RT.header h).inj (RT.header h')]
  · exact (header_ne_block h h').elim
  · exact (header_ne_block h' h).elim
  · rw [C88_block_injective h h']

theorem kind_of_content {a b : BtcObj} (h : a.content = b.content) : a.kind = b.kind := by
  rcases a with ⟨m, x⟩ | ⟨m, x⟩ | ⟨m, x⟩ | ⟨m, x⟩ | x | x <;> rcases b with ⟨n, y⟩ | ⟨n, y⟩ | ⟨n, y⟩ | ⟨n, y⟩ | y | y <;>
    first | rfl | cases h

theorem ser_of_content {a b : BtcObj} (h : a.content = b.content) : a.ser = b.ser := by
  rcases a with ⟨m, x⟩ | ⟨m, x⟩ | ⟨m, x⟩ | ⟨m, x⟩ | x | x <;> rcases b with ⟨n, y⟩ | ⟨n, y⟩ | ⟨n, y⟩ | ⟨n, y⟩ | y | y <;>
    first | (cases h; done) | skip
  · obtain ⟨_, _⟩ := x; obtain ⟨_, _⟩ := y; cases h; rfl
  · cases ofIn_inj h; rfl
  · cases ofOut_inj h; rfl
  · cases ofTx_inj h; rfl
  · cases ofHeader_inj h; rfl
  · obtain ⟨x1, x2⟩ := x; obtain ⟨y1, y2⟩ := y
    have h := BtcContent.block.inj h
    cases ofHeader_inj h.1
    rw [List.map_inj_right (fun _ _ => @ofTx_inj _ _)] at h
    cases h.2
    rfl

theorem eqMethod_eq (a b : BtcObj) : eqMethod a b = if a.kind = b.kind then (do let x ← a.ser; let y ← b.ser; return some (x == y)) else .ok none := by
  unfold eqMethod
  by_cases hk : a.kind = b.kind
  · rw [if_pos hk, if_neg]
    rcases (sub_iff a b).mpr hk with h | h <;> simp [h]
  · rw [if_neg hk, if_pos]
    have := mt (sub_iff a b).mp hk
    simpa using this

/-- What `==` does, for any two objects: objects of different kinds are different; objects of one kind that can be written are equal exactly if their contents are; the others
cannot be compared. -/
theorem C143_eq (a b : BtcObj) :
    (a.kind ≠ b.kind → pyEq a b = .ok false) ∧
    (a.kind = b.kind → (∃ x, a.ser = .ok x) → (∃ y, b.ser = .ok y) → ∃ r, pyEq a b = .ok r ∧ (r = true ↔ a.content = b.content)) ∧
    (a.kind = b.kind → ((∃ e, a.ser = .error e) ∨ ∃ e, b.ser = .error e) → ∃ e, pyEq a b = .error e) := by
  have key : ∀ p q : BtcObj, p.kind = q.kind → (eqMethod p q >>= fun z => match z with
      | some r => (pure r : Py Bool)
      | none => eqMethod q p >>= fun z => match z with
        | some r => pure r
        | none => pure false) = (do let x ← p.ser; let y ← q.ser; return x == y) := by
    intro p q hk
    rw [eqMethod_eq, if_pos hk]
    rcases hp : p.ser with e | x
    · rfl
    · rcases hq : q.ser with e | y <;> rfl
  refine ⟨fun hk => ?_, fun hk ⟨x, hx⟩ ⟨y, hy⟩ => ?_, fun hk he => ?_⟩
  · have h1 := mt (sub_iff a b).mp hk
    unfold pyEq
    rw [if_neg (fun h => h1 (.inl h.2))]
    simp only [eqMethod_eq, if_neg hk, if_neg (Ne.symm hk)]
    rfl
  · unfold pyEq
    split
    rename_i p q hpq
    split at hpq
    · cases hpq
      refine ⟨y == x, ?_, ?_⟩
      · refine (key b a hk.symm).trans ?_
        rw [hx, hy]; rfl
      · rw [beq_iff_eq]
        constructor
        · rintro rfl; exact ser_inj hk hx hy
        · intro h
          have := ser_of_content h
          rw [hx, hy] at this
          exact (Except.ok.inj this).symm
    · cases hpq
      refine ⟨x == y, ?_, ?_⟩
      · refine (key a b hk).trans ?_
        rw [hx, hy]; rfl
      · rw [beq_iff_eq]
        constructor
        · rintro rfl; exact ser_inj hk hx hy
        · intro h
          have := ser_of_content h
          rw [hx, hy] at this
          exact Except.ok.inj this
  · have fails : ∀ p q : BtcObj, ((∃ e, p.ser = .error e) ∨ ∃ e, q.ser = .error e) → ∃ e, (do let x ← p.ser; let y ← q.ser; return x == y : Py Bool) = .error e := by
      intro p q h
      rcases hp : p.ser with e | x
      · exact ⟨e, rfl⟩
      · rcases hq : q.ser with e | y
        · exact ⟨e, rfl⟩
        · rcases h with ⟨e, h⟩ | ⟨e, h⟩
          · rw [hp] at h; cases h
          · rw [hq] at h; cases h
    unfold pyEq
    split
    rename_i p q hpq
    split at hpq
    · cases hpq
      obtain ⟨e, h⟩ := fails b a he.symm
      exact ⟨e, (key b a hk.symm).trans h⟩
    · cases hpq
      obtain ⟨e, h⟩ := fails a b he
      exact ⟨e, (key a b hk).trans h⟩

/-- `!=` is the opposite of `==`; equal objects have the same `hash()`. -/
theorem C143_hash (hashBytes : Bytes → Int) (a b : BtcObj) :
    (∀ r, pyEq a b = .ok r ↔ pyNe a b = .ok (!r)) ∧ (pyEq a b = .ok true → ∃ h, pyHash hashBytes a = .ok h ∧ pyHash hashBytes b = .ok h) := by
  constructor
  · intro r
    unfold pyNe
    rcases pyEq a b with e | x
    · exact ⟨fun h => (by cases h), fun h => (by cases h)⟩
    · show _ ↔ Except.ok (!x) = Except.ok (!r)
      cases x <;> cases r <;> simp
  · intro h
    by_cases hk : a.kind = b.kind
    · rcases ha : a.ser with e | x
      · obtain ⟨_, h'⟩ := (C143_eq a b).2.2 hk (.inl ⟨_, ha⟩)
        rw [h] at h'; cases h'
      · rcases hb : b.ser with e | y
        · obtain ⟨_, h'⟩ := (C143_eq a b).2.2 hk (.inr ⟨_, hb⟩)
          rw [h] at h'; cases h'
        · obtain ⟨r, h1, h2⟩ := (C143_eq a b).2.1 hk ⟨_, ha⟩ ⟨_, hb⟩
          rw [h] at h1
          cases h1
          have := ser_of_content (h2.mp rfl)
          refine ⟨hashBytes x, ?_, ?_⟩
          · unfold pyHash; rw [ha]; rfl
          · unfold pyHash; rw [← this, ha]; rfl
    · rw [(C143_eq a b).1 hk] at h
      cases h

/-- A dictionary with such keys, all different, finds the value of an object exactly if there is a key with the same content, mutable or not. -/
theorem C143_dict {β} (hashBytes : Bytes → Int) (a : BtcObj) (d : List (BtcObj × β)) (ha : ∃ x, a.ser = .ok x) (hd : ∀ p ∈ d, ∃ x, p.1.ser = .ok x)
    (hu : d.Pairwise fun p q => p.1.content ≠ q.1.content) :
    ∃ r, lookup hashBytes a d = .ok r ∧ ∀ v, r = some v ↔ ∃ k, (k, v) ∈ d ∧ k.content = a.content := by
  obtain ⟨x, hx⟩ := ha
  have hha : pyHash hashBytes a = .ok (hashBytes x) := by unfold pyHash; rw [hx]; rfl
  induction d with
  | nil =>
    refine ⟨none, ?_, by simp⟩
    unfold lookup; rw [hha]; rfl
  | cons p d ih =>
    obtain ⟨k, w⟩ := p
    obtain ⟨y, hy⟩ := hd (k, w) List.mem_cons_self
    obtain ⟨r, h1, h2⟩ := ih (fun p hp => hd p (List.mem_cons_of_mem _ hp)) (List.Pairwise.of_cons hu)
    have hhk : pyHash hashBytes k = .ok (hashBytes y) := by unfold pyHash; rw [hy]; rfl
    have step : lookup hashBytes a ((k, w) :: d) =
        if hashBytes y = hashBytes x then (do let r ← pyEq k a; if r then return some w else lookup hashBytes a d) else lookup hashBytes a d := by
      rw [lookup, hha, Except.bind_ok, hhk, Except.bind_ok]
    by_cases hc : k.content = a.content
    · have hs := ser_of_content hc
      rw [hx, hy] at hs
      cases hs
      obtain ⟨r', g1, g2⟩ := (C143_eq k a).2.1 (kind_of_content hc) ⟨_, hy⟩ ⟨_, hx⟩
      have : r' = true := g2.mpr hc
      subst this
      refine ⟨some w, by rw [step, if_pos rfl, g1]; rfl, fun v => ?_⟩
      constructor
      · intro h; cases h
        exact ⟨k, List.mem_cons_self, hc⟩
      · rintro ⟨k', hm, hk'⟩
        rcases List.mem_cons.mp hm with hm | hm
        · cases hm; rfl
        · exact absurd (hc.trans hk'.symm) (List.rel_of_pairwise_cons hu hm)
    · have hne : pyEq k a = .ok false := by
        by_cases hk : k.kind = a.kind
        · obtain ⟨r', g1, g2⟩ := (C143_eq k a).2.1 hk ⟨_, hy⟩ ⟨_, hx⟩
          cases r' with
          | false => exact g1
          | true => exact absurd (g2.mp rfl) hc
        · exact (C143_eq k a).1 hk
      refine ⟨r, ?_, fun v => ?_⟩
      · rw [step]
        split
        · rw [hne]; exact h1
        · exact h1
      · rw [h2 v]
        constructor
        · rintro ⟨k', hm, hk'⟩; exact ⟨k', List.mem_cons_of_mem _ hm, hk'⟩
        · rintro ⟨k', hm, hk'⟩
          rcases List.mem_cons.mp hm with hm | hm
          · cases hm; exact absurd hk' hc
          · exact ⟨k', hm, hk'⟩

/-! ## Cases -/

/-- A mutable and an immutable outpoint with one content are equal; an outpoint is not an input; a block is not its header. -/
example : pyEq (.outPoint true ⟨List.replicate 32 7#8, 3⟩) (.outPoint false ⟨List.replicate 32 7#8, 3⟩) = .ok true ∧
    pyEq (.outPoint false ⟨List.replicate 32 7#8, 3⟩) (.outPoint false ⟨List.replicate 32 7#8, 4⟩) = .ok false ∧
    pyEq (.outPoint false ⟨List.replicate 32 7#8, 3⟩) (.txIn false ⟨⟨List.replicate 32 7#8, 3⟩, [], 0⟩) = .ok false ∧
    pyEq (.header ⟨2, List.replicate 32 7#8, List.replicate 32 8#8, 1, 2, 3⟩) (.block ⟨⟨2, List.replicate 32 7#8, List.replicate 32 8#8, 1, 2, 3⟩, []⟩) = .ok false ∧
    pyEq (.txOut false ⟨2 ^ 63, []⟩) (.txOut false ⟨5, []⟩) = .error .structError := by decide +kernel

example : lookup (fun b => b.length) (.outPoint false ⟨List.replicate 32 7#8, 4⟩)
    [(.txOut false ⟨5, List.replicate 27 1#8⟩, "a"), (.outPoint false ⟨List.replicate 32 7#8, 3⟩, "b"), (.outPoint true ⟨List.replicate 32 7#8, 4⟩, "c")] = .ok (some "c") := by
  decide +kernel

end Verif.Btc
