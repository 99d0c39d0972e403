import Verif.Lemmas.ProofShip
/-! Operations on other objects leave a set of objects that nothing else points to alone. -/
namespace Verif
set_option linter.unusedSectionVars false
variable {T : Table} {H : HashFns}

/-- The object does not point into `D`. -/
def OffObj (D : Nat → Prop) (o : Obj) : Prop :=
  (∀ q, o.orig = some q → ¬ D q) ∧ ∀ (i c : Nat), o.fields[i]? = some (some (.ref c)) → ¬ D c

structure Sep (D : Nat → Prop) (s : PState) : Prop where
  lt : ∀ d, D d → d < s.objs.length
  off : ∀ (r : Nat) (o : Obj), s.objs[r]? = some o → ¬ D r → OffObj D o

/-- `f` keeps `D` separate, does not touch it, and returns something satisfying `Q`. -/
def FR (D : Nat → Prop) {α} (f : HM α) (Q : α → Prop) : Prop :=
  ∀ s, Sep D s → Sep D (f s).2 ∧ (∀ d, D d → (f s).2.objs[d]? = s.objs[d]?) ∧ ∀ a, (f s).1 = .ok a → Q a

variable {D : Nat → Prop}

theorem FR.bind {α β} {x : HM α} {f : α → HM β} {P : α → Prop} {Q : β → Prop} (hx : FR D x P) (hf : ∀ a, P a → FR D (f a) Q) :
    FR D (x >>= f) Q := by
  intro s hs
  obtain ⟨h1, h2, h3⟩ := hx s hs
  rw [HM.bind_apply]
  rcases hxs : x s with ⟨_ | a, s1⟩
  · rw [hxs] at h1 h2
    exact ⟨h1, h2, fun a h => by cases h⟩
  · rw [hxs] at h1 h2 h3
    obtain ⟨g1, g2, g3⟩ := hf a (h3 a rfl) s1 h1
    exact ⟨g1, fun d hd => (g2 d hd).trans (h2 d hd), g3⟩

theorem FR.pure {α} {a : α} {Q : α → Prop} (h : Q a) : FR D (Pure.pure a : HM α) Q := fun s hs => ⟨hs, fun _ _ => rfl, fun b hb => by cases hb; exact h⟩
theorem FR.fail {α} {e : PyErr} {Q : α → Prop} : FR D (HM.fail e : HM α) Q := fun s hs => ⟨hs, fun _ _ => rfl, fun b hb => by cases hb⟩
theorem FR.lift {α} (x : Py α) : FR D (HM.lift x) (fun _ => True) := fun s hs => ⟨hs, fun _ _ => rfl, fun _ _ => trivial⟩
theorem FR.read {α} (p : P α) (b : Bytes) : FR D (HM.read p b) (fun _ => True) := fun s hs => ⟨hs, fun _ _ => rfl, fun _ _ => trivial⟩
theorem FR.mono {α} {f : HM α} {P Q : α → Prop} (h : FR D f P) (hPQ : ∀ a, P a → Q a) : FR D f Q :=
  fun s hs => ⟨(h s hs).1, (h s hs).2.1, fun a ha => hPQ a ((h s hs).2.2 a ha)⟩
theorem FR.err {α} (f : PState → PyErr) {Q : α → Prop} : FR D (fun s => (.error (f s), s) : HM α) Q := fun s hs => ⟨hs, fun _ _ => rfl, fun _ h => by cases h⟩

theorem FR.obj {r : Nat} (hr : ¬ D r) : FR D (HM.obj r) (OffObj D) := by
  intro s hs
  refine ⟨hs, fun _ _ => rfl, fun o ho => ?_⟩
  unfold HM.obj at ho
  cases h : s.objs[r]? with
  | none => simp [h] at ho
  | some o' =>
    simp only [h, Except.ok.injEq] at ho
    subst ho
    exact hs.off r o' h hr

theorem FR.upd {r : Nat} (hr : ¬ D r) {f : Obj → Obj} (hf : ∀ o, OffObj D o → OffObj D (f o)) : FR D (HM.upd r f) (fun _ => True) := by
  intro s hs
  refine ⟨⟨fun d hd => by simpa [HM.upd] using hs.lt d hd, ?_⟩, ?_, fun _ _ => trivial⟩
  · intro k o hk hnk
    simp only [HM.upd] at hk
    by_cases hkr : k = r
    · subst hkr
      cases h : s.objs[k]? with
      | none => rw [List.getElem?_modify, h] at hk; simp at hk
      | some o' =>
        rw [modify_get h] at hk
        cases hk
        exact hf o' (hs.off k o' h hnk)
    · rw [modify_get_ne hkr] at hk
      exact hs.off k o hk hnk
  · intro d hd
    simp only [HM.upd]
    exact modify_get_ne (fun h => hr (h ▸ hd))

theorem FR.alloc {o : Obj} (ho : OffObj D o) : FR D (HM.alloc o) (fun r => ¬ D r) := by
  intro s hs
  refine ⟨⟨fun d hd => ?_, ?_⟩, ?_, ?_⟩
  · have := hs.lt d hd
    simp [HM.alloc]; omega
  · intro k o' hk hnk
    simp only [HM.alloc] at hk
    by_cases hlt : k < s.objs.length
    · rw [List.getElem?_append_left hlt] at hk
      exact hs.off k o' hk hnk
    · have : k = s.objs.length := by
        have := get_lt hk
        simp at this; omega
      subst this
      simp at hk
      subst hk; exact ho
  · intro d hd
    simp only [HM.alloc]
    exact List.getElem?_append_left (hs.lt d hd)
  · intro a ha hD
    simp only [HM.alloc, Except.ok.injEq] at ha
    have := hs.lt a hD
    omega

theorem OffObj.set {o : Obj} (h : OffObj D o) {i : Nat} {v : HVal} (hv : ∀ c, v = .ref c → ¬ D c) {b : Bool} :
    OffObj D { o with fields := o.fields.set i (some v), isFullyPruned := b } := by
  refine ⟨h.1, fun j c hc => ?_⟩
  simp only [List.getElem?_set] at hc
  split at hc
  · split at hc
    · simp only [Option.some.injEq] at hc
      exact hv c hc
    · cases hc
  · exact h.2 j c hc

theorem prune_fr {r : Nat} (hr : ¬ D r) : FR D (Prf.prune T r) (fun p => ¬ D p) := by
  refine (FR.obj hr).bind fun o _ => FR.alloc ⟨fun q hq => ?_, fun i c hc => ?_⟩
  · simp only [Option.some.injEq] at hq; subst hq; exact hr
  · simp only [List.getElem?_replicate] at hc
    split at hc <;> simp at hc

theorem pruneVal_fr {v : HVal} (hv : ∀ c, v = .ref c → ¬ D c) : FR D (Prf.pruneVal T v) (fun v => ∀ c, v = .ref c → ¬ D c) := by
  cases v with
  | prim w => exact FR.pure fun c h => by cases h
  | ref r => exact (prune_fr (hv r rfl)).bind fun p hp => FR.pure fun c h => by cases h; exact hp

theorem getAttrF_fr : ∀ (n r i : Nat), ¬ D r → FR D (Prf.getAttrF T n r i) (fun v => ∀ c, v = .ref c → ¬ D c)
  | 0, r, i, _ => FR.fail
  | n + 1, r, i, hr => by
    rw [Prf.getAttrF]
    refine (FR.obj hr).bind fun o ho => ?_
    split
    · rename_i v hv
      exact FR.pure fun c hc => ho.2 i c (by rw [hv, hc])
    · split
      · exact FR.err _
      · rename_i q hq
        refine (FR.lift _).bind fun _ _ => (getAttrF_fr n q i (ho.1 q hq)).bind fun v hv => (pruneVal_fr hv).bind fun w hw => ?_
        exact (FR.upd hr fun o ho => ho.set hw).bind fun _ _ => FR.pure hw

theorem getAttr_fr {r : Nat} (i : Nat) (hr : ¬ D r) : FR D (Prf.getAttr T r i) (fun v => ∀ c, v = .ref c → ¬ D c) :=
  fun s hs => getAttrF_fr _ r i hr s hs

theorem attrHash_fr {hf : Nat → HM Bytes} (hh : ∀ r, ¬ D r → FR D (hf r) (fun _ => True)) (k : Kind) {v : HVal} (hv : ∀ c, v = .ref c → ¬ D c) :
    FR D (Prf.attrHash hf k v) (fun _ => True) := by
  cases k <;> cases v <;> first | exact FR.lift _ | exact FR.fail | exact hh _ (hv _ rfl)

theorem hashLoop_fr {hf : Nat → HM Bytes} (hh : ∀ r, ¬ D r → FR D (hf r) (fun _ => True)) {r : Nat} (hr : ¬ D r) : ∀ (ks : List Kind) (i : Nat),
    FR D (Prf.hashLoop T hf r i ks) (fun _ => True)
  | [], i => FR.pure trivial
  | k :: ks, i => by
    rw [Prf.hashLoop]
    exact (getAttr_fr i hr).bind fun v hv => (attrHash_fr hh k hv).bind fun a _ => (hashLoop_fr hh hr ks (i + 1)).bind fun b _ => FR.pure trivial

theorem hashes_fr : ∀ (n r : Nat), ¬ D r → FR D (Prf.dataHashF T H n r) (fun _ => True) ∧ FR D (Prf.hashF T H n r) (fun _ => True)
  | 0, r, _ => ⟨by rw [Prf.dataHashF]; exact FR.fail, by rw [Prf.hashF]; exact FR.fail⟩
  | n + 1, r, hr => by
    constructor
    · rw [Prf.dataHashF]
      refine (FR.obj hr).bind fun o ho => ?_
      split
      · exact FR.pure trivial
      · have : FR D (match o.orig with
          | some q => Prf.dataHashF T H n q
          | none => do
            let b ← Prf.hashLoop T (Prf.hashF T H n) r 0 (T o.cls).attrs
            return H.sha256 b) (fun _ => True) := by
          split
          · rename_i q hq; exact (hashes_fr n q (ho.1 q hq)).1
          · exact (hashLoop_fr (fun r hr => (hashes_fr n r hr).2) hr _ _).bind fun b _ => FR.pure trivial
        refine this.bind fun d _ => FR.bind (P := fun _ => True) (FR.upd hr ?_) fun _ _ => FR.pure trivial
        exact fun o ho => ho
    · rw [Prf.hashF]
      refine (FR.obj hr).bind fun o ho => ?_
      split
      · exact FR.pure trivial
      · have : FR D (if (T o.cls).isTx ∧ o.isPruned = false then do
            let v ← Prf.getAttr T r 0
            HM.lift (Prf.txHash H v)
          else match o.orig with
            | some q => Prf.hashF T H n q
            | none => do
              let d ← Prf.dataHashF T H n r
              HM.lift (Prf.tagHash T H o.cls d)) (fun _ => True) := by
          split
          · exact (getAttr_fr 0 hr).bind fun v _ => FR.lift _
          · split
            · rename_i q hq; exact (hashes_fr n q (ho.1 q hq)).2
            · exact (hashes_fr n r hr).1.bind fun d _ => FR.lift _
        refine this.bind fun d _ => FR.bind (P := fun _ => True) (FR.upd hr ?_) fun _ _ => FR.pure trivial
        exact fun o ho => ho

theorem dataHash_fr {r : Nat} (hr : ¬ D r) : FR D (Prf.dataHash T H r) (fun _ => True) := fun s hs => (hashes_fr _ r hr).1 s hs
theorem hash_fr {r : Nat} (hr : ¬ D r) : FR D (Prf.hash T H r) (fun _ => True) := fun s hs => (hashes_fr _ r hr).2 s hs

theorem attrSer_fr {sf : Nat → HM Bytes} (hh : ∀ r, ¬ D r → FR D (sf r) (fun _ => True)) (k : Kind) {v : HVal} (hv : ∀ c, v = .ref c → ¬ D c) :
    FR D (Prf.attrSer T sf k v) (fun _ => True) := by
  cases k <;> cases v <;> try first | exact FR.lift _ | exact FR.fail | exact hh _ (hv _ rfl)
  exact (FR.obj (hv _ rfl)).bind fun o _ => (FR.lift _).bind fun i _ => (hh _ (hv _ rfl)).bind fun b _ => FR.pure trivial

theorem serLoop_fr {sf : Nat → HM Bytes} (hh : ∀ r, ¬ D r → FR D (sf r) (fun _ => True)) {r : Nat} (hr : ¬ D r) : ∀ (ks : List Kind) (i : Nat),
    FR D (Prf.serLoop T sf r i ks) (fun _ => True)
  | [], i => FR.pure trivial
  | k :: ks, i => by
    rw [Prf.serLoop]
    exact (getAttr_fr i hr).bind fun v hv => (attrSer_fr hh k hv).bind fun a _ => (serLoop_fr hh hr ks (i + 1)).bind fun b _ => FR.pure trivial

theorem serF_fr : ∀ (n r : Nat), ¬ D r → FR D (Prf.serF T H n r) (fun _ => True)
  | 0, r, _ => FR.fail
  | n + 1, r, hr => by
    rw [Prf.serF]
    refine (FR.obj hr).bind fun o ho => ?_
    split
    · exact (dataHash_fr hr).bind fun d _ => FR.pure trivial
    · exact (FR.lift _).bind fun v _ => (serLoop_fr (serF_fr n) hr _ _).bind fun b _ => FR.pure trivial

theorem serialize_fr {r : Nat} (hr : ¬ D r) : FR D (Prf.serialize T H r) (fun _ => True) := fun s hs => serF_fr _ r hr s hs

theorem noop_fr {α} {f : HM α} (h : ∀ s, (f s).2 = s) : FR D f (fun _ => True) := fun s hs => by
  rw [h]; exact ⟨hs, fun _ _ => rfl, fun _ _ => trivial⟩

theorem new_fr (c : Nat) {vs : List HVal} (hv : ∀ q, .ref q ∈ vs → ¬ D q) : FR D (Prf.new T c vs) (fun r => ¬ D r) := by
  have h1 : FR D (Prf.initClass c) (fun _ => True) := fun s hs => ⟨⟨hs.lt, hs.off⟩, fun _ _ => rfl, fun _ _ => trivial⟩
  refine h1.bind fun _ _ => (noop_fr (checkVals_state _ _)).bind fun p _ => FR.alloc ⟨fun q hq => (by cases hq), fun i q hq => ?_⟩
  simp only [List.getElem?_map, Option.map_eq_some_iff] at hq
  obtain ⟨a, ha, hq⟩ := hq
  cases hq
  exact hv q (List.mem_of_mem_take (List.mem_of_getElem? ha))

theorem deserLoop_fr {df : Nat → Bytes → HM (Nat × Bytes)} (hd : ∀ c b, FR D (df c b) (fun x => ¬ D x.1)) : ∀ (ks : List Kind) (b : Bytes),
    FR D (Prf.deserLoop df ks b) (fun x => ∀ q, .ref q ∈ x.1 → ¬ D q)
  | [], b => FR.pure fun q h => by cases h
  | k :: ks, b => by
    rw [Prf.deserLoop]
    have hk : FR D (Prf.attrDeser df k b) (fun x => ∀ q, x.1 = .ref q → ¬ D q) := by
      cases k with
      | prim τ => exact (FR.read _ _).bind fun x _ => FR.pure fun q h => by cases h
      | proof c => exact (hd c b).bind fun x hx => FR.pure fun q h => by cases h; exact hx
      | union us =>
        refine (FR.read _ _).bind fun x _ => ?_
        dsimp only
        split
        · exact FR.fail
        · exact (hd _ _).bind fun x hx => FR.pure fun q h => by cases h; exact hx
    refine hk.bind fun x hx => (deserLoop_fr hd ks _).bind fun y hy => FR.pure fun q hq => ?_
    rcases List.mem_cons.mp hq with h | h
    · exact hx q h.symm
    · exact hy q h

theorem deserF_fr : ∀ (n c : Nat) (b : Bytes), FR D (Prf.deserF T n c b) (fun x => ¬ D x.1)
  | 0, c, b => FR.fail
  | n + 1, c, b => by
    rw [Prf.deserF]
    refine (FR.read _ _).bind fun x _ => ?_
    dsimp only
    split
    · refine (FR.read _ _).bind fun y _ => (FR.alloc ⟨fun q hq => (by cases hq), fun i q hq => ?_⟩).bind fun r hr => FR.pure hr
      simp only [List.getElem?_replicate] at hq
      split at hq <;> simp at hq
    · have : FR D (Prf.variantOf T c x.2) (fun _ => True) := by
        unfold Prf.variantOf
        split
        · exact FR.pure trivial
        · refine (FR.read _ _).bind fun x _ => ?_
          dsimp only
          split
          · exact FR.fail
          · exact FR.pure trivial
      exact this.bind fun y _ => (deserLoop_fr (deserF_fr n) _ _).bind fun z hz => (new_fr _ hz).bind fun r hr => FR.pure hr

theorem deserialize_fr (c : Nat) (b : Bytes) : FR D (Prf.deserialize T c b) (fun _ => True) :=
  (deserF_fr _ c b).bind fun _ _ => FR.pure trivial

/-! ### The objects found from a pruned view -/

/-- The objects found from the view `p` are at unique paths; those at a path in `S`, and only those, are not fully pruned; nothing
else points to them. -/
structure Vw (s : PState) (p : Nat) (addr : Nat → Option (List Nat)) (S : List (List Nat)) : Prop where
  root : addr p = some []
  obj : ∀ d π, addr d = some π → ∃ o, s.objs[d]? = some o ∧ (∃ q, o.orig = some q ∧ addr q = none) ∧ (o.isFullyPruned = true ↔ π ∉ S) ∧
    (∀ (i c : Nat), o.fields[i]? = some (some (.ref c)) → addr c = some (π ++ [i])) ∧
    ∀ i, π ++ [i] ∈ S → ∃ c, o.fields[i]? = some (some (.ref c))
  par : ∀ c π i, addr c = some (π ++ [i]) → ∃ d o, addr d = some π ∧ s.objs[d]? = some o ∧ o.fields[i]? = some (some (.ref c))
  inj : ∀ d d' π, addr d = some π → addr d' = some π → d = d'
  off : ∀ (r : Nat) (o : Obj), s.objs[r]? = some o → addr r = none → OffObj (fun d => addr d ≠ none) o
  closed : ∀ π ∈ S, ∃ d, addr d = some π

theorem Vw.sep {s : PState} {p : Nat} {addr : Nat → Option (List Nat)} {S : List (List Nat)} (h : Vw s p addr S) : Sep (fun d => addr d ≠ none) s where
  lt d hd := by
    cases ha : addr d with
    | none => exact absurd ha hd
    | some π => obtain ⟨o, ho, _⟩ := h.obj d π ha; exact get_lt ho
  off r o ho hr := h.off r o ho (by simpa using hr)

theorem Vw.frame {s : PState} {p : Nat} {addr : Nat → Option (List Nat)} {S : List (List Nat)} (h : Vw s p addr S) {α} {f : HM α} {Q : α → Prop}
    (hf : FR (fun d => addr d ≠ none) f Q) : Vw (f s).2 p addr S ∧ ∀ a, (f s).1 = .ok a → Q a := by
  obtain ⟨h1, h2, h3⟩ := hf s h.sep
  refine ⟨⟨h.root, ?_, ?_, h.inj, fun r o ho hr => h1.off r o ho (by simpa using hr), h.closed⟩, h3⟩
  · intro d π hd
    obtain ⟨o, ho, hrest⟩ := h.obj d π hd
    exact ⟨o, by rw [h2 d (by simp [hd])]; exact ho, hrest⟩
  · intro c π i hc
    obtain ⟨d, o, hd, ho, hrest⟩ := h.par c π i hc
    exact ⟨d, o, hd, by rw [h2 d (by simp [hd])]; exact ho, hrest⟩

theorem Vw.congr {s : PState} {p : Nat} {addr : Nat → Option (List Nat)} {S S' : List (List Nat)} (h : Vw s p addr S) (hS : ∀ π, π ∈ S ↔ π ∈ S') : Vw s p addr S' where
  root := h.root
  obj d π hd := by
    obtain ⟨o, ho, h1, h2, h3, h4⟩ := h.obj d π hd
    exact ⟨o, ho, h1, by rw [h2, hS], h3, fun i hi => h4 i ((hS _).mpr hi)⟩
  par := h.par
  inj := h.inj
  off := h.off
  closed π hπ := h.closed π ((hS π).mpr hπ)

theorem Vw.path {s : PState} {p : Nat} {addr : Nat → Option (List Nat)} {S : List (List Nat)} (h : Vw s p addr S) {π : List Nat} {d : Nat} :
    PathTo s p π d ↔ addr d = some π := by
  constructor
  · intro hp
    induction hp with
    | root => exact h.root
    | step _ hf ih =>
      obtain ⟨o, ho, _, _, h3, _⟩ := h.obj _ _ ih
      exact h3 _ _ ((PState.field_some ho).mp hf)
  · intro hd
    generalize hn : π.length = n
    induction n generalizing π d with
    | zero =>
      have : π = [] := List.length_eq_zero_iff.mp hn
      subst this
      rw [h.inj d p [] hd h.root]
      exact .root
    | succ n ih =>
      rcases List.eq_nil_or_concat π with rfl | ⟨π', i, rfl⟩
      · simp at hn
      · obtain ⟨d', o, hd', ho, hf⟩ := h.par d π' i (by simpa using hd)
        have := PathTo.step (ih hd' (by simpa using hn)) ((PState.field_some ho).mpr hf)
        simpa using this

/-- Caches of objects found from the view may be filled in. -/
theorem Vw.cache {s : PState} {p : Nat} {addr : Nat → Option (List Nat)} {S : List (List Nat)} (h : Vw s p addr S) {d : Nat} {f : Obj → Obj}
    (hf : ∀ o, (f o).orig = o.orig ∧ (f o).isFullyPruned = o.isFullyPruned ∧ (f o).fields = o.fields) :
    Vw { s with objs := s.objs.modify d f } p addr S := by
  have hget : ∀ (k : Nat) (o : Obj), s.objs[k]? = some o → ∃ o' : Obj, (s.objs.modify d f)[k]? = some o' ∧ o'.orig = o.orig ∧ o'.isFullyPruned = o.isFullyPruned ∧ o'.fields = o.fields := by
    intro k o ho
    by_cases hk : k = d
    · subst hk
      exact ⟨f o, modify_get ho, hf o⟩
    · exact ⟨o, by rw [modify_get_ne hk]; exact ho, rfl, rfl, rfl⟩
  refine ⟨h.root, ?_, ?_, h.inj, ?_, h.closed⟩
  · intro k π hk
    obtain ⟨o, ho, h1, h2, h3, h4⟩ := h.obj k π hk
    obtain ⟨o', ho', e1, e2, e3⟩ := hget k o ho
    exact ⟨o', ho', by rw [e1]; exact h1, by rw [e2]; exact h2, by rw [e3]; exact h3, by rw [e3]; exact h4⟩
  · intro c π i hc
    obtain ⟨k, o, hk, ho, hf'⟩ := h.par c π i hc
    obtain ⟨o', ho', _, _, e3⟩ := hget k o ho
    exact ⟨k, o', hk, ho', by rw [e3]; exact hf'⟩
  · intro r o ho hr
    have hlt := get_lt ho
    simp only [List.length_modify] at hlt
    obtain ⟨o', ho', e1, _, e3⟩ := hget r _ (List.getElem?_eq_getElem hlt)
    rw [ho] at ho'
    cases ho'
    have := h.off r _ (List.getElem?_eq_getElem hlt) hr
    exact ⟨by rw [e1]; exact this.1, by rw [e3]; exact this.2⟩

/-- Setting a plain attribute. -/
theorem Vw.fillPrim {s : PState} {p : Nat} {addr : Nat → Option (List Nat)} {S : List (List Nat)} (h : Vw s p addr S) {d i : Nat} {π : List Nat}
    (hd : addr d = some π) {o : Obj} (ho : s.objs[d]? = some o) (hni : ∀ v, o.fields[i]? ≠ some (some v)) {w : PVal} :
    Vw { s with objs := s.objs.modify d fun o => { o with fields := o.fields.set i (some (.prim w)), isFullyPruned := false } } p addr (π :: S) where
  root := h.root
  obj k π' hk := by
    obtain ⟨ok, hok, h1, h2, h3, h4⟩ := h.obj k π' hk
    by_cases hkd : k = d
    · subst hkd
      rw [hd] at hk; cases hk
      rw [hok] at ho; cases ho
      refine ⟨_, modify_get hok, h1, by simp, ?_, ?_⟩
      · intro j c hc
        simp only [List.getElem?_set] at hc
        split at hc
        · split at hc <;> cases hc
        · exact h3 j c hc
      · intro j hj
        rcases List.mem_cons.mp hj with h | h
        · simp at h
        · obtain ⟨c, hc⟩ := h4 j h
          refine ⟨c, ?_⟩
          simp only [List.getElem?_set]
          rw [if_neg]
          · exact hc
          · rintro rfl; exact hni _ hc
    · refine ⟨ok, by rw [modify_get_ne hkd]; exact hok, h1, ?_, h3, ?_⟩
      · rw [h2]
        simp only [List.mem_cons, not_or]
        exact ⟨fun h' => ⟨fun he => hkd (h.inj k d π (he ▸ hk) hd), h'⟩, fun h => h.2⟩
      · intro j hj
        rcases List.mem_cons.mp hj with hj | hj
        · obtain ⟨d', o', hd', ho', hf⟩ := h.par d π' j (by rw [hj]; exact hd)
          have := h.inj k d' π' hk hd'
          subst this
          rw [hok] at ho'; cases ho'
          exact ⟨d, hf⟩
        · exact h4 j hj
  par c π' j hc := by
    obtain ⟨k, ok, hk, hok, hf⟩ := h.par c π' j hc
    by_cases hkd : k = d
    · subst hkd
      rw [hok] at ho; cases ho
      refine ⟨k, _, hk, modify_get hok, ?_⟩
      simp only [List.getElem?_set]
      rw [if_neg]
      · exact hf
      · rintro rfl; exact hni _ hf
    · exact ⟨k, ok, hk, by rw [modify_get_ne hkd]; exact hok, hf⟩
  inj := h.inj
  off r or hr hra := by
    have : r ≠ d := by rintro rfl; rw [hd] at hra; cases hra
    rw [modify_get_ne this] at hr
    exact h.off r or hr hra
  closed π' hπ := by
    rcases List.mem_cons.mp hπ with rfl | hπ
    · exact ⟨d, hd⟩
    · exact h.closed π' hπ

/-- Setting an attribute to a new view. -/
theorem Vw.fillRef {s : PState} {p : Nat} {addr : Nat → Option (List Nat)} {S : List (List Nat)} (h : Vw s p addr S) {d i : Nat} {π : List Nat}
    (hd : addr d = some π) {o : Obj} (ho : s.objs[d]? = some o) (hni : ∀ v, o.fields[i]? ≠ some (some v)) (hlen : i < o.fields.length)
    {oc : Obj} {q : Nat} (hoc : oc.orig = some q) (hq : addr q = none) (hqn : q < s.objs.length) (hfp : oc.isFullyPruned = true)
    (hnf : ∀ (j : Nat) v, oc.fields[j]? ≠ some (some v))
    (hsc : ∀ (k : Nat) (o : Obj), s.objs[k]? = some o → (∀ q, o.orig = some q → q < s.objs.length) ∧ ∀ (i c : Nat), o.fields[i]? = some (some (.ref c)) → c < s.objs.length) :
    Vw { s with objs := (s.objs ++ [oc]).modify d fun o => { o with fields := o.fields.set i (some (.ref s.objs.length)), isFullyPruned := false } } p
      (fun k => if k = s.objs.length then some (π ++ [i]) else addr k) (π :: S) := by
  have hdl := get_lt ho
  have hnone : addr s.objs.length = none := by
    cases ha : addr s.objs.length with
    | none => rfl
    | some π' => exact absurd (h.sep.lt s.objs.length (by simp [ha])) (by omega)
  have hfresh : ∀ k, addr k ≠ some (π ++ [i]) := by
    intro k hk
    obtain ⟨d', o', hd', ho', hf⟩ := h.par k π i hk
    have := h.inj d' d π hd' hd
    subst this
    rw [ho] at ho'; cases ho'
    exact hni _ hf
  have hpS : π ++ [i] ∉ S := fun hm => by
    obtain ⟨o', ho', _, _, _, h4⟩ := h.obj d π hd
    rw [ho] at ho'; cases ho'
    obtain ⟨c, hc⟩ := h4 i hm
    exact hni _ hc
  have hpn : ∀ j, π ++ [i] ++ [j] ∉ S := fun j hm => by
    obtain ⟨k, hk⟩ := h.closed _ hm
    obtain ⟨k', _, hk', _⟩ := h.par k _ j hk
    exact hfresh k' hk'
  have hget : ∀ k, k < s.objs.length → k ≠ d → ((s.objs ++ [oc]).modify d fun o => { o with fields := o.fields.set i (some (.ref s.objs.length)), isFullyPruned := false })[k]? = s.objs[k]? := by
    intro k hk hkd
    rw [List.getElem?_modify, List.getElem?_append_left hk]
    simp [Ne.symm hkd]
  have hgetd : ((s.objs ++ [oc]).modify d fun o => { o with fields := o.fields.set i (some (.ref s.objs.length)), isFullyPruned := false })[d]? =
      some { o with fields := o.fields.set i (some (.ref s.objs.length)), isFullyPruned := false } := by
    rw [List.getElem?_modify, List.getElem?_append_left hdl, ho]
    simp
  have hgetn : ((s.objs ++ [oc]).modify d fun o => { o with fields := o.fields.set i (some (.ref s.objs.length)), isFullyPruned := false })[s.objs.length]? = some oc := by
    rw [List.getElem?_modify, List.getElem?_concat_length]
    simp [show d ≠ s.objs.length by omega]
  have hlt : ∀ k π', addr k = some π' → k < s.objs.length := fun k π' hk => h.sep.lt k (by simp [hk])
  refine ⟨?_, ?_, ?_, ?_, ?_, ?_⟩
  · have := hlt p [] h.root
    rw [if_neg (by omega)]; exact h.root
  · intro k π' hk
    try simp only at hk
    split at hk
    · rename_i hkn
      subst hkn
      cases hk
      refine ⟨oc, hgetn, ⟨q, hoc, by rw [if_neg (by omega)]; exact hq⟩, ?_, fun j c hc => absurd hc (hnf j _), ?_⟩
      · rw [hfp]
        simp only [true_iff, List.mem_cons, not_or]
        exact ⟨fun h => by have := congrArg List.length h; simp at this, hpS⟩
      · intro j hj
        rcases List.mem_cons.mp hj with h | h
        · have := congrArg List.length h; simp at this
        · exact absurd h (hpn j)
    · rename_i hkn
      have hkl := hlt k π' hk
      obtain ⟨ok, hok, ⟨q', hq', hqa⟩, h2, h3, h4⟩ := h.obj k π' hk
      have hq'n := (hsc k ok hok).1 q' hq'
      by_cases hkd : k = d
      · subst hkd
        rw [hd] at hk; cases hk
        rw [hok] at ho; cases ho
        refine ⟨_, hgetd, ?_, by simp, ?_, ?_⟩
        · exact ⟨q', hq', by rw [if_neg (by omega)]; exact hqa⟩
        · intro j c hc
          simp only [List.getElem?_set] at hc
          split at hc
          · rename_i hij
            subst hij
            try rw [if_pos hlen] at hc
            cases hc
            simp
          · have := h3 j c hc
            have := hlt c _ this
            rw [if_neg (by omega)]; exact h3 j c hc
        · intro j hj
          rcases List.mem_cons.mp hj with h | h
          · simp at h
          · obtain ⟨c, hc⟩ := h4 j h
            simp only [List.getElem?_set]
            by_cases hij : i = j
            · subst hij; exact absurd hc (hni _)
            · exact ⟨c, by rw [if_neg hij]; exact hc⟩
      · refine ⟨ok, by rw [hget k hkl hkd]; exact hok, ?_, ?_, ?_, ?_⟩
        · exact ⟨q', hq', by rw [if_neg (by omega)]; exact hqa⟩
        · rw [h2]
          simp only [List.mem_cons, not_or]
          exact ⟨fun h' => ⟨fun he => hkd (h.inj k d π (he ▸ hk) hd), h'⟩, fun h => h.2⟩
        · intro j c hc
          have := h3 j c hc
          have := hlt c _ this
          rw [if_neg (by omega)]; exact h3 j c hc
        · intro j hj
          rcases List.mem_cons.mp hj with hj | hj
          · obtain ⟨d', o', hd', ho', hf⟩ := h.par d π' j (by rw [hj]; exact hd)
            have := h.inj k d' π' hk hd'
            subst this
            rw [hok] at ho'; cases ho'
            exact ⟨d, hf⟩
          · exact h4 j hj
  · intro c π' j hc
    try simp only at hc
    split at hc
    · rename_i hcn
      subst hcn
      simp only [Option.some.injEq] at hc
      obtain ⟨rfl, hij⟩ := List.append_inj' hc rfl
      cases hij
      refine ⟨d, _, by rw [if_neg (by omega)]; exact hd, hgetd, ?_⟩
      simp [List.getElem?_set, hlen]
    · obtain ⟨k, ok, hk, hok, hf⟩ := h.par c π' j hc
      have hkl := hlt k _ hk
      by_cases hkd : k = d
      · subst hkd
        rw [hok] at ho; cases ho
        refine ⟨k, _, by rw [if_neg (by omega)]; exact hk, hgetd, ?_⟩
        simp only [List.getElem?_set]
        rw [if_neg]
        · exact hf
        · rintro rfl; exact hni _ hf
      · exact ⟨k, ok, by rw [if_neg (by omega)]; exact hk, by rw [hget k hkl hkd]; exact hok, hf⟩
  · intro k k' π' hk hk'
    try simp only at hk hk'
    split at hk <;> split at hk'
    · omega
    · cases hk; exact absurd hk' (hfresh k')
    · cases hk'; exact absurd hk (hfresh k)
    · exact h.inj k k' π' hk hk'
  · intro r or hr hra
    try simp only at hra
    split at hra
    · cases hra
    · rename_i hrn
      have hrd : r ≠ d := by rintro rfl; rw [hd] at hra; cases hra
      have hrl : r < s.objs.length := by
        have := get_lt hr
        simp at this; omega
      simp only at hr
      rw [hget r hrl hrd] at hr
      obtain ⟨h1, h2⟩ := h.off r or hr hra
      refine ⟨fun q' hq' => ?_, fun j c hc => ?_⟩
      · have := (hsc r or hr).1 q' hq'
        show ¬ (if q' = s.objs.length then some (π ++ [i]) else addr q') ≠ none
        rw [if_neg (by omega)]; exact h1 q' hq'
      · have := (hsc r or hr).2 j c hc
        show ¬ (if c = s.objs.length then some (π ++ [i]) else addr c) ≠ none
        rw [if_neg (by omega)]; exact h2 j c hc
  · intro π' hπ
    rcases List.mem_cons.mp hπ with rfl | hπ
    · exact ⟨d, by rw [if_neg (by omega)]; exact hd⟩
    · obtain ⟨k, hk⟩ := h.closed π' hπ
      have := hlt k _ hk
      exact ⟨k, by rw [if_neg (by omega)]; exact hk⟩

/-- Reading an attribute of an object found from the view. -/
theorem Vw.getAttr {s : PState} {τ : List PTree} (hi : Inv T H s τ) {p : Nat} {addr : Nat → Option (List Nat)} {S : List (List Nat)} (h : Vw s p addr S)
    {d : Nat} {π : List Nat} (hd : addr d = some π) (i : Nat) :
    ∃ addr', Vw (Prf.getAttr T d i s).2 p addr' (match (Prf.getAttr T d i s).1 with | .ok _ => π :: S | .error _ => S) ∧
      (∀ k π, addr k = some π → addr' k = some π) ∧ ∀ c, (Prf.getAttr T d i s).1 = .ok (.ref c) → addr' c = some (π ++ [i]) := by
  obtain ⟨o, ho, ⟨q, hq, hqa⟩, hfp, hfld, hS⟩ := h.obj d π hd
  obtain ⟨t, ht, hok⟩ := hi.some_tree ho
  unfold Prf.getAttr
  rw [Prf.getAttrF, HM.bind_obj ho]
  rcases hfi : o.fields[i]? with _ | (_ | v)
  case some.some =>
    refine ⟨addr, ?_, fun _ _ h => h, fun c hc => ?_⟩
    · refine h.congr fun π' => ?_
      have : π ∈ S := Decidable.byContradiction fun hn => hok.fp (hfp.mpr hn) i v hfi
      show π' ∈ S ↔ π' ∈ π :: S
      simp only [List.mem_cons]
      exact ⟨.inr, fun h => h.elim (fun h => h ▸ this) id⟩
    · cases hc
      exact hfld i c hfi
  all_goals
    simp only [hq]
    rw [HM.bind_apply, HM.lift_apply]
    have hp : o.isPruned = true := (hok.view q hq).2.2.1
    rw [hp]
    simp only [pyAssert, if_true]
    rw [HM.bind_apply]
    obtain ⟨h1, hv1⟩ := h.frame (getAttrF_fr (T := T) s.objs.length q i (by simpa using hqa))
    obtain ⟨_, hsame, _⟩ := getAttrF_fr (T := T) (D := fun d => addr d ≠ none) s.objs.length q i (by simpa using hqa) s h.sep
    rcases hx : Prf.getAttrF T s.objs.length q i s with ⟨_ | v, s1⟩
    · rw [hx] at h1
      exact ⟨addr, h1, fun _ _ h => h, fun c hc => by cases hc⟩
    · rw [hx] at h1 hv1 hsame
      have ho1 : s1.objs[d]? = some o := by rw [hsame d (by simp [hd])]; exact ho
      have hv1 := hv1 v rfl
      simp only
      rw [HM.bind_apply]
      have hflen : i < o.fields.length := by
        have hlt := (hok.view q hq).1
        have hrlt := get_lt ho
        obtain ⟨x, _, _, herr, _⟩ := getAttrF_spec s.objs.length s τ q t i hi (hok.view q hq).2.1 (by omega)
        rw [hx] at herr
        have hck := hi.chk _ (List.mem_of_getElem? ht)
        cases t with
        | pruned c' d' => exact absurd (herr _ rfl) (by simp)
        | node c' fs =>
          rw [PTree.Checked] at hck
          have hcl := hok.cls
          simp only [PTree.cls] at hcl
          rw [hok.flen, ← hcl, ← hck.length]
          have := PFields.get?_isSome fs i
          cases hg : fs.get? i with
          | none => exact absurd (herr .attributeError (by simp [PTree.attr, PTree.get?, hg])) (by simp)
          | some _ => rw [hg] at this; simpa using this.symm
      have hni : ∀ v, o.fields[i]? ≠ some (some v) := by rw [hfi]; simp
      have hi1 : ∃ τ1, Inv T H s1 τ1 := by
        have hlt := (hok.view q hq).1
        have hrlt := get_lt ho
        obtain ⟨x, hx1, _⟩ := getAttrF_spec s.objs.length s τ q t i hi (hok.view q hq).2.1 (by omega)
        rw [hx] at hx1
        exact ⟨_, hx1⟩
      obtain ⟨τ1, hi1⟩ := hi1
      cases v with
      | prim w =>
        refine ⟨addr, ?_, fun _ _ h => h, fun c hc => by cases hc⟩
        exact h1.fillPrim hd ho1 hni
      | ref c =>
        have hc := hv1 c rfl
        simp only [ne_eq, Decidable.not_not] at hc
        have hcl : c < s1.objs.length := by
          have hlt := (hok.view q hq).1
          have hrlt := get_lt ho
          obtain ⟨x, hx1, _, herr, hokk, _⟩ := getAttrF_spec s.objs.length s τ q t i hi (hok.view q hq).2.1 (by omega)
          rw [hx] at hx1 herr hokk
          cases hta : t.attr T s.inited i with
          | error e => exact absurd (herr e hta) (by simp)
          | ok tv =>
            obtain ⟨v', hv', his, _⟩ := hokk tv hta
            cases hv'
            cases tv with
            | prim _ => exact his.elim
            | sub t' =>
              have := get_lt (show (τ ++ x)[c]? = some t' from his)
              rw [hx1.len] at this; exact this
        obtain ⟨oc, hoc⟩ : ∃ oc, s1.objs[c]? = some oc := ⟨_, List.getElem?_eq_getElem hcl⟩
        have hsc : ∀ (k : Nat) (o : Obj), s1.objs[k]? = some o → (∀ q, o.orig = some q → q < s1.objs.length) ∧
            ∀ (i c : Nat), o.fields[i]? = some (some (.ref c)) → c < s1.objs.length := by
          intro k ok hk
          obtain ⟨tk, htk, hokk⟩ := hi1.some_tree hk
          refine ⟨fun q' hq' => ?_, fun j c' hc' => ?_⟩
          · have := (hokk.view q' hq').1
            have := get_lt hk
            omega
          · obtain ⟨tv, _, his⟩ := hokk.fmatch j _ hc'
            cases tv with
            | prim _ => exact his.elim
            | sub t' =>
              have := get_lt (show τ1[c']? = some t' from his)
              rw [hi1.len] at this; exact this
        have := h1.fillRef hd ho1 hni hflen (oc := { cls := oc.cls, fields := List.replicate (T oc.cls).attrs.length none, orig := some c, isPruned := true, isFullyPruned := true }) rfl hc hcl rfl (fun j v => by simp only [List.getElem?_replicate]; split <;> simp) hsc
        refine ⟨fun k => if k = s1.objs.length then some (π ++ [i]) else addr k, ?_, ?_, ?_⟩
        · rw [Prf.pruneVal, HM.bind_apply, Prf.prune_apply hoc]
          exact this
        · intro k π' hk
          have hkl : k < s1.objs.length := h1.sep.lt k (by simp [hk])
          show (if k = s1.objs.length then some (π ++ [i]) else addr k) = some π'
          rw [if_neg (by omega)]; exact hk
        · intro c' hc'
          rw [Prf.pruneVal, HM.bind_apply, Prf.prune_apply hoc] at hc'
          cases hc'
          simp

/-- Hashing an object found from the view. -/
theorem Vw.dataHash {s : PState} {τ : List PTree} (hi : Inv T H s τ) {p : Nat} {addr : Nat → Option (List Nat)} {S : List (List Nat)} (h : Vw s p addr S)
    {d : Nat} {π : List Nat} (hd : addr d = some π) : Vw (Prf.dataHash T H d s).2 p addr S := by
  obtain ⟨o, ho, ⟨q, hq, hqa⟩, _⟩ := h.obj d π hd
  unfold Prf.dataHash
  rw [Prf.dataHashF, HM.bind_obj ho]
  cases hdh : o.dataHash with
  | some x => exact h
  | none =>
    simp only [hq]
    rw [HM.bind_apply]
    obtain ⟨h1, _⟩ := h.frame (hashes_fr (T := T) (H := H) (2 * s.objs.length + 1) q (by simpa using hqa)).1
    rcases hx : Prf.dataHashF T H (2 * s.objs.length + 1) q s with ⟨_ | v, s1⟩
    · rw [hx] at h1; exact h1
    · rw [hx] at h1
      exact h1.cache fun o => ⟨rfl, rfl, rfl⟩

theorem Vw.hash {s : PState} {τ : List PTree} (hi : Inv T H s τ) {p : Nat} {addr : Nat → Option (List Nat)} {S : List (List Nat)} (h : Vw s p addr S)
    {d : Nat} {π : List Nat} (hd : addr d = some π) : Vw (Prf.hash T H d s).2 p addr S := by
  obtain ⟨o, ho, ⟨q, hq, hqa⟩, _⟩ := h.obj d π hd
  obtain ⟨t, ht, hok⟩ := hi.some_tree ho
  unfold Prf.hash
  rw [Prf.hashF, HM.bind_obj ho]
  cases hdh : o.hash with
  | some x => exact h
  | none =>
    have hp : o.isPruned = true := (hok.view q hq).2.2.1
    simp only [hq, hp]
    rw [HM.bind_apply, if_neg (by simp)]
    obtain ⟨h1, _⟩ := h.frame (hashes_fr (T := T) (H := H) (2 * s.objs.length + 1) q (by simpa using hqa)).2
    rcases hx : Prf.hashF T H (2 * s.objs.length + 1) q s with ⟨_ | v, s1⟩
    · rw [hx] at h1; exact h1
    · rw [hx] at h1
      exact h1.cache fun o => ⟨rfl, rfl, rfl⟩

/-- Serializing an object found from the view. -/
theorem Vw.serLoop {sf : Nat → HM Bytes} {m p : Nat} {S : List (List Nat)}
    (hsf : ∀ (s : PState) (τ : List PTree) (addr : Nat → Option (List Nat)) (d : Nat) (π : List Nat), Inv T H s τ → Vw s p addr S → addr d = some π → (∀ t, τ[d]? = some t → t.depth ≤ m) →
      ∃ addr', Vw (sf d s).2 p addr' S ∧ (∀ k π, addr k = some π → addr' k = some π))
    (hsi : ∀ (s : PState) (τ : List PTree) (d : Nat) (t : PTree), Inv T H s τ → τ[d]? = some t → t.depth ≤ m → ∃ τ', Inv T H (sf d s).2 (τ ++ τ')) {d : Nat} {π : List Nat} (hS : π ∈ S) :
    ∀ (ks : List Kind) (i : Nat) (s : PState) (τ : List PTree) (addr : Nat → Option (List Nat)), Inv T H s τ → Vw s p addr S → addr d = some π → (∀ t, τ[d]? = some t → t.depth ≤ m + 1) →
      ∃ addr', Vw (Prf.serLoop T sf d i ks s).2 p addr' S ∧ (∀ k π, addr k = some π → addr' k = some π) := by
  intro ks
  induction ks with
  | nil => intro i s τ addr _ h _ _; exact ⟨addr, h, fun _ _ h => h⟩
  | cons k ks ih =>
    intro i s τ addr hi h hd hdt
    rw [Prf.serLoop, HM.bind_apply]
    obtain ⟨a1, h1, e1, r1⟩ := h.getAttr hi hd i
    obtain ⟨o, ho, _⟩ := h.obj d π hd
    obtain ⟨t, ht, _⟩ := hi.some_tree ho
    obtain ⟨x1, hi1, _, herr, hok, _⟩ := getAttr_spec hi ht i
    rcases hx : Prf.getAttr T d i s with ⟨e | v, s1⟩
    · rw [hx] at h1; exact ⟨a1, h1, e1⟩
    · rw [hx] at h1 hi1 r1 herr hok
      have g1 : Vw s1 p a1 S := h1.congr fun π' => by
        simp only [List.mem_cons]
        exact ⟨fun h => h.elim (fun h => h ▸ hS) id, .inr⟩
      have his : ∀ c, v = .ref c → ∃ t', (τ ++ x1)[c]? = some t' ∧ t'.depth ≤ m := by
        rintro c rfl
        cases hta : t.attr T s.inited i with
        | error e => exact absurd (herr e hta) (by simp)
        | ok tv =>
          obtain ⟨v', hv', his, _⟩ := hok tv hta
          cases hv'
          cases tv with
          | prim _ => exact his.elim
          | sub t' =>
            refine ⟨t', his, ?_⟩
            have := hdt t ht
            cases t with
            | pruned _ _ => simp [PTree.attr, PTree.get?] at hta
            | node c fs =>
              unfold PTree.attr at hta
              split at hta
              · rename_i x hx
                cases hta
                rw [PTree.get?] at hx
                have := PFields.le_depth fs i t' hx
                rw [PTree.depth] at *
                omega
              · cases hta
      simp only
      rw [HM.bind_apply]
      have hA : ∃ a2 x2, Inv T H (Prf.attrSer T sf k v s1).2 (τ ++ x1 ++ x2) ∧ Vw (Prf.attrSer T sf k v s1).2 p a2 S ∧ (∀ k π, a1 k = some π → a2 k = some π) := by
        cases v with
        | prim w => cases k <;> exact ⟨a1, [], (by rw [List.append_nil]; exact hi1), g1, fun _ _ h => h⟩
        | ref c =>
          have hc := r1 c rfl
          obtain ⟨t', ht', htd⟩ := his c rfl
          have hdep : ∀ t, (τ ++ x1)[c]? = some t → t.depth ≤ m := fun t'' h'' => by rw [ht'] at h''; cases h''; exact htd
          obtain ⟨a2, h2, e2⟩ := hsf s1 _ a1 c _ hi1 g1 hc hdep
          obtain ⟨x2, hi2⟩ := hsi s1 _ c t' hi1 ht' (hdep t' ht')
          cases k with
          | prim τ' => exact ⟨a1, [], (by rw [List.append_nil]; exact hi1), g1, fun _ _ h => h⟩
          | proof c' => exact ⟨a2, _, hi2, h2, e2⟩
          | union us =>
            obtain ⟨oc, hoc, _⟩ := g1.obj c _ hc
            rw [Prf.attrSer, HM.bind_obj hoc]
            cases hu : Prf.unionIndex T us oc.cls with
            | error e => exact ⟨a1, [], (by rw [List.append_nil]; exact hi1), g1, fun _ _ h => h⟩
            | ok j =>
              rw [HM.bind_apply, HM.lift_apply]
              simp only
              rw [HM.bind_apply]
              rcases hsc : sf c s1 with ⟨e | b, s2⟩
              · rw [hsc] at h2 hi2; exact ⟨a2, _, hi2, h2, e2⟩
              · rw [hsc] at h2 hi2; exact ⟨a2, _, hi2, h2, e2⟩
      obtain ⟨a2, x2, hi2, h2, e2⟩ := hA
      rcases hx2 : Prf.attrSer T sf k v s1 with ⟨e | b, s2⟩
      · rw [hx2] at h2; exact ⟨a2, h2, fun k π h => e2 k π (e1 k π h)⟩
      · rw [hx2] at h2 hi2
        simp only
        rw [HM.bind_apply]
        obtain ⟨a3, h3, e3⟩ := ih (i + 1) s2 _ a2 hi2 h2 (e2 d π (e1 d π hd)) (fun t' h' => by rw [append_get (append_get ht)] at h'; cases h'; exact hdt t ht)
        rcases hx3 : Prf.serLoop T sf d (i + 1) ks s2 with ⟨e | b, s3⟩
        · rw [hx3] at h3; exact ⟨a3, h3, fun k π h => e3 k π (e2 k π (e1 k π h))⟩
        · rw [hx3] at h3; exact ⟨a3, h3, fun k π h => e3 k π (e2 k π (e1 k π h))⟩

theorem Vw.serF (hT : T.WF) {p : Nat} {S : List (List Nat)} : ∀ (n : Nat) (s : PState) (τ : List PTree) (addr : Nat → Option (List Nat)) (d : Nat) (π : List Nat),
    Inv T H s τ → Vw s p addr S → addr d = some π → (∀ t, τ[d]? = some t → t.depth ≤ n) →
      ∃ addr', Vw (Prf.serF T H n d s).2 p addr' S ∧ (∀ k π, addr k = some π → addr' k = some π) := by
  intro n
  induction n with
  | zero => intro s τ addr d π _ h _ _; exact ⟨addr, h, fun _ _ h => h⟩
  | succ n ih =>
    intro s τ addr d π hi h hd hdt
    obtain ⟨o, ho, _, hfp, _⟩ := h.obj d π hd
    rw [Prf.serF, HM.bind_obj ho]
    cases hf : o.isFullyPruned with
    | true =>
      simp only
      rw [HM.bind_apply]
      have := h.dataHash hi hd
      rcases hx : Prf.dataHash T H d s with ⟨e | b, s1⟩
      · rw [hx] at this; exact ⟨addr, this, fun _ _ h => h⟩
      · rw [hx] at this; exact ⟨addr, this, fun _ _ h => h⟩
    | false =>
      have hS : π ∈ S := Decidable.byContradiction fun hn => by rw [hfp.mpr hn] at hf; cases hf
      simp only
      rw [HM.bind_apply, HM.lift_apply]
      cases Prf.variantBytes T o.cls with
      | error e => exact ⟨addr, h, fun _ _ h => h⟩
      | ok v =>
        simp only
        rw [HM.bind_apply]
        obtain ⟨a1, h1, e1⟩ := Vw.serLoop (sf := Prf.serF T H n) ih (fun s τ d t hi ht hdn => by
          obtain ⟨x, hx, _⟩ := serF_spec hT n s τ d t hi ht hdn
          exact ⟨x, hx⟩) hS (T o.cls).attrs 0 s τ addr hi h hd hdt
        rcases hx : Prf.serLoop T (Prf.serF T H n) d 0 (T o.cls).attrs s with ⟨e | b, s1⟩
        · rw [hx] at h1; exact ⟨a1, h1, e1⟩
        · rw [hx] at h1; exact ⟨a1, h1, e1⟩

theorem Vw.serialize (hT : T.WF) {s : PState} {τ : List PTree} (hi : Inv T H s τ) {p : Nat} {addr : Nat → Option (List Nat)} {S : List (List Nat)} (h : Vw s p addr S)
    {d : Nat} {π : List Nat} (hd : addr d = some π) :
    ∃ addr', Vw (Prf.serialize T H d s).2 p addr' S ∧ (∀ k π, addr k = some π → addr' k = some π) := by
  refine Vw.serF hT _ s τ addr d π hi h hd fun t ht => ?_
  have := hi.depth d t ht
  have := get_lt ht
  rw [hi.len] at this
  omega

/-! ### What can be seen from the view -/

mutual
theorem Vw.disclosed {s : PState} {τ : List PTree} (hi : Inv T H s τ) {p : Nat} {addr : Nat → Option (List Nat)} {S : List (List Nat)} (h : Vw s p addr S) :
    ∀ (t : PTree) (d : Nat) (π : List Nat), addr d = some π → τ[d]? = some t → t.disclosed T H s d = t.reveal T H S π
  | .pruned c x, d, π, _, _ => by rw [PTree.disclosed, PTree.reveal]
  | .node c fs, d, π, hd, ht => by
    obtain ⟨o, ho, _, hfp, hf, hS⟩ := h.obj d π hd
    rw [PTree.disclosed, PTree.reveal]
    have hok := hi.obj d o _ ho ht
    by_cases hm : π ∈ S
    · rw [if_pos hm, if_neg]
      · rw [Vw.disclosedFields hi h fs d π 0 o ho hd]
        intro i t hg
        rw [Nat.zero_add]
        refine ⟨fun c hc => ?_, fun v hv => ?_⟩
        · obtain ⟨tv, htv, his⟩ := hok.fmatch i _ hc
          rw [PTree.get?, hg] at htv
          cases htv
          exact his
        · obtain ⟨tv, htv, his⟩ := hok.fmatch i _ hv
          rw [PTree.get?, hg] at htv
          cases htv
          exact his
      · rw [ho]
        simp only [Option.any_some]
        exact fun h => hfp.mp h hm
    · rw [if_neg hm, if_pos]
      rw [ho]
      simp only [Option.any_some]
      exact hfp.mpr hm
theorem Vw.disclosedFields {s : PState} {τ : List PTree} (hi : Inv T H s τ) {p : Nat} {addr : Nat → Option (List Nat)} {S : List (List Nat)} (h : Vw s p addr S) :
    ∀ (fs : PFields) (d : Nat) (π : List Nat) (i : Nat) (o : Obj), s.objs[d]? = some o → addr d = some π →
      (∀ j t, fs.get? j = some (.sub t) → (∀ c, o.fields[i + j]? = some (some (.ref c)) → τ[c]? = some t) ∧ ∀ v, o.fields[i + j]? ≠ some (some (.prim v))) →
      fs.disclosed T H s d i = fs.reveal T H S π i
  | .nil, d, π, i, o, _, _, _ => by rw [PFields.disclosed, PFields.reveal]
  | .prim v fs, d, π, i, o, ho, hd, hg => by
    rw [PFields.disclosed, PFields.reveal, Vw.disclosedFields hi h fs d π (i + 1) o ho hd]
    intro j t hj
    have := hg (j + 1) t hj
    rwa [show i + (j + 1) = i + 1 + j by omega] at this
  | .sub t fs, d, π, i, o, ho, hd, hg => by
    rw [PFields.disclosed_sub, PFields.reveal, Vw.disclosedFields hi h fs d π (i + 1) o ho hd]
    · congr 1
      obtain ⟨g1, g2⟩ := hg 0 t rfl
      rw [Nat.add_zero] at g1 g2
      obtain ⟨o', ho', _, _, h3, h4⟩ := h.obj d π hd
      rw [ho] at ho'; cases ho'
      rcases hfi : s.field d i with _ | (v | c)
      · have hn : π ++ [i] ∉ S := fun hm => by
          obtain ⟨c, hc⟩ := h4 i hm
          rw [(PState.field_some ho).mpr hc] at hfi; cases hfi
        show t.stub T H = _
        cases t with
        | pruned c d => rw [PTree.reveal]; rfl
        | node c fs => rw [PTree.reveal, if_neg hn]
      · exact absurd ((PState.field_some ho).mp hfi) (g2 v)
      · have hc := (PState.field_some ho).mp hfi
        exact Vw.disclosed hi h t c (π ++ [i]) (h3 i c hc) (g1 c hc)
    · intro j t hj
      have := hg (j + 1) t hj
      rwa [show i + (j + 1) = i + 1 + j by omega] at this
end

/-! ### Computations on the view -/

theorem TVal.walk_inited (ini ini' : List Nat) : ∀ (π : List Nat) (tv tv' : TVal), tv.walk T ini π = .ok tv' → tv.walk T ini' π = .ok tv'
  | [], tv, tv', h => h
  | i :: π, .prim _, tv', h => h
  | i :: π, .sub t, tv', h => by
    rw [TVal.walk] at h ⊢
    obtain ⟨w, hw, _⟩ := Except.bind_eq_ok h
    have : t.attr T ini' i = .ok w := by
      unfold PTree.attr at hw ⊢
      split at hw
      · exact hw
      · cases hw
    rw [hw, Except.bind_ok] at h
    rw [this, Except.bind_ok]
    exact TVal.walk_inited ini ini' π w tv' h

theorem Vw.walk {p : Nat} : ∀ (ρ : List Nat) (s : PState) (τ : List PTree) (addr : Nat → Option (List Nat)) (S : List (List Nat)) (v : HVal) (tv : TVal) (π : List Nat),
    Inv T H s τ → v.Is τ tv → Vw s p addr S → (∀ c, v = .ref c → addr c = some π) →
    ∃ addr', Vw (Prog.walk T v ρ s).2 p addr' (S ++ (tv.readsOn ρ).map (π ++ ·)) ∧ (∀ k π, addr k = some π → addr' k = some π) ∧
      ∀ c, (Prog.walk T v ρ s).1 = .ok (.ref c) → addr' c = some (π ++ ρ) := by
  intro ρ
  induction ρ with
  | nil =>
    intro s τ addr S v tv π hi his h hv
    refine ⟨addr, ?_, fun _ _ h => h, fun c hc => ?_⟩
    · have : tv.readsOn [] = [] := by cases tv <;> rfl
      rw [this, List.map_nil, List.append_nil]; exact h
    · cases hc
      rw [List.append_nil]; exact hv c rfl
  | cons i ρ ih =>
    intro s τ addr S v tv π hi his h hv
    cases v with
    | prim w =>
      cases tv with
      | sub _ => exact his.elim
      | prim w' =>
        refine ⟨addr, ?_, fun _ _ h => h, fun c hc => by cases hc⟩
        rw [TVal.readsOn, List.map_nil, List.append_nil]; exact h
    | ref d =>
      cases tv with
      | prim _ => exact his.elim
      | sub t =>
        have ht : τ[d]? = some t := his
        have hd := hv d rfl
        rw [Prog.walk, HM.bind_apply]
        obtain ⟨a1, h1, e1, r1⟩ := h.getAttr hi hd i
        obtain ⟨x1, hi1, _, herr, hok, _⟩ := getAttr_spec hi ht i
        rcases hx : Prf.getAttr T d i s with ⟨e | v1, s1⟩
        · rw [hx] at h1 herr hok
          refine ⟨a1, ?_, e1, fun c hc => by cases hc⟩
          have : t.get? i = none := by
            cases hg : t.get? i with
            | none => rfl
            | some tv =>
              obtain ⟨_, hv', _⟩ := hok tv (by simp [PTree.attr, hg])
              cases hv'
          rw [TVal.readsOn, this, List.map_nil, List.append_nil]; exact h1
        · rw [hx] at h1 hi1 r1 herr hok
          cases hg : t.get? i with
          | none => exact absurd (herr _ (by simp only [PTree.attr, hg]; rfl)) (by simp)
          | some tv1 =>
            obtain ⟨v', hv', his1, _⟩ := hok tv1 (by simp [PTree.attr, hg])
            cases hv'
            obtain ⟨a2, h2, e2, r2⟩ := ih s1 _ a1 (π :: S) v1 tv1 (π ++ [i]) hi1 his1 h1 (fun c hc => r1 c (by rw [hc]))
            refine ⟨a2, ?_, fun k π h => e2 k π (e1 k π h), fun c hc => ?_⟩
            · refine h2.congr fun π' => ?_
              rw [TVal.readsOn, hg]
              simp only [List.map_cons, List.map_map, List.mem_append, List.mem_cons, List.append_nil]
              have : (fun x => π ++ x) ∘ (fun x => i :: x) = fun x => π ++ [i] ++ x := by
                funext x; simp
              rw [this]
              constructor
              · rintro ((h | h) | h)
                · exact .inr (.inl h)
                · exact .inl h
                · exact .inr (.inr h)
              · rintro (h | h | h)
                · exact .inl (.inr h)
                · exact .inl (.inl h)
                · exact .inr h
            · have := r2 c hc
              simpa using this

theorem Vw.run (hT : T.WF) {α} {p : Nat} : ∀ (q : Prog α) (s : PState) (τ : List PTree) (addr : Nat → Option (List Nat)) (S : List (List Nat)) (t : PTree),
    Inv T H s τ → τ[p]? = some t → Vw s p addr S → ∃ addr', Vw (q.run T H p s).2 p addr' (S ++ q.reads T H t) := by
  intro q
  have hwalk : ∀ (π : List Nat) (s : PState) (τ : List PTree) (addr : Nat → Option (List Nat)) (S : List (List Nat)) (t : PTree) (f : HVal → HM (Py α)) (R : List (List Nat)),
      Inv T H s τ → τ[p]? = some t → Vw s p addr S →
      (∀ s1 τ1 a1 v tv, Inv T H s1 τ1 → τ1[p]? = some t → Vw s1 p a1 (S ++ (TVal.sub t).readsOn π) → v.Is τ1 tv → (TVal.sub t).walk T [] π = .ok tv →
        (∀ c, v = .ref c → a1 c = some π) → ∃ a2, Vw (f v s1).2 p a2 (S ++ (TVal.sub t).readsOn π ++ R)) →
      ((∀ e, (TVal.sub t).walk T [] π = .error e → R = [])) →
      ∃ addr', Vw ((Prog.walk T (.ref p) π >>= f) s).2 p addr' (S ++ ((TVal.sub t).readsOn π ++ R)) := by
    intro π s τ addr S t f R hi ht h hf hR
    obtain ⟨a1, h1, e1, r1⟩ := Vw.walk (T := T) (H := H) π s τ addr S (.ref p) (.sub t) [] hi ht h (fun c hc => by cases hc; exact h.root)
    simp only [List.nil_append, List.map_id'] at h1 r1
    rw [HM.bind_apply, ← List.append_assoc]
    obtain ⟨x1, hi1, _, herr, hok⟩ := walk_spec π s τ (.ref p) (.sub t) hi ht
    rcases hx : Prog.walk T (.ref p) π s with ⟨e | v, s1⟩
    · rw [hx] at h1 herr hok
      cases hw : (TVal.sub t).walk T s.inited π with
      | ok tv => obtain ⟨_, hv', _⟩ := hok tv hw; cases hv'
      | error e' =>
        have : R = [] := by
          cases hw' : (TVal.sub t).walk T [] π with
          | error e'' => exact hR _ hw'
          | ok tv => rw [TVal.walk_inited _ _ _ _ _ hw'] at hw; cases hw
        rw [this, List.append_nil]
        exact ⟨a1, h1⟩
    · rw [hx] at h1 hi1 r1 herr hok
      cases hw : (TVal.sub t).walk T s.inited π with
      | error e => exact absurd (herr e hw) (by simp)
      | ok tv =>
        obtain ⟨v', hv', his⟩ := hok tv hw
        cases hv'
        exact hf s1 _ a1 v tv hi1 (append_get ht) h1 his (TVal.walk_inited _ _ _ _ _ hw) (fun c hc => r1 c (by rw [hc]))
  induction q with
  | ret a =>
    intro s τ addr S t hi ht h
    exact ⟨addr, by rw [Prog.reads, List.append_nil]; exact h⟩
  | read π k ih =>
    intro s τ addr S t hi ht h
    rw [Prog.reads]
    refine hwalk π s τ addr S t _ _ hi ht h ?_ ?_
    · intro s1 τ1 a1 v tv hi1 ht1 h1 his hw hc
      rw [hw]
      cases v with
      | prim w =>
        cases tv with
        | sub _ => exact his.elim
        | prim w' =>
          have : w = w' := his
          subst this
          exact ih (some w) s1 τ1 a1 _ t hi1 ht1 h1
      | ref c =>
        cases tv with
        | prim _ => exact his.elim
        | sub t' => exact ih none s1 τ1 a1 _ t hi1 ht1 h1
    · intro e he; rw [he]
  | cls π k ih =>
    intro s τ addr S t hi ht h
    rw [Prog.reads]
    refine hwalk π s τ addr S t _ _ hi ht h ?_ ?_
    · intro s1 τ1 a1 v tv hi1 ht1 h1 his hw hc
      rw [hw]
      cases v with
      | prim w =>
        cases tv with
        | sub _ => exact his.elim
        | prim w' => exact ⟨a1, by rw [List.append_nil]; exact h1⟩
      | ref c =>
        cases tv with
        | prim _ => exact his.elim
        | sub t' =>
          obtain ⟨o, ho, hok'⟩ := hi1.some_obj (show τ1[c]? = some t' from his)
          show ∃ a2, Vw ((HM.obj c >>= fun o => (k o.cls).run T H p) s1).2 p a2 _
          rw [HM.bind_obj ho, ← hok'.cls]
          exact ih t'.cls s1 τ1 a1 _ t hi1 ht1 h1
    · intro e he; rw [he]
  | hash π k ih =>
    intro s τ addr S t hi ht h
    rw [Prog.reads]
    refine hwalk π s τ addr S t _ _ hi ht h ?_ ?_
    · intro s1 τ1 a1 v tv hi1 ht1 h1 his hw hc
      rw [hw]
      cases v with
      | prim w =>
        cases tv with
        | sub _ => exact his.elim
        | prim w' => exact ⟨a1, by rw [List.append_nil]; exact h1⟩
      | ref c =>
        cases tv with
        | prim _ => exact his.elim
        | sub t' =>
          show ∃ a2, Vw ((Prf.hash T H c >>= fun h => (k h).run T H p) s1).2 p a2 _
          rw [HM.bind_apply]
          have g := h1.hash hi1 (hc c rfl)
          obtain ⟨x, hi2, _, hq⟩ := hash_spec hT hi1 (show τ1[c]? = some t' from his)
          rcases hx : Prf.hash T H c s1 with ⟨e | b, s2⟩
          · rw [hx] at g hq
            simp only [← hq]
            exact ⟨a1, by rw [List.append_nil]; exact g⟩
          · rw [hx] at g hq hi2
            simp only [← hq]
            exact ih b s2 _ a1 _ t hi2 (append_get ht1) g
    · intro e he; rw [he]
  | dataHash π k ih =>
    intro s τ addr S t hi ht h
    rw [Prog.reads]
    refine hwalk π s τ addr S t _ _ hi ht h ?_ ?_
    · intro s1 τ1 a1 v tv hi1 ht1 h1 his hw hc
      rw [hw]
      cases v with
      | prim w =>
        cases tv with
        | sub _ => exact his.elim
        | prim w' => exact ⟨a1, by rw [List.append_nil]; exact h1⟩
      | ref c =>
        cases tv with
        | prim _ => exact his.elim
        | sub t' =>
          show ∃ a2, Vw ((Prf.dataHash T H c >>= fun h => (k h).run T H p) s1).2 p a2 _
          rw [HM.bind_apply]
          have g := h1.dataHash hi1 (hc c rfl)
          obtain ⟨x, hi2, _, hq⟩ := dataHash_spec hT hi1 (show τ1[c]? = some t' from his)
          rcases hx : Prf.dataHash T H c s1 with ⟨e | b, s2⟩
          · rw [hx] at g hq
            simp only [← hq]
            exact ⟨a1, by rw [List.append_nil]; exact g⟩
          · rw [hx] at g hq hi2
            simp only [← hq]
            exact ih b s2 _ a1 _ t hi2 (append_get ht1) g
    · intro e he; rw [he]

/-- The view just made. -/
theorem Vw.start {s : PState} {τ : List PTree} (hi : Inv T H s τ) {r : Nat} {o : Obj} (ho : s.objs[r]? = some o) :
    Vw (Prf.prune T r s).2 s.objs.length (fun k => if k = s.objs.length then some [] else none) [] := by
  rw [Prf.prune_apply ho]
  have hrl := get_lt ho
  refine ⟨by simp, ?_, ?_, ?_, ?_, by simp⟩
  · intro d π hd
    try simp only at hd
    split at hd
    · rename_i hdn
      subst hdn
      cases hd
      refine ⟨_, List.getElem?_concat_length, ⟨r, rfl, by simp; omega⟩, by simp, ?_, by simp⟩
      intro i c hc
      simp only [List.getElem?_replicate] at hc
      split at hc <;> simp at hc
    · cases hd
  · intro c π i hc
    try simp only at hc
    split at hc <;> simp at hc
  · intro d d' π hd hd'
    try simp only at hd hd'
    split at hd <;> split at hd' <;> first | omega | (simp at hd; done) | (simp at hd'; done)
  · intro k ok hk hka
    try simp only at hka
    split at hka
    · cases hka
    · rename_i hkn
      have hkl : k < s.objs.length := by
        have := get_lt hk
        simp at this; omega
      simp only [List.getElem?_append_left hkl] at hk
      obtain ⟨tk, htk, hokk⟩ := hi.some_tree hk
      refine ⟨fun q hq => ?_, fun j c hc => ?_⟩
      · have := (hokk.view q hq).1
        simp; omega
      · obtain ⟨tv, _, his⟩ := hokk.fmatch j _ hc
        cases tv with
        | prim _ => exact his.elim
        | sub t' =>
          have := get_lt (show τ[c]? = some t' from his)
          rw [hi.len] at this
          simp; omega

end Verif
