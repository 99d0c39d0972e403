import Verif.Lemmas.MbShip
import Verif.Lemmas.MbAgree
import Verif.Props.Proof
import Verif.Props.Merbinner
import Verif.Props.MmrProof
/-!
# Merbinner trees as proofs (C79–C82)

`T` is any collection of classes in which `m` is a class made by `make_MerbinnerTree_subclass` with `HASHTAG` `tag`,
`KEY_SERIALIZER` `τ` and `VALUE_SERIALIZER` `kv`, whose `key2prefix` computes `kp`, prefixes that are free of each other.
-/
namespace Verif
open Seal MB
namespace Merb
open Mmr (AllRep SameValue)
variable {T : Table} {H : HashFns} {m : Nat} {tag : Bytes} {τ : PrimTy} {kv : Kind} {k2p : PVal → Py (List Bool)} {kp : Key τ → List Bool}

/-- `t` is laid out as documented (merbinnertree.py:49-83) and its contents are `d`. -/
def Contains (T : Table) (H : HashFns) (kv : Kind) (kp : Key τ → List Bool) (d : Dict (Key τ) TVal) (t : MB (Key τ) TVal) : Prop :=
  Tree (cls T H τ kv kp) t ∧ ∀ k v, d k = some v ↔ (k, v) ∈ t.pairs

/-- Object `r` stands for the documented tree of `d`: itself, or as a pruned view of it, or having been received. -/
def Holds (T : Table) (H : HashFns) (m : Nat) (kv : Kind) (kp : Key τ → List Bool) (s : PState) (r : Nat) (d : Dict (Key τ) TVal) : Prop :=
  ∃ t, Contains T H kv kp d t ∧ Represents s r (emb m t)

theorem Prefixes.free' (hk : Prefixes τ k2p kp) : PrefixFreeKeys (cls T H τ kv kp) := hk.free

theorem Contains.unique {d : Dict (Key τ) TVal} {t u : MB (Key τ) TVal} (h : Contains T H kv kp d t) (h' : Contains T H kv kp d u) : t = u :=
  h.1.unique h'.1 fun x => (h.2 x.1 x.2).symm.trans (h'.2 x.1 x.2)

theorem Contains.fresh {d : Dict (Key τ) TVal} {t : MB (Key τ) TVal} (h : Contains T H kv kp d t) {k : Key τ} (hn : d k = none) (v : TVal) : (k, v) ∉ t.pairs := by
  intro hv
  rw [← h.2, hn] at hv
  cases hv

theorem Contains.put (hk : Prefixes τ k2p kp) {d : Dict (Key τ) TVal} {t : MB (Key τ) TVal} (h : Contains T H kv kp d t) {k : Key τ} {v : TVal}
    (hc : Mmr.accepts T kv v = .ok ()) (hn : d k = none) : ∃ t', t.put (cls T H τ kv kp) k v = .ok t' ∧ Contains T H kv kp (d.set k v) t' := by
  obtain ⟨t', e1, e2, e3⟩ := h.1.put hk.free' (k := k) (v := v) rfl hc (h.fresh hn)
  refine ⟨t', e1, .inr e2, fun k' v' => ?_⟩
  rw [e3.mem_iff, List.mem_cons, Prod.mk.injEq, ← h.2]
  unfold Dict.set
  by_cases hkk : k' = k
  · subst hkk; simp [hn, eq_comm]
  · simp [hkk]

theorem Contains.remove (hk : Prefixes τ k2p kp) {d : Dict (Key τ) TVal} {t : MB (Key τ) TVal} (h : Contains T H kv kp d t) {k : Key τ} {v : TVal}
    (hv : d k = some v) : ∃ t', t.remove (cls T H τ kv kp) k = .ok t' ∧ Contains T H kv kp (d.del k) t' := by
  obtain ⟨t', e1, e2, e3⟩ := (h.1.remove hk.free' k).1 v ((h.2 k v).mp hv)
  refine ⟨t', e1, e2, fun k' v' => ?_⟩
  have hnd := (e3.map (·.1)).nodup_iff.mp h.1.nodup
  unfold Dict.del
  by_cases hkk : k' = k
  · subst hkk
    simp only [if_true, reduceCtorEq, false_iff]
    intro h
    simp only [List.map_cons, List.nodup_cons, List.mem_map] at hnd
    exact hnd.1 ⟨_, h, rfl⟩
  · rw [if_neg hkk, h.2, e3.mem_iff, List.mem_cons, Prod.mk.injEq]
    simp [hkk]

/-! ## Example -/
namespace Ex

/-- `IntMBTree` of proofmarshal/test/test_merbinnertree.py and its nodes, numbers 0 to 3. -/
def IT : Table := Table.withMb (fun _ => { hashtag := none, attrs := [] }) realHash 0 intMBTag (.fixed 32) (.prim .uint64)

/-- Its `key2prefix`: `Bits.from_bytes(key)`. -/
def toBits : PVal → Py (List Bool)
  | .bytes b => .ok (firstBits b (8 * b.length))
  | _ => .error .typeError

/-- Of keys. -/
def pre (k : Key (.fixed 32)) : List Bool := match k.1 with | .bytes b => firstBits b 256 | _ => []

theorem key_bytes (k : Key (.fixed 32)) : ∃ b : Bytes, b.length = 32 ∧ k.1 = .bytes b := by
  obtain ⟨k, h⟩ := k
  cases k with
  | bytes b =>
    refine ⟨b, ?_, rfl⟩
    by_cases hb : b.length = 32
    · exact hb
    · simp [PrimTy.check, hb] at h
  | _ => cases h

theorem prefixes : Prefixes (.fixed 32) toBits pre where
  eq k := by
    obtain ⟨b, hb, hk⟩ := key_bytes k
    unfold pre toBits
    rw [hk]
    simp only [hb]
  free k k' h := by
    obtain ⟨b, hb, hk⟩ := key_bytes k
    obtain ⟨b', hb', hk'⟩ := key_bytes k'
    unfold pre at h
    rw [hk, hk'] at h
    have := intMB_prefixFree ⟨b, hb⟩ ⟨b', hb'⟩ h
    apply Subtype.ext
    rw [hk, hk', show b = b' from congrArg Subtype.val this]

theorem declares : Declares IT realHash 0 intMBTag (.fixed 32) (.prim .uint64) := ⟨rfl, rfl, rfl, rfl⟩

theorem not_tx (c : Nat) : (IT c).isTx = false := by
  unfold IT Table.withMb
  split
  · rfl
  split
  · rfl
  split
  · rfl
  split <;> rfl

theorem wf : IT.WF := fun c h => by rw [not_tx] at h; cases h

theorem binds : IT.Binds where
  tags c c' tg h h' := by
    have key : ∀ c, 4 ≤ c → (IT c).hashtag = none := by
      intro c hc
      unfold IT Table.withMb
      rw [if_neg (by omega), if_neg (by omega), if_neg (by omega), if_neg (by omega)]
    have hc : c < 4 := by
      rcases Nat.lt_or_ge c 4 with h1 | h1
      · exact h1
      · rw [key c h1] at h; cases h
    have hc' : c' < 4 := by
      rcases Nat.lt_or_ge c' 4 with h1 | h1
      · exact h1
      · rw [key c' h1] at h'; cases h'
    have all : ∀ c < 4, ∀ c' < 4, (IT c).hashtag = (IT c').hashtag → c = c' := by decide +kernel
    exact all c hc c' hc' (h.trans h'.symm)
  tx c k _ c1 c2 _ _ h := by rw [not_tx] at h; cases h
  root c c1 c2 _ _ h := by rw [not_tx] at h; cases h
  txTag c h := by rw [not_tx] at h; cases h

/-- Keys `00…` and so on. -/
def key (a : Byte) : Key (.fixed 32) := ⟨.bytes (a :: List.replicate 31 0), by simp [PrimTy.check]⟩

/-- `IntMBTree([(b'\x81…', 3), (b'\x00…', 1), (b'\x80…', 2)])` … -/
def make : HM Nat := ofPairs 0 toBits IT realHash [((key 0x81).1, .prim (.int 3)), ((key 0x00).1, .prim (.int 1)), ((key 0x80).1, .prim (.int 2))]
def s3 : PState := (make {}).2
def d3 : Dict (Key (.fixed 32)) TVal := ((Dict.set (Dict.set (Dict.set (fun _ => none) (key 0x81) (.prim (.int 3))) (key 0) (.prim (.int 1)))) (key 0x80) (.prim (.int 2)))

end Ex

/-! ## C79 -/

/-- C79: the constructor makes an object that holds the pairs given, if no key occurs twice and the serializer accepts the
values. -/
theorem C79_new (hT : T.WF) (hD : Declares T H m tag τ kv) (hk : Prefixes τ k2p kp) {s : PState} (hs : Reachable T H s) {kvs : List (PVal × HVal)} {xs : List (Key τ × TVal)}
    (hv : PairsRep s kvs xs) (hc : ∀ x ∈ xs, Mmr.accepts T kv x.2 = .ok ()) (hn : (xs.map (·.1)).Nodup) :
    ∃ r s', ofPairs m k2p T H kvs s = (.ok r, s') ∧ Steps T H s s' ∧ Holds T H m kv kp s' r (xs.foldl (fun d x => d.set x.1 x.2) fun _ => none) := by
  have key : ∀ (xs : List (Key τ × TVal)) (d : Dict (Key τ) TVal) (t : MB (Key τ) TVal), Contains T H kv kp d t → (∀ x ∈ xs, Mmr.accepts T kv x.2 = .ok ()) →
      (xs.map (·.1)).Nodup → (∀ x ∈ xs, d x.1 = none) → ∃ t', MB.ofPairs (cls T H τ kv kp) t xs = .ok t' ∧ Contains T H kv kp (xs.foldl (fun d x => d.set x.1 x.2) d) t' := by
    intro xs
    induction xs with
    | nil => intro d t h _ _ _; exact ⟨t, rfl, h⟩
    | cons x xs ih =>
      intro d t h hc hn hd
      obtain ⟨k, v⟩ := x
      simp only [List.map_cons, List.nodup_cons] at hn
      obtain ⟨t', e1, h1⟩ := h.put hk (hc (k, v) (by simp)) (hd (k, v) (by simp))
      obtain ⟨t2, e2, h2⟩ := ih (d.set k v) t' h1 (fun x hx => hc x (by simp [hx])) hn.2 (fun x hx => by
        have hne : x.1 ≠ k := fun he => hn.1 (List.mem_map.mpr ⟨x, hx, he⟩)
        simp only [Dict.set, if_neg hne]
        exact hd x (by simp [hx]))
      refine ⟨t2, ?_, h2⟩
      rw [MB.ofPairs, e1]
      exact e2
  obtain ⟨t, e, ht⟩ := key xs (fun _ => none) .empty ⟨.inl rfl, by simp [pairs]⟩ hc hn (by simp)
  obtain ⟨r0, s0, e0, st0, h0⟩ := mkEmpty_makes (τ := τ) hT hD hs
  have hs0 : Reachable T H s0 := Steps.trans hs st0
  have hv0 : PairsRep s0 kvs xs := hv.imp fun _ _ h => ⟨h.1, HVal.Rep.steps hT hs st0 h.2⟩
  have := putAll_does hT hD hk hs0 h0 hv0 hc
  rw [e] at this
  obtain ⟨r, s', e', st, hr⟩ := this
  exact ⟨r, s', by unfold ofPairs; rw [Mmr.bind_ok e0, e'], Steps.trans st0 st, t, ht, hr⟩

/-- C79: it goes on holding them whatever the program does. -/
theorem C79_kept (hT : T.WF) {s s' : PState} (hs : Reachable T H s) (hst : Steps T H s s') {r : Nat} {d : Dict (Key τ) TVal} (h : Holds T H m kv kp s r d) :
    Holds T H m kv kp s' r d := by
  obtain ⟨t, ht, hr⟩ := h
  exact ⟨t, ht, hst.represents hT hs hr⟩

/-- C79: so does its pruned view. -/
theorem C79_prune (hT : T.WF) {s : PState} (hs : Reachable T H s) {r : Nat} {d : Dict (Key τ) TVal} (h : Holds T H m kv kp s r d) :
    ∃ p s', Prf.prune T r s = (.ok p, s') ∧ Holds T H m kv kp s' p d := by
  obtain ⟨t, ht, hr⟩ := h
  obtain ⟨τ, hi⟩ := hs.inv hT
  obtain ⟨τ1, hi1, _, h2, h3, _⟩ := prune_spec hi (hi.of_represents hr)
  exact ⟨_, _, Prod.ext h2 rfl, t, ht, hi1.represents _ _ h3⟩

/-- C79: a key finds its value, or raises `KeyError`. -/
theorem C79_getitem (hT : T.WF) (hk : Prefixes τ k2p kp) {s : PState} (hs : Reachable T H s) {r : Nat} {d : Dict (Key τ) TVal} (h : Holds T H m kv kp s r d) (k : Key τ) :
    (∀ x, d k = some x → ∃ v s', getItem m k2p T H r k.1 s = (.ok v, s') ∧ Steps T H s s' ∧ v.Rep s' x) ∧
    (d k = none → (getItem m k2p T H r k.1 s).1 = .error .keyError) := by
  obtain ⟨t, ht, hr⟩ := h
  have h1 := getItem_rep (kv := kv) hT hk hs hr k
  constructor
  · intro x hx
    rw [(ht.1.getItem hk.free' k).1 x ((ht.2 k x).mp hx)] at h1
    exact h1
  · intro hn
    rw [(ht.1.getItem hk.free' k).2 (ht.fresh hn)] at h1
    exact h1

/-- C79: `put` of an absent key, on the object or on its pruned view, gives an object that holds it too, and leaves the one it was
called on; of a key that is present it raises `AssertionError`. -/
theorem C79_put (hT : T.WF) (hD : Declares T H m tag τ kv) (hk : Prefixes τ k2p kp) {s : PState} (hs : Reachable T H s) {r : Nat} {d : Dict (Key τ) TVal} (h : Holds T H m kv kp s r d)
    {k : Key τ} {v : HVal} {x : TVal} (hv : v.Rep s x) (hc : Mmr.accepts T kv x = .ok ()) :
    (d k = none → ∃ r' s', put m k2p T H r k.1 v s = (.ok r', s') ∧ Steps T H s s' ∧ Holds T H m kv kp s' r' (d.set k x) ∧ Holds T H m kv kp s' r d) ∧
    (d k ≠ none → (put m k2p T H r k.1 v s).1 = .error .assertion) := by
  have h0 := h
  obtain ⟨t, ht, hr⟩ := h
  have h1 := put_does hT hD hk hs hr (key := k) hv hc
  constructor
  · intro hn
    obtain ⟨t', e, ht'⟩ := ht.put hk hc hn
    rw [e] at h1
    obtain ⟨r', s', e', st, hr'⟩ := h1
    exact ⟨r', s', e', st, ⟨t', ht', hr'⟩, C79_kept hT hs st h0⟩
  · intro hn
    cases hd : d k with
    | none => exact absurd hd hn
    | some w =>
      rw [ht.1.put_present hk.free' rfl hc ((ht.2 k w).mp hd)] at h1
      exact h1

/-- C79: `remove` of a present key gives an object that holds the others, and leaves the one it was called on; of an absent one it
raises `KeyError`. -/
theorem C79_remove (hT : T.WF) (hD : Declares T H m tag τ kv) (hk : Prefixes τ k2p kp) {s : PState} (hs : Reachable T H s) {r : Nat} {d : Dict (Key τ) TVal} (h : Holds T H m kv kp s r d)
    (k : Key τ) :
    (d k ≠ none → ∃ r' s', remove m k2p T H r k.1 s = (.ok r', s') ∧ Steps T H s s' ∧ Holds T H m kv kp s' r' (d.del k) ∧ Holds T H m kv kp s' r d) ∧
    (d k = none → (remove m k2p T H r k.1 s).1 = .error .keyError) := by
  have h0 := h
  obtain ⟨t, ht, hr⟩ := h
  have h1 := remove_does hT hD hk hs hr k
  constructor
  · intro hn
    cases hd : d k with
    | none => exact absurd hd hn
    | some w =>
      obtain ⟨t', e, ht'⟩ := ht.remove hk hd
      rw [e] at h1
      obtain ⟨r', s', e', st, hr'⟩ := h1
      exact ⟨r', s', e', st, ⟨t', ht', hr'⟩, C79_kept hT hs st h0⟩
  · intro hn
    rw [(ht.1.remove hk.free' k).2 (ht.fresh hn)] at h1
    exact h1

/-- C79: `keys()` and `values()` give what it holds, each key once, in the order of prefixes, values in the order of keys; and
`len()` counts them. -/
theorem C79_iter (hT : T.WF) {s : PState} (hs : Reachable T H s) {r : Nat} {d : Dict (Key τ) TVal} (h : Holds T H m kv kp s r d) :
    ∃ xs : List (Key τ × TVal), (∀ k v, (k, v) ∈ xs ↔ d k = some v) ∧ (xs.map (·.1)).Nodup ∧ xs.Pairwise (fun a b => lexLt (kp a.1) (kp b.1) = true) ∧
      (∃ s', toList m T H 0 r s = (.ok (xs.map fun x => .prim x.1.1), s') ∧ Steps T H s s') ∧
      (∃ vs s', toList m T H 1 r s = (.ok vs, s') ∧ Steps T H s s' ∧ AllRep s' vs (xs.map (·.2))) ∧
      (xs.length < 2 ^ 63 → ∃ s', length m T H r s = (.ok xs.length, s') ∧ Steps T H s s') := by
  obtain ⟨t, ht, hr⟩ := h
  refine ⟨t.pairs, fun k v => (ht.2 k v).symm, ht.1.nodup, ht.1.sorted, ?_, ?_, ?_⟩
  · obtain ⟨vs, s', e, st, hv⟩ := toList_rep hT hs (.inl rfl) hr
    refine ⟨s', ?_, st⟩
    rw [e]
    have : ∀ (ks : List (Key τ)) (vs : List HVal), AllRep s' vs (ks.map fun k => TVal.prim k.1) → vs = ks.map fun k => HVal.prim k.1 := by
      intro ks
      induction ks with
      | nil => intro vs h; cases h; rfl
      | cons k ks ih =>
        intro vs h
        cases h with
        | prim h => rw [ih _ h]; rfl
    have hcol : column 0 t = t.keys.map fun k => TVal.prim k.1 := by simp [column]
    rw [hcol] at hv
    rw [this _ _ hv, keys_eq, List.map_map]
    rfl
  · obtain ⟨vs, s', e, st, hv⟩ := toList_rep hT hs (.inr rfl) hr
    refine ⟨vs, s', e, st, ?_⟩
    have hcol : column 1 t = t.values := by simp [column]
    rwa [hcol, values_eq] at hv
  · intro hb
    exact length_rep hT hs hr (len_eq t hb)

/-- C79: the hash is that of the documented tree over the contents, however the object came about. -/
theorem C79_hash (hT : T.WF) (hD : Declares T H m tag τ kv) {s : PState} (hs : Reachable T H s) {r : Nat} {d : Dict (Key τ) TVal} {t : MB (Key τ) TVal} (h : Holds T H m kv kp s r d)
    (ht : Contains T H kv kp d t) (hv : ∀ k v, d k = some v → (∃ b, τ.ser k.1 = .ok b) ∧ ∃ b, (PFields.cons v .nil).hashBytes T H [kv] = .ok b) :
    (Prf.hash T H r s).1 = .ok (t.hash (cls T H τ kv kp) H tag) := by
  obtain ⟨t', ht', hr⟩ := h
  cases ht'.unique ht
  rw [hash_rep hT hs hr]
  exact emb_hash hD fun x hx => hv x.1 x.2 ((ht.2 x.1 x.2).mpr hx)

theorem Ex.accepts (n : Int) (h : 0 ≤ n ∧ n < 2 ^ 64) : Mmr.accepts Ex.IT (.prim .uint64) (.prim (.int n)) = .ok () := by
  show PrimTy.check (.uint _) (.int n) = _
  rw [PrimTy.check, if_neg (by omega)]

/-- … holds these. -/
theorem Ex.holds : Reachable Ex.IT realHash Ex.s3 ∧ Holds Ex.IT realHash 0 (.prim .uint64) Ex.pre Ex.s3 6 Ex.d3 := by
  obtain ⟨r, s', e, st, h⟩ := C79_new Ex.wf Ex.declares Ex.prefixes (s := {}) .refl
    (kvs := [((Ex.key 0x81).1, .prim (.int 3)), ((Ex.key 0x00).1, .prim (.int 1)), ((Ex.key 0x80).1, .prim (.int 2))])
    (xs := [(Ex.key 0x81, .prim (.int 3)), (Ex.key 0x00, .prim (.int 1)), (Ex.key 0x80, .prim (.int 2))]) (.cons ⟨rfl, rfl⟩ (.cons ⟨rfl, rfl⟩ (.cons ⟨rfl, rfl⟩ .nil)))
    (by simp only [List.mem_cons, List.not_mem_nil, or_false, forall_eq_or_imp, forall_eq]; exact ⟨Ex.accepts 3 (by decide), Ex.accepts 1 (by decide), Ex.accepts 2 (by decide)⟩)
    (by decide)
  have h5 : (Ex.make {}).1 = .ok 6 := by decide +kernel
  have hs : s' = Ex.s3 := by unfold Ex.s3 Ex.make; rw [e]
  unfold Ex.make at h5
  rw [e] at h5
  simp only [Except.ok.injEq] at h5
  rw [h5, hs] at h
  rw [hs] at st
  exact ⟨st, h⟩

/-- A pruned view of it; one of its values; an absent key; its keys and values; a key put and removed. -/
example : (Prf.prune Ex.IT 6 Ex.s3).1 = .ok 7 ∧ (getItem 0 Ex.toBits Ex.IT realHash 7 (Ex.key 0x80).1 (Prf.prune Ex.IT 6 Ex.s3).2).1 = .ok (.prim (.int 2)) ∧
    (getItem 0 Ex.toBits Ex.IT realHash 7 (Ex.key 0x82).1 (Prf.prune Ex.IT 6 Ex.s3).2).1 = .error .keyError ∧
    (toList 0 Ex.IT realHash 0 7 (Prf.prune Ex.IT 6 Ex.s3).2).1 = .ok [.prim (Ex.key 0x00).1, .prim (Ex.key 0x80).1, .prim (Ex.key 0x81).1] ∧
    (toList 0 Ex.IT realHash 1 7 (Prf.prune Ex.IT 6 Ex.s3).2).1 = .ok [.prim (.int 1), .prim (.int 2), .prim (.int 3)] ∧
    (length 0 Ex.IT realHash 7 (Prf.prune Ex.IT 6 Ex.s3).2).1 = .ok 3 ∧
    (put 0 Ex.toBits Ex.IT realHash 6 (Ex.key 0x80).1 (.prim (.int 2)) Ex.s3).1 = .error .assertion ∧
    (remove 0 Ex.toBits Ex.IT realHash 6 (Ex.key 0x82).1 Ex.s3).1 = .error .keyError := by decide +kernel
example : ∃ r s', put 0 Ex.toBits Ex.IT realHash 6 (Ex.key 0x40).1 (.prim (.int 8)) Ex.s3 = (.ok r, s') ∧
    Holds Ex.IT realHash 0 (.prim .uint64) Ex.pre s' r (Ex.d3.set (Ex.key 0x40) (.prim (.int 8))) := by
  obtain ⟨r, s', e, _, h, _⟩ := (C79_put Ex.wf Ex.declares Ex.prefixes Ex.holds.1 Ex.holds.2 (k := Ex.key 0x40) (v := .prim (.int 8)) (x := .prim (.int 8)) rfl (Ex.accepts 8 (by decide))).1
    (by decide +kernel)
  exact ⟨r, s', e, h⟩
example : ∃ r s', remove 0 Ex.toBits Ex.IT realHash 6 (Ex.key 0x80).1 Ex.s3 = (.ok r, s') ∧
    Holds Ex.IT realHash 0 (.prim .uint64) Ex.pre s' r (Ex.d3.del (Ex.key 0x80)) := by
  obtain ⟨r, s', e, _, h, _⟩ := (C79_remove Ex.wf Ex.declares Ex.prefixes Ex.holds.1 Ex.holds.2 (Ex.key 0x80)).1 (by decide +kernel)
  exact ⟨r, s', e, h⟩

/-! ## C80 -/

theorem agree_item (hT : T.WF) (hB : T.Binds) {s s' : PState} (hs : Reachable T H s) (hs' : Reachable T H s') {r r' : Nat} {t t' : PTree}
    (ht : Represents s r t) (ht' : Represents s' r' t') (hc : Compat T H t t')
    {key : PVal} {v v' : HVal} {s1 s1' : PState} (h1 : getItem m k2p T H r key s = (.ok v, s1)) (h2 : getItem m k2p T H r' key s' = (.ok v', s1')) :
    SameValue T H s1 s1' v v' := by
  obtain ⟨π, tv, hl, hw, hrep, _⟩ := getItem_inv hT hs ht h1
  obtain ⟨π', tv', hl', hw', hrep', _⟩ := getItem_inv hT hs' ht' h2
  obtain ⟨p, hp⟩ := locate_pfx hl
  have g1 := locate_mono (n' := max (s.objs.length + 1) (s'.objs.length + 1)) hp (.inl ⟨_, rfl⟩) (by omega) hl
  have g2 := locate_mono (n' := max (s.objs.length + 1) (s'.objs.length + 1)) hp (.inl ⟨_, rfl⟩) (by omega) hl'
  cases Compat.eval hB _ hc g1 g2
  have hcv : TVal.Compat T H tv tv' := Compat.walk (tv := .sub t) (tv' := .sub t') hc (hw []) (hw' [])
  cases tv <;> cases tv' <;> simp only [TVal.Compat] at hcv <;> cases v <;> cases v' <;> simp only [HVal.Rep] at hrep hrep'
  · subst hcv; subst hrep; exact hrep'.symm
  · exact ⟨_, _, hrep, hrep', hcv⟩

theorem agree_absent (hT : T.WF) (hB : T.Binds) {s s' : PState} (hs : Reachable T H s) (hs' : Reachable T H s') {r r' : Nat} {t t' : PTree}
    (ht : Represents s r t) (ht' : Represents s' r' t') (hc : Compat T H t t')
    {key : PVal} {v : HVal} {s1 : PState} (h1 : getItem m k2p T H r key s = (.ok v, s1)) (h2 : (getItem m k2p T H r' key s').1 = .error .keyError) : False := by
  obtain ⟨π, tv, hl, hw, hrep, _⟩ := getItem_inv hT hs ht h1
  obtain ⟨p, hp⟩ := locate_pfx hl
  have hl' := getItem_absent hT hs' ht' hp h2
  have g1 := locate_mono (n' := max (s.objs.length + 1) (s'.objs.length + 1)) hp (.inl ⟨_, rfl⟩) (by omega) hl
  have g2 := locate_mono (n' := max (s.objs.length + 1) (s'.objs.length + 1)) hp (.inr rfl) (by omega) hl'
  cases Compat.eval hB _ hc g1 g2

theorem compat_of (hT : T.WF) (hB : T.Binds) (hD : Declares T H m tag τ kv) {s s' : PState} (hs : Reachable T H s) (hs' : Reachable T H s') {r r' : Nat} {t t' : PTree}
    (ht : Represents s r t) (ht' : Represents s' r' t') (hd : t.Declared T) (hd' : t'.Declared T) {h : Bytes}
    (hh : (Prf.hash T H r s).1 = .ok h) (hh' : (Prf.hash T H r' s').1 = .ok h) (hcf : CollisionFree H.sha256 (t.hashed T H ++ t'.hashed T H))
    (hc : t.cls = m + 1 ∨ t.cls = m + 2 ∨ t.cls = m + 3) (hc' : t'.cls = m + 1 ∨ t'.cls = m + 2 ∨ t'.cls = m + 3) : Compat T H t t' := by
  have key : ∀ c, c = m + 1 ∨ c = m + 2 ∨ c = m + 3 → (T c).isTx = false := by
    rintro c (rfl | rfl | rfl)
    · rw [hD.empty]
    · rw [hD.leaf]
    · rw [hD.inner]
  refine (C39_hash_binds_content hT hB hs hs' ht ht' hd hd' ?_ hh hh' hcf).1
  rintro (h | h)
  · rw [key _ hc] at h; cases h
  · rw [key _ hc'] at h; cases h

section
variable (hT : T.WF) (hB : T.Binds) (hD : Declares T H m tag τ kv) {s s' : PState} (hs : Reachable T H s) (hs' : Reachable T H s') {r r' : Nat} {t t' : PTree}
    (ht : Represents s r t) (ht' : Represents s' r' t') (hd : t.Declared T) (hd' : t'.Declared T) {h : Bytes}
    (hh : (Prf.hash T H r s).1 = .ok h) (hh' : (Prf.hash T H r' s').1 = .ok h) (hcf : CollisionFree H.sha256 (t.hashed T H ++ t'.hashed T H))
include hT hB hD hs hs' ht ht' hd hd' hh hh' hcf

/-- C80: two objects with one hash, made or received by whoever, with prefixes that may be lies, perhaps pruned: no two values for
one key, whatever `key2prefix` does. -/
theorem C80_values {key : PVal} {v v' : HVal} {s1 s1' : PState} (h1 : getItem m k2p T H r key s = (.ok v, s1)) (h2 : getItem m k2p T H r' key s' = (.ok v', s1')) :
    SameValue T H s1 s1' v v' := by
  obtain ⟨_, _, hl, _⟩ := getItem_inv hT hs ht h1
  obtain ⟨_, _, hl', _⟩ := getItem_inv hT hs' ht' h2
  obtain ⟨p, hp⟩ := locate_pfx hl
  exact agree_item hT hB hs hs' ht ht' (compat_of hT hB hD hs hs' ht ht' hd hd' hh hh' hcf (locate_cls hp (.inl ⟨_, rfl⟩) hl) (locate_cls hp (.inl ⟨_, rfl⟩) hl')) h1 h2

/-- C80: no value for a key that the other says is absent. -/
theorem C80_absent {key : PVal} {v : HVal} {s1 : PState} (h1 : getItem m k2p T H r key s = (.ok v, s1)) : (getItem m k2p T H r' key s').1 ≠ .error .keyError := by
  intro h2
  obtain ⟨_, _, hl, _⟩ := getItem_inv hT hs ht h1
  obtain ⟨p, hp⟩ := locate_pfx hl
  have hl' := getItem_absent hT hs' ht' hp h2
  exact agree_absent hT hB hs hs' ht ht' (compat_of hT hB hD hs hs' ht ht' hd hd' hh hh' hcf (locate_cls hp (.inl ⟨_, rfl⟩) hl) (locate_cls hp (.inr rfl) hl')) h1 h2
end

/-- C80 for objects received as bytes, of which nothing is assumed: they stand for some trees, and unless strings hashed for these
collide, what they say of keys agrees. -/
theorem C80_received (hT : T.WF) (hB : T.Binds) {s0 s0' s s' : PState} (hs : Reachable T H s0) (hs' : Reachable T H s0') {r r' : Nat} {b b' : Bytes}
    (hr : Prf.deserialize T m b s0 = (.ok r, s)) (hr' : Prf.deserialize T m b' s0' = (.ok r', s')) {h : Bytes}
    (hh : (Prf.hash T H r s).1 = .ok h) (hh' : (Prf.hash T H r' s').1 = .ok h) :
    ∃ t t', Represents s r t ∧ Represents s' r' t' ∧ (CollisionFree H.sha256 (t.hashed T H ++ t'.hashed T H) → ∀ key v s1, getItem m k2p T H r key s = (.ok v, s1) →
      (∀ v' s1', getItem m k2p T H r' key s' = (.ok v', s1') → SameValue T H s1 s1' v v') ∧ (getItem m k2p T H r' key s').1 ≠ .error .keyError) := by
  obtain ⟨rest, hx⟩ := deserialize_ctx hr
  obtain ⟨rest', hx'⟩ := deserialize_ctx hr'
  obtain ⟨t, t', ht, ht', hc⟩ := C39_received hT hB hs hs' hx hx' hh hh'
  have hrs : Reachable T H s := by
    have := hs.tail (.deserialize m b)
    rwa [hr] at this
  have hrs' : Reachable T H s' := by
    have := hs'.tail (.deserialize m b')
    rwa [hr'] at this
  refine ⟨t, t', ht, ht', fun hcf key v s1 h1 => ?_⟩
  have hc := (hc hcf).1
  exact ⟨fun v' s1' h2 => agree_item hT hB hrs hrs' ht ht' hc h1 h2, fun h2 => agree_absent hT hB hrs hrs' ht ht' hc h1 h2⟩

/-- The tree of the example. -/
def Ex.t3 : MB (Key (.fixed 32)) TVal :=
  .inner [] (.leaf (Ex.key 0) (.prim (.int 1))) (.inner [true, false, false, false, false, false, false] (.leaf (Ex.key 0x80) (.prim (.int 2))) (.leaf (Ex.key 0x81) (.prim (.int 3))))

theorem Ex.contains : Contains Ex.IT realHash (.prim .uint64) Ex.pre Ex.d3 Ex.t3 := by
  refine ⟨.inr (.inner (.leaf _ _) (.inner (.leaf _ _) (.leaf _ _) ?_ ?_) ?_ ?_), ?_⟩
  · simp only [pairs, List.mem_singleton, forall_eq]; decide +kernel
  · simp only [pairs, List.mem_singleton, forall_eq]; decide +kernel
  · simp only [pairs, List.mem_singleton, forall_eq]; decide +kernel
  · simp only [pairs, List.mem_append, List.mem_singleton, forall_eq_or_imp, forall_eq]; decide +kernel
  · intro k v
    have ne1 : Ex.key 0x80 ≠ Ex.key 0 := by decide +kernel
    have ne2 : Ex.key 0x80 ≠ Ex.key 0x81 := by decide +kernel
    have ne3 : Ex.key 0 ≠ Ex.key 0x81 := by decide +kernel
    unfold Ex.t3 Ex.d3
    generalize Ex.key 0x80 = a at *
    generalize Ex.key 0 = b at *
    generalize Ex.key 0x81 = c at *
    simp only [pairs, Dict.set, List.mem_append, List.mem_singleton, Prod.mk.injEq]
    by_cases h1 : k = a
    · subst h1; simp [ne1, ne2, eq_comm]
    · by_cases h2 : k = b
      · subst h2; simp [ne1.symm, ne3, eq_comm]
      · by_cases h3 : k = c
        · subst h3; simp [ne2.symm, ne3.symm, eq_comm]
        · simp [h1, h2, h3]

theorem Ex.rep : Represents Ex.s3 6 (emb 0 Ex.t3) := by
  obtain ⟨t, ht, hr⟩ := Ex.holds.2
  rwa [ht.unique Ex.contains] at hr

theorem Ex.declared : (emb 0 Ex.t3).Declared Ex.IT := by
  have leaf : ∀ (k : Key (.fixed 32)) n, PrimTy.uint64.check (.int n) = .ok () → (emb 0 (.leaf k (.prim (.int n)))).Declared Ex.IT := by
    intro k n h
    rw [emb, PTree.Declared, Ex.declares.leaf]
    simp only [PFields.cons, PFields.Declared]
    exact ⟨k.2, h, trivial⟩
  have inner : ∀ p (l r : MB (Key (.fixed 32)) TVal), (emb 0 l).Declared Ex.IT → (emb 0 r).Declared Ex.IT → (emb 0 (.inner p l r)).Declared Ex.IT := by
    intro p l r hl hr
    have al : ∀ t : MB (Key (.fixed 32)) TVal, (Kind.proof 0).Allows Ex.IT (emb 0 t).cls := by
      intro t
      refine .inr ⟨_, by rw [Ex.declares.base], ?_⟩
      cases t <;> simp
    rw [emb, PTree.Declared, Ex.declares.inner]
    simp only [PFields.Declared]
    exact ⟨rfl, al l, hl, al r, hr, trivial⟩
  exact inner _ _ _ (leaf _ 1 (by decide +kernel)) (inner _ _ _ (leaf _ 2 (by decide +kernel)) (leaf _ 3 (by decide +kernel)))

/-- A case meeting the conditions: the tree and its pruned view. -/
example : CollisionFree realHash.sha256 ((emb 0 Ex.t3).hashed Ex.IT realHash) ∧
    (Prf.hash Ex.IT realHash 6 Ex.s3).1.toOption.isSome = true ∧ (Prf.hash Ex.IT realHash 7 (Prf.prune Ex.IT 6 Ex.s3).2).1 = (Prf.hash Ex.IT realHash 6 Ex.s3).1 :=
  ⟨by unfold CollisionFree; decide +kernel, by decide +kernel, by decide +kernel⟩

/-! ## C81 -/

/-- C81: look up a key in a pruned view of a tree, serialize the view, deserialize elsewhere: the key can be looked up there. -/
def C81_statement : Prop :=
  ∀ (T : Table) (H : HashFns) (m : Nat) (tag : Bytes) (τ : PrimTy) (kv : Kind) (k2p : PVal → Py (List Bool)) (kp : Key τ → List Bool), T.WF → Declares T H m tag τ kv →
    Prefixes τ k2p kp → ∀ (s : PState) (r : Nat) (d : Dict (Key τ) TVal), Reachable T H s → Holds T H m kv kp s r d →
      (∀ k v, d k = some v → (PFields.prim k.1 (PFields.cons v .nil)).WellTyped T [.prim τ, kv]) → ∀ (k : Key τ) (p : Nat) (v : HVal) (b : Bytes) (s1 s2 s3 : PState),
      Prf.prune T r s = (.ok p, s1) → getItem m k2p T H p k.1 s1 = (.ok v, s2) → Prf.serialize T H p s2 = (.ok b, s3) → ∀ s0, Reachable T H s0 →
        ∃ r' s0' v' s0'', Prf.deserialize T m b s0 = (.ok r', s0') ∧ getItem m k2p T H r' k.1 s0' = (.ok v', s0'')

/-- What is the case: with two keys or more it never arrives, whatever the key and whether it is there: some node is left pruned, is
sent without the number of its variant, and arrives as an instance of the base class, which the node above does not accept
as child; or before that, a prefix cannot be read (C18). -/
theorem C81_never_arrives_partial (hT : T.WF) (hD : Declares T H m tag τ kv) (hk : Prefixes τ k2p kp) {s : PState} {r : Nat} {d : Dict (Key τ) TVal} (hs : Reachable T H s)
    (h : Holds T H m kv kp s r d) (hv : ∀ k v, d k = some v → (PFields.prim k.1 (PFields.cons v .nil)).WellTyped T [.prim τ, kv])
    {k1 k2 : Key τ} (hne : k1 ≠ k2) (h1 : d k1 ≠ none) (h2 : d k2 ≠ none) {k : Key τ} {p : Nat} {v : Py HVal} {b : Bytes} {s1 s2 s3 : PState}
    (hp : Prf.prune T r s = (.ok p, s1)) (hg : getItem m k2p T H p k.1 s1 = (v, s2)) (hb : Prf.serialize T H p s2 = (.ok b, s3)) {s0 : PState} (hs0 : Reachable T H s0) :
    ∃ e, (Prf.deserialize T m b s0).1 = .error e ∧ (e = .serType ∨ e = .indexError ∨ e = .assertion) := by
  obtain ⟨t, ht, hr⟩ := h
  have hty := emb_sendable hD (t := t) fun x hx => hv x.1 x.2 ((ht.2 x.1 x.2).mpr hx)
  have hst := getItem_state (T := T) (H := H) (m := m) (k2p := k2p) p k.1 s1
  rw [hg] at hst
  have hq : (item m k2p (s1.objs.length + 1) k.1).run T H p s1 = (((item m k2p (s1.objs.length + 1) k.1).run T H p s1).1, s2) := Prod.ext rfl hst.symm
  have key : ∀ k', d k' ≠ none → ∃ v, (k', v) ∈ t.pairs := by
    intro k' hk'
    cases hd : d k' with
    | none => exact absurd hd hk'
    | some v => exact ⟨v, (ht.2 _ _).mp hd⟩
  obtain ⟨v1, hv1⟩ := key k1 h1
  obtain ⟨v2, hv2⟩ := key k2 h2
  cases t with
  | empty => simp [pairs] at hv1
  | leaf k' v' =>
    simp only [pairs, List.mem_singleton, Prod.mk.injEq] at hv1 hv2
    exact absurd (hv1.1.trans hv2.1.symm) hne
  | inner q l r' =>
    obtain ⟨hu, π, u, hvp, hn⟩ := item_unread (T := T) (H := H) (n := s1.objs.length) (p := q) (l := l) (r := r') hD (hk.eq k)
    obtain ⟨e, he, hf⟩ := ship_lost hT hs hr hty _ hp hq hb (reveal_loses hvp (Reachable.checked hT hs hr) hu hn) hs0
    refine ⟨e, he, ?_⟩
    rcases hf with hf | ⟨_, hf⟩
    · exact .inl hf
    · exact .inr hf

theorem Ex.typed : ∀ k v, Ex.d3 k = some v → (PFields.prim k.1 (PFields.cons v .nil)).WellTyped Ex.IT [.prim (.fixed 32), .prim .uint64] := by
  intro k v h
  rw [Ex.contains.2] at h
  simp only [Ex.t3, pairs, List.mem_append, List.mem_singleton, Prod.mk.injEq] at h
  have key : ∀ (k : Key (.fixed 32)) (n : Int) (b : Bytes), PrimTy.uint64.check (.int n) = .ok () → PrimTy.uint64.ser (.int n) = .ok b →
      (PFields.prim k.1 (PFields.cons (.prim (.int n)) .nil)).WellTyped Ex.IT [.prim (.fixed 32), .prim .uint64] := by
    intro k n b h1 h2
    obtain ⟨x, hx, hk⟩ := Ex.key_bytes k
    rw [PFields.cons, PFields.WellTyped, PFields.WellTyped, PFields.WellTyped]
    refine ⟨⟨k.2, ?_, ?_⟩, ⟨h1, trivial, b, h2⟩, trivial⟩
    · rw [hk]; trivial
    · rw [hk]; exact ⟨x, rfl⟩
  rcases h with ⟨rfl, rfl⟩ | ⟨rfl, rfl⟩ | ⟨rfl, rfl⟩
  · exact key _ 1 [1] (by decide +kernel) (by decide +kernel)
  · exact key _ 2 [2] (by decide +kernel) (by decide +kernel)
  · exact key _ 3 [3] (by decide +kernel) (by decide +kernel)

/-- C81 is false. -/
theorem C81_refuted : ¬ C81_statement := by
  intro h
  have h1 : (Prf.prune Ex.IT 6 Ex.s3).1 = .ok 7 := by decide +kernel
  have h2 : (getItem 0 Ex.toBits Ex.IT realHash 7 (Ex.key 0x80).1 (Prf.prune Ex.IT 6 Ex.s3).2).1 = .ok (.prim (.int 2)) := by decide +kernel
  have h3 : (Prf.serialize Ex.IT realHash 7 (getItem 0 Ex.toBits Ex.IT realHash 7 (Ex.key 0x80).1 (Prf.prune Ex.IT 6 Ex.s3).2).2).1.toOption.isSome = true := by decide +kernel
  rcases e1 : Prf.prune Ex.IT 6 Ex.s3 with ⟨p, s1⟩
  rw [e1] at h1 h2 h3
  rcases e2 : getItem 0 Ex.toBits Ex.IT realHash 7 (Ex.key 0x80).1 s1 with ⟨v, s2⟩
  rw [e2] at h2 h3
  rcases e3 : Prf.serialize Ex.IT realHash 7 s2 with ⟨b, s3⟩
  rw [e3] at h3
  simp only at h1 h2 h3
  subst h1 h2
  cases b with
  | error e => simp [Except.toOption] at h3
  | ok b =>
    obtain ⟨r', s0', v', s0'', hd, _⟩ := h Ex.IT realHash 0 intMBTag (.fixed 32) (.prim .uint64) Ex.toBits Ex.pre Ex.wf Ex.declares Ex.prefixes Ex.s3 6 _ Ex.holds.1 Ex.holds.2
      Ex.typed (Ex.key 0x80) 7 _ b s1 s2 s3 e1 e2 e3 {} .refl
    obtain ⟨e, he, _⟩ := C81_never_arrives_partial Ex.wf Ex.declares Ex.prefixes Ex.holds.1 Ex.holds.2 Ex.typed (k1 := Ex.key 0) (k2 := Ex.key 0x80) (by decide +kernel)
      (by decide +kernel) (by decide +kernel) e1 e2 e3 (s0 := {}) .refl
    rw [hd] at he
    cases he

/-- With one key, and values of a primitive type, the whole tree arrives, whichever key was looked up: the receiver finds the value
of the one key, and that any other key is not there. -/
theorem C81_one_key_partial {σ : PrimTy} (hT : T.WF) (hD : Declares T H m tag τ (.prim σ)) (hk : Prefixes τ k2p kp) {s : PState} {r : Nat} {d : Dict (Key τ) TVal} (hs : Reachable T H s)
    (h : Holds T H m (.prim σ) kp s r d) (hv : ∀ k v, d k = some v → (PFields.prim k.1 (PFields.cons v .nil)).WellTyped T [.prim τ, .prim σ])
    {k0 : Key τ} (h0 : d k0 ≠ none) (hone : ∀ k, d k ≠ none → k = k0) {k : Key τ} {p : Nat} {v : Py HVal} {b : Bytes} {s1 s2 s3 : PState}
    (hp : Prf.prune T r s = (.ok p, s1)) (hg : getItem m k2p T H p k.1 s1 = (v, s2)) (hb : Prf.serialize T H p s2 = (.ok b, s3)) {s0 : PState} (hs0 : Reachable T H s0) :
    ∃ r' s0', Prf.deserialize T m b s0 = (.ok r', s0') ∧ Holds T H m (.prim σ) kp s0' r' d ∧ (Prf.hash T H r' s0').1 = (Prf.hash T H r s).1 ∧
      (getItem m k2p T H r' k.1 s0').1 = v := by
  have hvs : ∀ k x, d k = some x → ∃ y, x = .prim y := by
    intro k x hx
    have := hv k x hx
    cases x with
    | prim y => exact ⟨y, rfl⟩
    | sub q => simp [PFields.WellTyped, PFields.cons] at this
  obtain ⟨t, ht, hr⟩ := h
  have hty := emb_typed hD (t := t) (fun x hx => hv x.1 x.2 ((ht.2 x.1 x.2).mpr hx))
  have hst := getItem_state (T := T) (H := H) (m := m) (k2p := k2p) p k.1 s1
  rw [hg] at hst
  have hb' : (Prf.serialize T H p ((item m k2p (s1.objs.length + 1) k.1).run T H p s1).2).1 = .ok b := by rw [← hst, hb]
  have henc := C36_after_running hT hs hp hr _ hb'
  obtain ⟨x0, hx0⟩ := Option.ne_none_iff_exists'.mp h0
  obtain ⟨y, rfl⟩ := hvs _ _ hx0
  have hlen : ∀ z ∈ t.pairs, z = (k0, .prim y) := by
    intro z hz
    have h1 := (ht.2 z.1 z.2).mpr hz
    have h2 := hone z.1 (by rw [h1]; simp)
    rw [h2, hx0] at h1
    exact Prod.ext h2 (Option.some.inj h1).symm
  have htl : t = .leaf k0 (.prim y) := by
    rcases ht.1 with rfl | hw
    · have := (ht.2 k0 (.prim y)).mp hx0
      simp [pairs] at this
    · cases hw with
      | leaf k' v' =>
        have := hlen (k', v') (by simp [pairs])
        rw [Prod.mk.injEq] at this
        rw [this.1, this.2]
      | @inner q l r' hl hr'' h1 h2 =>
        obtain ⟨a, ha⟩ := hl.nonempty
        obtain ⟨c, hc⟩ := hr''.nonempty
        have e1 := hlen a (by simp [pairs, ha])
        have e2 := hlen c (by simp [pairs, hc])
        have := snoc_prefix_unique (h1 a ha) (by rw [e1, ← e2]; exact h2 c hc)
        cases this
  subst htl
  replace hty := hty (by simp [prefixes])
  have hrd : [] ∈ (item m k2p (s1.objs.length + 1) k.1).reads T H (emb m (.leaf k0 (.prim y))) := by
    unfold item locate
    rw [reads_bind, reads_bind]
    simp [hk.eq k, descend, Prog.reads, Prog.eval, thenReads, eval_bind, TVal.asProof, reads_bind, TVal.readsOn, TVal.walk, emb, PFields.cons, PTree.get?, PFields.get?, PTree.attr, PTree.cls, Except.bind_ok]
  have hrev : (emb m (.leaf k0 (.prim y))).reveal T H ((item m k2p (s1.objs.length + 1) k.1).reads T H (emb m (.leaf k0 (.prim y)))) [] = emb m (.leaf k0 (.prim y)) := by
    show PTree.reveal T H _ [] (.node (m + 2) (.prim k0.1 (.prim y .nil))) = .node (m + 2) (.prim k0.1 (.prim y .nil))
    rw [PTree.reveal, if_pos hrd, PFields.reveal, PFields.reveal, PFields.reveal]
  rw [hrev] at henc
  obtain ⟨τr, hir⟩ := hs0.inv hT
  obtain ⟨τr', hir', _, r', hres, hfresh, _⟩ := deserialize_rt hT hir hty henc
  have hs0' : Reachable T H (Prf.deserialize T m b s0).2 := hs0.tail (.deserialize m b)
  have hr' := hir'.represents _ _ hfresh
  have hs1 : Reachable T H s1 := by
    have := hs.tail (.prune r)
    rwa [hp] at this
  obtain ⟨p', s1', hp', hhp⟩ := C79_prune hT hs ⟨_, ht, hr⟩
  rw [hp] at hp'
  cases hp'
  have hh' : Holds T H m (.prim σ) kp (Prf.deserialize T m b s0).2 r' d := ⟨_, ht, hr'⟩
  have hval : ∀ {s : PState} {q : Nat}, Reachable T H s → Holds T H m (.prim σ) kp s q d → (getItem m k2p T H q k.1 s).1 = if k = k0 then .ok (.prim y) else .error .keyError := by
    intro s q hs hq
    have hget := C79_getitem hT hk hs hq k
    split
    · rename_i he
      obtain ⟨v, s', e, _, hv⟩ := hget.1 (.prim y) (by rw [he, hx0])
      rw [e]
      cases v with
      | prim w => simp only [HVal.Rep] at hv; rw [hv]
      | ref w => exact hv.elim
    · rename_i he
      exact hget.2 (by by_contra hc; exact he (hone k hc))
  refine ⟨r', _, Prod.ext hres rfl, hh', ?_, ?_⟩
  · rw [hash_rep hT hs hr, hash_rep hT hs0' hr']
  · rw [hval hs0' hh']
    have := hval hs1 hhp
    rw [hg] at this
    exact this.symm

/-- A case: a tree of one key, of which another key was looked up. -/
def Ex.s1 : PState := (ofPairs 0 Ex.toBits Ex.IT realHash [((Ex.key 0x81).1, .prim (.int 3))] {}).2

theorem Ex.holds1 : Reachable Ex.IT realHash Ex.s1 ∧ Holds Ex.IT realHash 0 (.prim .uint64) Ex.pre Ex.s1 1 (Dict.set (fun _ => none) (Ex.key 0x81) (.prim (.int 3))) := by
  obtain ⟨r, s', e, st, h⟩ := C79_new Ex.wf Ex.declares Ex.prefixes (s := {}) .refl (kvs := [((Ex.key 0x81).1, .prim (.int 3))]) (xs := [(Ex.key 0x81, .prim (.int 3))])
    (.cons ⟨rfl, rfl⟩ .nil) (by simp [Ex.accepts 3]) (by simp)
  have h5 : (ofPairs 0 Ex.toBits Ex.IT realHash [((Ex.key 0x81).1, .prim (.int 3))] {}).1 = .ok 1 := by decide +kernel
  have hs : s' = Ex.s1 := by unfold Ex.s1; rw [e]
  rw [e] at h5
  simp only [Except.ok.injEq] at h5
  rw [h5, hs] at h
  rw [hs] at st
  exact ⟨st, h⟩

example : ∃ p s1 s2 s3 b, Prf.prune Ex.IT 1 Ex.s1 = (.ok p, s1) ∧ getItem 0 Ex.toBits Ex.IT realHash p (Ex.key 0).1 s1 = (.error .keyError, s2) ∧
    Prf.serialize Ex.IT realHash p s2 = (.ok b, s3) := by
  have h1 : (Prf.prune Ex.IT 1 Ex.s1).1 = .ok 2 := by decide +kernel
  have h2 : (getItem 0 Ex.toBits Ex.IT realHash 2 (Ex.key 0).1 (Prf.prune Ex.IT 1 Ex.s1).2).1 = .error .keyError := by decide +kernel
  have h3 : (Prf.serialize Ex.IT realHash 2 (getItem 0 Ex.toBits Ex.IT realHash 2 (Ex.key 0).1 (Prf.prune Ex.IT 1 Ex.s1).2).2).1.isOk = true := by decide +kernel
  rcases e : Prf.serialize Ex.IT realHash 2 (getItem 0 Ex.toBits Ex.IT realHash 2 (Ex.key 0).1 (Prf.prune Ex.IT 1 Ex.s1).2).2 with ⟨x, s3⟩
  rw [e] at h3
  cases x with
  | error _ => cases h3
  | ok b => exact ⟨2, _, _, s3, b, Prod.ext h1 rfl, Prod.ext h2 rfl, e⟩

/-! ## C82 -/

/-- Some two keys of `d` have `p` in common and differ in the bit after it. -/
def Branches (kp : Key τ → List Bool) (d : Dict (Key τ) TVal) (p : List Bool) : Prop :=
  ∃ k1 k2, d k1 ≠ none ∧ d k2 ≠ none ∧ p ++ [false] <+: kp k1 ∧ p ++ [true] <+: kp k2

/-- Object `r` is the documented tree of `d`, unpruned. -/
def Is (T : Table) (H : HashFns) (m : Nat) (kv : Kind) (kp : Key τ → List Bool) (s : PState) (r : Nat) (d : Dict (Key τ) TVal) : Prop :=
  ∃ t, Contains T H kv kp d t ∧ Whole s r (emb m t)

/-- C82: serialize a tree, unpruned, deserialize elsewhere: the same contents arrive. -/
def C82_statement : Prop :=
  ∀ (T : Table) (H : HashFns) (m : Nat) (tag : Bytes) (τ : PrimTy) (kv : Kind) (k2p : PVal → Py (List Bool)) (kp : Key τ → List Bool), T.WF → Declares T H m tag τ kv →
    Prefixes τ k2p kp → ∀ (s : PState) (r : Nat) (d : Dict (Key τ) TVal), Reachable T H s → Is T H m kv kp s r d →
      (∀ k v, d k = some v → (PFields.prim k.1 (PFields.cons v .nil)).WellTyped T [.prim τ, kv]) → ∀ (b : Bytes) (s1 : PState),
      Prf.serialize T H r s = (.ok b, s1) → ∀ s0, Reachable T H s0 → ∃ r' s0', Prf.deserialize T m b s0 = (.ok r', s0') ∧ Is T H m kv kp s0' r' d

theorem branch_unique {p q A B : List Bool} {x z : Bool} (h1 : p ++ [x] <+: A) (h2 : p ++ [!x] <+: B) (h3 : q ++ [z] <+: A) (h4 : q ++ [!z] <+: B) : p = q ∧ x = z := by
  have key : ∀ {p : List Bool} {x : Bool}, p ++ [x] <+: A → p ++ [!x] <+: B → commonPrefix A B = p := by
    rintro p x ⟨a, rfl⟩ ⟨b, rfl⟩
    have := commonPrefix_diverge p (x := x) (y := !x) (by cases x <;> simp) a b
    simpa using this
  have he : p = q := (key h1 h2).symm.trans (key h3 h4)
  subst he
  exact ⟨rfl, snoc_prefix_unique h1 h3⟩

theorem wf_branches : ∀ {t : MB (Key τ) TVal}, WF (cls T H τ kv kp) t → ∀ p, p ∈ prefixes t ↔ ∃ a ∈ t.pairs, ∃ b ∈ t.pairs, p ++ [false] <+: kp a.1 ∧ p ++ [true] <+: kp b.1 := by
  intro t h
  induction h with
  | leaf k v =>
    intro p
    simp only [prefixes, pairs, List.not_mem_nil, List.mem_singleton, exists_eq_left, false_iff, not_and]
    intro h1 h2
    cases snoc_prefix_unique h1 h2
  | @inner q l r hl hr hpl hpr ihl ihr =>
    intro p
    simp only [prefixes, pairs, List.mem_cons, List.mem_append, ihl, ihr]
    constructor
    · rintro (rfl | ⟨a, ha, b, hb, h⟩ | ⟨a, ha, b, hb, h⟩)
      · obtain ⟨a, ha⟩ := hl.nonempty
        obtain ⟨b, hb⟩ := hr.nonempty
        exact ⟨a, .inl ha, b, .inr hb, hpl a ha, hpr b hb⟩
      · exact ⟨a, .inl ha, b, .inl hb, h⟩
      · exact ⟨a, .inr ha, b, .inr hb, h⟩
    · rintro ⟨a, ha | ha, b, hb | hb, h1, h2⟩
      · exact .inr (.inl ⟨a, ha, b, hb, h1, h2⟩)
      · exact .inl (branch_unique (x := false) (z := false) h1 h2 (hpl a ha) (hpr b hb)).1
      · have := (branch_unique (x := false) (z := true) h1 h2 (hpr a ha) (hpl b hb)).2
        cases this
      · exact .inr (.inr ⟨a, ha, b, hb, h1, h2⟩)

theorem Contains.branches {d : Dict (Key τ) TVal} {t : MB (Key τ) TVal} (h : Contains T H kv kp d t) (p : List Bool) : p ∈ prefixes t ↔ Branches kp d p := by
  have ex : ∀ k, d k ≠ none ↔ ∃ v, (k, v) ∈ t.pairs := by
    intro k
    cases hd : d k with
    | none => simp only [ne_eq, not_true, false_iff]; rintro ⟨v, hv⟩; exact h.fresh hd v hv
    | some v => exact ⟨fun _ => ⟨v, (h.2 _ _).mp hd⟩, fun _ => by simp⟩
  have hb : Branches kp d p ↔ ∃ a ∈ t.pairs, ∃ b ∈ t.pairs, p ++ [false] <+: kp a.1 ∧ p ++ [true] <+: kp b.1 := by
    constructor
    · rintro ⟨k1, k2, h1, h2, h3, h4⟩
      obtain ⟨v1, h1⟩ := (ex k1).mp h1
      obtain ⟨v2, h2⟩ := (ex k2).mp h2
      exact ⟨_, h1, _, h2, h3, h4⟩
    · rintro ⟨a, ha, b, hb, h3, h4⟩
      exact ⟨a.1, b.1, (ex _).mpr ⟨_, ha⟩, (ex _).mpr ⟨_, hb⟩, h3, h4⟩
  rw [hb]
  rcases h.1 with rfl | hw
  · simp [prefixes, pairs]
  · exact wf_branches hw p

/-- What is the case: the tree arrives, with the same contents and hash, if wherever two of its keys part, the bits before are at
least one and, if they fill their last byte, that byte is 0 … -/
theorem C82_arrives_partial (hT : T.WF) (hD : Declares T H m tag τ kv) {s : PState} {r : Nat} {d : Dict (Key τ) TVal} (hs : Reachable T H s)
    (h : Is T H m kv kp s r d) (hv : ∀ k v, d k = some v → (PFields.prim k.1 (PFields.cons v .nil)).WellTyped T [.prim τ, kv])
    (hp : ∀ p, Branches kp d p → p ≠ [] ∧ (p.length % 8 = 0 → p.drop (p.length - 8) = List.replicate 8 false)) :
    ∃ b s1, Prf.serialize T H r s = (.ok b, s1) ∧ ∀ s0, Reachable T H s0 →
      ∃ r' s0', Prf.deserialize T m b s0 = (.ok r', s0') ∧ Is T H m kv kp s0' r' d ∧ (Prf.hash T H r' s0').1 = (Prf.hash T H r s).1 := by
  obtain ⟨t, ht, hw⟩ := h
  have hty := emb_typed hD (t := t) (fun x hx => hv x.1 x.2 ((ht.2 x.1 x.2).mpr hx)) fun p hp' => hp p ((ht.branches p).mp hp')
  obtain ⟨b, s1, e1, h1⟩ := C38_round_trip hT hs hw hty
  refine ⟨b, s1, e1, fun s0 hs0 => ?_⟩
  obtain ⟨r', s0', e2, hw', hh⟩ := h1 s0 [] hs0
  rw [List.append_nil] at e2
  refine ⟨r', s0', ?_, ⟨t, ht, hw'⟩, hh⟩
  rw [Prf.deserialize, HM.bind_apply, e2]
  rfl

/-- … and otherwise never: whoever deserializes it gets an exception. -/
theorem C82_lost_partial (hT : T.WF) (hD : Declares T H m tag τ kv) {s : PState} {r : Nat} {d : Dict (Key τ) TVal} (hs : Reachable T H s)
    (h : Is T H m kv kp s r d) (hv : ∀ k v, d k = some v → (PFields.prim k.1 (PFields.cons v .nil)).WellTyped T [.prim τ, kv])
    {p : List Bool} (hp : Branches kp d p) (hbad : p = [] ∨ (p.length % 8 = 0 ∧ p.drop (p.length - 8) ≠ List.replicate 8 false))
    {b : Bytes} {s1 : PState} (hb : Prf.serialize T H r s = (.ok b, s1)) {s0 : PState} (hs0 : Reachable T H s0) :
    ∃ e, (Prf.deserialize T m b s0).1 = .error e ∧ (e = .serType ∨ e = .indexError ∨ e = .assertion) := by
  obtain ⟨t, ht, hw⟩ := h
  have hty := emb_sendable hD (t := t) fun x hx => hv x.1 x.2 ((ht.2 x.1 x.2).mpr hx)
  obtain ⟨τ0, hi⟩ := hs.inv hT
  obtain ⟨_, _, _, h1⟩ := serialize_spec hT hi (hi.of_represents hw.represents)
  rw [hw.encAt, hb] at h1
  obtain ⟨τ1, hi1⟩ := hs0.inv hT
  rcases deserialize_sent hT hi1 hty h1.symm with ⟨e, he, hf⟩ | ⟨_, _, hpl, _⟩
  · refine ⟨e, he, ?_⟩
    rcases hf with hf | ⟨_, hf⟩
    · exact .inl hf
    · exact .inr hf
  · obtain ⟨g1, g2⟩ := plain_prefixes hpl p ((ht.branches p).mpr hp)
    rcases hbad with hbad | ⟨hbad, hbad'⟩
    · exact absurd hbad g1
    · exact absurd (g2 hbad) hbad'

theorem Ex.whole_right : Whole Ex.s3 5 (emb 0 (.inner [true, false, false, false, false, false, false] (.leaf (Ex.key 0x80) (.prim (.int 2))) (.leaf (Ex.key 0x81) (.prim (.int 3))))) := by
  have leaf : ∀ (r : Nat) (k : Key (.fixed 32)) n, Ex.s3.objs[r]? = some { cls := 2, fields := [some (.prim k.1), some (.prim (.int n))] } → Whole Ex.s3 r (emb 0 (.leaf k (.prim (.int n)))) :=
    fun r k n h => .node h rfl rfl rfl (.prim (.prim .nil))
  exact .node (o := { cls := 3, fields := [some (.prim (.bits [true, false, false, false, false, false, false])), some (.ref 4), some (.ref 1)] }) (by decide +kernel) rfl rfl rfl
    (.prim (.sub (leaf 4 _ _ (by decide +kernel)) (.sub (leaf 1 _ _ (by decide +kernel)) .nil)))

/-- The tree of the example is not pruned … -/
theorem Ex.whole : Is Ex.IT realHash 0 (.prim .uint64) Ex.pre Ex.s3 6 Ex.d3 := by
  refine ⟨_, Ex.contains, ?_⟩
  exact .node (o := { cls := 3, fields := [some (.prim (.bits [])), some (.ref 2), some (.ref 5)] }) (by decide +kernel) rfl rfl rfl
    (.prim (.sub (.node (o := { cls := 2, fields := [some (.prim (Ex.key 0x00).1), some (.prim (.int 1))] }) (by decide +kernel) rfl rfl rfl (.prim (.prim .nil)))
      (.sub Ex.whole_right .nil)))

/-- … and its keys part at the first bit. -/
theorem Ex.branches : Branches Ex.pre Ex.d3 [] := by
  refine ⟨Ex.key 0, Ex.key 0x80, by decide +kernel, by decide +kernel, by decide +kernel, by decide +kernel⟩

/-- C82 is false. -/
theorem C82_refuted : ¬ C82_statement := by
  intro h
  have h3 : (Prf.serialize Ex.IT realHash 6 Ex.s3).1.toOption.isSome = true := by decide +kernel
  rcases e3 : Prf.serialize Ex.IT realHash 6 Ex.s3 with ⟨b, s3⟩
  rw [e3] at h3
  cases b with
  | error e => simp [Except.toOption] at h3
  | ok b =>
    obtain ⟨r', s0', hd, _⟩ := h Ex.IT realHash 0 intMBTag (.fixed 32) (.prim .uint64) Ex.toBits Ex.pre Ex.wf Ex.declares Ex.prefixes Ex.s3 6 _ Ex.holds.1 Ex.whole
      Ex.typed b s3 e3 {} .refl
    obtain ⟨e, he, _⟩ := C82_lost_partial Ex.wf Ex.declares Ex.holds.1 Ex.whole Ex.typed Ex.branches (.inl rfl) e3 (s0 := {}) .refl
    rw [hd] at he
    cases he

/-- The mapping of the right side of the example. -/
def Ex.d2 : Dict (Key (.fixed 32)) TVal := Ex.d3.del (Ex.key 0)

theorem Ex.contains2 : Contains Ex.IT realHash (.prim .uint64) Ex.pre Ex.d2
    (.inner [true, false, false, false, false, false, false] (.leaf (Ex.key 0x80) (.prim (.int 2))) (.leaf (Ex.key 0x81) (.prim (.int 3)))) := by
  refine ⟨.inr ?_, ?_⟩
  · rcases Ex.contains.1 with h | h
    · cases h
    · cases h with
      | inner _ h _ _ => exact h
  · intro k v
    have := Ex.contains.2 k v
    have ne1 : Ex.key 0x80 ≠ Ex.key 0 := by decide +kernel
    have ne3 : Ex.key 0x81 ≠ Ex.key 0 := by decide +kernel
    unfold Ex.d2 Dict.del
    unfold Ex.t3 at this
    revert this
    generalize Ex.key 0x80 = a at *
    generalize Ex.key 0 = b at *
    generalize Ex.key 0x81 = c at *
    simp only [pairs, List.mem_append, List.mem_singleton, Prod.mk.injEq]
    intro h
    by_cases hk : k = b
    · subst hk
      simp [ne1.symm, ne3.symm]
    · rw [if_neg hk, h]
      simp [hk]

/-- Its keys part after seven bits only, so it arrives. -/
example : ∃ b s1, Prf.serialize Ex.IT realHash 5 Ex.s3 = (.ok b, s1) ∧ ∀ s0, Reachable Ex.IT realHash s0 →
    ∃ r' s0', Prf.deserialize Ex.IT 0 b s0 = (.ok r', s0') ∧ Is Ex.IT realHash 0 (.prim .uint64) Ex.pre s0' r' Ex.d2 ∧ (Prf.hash Ex.IT realHash r' s0').1 = (Prf.hash Ex.IT realHash 5 Ex.s3).1 := by
  have hsub : ∀ k v, Ex.d2 k = some v → Ex.d3 k = some v := by
    intro k v h
    unfold Ex.d2 Dict.del at h
    split at h
    · cases h
    · exact h
  refine C82_arrives_partial Ex.wf Ex.declares Ex.holds.1 ⟨_, Ex.contains2, Ex.whole_right⟩ (fun k v h => Ex.typed k v (hsub k v h)) fun p hp => ?_
  rw [← Ex.contains2.branches] at hp
  simp only [prefixes, List.append_nil, List.mem_singleton] at hp
  subst hp
  simp

end Merb
end Verif
