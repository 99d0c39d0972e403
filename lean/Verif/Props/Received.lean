import Verif.Lemmas.Received
import Verif.Props.MmrProof
import Verif.Props.MbProof
/-!
# Received mountain ranges and trees: does what they show agree? (C150)

`T` is any collection of classes in which `m` is a class made by `make_mmr_subclass` or `make_MerbinnerTree_subclass`.
-/
namespace Verif
open Seal
variable {T : Table} {H : HashFns} {m : Nat} {tag : Bytes}

/-- Two values, each at its time, that stand for the same plain value or the same proof. -/
def SameThing (s s' : PState) (v v' : HVal) : Prop := ∃ tv, v.Rep s tv ∧ v'.Rep s' tv

/-- C150, for mountain ranges: of one received, by whoever it was made, if it can be iterated over, `len` is the number of items
that iterating gives, and every number below gives the item iterating gives at that place. -/
def C150_list_statement : Prop :=
  ∀ (T : Table) (H : HashFns) (m : Nat) (tag : Bytes) (k : Kind), T.WF → Mmr.Declares T H m tag k →
    ∀ (s0 s s1 : PState) (b : Bytes) (r : Nat) (vs : List HVal), Reachable T H s0 → Prf.deserialize T m b s0 = (.ok r, s) →
      Mmr.toList m T H r s = (.ok vs, s1) →
      ((Mmr.len m).runM T H r s1).1 = .ok vs.length ∧
      ∀ (j : Nat) (hj : j < vs.length), ∃ v s2, Mmr.getItem m T H r j s1 = (.ok v, s2) ∧ SameThing s2 s1 v vs[j]

/-- C150, for merbinner trees: of one received, by whoever it was made, every key that `keys()` gives can be looked up, and has the
value that `values()` gives at that place. -/
def C150_map_statement : Prop :=
  ∀ (T : Table) (H : HashFns) (m : Nat) (tag : Bytes) (τ : PrimTy) (kv : Kind) (k2p : PVal → Py (List Bool)) (kp : Merb.Key τ → List Bool),
    T.WF → Merb.Declares T H m tag τ kv → Merb.Prefixes τ k2p kp →
    ∀ (s0 s s1 s2 : PState) (b : Bytes) (r : Nat) (ks vs : List HVal), Reachable T H s0 → Prf.deserialize T m b s0 = (.ok r, s) →
      Merb.toList m T H 0 r s = (.ok ks, s1) → Merb.toList m T H 1 r s1 = (.ok vs, s2) →
      ∀ (j : Nat) (key : PVal) (v : HVal), ks[j]? = some (.prim key) → vs[j]? = some v →
        ∃ v' s3, Merb.getItem m k2p T H r key s2 = (.ok v', s3) ∧ SameThing s3 s2 v' v

/-! ## Examples -/
namespace Forged

/-- An inner node over the items 5 and 6 that says it has 7 items: not pruned, inner, two leaves, 7. -/
def list : Bytes := [0x00#8, 0x02, 0x00, 0x01, 0x05, 0x00, 0x01, 0x06, 0x07]

theorem list_reads : (Prf.deserialize Mmr.Ex.IT 0 list {}).1 = .ok 2 ∧
    (Mmr.toList 0 Mmr.Ex.IT realHash 2 (Prf.deserialize Mmr.Ex.IT 0 list {}).2).1 = .ok [.prim (.int 5), .prim (.int 6)] ∧
    ((Mmr.len 0).runM Mmr.Ex.IT realHash 2 (Mmr.toList 0 Mmr.Ex.IT realHash 2 (Prf.deserialize Mmr.Ex.IT 0 list {}).2).2).1 = .ok 7 := by
  decide +kernel

/-- An inner node with prefix 1000, with `80…` on the right and `ff…` on the left of it. -/
def map : Bytes := [0x00#8, 0x02, 0x04, 0x80] ++ ([0x00#8, 0x01] ++ [0xff#8] ++ List.replicate 31 0 ++ [0x01#8]) ++ ([0x00#8, 0x01] ++ [0x80#8] ++ List.replicate 31 0 ++ [0x02#8])

theorem map_reads : (Prf.deserialize Merb.Ex.IT 0 map {}).1 = .ok 2 ∧
    (Merb.toList 0 Merb.Ex.IT realHash 0 2 (Prf.deserialize Merb.Ex.IT 0 map {}).2).1 = .ok [.prim (Merb.Ex.key 0xff).1, .prim (Merb.Ex.key 0x80).1] ∧
    (Merb.toList 0 Merb.Ex.IT realHash 1 2 (Merb.toList 0 Merb.Ex.IT realHash 0 2 (Prf.deserialize Merb.Ex.IT 0 map {}).2).2).1 = .ok [.prim (.int 1), .prim (.int 2)] ∧
    (Merb.getItem 0 Merb.Ex.toBits Merb.Ex.IT realHash 2 (Merb.Ex.key 0xff).1
      (Merb.toList 0 Merb.Ex.IT realHash 1 2 (Merb.toList 0 Merb.Ex.IT realHash 0 2 (Prf.deserialize Merb.Ex.IT 0 map {}).2).2).2).1 = .error .keyError := by
  decide +kernel

end Forged

/-! ## C150 -/

/-- C150 is false, of mountain ranges and of trees. -/
theorem C150_refuted : ¬ C150_list_statement ∧ ¬ C150_map_statement := by
  constructor
  · intro h
    obtain ⟨h1, h2, h3⟩ := Forged.list_reads
    rcases e1 : Prf.deserialize Mmr.Ex.IT 0 Forged.list {} with ⟨x, s⟩
    rw [e1] at h1 h2 h3
    rcases e2 : Mmr.toList 0 Mmr.Ex.IT realHash 2 s with ⟨y, s1⟩
    rw [e2] at h2 h3
    simp only at h1 h2 h3
    subst h1 h2
    have := (h Mmr.Ex.IT realHash 0 _ _ Mmr.Ex.wf Mmr.Ex.declares {} _ _ Forged.list 2 _ .refl e1 e2).1
    rw [h3] at this
    cases this
  · intro h
    obtain ⟨h1, h2, h3, h4⟩ := Forged.map_reads
    rcases e1 : Prf.deserialize Merb.Ex.IT 0 Forged.map {} with ⟨x, s⟩
    rw [e1] at h1 h2 h3 h4
    rcases e2 : Merb.toList 0 Merb.Ex.IT realHash 0 2 s with ⟨y, s1⟩
    rw [e2] at h2 h3 h4
    rcases e3 : Merb.toList 0 Merb.Ex.IT realHash 1 2 s1 with ⟨z, s2⟩
    rw [e3] at h3 h4
    simp only at h1 h2 h3 h4
    subst h1 h2 h3
    obtain ⟨v, s3, he, _⟩ := h Merb.Ex.IT realHash 0 _ _ _ _ _ Merb.Ex.wf Merb.Ex.declares Merb.Ex.prefixes {} _ _ _ Forged.map 2 _ _ .refl e1 e2 e3 0
      (Merb.Ex.key 0xff).1 (.prim (.int 1)) rfl rfl
    rw [he] at h4
    cases h4

theorem rep_unique (hT : T.WF) {s : PState} (hs : Reachable T H s) {v : HVal} {a b : TVal} (ha : v.Rep s a) (hb : v.Rep s b) : a = b := by
  obtain ⟨τ, hi⟩ := hs.inv hT
  cases v <;> cases a <;> cases b <;> simp only [HVal.Rep] at ha hb
  · rw [← ha, ← hb]
  · have h1 := hi.of_represents ha
    rw [hi.of_represents hb] at h1
    cases h1
    rfl

theorem AllRep.get {s : PState} : ∀ {vs : List HVal} {ts : List TVal}, Mmr.AllRep s vs ts → vs.length = ts.length ∧
    ∀ (j : Nat) (h : j < vs.length) (h' : j < ts.length), vs[j].Rep s ts[j]
  | _, _, .nil => ⟨rfl, fun j h => absurd h (Nat.not_lt_zero j)⟩
  | _, _, .prim h => by
    refine ⟨by rw [List.length_cons, List.length_cons, (AllRep.get h).1], fun j hj hj' => ?_⟩
    cases j with
    | zero => rfl
    | succ j => exact (AllRep.get h).2 j (Nat.lt_of_succ_lt_succ hj) (Nat.lt_of_succ_lt_succ hj')
  | _, _, .ref hr h => by
    refine ⟨by rw [List.length_cons, List.length_cons, (AllRep.get h).1], fun j hj hj' => ?_⟩
    cases j with
    | zero => exact hr
    | succ j => exact (AllRep.get h).2 j (Nat.lt_of_succ_lt_succ hj) (Nat.lt_of_succ_lt_succ hj')

namespace Mmr
variable {k : Kind}

/-- C150: the items of any mountain range, whatever lengths its nodes claim, if they differ, are found under their numbers exactly
if the lengths of its nodes are not too small, and those of left sides not too large. -/
theorem C150_list_exact_partial (hT : T.WF) {s : PState} (hs : Reachable T H s) {r : Nat} {t : MMR TVal} (hr : Represents s r (emb m t)) (hn : t.items.Nodup) :
    (∀ (j : Nat) (hj : j < t.items.length), ∃ v s', getItem m T H r j s = (.ok v, s') ∧ v.Rep s' t.items[j]) ↔ t.Findable := by
  constructor
  · intro h
    refine MMR.Shows.findable hn fun j hj => ?_
    obtain ⟨v, s', e, hv⟩ := h j hj
    have := getItem_rep hT hs hr (j : Int)
    cases hg : t.getItem (j : Int) with
    | error x => rw [hg] at this; rw [e] at this; cases this
    | ok tv =>
      rw [hg] at this
      obtain ⟨v', s'', e', st, hv'⟩ := this
      rw [e] at e'
      cases e'
      rw [rep_unique hT (Steps.trans hs st) hv hv']
  · intro h j hj
    have := getItem_rep hT hs hr (j : Int)
    rw [h.shows j hj] at this
    obtain ⟨v, s', e, _, hv⟩ := this
    exact ⟨v, s', e, hv⟩

/-- C150: a mountain range received, by whoever it was made, that can be iterated over: what it gives for any index is one of the
items; and if the nodes' lengths are true, `len` is the number of items and every number gives the item at its place.  (The
lengths of right sides may also be too large, and left sides' too if there is nothing on the right.) -/
theorem C150_list_partial (hT : T.WF) (hD : Declares T H m tag k) {s0 s s1 : PState} {b : Bytes} {r : Nat} {vs : List HVal} (hs0 : Reachable T H s0)
    (hr : Prf.deserialize T m b s0 = (.ok r, s)) (hl : toList m T H r s = (.ok vs, s1)) :
    ∃ t, Represents s1 r (emb m t) ∧ AllRep s1 vs t.items ∧
      (∀ i v s2, getItem m T H r i s1 = (.ok v, s2) → ∃ w ∈ vs, SameThing s2 s1 v w) ∧
      (t.Findable → ∀ (j : Nat) (hj : j < vs.length), ∃ v s2, getItem m T H r j s1 = (.ok v, s2) ∧ SameThing s2 s1 v vs[j]) ∧
      (t.Honest → vs.length < 2 ^ 63 → t.Findable ∧ ((len m).runM T H r s1).1 = .ok vs.length) := by
  have hs : Reachable T H s := by
    have := hs0.tail (.deserialize m b)
    rwa [hr] at this
  obtain ⟨t, ht, hd, hp⟩ := received_tree hT hs0 hr
  have hpl : ∃ πs, (places m (s.objs.length + 1)).eval T H s.inited t = .ok (.ok πs) := by
    have h := hl
    unfold toList at h
    rw [HM.bind_apply] at h
    rcases he : (places m (s.objs.length + 1)).runM T H r s with ⟨e | πs, s'⟩
    · rw [he] at h; cases h
    · exact ⟨πs, ((runM_eq hT _ hs ht).2 πs).mp (congrArg Prod.fst he)⟩
  obtain ⟨πs, hπ⟩ := hpl
  obtain ⟨t', rfl⟩ := emb_of_places hD _ _ _ hp hπ
  obtain ⟨vs', s1', e, st, hv⟩ := toList_rep hT hs ht
  rw [hl] at e
  cases e
  have hs1 : Reachable T H s1 := Steps.trans hs st
  have ht1 := st.represents hT hs ht
  obtain ⟨hlen, hget⟩ := AllRep.get hv
  refine ⟨t', ht1, hv, fun i v s2 e => ?_, fun hf j hj => ?_, fun hh hb => ?_⟩
  · have := getItem_rep hT hs1 ht1 i
    cases hg : t'.getItem i with
    | error x => rw [hg] at this; rw [e] at this; cases this
    | ok tv =>
      rw [hg] at this
      obtain ⟨v', s'', e', _, hv'⟩ := this
      rw [e] at e'
      cases e'
      obtain ⟨j, hj, hjt⟩ := List.getElem_of_mem (MMR.getItem_mem hg)
      have := hget j (by omega) hj
      rw [hjt] at this
      exact ⟨_, List.getElem_mem (by omega), tv, hv', this⟩
  · have := getItem_rep hT hs1 ht1 (j : Int)
    rw [hf.shows j (by omega)] at this
    obtain ⟨v, s', e, _, hv⟩ := this
    exact ⟨v, s', e, _, hv, hget j hj (by omega)⟩
  · refine ⟨hh.findable (by omega), ?_⟩
    have hlen' : t'.len = .ok vs.length := by
      rw [hlen]
      cases t' with
      | empty => rfl
      | leaf => rfl
      | inner l r n =>
        rw [MMR.len, hh.1, MMR.items, List.length_append]
        rw [hlen, MMR.items, List.length_append] at hb
        exact MMR.pyLen_of hb
    obtain ⟨s', e, _⟩ := len_ok hT hs1 ht1 hlen'
    rw [e]

/-- A case meeting the conditions: what is sent of `IntMMR([5, 6, 7])`. -/
theorem Ex.sent_list : (Prf.deserialize Ex.IT 0 [0x00#8, 0x02, 0x00, 0x02, 0x00, 0x01, 0x05, 0x00, 0x01, 0x06, 0x02, 0x00, 0x01, 0x07, 0x03] {}).1 = .ok 4 ∧
    (toList 0 Ex.IT realHash 4 (Prf.deserialize Ex.IT 0 [0x00#8, 0x02, 0x00, 0x02, 0x00, 0x01, 0x05, 0x00, 0x01, 0x06, 0x02, 0x00, 0x01, 0x07, 0x03] {}).2).1 =
      .ok [.prim (.int 5), .prim (.int 6), .prim (.int 7)] := by decide +kernel

example : (MMR.inner (.inner (.leaf 5) (.leaf 6) 2) (.leaf 7) 3 : MMR Nat).Honest ∧ (MMR.inner (.inner (.leaf 5) (.leaf 6) 2) (.leaf 7) 3 : MMR Nat).items.Nodup ∧
    ¬ (MMR.inner (.inner (.leaf 5) (.leaf 6) 1) (.leaf 7) 3 : MMR Nat).Findable ∧ (MMR.inner (.leaf 7) (.inner (.leaf 5) (.leaf 6) 9) 3 : MMR Nat).Findable := by
  refine ⟨by simp [MMR.Honest, MMR.items], by decide, fun h => ?_, ?_⟩
  · obtain ⟨_, _, ⟨a, ha, h, _⟩, _⟩ := h (by simp [MMR.items])
    simp [MMR.len, pyLen] at ha
    subst ha
    simp [MMR.items] at h
  · intro _
    refine ⟨by decide, by decide, ⟨1, rfl, by decide, fun _ => ⟨rfl, 9, rfl, by decide⟩⟩, trivial, fun _ => ?_⟩
    exact ⟨by decide, by decide, ⟨1, rfl, by decide, fun _ => ⟨rfl, 1, rfl, by decide⟩⟩, trivial, trivial⟩

end Mmr

namespace Merb
variable {τ : PrimTy} {kv : Kind} {k2p : PVal → Py (List Bool)} {kp : Key τ → List Bool}

theorem getItem_ok (hT : T.WF) (hk : Prefixes τ k2p kp) {s : PState} (hs : Reachable T H s) {r : Nat} {t : MB (Key τ) TVal} (hr : Represents s r (emb m t)) {key : Key τ}
    {v : HVal} {s' : PState} (e : getItem m k2p T H r key.1 s = (.ok v, s')) : ∃ tv, t.getItem (cls T H τ kv kp) key = .ok tv ∧ v.Rep s' tv ∧ Reachable T H s' := by
  have := getItem_rep (kv := kv) hT hk hs hr key
  cases hg : t.getItem (cls T H τ kv kp) key with
  | error x => rw [hg] at this; rw [e] at this; cases this
  | ok tv =>
    rw [hg] at this
    obtain ⟨v', s'', e', st, hv'⟩ := this
    rw [e] at e'
    cases e'
    exact ⟨tv, rfl, hv', Steps.trans hs st⟩

/-- C150: in any tree, whatever its prefixes and layout, the keys differ and are all found with their values exactly if all keys below a
node go on, after its prefix, with 0 on the left and 1 on the right. -/
theorem C150_map_exact_partial (hT : T.WF) (hk : Prefixes τ k2p kp) {s : PState} (hs : Reachable T H s) {r : Nat} {t : MB (Key τ) TVal} (hr : Represents s r (emb m t)) :
    ((t.pairs.map (·.1)).Nodup ∧ ∀ x ∈ t.pairs, ∃ v s', getItem m k2p T H r x.1.1 s = (.ok v, s') ∧ v.Rep s' x.2) ↔ t.Findable (cls T H τ kv kp) := by
  constructor
  · rintro ⟨hn, h⟩
    refine MB.findable_of hn fun x hx => ?_
    obtain ⟨v, s', e, hv⟩ := h x hx
    obtain ⟨tv, htv, hv', hs'⟩ := getItem_ok (kv := kv) hT hk hs hr e
    rw [htv, rep_unique hT hs' hv hv']
  · intro h
    refine ⟨h.nodup, fun x hx => ?_⟩
    have := getItem_rep (kv := kv) hT hk hs hr x.1
    rw [h.found x hx] at this
    obtain ⟨v, s', e, _, hv⟩ := this
    exact ⟨v, s', e, hv⟩

/-- C150: a tree received, by whoever it was made, that can be iterated over: whatever is looked up is among its keys and values; and
if every key is on the side where it is looked for, every key that `keys()` gives is found, with the value that `values()` gives at that
place. -/
theorem C150_map_partial (hT : T.WF) (hD : Declares T H m tag τ kv) (hk : Prefixes τ k2p kp) {s0 s s1 s2 : PState} {b : Bytes} {r : Nat} {ks vs : List HVal}
    (hs0 : Reachable T H s0) (hr : Prf.deserialize T m b s0 = (.ok r, s)) (hl : toList m T H 0 r s = (.ok ks, s1)) (hl2 : toList m T H 1 r s1 = (.ok vs, s2)) :
    ∃ t : MB (Key τ) TVal, Represents s2 r (emb m t) ∧ Mmr.AllRep s2 ks (t.pairs.map fun x => .prim x.1.1) ∧ Mmr.AllRep s2 vs (t.pairs.map (·.2)) ∧
      (∀ (key : Key τ) v s3, getItem m k2p T H r key.1 s2 = (.ok v, s3) → ∃ (j : Nat) (w : HVal), ks[j]? = some (.prim key.1) ∧ vs[j]? = some w ∧ SameThing s3 s2 v w) ∧
      (t.Findable (cls T H τ kv kp) → ∀ (j : Nat) key w, ks[j]? = some (.prim key) → vs[j]? = some w →
        ∃ v s3, getItem m k2p T H r key s2 = (.ok v, s3) ∧ SameThing s3 s2 v w) ∧
      (ks.length < 2 ^ 63 → (length m T H r s2).1 = .ok ks.length) := by
  have hs : Reachable T H s := by
    have := hs0.tail (.deserialize m b)
    rwa [hr] at this
  obtain ⟨t, ht, hd, hp⟩ := received_tree hT hs0 hr
  have hpl : ∃ πs, (places m 0 (s.objs.length + 1)).eval T H s.inited t = .ok (.ok πs) := by
    have h := hl
    unfold toList at h
    rw [HM.bind_apply] at h
    rcases he : (places m 0 (s.objs.length + 1)).runM T H r s with ⟨e | πs, s'⟩
    · rw [he] at h; cases h
    · exact ⟨πs, ((runM_eq hT _ hs ht).2 πs).mp (congrArg Prod.fst he)⟩
  obtain ⟨πs, hπ⟩ := hpl
  obtain ⟨t', rfl⟩ := emb_of_places hD _ _ _ hd hp hπ
  obtain ⟨ks', s1', e, st, hkr⟩ := toList_rep hT hs (.inl rfl) ht
  rw [hl] at e
  cases e
  have hs1 : Reachable T H s1 := Steps.trans hs st
  have ht1 := st.represents hT hs ht
  obtain ⟨vs', s2', e, st2, hvr⟩ := toList_rep hT hs1 (.inr rfl) ht1
  rw [hl2] at e
  cases e
  have hs2 : Reachable T H s2 := Steps.trans hs1 st2
  have ht2 := st2.represents hT hs1 ht1
  have hkr := hkr.steps hT hs1 st2
  rw [show column 0 t' = t'.pairs.map fun x => .prim x.1.1 by rw [column, if_pos rfl, MB.keys_eq, List.map_map]; rfl] at hkr
  rw [show column 1 t' = t'.pairs.map (·.2) by rw [column, if_neg (by decide), MB.values_eq]] at hvr
  obtain ⟨kl, kg⟩ := AllRep.get hkr
  obtain ⟨vl, vg⟩ := AllRep.get hvr
  rw [List.length_map] at kl vl
  have kat : ∀ (j : Nat) (h : j < t'.pairs.length), ks[j]? = some (.prim t'.pairs[j].1.1) := by
    intro j h
    have := kg j (by omega) (by rw [List.length_map]; omega)
    rw [List.getElem_map] at this
    rw [List.getElem?_eq_getElem (by omega)]
    cases hx : ks[j]'(by omega) with
    | prim x => rw [hx] at this; simp only [HVal.Rep] at this; rw [this]
    | ref x => rw [hx] at this; exact this.elim
  refine ⟨t', ht2, hkr, hvr, fun key v s3 e => ?_, fun hf j key w hj hw => ?_, fun hb => ?_⟩
  · obtain ⟨tv, htv, hv', _⟩ := getItem_ok (kv := kv) hT hk hs2 ht2 e
    obtain ⟨j, hj, hjt⟩ := List.getElem_of_mem (MB.getItem_mem htv)
    have h2 := vg j (by omega) (by rw [List.length_map]; omega)
    rw [List.getElem_map, hjt] at h2
    have h1 := kat j hj
    rw [hjt] at h1
    exact ⟨j, _, h1, List.getElem?_eq_getElem (by omega), tv, hv', h2⟩
  · obtain ⟨hj', _⟩ := List.getElem?_eq_some_iff.mp hj
    have h1 := kat j (by omega)
    rw [hj] at h1
    cases h1
    have h2 := vg j (by omega) (by rw [List.length_map]; omega)
    rw [List.getElem?_eq_getElem (by omega)] at hw
    cases hw
    rw [List.getElem_map] at h2
    have := getItem_rep (kv := kv) hT hk hs2 ht2 (t'.pairs[j]'(by omega)).1
    rw [hf.found _ (List.getElem_mem (by omega))] at this
    obtain ⟨v, s', e, _, hv⟩ := this
    exact ⟨v, s', e, _, hv, h2⟩
  · obtain ⟨s', e, _⟩ := length_rep hT hs2 ht2 (MB.len_eq t' (by omega))
    rw [e, kl]

end Merb
end Verif
