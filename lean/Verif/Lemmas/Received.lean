import Verif.Lemmas.Forged
import Verif.Lemmas.MmrAgree
import Verif.Lemmas.MbAgree
import Verif.Lemmas.ProofDecl
import Verif.Lemmas.BtcDeser
/-! # What can be iterated over is a tree, if it was received -/
namespace Verif
open Seal
variable {T : Table} {H : HashFns} {ini : List Nat} {m : Nat} {tag : Bytes}

mutual
/-- What reading an object of class `c` gives. -/
def PTree.Parsed (T : Table) : PTree → Nat → Prop
  | .node u fs, c => (match (T c).variants with | none => u = c | some us => u ∈ us) ∧ fs.Parsed T (T u).attrs
  | .pruned u _, c => u = c
def PFields.Parsed (T : Table) : PFields → List Kind → Prop
  | .nil, [] => True
  | .prim v fs, .prim τ :: ks => (∃ b b', τ.deser b = .ok (v, b')) ∧ fs.Parsed T ks
  | .sub t fs, .proof c :: ks => t.Parsed T c ∧ fs.Parsed T ks
  | .sub t fs, .union us :: ks => (∃ u ∈ us, t.Parsed T u) ∧ fs.Parsed T ks
  | _, _ => False
end

theorem PFields.Parsed.length : ∀ {fs : PFields} {ks : List Kind}, fs.Parsed T ks → fs.length = ks.length
  | .nil, [], _ => rfl
  | .nil, _ :: _, h => by simp [PFields.Parsed] at h
  | .prim _ _, [], h => by simp [PFields.Parsed] at h
  | .sub _ _, [], h => by simp [PFields.Parsed] at h
  | .prim _ fs, k :: ks, h => by
    cases k <;> simp only [PFields.Parsed] at h
    rw [PFields.length, List.length_cons, h.2.length]
  | .sub _ fs, k :: ks, h => by
    cases k <;> simp only [PFields.Parsed] at h
    · rw [PFields.length, List.length_cons, h.2.length]
    · rw [PFields.length, List.length_cons, h.2.length]

theorem deserLoop_parsed {df : Nat → Bytes → HM (Nat × Bytes)}
    (hdf : ∀ (s : PState) (τ : List PTree) (c : Nat) (b : Bytes), Inv T H s τ →
      HSpec T H SerExt (df c b) s τ (fun res _ τ' => ∀ r b', res = .ok (r, b') → ∃ t, τ'[r]? = some t ∧ t.Parsed T c)) :
    ∀ (ks : List Kind) (s : PState) (τ : List PTree) (b : Bytes), Inv T H s τ →
      HSpec T H SerExt (Prf.deserLoop df ks b) s τ (fun res _ τ' => ∀ vs b', res = .ok (vs, b') → ∃ fs, AllIs τ' vs fs ∧ fs.Parsed T ks) := by
  intro ks
  induction ks with
  | nil => intro s τ b hi; exact .noop .refl rfl hi (fun vs b' h => by cases h; exact ⟨.nil, .nil, by simp [PFields.Parsed]⟩)
  | cons k ks ih =>
    intro s τ b hi
    have hA : HSpec T H SerExt (Prf.attrDeser df k b) s τ (fun res _ τ' => ∀ v b', res = .ok (v, b') →
        ∃ tv, v.Is τ' tv ∧ match tv, k with
          | .prim v, .prim τ => ∃ b b', τ.deser b = .ok (v, b')
          | .sub t, .proof c => t.Parsed T c
          | .sub t, .union us => ∃ u ∈ us, t.Parsed T u
          | _, _ => False) := by
      cases k with
      | prim τ' =>
        refine HSpec.bind .trans (read_spec hi τ'.deser b) ?_ ?_
        · rintro ⟨v, b1⟩ s1 τ1 hi1 _ _ ⟨hv, _⟩
          exact .noop .refl rfl hi1 (fun w b' h => by cases h; exact ⟨.prim v, rfl, _, _, hv.symm⟩)
        · rintro e s1 τ1 _ _ _ v b' h; cases h
      | proof c =>
        refine HSpec.bind .trans (hdf s τ c b hi) ?_ ?_
        · rintro ⟨r, b1⟩ s1 τ1 hi1 _ _ h
          obtain ⟨t, ht, hr⟩ := h r b1 rfl
          exact .noop .refl rfl hi1 (fun v b' h' => by cases h'; exact ⟨.sub t, ht, hr⟩)
        · rintro e s1 τ1 _ _ _ v b' h; cases h
      | union us =>
        refine HSpec.bind .trans (read_spec hi readVaruint b) ?_ ?_
        · rintro ⟨i, b1⟩ s1 τ1 hi1 _ _ _
          simp only
          cases hu : us[i]? with
          | none => exact .noop .refl rfl hi1 (fun v b' h => by cases h)
          | some u =>
            refine HSpec.bind .trans (hdf s1 τ1 u b1 hi1) ?_ ?_
            · rintro ⟨r, b1⟩ s1 τ1 hi1 _ _ h
              obtain ⟨t, ht, hr⟩ := h r b1 rfl
              exact .noop .refl rfl hi1 (fun v b' h' => by cases h'; exact ⟨.sub t, ht, u, List.mem_of_getElem? hu, hr⟩)
            · rintro e s1 τ1 _ _ _ v b' h; cases h
        · rintro e s1 τ1 _ _ _ v b' h; cases h
    refine HSpec.bind .trans hA ?_ ?_
    · rintro ⟨v, b1⟩ s1 τ1 hi1 _ _ hv
      refine HSpec.bind .trans (ih s1 τ1 b1 hi1) ?_ ?_
      · rintro ⟨vs, b2⟩ s2 τ2 hi2 he2 ⟨x, rfl⟩ hvs
        refine .noop .refl rfl hi2 (fun ws b' h => ?_)
        cases h
        obtain ⟨tv, his, htv⟩ := hv v b1 rfl
        obtain ⟨fs, hfs, hpre⟩ := hvs vs b2 rfl
        have his2 : v.Is (τ1 ++ x) tv := his.mono
        cases tv with
        | prim w =>
          cases v with
          | ref _ => exact his.elim
          | prim w' =>
            have : w' = w := his
            subst this
            refine ⟨.prim w' fs, .prim hfs, ?_⟩
            cases k with
            | prim _ => rw [PFields.Parsed]; exact ⟨htv, hpre⟩
            | proof _ => exact htv.elim
            | union _ => exact htv.elim
        | sub t =>
          cases v with
          | prim _ => exact his.elim
          | ref r =>
            refine ⟨.sub t fs, .ref his2 hfs, ?_⟩
            cases k with
            | prim _ => exact htv.elim
            | proof _ => rw [PFields.Parsed]; exact ⟨htv, hpre⟩
            | union _ => rw [PFields.Parsed]; exact ⟨htv, hpre⟩
      · rintro e s1 τ1 _ _ _ v b' h; cases h
    · rintro e s1 τ1 _ _ _ v b' h; cases h

theorem deserF_parsed (hT : T.WF) : ∀ (n : Nat) (s : PState) (τ : List PTree) (c : Nat) (b : Bytes), Inv T H s τ →
    HSpec T H SerExt (Prf.deserF T n c b) s τ (fun res _ τ' => ∀ r b', res = .ok (r, b') → ∃ t, τ'[r]? = some t ∧ t.Parsed T c) := by
  intro n
  induction n with
  | zero => intro s τ c b hi; exact .noop .refl rfl hi (fun r b' h => by cases h)
  | succ n ih =>
    intro s τ c b hi
    rw [Prf.deserF]
    refine HSpec.bind .trans (read_spec hi readBool b) ?_ ?_
    · rintro ⟨pr, b1⟩ s1 τ1 hi1 _ _ _
      cases pr with
      | true =>
        simp only
        refine HSpec.bind .trans (read_spec hi1 (readBytes 32) b1) ?_ ?_
        · rintro ⟨d, b2⟩ s2 τ2 hi2 _ _ ⟨hd, rfl, rfl⟩
          have hdl : d.length = 32 := (fdRead_ok hd.symm).2
          refine HSpec.bind .trans (hashOnly_inv hi2 c hdl) ?_ ?_
          · rintro r s3 τ3 hi3 _ _ ⟨hr, ht, _⟩
            refine .noop .refl rfl hi3 (fun r' b' h => ?_)
            cases h
            cases hr
            exact ⟨_, ht, by rw [PTree.Parsed]⟩
          · rintro e s1 τ1 _ _ _ v b' h; cases h
        · rintro e s1 τ1 _ _ _ v b' h; cases h
      | false =>
        simp only
        have hV : HSpec T H SerExt (Prf.variantOf T c b1) s1 τ1 (fun res _ _ => ∀ u b', res = .ok (u, b') →
            match (T c).variants with | none => u = c | some us => u ∈ us) := by
          unfold Prf.variantOf
          cases hvar : (T c).variants with
          | none => exact .noop .refl rfl hi1 (fun u b' h => by cases h; rfl)
          | some us =>
            simp only
            refine HSpec.bind .trans (read_spec hi1 readVaruint b1) ?_ ?_
            · rintro ⟨i, b2⟩ s2 τ2 hi2 _ _ _
              simp only
              cases hu : us[i]? with
              | none => exact .noop .refl rfl hi2 (fun u b' h => by cases h)
              | some u => exact .noop .refl rfl hi2 (fun u b' h => by cases h; exact List.mem_of_getElem? hu)
            · rintro e s1 τ1 _ _ _ u b' h; cases h
        refine HSpec.bind .trans hV ?_ ?_
        · rintro ⟨u, b2⟩ s2 τ2 hi2 _ _ hu
          refine HSpec.bind .trans (deserLoop_parsed ih (T u).attrs s2 τ2 b2 hi2) ?_ ?_
          · rintro ⟨vs, b3⟩ s3 τ3 hi3 _ _ hvs
            obtain ⟨fs, hfs, hpre⟩ := hvs vs b3 rfl
            have htk : vs.take (T u).attrs.length = vs := List.take_of_length_le (by rw [← hpre.length, hfs.length])
            refine HSpec.bind .trans (new_spec hT hi3 u (by rw [htk]; exact hfs)) ?_ ?_
            · rintro r s4 τ4 hi4 he4 _ ⟨_, h⟩
              refine .noop .refl rfl hi4 (fun r' b' h' => ?_)
              cases h'
              obtain ⟨hr, ht, _⟩ := h r rfl
              exact ⟨_, ht, by rw [PTree.Parsed]; exact ⟨hu u b2 rfl, hpre⟩⟩
            · rintro e s1 τ1 _ _ _ v b' h; cases h
          · rintro e s1 τ1 _ _ _ v b' h; cases h
        · rintro e s1 τ1 _ _ _ v b' h; cases h
    · rintro e s1 τ1 _ _ _ v b' h; cases h

/-- Whatever is received is as declared, and what reading gives. -/
theorem received_tree (hT : T.WF) {s0 s : PState} (hs : Reachable T H s0) {c r : Nat} {b : Bytes} (h : Prf.deserialize T c b s0 = (.ok r, s)) :
    ∃ t, Represents s r t ∧ t.Declared T ∧ t.Parsed T c := by
  unfold Prf.deserialize at h
  rw [HM.bind_apply] at h
  rcases hx : Prf.ctxDeserialize T c b s0 with ⟨e | ⟨r', rest⟩, s1⟩
  · rw [hx] at h; cases h
  · rw [hx] at h
    cases h
    obtain ⟨τ, hi⟩ := hs.inv hT
    obtain ⟨τ1, hi1, _, h1⟩ := deserialize_own hT hi c b
    obtain ⟨τ2, hi2, _, h2⟩ := deserF_parsed hT (b.length + 1) s0 τ c b hi
    rw [hx] at hi1 h1
    rw [show Prf.deserF T (b.length + 1) c b s0 = _ from hx] at hi2 h2
    obtain ⟨_, t, ht, hra⟩ := h1 _ _ rfl
    obtain ⟨t', ht', hp⟩ := h2 _ _ rfl
    have e := hi1.of_represents (hi2.represents _ _ ht')
    rw [ht] at e
    cases e
    exact ⟨t, hi1.represents _ _ ht, hra.2, hp⟩

theorem uint64_parsed {v : PVal} {b b' : Bytes} (h : PrimTy.uint64.deser b = .ok (v, b')) : ∃ n : Nat, v = .int n := by
  unfold PrimTy.uint64 PrimTy.deser at h
  obtain ⟨n, b1, _, h⟩ := P.bind_inv h
  split at h
  · cases h
  · cases h; exact ⟨n, rfl⟩

theorem bits_parsed {v : PVal} {b b' : Bytes} (h : PrimTy.bits.deser b = .ok (v, b')) : ∃ p, v = .bits p := by
  unfold PrimTy.deser at h
  obtain ⟨n, b1, _, h⟩ := P.bind_inv h
  obtain ⟨xs, b2, _, h⟩ := P.bind_inv h
  cases h
  exact ⟨xs, rfl⟩

namespace Mmr
variable {k : Kind}

theorem emb_of_places (hD : Declares T H m tag k) : ∀ (n : Nat) (t : PTree) (πs : List (List Nat)), t.Parsed T m → (places m n).eval T H ini t = .ok (.ok πs) →
    ∃ t', t = emb m t'
  | 0, t, πs, _, h => by cases h
  | n + 1, .pruned u d, πs, hp, h => by
    rw [PTree.Parsed] at hp
    subst hp
    rw [places, eval_cls_here] at h
    rw [show (PTree.pruned u d).cls = u from rfl, if_neg (by omega), if_neg (by omega), if_neg (by omega)] at h
    cases h
  | n + 1, .node u fs, πs, hp, h => by
    rw [PTree.Parsed, hD.base] at hp
    obtain ⟨hu, hp⟩ := hp
    simp only [List.mem_cons, List.not_mem_nil, or_false] at hu
    rcases hu with rfl | rfl | rfl
    · rw [hD.empty] at hp
      cases fs <;> simp [PFields.Parsed] at hp
      exact ⟨.empty, rfl⟩
    · rw [hD.leaf] at hp
      cases fs with
      | nil => simp [PFields.Parsed] at hp
      | prim v fs =>
        cases k <;> simp [PFields.Parsed] at hp
        cases fs <;> simp [PFields.Parsed] at hp
        exact ⟨.leaf (.prim v), rfl⟩
      | sub t fs =>
        cases k <;> simp [PFields.Parsed] at hp
        all_goals (cases fs <;> simp [PFields.Parsed] at hp)
        all_goals exact ⟨.leaf (.sub t), rfl⟩
    · rw [hD.inner] at hp
      match fs, hp with
      | .sub l (.sub r (.prim v .nil)), hp =>
        simp only [PFields.Parsed] at hp
        obtain ⟨hl, hr, ⟨b, b', hv⟩, _⟩ := hp
        obtain ⟨len, rfl⟩ := uint64_parsed hv
        rw [places, eval_cls_here] at h
        rw [show (PTree.node (m + 3) (.sub l (.sub r (.prim (.int len) .nil)))).cls = m + 3 from rfl, if_neg (by omega), if_neg (by omega), if_pos rfl, eval_bind_ok] at h
        obtain ⟨as, ha, h⟩ := h
        rw [eval_bind_ok] at h
        obtain ⟨bs, hb, _⟩ := h
        rw [Prog.eval_at (q := l) rfl] at ha
        rw [Prog.eval_at (q := r) rfl] at hb
        obtain ⟨l', rfl⟩ := emb_of_places hD n l as hl ha
        obtain ⟨r', rfl⟩ := emb_of_places hD n r bs hr hb
        exact ⟨.inner l' r' len, rfl⟩

end Mmr

namespace Merb
variable {τ : PrimTy} {kv : Kind}

theorem emb_of_places (hD : Declares T H m tag τ kv) {i : Nat} : ∀ (n : Nat) (t : PTree) (πs : List (List Nat)), t.Declared T → t.Parsed T m →
    (places m i n).eval T H ini t = .ok (.ok πs) → ∃ t' : MB (Key τ) TVal, t = emb m t'
  | 0, t, πs, _, _, h => by cases h
  | n + 1, .pruned u d, πs, _, hp, h => by
    rw [PTree.Parsed] at hp
    subst hp
    rw [places, Mmr.eval_cls_here] at h
    rw [show (PTree.pruned u d).cls = u from rfl, if_neg (by omega), if_neg (by omega), if_neg (by omega)] at h
    cases h
  | n + 1, .node u fs, πs, hd, hp, h => by
    rw [PTree.Parsed, hD.base] at hp
    obtain ⟨hu, hp⟩ := hp
    rw [PTree.Declared] at hd
    simp only [List.mem_cons, List.not_mem_nil, or_false] at hu
    rcases hu with rfl | rfl | rfl
    · rw [hD.empty] at hp
      cases fs <;> simp [PFields.Parsed] at hp
      exact ⟨.empty, rfl⟩
    · rw [hD.leaf] at hp hd
      match fs, hp, hd with
      | .prim key fs, hp, hd =>
        simp only [PFields.Parsed] at hp
        simp only [PFields.Declared] at hd
        have hp := hp.2
        have hk := hd.1
        cases fs with
        | nil => simp [PFields.Parsed] at hp
        | prim v fs =>
          cases kv <;> simp [PFields.Parsed] at hp
          cases fs <;> simp [PFields.Parsed] at hp
          exact ⟨.leaf ⟨key, hk⟩ (.prim v), rfl⟩
        | sub t fs =>
          cases kv <;> simp [PFields.Parsed] at hp
          all_goals (cases fs <;> simp [PFields.Parsed] at hp)
          all_goals exact ⟨.leaf ⟨key, hk⟩ (.sub t), rfl⟩
    · rw [hD.inner] at hp hd
      match fs, hp, hd with
      | .prim v (.sub l (.sub r .nil)), hp, hd =>
        simp only [PFields.Parsed] at hp
        simp only [PFields.Declared] at hd
        obtain ⟨⟨b, b', hv⟩, hl, hr, _⟩ := hp
        obtain ⟨p, rfl⟩ := bits_parsed hv
        rw [places, Mmr.eval_cls_here] at h
        rw [show (PTree.node (m + 3) (.prim (.bits p) (.sub l (.sub r .nil)))).cls = m + 3 from rfl, if_neg (by omega), if_neg (by omega), if_pos rfl, eval_bind_ok] at h
        obtain ⟨as, ha, h⟩ := h
        rw [eval_bind_ok] at h
        obtain ⟨bs, hb, _⟩ := h
        rw [Prog.eval_at (q := l) rfl] at ha
        rw [Prog.eval_at (q := r) rfl] at hb
        obtain ⟨l', rfl⟩ := emb_of_places hD n l as hd.2.2.1 hl ha
        obtain ⟨r', rfl⟩ := emb_of_places hD n r bs hd.2.2.2.2.1 hr hb
        exact ⟨.inner p l' r', rfl⟩

end Merb
end Verif
