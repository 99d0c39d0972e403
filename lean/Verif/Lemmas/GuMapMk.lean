import Verif.Lemmas.GuMap
import Verif.Lemmas.Merbinner
/-! # Lemmas about making nodes of maps -/
namespace Verif
open Seal

theorem HM.bind_ok_inv {α β} {x : HM α} {f : α → HM β} {s s' : PState} {b : β} (h : (x >>= f) s = (.ok b, s')) :
    ∃ a s1, x s = (.ok a, s1) ∧ f a s1 = (.ok b, s') := by
  rw [HM.bind_apply] at h
  rcases hx : x s with ⟨_ | a, s1⟩ <;> rw [hx] at h
  · cases h
  · exact ⟨a, s1, rfl, h⟩

section
variable {T : Table} {H : HashFns} {ini : List Nat} {t : PTree}

theorem getAttr_rep {s : PState} {r : Nat} (hT : T.WF) (hs : Reachable T H s) (hr : Represents s r t) (i : Nat) :
    Steps T H s (Prf.getAttr T r i s).2 ∧
    (∀ tv, t.get? i = some tv → ∃ v, (Prf.getAttr T r i s).1 = .ok v ∧ v.Rep (Prf.getAttr T r i s).2 tv) ∧
    (∀ v, (Prf.getAttr T r i s).1 = .ok v → ∃ tv, t.get? i = some tv ∧ v.Rep (Prf.getAttr T r i s).2 tv) := by
  obtain ⟨τ, hi⟩ := hs.inv hT
  obtain ⟨x, hi', _, h1, h2, _⟩ := getAttr_spec (T := T) (H := H) hi (hi.of_represents hr) i
  have hok : ∀ tv, t.get? i = some tv → ∃ v, (Prf.getAttr T r i s).1 = .ok v ∧ v.Rep (Prf.getAttr T r i s).2 tv := by
    intro tv h
    obtain ⟨v, hv, his, _⟩ := h2 tv (attr_ok.mpr h)
    exact ⟨v, hv, his.rep hi'⟩
  refine ⟨.tail .refl (.getAttr r i), hok, fun v hv => ?_⟩
  cases ha : t.attr T s.inited i with
  | error e => rw [h1 e ha] at hv; cases hv
  | ok tv =>
    refine ⟨tv, attr_ok.mp ha, ?_⟩
    obtain ⟨v', hv', hrep⟩ := hok tv (attr_ok.mp ha)
    rw [hv] at hv'
    cases hv'
    exact hrep

theorem Represents.fun (hT : T.WF) {s : PState} (hs : Reachable T H s) {r : Nat} {t t' : PTree} (h : Represents s r t) (h' : Represents s r t') : t = t' := by
  obtain ⟨τ, hi⟩ := hs.inv hT
  have := (hi.of_represents h).symm.trans (hi.of_represents h')
  exact Option.some.inj this

end

namespace GuMap
section
variable {H : HashFns} {g : GuMapDecl} {ini : List Nat} {t : PTree}
local notation "C" => classes H g

theorem getPrefix_rep {s : PState} {r : Nat} (k2p : PVal → Py (List Bool)) (hs : Reachable C H s) (hr : Represents s r t) :
    Steps C H s (getPrefix C k2p r s).2 ∧ ∀ p, (getPrefix C k2p r s).1 = .ok p ↔ prefixT k2p t = some p := by
  obtain ⟨o, ho, hc⟩ := obj_rep classes_wf hs hr
  unfold getPrefix prefixT
  rw [HM.bind_obj ho, hc]
  split
  · obtain ⟨h1, h2, h3⟩ := getAttr_rep classes_wf hs hr 0
    rw [HM.bind_apply]
    rcases hx : Prf.getAttr C r 0 s with ⟨e | v, s1⟩ <;> rw [hx] at h1 h2 h3
    · refine ⟨h1, fun p => ⟨(fun h => by cases h), fun h => ?_⟩⟩
      cases hg : t.get? 0 with
      | none => rw [hg] at h; cases h
      | some tv => obtain ⟨v, hv, _⟩ := h2 tv hg; cases hv
    · obtain ⟨tv, hg, hrep⟩ := h3 v rfl
      rw [hg]
      rcases v with w | q <;> rcases tv with w' | q' <;> (try simp only [HVal.Rep] at hrep)
      · subst hrep
        cases w <;> refine ⟨h1, fun p => ?_⟩ <;> simp [HM.pure_apply, HM.fail_apply]
      · exact ⟨h1, fun p => by simp [HM.fail_apply]⟩
  · split
    · obtain ⟨h1, h2, h3⟩ := getAttr_rep classes_wf hs hr 1
      rw [HM.bind_apply]
      rcases hx : Prf.getAttr C r 1 s with ⟨e | v, s1⟩ <;> rw [hx] at h1 h2 h3
      · refine ⟨h1, fun p => ⟨(fun h => by cases h), fun h => ?_⟩⟩
        cases hg : t.get? 1 with
        | none => rw [hg] at h; cases h
        | some tv => obtain ⟨v, hv, _⟩ := h2 tv hg; cases hv
      · obtain ⟨tv, hg, hrep⟩ := h3 v rfl
        rw [hg]
        rcases v with w | q <;> rcases tv with w' | q' <;> (try simp only [HVal.Rep] at hrep)
        · subst hrep
          refine ⟨h1, fun p => ?_⟩
          simp only [HM.lift_apply]
          cases k2p w <;> simp
        · exact ⟨h1, fun p => by simp [HM.fail_apply]⟩
    · exact ⟨.refl, fun p => by simp [HM.fail_apply]⟩

theorem sealHash_rep {s : PState} {r : Nat} (hs : Reachable C H s) (hr : Represents s r t) :
    Steps C H s (sealHash.runM C H r s).2 ∧ ∀ h, (sealHash.runM C H r s).1 = .ok h ↔ SealHashIs C H t h := by
  obtain ⟨h1, h2⟩ := runM_eq classes_wf sealHash hs hr
  exact ⟨h1, fun h => by rw [h2, sealHash_ok]⟩

theorem getSeal_unused {s : PState} {r : Nat} {p : List Bool} {ts : PTree} (hs : Reachable C H s) (hr : Represents s r (unusedT p ts)) :
    ∃ q s', getSeal C r s = (.ok (.ref q), s') ∧ Steps C H s s' ∧ Represents s' q ts := by
  obtain ⟨o, ho, hc⟩ := obj_rep classes_wf hs hr
  obtain ⟨h1, _, h3⟩ := walk_rep classes_wf hs hr [1]
  obtain ⟨v, hv, hrep⟩ := h3 (.sub ts) rfl
  rcases v with w | q
  · exact hrep.elim
  · refine ⟨q, _, ?_, h1, hrep⟩
    unfold getSeal
    rw [HM.bind_obj ho, hc]
    exact Prod.ext hv rfl

theorem digestVal_rep {k : Kind} {s : PState} {v : HVal} {tv : TVal} (hs : Reachable C H s) (hr : v.Rep s tv) :
    Steps C H s (digestVal C H k v s).2 ∧ ∀ d, (digestVal C H k v s).1 = .ok d ↔ DigestIs C H k tv d := by
  rcases v with w | q <;> rcases tv with w' | t <;> simp only [HVal.Rep] at hr
  · subst hr
    cases k <;> simp [digestVal, DigestIs, HM.lift_apply, HM.fail_apply] <;> exact .refl
  · have hh := hash_rep classes_wf hs hr
    have hst : Steps C H s (Prf.hash C H q s).2 := .tail .refl (.hash q)
    cases k with
    | prim τ =>
      refine ⟨.refl, fun d => ?_⟩
      simp only [digestVal, HM.lift_apply, DigestIs, iff_false]
      exact ser_other
    | proof c => exact ⟨hst, fun d => by simp only [digestVal, DigestIs, hh]⟩
    | union c => exact ⟨hst, fun d => by simp only [digestVal, DigestIs, hh]⟩

theorem fromHash_rep {s : PState} {h : Bytes} (hs : Reachable C H s) (hl : h.length = 32) :
    ∃ r s', fromHash C h s = (.ok r, s') ∧ Steps C H s s' ∧ Represents s' r (fakeWitnessT (fakeSealT h)) := by
  obtain ⟨h1, h2, h3⟩ := new_rep classes_wf hs Cls.fakeSeal (vs := [.prim (.bytes h)]) (.prim .nil) rfl
  obtain ⟨a, ha⟩ := h2 (by simp [Cls.fakeSeal, classes, PFields.Checked, PrimTy.check, hl])
  have hra := h3 a ha
  obtain ⟨g1, g2, g3⟩ := new_rep classes_wf (hs.trans h1) Cls.fakeWitness (vs := [.ref a]) (.ref hra .nil) rfl
  obtain ⟨b, hb⟩ := g2 (by
    refine ⟨?_, ?_, ?_⟩
    · intro us h; simp [classes, Cls.fakeSeal] at h
    · exact Reachable.checked classes_wf (hs.trans h1) hra
    · trivial)
  refine ⟨b, _, ?_, h1.trans g1, g3 b hb⟩
  unfold fromHash
  rw [HM.bind_of_eq (Prod.ext ha rfl)]
  exact Prod.ext hb rfl

theorem sha_len (x : Bytes) : (H.sha256 x).length = 32 := H.sha256_len x

/-- `from_children`, when it returns. -/
theorem fromChildren_inv {s s' : PState} {l r n : Nat} {tl tr : PTree} {k2p : PVal → Py (List Bool)} (hs : Reachable C H s) (hl : Represents s l tl)
    (hr : Represents s r tr) (h : fromChildren C H g k2p l r s = (.ok n, s')) :
    ∃ p q a b, prefixT k2p tl = some p ∧ prefixT k2p tr = some q ∧ SealHashIs C H tl a ∧ SealHashIs C H tr b ∧ Steps C H s s' ∧
      Represents s' n (innerT (commonPrefix p q) (fakeWitnessT (fakeSealT (H.sha256 (innerTag H g ++ (a ++ b))))) tl tr) := by
  unfold fromChildren at h
  obtain ⟨p, s1, h1, h⟩ := HM.bind_ok_inv h
  obtain ⟨st1, e1⟩ := getPrefix_rep k2p hs hl
  rw [h1] at st1 e1
  have hs1 : Reachable C H s1 := hs.trans st1
  have hl1 := st1.represents classes_wf hs hl
  have hr1 := st1.represents classes_wf hs hr
  obtain ⟨q, s2, h2, h⟩ := HM.bind_ok_inv h
  obtain ⟨st2, e2⟩ := getPrefix_rep k2p hs1 hr1
  rw [h2] at st2 e2
  have hs2 : Reachable C H s2 := hs1.trans st2
  have hl2 := st2.represents classes_wf hs1 hl1
  have hr2 := st2.represents classes_wf hs1 hr1
  obtain ⟨a, s3, h3, h⟩ := HM.bind_ok_inv h
  obtain ⟨st3, e3⟩ := sealHash_rep hs2 hl2
  rw [h3] at st3 e3
  have hs3 : Reachable C H s3 := hs2.trans st3
  have hl3 := st3.represents classes_wf hs2 hl2
  have hr3 := st3.represents classes_wf hs2 hr2
  obtain ⟨b, s4, h4, h⟩ := HM.bind_ok_inv h
  obtain ⟨st4, e4⟩ := sealHash_rep hs3 hr3
  rw [h4] at st4 e4
  have hs4 : Reachable C H s4 := hs3.trans st4
  have hl4 := st4.represents classes_wf hs3 hl3
  have hr4 := st4.represents classes_wf hs3 hr3
  obtain ⟨w, s5, h5, st5, hw⟩ := fromHash_rep hs4 (sha_len (H := H) (innerTag H g ++ (a ++ b)))
  have hs5 : Reachable C H s5 := hs4.trans st5
  have hl5 := st5.represents classes_wf hs4 hl4
  have hr5 := st5.represents classes_wf hs4 hr4
  have h5' : fromHash C (H.tagged (innerTag H g) (a ++ b)) s4 = (.ok w, s5) := h5
  rw [HM.bind_of_eq h5'] at h
  obtain ⟨st6, _, h6⟩ := new_rep classes_wf hs5 Cls.innerPrefix (vs := [.prim (.bits (commonPrefix p q)), .ref w, .ref l, .ref r])
    (.prim (.ref hw (.ref hl5 (.ref hr5 .nil)))) rfl
  rw [h] at st6 h6
  exact ⟨p, q, a, b, (e1 p).mp rfl, (e2 q).mp rfl, (e3 a).mp rfl, (e4 b).mp rfl,
    ((((st1.trans st2).trans st3).trans st4).trans st5).trans st6, h6 n rfl⟩

/-- `from_children` returns. -/
theorem fromChildren_total {s : PState} {l r : Nat} {tl tr : PTree} {k2p : PVal → Py (List Bool)} {p q : List Bool} {a b : Bytes} (hs : Reachable C H s)
    (hl : Represents s l tl) (hr : Represents s r tr) (hp : prefixT k2p tl = some p) (hq : prefixT k2p tr = some q) (ha : SealHashIs C H tl a)
    (hb : SealHashIs C H tr b) (nl : IsNode tl) (nr : IsNode tr) :
    ∃ n s', fromChildren C H g k2p l r s = (.ok n, s') := by
  obtain ⟨st1, e1⟩ := getPrefix_rep k2p hs hl
  generalize hg1 : (getPrefix C k2p l s).2 = s1 at st1
  have hs1 : Reachable C H s1 := hs.trans st1
  have hl1 := st1.represents classes_wf hs hl
  have hr1 := st1.represents classes_wf hs hr
  obtain ⟨st2, e2⟩ := getPrefix_rep k2p hs1 hr1
  generalize hg2 : (getPrefix C k2p r s1).2 = s2 at st2
  have hs2 : Reachable C H s2 := hs1.trans st2
  have hl2 := st2.represents classes_wf hs1 hl1
  have hr2 := st2.represents classes_wf hs1 hr1
  obtain ⟨st3, e3⟩ := sealHash_rep hs2 hl2
  generalize hg3 : (sealHash.runM C H l s2).2 = s3 at st3
  have hs3 : Reachable C H s3 := hs2.trans st3
  have hl3 := st3.represents classes_wf hs2 hl2
  have hr3 := st3.represents classes_wf hs2 hr2
  obtain ⟨st4, e4⟩ := sealHash_rep hs3 hr3
  generalize hg4 : (sealHash.runM C H r s3).2 = s4 at st4
  have hs4 : Reachable C H s4 := hs3.trans st4
  have hl4 := st4.represents classes_wf hs3 hl3
  have hr4 := st4.represents classes_wf hs3 hr3
  obtain ⟨w, s5, h5, st5, hw⟩ := fromHash_rep hs4 (sha_len (H := H) (innerTag H g ++ (a ++ b)))
  have h5' : fromHash C (H.tagged (innerTag H g) (a ++ b)) s4 = (.ok w, s5) := h5
  have hs5 : Reachable C H s5 := hs4.trans st5
  have hl5 := st5.represents classes_wf hs4 hl4
  have hr5 := st5.represents classes_wf hs4 hr4
  obtain ⟨_, h6, _⟩ := new_rep classes_wf hs5 Cls.innerPrefix (vs := [.prim (.bits (commonPrefix p q)), .ref w, .ref l, .ref r])
    (.prim (.ref hw (.ref hl5 (.ref hr5 .nil)))) rfl
  obtain ⟨n, hn⟩ := h6 (by
    have kids : ∀ t : PTree, IsNode t → ∀ us, (C Cls.guMap).variants = some us → us.any ((C).isInst t.cls) = true := by
      intro t ht us hu
      cases (Option.some.inj hu : [Cls.unusedPrefix, Cls.leafPrefix, Cls.innerPrefix] = us)
      rcases ht with h | h | h <;> rw [h] <;> rfl
    have ck := fun {r t} => Reachable.checked classes_wf hs5 (r := r) (t := t)
    refine ⟨rfl, ⟨?_, ck hw, ⟨?_, ck hl5, ⟨?_, ck hr5, trivial⟩⟩⟩⟩
    · rfl
    · exact kids _ nl
    · exact kids _ nr)
  refine ⟨n, (Prf.new C Cls.innerPrefix [.prim (.bits (commonPrefix p q)), .ref w, .ref l, .ref r] s5).2, ?_⟩
  unfold fromChildren
  rw [HM.bind_of_eq (Prod.ext ((e1 p).mpr hp) hg1), HM.bind_of_eq (Prod.ext ((e2 q).mpr hq) hg2), HM.bind_of_eq (Prod.ext ((e3 a).mpr ha) hg3),
    HM.bind_of_eq (Prod.ext ((e4 b).mpr hb) hg4), HM.bind_of_eq h5']
  exact Prod.ext hn rfl

/-- One more attribute in front. -/
def consT : TVal → PFields → PFields
  | .prim v, fs => .prim v fs
  | .sub t, fs => .sub t fs

theorem RepVals.cons {s : PState} {v : HVal} {tv : TVal} {vs : List HVal} {fs : PFields} (h : v.Rep s tv) (hv : RepVals s vs fs) : RepVals s (v :: vs) (consT tv fs) := by
  rcases v with w | q <;> rcases tv with w' | t <;> simp only [HVal.Rep] at h
  · subst h; exact .prim hv
  · exact .ref h hv

/-- `LeafPrefix.from_unused_prefix`, when it returns. -/
theorem leafFromUnused_inv {mk : HVal → Bytes → HM HVal} (hmk : Honest C H mk) {s s' : PState} {u n : Nat} {p : List Bool} {ts : PTree} {key value : HVal}
    {tk tv : TVal} (hs : Reachable C H s) (hu : Represents s u (unusedT p ts)) (hk : key.Rep s tk) (hv : value.Rep s tv)
    (h : leafFromUnused C H g u key value mk s = (.ok n, s')) :
    ∃ kd vd tw ts', DigestIs C H g.key tk kd ∧ DigestIs C H g.value tv vd ∧ Steps C H s s' ∧
      Represents s' n (.node Cls.leafPrefix (.sub tw (consT tk (consT tv .nil)))) ∧ tw.sub? 0 = some ts' ∧ ts'.hash C H = ts.hash C H ∧
      tw.Checked C ∧ (verifyHash H (H.sha256 (leafTag H g ++ (kd ++ vd)))).eval C H s'.inited tw = .ok (.ok ()) := by
  unfold leafFromUnused at h
  obtain ⟨q, s1, h1, st1, hq1⟩ := getSeal_unused hs hu
  rw [HM.bind_of_eq h1] at h
  have hs1 : Reachable C H s1 := hs.trans st1
  have hk1 := hk.steps classes_wf hs st1
  have hv1 := hv.steps classes_wf hs st1
  obtain ⟨kd, s2, h2, h⟩ := HM.bind_ok_inv h
  obtain ⟨st2, e2⟩ := digestVal_rep (k := g.key) hs1 hk1
  rw [h2] at st2 e2
  have hs2 : Reachable C H s2 := hs1.trans st2
  have hk2 := hk1.steps classes_wf hs1 st2
  have hv2 := hv1.steps classes_wf hs1 st2
  have hq2 := st2.represents classes_wf hs1 hq1
  obtain ⟨vd, s3, h3, h⟩ := HM.bind_ok_inv h
  obtain ⟨st3, e3⟩ := digestVal_rep (k := g.value) hs2 hv2
  rw [h3] at st3 e3
  have hs3 : Reachable C H s3 := hs2.trans st3
  have hk3 := hk2.steps classes_wf hs2 st3
  have hv3 := hv2.steps classes_wf hs2 st3
  have hq3 := st3.represents classes_wf hs2 hq2
  obtain ⟨w', s4, h4, h⟩ := HM.bind_ok_inv h
  obtain ⟨st4, w, tw, ts', rfl, hw, hsub, hhash, hver⟩ := hmk.witness _ _ _ _ _ _ hs3 hq3 h4
  have hs4 : Reachable C H s4 := hs3.trans st4
  rw [run_eq classes_wf _ hs4 hw] at hver
  have hk4 := hk3.steps classes_wf hs3 st4
  have hv4 := hv3.steps classes_wf hs3 st4
  obtain ⟨st5, _, h5⟩ := new_rep classes_wf hs4 Cls.leafPrefix (vs := [.ref w, key, value]) (.ref hw (RepVals.cons hk4 (RepVals.cons hv4 .nil))) rfl
  rw [h] at st5 h5
  exact ⟨kd, vd, tw, ts', (e2 _).mp rfl, (e3 _).mp rfl, (((st1.trans st2).trans st3).trans st4).trans st5, h5 n rfl, hsub, hhash,
    Reachable.checked classes_wf hs4 hw, eval_inited _ _ hver⟩

/-- `InnerPrefix.from_unused_prefix`, when it returns. -/
theorem innerFromUnused_inv {mk : HVal → Bytes → HM HVal} (hmk : Honest C H mk) {k2p : PVal → Py (List Bool)} {s s' : PState} {u n l r : Nat} {p : List Bool}
    {ts tl tr : PTree} (hs : Reachable C H s) (hu : Represents s u (unusedT p ts)) (hl : Represents s l tl) (hr : Represents s r tr)
    (h : innerFromUnused C H g k2p u l r mk s = (.ok n, s')) :
    ∃ a b tw ts', SealHashIs C H tl a ∧ SealHashIs C H tr b ∧ Steps C H s s' ∧ Represents s' n (innerT p tw tl tr) ∧ tw.sub? 0 = some ts' ∧
      ts'.hash C H = ts.hash C H ∧ tw.Checked C ∧ (verifyHash H (H.sha256 (innerTag H g ++ (a ++ b)))).eval C H s'.inited tw = .ok (.ok ()) := by
  unfold innerFromUnused at h
  obtain ⟨q, s1, h1, st1, hq1⟩ := getSeal_unused hs hu
  rw [HM.bind_of_eq h1] at h
  have hs1 : Reachable C H s1 := hs.trans st1
  have hl1 := st1.represents classes_wf hs hl
  have hr1 := st1.represents classes_wf hs hr
  have hu1 := st1.represents classes_wf hs hu
  obtain ⟨a, s2, h2, h⟩ := HM.bind_ok_inv h
  obtain ⟨st2, e2⟩ := sealHash_rep hs1 hl1
  rw [h2] at st2 e2
  have hs2 : Reachable C H s2 := hs1.trans st2
  have hl2 := st2.represents classes_wf hs1 hl1
  have hr2 := st2.represents classes_wf hs1 hr1
  have hu2 := st2.represents classes_wf hs1 hu1
  have hq2 := st2.represents classes_wf hs1 hq1
  obtain ⟨b, s3, h3, h⟩ := HM.bind_ok_inv h
  obtain ⟨st3, e3⟩ := sealHash_rep hs2 hr2
  rw [h3] at st3 e3
  have hs3 : Reachable C H s3 := hs2.trans st3
  have hl3 := st3.represents classes_wf hs2 hl2
  have hr3 := st3.represents classes_wf hs2 hr2
  have hu3 := st3.represents classes_wf hs2 hu2
  have hq3 := st3.represents classes_wf hs2 hq2
  obtain ⟨w', s4, h4, h⟩ := HM.bind_ok_inv h
  obtain ⟨st4, w, tw, ts', rfl, hw, hsub, hhash, hver⟩ := hmk.witness _ _ _ _ _ _ hs3 hq3 h4
  have hs4 : Reachable C H s4 := hs3.trans st4
  rw [run_eq classes_wf _ hs4 hw] at hver
  have hl4 := st4.represents classes_wf hs3 hl3
  have hr4 := st4.represents classes_wf hs3 hr3
  have hu4 := st4.represents classes_wf hs3 hu3
  obtain ⟨p', s5, h5, h⟩ := HM.bind_ok_inv h
  obtain ⟨st5, e5⟩ := getPrefix_rep k2p hs4 hu4
  rw [h5] at st5 e5
  have hp : prefixT k2p (unusedT p ts) = some p := rfl
  have hpp := (e5 p').mp rfl
  rw [hp] at hpp
  cases hpp
  have hs5 : Reachable C H s5 := hs4.trans st5
  obtain ⟨st6, _, h6⟩ := new_rep classes_wf hs5 Cls.innerPrefix (vs := [.prim (.bits p), .ref w, .ref l, .ref r])
    (.prim (.ref (st5.represents classes_wf hs4 hw) (.ref (st5.represents classes_wf hs4 hl4) (.ref (st5.represents classes_wf hs4 hr4) .nil)))) rfl
  rw [h] at st6 h6
  exact ⟨a, b, tw, ts', (e2 _).mp rfl, (e3 _).mp rfl, ((((st1.trans st2).trans st3).trans st4).trans st5).trans st6, h6 n rfl, hsub, hhash,
    Reachable.checked classes_wf hs4 hw, eval_inited _ _ hver⟩

theorem get_consT {tk tv : TVal} {tw : PTree} {c : Nat} : (PTree.node c (.sub tw (consT tk (consT tv .nil)))).get? 1 = some tk ∧
    (PTree.node c (.sub tw (consT tk (consT tv .nil)))).get? 2 = some tv := by
  cases tk <;> cases tv <;> exact ⟨rfl, rfl⟩

theorem verifyHash_cls {t : PTree} {h : Bytes} (hk : t.Checked C) (hv : (verifyHash H h).eval C H ini t = .ok (.ok ())) :
    [Cls.fakeWitness, Cls.btcWitness].any ((C).isInst t.cls) = true := by
  rcases (verifyHash_ok hk).mp hv with h | ⟨h, _⟩
  · rw [h]; rfl
  · rw [h]; rfl

/-- `LeafPrefix.from_unused_prefix` returns. -/
theorem leafFromUnused_total {mk : HVal → Bytes → HM HVal} (hmk : Honest C H mk) {s : PState} {u : Nat} {p : List Bool} {ts : PTree} {key value : HVal}
    {tk tv : TVal} {kd vd : Bytes} (hs : Reachable C H s) (hu : Represents s u (unusedT p ts)) (hk : key.Rep s tk) (hv : value.Rep s tv)
    (hkd : DigestIs C H g.key tk kd) (hvd : DigestIs C H g.value tv vd) (hck : (consT tk (consT tv .nil)).Checked C [g.key, g.value])
    (hret : ∀ s q, Reachable C H s → Represents s q ts → ∃ v s', mk (.ref q) (H.sha256 (leafTag H g ++ (kd ++ vd))) s = (.ok v, s')) :
    ∃ n s', leafFromUnused C H g u key value mk s = (.ok n, s') := by
  obtain ⟨q, s1, h1, st1, hq1⟩ := getSeal_unused hs hu
  have hs1 : Reachable C H s1 := hs.trans st1
  have hk1 := hk.steps classes_wf hs st1
  have hv1 := hv.steps classes_wf hs st1
  obtain ⟨st2, e2⟩ := digestVal_rep (k := g.key) hs1 hk1
  generalize hg2 : (digestVal C H g.key key s1).2 = s2 at st2
  have hs2 : Reachable C H s2 := hs1.trans st2
  have hk2 := hk1.steps classes_wf hs1 st2
  have hv2 := hv1.steps classes_wf hs1 st2
  have hq2 := st2.represents classes_wf hs1 hq1
  obtain ⟨st3, e3⟩ := digestVal_rep (k := g.value) hs2 hv2
  generalize hg3 : (digestVal C H g.value value s2).2 = s3 at st3
  have hs3 : Reachable C H s3 := hs2.trans st3
  have hk3 := hk2.steps classes_wf hs2 st3
  have hv3 := hv2.steps classes_wf hs2 st3
  have hq3 := st3.represents classes_wf hs2 hq2
  obtain ⟨v, s4, h4⟩ := hret s3 q hs3 hq3
  obtain ⟨st4, w, tw, ts', rfl, hw, hsub, hhash, hver⟩ := hmk.witness _ _ _ _ _ _ hs3 hq3 h4
  have hs4 : Reachable C H s4 := hs3.trans st4
  rw [run_eq classes_wf _ hs4 hw] at hver
  have hk4 := hk3.steps classes_wf hs3 st4
  have hv4 := hv3.steps classes_wf hs3 st4
  obtain ⟨st5, h5, _⟩ := new_rep classes_wf hs4 Cls.leafPrefix (vs := [.ref w, key, value]) (.ref hw (RepVals.cons hk4 (RepVals.cons hv4 .nil))) rfl
  have hwc := Reachable.checked classes_wf hs4 hw
  obtain ⟨n, hn⟩ := h5 ⟨verifyHash_cls hwc hver, hwc, hck⟩
  refine ⟨n, (Prf.new C Cls.leafPrefix [.ref w, key, value] s4).2, ?_⟩
  have h4' : mk (.ref q) (H.tagged (leafTag H g) (kd ++ vd)) s3 = (.ok (.ref w), s4) := h4
  unfold leafFromUnused
  rw [HM.bind_of_eq h1, HM.bind_of_eq (Prod.ext ((e2 _).mpr hkd) hg2), HM.bind_of_eq (Prod.ext ((e3 _).mpr hvd) hg3), HM.bind_of_eq h4']
  exact Prod.ext hn rfl

/-- `InnerPrefix.from_unused_prefix` returns. -/
theorem innerFromUnused_total {mk : HVal → Bytes → HM HVal} (hmk : Honest C H mk) {k2p : PVal → Py (List Bool)} {s : PState} {u l r : Nat} {p : List Bool}
    {ts tl tr : PTree} {a b : Bytes} (hs : Reachable C H s) (hu : Represents s u (unusedT p ts)) (hl : Represents s l tl) (hr : Represents s r tr)
    (nl : IsNode tl) (nr : IsNode tr) (ha : SealHashIs C H tl a) (hb : SealHashIs C H tr b)
    (hret : ∀ s q, Reachable C H s → Represents s q ts → ∃ v s', mk (.ref q) (H.sha256 (innerTag H g ++ (a ++ b))) s = (.ok v, s')) :
    ∃ n s', innerFromUnused C H g k2p u l r mk s = (.ok n, s') := by
  obtain ⟨q, s1, h1, st1, hq1⟩ := getSeal_unused hs hu
  have hs1 : Reachable C H s1 := hs.trans st1
  have hl1 := st1.represents classes_wf hs hl
  have hr1 := st1.represents classes_wf hs hr
  have hu1 := st1.represents classes_wf hs hu
  obtain ⟨st2, e2⟩ := sealHash_rep hs1 hl1
  generalize hg2 : (sealHash.runM C H l s1).2 = s2 at st2
  have hs2 : Reachable C H s2 := hs1.trans st2
  have hl2 := st2.represents classes_wf hs1 hl1
  have hr2 := st2.represents classes_wf hs1 hr1
  have hu2 := st2.represents classes_wf hs1 hu1
  have hq2 := st2.represents classes_wf hs1 hq1
  obtain ⟨st3, e3⟩ := sealHash_rep hs2 hr2
  generalize hg3 : (sealHash.runM C H r s2).2 = s3 at st3
  have hs3 : Reachable C H s3 := hs2.trans st3
  have hl3 := st3.represents classes_wf hs2 hl2
  have hr3 := st3.represents classes_wf hs2 hr2
  have hu3 := st3.represents classes_wf hs2 hu2
  have hq3 := st3.represents classes_wf hs2 hq2
  obtain ⟨v, s4, h4⟩ := hret s3 q hs3 hq3
  obtain ⟨st4, w, tw, ts', rfl, hw, hsub, hhash, hver⟩ := hmk.witness _ _ _ _ _ _ hs3 hq3 h4
  have h4' : mk (.ref q) (H.tagged (innerTag H g) (a ++ b)) s3 = (.ok (.ref w), s4) := h4
  have hs4 : Reachable C H s4 := hs3.trans st4
  rw [run_eq classes_wf _ hs4 hw] at hver
  have hl4 := st4.represents classes_wf hs3 hl3
  have hr4 := st4.represents classes_wf hs3 hr3
  have hu4 := st4.represents classes_wf hs3 hu3
  obtain ⟨st5, e5⟩ := getPrefix_rep k2p hs4 hu4
  generalize hg5 : (getPrefix C k2p u s4).2 = s5 at st5
  have hs5 : Reachable C H s5 := hs4.trans st5
  have hw5 := st5.represents classes_wf hs4 hw
  have hl5 := st5.represents classes_wf hs4 hl4
  have hr5 := st5.represents classes_wf hs4 hr4
  obtain ⟨_, h6, _⟩ := new_rep classes_wf hs5 Cls.innerPrefix (vs := [.prim (.bits p), .ref w, .ref l, .ref r])
    (.prim (.ref hw5 (.ref hl5 (.ref hr5 .nil)))) rfl
  obtain ⟨n, hn⟩ := h6 (by
    have kids : ∀ t : PTree, IsNode t → ∀ us, (C Cls.guMap).variants = some us → us.any ((C).isInst t.cls) = true := by
      intro t ht us hu
      cases (Option.some.inj hu : [Cls.unusedPrefix, Cls.leafPrefix, Cls.innerPrefix] = us)
      rcases ht with h | h | h <;> rw [h] <;> rfl
    have ck := fun {r t} => Reachable.checked classes_wf hs5 (r := r) (t := t)
    exact ⟨rfl, ⟨verifyHash_cls (ck hw5) hver, ck hw5, ⟨kids _ nl, ck hl5, ⟨kids _ nr, ck hr5, trivial⟩⟩⟩⟩)
  refine ⟨n, (Prf.new C Cls.innerPrefix [.prim (.bits p), .ref w, .ref l, .ref r] s5).2, ?_⟩
  unfold innerFromUnused
  rw [HM.bind_of_eq h1, HM.bind_of_eq (Prod.ext ((e2 _).mpr ha) hg2), HM.bind_of_eq (Prod.ext ((e3 _).mpr hb) hg3), HM.bind_of_eq h4',
    HM.bind_of_eq (Prod.ext ((e5 p).mpr rfl) hg5)]
  exact Prod.ext hn rfl
end
end GuMap
end Verif
