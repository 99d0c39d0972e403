import Verif.Lemmas.ClassDeclInv
import Verif.Props.Serialize
import Verif.Model.Sha256
/-!
# C138, C139: proof classes as they are declared
-/
namespace Verif.Decl

variable {S V : Type}

/-! ## C138: variants -/

/-- C138, the claim: a class that was made a variant of the class it is derived from is written with a number that is read as the same class,
whatever else the program does, before or after. -/
def C138_statement : Prop :=
  ∀ (S V : Type) (H : HashFns) (check : S → V → Py Unit) (ops more : List (Op S V)) (p c : Nat),
    (declare H p c (run H check ops)).1 = .ok () → Sub (run H check ops) c p →
    ∃ i, number (run H check (ops ++ .declare p c :: more)) c = .ok i ∧ readClass (run H check (ops ++ .declare p c :: more)) p i = .ok c

/-- Three classes: `A(VarProof)`, class 2; its variant `B(A)`, class 3; and `C(B)`, class 4. -/
def nested : List (Op Unit Unit) :=
  [.mkClass 1 { tag := some [1] }, .mkClass 2 { subtag := some [2] }, .declare 2 3, .mkClass 3 { subtag := some [3] }]

/-- C138 is false: a variant that is derived from another variant is read back as the latter. -/
theorem C138_refuted : ¬ C138_statement := by
  intro h
  obtain ⟨i, h1, h2⟩ := h Unit Unit realHash (fun _ _ => .ok ()) nested [] 2 4 (by rfl)
    (.up (k := { base := some 3, subtag := some [3] }) (by rfl) rfl (.up (b := 2) (by rfl) rfl (.refl (by rfl))))
  have e1 : number (run realHash (fun _ _ => .ok ()) (nested ++ [.declare 2 4])) 4 = .ok 0 := by rfl
  have e2 : readClass (run realHash (fun _ _ => .ok ()) (nested ++ [.declare 2 4])) 2 0 = .ok 3 := by rfl
  rw [e1] at h1
  cases h1
  rw [e2] at h2
  cases h2

section
variable (H : HashFns) (check : S → V → Py Unit)

/-- C138, the number: that of the first class, in the list of variants that the object's class has or inherits, of which the object is an
instance. -/
theorem C138_number_partial (ops : List (Op S V)) (c i : Nat) :
    number (run H check ops) c = .ok i ↔
      ∃ a r l u, Nearest (run H check ops) (·.union) c a r ∧ (run H check ops).lists[r]? = some l ∧ l[i]? = some u ∧ Sub (run H check ops) c u ∧
        ∀ j < i, ∀ u', l[j]? = some u' → ¬ Sub (run H check ops) c u' := by
  have wf := run_wf H check ops
  constructor
  · intro h
    unfold number at h
    split at h
    · cases h
    · rename_i r hr
      obtain ⟨a, ha⟩ := (look_iff wf _ c r).mp hr
      obtain ⟨k, hk, hu⟩ := ha.set
      have hlt := (union_inv H check ops a k r hk hu).1
      rw [List.getElem?_eq_getElem hlt] at h
      dsimp only [Option.getD_some] at h
      split at h
      · rename_i j hj
        cases h
        rw [List.findIdx?_eq_some_iff_getElem] at hj
        obtain ⟨h1, h2, h3⟩ := hj
        refine ⟨a, r, _, _, ha, List.getElem?_eq_getElem hlt, List.getElem?_eq_getElem h1, (sub_iff wf _ _).mp h2, ?_⟩
        intro j hj u' hu' hs
        have h4 := h3 j hj
        obtain ⟨h5, h6⟩ := List.getElem?_eq_some_iff.mp hu'
        rw [h6] at h4
        exact h4 ((sub_iff wf _ _).mpr hs)
      · cases h
  · rintro ⟨a, r, l, u, ha, hl, hi, hs, hj⟩
    unfold number
    rw [(look_iff wf _ c r).mpr ⟨a, ha⟩]
    dsimp only
    rw [hl]
    dsimp only [Option.getD_some]
    have : l.findIdx? (fun u => isSub (run H check ops) c u) = some i := by
      rw [List.findIdx?_eq_some_iff_getElem]
      obtain ⟨h1, h2⟩ := List.getElem?_eq_some_iff.mp hi
      refine ⟨h1, ?_, ?_⟩
      · rw [h2]; exact (sub_iff wf _ _).mpr hs
      · intro j hji
        intro h
        exact hj j hji _ (List.getElem?_eq_getElem (by omega)) ((sub_iff wf _ _).mp h)
    rw [this]

/-- C138, what comes back, if writer and reader use the same list of variants: a class of which the object was an instance; its own class exactly
if that is in the list and nothing it is derived from comes before it. -/
theorem C138_back_partial (ops : List (Op S V)) {p c i a b r : Nat} (hc : Nearest (run H check ops) (·.union) c a r)
    (hp : Nearest (run H check ops) (·.union) p b r) (h : number (run H check ops) c = .ok i) :
    ∃ u, readClass (run H check ops) p i = .ok u ∧ Sub (run H check ops) c u ∧
      (u = c ↔ ∃ j, readClass (run H check ops) p j = .ok c ∧
        ∀ j' < j, ∀ u', readClass (run H check ops) p j' = .ok u' → Sub (run H check ops) c u' → u' = c) := by
  have wf := run_wf H check ops
  obtain ⟨a', r', l, u, hc', hl, hi, hs, hj⟩ := (C138_number_partial H check ops c i).mp h
  have e1 := (look_iff wf _ c r).mpr ⟨a, hc⟩
  have e2 := (look_iff wf _ c r').mpr ⟨a', hc'⟩
  rw [e1] at e2
  cases e2
  have e3 := (look_iff wf _ p r).mpr ⟨b, hp⟩
  have hread : ∀ j v, readClass (run H check ops) p j = .ok v ↔ l[j]? = some v := by
    intro j v
    unfold readClass
    rw [e3]
    dsimp only
    rw [hl]
    dsimp only [Option.getD_some]
    cases l[j]? with
    | none => simp
    | some x => simp
  refine ⟨u, (hread i u).mpr hi, hs, ?_, ?_⟩
  · rintro rfl
    exact ⟨i, (hread i u).mpr hi, fun j' hj' u' hu' hsu => absurd hsu (hj j' hj' u' ((hread j' u').mp hu'))⟩
  · rintro ⟨j, hjc, hall⟩
    rw [hread] at hjc
    have hcc : Sub (run H check ops) c c := by
      obtain ⟨k, hk⟩ : ∃ k, (run H check ops).classes[c]? = some k := by
        cases hs with
        | refl h => exact ⟨_, h⟩
        | up h => exact ⟨_, h⟩
      exact .refl hk
    rcases Nat.lt_trichotomy i j with hlt | rfl | hgt
    · exact hall i hlt u ((hread i u).mpr hi) hs
    · rw [hi] at hjc; cases hjc; rfl
    · exact absurd hcc (hj j hgt c hjc)

theorem lists_step (w : World S) (op : Op S V) {r : Nat} {l : List Nat} (hl : w.lists[r]? = some l) :
    ∃ l', (step H check w op).lists[r]? = some l' ∧ ∀ u ∈ l, u ∈ l' := by
  cases op with
  | mkClass base b =>
    change ∃ l', (mkClass base b w).2.lists[r]? = some l' ∧ _
    rw [mkClass_lists]
    exact ⟨l, hl, fun _ h => h⟩
  | declare p s =>
    change ∃ l', (declare H p s w).2.lists[r]? = some l' ∧ _
    have h0 : (unionOf p w).2.lists[r]? = some l := by
      rcases unionOf_lists w p with h | ⟨h, _⟩ <;> rw [h]
      · exact hl
      · rw [List.getElem?_append_left (List.getElem?_eq_some_iff.mp hl).1]; exact hl
    rcases declare_cases H p s w with ⟨e, hd⟩ | ⟨e, hd⟩ | ⟨t, v, _, _, _, _, _, _, hd⟩ <;> rw [hd]
    · exact ⟨l, hl, fun _ h => h⟩
    · exact ⟨l, h0, fun _ h => h⟩
    · refine ⟨_, getElem?_modify_of h0, ?_⟩
      intro u hu
      split
      · exact List.mem_append_left _ hu
      · exact hu
  | new c kw =>
    change ∃ l', (new check c kw w).2.lists[r]? = some l' ∧ _
    rcases new_world check c kw w with h | ⟨_, h⟩ <;> rw [h]
    · exact ⟨l, hl, fun _ h => h⟩
    · rw [byNameOf_lists]; exact ⟨l, hl, fun _ h => h⟩

theorem lists_run (ops more : List (Op S V)) {r : Nat} {l : List Nat} (hl : (run H check ops).lists[r]? = some l) :
    ∃ l', (run H check (ops ++ more)).lists[r]? = some l' ∧ ∀ u ∈ l, u ∈ l' := by
  induction more using List.reverseRecOn with
  | nil => rw [List.append_nil]; exact ⟨l, hl, fun _ h => h⟩
  | append_singleton more op ih =>
    obtain ⟨l1, h1, h2⟩ := ih
    rw [← List.append_assoc, run_append]
    obtain ⟨l2, h3, h4⟩ := lists_step H check _ op h1
    exact ⟨l2, h3, fun u hu => h4 u (h2 u hu)⟩

theorem unionOf_lt (ops : List (Op S V)) (p : Nat) : (unionOf p (run H check ops)).1 < (unionOf p (run H check ops)).2.lists.length := by
  unfold unionOf
  split
  · rename_i r hr
    obtain ⟨a, ha⟩ := (look_iff (run_wf H check ops) _ p r).mp hr
    obtain ⟨k, hk, hu⟩ := ha.set
    exact (union_inv H check ops a k r hk hu).1
  · simp

/-- A successful declaration, with all it does. -/
theorem declare_ok {w : World S} (wf : WF w) {p c : Nat} (hlt : (unionOf p w).1 < (unionOf p w).2.lists.length) (h : (declare H p c w).1 = .ok ()) :
    ∃ t u, c < w.classes.length ∧ p < w.classes.length ∧ look w (·.subtag) c = some t ∧ look w (·.tag) p = some u ∧
      (∃ k, (declare H p c w).2.classes[c]? = some k ∧ k.tag = some (H.derive t u)) ∧
      ∃ r l, look (declare H p c w).2 (·.union) p = some r ∧ (declare H p c w).2.lists[r]? = some l ∧ c ∈ l := by
  rcases declare_cases H p c w with ⟨e, hd⟩ | ⟨e, hd⟩ | ⟨t, u, hp, hc, _, _, ht, hu, hd⟩
  · rw [hd] at h; cases h
  · rw [hd] at h; cases h
  · have wf1 := unionOf_wf wf p
    have ht' : look w (·.subtag) c = some t := by
      rw [← (unionOf_ext w p).subtag wf wf1 hc]; exact ht
    have hu' : look w (·.tag) p = some u := by
      rw [← hu]
      symm
      refine look_same wf wf1 (fun k => k.tag) ?_ p hp
      intro c' k hk
      obtain ⟨k', hk', hb, _⟩ := unionOf_ext w p c' k hk
      obtain ⟨k0, hk0, _, ht0, _⟩ := unionOf_inv hk'
      rw [hk] at hk0
      cases hk0
      exact ⟨k', hk', hb, ht0⟩
    have e2 := tag_ext (unionOf p w).2 c (H.derive t u) ((unionOf p w).2.lists.modify (unionOf p w).1 (· ++ [c]))
    have hx := unionOf_fst wf hp
    have wf2 := declare_wf H p c wf
    rw [hd] at wf2 ⊢
    refine ⟨t, u, hc, hp, ht', hu', ?_, (unionOf p w).1, ?_⟩
    · have hlt : c < (unionOf p w).2.classes.length := Nat.lt_of_lt_of_le hc (unionOf_ext w p).length
      refine ⟨_, getElem?_modify_of (List.getElem?_eq_getElem hlt), ?_⟩
      rw [if_pos rfl]
    · refine ⟨_, e2.union wf1 wf2 hx, getElem?_modify_of (List.getElem?_eq_getElem hlt), ?_⟩
      rw [if_pos rfl]
      simp

/-- C138, where the claim holds: if the class is derived directly from the one it is made a variant of, has no variants of its own, and nothing that
it is derived from is made a variant of anything, in the whole program.  (So it is for all classes of the repository.) -/
theorem C138_flat_partial (ops more : List (Op S V)) {p c : Nat} {k : Cls S} (h : (declare H p c (run H check ops)).1 = .ok ())
    (hk : (run H check ops).classes[c]? = some k) (hb : k.base = some p)
    (hown : ∀ s, Op.declare c s ∉ ops ++ .declare p c :: more)
    (habove : ∀ a, Sub (run H check ops) c a → a ≠ c → ∀ q, Op.declare q a ∉ ops ++ .declare p c :: more) :
    ∃ i, number (run H check (ops ++ .declare p c :: more)) c = .ok i ∧ readClass (run H check (ops ++ .declare p c :: more)) p i = .ok c := by
  have wf0 := run_wf H check ops
  obtain ⟨t, u, hc, hp, _, _, _, r, l, hr, hl, hcl⟩ := declare_ok H wf0 (unionOf_lt H check ops p) h
  have e1 : (declare H p c (run H check ops)).2 = run H check (ops ++ [.declare p c]) := (run_append H check ops (.declare p c)).symm
  rw [e1] at hr hl
  have e2 : ops ++ .declare p c :: more = (ops ++ [.declare p c]) ++ more := by simp
  rw [e2] at hown habove ⊢
  have ext := run_ext H check (ops ++ [.declare p c]) more
  have ext0 : Ext (run H check ops) (run H check ((ops ++ [.declare p c]) ++ more)) := by
    rw [List.append_assoc]; exact run_ext H check ops _
  have wf1 := run_wf H check (ops ++ [.declare p c])
  have wf := run_wf H check ((ops ++ [.declare p c]) ++ more)
  have hr' := ext.union wf1 wf hr
  obtain ⟨l', hl', hsub⟩ := lists_run H check (ops ++ [.declare p c]) more hl
  have hcl' := hsub c hcl
  obtain ⟨k', hk', hb', _⟩ := ext0 c k hk
  have hun : k'.union = none := by
    cases hx : k'.union with
    | none => rfl
    | some x =>
      obtain ⟨_, s, hs⟩ := union_inv H check _ c k' x hk' hx
      exact absurd hs (hown s)
  have hrc : look (run H check ((ops ++ [.declare p c]) ++ more)) (·.union) c = some r := by
    rw [look_eq wf _ hk', hun, hb', hb]
    exact hr'
  obtain ⟨a, ha⟩ := (look_iff wf _ c r).mp hrc
  obtain ⟨b, hb2⟩ := (look_iff wf _ p r).mp hr'
  -- the first class of the list of which `c` is a subclass
  have hex : ∃ i, l'.findIdx? (fun u => isSub (run H check ((ops ++ [.declare p c]) ++ more)) c u) = some i := by
    cases hf : l'.findIdx? (fun u => isSub (run H check ((ops ++ [.declare p c]) ++ more)) c u) with
    | some i => exact ⟨i, rfl⟩
    | none =>
      rw [List.findIdx?_eq_none_iff] at hf
      have := hf c hcl'
      rw [(sub_iff wf c c).mpr (.refl hk')] at this
      cases this
  obtain ⟨i, hi⟩ := hex
  have hnum : number (run H check ((ops ++ [.declare p c]) ++ more)) c = .ok i := by
    unfold number
    rw [hrc]
    dsimp only
    rw [hl']
    dsimp only [Option.getD_some]
    rw [hi]
  obtain ⟨u, hu1, hu2, _⟩ := C138_back_partial H check _ ha hb2 hnum
  refine ⟨i, hnum, ?_⟩
  rw [hu1]
  congr 1
  refine Classical.byContradiction fun hne => ?_
  have hmem : u ∈ l' := by
    unfold readClass at hu1
    rw [hr'] at hu1
    dsimp only at hu1
    rw [hl'] at hu1
    dsimp only [Option.getD_some] at hu1
    cases hx : l'[i]? with
    | none => rw [hx] at hu1; cases hu1
    | some x => rw [hx] at hu1; cases hu1; exact List.mem_of_getElem? hx
  obtain ⟨_, q, hq, _⟩ := entry_inv H check _ r l' u hl' hmem
  refine habove u ?_ hne q hq
  rw [← sub_iff wf0]
  rw [← sub_iff wf] at hu2
  unfold isSub at hu2 ⊢
  rw [← ext0.mro wf0 wf hc]
  exact hu2

theorem tag_step {w : World S} (wf : WF w) (op : Op S V) {c : Nat} {k : Cls S} {t : Bytes} (hk : w.classes[c]? = some k) (ht : k.tag = some t)
    (hno : ∀ q, op ≠ .declare q c) : ∃ k', (step H check w op).classes[c]? = some k' ∧ k'.tag = some t := by
  obtain ⟨k', hk', _⟩ := step_ext H check wf op c k hk
  refine ⟨k', hk', ?_⟩
  cases op with
  | mkClass base b =>
    rcases mkClass_inv hk' with h | ⟨h, _⟩
    · rw [hk] at h; cases h; exact ht
    · have := (List.getElem?_eq_some_iff.mp hk).1
      omega
  | declare p s =>
    obtain ⟨k0, h0, _, _, htag⟩ := declare_inv H hk'
    rw [hk] at h0
    cases h0
    rw [htag (fun h => hno p (by rw [h]))]
    exact ht
  | new p kw =>
    change (new check p kw w).2.classes[c]? = some k' at hk'
    rcases new_world check p kw w with h | ⟨_, h⟩ <;> rw [h] at hk'
    · rw [hk] at hk'; cases hk'; exact ht
    · obtain ⟨k0, h0, _, htag, _⟩ := byNameOf_inv hk'
      rw [hk] at h0
      cases h0
      rw [htag]; exact ht

theorem tag_run (ops more : List (Op S V)) {c : Nat} {k : Cls S} {t : Bytes} (hk : (run H check ops).classes[c]? = some k) (ht : k.tag = some t)
    (hno : ∀ q, Op.declare q c ∉ more) : ∃ k', (run H check (ops ++ more)).classes[c]? = some k' ∧ k'.tag = some t := by
  induction more using List.reverseRecOn with
  | nil => rw [List.append_nil]; exact ⟨k, hk, ht⟩
  | append_singleton more op ih =>
    obtain ⟨k', h1, h2⟩ := ih (fun q h => hno q (List.mem_append_left _ h))
    rw [← List.append_assoc, run_append]
    exact tag_step H check (run_wf H check _) op h1 h2 (fun q h => hno q (by simp [h]))

/-- C138, tags: the tag of a variant is derived from its own `SUB_HASHTAG`, or that of the nearest ancestor that has one, and the tag of the class it is
made a variant of; this stays so as long as it is not made a variant again. -/
theorem C138_tag_partial (ops more : List (Op S V)) {p c : Nat} (h : (declare H p c (run H check ops)).1 = .ok ()) (hno : ∀ q, Op.declare q c ∉ more) :
    ∃ t u a b, Nearest (run H check ops) (·.subtag) c a t ∧ Nearest (run H check ops) (·.tag) p b u ∧
      Nearest (run H check (ops ++ .declare p c :: more)) (·.tag) c c (H.derive t u) := by
  have wf0 := run_wf H check ops
  obtain ⟨t, u, _, _, ht, hu, ⟨k, hk, hkt⟩, _⟩ := declare_ok H wf0 (unionOf_lt H check ops p) h
  obtain ⟨a, ha⟩ := (look_iff wf0 _ c t).mp ht
  obtain ⟨b, hb⟩ := (look_iff wf0 _ p u).mp hu
  have e1 : (declare H p c (run H check ops)).2 = run H check (ops ++ [.declare p c]) := (run_append H check ops (.declare p c)).symm
  rw [e1] at hk
  obtain ⟨k', h1, h2⟩ := tag_run H check _ more hk hkt hno
  refine ⟨t, u, a, b, ha, hb, ?_⟩
  have e2 : ops ++ .declare p c :: more = (ops ++ [.declare p c]) ++ more := by simp
  rw [e2]
  exact .own h1 h2

/-- C138, tags of two variants in one program: they are the same if both, `SUB_HASHTAG` and tag of the parent class, are the same, and, unless SHA-256 cut
to 16 bytes collides, only then. -/
theorem C138_apart_partial (ops mid more : List (Op S V)) {p c q d : Nat}
    (hc : (declare H p c (run H check ops)).1 = .ok ())
    (hd : (declare H q d (run H check (ops ++ .declare p c :: mid))).1 = .ok ())
    (hcno : ∀ x, Op.declare x c ∉ mid ++ .declare q d :: more) (hdno : ∀ x, Op.declare x d ∉ more)
    {t t' u u' : Bytes} {a a' b b' : Nat} (ht : Nearest (run H check ops) (·.subtag) c a t) (hu : Nearest (run H check ops) (·.tag) p b u)
    (ht' : Nearest (run H check (ops ++ .declare p c :: mid)) (·.subtag) d a' t')
    (hu' : Nearest (run H check (ops ++ .declare p c :: mid)) (·.tag) q b' u')
    (hlen : t.length = 16) (hlen' : t'.length = 16) :
    ∃ x y, Nearest (run H check (ops ++ .declare p c :: (mid ++ .declare q d :: more))) (·.tag) c c x ∧
      Nearest (run H check (ops ++ .declare p c :: (mid ++ .declare q d :: more))) (·.tag) d d y ∧
      (t = t' ∧ u = u' → x = y) ∧
      (x = y → (t = t' ∧ u = u') ∨ CollidesOn (fun m => (H.sha256 m).take 16) (derivationTag ++ (t ++ u)) (derivationTag ++ (t' ++ u'))) := by
  obtain ⟨t1, u1, a1, b1, h1, h2, h3⟩ := C138_tag_partial H check ops (mid ++ .declare q d :: more) hc hcno
  obtain ⟨t2, u2, a2, b2, h4, h5, h6⟩ := C138_tag_partial H check (ops ++ .declare p c :: mid) more hd hdno
  have e : (ops ++ .declare p c :: mid) ++ .declare q d :: more = ops ++ .declare p c :: (mid ++ .declare q d :: more) := by simp
  rw [e] at h6
  have wf := run_wf H check ops
  have wf' := run_wf H check (ops ++ .declare p c :: mid)
  have := ((look_iff wf _ _ _).mpr ⟨_, h1⟩).symm.trans ((look_iff wf _ _ _).mpr ⟨_, ht⟩)
  cases this
  have := ((look_iff wf _ _ _).mpr ⟨_, h2⟩).symm.trans ((look_iff wf _ _ _).mpr ⟨_, hu⟩)
  cases this
  have := ((look_iff wf' _ _ _).mpr ⟨_, h4⟩).symm.trans ((look_iff wf' _ _ _).mpr ⟨_, ht'⟩)
  cases this
  have := ((look_iff wf' _ _ _).mpr ⟨_, h5⟩).symm.trans ((look_iff wf' _ _ _).mpr ⟨_, hu'⟩)
  cases this
  refine ⟨_, _, h3, h6, ?_, ?_⟩
  · rintro ⟨rfl, rfl⟩; rfl
  · intro hxy
    exact C08_derive_separation H hlen hlen' hxy

end

/-- The hypotheses of `C138_flat_partial` and `C138_apart_partial` are met by `A(VarProof)` with the variants `B(A)` and `C(A)`. -/
def flat : List (Op Unit Unit) :=
  [.mkClass 1 { tag := some (List.replicate 16 1) }, .mkClass 2 { subtag := some (List.replicate 16 2) }, .declare 2 3,
   .mkClass 2 { subtag := some (List.replicate 16 3) }]

example : (declare toyHash 2 4 (run toyHash (fun _ _ => .ok ()) flat)).1 = .ok () := by decide +kernel
example : (run toyHash (fun _ _ => .ok ()) flat).classes[4]? = some { base := some 2, subtag := some (List.replicate 16 3) } := by decide +kernel
example : number (run toyHash (fun _ _ => .ok ()) (flat ++ [.declare 2 4])) 4 = .ok 1 := by decide +kernel
example : readClass (run toyHash (fun _ _ => .ok ()) (flat ++ [.declare 2 4])) 2 1 = .ok 4 := by decide +kernel
/-- A class that has its variants derived from one of the variants puts them into the list of the latter's class. -/
example : readClass (run toyHash (fun _ _ => .ok ()) (nested ++ [.declare 3 4])) 2 1 = .ok 4 := by decide +kernel
/-- A variant without `SUB_HASHTAG` of its own has the tag of the variant from which it is derived. -/
example : let w := run toyHash (fun _ _ => .ok ()) ([.mkClass 1 { tag := some [1] }, .mkClass 2 { subtag := some [2] }, .declare 2 3, .mkClass 3 {}, .declare 2 4] : List (Op Unit Unit))
    look w (·.tag) 4 = look w (·.tag) 3 := by decide +kernel

/-! ## C139: attributes -/

/-- C139, the claim: a proof class, given an acceptable value for each attribute that it declares, makes an object that has these attributes, whatever the
program did before. -/
def C139_statement : Prop :=
  ∀ (S V : Type) (H : HashFns) (check : S → V → Py Unit) (ops : List (Op S V)) (c : Nat) (kw : List (String × V)) (l : List (String × S)),
    Declares (run H check ops) c l → (∀ n s, Last l n s → ∃ v, kw.lookup n = some v ∧ check s v = .ok ()) →
    ∃ o, (new check c kw (run H check ops)).1 = .ok o ∧
      ∀ n ∈ l.map (·.1), ∃ v, kw.lookup n = some v ∧ getAttr (new check c kw (run H check ops)).2 o n = .ok v

/-- A class with one attribute; and, before its first object, the expression `Proof()`. -/
def tooEarly : List (Op Unit Nat) := [.mkClass 0 { attrs := some [("n", ())] }, .new 0 []]

/-- C139 is false: if `Proof()`, or any class that the class is derived from, was instantiated first, then objects of the class have the attributes of the
latter, here none. -/
theorem C139_refuted : ¬ C139_statement := by
  intro h
  obtain ⟨o, h1, h2⟩ := h Unit Nat realHash (fun _ _ => .ok ()) tooEarly 2 [("n", 7)] [("n", ())] ⟨2, .own (by rfl) rfl⟩ (by
    rintro n s ⟨l1, l2, he, _⟩
    refine ⟨7, ?_, rfl⟩
    cases l1 with
    | nil => cases he; rfl
    | cons x l1 => cases l1 <;> cases he)
  have e : (new (fun _ _ => .ok ()) 2 [("n", 7)] (run realHash (fun _ _ => .ok ()) tooEarly)).1 = .ok (⟨2, []⟩ : Inst Nat) := by rfl
  rw [e] at h1
  cases h1
  obtain ⟨v, hv, hg⟩ := h2 "n" (by simp)
  have e2 : getAttr (new (fun _ _ => .ok ()) 2 [("n", 7)] (run realHash (fun (_ : Unit) (_ : Nat) => (.ok () : Py Unit)) tooEarly)).2 (⟨2, []⟩ : Inst Nat) "n" = .error .attributeError := by rfl
  rw [e2] at hg
  cases hg

/-- The class whose declared attributes objects of class `c` will have: the nearest, from `c` upwards, that has been instantiated, and `c` if there is none. -/
def Governs (w : World S) (c u : Nat) : Prop := (∃ d, Nearest w (·.byName) c u d) ∨ (Unset w (·.byName) c ∧ u = c)

section
variable (H : HashFns) (check : S → V → Py Unit)

/-- What `new` takes the attributes from. -/
theorem byNameOf_fst (ops : List (Op S V)) {c u : Nat} {l : List (String × S)} (hg : Governs (run H check ops) c u) (hl : Declares (run H check ops) u l) :
    (byNameOf c (run H check ops)).1 = dictOf l := by
  have wf := run_wf H check ops
  obtain ⟨a, ha⟩ := hl
  have hla := (look_iff wf _ u l).mpr ⟨a, ha⟩
  unfold byNameOf
  rcases hg with ⟨d, hd⟩ | ⟨hn, rfl⟩
  · rw [(look_iff wf _ c d).mpr ⟨u, hd⟩]
    obtain ⟨k, hk, hk'⟩ := hd.set
    have := (byName_inv H check ops u k d hk hk').1
    rw [hla] at this
    exact this
  · rw [(unset_iff wf _ u).mpr hn]
    dsimp only
    rw [hla]
    rfl

theorem byNameOf_look {w : World S} (wf : WF w) {c : Nat} (hc : c < w.classes.length) : look (byNameOf c w).2 (·.byName) c = some (byNameOf c w).1 := by
  have wf' := byNameOf_wf wf c
  revert wf'
  unfold byNameOf
  split
  · rename_i h; intro _; exact h
  · intro wf'
    rw [look_eq wf' _ (getElem?_modify_of (List.getElem?_eq_getElem hc))]
    simp

/-- C139, what happens: with `u` the class that governs, the object is made exactly if there are acceptable values for all that `u` declares, and has exactly these
attributes. -/
theorem C139_exact_partial (ops : List (Op S V)) {c u : Nat} {l : List (String × S)} (hc : c < (run H check ops).classes.length)
    (hg : Governs (run H check ops) c u) (hl : Declares (run H check ops) u l) (kw : List (String × V)) :
    ((∃ o, (new check c kw (run H check ops)).1 = .ok o) ↔ ∀ n s, Last l n s → ∃ v, kw.lookup n = some v ∧ check s v = .ok ()) ∧
    ∀ o, (new check c kw (run H check ops)).1 = .ok o → o.cls = c ∧ ∀ n,
      (n ∈ l.map (·.1) → ∃ v, kw.lookup n = some v ∧ getAttr (new check c kw (run H check ops)).2 o n = .ok v) ∧
      (n ∉ l.map (·.1) → getAttr (new check c kw (run H check ops)).2 o n = .error .attributeError) := by
  have wf := run_wf H check ops
  have hd := byNameOf_fst H check ops hg hl
  have hlk := byNameOf_look wf hc
  have e : new check c kw (run H check ops) = ((fill check kw (dictOf l)).map (fun x => ⟨c, x⟩), (byNameOf c (run H check ops)).2) := by
    unfold new
    rw [if_pos hc]
    dsimp only
    rw [hd]
  rw [hd] at hlk
  rw [e]
  dsimp only
  constructor
  · constructor
    · rintro ⟨o, ho⟩ n s hn
      cases hf : fill check kw (dictOf l) with
      | error x => rw [hf] at ho; cases ho
      | ok x => exact (fill_inv hf).1 n s ((dictOf_mem l n s).mpr hn)
    · intro h
      obtain ⟨x, hx⟩ := fill_ok (check := check) (kw := kw) (d := dictOf l) (fun n s hm => h n s ((dictOf_mem l n s).mp hm))
      rw [hx]
      exact ⟨_, rfl⟩
  · intro o ho
    cases hf : fill check kw (dictOf l) with
    | error x => rw [hf] at ho; cases ho
    | ok x =>
      rw [hf] at ho
      cases ho
      refine ⟨rfl, fun n => ⟨?_, ?_⟩⟩
      · intro hn
        have hn' := (dictOf_names l n).mpr hn
        obtain ⟨⟨m, s⟩, hm, rfl⟩ := List.mem_map.mp hn'
        obtain ⟨v, hv, _⟩ := (fill_inv hf).1 m s hm
        refine ⟨v, hv, ?_⟩
        unfold getAttr
        dsimp only
        rw [(fill_inv hf).2.2 m hn', hv]
      · intro hn
        have hn' : n ∉ (dictOf l).map (·.1) := fun h => hn ((dictOf_names l n).mp h)
        have : x.lookup n = none := lookup_none (by rw [(fill_inv hf).2.1]; exact hn')
        unfold getAttr
        dsimp only
        rw [this]
        dsimp only
        rw [hlk]
        dsimp only
        rw [if_neg]
        rw [List.any_eq_true]
        rintro ⟨y, hy, hyn⟩
        exact hn' (List.mem_map.mpr ⟨y, hy, by simpa using hyn⟩)

/-- C139: there is always a class that governs, `c` itself or one from which it is derived, and, unless it is `c`, it was instantiated before. -/
theorem C139_governs_partial (ops : List (Op S V)) {c : Nat} (hc : c < (run H check ops).classes.length) :
    ∃ u, Governs (run H check ops) c u ∧ Sub (run H check ops) c u ∧ (u = c ∨ ∃ kw, Op.new u kw ∈ ops) := by
  have wf := run_wf H check ops
  cases h : look (run H check ops) (·.byName) c with
  | none => exact ⟨c, .inr ⟨(unset_iff wf _ c).mp h, rfl⟩, .refl (List.getElem?_eq_getElem hc), .inl rfl⟩
  | some d =>
    obtain ⟨u, hu⟩ := (look_iff wf _ c d).mp h
    obtain ⟨k, hk, hk'⟩ := hu.set
    exact ⟨u, .inl ⟨d, hu⟩, hu.sub, .inr (byName_inv H check ops u k d hk hk').2⟩

/-- C139, where the claim holds: if the program has not instantiated any class from which the class is derived. -/
theorem C139_safe_partial (ops : List (Op S V)) {c : Nat} {l : List (String × S)} (hl : Declares (run H check ops) c l)
    (hno : ∀ a, Sub (run H check ops) c a → a ≠ c → ∀ kw, Op.new a kw ∉ ops) (kw : List (String × V))
    (hkw : ∀ n s, Last l n s → ∃ v, kw.lookup n = some v ∧ check s v = .ok ()) :
    ∃ o, (new check c kw (run H check ops)).1 = .ok o ∧
      ∀ n ∈ l.map (·.1), ∃ v, kw.lookup n = some v ∧ getAttr (new check c kw (run H check ops)).2 o n = .ok v := by
  have hc : c < (run H check ops).classes.length := by
    obtain ⟨a, ha⟩ := hl
    cases ha with
    | own h => exact (List.getElem?_eq_some_iff.mp h).1
    | up h => exact (List.getElem?_eq_some_iff.mp h).1
  obtain ⟨u, hg, hs, hu⟩ := C139_governs_partial H check ops hc
  have huc : u = c := by
    rcases hu with h | ⟨kw', h⟩
    · exact h
    · refine Classical.byContradiction fun hne => hno u hs hne kw' h
  subst huc
  obtain ⟨h1, h2⟩ := C139_exact_partial H check ops hc hg hl kw
  obtain ⟨o, ho⟩ := h1.mpr hkw
  exact ⟨o, ho, fun n hn => ((h2 o ho).2 n).1 hn⟩

/-- C139: once a class has been instantiated while it governed itself, it does so for good. -/
theorem C139_settled_partial (ops more : List (Op S V)) {c : Nat} (kw : List (String × V)) (hc : c < (run H check ops).classes.length)
    (hg : Governs (run H check ops) c c) : Governs (run H check (ops ++ .new c kw :: more)) c c := by
  have wf := run_wf H check ops
  have e : ops ++ .new c kw :: more = (ops ++ [.new c kw]) ++ more := by simp
  rw [e]
  have e1 : run H check (ops ++ [.new c kw]) = (byNameOf c (run H check ops)).2 := by
    rw [run_append]
    change (new check c kw (run H check ops)).2 = _
    unfold new
    rw [if_pos hc]
  have hset : ∃ k d, (run H check (ops ++ [.new c kw])).classes[c]? = some k ∧ k.byName = some d := by
    rw [e1]
    rcases hg with ⟨d, hd⟩ | ⟨hn, _⟩
    · obtain ⟨k, hk, hk'⟩ := hd.set
      unfold byNameOf
      rw [(look_iff wf _ c d).mpr ⟨c, hd⟩]
      exact ⟨k, d, hk, hk'⟩
    · unfold byNameOf
      rw [(unset_iff wf _ c).mpr hn]
      refine ⟨_, dictOf ((look (run H check ops) (·.attrs) c).getD []), getElem?_modify_of (List.getElem?_eq_getElem hc), ?_⟩
      rw [if_pos rfl]
  obtain ⟨k, d, hk, hd⟩ := hset
  obtain ⟨k', hk', _, _, _, hb, _⟩ := run_ext H check (ops ++ [.new c kw]) more c k hk
  have : look (run H check (ops ++ [.new c kw])) (·.byName) c ≠ none := by
    rw [look_eq (run_wf H check _) _ hk, hd]; simp
  exact .inl ⟨d, .own hk' ((hb.resolve_right this).trans hd)⟩

end

/-- The other order: after the first object of the class, `Proof()` does no harm. -/
example : let w := run toyHash (fun _ _ => .ok ()) ([.mkClass 0 { attrs := some [("n", ())] }, .new 2 [("n", 1)], .new 0 []] : List (Op Unit Nat))
    (new (fun _ _ => .ok ()) 2 [("n", 7)] w).1 = .ok (⟨2, [("n", 7)]⟩ : Inst Nat) := by decide +kernel
example : Last [("n", 0), ("m", 1), ("n", 2)] "n" 2 := ⟨[("n", 0), ("m", 1)], [], rfl, by simp⟩

end Verif.Decl
