import Verif.Model.Block
import Verif.Spec.Block
import Verif.Lemmas.BtcDeser
import Verif.Lemmas.BtcInj
import Verif.Lemmas.Bits
/-! Lemmas about blocks. -/
namespace Verif.Btc
open Verif

/-! ## Merkle trees -/

theorem pairs_length : ∀ l, (pairs l).length = (l.length + 1) / 2
  | [] => rfl
  | [_] => by simp [pairs]
  | _ :: _ :: l => by
    simp only [pairs, List.length_cons, pairs_length l]
    omega

theorem getElem?_append_cons {α} (l r : List α) (a : α) (i : Nat) (h : l.length = i) : (l ++ a :: r)[i]? = some a := by
  subst h; simp

theorem merklePairs_eq (H : HashFns) (pre : List Bytes) : ∀ (cur : List Bytes) (k : Nat) (done acc : List Bytes), done.length = 2 * k →
    merklePairs H pre.length (done.length + cur.length) ((List.range' k ((cur.length + 1) / 2)).map (2 * ·)) (pre ++ (done ++ cur) ++ acc)
      = .ok (pre ++ (done ++ cur) ++ acc ++ (pairs cur).map H.hash256)
  | [], k, done, acc, _ => by simp [merklePairs, pairs]
  | [a], k, done, acc, hk => by
    have h1 : index (pre ++ (done ++ [a]) ++ acc) (pre.length + 2 * k) = .ok a := by
      unfold index
      rw [show pre ++ (done ++ [a]) ++ acc = (pre ++ done) ++ a :: acc by simp, getElem?_append_cons _ _ _ _ (by simp [hk])]
    have h2 : min (2 * k + 1) (done.length + [a].length - 1) = 2 * k := by simp; omega
    simp only [List.length_singleton, show (1 + 1) / 2 = 1 from rfl, List.range'_one, List.map_cons, List.map_nil, merklePairs, h1,
      Except.bind_ok] at h2 ⊢
    rw [h2, h1]
    simp [pairs, Except.bind_ok]
  | a :: b :: cur, k, done, acc, hk => by
    have e1 : pre ++ (done ++ a :: b :: cur) ++ acc = (pre ++ done) ++ a :: (b :: cur ++ acc) := by simp
    have e2 : pre ++ (done ++ a :: b :: cur) ++ acc = (pre ++ done ++ [a]) ++ b :: (cur ++ acc) := by simp
    have h1 : index (pre ++ (done ++ a :: b :: cur) ++ acc) (pre.length + 2 * k) = .ok a := by
      unfold index
      rw [e1, getElem?_append_cons _ _ _ _ (by simp [hk])]
    have h2 : min (2 * k + 1) (done.length + (a :: b :: cur).length - 1) = 2 * k + 1 := by simp; omega
    have h3 : index (pre ++ (done ++ a :: b :: cur) ++ acc) (pre.length + (2 * k + 1)) = .ok b := by
      unfold index
      rw [e2, getElem?_append_cons _ _ _ _ (by simp [hk]; try omega)]
    have h4 : ((a :: b :: cur).length + 1) / 2 = (cur.length + 1) / 2 + 1 := by simp; omega
    rw [h4, List.range'_succ, List.map_cons, merklePairs, h1, Except.bind_ok, h2, h3, Except.bind_ok]
    have := merklePairs_eq H pre cur (k + 1) (done ++ [a, b]) (acc ++ [H.hash256 (a ++ b)]) (by simp; omega)
    have e3 : (done ++ [a, b]).length + cur.length = done.length + (a :: b :: cur).length := by simp; omega
    rw [e3] at this
    simp only [List.append_assoc, List.cons_append, List.nil_append] at this ⊢
    rw [this]
    simp [pairs]

theorem merkleLoop_eq (H : HashFns) : ∀ (n : Nat) (cur pre : List Bytes), cur.length ≤ n →
    ∃ t, merkleLoop H n cur.length pre.length (pre ++ cur) = .ok (pre ++ t) ∧ Levels H.hash256 cur t
  | 0, cur, pre, h => ⟨cur, by
      rw [merkleLoop, if_neg (by omega)], .top (by omega)⟩
  | n + 1, cur, pre, h => by
    rw [merkleLoop]
    by_cases hc : cur.length > 1
    · rw [if_pos hc]
      have := merklePairs_eq H pre cur 0 [] [] rfl
      simp only [List.length_nil, List.nil_append, Nat.zero_add, List.append_nil] at this
      rw [List.range_eq_range', this, Except.bind_ok]
      have hl : ((pairs cur).map H.hash256).length = (cur.length + 1) / 2 := by rw [List.length_map, pairs_length]
      obtain ⟨t, h1, h2⟩ := merkleLoop_eq H n ((pairs cur).map H.hash256) (pre ++ cur) (by omega)
      rw [hl, List.length_append] at h1
      exact ⟨cur ++ t, by rw [h1, List.append_assoc], .step (by omega) h2⟩
    · rw [if_neg hc]
      exact ⟨cur, rfl, .top (by omega)⟩

theorem buildMerkleTree_eq (H : HashFns) (l : List Bytes) : ∃ t, buildMerkleTree H l = .ok t ∧ Levels H.hash256 l t := by
  obtain ⟨t, h1, h2⟩ := merkleLoop_eq H l.length l [] (by omega)
  exact ⟨t, h1, h2⟩

theorem Levels.merkle {h : Bytes → Bytes} {l t : List Bytes} (hl : Levels h l t) : l ≠ [] →
    ∃ n r S, Merkle h l n r S ∧ t.getLast? = some r ∧ t ≠ [] := by
  induction hl with
  | @top l h1 =>
    intro hn
    match l with
    | [] => exact absurd rfl hn
    | [a] => exact ⟨0, a, [], .one a, rfl, by simp⟩
    | _ :: _ :: _ => simp at h1
  | @step l t h2 hl ih =>
    intro hn
    have hp : (pairs l).map h ≠ [] := by
      intro h0
      have := congrArg List.length h0
      rw [List.length_map, pairs_length] at this
      simp at this
      omega
    obtain ⟨n, r, S, h3, h4, h5⟩ := ih hp
    refine ⟨n + 1, r, _, .step h2 h3, ?_, by simp [h5]⟩
    rw [List.getLast?_append, h4]
    rfl

theorem Merkle.unique {h : Bytes → Bytes} {l : List Bytes} {n r S} (a : Merkle h l n r S) : ∀ {n' r' S'}, Merkle h l n' r' S' →
    n = n' ∧ r = r' ∧ S = S' := by
  induction a with
  | one a =>
    intro n' r' S' b
    cases b with
    | one => exact ⟨rfl, rfl, rfl⟩
    | step h2 _ => simp at h2
  | step h2 _ ih =>
    intro n' r' S' b
    cases b with
    | one => simp at h2
    | step _ b =>
      obtain ⟨rfl, rfl, rfl⟩ := ih b
      exact ⟨rfl, rfl, rfl⟩

/-! ### Binding -/

theorem mem_pairs {s : Bytes} : ∀ {l : List Bytes}, s ∈ pairs l → ∃ a ∈ l, ∃ b ∈ l, s = a ++ b
  | [], h => by simp [pairs] at h
  | [a], h => by
    simp only [pairs, List.mem_singleton] at h
    exact ⟨a, by simp, a, by simp, h⟩
  | a :: b :: l, h => by
    simp only [pairs, List.mem_cons] at h
    rcases h with h | h
    · exact ⟨a, by simp, b, by simp, h⟩
    · obtain ⟨x, hx, y, hy, e⟩ := mem_pairs h
      exact ⟨x, by simp [hx], y, by simp [hy], e⟩

/-- All have 32 bytes. -/
def All32 (l : List Bytes) : Prop := ∀ x ∈ l, x.length = 32

theorem All32.tail2 {a b : Bytes} {l : List Bytes} (h : All32 (a :: b :: l)) : All32 l := fun x hx => h x (by simp [hx])

theorem pairs_len64 {l : List Bytes} (h : All32 l) {s : Bytes} (hs : s ∈ pairs l) : s.length = 64 := by
  obtain ⟨a, ha, b, hb, rfl⟩ := mem_pairs hs
  rw [List.length_append, h a ha, h b hb]

theorem pairs_head_mem {s : Bytes} {l : List Bytes} (h : All32 l) (hs : s ∈ pairs l) : s.take 32 ∈ l := by
  obtain ⟨a, ha, b, hb, rfl⟩ := mem_pairs hs
  rw [List.take_append_of_le_length (Nat.le_of_eq (by rw [h a ha])), List.take_of_length_le (Nat.le_of_eq (by rw [h a ha]))]
  exact ha

theorem pairs_nodup : ∀ {l : List Bytes}, All32 l → l.Nodup → (pairs l).Nodup
  | [], _, _ => by simp [pairs]
  | [a], _, _ => by simp [pairs]
  | a :: b :: l, h, hn => by
    rw [pairs, List.nodup_cons]
    have hn' := hn
    rw [List.nodup_cons, List.nodup_cons] at hn'
    refine ⟨fun hm => ?_, pairs_nodup h.tail2 hn'.2.2⟩
    have := pairs_head_mem h.tail2 hm
    rw [List.take_append_of_le_length (Nat.le_of_eq (by rw [h a (by simp)])), List.take_of_length_le (Nat.le_of_eq (by rw [h a (by simp)]))] at this
    exact hn'.1 (by simp [this])

theorem pairs_inj_length : ∀ {l l' : List Bytes}, All32 l → All32 l' → l.length = l'.length → pairs l = pairs l' → l = l'
  | [], [], _, _, _, _ => rfl
  | [], _ :: _, _, _, hl, _ => by simp at hl
  | [_], [], _, _, hl, _ => by simp at hl
  | [_], _ :: _ :: _, _, _, hl, _ => by simp at hl
  | _ :: _ :: _, [], _, _, hl, _ => by simp at hl
  | _ :: _ :: _, [_], _, _, hl, _ => by simp at hl
  | [a], [b], h, h', _, e => by
    simp only [pairs, List.cons.injEq, and_true] at e
    have := (List.append_inj e (by rw [h a (by simp), h' b (by simp)])).1
    rw [this]
  | a :: b :: l, a' :: b' :: l', h, h', hl, e => by
    simp only [pairs, List.cons.injEq] at e
    obtain ⟨h1, h2⟩ := List.append_inj e.1 (by rw [h a (by simp), h' a' (by simp)])
    have := pairs_inj_length h.tail2 h'.tail2 (by simpa using hl) e.2
    rw [h1, h2, this]

theorem pairs_inj_nodup : ∀ {l l' : List Bytes}, All32 l → All32 l' → l.Nodup → l'.Nodup → pairs l = pairs l' → l = l'
  | [], [], _, _, _, _, _ => rfl
  | [], [_], _, _, _, _, e => by simp [pairs] at e
  | [], _ :: _ :: _, _, _, _, _, e => by simp [pairs] at e
  | [_], [], _, _, _, _, e => by simp [pairs] at e
  | _ :: _ :: _, [], _, _, _, _, e => by simp [pairs] at e
  | [a], [b], h, h', _, _, e => pairs_inj_length h h' rfl e
  | [a], b :: c :: l, h, h', _, hn, e => by
    simp only [pairs, List.cons.injEq] at e
    obtain ⟨h1, h2⟩ := List.append_inj e.1 (by rw [h a (by simp), h' b (by simp)])
    rw [List.nodup_cons] at hn
    exact absurd (by rw [← h1, ← h2]; simp) hn.1
  | b :: c :: l, [a], h', h, hn, _, e => by
    simp only [pairs, List.cons.injEq] at e
    obtain ⟨h1, h2⟩ := List.append_inj e.1 (by rw [h a (by simp), h' b (by simp)])
    rw [List.nodup_cons] at hn
    exact absurd (by rw [h1, h2]; simp) hn.1
  | a :: b :: l, a' :: b' :: l', h, h', hn, hn', e => by
    simp only [pairs, List.cons.injEq] at e
    obtain ⟨h1, h2⟩ := List.append_inj e.1 (by rw [h a (by simp), h' a' (by simp)])
    rw [List.nodup_cons, List.nodup_cons] at hn hn'
    have := pairs_inj_nodup h.tail2 h'.tail2 hn.2.2 hn'.2.2 e.2
    rw [h1, h2, this]

theorem map_inj_on {h : Bytes → Bytes} {S : List Bytes} (cf : CollisionFree h S) : ∀ {a b : List Bytes}, (∀ x ∈ a, x ∈ S) →
    (∀ x ∈ b, x ∈ S) → a.map h = b.map h → a = b
  | [], [], _, _, _ => rfl
  | [], _ :: _, _, _, e => by simp at e
  | _ :: _, [], _, _, e => by simp at e
  | x :: a, y :: b, ha, hb, e => by
    simp only [List.map_cons, List.cons.injEq] at e
    rw [cf x (ha x (by simp)) y (hb y (by simp)) e.1,
      map_inj_on cf (fun z hz => ha z (by simp [hz])) (fun z hz => hb z (by simp [hz])) e.2]

theorem nodup_map_on {h : Bytes → Bytes} {S : List Bytes} (cf : CollisionFree h S) : ∀ {a : List Bytes}, (∀ x ∈ a, x ∈ S) →
    a.Nodup → (a.map h).Nodup
  | [], _, _ => by simp
  | x :: a, ha, hn => by
    rw [List.nodup_cons] at hn
    rw [List.map_cons, List.nodup_cons]
    refine ⟨fun hm => ?_, nodup_map_on cf (fun z hz => ha z (by simp [hz])) hn.2⟩
    obtain ⟨y, hy, e⟩ := List.mem_map.mp hm
    rw [cf y (ha y (by simp [hy])) x (ha x (by simp)) e] at hy
    exact hn.1 hy

theorem all32_map (H : HashFns) (l : List Bytes) : All32 (l.map H.hash256) := by
  intro x hx
  obtain ⟨y, _, rfl⟩ := List.mem_map.mp hx
  exact H.sha256_len _

theorem Merkle.inj_length {H : HashFns} {S0 : List Bytes} (cf : CollisionFree H.hash256 S0) {l : List Bytes} {n r S}
    (m : Merkle H.hash256 l n r S) : ∀ {l' n' S'}, Merkle H.hash256 l' n' r S' → All32 l → All32 l' → l.length = l'.length →
      (∀ x ∈ S, x ∈ S0) → (∀ x ∈ S', x ∈ S0) → l = l' := by
  induction m with
  | one a =>
    intro l' n' S' m' _ _ hl _ _
    cases m' with
    | one => rfl
    | step h2 _ => simp at hl; omega
  | step h2 m ih =>
    intro l' n' S' m' h h' hl hS hS'
    cases m' with
    | one => simp at hl; omega
    | step h2' m' =>
      have := ih m' (all32_map _ _) (all32_map _ _) (by simp [pairs_length, hl]) (fun x hx => hS x (by simp [hx]))
        (fun x hx => hS' x (by simp [hx]))
      exact pairs_inj_length h h' hl (map_inj_on cf (fun x hx => hS x (by simp [hx])) (fun x hx => hS' x (by simp [hx])) this)

theorem Merkle.inj_depth {H : HashFns} {S0 : List Bytes} (cf : CollisionFree H.hash256 S0) {l : List Bytes} {n r S}
    (m : Merkle H.hash256 l n r S) : ∀ {l' S'}, Merkle H.hash256 l' n r S' → All32 l → All32 l' → l.Nodup → l'.Nodup →
      (∀ x ∈ S, x ∈ S0) → (∀ x ∈ S', x ∈ S0) → l = l' := by
  induction m with
  | one a =>
    intro l' S' m' _ _ _ _ _ _
    cases m'
    rfl
  | step h2 m ih =>
    intro l' S' m' h h' hn hn' hS hS'
    cases m' with
    | step h2' m' =>
      have s1 : ∀ x ∈ pairs _, x ∈ S0 := fun x hx => hS x (List.mem_append_left _ hx)
      have s2 : ∀ x ∈ pairs _, x ∈ S0 := fun x hx => hS' x (List.mem_append_left _ hx)
      have := ih m' (all32_map _ _) (all32_map _ _) (nodup_map_on cf s1 (pairs_nodup h hn)) (nodup_map_on cf s2 (pairs_nodup h' hn'))
        (fun x hx => hS x (by simp [hx])) (fun x hx => hS' x (by simp [hx]))
      exact pairs_inj_nodup h h' hn hn' (map_inj_on cf s1 s2 this)

/-- The levels further up. -/
theorem Merkle.up {H : HashFns} {S0 : List Bytes} (cf : CollisionFree H.hash256 S0) {n : Nat} {r : Bytes} : ∀ (k : Nat) {l S},
    Merkle H.hash256 l (n + (k + 1)) r S → All32 l → l.Nodup → (∀ x ∈ S, x ∈ S0) →
    ∃ (p : List Bytes) (S' : List Bytes), Merkle H.hash256 (p.map H.hash256) n r S' ∧ (p.map H.hash256).Nodup ∧ (∀ x ∈ p, x.length = 64 ∧ x ∈ S0) ∧ (∀ x ∈ S', x ∈ S0)
  | 0, l, S, m, h, hn, hS => by
    cases m with
    | step h2 m =>
      exact ⟨_, _, m, nodup_map_on cf (fun x hx => hS x (by simp [hx])) (pairs_nodup h hn),
        fun x hx => ⟨pairs_len64 h hx, hS x (by simp [hx])⟩, fun x hx => hS x (by simp [hx])⟩
  | k + 1, l, S, m, h, hn, hS => by
    rw [show n + (k + 1 + 1) = n + (k + 1) + 1 by omega] at m
    cases m with
    | step h2 m =>
      exact Merkle.up cf k m (all32_map _ _) (nodup_map_on cf (fun x hx => hS x (by simp [hx])) (pairs_nodup h hn))
        (fun x hx => hS x (by simp [hx]))

theorem Merkle.ne_nil {h : Bytes → Bytes} {l n r S} (m : Merkle h l n r S) : l ≠ [] := by
  cases m with
  | one => simp
  | step h2 _ => intro h; simp [h] at h2

/-- Leaves that are not hashes of 64 bytes: not even the depth can differ. -/
theorem Merkle.inj {H : HashFns} {S0 xs ys : List Bytes} (cf : CollisionFree H.hash256 S0) {n n' r S S'}
    (m : Merkle H.hash256 (xs.map H.hash256) n r S) (m' : Merkle H.hash256 (ys.map H.hash256) n' r S')
    (hx : ∀ x ∈ xs, x.length ≠ 64 ∧ x ∈ S0) (hy : ∀ x ∈ ys, x.length ≠ 64 ∧ x ∈ S0)
    (hn : (xs.map H.hash256).Nodup) (hn' : (ys.map H.hash256).Nodup) (hS : ∀ x ∈ S, x ∈ S0) (hS' : ∀ x ∈ S', x ∈ S0) : xs = ys := by
  have key : ∀ {xs ys : List Bytes} {n k S S'}, Merkle H.hash256 (xs.map H.hash256) n r S →
      Merkle H.hash256 (ys.map H.hash256) (n + (k + 1)) r S' → (∀ x ∈ xs, x.length ≠ 64 ∧ x ∈ S0) →
      (xs.map H.hash256).Nodup → (ys.map H.hash256).Nodup → (∀ x ∈ S, x ∈ S0) → (∀ x ∈ S', x ∈ S0) → False := by
    intro xs ys n k S S' m m' hx hn hn' hS hS'
    obtain ⟨p, S2, m2, h1, h2, h3⟩ := Merkle.up cf k m' (all32_map _ _) hn' hS'
    have := Merkle.inj_depth cf m m2 (all32_map _ _) (all32_map _ _) hn h1 hS h3
    have := map_inj_on cf (fun x h => (hx x h).2) (fun x h => (h2 x h).2) this
    subst this
    have := m.ne_nil
    match xs with
    | [] => simp at this
    | x :: _ => exact (hx x (by simp)).1 (h2 x (by simp)).1
  rcases Nat.lt_trichotomy n n' with h | h | h
  · obtain ⟨k, rfl⟩ : ∃ k, n' = n + (k + 1) := ⟨n' - n - 1, by omega⟩
    exact (key m m' hx hn hn' hS hS').elim
  · subst h
    exact map_inj_on cf (fun x h => (hx x h).2) (fun x h => (hy x h).2) (Merkle.inj_depth cf m m' (all32_map _ _) (all32_map _ _) hn hn' hS hS')
  · obtain ⟨k, rfl⟩ : ∃ k, n = n' + (k + 1) := ⟨n - n' - 1, by omega⟩
    exact (key m' m hy hn' hn hS' hS).elim

end Verif.Btc
