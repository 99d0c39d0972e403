import Verif.Lemmas.Repr
import Verif.Lemmas.SusText
import Verif.Props.MsgRepr
/-!
# C155: what the texts of addresses, inventories, locators and alerts tell
-/
namespace Verif.Rp
open Verif Verif.Btc Verif.Sus

/-- `s` is the number `i`, written with digits, and a minus if it is negative. -/
inductive Numeral : Str → Int → Prop where
  | plain {s n} : numeral 10 s = some n → Numeral s (n : Int)
  | minus {s n} : numeral 10 s = some n → Numeral ('-' :: s) (-(n : Int))

theorem decNat_numeral (n : Nat) : numeral 10 (decNat n) = some n := by
  rw [numeral_eq _ (decNat_ne n), fold_dec]

theorem dec_numeral (i : Int) : Numeral (dec i) i := by
  unfold dec
  split
  · rename_i h
    have e : i = -((i.natAbs : Nat) : Int) := by omega
    rw [e]
    simp only [Int.natAbs_neg, Int.natAbs_natCast]
    exact .minus (decNat_numeral _)
  · have e : i = ((i.natAbs : Nat) : Int) := by omega
    rw [e]
    simp only [Int.natAbs_natCast]
    exact .plain (decNat_numeral _)

theorem decNat_inj {m n : Nat} (h : decNat m = decNat n) : m = n := by
  have := decNat_numeral m
  rw [h, decNat_numeral] at this
  exact (Option.some.inj this).symm

theorem decNat_minus (n : Nat) : '-' ∉ decNat n := by
  intro h
  obtain ⟨d, hd⟩ := mem_decNat n h
  revert hd
  revert d
  decide

theorem dec_inj {i j : Int} (h : dec i = dec j) : i = j := by
  unfold dec at h
  split at h <;> split at h
  · have := decNat_inj (List.cons.inj h).2; omega
  · exact absurd (h ▸ List.mem_cons_self) (decNat_minus _)
  · exact absurd (h ▸ List.mem_cons_self) (decNat_minus _)
  · have := decNat_inj h; omega

theorem mem_dec {i : Int} {c : Char} (h : c ∈ dec i) : c = '-' ∨ ∃ d : Fin 10, c = hexChar d := by
  unfold dec at h
  split at h
  · rcases List.mem_cons.mp h with h | h
    · exact .inl h
    · exact .inr (mem_decNat _ h)
  · exact .inr (mem_decNat _ h)

theorem dec_plain {i : Int} : ∀ c ∈ dec i, c ≠ ' ' ∧ c ≠ '=' ∧ c ≠ ')' ∧ c ≠ ',' := by
  intro c h
  rcases mem_dec h with rfl | ⟨d, rfl⟩
  · decide
  · clear h; revert d; decide

/-- Texts are the same up to a character that is in neither, and after it. -/
theorem split_at {c : Char} {x y u v : Str} (hx : c ∉ x) (hy : c ∉ y) (h : x ++ c :: u = y ++ c :: v) : x = y ∧ u = v := by
  induction x generalizing y with
  | nil =>
    cases y with
    | nil => simpa using h
    | cons d y => rw [List.nil_append, List.cons_append, List.cons.injEq] at h; exact absurd (h.1 ▸ List.mem_cons_self) hy
  | cons a x ih =>
    cases y with
    | nil => simp at h; exact absurd (by simp [h.1]) hx
    | cons d y =>
      simp at h hx hy
      obtain ⟨e, e'⟩ := ih hx.2 hy.2 h.2
      exact ⟨by rw [h.1, e], e'⟩

/-- The same from the end. -/
theorem split_last {c : Char} {x y u v : Str} (hu : c ∉ u) (hv : c ∉ v) (h : x ++ c :: u = y ++ c :: v) : x = y ∧ u = v := by
  have h' := congrArg List.reverse h
  simp only [List.reverse_append, List.reverse_cons, List.append_assoc, List.singleton_append] at h'
  obtain ⟨e, e'⟩ := split_at (by simpa using hu) (by simpa using hv) h'
  exact ⟨List.reverse_injective e', List.reverse_injective e⟩

/-- C155, addresses: time, services, host and port are there, each in its place. -/
theorem C155_address (a : CAddress) : ∃ t s p, Numeral t a.nTime ∧ Numeral s a.nServices ∧ Numeral p a.port ∧
    reprAddress a = "CAddress(nTime=".toList ++ t ++ " nServices=".toList ++ s ++ " ip=".toList ++ a.ip ++ " port=".toList ++ p ++ ")".toList :=
  ⟨dec a.nTime, dec a.nServices, dec a.port, dec_numeral _, dec_numeral _, dec_numeral _, by
    unfold reprAddress
    repeat rw [List.append_assoc]⟩

/-- C155, addresses: two that show the same differ at most in the protocol version and the bytes before the address. -/
theorem C155_address_tells (a b : CAddress) :
    reprAddress a = reprAddress b ↔ a.nTime = b.nTime ∧ a.nServices = b.nServices ∧ a.ip = b.ip ∧ a.port = b.port := by
  constructor
  · intro h
    unfold reprAddress at h
    have h := List.append_cancel_left h
    have e : ∀ s : Str, " nServices=".toList ++ s = ' ' :: ("nServices=".toList ++ s) := fun _ => rfl
    rw [e, e] at h
    obtain ⟨h1, h⟩ := split_at (fun hc => (dec_plain _ hc).1 rfl) (fun hc => (dec_plain _ hc).1 rfl) h
    have h := List.append_cancel_left h
    have e : ∀ s : Str, " ip=".toList ++ s = ' ' :: ("ip=".toList ++ s) := fun _ => rfl
    rw [e, e] at h
    obtain ⟨h2, h⟩ := split_at (fun hc => (dec_plain _ hc).1 rfl) (fun hc => (dec_plain _ hc).1 rfl) h
    have h := List.append_cancel_left h
    have e : ∀ (i s : Str), i ++ (" port=".toList ++ s) = (i ++ " port".toList) ++ '=' :: s := by
      intro i s
      rw [List.append_assoc]
      rfl
    rw [e, e] at h
    have hp : ∀ i : Int, '=' ∉ dec i ++ ")".toList := by
      intro i hc
      rcases List.mem_append.mp hc with hc | hc
      · exact (dec_plain _ hc).2.1 rfl
      · revert hc; decide
    obtain ⟨h3, h4⟩ := split_last (hp _) (hp _) h
    exact ⟨dec_inj h1, dec_inj h2, List.append_cancel_right h3, dec_inj (List.append_cancel_right h4)⟩
  · rintro ⟨h1, h2, h3, h4⟩
    unfold reprAddress
    rw [h1, h2, h3, h4]

/-- C155, alerts: the two lengths are there, each in its place. -/
theorem C155_alert (a : CAlert) : ∃ m s, Numeral m a.vchMsg.length ∧ Numeral s a.vchSig.length ∧
    reprAlert a = "CAlert(vchMsg.sz ".toList ++ m ++ ", vchSig.sz ".toList ++ s ++ ")".toList :=
  ⟨decNat a.vchMsg.length, decNat a.vchSig.length, .plain (decNat_numeral _), .plain (decNat_numeral _), by
    unfold reprAlert
    repeat rw [List.append_assoc]⟩

/-- C155, alerts: nothing but the lengths is shown. -/
theorem C155_alert_tells (a b : CAlert) :
    reprAlert a = reprAlert b ↔ a.vchMsg.length = b.vchMsg.length ∧ a.vchSig.length = b.vchSig.length := by
  constructor
  · intro h
    unfold reprAlert at h
    have h := List.append_cancel_left h
    have e : ∀ s : Str, ", vchSig.sz ".toList ++ s = ',' :: (" vchSig.sz ".toList ++ s) := fun _ => rfl
    rw [e, e] at h
    have hp : ∀ n : Nat, ',' ∉ decNat n := by
      intro n hc
      obtain ⟨d, hd⟩ := mem_decNat n hc
      revert hd; revert d; decide
    obtain ⟨h1, h⟩ := split_at (hp _) (hp _) h
    exact ⟨decNat_inj h1, decNat_inj (List.append_cancel_right (List.append_cancel_left h))⟩
  · rintro ⟨h1, h2⟩
    unfold reprAlert
    rw [h1, h2]

/-- The four kinds of things in an inventory. -/
inductive KindName : Int → String → Prop where
  | error : KindName 0 "Error"
  | tx : KindName 1 "TX"
  | block : KindName 2 "Block"
  | filtered : KindName 3 "FilteredBlock"

/-- C155, inventories: the kind by its name, and the hash in hexadecimal, in the order of its bytes. -/
theorem C155_inv (i : CInv) (s : Str) : reprInv i = .ok s ↔ ∃ n, KindName i.type n ∧
    s = "CInv(type=".toList ++ n.toList ++ " hash=b'".toList ++ b2x i.hash ++ "')".toList := by
  have ht : ∀ t n, typemap t = .ok n ↔ KindName t n := by
    intro t n
    unfold typemap
    constructor
    · intro h
      split at h
      · rename_i e; cases h; rw [e]; exact .error
      split at h
      · rename_i e; cases h; rw [e]; exact .tx
      split at h
      · rename_i e; cases h; rw [e]; exact .block
      split at h
      · rename_i e; cases h; rw [e]; exact .filtered
      · cases h
    · rintro (_ | _ | _ | _) <;> rfl
  have hx : ∀ (n : String) (x : Str), "CInv(type=".toList ++ (n.toList ++ (" hash=".toList ++ ("b'".toList ++ (x ++ "')".toList)))) =
      "CInv(type=".toList ++ n.toList ++ " hash=b'".toList ++ x ++ "')".toList := by
    intro n x
    have : " hash=b'".toList = " hash=".toList ++ "b'".toList := by decide
    rw [this]
    simp only [List.append_assoc]
  unfold reprInv
  constructor
  · intro h
    obtain ⟨n, hn, h⟩ := Except.bind_eq_ok h
    cases h
    exact ⟨n, (ht _ _).mp hn, hx _ _⟩
  · rintro ⟨n, hn, rfl⟩
    rw [(ht _ _).mpr hn, Except.bind_ok, ← hx]
    rfl

theorem b2x_inj' {a b : Bytes} (h : b2x a = b2x b) : a = b := by
  have := unhex_b2x a
  rw [h, unhex_b2x b] at this
  exact (Except.ok.inj this).symm

/-- C155, inventories: no two show the same. -/
theorem C155_inv_tells {i j : CInv} {s : Str} (hi : reprInv i = .ok s) (hj : reprInv j = .ok s) : i = j := by
  obtain ⟨n, hn, h1⟩ := (C155_inv i s).mp hi
  obtain ⟨m, hm, h2⟩ := (C155_inv j s).mp hj
  rw [h1] at h2
  have key : ∀ t n, KindName t n → ' ' ∉ n.toList := by rintro _ _ (_ | _ | _ | _) <;> decide
  simp only [List.append_assoc] at h2
  have h := List.append_cancel_left h2
  have e : ∀ s : Str, " hash=b'".toList ++ s = ' ' :: ("hash=b'".toList ++ s) := fun _ => rfl
  rw [e, e] at h
  obtain ⟨h3, h⟩ := split_at (key _ _ hn) (key _ _ hm) h
  have h4 := b2x_inj' (List.append_cancel_right (List.append_cancel_left h))
  have h5 : i.type = j.type := by
    have h3 : n = m := String.toList_injective h3
    subst h3
    revert hn hm
    generalize i.type = a
    generalize j.type = b
    intro hn hm
    generalize hs : n = s at hm
    cases hn <;> cases hm <;> first | rfl | exact absurd hs (by decide)
  cases i
  cases j
  simp only at h4 h5
  rw [h4, h5]

/-! ## Byte strings and locators -/

/-- One byte of a byte string that was printed, and the rest. -/
def unbyte : Str → Option (Byte × Str)
  | [] => none
  | c :: r =>
    if c = '\\' then
      match r with
      | [] => none
      | d :: r =>
        if d = 'x' then
          match r with
          | a :: b :: r => some (BitVec.ofNat 8 (16 * (hexVal a).getD 0 + (hexVal b).getD 0), r)
          | _ => none
        else some (if d = 't' then 0x09#8 else if d = 'n' then 0x0a#8 else if d = 'r' then 0x0d#8 else BitVec.ofNat 8 d.toNat, r)
    else some (BitVec.ofNat 8 c.toNat, r)

theorem unbyte_more {s r : Str} {x : Byte} (t : Str) (h : unbyte s = some (x, r)) : unbyte (s ++ t) = some (x, r ++ t) := by
  match s with
  | [] => cases h
  | [c] =>
    rw [unbyte.eq_def] at h
    rw [List.cons_append, unbyte.eq_def]
    simp only at h ⊢
    split at h
    · cases h
    · rename_i hc; rw [if_neg hc]; cases h; rfl
  | [c, d] =>
    rw [unbyte.eq_def] at h
    rw [List.cons_append, unbyte.eq_def]
    simp only at h ⊢
    split at h
    · rename_i hc
      rw [if_pos hc]
      split at h
      · cases h
      · rename_i hd; simp only [List.cons_append]; rw [if_neg hd]; cases h; rfl
    · rename_i hc; rw [if_neg hc]; cases h; rfl
  | [c, d, a] =>
    rw [unbyte.eq_def] at h
    rw [List.cons_append, unbyte.eq_def]
    simp only at h ⊢
    split at h
    · rename_i hc
      rw [if_pos hc]
      split at h
      · cases h
      · rename_i hd; simp only [List.cons_append]; rw [if_neg hd]; cases h; rfl
    · rename_i hc; rw [if_neg hc]; cases h; rfl
  | c :: d :: a :: b :: s =>
    rw [unbyte.eq_def] at h
    rw [List.cons_append, unbyte.eq_def]
    simp only at h ⊢
    split at h
    · rename_i hc
      rw [if_pos hc]
      split at h
      · rename_i hd; simp only [List.cons_append]; rw [if_pos hd]; cases h; rfl
      · rename_i hd; simp only [List.cons_append]; rw [if_neg hd]; cases h; rfl
    · rename_i hc; rw [if_neg hc]; cases h; rfl

theorem unbyte_repr {q : Char} (hq : q = '\'' ∨ q = '"') (x : Byte) : unbyte (reprByte q x) = some (x, []) ∧ (reprByte q x).head? ≠ some q ∧ reprByte q x ≠ [] := by
  have h1 : ∀ x : Fin 256, unbyte (reprByte '\'' (BitVec.ofFin x)) = some (BitVec.ofFin x, []) ∧ (reprByte '\'' (BitVec.ofFin x)).head? ≠ some '\'' ∧
      reprByte '\'' (BitVec.ofFin x) ≠ [] := by decide +kernel
  have h2 : ∀ x : Fin 256, unbyte (reprByte '"' (BitVec.ofFin x)) = some (BitVec.ofFin x, []) ∧ (reprByte '"' (BitVec.ofFin x)).head? ≠ some '"' ∧
      reprByte '"' (BitVec.ofFin x) ≠ [] := by decide +kernel
  rcases hq with rfl | rfl
  · exact h1 x.toFin
  · exact h2 x.toFin

theorem bytes_split {q : Char} (hq : q = '\'' ∨ q = '"') : ∀ {x y : Bytes} {u v : Str},
    x.flatMap (reprByte q) ++ q :: u = y.flatMap (reprByte q) ++ q :: v → x = y ∧ u = v
  | [], [], u, v, h => ⟨rfl, (List.cons.inj h).2⟩
  | [], b :: y, u, v, h => by
    obtain ⟨_, h2, h3⟩ := unbyte_repr hq b
    cases hb : reprByte q b with
    | nil => exact absurd hb h3
    | cons c t =>
      rw [List.flatMap_nil, List.nil_append, List.flatMap_cons, hb] at h
      rw [hb] at h2
      exact absurd (congrArg some (List.cons.inj h).1.symm) h2
  | a :: x, [], u, v, h => by
    obtain ⟨_, h2, h3⟩ := unbyte_repr hq a
    cases hb : reprByte q a with
    | nil => exact absurd hb h3
    | cons c t =>
      rw [List.flatMap_nil, List.nil_append, List.flatMap_cons, hb] at h
      rw [hb] at h2
      exact absurd (congrArg some (List.cons.inj h).1) h2
  | a :: x, b :: y, u, v, h => by
    rw [List.flatMap_cons, List.flatMap_cons, List.append_assoc, List.append_assoc] at h
    have e := congrArg unbyte h
    rw [unbyte_more _ (unbyte_repr hq a).1, unbyte_more _ (unbyte_repr hq b).1] at e
    simp only [List.nil_append, Option.some.injEq, Prod.mk.injEq] at e
    obtain ⟨e1, e2⟩ := bytes_split hq e.2
    exact ⟨by rw [e.1, e1], e2⟩

/-- Where a byte string that was printed ends, and what it was, can be seen. -/
theorem reprBytes_split {x y : Bytes} {u v : Str} (h : reprBytes x ++ u = reprBytes y ++ v) : x = y ∧ u = v := by
  unfold reprBytes at h
  simp only [List.cons_append, List.append_assoc, List.nil_append, List.cons.injEq, true_and] at h
  obtain ⟨h1, h⟩ := h
  rw [← h1] at h
  refine bytes_split ?_ h
  split
  · exact .inr rfl
  · exact .inl rfl

/-- C155, byte strings: no two are printed alike. -/
theorem C155_bytes_tells {x y : Bytes} (h : reprBytes x = reprBytes y) : x = y :=
  (reprBytes_split (u := []) (v := []) (by rw [List.append_nil, List.append_nil, h])).1

theorem list_split : ∀ {xs ys : List Bytes} {u v : Str}, join (xs.map reprBytes) ++ ']' :: u = join (ys.map reprBytes) ++ ']' :: v → xs = ys ∧ u = v
  | [], [], u, v, h => ⟨rfl, (List.cons.inj h).2⟩
  | [], [b], u, v, h => by exact absurd (List.cons.inj h).1 (by decide)
  | [], b :: c :: ys, u, v, h => by exact absurd (List.cons.inj h).1 (by decide)
  | [a], [], u, v, h => by exact absurd (List.cons.inj h).1 (by decide)
  | a :: c :: xs, [], u, v, h => by exact absurd (List.cons.inj h).1 (by decide)
  | [a], [b], u, v, h => by
    obtain ⟨e, e'⟩ := reprBytes_split (show reprBytes a ++ ']' :: u = reprBytes b ++ ']' :: v from h)
    exact ⟨by rw [e], (List.cons.inj e').2⟩
  | [a], b :: c :: ys, u, v, h => by
    have h : reprBytes a ++ ']' :: u = (reprBytes b ++ (", ".toList ++ join ((c :: ys).map reprBytes))) ++ ']' :: v := h
    rw [List.append_assoc] at h
    exact absurd (List.cons.inj (reprBytes_split h).2).1 (by decide)
  | a :: c :: xs, [b], u, v, h => by
    have h : (reprBytes a ++ (", ".toList ++ join ((c :: xs).map reprBytes))) ++ ']' :: u = reprBytes b ++ ']' :: v := h
    rw [List.append_assoc] at h
    exact absurd (List.cons.inj (reprBytes_split h).2).1 (by decide)
  | a :: c :: xs, b :: d :: ys, u, v, h => by
    have h : (reprBytes a ++ (", ".toList ++ join ((c :: xs).map reprBytes))) ++ ']' :: u =
      (reprBytes b ++ (", ".toList ++ join ((d :: ys).map reprBytes))) ++ ']' :: v := h
    rw [List.append_assoc, List.append_assoc (reprBytes b)] at h
    obtain ⟨e, h⟩ := reprBytes_split h
    rw [List.append_assoc, List.append_assoc] at h
    obtain ⟨e1, e2⟩ := list_split (List.append_cancel_left h)
    exact ⟨by rw [e, e1], e2⟩

theorem join_eq : ∀ xs : List Str, join xs = List.intercalate ", ".toList xs
  | [] => rfl
  | [a] => by simp [join, List.intercalate]
  | a :: b :: xs => by
    rw [join, join_eq (b :: xs), List.intercalate_cons_cons, List.append_assoc]
    simp

/-- C155, locators: the version, and the hashes in their order. -/
theorem C155_locator (l : CBlockLocator) : ∃ n, Numeral n l.nVersion ∧
    reprLocator l = "CBlockLocator(nVersion=".toList ++ n ++ " vHave=[".toList ++ List.intercalate ", ".toList (l.vHave.map reprBytes) ++ "])".toList := by
  refine ⟨dec l.nVersion, dec_numeral _, ?_⟩
  unfold reprLocator reprSeq
  rw [if_pos rfl, join_eq]
  have e1 : " vHave=[".toList = " vHave=".toList ++ ['['] := by decide
  have e2 : "])".toList = "]".toList ++ ")".toList := by decide
  rw [e1, e2]
  rw [List.cons_append]
  repeat rw [List.append_assoc]
  rfl

/-- C155, locators: no two show the same. -/
theorem C155_locator_tells {k l : CBlockLocator} (h : reprLocator k = reprLocator l) : k = l := by
  unfold reprLocator at h
  have h := List.append_cancel_left h
  have e : ∀ s : Str, " vHave=".toList ++ s = ' ' :: ("vHave=".toList ++ s) := fun _ => rfl
  rw [e, e] at h
  obtain ⟨h1, h⟩ := split_at (fun hc => (dec_plain _ hc).1 rfl) (fun hc => (dec_plain _ hc).1 rfl) h
  have h := List.append_cancel_left h
  have e : ∀ xs : List Str, reprSeq true xs ++ ")".toList = '[' :: (join xs ++ ']' :: ")".toList) := by
    intro xs
    unfold reprSeq
    rw [if_pos rfl, List.cons_append, List.append_assoc]
    rfl
  rw [e, e] at h
  obtain ⟨h2, _⟩ := list_split (List.cons.inj h).2
  have h1 := dec_inj h1
  cases k
  cases l
  simp only at h1 h2
  rw [h1, h2]

/-- Texts. -/
example : reprAddress { nTime := 5, ip := "::1 port=1".toList, port := 8333 } = "CAddress(nTime=5 nServices=1 ip=::1 port=1 port=8333)".toList := by
  decide +kernel
example : reprAlert ⟨[1#8, 2#8], [3#8]⟩ = "CAlert(vchMsg.sz 2, vchSig.sz 1)".toList := by decide +kernel
example : reprLocator ⟨60002, [[0x27#8], [0x5c#8, 0x22#8]]⟩ = "CBlockLocator(nVersion=60002 vHave=[b\"'\", b'\\\\\"'])".toList := by decide +kernel

end Verif.Rp
