import Verif.Spec.RpcText
import Verif.Props.MsgText
/-!
# C159: what is sent to the node
-/
namespace Verif.Rpc
open Verif Btc Sus

theorem read4_hex4 {n : Nat} (hn : n < 65536) (r : Str) : read4 (hex4 n ++ r) = some (n, r) := by
  have h (k : Nat) : hexVal (hexChar (k % 16)) = some (k % 16) := hexVal_hexChar ⟨k % 16, Nat.mod_lt _ (by decide)⟩
  show read4 (hexChar (n / 4096 % 16) :: hexChar (n / 256 % 16) :: hexChar (n / 16 % 16) :: hexChar (n % 16) :: r) = _
  unfold read4
  simp only [h]
  congr 2
  omega

theorem readU_hex4 {n : Nat} (hn : n < 65536) (r : Str) : readU ('\\' :: 'u' :: (hex4 n ++ r)) = some (n, r) := read4_hex4 hn r

theorem char_range (c : Char) : c.toNat < 0xd800 ∨ 0xe000 ≤ c.toNat ∧ c.toNat < 0x110000 := by
  have := c.valid
  rcases this with h | ⟨h, h'⟩
  · left; exact h
  · right; exact ⟨Nat.succ_le_of_lt h, h'⟩

theorem readChar_letter {e : Char} {n : Nat} (h : letter e = some n) (r : Str) : readChar ('\\' :: e :: r) = some (n, r) := by
  rw [readChar, if_neg (by decide), if_neg (by decide)]
  simp only [List.head?_cons, Option.bind_some, h, List.tail_cons]

theorem readChar_u (r : Str) : readChar ('\\' :: 'u' :: r) = readUs ('\\' :: 'u' :: r) := by
  rw [readChar, if_neg (by decide), if_neg (by decide)]
  have : letter 'u' = none := by decide
  simp only [List.head?_cons, Option.bind_some, this]

theorem readChar_esc (c : Char) (r : Str) : readChar (escChar c ++ r) = some (c.toNat, r) := by
  unfold escChar
  split
  · rename_i h; subst h; exact readChar_letter (by decide) r
  split
  · rename_i h; subst h; exact readChar_letter (by decide) r
  split
  · rename_i h; subst h; exact readChar_letter (by decide) r
  split
  · rename_i h; subst h; exact readChar_letter (by decide) r
  split
  · rename_i h; subst h; exact readChar_letter (by decide) r
  split
  · rename_i h; rw [h]; exact readChar_letter (by decide) r
  split
  · rename_i h; rw [h]; exact readChar_letter (by decide) r
  split
  · rename_i h1 h2 _ _ _ _ _ h
    show readChar (c :: r) = _
    rw [readChar, if_neg (by rintro (h | h); exacts [h1 h, by omega]), if_pos h2]
  split
  · rename_i h
    rw [List.cons_append, List.cons_append, readChar_u, readUs, readU_hex4 h]
    simp only
    rw [if_neg (by have := char_range c; omega)]
  · rename_i h
    have hr := char_range c
    have e : ∀ a b : Str, '\\' :: 'u' :: (a ++ '\\' :: 'u' :: b) ++ r = '\\' :: 'u' :: (a ++ ('\\' :: 'u' :: (b ++ r))) := by
      intro a b; simp
    rw [e, readChar_u, readUs, readU_hex4 (by omega)]
    simp only
    rw [if_pos (by omega), readU_hex4 (by omega)]
    simp only
    rw [if_pos (by omega)]
    have e' : 0x10000 + (0xd800 + (c.toNat - 0x10000) / 1024 - 0xd800) * 1024 + (0xdc00 + (c.toNat - 0x10000) % 1024 - 0xdc00) = c.toNat := by omega
    rw [e']

/-- C159: a text of a request is read, by the rules of JSON, as what it is, whatever characters it has. -/
theorem C159_string (s r : Str) : ∃ b, strText s ++ r = '"' :: b ∧ ReadsStr b s r := by
  refine ⟨strBody s ++ r, rfl, ?_⟩
  induction s with
  | nil => exact .close r
  | cons c s ih =>
    show ReadsStr ((escChar c ++ strBody s) ++ r) _ _
    rw [List.append_assoc]
    exact .char c (readChar_esc c _) ih

theorem char_inj {c d : Char} (h : c.toNat = d.toNat) : c = d := Char.ext (UInt32.toNat_inj.mp h)

theorem ReadsStr.unique {b s t r r' : Str} (h : ReadsStr b s r) (h' : ReadsStr b t r') : s = t ∧ r = r' := by
  induction h generalizing t r' with
  | close r =>
    cases h' with
    | close => exact ⟨rfl, rfl⟩
    | char c hc _ => rw [readChar, if_pos (.inl rfl)] at hc; cases hc
  | char c hc _ ih =>
    cases h' with
    | close => rw [readChar, if_pos (.inl rfl)] at hc; cases hc
    | char d hd hr =>
      rw [hc] at hd
      simp only [Option.some.injEq, Prod.mk.injEq] at hd
      obtain ⟨e, rfl⟩ := hd
      obtain ⟨rfl, rfl⟩ := ih hr
      exact ⟨by rw [char_inj e], rfl⟩

theorem strText_split {s t u v : Str} (h : strText s ++ u = strText t ++ v) : s = t ∧ u = v := by
  obtain ⟨b, e, hb⟩ := C159_string s u
  obtain ⟨b', e', hb'⟩ := C159_string t v
  rw [e, e'] at h
  cases h
  exact hb.unique hb'

/-! ## Values -/

/-- What may come after a value. -/
def Stop (u : Str) : Prop := u = [] ∨ ∃ c t, u = c :: t ∧ ¬ NumChar c

theorem tok_split : ∀ {x y u v : Str}, (∀ c ∈ x, NumChar c) → (∀ c ∈ y, NumChar c) → Stop u → Stop v → x ++ u = y ++ v → x = y ∧ u = v
  | [], [], _, _, _, _, _, _, h => ⟨rfl, h⟩
  | [], c :: y, u, v, _, hy, hu, _, h => by
    rcases hu with rfl | ⟨d, t, rfl, hd⟩
    · cases h
    · cases h; exact absurd (hy _ List.mem_cons_self) hd
  | c :: x, [], u, v, hx, _, _, hv, h => by
    rcases hv with rfl | ⟨d, t, rfl, hd⟩
    · cases h
    · cases h; exact absurd (hx _ List.mem_cons_self) hd
  | c :: x, d :: y, u, v, hx, hy, hu, hv, h => by
    obtain ⟨rfl, g⟩ := List.cons.inj h
    obtain ⟨rfl, rfl⟩ := tok_split (fun c hc => hx c (.tail _ hc)) (fun c hc => hy c (.tail _ hc)) hu hv g
    exact ⟨rfl, rfl⟩

instance (c : Char) : Decidable (NumChar c) := by unfold NumChar; infer_instance

theorem dec_chars {i : Int} : ∀ c ∈ Sus.dec i, NumChar c ∧ c ≠ '.' ∧ c ≠ 'e' := by
  intro c h
  rcases Rp.mem_dec h with rfl | ⟨d, rfl⟩
  · decide
  · clear h; revert d; decide

theorem dec_lead (i : Int) : ∃ c t, Sus.dec i = c :: t ∧ c ∈ "0123456789-".toList := by
  cases h : Sus.dec i with
  | nil =>
    unfold Sus.dec at h
    split at h
    · cases h
    · exact absurd h (decNat_ne _)
  | cons c t =>
    refine ⟨c, t, rfl, ?_⟩
    have hc : c ∈ Sus.dec i := h ▸ List.mem_cons_self
    rcases Rp.mem_dec hc with rfl | ⟨d, rfl⟩
    · decide
    · clear hc h; revert d; decide

/-- The kind of a value by its first character. -/
def kindChar (c : Char) : Nat :=
  if c = 'n' then 0 else if c = 't' then 1 else if c = 'f' then 2 else if c = '"' then 3 else if c = '[' then 4 else if c = '{' then 5 else 6

/-- The kind of a value. -/
def kindOf : Json → Nat
  | .null => 0
  | .bool true => 1
  | .bool false => 2
  | .str _ => 3
  | .arr _ => 4
  | .obj _ => 5
  | .int _ | .flt _ | .dec _ _ => 6

theorem kind_num {c : Char} (h : c ∈ "0123456789-".toList) : kindChar c = 6 ∧ c ≠ ']' ∧ c ≠ '}' := by
  have key : ∀ c ∈ "0123456789-".toList, kindChar c = 6 ∧ c ≠ ']' ∧ c ≠ '}' := by decide
  exact key c h

variable {fl : ℚ → Str} {ok : ℚ → Prop}

theorem text_lead (hf : FloatText fl ok) {j : Json} (hd : hasDec j = false) (ho : Floats ok j) :
    ∃ c t, text fl j = c :: t ∧ kindChar c = kindOf j ∧ c ≠ ']' ∧ c ≠ '}' := by
  cases j with
  | null => exact ⟨_, _, by rw [text], by decide⟩
  | bool b => cases b <;> exact ⟨_, _, by rw [text], by decide⟩
  | int n =>
    obtain ⟨c, t, e, h⟩ := dec_lead n
    exact ⟨c, t, by rw [text, e], kind_num h⟩
  | dec c e => rw [hasDec] at hd; cases hd
  | flt q =>
    obtain ⟨c, t, e, h⟩ := hf.lead q (by simpa [Floats] using ho)
    exact ⟨c, t, by rw [text, e], kind_num h⟩
  | str s => exact ⟨'"', _, by rw [text, strText], rfl, by decide⟩
  | arr l => cases l <;> exact ⟨'[', _, by rw [text], rfl, by decide⟩
  | obj l =>
    rcases l with _ | ⟨⟨k, x⟩, l⟩ <;> exact ⟨'{', _, by rw [text], rfl, by decide⟩

theorem stop_arr (l : List Json) (u : Str) : Stop (arrTail fl l ++ u) := by
  cases l <;> (rw [arrTail]; exact .inr ⟨_, _, rfl, by decide⟩)

theorem stop_obj (l : List (Str × Json)) (u : Str) : Stop (objTail fl l ++ u) := by
  rcases l with _ | ⟨⟨k, x⟩, l⟩ <;> (rw [objTail]; exact .inr ⟨_, _, rfl, by decide⟩)

mutual
theorem text_split (hf : FloatText fl ok) : ∀ (j k : Json) {u v : Str}, hasDec j = false → hasDec k = false → Floats ok j → Floats ok k →
    Stop u → Stop v → text fl j ++ u = text fl k ++ v → j = k ∧ u = v
  | j, k, u, v, dj, dk, oj, ok', hu, hv, h => by
    have hkind : kindOf j = kindOf k := by
      obtain ⟨c, t, e, hc, _⟩ := text_lead hf dj oj
      obtain ⟨c', t', e', hc', _⟩ := text_lead hf dk ok'
      rw [e, e'] at h
      rw [← hc, ← hc', (List.cons.inj h).1]
    match j, k with
    | .null, .null => rw [text] at h; exact ⟨rfl, List.append_cancel_left h⟩
    | .bool true, .bool true => rw [text] at h; exact ⟨rfl, List.append_cancel_left h⟩
    | .bool false, .bool false => rw [text] at h; exact ⟨rfl, List.append_cancel_left h⟩
    | .str s, .str t =>
      rw [text, text] at h
      obtain ⟨rfl, rfl⟩ := strText_split h
      exact ⟨rfl, rfl⟩
    | .int m, .int n =>
      rw [text, text] at h
      obtain ⟨e, rfl⟩ := tok_split (fun c hc => (dec_chars c hc).1) (fun c hc => (dec_chars c hc).1) hu hv h
      exact ⟨by rw [Rp.dec_inj e], rfl⟩
    | .flt p, .flt q =>
      rw [Floats] at oj ok'
      rw [text, text] at h
      obtain ⟨e, rfl⟩ := tok_split (hf.chars _ oj) (hf.chars _ ok') hu hv h
      exact ⟨by rw [hf.inj _ _ oj ok' e], rfl⟩
    | .int m, .flt q =>
      rw [Floats] at ok'
      rw [text, text] at h
      obtain ⟨e, _⟩ := tok_split (fun c hc => (dec_chars c hc).1) (hf.chars _ ok') hu hv h
      rcases hf.point _ ok' with hp | hp
      · exact absurd rfl (dec_chars _ (e ▸ hp)).2.1
      · exact absurd rfl (dec_chars _ (e ▸ hp)).2.2
    | .flt q, .int m =>
      rw [Floats] at oj
      rw [text, text] at h
      obtain ⟨e, _⟩ := tok_split (hf.chars _ oj) (fun c hc => (dec_chars c hc).1) hu hv h
      rcases hf.point _ oj with hp | hp
      · exact absurd rfl (dec_chars _ (e ▸ hp)).2.1
      · exact absurd rfl (dec_chars _ (e ▸ hp)).2.2
    | .arr [], .arr [] => rw [text] at h; exact ⟨rfl, List.append_cancel_left h⟩
    | .arr [], .arr (x :: l) =>
      rw [hasDec, hasDecArr, Bool.or_eq_false_iff] at dk
      rw [Floats, FloatsArr] at ok'
      obtain ⟨c, t, e, _, hc, _⟩ := text_lead hf dk.1 ok'.1
      rw [text, text, e] at h
      exact absurd (List.cons.inj (List.cons.inj h).2).1.symm hc
    | .arr (x :: l), .arr [] =>
      rw [hasDec, hasDecArr, Bool.or_eq_false_iff] at dj
      rw [Floats, FloatsArr] at oj
      obtain ⟨c, t, e, _, hc, _⟩ := text_lead hf dj.1 oj.1
      rw [text, text, e] at h
      exact absurd (List.cons.inj (List.cons.inj h).2).1 hc
    | .arr (x :: l), .arr (y :: m) =>
      rw [hasDec, hasDecArr, Bool.or_eq_false_iff] at dj dk
      rw [Floats, FloatsArr] at oj ok'
      rw [text, text, List.cons_append, List.cons_append, List.append_assoc, List.append_assoc] at h
      obtain ⟨rfl, g1⟩ := text_split hf x y dj.1 dk.1 oj.1 ok'.1 (stop_arr _ _) (stop_arr _ _) (List.cons.inj h).2
      obtain ⟨rfl, rfl⟩ := arr_split hf l m dj.2 dk.2 oj.2 ok'.2 hu hv g1
      exact ⟨rfl, rfl⟩
    | .obj [], .obj [] => rw [text] at h; exact ⟨rfl, List.append_cancel_left h⟩
    | .obj [], .obj ((k, x) :: l) =>
      rw [text, text, strText] at h
      exact absurd (List.cons.inj (List.cons.inj h).2).1 (by decide)
    | .obj ((k, x) :: l), .obj [] =>
      rw [text, text, strText] at h
      exact absurd (List.cons.inj (List.cons.inj h).2).1 (by decide)
    | .obj ((k, x) :: l), .obj ((k', y) :: m) =>
      rw [hasDec, hasDecObj, Bool.or_eq_false_iff] at dj dk
      rw [Floats, FloatsObj] at oj ok'
      rw [text, text, List.cons_append, List.cons_append, List.append_assoc, List.append_assoc] at h
      obtain ⟨rfl, g1⟩ := strText_split (List.cons.inj h).2
      have g2 := (List.cons.inj (List.cons.inj g1).2).2
      rw [List.append_eq, List.append_eq, List.append_assoc, List.append_assoc] at g2
      obtain ⟨rfl, g3⟩ := text_split hf x y dj.1 dk.1 oj.1 ok'.1 (stop_obj _ _) (stop_obj _ _) g2
      obtain ⟨rfl, rfl⟩ := obj_split hf l m dj.2 dk.2 oj.2 ok'.2 hu hv g3
      exact ⟨rfl, rfl⟩
theorem arr_split (hf : FloatText fl ok) : ∀ (l m : List Json) {u v : Str}, hasDecArr l = false → hasDecArr m = false → FloatsArr ok l →
    FloatsArr ok m → Stop u → Stop v → arrTail fl l ++ u = arrTail fl m ++ v → l = m ∧ u = v
  | [], [], _, _, _, _, _, _, _, _, h => by rw [arrTail] at h; exact ⟨rfl, List.append_cancel_left h⟩
  | [], x :: l, _, _, _, _, _, _, _, _, h => by rw [arrTail, arrTail] at h; exact absurd (List.cons.inj h).1 (by decide)
  | x :: l, [], _, _, _, _, _, _, _, _, h => by rw [arrTail, arrTail] at h; exact absurd (List.cons.inj h).1 (by decide)
  | x :: l, y :: m, u, v, dj, dk, oj, ok', hu, hv, h => by
    rw [hasDecArr, Bool.or_eq_false_iff] at dj dk
    rw [FloatsArr] at oj ok'
    rw [arrTail, arrTail] at h
    have g1 := (List.cons.inj (List.cons.inj h).2).2
    rw [List.append_eq, List.append_eq, List.append_assoc, List.append_assoc] at g1
    obtain ⟨rfl, g2⟩ := text_split hf x y dj.1 dk.1 oj.1 ok'.1 (stop_arr _ _) (stop_arr _ _) g1
    obtain ⟨rfl, rfl⟩ := arr_split hf l m dj.2 dk.2 oj.2 ok'.2 hu hv g2
    exact ⟨rfl, rfl⟩
theorem obj_split (hf : FloatText fl ok) : ∀ (l m : List (Str × Json)) {u v : Str}, hasDecObj l = false → hasDecObj m = false → FloatsObj ok l →
    FloatsObj ok m → Stop u → Stop v → objTail fl l ++ u = objTail fl m ++ v → l = m ∧ u = v
  | [], [], _, _, _, _, _, _, _, _, h => by rw [objTail] at h; exact ⟨rfl, List.append_cancel_left h⟩
  | [], (k, x) :: l, _, _, _, _, _, _, _, _, h => by rw [objTail, objTail] at h; exact absurd (List.cons.inj h).1 (by decide)
  | (k, x) :: l, [], _, _, _, _, _, _, _, _, h => by rw [objTail, objTail] at h; exact absurd (List.cons.inj h).1 (by decide)
  | (k, x) :: l, (k', y) :: m, u, v, dj, dk, oj, ok', hu, hv, h => by
    rw [hasDecObj, Bool.or_eq_false_iff] at dj dk
    rw [FloatsObj] at oj ok'
    rw [objTail, objTail] at h
    have g1 := (List.cons.inj (List.cons.inj h).2).2
    rw [List.append_eq, List.append_eq, List.append_assoc, List.append_assoc] at g1
    obtain ⟨rfl, g2⟩ := strText_split g1
    have g3 := (List.cons.inj (List.cons.inj g2).2).2
    rw [List.append_eq, List.append_eq, List.append_assoc, List.append_assoc] at g3
    obtain ⟨rfl, g4⟩ := text_split hf x y dj.1 dk.1 oj.1 ok'.1 (stop_obj _ _) (stop_obj _ _) g3
    obtain ⟨rfl, rfl⟩ := obj_split hf l m dj.2 dk.2 oj.2 ok'.2 hu hv g4
    exact ⟨rfl, rfl⟩
end

theorem hasDec_iff (j : Json) : hasDec j = true ↔ DecIn j := by
  have arr : ∀ l : List Json, (∀ x ∈ l, hasDec x = true ↔ DecIn x) → (hasDecArr l = true ↔ ∃ x ∈ l, DecIn x) := by
    intro l hl
    induction l with
    | nil => rw [hasDecArr]; simp
    | cons x l ih =>
      rw [hasDecArr, Bool.or_eq_true, hl x List.mem_cons_self, ih fun y hy => hl y (.tail _ hy)]
      simp
  have obj : ∀ l : List (Str × Json), (∀ x ∈ l, hasDec x.2 = true ↔ DecIn x.2) → (hasDecObj l = true ↔ ∃ x ∈ l, DecIn x.2) := by
    intro l hl
    induction l with
    | nil => rw [hasDecObj]; simp
    | cons x l ih =>
      rw [hasDecObj, Bool.or_eq_true, hl x List.mem_cons_self, ih fun y hy => hl y (.tail _ hy)]
      simp
  match j with
  | .null => exact ⟨fun h => by simp [hasDec] at h, fun h => nomatch h⟩
  | .bool _ => exact ⟨fun h => by simp [hasDec] at h, fun h => nomatch h⟩
  | .int _ => exact ⟨fun h => by simp [hasDec] at h, fun h => nomatch h⟩
  | .flt _ => exact ⟨fun h => by simp [hasDec] at h, fun h => nomatch h⟩
  | .str _ => exact ⟨fun h => by simp [hasDec] at h, fun h => nomatch h⟩
  | .dec c e => rw [hasDec]; exact ⟨fun _ => .here c e, fun _ => rfl⟩
  | .arr l =>
    rw [hasDec, arr l fun x hx => hasDec_iff x]
    exact ⟨fun ⟨x, hx, h⟩ => .arr hx h, fun h => by cases h with | arr hx h => exact ⟨_, hx, h⟩⟩
  | .obj l =>
    rw [hasDec, obj l fun x hx => hasDec_iff x.2]
    exact ⟨fun ⟨x, hx, h⟩ => .obj (k := x.1) hx h, fun h => by cases h with | obj hx h => exact ⟨_, hx, h⟩⟩
termination_by sizeOf j
decreasing_by
  · simp only [Json.arr.sizeOf_spec]; have := List.sizeOf_lt_of_mem hx; omega
  · simp only [Json.obj.sizeOf_spec]
    have := List.sizeOf_lt_of_mem hx
    have : sizeOf x = 1 + sizeOf x.1 + sizeOf x.2 := by cases x; rfl
    omega

theorem ws_blank : Ws [' '] := by
  intro c h
  rw [List.mem_singleton] at h
  exact .inl h

mutual
theorem text_json (hf : FloatText fl ok) : ∀ j : Json, hasDec j = false → Floats ok j → JsonText fl ok j (text fl j)
  | .null, _, _ => by rw [text]; exact .null
  | .bool true, _, _ => by rw [text]; exact .true
  | .bool false, _, _ => by rw [text]; exact .false
  | .int n, _, _ => by rw [text]; exact .int (Rp.dec_numeral n)
  | .dec _ _, h, _ => by rw [hasDec] at h; cases h
  | .flt q, _, h => by rw [text]; exact .flt (by simpa [Floats] using h)
  | .str s, _, _ => by
    rw [text]
    obtain ⟨b, e, h⟩ := C159_string s []
    rw [List.append_nil] at e
    rw [e]
    exact .str h
  | .arr [], _, _ => by rw [text]; exact .nil
  | .arr (x :: l), d, o => by
    rw [hasDec, hasDecArr, Bool.or_eq_false_iff] at d
    rw [Floats, FloatsArr] at o
    rw [text]
    exact .arr (text_json hf x d.1 o.1) (arr_json hf l d.2 o.2)
  | .obj [], _, _ => by rw [text]; exact .empty
  | .obj ((k, x) :: l), d, o => by
    rw [hasDec, hasDecObj, Bool.or_eq_false_iff] at d
    rw [Floats, FloatsObj] at o
    rw [text]
    obtain ⟨b, e, h⟩ := C159_string k []
    rw [List.append_nil] at e
    rw [e]
    exact .obj (w := [' ']) ws_blank h (text_json hf x d.1 o.1) (obj_json hf l d.2 o.2)
theorem arr_json (hf : FloatText fl ok) : ∀ l : List Json, hasDecArr l = false → FloatsArr ok l → Items fl ok l (arrTail fl l)
  | [], _, _ => by rw [arrTail]; exact .done
  | x :: l, d, o => by
    rw [hasDecArr, Bool.or_eq_false_iff] at d
    rw [FloatsArr] at o
    rw [arrTail]
    exact .more (w := [' ']) ws_blank (text_json hf x d.1 o.1) (arr_json hf l d.2 o.2)
theorem obj_json (hf : FloatText fl ok) : ∀ l : List (Str × Json), hasDecObj l = false → FloatsObj ok l → Members fl ok l (objTail fl l)
  | [], _, _ => by rw [objTail]; exact .done
  | (k, x) :: l, d, o => by
    rw [hasDecObj, Bool.or_eq_false_iff] at d
    rw [FloatsObj] at o
    rw [objTail]
    obtain ⟨b, e, h⟩ := C159_string k []
    rw [List.append_nil] at e
    rw [e]
    exact .more (w := [' ']) (w' := [' ']) ws_blank ws_blank h (text_json hf x d.1 o.1) (obj_json hf l d.2 o.2)
end

theorem floatsArr {l : List Json} (h : ∀ x ∈ l, Floats ok x) : FloatsArr ok l := by
  induction l with
  | nil => rw [FloatsArr]; trivial
  | cons x l ih => rw [FloatsArr]; exact ⟨h x List.mem_cons_self, ih fun y hy => h y (.tail _ hy)⟩

theorem floats_req {r : Req} (h : ∀ x ∈ r.params, Floats ok x) : Floats ok (reqJson r) := by
  unfold reqJson
  simp only [Floats, FloatsObj, true_and, and_true]
  exact floatsArr h

/-- C159: what is sent is, in the grammar of JSON, the object with the version, the method, the arguments and the id. -/
theorem C159_json (hf : FloatText fl ok) {r : Req} {s : Str} (ho : ∀ x ∈ r.params, Floats ok x) (h : postdata fl r = .ok s) :
    JsonText fl ok (.obj [("version".toList, .str "1.1".toList), ("method".toList, .str r.method), ("params".toList, .arr r.params), ("id".toList, .int r.id)]) s := by
  unfold postdata dumps at h
  split at h
  · cases h
  · rename_i hd
    cases h
    exact text_json hf (reqJson r) (by simpa using hd) (floats_req ho)

theorem hexChar_ascii {d : Nat} (h : d < 16) : 32 ≤ (hexChar d).toNat ∧ (hexChar d).toNat ≤ 126 := by
  have key : ∀ d : Fin 16, 32 ≤ (hexChar d).toNat ∧ (hexChar d).toNat ≤ 126 := by decide
  exact key ⟨d, h⟩

theorem hex4_ascii (n : Nat) : ∀ c ∈ hex4 n, 32 ≤ c.toNat ∧ c.toNat ≤ 126 := by
  intro c h
  simp only [hex4, List.mem_cons, List.not_mem_nil, or_false] at h
  rcases h with rfl | rfl | rfl | rfl <;> exact hexChar_ascii (Nat.mod_lt _ (by decide))

/-- C159: the texts in it are sent as printable ASCII characters, whatever they are. -/
theorem C159_ascii (s : Str) : ∀ c ∈ strText s, 32 ≤ c.toNat ∧ c.toNat ≤ 126 := by
  have body : ∀ s : Str, ∀ c ∈ strBody s, 32 ≤ c.toNat ∧ c.toNat ≤ 126 := by
    intro s
    induction s with
    | nil => intro c h; rw [strBody, List.mem_singleton] at h; subst h; decide
    | cons d s ih =>
      intro c h
      rw [strBody] at h
      rcases List.mem_append.mp h with h | h
      · unfold escChar at h
        split at h
        · simp only [List.mem_cons, List.not_mem_nil, or_false] at h; rcases h with rfl | rfl <;> decide
        split at h
        · simp only [List.mem_cons, List.not_mem_nil, or_false] at h; rcases h with rfl | rfl <;> decide
        split at h
        · simp only [List.mem_cons, List.not_mem_nil, or_false] at h; rcases h with rfl | rfl <;> decide
        split at h
        · simp only [List.mem_cons, List.not_mem_nil, or_false] at h; rcases h with rfl | rfl <;> decide
        split at h
        · simp only [List.mem_cons, List.not_mem_nil, or_false] at h; rcases h with rfl | rfl <;> decide
        split at h
        · simp only [List.mem_cons, List.not_mem_nil, or_false] at h; rcases h with rfl | rfl <;> decide
        split at h
        · simp only [List.mem_cons, List.not_mem_nil, or_false] at h; rcases h with rfl | rfl <;> decide
        split at h
        · rename_i hd; rw [List.mem_singleton] at h; subst h; exact hd
        split at h
        · rcases List.mem_cons.mp h with rfl | h
          · decide
          rcases List.mem_cons.mp h with rfl | h
          · decide
          · exact hex4_ascii _ c h
        · rcases List.mem_cons.mp h with rfl | h
          · decide
          rcases List.mem_cons.mp h with rfl | h
          · decide
          rcases List.mem_append.mp h with h | h
          · exact hex4_ascii _ c h
          rcases List.mem_cons.mp h with rfl | h
          · decide
          rcases List.mem_cons.mp h with rfl | h
          · decide
          · exact hex4_ascii _ c h
      · exact ih c h
  intro c h
  rcases List.mem_cons.mp h with rfl | h
  · decide
  · exact body s c h

/-- C159: a request is not sent, with a `TypeError`, exactly if there is a `Decimal` in it. -/
theorem C159_fails (r : Req) : postdata fl r = .error .typeError ↔ ∃ x ∈ r.params, DecIn x := by
  have e : hasDec (reqJson r) = true ↔ ∃ x ∈ r.params, DecIn x := by
    rw [hasDec_iff]
    constructor
    · intro h
      cases h with
      | obj hx h =>
        simp only [List.mem_cons, Prod.mk.injEq, List.not_mem_nil, or_false] at hx
        rcases hx with ⟨_, rfl⟩ | ⟨_, rfl⟩ | ⟨_, rfl⟩ | ⟨_, rfl⟩
        · cases h
        · cases h
        · cases h with | arr hx h => exact ⟨_, hx, h⟩
        · cases h
    · rintro ⟨x, hx, h⟩
      exact .obj (k := T "params") (x := .arr r.params) (by simp) (.arr hx h)
  rw [← e]
  unfold postdata dumps
  split
  · rename_i h; exact ⟨fun _ => h, fun _ => rfl⟩
  · rename_i h; exact ⟨fun g => (nomatch g), fun g => absurd g h⟩

theorem dumps_ok {j : Json} {s : Str} (h : dumps fl j = .ok s) : hasDec j = false ∧ text fl j = s := by
  unfold dumps at h
  split at h
  · cases h
  · rename_i hd; cases h; exact ⟨by simpa using hd, rfl⟩

/-- C159: what is sent tells the request: the method, the arguments and the id; no text in the arguments can make it another one. -/
theorem C159_tells (hf : FloatText fl ok) {r r' : Req} {s : Str} (ho : ∀ x ∈ r.params, Floats ok x) (ho' : ∀ x ∈ r'.params, Floats ok x)
    (h : postdata fl r = .ok s) (h' : postdata fl r' = .ok s) : r = r' := by
  obtain ⟨d, e⟩ := dumps_ok h
  obtain ⟨d', e'⟩ := dumps_ok h'
  obtain ⟨g, _⟩ := text_split hf (reqJson r) (reqJson r') (u := []) (v := []) d d' (floats_req ho) (floats_req ho') (.inl rfl) (.inl rfl) (by rw [e, e'])
  unfold reqJson at g
  simp only [Json.obj.injEq, List.cons.injEq, Prod.mk.injEq, Json.str.injEq, Json.arr.injEq, Json.int.injEq, true_and, and_true, Int.natCast_inj] at g
  obtain ⟨m, p, i⟩ := r
  obtain ⟨m', p', i'⟩ := r'
  simp only at g
  obtain ⟨rfl, rfl, rfl⟩ := g
  rfl

/-- C159: so does a batch: the values in it, in their order. -/
theorem C159_batch (hf : FloatText fl ok) {l l' : List Json} {s : Str} (ho : FloatsArr ok l) (ho' : FloatsArr ok l')
    (h : batchData fl l = .ok s) (h' : batchData fl l' = .ok s) : l = l' := by
  obtain ⟨d, e⟩ := dumps_ok h
  obtain ⟨d', e'⟩ := dumps_ok h'
  obtain ⟨g, _⟩ := text_split hf (.arr l) (.arr l') (u := []) (v := []) d d' (by rwa [Floats]) (by rwa [Floats]) (.inl rfl) (.inl rfl) (by rw [e, e'])
  exact Json.arr.inj g

/-! ## Cases that meet the conditions -/

/-- Texts for the `float`s 1.5 and 2.5. -/
def Ex.floatText (q : ℚ) : Str := if q = 3 / 2 then "1.5".toList else "2.5".toList

theorem Ex.floatText_works : FloatText Ex.floatText (fun q => q = 3 / 2 ∨ q = 5 / 2) := by
  have h1 : Ex.floatText (3 / 2) = "1.5".toList := if_pos rfl
  have h2 : Ex.floatText (5 / 2) = "2.5".toList := if_neg (by norm_num)
  constructor
  · rintro q (rfl | rfl)
    · rw [h1]; decide
    · rw [h2]; decide
  · rintro q (rfl | rfl)
    · exact ⟨'1', ".5".toList, h1, by decide⟩
    · exact ⟨'2', ".5".toList, h2, by decide⟩
  · rintro q (rfl | rfl)
    · rw [h1]; decide
    · rw [h2]; decide
  · rintro q q' (rfl | rfl) (rfl | rfl) h
    · rfl
    · rw [h1, h2] at h; exact absurd h (by decide)
    · rw [h1, h2] at h; exact absurd h (by decide)
    · rfl

/-- A request with a text that has quotes, a line feed and characters of other alphabets, and with an amount. -/
example : postdata Ex.floatText ⟨T "sendtoaddress", [.str (T "a\"],\né€😀"), .flt (3 / 2)], 7⟩ =
    .ok (T "{\"version\": \"1.1\", \"method\": \"sendtoaddress\", \"params\": [\"a\\\"],\\n\\u00e9\\u20ac\\ud83d\\ude00\", 1.5], \"id\": 7}") := by
  have h1 : Ex.floatText (3 / 2) = "1.5".toList := if_pos rfl
  have h7 : Sus.dec ((7 : Nat) : Int) = ['7'] := by decide +kernel
  simp only [postdata, dumps, reqJson, hasDec, hasDecArr, hasDecObj, Bool.or_false, Bool.false_eq_true, if_false, text, arrTail, objTail, h1, h7]
  decide +kernel

end Verif.Rpc
