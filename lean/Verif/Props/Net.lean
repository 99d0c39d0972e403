import Verif.Lemmas.Net
import Verif.Model.Sha256
/-!
# C105–C108: messages between nodes

`aton` is `socket.inet_aton`, of which `Inet` is assumed.  `magic` is the `MESSAGE_START` of a network.
-/
namespace Verif.Btc
open Verif

/-! ## An `inet_aton` that meets `Inet` -/

/-- The parts of a text between dots. -/
def splitDots : List Char → List (List Char)
  | [] => [[]]
  | c :: cs =>
    match splitDots cs with
    | [] => [[]]
    | p :: ps => if c = '.' then [] :: p :: ps else (c :: p) :: ps

/-- `inet_aton` of exactly the texts that `inet_ntoa` gives. -/
def quads (t : List Char) : Py Bytes :=
  match (splitDots t).mapM (fun p => (List.range 256).map (BitVec.ofNat 8) |>.find? (fun b => decimal b = p)) with
  | some b => if b.length = 4 then .ok b else .error .other
  | none => .error .other

theorem splitDots_word : ∀ {p : List Char}, '.' ∉ p → splitDots p = [p]
  | [], _ => rfl
  | c :: cs, h => by
    rw [splitDots, splitDots_word (fun h' => h (List.mem_cons_of_mem _ h'))]
    exact if_neg (fun h' => h (by rw [h']; exact List.mem_cons_self ..))

theorem splitDots_dot (r : List Char) : splitDots ('.' :: r) = [] :: splitDots r := by
  have : splitDots r ≠ [] := by cases r <;> simp only [splitDots] <;> (try split) <;> (try split) <;> simp
  rw [splitDots]
  cases h : splitDots r with
  | nil => exact absurd h this
  | cons p ps => rfl

theorem splitDots_append : ∀ {p : List Char} (r : List Char), '.' ∉ p → splitDots (p ++ '.' :: r) = p :: splitDots r
  | [], r, _ => splitDots_dot r
  | c :: cs, r, h => by
    rw [List.cons_append, splitDots, splitDots_append r (fun h' => h (List.mem_cons_of_mem _ h'))]
    exact if_neg (fun h' => h (by rw [h']; exact List.mem_cons_self ..))

theorem decimal_dot : ∀ b : Byte, '.' ∉ decimal b := by decide +kernel

theorem decimal_find : ∀ b : Byte, ((List.range 256).map (BitVec.ofNat 8)).find? (fun x => decimal x = decimal b) = some b := by decide +kernel

theorem inet_quads : Inet quads where
  four {t b} h := by
    unfold quads at h
    split at h
    · split at h
      · cases h; assumption
      · cases h
    · cases h
  ntoa {b} h := by
    match b, h with
    | [a, b, c, d], _ =>
      unfold quads
      simp only [ntoa]
      rw [splitDots_append _ (decimal_dot a), splitDots_append _ (decimal_dot b), splitDots_append _ (decimal_dot c), splitDots_word (decimal_dot d)]
      simp only [List.mapM_cons, List.mapM_nil, decimal_find]
      rfl

example : quads "127.0.0.1".toList = .ok [127#8, 0#8, 0#8, 1#8] := by decide +kernel

/-! ## C105: what is sent arrives -/

theorem toBytes_frame {H : HashFns} {aton : List Char → Py Bytes} {magic b : Bytes} {m : Msg} (h : m.toBytes H aton magic = .ok b) :
    ∃ body, m.ser aton = .ok body ∧ Frame H magic (m.command ++ List.replicate (12 - m.command.length) 0#8) body b := by
  unfold Msg.toBytes at h
  obtain ⟨body, hb, h⟩ := Except.bind_eq_ok h
  obtain ⟨l, hl, h⟩ := Except.bind_eq_ok h
  cases h
  refine ⟨body, hb, ?_⟩
  unfold packU at hl
  split at hl
  · rename_i hr
    cases hl
    rw [Int.toNat_natCast, List.append_assoc magic]
    have hr2 := hr.2
    refine .mk _ _ ?_ (by omega)
    cases m <;> rfl
  · cases hl

theorem command_name (m : Msg) : (m.command ++ List.replicate (12 - m.command.length) 0#8).takeWhile (· ≠ 0#8) = m.command := by
  cases m <;> simp only [Msg.command] <;> decide +kernel

theorem RT.frame {H : HashFns} {magic c body b : Bytes} {r : Option Msg} (hm : magic.length = 4) (hf : Frame H magic c body b) (hl : body.length ≤ MAX_SIZE)
    (hd : decoded H c body = .ok r) : RT .btcTrunc (Msg.streamDeser H magic) b r := by
  cases hf with
  | mk lc lb =>
  have h31 : body.length < 2 ^ 31 := by unfold MAX_SIZE at hl; omega
  have hk : ((H.hash256 body).take 4).length = 4 := by rw [List.length_take, HashFns.hash256, H.sha256_len]; rfl
  have hn : leNat (leBytes 4 body.length) = body.length := leNat_leBytes 4 _ lb
  constructor
  · intro rest
    rw [List.append_assoc _ body rest, streamDeser_pos H magic hm lc (leBytes_length 4 _) hk (by rw [hn]; exact h31), hn, (RT.serRead rfl hl).reads rest]
    dsimp only
    rw [if_neg (by simp), hd]
  · intro pre suf he hs _
    by_cases h24 : pre.length < 24
    · unfold Msg.streamDeser
      apply P.bind_error
      unfold Btc.serRead
      rw [if_neg (by decide), if_pos (by rw [List.length_take]; omega)]
    · have h0 : (magic ++ c ++ leBytes 4 body.length ++ (H.hash256 body).take 4).length = 24 := by
        simp only [List.length_append, hm, lc, hk, leBytes_length]
      rcases List.append_eq_append_iff.mp he with ⟨as, ha, hb⟩ | ⟨as, ha, hb⟩
      · rw [ha, streamDeser_pos H magic hm lc (leBytes_length 4 _) hk (by rw [hn]; exact h31), hn, (RT.serRead rfl hl).trunc as suf hb hs nofun]
      · have h1 := congrArg List.length ha
        rw [h0, List.length_append] at h1
        have : as = [] := List.eq_nil_of_length_eq_zero (by omega)
        subst this
        rw [List.append_nil] at ha
        rw [List.nil_append] at hb
        have := streamDeser_pos H magic (tail := []) hm lc (leBytes_length 4 _) hk (by rw [hn]; exact h31)
        rw [List.append_nil] at this
        rw [← ha, this, hn, (RT.serRead rfl hl).trunc [] body rfl (by rw [← hb]; exact hs) nofun]

theorem reads_message {H : HashFns} {aton : List Char → Py Bytes} (hi : Inet aton) {magic b : Bytes} (hm : magic.length = 4) {m : Msg}
    (h : m.toBytes H aton magic = .ok b) (hf : m.Fits) (hl : b.length ≤ 24 + MAX_SIZE) :
    RT .btcTrunc (Msg.streamDeser H magic) b (some (m.received aton)) := by
  obtain ⟨body, hb, hfr⟩ := toBytes_frame h
  have hlb : body.length ≤ MAX_SIZE := by
    cases hfr with
    | mk lc lb =>
      have hk : ((H.hash256 body).take 4).length = 4 := by rw [List.length_take, HashFns.hash256, H.sha256_len]; rfl
      rw [List.length_append, List.length_append, List.length_append, List.length_append, hk, lc, leBytes_length, hm] at hl
      omega
  obtain ⟨de, h1, h2⟩ := body_reads H hi hb hf hlb
  refine RT.frame hm hfr hlb ?_
  unfold decoded
  rw [command_name, h1]
  have := h2.reads []
  rw [List.append_nil] at this
  dsimp only
  rw [this]

theorem CAddress.Plain.received {aton : List Char → Py Bytes} (hi : Inet aton) {wt : Bool} {a : CAddress} (h : a.Plain wt) : a.received aton wt = a := by
  obtain ⟨h1, h2, i, h3, h4⟩ := h
  obtain ⟨p, t, s, r, ip, port⟩ := a
  dsimp only at h1 h2 h4
  unfold CAddress.received
  dsimp only
  rw [h4, hi.ntoa h3]
  dsimp only
  rw [h1]
  cases wt with
  | false => rfl
  | true => rw [h2 rfl]; rfl

theorem Msg.Plain.received {aton : List Char → Py Bytes} (hi : Inet aton) {m : Msg} (h : m.Plain) : m.received aton = m := by
  cases m with
  | version m =>
    obtain ⟨h1, h2⟩ := h
    obtain ⟨v, s, t, dst, frm, n, sub, hh⟩ := m
    simp only [Msg.received]
    dsimp only at h1 h2
    rw [h1.received hi]
    cases frm with
    | none => rfl
    | some f => rw [Option.map_some, (h2 f rfl).received hi]
  | addr as =>
    simp only [Msg.received]
    congr 1
    conv => rhs; rw [← List.map_id as]
    exact List.map_congr_left fun a ha => (h a ha).received hi
  | _ => rfl

/-- C105: a message comes back from its bytes, whatever follows them, and nothing of what follows is taken. -/
theorem C105_stream {H : HashFns} {aton : List Char → Py Bytes} (hi : Inet aton) {magic b : Bytes} (hm : magic.length = 4) {m : Msg}
    (h : m.toBytes H aton magic = .ok b) (hf : m.Fits) (hp : m.Plain) (hl : b.length ≤ 24 + MAX_SIZE) (rest : Bytes) :
    Msg.streamDeser H magic (b ++ rest) = .ok (some m, rest) := by
  have := (reads_message hi hm h hf hl).reads rest
  rwa [hp.received hi] at this

/-- C105: `from_bytes` undoes `to_bytes`. -/
theorem C105_from_bytes {H : HashFns} {aton : List Char → Py Bytes} (hi : Inet aton) {b : Bytes} {m : Msg}
    (h : m.toBytes H aton mainMagic = .ok b) (hf : m.Fits) (hp : m.Plain) (hl : b.length ≤ 24 + MAX_SIZE) : Msg.fromBytes H b = .ok (some m) := by
  have := C105_stream hi (by rfl) h hf hp hl []
  rw [List.append_nil] at this
  unfold Msg.fromBytes
  rw [this]
  rfl

/-- Reading as many messages as there are. -/
def readMessages (H : HashFns) (magic : Bytes) : Nat → P (List (Option Msg))
  | 0 => return []
  | n + 1 => do
    let m ← Msg.streamDeser H magic
    let ms ← readMessages H magic n
    return m :: ms

/-- C105: so do messages written one after the other to a stream. -/
theorem C105_sequence {H : HashFns} {aton : List Char → Py Bytes} (hi : Inet aton) {magic : Bytes} (hm : magic.length = 4) :
    ∀ {ms : List Msg} {bs : List Bytes}, ms.mapM (fun m => m.toBytes H aton magic) = .ok bs → (∀ m ∈ ms, m.Fits ∧ m.Plain) →
    (∀ b ∈ bs, b.length ≤ 24 + MAX_SIZE) → ∀ rest, readMessages H magic ms.length (bs.flatten ++ rest) = .ok (ms.map some, rest)
  | [], bs, h, _, _, rest => by cases h; rfl
  | m :: ms, bs, h, hf, hl, rest => by
    rw [List.mapM_cons] at h
    obtain ⟨b, hb, h⟩ := Except.bind_eq_ok h
    obtain ⟨bs', hbs, h⟩ := Except.bind_eq_ok h
    cases h
    rw [List.flatten_cons, List.append_assoc]
    show (do let m ← Msg.streamDeser H magic; let ms' ← readMessages H magic ms.length; return m :: ms' : P _) _ = _
    obtain ⟨f1, f2⟩ := hf m (List.mem_cons_self ..)
    rw [P.bind_ok (C105_stream hi hm hb f1 f2 (hl b (List.mem_cons_self ..)) _),
      P.bind_ok (C105_sequence hi hm hbs (fun m hm => hf m (List.mem_cons_of_mem _ hm)) (fun b hb => hl b (List.mem_cons_of_mem _ hb)) rest)]
    rfl

/-- C105: of a message cut short nothing is read. -/
theorem C105_truncated {H : HashFns} {aton : List Char → Py Bytes} (hi : Inet aton) {magic b : Bytes} (hm : magic.length = 4) {m : Msg}
    (h : m.toBytes H aton magic = .ok b) (hf : m.Fits) (hl : b.length ≤ 24 + MAX_SIZE) {pre suf : Bytes} (hb : b = pre ++ suf) (hs : suf ≠ []) :
    Msg.streamDeser H magic pre = .error .btcTrunc :=
  (reads_message hi hm h hf hl).trunc pre suf hb hs nofun

/-- C105: different messages have different bytes. -/
theorem C105_injective {H : HashFns} {aton : List Char → Py Bytes} (hi : Inet aton) {magic b : Bytes} (hm : magic.length = 4) {m m' : Msg}
    (h : m.toBytes H aton magic = .ok b) (h' : m'.toBytes H aton magic = .ok b) (hf : m.Fits) (hf' : m'.Fits) (hp : m.Plain) (hp' : m'.Plain)
    (hl : b.length ≤ 24 + MAX_SIZE) : m = m' := by
  have h1 := C105_stream hi hm h hf hp hl []
  rw [C105_stream hi hm h' hf' hp' hl []] at h1
  cases h1
  rfl

/-- A message meeting the conditions. -/
def exVersion : Msg := .version ⟨60002, 1, 1416000000, {}, some { ip := "127.0.0.1".toList, port := 8333 }, some 7, some (ascii "/python-bitcoin-0.0.1/"), some (-1)⟩

example : exVersion.Fits ∧ exVersion.Plain := by
  refine ⟨⟨⟨rfl, (fun h => by cases h)⟩, ?_, by decide, by decide⟩, ⟨rfl, fun _ => rfl, [0#8, 0#8, 0#8, 0#8], rfl, by decide +kernel⟩, ?_⟩
  · intro a h
    cases h
    exact ⟨rfl, fun h => by cases h⟩
  · intro a h
    cases h
    exact ⟨rfl, fun _ => rfl, [127#8, 0#8, 0#8, 1#8], rfl, by decide +kernel⟩
example : (exVersion.toBytes realHash quads mainMagic).map List.length = .ok 131 ∧
    (do let b ← exVersion.toBytes realHash quads mainMagic; Msg.fromBytes realHash b) = .ok (some exVersion) := by decide +kernel
example : (Msg.getblocks ⟨1, [List.replicate 32 1#8]⟩ (List.replicate 32 0#8)).Fits := rfl
example : (do let b ← (Msg.getblocks ⟨1, [List.replicate 32 1#8]⟩ (List.replicate 32 0#8)).toBytes realHash quads mainMagic; Msg.fromBytes realHash b) =
      .ok (some (Msg.getblocks ⟨1, [List.replicate 32 1#8]⟩ (List.replicate 32 0#8))) := by decide +kernel

/-! ## C106: what arrives is equal to what was sent -/

/-- C106, the claim: what was written is read back as a message of the same class with the same bytes, which is what `==` compares. -/
def C106_statement : Prop := ∀ (H : HashFns) (aton : List Char → Py Bytes), Inet aton → ∀ (m : Msg) (b : Bytes), m.toBytes H aton mainMagic = .ok b →
  b.length ≤ 24 + MAX_SIZE → ∃ m', Msg.streamDeser H mainMagic b = .ok (some m', []) ∧ m'.command = m.command ∧ m'.toBytes H aton mainMagic = .ok b

/-- A `version` of protocol 10300. -/
def v10300 : Msg := .version ⟨10300, 1, 0, {}, some {}, some 0, some [], some 0⟩

/-- C106 is refuted: protocol version 10300 is read as 300. -/
theorem C106_refuted : ¬ C106_statement := fun h => by
  have h1 : (do let b ← v10300.toBytes realHash quads mainMagic; (do let r ← Msg.streamDeser realHash mainMagic b; return (r, b.length)) : Py _) =
      .ok ((some (.version ⟨300, 1, 0, {}, some {}, some 0, some [], some 0⟩), []), 109) := by decide +kernel
  obtain ⟨b, hb, h1⟩ := Except.bind_eq_ok h1
  obtain ⟨r, hr, h1⟩ := Except.bind_eq_ok h1
  injection h1 with h1
  injection h1 with h1 h4
  subst h1
  obtain ⟨m', h2, _, h3⟩ := h realHash quads inet_quads v10300 b hb (by
    unfold MAX_SIZE
    omega)
  rw [hr] at h2
  cases h2
  rw [← hb] at h3
  revert h3
  decide +kernel

theorem CAddress.received_ser {aton : List Char → Py Bytes} (hi : Inet aton) {wt : Bool} {a : CAddress} {e : Bytes} (h : a.ser aton wt = .ok e) (hf : a.Fits wt) :
    (a.received aton wt).ser aton wt = .ok e := by
  obtain ⟨p, t, s, r, ip, port⟩ := a
  unfold CAddress.ser at h ⊢
  obtain ⟨t', ht, h⟩ := Except.bind_eq_ok h
  obtain ⟨s', hs, h⟩ := Except.bind_eq_ok h
  obtain ⟨i, hip, h⟩ := Except.bind_eq_ok h
  obtain ⟨p', hp, h5⟩ := Except.bind_eq_ok h
  dsimp only at ht hs hip hp
  have h4 := hi.ntoa (hi.four hip)
  unfold CAddress.received
  dsimp only
  rw [hip]
  dsimp only
  rw [h4, hs, hp]
  cases wt with
  | true =>
    rw [if_neg (by simp)] at ht ⊢
    rw [ht]
    exact h5
  | false =>
    rw [if_pos ⟨hf.2 rfl, rfl⟩] at ht
    rw [if_pos ⟨by decide, rfl⟩]
    rw [if_neg (by simp), ht]
    exact h5

theorem serVector_map {α} {ser : α → Py Bytes} (f : α → α) {xs : List α} {e : Bytes} (h : serVector ser xs = .ok e)
    (hx : ∀ x ∈ xs, ∀ e, ser x = .ok e → ser (f x) = .ok e) : serVector ser (xs.map f) = .ok e := by
  have h2 : ∀ (xs : List α) {es : Bytes}, serEach ser xs = .ok es → (∀ x ∈ xs, ∀ e, ser x = .ok e → ser (f x) = .ok e) → serEach ser (xs.map f) = .ok es := by
    intro xs
    induction xs with
    | nil => intro es h _; exact h
    | cons x xs ih =>
      intro es h hx
      rw [serEach] at h
      obtain ⟨a, ha, h⟩ := Except.bind_eq_ok h
      obtain ⟨as, has, h⟩ := Except.bind_eq_ok h
      rw [List.map_cons, serEach, hx x (List.mem_cons_self ..) a ha, Except.bind_ok, ih has (fun y hy => hx y (List.mem_cons_of_mem _ hy)), Except.bind_ok]
      exact h
  unfold serVector at h ⊢
  obtain ⟨l, hl, h⟩ := Except.bind_eq_ok h
  obtain ⟨es, hes, h⟩ := Except.bind_eq_ok h
  rw [List.length_map, hl, Except.bind_ok, h2 xs hes hx, Except.bind_ok]
  exact h

theorem received_ser {aton : List Char → Py Bytes} (hi : Inet aton) {m : Msg} {e : Bytes} (h : m.ser aton = .ok e) (hf : m.Fits) :
    (m.received aton).ser aton = .ok e := by
  cases m with
  | version m =>
    obtain ⟨v, s, t, dst, frm, n, sub, hh⟩ := m
    obtain ⟨f1, f2, _⟩ := hf
    simp only [Msg.received, Msg.ser, VersionMsg.ser] at h ⊢
    obtain ⟨bv, hv, h⟩ := Except.bind_eq_ok h
    obtain ⟨bs, hs, h⟩ := Except.bind_eq_ok h
    obtain ⟨bt, ht, h⟩ := Except.bind_eq_ok h
    obtain ⟨bto, hto, h⟩ := Except.bind_eq_ok h
    obtain ⟨f, hf', h⟩ := Except.bind_eq_ok h
    obtain ⟨bfrm, hfrm, h5⟩ := Except.bind_eq_ok h
    cases orRaise_ok hf'
    rw [hv, Except.bind_ok, hs, Except.bind_ok, ht, Except.bind_ok, CAddress.received_ser hi hto f1, Except.bind_ok, Option.map_some]
    show (do let frm ← CAddress.ser aton true _; _ : Py Bytes) = _
    rw [CAddress.received_ser hi hfrm (f2 f rfl), Except.bind_ok]
    exact h5
  | addr as => exact serVector_map _ h fun a ha e he => CAddress.received_ser hi he (hf a ha)
  | _ => exact h

theorem received_command (aton : List Char → Py Bytes) (m : Msg) : (m.received aton).command = m.command := by cases m <;> rfl

/-- C106, as far as it holds: fields have the lengths of the protocol, versions send all the fields that are read back, addresses are
recent enough to send their time.  What arrives is then known exactly, and equal. -/
theorem C106_equal_partial {H : HashFns} {aton : List Char → Py Bytes} (hi : Inet aton) {magic b : Bytes} (hm : magic.length = 4) {m : Msg}
    (h : m.toBytes H aton magic = .ok b) (hf : m.Fits) (hl : b.length ≤ 24 + MAX_SIZE) (rest : Bytes) :
    Msg.streamDeser H magic (b ++ rest) = .ok (some (m.received aton), rest) ∧ (m.received aton).command = m.command ∧
      (m.received aton).toBytes H aton magic = .ok b := by
  refine ⟨(reads_message hi hm h hf hl).reads rest, received_command aton m, ?_⟩
  unfold Msg.toBytes at h ⊢
  obtain ⟨body, hb, h⟩ := Except.bind_eq_ok h
  rw [received_ser hi hb hf, Except.bind_ok, received_command]
  exact h

/-- C106, the versions left out: what arrives of them, exactly. -/
theorem C106_version_partial {H : HashFns} {aton : List Char → Py Bytes} (hi : Inet aton) {magic b : Bytes} (hm : magic.length = 4) {m : VersionMsg}
    (h : (Msg.version m).toBytes H aton magic = .ok b) (h1 : m.addrTo.Fits true) (h2 : ∀ a, m.addrFrom = some a → a.Fits true) (hl : b.length ≤ 24 + MAX_SIZE)
    (rest : Bytes) : Msg.streamDeser H magic (b ++ rest) = .ok (some (.version (m.arrives aton)), rest) := by
  obtain ⟨body, hb, hfr⟩ := toBytes_frame h
  have hlb : body.length ≤ MAX_SIZE := by
    cases hfr with
    | mk lc lb =>
      have hk : ((H.hash256 body).take 4).length = 4 := by rw [List.length_take, HashFns.hash256, H.sha256_len]; rfl
      rw [List.length_append, List.length_append, List.length_append, List.length_append, hk, lc, leBytes_length, hm] at hl
      omega
  obtain ⟨left, h3⟩ := versionMsg_arrives hi hb h1 h2 hlb
  refine (RT.frame hm hfr hlb ?_).reads rest
  unfold decoded
  rw [command_name]
  have : (messagemap H).lookup (Msg.version m).command = some (do let m ← VersionMsg.deser; return .version m) := rfl
  rw [this]
  dsimp only
  rw [P.bind_ok h3]
  rfl

example : (do let b ← v10300.toBytes realHash quads mainMagic; Msg.fromBytes realHash b) =
    .ok (some (.version ⟨300, 1, 0, {}, some {}, some 0, some [], some 0⟩)) := by decide +kernel
/-- The version before 209 has no height, and cannot be written again. -/
example : (do let b ← (Msg.version ⟨208, 1, 0, {}, some {}, some 0, some [], some 0⟩).toBytes realHash quads mainMagic; Msg.fromBytes realHash b) =
    .ok (some (.version ⟨208, 1, 0, {}, some {}, some 0, some [], none⟩)) := by decide +kernel
/-- An address so old that it does not send a time is not understood. -/
example : (do let b ← (Msg.addr [{ protover := 300 }]).toBytes realHash quads mainMagic; Msg.fromBytes realHash b) = .error .btcTrunc := by decide +kernel

/-! ## C107: only messages are accepted -/

/-- C107, the claim: what is accepted is a message: the network's four bytes, a command, the length of the body, its checksum, the body,
which stands for what is returned; and nothing more is taken. -/
def C107_statement : Prop := ∀ (H : HashFns) (s rest : Bytes) (r : Option Msg), Msg.streamDeser H mainMagic s = .ok (r, rest) →
  ∃ c body b, s = b ++ rest ∧ Frame H mainMagic c body b ∧ decoded H c body = .ok r

/-- A `verack` whose length is 2³² - 1, and what follows it. -/
def longVerack : Bytes := mainMagic ++ ascii "verack" ++ List.replicate 6 0#8 ++ [0xff#8, 0xff#8, 0xff#8, 0xff#8] ++ hex "5df6e0e2" ++ ascii "the next message"

/-- C107 is refuted: a length of 2³¹ or more is read as a negative number, and all that follows is taken. -/
theorem C107_refuted : ¬ C107_statement := fun h => by
  have h1 : Msg.streamDeser realHash mainMagic longVerack = .ok (some .verack, []) := by decide +kernel
  obtain ⟨c, body, b, hb, hf, _⟩ := h realHash _ _ _ h1
  rw [List.append_nil] at hb
  subst hb
  generalize hg : longVerack = b at hf
  cases hf with
  | mk lc lb =>
  have h2 : (longVerack.drop 16).take 4 = [0xff#8, 0xff#8, 0xff#8, 0xff#8] := by decide +kernel
  have h3 : longVerack.length = 40 := by decide +kernel
  have hm : mainMagic.length = 4 := rfl
  have hk : ((realHash.hash256 body).take 4).length = 4 := by rw [List.length_take, HashFns.hash256, realHash.sha256_len]; rfl
  have h4 := congrArg List.length hg
  rw [h3] at h4
  simp only [List.length_append, lc, leBytes_length, hm, hk] at h4
  have h5 : body.length = 16 := by omega
  rw [hg, List.append_assoc, List.append_assoc, List.drop_append_of_le_length (by rw [List.length_append, lc, hm]),
    List.drop_of_length_le (by rw [List.length_append, lc, hm]), List.nil_append, List.take_append_of_le_length (by rw [leBytes_length]),
    List.take_of_length_le (by rw [leBytes_length]), h5] at h2
  revert h2
  decide

/-- C107, as far as it holds, exactly: what is accepted is a message whose body has at most `MAX_SIZE` bytes; or its length is from
2³¹ up to 2³², and the body is what is left of the stream after the last 2³² - 24 - length bytes are cut off (nothing, if the length is 2³² - 24 or
more), and the rest of the stream is lost. -/
theorem C107_accepted_partial {H : HashFns} {magic : Bytes} (hm : magic.length = 4) {s rest : Bytes} {r : Option Msg} :
    Msg.streamDeser H magic s = .ok (r, rest) ↔
      (∃ c body b, s = b ++ rest ∧ Frame H magic c body b ∧ body.length ≤ MAX_SIZE ∧ decoded H c body = .ok r) ∨
      (rest = [] ∧ ∃ c l tail, c.length = 12 ∧ l.length = 4 ∧ 2 ^ 31 ≤ leNat l ∧
        s = magic ++ c ++ l ++ (H.hash256 (negativeBody (leNat l) tail)).take 4 ++ tail ∧ decoded H c (negativeBody (leNat l) tail) = .ok r) := by
  have hk : ∀ body : Bytes, ((H.hash256 body).take 4).length = 4 := fun body => by rw [List.length_take, HashFns.hash256, H.sha256_len]; rfl
  constructor
  · intro h
    have h24 : 24 ≤ s.length := by
      by_contra hc
      unfold Msg.streamDeser at h
      rw [P.bind_error (e := .btcTrunc)] at h
      · cases h
      · unfold Btc.serRead
        rw [if_neg (by decide), if_pos (by rw [List.length_take]; omega)]
    obtain ⟨a, s1, rfl, la⟩ : ∃ a s1, s = a ++ s1 ∧ a.length = 4 := ⟨s.take 4, s.drop 4, (List.take_append_drop ..).symm, by rw [List.length_take]; omega⟩
    rw [List.length_append] at h24
    obtain ⟨c, s2, rfl, lc⟩ : ∃ a s', s1 = a ++ s' ∧ a.length = 12 := ⟨s1.take 12, s1.drop 12, (List.take_append_drop ..).symm, by rw [List.length_take]; omega⟩
    rw [List.length_append] at h24
    obtain ⟨l, s3, rfl, ll⟩ : ∃ a s', s2 = a ++ s' ∧ a.length = 4 := ⟨s2.take 4, s2.drop 4, (List.take_append_drop ..).symm, by rw [List.length_take]; omega⟩
    rw [List.length_append] at h24
    obtain ⟨k, tail, rfl, lk⟩ : ∃ a s', s3 = a ++ s' ∧ a.length = 4 := ⟨s3.take 4, s3.drop 4, (List.take_append_drop ..).symm, by rw [List.length_take]; omega⟩
    rw [← List.append_assoc, ← List.append_assoc, ← List.append_assoc] at h ⊢
    by_cases ha : a = magic
    · subst ha
      by_cases hn : leNat l < 2 ^ 31
      · rw [streamDeser_pos H a hm lc ll lk hn] at h
        split at h
        · cases h
        · rename_i body rest' hs
          split at h
          · cases h
          · rename_i hc
            rw [not_not] at hc
            split at h
            · cases h
            · rename_i r' hd
              cases h
              obtain ⟨h1, h2⟩ := serRead_ok hs
              have h3 : leNat l ≤ MAX_SIZE := by
                by_contra h3
                unfold Btc.serRead at hs
                rw [if_pos (by omega)] at hs
                cases hs
              refine .inl ⟨c, body, _, ?_, .mk c body lc (by omega), by omega, hd⟩
              have h4 := leBytes_leNat l
              rw [ll] at h4
              rw [hc, h1, h2, h4, List.append_assoc _ body rest]
      · rw [streamDeser_neg H a hm lc ll lk hn] at h
        split at h
        · cases h
        · rename_i hc
          rw [not_not] at hc
          split at h
          · cases h
          · rename_i r' hd
            cases h
            exact .inr ⟨rfl, c, l, tail, lc, ll, by omega, by rw [← hc], hd⟩
    · rw [streamDeser_pieces H magic tail la lc ll lk, if_pos ha] at h
      cases h
  · rintro (⟨c, body, b, rfl, hf, hl, hd⟩ | ⟨rfl, c, l, tail, lc, ll, hn, rfl, hd⟩)
    · exact (RT.frame hm hf hl hd).reads rest
    · rw [streamDeser_neg H magic hm lc ll (hk _) (by omega), if_neg (by simp), hd]

/-- C107: nothing that starts with other than the network's four bytes is accepted. -/
theorem C107_network_partial {H : HashFns} {magic : Bytes} (hm : magic.length = 4) {s : Bytes} (hs : 24 ≤ s.length) (h : s.take 4 ≠ magic) :
    Msg.streamDeser H magic s = .error .valueError := by
  unfold Msg.streamDeser
  have : Btc.serRead 24 s = .ok (s.take 24, s.drop 24) := by
    unfold Btc.serRead
    rw [if_neg (by decide), if_neg (by rw [List.length_take]; omega)]
  rw [P.bind_ok this, if_pos (by rw [List.take_take]; exact h)]
  rfl

/-- C107: so no message for a network is accepted on another. -/
theorem C107_other_network_partial {H : HashFns} {aton : List Char → Py Bytes} {magic magic' : Bytes} (hm : magic.length = 4) (hm' : magic'.length = 4) {m : Msg}
    {b : Bytes} (h : m.toBytes H aton magic = .ok b) (hne : magic ≠ magic') (rest : Bytes) : Msg.streamDeser H magic' (b ++ rest) = .error .valueError := by
  obtain ⟨body, hb, hf⟩ := toBytes_frame h
  cases hf with
  | mk lc lb =>
    have hk : ((H.hash256 body).take 4).length = 4 := by rw [List.length_take, HashFns.hash256, H.sha256_len]; rfl
    refine C107_network_partial hm' ?_ ?_
    · simp only [List.length_append, leBytes_length, hm, hk]
      rw [List.length_append] at lc
      omega
    · rw [List.append_assoc, List.append_assoc, List.append_assoc, List.append_assoc, List.take_append_of_le_length (by omega), List.take_of_length_le (by omega)]
      exact hne

example : mainMagic ≠ testMagic ∧ mainMagic ≠ regMagic ∧ testMagic ≠ regMagic := by decide

/-- C107: a body whose checksum is not that of the header is not accepted. -/
theorem C107_checksum_partial {H : HashFns} {magic : Bytes} (hm : magic.length = 4) {c k body : Bytes} (lc : c.length = 12) (lk : k.length = 4)
    (hl : body.length ≤ MAX_SIZE) (hc : k ≠ (H.hash256 body).take 4) (rest : Bytes) :
    Msg.streamDeser H magic (magic ++ c ++ leBytes 4 body.length ++ k ++ body ++ rest) = .error .valueError := by
  have hb : body.length < 2 ^ 31 := by unfold MAX_SIZE at hl; omega
  have hn : leNat (leBytes 4 body.length) = body.length := leNat_leBytes 4 _ (by omega)
  rw [List.append_assoc _ body rest, streamDeser_pos H magic hm lc (leBytes_length 4 _) lk (by rw [hn]; exact hb), hn, (RT.serRead rfl hl).reads rest]
  dsimp only
  rw [if_pos hc]

/-- Trailing bytes of a body are ignored, and a command of which there is no class gives `None`. -/
example : Msg.fromBytes realHash (mainMagic ++ ascii "verack" ++ List.replicate 6 0#8 ++ leBytes 4 3 ++ (realHash.hash256 [1#8, 2#8, 3#8]).take 4 ++ [1#8, 2#8, 3#8]) =
    .ok (some .verack) := by decide +kernel
example : Msg.fromBytes realHash (mainMagic ++ ascii "mystery" ++ List.replicate 5 0#8 ++ leBytes 4 0 ++ hex "5df6e0e2") = .ok none := by decide +kernel

/-! ## C108: alerts -/

/-- C108, the claim: an alert whose numbers are in range can be written, and read back. -/
def C108_statement : Prop := ∀ a : CUnsignedAlert, (∀ v ∈ [a.nVersion, a.nID, a.nCancel, a.nMinVer, a.nMaxVer, a.nPriority] ++ a.setCancel, -2 ^ 31 ≤ v ∧ v < 2 ^ 31) →
  (∀ v ∈ [a.nRelayUntil, a.nExpiration], -2 ^ 63 ≤ v ∧ v < 2 ^ 63) → (∀ s ∈ [a.strComment, a.strStatusBar, a.strReserved] ++ a.setSubVer, s.length ≤ MAX_SIZE) →
  ∃ b, a.ser = .ok b ∧ CUnsignedAlert.deser b = .ok (a, [])

/-- C108 is refuted by a new alert. -/
theorem C108_refuted : ¬ C108_statement := fun h => by
  obtain ⟨b, h1, _⟩ := h {} (by decide) (by decide) (by decide)
  cases h1

/-- C108, exactly: no alert can be written. -/
theorem C108_write_partial (a : CUnsignedAlert) : ∃ e, a.ser = .error e ∧ (e = .nameError ∨ e = .structError) := by
  have hp : ∀ n i, (∃ b, packS n i = .ok b) ∨ packS n i = .error .structError := by
    intro n i
    unfold packS
    split
    · exact .inl ⟨_, rfl⟩
    · exact .inr rfl
  unfold CUnsignedAlert.ser
  rcases hp 4 a.nVersion with ⟨b, h⟩ | h <;> rw [h]
  swap
  · exact ⟨_, rfl, .inr rfl⟩
  rcases hp 8 a.nRelayUntil with ⟨b, h⟩ | h <;> rw [h]
  swap
  · exact ⟨_, rfl, .inr rfl⟩
  rcases hp 8 a.nExpiration with ⟨b, h⟩ | h <;> rw [h]
  swap
  · exact ⟨_, rfl, .inr rfl⟩
  rcases hp 4 a.nID with ⟨b, h⟩ | h <;> rw [h]
  swap
  · exact ⟨_, rfl, .inr rfl⟩
  rcases hp 4 a.nCancel with ⟨b, h⟩ | h <;> rw [h]
  swap
  · exact ⟨_, rfl, .inr rfl⟩
  exact ⟨_, rfl, .inl rfl⟩

/-- C108, exactly: nothing is read as an alert. -/
theorem C108_read_partial (s : Bytes) : CUnsignedAlert.deser s = if s.length < 28 then .error .btcTrunc else .error .nameError := by
  have hr : ∀ n (s : Bytes), n ≤ MAX_SIZE → Btc.serRead n s = if s.length < n then .error .btcTrunc else .ok (s.take n, s.drop n) := by
    intro n s hn
    unfold Btc.serRead
    rw [if_neg (by omega)]
    simp only [List.length_take]
    by_cases h : s.length < n
    · rw [if_pos (by omega), if_pos h]
    · rw [if_neg (by omega), if_neg h]
  have step : ∀ {β} n (s : Bytes) (f : Bytes → P β), n ≤ MAX_SIZE → (Btc.serRead n >>= f) s = if s.length < n then .error .btcTrunc else f (s.take n) (s.drop n) := by
    intro β n s f hn
    rw [P.bind_apply, hr n s hn]
    by_cases h : s.length < n
    · rw [if_pos h, if_pos h]
    · rw [if_neg h, if_neg h]
  unfold CUnsignedAlert.deser
  rw [step 4 _ _ (by decide)]
  by_cases h1 : s.length < 4
  · rw [if_pos h1, if_pos (by omega)]
  rw [if_neg h1, step 8 _ _ (by decide), List.length_drop]
  by_cases h2 : s.length - 4 < 8
  · rw [if_pos h2, if_pos (by omega)]
  rw [if_neg h2, step 8 _ _ (by decide), List.length_drop, List.length_drop]
  by_cases h3 : s.length - 4 - 8 < 8
  · rw [if_pos h3, if_pos (by omega)]
  rw [if_neg h3, step 4 _ _ (by decide), List.length_drop, List.length_drop, List.length_drop]
  by_cases h4 : s.length - 4 - 8 - 8 < 4
  · rw [if_pos h4, if_pos (by omega)]
  rw [if_neg h4, step 4 _ _ (by decide), List.length_drop, List.length_drop, List.length_drop, List.length_drop]
  by_cases h5 : s.length - 4 - 8 - 8 - 4 < 4
  · rw [if_pos h5, if_pos (by omega)]
  rw [if_neg h5, if_neg (by omega)]
  rfl

/-- C108: an alert message carries the bytes of the alert, which come back. -/
theorem C108_carried_partial {H : HashFns} {aton : List Char → Py Bytes} (hi : Inet aton) {magic b : Bytes} (hm : magic.length = 4) {a : CAlert}
    (h : (Msg.alert a).toBytes H aton magic = .ok b) (hl : b.length ≤ 24 + MAX_SIZE) (rest : Bytes) :
    Msg.streamDeser H magic (b ++ rest) = .ok (some (.alert a), rest) :=
  C105_stream hi hm h trivial trivial hl rest

end Verif.Btc
