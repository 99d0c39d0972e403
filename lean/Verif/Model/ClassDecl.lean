import Verif.Model.Serialize
/-!
# Model of how proof classes come to be: lib/python-proofmarshal/proofmarshal/proof.py

`PF` abbreviates `lib/python-proofmarshal/proofmarshal/proof.py`.  The other files on proofs (Model/Proof.lean) take the classes as given by a
table; here they are made by class statements, and `VarProof.declare_variant` and `Proof.__new__` write to class attributes that subclasses
inherit.

Simplifications:
* Every class has one base class.  (True of all proof classes of the repository, except the classes of the tests that are derived from
  `unittest.TestCase`.)
* `S` are the serializers in `SERIALIZED_ATTRS`, `V` the values; `check` is `ser_cls.check_instance(value)`.
* Attributes are not called like methods and class attributes of proofs, nor `hash` or `data_hash`.
* The two flags and the hashes of a new object (PF:56-61, PF:110-118) are in Model/Proof.lean.
-/
namespace Verif.Decl

/-- A class: its base class, and those of its class attributes that its body or an assignment `cls.X = …` has set: `SERIALIZED_ATTRS` (PF:41),
`HASHTAG` (PF:38), `SUB_HASHTAG`, `SERIALIZED_ATTRS_BY_NAME` (PF:42, a dict; `none` also for `None`) and `UNION_CLASSES` (PF:241, a list, by
reference; `none` also for `None`). -/
structure Cls (S : Type) where
  base : Option Nat
  attrs : Option (List (String × S)) := none
  tag : Option Bytes := none
  subtag : Option Bytes := none
  byName : Option (List (String × S)) := none
  union : Option Nat := none
deriving DecidableEq, Repr

/-- All classes, by number, and the lists that are `UNION_CLASSES` of some of them. -/
structure World (S : Type) where
  classes : List (Cls S)
  lists : List (List Nat) := []
deriving DecidableEq, Repr

/-- `proof.py` imported: `Proof` (PF:31-42) is class 0, `VarProof` (PF:237-241) class 1. -/
def start (S : Type) : World S := { classes := [{ base := none, attrs := some [] }, { base := some 0 }] }

variable {S V : Type}

/-- `__mro__`, as far as it goes; bases are older than what is derived from them. -/
def mroF (cs : List (Cls S)) : Nat → Nat → List Nat
  | 0, _ => []
  | n + 1, c =>
    match cs[c]? with
    | none => []
    | some k => c :: (match k.base with | none => [] | some b => mroF cs n b)

/-- `c.__mro__`. -/
def mro (w : World S) (c : Nat) : List Nat := mroF w.classes (c + 1) c

/-- The class attribute `c.X`: from the first class of `__mro__` that has it. -/
def look {α : Type} (w : World S) (f : Cls S → Option α) (c : Nat) : Option α := (mro w c).findSome? (fun k => w.classes[k]?.bind f)

/-- `issubclass(c, u)`, and `isinstance(x, u)` for `x` of class `c`. -/
def isSub (w : World S) (c u : Nat) : Bool := (mro w c).contains u

/-- What a class statement sets. -/
structure Body (S : Type) where
  attrs : Option (List (String × S)) := none
  tag : Option Bytes := none
  subtag : Option Bytes := none
deriving DecidableEq, Repr

/-- `class X(base): …`. -/
def mkClass (base : Nat) (b : Body S) (w : World S) : Py Nat × World S :=
  if base < w.classes.length then
    (.ok w.classes.length, { w with classes := w.classes ++ [{ base := some base, attrs := b.attrs, tag := b.tag, subtag := b.subtag }] })
  else (.error .nameError, w)

/-- `if cls.UNION_CLASSES is None: cls.UNION_CLASSES = []`, PF:260-261: the list, and the classes after it. -/
def unionOf (c : Nat) (w : World S) : Nat × World S :=
  match look w (·.union) c with
  | some r => (r, w)
  | none => (w.lists.length, { classes := w.classes.modify c (fun k => { k with union := some w.lists.length }), lists := w.lists ++ [[]] })

/-- `VarProof.declare_variant`, PF:251-267, called as `c.declare_variant(s)`. -/
def declare (H : HashFns) (c s : Nat) (w : World S) : Py Unit × World S :=
  if c < w.classes.length ∧ s < w.classes.length ∧ isSub w c 1 then
    if isSub w s 1 then
      let r := unionOf c w
      match look r.2 (·.subtag) s, look r.2 (·.tag) c with
      | none, _ => (.error .attributeError, r.2)
      | some _, none => (.error .typeError, r.2)
      | some t, some u =>
        (.ok (), { classes := r.2.classes.modify s (fun k => { k with tag := some (H.derive t u) }), lists := r.2.lists.modify r.1 (· ++ [s]) })
    else (.error .typeError, w)
  else (.error .attributeError, w)

/-- `d[n] = s` for a dict. -/
def dictSet (d : List (String × S)) (n : String) (s : S) : List (String × S) :=
  if d.any (·.1 == n) then d.map (fun e => if e.1 = n then (n, s) else e) else d ++ [(n, s)]

/-- `{name:ser_cls for name, ser_cls in cls.SERIALIZED_ATTRS}`, PF:47. -/
def dictOf (l : List (String × S)) : List (String × S) := l.foldl (fun d e => dictSet d e.1 e.2) []

/-- The loop of `Proof.__new__`, PF:51-57, over the items of `SERIALIZED_ATTRS_BY_NAME`: the attributes set on the new object. -/
def fill (check : S → V → Py Unit) (kw : List (String × V)) : List (String × S) → Py (List (String × V))
  | [] => .ok []
  | (n, s) :: d =>
    match kw.lookup n with
    | none => .error .keyError
    | some v => do
      check s v
      let l ← fill check kw d
      return (n, v) :: l

/-- An object: its class and its attributes. -/
structure Inst (V : Type) where
  cls : Nat
  fields : List (String × V)
deriving DecidableEq, Repr

/-- PF:46-47: `SERIALIZED_ATTRS_BY_NAME` of the class, which is set if it is `None`. -/
def byNameOf (c : Nat) (w : World S) : List (String × S) × World S :=
  match look w (·.byName) c with
  | some d => (d, w)
  | none =>
    let d := dictOf ((look w (·.attrs) c).getD [])
    (d, { w with classes := w.classes.modify c (fun k => { k with byName := some d }) })

/-- `c(**kw)`, `Proof.__new__`, PF:44-62; also what `_ctx_deserialize` calls with the attributes it has read (PF:211). -/
def new (check : S → V → Py Unit) (c : Nat) (kw : List (String × V)) (w : World S) : Py (Inst V) × World S :=
  if c < w.classes.length then
    let r := byNameOf c w
    ((fill check kw r.1).map (fun l => ⟨c, l⟩), r.2)
  else (.error .nameError, w)

/-- `getattr(o, n)` for an object that is not pruned, PF:108-127. -/
def getAttr (w : World S) (o : Inst V) (n : String) : Py V :=
  match o.fields.lookup n with
  | some v => .ok v
  | none =>
    match look w (·.byName) o.cls with
    | none => .error .typeError
    | some d => if d.any (·.1 == n) then .error .pruned else .error .attributeError

/-- The number that `VarProof._ctx_serialize` writes for an object of class `c`, PF:269-276. -/
def number (w : World S) (c : Nat) : Py Nat :=
  match look w (·.union) c with
  | none => .error .typeError
  | some r =>
    match ((w.lists[r]?).getD []).findIdx? (fun u => isSub w c u) with
    | some i => .ok i
    | none => .error .serType

/-- The class of the object that `p._ctx_deserialize` makes when it reads the number `i`, PF:280-290 (`DeserializationError` is not imported in
that file). -/
def readClass (w : World S) (p i : Nat) : Py Nat :=
  match look w (·.union) p with
  | none => .error .typeError
  | some r =>
    match ((w.lists[r]?).getD [])[i]? with
    | some u => .ok u
    | none => .error .nameError

/-- A statement of a program. -/
inductive Op (S V : Type) where
  | mkClass (base : Nat) (b : Body S)
  | declare (c s : Nat)
  | new (c : Nat) (kw : List (String × V))

/-- Its effect (a program can catch the exception and go on). -/
def step (H : HashFns) (check : S → V → Py Unit) (w : World S) : Op S V → World S
  | .mkClass base b => (mkClass base b w).2
  | .declare c s => (declare H c s w).2
  | .new c kw => (new check c kw w).2

/-- A program. -/
def run (H : HashFns) (check : S → V → Py Unit) (ops : List (Op S V)) : World S := ops.foldl (step H check) (start S)

end Verif.Decl
