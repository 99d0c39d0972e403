/-! Specification vocabulary for bit strings: plain lists of booleans. -/
namespace Verif

/-- `p` is the longest common prefix of `xs` and `ys`. -/
def IsLongestCommonPrefix (p xs ys : List Bool) : Prop :=
  p <+: xs ∧ p <+: ys ∧ ∀ q, q <+: xs → q <+: ys → q <+: p

/-- Dictionary order on bit strings, `0 < 1`, a proper prefix is smaller. -/
def lexLt : List Bool → List Bool → Bool
  | _, [] => false
  | [], _ :: _ => true
  | a :: as, b :: bs => if a = b then lexLt as bs else !a && b

/-- The first `n` bits of a byte string, most significant bit of each byte first. -/
def firstBits (buf : List (BitVec 8)) (n : Nat) : List Bool :=
  (buf.flatMap fun x => [x.getLsbD 7, x.getLsbD 6, x.getLsbD 5, x.getLsbD 4,
    x.getLsbD 3, x.getLsbD 2, x.getLsbD 1, x.getLsbD 0]).take n

end Verif
