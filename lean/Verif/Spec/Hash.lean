import Verif.Py
/-! What it means for a hash function to collide on two *given* strings. -/
namespace Verif

/-- `a` and `b` are a collision of `h`. -/
def CollidesOn (h : Bytes → Bytes) (a b : Bytes) : Prop := a ≠ b ∧ h a = h b

/-- `h` has no collision among the (finitely many, explicitly listed) strings `S`. -/
def CollisionFree (h : Bytes → Bytes) (S : List Bytes) : Prop := ∀ a ∈ S, ∀ b ∈ S, h a = h b → a = b

end Verif
