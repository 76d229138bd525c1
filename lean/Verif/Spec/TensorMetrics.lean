import Verif.Model.Tensor
/-
Vectors along a dimension of a tensor (for C97).
-/
namespace Verif
namespace Nd

/-- The vector along dimension `d` at the position `is` of the other dimensions. -/
def lane {α : Type} (t : Nd α) (d n : Nat) (is : List Nat) : Fin n → α := fun i => t.get (is.insertIdx d i)

/-- The dimension that `sample_dims` means, counted from the end if it is negative. -/
def Means (s : List Nat) (d : Int) (d' n : Nat) : Prop := (d = d' ∨ d = d' - s.length) ∧ s[d']? = some n

end Nd
end Verif
