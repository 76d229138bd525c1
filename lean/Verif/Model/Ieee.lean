import Mathlib.Data.Int.Log
import Mathlib.Analysis.SpecialFunctions.Log.Basic
import Verif.Model.Affine
import Verif.Model.FloatResampler
/-
IEEE 754 binary floating-point numbers, rounding to nearest, and the arithmetic of float32 tensors: what the tensors in /repo hold, as torch's default dtype
is changed nowhere.
-/
namespace Verif
namespace Fp

/-- A binary format: precision, and the exponent of the smallest positive number. -/
structure Format where
  p : Nat
  emin : Int

/-- The numbers of a format. -/
def Format.Rep (F : Format) (x : ℝ) : Prop := ∃ (m : ℤ) (e : ℤ), F.emin ≤ e ∧ |m| ≤ 2 ^ F.p ∧ x = m * (2 : ℝ) ^ e

/-- The exponent of the last place of `x`. -/
noncomputable def Format.ulpExp (F : Format) (x : ℝ) : ℤ := max (Int.log 2 |x| + 1 - F.p) F.emin

/-- Rounding to the nearest number of the format, halves to even (IEEE 754; without overflow). -/
noncomputable def Format.round (F : Format) (x : ℝ) : ℝ := nearbyint (x / (2 : ℝ) ^ F.ulpExp x) * (2 : ℝ) ^ F.ulpExp x

/-- binary32 and binary64. -/
def b32 : Format := ⟨24, -149⟩
def b64 : Format := ⟨53, -1074⟩

/-- float32 tensors with float64 accumulators (if `d`) or float32 ones, exponentials and logarithms rounded to the nearest. torch uses float64 accumulators in
some functions and float32 ones in others. -/
noncomputable def float32 (d : Bool) : Arith where
  rd := b32.round
  acc := if d then b64.round else b32.round
  exp x := b32.round (Real.exp x)
  log x := b32.round (Real.log x)
  top := (2 ^ 24 - 1) * 2 ^ 104
  accTop := if d then (2 ^ 53 - 1) * 2 ^ 971 else (2 ^ 24 - 1) * 2 ^ 104

end Fp
end Verif
