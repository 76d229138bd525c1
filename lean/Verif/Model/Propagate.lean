import Mathlib.Data.Matrix.Block
import Mathlib.Data.Real.Basic
/-
combinators/utils.py:167-198, exact propagation of a normal distribution through a linear map.
-/
namespace Verif
open Matrix

/-- `D.MultivariateNormal(loc=.., covariance_matrix=..)`, exact reals. `ι` indexes the dimensions. -/
structure MVN (ι : Type) where
  loc : ι → ℝ
  cov : Matrix ι ι ℝ

/-- The three kinds of results. The dimension of `torch.cat((a, b))` is indexed by the sum of the index types. -/
inductive Propagated (n m : Nat) where
  | marginal (d : MVN (Fin m))
  | joint (d : MVN (Fin n ⊕ Fin m))
  | swapped (d : MVN (Fin m ⊕ Fin n))

/-- `torch.cat((a, b))` of vectors (combinators/utils.py:183,197). -/
def catVec {ι κ : Type} (a : ι → ℝ) (b : κ → ℝ) : ι ⊕ κ → ℝ := Sum.elim a b

/-- `torch.cat((torch.cat((A, B), dim=1), torch.cat((C, D), dim=1)), dim=0)` (combinators/utils.py:190-192,194-196). -/
def catBlocks {ι κ : Type} (A : Matrix ι ι ℝ) (B : Matrix ι κ ℝ) (C : Matrix κ ι ℝ) (D : Matrix κ κ ℝ) :
    Matrix (ι ⊕ κ) (ι ⊕ κ) ℝ := fromBlocks A B C D

/-- `propagate(N, F, t, B, marginalize, reverse_order)` (combinators/utils.py:167-198). -/
def propagate {n m : Nat} (N : MVN (Fin n)) (F : Matrix (Fin m) (Fin n) ℝ) (t : Fin m → ℝ)
    (B : Matrix (Fin m) (Fin m) ℝ) (marginalize reverse : Bool) : Propagated n m :=
  let a := N.loc
  let A := N.cov
  let b := t + F *ᵥ a
  let mean := catVec a b
  let FA := F * A
  let BFFA := B + F * FAᵀ
  if marginalize then .marginal ⟨b, BFFA⟩
  else if !reverse then .joint ⟨mean, catBlocks A FAᵀ FA BFFA⟩
  else .swapped ⟨catVec b a, catBlocks BFFA FA FAᵀ A⟩

end Verif
