import Verif.Proofs.Paper
import Verif.Spec.AnnealPop
/-
The annealing model of the paper as it is seen by one particle, and for tensors of particles.
-/
namespace Verif
open Spec MeasureTheory

/-- The model with `K` steps (`mk_model(K + 1)`) for one particle. -/
noncomputable def paperSpec (p : PaperParams) (K : Nat) : AnnealSpec (Fin 2 → ℝ) PaperDist where
  d0 := .inl paperInitial
  g k := .inr (paperTarget p K k)
  f k x := .inl (kernelDist (p.net k) x)
  r k x := .inl (kernelDist (p.net' k) x)

/-- The model with `K` steps for `n` particles and `b` batch elements (experiments/annealing/models.py:265-295). -/
noncomputable def paperAnneal (n b : Nat) (p : PaperParams) (K : Nat) : AnnealModel (PopLang n b (Fin 2 → ℝ) PaperDist volume paperLp) where
  d0 _ _ := ⟨.inl paperInitial, initial_normalised⟩
  rep0 := false
  cls0 := "FixedMultivariateNormal"
  g k v s j := paperTarget p K k (v s j)
  cls k := if k + 1 < K then "Tempered" else "RingGMM"
  f k v s j := ⟨.inl (kernelDist (p.net k) (v s j)), kernel_normalised _ _⟩
  rep := true
  r k v s j := ⟨.inl (kernelDist (p.net' k) (v s j)), kernel_normalised _ _⟩
  rep' := false

end Verif
