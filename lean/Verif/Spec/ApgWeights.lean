import Mathlib.MeasureTheory.Constructions.Pi
import Verif.Spec.ApgLaw
import Verif.Spec.Weighting
/-
What the amortized Gibbs sampler should estimate: integrals against the density of positions, appearance and frames.
-/
namespace Verif.Apg
open Spec MeasureTheory
open scoped ENNReal
variable {V D Lo : Type} [AddCommMonoid Lo] {lp : D → V → ℝ}

/-- The integral over the positions at the first `m` times (the others are `f`). -/
noncomputable def overPositions [MeasurableSpace V] (μ : Measure V) (f : V) : Nat → ((Nat → V) → ℝ≥0∞) → ℝ≥0∞
  | 0, h => h fun _ => f
  | m + 1, h => overPositions μ f m fun p => ∫⁻ v, h (Function.update p m v) ∂μ

/-- The log density of the generative model: a first position, each later one a step from the one before, an appearance, and the
frames given all of them. -/
noncomputable def modelJoint (N : ApgNet (PLang V D Lo lp)) (T : Nat) (f : V) (p : Nat → V) (z : V) : ℝ :=
  ∑ i ∈ Finset.range T, lp (if i = 0 then N.where0 else N.whereT (p (i - 1))) (p i) + lp N.what z +
    lp (N.recon ((List.range T).map p) z) f

/-- The expectation when `β d` is the measure with respect to which the distribution `d` has its density: tensors of different shapes have
different ones. -/
noncomputable def expectB [MeasurableSpace V] (β : D → Measure V) {α : Type} : Comp (PLang V D Lo lp) α → (α → ℝ≥0∞) → ℝ≥0∞
  | .ret a, g => g a
  | .draw d _ k, g => ∫⁻ v, dens (lp d v) * expectB β (k v) g ∂β d
  | .rand k, g => expectB β (k ()) g

/-- What integration needs of the networks; `μ` is the measure for the positions of all objects, `ν` that for their appearance. Densities are measurable. Distributions of the kernels are normalised. Stacking the
objects' positions loses nothing that the kernel looks at, and the density of the stacked ones is that of the objects one after the other. -/
structure Tractable [MeasurableSpace V] (β : D → Measure V) (μ ν : Measure V) (N : ApgNet (PLang V D Lo lp)) (T : Nat) (f : V) : Prop where
  where0 : Measurable (lp N.where0)
  whereT : Measurable fun x : V × V => lp (N.whereT x.1) x.2
  appearance : Measurable (lp N.what)
  recon : Measurable fun x : (Nat → V) × V => lp (N.recon ((List.range T).map x.1) x.2) f
  digit : Measurable fun x : (Nat → V) × V => lp (N.digitDist f ((List.range T).map x.1)) x.2
  digit_base : ∀ zs, β (N.digitDist f zs) = ν
  digit_one : ∀ zs, ∫⁻ v, dens (lp (N.digitDist f zs) v) ∂ν = 1
  coor : ∀ t : Nat, Measurable fun x : V × V => lp (N.coorDist f t (some x.1) (slices N x.2)) x.2
  coor0 : ∀ t : Nat, Measurable fun v : V => lp (N.coorDist f t none (slices N v)) v
  step_one : ∀ (t : Nat) what zs, ∫⁻ v, dens (lp (N.coorStep f t what zs) v) ∂β (N.coorStep f t what zs) = 1
  restack : ∀ (t : Nat) what (zs : List V), zs.length = N.objects → N.coorDist f t what (slices N (N.stack zs)) = N.coorDist f t what zs
  stacked : ∀ (t : Nat) what (h : V → ℝ≥0∞), Measurable h →
    expectB β (coorDraws N f t what N.objects []) (fun zs => h (N.stack zs)) =
      ∫⁻ v, dens (lp (N.coorDist f t what (slices N v)) v) * h v ∂μ

end Verif.Apg
