import Mathlib.MeasureTheory.Measure.GiryMonad
import Mathlib.MeasureTheory.Measure.WithDensity
import Mathlib.MeasureTheory.Measure.Lebesgue.Basic
import Verif.Model.Resampler
import Verif.Spec.Annealing
import Verif.Spec.ApgWeights
/-
Many particles and batch elements at once: networks that treat each on its own, and the law of one of them under importance sampling.
-/
namespace Verif.Apg
open Spec MeasureTheory
open scoped ENNReal

section
variable (n b : Nat) {V D : Type} (lp : D → V → ℝ)

/-- Tensors with a sample and a batch dimension. A distribution has one for each particle and batch element, and `log_prob` works elementwise. -/
@[reducible] noncomputable def LanesLang : Lang := TLang n b V (Fin n → Fin b → D) fun d v s j => lp (d s j) (v s j)

variable {n b lp} {Lo : Type} [AddCommMonoid Lo]

/-- The expectation over all draws, when `β d` is the measure with respect to which the distribution `d` has its density: the elements of a draw are
independent. The offsets of `torch.rand` are independent and uniform on [0, 1). -/
noncomputable def expectL [MeasurableSpace V] (β : D → Measure V) {α : Type} : Comp (LanesLang n b lp) α → (α → ℝ≥0∞) → ℝ≥0∞
  | .ret a, g => g a
  | .draw d _ k, g => ∫⁻ v : Fin n × Fin b → V, expectL β (k fun s j => v (s, j)) g
      ∂Measure.pi fun p => (β (d p.1 p.2)).withDensity fun x => dens (lp (d p.1 p.2) x)
  | .rand k, g => ∫⁻ u : Fin b → Set.Ico (0 : ℝ) 1, expectL β (k u) g ∂Measure.pi fun _ => volume.comap Subtype.val

/-- The networks `M` give every particle and batch element the distributions that `N` gives for its own part of the tensors (as C87 shows of the code). -/
structure PerLane (M : ApgNet (LanesLang n b lp)) (N : ApgNet (PLang V D Lo lp)) : Prop where
  objects : M.objects = N.objects
  coorStep : ∀ f t what zs s j, M.coorStep f t what zs s j = N.coorStep (f s j) t (what.map fun x => x s j) (zs.map fun x => x s j)
  stack : ∀ zs s j, M.stack zs s j = N.stack (zs.map fun x => x s j)
  coorDist : ∀ f t what zs s j, M.coorDist f t what zs s j = N.coorDist (f s j) t (what.map fun x => x s j) (zs.map fun x => x s j)
  digitDist : ∀ f zs s j, M.digitDist f zs s j = N.digitDist (f s j) (zs.map fun x => x s j)
  where0 : ∀ s j, M.where0 s j = N.where0
  whereT : ∀ v s j, M.whereT v s j = N.whereT (v s j)
  what : ∀ s j, M.what s j = N.what
  recon : ∀ zs w s j, M.recon zs w s j = N.recon (zs.map fun x => x s j) (w s j)

/-- What integration over many particles needs besides `Tractable`: the objects' densities are measurable in all that was drawn before, with respect to
one measure `ρ`, and so is stacking. -/
structure Stepwise [MeasurableSpace V] (β : D → Measure V) (ρ : Measure V) (N : ApgNet (PLang V D Lo lp)) (f : V) : Prop where
  step : ∀ t k : Nat, Measurable fun x : (Fin k → V) × V => lp (N.coorStep f t none (List.ofFn x.1)) x.2
  base : ∀ (t : Nat) zs, β (N.coorStep f t none zs) = ρ
  stack : Measurable fun x : Fin N.objects → V => N.stack (List.ofFn x)

/-- The log density with which importance sampling proposes positions and an appearance: all objects at all times from the frames alone, then the
appearance. -/
noncomputable def proposed (N : ApgNet (PLang V D Lo lp)) (T : Nat) (f : V) (p : Fin T → V) (z : V) : ℝ :=
  ∑ t, lp (N.coorDist f (t.val : Int) none (slices N (p t))) (p t) + lp (N.digitDist f (List.ofFn p)) z

/-- The log density of the generative model: a first position, each later one a step from the one before, an appearance, and the frames given all
of them. -/
noncomputable def modelled (N : ApgNet (PLang V D Lo lp)) (T : Nat) (f : V) (p : Fin T → V) (z : V) : ℝ :=
  ∑ t, lp (if t.val = 0 then N.where0 else N.whereT (p ⟨t.val - 1, by omega⟩)) (p t) + lp N.what z + lp (N.recon (List.ofFn p) z) f

/-- The law of positions, appearance and log weight of one particle: positions and appearance have the proposal's density, and the log weight is the
model's log density less the proposal's. -/
noncomputable def particleLaw [MeasurableSpace V] (μ ν : Measure V) (N : ApgNet (PLang V D Lo lp)) (T : Nat) (f : V) : Measure ((Fin T → V) × V × ℝ) :=
  (((Measure.pi fun _ : Fin T => μ).prod ν).withDensity fun x => dens (proposed N T f x.1 x.2)).map
    fun x => (x.1, x.2, modelled N T f x.1 x.2 - proposed N T f x.1 x.2)

/-- Positions, appearance and log weight of each particle and batch element of a result of importance sampling. -/
noncomputable def particles (T : Nat) (frames : Fin n → Fin b → V) (out : Out (LanesLang n b lp)) (p : Fin n × Fin b) : (Fin T → V) × V × ℝ :=
  (fun t => ((valueAt out.trace (zWhereName t.val 0)).getD frames) p.1 p.2, ((valueAt out.trace (zWhatName 0)).getD frames) p.1 p.2,
    out.logWeight.val p.1 p.2)

/-- A function of all particles of a result. -/
noncomputable def ofParticles (T : Nat) (frames : Fin n → Fin b → V) (g : (Fin n × Fin b → (Fin T → V) × V × ℝ) → ℝ≥0∞)
    (x : Except Err (Out (LanesLang n b lp)) × World (LanesLang n b lp)) : ℝ≥0∞ :=
  match x.1 with
  | .ok out => g (particles T frames out)
  | .error _ => 0

/-- Importance sampling can be built, and however it is built and called with these frames, `F` holds of the expectation of `g` of all particles. -/
def EveryRun [MeasurableSpace V] (β : D → Measure V) (M : ApgNet (LanesLang n b lp)) (T : Nat) (frames : Fin n → Fin b → V)
    (g : (Fin n × Fin b → (Fin T → V) × V × ℝ) → ℝ≥0∞) (F : ℝ≥0∞ → Prop) : Prop :=
  ∀ (same : (Fin n → Fin b → V) → (Fin n → Fin b → V) → Bool), (∀ v, same v v = true) → ∀ fresh i0 i1 i2 i3 : ObjId, i1 ≤ fresh → i2 ≤ fresh → i3 ≤ fresh →
    ∀ fl gl (r : ResamplerFn (LanesLang n b lp)), ∃ q, gibbsSweeps fresh (apgObjs M i0 i1 i2 i3 fl gl r) 0 T = .ok q ∧
      ∀ kvs kw w, getL kvs "frames" = some (.tensor frames) → KwOk kw → (∀ j, w.cond j = none) → w.store.hooks = apgHooks same →
        F (expectL β (eval q (.dict kvs) kw w) (ofParticles T frames g))

end
end Verif.Apg
