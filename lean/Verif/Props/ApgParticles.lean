import Verif.Proofs.ApgLanes
import Verif.Proofs.LargeNumbers
import Verif.Spec.Evidence
/-
C99. Importance sampling of the amortized Gibbs sampler with many particles and batch elements: they are independent, each as if it were alone; averages
converge as soon as they have a mean, though the variance be infinite (C83).
-/
namespace Verif
open Spec Apg MeasureTheory Filter
open scoped ENNReal Topology

section law
variable {n b : Nat} {V D Lo : Type} [MeasurableSpace V] [AddCommMonoid Lo] {lp : D → V → ℝ} {β : D → Measure V} {μ ν ρ : Measure V} [SigmaFinite μ] [SFinite ν] [SFinite ρ]
  {M : ApgNet (LanesLang n b lp)} {N : ApgNet (PLang V D Lo lp)}

omit [MeasurableSpace V] in
theorem ofParticles_eq {T : Nat} {frames : Fin n → Fin b → V} {g : (Fin n × Fin b → (Fin T → V) × V × ℝ) → ℝ≥0∞} {p : Particle (LanesLang n b lp)}
    {out : Out (LanesLang n b lp)} {w : World (LanesLang n b lp)} (h : Latents M T T (0 : Nat) (0 : Nat) frames p.pos p.what out.trace)
    (hw : out.logWeight = .tensor p.lw) : ofParticles T frames g (.ok out, w) = g fun l => ofParticle (Lo := Lo) T (laneParticle p l) := by
  have h1 : ∀ t : Fin T, (valueAt out.trace (zWhereName t.val 0)).getD frames = p.pos t.val := by
    intro t
    have := h.wheres t.val t.isLt
    rw [whereAt_lt t.isLt] at this
    unfold valueAt
    rw [show zWhereName t.val 0 = zWhereName t.val (0 : Nat) from rfl, this]
    rfl
  have h2 : (valueAt out.trace (zWhatName 0)).getD frames = p.what := by
    unfold valueAt
    rw [show zWhatName 0 = zWhatName (0 : Nat) from rfl, h.appearance]
    rfl
  show g (particles T frames out) = _
  congr 1
  funext l
  unfold particles ofParticle laneParticle
  rw [h2, hw]
  refine Prod.ext (funext fun t => ?_) rfl
  show ((valueAt out.trace (zWhereName t.val 0)).getD frames) l.1 l.2 = _
  rw [h1 t]

variable (same : (Fin n → Fin b → V) → (Fin n → Fin b → V) → Bool) (hsame : ∀ v, same v v = true)
  (fresh i0 i1 i2 i3 : ObjId) (h1 : i1 ≤ fresh) (h2 : i2 ≤ fresh) (h3 : i3 ≤ fresh)
  (fl : LW (Fin n → Fin b → ℝ) → LW (Fin n → Fin b → ℝ) → LW (Fin n → Fin b → ℝ) → ℝ)
  (gl : LW (Fin n → Fin b → ℝ) → LW (Fin n → Fin b → ℝ) → (Fin n → Fin b → ℝ) → ℝ) (r : ResamplerFn (LanesLang n b lp))
  (T : Nat) (hT : 1 ≤ T) (kvs : List (String × PyVal (LanesLang n b lp))) (frames : Fin n → Fin b → V)
  (hf : getL kvs "frames" = some (.tensor frames)) (hft : M.timesteps frames = T)

include hsame h1 h2 h3 hT hf hft in
/-- C99. Without sweeps, the particles of all batch elements are independent, and each is distributed as a single particle for its own frames. -/
theorem C99_law (hM : PerLane M N) (hN : ∀ s j, Tractable β μ ν N T (frames s j)) (hS : ∀ s j, Stepwise β ρ N (frames s j))
    (g : (Fin n × Fin b → (Fin T → V) × V × ℝ) → ℝ≥0∞) (hg : Measurable g) :
    ∃ q, gibbsSweeps fresh (apgObjs M i0 i1 i2 i3 fl gl r) 0 T = .ok q ∧
      ∀ kw, KwOk kw → ∀ w, (∀ j, w.cond j = none) → w.store.hooks = apgHooks same →
        expectL β (eval q (.dict kvs) kw w) (ofParticles T frames g) =
          ∫⁻ x, g x ∂Measure.pi fun p : Fin n × Fin b => particleLaw μ ν N T (frames p.1 p.2) := by
  let r' : ResamplerFn (LanesLang n b lp) := fun _ _ t lw => .ret (.ok (t, lw))
  have hi : ∀ m, gibbsInit fresh (apgObjs M i0 i1 i2 i3 fl gl r) m = gibbsInit fresh (apgObjs M i0 i1 i2 i3 fl gl r') m := by
    intro m
    induction m with
    | zero => rfl
    | succ m ih => unfold gibbsInit; rw [ih]; rfl
  have hr : gibbsSweeps fresh (apgObjs M i0 i1 i2 i3 fl gl r) 0 T = gibbsSweeps fresh (apgObjs M i0 i1 i2 i3 fl gl r') 0 T := by
    unfold gibbsSweeps
    simp only [Nat.lt_irrefl, if_false]
    unfold gibbsIs
    rw [hi]
    rfl
  obtain ⟨q, e, -⟩ := C64_program M same hsame (fun _ => rfl) fresh i0 i1 i2 i3 h1 h2 h3 fl gl r' .none .none id (fun _ _ _ => .ret) T 0 hT kvs frames hf hft
  refine ⟨q, hr.trans e, fun kw hkw w hc hh => ?_⟩
  obtain ⟨q', e', h⟩ := C64_program M same hsame (fun _ => rfl) fresh i0 i1 i2 i3 h1 h2 h3 fl gl r' kw.sampleDims kw.batchDim id (fun _ _ _ => .ret) T 0 hT
    kvs frames hf hft
  rw [e] at e'
  cases e'
  have hl := h kw hkw rfl rfl w hc hh
  rw [expectL_like hl (g := ofParticles T frames g) (k := fun p => g fun l => ofParticle (Lo := Lo) T (laneParticle p l))]
  · exact (lanes_is hM frames T).law (fun p => law_particle (hN p.1 p.2) (hS p.1 p.2)) g hg
  · intro p out w' hQ
    exact ofParticles_eq hQ.1 hQ.2.1

end law

section estimates
variable {V D Lo : Type} [MeasurableSpace V] [AddCommMonoid Lo] {lp : D → V → ℝ} {β : D → Measure V} {μ ν ρ : Measure V} [SigmaFinite μ] [SFinite ν] [SFinite ρ]
  {N : ApgNet (PLang V D Lo lp)} {T : Nat} {f : V}

theorem particle_prob (hN : Tractable β μ ν N T f) (hS : Stepwise β ρ N f) : IsProbabilityMeasure (particleLaw μ ν N T f) :=
  (law_particle hN hS).prob

theorem integral_particle (hN : Tractable β μ ν N T f) (φ : (Fin T → V) → V → ℝ) (hφ : Measurable fun x : (Fin T → V) × V => φ x.1 x.2) :
    (Integrable (fun x : (Fin T → V) × V => Real.exp (modelled N T f x.1 x.2) * φ x.1 x.2) ((Measure.pi fun _ => μ).prod ν) →
      Integrable (fun y : (Fin T → V) × V × ℝ => Real.exp y.2.2 * φ y.1 y.2.1) (particleLaw μ ν N T f)) ∧
    ∫ y, Real.exp y.2.2 * φ y.1 y.2.1 ∂particleLaw μ ν N T f =
      ∫ x : (Fin T → V) × V, Real.exp (modelled N T f x.1 x.2) * φ x.1 x.2 ∂(Measure.pi fun _ => μ).prod ν := by
  have hw : Measurable fun y : (Fin T → V) × V × ℝ => Real.exp y.2.2 * φ y.1 y.2.1 :=
    (Real.measurable_exp.comp (measurable_snd.comp measurable_snd)).mul (hφ.comp (measurable_fst.prodMk (measurable_fst.comp measurable_snd)))
  have e : ∀ x : (Fin T → V) × V, (dens (proposed N T f x.1 x.2)).toReal • (Real.exp (modelled N T f x.1 x.2 - proposed N T f x.1 x.2) * φ x.1 x.2) =
      Real.exp (modelled N T f x.1 x.2) * φ x.1 x.2 := by
    intro x
    rw [dens, ENNReal.toReal_ofReal (Real.exp_pos _).le, smul_eq_mul, ← mul_assoc, ← Real.exp_add]
    ring_nf
  have hd : Measurable fun x : (Fin T → V) × V => dens (proposed N T f x.1 x.2) := measurable_dens.comp (measurable_proposed hN)
  have hd2 : ∀ᵐ x : (Fin T → V) × V ∂(Measure.pi fun _ => μ).prod ν, dens (proposed N T f x.1 x.2) < ⊤ := .of_forall fun x => ENNReal.ofReal_lt_top
  constructor
  · intro hi
    rw [particleLaw, integrable_map_measure hw.aestronglyMeasurable (measurable_outcome hN).aemeasurable, integrable_withDensity_iff_integrable_smul' hd hd2]
    exact hi.congr (.of_forall fun x => (e x).symm)
  · rw [particleLaw, integral_map (measurable_outcome hN).aemeasurable hw.aestronglyMeasurable, integral_withDensity_eq_integral_toReal_smul hd hd2]
    exact integral_congr_ae (.of_forall fun x => e x)

/-- The model's log density has a finite and positive integral. -/
theorem modelled_pos (hN : Tractable β μ ν N T f) (hS : Stepwise β ρ N f)
    (hi : Integrable (fun x : (Fin T → V) × V => Real.exp (modelled N T f x.1 x.2)) ((Measure.pi fun _ => μ).prod ν)) :
    0 < ∫ x : (Fin T → V) × V, Real.exp (modelled N T f x.1 x.2) ∂(Measure.pi fun _ => μ).prod ν := by
  have hp := particle_prob hN hS
  have hne : ((Measure.pi fun _ : Fin T => μ).prod ν) ≠ 0 := by
    intro h0
    have : particleLaw μ ν N T f = 0 := by
      unfold particleLaw
      rw [h0, withDensity_zero_left, Measure.map_zero]
    have h1 := hp.measure_univ
    rw [this] at h1
    simp at h1
  have : NeZero ((Measure.pi fun _ : Fin T => μ).prod ν) := ⟨hne⟩
  exact integral_exp_pos hi

variable {n b : Nat} {M : ApgNet (LanesLang n b lp)} {frames : Fin n → Fin b → V}

theorem every_run (hT : 1 ≤ T) (hft : M.timesteps frames = T) (hM : PerLane M N) (hN : ∀ s j, Tractable β μ ν N T (frames s j)) (hS : ∀ s j, Stepwise β ρ N (frames s j))
    (g : (Fin n × Fin b → (Fin T → V) × V × ℝ) → ℝ≥0∞) (hg : Measurable g) (F : ℝ≥0∞ → Prop)
    (h : F (∫⁻ x, g x ∂Measure.pi fun p : Fin n × Fin b => particleLaw μ ν N T (frames p.1 p.2))) : EveryRun β M T frames g F := by
  intro same hsame fresh i0 i1 i2 i3 h1 h2 h3 fl gl r
  obtain ⟨q, e, -⟩ := C99_law same hsame fresh i0 i1 i2 i3 h1 h2 h3 fl gl r T hT [("frames", .tensor frames)] frames rfl hft hM hN hS g hg
  refine ⟨q, e, fun kvs kw w hf hkw hc hh => ?_⟩
  obtain ⟨q', e', h'⟩ := C99_law same hsame fresh i0 i1 i2 i3 h1 h2 h3 fl gl r T hT kvs frames hf hft hM hN hS g hg
  rw [e] at e'
  cases e'
  rw [h' kw hkw w hc hh]
  exact h

/-- One batch element. -/
theorem lintegral_column (hN : ∀ s j, Tractable β μ ν N T (frames s j)) (hS : ∀ s j, Stepwise β ρ N (frames s j)) (j : Fin b)
    (g : (Fin n → (Fin T → V) × V × ℝ) → ℝ≥0∞) (hg : Measurable g) :
    ∫⁻ x, g (fun s => x (s, j)) ∂(Measure.pi fun p : Fin n × Fin b => particleLaw μ ν N T (frames p.1 p.2)) =
      ∫⁻ x, g x ∂Measure.pi fun s => particleLaw μ ν N T (frames s j) := by
  have hp : ∀ p : Fin n × Fin b, IsProbabilityMeasure (particleLaw μ ν N T (frames p.1 p.2)) := fun p => particle_prob (hN p.1 p.2) (hS p.1 p.2)
  have := pi_column (fun p : Fin n × Fin b => particleLaw μ ν N T (frames p.1 p.2)) j
  rw [← this, lintegral_map hg (measurable_pi_lambda _ fun s => measurable_pi_apply _)]

/-- C99. The average over the particles of weight times a function is an unbiased estimate of the function's integral against the model's density of
positions, appearance and these frames, for each batch element; of the density of the frames when the function is 1. -/
theorem C99_unbiased (hT : 1 ≤ T) (hn : 0 < n) (hft : M.timesteps frames = T) (hM : PerLane M N) (hN : ∀ s j, Tractable β μ ν N T (frames s j))
    (hS : ∀ s j, Stepwise β ρ N (frames s j)) (j : Fin b) (hfr : ∀ s, frames s j = f) (φ : (Fin T → V) → V → ℝ≥0∞) (hφ : Measurable fun x : (Fin T → V) × V => φ x.1 x.2) :
    EveryRun β M T frames (fun x => (∑ s, dens (x (s, j)).2.2 * φ (x (s, j)).1 (x (s, j)).2.1) / n)
      fun e => e = ∫⁻ p : Fin T → V, ∫⁻ z, dens (modelled N T f p z) * φ p z ∂ν ∂Measure.pi fun _ => μ := by
  have hw : Measurable fun y : (Fin T → V) × V × ℝ => dens y.2.2 * φ y.1 y.2.1 :=
    (measurable_dens.comp (measurable_snd.comp measurable_snd)).mul (hφ.comp (measurable_fst.prodMk (measurable_fst.comp measurable_snd)))
  have hg : Measurable fun x : Fin n → (Fin T → V) × V × ℝ => (∑ s, dens (x s).2.2 * φ (x s).1 (x s).2.1) / n :=
    (Finset.measurable_sum _ fun s _ => hw.comp (measurable_pi_apply s)).div_const _
  have hc : Measurable fun (x : Fin n × Fin b → (Fin T → V) × V × ℝ) (s : Fin n) => x (s, j) := measurable_pi_lambda _ fun s => measurable_pi_apply _
  refine every_run hT hft hM hN hS _ (hg.comp hc) _ ?_
  have h0 := lintegral_column hN hS j _ hg
  refine h0.trans ?_
  have hp : ∀ s, IsProbabilityMeasure (particleLaw μ ν N T (frames s j)) := fun s => particle_prob (hN s j) (hS s j)
  simp only [div_eq_mul_inv]
  have hw' : ∀ s : Fin n, Measurable fun x : Fin n → (Fin T → V) × V × ℝ => dens (x s).2.2 * φ (x s).1 (x s).2.1 := fun s => hw.comp (measurable_pi_apply s)
  rw [lintegral_mul_const _ (Finset.measurable_sum _ fun s _ => hw' s), lintegral_finsetSum _ fun s _ => hw' s]
  have e : ∀ s : Fin n, ∫⁻ x : Fin n → (Fin T → V) × V × ℝ, dens (x s).2.2 * φ (x s).1 (x s).2.1 ∂(Measure.pi fun s => particleLaw μ ν N T (frames s j)) =
      ∫⁻ p : Fin T → V, ∫⁻ z, dens (modelled N T f p z) * φ p z ∂ν ∂Measure.pi fun _ => μ := by
    intro s
    refine ((measurePreserving_eval (fun s => particleLaw μ ν N T (frames s j)) s).lintegral_comp hw).trans ?_
    have hNs := hN s j
    rw [hfr s] at hNs ⊢
    rw [lintegral_particle hNs _ hw]
    refine lintegral_congr fun p => lintegral_congr fun z => ?_
    rw [← mul_assoc, ← dens_add]
    congr 2
    ring
  simp only [e, Finset.sum_const, Finset.card_univ, Fintype.card_fin, nsmul_eq_mul]
  rw [mul_comm, ← mul_assoc, ENNReal.inv_mul_cancel (by simpa using hn.ne') (ENNReal.natCast_ne_top n), one_mul]

/-- A bound on a probability for the first particles of infinitely many, as one on runs. -/
theorem bound_runs (hT : 1 ≤ T) (hN : Tractable β μ ν N T f) (hS : Stepwise β ρ N f) (E : (n : Nat) → Set (Fin n → (Fin T → V) × V × ℝ)) (hE : ∀ n, MeasurableSet (E n))
    (h : Tendsto (fun n => (Measure.pi fun _ : Fin n => particleLaw μ ν N T f) (E n)) atTop (𝓝 0)) (δ : ℝ) (hδ : 0 < δ) :
    ∃ n0 : Nat, ∀ n b : Nat, n0 ≤ n → ∀ (j : Fin b) (M : ApgNet (LanesLang n b lp)) (frames : Fin n → Fin b → V), M.timesteps frames = T → PerLane M N →
      (∀ s, frames s j = f) → (∀ s i, Tractable β μ ν N T (frames s i)) → (∀ s i, Stepwise β ρ N (frames s i)) →
        EveryRun β M T frames (fun x => indicate ((fun s => x (s, j)) ∈ E n)) fun e => e ≤ ENNReal.ofReal δ := by
  obtain ⟨n0, hn0⟩ := (ENNReal.tendsto_atTop_zero.1 h) (ENNReal.ofReal δ) (by simpa using hδ)
  refine ⟨n0, fun n b hn j M frames hft hM hfr hN hS => ?_⟩
  have e : ∀ x : Fin n → (Fin T → V) × V × ℝ, indicate (x ∈ E n) = (E n).indicator 1 x := by
    intro x
    unfold indicate Set.indicator
    rfl
  have hg : Measurable fun x : Fin n → (Fin T → V) × V × ℝ => indicate (x ∈ E n) := by
    simp only [e]
    exact measurable_one.indicator (hE n)
  have hc : Measurable fun (x : Fin n × Fin b → (Fin T → V) × V × ℝ) (s : Fin n) => x (s, j) := measurable_pi_lambda _ fun s => measurable_pi_apply _
  refine every_run hT hft hM hN hS _ (hg.comp hc) _ ?_
  have h0 := lintegral_column hN hS j _ hg
  refine h0.trans_le ?_
  simp only [hfr, e]
  rw [lintegral_indicator_one (hE n)]
  exact hn0 n hn

/-- C99. As the number of particles grows, the average of weight times a function converges in probability to the function's integral, for every function that
has one: whatever the number of batch elements, however the networks are vectorised, and without any condition on the variance. -/
theorem C99_consistent (hT : 1 ≤ T) (hN : Tractable β μ ν N T f) (hS : Stepwise β ρ N f) (φ : (Fin T → V) → V → ℝ) (hφ : Measurable fun x : (Fin T → V) × V => φ x.1 x.2)
    (hi : Integrable (fun x : (Fin T → V) × V => Real.exp (modelled N T f x.1 x.2) * φ x.1 x.2) ((Measure.pi fun _ => μ).prod ν)) (ε δ : ℝ) (hε : 0 < ε) (hδ : 0 < δ) :
    ∃ n0 : Nat, ∀ n b : Nat, n0 ≤ n → ∀ (j : Fin b) (M : ApgNet (LanesLang n b lp)) (frames : Fin n → Fin b → V), M.timesteps frames = T → PerLane M N →
      (∀ s, frames s j = f) → (∀ s i, Tractable β μ ν N T (frames s i)) → (∀ s i, Stepwise β ρ N (frames s i)) →
        EveryRun β M T frames (fun x => indicate (ε ≤ |(∑ s, Real.exp (x (s, j)).2.2 * φ (x (s, j)).1 (x (s, j)).2.1) / n -
          ∫ y : (Fin T → V) × V, Real.exp (modelled N T f y.1 y.2) * φ y.1 y.2 ∂(Measure.pi fun _ => μ).prod ν|)) fun e => e ≤ ENNReal.ofReal δ := by
  have hp := particle_prob hN hS
  obtain ⟨h1, h2⟩ := integral_particle hN φ hφ
  have hw : Measurable fun y : (Fin T → V) × V × ℝ => Real.exp y.2.2 * φ y.1 y.2.1 :=
    (Real.measurable_exp.comp (measurable_snd.comp measurable_snd)).mul (hφ.comp (measurable_fst.prodMk (measurable_fst.comp measurable_snd)))
  have h3 := average_law (particleLaw μ ν N T f) _ hw (h1 hi) ε hε
  rw [h2] at h3
  exact bound_runs hT hN hS _ (fun n => measurableSet_le measurable_const (continuous_abs.measurable.comp
    (((Finset.measurable_sum _ fun s _ => hw.comp (measurable_pi_apply s)).div_const _).sub_const _))) h3 δ hδ

/-- C99. Likewise the self-normalised average converges to the function's mean given the frames, if the density of the frames is finite. -/
theorem C99_posterior (hT : 1 ≤ T) (hN : Tractable β μ ν N T f) (hS : Stepwise β ρ N f) (φ : (Fin T → V) → V → ℝ) (hφ : Measurable fun x : (Fin T → V) × V => φ x.1 x.2)
    (hi : Integrable (fun x : (Fin T → V) × V => Real.exp (modelled N T f x.1 x.2) * φ x.1 x.2) ((Measure.pi fun _ => μ).prod ν))
    (hz : Integrable (fun x : (Fin T → V) × V => Real.exp (modelled N T f x.1 x.2)) ((Measure.pi fun _ => μ).prod ν)) (ε δ : ℝ) (hε : 0 < ε) (hδ : 0 < δ) :
    ∃ n0 : Nat, ∀ n b : Nat, n0 ≤ n → ∀ (j : Fin b) (M : ApgNet (LanesLang n b lp)) (frames : Fin n → Fin b → V), M.timesteps frames = T → PerLane M N →
      (∀ s, frames s j = f) → (∀ s i, Tractable β μ ν N T (frames s i)) → (∀ s i, Stepwise β ρ N (frames s i)) →
        EveryRun β M T frames (fun x => indicate (ε ≤ |(∑ s, Real.exp (x (s, j)).2.2 * φ (x (s, j)).1 (x (s, j)).2.1) / (∑ s, Real.exp (x (s, j)).2.2) -
          (∫ y : (Fin T → V) × V, Real.exp (modelled N T f y.1 y.2) * φ y.1 y.2 ∂(Measure.pi fun _ => μ).prod ν) /
            ∫ y : (Fin T → V) × V, Real.exp (modelled N T f y.1 y.2) ∂(Measure.pi fun _ => μ).prod ν|)) fun e => e ≤ ENNReal.ofReal δ := by
  have hp := particle_prob hN hS
  obtain ⟨h1, h2⟩ := integral_particle hN φ hφ
  obtain ⟨k1, k2⟩ := integral_particle hN (fun _ _ => 1) measurable_const
  simp only [mul_one] at k1 k2
  have hw : Measurable fun y : (Fin T → V) × V × ℝ => Real.exp y.2.2 * φ y.1 y.2.1 :=
    (Real.measurable_exp.comp (measurable_snd.comp measurable_snd)).mul (hφ.comp (measurable_fst.prodMk (measurable_fst.comp measurable_snd)))
  have kw : Measurable fun y : (Fin T → V) × V × ℝ => Real.exp y.2.2 := Real.measurable_exp.comp (measurable_snd.comp measurable_snd)
  have h3 := ratio_law (particleLaw μ ν N T f) _ _ hw (h1 hi) kw (k1 hz) (by rw [k2]; exact (modelled_pos hN hS hz).ne') ε hε
  rw [h2, k2] at h3
  exact bound_runs hT hN hS _ (fun n => measurableSet_le measurable_const (continuous_abs.measurable.comp
    (((Finset.measurable_sum _ fun s _ => hw.comp (measurable_pi_apply s)).div (Finset.measurable_sum _ fun s _ => kw.comp (measurable_pi_apply s))).sub_const _))) h3 δ hδ

end estimates

section networks
open Bouncing
variable {fp dp hd hc zd K T : Nat} (P : Params fp dp hd hc zd) (ms : Img dp) (rep : Bool)

theorem measurable_zAt_ofFn (k : Nat) : Measurable fun x : Fin k → Val K zd T fp => zAt (List.ofFn x) := by
  refine measurable_pi_lambda _ fun i => ?_
  unfold zAt
  simp only [List.getElem?_ofFn]
  by_cases h : i < k
  · simp only [dif_pos h]
    exact measurable_toOne.comp (measurable_pi_apply _)
  · simp only [dif_neg h]
    exact measurable_const

/-- The networks satisfy what integration over many particles needs, whatever the parameters. -/
theorem stepwise (f : Val K zd T fp) :
    Stepwise (D := Dist K zd T fp) (Lo := ℝ) (lp := logProb) base (volume.map mkOne) (net P ms K T rep) f where
  step t k := by
    have hz : Measurable fun x : (Fin k → Val K zd T fp) × Val K zd T fp => zAt (List.ofFn x.1) := (measurable_zAt_ofFn k).comp measurable_fst
    by_cases h : k < K
    · have e : ∀ x : (Fin k → Val K zd T fp) × Val K zd T fp, logProb ((net P ms K T rep).coorStep f t none (List.ofFn x.1)) x.2 =
          ∑ i, normalLp (coorMean P (frameLeft (frameAt (toVideo f) t) (fun _ : Fin K => ms) (zAt (List.ofFn x.1)) k) ms i)
            (coorStd P (frameLeft (frameAt (toVideo f) t) (fun _ : Fin K => ms) (zAt (List.ofFn x.1)) k) ms i) (toOne x.2 i) := by
        intro x
        simp only [net, List.length_ofFn, dif_pos h, logProb, kernels]
        rfl
      simp only [e]
      have hl := measurable_frameLeft (frameAt (toVideo f) t) (ker := fun _ : (Fin k → Val K zd T fp) × Val K zd T fp => fun _ : Fin K => ms) measurable_const hz k
      exact measurable_normal1 (measurable_coorMean P hl measurable_const) (measurable_coorStd P hl measurable_const) (measurable_toOne.comp measurable_snd)
    · have e : ∀ x : (Fin k → Val K zd T fp) × Val K zd T fp, logProb ((net P ms K T rep).coorStep f t none (List.ofFn x.1)) x.2 =
          ∑ i, normalLp 0 1 (toOne x.2 i) := by
        intro x
        simp only [net, List.length_ofFn, dif_neg h, logProb]
        rfl
      simp only [e]
      exact measurable_normal1 (m := fun _ _ => 0) (s := fun _ _ => 1) measurable_const measurable_const (measurable_toOne.comp measurable_snd)
  base t zs := by
    obtain ⟨m, s, -, e⟩ := coorStep_eq P ms rep f t none zs
    rw [e]
    rfl
  stack := emb_pos.measurable.comp (measurable_pi_lambda _ fun k => measurable_pi_iff.1 (measurable_zAt_ofFn K) k.val)

omit P ms rep in
theorem measurable_shapes : Measurable fun x : (Fin T → Val K zd T fp) × Val K zd T fp => ((fun t => toPos (x.1 t), toWhat x.2) : (Fin T → Pos K) × What K zd) := by
  refine Measurable.prodMk (measurable_pi_lambda _ fun t => ?_) (measurable_toWhat.comp measurable_snd)
  exact measurable_toPos.comp ((measurable_pi_apply t).comp measurable_fst)

/-- Integrals against the model's density, in coordinates. -/
theorem lintegral_modelled (frames : Video T fp) (φ : (Fin T → Pos K) → What K zd → ℝ≥0∞) (hφ : Measurable fun x : (Fin T → Pos K) × What K zd => φ x.1 x.2) :
    ∫⁻ x : (Fin T → Val K zd T fp) × Val K zd T fp, dens (modelled (net P ms K T rep) T (mkVideo frames) x.1 x.2) *
        φ (fun t => toPos (x.1 t)) (toWhat x.2) ∂(Measure.pi fun _ => posBase K zd T fp).prod (whatBase K zd T fp) =
      ∫⁻ z : Fin T → Pos K, ∫⁻ w : What K zd, Spec.Bouncing.density (digitMean P) frames z w * φ z w := by
  have hN := tractable P ms (K := K) (T := T) rep (mkVideo frames)
  have hp : Measurable fun x : (Fin T → Val K zd T fp) × Val K zd T fp => φ (fun t => toPos (x.1 t)) (toWhat x.2) :=
    hφ.comp measurable_shapes
  have hm : Measurable fun x : (Fin T → Val K zd T fp) × Val K zd T fp => dens (modelled (net P ms K T rep) T (mkVideo frames) x.1 x.2) *
      φ (fun t => toPos (x.1 t)) (toWhat x.2) := (measurable_dens.comp (measurable_modelled hN)).mul hp
  rw [lintegral_prod _ hm.aemeasurable]
  obtain ⟨H, hH0⟩ : ∃ H : (Fin T → Val K zd T fp) → ℝ≥0∞, H = fun p => ∫⁻ z, dens (modelled (net P ms K T rep) T (mkVideo frames) p z) *
      φ (fun t => toPos (p t)) (toWhat z) ∂whatBase K zd T fp := ⟨_, rfl⟩
  have hH : Measurable H := by
    rw [hH0]
    exact hm.lintegral_prod_right'
  have hr : Measurable fun p : Nat → Val K zd T fp => fun t : Fin T => p t.val := measurable_pi_lambda _ fun t => measurable_pi_apply _
  have h1 := overPositions_fin (μ := posBase K zd T fp) (f := mkVideo frames) T _ (hH.comp hr)
  have h2 := overPositions_pi (mkVideo frames) T _ (hH.comp hr)
  rw [h1] at h2
  have e1 : ∀ p : Fin T → Val K zd T fp, (fun t : Fin T => if hi : t.val < T then p ⟨t.val, hi⟩ else mkVideo frames) = p := fun p => funext fun t => dif_pos t.isLt
  have e2 : ∀ p : Fin T → Pos K, (fun t : Fin T => if hi : t.val < T then mkPos (p ⟨t.val, hi⟩) else mkVideo frames) = fun t => (mkPos (p t) : Val K zd T fp) :=
    fun p => funext fun t => dif_pos t.isLt
  simp only [Function.comp, e1, e2] at h2
  rw [hH0] at h2
  refine h2.trans (lintegral_congr fun z => ?_)
  beta_reduce
  unfold whatBase
  rw [emb_what.lintegral_map]
  refine lintegral_congr fun w => ?_
  have e3 := modelled_eq (N := net P ms K T rep) (T := T) (f := mkVideo frames) (prolong (mkVideo frames) fun t => (mkPos (z t) : Val K zd T fp)) (mkWhat w)
  rw [prolong_val] at e3
  rw [e3, C82_density]
  have e4 : (fun t : Fin T => toPos (prolong (mkVideo frames) (fun t => (mkPos (z t) : Val K zd T fp)) t.val)) = z := by
    funext t
    rw [congrFun (prolong_val (f := mkVideo frames) fun t => (mkPos (z t) : Val K zd T fp)) t]
    rfl
  rw [e4]
  rfl

theorem integral_modelled (frames : Video T fp) (hf : ∀ t i j, 0 ≤ frames t i j ∧ frames t i j ≤ 1) (φ : (Fin T → Pos K) → What K zd → ℝ)
    (hφ : Measurable fun x : (Fin T → Pos K) × What K zd => φ x.1 x.2) (h0 : ∀ z w, 0 ≤ φ z w) (h1 : ∀ z w, φ z w ≤ 1) :
    Integrable (fun x : (Fin T → Val K zd T fp) × Val K zd T fp => Real.exp (modelled (net P ms K T rep) T (mkVideo frames) x.1 x.2) *
        φ (fun t => toPos (x.1 t)) (toWhat x.2)) ((Measure.pi fun _ => posBase K zd T fp).prod (whatBase K zd T fp)) ∧
    ∫ x : (Fin T → Val K zd T fp) × Val K zd T fp, Real.exp (modelled (net P ms K T rep) T (mkVideo frames) x.1 x.2) *
        φ (fun t => toPos (x.1 t)) (toWhat x.2) ∂(Measure.pi fun _ => posBase K zd T fp).prod (whatBase K zd T fp) =
      (∫⁻ z : Fin T → Pos K, ∫⁻ w : What K zd, Spec.Bouncing.density (digitMean P) frames z w * ENNReal.ofReal (φ z w)).toReal := by
  have hN := tractable P ms (K := K) (T := T) rep (mkVideo frames)
  have hp : Measurable fun x : (Fin T → Val K zd T fp) × Val K zd T fp => φ (fun t => toPos (x.1 t)) (toWhat x.2) :=
    hφ.comp measurable_shapes
  have hm := (Real.measurable_exp.comp (measurable_modelled hN)).mul hp
  have hn : ∀ x : (Fin T → Val K zd T fp) × Val K zd T fp, 0 ≤ Real.exp (modelled (net P ms K T rep) T (mkVideo frames) x.1 x.2) *
      φ (fun t => toPos (x.1 t)) (toWhat x.2) := fun x => mul_nonneg (Real.exp_pos _).le (h0 _ _)
  have hl := lintegral_modelled P ms rep frames (fun z w => ENNReal.ofReal (φ z w)) hφ.ennreal_ofReal
  have e : ∀ x : (Fin T → Val K zd T fp) × Val K zd T fp, ENNReal.ofReal (Real.exp (modelled (net P ms K T rep) T (mkVideo frames) x.1 x.2) *
      φ (fun t => toPos (x.1 t)) (toWhat x.2)) = dens (modelled (net P ms K T rep) T (mkVideo frames) x.1 x.2) * ENNReal.ofReal (φ (fun t => toPos (x.1 t)) (toWhat x.2)) :=
    fun x => ENNReal.ofReal_mul (Real.exp_pos _).le
  have hfin : ∫⁻ z : Fin T → Pos K, ∫⁻ w : What K zd, Spec.Bouncing.density (digitMean P) frames z w * ENNReal.ofReal (φ z w) ≤ 1 := by
    refine le_trans (lintegral_mono fun z => lintegral_mono fun w => ?_) (C82_evidence_range (K := K) (digitMean P) frames hf).2
    exact mul_le_of_le_one_right' (ENNReal.ofReal_le_one.2 (h1 z w))
  constructor
  · refine ⟨hm.aestronglyMeasurable, ?_⟩
    rw [hasFiniteIntegral_iff_ofReal (.of_forall hn)]
    simp only [e]
    rw [hl]
    exact hfin.trans_lt ENNReal.one_lt_top
  · rw [integral_eq_lintegral_of_nonneg_ae (.of_forall hn) hm.aestronglyMeasurable]
    simp only [e]
    rw [hl]

/-- C99. Bouncing shapes: whatever the parameters, if pixels are between 0 and 1, the average weight converges in probability to the density of the frames, even
where its variance is infinite. -/
theorem C99_bouncing_evidence (hT : 1 ≤ T) (frames : Video T fp) (hf : ∀ t i j, 0 ≤ frames t i j ∧ frames t i j ≤ 1) (ε δ : ℝ) (hε : 0 < ε) (hδ : 0 < δ) :
    ∃ n0 : Nat, ∀ n b : Nat, n0 ≤ n → ∀ (j : Fin b) (M : ApgNet (LanesLang n b logProb)) (videos : Fin n → Fin b → Val K zd T fp), M.timesteps videos = T →
      PerLane M (net P ms K T rep) → (∀ s, videos s j = mkVideo frames) →
        EveryRun base M T videos (fun x => indicate (ε ≤ |(∑ s, Real.exp (x (s, j)).2.2) / n - (Spec.Bouncing.evidence K (digitMean P) frames).toReal|))
          fun e => e ≤ ENNReal.ofReal δ := by
  obtain ⟨h1, h2⟩ := integral_modelled P ms (K := K) rep frames hf (fun _ _ => 1) measurable_const (fun _ _ => zero_le_one) fun _ _ => le_rfl
  obtain ⟨n0, h⟩ := C99_consistent hT (tractable P ms (K := K) (T := T) rep (mkVideo frames)) (stepwise P ms rep _) (fun _ _ => 1) measurable_const h1 ε δ hε hδ
  rw [h2] at h
  simp only [ENNReal.ofReal_one, mul_one] at h
  exact ⟨n0, fun n b hn j M videos hft hM hv => h n b hn j M videos hft hM hv (fun s i => tractable P ms rep _) fun s i => stepwise P ms rep _⟩

/-- C99. And the self-normalised average of every bounded function of positions and appearance converges in probability to its mean given the frames. -/
theorem C99_bouncing_posterior (hT : 1 ≤ T) (frames : Video T fp) (hf : ∀ t i j, 0 ≤ frames t i j ∧ frames t i j ≤ 1) (φ : (Fin T → Pos K) → What K zd → ℝ)
    (hφ : Measurable fun x : (Fin T → Pos K) × What K zd => φ x.1 x.2) (h0 : ∀ z w, 0 ≤ φ z w) (h1 : ∀ z w, φ z w ≤ 1) (ε δ : ℝ) (hε : 0 < ε) (hδ : 0 < δ) :
    ∃ n0 : Nat, ∀ n b : Nat, n0 ≤ n → ∀ (j : Fin b) (M : ApgNet (LanesLang n b logProb)) (videos : Fin n → Fin b → Val K zd T fp), M.timesteps videos = T →
      PerLane M (net P ms K T rep) → (∀ s, videos s j = mkVideo frames) →
        EveryRun base M T videos (fun x => indicate (ε ≤ |(∑ s, Real.exp (x (s, j)).2.2 * φ (fun t => toPos ((x (s, j)).1 t)) (toWhat (x (s, j)).2.1)) /
            (∑ s, Real.exp (x (s, j)).2.2) -
          (∫⁻ z : Fin T → Pos K, ∫⁻ w : What K zd, Spec.Bouncing.density (digitMean P) frames z w * ENNReal.ofReal (φ z w)).toReal /
            (Spec.Bouncing.evidence K (digitMean P) frames).toReal|))
          fun e => e ≤ ENNReal.ofReal δ := by
  obtain ⟨k1, k2⟩ := integral_modelled P ms (K := K) rep frames hf (fun _ _ => 1) measurable_const (fun _ _ => zero_le_one) fun _ _ => le_rfl
  obtain ⟨l1, l2⟩ := integral_modelled P ms (K := K) rep frames hf φ hφ h0 h1
  simp only [ENNReal.ofReal_one, mul_one] at k1 k2
  have hp : Measurable fun x : (Fin T → Val K zd T fp) × Val K zd T fp => φ (fun t => toPos (x.1 t)) (toWhat x.2) :=
    hφ.comp measurable_shapes
  obtain ⟨n0, h⟩ := C99_posterior hT (tractable P ms (K := K) (T := T) rep (mkVideo frames)) (stepwise P ms rep _) (fun p z => φ (fun t => toPos (p t)) (toWhat z)) hp
    l1 k1 ε δ hε hδ
  rw [l2, k2] at h
  exact ⟨n0, fun n b hn j M videos hft hM hv => h n b hn j M videos hft hM hv (fun s i => tractable P ms rep _) fun s i => stepwise P ms rep _⟩

end networks

/-! ### Networks for many particles from those for one -/
section lift
variable {V D Lo : Type} [AddCommMonoid Lo] {lp : D → V → ℝ}

/-- The networks applied to every particle of every batch element. -/
noncomputable def everyLane (n b : Nat) (N : ApgNet (PLang V D Lo lp)) (T : Nat) : ApgNet (LanesLang n b lp) where
  objects := N.objects
  timesteps _ := T
  coorStep f t what zs s j := N.coorStep (f s j) t (what.map fun x => x s j) (zs.map fun x => x s j)
  stack zs s j := N.stack (zs.map fun x => x s j)
  slice v k s j := N.slice (v s j) k
  coorDist f t what zs s j := N.coorDist (f s j) t (what.map fun x => x s j) (zs.map fun x => x s j)
  digitDist f zs s j := N.digitDist (f s j) (zs.map fun x => x s j)
  where0 _ _ := N.where0
  whereT v s j := N.whereT (v s j)
  what _ _ := N.what
  recon zs w s j := N.recon (zs.map fun x => x s j) (w s j)
  reparam := N.reparam

theorem everyLane_perLane (n b : Nat) (N : ApgNet (PLang V D Lo lp)) (T : Nat) : PerLane (everyLane n b N T) N where
  objects := rfl
  coorStep _ _ _ _ _ _ := rfl
  stack _ _ _ := rfl
  coorDist _ _ _ _ _ _ := rfl
  digitDist _ _ _ _ := rfl
  where0 _ _ := rfl
  whereT _ _ _ := rfl
  what _ _ := rfl
  recon _ _ _ _ := rfl
end lift

/-- The hypotheses are met: two batch elements, any number of particles, the frames of the second black, those of the first all 1/2; any parameters. -/
example {dp hd hc zd K : Nat} (P : Bouncing.Params 3 dp hd hc zd) (ms : Img dp) : ∃ n0 : Nat, ∀ n, n0 ≤ n →
    EveryRun (n := n) (b := 2) Bouncing.base (everyLane n 2 (Bouncing.net P ms K 4 true) 4) 4 (fun _ j => Bouncing.mkVideo fun _ _ _ => if j = 0 then 1 / 2 else 0)
      (fun x => indicate (1 / 10 ≤ |(∑ s, Real.exp (x (s, 0)).2.2) / n - (Spec.Bouncing.evidence K (Bouncing.digitMean P) fun (_ : Fin 4) (_ _ : Fin 3) => 1 / 2).toReal|))
      fun e => e ≤ ENNReal.ofReal (1 / 100) := by
  obtain ⟨n0, h⟩ := C99_bouncing_evidence P ms (K := K) (T := 4) true (by norm_num) (fun _ _ _ => 1 / 2) (fun _ _ _ => by norm_num) (1 / 10) (1 / 100) (by norm_num) (by norm_num)
  exact ⟨n0, fun n hn => h n 2 hn 0 _ _ rfl (everyLane_perLane n 2 _ 4) fun s => by simp⟩

end Verif
