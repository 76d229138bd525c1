import Verif.Props.ApgParticles
import Verif.Props.ApgVariance
import Verif.Props.ChainsConverge
import Verif.Props.PaperVariance
/-
C80, C99: what the effective sample size tends to, with infinite variance too.
-/
namespace Verif
open Spec Apg MeasureTheory Filter
open scoped ENNReal Topology

section
variable (p : PaperParams)

/-- C80. For a new model with 26 targets or more the effective sample size that nvi_test reports for the last target becomes an ever smaller fraction of the number of
particles: it converges to 0. With at most 25 targets it converges to a positive fraction, which depends on the number of targets only. -/
theorem C80_ess (K : Nat) (hp : PaperWalk.Untrained p) : ∃ a : ℝ, (25 ≤ K + 1 → a = 0) ∧ (K + 1 < 25 → 0 < a) ∧ ∀ ε δ : ℝ, 0 < ε → 0 < δ →
    ∃ n0 : Nat, ∀ n b : Nat, n0 ≤ n → ∀ (j : Fin b) (fresh : ObjId) (I : AnnealIds), I.Below fresh → ∀ lossFn, LossOk lossFn → ∀ transf, AnnealTransf transf →
      ∃ nd, vsmc fresh ((paperAnneal n b p (K + 1)).initial I :: (List.range (K + 1)).map ((paperAnneal n b p (K + 1)).target I))
        ((List.range (K + 1)).map ((paperAnneal n b p (K + 1)).forward I)) ((List.range (K + 1)).map ((paperAnneal n b p (K + 1)).reverse I)) lossFn transf none = .ok nd ∧
      ∀ kw w, KwOk kw → (∀ i, w.cond i = none) →
        expectT (nviTest popEss popLz nd kw w) (onReturn fun rep => indicate (ε ≤ |reportEss K j rep / n - a|)) ≤ ENNReal.ofReal δ := by
  have e8 : ∫ x, Real.exp (paperLp ((paperSpec p (K + 1)).g K) x) = 8 := paper_integral_last p K
  have hm := PaperWalk.second_moment_iff p hp (K + 1) (by omega)
  refine ⟨8 ^ 2 / ((paperSpec p (K + 1)).law volume paperLp (K + 1) fun w _ => dens w ^ 2).toReal, fun h => ?_, fun h => ?_, fun ε δ hε hδ => ?_⟩
  · have : ((paperSpec p (K + 1)).law volume paperLp (K + 1) fun w _ => dens w ^ 2) = ⊤ := by
      by_contra h'
      have := hm.1 h'
      omega
    rw [this, ENNReal.toReal_top, div_zero]
  · have hN := paper_norm p (K + 1)
    have h0 : ((paperSpec p (K + 1)).law volume paperLp (K + 1) fun w _ => dens w ^ 2) ≠ 0 := by
      intro h0
      have hq := endLaw_prob hN (K + 1)
      rw [← lintegral_endLaw hN (K + 1) (fun w _ => dens w ^ 2) ((measurable_dens.comp measurable_fst).pow_const 2),
        lintegral_eq_zero_iff (f := fun q : ℝ × (Fin 2 → ℝ) => dens q.1 ^ 2) ((measurable_dens.comp measurable_fst).pow_const 2)] at h0
      obtain ⟨q, hq'⟩ := h0.exists
      exact pow_ne_zero 2 (by simp [dens, Real.exp_pos]) hq'
    exact div_pos (by norm_num) (ENNReal.toReal_pos h0 (hm.2 h))
  · obtain ⟨n0, h0⟩ := C76_ess_converges (paperSpec p (K + 1)) (paper_norm p (K + 1)) K (paper_integrable p (K + 1) K) ε δ hε hδ
    refine ⟨n0, fun n b hn j fresh I hid lossFn hl transf ht => ?_⟩
    obtain ⟨nd, e, -⟩ := C30_vsmc fresh (paperAnneal n b p (K + 1)) I hid lossFn hl transf ht (K + 1)
    refine ⟨nd, e, fun kw w hk hw => ?_⟩
    have := h0 n b hn j _ (paper_vectorises n b p (K + 1) j) fresh I hid lossFn hl transf ht (K + 1) (by omega) nd e kw w hk hw
    rw [e8] at this
    exact this

end

section
variable {V D Lo : Type} [MeasurableSpace V] [AddCommMonoid Lo] {lp : D → V → ℝ} {β : D → Measure V} {μ ν ρ : Measure V} [SigmaFinite μ] [SFinite ν] [SFinite ρ]
  {N : ApgNet (PLang V D Lo lp)} {T : Nat} {f : V}

/-- C99. The effective sample size of importance sampling as a fraction of the number of particles converges to Z² / V, where Z is the density of the frames and V the second
moment of one particle's weight; to 0 if that is infinite. -/
theorem C99_ess (hT : 1 ≤ T) (hN : Tractable β μ ν N T f) (hS : Stepwise β ρ N f)
    (hz : Integrable (fun x : (Fin T → V) × V => Real.exp (modelled N T f x.1 x.2)) ((Measure.pi fun _ => μ).prod ν)) (ε δ : ℝ) (hε : 0 < ε) (hδ : 0 < δ) :
    ∃ n0 : Nat, ∀ n b : Nat, n0 ≤ n → ∀ (j : Fin b) (M : ApgNet (LanesLang n b lp)) (frames : Fin n → Fin b → V), M.timesteps frames = T → PerLane M N →
      (∀ s, frames s j = f) → (∀ s i, Tractable β μ ν N T (frames s i)) → (∀ s i, Stepwise β ρ N (frames s i)) →
        EveryRun β M T frames (fun x => indicate (ε ≤ |effectiveSampleSize (fun s => (x (s, j)).2.2) / n -
          (∫ y : (Fin T → V) × V, Real.exp (modelled N T f y.1 y.2) ∂(Measure.pi fun _ => μ).prod ν) ^ 2 /
            (∫⁻ x, dens x.2.2 ^ 2 ∂particleLaw μ ν N T f).toReal|)) fun e => e ≤ ENNReal.ofReal δ := by
  have hp := particle_prob hN hS
  obtain ⟨k1, k2⟩ := integral_particle hN (fun _ _ => 1) measurable_const
  simp only [mul_one] at k1 k2
  have kw : Measurable fun y : (Fin T → V) × V × ℝ => Real.exp y.2.2 := Real.measurable_exp.comp (measurable_snd.comp measurable_snd)
  have hsq : ∀ y : ℝ, dens y ^ 2 = ENNReal.ofReal (Real.exp y ^ 2) := fun y => by rw [dens, ENNReal.ofReal_pow (Real.exp_pos _).le]
  have h3 : Tendsto (fun n : Nat => (Measure.pi fun _ : Fin n => particleLaw μ ν N T f) {x | ε ≤ |essFraction (fun y : (Fin T → V) × V × ℝ => Real.exp y.2.2) n x -
      (∫ y : (Fin T → V) × V, Real.exp (modelled N T f y.1 y.2) ∂(Measure.pi fun _ => μ).prod ν) ^ 2 / (∫⁻ x, dens x.2.2 ^ 2 ∂particleLaw μ ν N T f).toReal|}) atTop (𝓝 0) := by
    have hV : ∫⁻ y, ENNReal.ofReal (Real.exp y.2.2 ^ 2) ∂particleLaw μ ν N T f = ∫⁻ x, dens x.2.2 ^ 2 ∂particleLaw μ ν N T f := by simp only [hsq]
    by_cases hf : ∫⁻ x, dens x.2.2 ^ 2 ∂particleLaw μ ν N T f = ⊤
    · rw [hf, ENNReal.toReal_top, div_zero]
      exact ess_infinite _ _ kw (k1 hz) (hV.trans hf) ε hε
    · have hm : Measurable fun y : (Fin T → V) × V × ℝ => Real.exp y.2.2 ^ 2 := kw.pow_const 2
      have h2 : Integrable (fun y : (Fin T → V) × V × ℝ => Real.exp y.2.2 ^ 2) (particleLaw μ ν N T f) := by
        refine ⟨hm.aestronglyMeasurable, ?_⟩
        rw [hasFiniteIntegral_iff_ofReal (.of_forall fun p => sq_nonneg _), hV]
        exact lt_top_iff_ne_top.2 hf
      have e : ∫ y, Real.exp y.2.2 ^ 2 ∂particleLaw μ ν N T f = (∫⁻ x, dens x.2.2 ^ 2 ∂particleLaw μ ν N T f).toReal := by
        rw [integral_eq_lintegral_of_nonneg_ae (.of_forall fun p => sq_nonneg _) hm.aestronglyMeasurable, hV]
      have h0 : ∫ y, Real.exp y.2.2 ^ 2 ∂particleLaw μ ν N T f ≠ 0 := by
        have : ∀ y : (Fin T → V) × V × ℝ, Real.exp y.2.2 ^ 2 = Real.exp (2 * y.2.2) := fun p => by rw [← Real.exp_nat_mul]; norm_num
        simp only [this] at h2 ⊢
        exact (integral_exp_pos h2).ne'
      have h3 := ess_finite _ _ kw (k1 hz) h2 h0 ε hε
      rw [k2, e] at h3
      exact h3
  obtain ⟨n0, h⟩ := bound_runs hT hN hS _ (fun n => measurableSet_le measurable_const (continuous_abs.measurable.comp ((measurable_essFraction _ kw n).sub_const _))) h3 δ hδ
  refine ⟨max n0 1, fun n b hn j M frames hft hM hfr hN' hS' => ?_⟩
  have : NeZero n := ⟨by have := le_max_right n0 1; omega⟩
  have := h n b (le_trans (le_max_left _ _) hn) j M frames hft hM hfr hN' hS'
  simp only [C27_formula]
  exact this

end

section networks
open Bouncing
variable {fp dp hd hc zd K T : Nat} (P : Params fp dp hd hc zd) (ms : Img dp) (rep : Bool)

/-- C99. With the bouncing-shapes networks, where C83 shows that the variance is infinite, the fraction converges to 0, although averages converge. -/
theorem C99_bouncing_ess (hT : 1 ≤ T) (hK : 0 < K) (frames : Video T fp) (hf : ∀ t i j, 0 ≤ frames t i j ∧ frames t i j ≤ 1) (i : Fin 2)
    (hs : coorStd P (frames ⟨0, hT⟩) ms i ^ 2 ≤ 1 / 2) (ε δ : ℝ) (hε : 0 < ε) (hδ : 0 < δ) :
    ∃ n0 : Nat, ∀ n b : Nat, n0 ≤ n → ∀ (j : Fin b) (M : ApgNet (LanesLang n b logProb)) (videos : Fin n → Fin b → Val K zd T fp), M.timesteps videos = T →
      PerLane M (net P ms K T rep) → (∀ s, videos s j = mkVideo frames) →
        EveryRun base M T videos (fun x => indicate (ε ≤ effectiveSampleSize (fun s => (x (s, j)).2.2) / n)) fun e => e ≤ ENNReal.ofReal δ := by
  obtain ⟨k1, -⟩ := integral_modelled P ms (K := K) rep frames hf (fun _ _ => 1) measurable_const (fun _ _ => zero_le_one) fun _ _ => le_rfl
  simp only [mul_one] at k1
  have hN := tractable P ms (K := K) (T := T) rep (mkVideo frames)
  have hinf : ∫⁻ x, dens x.2.2 ^ 2 ∂particleLaw (posBase K zd T fp) (whatBase K zd T fp) (net P ms K T rep) T (mkVideo frames) = ⊤ := by
    have hm : Measurable fun x : (Fin T → Val K zd T fp) × Val K zd T fp × ℝ => dens x.2.2 ^ 2 := (measurable_dens.comp (measurable_snd.comp measurable_snd)).pow_const 2
    refine ((law_particle hN (stepwise P ms rep _)).expect _ hm).symm.trans ?_
    refine ENNReal.eq_top_of_forall_nnreal_le fun a => ?_
    set m := coorMean P (frames ⟨0, hT⟩) ms i
    set s := coorStd P (frames ⟨0, hT⟩) ms i with hsd
    have hs0 : 0 < s := Real.exp_pos _
    set κ := ENNReal.ofReal ((1 / 2 ^ 23) ^ (T * (fp * fp))) ^ 2 * dens (Real.log s - Real.log (√(2 * Real.pi))) with hκ
    have hκ0 : κ ≠ 0 := mul_ne_zero (pow_ne_zero _ (by simp)) (by simp [dens, Real.exp_pos])
    have hκt : κ ≠ ⊤ := ENNReal.mul_ne_top (ENNReal.pow_ne_top ENNReal.ofReal_ne_top) (dens_ne_top _)
    obtain ⟨n, hn⟩ := ENNReal.exists_nat_gt (r := (a : ℝ≥0∞) / κ) (ENNReal.div_ne_top ENNReal.coe_ne_top hκ0)
    refine le_trans ?_ (second_moment_lower P ms rep (mkVideo frames) hT hK i hf n)
    have h5 : (a : ℝ≥0∞) ≤ κ * n := by
      have := ENNReal.div_le_iff_le_mul (a := (a : ℝ≥0∞)) (b := κ) (c := n) (Or.inl hκ0) (Or.inl hκt)
      rw [mul_comm]
      exact this.1 hn.le
    refine h5.trans ?_
    rw [hκ, mul_assoc]
    exact mul_le_mul_right (missed_lower m s hs0 hs n) _
  obtain ⟨n0, h⟩ := C99_ess hT hN (stepwise P ms rep _) k1 ε δ hε hδ
  rw [hinf, ENNReal.toReal_top, div_zero] at h
  refine ⟨max n0 1, fun n b hn j M videos hft hM hv => ?_⟩
  have : NeZero n := ⟨by have := le_max_right n0 1; omega⟩
  have := h n b (le_trans (le_max_left _ _) hn) j M videos hft hM hv (fun s i => tractable P ms rep _) fun s i => stepwise P ms rep _
  have e : ∀ x : Fin n × Fin b → (Fin T → Val K zd T fp) × Val K zd T fp × ℝ, |effectiveSampleSize (fun s => (x (s, j)).2.2) / n - 0| = effectiveSampleSize (fun s => (x (s, j)).2.2) / n := by
    intro x
    rw [sub_zero, abs_of_nonneg (div_nonneg (zero_le_one.trans (C27_bounds _).1) (Nat.cast_nonneg n))]
  simp only [e] at this
  exact this

end networks

/-- Thirty targets, three batch elements: with enough particles the effective sample size of the second is below a hundredth of their number, but for probability 1/1000. -/
example : ∃ n0 : Nat, ∀ n, n0 ≤ n → ∃ nd, vsmc 100 ((paperAnneal n 3 PaperEx.new 29).initial Toy.annealIds :: (List.range 29).map ((paperAnneal n 3 PaperEx.new 29).target Toy.annealIds))
      ((List.range 29).map ((paperAnneal n 3 PaperEx.new 29).forward Toy.annealIds)) ((List.range 29).map ((paperAnneal n 3 PaperEx.new 29).reverse Toy.annealIds))
      (fun _ => .ok 0) none none = .ok nd ∧
    expectT (nviTest popEss popLz nd {} (PaperEx.w0 n 3)) (onReturn fun rep => indicate (1 / 100 ≤ |reportEss 28 1 rep / n|)) ≤ ENNReal.ofReal (1 / 1000) := by
  obtain ⟨a, h1, -, h⟩ := C80_ess PaperEx.new 28 PaperEx.new_untrained
  obtain ⟨n0, h0⟩ := h (1 / 100) (1 / 1000) (by norm_num) (by norm_num)
  refine ⟨n0, fun n hn => ?_⟩
  obtain ⟨nd, e, h2⟩ := h0 n 3 hn 1 100 Toy.annealIds Coin.ids_below (fun _ => .ok 0) (fun _ _ _ => ⟨_, rfl⟩) none (Or.inl rfl)
  have h3 := h2 {} (PaperEx.w0 n 3) (fun e he => by cases he) fun _ => rfl
  rw [h1 (by norm_num)] at h3
  simp only [sub_zero] at h3
  exact ⟨nd, e, h3⟩

/-- Nevertheless the estimate of the evidence is close to log 8. -/
example : ∃ n0 : Nat, ∀ n, n0 ≤ n → ∃ nd, vsmc 100 ((paperAnneal n 3 PaperEx.new 29).initial Toy.annealIds :: (List.range 29).map ((paperAnneal n 3 PaperEx.new 29).target Toy.annealIds))
      ((List.range 29).map ((paperAnneal n 3 PaperEx.new 29).forward Toy.annealIds)) ((List.range 29).map ((paperAnneal n 3 PaperEx.new 29).reverse Toy.annealIds))
      (fun _ => .ok 0) none none = .ok nd ∧
    expectT (nviTest popEss popLz nd {} (PaperEx.w0 n 3)) (onReturn fun rep => indicate (1 / 100 ≤ |reportLz 28 1 rep - Real.log 8|)) ≤ ENNReal.ofReal (1 / 1000) := by
  obtain ⟨n0, h0⟩ := C79_converges PaperEx.new 28 (1 / 100) (1 / 1000) (by norm_num) (by norm_num)
  refine ⟨n0, fun n hn => ?_⟩
  obtain ⟨nd, e, h2⟩ := h0 n 3 hn 1 100 Toy.annealIds Coin.ids_below (fun _ => .ok 0) (fun _ _ _ => ⟨_, rfl⟩) none (Or.inl rfl)
  exact ⟨nd, e, h2 {} (PaperEx.w0 n 3) (fun e he => by cases he) fun _ => rfl⟩

/-- The networks and frames of `BouncingExample`, in two batch elements. -/
example : ∃ n0 : Nat, ∀ n, n0 ≤ n → EveryRun (n := n) (b := 2) Bouncing.base (everyLane n 2 (Bouncing.net BouncingExample.P 1 2 2 true) 2) 2 (fun _ _ => Bouncing.mkVideo BouncingExample.frames)
    (fun x => indicate (1 / 10 ≤ effectiveSampleSize (fun s => (x (s, 0)).2.2) / n)) fun e => e ≤ ENNReal.ofReal (1 / 100) := by
  obtain ⟨n0, h⟩ := C99_bouncing_ess BouncingExample.P 1 (K := 2) (T := 2) true (by norm_num) (by norm_num) BouncingExample.frames BouncingExample.frames_range 0 BouncingExample.std_le
    (1 / 10) (1 / 100) (by norm_num) (by norm_num)
  exact ⟨n0, fun n hn => h n 2 hn 0 _ _ rfl (everyLane_perLane n 2 _ 2) fun s => rfl⟩

end Verif
