import Verif.Model.Metrics
import Verif.Proofs.AnnealPop
import Verif.Proofs.PopulationLaw
import Verif.Props.Annealing
import Verif.Props.Metrics
import Verif.Props.Scoping
import Verif.Props.Weighting
/-
C55: populations with systematic resampling are properly weighted. C57: vsmc with resampling.
-/
namespace Verif
open Spec MeasureTheory
open scoped ENNReal

section
variable {n b : Nat} {X D Lo : Type} [AddCommMonoid Lo] [Nonempty X] [MeasurableSpace X] {μ : Measure X} [SFinite μ] {lp : D → X → ℝ}
local notation "ℙ" => PopLang n b X D μ lp
local notation "𝕃" => PLang X D Lo lp

/-- C55. A population of n particles, batch element `j`. If every particle of the vectorised nest `N` behaves like the nest `m` for a
single particle (`LaneNode`; the nest and `h` measurable, values discrete or continuous), `N` resamples proposals with `Systematic(normalize_weights=False)` anywhere, `m` fits (as for C29; what
is resampled must not observe anything) and the call does not raise, then the mean over the particles of
exp(log_weight) * h(trace, output) is, in expectation over all draws and all resampling offsets, the integral of h against the
unnormalised measure that `m` targets. -/
theorem C55_population [NeZero n] (N : Node ℙ) (m : Node 𝕃) (j : Fin b) (c : PyVal ℙ) (kw : Kw ℙ) (w : World ℙ) (c0 : PyVal 𝕃) (kw0 : Kw 𝕃)
    (hs : WellScoped false N) (hw : ∀ i ∈ objects N, w.cond i = none)
    (hok : ∀ r w', (eval N c kw).Runs w r w' → ∃ o, r = .ok o)
    (hl : ∀ s, LaneNode (particleLane s j) N m) (hN : Resamples (· = systematic false false) N)
    (hc : ∀ s, lanePy (particleLane s j) c = c0) (hkw : ∀ s, laneKw (particleLane s j) kw = kw0) (hf : Fits μ m c0 kw0)
    (hm : MeasNode m) {h : Env X → PyVal 𝕃 → ℝ≥0∞} (hh : MeasFun h) :
    expectT (eval N c kw w) (fun r => match r.1 with
      | .ok o => (∑ s, dens (o.logWeight.val s j) * h (laneEnv (particleLane s j) o.trace) (lanePy (particleLane s j) o.output)) / n
      | .error _ => 0) = target μ m false (fun _ => none) c0 kw0 h := by
  have h0 : w.cond N.id = none := hw N.id (by simp [objects])
  have he : eval N c kw w = evalP N none c kw w := by
    have := C05_lexical N c kw w (by rw [h0]; exact hs) fun i hi => hw i (by simp [objects, hi])
    rwa [h0] at this
  have hn0 : (n : ℝ≥0∞) ≠ 0 := by exact_mod_cast NeZero.ne n
  rw [he]
  have : Nonempty (ℙ).V := inferInstanceAs (Nonempty (Fin n → Fin b → X))
  have hev := pop_ev (w := w) (isLaw_expectT (μ := μ) (lp := lp) (n := n) j) (P := (· = systematic false false))
    (fun r hr => by rw [hr]; exact unbiased_systematic j) hm hl hN hc hkw hf
    (fun r w' hr => hok r w' (by rw [Exec.Runs, he]; exact hr)) hh
  rw [Fintype.card_fin] at hev
  have hmul := expectT_mul (evalP N none c kw w) ((n : ℝ≥0∞)⁻¹) (ENNReal.inv_ne_top.2 hn0)
    (onOk (total (fun s => particleLane s j) h))
  rw [hev, ← mul_assoc, ENNReal.inv_mul_cancel hn0 (ENNReal.natCast_ne_top n), one_mul] at hmul
  refine Eq.trans ?_ hmul
  congr 1
  funext r
  rcases r with ⟨e | o, w'⟩
  · simp [onOk]
  · simp only [onOk, total, laneSum, laneAgg]
    rw [div_eq_mul_inv, mul_comm]
    rfl

/-- C55. In particular exp(log_Z_hat) (`log_Z_hat` of combinators/metrics.py applied to the log weights of a batch element) is an
unbiased estimate of the target's normalising constant. -/
theorem C55_log_Z_hat [NeZero n] (N : Node ℙ) (m : Node 𝕃) (j : Fin b) (c : PyVal ℙ) (kw : Kw ℙ) (w : World ℙ) (c0 : PyVal 𝕃) (kw0 : Kw 𝕃)
    (hs : WellScoped false N) (hw : ∀ i ∈ objects N, w.cond i = none)
    (hok : ∀ r w', (eval N c kw).Runs w r w' → ∃ o, r = .ok o)
    (hl : ∀ s, LaneNode (particleLane s j) N m) (hN : Resamples (· = systematic false false) N)
    (hc : ∀ s, lanePy (particleLane s j) c = c0) (hkw : ∀ s, laneKw (particleLane s j) kw = kw0) (hf : Fits μ m c0 kw0)
    (hm : MeasNode m) :
    expectT (eval N c kw w) (fun r => match r.1 with
      | .ok o => ENNReal.ofReal (Real.exp (logZHat fun s => o.logWeight.val s j))
      | .error _ => 0) = target μ m false (fun _ => none) c0 kw0 fun _ _ => 1 := by
  rw [← C55_population N m j c kw w c0 kw0 hs hw hok hl hN hc hkw hf hm (measFun_const 1)]
  congr 1
  funext r
  rcases r with ⟨e | o, w'⟩
  · rfl
  · simp only [mul_one]
    have hn : (0 : ℝ) < n := by exact_mod_cast NeZero.pos n
    rw [logZHat, Real.exp_log (zHat_pos _), zHat, ENNReal.ofReal_div_of_pos hn, ENNReal.ofReal_sum_of_nonneg fun _ _ => (Real.exp_pos _).le,
      ENNReal.ofReal_natCast]
    rfl

/-- C57. vsmc with `resample=True` and `Systematic(normalize_weights=False)` on a population of n particles, K steps, for all K: the
call never raises, and in expectation over all draws and offsets the mean over the particles of exp(log_weight) * h(z_K) is the integral
of h against the last target's (unnormalised) density, whatever the kernels and the intermediate targets.
* `hV`: each particle of the annealing model is the scalar model `S`; initial distribution and kernels are normalised, log densities measurable; values may be discrete or continuous.
* Called with sample_dims=0 and batch_dim=1 (the batch dimension may not be missing, see C47); the arguments are the same for all
  particles (main.py passes None and the sample shape).
* The global store has no `resample_update` hook that does anything (nothing in experiments/annealing installs one). -/
theorem C57_vsmc_resampled [NeZero n] (fresh : ObjId) (M : AnnealModel ℙ) (S : AnnealSpec X D) (j : Fin b) (hV : Vectorises M S j)
    (hS : S.Norm μ lp) (I : AnnealIds) (hid : I.Below fresh) (lossFn : Out ℙ → Except Err (ℙ).Lo) (hl : LossOk lossFn)
    (transf : Option (Trace ℙ → Kw ℙ → Except Err (Trace ℙ))) (ht : AnnealTransf transf)
    (hteq : ∀ detachD weq, transf = some (stlTrace detachD weq) → ∀ x y, weq x y = true → x = y) (K : Nat) :
    ∃ nd : Node ℙ, vsmc fresh (M.initial I :: (List.range K).map (M.target I)) ((List.range K).map (M.forward I))
        ((List.range K).map (M.reverse I)) lossFn transf (some (systematic false false)) = .ok nd ∧
      ∀ (c : PyVal ℙ) (kw : Kw ℙ) (w : World ℙ), KwOk kw → kw.sampleDims = .int 0 → kw.batchDim = .int 1 →
        (∃ c0 : PyVal (PLang X D ℝ lp), ∀ s, lanePy (particleLane s j) c = c0) → (∃ kw0 : Kw (PLang X D ℝ lp), ∀ s, laneKw (particleLane s j) kw = kw0) →
        (∀ i, w.cond i = none) → (∀ t t', w.store.hooks.resampleUpdate w.store.data t t' = (.ok (), w.store.data)) →
        (∀ r w', (eval nd c kw).Runs w r w' → ∃ o rv, r = .ok o ∧ w' = w ∧ o.trace.keys = [AnnealModel.name K] ∧
          o.trace.get? (AnnealModel.name K) = some rv ∧ o.output = .dict [(AnnealModel.name K, .tensor rv.value)]) ∧
        ∀ h : X → ℝ≥0∞, Measurable h → expectT (eval nd c kw w) (fun r => match r.1 with
          | .ok o => (∑ s, dens (o.logWeight.val s j) * match o.trace.get? (AnnealModel.name K) with
            | some rv => h (rv.value s j)
            | none => 0) / n
          | .error _ => 0) = ∫⁻ x, dens (lp (S.last K) x) * h x ∂μ := by
  refine ⟨vsmcNode fresh K M I lossFn transf (systematic false false) K, ?_, ?_⟩
  · simp only [vsmc]
    rw [zip3_range, List.length_map, List.length_range]
    exact vsmc_eq _ _ _ _ _ _ _ _
  rintro c kw w hk hsd hbd ⟨c0, hc⟩ ⟨kw0, hkw⟩ hw hst
  obtain ⟨x, hx⟩ := vsmcNode_eval fresh K M I hid lossFn hl transf ht.ok K c kw w hk (by rw [hsd, hbd]; rfl) hw hst
  have hruns : ∀ r w', (eval (vsmcNode fresh K M I lossFn transf (systematic false false) K) c kw).Runs w r w' → ∃ o, r = .ok o ∧ w' = w ∧ PopInv K o := by
    intro r w' hr
    rw [Exec.Runs, hx, Comp.bind_Ret] at hr
    obtain ⟨o, -, ho⟩ := hr
    cases ho
    exact ⟨o.1, rfl, rfl, o.2⟩
  refine ⟨fun r w' hr => ?_, fun h hh => ?_⟩
  · obtain ⟨o, h1, h2, ra, h3, -, -, h4, -⟩ := hruns r w' hr
    exact ⟨o, ra, h1, h2, by rw [h3]; rfl, by rw [h3]; simp, h4⟩
  · let h' : Env X → PyVal (PLang X D ℝ lp) → ℝ≥0∞ := fun e _ => match e with
      | (_, v) :: _ => h v.value
      | [] => 0
    have hh' : MeasFun h' := by
      intro Γ _ e o he _
      cases he with
      | nil => exact measurable_const
      | cons name v w latent e hv hw he => exact hh.comp hv
    have hmain := C55_population (Lo := ℝ) (vsmcNode fresh K M I lossFn transf (systematic false false) K)
      (S.node M.rep0 M.rep M.rep' (fun k => decide (k + 1 < K)) K) j c kw w c0 kw0
      (vsmcNode_scoped fresh K M I hid lossFn transf _ K) (fun i _ => hw i)
      (fun r w' hr => by obtain ⟨o, h, -⟩ := hruns r w' hr; exact ⟨o, h⟩)
      (fun s => vsmcNode_lane fresh K M S j hV I lossFn transf (by
        rcases ht with h | ⟨d, e, h, -⟩
        · exact Or.inl h
        · exact Or.inr ⟨d, e, h, hteq d e h⟩) _ s K)
      (vsmcNode_resamples _ _ _ _ _ _ _ _) hc hkw
      (node_fits S hS _ _ _ _ K _ _) (node_meas S hS _ _ _ _ K) hh'
    rw [node_target] at hmain
    refine Eq.trans ?_ hmain
    refine (isLaw_expectT (μ := μ) (lp := lp) (n := n) j).congr _ _ _ ?_
    rintro ⟨r, w'⟩ hr
    obtain ⟨o, h1, h2, ra, h3, -⟩ := hruns r w' hr
    cases h1
    have h4 : o.trace.get? (AnnealModel.name K) = some ra := by rw [h3]; simp
    have h5 : ∀ s, laneEnv (particleLane (μ := μ) (lp := lp) s j) o.trace =
        [(gname K, ⟨ra.value s j, ra.logProb s j, ra.prov != .observed⟩)] := fun s => by rw [h3]; rfl
    simp only [h4, h5]
    rfl

end

/-! The hypotheses can be met. -/
namespace Coin

/-- Coins, and coins with an unnormalised density. -/
noncomputable def lpU (d : Bool × Bool) (v : Bool) : ℝ := lp d.1 v + if d.2 then 1 else 0

theorem normalisedU (d : Bool) : Normalised Measure.count lpU (d, false) := by
  refine ⟨measurable_of_countable _, ?_⟩
  have := (normalised d).2
  simpa [lpU] using this

/-- Start with a fair coin; the targets are unnormalised biased and fair coins; a kernel keeps the coin with some probability. -/
noncomputable def annealSpec : AnnealSpec Bool (Bool × Bool) where
  d0 := (false, false)
  g k := (k % 2 == 0, true)
  f _ x := (x, false)
  r _ x := (x, false)

/-- Two particles, one batch element. -/
noncomputable def annealPop : AnnealModel (PopLang 2 1 Bool (Bool × Bool) Measure.count lpU) where
  d0 _ _ := ⟨(false, false), normalisedU _⟩
  rep0 := false
  cls0 := "FixedMultivariateNormal"
  g k v s j := lpU (k % 2 == 0, true) (v s j)
  cls _ := "Tempered"
  f _ v s j := ⟨(v s j, false), normalisedU _⟩
  rep := true
  r _ v s j := ⟨(v s j, false), normalisedU _⟩
  rep' := false

theorem ids_below : Toy.annealIds.Below 100 := fun k =>
  ⟨(by omega : 3 * (k % 4) + 2 < (100 : Nat)), (by omega : 3 * (k % 4) + 3 < (100 : Nat)), (by omega : 3 * (k % 4) + 1 < (100 : Nat))⟩

end Coin

example : Vectorises Coin.annealPop Coin.annealSpec 0 ∧ Coin.annealSpec.Norm Measure.count Coin.lpU ∧ Toy.annealIds.Below 100 :=
  ⟨⟨fun _ => rfl, fun _ _ _ => rfl, fun _ _ _ => rfl, fun _ _ _ => rfl⟩, ⟨Coin.normalisedU _, fun _ _ => Coin.normalisedU _, fun _ _ => Coin.normalisedU _,
    fun _ => measurable_of_countable _, fun _ => measurable_of_countable _, fun _ => measurable_of_countable _⟩,
    Coin.ids_below⟩

/-- Three steps of the coins with resampling: exp(log_Z_hat) has the expectation e, the last target's normalising constant. -/
example : ∃ nd, vsmc 100 (Coin.annealPop.initial Toy.annealIds :: (List.range 3).map (Coin.annealPop.target Toy.annealIds))
      ((List.range 3).map (Coin.annealPop.forward Toy.annealIds)) ((List.range 3).map (Coin.annealPop.reverse Toy.annealIds))
      (fun _ => .ok 0) none (some (systematic false false)) = .ok nd ∧
    expectT (eval nd .none { sampleDims := .int 0, batchDim := .int 1, shared := [("sample_shape", .tuple [.int 2, .int 1])] }
      { cond := fun _ => none, store := Store.init }) (fun r => match r.1 with
        | .ok o => (∑ s, dens (o.logWeight.val s 0)) / 2
        | .error _ => 0) = ENNReal.ofReal (Real.exp 1) := by
  obtain ⟨nd, h1, h2⟩ := C57_vsmc_resampled 100 Coin.annealPop Coin.annealSpec 0
    ⟨fun _ => rfl, fun _ _ _ => rfl, fun _ _ _ => rfl, fun _ _ _ => rfl⟩
    ⟨Coin.normalisedU _, fun _ _ => Coin.normalisedU _, fun _ _ => Coin.normalisedU _,
    fun _ => measurable_of_countable _, fun _ => measurable_of_countable _, fun _ => measurable_of_countable _⟩ Toy.annealIds
    Coin.ids_below
    (fun _ => .ok 0) (fun _ _ _ => ⟨_, rfl⟩) none (Or.inl rfl) (fun _ _ h => by cases h) 3
  refine ⟨nd, h1, ?_⟩
  obtain ⟨h3, h4⟩ := h2 .none { sampleDims := .int 0, batchDim := .int 1, shared := [("sample_shape", .tuple [.int 2, .int 1])] }
    { cond := fun _ => none, store := Store.init } (by simp [KwOk]) rfl rfl ⟨.none, fun _ => rfl⟩
    ⟨{ sampleDims := .int 0, batchDim := .int 1, shared := [("sample_shape", .tuple [.int 2, .int 1])] }, fun _ => rfl⟩ (fun _ => rfl) (fun _ _ => rfl)
  refine Eq.trans ?_ ((h4 (fun _ => 1) measurable_const).trans ?_)
  · refine (isLaw_expectT (μ := Measure.count) (lp := Coin.lpU) (n := 2) (0 : Fin 1)).congr _ _ _ ?_
    rintro ⟨r, w'⟩ hr
    obtain ⟨o, rv, rfl, -, -, h5, -⟩ := h3 r w' hr
    simp only [h5, mul_one]
    rfl
  · rw [Coin.lintegral_bool]
    have h6 : ∀ v, dens (Coin.lpU (Coin.annealSpec.last 3) v) = ENNReal.ofReal (Coin.prob true v) * ENNReal.ofReal (Real.exp 1) := by
      intro v
      rw [← Coin.dens_lp, dens, dens, ← ENNReal.ofReal_mul (Real.exp_pos _).le, ← Real.exp_add]
      rfl
    simp only [h6, mul_one]
    rw [← add_mul, ← ENNReal.ofReal_add (Coin.prob_pos _ _).le (Coin.prob_pos _ _).le]
    norm_num [Coin.prob]

end Verif
