import Verif.Spec.Evidence
import Verif.Proofs.UpperLaw
import Verif.Props.WeightingNormal
/-
C62: what the weights say about the evidence.
-/
namespace Verif
open Spec MeasureTheory
open scoped ENNReal

section
variable {V D Lo : Type} [AddCommGroup Lo] {lp : D → V → ℝ} [MeasurableSpace V] {μ : Measure V} [Nonempty V]
local notation "𝕃" => PLang V D Lo lp

theorem expect_mono {α : Type} (m : Comp 𝕃 α) {g g' : α → ℝ≥0∞} (h : ∀ a, m.Ret a → g a ≤ g' a) : expect μ m g ≤ expect μ m g' := by
  induction m with
  | ret a => exact h a rfl
  | draw d b k ih => exact lintegral_mono fun v => mul_le_mul_right (ih v fun a ha => h a ⟨v, ha⟩) _
  | rand k ih => exact ih () fun a ha => h a ⟨(), ha⟩

theorem expect_mul {α : Type} (m : Comp 𝕃 α) (x : ℝ≥0∞) (hx : x ≠ ⊤) (g : α → ℝ≥0∞) : expect μ m (fun a => x * g a) = x * expect μ m g := by
  induction m with
  | ret a => rfl
  | draw d b k ih =>
    simp only [expect, ih]
    rw [← lintegral_const_mul' _ _ hx]
    refine lintegral_congr fun v => ?_
    ring
  | rand k ih => exact ih ()

theorem expect_add_le {α : Type} (m : Comp 𝕃 α) (g g' : α → ℝ≥0∞) : expect μ m g + expect μ m g' ≤ expect μ m fun a => g a + g' a := by
  induction m with
  | ret a => exact le_rfl
  | draw d b k ih =>
    refine (le_lintegral_add _ _).trans (lintegral_mono fun v => ?_)
    rw [← mul_add]
    exact mul_le_mul_right (ih v) _
  | rand k ih => exact ih ()

theorem expect_add_upper {α : Type} (m : Comp 𝕃 α) (hp : ProperDraws μ m) (g g' : α → ℝ≥0∞) :
    expect μ m (fun a => g a + g' a) ≤ expectU μ m g + expect μ m g' := by
  induction m with
  | ret a => exact le_rfl
  | draw d b k ih => exact lintegral_add_upper μ (measurable_dens.comp hp.1.1) fun v => ih v (hp.2 v)
  | rand k ih => exact ih () hp

theorem expect_one {α : Type} (m : Comp 𝕃 α) (hp : ProperDraws μ m) : expect μ m (fun _ => 1) = 1 := by
  induction m with
  | ret a => rfl
  | draw d b k ih =>
    simp only [expect, ih _ (hp.2 _), mul_one]
    exact hp.1.2
  | rand k ih => exact ih () hp

/-- The inequality behind the bound on the mean: `1 + x ≤ exp x`, with positive and negative part. -/
theorem add_one_le_dens (x : ℝ) : ENNReal.ofReal x + 1 ≤ dens x + ENNReal.ofReal (-x) := by
  rcases le_total 0 x with hx | hx
  · rw [ENNReal.ofReal_of_nonpos (p := -x) (by linarith), add_zero, ← ENNReal.ofReal_one, ← ENNReal.ofReal_add hx zero_le_one]
    exact ENNReal.ofReal_le_ofReal (Real.add_one_le_exp x)
  · rw [ENNReal.ofReal_of_nonpos hx, zero_add, ← ENNReal.ofReal_one, dens, ← ENNReal.ofReal_add (Real.exp_pos _).le (by linarith)]
    refine ENNReal.ofReal_le_ofReal ?_
    linarith [Real.add_one_le_exp x]

/-- Jensen's inequality for means that are superadditive, and subadditive if one summand is taken with the upper mean. -/
theorem jensen {L : Lang} (m : Comp L (Except Err (Out L) × World L)) (hok : ∀ r w, m.Ret (r, w) → ∃ o, r = .ok o)
    (E EU : (Except Err (Out L) × World L → ℝ≥0∞) → ℝ≥0∞) (hone : E (fun _ => 1) = 1)
    (hmono : ∀ f g, (∀ a, m.Ret a → f a ≤ g a) → E f ≤ E g) (hsup : ∀ f g, E f + E g ≤ E fun a => f a + g a)
    (hsub : ∀ f g, E (fun a => f a + g a) ≤ EU f + E g) (x : Out L → ℝ) (y : ℝ) (hU : EU (onReturn fun o => dens (x o - y)) = 1) :
    MeanLe (fun g => E (onReturn g)) x y := by
  unfold MeanLe
  have h3 : E (onReturn fun o => ENNReal.ofReal (x o - y)) + 1 ≤ 1 + E (onReturn fun o => ENNReal.ofReal (y - x o)) := by
    calc _ = E (onReturn fun o => ENNReal.ofReal (x o - y)) + E (fun _ => 1) := by rw [hone]
      _ ≤ E (fun r => onReturn (fun o => ENNReal.ofReal (x o - y)) r + 1) := hsup _ _
      _ ≤ E (fun r => onReturn (fun o => dens (x o - y)) r + onReturn (fun o => ENNReal.ofReal (y - x o)) r) := by
          refine hmono _ _ ?_
          rintro ⟨r, w'⟩ hret
          obtain ⟨o, rfl⟩ := hok r w' hret
          simp only [onReturn]
          rw [← neg_sub (x o) y]
          exact add_one_le_dens _
      _ ≤ _ := by rw [← hU]; exact hsub _ _
  rw [add_comm] at h3
  exact (ENNReal.add_le_add_iff_left ENNReal.one_ne_top).1 h3

theorem normaliser_onReturn [SFinite μ] (n : Node 𝕃) (c : PyVal 𝕃) (kw : Kw 𝕃) (w : World 𝕃) (hs : WellScoped false n) (hw : ∀ i ∈ objects n, w.cond i = none)
    (hok : ∀ r w', (eval n c kw).Runs w r w' → ∃ o, r = .ok o) (hn : Whole n) (hf : Fits μ n c kw) (hm : MeasNode n) :
    expect μ (eval n c kw w) (onReturn fun o => dens o.logWeight.val) = target μ n false (fun _ => none) c kw fun _ _ => 1 := by
  rw [← C29_normaliser n c kw w hs hw hok hn hf hm]
  congr 1
  funext r
  rcases r with ⟨e | o, w'⟩ <;> rfl

/-- C62. Overestimates are rare: if the target's normalising constant is `exp logZ`, then the log weight exceeds `logZ + a` with
probability at most `exp (-a)`. -/
theorem C62_overestimate [SFinite μ] (n : Node 𝕃) (c : PyVal 𝕃) (kw : Kw 𝕃) (w : World 𝕃)
    (hs : WellScoped false n) (hw : ∀ i ∈ objects n, w.cond i = none)
    (hok : ∀ r w', (eval n c kw).Runs w r w' → ∃ o, r = .ok o) (hn : Whole n) (hf : Fits μ n c kw) (hm : MeasNode n)
    (logZ : ℝ) (hZ : target μ n false (fun _ => none) c kw (fun _ _ => 1) = dens logZ) (a : ℝ) :
    expect μ (eval n c kw w) (onReturn fun o => indicate (logZ + a ≤ o.logWeight.val)) ≤ dens (-a) := by
  have h1 := normaliser_onReturn n c kw w hs hw hok hn hf hm
  rw [hZ] at h1
  have h2 : expect μ (eval n c kw w) (onReturn fun o => indicate (logZ + a ≤ o.logWeight.val)) ≤
      expect μ (eval n c kw w) (fun r => dens (-(logZ + a)) * onReturn (fun o => dens o.logWeight.val) r) := by
    refine expect_mono _ ?_
    rintro ⟨e | o, w'⟩ -
    · exact zero_le
    · simp only [onReturn, indicate]
      split
      · rename_i h
        rw [← dens_add, dens, ← ENNReal.ofReal_one]
        refine ENNReal.ofReal_le_ofReal (Real.one_le_exp ?_)
        linarith
      · exact zero_le
  refine h2.trans (le_of_eq ?_)
  rw [expect_mul _ _ (dens_ne_top _), h1, ← dens_add]
  congr 1
  ring

/-- C62. The mean log weight is at most the log evidence (so that maximising it, as the objectives of VI do, maximises a lower bound),
if everything drawn is drawn from a normalised distribution. -/
theorem C62_elbo [SFinite μ] (n : Node 𝕃) (c : PyVal 𝕃) (kw : Kw 𝕃) (w : World 𝕃)
    (hs : WellScoped false n) (hw : ∀ i ∈ objects n, w.cond i = none)
    (hok : ∀ r w', (eval n c kw).Runs w r w' → ∃ o, r = .ok o) (hn : Whole n) (hf : Fits μ n c kw) (hm : MeasNode n)
    (logZ : ℝ) (hZ : target μ n false (fun _ => none) c kw (fun _ _ => 1) = dens logZ) (hp : ProperDraws μ (eval n c kw w)) :
    MeanLe (fun g => expect μ (eval n c kw w) (onReturn g)) (fun o => o.logWeight.val) logZ := by
  refine jensen _ hok (expect μ (eval n c kw w)) (expectU μ (eval n c kw w)) (expect_one _ hp) (fun _ _ h => expect_mono _ h)
    (expect_add_le _) (expect_add_upper _ hp) _ _ ?_
  have h0 : w.cond n.id = none := hw n.id (by simp [objects])
  have he : eval n c kw w = evalP n none c kw w := by
    have := C05_lexical n c kw w (by rw [h0]; exact hs) fun i hi => hw i (by simp [objects, hi])
    rwa [h0] at this
  have hev := whole_ev (w := w) (isLaw_expectU (μ := μ)) hm (fun _ => laneNode_one n) hn (c := c) (kw := kw)
    (fun r w' hr => hok r w' (by rw [Exec.Runs, he]; exact hr)) (fun _ => by rw [lanePy_one, laneKw_one]; exact hf)
    (h := fun _ _ _ => dens (-logZ)) fun _ => measFun_const _
  simp only [Finset.univ_unique, Finset.sum_singleton, lanePy_one, laneKw_one] at hev
  have h1 : target μ n false (fun _ => none) c kw (fun _ _ => dens (-logZ)) = 1 := by
    have := target_mul (μ := μ) n false (fun _ => none) c kw (dens_ne_top (-logZ)) fun _ _ => 1
    simp only [mul_one] at this
    rw [this, hZ, ← dens_add]
    simp [dens]
  rw [← h1, ← hev, ← he]
  congr 1
  funext r
  rcases r with ⟨e | o, w'⟩
  · rfl
  · simp only [onReturn, onOk, laneSum, laneAgg, Finset.univ_unique, Finset.sum_singleton]
    rw [sub_eq_add_neg, dens_add]
    rfl

end

section
variable {n b : Nat} {X D : Type} [MeasurableSpace X] [Nonempty X] {μ : Measure X} [SFinite μ] {lp : D → X → ℝ} {Lo : Type} [AddCommGroup Lo]
local notation "ℙ" => PopLang n b X D μ lp
local notation "𝕃" => PLang X D Lo lp

theorem expectT_mono {α : Type} (m : Comp ℙ α) {g g' : α → ℝ≥0∞} (h : ∀ a, m.Ret a → g a ≤ g' a) : expectT m g ≤ expectT m g' := by
  induction m with
  | ret a => exact h a rfl
  | draw d b k ih => exact lintegral_mono fun v => ih v fun a ha => h a ⟨v, ha⟩
  | rand k ih => exact lintegral_mono fun v => ih v fun a ha => h a ⟨v, ha⟩

theorem expectT_add_le {α : Type} (m : Comp ℙ α) (g g' : α → ℝ≥0∞) : expectT m g + expectT m g' ≤ expectT m fun a => g a + g' a := by
  induction m with
  | ret a => exact le_rfl
  | draw d b k ih => exact (le_lintegral_add _ _).trans (lintegral_mono ih)
  | rand k ih => exact (le_lintegral_add _ _).trans (lintegral_mono ih)

theorem expectT_add_upper {α : Type} (m : Comp ℙ α) (g g' : α → ℝ≥0∞) : expectT m (fun a => g a + g' a) ≤ expectTU m g + expectT m g' := by
  induction m with
  | ret a => exact le_rfl
  | draw d b k ih =>
    have := lintegral_add_upper (Measure.pi fun s => Measure.pi fun j => μ.withDensity fun x => dens (lp (d s j).1 x)) (ρ := fun _ => 1)
      measurable_const ih
    simp only [one_mul] at this
    exact this
  | rand k ih =>
    have := lintegral_add_upper (Measure.pi fun _ : Fin b => volume.comap (Subtype.val : Set.Ico (0 : ℝ) 1 → ℝ)) (ρ := fun _ => 1)
      measurable_const ih
    simp only [one_mul] at this
    exact this

theorem expectT_one {α : Type} (m : Comp ℙ α) : expectT m (fun _ => 1) = 1 := by
  induction m with
  | ret a => rfl
  | draw d b k ih =>
    have h1 : ∀ s j, IsProbabilityMeasure (μ.withDensity fun x => dens (lp (d s j).1 x)) := fun s j => normalised_prob (d s j).2
    refine (lintegral_congr ih).trans ?_
    exact lintegral_one.trans measure_univ
  | rand k ih =>
    have := unit_prob
    refine (lintegral_congr ih).trans ?_
    exact lintegral_one.trans measure_univ

/-- Markov's inequality for a log estimate. -/
theorem expectT_markov (m : Comp ℙ (Except Err (Out ℙ) × World ℙ)) (x : Out ℙ → ℝ) (logZ a : ℝ) (h : expectT m (onReturn fun o => dens (x o)) = dens logZ) :
    expectT m (onReturn fun o => indicate (logZ + a ≤ x o)) ≤ dens (-a) := by
  have h2 : expectT m (onReturn fun o => indicate (logZ + a ≤ x o)) ≤ expectT m (fun r => dens (-(logZ + a)) * onReturn (fun o => dens (x o)) r) := by
    refine expectT_mono _ ?_
    rintro ⟨e | o, w'⟩ -
    · exact zero_le
    · simp only [onReturn, indicate]
      split
      · rename_i h
        rw [← dens_add, dens, ← ENNReal.ofReal_one]
        refine ENNReal.ofReal_le_ofReal (Real.one_le_exp ?_)
        linarith
      · exact zero_le
  refine h2.trans (le_of_eq ?_)
  rw [expectT_mul _ _ (dens_ne_top _), h, ← dens_add]
  congr 1
  ring

/-- C62. The same for a population of particles with resampling: `log_Z_hat` exceeds the log evidence by `a` with probability at most
`exp (-a)`, over all draws and offsets, for every number of particles. -/
theorem C62_population_overestimate [NeZero n] (N : Node ℙ) (m : Node 𝕃) (j : Fin b) (c : PyVal ℙ) (kw : Kw ℙ) (w : World ℙ) (c0 : PyVal 𝕃) (kw0 : Kw 𝕃)
    (hs : WellScoped false N) (hw : ∀ i ∈ objects N, w.cond i = none)
    (hok : ∀ r w', (eval N c kw).Runs w r w' → ∃ o, r = .ok o)
    (hl : ∀ s, LaneNode (particleLane s j) N m) (hN : Resamples (· = systematic false false) N)
    (hc : ∀ s, lanePy (particleLane s j) c = c0) (hkw : ∀ s, laneKw (particleLane s j) kw = kw0) (hf : Fits μ m c0 kw0)
    (hm : MeasNode m) (logZ : ℝ) (hZ : target μ m false (fun _ => none) c0 kw0 (fun _ _ => 1) = dens logZ) (a : ℝ) :
    expectT (eval N c kw w) (onReturn fun o => indicate (logZ + a ≤ logZHat fun s => o.logWeight.val s j)) ≤ dens (-a) := by
  refine expectT_markov _ (fun o => logZHat fun s => o.logWeight.val s j) logZ a ?_
  rw [← hZ, ← C55_log_Z_hat N m j c kw w c0 kw0 hs hw hok hl hN hc hkw hf hm]
  congr 1
  funext r
  rcases r with ⟨e | o, w'⟩ <;> rfl

/-- C62. And the mean of `log_Z_hat` is at most the log evidence. -/
theorem C62_population_elbo [NeZero n] (N : Node ℙ) (m : Node 𝕃) (j : Fin b) (c : PyVal ℙ) (kw : Kw ℙ) (w : World ℙ) (c0 : PyVal 𝕃) (kw0 : Kw 𝕃)
    (hs : WellScoped false N) (hw : ∀ i ∈ objects N, w.cond i = none)
    (hok : ∀ r w', (eval N c kw).Runs w r w' → ∃ o, r = .ok o)
    (hl : ∀ s, LaneNode (particleLane s j) N m) (hN : Resamples (· = systematic false false) N)
    (hc : ∀ s, lanePy (particleLane s j) c = c0) (hkw : ∀ s, laneKw (particleLane s j) kw = kw0) (hf : Fits μ m c0 kw0)
    (hm : MeasNode m) (logZ : ℝ) (hZ : target μ m false (fun _ => none) c0 kw0 (fun _ _ => 1) = dens logZ) :
    MeanLe (fun g => expectT (eval N c kw w) (onReturn g)) (fun o => logZHat fun s => o.logWeight.val s j) logZ := by
  refine jensen _ hok (expectT (eval N c kw w)) (expectTU (eval N c kw w)) (expectT_one _) (fun _ _ h => expectT_mono _ h)
    (expectT_add_le _) (expectT_add_upper _) _ _ ?_
  have h0 : w.cond N.id = none := hw N.id (by simp [objects])
  have he : eval N c kw w = evalP N none c kw w := by
    have := C05_lexical N c kw w (by rw [h0]; exact hs) fun i hi => hw i (by simp [objects, hi])
    rwa [h0] at this
  have hn0 : (n : ℝ≥0∞) ≠ 0 := by exact_mod_cast NeZero.ne n
  have hnt : (n : ℝ≥0∞) ≠ ⊤ := ENNReal.natCast_ne_top n
  have hκ : dens (-logZ) / n ≠ ⊤ := ENNReal.div_ne_top (dens_ne_top _) hn0
  have : Nonempty (ℙ).V := inferInstanceAs (Nonempty (Fin n → Fin b → X))
  have hev := pop_ev (w := w) (isLaw_expectTU (μ := μ) (lp := lp) (n := n) j) (P := (· = systematic false false))
    (fun r hr => by rw [hr]; exact unbiased_systematicU j) hm hl hN hc hkw hf
    (fun r w' hr => hok r w' (by rw [Exec.Runs, he]; exact hr)) (measFun_const (dens (-logZ) / n))
  have h1 := target_mul (μ := μ) m false (fun _ => none) c0 kw0 hκ fun _ _ => 1
  simp only [mul_one] at h1
  rw [Fintype.card_fin, h1, hZ, ← he] at hev
  have h2 : (n : ℝ≥0∞) * (dens (-logZ) / n * dens logZ) = 1 := by
    rw [← mul_assoc, ENNReal.mul_div_cancel hn0 hnt, ← dens_add]
    simp [dens]
  rw [h2] at hev
  rw [← hev]
  congr 1
  funext r
  rcases r with ⟨e | o, w'⟩
  · rfl
  · simp only [onReturn, onOk, total, laneSum, laneAgg]
    have hn : (0 : ℝ) < n := by exact_mod_cast NeZero.pos n
    rw [sub_eq_add_neg, dens_add, ← Finset.sum_mul, dens, logZHat, Real.exp_log (zHat_pos _), zHat, ENNReal.ofReal_div_of_pos hn,
      ENNReal.ofReal_sum_of_nonneg fun _ _ => (Real.exp_pos _).le, ENNReal.ofReal_natCast, div_eq_mul_inv, div_eq_mul_inv, mul_assoc,
      mul_comm (n : ℝ≥0∞)⁻¹]
    rfl

end

section
variable {n b : Nat} {X D : Type} [Nonempty X] [MeasurableSpace X] {μ : Measure X} [SFinite μ] {lp : D → X → ℝ}
local notation "ℙ" => PopLang n b X D μ lp

/-- C62. And for vsmc with systematic resampling, for every number of particles and annealing steps (hypotheses as for C57):
`log_Z_hat` of the last result exceeds the log of the last target's normalising constant by `a` with probability at most `exp (-a)`, and
its mean is at most the log of the normalising constant. -/
theorem C62_vsmc [NeZero n] (fresh : ObjId) (M : AnnealModel ℙ) (S : AnnealSpec X D) (j : Fin b) (hV : Vectorises M S j)
    (hS : S.Norm μ lp) (I : AnnealIds) (hid : I.Below fresh) (lossFn : Out ℙ → Except Err (ℙ).Lo) (hl : LossOk lossFn)
    (transf : Option (Trace ℙ → Kw ℙ → Except Err (Trace ℙ))) (ht : AnnealTransf transf)
    (hteq : ∀ detachD weq, transf = some (stlTrace detachD weq) → ∀ x y, weq x y = true → x = y) (K : Nat)
    (logZ : ℝ) (hZ : ∫⁻ x, dens (lp (S.last K) x) ∂μ = dens logZ) :
    ∃ nd : Node ℙ, vsmc fresh (M.initial I :: (List.range K).map (M.target I)) ((List.range K).map (M.forward I))
        ((List.range K).map (M.reverse I)) lossFn transf (some (systematic false false)) = .ok nd ∧
      ∀ (c : PyVal ℙ) (kw : Kw ℙ) (w : World ℙ), KwOk kw → kw.sampleDims = .int 0 → kw.batchDim = .int 1 →
        (∃ c0 : PyVal (PLang X D ℝ lp), ∀ s, lanePy (particleLane s j) c = c0) → (∃ kw0 : Kw (PLang X D ℝ lp), ∀ s, laneKw (particleLane s j) kw = kw0) →
        (∀ i, w.cond i = none) → (∀ t t', w.store.hooks.resampleUpdate w.store.data t t' = (.ok (), w.store.data)) →
        (∀ a : ℝ, expectT (eval nd c kw w) (onReturn fun o => indicate (logZ + a ≤ logZHat fun s => o.logWeight.val s j)) ≤ dens (-a)) ∧
        MeanLe (fun g => expectT (eval nd c kw w) (onReturn g)) (fun o => logZHat fun s => o.logWeight.val s j) logZ := by
  refine ⟨vsmcNode fresh K M I lossFn transf (systematic false false) K, ?_, ?_⟩
  · simp only [vsmc]
    rw [zip3_range, List.length_map, List.length_range]
    exact vsmc_eq _ _ _ _ _ _ _ _
  rintro c kw w hk hsd hbd ⟨c0, hc⟩ ⟨kw0, hkw⟩ hw hst
  obtain ⟨x, hx⟩ := vsmcNode_eval fresh K M I hid lossFn hl transf ht.ok K c kw w hk (by rw [hsd, hbd]; rfl) hw hst
  have hruns : ∀ r w', (eval (vsmcNode fresh K M I lossFn transf (systematic false false) K) c kw).Runs w r w' → ∃ o, r = .ok o := by
    intro r w' hr
    rw [Exec.Runs, hx, Comp.bind_Ret] at hr
    obtain ⟨o, -, ho⟩ := hr
    cases ho
    exact ⟨o.1, rfl⟩
  have hlane := fun s => vsmcNode_lane (Lo := ℝ) fresh K M S j hV I lossFn transf (by
    rcases ht with h | ⟨d, e, h, -⟩
    · exact Or.inl h
    · exact Or.inr ⟨d, e, h, hteq d e h⟩) (systematic false false) s K
  have hsc := vsmcNode_scoped fresh K M I hid lossFn transf (systematic false false) K
  have hrs := vsmcNode_resamples fresh K M I lossFn transf (systematic false false) K
  have hZ' : target μ (S.node M.rep0 M.rep M.rep' (fun k => decide (k + 1 < K)) K) false (fun _ => none) c0 kw0 (fun _ _ => 1) = dens logZ := by
    rw [node_target]
    simpa only [mul_one] using hZ
  exact ⟨fun a => C62_population_overestimate (Lo := ℝ) _ _ j c kw w c0 kw0 hsc (fun i _ => hw i) hruns hlane hrs hc hkw
      (node_fits S hS _ _ _ _ K _ _) (node_meas S hS _ _ _ _ K) logZ hZ' a,
    C62_population_elbo (Lo := ℝ) _ _ j c kw w c0 kw0 hsc (fun i _ => hw i) hruns hlane hrs hc hkw
      (node_fits S hS _ _ _ _ K _ _) (node_meas S hS _ _ _ _ K) logZ hZ'⟩

end

/-! The hypotheses can be met: by a nest over the reals … -/
namespace Gauss
open ProbabilityTheory

theorem proper {α : Type} (m : Comp L α) : ProperDraws (lp := lp) volume m := by
  induction m with
  | ret a => trivial
  | draw d b k ih => exact ⟨normalised d, ih⟩
  | rand k ih => exact ih ()

/-- The evidence is positive and finite. -/
theorem evidence : ∃ logZ : ℝ, ∫⁻ x, gaussianPDF 0 1 x * gaussianPDF x 1 1 = dens logZ := by
  have hle : ∀ m x, gaussianPDF m 1 x ≤ ENNReal.ofReal (Real.sqrt (2 * Real.pi * (1 : NNReal)))⁻¹ := fun m x => by
    refine ENNReal.ofReal_le_ofReal ?_
    rw [gaussianPDFReal]
    exact mul_le_of_le_one_right (by positivity) (Real.exp_le_one_iff.2 (by
      refine div_nonpos_of_nonpos_of_nonneg (neg_nonpos.2 (sq_nonneg _)) (by positivity)))
  have hm : Measurable fun x : ℝ => gaussianPDF 0 1 x * gaussianPDF x 1 1 := by
    have h : Measurable fun x : ℝ => gaussianPDF x 1 1 := by
      simp only [← dens_lp]
      exact measurable_dens.comp (measurable_lp measurable_id measurable_const)
    exact (measurable_gaussianPDF 0 1).mul h
  have ht : ∫⁻ x, gaussianPDF 0 1 x * gaussianPDF x 1 1 ≠ ⊤ := by
    refine ne_top_of_le_ne_top ?_ (lintegral_mono fun x => mul_le_mul_right (hle x 1) _)
    rw [lintegral_mul_const _ (measurable_gaussianPDF 0 1), lintegral_gaussianPDF_eq_one 0 one_ne_zero, one_mul]
    exact ENNReal.ofReal_ne_top
  have h0 : ∫⁻ x, gaussianPDF 0 1 x * gaussianPDF x 1 1 ≠ 0 := by
    intro h
    rw [lintegral_eq_zero_iff hm] at h
    have hall : ∀ x : ℝ, gaussianPDF 0 1 x * gaussianPDF x 1 1 ≠ 0 := fun x =>
      mul_ne_zero (gaussianPDF_pos 0 one_ne_zero x).ne' (gaussianPDF_pos x one_ne_zero 1).ne'
    have h1 : ∀ᵐ x : ℝ, False := by
      filter_upwards [h] with x hx
      exact hall x hx
    rw [Filter.eventually_false_iff_eq_bot, ae_eq_bot] at h1
    exact (NeZero.ne (volume : Measure ℝ)) h1
  refine ⟨Real.log (∫⁻ x, gaussianPDF 0 1 x * gaussianPDF x 1 1).toReal, ?_⟩
  rw [dens, Real.exp_log (ENNReal.toReal_pos h0 ht), ENNReal.ofReal_toReal ht]

end Gauss

open Gauss ProbabilityTheory in
example : ∃ logZ : ℝ, dens logZ = ∫⁻ x, gaussianPDF 0 1 x * gaussianPDF x 1 1 ∧
    (∀ a, expect volume (eval nest .none {} w0) (onReturn fun o => indicate (logZ + a ≤ o.logWeight.val)) ≤ dens (-a)) ∧
    MeanLe (fun g => expect volume (eval nest .none {} w0) (onReturn g)) (fun o => o.logWeight.val) logZ := by
  obtain ⟨logZ, h⟩ := evidence
  obtain ⟨h1, h2, h3, h4, h5, h6, h7⟩ := nest_meets
  exact ⟨logZ, h.symm, C62_overestimate _ _ _ _ h1 h2 h6 h3 h5 h4 logZ (h7.trans h),
    C62_elbo _ _ _ _ h1 h2 h6 h3 h5 h4 logZ (h7.trans h) (proper _)⟩

/-- … and by three steps of vsmc with resampling on a population of two coins, where the log evidence is 1. -/
example : ∃ nd, vsmc 100 (Coin.annealPop.initial Toy.annealIds :: (List.range 3).map (Coin.annealPop.target Toy.annealIds))
      ((List.range 3).map (Coin.annealPop.forward Toy.annealIds)) ((List.range 3).map (Coin.annealPop.reverse Toy.annealIds))
      (fun _ => .ok 0) none (some (systematic false false)) = .ok nd ∧
    MeanLe (fun g => expectT (eval nd .none { sampleDims := .int 0, batchDim := .int 1, shared := [("sample_shape", .tuple [.int 2, .int 1])] }
      { cond := fun _ => none, store := Store.init }) (onReturn g)) (fun o => logZHat fun s => o.logWeight.val s 0) 1 := by
  obtain ⟨nd, h1, h2⟩ := C62_vsmc 100 Coin.annealPop Coin.annealSpec 0
    ⟨fun _ => rfl, fun _ _ _ => rfl, fun _ _ _ => rfl, fun _ _ _ => rfl⟩
    ⟨Coin.normalisedU _, fun _ _ => Coin.normalisedU _, fun _ _ => Coin.normalisedU _,
    fun _ => measurable_of_countable _, fun _ => measurable_of_countable _, fun _ => measurable_of_countable _⟩ Toy.annealIds
    Coin.ids_below
    (fun _ => .ok 0) (fun _ _ _ => ⟨_, rfl⟩) none (Or.inl rfl) (fun _ _ h => by cases h) 3 1 (by
      rw [Coin.lintegral_bool]
      have h6 : ∀ v, dens (Coin.lpU (Coin.annealSpec.last 3) v) = ENNReal.ofReal (Coin.prob true v) * ENNReal.ofReal (Real.exp 1) := by
        intro v
        rw [← Coin.dens_lp, dens, dens, ← ENNReal.ofReal_mul (Real.exp_pos _).le, ← Real.exp_add]
        rfl
      simp only [h6]
      rw [← add_mul, ← ENNReal.ofReal_add (Coin.prob_pos _ _).le (Coin.prob_pos _ _).le]
      norm_num [Coin.prob, dens])
  exact ⟨nd, h1, (h2 .none { sampleDims := .int 0, batchDim := .int 1, shared := [("sample_shape", .tuple [.int 2, .int 1])] }
    { cond := fun _ => none, store := Store.init } (by simp [KwOk]) rfl rfl ⟨.none, fun _ => rfl⟩
    ⟨{ sampleDims := .int 0, batchDim := .int 1, shared := [("sample_shape", .tuple [.int 2, .int 1])] }, fun _ => rfl⟩ (fun _ => rfl) (fun _ _ => rfl)).2⟩

end Verif
