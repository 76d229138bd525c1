import Verif.Spec.ApgNets
import Verif.Proofs.ApgNets
import Verif.Props.ApgWeights
/-
C82. The bouncing-shapes experiment with its networks: whatever the parameters, the sampler estimates the density of the frames.
-/
namespace Verif
open Spec Apg MeasureTheory ProbabilityTheory Bouncing
open scoped ENNReal

section
variable {fp dp hd hc zd K T : Nat}

/-- The integral over all positions, last first. -/
theorem lintegral_pi_snoc {X : Type} [MeasurableSpace X] (μ : Measure X) [SigmaFinite μ] (n : Nat) (f : (Fin (n + 1) → X) → ℝ≥0∞) (hf : Measurable f) :
    ∫⁻ v, f v ∂Measure.pi (fun _ => μ) = ∫⁻ y : Fin n → X, ∫⁻ x, f (Fin.snoc y x) ∂μ ∂Measure.pi (fun _ => μ) := by
  have h := (measurePreserving_piFinSuccAbove (fun _ : Fin (n + 1) => μ) (Fin.last n)).symm.lintegral_comp (f := f) hf
  have e : ∀ (x : X) (y : Fin n → X), (MeasurableEquiv.piFinSuccAbove (fun _ => X) (Fin.last n)).symm (x, y) = Fin.snoc y x :=
    fun x y => Fin.insertNth_last' x y
  rw [← h, lintegral_prod_symm]
  · exact lintegral_congr fun x => lintegral_congr fun y => by rw [e]
  · exact (hf.comp (MeasurableEquiv.measurable _)).aemeasurable

theorem overPositions_pi (f : Val K zd T fp) (m : Nat) (h : (Nat → Val K zd T fp) → ℝ≥0∞) (hh : Measurable h) :
    overPositions (posBase K zd T fp) f m h = ∫⁻ z : Fin m → Pos K, h fun n => if hn : n < m then mkPos (z ⟨n, hn⟩) else f := by
  induction m generalizing h with
  | zero =>
    rw [volume_pi]
    simp [overPositions]
  | succ m ih =>
    rw [overPositions, ih _ (measurable_upd hh m)]
    have he : Measurable fun z : Fin (m + 1) → Pos K => fun n => if hn : n < m + 1 then (mkPos (z ⟨n, hn⟩) : Val K zd T fp) else f := by
      refine measurable_pi_lambda _ fun n => ?_
      by_cases hn : n < m + 1
      · simp only [dif_pos hn]
        exact emb_pos.measurable.comp (measurable_pi_apply _)
      · simp only [dif_neg hn]
        exact measurable_const
    refine Eq.trans ?_ (lintegral_pi_snoc (X := Pos K) volume m _ (hh.comp he)).symm
    refine lintegral_congr fun y => ?_
    rw [emb_pos.lintegral_map]
    refine lintegral_congr fun x => ?_
    simp only [Function.comp]
    congr 1
    funext n
    by_cases h1 : n = m
    · subst h1
      rw [Function.update_self, dif_pos (by omega)]
      congr 2
      exact (Fin.snoc_last (α := fun _ => Pos K) x y).symm
    · rw [Function.update_of_ne h1]
      by_cases h2 : n < m
      · rw [dif_pos h2, dif_pos (by omega)]
        congr 2
        exact (Fin.snoc_castSucc (α := fun _ => Pos K) x y ⟨n, h2⟩).symm
      · rw [dif_neg h2, dif_neg (by omega)]

theorem lit_eq (x : ℝ) : clampProbs (max 0 (min x 1) + 1 / 10 ^ 9) = Spec.Bouncing.lit x := by
  unfold clampProbs Spec.Bouncing.lit
  rcases le_total x 0 with h | h
  · rw [min_eq_left (h.trans zero_le_one), max_eq_left h, zero_add, max_eq_left, max_eq_left]
    · exact (min_le_left _ _).trans (by norm_num; linarith)
    · exact (min_le_left _ _).trans (by norm_num)
  · rcases le_total x 1 with h1 | h1
    · rw [min_eq_left h1, max_eq_right h]
    · rw [min_eq_right h1, max_eq_right zero_le_one, min_eq_right (by norm_num), min_eq_right (by norm_num; linarith)]

theorem lit_lower (x : ℝ) : 1 / 2 ^ 23 ≤ Spec.Bouncing.lit x := le_max_left _ _
theorem lit_upper (x : ℝ) : Spec.Bouncing.lit x ≤ 1 - 1 / 2 ^ 23 := max_le (by norm_num) (min_le_right _ _)
theorem lit_pos (x : ℝ) : 0 < Spec.Bouncing.lit x := lt_of_lt_of_le (by norm_num) (lit_lower x)
theorem lit_lt_one (x : ℝ) : 0 < 1 - Spec.Bouncing.lit x := by
  have := lit_upper x
  have : (0 : ℝ) < 1 / 2 ^ 23 := by norm_num
  linarith

theorem dens_bernoulli (x v : ℝ) : Real.exp (bernoulliLp (max 0 (min x 1) + 1 / 10 ^ 9) v) =
    Spec.Bouncing.lit x ^ v * (1 - Spec.Bouncing.lit x) ^ (1 - v) := by
  unfold bernoulliLp
  rw [lit_eq, Real.exp_add, Real.rpow_def_of_pos (lit_pos x), Real.rpow_def_of_pos (lit_lt_one x)]
  ring_nf

variable (P : Params fp dp hd hc zd) (ms : Img dp) (rep : Bool)

theorem dens_one (m v : ℝ) : dens (normalLp m 1 v) = gaussianPDF m 1 v := by
  rw [dens_normalLp m 1 v one_pos]
  norm_num

theorem dens_step (m v : ℝ) : dens (normalLp m (1 * (2 / 10)) v) = gaussianPDF m ((1 / 5) ^ 2) v := by
  rw [dens_normalLp m _ v (by norm_num)]
  congr 1
  ext
  rw [Real.coe_toNNReal _ (by positivity)]
  push_cast
  norm_num

/-- C82. The log density with which the decoder is scored is that of the generative model: Gaussian random walks, Gaussian appearance, and pixels lit
independently with the brightness of the picture. -/
theorem C82_density (f : Val K zd T fp) (p : Nat → Val K zd T fp) (z : Val K zd T fp) :
    dens (modelJoint (net P ms K T rep) T f p z) = Spec.Bouncing.density (digitMean P) (toVideo f) (fun t => toPos (p t)) (toWhat z) := by
  unfold modelJoint Spec.Bouncing.density
  rw [dens_add, dens_add]
  congr 1
  · congr 1
    · unfold Spec.Bouncing.walk
      rw [Finset.sum_range, dens_sum]
      refine Finset.prod_congr rfl fun t _ => ?_
      by_cases h : (t : Nat) = 0
      · simp only [if_pos h]
        simp only [net, logProb, dens_sum, Pi.zero_apply, Pi.one_apply, dens_one]
      · simp only [if_neg h]
        simp only [net, logProb, dens_sum, dens_step]
    · unfold Spec.Bouncing.looks
      simp only [net, logProb, dens_sum, Pi.zero_apply, Pi.one_apply, dens_one]
  · unfold dens Spec.Bouncing.likelihood
    congr 1
    simp only [net, logProb, Real.exp_sum, reconProbs, dens_bernoulli, posAt_range]
    rfl

/-- C82. Exchanging objects, in the positions and in the appearance, does not change the density. -/
theorem C82_relabel (σ : Equiv.Perm (Fin K)) (f : Val K zd T fp) (p p' : Nat → Val K zd T fp) (z z' : Val K zd T fp)
    (hp : ∀ t k, toPos (p' t) k = toPos (p t) (σ k)) (hz : ∀ k, toWhat z' k = toWhat z (σ k)) :
    modelJoint (net P ms K T rep) T f p' z' = modelJoint (net P ms K T rep) T f p z := by
  have h : ∀ x y : ℝ, dens x = dens y → x = y := fun x y h =>
    Real.exp_injective ((ENNReal.ofReal_eq_ofReal_iff (Real.exp_pos x).le (Real.exp_pos y).le).1 h)
  refine h _ _ ?_
  rw [C82_density, C82_density]
  have e1 : Spec.Bouncing.walk (T := T) (fun t => toPos (p' t)) = Spec.Bouncing.walk (T := T) fun t => toPos (p t) := by
    unfold Spec.Bouncing.walk
    refine Finset.prod_congr rfl fun t _ => ?_
    simp only [hp]
    exact Equiv.prod_comp σ fun k => ∏ i, if (t : Nat) = 0 then gaussianPDF 0 1 (toPos (p t) k i)
      else gaussianPDF (toPos (p (t - 1)) k i) ((1 / 5) ^ 2) (toPos (p t) k i)
  have e2 : Spec.Bouncing.looks (toWhat z') = Spec.Bouncing.looks (toWhat z) := by
    unfold Spec.Bouncing.looks
    simp only [hz]
    exact Equiv.prod_comp σ fun k => ∏ i, gaussianPDF 0 1 (toWhat z k i)
  have e3 : Spec.Bouncing.picture (fp := fp) (T := T) (fun k => digitMean P (toWhat z' k)) (fun t => toPos (p' t)) =
      Spec.Bouncing.picture (fun k => digitMean P (toWhat z k)) fun t => toPos (p t) := by
    funext t i j
    unfold Spec.Bouncing.picture digitToFrame
    simp only [hp, hz]
    exact Equiv.sum_comp σ fun k => (warp (thetaDtoF fp dp (toPos (p t) k 0, toPos (p t) k 1)) (digitMean P (toWhat z k)) : Img fp) i j
  unfold Spec.Bouncing.density
  rw [e1, e2, e3]

/-- C82. Whatever the parameters, the frames and what came before, the kernel for the positions proposes means inside the frame (all coordinates strictly
between -1 and 1) and positive scales, and so does the loop over the objects; the kernel for the appearance has positive scales. -/
theorem C82_proposals (f : Val K zd T fp) (t : Int) (what : Option (Val K zd T fp)) (zs : List (Val K zd T fp)) :
    (∃ m s, (net P ms K T rep).coorDist f t what zs = .pos m s ∧ ∀ k i, |m k i| < 1 ∧ 0 < s k i) ∧
    (∃ m s, (net P ms K T rep).coorStep f t what zs = .one m s ∧ ∀ i, |m i| < 1 ∧ 0 < s i) ∧
    ∃ m s, (net P ms K T rep).digitDist f zs = .what m s ∧ ∀ k i, 0 < s k i := by
  refine ⟨⟨_, _, rfl, fun k i => ⟨?_, ?_⟩⟩, ?_, ⟨_, _, rfl, fun k i => ?_⟩⟩
  · exact Real.abs_tanh_lt_one _
  · exact Real.exp_pos _
  rotate_left
  · exact Real.exp_pos _
  by_cases h : zs.length < K
  · refine ⟨_, _, by simp only [net, dif_pos h]; rfl, fun i => ⟨?_, ?_⟩⟩
    · exact Real.abs_tanh_lt_one _
    · exact Real.exp_pos _
  · exact ⟨0, 1, by simp only [net, dif_neg h], fun i => ⟨by simp, one_pos⟩⟩

theorem measurable_walk : Measurable (Spec.Bouncing.walk (T := T) (K := K)) := by
  unfold Spec.Bouncing.walk
  refine Finset.measurable_prod _ fun t _ => Finset.measurable_prod _ fun k _ => Finset.measurable_prod _ fun i _ => ?_
  have h : ∀ t : Fin T, Measurable fun z : Fin T → Fin K → Fin 2 → ℝ => z t k i := fun t =>
    measurable_pi_iff.1 (measurable_pi_iff.1 (measurable_pi_apply t) k) i
  by_cases h0 : (t : Nat) = 0
  · simp only [if_pos h0]
    exact (measurable_gaussianPDF 0 1).comp (h t)
  · simp only [if_neg h0]
    have := measurable_uncurry_gaussianPDF.comp ((h ⟨t - 1, (Nat.sub_le _ _).trans_lt t.2⟩).prodMk ((measurable_const (a := ((1 / 5) ^ 2 : NNReal))).prodMk (h t)))
    exact this

/-- The last step of a walk. -/
theorem walk_snoc {n : Nat} (y : Fin n → Pos K) (x : Pos K) : Spec.Bouncing.walk (Fin.snoc (α := fun _ => Pos K) y x) = Spec.Bouncing.walk y *
    ∏ k, ∏ i, if hn : n = 0 then gaussianPDF 0 1 (x k i) else gaussianPDF (y ⟨n - 1, by omega⟩ k i) ((1 / 5) ^ 2) (x k i) := by
  unfold Spec.Bouncing.walk
  rw [Fin.prod_univ_castSucc]
  congr 1
  · refine Finset.prod_congr rfl fun t _ => Finset.prod_congr rfl fun k _ => Finset.prod_congr rfl fun i _ => ?_
    have e1 : (Fin.snoc (α := fun _ => Pos K) y x : Fin (n + 1) → Pos K) t.castSucc = y t := Fin.snoc_castSucc (α := fun _ => Pos K) x y t
    have e2 := Fin.snoc_castSucc (α := fun _ => Pos K) x y ⟨t - 1, (Nat.sub_le _ _).trans_lt t.2⟩
    rw [e1]
    congr 2
    exact congrFun (congrFun e2 k) i
  · refine Finset.prod_congr rfl fun k _ => Finset.prod_congr rfl fun i _ => ?_
    rw [Fin.snoc_last]
    by_cases hn : n = 0
    · simp only [Fin.val_last, if_pos hn, dif_pos hn]
    · simp only [Fin.val_last, if_neg hn, dif_neg hn]
      have e2 := Fin.snoc_castSucc (α := fun _ => Pos K) x y ⟨n - 1, by omega⟩
      congr 1
      exact congrFun (congrFun e2 k) i

theorem step_mass {n : Nat} (y : Fin n → Pos K) :
    ∫⁻ x : Pos K, ∏ k, ∏ i, (if hn : n = 0 then gaussianPDF 0 1 (x k i) else gaussianPDF (y ⟨n - 1, by omega⟩ k i) ((1 / 5) ^ 2) (x k i)) = 1 := by
  by_cases hn : n = 0
  · simp only [dif_pos hn, ← dens_one, ← dens_sum]
    exact normal_mass2 (fun _ _ => 0) (fun _ _ => 1) fun _ _ => one_pos
  · simp only [dif_neg hn, ← dens_step, ← dens_sum]
    exact normal_mass2 _ (fun _ _ => 1 * (2 / 10)) fun _ _ => by norm_num

theorem measurable_step {n : Nat} (y : Fin n → Pos K) : Measurable fun x : Pos K =>
    ∏ k, ∏ i, (if hn : n = 0 then gaussianPDF 0 1 (x k i) else gaussianPDF (y ⟨n - 1, by omega⟩ k i) ((1 / 5) ^ 2) (x k i)) := by
  by_cases hn : n = 0
  · simp only [dif_pos hn, ← dens_one, ← dens_sum]
    exact measurable_dens.comp (measurable_normal2 measurable_const measurable_const measurable_id)
  · simp only [dif_neg hn, ← dens_step, ← dens_sum]
    exact measurable_dens.comp (measurable_normal2 measurable_const measurable_const measurable_id)

theorem walk_mass : ∫⁻ z : Fin T → Pos K, Spec.Bouncing.walk z = 1 := by
  induction T with
  | zero =>
    rw [volume_pi]
    simp [Spec.Bouncing.walk]
  | succ n ih =>
    refine (lintegral_pi_snoc (X := Pos K) volume n _ measurable_walk).trans (Eq.trans ?_ ih)
    refine lintegral_congr fun y => ?_
    simp only [walk_snoc]
    rw [lintegral_const_mul _ (measurable_step y), step_mass, mul_one]

theorem looks_mass : ∫⁻ w : What K zd, Spec.Bouncing.looks w = 1 := by
  unfold Spec.Bouncing.looks
  simp only [← dens_one, ← dens_sum]
  exact normal_mass2 (fun _ _ => 0) (fun _ _ => 1) fun _ _ => one_pos

theorem pixel_bounds (x v : ℝ) (h0 : 0 ≤ v) (h1 : v ≤ 1) :
    1 / 2 ^ 23 ≤ Spec.Bouncing.lit x ^ v * (1 - Spec.Bouncing.lit x) ^ (1 - v) ∧ Spec.Bouncing.lit x ^ v * (1 - Spec.Bouncing.lit x) ^ (1 - v) ≤ 1 := by
  have hl := lit_lower x
  have hu := lit_upper x
  have hp : (0 : ℝ) < 1 / 2 ^ 23 := by norm_num
  constructor
  · have e : (1 / 2 ^ 23 : ℝ) = (1 / 2 ^ 23) ^ v * (1 / 2 ^ 23) ^ (1 - v) := by rw [← Real.rpow_add hp]; norm_num
    rw [e]
    exact mul_le_mul (Real.rpow_le_rpow hp.le hl h0) (Real.rpow_le_rpow hp.le (by linarith) (by linarith)) (Real.rpow_nonneg hp.le _)
      (Real.rpow_nonneg (lit_pos x).le _)
  · exact mul_le_one₀ (Real.rpow_le_one (lit_pos x).le (by linarith) h0) (Real.rpow_nonneg (lit_lt_one x).le _)
      (Real.rpow_le_one (lit_lt_one x).le (by linarith) (by linarith))

/-- C82. If the frames' pixels are between 0 and 1, the density of the frames given positions and appearance is at most 1 and never smaller than
2⁻²³ per pixel: no picture is impossible. -/
theorem C82_likelihood (frames b : Fin T → Img fp) (hf : ∀ t i j, 0 ≤ frames t i j ∧ frames t i j ≤ 1) :
    (1 / 2 ^ 23) ^ (T * (fp * fp)) ≤ Spec.Bouncing.likelihood frames b ∧ Spec.Bouncing.likelihood frames b ≤ 1 := by
  unfold Spec.Bouncing.likelihood
  constructor
  · have e : ((1 / 2 ^ 23 : ℝ)) ^ (T * (fp * fp)) = ∏ _t : Fin T, ∏ _i : Fin fp, ∏ _j : Fin fp, (1 / 2 ^ 23 : ℝ) := by
      simp only [Finset.prod_const, Finset.card_univ, Fintype.card_fin, ← pow_mul]
      congr 1
      ring
    rw [e]
    refine Finset.prod_le_prod (fun _ _ => by positivity) fun t _ => Finset.prod_le_prod (fun _ _ => by positivity) fun i _ =>
      Finset.prod_le_prod (fun _ _ => by positivity) fun j _ => ?_
    exact (pixel_bounds _ _ (hf t i j).1 (hf t i j).2).1
  · have hnn : ∀ t i j, 0 ≤ Spec.Bouncing.lit (b t i j) ^ frames t i j * (1 - Spec.Bouncing.lit (b t i j)) ^ (1 - frames t i j) := fun t i j =>
      mul_nonneg (Real.rpow_nonneg (lit_pos _).le _) (Real.rpow_nonneg (lit_lt_one _).le _)
    refine Finset.prod_le_one (fun t _ => Finset.prod_nonneg fun i _ => Finset.prod_nonneg fun j _ => hnn t i j) fun t _ => ?_
    refine Finset.prod_le_one (fun i _ => Finset.prod_nonneg fun j _ => hnn t i j) fun i _ => ?_
    exact Finset.prod_le_one (fun j _ => hnn t i j) fun j _ => (pixel_bounds _ _ (hf t i j).1 (hf t i j).2).2

theorem measurable_looks : Measurable (Spec.Bouncing.looks (zd := zd) (K := K)) := by
  unfold Spec.Bouncing.looks
  refine Finset.measurable_prod _ fun k _ => Finset.measurable_prod _ fun i _ => ?_
  exact (measurable_gaussianPDF 0 1).comp (measurable_pi_iff.1 (measurable_pi_apply k) i)

theorem prior_mass (c : ℝ≥0∞) (hc : c ≠ ⊤) : ∫⁻ z : Fin T → Pos K, ∫⁻ w : What K zd, Spec.Bouncing.walk z * Spec.Bouncing.looks w * c = c := by
  have e : ∀ z : Fin T → Pos K, ∫⁻ w : What K zd, Spec.Bouncing.walk z * Spec.Bouncing.looks w * c = Spec.Bouncing.walk z * c := by
    intro z
    rw [lintegral_mul_const' _ _ hc, lintegral_const_mul _ measurable_looks, looks_mass, mul_one]
  simp only [e]
  rw [lintegral_mul_const' _ _ hc, walk_mass, one_mul]

/-- C82. So the density of the frames, which the sampler estimates, is at least 2⁻²³ per pixel and at most 1, for every decoder. -/
theorem C82_evidence_range (decoder : (Fin zd → ℝ) → Img dp) (frames : Fin T → Img fp) (hf : ∀ t i j, 0 ≤ frames t i j ∧ frames t i j ≤ 1) :
    ENNReal.ofReal ((1 / 2 ^ 23) ^ (T * (fp * fp))) ≤ Spec.Bouncing.evidence K decoder frames ∧ Spec.Bouncing.evidence K decoder frames ≤ 1 := by
  unfold Spec.Bouncing.evidence Spec.Bouncing.density
  constructor
  · rw [← prior_mass (T := T) (K := K) (zd := zd) (ENNReal.ofReal ((1 / 2 ^ 23) ^ (T * (fp * fp)))) ENNReal.ofReal_ne_top]
    refine lintegral_mono fun z => lintegral_mono fun w => ?_
    exact mul_le_mul_right (ENNReal.ofReal_le_ofReal (C82_likelihood frames _ hf).1) _
  · rw [← prior_mass (T := T) (K := K) (zd := zd) 1 ENNReal.one_ne_top]
    refine lintegral_mono fun z => lintegral_mono fun w => ?_
    exact mul_le_mul_right (ENNReal.ofReal_le_one.2 (C82_likelihood frames _ hf).2) _

end

section sampler
variable {fp dp hd hc zd K : Nat} {T S : Nat} (P : Params fp dp hd hc zd) (ms : Img dp) (rep : Bool)
  (same : Val K zd T fp → Val K zd T fp → Bool) (hsame : ∀ v, same v v = true)
  (fresh i0 i1 i2 i3 : ObjId) (h1 : i1 ≤ fresh) (h2 : i2 ≤ fresh) (h3 : i3 ≤ fresh) (fl : LW ℝ → LW ℝ → LW ℝ → ℝ)
  (gl : LW ℝ → LW ℝ → ℝ → ℝ) (r : ResamplerFn (L K zd T fp)) (sd bd : PyVal (L K zd T fp))
  (hT : 1 ≤ T) (kvs : List (String × PyVal (L K zd T fp))) (frames : Video T fp)
  (hf : getL kvs "frames" = some (.tensor (mkVideo frames)))

include hsame h1 h2 h3 hT hf in
/-- C82. The sampler with the networks, whatever their parameters, is properly weighted for the generative model when resampling keeps the weight. -/
theorem C82_proper (hr : Apg.Keeps r sd bd id) (G : (Fin T → Pos K) → What K zd → ℝ≥0∞) (hG : Measurable fun x : (Fin T → Pos K) × What K zd => G x.1 x.2) :
    ∃ q, gibbsSweeps fresh (apgObjs (net P ms K T rep) i0 i1 i2 i3 fl gl r) S T = .ok q ∧
      ∀ kw, KwOk kw → kw.sampleDims = sd → kw.batchDim = bd → ∀ w, (∀ j, w.cond j = none) → w.store.hooks = apgHooks same →
        expectB base (eval q (.dict kvs) kw w) (weighed T S (mkVideo frames) fun ps z => G (fun t k => posAt ps k t) (toWhat z)) =
          ∫⁻ z : Fin T → Pos K, ∫⁻ w : What K zd, Spec.Bouncing.density (digitMean P) frames z w * G z w := by
  have hN := tractable P ms (K := K) (T := T) rep (mkVideo frames)
  have hG' : Measurable fun x : (Nat → Val K zd T fp) × Val K zd T fp => G (fun t k => posAt ((List.range T).map x.1) k t) (toWhat x.2) := by
    refine hG.comp (Measurable.prodMk ?_ (measurable_toWhat.comp measurable_snd))
    exact measurable_pi_lambda _ fun t => measurable_pi_lambda _ fun k => (measurable_posAt k t).comp measurable_fst
  obtain ⟨q, e, h⟩ := C65_proper (net P ms K T rep) same hsame fresh i0 i1 i2 i3 h1 h2 h3 fl gl r sd bd T S hT kvs (mkVideo frames) hf rfl hr hN
    (fun ps z => G (fun t k => posAt ps k t) (toWhat z)) hG'
  refine ⟨q, e, fun kw hkw h4 h5 w hc hh => ?_⟩
  rw [h kw hkw h4 h5 w hc hh, overPositions_pi]
  · refine lintegral_congr fun z => ?_
    rw [emb_what.lintegral_map]
    refine lintegral_congr fun w => ?_
    rw [C82_density]
    have ez : ∀ t : Fin T, toPos ((fun n => if hn : n < T then (mkPos (z ⟨n, hn⟩) : Val K zd T fp) else mkVideo frames) t) = z t := by
      intro t
      simp only [dif_pos t.2]
      rfl
    simp only [posAt_range, ez]
    rfl
  · have hj : Measurable fun x : (Nat → Val K zd T fp) × Val K zd T fp => modelJoint (net P ms K T rep) T (mkVideo frames) x.1 x.2 := by
      have := hN.joint T
      simp only [joint_model] at this
      exact this
    exact ((measurable_dens.comp hj).mul hG').lintegral_prod_right'

include hsame h1 h2 h3 hT hf in
/-- C82. In particular the expected weight is the density of the frames. -/
theorem C82_evidence (hr : Apg.Keeps r sd bd id) :
    ∃ q, gibbsSweeps fresh (apgObjs (net P ms K T rep) i0 i1 i2 i3 fl gl r) S T = .ok q ∧
      ∀ kw, KwOk kw → kw.sampleDims = sd → kw.batchDim = bd → ∀ w, (∀ j, w.cond j = none) → w.store.hooks = apgHooks same →
        expectB base (eval q (.dict kvs) kw w) (weighed T S (mkVideo frames) fun _ _ => 1) = Spec.Bouncing.evidence K (digitMean P) frames := by
  obtain ⟨q, e, h⟩ := C82_proper (S := S) P ms rep same hsame fresh i0 i1 i2 i3 h1 h2 h3 fl gl r sd bd hT kvs frames hf hr (fun _ _ => 1) measurable_const
  refine ⟨q, e, fun kw hkw h4 h5 w hc hh => (h kw hkw h4 h5 w hc hh).trans ?_⟩
  simp only [mul_one]
  rfl
end sampler
end Verif
