import Mathlib.MeasureTheory.Function.Floor
import Mathlib.Probability.Distributions.Gaussian.Real
import Verif.Model.ApgNets
import Verif.Proofs.ApgWeights
import Verif.Proofs.Paper
/-
The networks of the bouncing-shapes experiment: measurability and normalisation.
-/
namespace Verif.Bouncing
open Spec Apg MeasureTheory ProbabilityTheory
open scoped ENNReal

section general

/-- The integral of a product of functions of the coordinates. -/
theorem lintegral_pi_prod {X : Type} [MeasurableSpace X] (μ : Measure X) [SigmaFinite μ] (n : Nat) (f : Fin n → X → ℝ≥0∞) (hf : ∀ i, Measurable (f i)) :
    ∫⁻ v : Fin n → X, ∏ i, f i (v i) ∂Measure.pi (fun _ => μ) = ∏ i, ∫⁻ x, f i x ∂μ := by
  induction n with
  | zero => simp
  | succ n ih =>
    have h := (measurePreserving_piFinSuccAbove (fun _ : Fin (n + 1) => μ) 0).symm.lintegral_comp (f := fun v => ∏ i, f i (v i))
      (Finset.measurable_prod _ fun i _ => (hf i).comp (measurable_pi_apply i))
    rw [← h, lintegral_prod]
    · have e : ∀ (x : X) (y : Fin n → X), (∏ i, f i ((MeasurableEquiv.piFinSuccAbove (fun _ => X) 0).symm (x, y) i)) =
          f 0 x * ∏ i : Fin n, f i.succ (y i) := by
        intro x y
        rw [Fin.prod_univ_succ]
        rfl
      simp_rw [e]
      have e2 : ∀ x, ∫⁻ y : Fin n → X, f 0 x * ∏ i : Fin n, f i.succ (y i) ∂Measure.pi (fun _ => μ) = f 0 x * ∏ i : Fin n, ∫⁻ x, f i.succ x ∂μ := by
        intro x
        rw [lintegral_const_mul, ih _ fun i => hf _]
        exact Finset.measurable_prod _ fun i _ => (hf i.succ).comp (measurable_pi_apply i)
      erw [lintegral_congr e2]
      rw [lintegral_mul_const _ (hf 0), Fin.prod_univ_succ]
    · refine Measurable.aemeasurable ?_
      refine Finset.measurable_prod _ fun i _ => ?_
      exact (hf i).comp ((measurable_pi_apply i).comp (MeasurableEquiv.measurable _))

/-- Integrating the first coordinate apart. -/
theorem lintegral_pi_succ {X : Type} [MeasurableSpace X] (μ : Measure X) [SigmaFinite μ] (n : Nat) (f : (Fin (n + 1) → X) → ℝ≥0∞) (hf : Measurable f) :
    ∫⁻ v, f v ∂Measure.pi (fun _ => μ) = ∫⁻ x, ∫⁻ y : Fin n → X, f (Fin.cons x y) ∂Measure.pi (fun _ => μ) ∂μ := by
  have h := (measurePreserving_piFinSuccAbove (fun _ : Fin (n + 1) => μ) 0).symm.lintegral_comp (f := f) hf
  have e : ∀ (x : X) (y : Fin n → X), (MeasurableEquiv.piFinSuccAbove (fun _ => X) 0).symm (x, y) = Fin.cons x y :=
    fun x y => Fin.insertNth_zero' x y
  rw [← h, lintegral_prod]
  · exact lintegral_congr fun x => lintegral_congr fun y => by rw [e]
  · exact (hf.comp (MeasurableEquiv.measurable _)).aemeasurable

theorem dens_sum {ι : Type} (s : Finset ι) (f : ι → ℝ) : dens (∑ i ∈ s, f i) = ∏ i ∈ s, dens (f i) := by
  classical
  induction s using Finset.induction_on with
  | empty => simp [dens]
  | insert a s ha ih => rw [Finset.sum_insert ha, Finset.prod_insert ha, dens_add, ih]

theorem dens_normalLp (m s v : ℝ) (hs : 0 < s) : dens (normalLp m s v) = gaussianPDF m (s ^ 2).toNNReal v := by
  have hp := Real.pi_pos
  simp only [dens, gaussianPDF, gaussianPDFReal, normalLp, Real.coe_toNNReal _ (sq_nonneg s)]
  congr 1
  rw [Real.sqrt_mul (x := 2 * Real.pi) (by positivity), Real.sqrt_sq hs.le, mul_inv, sub_sub, Real.exp_sub, Real.exp_add, Real.exp_log hs, Real.exp_log (by positivity)]
  field_simp

theorem sq_var_ne {s : ℝ} (hs : 0 < s) : (s ^ 2).toNNReal ≠ 0 := by
  have : 0 < s ^ 2 := by positivity
  simpa using this.ne'

theorem measurable_normalLp {Γ : Type} [MeasurableSpace Γ] {m s v : Γ → ℝ} (hm : Measurable m) (hs : Measurable s) (hv : Measurable v) :
    Measurable fun γ => normalLp (m γ) (s γ) (v γ) := by
  unfold normalLp
  fun_prop

theorem normalLp_mass (m s : ℝ) (hs : 0 < s) : ∫⁻ v, dens (normalLp m s v) = 1 := by
  simp_rw [dens_normalLp m s _ hs]
  exact lintegral_gaussianPDF_eq_one _ (sq_var_ne hs)

theorem normal_mass1 {n : Nat} (m s : Fin n → ℝ) (hs : ∀ i, 0 < s i) : ∫⁻ v : Fin n → ℝ, dens (∑ i, normalLp (m i) (s i) (v i)) = 1 := by
  simp_rw [dens_sum]
  refine (lintegral_pi_prod volume n (fun i v => dens (normalLp (m i) (s i) v)) fun i => ?_).trans ?_
  · exact measurable_dens.comp (measurable_normalLp measurable_const measurable_const measurable_id)
  · exact Finset.prod_eq_one fun i _ => normalLp_mass _ _ (hs i)

theorem measurable_normal1 {n : Nat} {Γ : Type} [MeasurableSpace Γ] {m s v : Γ → Fin n → ℝ} (hm : Measurable m) (hs : Measurable s) (hv : Measurable v) :
    Measurable fun γ => ∑ i, normalLp (m γ i) (s γ i) (v γ i) :=
  Finset.measurable_sum _ fun i _ => measurable_normalLp ((measurable_pi_apply i).comp hm) ((measurable_pi_apply i).comp hs) ((measurable_pi_apply i).comp hv)

theorem normal_mass2 {k n : Nat} (m s : Fin k → Fin n → ℝ) (hs : ∀ i j, 0 < s i j) :
    ∫⁻ v : Fin k → Fin n → ℝ, dens (∑ i, ∑ j, normalLp (m i j) (s i j) (v i j)) = 1 := by
  have e : ∀ v : Fin k → Fin n → ℝ, dens (∑ i, ∑ j, normalLp (m i j) (s i j) (v i j)) = ∏ i, dens (∑ j, normalLp (m i j) (s i j) (v i j)) :=
    fun v => dens_sum _ _
  rw [lintegral_congr e]
  refine (lintegral_pi_prod (X := Fin n → ℝ) volume k (fun i v => dens (∑ j, normalLp (m i j) (s i j) (v j))) fun i => ?_).trans ?_
  · exact measurable_dens.comp (measurable_normal1 measurable_const measurable_const measurable_id)
  · exact Finset.prod_eq_one fun i _ => normal_mass1 _ _ (hs i)

theorem measurable_normal2 {k n : Nat} {Γ : Type} [MeasurableSpace Γ] {m s v : Γ → Fin k → Fin n → ℝ} (hm : Measurable m) (hs : Measurable s) (hv : Measurable v) :
    Measurable fun γ => ∑ i, ∑ j, normalLp (m γ i j) (s γ i j) (v γ i j) :=
  Finset.measurable_sum _ fun i _ => measurable_normal1 ((measurable_pi_apply i).comp hm) ((measurable_pi_apply i).comp hs) ((measurable_pi_apply i).comp hv)

end general

section shapes
variable {K zd T fp : Nat}

theorem measurable_toOne : Measurable (toOne : Val K zd T fp → One) :=
  (measurable_id.sumElim measurable_const).sumElim measurable_const
theorem measurable_toPos : Measurable (toPos : Val K zd T fp → Pos K) :=
  (measurable_const.sumElim measurable_id).sumElim measurable_const
theorem measurable_toWhat : Measurable (toWhat : Val K zd T fp → What K zd) :=
  measurable_const.sumElim (measurable_id.sumElim measurable_const)
theorem measurable_toVideo : Measurable (toVideo : Val K zd T fp → Video T fp) :=
  measurable_const.sumElim (measurable_const.sumElim measurable_id)

theorem emb_inl {α β : Type} [MeasurableSpace α] [MeasurableSpace β] : MeasurableEmbedding (Sum.inl : α → α ⊕ β) :=
  ⟨Sum.inl_injective, measurable_inl, fun _ h => measurableSet_inl_image.2 h⟩
theorem emb_inr {α β : Type} [MeasurableSpace α] [MeasurableSpace β] : MeasurableEmbedding (Sum.inr : β → α ⊕ β) :=
  ⟨Sum.inr_injective, measurable_inr, fun _ h => measurableSet_inr_image.2 h⟩

theorem emb_one : MeasurableEmbedding (mkOne : One → Val K zd T fp) := emb_inl.comp emb_inl
theorem emb_pos : MeasurableEmbedding (mkPos : Pos K → Val K zd T fp) := emb_inl.comp emb_inr
theorem emb_what : MeasurableEmbedding (mkWhat : What K zd → Val K zd T fp) := emb_inr.comp emb_inl

/-- The measures for positions and appearance. -/
noncomputable abbrev posBase (K zd T fp : Nat) : Measure (Val K zd T fp) := volume.map mkPos
noncomputable abbrev whatBase (K zd T fp : Nat) : Measure (Val K zd T fp) := volume.map mkWhat

instance : SigmaFinite (posBase K zd T fp) := emb_pos.sigmaFinite_map
instance : SigmaFinite (whatBase K zd T fp) := emb_what.sigmaFinite_map
end shapes

section images

theorem measurable_nearbyint : Measurable nearbyint := by
  have hf : Measurable fun x : ℝ => x - ⌊x⌋ := measurable_id.sub (measurable_from_top.comp Int.measurable_floor)
  have hf1 : Measurable fun x : ℝ => ⌊x⌋ + 1 := (measurable_from_top (f := fun n : ℤ => n + 1)).comp Int.measurable_floor
  unfold nearbyint
  refine Measurable.ite (measurableSet_lt hf measurable_const) Int.measurable_floor ?_
  refine Measurable.ite (measurableSet_lt measurable_const hf) hf1 ?_
  refine Measurable.ite ?_ Int.measurable_floor hf1
  exact Int.measurable_floor (MeasurableSet.of_discrete (s := {n : ℤ | n % 2 = 0}))

theorem measurable_pixelAt {n : Nat} {Γ : Type} [MeasurableSpace Γ] {img : Γ → Img n} {r c : Γ → ℤ} (hi : Measurable img) (hr : Measurable r)
    (hc : Measurable c) : Measurable fun γ => pixelAt (img γ) (r γ) (c γ) := by
  have h : Measurable fun x : Γ × (ℤ × ℤ) => pixelAt (img x.1) x.2.1 x.2.2 := by
    refine measurable_from_prod_countable_left fun y => ?_
    beta_reduce
    unfold pixelAt
    dsimp only
    split_ifs with hh
    · exact measurable_pi_iff.1 (measurable_pi_iff.1 hi ⟨y.1.toNat, by omega⟩) ⟨y.2.toNat, by omega⟩
    · exact measurable_const
  exact h.comp (measurable_id.prodMk (hr.prodMk hc))

theorem measurable_pixelIndex (n : Nat) : Measurable (pixelIndex n) := by
  unfold pixelIndex
  exact measurable_nearbyint.comp (by fun_prop)

theorem measurable_warp {n m : Nat} {Γ : Type} [MeasurableSpace Γ] {θ : Γ → Theta} {img : Γ → Img n} (h1 : Measurable fun γ => (θ γ).sx)
    (h2 : Measurable fun γ => (θ γ).tx) (h3 : Measurable fun γ => (θ γ).sy) (h4 : Measurable fun γ => (θ γ).ty) (hi : Measurable img) :
    Measurable fun γ => (warp (θ γ) (img γ) : Img m) := by
  refine measurable_pi_lambda _ fun i => measurable_pi_lambda _ fun j => ?_
  refine measurable_pixelAt hi ((measurable_pixelIndex n).comp ?_) ((measurable_pixelIndex n).comp ?_)
  · exact (h3.mul measurable_const).add h4
  · exact (h1.mul measurable_const).add h2

theorem measurable_paste {fp dp : Nat} {Γ : Type} [MeasurableSpace Γ] {img : Γ → Img dp} {z : Γ → One} (hi : Measurable img) (hz : Measurable z) :
    Measurable fun γ => (paste (img γ) (z γ) : Img fp) := by
  have h0 := (measurable_pi_apply 0).comp hz
  have h1 := (measurable_pi_apply 1).comp hz
  refine measurable_warp measurable_const ?_ measurable_const ?_ hi
  · exact measurable_const.mul (h0.mul measurable_const)
  · exact h1.mul measurable_const

theorem measurable_crop {fp dp : Nat} {Γ : Type} [MeasurableSpace Γ] {img : Γ → Img fp} {z : Γ → One} (hi : Measurable img) (hz : Measurable z) :
    Measurable fun γ => (warp (thetaFtoD fp dp (z γ 0, z γ 1)) (img γ) : Img dp) := by
  have h0 := (measurable_pi_apply 0).comp hz
  have h1 := (measurable_pi_apply 1).comp hz
  refine measurable_warp measurable_const ?_ measurable_const ?_ hi
  · exact h0.mul measurable_const
  · exact measurable_const.mul (h1.mul measurable_const)

end images

section nets
variable {fp dp hd hc zd : Nat} {Γ : Type} [MeasurableSpace Γ]

theorem measurable_lin {a b : Nat} (l : Linear a b) {x : Γ → Fin a → ℝ} (hx : Measurable x) : Measurable fun γ => l.app (x γ) :=
  measurable_pi_lambda _ fun i => (measurable_app l i).comp hx

theorem measurable_linRelu {a b : Nat} (l : Linear a b) {x : Γ → Fin a → ℝ} (hx : Measurable x) : Measurable fun γ => relu (l.app (x γ)) :=
  measurable_relu.comp (measurable_lin l hx)

theorem measurable_sigmoid : Measurable sigmoid := by
  unfold sigmoid
  fun_prop

theorem measurable_digitMean (P : Params fp dp hd hc zd) : Measurable (digitMean P) := by
  refine measurable_pi_lambda _ fun i => measurable_pi_lambda _ fun j => ?_
  refine measurable_sigmoid.comp ((measurable_app P.dec3 (finProdFinEquiv (i, j))).comp ?_)
  exact measurable_linRelu P.dec2 (measurable_linRelu P.dec1 measurable_id)

theorem measurable_conv {frame : Γ → Img fp} {ker : Γ → Img dp} (hf : Measurable frame) (hk : Measurable ker) : Measurable fun γ => conv (frame γ) (ker γ) := by
  refine measurable_pi_lambda _ fun i => measurable_pi_lambda _ fun j => ?_
  refine Finset.measurable_sum _ fun a _ => Finset.measurable_sum _ fun b _ => ?_
  exact (measurable_pixelAt hf measurable_const measurable_const).mul ((measurable_pi_apply _).comp ((measurable_pi_apply _).comp hk))

theorem measurable_flat {n : Nat} : Measurable (flat (n := n)) :=
  measurable_pi_lambda _ fun _ => (measurable_pi_apply _).comp (measurable_pi_apply _)

theorem measurable_softmax {n : Nat} : Measurable (softmax (n := n)) := by
  refine measurable_pi_lambda _ fun i => ?_
  unfold softmax
  fun_prop

theorem measurable_coorHidden (P : Params fp dp hd hc zd) {frame : Γ → Img fp} {ker : Γ → Img dp} (hf : Measurable frame) (hk : Measurable ker) :
    Measurable fun γ => coorHidden P (frame γ) (ker γ) :=
  measurable_linRelu _ (measurable_softmax.comp (measurable_flat.comp (measurable_conv hf hk)))

theorem measurable_tanh : Measurable Real.tanh := by
  have : Real.tanh = fun x => Real.sinh x / Real.cosh x := funext Real.tanh_eq_sinh_div_cosh
  rw [this]
  exact Real.measurable_sinh.div Real.measurable_cosh

theorem measurable_coorMean (P : Params fp dp hd hc zd) {frame : Γ → Img fp} {ker : Γ → Img dp} (hf : Measurable frame) (hk : Measurable ker) :
    Measurable fun γ => coorMean P (frame γ) (ker γ) :=
  measurable_pi_lambda _ fun i => measurable_tanh.comp ((measurable_pi_apply i).comp
    (measurable_lin _ (measurable_linRelu _ (measurable_coorHidden P hf hk))))

theorem measurable_coorStd (P : Params fp dp hd hc zd) {frame : Γ → Img fp} {ker : Γ → Img dp} (hf : Measurable frame) (hk : Measurable ker) :
    Measurable fun γ => coorStd P (frame γ) (ker γ) :=
  measurable_pi_lambda _ fun i => Real.measurable_exp.comp ((measurable_pi_apply i).comp
    (measurable_lin _ (measurable_linRelu _ (measurable_coorHidden P hf hk))))

variable {K : Nat}

theorem measurable_frameLeft (frame : Img fp) {ker : Γ → Fin K → Img dp} {z : Γ → Nat → One} (hk : Measurable ker) (hz : Measurable z) (n : Nat) :
    Measurable fun γ => frameLeft frame (ker γ) (z γ) n := by
  induction n with
  | zero => exact measurable_const
  | succ n ih =>
    refine measurable_pi_lambda _ fun i => measurable_pi_lambda _ fun j => ?_
    simp only [frameLeft]
    refine ((measurable_pi_apply j).comp ((measurable_pi_apply i).comp ih)).sub ?_
    split_ifs with h
    · have hp : Measurable fun γ => (paste (ker γ ⟨n, h⟩) (z γ n) : Img fp) :=
        measurable_paste ((measurable_pi_apply _).comp hk) ((measurable_pi_apply n).comp hz)
      exact (measurable_pi_apply j).comp ((measurable_pi_apply i).comp hp)
    · exact measurable_const

theorem frameLeft_congr (frame : Img fp) (ker : Fin K → Img dp) {z z' : Nat → One} {n : Nat} (h : ∀ k < n, z k = z' k) :
    frameLeft frame ker z n = frameLeft frame ker z' n := by
  induction n with
  | zero => rfl
  | succ n ih =>
    funext i j
    simp only [frameLeft]
    rw [ih fun k hk => h k (by omega), h n (by omega)]

end nets

section laws
variable {fp dp hd hc zd K T : Nat}

theorem measurable_bernoulliLp {Γ : Type} [MeasurableSpace Γ] {p : Γ → ℝ} (hp : Measurable p) (v : ℝ) : Measurable fun γ => bernoulliLp (p γ) v := by
  unfold bernoulliLp clampProbs
  fun_prop

variable (P : Params fp dp hd hc zd) (ms : Img dp)

theorem measurable_kernels {Γ : Type} [MeasurableSpace Γ] {w : Γ → Val K zd T fp} (hw : Measurable w) : Measurable fun γ => kernels P ms (some (w γ)) :=
  measurable_pi_lambda _ fun k => (measurable_digitMean P).comp ((measurable_pi_apply k).comp (measurable_toWhat.comp hw))

/-- The positions in a tensor. -/
theorem zAt_slices (rep : Bool) (v : Val K zd T fp) (k : Nat) : zAt (slices (net P ms K T rep) v) k = if h : k < K then toPos v ⟨k, h⟩ else 0 := by
  unfold zAt slices
  by_cases h : k < K
  · rw [List.getElem?_map, List.getElem?_range (by exact h), dif_pos h]
    simp only [net, Option.map_some, Option.getD_some, dif_pos h]
    rfl
  · rw [dif_neg h, List.getElem?_eq_none (by simpa [net] using h)]
    rfl

theorem measurable_zAt (rep : Bool) : Measurable fun v : Val K zd T fp => zAt (slices (net P ms K T rep) v) := by
  refine measurable_pi_lambda _ fun k => ?_
  simp_rw [zAt_slices]
  by_cases h : k < K
  · simp only [dif_pos h]
    exact (measurable_pi_apply _).comp measurable_toPos
  · simp only [dif_neg h]
    exact measurable_const

/-- Log density of the kernel for the positions. -/
noncomputable def coorLp (frame : Img fp) (ker : Fin K → Img dp) (z : Nat → One) (x : Pos K) : ℝ :=
  ∑ k : Fin K, ∑ i, normalLp (coorMean P (frameLeft frame ker z k) (ker k) i) (coorStd P (frameLeft frame ker z k) (ker k) i) (x k i)

theorem measurable_coorLp {Γ : Type} [MeasurableSpace Γ] (frame : Img fp) {ker : Γ → Fin K → Img dp} {z : Γ → Nat → One} {x : Γ → Pos K}
    (hk : Measurable ker) (hz : Measurable z) (hx : Measurable x) : Measurable fun γ => coorLp P frame (ker γ) (z γ) (x γ) := by
  refine Finset.measurable_sum _ fun k _ => measurable_normal1 ?_ ?_ ((measurable_pi_apply k).comp hx)
  · exact measurable_coorMean P (measurable_frameLeft frame hk hz k) ((measurable_pi_apply k).comp hk)
  · exact measurable_coorStd P (measurable_frameLeft frame hk hz k) ((measurable_pi_apply k).comp hk)

theorem logProb_coor (rep : Bool) (f : Val K zd T fp) (t : Int) (what : Option (Val K zd T fp)) (zs : List (Val K zd T fp)) (v : Val K zd T fp) :
    logProb ((net P ms K T rep).coorDist f t what zs) v = coorLp P (frameAt (toVideo f) t) (kernels P ms what) (zAt zs) (toPos v) := rfl

/-- The distribution of one object's position. -/
theorem coorStep_eq (rep : Bool) (f : Val K zd T fp) (t : Int) (what : Option (Val K zd T fp)) (zs : List (Val K zd T fp)) :
    ∃ m s, (∀ i, 0 < s i) ∧ (net P ms K T rep).coorStep f t what zs = .one m s := by
  by_cases h : zs.length < K
  · refine ⟨_, _, ?_, by simp only [net, dif_pos h]; rfl⟩
    exact fun _ => Real.exp_pos _
  · exact ⟨0, 1, fun _ => one_pos, by simp only [net, dif_neg h]⟩

theorem one_mass (m s : One) (hs : ∀ i, 0 < s i) : ∫⁻ v, dens (logProb (Dist.one m s : Dist K zd T fp) v) ∂base (Dist.one m s : Dist K zd T fp) = 1 := by
  simp only [base]
  rw [emb_one.lintegral_map]
  exact normal_mass1 m s hs

theorem pos_mass (m s : Pos K) (hs : ∀ k i, 0 < s k i) : ∫⁻ v, dens (logProb (Dist.pos m s : Dist K zd T fp) v) ∂posBase K zd T fp = 1 := by
  rw [emb_pos.lintegral_map]
  exact normal_mass2 m s hs

theorem what_mass (m s : What K zd) (hs : ∀ k i, 0 < s k i) : ∫⁻ v, dens (logProb (Dist.what m s : Dist K zd T fp) v) ∂whatBase K zd T fp = 1 := by
  rw [emb_what.lintegral_map]
  exact normal_mass2 m s hs

/-- The objects' positions one after the other. -/
theorem draws_pi (rep : Bool) (f : Val K zd T fp) (t : Int) (what : Option (Val K zd T fp)) (m : Nat) (zs : List (Val K zd T fp))
    (g : List (Val K zd T fp) → ℝ≥0∞)
    (h : Measurable fun z : Fin m → One =>
      (∏ i : Fin m, dens (logProb ((net P ms K T rep).coorStep f t what (zs ++ (List.ofFn fun j => mkOne (z j)).take i)) (mkOne (z i)))) *
        g (zs ++ List.ofFn fun j => mkOne (z j))) :
    expectB base (coorDraws (net P ms K T rep) f t what m zs) g =
      ∫⁻ z : Fin m → One, (∏ i : Fin m, dens (logProb ((net P ms K T rep).coorStep f t what (zs ++ (List.ofFn fun j => mkOne (z j)).take i)) (mkOne (z i)))) *
        g (zs ++ List.ofFn fun j => mkOne (z j)) := by
  induction m generalizing zs with
  | zero =>
    rw [volume_pi]
    simp [coorDraws, expectB]
  | succ m ih =>
    have e : ∀ (x : One) (y : Fin m → One),
        (∏ i : Fin (m + 1), dens (logProb ((net P ms K T rep).coorStep f t what (zs ++ (List.ofFn fun j => mkOne ((Fin.cons x y : Fin (m + 1) → One) j)).take i))
            (mkOne ((Fin.cons x y : Fin (m + 1) → One) i)))) * g (zs ++ List.ofFn fun j => mkOne ((Fin.cons x y : Fin (m + 1) → One) j)) =
          dens (logProb ((net P ms K T rep).coorStep f t what zs) (mkOne x)) *
            ((∏ i : Fin m, dens (logProb ((net P ms K T rep).coorStep f t what ((zs ++ [mkOne x]) ++ (List.ofFn fun j => mkOne (y j)).take i)) (mkOne (y i)))) *
              g ((zs ++ [mkOne x]) ++ List.ofFn fun j => mkOne (y j))) := by
      intro x y
      rw [Fin.prod_univ_succ, mul_assoc]
      simp
    refine Eq.trans ?_ (lintegral_pi_succ (X := One) volume m _ h).symm
    simp only [coorDraws, expectB]
    obtain ⟨mm, ss, hs, he⟩ := coorStep_eq P ms rep f t what zs
    have hb : base ((net P ms K T rep).coorStep f t what zs) = volume.map mkOne := by rw [he]; rfl
    rw [hb, emb_one.lintegral_map]
    refine lintegral_congr fun x => ?_
    simp_rw [e]
    have hx : Measurable fun y : Fin m → One => (∏ i : Fin m,
        dens (logProb ((net P ms K T rep).coorStep f t what ((zs ++ [mkOne x]) ++ (List.ofFn fun j => mkOne (y j)).take i)) (mkOne (y i)))) *
          g ((zs ++ [mkOne x]) ++ List.ofFn fun j => mkOne (y j)) := by
      have hc : Measurable fun y : Fin m → One => (Fin.cons x y : Fin (m + 1) → One) :=
        measurable_pi_lambda _ fun i => by
          refine Fin.cases ?_ (fun j => ?_) i
          · exact measurable_const
          · exact measurable_pi_apply j
      have h2 := (h.comp hc).const_mul (dens (-(logProb ((net P ms K T rep).coorStep f t what zs) (mkOne x))))
      refine (congrArg Measurable ?_).mp h2
      funext y
      simp only [Function.comp]
      rw [e, ← mul_assoc, mul_comm (dens (-_)), dens_cancel, one_mul]
    rw [ih _ hx, lintegral_const_mul _ hx]
    rfl

/-- The densities of the objects' positions one after the other multiply to that of the stacked ones. -/
theorem prod_steps (rep : Bool) (f : Val K zd T fp) (t : Int) (what : Option (Val K zd T fp)) (z : Fin K → One) :
    (∏ i : Fin K, dens (logProb ((net P ms K T rep).coorStep f t what ([] ++ (List.ofFn fun j => mkOne (z j)).take i)) (mkOne (z i)))) =
      dens (coorLp P (frameAt (toVideo f) t) (kernels P ms what) (fun k => if h : k < K then z ⟨k, h⟩ else 0) z) := by
  unfold coorLp
  rw [dens_sum]
  refine Finset.prod_congr rfl fun k _ => ?_
  congr 1
  have hl : ((List.ofFn fun j => (mkOne (z j) : Val K zd T fp)).take k).length = k := by simp
  have hz : ∀ n < (k : Nat), zAt ((List.ofFn fun j => (mkOne (z j) : Val K zd T fp)).take k) n = if h : n < K then z ⟨n, h⟩ else 0 := by
    intro n hn
    have hK : n < K := hn.trans k.2
    rw [dif_pos hK]
    unfold zAt
    rw [List.getElem?_take_of_lt hn, List.getElem?_ofFn, dif_pos hK]
    rfl
  have hf := frameLeft_congr (frameAt (toVideo f) t) (kernels P ms what) hz
  have : (net P ms K T rep).coorStep f t what ([] ++ (List.ofFn fun j => mkOne (z j)).take k) =
      .one (coorMean P (frameLeft (frameAt (toVideo f) t) (kernels P ms what) (fun k => if h : k < K then z ⟨k, h⟩ else 0) k) (kernels P ms what k))
        (coorStd P (frameLeft (frameAt (toVideo f) t) (kernels P ms what) (fun k => if h : k < K then z ⟨k, h⟩ else 0) k) (kernels P ms what k)) := by
    have hlt : ((List.ofFn fun j => (mkOne (z j) : Val K zd T fp)).take k).length < K := by rw [hl]; exact k.2
    simp only [net, List.nil_append, hl, hf]
    rw [dif_pos k.2]
  rw [this]
  rfl

theorem zAt_ofFn (z : Fin K → One) (n : Nat) : zAt (List.ofFn fun j => (mkOne (z j) : Val K zd T fp)) n = if h : n < K then z ⟨n, h⟩ else 0 := by
  unfold zAt
  rw [List.getElem?_ofFn]
  by_cases h : n < K
  · rw [dif_pos h, dif_pos h]; rfl
  · rw [dif_neg h, dif_neg h]; rfl

theorem posAt_range (p : Nat → Val K zd T fp) (k : Fin K) (t : Fin T) : posAt ((List.range T).map p) k t = toPos (p t) k := by
  unfold posAt
  rw [List.getElem?_map, List.getElem?_range t.2]
  rfl

theorem measurable_posAt (k : Fin K) (t : Fin T) : Measurable fun p : Nat → Val K zd T fp => posAt ((List.range T).map p) k t := by
  simp_rw [posAt_range]
  exact (measurable_pi_apply k).comp (measurable_toPos.comp (measurable_pi_apply _))

/-- The networks satisfy what integration needs, whatever the parameters. -/
theorem tractable (rep : Bool) (f : Val K zd T fp) :
    Tractable (D := Dist K zd T fp) (Lo := ℝ) (lp := logProb) base (posBase K zd T fp) (whatBase K zd T fp) (net P ms K T rep) T f where
  where0 := measurable_normal2 measurable_const measurable_const measurable_toPos
  whereT := measurable_normal2 (measurable_toPos.comp measurable_fst) measurable_const (measurable_toPos.comp measurable_snd)
  appearance := measurable_normal2 measurable_const measurable_const measurable_toWhat
  recon := by
    refine Finset.measurable_sum _ fun t _ => Finset.measurable_sum _ fun i _ => Finset.measurable_sum _ fun j _ => measurable_bernoulliLp ?_ _
    refine (measurable_const.max (Measurable.min (Finset.measurable_sum _ fun k _ => ?_) measurable_const)).add measurable_const
    have hp : Measurable fun x : (Nat → Val K zd T fp) × Val K zd T fp =>
        (paste (digitMean P (toWhat x.2 k)) (posAt ((List.range T).map x.1) k t) : Img fp) :=
      measurable_paste ((measurable_digitMean P).comp ((measurable_pi_apply k).comp (measurable_toWhat.comp measurable_snd)))
        ((measurable_posAt k t).comp measurable_fst)
    exact measurable_pi_iff.1 (measurable_pi_iff.1 hp i) j
  digit := by
    have hh : ∀ k, Measurable fun x : (Nat → Val K zd T fp) × Val K zd T fp => digitHidden P (toVideo f) (posAt ((List.range T).map x.1) k) := by
      intro k
      refine measurable_pi_lambda _ fun i => (Finset.measurable_sum _ fun t _ => ?_).div_const _
      refine (measurable_pi_apply i).comp (measurable_linRelu P.digit2 (measurable_linRelu P.digit1 (measurable_flat.comp ?_)))
      exact measurable_crop measurable_const ((measurable_posAt k t).comp measurable_fst)
    refine measurable_normal2 (measurable_pi_lambda _ fun k => measurable_lin _ (hh k)) (measurable_pi_lambda _ fun k => measurable_pi_lambda _ fun i => ?_)
      (measurable_toWhat.comp measurable_snd)
    exact Real.measurable_exp.comp ((measurable_app _ i).comp (hh k))
  digit_base _ := rfl
  digit_one zs := what_mass _ _ fun _ _ => Real.exp_pos _
  coor t := by
    simp only [logProb_coor]
    exact measurable_coorLp P _ (measurable_kernels P ms measurable_fst) ((measurable_zAt P ms rep).comp measurable_snd) (measurable_toPos.comp measurable_snd)
  coor0 t := by
    simp only [logProb_coor]
    exact measurable_coorLp P _ measurable_const (measurable_zAt P ms rep) measurable_toPos
  step_one t what zs := by
    obtain ⟨m, s, hs, h⟩ := coorStep_eq P ms rep f t what zs
    rw [h]
    exact one_mass m s hs
  restack t what zs h := by
    have e : ∀ k < K, zAt (slices (net P ms K T rep) ((net P ms K T rep).stack zs)) k = zAt zs k := by
      intro k hk
      rw [zAt_slices, dif_pos hk]
      rfl
    have e2 : ∀ k : Fin K, frameLeft (frameAt (toVideo f) t) (kernels P ms what) (zAt (slices (net P ms K T rep) ((net P ms K T rep).stack zs))) k =
        frameLeft (frameAt (toVideo f) t) (kernels P ms what) (zAt zs) k := fun k => frameLeft_congr _ _ fun n hn => e n (hn.trans k.2)
    show Dist.pos _ _ = Dist.pos _ _
    simp only [e2]
  stacked t what h hh := by
    have hz : ∀ z : Pos K, zAt (slices (net P ms K T rep) (mkPos z)) = fun k => if h : k < K then z ⟨k, h⟩ else 0 := fun z => funext fun k => zAt_slices P ms rep _ k
    have hm : Measurable fun z : Pos K => dens (coorLp P (frameAt (toVideo f) t) (kernels P ms what) (fun k => if h : k < K then z ⟨k, h⟩ else 0) z) * h (mkPos z) := by
      refine (measurable_dens.comp (measurable_coorLp P _ measurable_const ?_ measurable_id)).mul (hh.comp emb_pos.measurable)
      exact (congrArg Measurable (funext hz)).mp ((measurable_zAt P ms (T := T) rep).comp emb_pos.measurable)
    have hs : ∀ z : Fin K → One, (net P ms K T rep).stack ([] ++ List.ofFn fun j => mkOne (z j)) = mkPos z := by
      intro z
      show mkPos _ = _
      congr 1
      funext k
      rw [List.nil_append, zAt_ofFn, dif_pos k.2]
    rw [emb_pos.lintegral_map]
    refine (draws_pi P ms rep f t what K [] _ ?_).trans ?_
    · simp only [prod_steps, hs]
      exact hm
    · refine lintegral_congr fun z => ?_
      rw [prod_steps, hs, logProb_coor, hz]
      rfl

end laws

end Verif.Bouncing
