import Mathlib.MeasureTheory.Integral.Marginal
import Verif.Spec.ApgWeights
import Verif.Proofs.ApgLaw
import Verif.Proofs.Measurable
/-
The one-particle description of the sampler is properly weighted.
-/
namespace Verif
open Spec Apg MeasureTheory
open scoped ENNReal
variable {V D Lo : Type} [AddCommMonoid Lo] {lp : D → V → ℝ} [MeasurableSpace V] {β : D → Measure V} {μ ν : Measure V}

local notation "𝕃" => PLang V D Lo lp

theorem expect_bind' {α γ : Type} (m : Comp 𝕃 α) (k : α → Comp 𝕃 γ) (g : γ → ℝ≥0∞) :
    expectB β (m.bind k) g = expectB β m fun a => expectB β (k a) g := by
  induction m with
  | ret a => rfl
  | draw d rep c ih =>
    simp only [Comp.bind_draw, expectB]
    refine lintegral_congr fun v => ?_
    rw [ih]
  | rand c ih =>
    simp only [Comp.bind_rand, expectB]
    exact ih _

theorem expect_congr_ret {α : Type} (m : Comp 𝕃 α) {g h : α → ℝ≥0∞} (hgh : ∀ a, m.Ret a → g a = h a) : expectB β m g = expectB β m h := by
  induction m with
  | ret a => exact hgh _ rfl
  | draw d rep c ih =>
    simp only [expectB]
    exact lintegral_congr fun v => by rw [ih v fun a ha => hgh a ⟨v, ha⟩]
  | rand c ih =>
    simp only [expectB]
    exact ih _ fun a ha => hgh a ⟨_, ha⟩

theorem expect_like {α γ : Type} {Q : γ → α → World 𝕃 → Prop} {m : Comp 𝕃 (Except Err α × World 𝕃)} {K : Comp 𝕃 γ} (h : Like Q m K)
    {g : Except Err α × World 𝕃 → ℝ≥0∞} {k : γ → ℝ≥0∞} (hq : ∀ b a w, Q b a w → g (.ok a, w) = k b) : expectB β m g = expectB β K k := by
  induction h with
  | ret h => exact hq _ _ _ h
  | draw _ ih => exact lintegral_congr fun v => by rw [ih v]
  | rand _ ih => exact ih _
  | skip _ ih => exact ih ()

variable {N : ApgNet (PLang V D Lo lp)} {T : Nat} {f : V}

theorem expect_mul_coor (m : Nat) (zs : List V) (t : Nat) (what : Option V) (c : ℝ≥0∞) (h1 : ∀ zs, ∫⁻ v, dens (lp (N.coorStep f t what zs) v) ∂β (N.coorStep f t what zs) = 1) :
    expectB β (coorDraws N f t what m zs) (fun _ => c) = c := by
  induction m generalizing zs with
  | zero => rfl
  | succ m ih =>
    simp only [coorDraws, expectB]
    simp_rw [ih]
    by_cases hc : c = ⊤
    · subst hc
      have : ∀ v, dens (lp (N.coorStep f t what zs) v) * ⊤ = ⊤ := fun v => ENNReal.mul_top (by simp [dens, Real.exp_pos])
      simp_rw [this]
      rw [lintegral_const]
      refine ENNReal.top_mul fun h0 => ?_
      have := h1 zs
      rw [Measure.measure_univ_eq_zero.1 h0] at this
      simp at this
    · rw [lintegral_mul_const' _ _ hc, h1, one_mul]

/-- The kernel of the positions has mass one. -/
theorem Apg.Tractable.coor_one (hN : Tractable β μ ν N T f) (t : Nat) (what : Option V) :
    ∫⁻ v, dens (lp (N.coorDist f t what (slices N v)) v) ∂μ = 1 := by
  have h := hN.stacked t what (fun _ => 1) measurable_const
  rw [expect_mul_coor N.objects [] t what 1 (hN.step_one t what)] at h
  simpa using h.symm

/-- A function of the stacked positions and their density. -/
theorem Apg.Tractable.draws (hN : Tractable β μ ν N T f) (t : Nat) (what : Option V) (g : ℝ → V → ℝ≥0∞)
    (hg : Measurable fun v => g (lp (N.coorDist f t what (slices N v)) v) v) :
    expectB β (coorDraws N f t what N.objects []) (fun zs => g (lp (N.coorDist f t what zs) (N.stack zs)) (N.stack zs)) =
      ∫⁻ v, dens (lp (N.coorDist f t what (slices N v)) v) * g (lp (N.coorDist f t what (slices N v)) v) v ∂μ := by
  rw [← hN.stacked t what _ hg]
  refine expect_congr_ret _ fun zs hz => ?_
  have := coorDraws_length _ _ hz
  rw [hN.restack t what zs (by simpa using this)]

variable [SigmaFinite μ] [SFinite ν]

theorem overPositions_eq (m : Nat) (h : (Nat → V) → ℝ≥0∞) (hh : Measurable h) :
    overPositions μ f m h = (∫⋯∫⁻_Finset.range m, h ∂fun _ => μ) fun _ => f := by
  induction m generalizing h with
  | zero => simp [overPositions]
  | succ m ih =>
    rw [overPositions, ih, Finset.range_add_one, lmarginal_insert' _ hh (by simp)]
    exact (hh.comp measurable_update').lintegral_prod_right'

theorem measurable_upd {h : (Nat → V) → ℝ≥0∞} (hh : Measurable h) (m : Nat) : Measurable fun p : Nat → V => ∫⁻ v, h (Function.update p m v) ∂μ :=
  (hh.comp measurable_update').lintegral_prod_right'

/-- The first positions. -/
theorem expect_init (hN : Tractable β μ ν N T f) (m : Nat) (h : (Nat → V) → ℝ≥0∞) (hh : Measurable h) :
    expectB β (initLaw N f m) (fun x => dens (-x.2) * h x.1) = overPositions μ f m h := by
  induction m generalizing h with
  | zero => simp [initLaw, expectB, overPositions, dens_zero]
  | succ m ih =>
    rw [overPositions, ← ih _ (measurable_upd hh m), initLaw, expect_bind']
    congr 1
    funext x
    rw [expect_bind']
    simp only [expectB]
    rw [hN.draws m none (fun y v => dens (-(x.2 + y)) * h (Function.update x.1 m v))]
    · rw [← lintegral_const_mul' _ _ (dens_ne_top _)]
      refine lintegral_congr fun v => ?_
      rw [neg_add, dens_add, ← mul_assoc, mul_left_comm, dens_cancel, mul_one]
    · exact (measurable_dens.comp ((measurable_const.add (hN.coor0 m)).neg)).mul (hh.comp (measurable_update x.1))

/-- The joint of a step is measurable. -/
theorem Apg.Tractable.joint (hN : Tractable β μ ν N T f) (n : Nat) : Measurable fun x : (Nat → V) × V => joint N T n f x.1 x.2 := by
  unfold Apg.joint
  refine (Measurable.add (Finset.measurable_sum _ fun i _ => ?_) (hN.appearance.comp measurable_snd)).add hN.recon
  unfold prior
  by_cases h : i = 0
  · simp only [if_pos h]
    exact hN.where0.comp ((measurable_pi_apply i).comp measurable_fst)
  · simp only [if_neg h]
    have : Measurable fun x : (Nat → V) × V => (x.1 (min (i - 1) (n - 1)), x.1 i) :=
      ((measurable_pi_apply _).comp measurable_fst).prodMk ((measurable_pi_apply i).comp measurable_fst)
    exact hN.whereT.comp this

/-- What is estimated at a stage. -/
noncomputable def stageInt (μ ν : Measure V) (N : ApgNet 𝕃) (T n : Nat) (f : V) (G : (Nat → V) → V → ℝ≥0∞) : ℝ≥0∞ :=
  overPositions μ f T fun p => ∫⁻ z, dens (joint N T n f p z) * G p z ∂ν

/-- The particle program `K` is properly weighted for the joint of stage `n`. -/
def ProperFor (β : D → Measure V) (μ ν : Measure V) (N : ApgNet 𝕃) (T n : Nat) (f : V) (K : Comp 𝕃 (Particle 𝕃)) : Prop :=
  ∀ G : (Nat → V) → V → ℝ≥0∞, Measurable (fun x : (Nat → V) × V => G x.1 x.2) →
    expectB β K (fun p => dens p.lw * G p.pos p.what) = stageInt μ ν N T n f G

theorem proper_is (hN : Tractable β μ ν N T f) : ProperFor β μ ν N T T f (isLaw N f T) := by
  intro G hG
  unfold stageInt
  rw [← expect_init hN, isLaw, expect_bind']
  · congr 1
    funext x
    simp only [expectB]
    rw [hN.digit_base, ← lintegral_const_mul' _ _ (dens_ne_top _)]
    refine lintegral_congr fun z => ?_
    show dens _ * (dens (joint N T T f x.1 z - (x.2 + lp (N.digitDist f ((List.range T).map x.1)) z)) * G x.1 z) = _
    rw [sub_eq_add_neg, neg_add, dens_add, dens_add]
    have := dens_cancel (lp (N.digitDist f ((List.range T).map x.1)) z)
    calc _ = (dens (lp (N.digitDist f ((List.range T).map x.1)) z) * dens (-lp (N.digitDist f ((List.range T).map x.1)) z)) *
          (dens (-x.2) * (dens (joint N T T f x.1 z) * G x.1 z)) := by ring
      _ = _ := by rw [this, one_mul]
  · exact Measurable.lintegral_prod_right' (f := fun x : (Nat → V) × V => dens (joint N T T f x.1 x.2) * G x.1 x.2)
      ((measurable_dens.comp (hN.joint T)).mul hG)

/-- Integrating an old position away. -/
theorem replace_position {t : Nat} (ht : t < T) (κ : V × V → ℝ≥0∞) (hκ : Measurable κ) (h1 : ∀ z, ∫⁻ u, κ (z, u) ∂μ = 1)
    (F : (Nat → V) × V → ℝ≥0∞) (hF : Measurable F) :
    overPositions μ f T (fun p => ∫⁻ z, κ (z, p t) * ∫⁻ v, F (Function.update p t v, z) ∂μ ∂ν) =
      overPositions μ f T fun p => ∫⁻ z, F (p, z) ∂ν := by
  have hupd : Measurable fun x : ((Nat → V) × V) × V => (Function.update x.1.1 t x.2, x.1.2) :=
    (measurable_update'.comp ((measurable_fst.comp measurable_fst).prodMk measurable_snd)).prodMk (measurable_snd.comp measurable_fst)
  have hI : Measurable fun x : (Nat → V) × V => ∫⁻ v, F (Function.update x.1 t v, x.2) ∂μ :=
    Measurable.lintegral_prod_right' (f := fun x : ((Nat → V) × V) × V => F (Function.update x.1.1 t x.2, x.1.2)) (hF.comp hupd)
  have hold : Measurable fun x : (Nat → V) × V => κ (x.2, x.1 t) :=
    hκ.comp (measurable_snd.prodMk ((measurable_pi_apply t).comp measurable_fst))
  have hA : Measurable fun p : Nat → V => ∫⁻ z, κ (z, p t) * ∫⁻ v, F (Function.update p t v, z) ∂μ ∂ν :=
    Measurable.lintegral_prod_right' (f := fun x : (Nat → V) × V => κ (x.2, x.1 t) * ∫⁻ v, F (Function.update x.1 t v, x.2) ∂μ) (hold.mul hI)
  have hB : Measurable fun p : Nat → V => ∫⁻ z, F (p, z) ∂ν := Measurable.lintegral_prod_right' hF
  rw [overPositions_eq _ _ hA, overPositions_eq _ _ hB, lmarginal_erase' _ hA (Finset.mem_range.2 ht),
    lmarginal_erase' _ hB (Finset.mem_range.2 ht)]
  congr 1
  congr 1
  funext p
  have hJ : Measurable fun z : V => ∫⁻ v, F (Function.update p t v, z) ∂μ :=
    hI.comp (f := fun z : V => (p, z)) (measurable_const.prodMk measurable_id)
  have hG : Measurable fun x : V × V => F (Function.update p t x.1, x.2) :=
    hF.comp (f := fun x : V × V => (Function.update p t x.1, x.2)) (((measurable_update p).comp measurable_fst).prodMk measurable_snd)
  have hH : Measurable fun x : V × V => κ (x.2, x.1) * ∫⁻ v, F (Function.update p t v, x.2) ∂μ :=
    (hκ.comp (measurable_snd.prodMk measurable_fst)).mul (hJ.comp measurable_snd)
  simp only [Function.update_self, Function.update_idem]
  calc _ = ∫⁻ z, ∫⁻ u, κ (z, u) * ∫⁻ v, F (Function.update p t v, z) ∂μ ∂μ ∂ν :=
        lintegral_lintegral_swap (f := fun u z => κ (z, u) * ∫⁻ v, F (Function.update p t v, z) ∂μ) hH.aemeasurable
    _ = ∫⁻ z, ∫⁻ v, F (Function.update p t v, z) ∂μ ∂ν := by
        refine lintegral_congr fun z => ?_
        have hz : Measurable fun u : V => κ (z, u) := hκ.comp (measurable_const.prodMk measurable_id)
        rw [lintegral_mul_const _ hz, h1, one_mul]
    _ = _ := (lintegral_lintegral_swap (f := fun u z => F (Function.update p t u, z)) hG.aemeasurable).symm

/-- Replacing one position. -/
theorem proper_coor (hN : Tractable β μ ν N T f) {t n : Nat} (ht : t < T) (hn : n = if t = 0 then T else t) {K : Comp 𝕃 (Particle 𝕃)}
    (hK : ProperFor β μ ν N T n f K) : ProperFor β μ ν N T (t + 1) f (K.bind fun p => coorLaw N f T p t) := by
  subst hn
  intro G hG
  rw [expect_bind']
  -- the density of a position under the kernel, and what is estimated
  set κ : V → V → ℝ := fun z v => lp (N.coorDist f t (some z) (slices N v)) v with hκ
  have hκm : Measurable fun x : V × V => κ x.1 x.2 := hN.coor t
  set F : (Nat → V) × V → ℝ≥0∞ := fun x => dens (joint N T (t + 1) f x.1 x.2) * G x.1 x.2 with hF
  have hFm : Measurable F := (measurable_dens.comp (hN.joint (t + 1))).mul hG
  set J : (Nat → V) → V → ℝ := joint N T (if t = 0 then T else t) f with hJ
  have hJm : Measurable fun x : (Nat → V) × V => J x.1 x.2 := hN.joint _
  have hupd : Measurable fun x : ((Nat → V) × V) × V => (Function.update x.1.1 t x.2, x.1.2) :=
    (measurable_update'.comp ((measurable_fst.comp measurable_fst).prodMk measurable_snd)).prodMk (measurable_snd.comp measurable_fst)
  have hI : Measurable fun x : (Nat → V) × V => ∫⁻ v, F (Function.update x.1 t v, x.2) ∂μ :=
    Measurable.lintegral_prod_right' (f := fun x : ((Nat → V) × V) × V => F (Function.update x.1.1 t x.2, x.1.2)) (hFm.comp hupd)
  have hold : Measurable fun x : (Nat → V) × V => κ x.2 (x.1 t) :=
    hκm.comp (measurable_snd.prodMk ((measurable_pi_apply t).comp measurable_fst))
  -- one step from a particle
  have hstep : ∀ p : Particle 𝕃, expectB β (coorLaw N f T p t) (fun p' => dens p'.lw * G p'.pos p'.what) =
      dens p.lw * (dens (-J p.pos p.what) * dens (κ p.what (p.pos t)) * ∫⁻ v, F (Function.update p.pos t v, p.what) ∂μ) := by
    intro p
    unfold coorLaw
    rw [expect_bind']
    simp only [expectB]
    have := hN.draws t (some p.what) (fun y v => dens (p.lw + ((joint N T (t + 1) f (Function.update p.pos t v) p.what + κ p.what (p.pos t)) -
      (J p.pos p.what + y))) * G (Function.update p.pos t v) p.what) ?_
    · refine this.trans ?_
      rw [← mul_assoc, ← lintegral_const_mul' _ _ (ENNReal.mul_ne_top (dens_ne_top _) (ENNReal.mul_ne_top (dens_ne_top _) (dens_ne_top _)))]
      refine lintegral_congr fun v => ?_
      have e := dens_cancel (κ p.what v)
      rw [hF]
      simp only
      have e2 : p.lw + ((joint N T (t + 1) f (Function.update p.pos t v) p.what + κ p.what (p.pos t)) - (J p.pos p.what + κ p.what v)) =
        p.lw + (-J p.pos p.what) + κ p.what (p.pos t) + joint N T (t + 1) f (Function.update p.pos t v) p.what + -κ p.what v := by ring
      show dens (κ p.what v) * (dens (_ + ((_ + _) - (_ + κ p.what v))) * _) = _
      rw [e2, dens_add, dens_add, dens_add, dens_add]
      calc _ = (dens (κ p.what v) * dens (-κ p.what v)) * (dens p.lw * (dens (-J p.pos p.what) * dens (κ p.what (p.pos t))) *
            (dens (joint N T (t + 1) f (Function.update p.pos t v) p.what) * G (Function.update p.pos t v) p.what)) := by ring
        _ = _ := by rw [e, one_mul]
    · have hu : Measurable fun v : V => (Function.update p.pos t v, p.what) := (measurable_update p.pos).prodMk measurable_const
      refine (measurable_dens.comp ?_).mul (hG.comp hu)
      exact measurable_const.add ((((hN.joint (t + 1)).comp hu).add measurable_const).sub
        (measurable_const.add (hκm.comp (measurable_const.prodMk measurable_id))))
  simp_rw [hstep]
  rw [hK fun p z => dens (-J p z) * dens (κ z (p t)) * ∫⁻ v, F (Function.update p t v, z) ∂μ]
  · unfold stageInt
    have e1 : ∀ p : Nat → V, (∫⁻ z, dens (joint N T (if t = 0 then T else t) f p z) *
        (dens (-J p z) * dens (κ z (p t)) * ∫⁻ v, F (Function.update p t v, z) ∂μ) ∂ν) =
        ∫⁻ z, dens (κ z (p t)) * ∫⁻ v, F (Function.update p t v, z) ∂μ ∂ν := by
      intro p
      refine lintegral_congr fun z => ?_
      have e := dens_cancel (J p z)
      calc _ = (dens (J p z) * dens (-J p z)) * (dens (κ z (p t)) * ∫⁻ v, F (Function.update p t v, z) ∂μ) := by rw [hJ]; ring
        _ = _ := by rw [e, one_mul]
    simp_rw [e1]
    exact replace_position ht (fun x => dens (κ x.1 x.2)) (measurable_dens.comp hκm) (fun z => hN.coor_one t (some z)) F hFm
  · exact ((measurable_dens.comp hJm.neg).mul (measurable_dens.comp hold)).mul hI

/-- Replacing the appearance. -/
theorem proper_digit (hN : Tractable β μ ν N T f) {K : Comp 𝕃 (Particle 𝕃)} (hK : ProperFor β μ ν N T T f K) :
    ProperFor β μ ν N T T f (K.bind (digitLaw N f T)) := by
  intro G hG
  rw [expect_bind']
  set κ : (Nat → V) → V → ℝ := fun p z => lp (N.digitDist f ((List.range T).map p)) z with hκ
  have hκm : Measurable fun x : (Nat → V) × V => κ x.1 x.2 := hN.digit
  set F : (Nat → V) × V → ℝ≥0∞ := fun x => dens (joint N T T f x.1 x.2) * G x.1 x.2 with hF
  have hFm : Measurable F := (measurable_dens.comp (hN.joint T)).mul hG
  have hI : Measurable fun p : Nat → V => ∫⁻ z, F (p, z) ∂ν := Measurable.lintegral_prod_right' hFm
  have hJm : Measurable fun x : (Nat → V) × V => joint N T T f x.1 x.2 := hN.joint T
  have hstep : ∀ p : Particle 𝕃, expectB β (digitLaw N f T p) (fun p' => dens p'.lw * G p'.pos p'.what) =
      dens p.lw * (dens (-joint N T T f p.pos p.what) * dens (κ p.pos p.what) * ∫⁻ z, F (p.pos, z) ∂ν) := by
    intro p
    unfold digitLaw
    simp only [expectB]
    have hb : β (N.digitDist ((PLang V D Lo lp).detachV f) ((List.range T).map p.pos)) = ν := hN.digit_base _
    rw [hb, ← mul_assoc, ← lintegral_const_mul' _ _ (ENNReal.mul_ne_top (dens_ne_top _) (ENNReal.mul_ne_top (dens_ne_top _) (dens_ne_top _)))]
    refine lintegral_congr fun z => ?_
    have e := dens_cancel (κ p.pos z)
    rw [hF]
    simp only
    have e2 : p.lw + ((joint N T T f p.pos z + κ p.pos p.what) - (joint N T T f p.pos p.what + κ p.pos z)) =
      p.lw + (-joint N T T f p.pos p.what) + κ p.pos p.what + joint N T T f p.pos z + -κ p.pos z := by ring
    show dens (κ p.pos z) * (dens (p.lw + ((_ + κ p.pos p.what) - (_ + κ p.pos z))) * _) = _
    rw [e2, dens_add, dens_add, dens_add, dens_add]
    calc _ = (dens (κ p.pos z) * dens (-κ p.pos z)) * (dens p.lw * (dens (-joint N T T f p.pos p.what) * dens (κ p.pos p.what)) *
          (dens (joint N T T f p.pos z) * G p.pos z)) := by ring
      _ = _ := by rw [e, one_mul]
  simp_rw [hstep]
  rw [hK fun p z => dens (-joint N T T f p z) * dens (κ p z) * ∫⁻ z, F (p, z) ∂ν]
  · unfold stageInt
    congr 1
    funext p
    have e1 : (∫⁻ z, dens (joint N T T f p z) * (dens (-joint N T T f p z) * dens (κ p z) * ∫⁻ z, F (p, z) ∂ν) ∂ν) =
        ∫⁻ z, dens (κ p z) * ∫⁻ z, F (p, z) ∂ν ∂ν := by
      refine lintegral_congr fun z => ?_
      have e := dens_cancel (joint N T T f p z)
      calc _ = (dens (joint N T T f p z) * dens (-joint N T T f p z)) * (dens (κ p z) * ∫⁻ z, F (p, z) ∂ν) := by ring
        _ = _ := by rw [e, one_mul]
    rw [e1, lintegral_mul_const, hN.digit_one, one_mul]
    exact measurable_dens.comp (hκm.comp (measurable_const.prodMk measurable_id))
  · exact ((measurable_dens.comp hJm.neg).mul (measurable_dens.comp hκm)).mul (hI.comp measurable_fst)

theorem proper_steps (hN : Tractable β μ ν N T f) {K : Comp 𝕃 (Particle 𝕃)} (hK : ProperFor β μ ν N T T f K) (m : Nat) (hm : m ≤ T) :
    ProperFor β μ ν N T (if m = 0 then T else m) f (K.bind fun p => stepsLaw id N f T p m) := by
  induction m with
  | zero =>
    have : (K.bind fun p => stepsLaw id N f T p 0) = K := Comp.bind_ret_right _
    rw [this, if_pos rfl]
    exact hK
  | succ m ih =>
    have : (K.bind fun p => stepsLaw id N f T p (m + 1)) = (K.bind fun p => stepsLaw id N f T p m).bind fun p => coorLaw N f T p m := by
      rw [Comp.bind_assoc]
      congr 1
      funext p
      exact Comp.bind_ret_right _
    rw [this, if_neg (Nat.succ_ne_zero m)]
    exact proper_coor hN (by omega) rfl (ih (by omega))

theorem proper_sweeps (hN : Tractable β μ ν N T f) (hpos : 0 < T) (S : Nat) : ProperFor β μ ν N T T f (sweepsLaw id N f T S) := by
  induction S with
  | zero => exact proper_is hN
  | succ S ih =>
    have : sweepsLaw id N f T (S + 1) = ((sweepsLaw id N f T S).bind fun p => stepsLaw id N f T p T).bind (digitLaw N f T) := by
      rw [Comp.bind_assoc]; rfl
    rw [this]
    have h := proper_steps hN ih T (le_refl _)
    rw [if_neg (by omega)] at h
    exact proper_digit hN h

omit [MeasurableSpace V] in
theorem joint_model (p : Nat → V) (z : V) : joint N T T f p z = modelJoint N T f p z := by
  unfold joint modelJoint
  congr 2
  refine Finset.sum_congr rfl fun i hi => ?_
  have hi := Finset.mem_range.1 hi
  unfold prior
  rw [show min (i - 1) (T - 1) = i - 1 by omega]

end Verif
