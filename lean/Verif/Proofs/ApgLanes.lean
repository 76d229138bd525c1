import Verif.Proofs.LaneLaw
import Verif.Props.ApgVariance
/-
Importance sampling with many particles and batch elements: each is what one particle alone would be.
-/
namespace Verif
open Spec Apg MeasureTheory
open scoped ENNReal

variable {n b : Nat} {V D Lo : Type} [AddCommMonoid Lo] {lp : D → V → ℝ}

local notation "𝕃" => PLang V D Lo lp
local notation "𝕋" => LanesLang n b lp

section lanes
variable {M : ApgNet (LanesLang n b lp)} {N : ApgNet (PLang V D Lo lp)}

/-- A list of tensors, seen from one particle of one batch element. -/
def laneList (zs : List (Fin n → Fin b → V)) (p : Fin n × Fin b) : List V := zs.map fun x => x p.1 p.2

theorem lanes_coor (h : PerLane M N) (f : Fin n → Fin b → V) (t : Int) (m : Nat) (zs : List (Fin n → Fin b → V)) :
    InLanes (Lo := Lo) (lp := lp) laneList (coorDraws M f t none m zs) fun p => coorDraws N (f p.1 p.2) t none m (laneList zs p) := by
  induction m generalizing zs with
  | zero => exact fun p => rfl
  | succ m ih =>
    refine ⟨false, fun p v => coorDraws N (f p.1 p.2) t none m (laneList zs p ++ [v]), fun p => ?_, fun (v : Fin n → Fin b → V) => ?_⟩
    · show Comp.draw _ _ _ = _
      congr 1
      exact (h.coorStep f t none zs p.1 p.2).symm
    · have := ih (zs ++ [v])
      have e : ∀ p, laneList (zs ++ [v]) p = laneList zs p ++ [v p.1 p.2] := fun p => by simp [laneList]
      simp only [e] at this
      exact this

theorem lanes_init (h : PerLane M N) (f : Fin n → Fin b → V) (m : Nat) :
    InLanes (Lo := Lo) (lp := lp) (fun (x : (Nat → Fin n → Fin b → V) × (Fin n → Fin b → ℝ)) p => (((fun t => x.1 t p.1 p.2, x.2 p.1 p.2)) : (Nat → V) × ℝ))
      (initLaw M f m) fun p => initLaw N (f p.1 p.2) m := by
  induction m with
  | zero => exact fun p => rfl
  | succ m ih =>
    refine InLanes.bind (F := fun p x => (coorDraws N (f p.1 p.2) m none N.objects []).bind fun zs =>
      .ret (Function.update x.1 m (N.stack zs), x.2 + lp (N.coorDist (f p.1 p.2) m none zs) (N.stack zs))) ih fun x => ?_
    rw [h.objects]
    refine InLanes.bind (F := fun p zs => .ret (Function.update (fun t => x.1 t p.1 p.2) m (N.stack zs),
      x.2 p.1 p.2 + lp (N.coorDist (f p.1 p.2) m none zs) (N.stack zs))) (lanes_coor h f m N.objects []) fun zs p => ?_
    have e1 : M.stack zs p.1 p.2 = N.stack (laneList zs p) := h.stack zs p.1 p.2
    have e2 : M.coorDist f m none zs p.1 p.2 = N.coorDist (f p.1 p.2) m none (laneList zs p) := h.coorDist f m none zs p.1 p.2
    refine congrArg Comp.ret (Prod.ext (funext fun t => ?_) ?_)
    · by_cases ht : t = m
      · subst ht
        simp only [Function.update_self, e1]
      · simp only [Function.update_of_ne ht]
    · show _ = x.2 p.1 p.2 + lp (M.coorDist f m none zs p.1 p.2) (M.stack zs p.1 p.2)
      rw [e1, e2]

/-- One particle of one batch element. -/
def laneParticle (x : Particle 𝕋) (p : Fin n × Fin b) : Particle 𝕃 where
  pos t := x.pos t p.1 p.2
  what := x.what p.1 p.2
  lw := x.lw p.1 p.2

theorem lane_joint (h : PerLane M N) (T : Nat) (f : Fin n → Fin b → V) (val : Nat → Fin n → Fin b → V) (what : Fin n → Fin b → V) (p : Fin n × Fin b) :
    Apg.joint M T T f val what p.1 p.2 = Apg.joint N T T (f p.1 p.2) (fun t => val t p.1 p.2) (what p.1 p.2) := by
  unfold Apg.joint
  have e : ∀ i, lp (prior M T val i p.1 p.2) (val i p.1 p.2) = lp (prior N T (fun t => val t p.1 p.2) i) (val i p.1 p.2) := by
    intro i
    unfold prior
    by_cases hi : i = 0
    · simp only [if_pos hi, h.where0]
    · simp only [if_neg hi]
      exact congrArg (lp · _) (h.whereT _ _ _)
  have e1 : M.recon ((List.range T).map val) what p.1 p.2 = N.recon ((List.range T).map fun t => val t p.1 p.2) (what p.1 p.2) :=
    (h.recon ((List.range T).map val) what p.1 p.2).trans (congrArg (N.recon · _) List.map_map)
  have e2 : (∑ i ∈ Finset.range T, (fun s j => lp (prior M T val i s j) (val i s j)) : Fin n → Fin b → ℝ) p.1 p.2 =
      ∑ i ∈ Finset.range T, lp (prior N T (fun t => val t p.1 p.2) i) (val i p.1 p.2) := by
    rw [Finset.sum_apply, Finset.sum_apply]
    exact Finset.sum_congr rfl fun i _ => e i
  have e3 : lp (M.what p.1 p.2) (what p.1 p.2) = lp N.what (what p.1 p.2) := by rw [h.what]
  have e4 : lp (M.recon ((List.range T).map val) what p.1 p.2) (f p.1 p.2) = lp (N.recon ((List.range T).map fun t => val t p.1 p.2) (what p.1 p.2)) (f p.1 p.2) :=
    congrArg (lp · _) e1
  exact congrArg₂ (· + ·) (congrArg₂ (· + ·) e2 e3) e4

theorem lanes_is (h : PerLane M N) (f : Fin n → Fin b → V) (T : Nat) :
    InLanes (Lo := Lo) (lp := lp) laneParticle (isLaw M f T) fun p => isLaw N (f p.1 p.2) T := by
  refine InLanes.bind (F := fun p x => .draw (N.digitDist (f p.1 p.2) ((List.range T).map x.1)) N.reparam fun z => .ret
    (Particle.mk (L := 𝕃) x.1 z (Apg.joint N T T (f p.1 p.2) x.1 z - (x.2 + lp (N.digitDist (f p.1 p.2) ((List.range T).map x.1)) z))))
    (lanes_init h f T) fun x => ?_
  have e : ∀ p : Fin n × Fin b, M.digitDist f ((List.range T).map x.1) p.1 p.2 = N.digitDist (f p.1 p.2) ((List.range T).map fun t => x.1 t p.1 p.2) := by
    intro p
    exact (h.digitDist f ((List.range T).map x.1) p.1 p.2).trans (congrArg (N.digitDist _) List.map_map)
  refine ⟨N.reparam, fun p z => .ret (Particle.mk (L := 𝕃) (fun t => x.1 t p.1 p.2) z (Apg.joint N T T (f p.1 p.2) (fun t => x.1 t p.1 p.2) z -
    (x.2 p.1 p.2 + lp (N.digitDist (f p.1 p.2) ((List.range T).map fun t => x.1 t p.1 p.2)) z))), fun p => ?_, fun z p => ?_⟩
  · exact congrArg (fun d => Comp.draw (L := 𝕃) d _ _) (e p).symm
  · refine congrArg (fun y => Comp.ret (Particle.mk _ _ y)) ?_
    show _ = Apg.joint M T T f x.1 z p.1 p.2 - (x.2 p.1 p.2 + lp (M.digitDist f ((List.range T).map x.1) p.1 p.2) (z p.1 p.2))
    have e1 := lane_joint h T f x.1 z p
    have e2 := congrArg (fun d => lp d (z p.1 p.2)) (e p)
    exact (congrArg₂ (· - ·) e1 (congrArg (x.2 p.1 p.2 + ·) e2)).symm

end lanes

section law
variable [MeasurableSpace V] {β : D → Measure V} {μ ν ρ : Measure V} [SFinite ρ] {N : ApgNet (PLang V D Lo lp)} {T : Nat} {f : V}

/-- A draw with a density that depends measurably on `y`, and what depends on both. -/
theorem measurable_step_bind {Y Z : Type} [MeasurableSpace Y] [MeasurableSpace Z] {d : Y → V → ℝ} (hd : Measurable fun x : Y × V => d x.1 x.2)
    {κ : Y → V → Measure Z} (hκ : Measurable fun x : Y × V => κ x.1 x.2) :
    Measurable fun y => (ρ.withDensity fun v => dens (d y v)).bind (κ y) := by
  refine Measure.measurable_of_measurable_coe _ fun s hs => ?_
  have e : ∀ y, ((ρ.withDensity fun v => dens (d y v)).bind (κ y)) s = ∫⁻ v, dens (d y v) * κ y v s ∂ρ := by
    intro y
    have h1 : Measurable (κ y) := hκ.comp measurable_prodMk_left
    have h2 : Measurable (d y) := hd.comp measurable_prodMk_left
    rw [Measure.bind_apply hs h1.aemeasurable]
    exact lintegral_withDensity_eq_lintegral_mul ρ (measurable_dens.comp h2) ((Measure.measurable_coe hs).comp h1)
  simp only [e]
  exact ((measurable_dens.comp hd).mul ((Measure.measurable_coe hs).comp hκ)).lintegral_prod_right'

theorem law_coor (hN : Tractable (Lo := Lo) (lp := lp) β μ ν N T f) (hS : Stepwise (Lo := Lo) (lp := lp) β ρ N f) (t : Nat) (m k : Nat) (hk : k + m = N.objects) :
    ∃ κ : (Fin k → V) → Measure V, Measurable κ ∧ ∀ x, HasLaw (Lo := Lo) (lp := lp) β N.stack (coorDraws N f t none m (List.ofFn x)) (κ x) := by
  induction m generalizing k with
  | zero =>
    have hk : k = N.objects := hk
    subst hk
    exact ⟨fun x => Measure.dirac (N.stack (List.ofFn x)), Measure.measurable_dirac.comp hS.stack, fun x => rfl⟩
  | succ m ih =>
    obtain ⟨κ, h1, h2⟩ := ih (k + 1) (by omega)
    have hsn : Measurable fun x : (Fin k → V) × V => (Fin.snoc x.1 x.2 : Fin (k + 1) → V) := by
      refine measurable_pi_lambda _ fun i => ?_
      refine Fin.lastCases ?_ (fun i => ?_) i
      · simp only [Fin.snoc_last]
        exact measurable_snd
      · simp only [Fin.snoc_castSucc]
        exact (measurable_pi_apply i).comp measurable_fst
    refine ⟨fun x => (ρ.withDensity fun v => dens (lp (N.coorStep f t none (List.ofFn x)) v)).bind fun v => κ (Fin.snoc x v),
      measurable_step_bind (hS.step t k) (h1.comp hsn), fun x => ⟨(hS.step t k).comp measurable_prodMk_left, hN.step_one t none _,
        fun v => κ (Fin.snoc x v), h1.comp (hsn.comp measurable_prodMk_left), fun v => ?_, ?_⟩⟩
    · have := h2 (Fin.snoc x v)
      rwa [List.ofFn_succ', show (fun i : Fin k => (Fin.snoc x v : Fin (k + 1) → V) i.castSucc) = x from funext fun i => Fin.snoc_castSucc .., Fin.snoc_last, List.concat_eq_append] at this
    · rw [hS.base]

theorem law_init (hN : Tractable (Lo := Lo) (lp := lp) β μ ν N T f) (hS : Stepwise (Lo := Lo) (lp := lp) β ρ N f) (m : Nat) : ∃ P : Measure (Nat → V), HasLaw (Lo := Lo) (lp := lp) (α := (Nat → V) × ℝ) (Y := Nat → V) β Prod.fst (initLaw N f m) P := by
  induction m with
  | zero => exact ⟨Measure.dirac fun _ => f, rfl⟩
  | succ m ih =>
    obtain ⟨P, hP⟩ := ih
    obtain ⟨κ, -, hκ⟩ := law_coor hN hS m N.objects 0 (by omega)
    have hQ := hκ Fin.elim0
    rw [List.ofFn_zero] at hQ
    have := hQ.prob
    have hu : Measurable fun p : Nat → V => (κ Fin.elim0).map (Function.update p m) := by
      refine Measure.measurable_of_measurable_coe _ fun s hs => ?_
      have e : ∀ p : Nat → V, ((κ Fin.elim0).map (Function.update p m)) s = κ Fin.elim0 (Prod.mk p ⁻¹' ((fun x : (Nat → V) × V => Function.update x.1 m x.2) ⁻¹' s)) := by
        intro p
        rw [Measure.map_apply (measurable_update p) hs]
        rfl
      simp only [e]
      exact measurable_measure_prodMk_left (measurable_update' hs)
    refine ⟨_, hP.bind _ hu fun x _ => ?_⟩
    rw [← Measure.bind_dirac_eq_map _ (measurable_update x.1)]
    refine hQ.bind _ (Measure.measurable_dirac.comp (measurable_update x.1)) fun zs _ => ?_
    rfl

/-- Positions, appearance and log weight of one particle. -/
def ofParticle (T : Nat) (x : Particle 𝕃) : (Fin T → V) × V × ℝ := (fun t => x.pos t.val, x.what, x.lw)

theorem law_is [SigmaFinite μ] [SFinite ν] (hN : Tractable (Lo := Lo) (lp := lp) β μ ν N T f) (hS : Stepwise (Lo := Lo) (lp := lp) β ρ N f) : ∃ P : Measure ((Fin T → V) × V × ℝ), HasLaw (Lo := Lo) (lp := lp) (α := Particle 𝕃) β (ofParticle T) (isLaw N f T) P := by
  obtain ⟨P, hP⟩ := law_init hN hS T
  have hQ : Measurable fun p : Nat → V => ∑ t ∈ Finset.range T, lp (N.coorDist f (t : Nat) none (slices N (p t))) (p t) :=
    Finset.measurable_sum _ fun t _ => (hN.coor0 t).comp (measurable_pi_apply t)
  have hj : Measurable fun x : (Nat → V) × V => modelJoint N T f x.1 x.2 := by
    have := hN.joint T
    simp only [joint_model] at this
    exact this
  have hK : Measurable fun x : (Nat → V) × V => proposalLog N T f x.1 x.2 := (hQ.comp measurable_fst).add hN.digit
  have ho : Measurable fun x : (Nat → V) × V => (((fun t : Fin T => x.1 t.val), x.2, modelJoint N T f x.1 x.2 - proposalLog N T f x.1 x.2) : (Fin T → V) × V × ℝ) :=
    (measurable_pi_lambda _ fun t => (measurable_pi_apply _).comp measurable_fst).prodMk (measurable_snd.prodMk (hj.sub hK))
  refine ⟨_, hP.bind (fun p => (ν.withDensity fun v => dens (lp (N.digitDist f ((List.range T).map p)) v)).bind fun z =>
    Measure.dirac ((fun t : Fin T => p t.val), z, modelJoint N T f p z - proposalLog N T f p z))
    (measurable_step_bind hN.digit (Measure.measurable_dirac.comp ho)) fun x hx => ?_⟩
  refine ⟨hN.digit.comp measurable_prodMk_left, ?_, fun z => Measure.dirac ((fun t : Fin T => x.1 t.val), z, modelJoint N T f x.1 z - proposalLog N T f x.1 z),
    Measure.measurable_dirac.comp (ho.comp measurable_prodMk_left), fun z => ?_, ?_⟩
  · rw [hN.digit_base]
    exact hN.digit_one _
  · show Measure.dirac _ = Measure.dirac _
    congr 1
    unfold ofParticle
    congr 2
    show _ = Apg.joint N T T f x.1 z - (x.2 + lp (N.digitDist f ((List.range T).map x.1)) z)
    rw [joint_model, initLaw_sum hN hx, proposalLog]
  · rw [hN.digit_base]

theorem overPositions_fin [SigmaFinite μ] (m : Nat) (h : (Nat → V) → ℝ≥0∞) (hh : Measurable h) :
    overPositions μ f m h = ∫⁻ z : Fin m → V, h (fun i => if hi : i < m then z ⟨i, hi⟩ else f) ∂Measure.pi fun _ => μ := by
  induction m generalizing h with
  | zero => simp [overPositions]
  | succ m ih =>
    rw [overPositions, ih _ (measurable_upd hh m)]
    have he : Measurable fun z : Fin (m + 1) → V => fun i => if hi : i < m + 1 then z ⟨i, hi⟩ else f := by
      refine measurable_pi_lambda _ fun i => ?_
      by_cases hi : i < m + 1
      · simp only [dif_pos hi]
        exact measurable_pi_apply _
      · simp only [dif_neg hi]
        exact measurable_const
    refine Eq.trans ?_ (lintegral_pi_snoc μ m _ (hh.comp he)).symm
    refine lintegral_congr fun y => lintegral_congr fun x => ?_
    simp only [Function.comp]
    congr 1
    funext i
    by_cases h1 : i = m
    · subst h1
      rw [Function.update_self, dif_pos (by omega)]
      exact (Fin.snoc_last (α := fun _ => V) x y).symm
    · rw [Function.update_of_ne h1]
      by_cases h2 : i < m
      · rw [dif_pos h2, dif_pos (by omega)]
        exact (Fin.snoc_castSucc (α := fun _ => V) x y ⟨i, h2⟩).symm
      · rw [dif_neg h2, dif_neg (by omega)]

omit [MeasurableSpace V] in
theorem proposed_eq (p : Nat → V) (z : V) : proposed N T f (fun t => p t.val) z = proposalLog N T f p z := by
  unfold proposed proposalLog
  rw [Finset.sum_range fun t => lp (N.coorDist f (t : Nat) none (slices N (p t))) (p t)]
  congr 3
  exact List.ofFn_eq_map.trans (by rw [← List.map_coe_finRange_eq_range, List.map_map]; rfl)

omit [MeasurableSpace V] in
theorem modelled_eq (p : Nat → V) (z : V) : modelled N T f (fun t => p t.val) z = modelJoint N T f p z := by
  unfold modelled modelJoint
  rw [Finset.sum_range fun i => lp (if i = 0 then N.where0 else N.whereT (p (i - 1))) (p i)]
  congr 3
  exact List.ofFn_eq_map.trans (by rw [← List.map_coe_finRange_eq_range, List.map_map]; rfl)

/-- Positions at all times, those after the last being `f`. -/
def prolong (f : V) (p : Fin T → V) (i : Nat) : V := if hi : i < T then p ⟨i, hi⟩ else f

omit [MeasurableSpace V] in
theorem prolong_val (p : Fin T → V) : (fun t : Fin T => prolong f p t.val) = p := funext fun t => dif_pos t.isLt

theorem measurable_prolong : Measurable (prolong (T := T) f) := by
  refine measurable_pi_lambda _ fun i => ?_
  unfold prolong
  by_cases hi : i < T
  · simp only [dif_pos hi]
    exact measurable_pi_apply _
  · simp only [dif_neg hi]
    exact measurable_const

theorem measurable_joint [SigmaFinite μ] [SFinite ν] (hN : Tractable β μ ν N T f) : Measurable fun x : (Nat → V) × V => modelJoint N T f x.1 x.2 := by
  have := hN.joint T
  simp only [joint_model] at this
  exact this

theorem measurable_proposal (hN : Tractable β μ ν N T f) : Measurable fun x : (Nat → V) × V => proposalLog N T f x.1 x.2 := by
  have hQ : Measurable fun p : Nat → V => ∑ t ∈ Finset.range T, lp (N.coorDist f (t : Nat) none (slices N (p t))) (p t) :=
    Finset.measurable_sum _ fun t _ => (hN.coor0 t).comp (measurable_pi_apply t)
  exact (hQ.comp measurable_fst).add hN.digit

theorem measurable_modelled [SigmaFinite μ] [SFinite ν] (hN : Tractable β μ ν N T f) : Measurable fun x : (Fin T → V) × V => modelled N T f x.1 x.2 := by
  have e : (fun x : (Fin T → V) × V => modelled N T f x.1 x.2) = fun x => modelJoint N T f (prolong f x.1) x.2 := by
    funext x
    rw [← modelled_eq, prolong_val]
  rw [e]
  exact (measurable_joint hN).comp ((measurable_prolong.comp measurable_fst).prodMk measurable_snd)

theorem measurable_proposed (hN : Tractable β μ ν N T f) : Measurable fun x : (Fin T → V) × V => proposed N T f x.1 x.2 := by
  have e : (fun x : (Fin T → V) × V => proposed N T f x.1 x.2) = fun x => proposalLog N T f (prolong f x.1) x.2 := by
    funext x
    rw [← proposed_eq, prolong_val]
  rw [e]
  exact (measurable_proposal hN).comp ((measurable_prolong.comp measurable_fst).prodMk measurable_snd)

theorem measurable_outcome [SigmaFinite μ] [SFinite ν] (hN : Tractable β μ ν N T f) :
    Measurable fun x : (Fin T → V) × V => (x.1, x.2, modelled N T f x.1 x.2 - proposed N T f x.1 x.2) :=
  measurable_fst.prodMk (measurable_snd.prodMk ((measurable_modelled hN).sub (measurable_proposed hN)))

/-- Integrals over one particle. -/
theorem lintegral_particle [SigmaFinite μ] [SFinite ν] (hN : Tractable β μ ν N T f) (g : (Fin T → V) × V × ℝ → ℝ≥0∞) (hg : Measurable g) :
    ∫⁻ x, g x ∂particleLaw μ ν N T f = ∫⁻ p : Fin T → V, ∫⁻ z, dens (proposed N T f p z) *
      g (p, z, modelled N T f p z - proposed N T f p z) ∂ν ∂Measure.pi fun _ => μ := by
  unfold particleLaw
  rw [lintegral_map hg (measurable_outcome hN)]
  refine (lintegral_withDensity_eq_lintegral_mul _ (measurable_dens.comp (measurable_proposed hN)) (hg.comp (measurable_outcome hN))).trans ?_
  exact lintegral_prod _ ((measurable_dens.comp (measurable_proposed hN)).mul (hg.comp (measurable_outcome hN))).aemeasurable

/-- The law of one particle under importance sampling. -/
theorem law_particle [SigmaFinite μ] [SFinite ν] (hN : Tractable β μ ν N T f) (hS : Stepwise β ρ N f) :
    HasLaw (Lo := Lo) (lp := lp) (α := Particle 𝕃) β (ofParticle T) (isLaw N f T) (particleLaw μ ν N T f) := by
  obtain ⟨P, hP⟩ := law_is hN hS
  have e : P = particleLaw μ ν N T f := by
    refine Measure.ext_of_lintegral _ fun g hg => ?_
    have hr : Measurable fun p : Nat → V => fun t : Fin T => p t.val := measurable_pi_lambda _ fun t => measurable_pi_apply _
    have hH : Measurable fun x : ((Nat → V) × V) × ℝ => g ((fun t : Fin T => x.1.1 t.val), x.1.2, x.2) :=
      hg.comp ((hr.comp (measurable_fst.comp measurable_fst)).prodMk ((measurable_snd.comp measurable_fst).prodMk measurable_snd))
    rw [← hP.expect g hg, lintegral_particle hN g hg]
    refine (expect_is hN (fun p z x => g ((fun t : Fin T => p t.val), z, x)) hH).trans ?_
    rw [overPositions_fin]
    · refine lintegral_congr fun p => lintegral_congr fun z => ?_
      have e1 := modelled_eq (N := N) (T := T) (f := f) (prolong f p) z
      have e2 := proposed_eq (N := N) (T := T) (f := f) (prolong f p) z
      rw [prolong_val] at e1 e2
      have e3 := prolong_val (f := f) p
      show dens (proposalLog N T f (prolong f p) z) * g ((fun t : Fin T => prolong f p t.val), z, modelJoint N T f (prolong f p) z - proposalLog N T f (prolong f p) z) = _
      rw [← e1, ← e2, e3]
    · have := ((measurable_dens.comp (measurable_proposal hN)).mul (hH.comp (measurable_id.prodMk ((measurable_joint hN).sub (measurable_proposal hN)))))
      exact this.lintegral_prod_right'
  rwa [← e]

end law
end Verif
