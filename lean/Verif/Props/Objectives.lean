import Mathlib.Analysis.Calculus.FDeriv.Mul
import Mathlib.Analysis.Calculus.FDeriv.Add
import Mathlib.Analysis.SpecialFunctions.ExpDeriv
import Mathlib.Algebra.BigOperators.Field
import Verif.Model.Objectives
import Verif.Props.Toy
/-
C38 (surrogate terms, nvo_avo, nvo_rkl), C39 (nvo_rkl_mod).
-/
namespace Verif
variable {n b : Nat} {E : Type} [NormedAddCommGroup E] [NormedSpace ℝ E] {θ₀ : E} {V D : Type} {lp : D → V → Ten n b E}
  {dv : V → V}

/-- Self-normalised weights of log weights. -/
noncomputable def Spec.normalised (x : Fin n → ℝ) (i : Fin n) : ℝ := Real.exp (x i) / ∑ k, Real.exp (x k)

theorem normalised_sum (h : n ≠ 0) (x : Fin n → ℝ) : ∑ i, Spec.normalised x i = 1 := by
  unfold Spec.normalised
  rw [← Finset.sum_div]
  apply div_self
  apply ne_of_gt
  have : Nonempty (Fin n) := ⟨⟨0, Nat.pos_of_ne_zero h⟩⟩
  exact Finset.sum_pos (fun i _ => Real.exp_pos _) Finset.univ_nonempty

/-- C38. `_eval0(e)` has value 0 and the derivative of `e`. -/
theorem C38_eval0 (e : Red b E) (j : Fin b) : eval0R θ₀ e j θ₀ = 0 ∧
    ∀ e' : E →L[ℝ] ℝ, HasFDerivAt (e j) e' θ₀ → HasFDerivAt (eval0R θ₀ e j) e' θ₀ := by
  constructor
  · simp [eval0R, detachR]
  · intro e' h
    exact h.sub_const _

/-- C38. `_eval1(e)` has value 1 and the derivative of `e`. -/
theorem C38_eval1 (e : Ten n b E) (i : Fin n) (j : Fin b) : eval1T θ₀ e i j θ₀ = 1 ∧
    ∀ e' : E →L[ℝ] ℝ, HasFDerivAt (e i j) e' θ₀ → HasFDerivAt (eval1T θ₀ e i j) e' θ₀ := by
  constructor
  · simp [eval1T, eval0T, detachT]
  · intro e' h
    have h1 : HasFDerivAt (fun θ => e i j θ - e i j θ₀) e' θ₀ := h.sub_const _
    refine h1.exp.congr_fderiv ?_
    simp

example : HasFDerivAt (eval1T (n := 1) (b := 1) (2 : ℝ) (fun _ _ θ => 3 * θ) 0 0) ((3 : ℝ) • ContinuousLinearMap.id ℝ ℝ) 2 :=
  (C38_eval1 (n := 1) (b := 1) (θ₀ := (2 : ℝ)) (fun _ _ θ => 3 * θ) 0 0).2 _
    (by have := (hasFDerivAt_id (𝕜 := ℝ) (2 : ℝ)).const_mul 3; exact this)

/-- C38. nvo_avo is minus the mean of lv, for every value of the parameters. -/
theorem C38_avo (out : Out (CLang n b E θ₀ V D lp dv)) (px) (hp : out.px = some px) (lv : Ten n b E) (hlv : px.lv = .tensor lv) :
    ∃ l, nvoAvo out = .ok l ∧ ∀ j θ, l j θ = -(∑ i, lv i j θ) / n := by
  simp only [nvoAvo, hp, hlv]
  refine ⟨_, rfl, fun j θ => ?_⟩
  simp only [estimateMc, Pi.zero_apply, Real.exp_zero, Finset.sum_const, Finset.card_univ, Fintype.card_fin, nsmul_eq_mul, mul_one]
  rw [← Finset.mul_sum]
  simp only [Pi.neg_apply, Finset.sum_neg_distrib]
  ring

theorem estimateMc_detached (values : Ten n b E) (lw : Ten n b E) (j : Fin b) (θ : E) (h : ∀ i, lw i j θ = lw i j θ₀) :
    estimateMc values lw j θ = ∑ i, Spec.normalised (fun k => lw k j θ₀) i * values i j θ := by
  simp only [estimateMc, Spec.normalised, h]

theorem nvoRkl_ok {out : Out (CLang n b E θ₀ V D lp dv)} {l : Red b E} (h : nvoRkl out = .ok l) :
    ∃ r lv z2, readRkl out = .ok r ∧ r.lv = .tensor lv ∧ n ≠ 0 ∧ gradZ2 r.lw lv r.target = .ok z2 ∧
      l = rklLoss θ₀ r.lw (-(lv - bcast (logMeanExp θ₀ lv))) r.proposal.logProb (gradZ1 r.lw r.proposal) z2 := by
  unfold nvoRkl at h
  split at h
  · cases h
  rename_i r hr
  split at h
  · cases h
  rename_i lv hlv
  split at h
  · cases h
  rename_i hn
  split at h
  · cases h
  rename_i z2 hz
  simp only [Except.ok.injEq] at h
  exact ⟨r, lv, z2, hr, hlv, hn, hz, h.symm⟩

theorem readRkl_ok {out : Out (CLang n b E θ₀ V D lp dv)} {r : RklIn n b E θ₀ V D lp dv} (h : readRkl out = .ok r) :
    ∃ px ix, out.px = some px ∧ out.ix = some (.int ix) ∧ r.lw = detachT θ₀ px.lw ∧ r.lv = px.lv ∧
      px.proposalTrace.get? ("g" ++ toString ix) = some r.proposal ∧
      px.targetTrace.get? ("g" ++ toString (ix + 1)) = some r.target ∧
      px.proposalTrace.get? ("g" ++ toString (ix + 1)) = some r.fwd ∧
      px.targetTrace.get? ("g" ++ toString ix) = some r.rev := by
  unfold readRkl at h
  split at h
  · rename_i px ix h1 h2
    refine ⟨px, ix, h1, h2, ?_⟩
    simp only [lookup, bind, Except.bind] at h
    split at h
    · cases h
    rename_i a1 b1
    split at h
    · cases h
    rename_i a2 b2
    split at h
    · cases h
    rename_i a3 b3
    split at h
    · cases h
    rename_i a4 b4
    simp only [pure, Except.pure, Except.ok.injEq] at h
    subst h
    refine ⟨rfl, rfl, ?_, ?_, ?_, ?_⟩
    · split at b1 <;> simp_all
    · split at b2 <;> simp_all
    · split at b3 <;> simp_all
    · split at b4 <;> simp_all
  · cases h
  · cases h

/-- The example language: two samples, one parameter, currently 0; sample i has log probability i * θ. -/
noncomputable abbrev ObjToy : Lang := CLang 2 1 ℝ (0 : ℝ) Unit Unit (fun _ _ i _ θ => i * θ) id

/-- A result with index 0, incoming log weights (0, 1) and lv_i = 2 i + 3 θ, whose target is improper. -/
noncomputable def objToyOut : Out ObjToy :=
  Out.mk Dict.empty (.tensor 0) .none .propose (some (.int 0)) none none (some
    { nodes := [], lv := .tensor fun i _ θ => 2 * i + 3 * θ, lw := fun i _ _ => i,
      proposalTrace := (Dict.empty.insert "g0" (RV.mk' (L := ObjToy) () () .sampled true)).insert "g1" (RV.mk' (L := ObjToy) () () .sampled true),
      targetTrace := (Dict.empty.insert "g1" (RV.mkImproper (L := ObjToy) (fun _ i _ θ => i + θ) () .reused)).insert "g0"
        (RV.mk' (L := ObjToy) () () .reused true),
      forwardTrace := none }) []

example : ∃ l, nvoRkl objToyOut = .ok l := by
  have h0 : ("g" ++ toString (0 : Int) : String) = "g0" := by decide +kernel
  have h1 : ("g" ++ toString ((0 : Int) + 1) : String) = "g1" := by decide +kernel
  simp only [nvoRkl, readRkl, objToyOut, Out.px_mk, Out.ix_mk, h0, h1, lookup, Dict.get?_insert, bind, Except.bind]
  simp [gradZ2, isProper, RV.mkImproper, evalNrep, pure, Except.pure]

/-- C38. Whenever nvo_rkl returns, its value is the self-normalised estimate, under the incoming weights, of
-(lv - log mean exp lv): neither the surrogate factor nor the two log-Z terms change the value. -/
theorem C38_rkl_value {out : Out (CLang n b E θ₀ V D lp dv)} {l : Red b E} (h : nvoRkl out = .ok l) :
    ∃ px lv, out.px = some px ∧ px.lv = .tensor lv ∧ n ≠ 0 ∧ ∀ j, l j θ₀ =
      ∑ i, Spec.normalised (fun k => px.lw k j θ₀) i *
        -(lv i j θ₀ - Real.log ((∑ k, Real.exp (lv k j θ₀)) / n)) := by
  obtain ⟨r, lv, z2, hr, hlv, hn, -, rfl⟩ := nvoRkl_ok h
  obtain ⟨px, ix, h1, -, h2, h3, -⟩ := readRkl_ok hr
  refine ⟨px, lv, h1, by rw [← h3, hlv], hn, fun j => ?_⟩
  have hpos : 0 < ∑ k, Real.exp (lv k j θ₀) := by
    have : Nonempty (Fin n) := ⟨⟨0, Nat.pos_of_ne_zero hn⟩⟩
    exact Finset.sum_pos (fun i _ => Real.exp_pos _) Finset.univ_nonempty
  have hlog : Real.log ((∑ k, Real.exp (lv k j θ₀)) / n) = Real.log (∑ k, Real.exp (lv k j θ₀)) - Real.log n :=
    Real.log_div hpos.ne' (by exact_mod_cast hn)
  have hd : ∀ i θ, r.lw i j θ = r.lw i j θ₀ := fun i θ => by rw [h2]; rfl
  have hw : (fun k => r.lw k j θ₀) = fun k => px.lw k j θ₀ := by funext k; rw [h2]; rfl
  have hs := normalised_sum hn (fun k => px.lw k j θ₀)
  simp only [rklLoss, Pi.add_apply]
  rw [estimateMc_detached (θ₀ := θ₀) _ _ j θ₀ (fun i => hd i _), estimateMc_detached (θ₀ := θ₀) _ _ j θ₀ (fun i => hd i _), hw,
    (C38_eval0 (θ₀ := θ₀) z2 j).1]
  have hb : bcast (n := n) (estimateMc (detachT θ₀ (-(lv - bcast (logMeanExp θ₀ lv)))) r.lw) =
      fun _ j θ => estimateMc (detachT θ₀ (-(lv - bcast (logMeanExp θ₀ lv)))) r.lw j θ := rfl
  have hdt : ∀ i, detachT θ₀ (-(lv - bcast (logMeanExp θ₀ lv))) i j θ₀ =
      -(lv i j θ₀ - Real.log ((∑ k, Real.exp (lv k j θ₀)) / n)) := fun i => by
    rw [hlog]; rfl
  have hbare : ∀ i, (-(lv - bcast (logMeanExp θ₀ lv)) : Ten n b E) i j θ₀ =
      -(lv i j θ₀ - Real.log ((∑ k, Real.exp (lv k j θ₀)) / n)) := hdt
  simp only [Pi.mul_apply, (C38_eval1 (θ₀ := θ₀) _ _ j).1, mul_one, hb, hdt]
  rw [show (∑ i, Spec.normalised (fun k => px.lw k j θ₀) i * ((-(lv - bcast (logMeanExp θ₀ lv)) - fun _ j θ =>
        estimateMc (detachT θ₀ (-(lv - bcast (logMeanExp θ₀ lv)))) r.lw j θ : Ten n b E) i j θ₀)) =
      ∑ i, Spec.normalised (fun k => px.lw k j θ₀) i * (-(lv i j θ₀ - Real.log ((∑ k, Real.exp (lv k j θ₀)) / n)) -
        estimateMc (detachT θ₀ (-(lv - bcast (logMeanExp θ₀ lv)))) r.lw j θ₀) from
      Finset.sum_congr rfl fun i _ => by rw [← hbare]; rfl]
  rw [estimateMc_detached (θ₀ := θ₀) _ _ j θ₀ (fun i => hd i _), hw]
  simp only [hdt]
  simp only [mul_sub, Finset.sum_sub_distrib, ← Finset.sum_mul, hs, one_mul, sub_self]
  ring

/-- C38. The derivative of nvo_rkl at the current parameters: with normalised incoming weights c_i, loss terms
f_i = -(lv_i - log mean exp lv), baseline B = sum c_i f_i, and weights c'_i normalised from lw + lv,
  d loss = sum_i c_i [(f_i - B) d log q_i - d lv_i] + [sum_i c'_i d log g_i if the target is improper],
where q is the proposal's incoming variable and g the target's density at the detached value. The Z_1 term drops out. -/
theorem C38_rkl_grad {out : Out (CLang n b E θ₀ V D lp dv)} {l : Red b E} (h : nvoRkl out = .ok l) :
    ∃ px ix lv prop targ, out.px = some px ∧ out.ix = some (.int ix) ∧ px.lv = .tensor lv ∧
      px.proposalTrace.get? ("g" ++ toString ix) = some prop ∧ px.targetTrace.get? ("g" ++ toString (ix + 1)) = some targ ∧
      ∀ (j : Fin b) (lv' q' g' : Fin n → E →L[ℝ] ℝ),
        (∀ i, HasFDerivAt (lv i j) (lv' i) θ₀) → (∀ i, HasFDerivAt (prop.logProb i j) (q' i) θ₀) →
        (∀ f, targ.kind = .improper f → ∀ i, HasFDerivAt (f (dv targ.value) i j) (g' i) θ₀) →
        let c := Spec.normalised fun k => px.lw k j θ₀
        let c' := Spec.normalised fun k => px.lw k j θ₀ + lv k j θ₀
        let f := fun i => -(lv i j θ₀ - Real.log ((∑ k, Real.exp (lv k j θ₀)) / n))
        HasFDerivAt (l j) ((∑ i, c i • ((f i - ∑ k, c k * f k) • q' i - lv' i)) +
          (if isProper targ then 0 else ∑ i, c' i • g' i)) θ₀ := by
  obtain ⟨r, lv, z2, hr, hlv, hn, hz2, rfl⟩ := nvoRkl_ok h
  obtain ⟨px, ix, h1, h1', h2, h3, h4, h5, -⟩ := readRkl_ok hr
  refine ⟨px, ix, lv, r.proposal, r.target, h1, h1', by rw [← h3, hlv], h4, h5, ?_⟩
  intro j lv' q' g' hlv' hq' hg' c c' f
  have hpos : 0 < ∑ k, Real.exp (lv k j θ₀) := by
    have : Nonempty (Fin n) := ⟨⟨0, Nat.pos_of_ne_zero hn⟩⟩
    exact Finset.sum_pos (fun i _ => Real.exp_pos _) Finset.univ_nonempty
  have hlog : Real.log ((∑ k, Real.exp (lv k j θ₀)) / n) = Real.log (∑ k, Real.exp (lv k j θ₀)) - Real.log n :=
    Real.log_div hpos.ne' (by exact_mod_cast hn)
  have hd : ∀ i θ, r.lw i j θ = r.lw i j θ₀ := fun i θ => by rw [h2]; rfl
  have hw : (fun k => r.lw k j θ₀) = fun k => px.lw k j θ₀ := by funext k; rw [h2]; rfl
  have hs : ∑ i, c i = 1 := normalised_sum hn _
  have hest : ∀ (values : Ten n b E) θ, estimateMc values r.lw j θ = ∑ i, c i * values i j θ := by
    intro values θ
    rw [estimateMc_detached (θ₀ := θ₀) _ _ j θ (fun i => hd i θ), hw]
  -- the loss terms and their derivative
  have hf : ∀ i θ, (-(lv - bcast (logMeanExp θ₀ lv)) : Ten n b E) i j θ = -(lv i j θ - Real.log ((∑ k, Real.exp (lv k j θ₀)) / n)) := by
    intro i θ
    simp [bcast, logMeanExp, detachT, hlog]
  have hf' : ∀ i, HasFDerivAt ((-(lv - bcast (logMeanExp θ₀ lv)) : Ten n b E) i j) (-lv' i) θ₀ := by
    intro i
    have : (-(lv - bcast (logMeanExp θ₀ lv)) : Ten n b E) i j = fun θ => -(lv i j θ - Real.log ((∑ k, Real.exp (lv k j θ₀)) / n)) := by
      funext θ; exact hf i θ
    rw [this]
    exact ((hlv' i).sub_const _).neg
  have hB : ∀ θ, estimateMc (detachT θ₀ (-(lv - bcast (logMeanExp θ₀ lv)))) r.lw j θ = ∑ k, c k * f k := by
    intro θ
    rw [hest]
    refine Finset.sum_congr rfl fun i _ => ?_
    show c i * (-(lv - bcast (logMeanExp θ₀ lv)) : Ten n b E) i j θ₀ = _
    rw [hf]
  -- the Z1 term has some derivative
  obtain ⟨z1', hz1'⟩ : ∃ z1' : E →L[ℝ] ℝ, HasFDerivAt (gradZ1 r.lw r.proposal j) z1' θ₀ := by
    unfold gradZ1
    split
    · exact ⟨0, hasFDerivAt_const (0 : ℝ) θ₀⟩
    · have : estimateMc r.proposal.logProb r.lw j = fun θ => ∑ i, c i * r.proposal.logProb i j θ := by
        funext θ; exact hest _ θ
      rw [this]
      exact ⟨_, HasFDerivAt.fun_sum fun i _ => (hq' i).const_mul (c i)⟩
  -- the Z2 term
  have hz2' : HasFDerivAt (z2 j) (if isProper r.target then 0 else ∑ i, c' i • g' i) θ₀ := by
    unfold gradZ2 at hz2
    split at hz2
    · rename_i hp
      cases hz2
      rw [if_pos hp]
      exact hasFDerivAt_const (0 : ℝ) θ₀
    · rename_i hp
      rw [if_neg hp]
      split at hz2
      · cases hz2
      rename_i lpT hT
      simp only [Except.ok.injEq] at hz2
      subst hz2
      have hk : ∃ f, r.target.kind = .improper f ∧ lpT = f (dv r.target.value) := by
        unfold evalNrep at hT
        unfold isProper at hp
        split at hT
        · rename_i d hd; rw [hd] at hp; simp at hp
        · rename_i f hf
          simp only [Except.ok.injEq] at hT
          exact ⟨f, hf, hT.symm⟩
        · cases hT
      obtain ⟨ft, hk1, rfl⟩ := hk
      have : estimateMc (ft (dv r.target.value)) (r.lw + detachT θ₀ lv) j = fun θ => ∑ i, c' i * ft (dv r.target.value) i j θ := by
        funext θ
        rw [estimateMc_detached (θ₀ := θ₀) _ _ j θ (fun i => by simp [detachT, hd i θ])]
        refine Finset.sum_congr rfl fun i _ => ?_
        congr 1
        show Spec.normalised (fun k => r.lw k j θ₀ + lv k j θ₀) i = _
        have : (fun k => r.lw k j θ₀ + lv k j θ₀) = fun k => px.lw k j θ₀ + lv k j θ₀ := by
          funext k; rw [h2]; rfl
        rw [this]
      rw [this]
      exact HasFDerivAt.fun_sum fun i _ => (hg' ft hk1 i).const_mul (c' i)
  -- the surrogate factor
  let e : Ten n b E := r.proposal.logProb - bcast (gradZ1 r.lw r.proposal)
  have he : ∀ i, HasFDerivAt (eval1T θ₀ e i j) (q' i - z1') θ₀ := fun i =>
    (C38_eval1 e i j).2 _ ((hq' i).sub hz1')
  have he1 : ∀ i, eval1T θ₀ e i j θ₀ = 1 := fun i => (C38_eval1 e i j).1
  have hterm : ∀ i, HasFDerivAt (fun θ => c i * (((-(lv - bcast (logMeanExp θ₀ lv)) : Ten n b E) i j θ - ∑ k, c k * f k) * eval1T θ₀ e i j θ))
      (c i • ((f i - ∑ k, c k * f k) • (q' i - z1') - lv' i)) θ₀ := by
    intro i
    have := (((hf' i).sub_const (∑ k, c k * f k)).mul (he i)).const_mul (c i)
    refine this.congr_fderiv ?_
    rw [he1, hf, one_smul]
    congr 1
  have hfun : rklLoss θ₀ r.lw (-(lv - bcast (logMeanExp θ₀ lv))) r.proposal.logProb (gradZ1 r.lw r.proposal) z2 j =
      fun θ => (∑ i, c i * (((-(lv - bcast (logMeanExp θ₀ lv)) : Ten n b E) i j θ - ∑ k, c k * f k) * eval1T θ₀ e i j θ)) +
        eval0R θ₀ z2 j θ + ∑ k, c k * f k := by
    funext θ
    simp only [rklLoss, Pi.add_apply, hB, hest]
    have : ∀ i, ((-(lv - bcast (logMeanExp θ₀ lv)) - bcast (estimateMc (detachT θ₀ (-(lv - bcast (logMeanExp θ₀ lv)))) r.lw)) *
        eval1T θ₀ (r.proposal.logProb - bcast (gradZ1 r.lw r.proposal)) : Ten n b E) i j θ =
        ((-(lv - bcast (logMeanExp θ₀ lv)) : Ten n b E) i j θ - ∑ k, c k * f k) * eval1T θ₀ e i j θ := by
      intro i
      rw [← hB θ]; rfl
    simp only [this]
  rw [hfun]
  have := ((HasFDerivAt.fun_sum fun i (_ : i ∈ Finset.univ) => hterm i).add ((C38_eval0 z2 j).2 _ hz2')).add_const (∑ k, c k * f k)
  refine this.congr_fderiv ?_
  congr 1
  have hz : ∑ i, (c i * (f i - ∑ k, c k * f k)) = 0 := by
    simp only [mul_sub, Finset.sum_sub_distrib, ← Finset.sum_mul, hs, one_mul, sub_self]
  have : ∑ i, c i • ((f i - ∑ k, c k * f k) • (q' i - z1') - lv' i) =
      ∑ i, (c i • ((f i - ∑ k, c k * f k) • q' i - lv' i) - (c i * (f i - ∑ k, c k * f k)) • z1') := by
    refine Finset.sum_congr rfl fun i _ => ?_
    simp only [smul_sub, smul_smul]
    abel
  rw [this, Finset.sum_sub_distrib, ← Finset.sum_smul, hz, zero_smul, sub_zero]

/-- C39. nvo_rkl_mod never returns: NameError whenever it gets past reading its input with a tensor lv. -/
theorem C39_rkl_mod (out : Out (CLang n b E θ₀ V D lp dv)) : (∀ l, nvoRklMod out ≠ .ok l) ∧
    (∀ l, nvoRkl out = .ok l → nvoRklMod out = .error .name) := by
  constructor
  · intro l h
    unfold nvoRklMod at h
    split at h
    · cases h
    split at h <;> cases h
  · intro l h
    obtain ⟨r, lv, z2, hr, hlv, -⟩ := nvoRkl_ok h
    simp only [nvoRklMod, hr, hlv]

end Verif
