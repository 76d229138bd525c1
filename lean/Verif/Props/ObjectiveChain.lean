import Mathlib.Analysis.Convex.Jensen
import Mathlib.Analysis.Convex.SpecificFunctions.Basic
import Mathlib.Analysis.Complex.ExponentialBounds
import Mathlib.Tactic.Linarith
import Verif.Model.Metrics
import Verif.Props.Annealing
import Verif.Props.Objectives
/-
C59: what the losses of vsmc add up to with the objectives of experiments/annealing.
-/
namespace Verif
variable {n b : Nat} {E : Type} [NormedAddCommGroup E] [NormedSpace ℝ E] {θ₀ : E} {V D : Type} {lp : D → V → Ten n b E}
  {dv : V → V}
local notation "𝕆" => CLang n b E θ₀ V D lp dv

/-- C59. nvo_avo returns for every step of vsmc. -/
theorem C59_avo_returns : LossOk (L := 𝕆) nvoAvo := by
  rintro k o ⟨-, px, hp, ⟨lv, hlv⟩, -⟩
  simp only [nvoAvo, hp, hlv]
  exact ⟨_, rfl⟩

/-- C59. nvo_rkl returns for every step of vsmc, if there are particles. -/
theorem C59_rkl_returns (hn : n ≠ 0) : LossOk (L := 𝕆) nvoRkl := by
  rintro k o ⟨hix, px, hp, ⟨lv, hlv⟩, ⟨r1, h1⟩, ⟨r2, h2⟩, ⟨r3, h3⟩, r4, f, h4, hf⟩
  have e : ((k : Int) + 1) = ((k + 1 : Nat) : Int) := rfl
  have e0 : ∀ m : Nat, ("g" ++ toString (m : Int) : String) = AnnealModel.name m := fun m => rfl
  simp only [nvoRkl, readRkl, hp, hix, e, e0, lookup, h1, h2, h3, h4, bind, Except.bind, pure, Except.pure, hlv, hn, if_false,
    gradZ2, isProper, evalNrep, hf, Bool.false_eq_true]
  exact ⟨_, rfl⟩

theorem weight_value (M : AnnealModel 𝕆) (z : Nat → V) (K : Nat) (i : Fin n) (j : Fin b) (θ : E) :
    (M.weight z K : Ten n b E) i j θ = ∑ k ∈ Finset.range K, (M.increment z k : Ten n b E) i j θ₀ := by
  induction K generalizing θ with
  | zero => rfl
  | succ K ih =>
    rw [Finset.sum_range_succ, ← ih θ₀]
    rfl

/-- The mean over the particles. -/
noncomputable def Spec.mean (x : Fin n → ℝ) : ℝ := (∑ i, x i) / n

/-- C59. With nvo_avo, the loss of a run of vsmc is minus the mean over the particles of the sum of the increments, as a
function of the parameters; its value is minus the mean of the result's log weight. -/
theorem C59_avo_loss (M : AnnealModel 𝕆) (z : Nat → V) (K : Nat) (hK : K ≠ 0) (loss : Option (Red b E))
    (h : ChainLoss (L := 𝕆) nvoAvo M z K loss) : ∃ l, loss = some l ∧
    (∀ j θ, l j θ = -Spec.mean fun i => ∑ k ∈ Finset.range K, (M.increment z k : Ten n b E) i j θ) ∧
    ∀ j, l j θ₀ = -Spec.mean fun i => (M.weight z K : Ten n b E) i j θ₀ := by
  obtain ⟨ls, h1, h2⟩ := h
  rw [if_neg hK] at h1
  have hls : ∀ k < K, ∀ j θ, (ls k : Red b E) j θ = -(∑ i, (M.increment z k : Ten n b E) i j θ) / n := by
    intro k hk j θ
    obtain ⟨o, ⟨-, px, prop, targ, hp, hlv, -⟩, ho⟩ := h2 k hk
    obtain ⟨l, e1, e2⟩ := C38_avo o px hp _ hlv
    rw [e1] at ho
    cases ho
    exact e2 j θ
  have hsum : ∀ (s : Finset Nat) j θ, (∑ k ∈ s, ls k : Red b E) j θ = ∑ k ∈ s, (ls k : Red b E) j θ := fun s j θ => by
    rw [Finset.sum_apply, Finset.sum_apply]
  have hall : ∀ j θ, (∑ k ∈ Finset.range K, ls k : Red b E) j θ =
      -Spec.mean fun i => ∑ k ∈ Finset.range K, (M.increment z k : Ten n b E) i j θ := by
    intro j θ
    rw [hsum, Spec.mean, Finset.sum_comm, Finset.sum_congr rfl fun k hk => hls k (Finset.mem_range.mp hk) j θ,
      ← Finset.sum_div, Finset.sum_neg_distrib, neg_div]
  refine ⟨_, h1, hall, fun j => ?_⟩
  rw [hall]
  simp only [weight_value]

/-- exp of a mean is at most the mean of exp. -/
theorem exp_mean_le (hn : n ≠ 0) (x : Fin n → ℝ) : Real.exp (Spec.mean x) ≤ zHat x := by
  have hn' : (0 : ℝ) < n := by exact_mod_cast Nat.pos_of_ne_zero hn
  have := convexOn_exp.map_sum_le (t := Finset.univ) (w := fun _ : Fin n => (1 : ℝ) / n) (p := x)
    (fun _ _ => by positivity) (by simp [hn'.ne']) (fun _ _ => Set.mem_univ _)
  simp only [smul_eq_mul, one_div, ← Finset.mul_sum] at this
  rw [Spec.mean, zHat, div_eq_inv_mul, div_eq_inv_mul]
  exact this

/-- C59. Minus the loss of nvo_avo is a lower bound of log_Z_hat of the same run. -/
theorem C59_avo_bound (hn : n ≠ 0) (M : AnnealModel 𝕆) (z : Nat → V) (K : Nat) (hK : K ≠ 0) (loss : Option (Red b E))
    (h : ChainLoss (L := 𝕆) nvoAvo M z K loss) : ∃ l, loss = some l ∧
    ∀ j, -l j θ₀ ≤ logZHat fun i => (M.weight z K : Ten n b E) i j θ₀ := by
  obtain ⟨l, h1, -, h2⟩ := C59_avo_loss M z K hK loss h
  refine ⟨l, h1, fun j => ?_⟩
  rw [h2, neg_neg, logZHat, ← Real.log_exp (Spec.mean _)]
  exact Real.log_le_log (Real.exp_pos _) (exp_mean_le hn _)

/-- C59. With nvo_rkl, the value of the loss of a run of vsmc is the sum over the steps of the mean of
-(increment - log_Z_hat of the increments), under the normalised weights the step starts with. -/
theorem C59_rkl_loss (M : AnnealModel 𝕆) (z : Nat → V) (K : Nat) (hK : K ≠ 0) (loss : Option (Red b E))
    (h : ChainLoss (L := 𝕆) nvoRkl M z K loss) : ∃ l, loss = some l ∧ ∀ j, l j θ₀ = ∑ k ∈ Finset.range K,
      ∑ i, Spec.normalised (fun i => ∑ m ∈ Finset.range k, (M.increment z m : Ten n b E) i j θ₀) i *
        -((M.increment z k : Ten n b E) i j θ₀ - logZHat fun i => (M.increment z k : Ten n b E) i j θ₀) := by
  obtain ⟨ls, h1, h2⟩ := h
  rw [if_neg hK] at h1
  refine ⟨_, h1, fun j => ?_⟩
  have e : (∑ k ∈ Finset.range K, ls k : Red b E) j θ₀ = ∑ k ∈ Finset.range K, (ls k : Red b E) j θ₀ := by
    rw [Finset.sum_apply, Finset.sum_apply]
  refine e.trans (Finset.sum_congr rfl fun k hk => ?_)
  obtain ⟨o, ⟨-, px, prop, targ, hp, hlv, hlw, -⟩, ho⟩ := h2 k (Finset.mem_range.mp hk)
  obtain ⟨px', lv, e1, e2, -, e3⟩ := C38_rkl_value ho
  rw [hp] at e1
  cases e1
  rw [hlv] at e2
  cases e2
  rw [e3 j, hlw]
  have : (fun i => (M.incoming z k : Ten n b E) i j θ₀) =
      fun i => ∑ m ∈ Finset.range k, (M.increment z m : Ten n b E) i j θ₀ := by
    funext i
    cases k with
    | zero => rfl
    | succ k => exact weight_value M z (k + 1) i j θ₀
  rw [this]
  rfl

/-- C59. The loss of the first step is never negative with nvo_rkl (it is an estimate of a divergence). -/
theorem C59_rkl_first (hn : n ≠ 0) (M : AnnealModel 𝕆) (z : Nat → V) (loss : Option (Red b E))
    (h : ChainLoss (L := 𝕆) nvoRkl M z 1 loss) : ∃ l, loss = some l ∧ ∀ j, 0 ≤ l j θ₀ := by
  obtain ⟨l, h1, h2⟩ := C59_rkl_loss M z 1 one_ne_zero loss h
  refine ⟨l, h1, fun j => ?_⟩
  have hn' : (n : ℝ) ≠ 0 := by exact_mod_cast hn
  rw [h2]
  simp only [Finset.sum_range_one, Finset.range_zero, Finset.sum_empty]
  have hc : ∀ i : Fin n, Spec.normalised (fun _ => (0 : ℝ)) i = 1 / n := fun i => by simp [Spec.normalised]
  have hj : Spec.mean (fun i => (M.increment z 0 : Ten n b E) i j θ₀) ≤
      logZHat fun i => (M.increment z 0 : Ten n b E) i j θ₀ := by
    rw [logZHat, ← Real.log_exp (Spec.mean _)]
    exact Real.log_le_log (Real.exp_pos _) (exp_mean_le hn _)
  simp only [hc]
  rw [← Finset.mul_sum, Finset.sum_neg_distrib, Finset.sum_sub_distrib]
  simp only [Finset.sum_const, Finset.card_univ, Fintype.card_fin, nsmul_eq_mul]
  have : 1 / (n : ℝ) * -(∑ i, (M.increment z 0 : Ten n b E) i j θ₀ - n * logZHat fun i => (M.increment z 0 : Ten n b E) i j θ₀) =
      (logZHat fun i => (M.increment z 0 : Ten n b E) i j θ₀) - Spec.mean fun i => (M.increment z 0 : Ten n b E) i j θ₀ := by
    rw [Spec.mean]
    field_simp
    ring
  linarith

/-- C59. vsmc with nvo_avo (no resampling) never raises; for the values drawn, the loss is minus the mean over the particles
of the sum of the increments, its value minus the mean of the log weight returned with it, so that minus the loss is a lower
bound of log_Z_hat of that log weight. -/
theorem C59_vsmc_avo (fresh : ObjId) (hn : n ≠ 0) (M : AnnealModel 𝕆) (I : AnnealIds) (hid : I.Below fresh)
    (transf : Option (Trace 𝕆 → Kw 𝕆 → Except Err (Trace 𝕆))) (ht : AnnealTransf transf) (K : Nat) (hK : K ≠ 0) :
    ∃ nd : Node 𝕆, vsmc fresh (M.initial I :: (List.range K).map (M.target I)) ((List.range K).map (M.forward I))
        ((List.range K).map (M.reverse I)) nvoAvo transf none = .ok nd ∧
      ∀ (c : PyVal 𝕆) (kw : Kw 𝕆) (w : World 𝕆), KwOk kw → (∀ j, w.cond j = none) →
        ∃ F : (Nat → V) → Out 𝕆, eval nd c kw w = (M.chain K).bind (fun z => .ret (.ok (F z), w)) ∧
          ∀ z, ∃ (lw : Ten n b E) (l : Red b E), (F z).logWeight.val = lw ∧ (F z).loss = some l ∧
            (∀ j θ, l j θ = -Spec.mean fun i => ∑ k ∈ Finset.range K, (M.increment z k : Ten n b E) i j θ) ∧
            ∀ j, l j θ₀ = -Spec.mean (fun i => lw i j θ₀) ∧ -l j θ₀ ≤ logZHat fun i => lw i j θ₀ := by
  obtain ⟨nd, h1, h2⟩ := C30_vsmc fresh M I hid nvoAvo C59_avo_returns transf ht K
  refine ⟨nd, h1, fun c kw w hk hw => ?_⟩
  obtain ⟨F, e1, e2⟩ := h2 c kw w hk hw
  refine ⟨F, e1, fun z => ?_⟩
  obtain ⟨r1, -, -, r2⟩ := e2 z
  obtain ⟨l, l1, l2, l3⟩ := C59_avo_loss M z K hK _ r2
  obtain ⟨l', l1', l4⟩ := C59_avo_bound hn M z K hK _ r2
  rw [l1] at l1'
  cases l1'
  exact ⟨_, l, r1, l1, l2, fun j => ⟨l3 j, l4 j⟩⟩

/-- C59. vsmc with nvo_rkl (no resampling, at least one particle) never raises, and the value of the loss is the sum over the
steps given in `C59_rkl_loss`. -/
theorem C59_vsmc_rkl (fresh : ObjId) (hn : n ≠ 0) (M : AnnealModel 𝕆) (I : AnnealIds) (hid : I.Below fresh)
    (transf : Option (Trace 𝕆 → Kw 𝕆 → Except Err (Trace 𝕆))) (ht : AnnealTransf transf) (K : Nat) (hK : K ≠ 0) :
    ∃ nd : Node 𝕆, vsmc fresh (M.initial I :: (List.range K).map (M.target I)) ((List.range K).map (M.forward I))
        ((List.range K).map (M.reverse I)) nvoRkl transf none = .ok nd ∧
      ∀ (c : PyVal 𝕆) (kw : Kw 𝕆) (w : World 𝕆), KwOk kw → (∀ j, w.cond j = none) →
        ∃ F : (Nat → V) → Out 𝕆, eval nd c kw w = (M.chain K).bind (fun z => .ret (.ok (F z), w)) ∧
          ∀ z, ∃ l : Red b E, (F z).loss = some l ∧ ∀ j, l j θ₀ = ∑ k ∈ Finset.range K,
            ∑ i, Spec.normalised (fun i => ∑ m ∈ Finset.range k, (M.increment z m : Ten n b E) i j θ₀) i *
              -((M.increment z k : Ten n b E) i j θ₀ - logZHat fun i => (M.increment z k : Ten n b E) i j θ₀) := by
  obtain ⟨nd, h1, h2⟩ := C30_vsmc fresh M I hid nvoRkl (C59_rkl_returns hn) transf ht K
  refine ⟨nd, h1, fun c kw w hk hw => ?_⟩
  obtain ⟨F, e1, e2⟩ := h2 c kw w hk hw
  exact ⟨F, e1, fun z => C59_rkl_loss M z K hK _ (e2 z).2.2.2⟩

namespace ObjectiveChainExample

/-- Two particles with real values and one parameter; every log probability depends on the value and on the parameter. -/
noncomputable abbrev L : Lang := CLang 2 1 ℝ 0 (Fin 2 → ℝ) ℝ (fun d v i _ θ => -(v i - d - θ) ^ 2) id

noncomputable def M : AnnealModel L where
  d0 := (0 : ℝ)
  rep0 := false
  cls0 := "FixedMultivariateNormal"
  g k v := fun i _ θ => -(k + 1) * v i ^ 2 * (1 + θ)
  cls _ := "Tempered"
  f k v := (1 + k : ℝ)
  rep := true
  r k v := (2 * k : ℝ)
  rep' := false

def I : AnnealIds where
  initial := 0
  target _ := 1
  forward _ := 2
  reverse _ := 3

theorem below : I.Below 100 := fun _ => ⟨(by decide : 2 < 100), (by decide : 3 < 100), (by decide : 1 < 100)⟩

/-- `C59_vsmc_avo` applies to three steps of this model. -/
example : ∃ nd, vsmc 100 (M.initial I :: (List.range 3).map (M.target I)) ((List.range 3).map (M.forward I))
    ((List.range 3).map (M.reverse I)) nvoAvo none none = .ok nd :=
  let ⟨nd, h, _⟩ := C59_vsmc_avo 100 two_ne_zero M I below none (Or.inl rfl) 3 (by decide)
  ⟨nd, h⟩

example : ∃ nd, vsmc 100 (M.initial I :: (List.range 3).map (M.target I)) ((List.range 3).map (M.forward I))
    ((List.range 3).map (M.reverse I)) nvoRkl none none = .ok nd :=
  let ⟨nd, h, _⟩ := C59_vsmc_rkl 100 two_ne_zero M I below none (Or.inl rfl) 3 (by decide)
  ⟨nd, h⟩

end ObjectiveChainExample

namespace ObjectiveChainNegative

/-- Two particles; all distributions have the log density 0. -/
noncomputable abbrev L : Lang := CLang 2 1 ℝ 0 (Fin 2 → ℝ) Unit (fun _ _ _ _ _ => 0) id

/-- Targets `2 (k + 1) x`. -/
noncomputable def M : AnnealModel L where
  d0 := ()
  rep0 := false
  cls0 := "FixedMultivariateNormal"
  g k v := fun i _ _ => 2 * (k + 1) * v i
  cls _ := "Tempered"
  f _ _ := ()
  rep := true
  r _ _ := ()
  rep' := false

/-- Every value drawn is 1 for the first particle and 0 for the second. -/
def z : Nat → Fin 2 → ℝ := fun _ => ![1, 0]

theorem increment (k : Nat) (i : Fin 2) (j : Fin 1) (θ : ℝ) :
    (M.increment z k : Ten 2 1 ℝ) i j θ = ![2, 0] i := by
  have hp : ∀ m, AnnealModel.point (L := L) z m = ![1, 0] := fun m => by cases m <;> rfl
  have h : (M.increment z k : Ten 2 1 ℝ) i j θ = (2 * (k + 1) * (![1, 0] : Fin 2 → ℝ) i + 0) -
      ((M.density k (AnnealModel.point z k) : Ten 2 1 ℝ) i j θ + 0) := by
    rw [← hp (k + 1)]
    rfl
  rw [h, hp]
  cases k with
  | zero =>
    show (2 * ((0 : ℕ) + 1) * (![1, 0] : Fin 2 → ℝ) i + 0) - (0 + 0) = _
    fin_cases i <;> simp
  | succ k =>
    show (2 * ((k + 1 : ℕ) + 1) * (![1, 0] : Fin 2 → ℝ) i + 0) - ((2 * (k + 1) * (![1, 0] : Fin 2 → ℝ) i) + 0) = _
    fin_cases i
    · simp; ring
    · simp

theorem number : ∑ k ∈ Finset.range 3, ∑ i, Spec.normalised (fun i => ∑ m ∈ Finset.range k, (![2, 0] : Fin 2 → ℝ) i) i *
    -((![2, 0] : Fin 2 → ℝ) i - logZHat ![2, 0]) < 0 := by
  have he1 : (2.718 : ℝ) < Real.exp 1 := lt_trans (by norm_num) Real.exp_one_gt_d9
  have he2 : Real.exp 1 < 2.719 := lt_trans Real.exp_one_lt_d9 (by norm_num)
  have e2 : Real.exp 2 = Real.exp 1 * Real.exp 1 := by rw [← Real.exp_add]; norm_num
  have e4 : Real.exp (2 + 2) = Real.exp 2 * Real.exp 2 := Real.exp_add _ _
  have h2 : 7 < Real.exp 2 := by rw [e2]; nlinarith
  have h4 : 49 < Real.exp (2 + 2) := by rw [e4]; nlinarith
  have hl : Real.log ((Real.exp 2 + 1) / 2) < 3 / 2 := by
    have hh := Real.quadratic_le_exp_of_nonneg (x := 1 / 2) (by norm_num)
    have e3 : Real.exp (3 / 2) = Real.exp 1 * Real.exp (1 / 2) := by rw [← Real.exp_add]; norm_num
    rw [Real.log_lt_iff_lt_exp (by positivity), e3, e2]
    nlinarith
  have c1 : 7 / 8 < Real.exp 2 / (Real.exp 2 + 1) := by rw [lt_div_iff₀ (by positivity)]; linarith
  have c2 : 49 / 50 < Real.exp (2 + 2) / (Real.exp (2 + 2) + 1) := by
    rw [lt_div_iff₀ (by positivity)]
    generalize Real.exp (2 + 2) = y at h4
    linarith
  have s1 : Real.exp 2 / (Real.exp 2 + 1) + 1 / (Real.exp 2 + 1) = 1 := by field_simp
  have s2 : Real.exp (2 + 2) / (Real.exp (2 + 2) + 1) + 1 / (Real.exp (2 + 2) + 1) = 1 := by field_simp
  simp only [Finset.sum_range_succ, Finset.sum_range_zero, Fin.sum_univ_two, Spec.normalised, logZHat, zHat,
    Matrix.cons_val_zero, Matrix.cons_val_one, Real.exp_zero, Nat.cast_ofNat, zero_add, add_zero]
  have g1 : 1 / (Real.exp 2 + 1) = 1 - Real.exp 2 / (Real.exp 2 + 1) := by linarith
  have g2 : 1 / (Real.exp (2 + 2) + 1) = 1 - Real.exp (2 + 2) / (Real.exp (2 + 2) + 1) := by linarith
  rw [g1, g2]
  linarith

end ObjectiveChainNegative

open ObjectiveChainNegative in
/-- C59. With nvo_rkl the loss of a run of vsmc can be negative, although it is minimised as a sum of divergences. -/
theorem C59_rkl_negative (w : World L) (hw : ∀ j, w.cond j = none) : ∃ nd, vsmc 100 (M.initial ObjectiveChainExample.I ::
      (List.range 3).map (M.target ObjectiveChainExample.I)) ((List.range 3).map (M.forward ObjectiveChainExample.I))
      ((List.range 3).map (M.reverse ObjectiveChainExample.I)) nvoRkl none none = .ok nd ∧
    ∃ (F : (Nat → Fin 2 → ℝ) → Out L) (l : Red 1 ℝ), eval nd .none {} w = (M.chain 3).bind (fun z => .ret (.ok (F z), w)) ∧
      (F z).loss = some l ∧ l 0 0 < 0 := by
  obtain ⟨nd, h1, h2⟩ := C59_vsmc_rkl 100 two_ne_zero M _ ObjectiveChainExample.below none (Or.inl rfl) 3 (by decide)
  refine ⟨nd, h1, ?_⟩
  obtain ⟨F, e1, e2⟩ := h2 .none {} w (fun e he => by cases he) hw
  obtain ⟨l, l1, l2⟩ := e2 z
  refine ⟨F, l, e1, l1, ?_⟩
  rw [l2]
  simp only [increment]
  exact number

end Verif
