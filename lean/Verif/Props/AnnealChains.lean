import Verif.Props.AnnealMain
import Verif.Props.Independent
import Verif.Spec.AnnealChains
/-
C76: without resampling vsmc runs independent chains of annealed importance sampling; how far its estimates are from what they estimate.
-/
namespace Verif
open Spec MeasureTheory
open scoped ENNReal

section
variable {n b : Nat} {X D : Type} [MeasurableSpace X] {μ : Measure X} {lp : D → X → ℝ}
local notation "ℙ" => PopLang n b X D μ lp

/-- What the particle sees of the model `M` is the model `S`. -/
structure Sees {L : Lang} (l : Lane L lp) (M : AnnealModel L) (S : AnnealSpec X D) : Prop where
  d0 : l.d M.d0 = S.d0
  g : ∀ k v, l.w (M.g k v) = lp (S.g k) (l.v v)
  f : ∀ k v, l.d (M.f k v) = S.f k (l.v v)
  r : ∀ k v, l.d (M.r k v) = S.r k (l.v v)

theorem Vectorises.sees {M : AnnealModel ℙ} {S : AnnealSpec X D} {j : Fin b} (h : Vectorises M S j) (s : Fin n) : Sees (particleLane s j) M S :=
  ⟨h.d0 s, fun k v => h.g s k v, fun k v => h.f s k v, fun k v => h.r s k v⟩

theorem lane_point {L : Lang} (l : Lane L lp) (z : Nat → L.V) (K : Nat) : l.v (AnnealModel.point z K) = l.v (z K) := by
  cases K with
  | zero => rfl
  | succ K => exact l.detachV _

theorem lane_weight {L : Lang} (l : Lane L lp) {M : AnnealModel L} {S : AnnealSpec X D} (h : Sees l M S) (z : Nat → L.V) (K : Nat) :
    l.w (M.weight z (K + 1)) = l.w (M.weight z K) + S.logIncrement lp K (l.v (z K)) (l.v (z (K + 1))) := by
  have hd : ∀ k v, l.w (M.density k v) = S.at' lp k (l.v v) := by
    intro k v
    cases k with
    | zero => exact (l.logProb _ _).trans (by rw [h.d0]; rfl)
    | succ k => exact h.g k v
  rw [AnnealModel.weight, l.detachW, map_add, AnnealModel.increment, map_sub, map_add, map_add, l.logProb, l.logProb, h.f, h.r, hd, hd, lane_point]
  rfl

theorem measurable_at' {S : AnnealSpec X D} (hS : S.Norm μ lp) (k : Nat) : Measurable (S.at' lp k) := by
  cases k with
  | zero => exact hS.d0.1
  | succ k => exact hS.measG k

theorem measurable_logIncrement {S : AnnealSpec X D} (hS : S.Norm μ lp) (k : Nat) : Measurable fun x : X × X => S.logIncrement lp k x.1 x.2 := by
  have h1 : Measurable fun x : X × X => S.at' lp (k + 1) x.2 := (measurable_at' hS (k + 1)).comp measurable_snd
  have h2 : Measurable fun x : X × X => S.at' lp k x.1 := (measurable_at' hS k).comp measurable_fst
  have h3 : Measurable fun x : X × X => lp (S.r k x.2) x.1 := (hS.measR k).comp (measurable_snd.prodMk measurable_fst)
  exact (h1.add h3).sub (h2.add (hS.measF k))

/-- The chain, as particles see it. -/
theorem chain_law {L : Lang} {ι : Type} {G : (ι → ℝ≥0∞) → ℝ≥0∞} [SFinite μ] {l : ι → Lane L lp} {E : ∀ {α : Type}, Comp L α → (α → ℝ≥0∞) → ℝ≥0∞}
    (hE : IsLawOf G μ l E) {M : AnnealModel L} {S : ι → AnnealSpec X D} (hS : ∀ i, (S i).Norm μ lp) (hM : ∀ i, Sees (l i) M (S i)) (K : Nat)
    (φ : ι → ℝ → X → ℝ≥0∞) (hφ : ∀ i, Measurable fun p : ℝ × X => φ i p.1 p.2) :
    E (M.chain K) (fun z => G fun i => φ i ((l i).w (M.weight z K)) ((l i).v (z K))) = G fun i => (S i).law μ lp K (φ i) := by
  induction K generalizing φ with
  | zero =>
    refine (hE.draw M.d0 M.rep0 _ _ (fun i x => φ i 0 x) (fun i => (hφ i).comp (measurable_const.prodMk measurable_id)) fun v => ?_).trans ?_
    · refine (hE.ret _ _).trans ?_
      simp only [AnnealModel.weight, map_zero]
    · simp only [(hM _).d0]
      rfl
  | succ K ih =>
    rw [AnnealModel.chain]
    refine (hE.bind _ _ _).trans ?_
    simp only [AnnealSpec.law]
    have hψ : ∀ i, Measurable fun p : (ℝ × X) × X => dens (lp ((S i).f K p.1.2) p.2) * φ i (p.1.1 + (S i).logIncrement lp K p.1.2 p.2) p.2 := by
      intro i
      have m1 : Measurable fun p : (ℝ × X) × X => (p.1.2, p.2) := (measurable_snd.comp measurable_fst).prodMk measurable_snd
      refine (measurable_dens.comp (((hS i).measF K).comp m1)).mul ((hφ i).comp (Measurable.prodMk ?_ measurable_snd))
      exact (measurable_fst.comp measurable_fst).add ((measurable_logIncrement (hS i) K).comp m1)
    rw [← ih (fun i w x => ∫⁻ y, dens (lp ((S i).f K x) y) * φ i (w + (S i).logIncrement lp K x y) y ∂μ) fun i => (hψ i).lintegral_prod_right']
    refine hE.congr _ _ _ fun z _ => ?_
    refine (hE.draw _ _ _ _ (fun i y => φ i ((l i).w (M.weight z K) + (S i).logIncrement lp K ((l i).v (z K)) y) y) (fun i => ?_) fun v => ?_).trans ?_
    · refine (hφ i).comp (Measurable.prodMk ?_ measurable_id)
      exact measurable_const.add ((measurable_logIncrement (hS i) K).comp (measurable_const.prodMk measurable_id))
    · refine (hE.ret _ _).trans ?_
      have hz : M.weight (fun j => if j ≤ K then z j else v) K = M.weight z K := weight_congr M fun j hj => by simp [hj]
      simp only [lane_weight _ (hM _), hz, le_refl, if_true, Nat.not_succ_le_self, if_false]
    · simp only [(hM _).f, lane_point]

/-- The weighted law of a chain: proper weighting. -/
theorem law_proper [SFinite μ] (S : AnnealSpec X D) (hS : S.Norm μ lp) (K : Nat) (h : X → ℝ≥0∞) (hh : Measurable h) :
    S.law μ lp K (fun w x => dens w * h x) = ∫⁻ x, dens (S.at' lp K x) * h x ∂μ := by
  induction K generalizing h with
  | zero => simp [AnnealSpec.law, AnnealSpec.at', dens]
  | succ K ih =>
    have m0 := measurable_logIncrement hS K
    have m1 : Measurable fun p : X × X => dens (lp (S.f K p.1) p.2) * (dens (S.logIncrement lp K p.1 p.2) * h p.2) :=
      (measurable_dens.comp (hS.measF K)).mul ((measurable_dens.comp m0).mul (hh.comp measurable_snd))
    rw [AnnealSpec.law]
    have e1 : (fun (w : ℝ) (x : X) => ∫⁻ y, dens (lp (S.f K x) y) * (dens (w + S.logIncrement lp K x y) * h y) ∂μ) =
        fun w x => dens w * ∫⁻ y, dens (lp (S.f K x) y) * (dens (S.logIncrement lp K x y) * h y) ∂μ := by
      funext w x
      rw [← lintegral_const_mul' _ _ (dens_ne_top _)]
      refine lintegral_congr fun y => ?_
      rw [dens_add]
      ring
    rw [e1, ih _ m1.lintegral_prod_right']
    have m2 : Measurable fun p : X × X => dens (S.at' lp (K + 1) p.2) * (dens (lp (S.r K p.2) p.1) * h p.2) :=
      (measurable_dens.comp ((measurable_at' hS (K + 1)).comp measurable_snd)).mul
        ((measurable_dens.comp ((hS.measR K).comp (measurable_snd.prodMk measurable_fst))).mul (hh.comp measurable_snd))
    have e2 : ∀ x, dens (S.at' lp K x) * ∫⁻ y, dens (lp (S.f K x) y) * (dens (S.logIncrement lp K x y) * h y) ∂μ =
        ∫⁻ y, dens (S.at' lp (K + 1) y) * (dens (lp (S.r K y) x) * h y) ∂μ := by
      intro x
      rw [← lintegral_const_mul' _ _ (dens_ne_top _)]
      refine lintegral_congr fun y => ?_
      rw [← mul_assoc, ← mul_assoc, ← mul_assoc, ← dens_add, ← dens_add, ← dens_add]
      congr 2
      simp only [AnnealSpec.logIncrement]
      ring
    simp only [e2]
    rw [lintegral_lintegral_swap m2.aemeasurable]
    refine lintegral_congr fun y => ?_
    have m3 : Measurable fun x => dens (lp (S.r K y) x) := measurable_dens.comp (hS.r K y).1
    rw [lintegral_const_mul' _ _ (dens_ne_top _), lintegral_mul_const _ m3]
    have h1 : ∫⁻ x, dens (lp (S.r K y) x) ∂μ = 1 := (hS.r K y).2
    rw [h1, one_mul]

/-- The results of vsmc without resampling are those of the chain. -/
theorem vsmc_atEnd (fresh : ObjId) (M : AnnealModel ℙ) (I : AnnealIds) (hid : I.Below fresh)
    (lossFn : Out ℙ → Except Err (ℙ).Lo) (hl : LossOk lossFn)
    (transf : Option (Trace ℙ → Kw ℙ → Except Err (Trace ℙ))) (ht : AnnealTransf transf) (K : Nat) (nd : Node ℙ)
    (hnd : vsmc fresh (M.initial I :: (List.range K).map (M.target I)) ((List.range K).map (M.forward I))
        ((List.range K).map (M.reverse I)) lossFn transf none = .ok nd)
    (c : PyVal ℙ) (kw : Kw ℙ) (w : World ℙ) (hk : KwOk kw) (hw : ∀ i, w.cond i = none)
    (φ : (Fin n → Fin b → ℝ) → (Fin n → Fin b → X) → ℝ≥0∞) :
    expectT (eval nd c kw w) (onReturn (atEnd K φ)) = expectT (M.chain K) fun z => φ (M.weight z K) (z K) := by
  obtain ⟨nd2, e2, h2⟩ := chain_vsmc fresh ((List.range K).map (M.forward I)).length M I hid lossFn hl transf ht.ok K
  have e3 : vsmc fresh (M.initial I :: (List.range K).map (M.target I)) ((List.range K).map (M.forward I))
        ((List.range K).map (M.reverse I)) lossFn transf none = .ok nd2 := by
    simp only [vsmc]
    rw [zip3_range]
    exact e2
  rw [hnd] at e3
  cases e3
  obtain ⟨G, hG, hG'⟩ := h2 c kw w hk hw
  rw [hG, expectT_bind]
  congr 1
  funext z
  obtain ⟨ra, r1, -, r3, -, -, r6, -⟩ := hG' z
  have b1 : (G z).trace.get? (AnnealModel.name K) = some ra := by rw [r1]; simp [gname]
  have b3 : (G z).logWeight.val = M.weight z K := by rw [r6, AnnealModel.lw_val]
  have b4 : AnnealModel.point z K = z K := by cases K <;> rfl
  show onReturn (atEnd K φ) (Except.ok (G z), w) = _
  simp only [onReturn, atEnd, b1, b3, r3, b4]

/-- C76. vsmc without resampling, K steps, for all K: the particles are independent chains of annealed importance sampling. The expectation of a product over any
set σ of particles (sample and batch index) of functions of their log weight and their last value is the product of the expectations over one chain each. -/
theorem C76_chains [SFinite μ] (fresh : ObjId) (M : AnnealModel ℙ) (S : Fin b → AnnealSpec X D) (hV : ∀ j, Vectorises M (S j) j)
    (hS : ∀ j, (S j).Norm μ lp) (I : AnnealIds) (hid : I.Below fresh) (lossFn : Out ℙ → Except Err (ℙ).Lo) (hl : LossOk lossFn)
    (transf : Option (Trace ℙ → Kw ℙ → Except Err (Trace ℙ))) (ht : AnnealTransf transf) (K : Nat) (nd : Node ℙ)
    (hnd : vsmc fresh (M.initial I :: (List.range K).map (M.target I)) ((List.range K).map (M.forward I))
        ((List.range K).map (M.reverse I)) lossFn transf none = .ok nd)
    (c : PyVal ℙ) (kw : Kw ℙ) (w : World ℙ) (hk : KwOk kw) (hw : ∀ i, w.cond i = none)
    (σ : Finset (Fin n × Fin b)) (φ : Fin n × Fin b → ℝ → X → ℝ≥0∞) (hφ : ∀ p, Measurable fun q : ℝ × X => φ p q.1 q.2) :
    expectT (eval nd c kw w) (onReturn (atEnd K fun lw x => ∏ p ∈ σ, φ p (lw p.1 p.2) (x p.1 p.2))) = ∏ p ∈ σ, (S p.2).law μ lp K (φ p) := by
  rw [vsmc_atEnd fresh M I hid lossFn hl transf ht K nd hnd c kw w hk hw]
  have := chain_law (isLaw_prod (μ := μ) (lp := lp) σ) (M := M) (S := fun p => S p.1.2) (fun p => hS _) (fun p => (hV _).sees _) K (fun p => φ p.1) fun p => hφ _
  rw [← Finset.prod_coe_sort σ]
  refine Eq.trans ?_ this
  congr 1
  funext z
  rw [← Finset.prod_coe_sort σ]
  rfl

theorem chain_sum [SFinite μ] (M : AnnealModel ℙ) (S : AnnealSpec X D) (j : Fin b) (hV : Vectorises M S j) (hS : S.Norm μ lp) (K : Nat)
    (φ : ℝ → X → ℝ≥0∞) (hφ : Measurable fun q : ℝ × X => φ q.1 q.2) :
    expectT (M.chain K) (fun z => ∑ s, φ (M.weight z K s j) (z K s j)) = n * S.law μ lp K φ := by
  refine (chain_law (isLaw_expectT (μ := μ) (lp := lp) (n := n) j) (fun _ => hS) (fun s => hV.sees s) K (fun _ => φ) fun _ => hφ).trans ?_
  simp

theorem chain_square [Nonempty X] [SFinite μ] (M : AnnealModel ℙ) (S : AnnealSpec X D) (j : Fin b) (hV : Vectorises M S j) (hS : S.Norm μ lp) (K : Nat)
    (φ : ℝ → X → ℝ≥0∞) (hφ : Measurable fun q : ℝ × X => φ q.1 q.2) (g : (Nat → (ℙ).V) → ℝ≥0∞) :
    expectT (M.chain K) (fun z => (∑ s, φ (M.weight z K s j) (z K s j)) ^ 2 + g z) ≤
      n * S.law μ lp K (fun w x => φ w x ^ 2) + (n * (n - 1) : ℕ) * S.law μ lp K φ ^ 2 + expectT (M.chain K) g := by
  have e1 := chain_law (isLaw_expectTU (μ := μ) (lp := lp) (n := n) j) (M := M) (fun _ => hS) (fun s => hV.sees s) K (fun _ w x => φ w x ^ 2)
    fun _ => hφ.pow_const 2
  have e2 := chain_law (isLaw_pairsU (μ := μ) (lp := lp) (n := n) j) (M := M) (fun _ => hS) (fun s => hV.sees s) K (fun _ => φ) fun _ => hφ
  beta_reduce at e1 e2
  rw [Finset.sum_const, Finset.card_univ, Fintype.card_fin, nsmul_eq_mul] at e1
  have hT : ∑ p ∈ (Finset.univ : Finset (Fin n)).offDiag, S.law μ lp K φ * S.law μ lp K φ = (n * (n - 1) : ℕ) * S.law μ lp K φ ^ 2 := by
    simp only [Finset.sum_const, Finset.offDiag_card, Finset.card_univ, Fintype.card_fin, nsmul_eq_mul, sq]
    congr 2
    rw [Nat.mul_sub_one]
  rw [hT] at e2
  have e3 : (fun z : Nat → (ℙ).V => (∑ s, φ (M.weight z K s j) (z K s j)) ^ 2 + g z) = fun z =>
      (∑ s, φ (M.weight z K s j) (z K s j) ^ 2) + ((∑ p ∈ (Finset.univ : Finset (Fin n)).offDiag,
        φ (M.weight z K p.1 j) (z K p.1 j) * φ (M.weight z K p.2 j) (z K p.2 j)) + g z) := by
    funext z
    rw [← add_assoc]
    congr 1
    simp only [sq, Finset.sum_mul_sum]
    rw [← Finset.sum_product', ← Finset.diag_union_offDiag, Finset.sum_union (Finset.disjoint_diag_offDiag _), Finset.sum_diag]
  rw [e3]
  refine (expectT_add_upper _ _ _).trans ?_
  rw [add_assoc]
  refine add_le_add (le_of_eq e1) ?_
  refine (expectT_add_upper _ _ _).trans ?_
  exact add_le_add (le_of_eq e2) le_rfl

/-- C76. The mean over the particles of exp(log weight) * h(last value), for batch element `j`, differs from the integral T of h against the last target's density by ε
or more with probability at most (V - T²) / (n ε²). V is the second moment for one chain. -/
theorem C76_deviation [NeZero n] [Nonempty X] [SFinite μ] (fresh : ObjId) (M : AnnealModel ℙ) (S : AnnealSpec X D) (j : Fin b) (hV : Vectorises M S j)
    (hS : S.Norm μ lp) (I : AnnealIds) (hid : I.Below fresh) (lossFn : Out ℙ → Except Err (ℙ).Lo) (hl : LossOk lossFn)
    (transf : Option (Trace ℙ → Kw ℙ → Except Err (Trace ℙ))) (ht : AnnealTransf transf) (K : Nat) (nd : Node ℙ)
    (hnd : vsmc fresh (M.initial I :: (List.range K).map (M.target I)) ((List.range K).map (M.forward I))
        ((List.range K).map (M.reverse I)) lossFn transf none = .ok nd)
    (c : PyVal ℙ) (kw : Kw ℙ) (w : World ℙ) (hk : KwOk kw) (hw : ∀ i, w.cond i = none)
    (h : X → ℝ) (hh : Measurable h) (h0 : ∀ x, 0 ≤ h x) (T ε : ℝ) (hT0 : 0 ≤ T) (hε : 0 ≤ ε)
    (hT : ∫⁻ x, dens (S.at' lp K x) * ENNReal.ofReal (h x) ∂μ = ENNReal.ofReal T) :
    n * ENNReal.ofReal ε ^ 2 *
        expectT (eval nd c kw w) (onReturn (atEnd K fun lw x => indicate (ε ≤ |(∑ s, Real.exp (lw s j) * h (x s j)) / n - T|))) +
      ENNReal.ofReal T ^ 2 ≤ S.law μ lp K fun w x => (dens w * ENNReal.ofReal (h x)) ^ 2 := by
  rw [vsmc_atEnd fresh M I hid lossFn hl transf ht K nd hnd c kw w hk hw]
  have hm : Measurable fun q : ℝ × X => dens q.1 * ENNReal.ofReal (h q.2) :=
    (measurable_dens.comp measurable_fst).mul (ENNReal.measurable_ofReal.comp (hh.comp measurable_snd))
  have hlaw : S.law μ lp K (fun w x => dens w * ENNReal.ofReal (h x)) = ENNReal.ofReal T := by
    exact (law_proper S hS K (fun x => ENNReal.ofReal (h x)) (ENNReal.measurable_ofReal.comp hh)).trans hT
  have e1 := chain_sum M S j hV hS K (fun w x => dens w * ENNReal.ofReal (h x)) hm
  have e2 := chain_square M S j hV hS K (fun w x => dens w * ENNReal.ofReal (h x)) hm fun _ => 0
  rw [hlaw] at e1 e2
  have e0 : expectT (M.chain K) (fun _ => 0) = 0 := by
    have := expectT_mul (M.chain K) 0 (by simp) (fun _ => 1)
    simpa using this
  simp only [add_zero, e0] at e2
  refine le_trans (le_of_eq ?_) (deviation_of_moments n (M.chain K) _ _ _ (ENNReal.ofReal ε) ENNReal.ofReal_ne_top ENNReal.ofReal_ne_top e1 e2)
  refine congrArg (fun x => n * ENNReal.ofReal ε ^ 2 * x + ENNReal.ofReal T ^ 2) (congrArg _ (funext fun z => congrArg _ (propext ?_)))
  have hn : (0 : ℝ) < n := by exact_mod_cast NeZero.pos n
  have hp : ∀ s : Fin n, 0 ≤ Real.exp (M.weight z K s j) * h (z K s j) := fun s => mul_nonneg (Real.exp_pos _).le (h0 _)
  have e3 : (∑ s, dens (M.weight z K s j) * ENNReal.ofReal (h (z K s j))) / n =
      ENNReal.ofReal ((∑ s, Real.exp (M.weight z K s j) * h (z K s j)) / n) := by
    rw [ENNReal.ofReal_div_of_pos hn, ENNReal.ofReal_sum_of_nonneg fun s _ => hp s, ENNReal.ofReal_natCast]
    refine congrArg (· / (n : ℝ≥0∞)) (Finset.sum_congr rfl fun s _ => ?_)
    rw [ENNReal.ofReal_mul (Real.exp_pos _).le]
    rfl
  rw [e3]
  exact distance_iff (div_nonneg (Finset.sum_nonneg fun s _ => hp s) hn.le) hT0 hε

theorem ratio_dev {A B t z ε : ℝ} (hA : 0 ≤ A) (hAB : A ≤ B) (hB : 0 < B) (ht : 0 ≤ t) (htz : t ≤ z) (hz : 0 < z) (hε : 0 ≤ ε) (h : ε ≤ |A / B - t / z|) :
    (ε * z / 4) ^ 2 + 2 * t * A + 2 * z * B ≤ A ^ 2 + t ^ 2 + (B ^ 2 + z ^ 2) := by
  by_contra hc
  have h1 : (A - t) ^ 2 + (B - z) ^ 2 < (ε * z / 4) ^ 2 := by nlinarith
  have hd : 0 ≤ ε * z / 4 := by positivity
  have h2 : |A - t| < ε * z / 4 := abs_lt_of_sq_lt_sq (by nlinarith [sq_nonneg (B - z)]) hd
  have h3 : |B - z| < ε * z / 4 := abs_lt_of_sq_lt_sq (by nlinarith [sq_nonneg (A - t)]) hd
  have r1 : A / B ≤ 1 := (div_le_one hB).2 hAB
  have r2 : t / z ≤ 1 := (div_le_one hz).2 htz
  have r3 : 0 ≤ A / B := by positivity
  have r4 : 0 ≤ t / z := by positivity
  have hε1 : ε ≤ 1 := h.trans (abs_le.2 ⟨by linarith, by linarith⟩)
  rw [abs_lt] at h2 h3
  have hB' : 3 / 4 * z < B := by nlinarith
  have e : A / B - t / z = ((A - t) * z - t * (B - z)) / (B * z) := by field_simp; ring
  have hBz : 0 < B * z := mul_pos hB hz
  rw [e, abs_div, abs_of_pos hBz, le_div_iff₀ hBz] at h
  have h5 : |(A - t) * z - t * (B - z)| ≤ ε * z / 4 * z + z * (ε * z / 4) := by
    rw [abs_le]
    constructor <;> nlinarith
  have hεpos : 0 < ε := by
    rcases eq_or_lt_of_le hε with rfl | h'
    · nlinarith
    · exact h'
  have h6 : ε * (3 / 4 * z * z) < ε * (B * z) := by
    refine mul_lt_mul_of_pos_left ?_ hεpos
    exact mul_lt_mul_of_pos_right hB' hz
  nlinarith [mul_pos hz hz, mul_pos hεpos (mul_pos hz hz)]

theorem cancel_moments' (n : ℕ) [NeZero n] (P V Q ε : ℝ≥0∞) (hP1 : P ≤ 1) (hQ : Q ≠ ⊤) (hε : ε ≠ ⊤)
    (e4 : (n * ε) ^ 2 * P + 2 * n ^ 2 * Q ≤ n * V + (n * (n - 1) : ℕ) * Q + n ^ 2 * Q) : n * ε ^ 2 * P + Q ≤ V := by
  rcases eq_or_ne V ⊤ with rfl | hVt
  · exact le_top
  have hPt : P ≠ ⊤ := ne_top_of_le_ne_top ENNReal.one_ne_top hP1
  lift P to NNReal using hPt
  lift V to NNReal using hVt
  lift Q to NNReal using hQ
  lift ε to NNReal using hε
  obtain ⟨k, hk⟩ : ∃ k, n = k + 1 := ⟨n - 1, by have := NeZero.pos n; omega⟩
  subst hk
  rw [Nat.add_sub_cancel] at e4
  norm_cast at e4 ⊢
  rw [← NNReal.coe_le_coe] at e4 ⊢
  push_cast at e4 ⊢
  have hk0 : (0 : ℝ) < k + 1 := by positivity
  refine le_of_mul_le_mul_left ?_ hk0
  nlinarith

/-- A deviation bound for a ratio, from the first two moments of both parts. -/
theorem ratio_of_moments {α : Type} [NeZero n] [Nonempty X] [SFinite μ] (m : Comp ℙ α) (A B : α → ℝ) (hA : ∀ a, 0 ≤ A a) (hAB : ∀ a, A a ≤ B a) (hB : ∀ a, 0 < B a)
    (t z ε : ℝ) (ht : 0 ≤ t) (htz : t ≤ z) (hz : 0 < z) (hε : 0 ≤ ε) (V : ℝ≥0∞)
    (eA : expectT m (fun a => ENNReal.ofReal (A a)) = n * ENNReal.ofReal t) (eB : expectT m (fun a => ENNReal.ofReal (B a)) = n * ENNReal.ofReal z)
    (e2 : expectT m (fun a => ENNReal.ofReal (A a) ^ 2 + ENNReal.ofReal (B a) ^ 2) ≤
      n * V + (n * (n - 1) : ℕ) * (ENNReal.ofReal t ^ 2 + ENNReal.ofReal z ^ 2)) :
    n * ENNReal.ofReal (ε * z / 4) ^ 2 * expectT m (fun a => indicate (ε ≤ |A a / B a - t / z|)) + (ENNReal.ofReal t ^ 2 + ENNReal.ofReal z ^ 2) ≤ V := by
  have hnt : (n : ℝ≥0∞) ≠ ⊤ := ENNReal.natCast_ne_top n
  have hn : (0 : ℝ) < n := by exact_mod_cast NeZero.pos n
  set P := expectT m (fun a => indicate (ε ≤ |A a / B a - t / z|)) with hP
  have hP1 : P ≤ 1 := by
    refine le_trans (expectT_mono _ ?_) (expectT_one m).le
    intro a _
    simp only [indicate]
    split
    · exact le_rfl
    · exact zero_le
  refine cancel_moments' n P V _ _ hP1 (by simp [ENNReal.ofReal_ne_top]) ENNReal.ofReal_ne_top ?_
  have a1 : (n * ENNReal.ofReal (ε * z / 4)) ^ 2 * P = expectT m fun a => (n * ENNReal.ofReal (ε * z / 4)) ^ 2 * indicate (ε ≤ |A a / B a - t / z|) :=
    (expectT_mul _ _ (ENNReal.pow_ne_top (ENNReal.mul_ne_top hnt ENNReal.ofReal_ne_top)) _).symm
  have a2 : ∀ (y : ℝ) (Y : α → ℝ), expectT m (fun a => ENNReal.ofReal (Y a)) = n * ENNReal.ofReal y →
      2 * n ^ 2 * ENNReal.ofReal y ^ 2 = expectT m fun a => 2 * (n * ENNReal.ofReal y) * ENNReal.ofReal (Y a) := by
    intro y Y hY
    rw [expectT_mul _ _ (ENNReal.mul_ne_top (by simp) (ENNReal.mul_ne_top hnt ENNReal.ofReal_ne_top)), hY]
    ring
  calc (n * ENNReal.ofReal (ε * z / 4)) ^ 2 * P + 2 * n ^ 2 * (ENNReal.ofReal t ^ 2 + ENNReal.ofReal z ^ 2)
      = expectT m (fun a => (n * ENNReal.ofReal (ε * z / 4)) ^ 2 * indicate (ε ≤ |A a / B a - t / z|)) +
        (expectT m (fun a => 2 * (n * ENNReal.ofReal t) * ENNReal.ofReal (A a)) + expectT m fun a => 2 * (n * ENNReal.ofReal z) * ENNReal.ofReal (B a)) := by
        rw [← a1, ← a2 t A eA, ← a2 z B eB, mul_add]
    _ ≤ expectT m (fun a => (ENNReal.ofReal (A a) ^ 2 + ENNReal.ofReal (B a) ^ 2) + n ^ 2 * (ENNReal.ofReal t ^ 2 + ENNReal.ofReal z ^ 2)) := by
        refine (add_le_add le_rfl (expectT_add_le _ _ _)).trans ((expectT_add_le _ _ _).trans (expectT_mono _ fun a _ => ?_))
        have hind : ∀ c : ℝ, 0 ≤ c → c ^ 2 + 2 * (n * t) * A a + 2 * (n * z) * B a ≤ A a ^ 2 + (n * t) ^ 2 + (B a ^ 2 + (n * z) ^ 2) →
            ENNReal.ofReal c ^ 2 + (2 * (n * ENNReal.ofReal t) * ENNReal.ofReal (A a) + 2 * (n * ENNReal.ofReal z) * ENNReal.ofReal (B a)) ≤
              (ENNReal.ofReal (A a) ^ 2 + ENNReal.ofReal (B a) ^ 2) + n ^ 2 * (ENNReal.ofReal t ^ 2 + ENNReal.ofReal z ^ 2) := by
          intro c hc h
          have hA' := hA a
          have hB' := (hB a).le
          have e2' : (2 : ℝ≥0∞) = ENNReal.ofReal 2 := by simp
          rw [← ENNReal.ofReal_natCast n, e2']
          simp only [← ENNReal.ofReal_pow hc, ← ENNReal.ofReal_pow hA', ← ENNReal.ofReal_pow hB', ← ENNReal.ofReal_pow ht, ← ENNReal.ofReal_pow hz.le, ← ENNReal.ofReal_pow hn.le]
          have p1 : (0 : ℝ) ≤ 2 * (n * t) := by positivity
          have p2 : (0 : ℝ) ≤ 2 * (n * z) := by positivity
          rw [← ENNReal.ofReal_mul hn.le, ← ENNReal.ofReal_mul hn.le, ← ENNReal.ofReal_mul (by norm_num : (0 : ℝ) ≤ 2), ← ENNReal.ofReal_mul (by norm_num : (0 : ℝ) ≤ 2),
            ← ENNReal.ofReal_mul p1, ← ENNReal.ofReal_mul p2, ← ENNReal.ofReal_add (by positivity) (by positivity), ← ENNReal.ofReal_add (by positivity) (by positivity),
            ← ENNReal.ofReal_add (by positivity) (by positivity), ← ENNReal.ofReal_add (by positivity) (by positivity), ← ENNReal.ofReal_mul (by positivity),
            ← ENNReal.ofReal_add (by positivity) (by positivity)]
          exact ENNReal.ofReal_le_ofReal (by nlinarith)
        simp only [indicate]
        split
        · rename_i hd
          rw [mul_one, ← ENNReal.ofReal_natCast n, ← ENNReal.ofReal_mul hn.le, ENNReal.ofReal_natCast n]
          refine hind _ (by positivity) ?_
          have := ratio_dev (A := A a) (B := B a) (t := n * t) (z := n * z) (ε := ε) (hA a) (hAB a) (hB a) (by positivity) (by nlinarith) (by positivity) hε
            (by rw [mul_div_mul_left _ _ hn.ne']; exact hd)
          calc _ = (ε * (n * z) / 4) ^ 2 + 2 * (n * t) * A a + 2 * (n * z) * B a := by ring
            _ ≤ _ := this
        · rw [mul_zero]
          have := hind 0 le_rfl (by nlinarith [sq_nonneg (A a - n * t), sq_nonneg (B a - n * z)])
          simpa using this
    _ ≤ _ := by
        rw [expectT_add_const]
        exact add_le_add e2 le_rfl

/-- C76. Self-normalised estimates: the average of h over the particles of batch element `j`, weighted by exp(log weight), differs from the mean T / Z of h under the last
target by ε or more with probability at most 16 (V_h + V_1 - T² - Z²) / (n ε² Z²). V_h and V_1 are second moments for one chain, 0 ≤ h ≤ 1. -/
theorem C76_self_normalised [NeZero n] [Nonempty X] [SFinite μ] (fresh : ObjId) (M : AnnealModel ℙ) (S : AnnealSpec X D) (j : Fin b) (hV : Vectorises M S j)
    (hS : S.Norm μ lp) (I : AnnealIds) (hid : I.Below fresh) (lossFn : Out ℙ → Except Err (ℙ).Lo) (hl : LossOk lossFn)
    (transf : Option (Trace ℙ → Kw ℙ → Except Err (Trace ℙ))) (ht : AnnealTransf transf) (K : Nat) (nd : Node ℙ)
    (hnd : vsmc fresh (M.initial I :: (List.range K).map (M.target I)) ((List.range K).map (M.forward I))
        ((List.range K).map (M.reverse I)) lossFn transf none = .ok nd)
    (c : PyVal ℙ) (kw : Kw ℙ) (w : World ℙ) (hk : KwOk kw) (hw : ∀ i, w.cond i = none)
    (h : X → ℝ) (hh : Measurable h) (h0 : ∀ x, 0 ≤ h x) (h1 : ∀ x, h x ≤ 1) (T Z ε : ℝ) (hT0 : 0 ≤ T) (hZ0 : 0 < Z) (hε : 0 ≤ ε)
    (hT : ∫⁻ x, dens (S.at' lp K x) * ENNReal.ofReal (h x) ∂μ = ENNReal.ofReal T) (hZ : ∫⁻ x, dens (S.at' lp K x) ∂μ = ENNReal.ofReal Z) :
    n * ENNReal.ofReal (ε * Z / 4) ^ 2 *
        expectT (eval nd c kw w) (onReturn (atEnd K fun lw x =>
          indicate (ε ≤ |(∑ s, Real.exp (lw s j) * h (x s j)) / (∑ s, Real.exp (lw s j)) - T / Z|))) +
      (ENNReal.ofReal T ^ 2 + ENNReal.ofReal Z ^ 2) ≤
      S.law μ lp K (fun w x => (dens w * ENNReal.ofReal (h x)) ^ 2) + S.law μ lp K fun w _ => dens w ^ 2 := by
  rw [vsmc_atEnd fresh M I hid lossFn hl transf ht K nd hnd c kw w hk hw]
  have hm : Measurable fun q : ℝ × X => dens q.1 * ENNReal.ofReal (h q.2) :=
    (measurable_dens.comp measurable_fst).mul (ENNReal.measurable_ofReal.comp (hh.comp measurable_snd))
  have hm1 : Measurable fun q : ℝ × X => dens q.1 := measurable_dens.comp measurable_fst
  have l1 : S.law μ lp K (fun w x => dens w * ENNReal.ofReal (h x)) = ENNReal.ofReal T :=
    (law_proper S hS K (fun x => ENNReal.ofReal (h x)) (ENNReal.measurable_ofReal.comp hh)).trans hT
  have l2 : S.law μ lp K (fun w _ => dens w) = ENNReal.ofReal Z := by
    have := law_proper S hS K (fun _ => 1) measurable_const
    simp only [mul_one] at this
    exact this.trans hZ
  have htz : T ≤ Z := by
    rw [← ENNReal.ofReal_le_ofReal_iff hZ0.le, ← hT, ← hZ]
    refine lintegral_mono fun x => ?_
    calc _ ≤ dens (S.at' lp K x) * 1 := mul_le_mul_right (ENNReal.ofReal_le_one.2 (h1 x)) _
      _ = _ := mul_one _
  have s1 := chain_sum M S j hV hS K (fun w x => dens w * ENNReal.ofReal (h x)) hm
  have s2 := chain_sum M S j hV hS K (fun w _ => dens w) hm1
  have q1 := chain_square M S j hV hS K (fun w x => dens w * ENNReal.ofReal (h x)) hm fun z => (∑ s, dens (M.weight z K s j)) ^ 2
  have q2 := chain_square M S j hV hS K (fun w _ => dens w) hm1 fun _ => 0
  have e0 : expectT (M.chain K) (fun _ => 0) = 0 := by
    have := expectT_mul (M.chain K) 0 (by simp) (fun _ => 1)
    simpa using this
  simp only [add_zero, e0] at q2
  rw [l1] at s1 q1
  rw [l2] at s2 q2
  have f1 : ∀ z : Nat → (ℙ).V, ENNReal.ofReal (∑ s, Real.exp (M.weight z K s j) * h (z K s j)) = ∑ s, dens (M.weight z K s j) * ENNReal.ofReal (h (z K s j)) := by
    intro z
    rw [ENNReal.ofReal_sum_of_nonneg fun s _ => mul_nonneg (Real.exp_pos _).le (h0 _)]
    refine Finset.sum_congr rfl fun s _ => ?_
    rw [ENNReal.ofReal_mul (Real.exp_pos _).le]
    rfl
  have f2 : ∀ z : Nat → (ℙ).V, ENNReal.ofReal (∑ s, Real.exp (M.weight z K s j)) = ∑ s, dens (M.weight z K s j) := by
    intro z
    rw [ENNReal.ofReal_sum_of_nonneg fun s _ => (Real.exp_pos _).le]
    rfl
  have hne : (Finset.univ : Finset (Fin n)).Nonempty := ⟨⟨0, NeZero.pos n⟩, Finset.mem_univ _⟩
  refine ratio_of_moments (M.chain K) (fun z => ∑ s, Real.exp (M.weight z K s j) * h (z K s j)) (fun z => ∑ s, Real.exp (M.weight z K s j))
    (fun z => Finset.sum_nonneg fun s _ => mul_nonneg (Real.exp_pos _).le (h0 _))
    (fun z => Finset.sum_le_sum fun s _ => mul_le_of_le_one_right (Real.exp_pos _).le (h1 _))
    (fun z => Finset.sum_pos (fun s _ => Real.exp_pos _) hne) T Z ε hT0 htz hZ0 hε _ ?_ ?_ ?_
  · simp only [f1]
    exact s1
  · simp only [f2]
    exact s2
  · simp only [f1, f2]
    refine q1.trans ((add_le_add le_rfl q2).trans (le_of_eq ?_))
    ring

theorem law_mono (S : AnnealSpec X D) (K : Nat) {φ ψ : ℝ → X → ℝ≥0∞} (h : ∀ w x, φ w x ≤ ψ w x) : S.law μ lp K φ ≤ S.law μ lp K ψ := by
  induction K generalizing φ ψ with
  | zero => exact lintegral_mono fun x => mul_le_mul_right (h _ _) _
  | succ K ih => exact ih fun w x => lintegral_mono fun y => mul_le_mul_right (h _ _) _

/-- Only log weights that occur matter. -/
theorem law_mono_le (S : AnnealSpec X D) (c : ℝ) (K : Nat) (hc : ∀ k < K, ∀ x y, S.logIncrement lp k x y ≤ c) {φ ψ : ℝ → X → ℝ≥0∞}
    (h : ∀ w x, w ≤ K * c → φ w x ≤ ψ w x) : S.law μ lp K φ ≤ S.law μ lp K ψ := by
  induction K generalizing φ ψ with
  | zero => exact lintegral_mono fun x => mul_le_mul_right (h _ _ (by simp)) _
  | succ K ih =>
    refine ih (fun k hk => hc k (by omega)) fun w x hw => lintegral_mono fun y => mul_le_mul_right (h _ _ ?_) _
    have := hc K (by omega) x y
    push_cast
    linarith

/-- C76. Self-normalised estimates are consistent: if one chain's weight has a finite second moment, then with enough particles they are within ε of the mean under the
last target with a probability as high as wanted, however the model is vectorised and whatever the batch size, the loss and the arguments. -/
theorem C76_consistent [Nonempty X] [SFinite μ] (S : AnnealSpec X D) (hS : S.Norm μ lp) (K : Nat)
    (h : X → ℝ) (hh : Measurable h) (h0 : ∀ x, 0 ≤ h x) (h1 : ∀ x, h x ≤ 1) (T Z ε δ : ℝ) (hT0 : 0 ≤ T) (hZ0 : 0 < Z) (hε : 0 < ε) (hδ : 0 < δ)
    (hT : ∫⁻ x, dens (S.at' lp K x) * ENNReal.ofReal (h x) ∂μ = ENNReal.ofReal T) (hZ : ∫⁻ x, dens (S.at' lp K x) ∂μ = ENNReal.ofReal Z)
    (hfin : S.law μ lp K (fun w _ => dens w ^ 2) ≠ ⊤) :
    ∃ n0 : Nat, ∀ n b : Nat, n0 ≤ n → ∀ (j : Fin b) (M : AnnealModel (PopLang n b X D μ lp)), Vectorises M S j →
      ∀ (fresh : ObjId) (I : AnnealIds), I.Below fresh → ∀ lossFn, LossOk lossFn → ∀ transf, AnnealTransf transf → ∀ nd : Node (PopLang n b X D μ lp),
      vsmc fresh (M.initial I :: (List.range K).map (M.target I)) ((List.range K).map (M.forward I)) ((List.range K).map (M.reverse I)) lossFn transf none = .ok nd →
      ∀ c kw w, KwOk kw → (∀ i, w.cond i = none) →
        expectT (eval nd c kw w) (onReturn (atEnd K fun lw x =>
          indicate (ε ≤ |(∑ s, Real.exp (lw s j) * h (x s j)) / (∑ s, Real.exp (lw s j)) - T / Z|))) ≤ ENNReal.ofReal δ := by
  have hle : S.law μ lp K (fun w x => (dens w * ENNReal.ofReal (h x)) ^ 2) ≤ S.law μ lp K fun w _ => dens w ^ 2 := by
    refine law_mono S K fun w x => ?_
    refine pow_le_pow_left₀ zero_le ?_ 2
    calc _ ≤ dens w * 1 := mul_le_mul_right (ENNReal.ofReal_le_one.2 (h1 x)) _
      _ = _ := mul_one _
  set V := S.law μ lp K fun w _ => dens w ^ 2 with hVdef
  have he : 0 < ε * Z / 4 := by positivity
  obtain ⟨n0, hn0⟩ := exists_nat_ge (2 * V.toReal / ((ε * Z / 4) ^ 2 * δ))
  refine ⟨n0 + 1, fun n b hn j M hV fresh I hid lossFn hl transf ht nd hnd c kw w hk hw => ?_⟩
  have : NeZero n := ⟨by omega⟩
  have hmain := C76_self_normalised fresh M S j hV hS I hid lossFn hl transf ht K nd hnd c kw w hk hw h hh h0 h1 T Z ε hT0 hZ0 hε.le hT hZ
  set P := expectT (eval nd c kw w) (onReturn (atEnd K fun lw x =>
          indicate (ε ≤ |(∑ s, Real.exp (lw s j) * h (x s j)) / (∑ s, Real.exp (lw s j)) - T / Z|))) with hP
  have e1 : n * ENNReal.ofReal (ε * Z / 4) ^ 2 * P ≤ ENNReal.ofReal (2 * V.toReal) := by
    refine le_self_add.trans (hmain.trans ((add_le_add hle le_rfl).trans (le_of_eq ?_)))
    rw [← two_mul, ENNReal.ofReal_mul (by norm_num), ENNReal.ofReal_toReal hfin]
    simp
  rw [← ENNReal.ofReal_natCast n, ← ENNReal.ofReal_pow he.le, ← ENNReal.ofReal_mul (by positivity)] at e1
  have hnpos : (0 : ℝ) < n := by exact_mod_cast NeZero.pos n
  have hc : 0 < (n : ℝ) * (ε * Z / 4) ^ 2 := by positivity
  have e2 : ENNReal.ofReal (2 * V.toReal) ≤ ENNReal.ofReal (n * (ε * Z / 4) ^ 2) * ENNReal.ofReal δ := by
    rw [← ENNReal.ofReal_mul hc.le]
    refine ENNReal.ofReal_le_ofReal ?_
    have hn0n : (n0 : ℝ) ≤ n := by exact_mod_cast (by omega : n0 ≤ n)
    have := hn0.trans hn0n
    rw [div_le_iff₀ (by positivity)] at this
    linarith
  have hne0 : ENNReal.ofReal (n * (ε * Z / 4) ^ 2) ≠ 0 := by
    rw [Ne, ENNReal.ofReal_eq_zero]
    exact not_le.2 hc
  exact (ENNReal.mul_le_mul_iff_right hne0 ENNReal.ofReal_ne_top).1 (e1.trans e2)

/-- C76. The evidence estimates that nvi_test reports: exp of the one for step t differs from the normalising constant Z of g(t+1) by ε or more with probability at most
(V - Z²) / (n ε²), where V is the second moment of one chain's weight after t+1 steps. -/
theorem C76_report [NeZero n] [Nonempty X] [SFinite μ] (fresh : ObjId) (M : AnnealModel ℙ) (S : AnnealSpec X D) (j : Fin b) (hV : Vectorises M S j)
    (hS : S.Norm μ lp) (I : AnnealIds) (hid : I.Below fresh) (lossFn : Out ℙ → Except Err (ℙ).Lo) (hl : LossOk lossFn)
    (transf : Option (Trace ℙ → Kw ℙ → Except Err (Trace ℙ))) (ht : AnnealTransf transf) (K t : Nat) (htK : t < K) (nd : Node ℙ)
    (hnd : vsmc fresh (M.initial I :: (List.range K).map (M.target I)) ((List.range K).map (M.forward I))
        ((List.range K).map (M.reverse I)) lossFn transf none = .ok nd)
    (kw : Kw ℙ) (w : World ℙ) (hk : KwOk kw) (hw : ∀ i, w.cond i = none) (Z ε : ℝ) (hZ0 : 0 ≤ Z) (hε : 0 ≤ ε)
    (hZ : ∫⁻ x, dens (lp (S.g t) x) ∂μ = ENNReal.ofReal Z) :
    n * ENNReal.ofReal ε ^ 2 * expectT (nviTest popEss popLz nd kw w) (onReturn fun rep => indicate (ε ≤ |Real.exp (reportLz t j rep) - Z|)) +
      ENNReal.ofReal Z ^ 2 ≤ S.law μ lp (t + 1) fun w _ => dens w ^ 2 := by
  obtain ⟨nd2, e2, -⟩ := C30_vsmc fresh M I hid lossFn hl transf ht (t + 1)
  obtain ⟨nd1, e1, h1⟩ := C63_nvi_test (L := ℙ) popEss popLz fresh M I hid lossFn hl transf ht K
  rw [hnd] at e1
  cases e1
  obtain ⟨F, hF, hF'⟩ := (h1 kw w hk hw).2 (by omega)
  have hrep : expectT (nviTest popEss popLz nd kw w) (onReturn fun rep => indicate (ε ≤ |Real.exp (reportLz t j rep) - Z|)) =
      expectT (nviTest popEss popLz nd kw w) (onReturn (atStep t fun lw x => indicate (ε ≤ |(∑ s, Real.exp (lw s j) * 1) / n - Z|))) := by
    refine (isLaw_expectT (μ := μ) (lp := lp) (n := n) j).congr _ _ _ ?_
    rintro ⟨r, w'⟩ hr
    rw [hF, Comp.bind_Ret] at hr
    obtain ⟨z, -, hz⟩ := hr
    cases hz
    have b0 : (F z).lw[t]? = some (M.incoming z (t + 1)) := by rw [(hF' z).lw]; simp [htK]
    have b1 : (F z).lZHat[t]? = some (popLz (M.incoming z (t + 1))) := by rw [(hF' z).lZHat]; simp [htK]
    have b2 : (F z).samples[t]? = some (AnnealModel.name (t + 1), z (t + 1)) := by rw [(hF' z).samples]; simp [htK]
    simp only [onReturn, atStep, reportLz, b0, b1, b2, Option.getD_some, mul_one, popLz]
    rw [logZHat, Real.exp_log (zHat_pos _), zHat]
  rw [hrep, C63_prefix fresh M I hid lossFn hl transf ht K t htK nd nd2 hnd e2 .none kw {} w hk (fun e he => by cases he) hw]
  have := C76_deviation fresh M S j hV hS I hid lossFn hl transf ht (t + 1) nd2 e2 .none {} w (fun e he => by cases he) hw (fun _ => 1) measurable_const
    (fun _ => zero_le_one) Z ε hZ0 hε (by simpa [AnnealSpec.at'] using hZ)
  simpa using this

/-- C76. If the increments of the log weight are bounded, so is the second moment. -/
theorem C76_bounded [SFinite μ] (S : AnnealSpec X D) (hS : S.Norm μ lp) (c : ℝ) (K : Nat) (hc : ∀ k < K, ∀ x y, S.logIncrement lp k x y ≤ c)
    (h : X → ℝ≥0∞) (hh : Measurable h) :
    S.law μ lp K (fun w x => (dens w * h x) ^ 2) ≤ dens (K * c) * ∫⁻ x, dens (S.at' lp K x) * h x ^ 2 ∂μ := by
  have h2 : ∫⁻ x, dens (S.at' lp K x) * (dens (K * c) * h x ^ 2) ∂μ = dens (K * c) * ∫⁻ x, dens (S.at' lp K x) * h x ^ 2 ∂μ := by
    rw [← lintegral_const_mul' _ _ (dens_ne_top _)]
    exact lintegral_congr fun x => by ring
  rw [← h2, ← law_proper S hS K (fun x => dens (K * c) * h x ^ 2) (measurable_const.mul (hh.pow_const 2))]
  refine law_mono_le S c K hc fun w x hw => ?_
  rw [mul_pow, sq (dens w), mul_assoc]
  exact mul_le_mul_right (mul_le_mul_left (ENNReal.ofReal_le_ofReal (Real.exp_le_exp.2 hw)) _) _

end
end Verif

namespace Verif
open Spec MeasureTheory
open scoped ENNReal

/-! ### The coins, with any number of particles -/
namespace Coin

noncomputable def annealMany (n : Nat) : AnnealModel (PopLang n 1 Bool (Bool × Bool) Measure.count lpU) where
  d0 _ _ := ⟨(false, false), normalisedU _⟩
  rep0 := false
  cls0 := "FixedMultivariateNormal"
  g k v s j := lpU (k % 2 == 0, true) (v s j)
  cls _ := "Tempered"
  f _ v s j := ⟨(v s j, false), normalisedU _⟩
  rep := true
  r _ v s j := ⟨(v s j, false), normalisedU _⟩
  rep' := false

theorem many_vectorises (n : Nat) : Vectorises (annealMany n) annealSpec 0 := ⟨fun _ => rfl, fun _ _ _ => rfl, fun _ _ _ => rfl, fun _ _ _ => rfl⟩

theorem spec_norm : annealSpec.Norm Measure.count lpU := ⟨normalisedU _, fun _ _ => normalisedU _, fun _ _ => normalisedU _,
  fun _ => measurable_of_countable _, fun _ => measurable_of_countable _, fun _ => measurable_of_countable _⟩

theorem lp_le (d v : Bool) : lp d v ≤ Real.log 3 - 2 * Real.log 2 := by
  have h4 : Real.log 3 - 2 * Real.log 2 = Real.log (3 / 4) := by
    rw [Real.log_div (by norm_num) (by norm_num), show (4 : ℝ) = 2 ^ 2 by norm_num, Real.log_pow]
    norm_num
  rw [h4]
  exact Real.log_le_log (prob_pos _ _) (by cases d <;> cases v <;> norm_num [prob])

theorem le_lp (d v : Bool) : -(2 * Real.log 2) ≤ lp d v := by
  have h4 : -(2 * Real.log 2) = Real.log (1 / 4) := by
    rw [Real.log_div (by norm_num) (by norm_num), show (4 : ℝ) = 2 ^ 2 by norm_num, Real.log_pow]
    norm_num
  rw [h4]
  exact Real.log_le_log (by norm_num) (by cases d <;> cases v <;> norm_num [prob])

/-- The weights grow by a factor of at most 9e in a step. -/
theorem increment_le (k : Nat) (x y : Bool) : annealSpec.logIncrement lpU k x y ≤ 1 + 2 * Real.log 3 := by
  have h1 : annealSpec.at' lpU (k + 1) y ≤ Real.log 3 - 2 * Real.log 2 + 1 := add_le_add (lp_le _ y) le_rfl
  have h2 : lpU (annealSpec.r k y) x ≤ Real.log 3 - 2 * Real.log 2 := le_of_eq_of_le (by simp [lpU, annealSpec]) (lp_le y x)
  have h3 : -(2 * Real.log 2) ≤ lpU (annealSpec.f k x) y := (le_lp x y).trans_eq (by simp [lpU, annealSpec])
  have h4 : -(2 * Real.log 2) ≤ annealSpec.at' lpU k x := by
    cases k with
    | zero => exact (le_lp false x).trans_eq (by simp [lpU, annealSpec, AnnealSpec.at'])
    | succ k =>
      have : annealSpec.at' lpU (k + 1) x = lp (k % 2 == 0) x + 1 := rfl
      have := le_lp (k % 2 == 0) x
      linarith
  unfold AnnealSpec.logIncrement
  linarith

theorem evidence (k : Nat) : ∫⁻ x, dens (annealSpec.at' lpU (k + 1) x) ∂Measure.count = ENNReal.ofReal (Real.exp 1) := by
  rw [lintegral_bool]
  have h6 : ∀ v, dens (annealSpec.at' lpU (k + 1) v) = ENNReal.ofReal (prob (k % 2 == 0) v) * ENNReal.ofReal (Real.exp 1) := by
    intro v
    rw [← dens_lp, dens, dens, ← ENNReal.ofReal_mul (Real.exp_pos _).le, ← Real.exp_add]
    rfl
  simp only [h6]
  rw [← add_mul, ← ENNReal.ofReal_add (prob_pos _ _).le (prob_pos _ _).le]
  cases (k % 2 == 0) <;> norm_num [prob]

end Coin

/-- C76: the coins, n particles, K steps. The evidence estimate reported for step t differs from e by ε or more with probability at most ((9e)^(t+1) e - e²) / (n ε²). -/
example (n : Nat) [NeZero n] (K t : Nat) (htK : t < K) (ε : ℝ) (hε : 0 ≤ ε) :
    ∃ nd, vsmc 100 ((Coin.annealMany n).initial Toy.annealIds :: (List.range K).map ((Coin.annealMany n).target Toy.annealIds))
      ((List.range K).map ((Coin.annealMany n).forward Toy.annealIds)) ((List.range K).map ((Coin.annealMany n).reverse Toy.annealIds))
      (fun _ => .ok 0) none none = .ok nd ∧
    n * ENNReal.ofReal ε ^ 2 * expectT (nviTest popEss popLz nd {} { cond := fun _ => none, store := Store.init })
        (onReturn fun rep => indicate (ε ≤ |Real.exp (reportLz t 0 rep) - Real.exp 1|)) + ENNReal.ofReal (Real.exp 1) ^ 2 ≤
      dens ((t + 1 : ℕ) * (1 + 2 * Real.log 3)) * ENNReal.ofReal (Real.exp 1) := by
  obtain ⟨nd, h1, -⟩ := C30_vsmc 100 (Coin.annealMany n) Toy.annealIds Coin.ids_below (fun _ => .ok 0) (fun _ _ _ => ⟨_, rfl⟩) none (Or.inl rfl) K
  refine ⟨nd, h1, ?_⟩
  refine (C76_report 100 (Coin.annealMany n) Coin.annealSpec 0 (Coin.many_vectorises n) Coin.spec_norm Toy.annealIds Coin.ids_below (fun _ => .ok 0)
    (fun _ _ _ => ⟨_, rfl⟩) none (Or.inl rfl) K t htK nd h1 {} { cond := fun _ => none, store := Store.init } (fun e he => by cases he) (fun _ => rfl)
    (Real.exp 1) ε (Real.exp_pos 1).le hε (Coin.evidence t)).trans ?_
  have := C76_bounded Coin.annealSpec Coin.spec_norm (1 + 2 * Real.log 3) (t + 1) (fun k _ x y => Coin.increment_le k x y) (fun _ => 1) measurable_const
  simp only [one_pow, mul_one, Coin.evidence] at this
  exact this

/-- C76: the probability of heads estimated from the weighted particles is consistent: it tends to 3/4 for odd numbers of steps. -/
example (K : Nat) (hK : K % 2 = 0) (ε δ : ℝ) (hε : 0 < ε) (hδ : 0 < δ) :
    ∃ n0 : Nat, ∀ n, n0 ≤ n → ∀ nd,
      vsmc 100 ((Coin.annealMany n).initial Toy.annealIds :: (List.range (K + 1)).map ((Coin.annealMany n).target Toy.annealIds))
        ((List.range (K + 1)).map ((Coin.annealMany n).forward Toy.annealIds)) ((List.range (K + 1)).map ((Coin.annealMany n).reverse Toy.annealIds))
        (fun _ => .ok 0) none none = .ok nd →
      expectT (eval nd .none {} { cond := fun _ => none, store := Store.init }) (onReturn (atEnd (K + 1) fun lw x =>
        indicate (ε ≤ |(∑ s, Real.exp (lw s 0) * if x s 0 then 1 else 0) / (∑ s, Real.exp (lw s 0)) - 3 / 4 * Real.exp 1 / Real.exp 1|))) ≤ ENNReal.ofReal δ := by
  have hfin : Coin.annealSpec.law Measure.count Coin.lpU (K + 1) (fun w _ => dens w ^ 2) ≠ ⊤ := by
    have := C76_bounded Coin.annealSpec Coin.spec_norm (1 + 2 * Real.log 3) (K + 1) (fun k _ x y => Coin.increment_le k x y) (fun _ => 1) measurable_const
    simp only [one_pow, mul_one, Coin.evidence] at this
    exact ne_top_of_le_ne_top (ENNReal.mul_ne_top (dens_ne_top _) ENNReal.ofReal_ne_top) this
  have hT : ∫⁻ x : Bool, dens (Coin.annealSpec.at' Coin.lpU (K + 1) x) * ENNReal.ofReal (if x then 1 else 0) ∂Measure.count =
      ENNReal.ofReal (3 / 4 * Real.exp 1) := by
    rw [Coin.lintegral_bool]
    simp only [Bool.false_eq_true, if_false, if_true, ENNReal.ofReal_zero, mul_zero, zero_add, ENNReal.ofReal_one, mul_one]
    have h1 : Coin.annealSpec.at' Coin.lpU (K + 1) true = Real.log (3 / 4) + 1 := by
      simp [AnnealSpec.at', Coin.annealSpec, Coin.lpU, Coin.lp, Coin.prob, hK]
    rw [h1, dens, Real.exp_add, Real.exp_log (by norm_num)]
  obtain ⟨n0, h⟩ := C76_consistent Coin.annealSpec Coin.spec_norm (K + 1) (fun x => if x then 1 else 0) (measurable_of_countable _)
    (fun x => by split <;> norm_num) (fun x => by split <;> norm_num) (3 / 4 * Real.exp 1) (Real.exp 1) ε δ (by positivity) (Real.exp_pos 1) hε hδ hT (Coin.evidence K) hfin
  exact ⟨n0, fun n hn nd hnd => h n 1 hn 0 (Coin.annealMany n) (Coin.many_vectorises n) 100 Toy.annealIds Coin.ids_below (fun _ => .ok 0) (fun _ _ _ => ⟨_, rfl⟩)
    none (Or.inl rfl) nd hnd .none {} _ (fun e he => by cases he) (fun _ => rfl)⟩

/-! ### C75 on the same models -/
namespace Coin

noncomputable abbrev manyNode (n K : Nat) : Node (PopLang n 1 Bool (Bool × Bool) Measure.count lpU) :=
  vsmcNode 100 0 (annealMany n) Toy.annealIds (fun _ => .ok 0) none (systematic false false) K

theorem many_whole (n K : Nat) : Whole (manyNode n K) := by
  induction K with
  | zero => trivial
  | succ K ih =>
    simp only [manyNode, vsmcNode, Nat.not_lt_zero, if_false]
    exact ⟨⟨trivial, trivial⟩, trivial, ih⟩

theorem many_runs (n K : Nat) (r : Except Err (Out (PopLang n 1 Bool (Bool × Bool) Measure.count lpU))) (w')
    (hr : (eval (manyNode n K) .none {}).Runs { cond := fun _ => none, store := Store.init } r w') :
    ∃ o, r = .ok o ∧ ∀ s, o.logWeight.val s 0 ≤ K * (1 + 2 * Real.log 3) := by
  obtain ⟨nd, h1, h2⟩ := C30_vsmc 100 (annealMany n) Toy.annealIds ids_below (fun _ => .ok 0) (fun _ _ _ => ⟨_, rfl⟩) none (Or.inl rfl) K
  have e : vsmc 100 ((annealMany n).initial Toy.annealIds :: (List.range K).map ((annealMany n).target Toy.annealIds))
      ((List.range K).map ((annealMany n).forward Toy.annealIds)) ((List.range K).map ((annealMany n).reverse Toy.annealIds))
      (fun _ => .ok 0) none none = .ok (manyNode n K) := by
    simp only [vsmc]
    rw [zip3_range]
    exact vsmc_none_eq _ _ _ _ _ _ _ _
  rw [h1] at e
  cases e
  obtain ⟨F, hF, hF'⟩ := h2 .none {} { cond := fun _ => none, store := Store.init } (fun e he => by cases he) (fun _ => rfl)
  rw [Exec.Runs, hF, Comp.bind_Ret] at hr
  obtain ⟨z, -, hz⟩ := hr
  cases hz
  refine ⟨_, rfl, fun s => ?_⟩
  rw [(hF' z).1]
  clear hF hF' h1 h2 F
  have hw : ∀ k : Nat, (particleLane (μ := Measure.count) (lp := lpU) s (0 : Fin 1)).w ((annealMany n).weight z k) ≤ k * (1 + 2 * Real.log 3) := by
    intro k
    induction k with
    | zero => simp [AnnealModel.weight]
    | succ k ih =>
      rw [lane_weight _ ((many_vectorises n).sees s)]
      have := increment_le k ((particleLane (μ := Measure.count) (lp := lpU) s (0 : Fin 1)).v (z k)) ((particleLane (μ := Measure.count) (lp := lpU) s (0 : Fin 1)).v (z (k + 1)))
      push_cast
      linarith
  exact hw K

end Coin

/-- C75: the nest of the coins, K steps: the product of two particles' weights has the mean e². -/
example (n K : Nat) (s t : Fin n) (hst : s ≠ t) :
    expectT (eval (Coin.manyNode n (K + 1)) .none {} { cond := fun _ => none, store := Store.init })
      (onReturn fun o => ∏ p ∈ {(s, (0 : Fin 1)), (t, 0)}, weighted (Lo := ℝ) (fun _ _ => 1) o p) = ENNReal.ofReal (Real.exp 1) ^ 2 := by
  have := C75_independent (Lo := ℝ) (Coin.manyNode n (K + 1)) (Coin.annealSpec.node false true false (fun k => decide (k + 1 < 0)) (K + 1)) {(s, 0), (t, 0)} .none {}
    { cond := fun _ => none, store := Store.init } (vsmcNode_scoped 100 0 (Coin.annealMany n) Toy.annealIds Coin.ids_below _ none _ (K + 1)) (fun _ _ => rfl)
    (fun r w' hr => by obtain ⟨o, h, -⟩ := Coin.many_runs n (K + 1) r w' hr; exact ⟨o, h⟩) (Coin.many_whole n (K + 1))
    (fun p _ => by rw [Subsingleton.elim p.2 0]; exact vsmcNode_lane 100 0 (Coin.annealMany n) Coin.annealSpec 0 (Coin.many_vectorises n) Toy.annealIds _ none (Or.inl rfl) _ p.1 (K + 1))
    (fun p _ => node_fits _ Coin.spec_norm _ _ _ _ (K + 1) _ _) (node_meas _ Coin.spec_norm _ _ _ _ (K + 1)) (fun _ _ _ => 1) (fun _ => measFun_const 1)
  rw [this, Finset.prod_pair (by simpa using hst), sq]
  have h1 : ∀ c kw, target Measure.count (Coin.annealSpec.node (Lo := ℝ) (lp := Coin.lpU) false true false (fun k => decide (k + 1 < 0)) (K + 1)) false (fun _ => none) c kw
      (fun _ _ => 1) = ENNReal.ofReal (Real.exp 1) := by
    intro c kw
    rw [node_target]
    simp only [mul_one]
    exact Coin.evidence K
  rw [h1, h1]

/-- C75: the evidence estimate of the nest of the coins. -/
example (n K : Nat) [NeZero n] (ε : ℝ) (hε : 0 ≤ ε) :
    n * ENNReal.ofReal ε ^ 2 * expectT (eval (Coin.manyNode n (K + 1)) .none {} { cond := fun _ => none, store := Store.init })
        (onReturn fun o => indicate (ε ≤ |Real.exp (logZHat fun s => o.logWeight.val s 0) - Real.exp 1|)) + ENNReal.ofReal (Real.exp 1) ^ 2 ≤
      dens ((K + 1 : ℕ) * (1 + 2 * Real.log 3)) * ENNReal.ofReal (Real.exp 1) := by
  refine C75_log_Z_hat (Lo := ℝ) (Coin.manyNode n (K + 1)) (Coin.annealSpec.node false true false (fun k => decide (k + 1 < 0)) (K + 1)) 0 .none {}
    { cond := fun _ => none, store := Store.init } .none {} (vsmcNode_scoped 100 0 (Coin.annealMany n) Toy.annealIds Coin.ids_below _ none _ (K + 1)) (fun _ _ => rfl)
    (fun r w' hr => by obtain ⟨o, h, -⟩ := Coin.many_runs n (K + 1) r w' hr; exact ⟨o, h⟩) (Coin.many_whole n (K + 1))
    (fun s => vsmcNode_lane 100 0 (Coin.annealMany n) Coin.annealSpec 0 (Coin.many_vectorises n) Toy.annealIds _ none (Or.inl rfl) _ s (K + 1))
    (fun _ => rfl) (fun _ => rfl) (node_fits _ Coin.spec_norm _ _ _ _ (K + 1) _ _) (node_meas _ Coin.spec_norm _ _ _ _ (K + 1)) _
    (fun o w' hr s => ?_) (Real.exp 1) ε (Real.exp_pos 1).le hε ?_
  · obtain ⟨o', h, h'⟩ := Coin.many_runs n (K + 1) _ w' hr
    cases h
    exact h' s
  · rw [node_target]
    simp only [mul_one]
    exact Coin.evidence K

end Verif
