import Verif.Proofs.Independent
import Verif.Props.Evidence
/-
C75: without resampling the particles of a population are independent; how far estimates are from what they estimate.
-/
namespace Verif
open Spec MeasureTheory
open scoped ENNReal

section
variable {n b : Nat} {X D Lo : Type} [AddCommGroup Lo] [Nonempty X] [MeasurableSpace X] {μ : Measure X} [SFinite μ] {lp : D → X → ℝ}
local notation "ℙ" => PopLang n b X D μ lp
local notation "𝕃" => PLang X D Lo lp

/-- What the particle contributes to a weighted estimate: exp(log_weight) * h(trace, output). -/
noncomputable def Spec.weighted (h : Env X → PyVal 𝕃 → ℝ≥0∞) (o : Out ℙ) (p : Fin n × Fin b) : ℝ≥0∞ :=
  dens (o.logWeight.val p.1 p.2) * h (laneEnv (particleLane p.1 p.2) o.trace) (lanePy (particleLane p.1 p.2) o.output)

theorem pop_eval_eq (N : Node ℙ) (c : PyVal ℙ) (kw : Kw ℙ) (w : World ℙ) (hs : WellScoped false N) (hw : ∀ i ∈ objects N, w.cond i = none) :
    eval N c kw w = evalP N none c kw w := by
  have h0 : w.cond N.id = none := hw N.id (by simp [objects])
  have := C05_lexical N c kw w (by rw [h0]; exact hs) fun i hi => hw i (by simp [objects, hi])
  rwa [h0] at this

/-- C75. Particles are independent without resampling. `N` is vectorised for the particles in σ (pairs of sample and batch index), each of which behaves like `m` on its part
of the input. Then the expectation of a product over σ of the particles' weighted functions is the product of the integrals against what `m` targets. -/
theorem C75_independent (N : Node ℙ) (m : Node 𝕃) (σ : Finset (Fin n × Fin b)) (c : PyVal ℙ) (kw : Kw ℙ) (w : World ℙ)
    (hs : WellScoped false N) (hw : ∀ i ∈ objects N, w.cond i = none)
    (hok : ∀ r w', (eval N c kw).Runs w r w' → ∃ o, r = .ok o)
    (hN : Whole N) (hl : ∀ p ∈ σ, LaneNode (particleLane p.1 p.2) N m)
    (hf : ∀ p ∈ σ, Fits μ m (lanePy (particleLane p.1 p.2) c) (laneKw (particleLane p.1 p.2) kw))
    (hm : MeasNode m) (h : Fin n × Fin b → Env X → PyVal 𝕃 → ℝ≥0∞) (hh : ∀ p, MeasFun (h p)) :
    expectT (eval N c kw w) (onReturn fun o => ∏ p ∈ σ, weighted (h p) o p) =
      ∏ p ∈ σ, target μ m false (fun _ => none) (lanePy (particleLane p.1 p.2) c) (laneKw (particleLane p.1 p.2) kw) (h p) := by
  rcases σ.eq_empty_or_nonempty with rfl | hne
  · simp only [Finset.prod_empty]
    refine Eq.trans (expectT_congr _ _ _ ?_) (expectT_one (eval N c kw w))
    rintro ⟨r, w'⟩ hr
    obtain ⟨o, rfl⟩ := hok r w' hr
    rfl
  have he := pop_eval_eq N c kw w hs hw
  have : Nonempty (ℙ).V := inferInstanceAs (Nonempty (Fin n → Fin b → X))
  have : Nonempty σ := hne.to_subtype
  rw [he, ← Finset.prod_coe_sort σ]
  refine Eq.trans ?_ (whole_ev (w := w) (isLaw_prod (μ := μ) (lp := lp) σ) hm (fun p => hl p.1 p.2) hN
    (fun r w' hr => hok r w' (by rw [Exec.Runs, he]; exact hr)) (fun p => hf p.1 p.2) fun p => hh p.1)
  congr 1
  funext r
  rcases r with ⟨e | o, w'⟩
  · rfl
  · simp only [onReturn, onOk, laneAgg]
    rw [← Finset.prod_coe_sort σ]
    rfl

/-- C75. The second moment of a weighted sum over the particles of a batch element: that of the single particles, plus the square of the target's integral for
each pair of different particles. -/
theorem C75_second_moment [NeZero n] (N : Node ℙ) (m : Node 𝕃) (j : Fin b) (c : PyVal ℙ) (kw : Kw ℙ) (w : World ℙ) (c0 : PyVal 𝕃) (kw0 : Kw 𝕃)
    (hs : WellScoped false N) (hw : ∀ i ∈ objects N, w.cond i = none)
    (hok : ∀ r w', (eval N c kw).Runs w r w' → ∃ o, r = .ok o)
    (hN : Whole N) (hl : ∀ s, LaneNode (particleLane s j) N m)
    (hc : ∀ s, lanePy (particleLane s j) c = c0) (hkw : ∀ s, laneKw (particleLane s j) kw = kw0) (hf : Fits μ m c0 kw0)
    (hm : MeasNode m) {h : Env X → PyVal 𝕃 → ℝ≥0∞} (hh : MeasFun h) :
    expectT (eval N c kw w) (onReturn fun o => (∑ s, weighted h o (s, j)) ^ 2) =
      expectT (eval N c kw w) (onReturn fun o => ∑ s, weighted h o (s, j) ^ 2) +
        (n * (n - 1) : ℕ) * target μ m false (fun _ => none) c0 kw0 h ^ 2 := by
  have he := pop_eval_eq N c kw w hs hw
  have : Nonempty (ℙ).V := inferInstanceAs (Nonempty (Fin n → Fin b → X))
  let g : Except Err (Out ℙ) × World ℙ → ℝ≥0∞ := onReturn fun o => ∑ p ∈ (Finset.univ : Finset (Fin n)).offDiag, weighted h o (p.1, j) * weighted h o (p.2, j)
  have hT : ∑ p ∈ (Finset.univ : Finset (Fin n)).offDiag, target μ m false (fun _ => none) (lanePy (particleLane p.1 j) c) (laneKw (particleLane p.1 j) kw) h *
      target μ m false (fun _ => none) (lanePy (particleLane p.2 j) c) (laneKw (particleLane p.2 j) kw) h =
      (n * (n - 1) : ℕ) * target μ m false (fun _ => none) c0 kw0 h ^ 2 := by
    simp only [hc, hkw, Finset.sum_const, Finset.offDiag_card, Finset.card_univ, Fintype.card_fin, nsmul_eq_mul, sq]
    congr 2
    rw [Nat.mul_sub_one]
  have hno : NoErr (evalP N none c kw) w := fun r w' hr => hok r w' (by rw [Exec.Runs, he]; exact hr)
  have hf' : ∀ s, Fits μ m (lanePy (particleLane s j) c) (laneKw (particleLane s j) kw) := fun s => by rw [hc, hkw]; exact hf
  have e1 : expectT (eval N c kw w) g = (n * (n - 1) : ℕ) * target μ m false (fun _ => none) c0 kw0 h ^ 2 := by
    rw [← hT, he]
    refine Eq.trans ?_ (whole_ev (w := w) (isLaw_pairs (μ := μ) (lp := lp) j) hm hl hN hno hf' fun _ => hh)
    congr 1
  have e2 : expectTU (eval N c kw w) g = (n * (n - 1) : ℕ) * target μ m false (fun _ => none) c0 kw0 h ^ 2 := by
    rw [← hT, he]
    refine Eq.trans ?_ (whole_ev (w := w) (isLaw_pairsU (μ := μ) (lp := lp) j) hm hl hN hno hf' fun _ => hh)
    congr 1
  have e3 : (onReturn fun o : Out ℙ => (∑ s, weighted h o (s, j)) ^ 2) =
      fun r : Except Err (Out ℙ) × World ℙ => g r + onReturn (fun o => ∑ s, weighted h o (s, j) ^ 2) r := by
    funext r
    rcases r with ⟨e | o, w'⟩
    · simp [onReturn, g]
    · simp only [onReturn, g, sq, Finset.sum_mul_sum]
      rw [← Finset.sum_product', ← Finset.diag_union_offDiag, Finset.sum_union (Finset.disjoint_diag_offDiag _), add_comm, Finset.sum_diag]
  rw [e3]
  refine le_antisymm ?_ ?_
  · refine (expectT_add_upper _ _ _).trans ?_
    rw [e2, add_comm]
  · rw [← e1, add_comm]
    exact expectT_add_le _ _ _

theorem expectT_add_const {α : Type} (m : Comp ℙ α) (g : α → ℝ≥0∞) (x : ℝ≥0∞) : expectT m (fun a => g a + x) = expectT m g + x := by
  induction m with
  | ret a => rfl
  | draw d b k ih =>
    have h1 : ∀ s j, IsProbabilityMeasure (μ.withDensity fun x => dens (lp (d s j).1 x)) := fun s j => normalised_prob (d s j).2
    refine (lintegral_congr ih).trans ?_
    refine (lintegral_add_right _ measurable_const).trans (congrArg (_ + ·) ?_)
    exact (lintegral_const x).trans ((congrArg (x * ·) (measure_univ (μ := Measure.pi fun s => Measure.pi fun j => μ.withDensity fun y => dens (lp (d s j).1 y)))).trans (mul_one x))
  | rand k ih =>
    have := unit_prob
    refine (lintegral_congr ih).trans ?_
    refine (lintegral_add_right _ measurable_const).trans (congrArg (_ + ·) ?_)
    exact (lintegral_const x).trans ((congrArg (x * ·) (measure_univ (μ := Measure.pi fun _ => Measure.comap Subtype.val volume))).trans (mul_one x))

theorem sq_dev (x T ε : ℝ≥0∞) (hT : T ≠ ⊤) (h : ε ≤ x - T ∨ ε ≤ T - x) : ε ^ 2 + 2 * T * x ≤ x ^ 2 + T ^ 2 := by
  rcases eq_or_ne x ⊤ with rfl | hx
  · simp
  have hε : ε ≠ ⊤ := by
    rcases h with h | h
    · exact ne_top_of_le_ne_top (ENNReal.sub_ne_top hx) h
    · exact ne_top_of_le_ne_top (ENNReal.sub_ne_top hT) h
  lift x to NNReal using hx
  lift T to NNReal using hT
  lift ε to NNReal using hε
  norm_cast at h ⊢
  rcases h with h | h
  · rcases le_total x T with h' | h'
    · rw [tsub_eq_zero_of_le h'] at h
      have : ε = 0 := le_antisymm h zero_le
      subst this
      rw [← NNReal.coe_le_coe]
      push_cast
      nlinarith [sq_nonneg ((x : ℝ) - T)]
    · rw [le_tsub_iff_right h'] at h
      rw [← NNReal.coe_le_coe] at h ⊢
      push_cast at h ⊢
      nlinarith [ε.2, x.2, T.2, NNReal.coe_nonneg ε, NNReal.coe_nonneg x]
  · rcases le_total T x with h' | h'
    · rw [tsub_eq_zero_of_le h'] at h
      have : ε = 0 := le_antisymm h zero_le
      subst this
      rw [← NNReal.coe_le_coe]
      push_cast
      nlinarith [sq_nonneg ((x : ℝ) - T)]
    · rw [le_tsub_iff_right h'] at h
      rw [← NNReal.coe_le_coe] at h ⊢
      push_cast at h ⊢
      nlinarith [NNReal.coe_nonneg ε, NNReal.coe_nonneg x]

theorem cancel_moments (n : ℕ) [NeZero n] (P V T ε : ℝ≥0∞) (hP1 : P ≤ 1) (hTt : T ≠ ⊤) (hε : ε ≠ ⊤)
    (e4 : (n * ε) ^ 2 * P + 2 * (n * T) * (n * T) ≤ n * V + (n * (n - 1) : ℕ) * T ^ 2 + (n * T) ^ 2) : n * ε ^ 2 * P + T ^ 2 ≤ V := by
  rcases eq_or_ne V ⊤ with rfl | hVt
  · exact le_top
  have hPt : P ≠ ⊤ := ne_top_of_le_ne_top ENNReal.one_ne_top hP1
  lift P to NNReal using hPt
  lift V to NNReal using hVt
  lift T to NNReal using hTt
  lift ε to NNReal using hε
  obtain ⟨k, hk⟩ : ∃ k, n = k + 1 := ⟨n - 1, by have := NeZero.pos n; omega⟩
  subst hk
  rw [Nat.add_sub_cancel] at e4
  norm_cast at e4 ⊢
  rw [← NNReal.coe_le_coe] at e4 ⊢
  push_cast at e4 ⊢
  have hk0 : (0 : ℝ) < k + 1 := by positivity
  refine le_of_mul_le_mul_left ?_ hk0
  nlinarith

/-- A deviation bound from the first two moments. -/
theorem deviation_of_moments {α : Type} (k : ℕ) [NeZero k] (m : Comp ℙ α) (A : α → ℝ≥0∞) (T V ε : ℝ≥0∞) (hTt : T ≠ ⊤) (hε : ε ≠ ⊤)
    (e1 : expectT m A = k * T) (e2 : expectT m (fun a => A a ^ 2) ≤ k * V + (k * (k - 1) : ℕ) * T ^ 2) :
    k * ε ^ 2 * expectT m (fun a => indicate (ε ≤ A a / k - T ∨ ε ≤ T - A a / k)) + T ^ 2 ≤ V := by
  have hn0 : (k : ℝ≥0∞) ≠ 0 := by exact_mod_cast NeZero.ne k
  have hnt : (k : ℝ≥0∞) ≠ ⊤ := ENNReal.natCast_ne_top k
  set P := expectT m (fun a => indicate (ε ≤ A a / k - T ∨ ε ≤ T - A a / k)) with hP
  have hP1 : P ≤ 1 := by
    refine le_trans (expectT_mono _ ?_) (expectT_one m).le
    intro a _
    simp only [indicate]
    split
    · exact le_rfl
    · exact zero_le
  have e3 : (k * ε) ^ 2 * P + 2 * (k * T) * (k * T) ≤ expectT m (fun a => A a ^ 2) + (k * T) ^ 2 := by
    have a1 : (k * ε) ^ 2 * P = expectT m fun a => (k * ε) ^ 2 * indicate (ε ≤ A a / k - T ∨ ε ≤ T - A a / k) :=
      (expectT_mul _ _ (ENNReal.pow_ne_top (ENNReal.mul_ne_top hnt hε)) _).symm
    have a2 : 2 * (k * T) * (k * T) = expectT m fun a => 2 * (k * T) * A a := by
      rw [expectT_mul _ _ (ENNReal.mul_ne_top (by simp) (ENNReal.mul_ne_top hnt hTt)), e1]
    rw [a1, a2]
    refine (expectT_add_le _ _ _).trans ?_
    rw [← expectT_add_const]
    refine expectT_mono _ ?_
    intro a _
    simp only [indicate]
    have hscale : ∀ x y : ℝ≥0∞, ε ≤ x - y → k * ε ≤ k * x - k * y := by
      intro x y hxy
      rw [← ENNReal.mul_sub fun _ _ => hnt]
      exact mul_le_mul_right hxy _
    have hmul : (k : ℝ≥0∞) * (A a / k) = A a := ENNReal.mul_div_cancel hn0 hnt
    split
    · rename_i hd
      rw [mul_one]
      refine sq_dev _ _ _ (ENNReal.mul_ne_top hnt hTt) ?_
      rcases hd with hd | hd
      · have := hscale _ _ hd
        rw [hmul] at this
        exact Or.inl this
      · have := hscale _ _ hd
        rw [hmul] at this
        exact Or.inr this
    · have := sq_dev (A a) (k * T) 0 (ENNReal.mul_ne_top hnt hTt) (Or.inl zero_le)
      simpa using this
  exact cancel_moments k P V T ε hP1 hTt hε (e3.trans (add_le_add_left e2 _))

/-- C75. The mean over the particles of a batch element differs from the target's integral T by ε or more with probability at most (V - T²) / (n ε²), where V bounds the particles'
mean second moment (the subtractions are truncated: what is asked for is a distance of at least ε). -/
theorem C75_deviation [NeZero n] (N : Node ℙ) (m : Node 𝕃) (j : Fin b) (c : PyVal ℙ) (kw : Kw ℙ) (w : World ℙ) (c0 : PyVal 𝕃) (kw0 : Kw 𝕃)
    (hs : WellScoped false N) (hw : ∀ i ∈ objects N, w.cond i = none)
    (hok : ∀ r w', (eval N c kw).Runs w r w' → ∃ o, r = .ok o)
    (hN : Whole N) (hl : ∀ s, LaneNode (particleLane s j) N m)
    (hc : ∀ s, lanePy (particleLane s j) c = c0) (hkw : ∀ s, laneKw (particleLane s j) kw = kw0) (hf : Fits μ m c0 kw0)
    (hm : MeasNode m) {h : Env X → PyVal 𝕃 → ℝ≥0∞} (hh : MeasFun h) (T V ε : ℝ≥0∞) (hT : target μ m false (fun _ => none) c0 kw0 h = T) (hTt : T ≠ ⊤)
    (hε : ε ≠ ⊤) (hV : expectT (eval N c kw w) (onReturn fun o => ∑ s, weighted h o (s, j) ^ 2) ≤ n * V) :
    n * ε ^ 2 * expectT (eval N c kw w) (onReturn fun o => indicate (ε ≤ (∑ s, weighted h o (s, j)) / n - T ∨ ε ≤ T - (∑ s, weighted h o (s, j)) / n)) + T ^ 2 ≤ V := by
  have he := pop_eval_eq N c kw w hs hw
  have : Nonempty (ℙ).V := inferInstanceAs (Nonempty (Fin n → Fin b → X))
  have e1 : expectT (eval N c kw w) (onReturn fun o => ∑ s, weighted h o (s, j)) = n * T := by
    rw [he, ← hT]
    refine Eq.trans ?_ ((whole_ev (w := w) (isLaw_expectT (μ := μ) (lp := lp) (n := n) j) hm hl hN
      (fun r w' hr => hok r w' (by rw [Exec.Runs, he]; exact hr)) (fun s => by rw [hc, hkw]; exact hf) fun _ => hh).trans ?_)
    · congr 1
    · simp only [hc, hkw, Finset.sum_const, Finset.card_univ, Fintype.card_fin, nsmul_eq_mul]
  have e2 := C75_second_moment N m j c kw w c0 kw0 hs hw hok hN hl hc hkw hf hm hh
  rw [hT] at e2
  have e3 : expectT (eval N c kw w) (fun r => onReturn (fun o => ∑ s, weighted h o (s, j)) r ^ 2) ≤ n * V + (n * (n - 1) : ℕ) * T ^ 2 := by
    refine le_trans (le_of_eq ?_) (e2.le.trans (add_le_add_left hV _))
    refine expectT_congr _ _ _ ?_
    rintro ⟨r, w'⟩ hr
    obtain ⟨o, rfl⟩ := hok r w' hr
    rfl
  refine le_trans (le_of_eq ?_) (deviation_of_moments n (eval N c kw w) (onReturn fun o => ∑ s, weighted h o (s, j)) T V ε hTt hε e1 e3)
  refine congrArg (fun x => n * ε ^ 2 * x + T ^ 2) (expectT_congr _ _ _ ?_)
  rintro ⟨r, w'⟩ hr
  obtain ⟨o, rfl⟩ := hok r w' hr
  rfl

/-- C75. If no particle's log weight exceeds log B, the second moment is at most B times the integral of h². -/
theorem C75_bounded [NeZero n] (N : Node ℙ) (m : Node 𝕃) (j : Fin b) (c : PyVal ℙ) (kw : Kw ℙ) (w : World ℙ) (c0 : PyVal 𝕃) (kw0 : Kw 𝕃)
    (hs : WellScoped false N) (hw : ∀ i ∈ objects N, w.cond i = none)
    (hok : ∀ r w', (eval N c kw).Runs w r w' → ∃ o, r = .ok o)
    (hN : Whole N) (hl : ∀ s, LaneNode (particleLane s j) N m)
    (hc : ∀ s, lanePy (particleLane s j) c = c0) (hkw : ∀ s, laneKw (particleLane s j) kw = kw0) (hf : Fits μ m c0 kw0)
    (hm : MeasNode m) {h : Env X → PyVal 𝕃 → ℝ≥0∞} (hh : MeasFun h) (hh2 : MeasFun fun e v => h e v ^ 2) (logB : ℝ)
    (hB : ∀ o w', (eval N c kw).Runs w (.ok o) w' → ∀ s, o.logWeight.val s j ≤ logB)
    (T ε : ℝ≥0∞) (hT : target μ m false (fun _ => none) c0 kw0 h = T) (hTt : T ≠ ⊤) (hε : ε ≠ ⊤) :
    n * ε ^ 2 * expectT (eval N c kw w) (onReturn fun o => indicate (ε ≤ (∑ s, weighted h o (s, j)) / n - T ∨ ε ≤ T - (∑ s, weighted h o (s, j)) / n)) + T ^ 2 ≤
      dens logB * target μ m false (fun _ => none) c0 kw0 fun e v => h e v ^ 2 := by
  refine C75_deviation N m j c kw w c0 kw0 hs hw hok hN hl hc hkw hf hm hh T _ ε hT hTt hε ?_
  have he := pop_eval_eq N c kw w hs hw
  have : Nonempty (ℙ).V := inferInstanceAs (Nonempty (Fin n → Fin b → X))
  have e1 : expectT (eval N c kw w) (onReturn fun o => ∑ s, weighted (fun e v => h e v ^ 2) o (s, j)) =
      n * target μ m false (fun _ => none) c0 kw0 fun e v => h e v ^ 2 := by
    rw [he]
    refine Eq.trans ?_ ((whole_ev (w := w) (isLaw_expectT (μ := μ) (lp := lp) (n := n) j) hm hl hN
      (fun r w' hr => hok r w' (by rw [Exec.Runs, he]; exact hr)) (fun s => by rw [hc, hkw]; exact hf) fun _ => hh2).trans ?_)
    · congr 1
    · simp only [hc, hkw, Finset.sum_const, Finset.card_univ, Fintype.card_fin, nsmul_eq_mul]
  rw [← mul_assoc, mul_comm (n : ℝ≥0∞), mul_assoc, ← e1, ← expectT_mul _ _ (by simp [dens])]
  refine expectT_mono _ ?_
  rintro ⟨r, w'⟩ hr
  obtain ⟨o, rfl⟩ := hok r w' hr
  simp only [onReturn]
  rw [Finset.mul_sum]
  refine Finset.sum_le_sum fun s _ => ?_
  simp only [weighted]
  rw [mul_pow, sq (dens _), mul_assoc]
  exact mul_le_mul_left (ENNReal.ofReal_le_ofReal (Real.exp_le_exp.2 (hB o w' hr s))) _

theorem distance_iff {x Z ε : ℝ} (hx : 0 ≤ x) (hZ : 0 ≤ Z) (hε : 0 ≤ ε) : ε ≤ |x - Z| ↔
    (ENNReal.ofReal ε ≤ ENNReal.ofReal x - ENNReal.ofReal Z ∨ ENNReal.ofReal ε ≤ ENNReal.ofReal Z - ENNReal.ofReal x) := by
  rw [← ENNReal.ofReal_sub _ hZ, ← ENNReal.ofReal_sub _ hx, le_abs]
  refine ⟨fun h => ?_, fun h => ?_⟩
  · rcases h with h | h
    · exact Or.inl (ENNReal.ofReal_le_ofReal h)
    · exact Or.inr (ENNReal.ofReal_le_ofReal (by linarith))
  · rcases eq_or_lt_of_le hε with rfl | hε'
    · rcases le_total 0 (x - Z) with h | h
      · exact Or.inl h
      · exact Or.inr (by linarith)
    · rcases h with h | h
      · rw [ENNReal.ofReal_le_ofReal_iff'] at h
        rcases h with h | h
        · exact Or.inl h
        · linarith
      · rw [ENNReal.ofReal_le_ofReal_iff'] at h
        rcases h with h | h
        · exact Or.inr (by linarith)
        · linarith

/-- C75. exp(log_Z_hat) of a batch element, when no log weight exceeds log B: it differs from the target's normalising constant Z by ε or more with probability at
most (B Z - Z²) / (n ε²). -/
theorem C75_log_Z_hat [NeZero n] (N : Node ℙ) (m : Node 𝕃) (j : Fin b) (c : PyVal ℙ) (kw : Kw ℙ) (w : World ℙ) (c0 : PyVal 𝕃) (kw0 : Kw 𝕃)
    (hs : WellScoped false N) (hw : ∀ i ∈ objects N, w.cond i = none)
    (hok : ∀ r w', (eval N c kw).Runs w r w' → ∃ o, r = .ok o)
    (hN : Whole N) (hl : ∀ s, LaneNode (particleLane s j) N m)
    (hc : ∀ s, lanePy (particleLane s j) c = c0) (hkw : ∀ s, laneKw (particleLane s j) kw = kw0) (hf : Fits μ m c0 kw0)
    (hm : MeasNode m) (logB : ℝ) (hB : ∀ o w', (eval N c kw).Runs w (.ok o) w' → ∀ s, o.logWeight.val s j ≤ logB)
    (Z ε : ℝ) (hZ : 0 ≤ Z) (hε : 0 ≤ ε) (hT : target μ m false (fun _ => none) c0 kw0 (fun _ _ => 1) = ENNReal.ofReal Z) :
    n * ENNReal.ofReal ε ^ 2 * expectT (eval N c kw w) (onReturn fun o => indicate (ε ≤ |Real.exp (logZHat fun s => o.logWeight.val s j) - Z|)) +
      ENNReal.ofReal Z ^ 2 ≤ dens logB * ENNReal.ofReal Z := by
  have h1 := C75_bounded N m j c kw w c0 kw0 hs hw hok hN hl hc hkw hf hm (measFun_const 1) (by simpa using measFun_const 1) logB hB
    (ENNReal.ofReal Z) (ENNReal.ofReal ε) hT ENNReal.ofReal_ne_top ENNReal.ofReal_ne_top
  simp only [one_pow, hT] at h1
  refine le_trans (le_of_eq ?_) h1
  congr 3
  funext r
  rcases r with ⟨e | o, w'⟩
  · rfl
  · have hn : (0 : ℝ) < n := by exact_mod_cast NeZero.pos n
    have e1 : (∑ s, weighted (Lo := Lo) (fun _ _ => 1) o (s, j)) / n = ENNReal.ofReal (Real.exp (logZHat fun s => o.logWeight.val s j)) := by
      simp only [weighted, mul_one]
      rw [logZHat, Real.exp_log (zHat_pos _), zHat, ENNReal.ofReal_div_of_pos hn, ENNReal.ofReal_sum_of_nonneg fun _ _ => (Real.exp_pos _).le,
        ENNReal.ofReal_natCast]
      rfl
    have hp := Real.exp_pos (logZHat fun s => o.logWeight.val s j)
    simp only [onReturn]
    rw [e1]
    generalize Real.exp (logZHat fun s => o.logWeight.val s j) = x at hp
    rw [distance_iff hp.le hZ hε]

end
end Verif
