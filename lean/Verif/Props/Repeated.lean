import Verif.Proofs.Repeated
import Verif.Props.Independent
import Verif.Props.Population
/-
C94: calls of combinators one after the other are independent; averages over calls.
-/
namespace Verif
open Verif.Spec MeasureTheory
open scoped ENNReal

section
variable {L : Lang}

/-- C94. A call of a nest whose programs leave the global store alone does not depend on anything that happened before (as long as no object of the nest is being
conditioned), and leaves nothing behind: what it does is a function of the draws alone, the same in every such world, and after it the world is what it was. -/
theorem C94_stateless (C : Call L) (h : Reusable C) :
    ∃ m : Comp L (Except Err (Out L)), ∀ w, Clean C w → eval C.node C.c C.kw w = m.bind fun r => .ret (r, w) := by
  obtain ⟨m, hm⟩ := stateless_evalP C.node h.storeless none C.c C.kw
  refine ⟨m, fun w hw => ?_⟩
  rw [← hm w hw.store]
  have h0 : w.cond C.node.id = none := hw.cond _ (by simp [objects])
  have := C05_lexical C.node C.c C.kw w (by rw [h0]; exact h.lexical) fun i hi => hw.cond i (by simp [objects, hi])
  rwa [h0] at this

end

section
variable {n b : ℕ} {X D : Type} [MeasurableSpace X] {μ : Measure X} {lp : D → X → ℝ}
local notation "ℙ" => PopLang n b X D μ lp

/-- C94. Calls one after the other are independent: the expectation of a product of functions of the single results is the product of the expectations. -/
theorem C94_independent (cs : List (Call ℙ)) (gs : List (Out ℙ → ℝ≥0∞)) (hl : cs.length = gs.length) (w : World ℙ)
    (hc : ∀ C ∈ cs, Reusable C) (hw : ∀ C ∈ cs, Clean C w) (hg : ∀ g ∈ gs, ∀ o, g o ≠ ⊤)
    (hE : ∀ C ∈ cs, ∀ g ∈ gs, expectT (eval C.node C.c C.kw w) (onReturn g) ≠ ⊤) :
    expectT (callAll cs w) (onReturn (productOf gs)) =
      (List.zipWith (fun C g => expectT (eval C.node C.c C.kw w) (onReturn g)) cs gs).prod := by
  induction cs generalizing gs with
  | nil =>
    rcases gs with _ | ⟨g, gs⟩
    · rfl
    · simp at hl
  | cons C cs ih =>
    rcases gs with _ | ⟨g, gs⟩
    · simp at hl
    have ih' := ih gs (by simpa using hl) (fun C h => hc C (by simp [h])) (fun C h => hw C (by simp [h])) (fun g h => hg g (by simp [h]))
      fun C h g h' => hE C (by simp [h]) g (by simp [h'])
    obtain ⟨m, hm⟩ := C94_stateless C (hc C (by simp))
    have hP : expectT (callAll cs w) (onReturn (productOf gs)) ≠ ⊤ := by
      rw [ih']
      refine List.prod_induction (fun x => x ≠ ⊤) (fun x y hx hy => ENNReal.mul_ne_top hx hy) ENNReal.one_ne_top fun x hx => ?_
      obtain ⟨i, h1, rfl⟩ := List.mem_iff_getElem.mp hx
      rw [List.getElem_zipWith]
      exact hE _ (by simp) _ (by simp)
    simp only [callAll, Exec.bind, hm w (hw C (by simp)), Comp.bind_assoc, Comp.bind_ret, List.zipWith_cons_cons, List.prod_cons]
    rw [← ih', expectT_bind, expectT_bind, mul_comm, ← expectT_mul _ _ hP]
    refine expectT_congr _ _ _ ?_
    rintro (e | o) -
    · simp [expectT, onReturn]
    · simp only [expectT, onReturn]
      rw [expectT_bind, mul_comm, ← expectT_mul _ _ (hg g (by simp) o)]
      refine expectT_congr _ _ _ ?_
      rintro ⟨e | os, w'⟩ -
      · simp [expectT, onReturn]
      · simp [expectT, onReturn, Exec.pure, productOf]

theorem expectT_linear {α : Type} (m : Comp ℙ α) (f g : α → ℝ≥0∞) (hf : MeasComp m f) (β : ℝ≥0∞) :
    expectT m (fun a => β * f a + g a) = β * expectT m f + expectT m g := by
  induction m with
  | ret a => rfl
  | draw d r k ih =>
    refine (lintegral_congr fun v => ih v (hf.2 v)).trans ?_
    exact (lintegral_add_left (hf.1.const_mul β) _).trans (congrArg (· + _) (lintegral_const_mul β hf.1))
  | rand k ih =>
    refine (lintegral_congr fun v => ih v (hf.2 v)).trans ?_
    exact (lintegral_add_left (hf.1.const_mul β) _).trans (congrArg (· + _) (lintegral_const_mul β hf.1))

/-- What the loop needs of one call. -/
theorem call_ret (C : Call ℙ) (h : Reusable C) (w : World ℙ) (hw : Clean C w) (hok : ∀ r w', (eval C.node C.c C.kw).Runs w r w' → ∃ o, r = .ok o)
    (r : Except Err (Out ℙ)) (w' : World ℙ) (hr : (eval C.node C.c C.kw w).Ret (r, w')) : ∃ o, r = .ok o ∧ w' = w := by
  obtain ⟨o, rfl⟩ := hok r w' hr
  obtain ⟨m, hm⟩ := C94_stateless C h
  rw [hm w hw, Comp.bind_Ret] at hr
  obtain ⟨r', _, h'⟩ := hr
  exact ⟨o, rfl, by cases h'; rfl⟩

theorem expectT_callAll (C : Call ℙ) (h : Reusable C) (w : World ℙ) (hw : Clean C w) (hok : ∀ r w', (eval C.node C.c C.kw).Runs w r w' → ∃ o, r = .ok o)
    (k : ℕ) (g : List (Out ℙ) → ℝ≥0∞) : expectT (callAll (List.replicate (k + 1) C) w) (onReturn g) =
      expectT (eval C.node C.c C.kw w) (onReturn fun o => expectT (callAll (List.replicate k C) w) (onReturn fun os => g (o :: os))) := by
  simp only [List.replicate_succ, callAll, Exec.bind]
  rw [expectT_bind]
  refine expectT_congr _ _ _ ?_
  rintro ⟨r, w'⟩ hr
  obtain ⟨o, rfl, rfl⟩ := call_ret C h w hw hok r w' hr
  simp only [onReturn]
  rw [expectT_bind]
  refine expectT_congr _ _ _ ?_
  rintro ⟨e | os, w'⟩ - <;> rfl

theorem callAll_ok (C : Call ℙ) (h : Reusable C) (w : World ℙ) (hw : Clean C w) (hok : ∀ r w', (eval C.node C.c C.kw).Runs w r w' → ∃ o, r = .ok o)
    (k : ℕ) (r : Except Err (List (Out ℙ))) (w' : World ℙ) (hr : (callAll (List.replicate k C) w).Ret (r, w')) : ∃ os, r = .ok os ∧ w' = w ∧ os.length = k := by
  induction k generalizing r w' with
  | zero => cases hr; exact ⟨[], rfl, rfl, rfl⟩
  | succ k ih =>
    simp only [List.replicate_succ, callAll, Exec.bind] at hr
    rw [Comp.bind_Ret] at hr
    obtain ⟨⟨r1, w1⟩, h1, h2⟩ := hr
    obtain ⟨o, rfl, rfl⟩ := call_ret C h w hw hok r1 w1 h1
    simp only at h2
    rw [Comp.bind_Ret] at h2
    obtain ⟨⟨r2, w2⟩, h3, h4⟩ := h2
    obtain ⟨os, rfl, rfl, h5⟩ := ih r2 w2 h3
    cases h4
    exact ⟨o :: os, rfl, rfl, by simp [h5]⟩

variable [Nonempty X] [SFinite μ]

theorem sum_calls (C : Call ℙ) (h : Reusable C) (w : World ℙ) (hw : Clean C w) (hok : ∀ r w', (eval C.node C.c C.kw).Runs w r w' → ∃ o, r = .ok o)
    (f : Out ℙ → ℝ≥0∞) (k : ℕ) (x : ℝ≥0∞) : expectT (callAll (List.replicate k C) w) (onReturn fun os => x + (os.map f).sum) =
      x + k * expectT (eval C.node C.c C.kw w) (onReturn f) := by
  induction k generalizing x with
  | zero => simp [callAll, Exec.pure, expectT, onReturn]
  | succ k ih =>
    rw [expectT_callAll C h w hw hok]
    simp only [List.map_cons, List.sum_cons, ← add_assoc]
    simp only [ih]
    rw [show x + (k + 1 : ℕ) * expectT (eval C.node C.c C.kw w) (onReturn f) =
      expectT (eval C.node C.c C.kw w) (onReturn f) + (x + k * expectT (eval C.node C.c C.kw w) (onReturn f)) by push_cast; ring, ← expectT_add_const]
    refine expectT_congr _ _ _ ?_
    rintro ⟨r, w'⟩ hr
    obtain ⟨o, rfl, rfl⟩ := call_ret C h w hw hok r w' hr
    simp only [onReturn]
    ring

/-- C94. The average over k calls has the expectation of one call. -/
theorem C94_average (C : Call ℙ) (h : Reusable C) (w : World ℙ) (hw : Clean C w) (hok : ∀ r w', (eval C.node C.c C.kw).Runs w r w' → ∃ o, r = .ok o)
    (f : Out ℙ → ℝ≥0∞) (k : ℕ) (hk : 0 < k) :
    expectT (callAll (List.replicate k C) w) (onReturn fun os => (os.map f).sum / k) = expectT (eval C.node C.c C.kw w) (onReturn f) := by
  have hk0 : (k : ℝ≥0∞) ≠ 0 := by exact_mod_cast hk.ne'
  have h1 := sum_calls C h w hw hok f k 0
  simp only [zero_add] at h1
  have h2 : expectT (callAll (List.replicate k C) w) (onReturn fun os => (os.map f).sum / k) =
      expectT (callAll (List.replicate k C) w) fun r => (k : ℝ≥0∞)⁻¹ * onReturn (fun os => (os.map f).sum) r := by
    refine expectT_congr _ _ _ ?_
    rintro ⟨e | os, w'⟩ -
    · simp [onReturn]
    · simp [onReturn, div_eq_mul_inv, mul_comm]
  rw [h2, expectT_mul _ _ (ENNReal.inv_ne_top.mpr hk0), h1, ← mul_assoc, ENNReal.inv_mul_cancel hk0 (ENNReal.natCast_ne_top k), one_mul]

theorem sum_calls_sq (C : Call ℙ) (h : Reusable C) (w : World ℙ) (hw : Clean C w) (hok : ∀ r w', (eval C.node C.c C.kw).Runs w r w' → ∃ o, r = .ok o)
    (f : Out ℙ → ℝ≥0∞) (hf : MeasComp (eval C.node C.c C.kw w) (onReturn f)) (T V : ℝ≥0∞) (hT : expectT (eval C.node C.c C.kw w) (onReturn f) = T)
    (hV : expectT (eval C.node C.c C.kw w) (onReturn fun o => f o ^ 2) = V) (k : ℕ) (x : ℝ≥0∞) :
    expectT (callAll (List.replicate k C) w) (onReturn fun os => (x + (os.map f).sum) ^ 2) = x ^ 2 + 2 * x * k * T + k * V + (k * (k - 1) : ℕ) * T ^ 2 := by
  induction k generalizing x with
  | zero => simp [callAll, Exec.pure, expectT, onReturn]
  | succ k ih =>
    rw [expectT_callAll C h w hw hok]
    simp only [List.map_cons, List.sum_cons, ← add_assoc]
    simp only [ih]
    have h1 := expectT_linear (eval C.node C.c C.kw w) (onReturn f) (onReturn fun o => f o ^ 2) hf (2 * x + 2 * k * T)
    have h2 : expectT (eval C.node C.c C.kw w) (onReturn fun o => (x + f o) ^ 2 + 2 * (x + f o) * k * T + k * V + (k * (k - 1) : ℕ) * T ^ 2) =
        expectT (eval C.node C.c C.kw w) (fun r => ((2 * x + 2 * k * T) * onReturn f r + onReturn (fun o => f o ^ 2) r) +
          (x ^ 2 + 2 * x * k * T + k * V + (k * (k - 1) : ℕ) * T ^ 2)) := by
      refine expectT_congr _ _ _ ?_
      rintro ⟨r, w'⟩ hr
      obtain ⟨o, rfl, rfl⟩ := call_ret C h w hw hok r w' hr
      simp only [onReturn]
      ring
    rw [h2, expectT_add_const, h1, hT, hV]
    have h3 : (((k + 1) * (k + 1 - 1) : ℕ) : ℝ≥0∞) = (k * (k - 1) : ℕ) + 2 * k := by
      have : (k + 1) * (k + 1 - 1) = k * (k - 1) + 2 * k := by
        rcases k with _ | k
        · rfl
        · simp only [Nat.add_sub_cancel]; ring
      rw [this]
      push_cast
      ring
    rw [h3]
    push_cast
    ring

/-- C94. The second moment of the sum over k calls. -/
theorem C94_second_moment (C : Call ℙ) (h : Reusable C) (w : World ℙ) (hw : Clean C w) (hok : ∀ r w', (eval C.node C.c C.kw).Runs w r w' → ∃ o, r = .ok o)
    (f : Out ℙ → ℝ≥0∞) (hf : MeasComp (eval C.node C.c C.kw w) (onReturn f)) (k : ℕ) :
    expectT (callAll (List.replicate k C) w) (onReturn fun os => (os.map f).sum ^ 2) =
      k * expectT (eval C.node C.c C.kw w) (onReturn fun o => f o ^ 2) + (k * (k - 1) : ℕ) * expectT (eval C.node C.c C.kw w) (onReturn f) ^ 2 := by
  have := sum_calls_sq C h w hw hok f hf _ _ rfl rfl k 0
  simpa using this

/-- C94. The average over k calls differs from what one call is expected to give, T, by ε or more with probability at most (V - T²) / (k ε²), where V is the second moment
of one call. -/
theorem C94_deviation (C : Call ℙ) (h : Reusable C) (w : World ℙ) (hw : Clean C w) (hok : ∀ r w', (eval C.node C.c C.kw).Runs w r w' → ∃ o, r = .ok o)
    (f : Out ℙ → ℝ≥0∞) (hf : MeasComp (eval C.node C.c C.kw w) (onReturn f)) (k : ℕ) (hk : 0 < k) (T ε : ℝ≥0∞)
    (hT : expectT (eval C.node C.c C.kw w) (onReturn f) = T) (hTt : T ≠ ⊤) (hε : ε ≠ ⊤) :
    k * ε ^ 2 * expectT (callAll (List.replicate k C) w) (onReturn fun os => indicate (ε ≤ (os.map f).sum / k - T ∨ ε ≤ T - (os.map f).sum / k)) + T ^ 2 ≤
      expectT (eval C.node C.c C.kw w) (onReturn fun o => f o ^ 2) := by
  have : NeZero k := ⟨hk.ne'⟩
  have h1 := sum_calls C h w hw hok f k 0
  simp only [zero_add, hT] at h1
  have h2 := C94_second_moment C h w hw hok f hf k
  rw [hT] at h2
  refine le_trans (le_of_eq ?_) (deviation_of_moments k (callAll (List.replicate k C) w) (onReturn fun os => (os.map f).sum) T _ ε hTt hε h1 (le_of_eq (Eq.trans ?_ h2)))
  · refine congrArg (fun x => k * ε ^ 2 * x + T ^ 2) (expectT_congr _ _ _ ?_)
    rintro ⟨r, w'⟩ hr
    obtain ⟨o, rfl, rfl, -⟩ := callAll_ok C h w hw hok k r w' hr
    rfl
  · refine expectT_congr _ _ _ ?_
    rintro ⟨r, w'⟩ hr
    obtain ⟨o, rfl, rfl, -⟩ := callAll_ok C h w hw hok k r w' hr
    rfl

/-- C94. If exp(x) is an unbiased estimate of Z, the probability that all of k calls overestimate log Z by a or more is at most exp(-a k). -/
theorem C94_all_overestimate (C : Call ℙ) (h : Reusable C) (w : World ℙ) (hw : Clean C w) (hok : ∀ r w', (eval C.node C.c C.kw).Runs w r w' → ∃ o, r = .ok o)
    (x : Out ℙ → ℝ) (logZ a : ℝ) (hZ : expectT (eval C.node C.c C.kw w) (onReturn fun o => dens (x o)) = dens logZ) (k : ℕ) :
    expectT (callAll (List.replicate k C) w) (onReturn fun os => indicate (∀ o ∈ os, logZ + a ≤ x o)) ≤ dens (-(k * a)) := by
  induction k with
  | zero =>
    simp [callAll, Exec.pure, expectT, onReturn, indicate, dens]
  | succ k ih =>
    rw [expectT_callAll C h w hw hok]
    have h1 := expectT_markov (eval C.node C.c C.kw w) x logZ a hZ
    refine le_trans ?_ ((mul_le_mul' ih h1).trans (le_of_eq ?_))
    · rw [← expectT_mul _ _ (ne_top_of_le_ne_top ENNReal.ofReal_ne_top ih)]
      refine expectT_mono _ ?_
      rintro ⟨e | o, w'⟩ -
      · exact zero_le
      · simp only [onReturn]
        by_cases ho : logZ + a ≤ x o
        · rw [show indicate (logZ + a ≤ x o) = 1 by simp [indicate, ho], mul_one]
          refine le_of_eq (expectT_congr _ _ _ ?_)
          rintro ⟨e | os, w'⟩ -
          · rfl
          · simp only [List.mem_cons, forall_eq_or_imp, ho, true_and]
        · rw [show indicate (logZ + a ≤ x o) = 0 by simp [indicate, ho], mul_zero]
          refine le_of_eq (Eq.trans (expectT_congr _ _ _ ?_) ((expectT_mul (callAll (List.replicate k C) w) 0 ENNReal.zero_ne_top fun _ => 1).trans (zero_mul _)))
          rintro ⟨e | os, w'⟩ -
          · simp [onReturn]
          · simp [indicate, onReturn, ho]
    · rw [← dens_add]
      push_cast
      congr 1
      ring

end

section
variable {n b : ℕ} {X D Lo : Type} [AddCommGroup Lo] [Nonempty X] [MeasurableSpace X] {μ : Measure X} [SFinite μ] {lp : D → X → ℝ}
local notation "ℙ" => PopLang n b X D μ lp
local notation "𝕃" => PLang X D Lo lp

/-- C94. With C55: the average over k calls of the evidence estimate of a nest, which may resample, is unbiased, and … -/
theorem C94_evidence [NeZero n] (N : Node ℙ) (m : Node 𝕃) (j : Fin b) (c : PyVal ℙ) (kw : Kw ℙ) (w : World ℙ) (c0 : PyVal 𝕃) (kw0 : Kw 𝕃)
    (hs : WellScoped false N) (hu : StorelessNode N) (hi : InertStore w) (hw : ∀ i ∈ objects N, w.cond i = none)
    (hok : ∀ r w', (eval N c kw).Runs w r w' → ∃ o, r = .ok o)
    (hl : ∀ s, LaneNode (particleLane s j) N m) (hN : Resamples (· = systematic false false) N)
    (hc : ∀ s, lanePy (particleLane s j) c = c0) (hkw : ∀ s, laneKw (particleLane s j) kw = kw0) (hf : Fits μ m c0 kw0)
    (hm : MeasNode m) (k : ℕ) (hk : 0 < k) :
    expectT (callAll (List.replicate k ⟨N, c, kw⟩) w) (onReturn fun os =>
      (os.map fun o => ENNReal.ofReal (Real.exp (logZHat fun s => o.logWeight.val s j))).sum / k) = target μ m false (fun _ => none) c0 kw0 fun _ _ => 1 := by
  rw [C94_average ⟨N, c, kw⟩ ⟨hs, hu⟩ w ⟨hw, hi⟩ hok _ k hk]
  refine (expectT_congr _ _ _ ?_).trans (C55_log_Z_hat N m j c kw w c0 kw0 hs hw hok hl hN hc hkw hf hm)
  rintro ⟨e | o, w'⟩ - <;> rfl

/-- C94. … all k estimates exceed exp(a) times what they estimate, Z, with probability at most exp(-a k). -/
theorem C94_evidence_overestimate [NeZero n] (N : Node ℙ) (m : Node 𝕃) (j : Fin b) (c : PyVal ℙ) (kw : Kw ℙ) (w : World ℙ) (c0 : PyVal 𝕃) (kw0 : Kw 𝕃)
    (hs : WellScoped false N) (hu : StorelessNode N) (hi : InertStore w) (hw : ∀ i ∈ objects N, w.cond i = none)
    (hok : ∀ r w', (eval N c kw).Runs w r w' → ∃ o, r = .ok o)
    (hl : ∀ s, LaneNode (particleLane s j) N m) (hN : Resamples (· = systematic false false) N)
    (hc : ∀ s, lanePy (particleLane s j) c = c0) (hkw : ∀ s, laneKw (particleLane s j) kw = kw0) (hf : Fits μ m c0 kw0)
    (hm : MeasNode m) (logZ a : ℝ) (hZ : target μ m false (fun _ => none) c0 kw0 (fun _ _ => 1) = dens logZ) (k : ℕ) :
    expectT (callAll (List.replicate k ⟨N, c, kw⟩) w) (onReturn fun os => indicate (∀ o ∈ os, logZ + a ≤ logZHat fun s => o.logWeight.val s j)) ≤ dens (-(k * a)) :=
  C94_all_overestimate ⟨N, c, kw⟩ ⟨hs, hu⟩ w ⟨hw, hi⟩ hok (fun o => logZHat fun s => o.logWeight.val s j) logZ a
    (((expectT_congr _ _ _ (by rintro ⟨e | o, w'⟩ - <;> rfl)).trans (C55_log_Z_hat N m j c kw w c0 kw0 hs hw hok hl hN hc hkw hf hm)).trans hZ) k

end

section
variable {L : Lang}

/-- A program with an identity below `fresh` that leaves the store alone. -/
def Spec.PlainProg (fresh : ObjId) (x : Node L) : Prop := ∃ i s, x = .prog i s ∧ i < fresh ∧ ∀ c kwargs, Storeless (s.model c kwargs)

theorem vsmcStep_reusable (fresh : ObjId) (n : ℕ) (lossFn : Out L → Except Err L.Lo) (transf : Option (Trace L → Kw L → Except Err (Trace L)))
    (resample : Option (ResamplerFn L)) (q : Node L) (s : (Node L × Node L × Node L) × ℕ) (h1 : PlainProg fresh s.1.1) (h2 : PlainProg fresh s.1.2.1)
    (h3 : PlainProg fresh s.1.2.2) (hq : WellScoped false q ∧ StorelessNode q) (q' : Node L) (h : vsmcStep fresh n lossFn transf resample q s = .ok q') :
    WellScoped false q' ∧ StorelessNode q' := by
  obtain ⟨⟨x1, x2, x3⟩, k⟩ := s
  obtain ⟨i1, s1, rfl, g1, e1⟩ := h1
  obtain ⟨i2, s2, rfl, g2, e2⟩ := h2
  obtain ⟨i3, s3, rfl, g3, e3⟩ := h3
  simp only [vsmcStep, vsmcPropose, mkPropose, mkExtend, mkCompose, Node.isCompose, Bool.false_eq_true, if_false] at h
  have hi : fresh + 4 * k ≠ i3 ∧ fresh + 4 * k ≠ i2 :=
    ⟨Nat.ne_of_gt (Nat.lt_of_lt_of_le g3 (Nat.le_add_right _ _)), Nat.ne_of_gt (Nat.lt_of_lt_of_le g2 (Nat.le_add_right _ _))⟩
  have key : ∀ a tr nr, WellScoped false (Node.propose a tr nr (.extend (mkAttrs (fresh + 4 * k) none none .none false) (.prog i3 s3) (.prog i2 s2))
      (.compose (mkAttrs (fresh + 4 * k + 1) none none .none true) (.prog i1 s1) q)) ∧
      StorelessNode (Node.propose a tr nr (.extend (mkAttrs (fresh + 4 * k) none none .none false) (.prog i3 s3) (.prog i2 s2))
      (.compose (mkAttrs (fresh + 4 * k + 1) none none .none true) (.prog i1 s1) q)) := by
    intro a tr nr
    simp [WellScoped, StorelessNode, below, Node.id, mkAttrs, hq, e1, e2, e3, hi]
  rcases resample with _ | r
  · cases h; exact key _ _ _
  · simp only at h
    split at h
    · cases h
      exact key (mkAttrs (fresh + 4 * k + 2) (some (addLoss lossFn)) none (.int k) true) (transf.getD fun t _ => .ok t) false
    · cases h; exact key _ _ _

/-- C94. Annealed samplers built by `vsmc` can be called again and again. -/
theorem C94_vsmc_reusable (fresh : ObjId) (targets forwards reverses : List (Node L)) (ht : ∀ x ∈ targets, PlainProg fresh x)
    (hf : ∀ x ∈ forwards, PlainProg fresh x) (hr : ∀ x ∈ reverses, PlainProg fresh x) (lossFn : Out L → Except Err L.Lo)
    (transf : Option (Trace L → Kw L → Except Err (Trace L))) (resample : Option (ResamplerFn L)) (nd : Node L)
    (h : vsmc fresh targets forwards reverses lossFn transf resample = .ok nd) (c : PyVal L) (kw : Kw L) : Reusable ⟨nd, c, kw⟩ := by
  rcases targets with _ | ⟨q, ps⟩
  · cases h
  simp only [vsmc] at h
  have hq : WellScoped false q ∧ StorelessNode q := by
    obtain ⟨i, s, rfl, -, e⟩ := ht q (by simp)
    exact ⟨trivial, e⟩
  have hl : ∀ s ∈ (forwards.zip (reverses.zip ps)).zipIdx, PlainProg fresh s.1.1 ∧ PlainProg fresh s.1.2.1 ∧ PlainProg fresh s.1.2.2 := by
    rintro ⟨⟨x1, x2, x3⟩, k⟩ hs
    have h1 := List.fst_mem_of_mem_zipIdx hs
    have h2 := List.of_mem_zip h1
    have h3 := List.of_mem_zip h2.2
    exact ⟨hf _ h2.1, hr _ h3.1, ht _ (by simp [h3.2])⟩
  generalize (forwards.zip (reverses.zip ps)).zipIdx = l at h hl
  clear ht
  have : WellScoped false nd ∧ StorelessNode nd := by
    induction l generalizing q with
    | nil => cases h; exact hq
    | cons s l ih =>
      rw [List.foldlM_cons] at h
      rcases h1 : vsmcStep fresh forwards.length lossFn transf resample q s with e | q'
      · rw [h1] at h; cases h
      · rw [h1] at h
        have h2 := hl s (by simp)
        exact ih q' (vsmcStep_reusable fresh _ lossFn transf resample q s h2.1 h2.2.1 h2.2.2 hq q' h1) h fun s hs => hl s (by simp [hs])
  exact ⟨this.1, this.2⟩

/-- A program that returns what the store holds under "n", and replaces it by 1. -/
def Spec.counter : ProgSpec L where
  name := "Counter"
  sig := { args := ["self", "trace", "c"], varargs := false, kwonly := [], varkw := false }
  debugAttr := none
  model _ _ := .storeGet "n" fun v => .storeSet "n" (.int 1) (.ret v)

/-- C94. Programs that use the store are not covered: this one returns 0 when it is called for the first time and 1 when it is called again. -/
theorem C94_store_matters (cond : ObjId → Option (Trace L)) : ∃ o1 o2 w', callAll [⟨.prog 0 counter, .none, {}⟩, ⟨.prog 0 counter, .none, {}⟩]
      { cond := cond, store := { data := Dict.empty.insert "n" (.int 0), hooks := Hooks.noop } } = .ret (.ok [o1, o2], w') ∧
    o1.output = .int 0 ∧ o2.output = .int 1 := ⟨_, _, _, rfl, rfl, rfl⟩

end

section
variable {n b : ℕ} {X D : Type} [Nonempty X] [MeasurableSpace X] {μ : Measure X} [SFinite μ] {lp : D → X → ℝ}
local notation "ℙ" => PopLang n b X D μ lp

theorem anneal_plain {L : Lang} (M : AnnealModel L) (I : AnnealIds) (fresh : ObjId) (hid : I.Below fresh) (h0 : I.initial < fresh) (K : ℕ) :
    (∀ x ∈ M.initial I :: (List.range K).map (M.target I), PlainProg fresh x) ∧ (∀ x ∈ (List.range K).map (M.forward I), PlainProg fresh x) ∧
      ∀ x ∈ (List.range K).map (M.reverse I), PlainProg fresh x := by
  have hk : ∀ (i : ObjId) (a b : String) (f : L.V → L.D) (r : Bool), i < fresh → PlainProg fresh (Node.prog i (kernelProg a b f r)) := by
    intro i a b f r hi
    refine ⟨i, _, rfl, hi, fun c kwargs => ?_⟩
    simp only [kernelProg, kernelModel]
    split <;> simp [Storeless]
  have hd : ∀ cond : Option (Trace L), ∀ d r name (k : L.V → Prov → Bool → MTree L), (∀ v p b, Storeless (k v p b)) → ∀ h, Storeless (maybeSample cond r d h name k) := by
    intro cond d r name k h' h
    simp only [maybeSample]
    split
    · exact h' _ _ _
    · exact fun v => h' _ _ _
  refine ⟨?_, ?_, ?_⟩
  · intro x hx
    rcases List.mem_cons.mp hx with rfl | hx
    · refine ⟨_, _, rfl, h0, fun c kwargs cond => ?_⟩
      refine hd _ _ _ _ _ ?_ _
      intro v p b
      trivial
    · obtain ⟨k, -, rfl⟩ := List.mem_map.mp hx
      refine ⟨_, _, rfl, (hid k).2.2, fun c kwargs => ?_⟩
      simp only [densityProg, densityModel, Storeless]
      intro cond
      split <;> simp [Storeless]
  · intro x hx
    obtain ⟨k, -, rfl⟩ := List.mem_map.mp hx
    exact hk _ _ _ _ _ (hid k).1
  · intro x hx
    obtain ⟨k, -, rfl⟩ := List.mem_map.mp hx
    exact hk _ _ _ _ _ (hid k).2.1

/-- C94. With C57: the average over k calls of what an annealed sampler with resampling estimates is unbiased, for any number of steps. -/
theorem C94_vsmc [NeZero n] (fresh : ObjId) (M : AnnealModel ℙ) (S : AnnealSpec X D) (j : Fin b) (hV : Vectorises M S j)
    (hS : S.Norm μ lp) (I : AnnealIds) (hid : I.Below fresh) (h0 : I.initial < fresh) (lossFn : Out ℙ → Except Err (ℙ).Lo) (hl : LossOk lossFn)
    (transf : Option (Trace ℙ → Kw ℙ → Except Err (Trace ℙ))) (ht : AnnealTransf transf)
    (hteq : ∀ detachD weq, transf = some (stlTrace detachD weq) → ∀ x y, weq x y = true → x = y) (K : ℕ) :
    ∃ nd : Node ℙ, vsmc fresh (M.initial I :: (List.range K).map (M.target I)) ((List.range K).map (M.forward I))
        ((List.range K).map (M.reverse I)) lossFn transf (some (systematic false false)) = .ok nd ∧
      ∀ (c : PyVal ℙ) (kw : Kw ℙ) (w : World ℙ), KwOk kw → kw.sampleDims = .int 0 → kw.batchDim = .int 1 →
        (∃ c0 : PyVal (PLang X D ℝ lp), ∀ s, lanePy (particleLane s j) c = c0) → (∃ kw0 : Kw (PLang X D ℝ lp), ∀ s, laneKw (particleLane s j) kw = kw0) →
        (∀ i, w.cond i = none) → InertStore w → ∀ (k : ℕ), 0 < k → ∀ h : X → ℝ≥0∞, Measurable h →
        expectT (callAll (List.replicate k ⟨nd, c, kw⟩) w) (onReturn fun os => (os.map fun o =>
          (∑ s, dens (o.logWeight.val s j) * match o.trace.get? (AnnealModel.name K) with
            | some rv => h (rv.value s j)
            | none => 0) / n).sum / k) = ∫⁻ x, dens (lp (S.last K) x) * h x ∂μ := by
  obtain ⟨nd, h1, h2⟩ := C57_vsmc_resampled fresh M S j hV hS I hid lossFn hl transf ht hteq K
  refine ⟨nd, h1, fun c kw w hk hsd hbd hc hkw hw hi k hk0 h hh => ?_⟩
  obtain ⟨p1, p2, p3⟩ := anneal_plain M I fresh hid h0 K
  obtain ⟨h3, h4⟩ := h2 c kw w hk hsd hbd hc hkw hw fun t t' => by
    have := hi t t'
    unfold Store.resampleUpdate at this
    have e1 := congrArg Prod.fst this
    have e2 := congrArg (fun x => x.2.data) this
    exact Prod.ext e1 e2
  rw [C94_average ⟨nd, c, kw⟩ (C94_vsmc_reusable fresh _ _ _ p1 p2 p3 _ _ _ nd h1 c kw) w ⟨fun i _ => hw i, hi⟩ (fun r w' hr => by
    obtain ⟨o, _, h5, _⟩ := h3 r w' hr
    exact ⟨o, h5⟩) _ k hk0]
  refine (expectT_congr _ _ _ ?_).trans (h4 h hh)
  rintro ⟨e | o, w'⟩ - <;> rfl

end

/-- The hypotheses can be met: five calls of the annealed coins with resampling (three steps, two particles) have the average e, … -/
example : ∃ nd, vsmc 100 (Coin.annealPop.initial Toy.annealIds :: (List.range 3).map (Coin.annealPop.target Toy.annealIds))
      ((List.range 3).map (Coin.annealPop.forward Toy.annealIds)) ((List.range 3).map (Coin.annealPop.reverse Toy.annealIds))
      (fun _ => .ok 0) none (some (systematic false false)) = .ok nd ∧
    expectT (callAll (List.replicate 5 ⟨nd, .none, { sampleDims := .int 0, batchDim := .int 1, shared := [("sample_shape", .tuple [.int 2, .int 1])] }⟩)
      { cond := fun _ => none, store := Store.init }) (onReturn fun os => (os.map fun o =>
        (∑ s, dens (o.logWeight.val s 0) * match o.trace.get? (AnnealModel.name 3) with
            | some rv => if rv.value s 0 = true then 1 else 0
            | none => 0) / (2 : ℕ)).sum / (5 : ℕ)) = ENNReal.ofReal (3 / 4 * Real.exp 1) := by
  obtain ⟨nd, h1, h2⟩ := C94_vsmc 100 Coin.annealPop Coin.annealSpec 0
    ⟨fun _ => rfl, fun _ _ _ => rfl, fun _ _ _ => rfl, fun _ _ _ => rfl⟩
    ⟨Coin.normalisedU _, fun _ _ => Coin.normalisedU _, fun _ _ => Coin.normalisedU _,
    fun _ => measurable_of_countable _, fun _ => measurable_of_countable _, fun _ => measurable_of_countable _⟩ Toy.annealIds
    Coin.ids_below (by decide)
    (fun _ => .ok 0) (fun _ _ _ => ⟨_, rfl⟩) none (Or.inl rfl) (fun _ _ h => by cases h) 3
  refine ⟨nd, h1, ?_⟩
  refine Eq.trans (congrArg _ (funext fun r => ?_)) ((h2 .none { sampleDims := .int 0, batchDim := .int 1, shared := [("sample_shape", .tuple [.int 2, .int 1])] }
    { cond := fun _ => none, store := Store.init } (by simp [KwOk]) rfl rfl ⟨.none, fun _ => rfl⟩
    ⟨{ sampleDims := .int 0, batchDim := .int 1, shared := [("sample_shape", .tuple [.int 2, .int 1])] }, fun _ => rfl⟩ (fun _ => rfl) (fun _ _ => rfl) 5 (by norm_num)
    (fun v => if v = true then 1 else 0) (measurable_of_countable _)).trans ?_)
  · rcases r with ⟨e | os, w'⟩
    · rfl
    · refine congrArg (fun x => List.sum x / ((5 : ℕ) : ℝ≥0∞)) (List.map_congr_left fun o _ => congrArg (· / ((2 : ℕ) : ℝ≥0∞)) (Finset.sum_congr rfl fun s _ => ?_))
      cases o.trace.get? (AnnealModel.name 3) <;> rfl
  · rw [Coin.lintegral_bool]
    have h6 : ∀ v, dens (Coin.lpU (Coin.annealSpec.last 3) v) = ENNReal.ofReal (Coin.prob true v) * ENNReal.ofReal (Real.exp 1) := by
      intro v
      rw [← Coin.dens_lp, dens, dens, ← ENNReal.ofReal_mul (Real.exp_pos _).le, ← Real.exp_add]
      rfl
    simp only [h6, Bool.false_eq_true, if_false, if_true, mul_zero, zero_add, mul_one]
    rw [← ENNReal.ofReal_mul (Coin.prob_pos _ _).le]
    norm_num [Coin.prob]

namespace Coin

/-- Two particles of a fair coin that is observed to be heads with the biased one. -/
noncomputable def pair : ProgSpec (PopLang 2 1 Bool (Bool × Bool) Measure.count lpU) where
  name := "Pair"
  sig := sig
  debugAttr := none
  model _ _ := .variable "x" (fun _ _ => ⟨(false, false), normalisedU _⟩) none none true fun x =>
    .variable "y" (fun s j => ⟨(x s j, false), normalisedU _⟩) (some fun _ _ => true) none true fun _ => .ret (.tensor x)

end Coin

/-- … and a coin whose tosses can be averaged over any number of calls. -/
example : ∃ C : Call (PopLang 2 1 Bool (Bool × Bool) Measure.count Coin.lpU), C.node = .prog 0 Coin.pair ∧ Reusable C ∧
    Clean C { cond := fun _ => none, store := Store.init } ∧
    (∀ r w', (eval C.node C.c C.kw).Runs { cond := fun _ => none, store := Store.init } r w' → ∃ o, r = .ok o) ∧
    MeasComp (eval C.node C.c C.kw { cond := fun _ => none, store := Store.init }) (onReturn fun o => ∑ s, dens (o.logWeight.val s 0)) :=
  ⟨⟨.prog 0 Coin.pair, .none, {}⟩, rfl, ⟨trivial, fun _ _ _ _ => trivial⟩, ⟨fun _ _ => rfl, fun _ _ => rfl⟩, by rintro r w' ⟨v, h⟩; cases h; exact ⟨_, rfl⟩,
    ⟨measurable_of_countable _, fun v => trivial⟩⟩

end Verif
