import Verif.Proofs.PopulationLaw
import Verif.Props.Weighting
/-
C56: resampling a program that observes something, and using the result as a proposal, is biased.
-/
namespace Verif
open Spec MeasureTheory
open scoped ENNReal

theorem systematicAt_eq {n b : Nat} [hn : NeZero n] {X D : Type} {lp : D → (Fin n → Fin b → X) → Fin n → Fin b → ℝ} {normalize : Bool} {t t' : Trace (TLang n b X D lp)}
    {lv : Fin n → Fin b → ℝ} {u : Fin b → Set.Ico (0 : ℝ) 1}
    (h : resampleTrace (fun s j => ancestors (softmax fun i => lv i j) (u j).1 s) t = .ok t') :
    systematicAt normalize t lv u = .ok (t', .tensor fun s j => resampledLw normalize (fun i => lv i j) s) := by
  unfold systematicAt
  rw [dif_neg hn.ne]
  simp only [h]

namespace Coin

@[reducible] noncomputable def L2 : Lang := PopLang 2 1 Bool Bool Measure.count lp

/-- The same coin for all particles. -/
noncomputable def same (d : Bool) : L2.D := fun _ _ => ⟨d, normalised d⟩

/-- Each particle's coin. -/
noncomputable def each (x : L2.V) : L2.D := fun s j => ⟨x s j, normalised _⟩

/-- Flips "x" with a fair coin and observes "y" to be heads, with the biased coin if "x" is heads. Returns {"x": x}. -/
noncomputable def seen : ProgSpec L where
  name := "Seen"
  sig := sig
  debugAttr := none
  model _ _ := .variable "x" false none none true fun x => .variable "y" x (some true) none true fun _ => .ret (.dict [("x", .tensor x)])

/-- The same for two particles. -/
noncomputable def seen2 : ProgSpec L2 where
  name := "Seen"
  sig := sig
  debugAttr := none
  model _ _ := .variable "x" (same false) none none true fun x =>
    .variable "y" (each x) (some fun _ _ => true) none true fun _ => .ret (.dict [("x", .tensor x)])

/-- `Propose(seen, Resample(seen))` -/
noncomputable def seenNest : Node L :=
  .propose (attrs 0) (fun t _ => .ok t) false (.prog 1 seen) (.resample (attrs 2) (fun _ _ t lw => .ret (.ok (t, lw))) (.prog 3 seen))

/-- The same for two particles. -/
noncomputable def seenNest2 : Node L2 :=
  .propose (mkAttrs 0 none none .none false) (fun t _ => .ok t) false (.prog 1 seen2)
    (.resample (mkAttrs 2 none none .none false) (systematic false false) (.prog 3 seen2))

noncomputable def kw2 : Kw L2 := { sampleDims := .int 0, batchDim := .int 1 }

noncomputable def world2 : World L2 := { cond := fun _ => none, store := Store.init }

/-- The log weights after the first run. -/
noncomputable def lw1 (v : L2.V) : Fin 2 → Fin 1 → ℝ := fun s j => lp (v s j) true

/-- The ancestors. -/
noncomputable def anc (v : L2.V) (u : L2.U) : Fin 2 → Fin 1 → Fin 2 := fun s j =>
  ⟨ancestors (softmax fun i => lw1 v i j) (u j).1 s, ancestors_lt (softmax_hyps _).1 (softmax_hyps _).2 (u j).2.2.le s⟩

noncomputable def rx (v : L2.V) : RV L2 := RV.mk' (same false) v .sampled true
noncomputable def ry (v : L2.V) : RV L2 := RV.mk' (each v) (fun _ _ => true) .observed true

noncomputable def rx' (v : L2.V) (u : L2.U) : RV L2 :=
  { kind := .proper (same false), value := fun s j => v (anc v u s j) j, logProb := fun s j => lp false (v (anc v u s j) j), prov := .sampled,
    reparam := true, resamplable := true }

theorem xy : ("x" : String) ≠ "y" := by decide

def trXY (r s : RV L2) : Trace L2 := ⟨[("x", r), ("y", s)], by simp [keysL]⟩

theorem eval_seen2 (i : ObjId) (w : World L2) (hw : w.cond i = none) : eval (.prog i seen2) .none kw2 w = .draw (same false) true fun v =>
    .ret (.ok (Out.mk (trXY (rx v) (ry v)) (.tensor (lw1 v)) (.dict [("x", .tensor v)]) (.program "Seen") none none none none []), w) := by
  simp only [eval, bind, Exec.bind, Exec.getCond, hw, Comp.bind_ret]
  rfl

theorem resample_seen (v : L2.V) (u : L2.U) : systematicAt false (trXY (rx v) (ry v)) (lw1 v) u =
    .ok (trXY (rx' v u) (ry v), .tensor fun _ j => logZHat fun i => lw1 v i j) := by
  have h1 : resampleTrace (fun s j => ancestors (softmax fun i => lw1 v i j) (u j).1 s) (trXY (rx v) (ry v)) = .ok (trXY (rx' v u) (ry v)) := by
    have h2 : resampleRV (fun s j => (anc v u s j).val) (rx v) = .ok (rx' v u) := by
      unfold resampleRV
      rw [if_neg (by simp [rx, RV.mk'])]
      simp only [bind, Except.bind]
      erw [pickT_of_valid (anc v u), pickT_of_valid (anc v u)]
      rfl
    have h3 : ∀ a, resampleRV a (ry v) = .ok (ry v) := fun a => by
      unfold resampleRV
      rw [if_pos (by simp [ry, RV.mk'])]
    show [("x", rx v), ("y", ry v)].foldlM _ Dict.empty = _
    simp only [List.foldlM_cons, List.foldlM_nil, bind, Except.bind]
    erw [h2]
    simp only [h3]
    rfl
  refine (systematicAt_eq h1).trans ?_
  simp only [resampledLw_eq]

/-- The log weights at the end: the increments use the resampled "x", but the observation of the particle that was in the slot before. -/
noncomputable def lw2 (v : L2.V) (u : L2.U) : Fin 2 → Fin 1 → ℝ := fun s j =>
  logZHat (fun i => lw1 v i j) + ((lp false (v (anc v u s j) j) + lp (v (anc v u s j) j) true) - (lp false (v (anc v u s j) j) + lp (v s j) true))

/-- The second run. -/
theorem eval_cond (x : L2.V) (lpx : L2.W) (y : RV L2) (w : World L2)
    (hw : w.cond 1 = some (trXY { kind := .proper (same false), value := x, logProb := lpx, prov := .sampled, reparam := true, resamplable := true } y)) :
    eval (.prog 1 seen2) .none kw2 w = .ret (.ok (Out.mk (trXY (RV.mk' (same false) x .reused true) (ry x))
      (.tensor (fun s j => lp false (x s j) + lp (x s j) true)) (.dict [("x", .tensor x)]) (.program "Seen") none none none none []), w) := by
  simp only [eval, bind, Exec.bind, Exec.getCond, hw, Comp.bind_ret]
  rfl

theorem rest_seen (v : L2.V) (u : L2.U) : ∃ o : Out L2, o.logWeight = .tensor (lw2 v u) ∧
    proposeRest (mkAttrs 0 none none .none false) (fun t _ => .ok t) false (.prog 1 seen2)
      (.resample (mkAttrs 2 none none .none false) (systematic false false) (.prog 3 seen2)) kw2
      (Out.mk (trXY (rx' v u) (ry v)) (.tensor fun _ j => logZHat fun i => lw1 v i j)
        (.dict [("x", .tensor fun s j => v (anc v u s j) j)]) .resample (some .none) (some 0) none none [])
      (Out.mk (trXY (RV.mk' (same false) (fun s j => v (anc v u s j) j) .reused true) (ry fun s j => v (anc v u s j) j))
      (.tensor (fun s j => lp false (v (anc v u s j) j) + lp (v (anc v u s j) j) true)) (.dict [("x", .tensor fun s j => v (anc v u s j) j)]) (.program "Seen") none none none none []) = .ok o :=
  ⟨_, rfl, rfl⟩

theorem eval_seenNest2 : ∃ G : L2.V → L2.U → Out L2, (∀ v u, (G v u).logWeight = .tensor (lw2 v u)) ∧
    eval seenNest2 .none kw2 world2 = .draw (same false) true fun v => .rand fun u => .ret (.ok (G v u), world2) := by
  choose G hG hG' using rest_seen
  refine ⟨G, hG, ?_⟩
  have hq : eval (.resample (mkAttrs 2 none none .none false) (systematic false false) (.prog 3 seen2)) .none kw2 world2 =
      .draw (same false) true fun v => .rand fun u => .ret (.ok (Out.mk (trXY (rx' v u) (ry v)) (.tensor fun _ j => logZHat fun i => lw1 v i j)
        (.dict [("x", .tensor fun s j => v (anc v u s j) j)]) .resample (some .none) (some 0) none none []), world2) := by
    have h1 : eval (.resample (mkAttrs 2 none none .none false) (systematic false false) (.prog 3 seen2)) .none kw2 =
        Exec.bind (eval (.prog 3 seen2) .none kw2) (resampleRest (mkAttrs 2 none none .none false) (systematic false false) kw2) := by
      rw [eval]; rfl
    rw [h1]
    simp only [Exec.bind]
    rw [eval_seen2 _ _ rfl]
    simp only [Comp.bind_draw, Comp.bind_ret]
    refine congrArg (Comp.draw _ _) (funext fun v => ?_)
    simp only [resampleRest, bind, Exec.bind, Exec.liftComp]
    have h2 : systematic false false kw2.sampleDims kw2.batchDim (trXY (rx v) (ry v)) (.tensor (lw1 v)) =
        .rand fun u => .ret (systematicAt false (trXY (rx v) (ry v)) (lw1 v) u) := rfl
    simp only [Out.trace, Out.logWeight]
    rw [h2]
    simp only [resample_seen, Comp.bind_rand, Comp.bind_ret]
    rfl
  have h0 : eval seenNest2 .none kw2 = Exec.bind (eval (.resample (mkAttrs 2 none none .none false) (systematic false false) (.prog 3 seen2)) .none kw2) fun qo =>
      Exec.bind (Exec.withSub 1 (some qo.trace) (eval (.prog 1 seen2) .none kw2)) fun po =>
        Exec.lift (proposeRest (mkAttrs 0 none none .none false) (fun t _ => .ok t) false (.prog 1 seen2)
          (.resample (mkAttrs 2 none none .none false) (systematic false false) (.prog 3 seen2)) kw2 qo po) := by
    rw [seenNest2, eval]; rfl
  rw [h0]
  simp only [Exec.bind]
  rw [hq]
  simp only [Comp.bind_draw, Comp.bind_rand, Comp.bind_ret]
  refine congrArg (Comp.draw _ _) (funext fun v => congrArg Comp.rand (funext fun u => ?_))
  have h3 : copytrace1 (trXY (rx' v u) (ry v)) = .ok (trXY (rx' v u) (ry v)) := rfl
  have h4 := eval_cond (fun s j => v (anc v u s j) j) (fun s j => lp false (v (anc v u s j) j)) (ry v)
    (world2.setCond 1 (some (trXY (rx' v u) (ry v)))) rfl
  simp only [Exec.withSub, Out.trace, h3]
  rw [h4]
  simp only [Comp.bind_ret]
  rw [hG']
  show Comp.ret _ = Comp.ret _
  congr 2
  apply World.ext'
  · intro i; simp [World.setCond, world2]
  · rfl

/-- A slot's ancestor is the first particle. -/
theorem anc_iff (v : L2.V) (u : L2.U) (k : Fin 2) :
    anc v u k 0 = 0 ↔ k.val + (u 0).1 ≤ 2 * (prob (v 0 0) true / (prob (v 0 0) true + prob (v 1 0) true)) := by
  have hs := softmax_sum fun i => lw1 v i 0
  have h := ancestors_eq_iff (softmax_hyps fun i => lw1 v i 0).1 (softmax_hyps _).2 (u 0).1 k (0 : Fin 2)
  have h1 : anc v u k 0 = 0 ↔ ancestors (softmax fun i => lw1 v i 0) (u 0).1 k = (0 : Fin 2).val := by
    rw [Fin.ext_iff]; rfl
  rw [h1, h, hs]
  have h2 : prefixSum (softmax fun i => lw1 v i 0) ((0 : Fin 2).val + 1) = prob (v 0 0) true / (prob (v 0 0) true + prob (v 1 0) true) := by
    rw [prefixSum_succ]
    simp only [Fin.val_zero, prefixSum_zero, zero_add, softmax, lw1, Fin.sum_univ_two, lp, Real.exp_log (prob_pos _ _)]
  rw [h2]
  simp

/-- The mean weight, given the flips and the offset. -/
noncomputable def meanW (x y : Bool) (u : ℝ) : ℝ≥0∞ :=
  if x = y then ENNReal.ofReal (prob x true)
  else if x then ENNReal.ofReal (5 / 16) + (if u ≤ 1 / 5 then ENNReal.ofReal (15 / 32) else ENNReal.ofReal (5 / 16))
  else ENNReal.ofReal (5 / 16) + (if u ≤ 4 / 5 then ENNReal.ofReal (5 / 16) else ENNReal.ofReal (15 / 32))

theorem mean_eq (v : L2.V) (u : L2.U) : (∑ s, dens (lw2 v u s 0)) / 2 = meanW (v 0 0) (v 1 0) (u 0).1 := by
  have hu := (u 0).2
  have hd : ∀ s, dens (lw2 v u s 0) = ENNReal.ofReal ((prob (v 0 0) true + prob (v 1 0) true) / 2 * (prob (v (anc v u s 0) 0) true / prob (v s 0) true)) := by
    intro s
    rw [dens]
    congr 1
    simp only [lw2]
    rw [add_sub_add_left_eq_sub, Real.exp_add, Real.exp_sub, logZHat, Real.exp_log (zHat_pos _), zHat]
    simp only [lp, Real.exp_log (prob_pos _ _), lw1, Fin.sum_univ_two]
    norm_num
  have a1 : ∀ k, anc v u k 0 = if k.val + (u 0).1 ≤ 2 * (prob (v 0 0) true / (prob (v 0 0) true + prob (v 1 0) true)) then 0 else 1 := by
    intro k
    by_cases hk : anc v u k 0 = 0
    · rw [if_pos ((anc_iff v u k).1 hk), hk]
    · rw [if_neg (fun h => hk ((anc_iff v u k).2 h))]
      omega
  simp only [Fin.sum_univ_two, hd, a1]
  generalize hx : v 0 0 = x
  generalize hy : v 1 0 = y
  have e2 : (2 : ℝ≥0∞) = ENNReal.ofReal 2 := by norm_num
  have hdiv : ∀ a b : ℝ, 0 ≤ a → 0 ≤ b → (ENNReal.ofReal a + ENNReal.ofReal b) / 2 = ENNReal.ofReal (a / 2) + ENNReal.ofReal (b / 2) := by
    intro a b ha hb
    rw [e2, ← ENNReal.ofReal_add ha hb, ← ENNReal.ofReal_div_of_pos two_pos, ← ENNReal.ofReal_add (by positivity) (by positivity), add_div]
  have pT : prob true true = 3 / 4 := by norm_num [prob]
  have pF : prob false true = 1 / 2 := by norm_num [prob]
  obtain ⟨h0, h1⟩ := hu
  have hif : ∀ (c : Prop) [Decidable c], v (if c then 0 else 1) 0 = if c then x else y := fun c _ => by split_ifs <;> assumption
  simp only [hif]
  cases x <;> cases y <;> simp only [pT, pF, ite_self, meanW, if_true, if_false, Bool.false_eq_true, reduceCtorEq, Fin.val_zero, Fin.val_one, Nat.cast_zero, Nat.cast_one]
  · rw [hdiv _ _ (by norm_num) (by norm_num), ← ENNReal.ofReal_add (by norm_num) (by norm_num)]
    norm_num
  · rw [if_neg (show ¬ (1 + (u 0).1 ≤ 2 * (1 / 2 / (1 / 2 + 3 / 4) : ℝ)) by norm_num; linarith)]
    by_cases hc : (u 0).1 ≤ 4 / 5
    · rw [if_pos (show (0 + (u 0).1 ≤ 2 * (1 / 2 / (1 / 2 + 3 / 4) : ℝ)) by norm_num; linarith), if_pos hc]
      simp only [pT, pF]
      rw [hdiv _ _ (by norm_num) (by norm_num)]
      norm_num
    · rw [if_neg (show ¬ (0 + (u 0).1 ≤ 2 * (1 / 2 / (1 / 2 + 3 / 4) : ℝ)) by norm_num; linarith), if_neg hc]
      simp only [pT, pF]
      rw [hdiv _ _ (by norm_num) (by norm_num), add_comm]
      norm_num
  · rw [if_pos (show (0 + (u 0).1 ≤ 2 * (3 / 4 / (3 / 4 + 1 / 2) : ℝ)) by norm_num; linarith)]
    by_cases hc : (u 0).1 ≤ 1 / 5
    · rw [if_pos (show (1 + (u 0).1 ≤ 2 * (3 / 4 / (3 / 4 + 1 / 2) : ℝ)) by norm_num; linarith), if_pos hc]
      simp only [pT, pF]
      rw [hdiv _ _ (by norm_num) (by norm_num)]
      norm_num
    · rw [if_neg (show ¬ (1 + (u 0).1 ≤ 2 * (3 / 4 / (3 / 4 + 1 / 2) : ℝ)) by norm_num; linarith), if_neg hc]
      simp only [pT, pF]
      rw [hdiv _ _ (by norm_num) (by norm_num)]
      norm_num
  · rw [hdiv _ _ (by norm_num) (by norm_num), ← ENNReal.ofReal_add (by norm_num) (by norm_num)]
    norm_num

theorem lintegral_ite (c : ℝ) (h0 : 0 ≤ c) (h1 : c ≤ 1) (a b : ℝ) (ha : 0 ≤ a) (hb : 0 ≤ b) :
    ∫⁻ x in Set.Ioc (0 : ℝ) 1, (if x ≤ c then ENNReal.ofReal a else ENNReal.ofReal b) = ENNReal.ofReal (c * a + (1 - c) * b) := by
  have hi : Set.Ioc (0 : ℝ) 1 = Set.Ioc 0 c ∪ Set.Ioc c 1 := (Set.Ioc_union_Ioc_eq_Ioc h0 h1).symm
  rw [hi, lintegral_union measurableSet_Ioc (Set.Ioc_disjoint_Ioc_of_le le_rfl),
    setLIntegral_congr_fun (g := fun _ => ENNReal.ofReal a) measurableSet_Ioc (fun x hx => if_pos hx.2),
    setLIntegral_congr_fun (g := fun _ => ENNReal.ofReal b) measurableSet_Ioc (fun x hx => if_neg (not_le.2 hx.1)),
    setLIntegral_const, setLIntegral_const, Real.volume_Ioc, Real.volume_Ioc, sub_zero, ← ENNReal.ofReal_mul ha, ← ENNReal.ofReal_mul hb,
    ← ENNReal.ofReal_add (by positivity) (mul_nonneg hb (by linarith))]
  congr 1
  ring

theorem lintegral_mean (x y : Bool) : ∫⁻ u in Set.Ioc (0 : ℝ) 1, meanW x y u =
    ENNReal.ofReal (if x = y then prob x true else 21 / 32) := by
  by_cases h : x = y
  · simp only [meanW, if_pos h]
    simp
  · simp only [meanW, if_neg h]
    cases x
    · simp only [Bool.false_eq_true, if_false]
      rw [lintegral_add_left measurable_const, lintegral_ite _ (by norm_num) (by norm_num) _ _ (by norm_num) (by norm_num)]
      simp
      rw [← ENNReal.ofReal_add (by norm_num) (by norm_num)]
      norm_num
    · simp only [if_true]
      rw [lintegral_add_left measurable_const, lintegral_ite _ (by norm_num) (by norm_num) _ _ (by norm_num) (by norm_num)]
      simp
      rw [← ENNReal.ofReal_add (by norm_num) (by norm_num)]
      norm_num

theorem measurable_mean (x y : Bool) : Measurable (meanW x y) := by
  unfold meanW
  split
  · exact measurable_const
  · split
    · exact Measurable.const_add (Measurable.ite (p := fun u : ℝ => u ≤ _) measurableSet_Iic measurable_const measurable_const) _
    · exact Measurable.const_add (Measurable.ite (p := fun u : ℝ => u ≤ _) measurableSet_Iic measurable_const measurable_const) _

end Coin

open Coin

/-- C56. `Propose(m, Resample(m))` for two particles, where `m` flips "x" and observes "y". Every particle behaves like the nest for a
single particle, nothing raises, all other conditions of C55 hold; but the resampler does not move the observed variable, whose log
probability the next Propose divides by. The mean weight is 41/64 in expectation, while the target's normalising constant is 5/8. -/
theorem C56_observed_resampling_biased :
    (∀ s, LaneNode (particleLane s 0) seenNest2 seenNest) ∧ Resamples (· = systematic false false) seenNest2 ∧ WellScoped false seenNest2 ∧
    (∀ r w', (eval seenNest2 .none kw2).Runs world2 r w' → ∃ o, r = .ok o) ∧
    expectT (eval seenNest2 .none kw2 world2) (fun r => match r.1 with
      | .ok o => (∑ s, dens (o.logWeight.val s 0)) / 2
      | .error _ => 0) = ENNReal.ofReal (41 / 64) ∧
    ∀ kw, target Measure.count seenNest false (fun _ => none) .none kw (fun _ _ => 1) = ENNReal.ofReal (5 / 8) := by
  obtain ⟨G, hG, hE⟩ := eval_seenNest2
  refine ⟨fun s => ?_, ?_, ?_, ?_, ?_, fun kw => ?_⟩
  · have hm : ∀ c kwargs, LaneTree (particleLane s 0) (seen2.model c kwargs) (seen.model (lanePy (particleLane s 0) c) (laneKvs (particleLane s 0) kwargs)) := by
      intro c kwargs
      refine LaneTree.var "x" (same false) none none true _ (fun x => .variable "y" x (some true) none true fun _ => .ret (.dict [("x", .tensor x)])) fun x => ?_
      refine LaneTree.var "y" (each x) (some fun _ _ => true) none true _ (fun _ => .ret (.dict [("x", .tensor ((particleLane (μ := Measure.count) (lp := lp) s 0).v x))])) fun y => ?_
      exact LaneTree.ret (Lo := Int) (l := particleLane s 0) (.dict [("x", .tensor x)])
    exact ⟨rfl, ⟨rfl, hm⟩, ⟨rfl, rfl, hm⟩, fun t kw t' _ h => by cases h; exact List.Perm.refl _⟩
  · exact ⟨trivial, rfl, trivial⟩
  · simp [seenNest2, WellScoped, below]
  · intro r w' hr
    rw [Exec.Runs, hE] at hr
    obtain ⟨v, u, h⟩ := hr
    cases h
    exact ⟨_, rfl⟩
  · rw [hE]
    have h1 : ∀ v : Fin 2 → Fin 1 → Bool, (∫⁻ u : Fin 1 → Set.Ico (0 : ℝ) 1, (∑ s, dens ((G v u).logWeight.val s 0)) / 2 ∂Measure.pi fun _ => volume.comap Subtype.val) =
        ENNReal.ofReal (if v 0 0 = v 1 0 then prob (v 0 0) true else 21 / 32) := by
      intro v
      rw [← lintegral_mean, ← lintegral_offset (0 : Fin 1) _ (measurable_mean _ _)]
      refine lintegral_congr fun u => ?_
      refine Eq.trans ?_ (mean_eq v u)
      exact congrArg (fun w : LW L2.W => (∑ s, dens (w.val s 0)) / 2) (hG v u)
    let ν : Fin 2 → Measure (Fin 1 → Bool) := fun s => Measure.pi fun j => Measure.count.withDensity fun x => dens (lp (same false s j).1 x)
    have h2 : ∀ v : Fin 2 → Fin 1 → Bool, Measure.pi ν {v} = ENNReal.ofReal (1 / 4) := by
      intro v
      have : ∀ x, dens (lp false x) = ENNReal.ofReal (1 / 2) := fun x => by rw [dens_lp]; norm_num [prob]
      have hp : ∀ d, IsProbabilityMeasure ((Measure.count : Measure Bool).withDensity fun x => dens (lp d x)) := fun d => normalised_prob (normalised d)
      have h3 : ∀ x, ((Measure.count : Measure Bool).withDensity fun x => dens (lp false x)) {x} = ENNReal.ofReal (1 / 2) := fun x => by
        rw [withDensity_apply _ (measurableSet_singleton x), lintegral_singleton, this, Measure.count_singleton, mul_one]
      have h4 : ∀ s, IsProbabilityMeasure (ν s) := fun s => by
        have := fun j => hp (same false s j).1
        exact inferInstanceAs (IsProbabilityMeasure (Measure.pi _))
      rw [Measure.pi_singleton]
      have h5 : ∀ s, ν s {v s} = ENNReal.ofReal (1 / 2) := fun s => by
        have := fun j => hp (same false s j).1
        refine (Measure.pi_singleton _ _).trans ?_
        simp only [Finset.univ_unique, Finset.prod_singleton]
        exact h3 _
      simp only [h5, Fin.prod_univ_two]
      rw [← ENNReal.ofReal_mul (by norm_num)]
      norm_num
    show ∫⁻ v : Fin 2 → Fin 1 → Bool,
      (∫⁻ u : Fin 1 → Set.Ico (0 : ℝ) 1, (∑ s, dens ((G v u).logWeight.val s 0)) / 2 ∂Measure.pi fun _ => volume.comap Subtype.val) ∂Measure.pi ν = _
    simp only [h1]
    rw [lintegral_fintype]
    simp only [h2, mul_comm _ (ENNReal.ofReal (1 / 4))]
    refine (Fintype.sum_equiv ((finTwoArrowEquiv (Fin 1 → Bool)).trans (Equiv.prodCongr (Equiv.funUnique (Fin 1) Bool) (Equiv.funUnique (Fin 1) Bool))) _
      (fun p : Bool × Bool => ENNReal.ofReal (1 / 4) * ENNReal.ofReal (if p.1 = p.2 then prob p.1 true else 21 / 32)) (fun v => rfl)).trans ?_
    rw [Fintype.sum_prod_type]
    simp only [Fintype.sum_bool, if_true, Bool.false_eq_true, reduceCtorEq, if_false]
    have pT : prob true true = 3 / 4 := by norm_num [prob]
    have pF : prob false true = 1 / 2 := by norm_num [prob]
    simp only [pT, pF]
    simp only [← ENNReal.ofReal_mul (show (0 : ℝ) ≤ 1 / 4 by norm_num)]
    rw [← ENNReal.ofReal_add (by norm_num) (by norm_num), ← ENNReal.ofReal_add (by norm_num) (by norm_num), ← ENNReal.ofReal_add (by norm_num) (by norm_num)]
    norm_num
  · show ∫⁻ v, dens (lp false v) * (dens (lp v true) * 1) ∂Measure.count = _
    rw [lintegral_bool]
    simp only [dens_lp, mul_one]
    rw [← ENNReal.ofReal_mul (prob_pos _ _).le, ← ENNReal.ofReal_mul (prob_pos _ _).le, ← ENNReal.ofReal_add (mul_nonneg (prob_pos _ _).le (prob_pos _ _).le) (mul_nonneg (prob_pos _ _).le (prob_pos _ _).le)]
    norm_num [prob]

end Verif
