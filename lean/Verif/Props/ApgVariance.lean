import Verif.Proofs.ApgIncrement
import Verif.Props.ApgNets
/-
C83. Importance sampling in the bouncing-shapes experiment: the law of its result, and that its weights have infinite variance when the first
proposal is narrow.
-/
namespace Verif
open Spec Apg MeasureTheory ProbabilityTheory
open scoped ENNReal

section general
variable {V D Lo : Type} [MeasurableSpace V] [AddCommMonoid Lo] {lp : D → V → ℝ} {β : D → Measure V} {μ ν : Measure V} [SigmaFinite μ] [SFinite ν]

/-- What is read off a result: a function of the positions, the appearance and the log weight. -/
noncomputable def seen (T S : Nat) (frames : V) (H : List V → V → ℝ → ℝ≥0∞)
    (x : Except Err (Out (PLang V D Lo lp)) × World (PLang V D Lo lp)) : ℝ≥0∞ :=
  match x.1 with
  | .ok out => H ((List.range T).map fun i : Nat => (valueAt out.trace (zWhereName i S)).getD frames)
      ((valueAt out.trace (zWhatName S)).getD frames) out.logWeight.val
  | .error _ => 0

/-- The log density with which importance sampling proposes positions and an appearance: all objects at all times from the frames alone, then the
appearance. -/
noncomputable def proposalLog (N : ApgNet (PLang V D Lo lp)) (T : Nat) (f : V) (p : Nat → V) (z : V) : ℝ :=
  ∑ t ∈ Finset.range T, lp (N.coorDist f (t : Nat) none (slices N (p t))) (p t) + lp (N.digitDist f ((List.range T).map p)) z

variable {N : ApgNet (PLang V D Lo lp)} {T : Nat} {f : V}

omit [MeasurableSpace V] in
theorem seen_eq {N : ApgNet (PLang V D Lo lp)} {T S : Nat} {frames : V} {H : List V → V → ℝ → ℝ≥0∞} {p : Particle (PLang V D Lo lp)}
    {out : Out (PLang V D Lo lp)} {w : World (PLang V D Lo lp)} (h : Latents N T T S S frames p.pos p.what out.trace)
    (hw : out.logWeight = .tensor p.lw) : seen T S frames H (.ok out, w) = H ((List.range T).map p.pos) p.what p.lw := by
  have h1 : ((List.range T).map fun i : Nat => (valueAt out.trace (zWhereName i S)).getD frames) = (List.range T).map p.pos := by
    refine List.map_congr_left fun i hi => ?_
    have := h.wheres i (List.mem_range.1 hi)
    rw [whereAt_lt (List.mem_range.1 hi)] at this
    unfold valueAt
    rw [this]
    rfl
  have h2 : (valueAt out.trace (zWhatName S)).getD frames = p.what := by
    unfold valueAt
    rw [h.appearance]
    rfl
  simp only [seen, h1, h2, hw]
  rfl

theorem sum_map_range (g : Nat → ℝ) (m : Nat) : ((List.range m).map g).sum = ∑ t ∈ Finset.range m, g t := by
  induction m with
  | zero => rfl
  | succ m ih => rw [List.range_succ, List.map_append, List.sum_append, Finset.sum_range_succ, ih]; simp

theorem initLaw_sum (hN : Tractable β μ ν N T f) {m : Nat} {x : (Nat → V) × ℝ} (h : (initLaw N f m).Ret x) :
    x.2 = ∑ t ∈ Finset.range m, lp (N.coorDist f (t : Nat) none (slices N (x.1 t))) (x.1 t) := by
  obtain ⟨zs, h1, h2⟩ := initLaw_ret h
  rw [h2]
  refine (sum_map_range _ m).trans (Finset.sum_congr rfl fun t ht => ?_)
  obtain ⟨e1, e2⟩ := h1 t (Finset.mem_range.1 ht)
  rw [e2, hN.restack t none (zs t) e1]

theorem expect_is (hN : Tractable β μ ν N T f) (H : (Nat → V) → V → ℝ → ℝ≥0∞) (hH : Measurable fun x : ((Nat → V) × V) × ℝ => H x.1.1 x.1.2 x.2) :
    expectB β (isLaw N f T) (fun p => H p.pos p.what p.lw) =
      overPositions μ f T fun p => ∫⁻ z, dens (proposalLog N T f p z) * H p z (modelJoint N T f p z - proposalLog N T f p z) ∂ν := by
  have hQ : Measurable fun p : Nat → V => ∑ t ∈ Finset.range T, lp (N.coorDist f (t : Nat) none (slices N (p t))) (p t) :=
    Finset.measurable_sum _ fun t _ => (hN.coor0 t).comp (measurable_pi_apply t)
  have hj : Measurable fun x : (Nat → V) × V => modelJoint N T f x.1 x.2 := by
    have := hN.joint T
    simp only [joint_model] at this
    exact this
  have hK : Measurable fun x : (Nat → V) × V => proposalLog N T f x.1 x.2 := (hQ.comp measurable_fst).add hN.digit
  rw [isLaw, expect_bind', ← expect_init hN]
  · refine expect_congr_ret _ fun x hx => ?_
    have hs := initLaw_sum hN hx
    simp only [expectB]
    rw [hN.digit_base, ← lintegral_const_mul' _ _ (dens_ne_top _)]
    refine lintegral_congr fun z => ?_
    have e1 : Apg.joint N T T f x.1 z - (x.2 + lp (N.digitDist f ((List.range T).map x.1)) z) = modelJoint N T f x.1 z - proposalLog N T f x.1 z := by
      rw [joint_model, hs, proposalLog]
    show dens _ * H x.1 z (Apg.joint N T T f x.1 z - (x.2 + lp (N.digitDist f ((List.range T).map x.1)) z)) = _
    rw [e1, ← mul_assoc, ← dens_add]
    congr 2
    rw [proposalLog, ← hs]
    ring
  · refine Measurable.lintegral_prod_right' (f := fun x : (Nat → V) × V =>
      dens (proposalLog N T f x.1 x.2) * H x.1 x.2 (modelJoint N T f x.1 x.2 - proposalLog N T f x.1 x.2)) ?_
    exact (measurable_dens.comp hK).mul (hH.comp (measurable_id.prodMk (hj.sub hK)))

variable (N : ApgNet (PLang V D Lo lp)) (same : V → V → Bool) (hsame : ∀ v, same v v = true)
  (fresh i0 i1 i2 i3 : ObjId) (h1 : i1 ≤ fresh) (h2 : i2 ≤ fresh) (h3 : i3 ≤ fresh) (fl : LW ℝ → LW ℝ → LW ℝ → Lo)
  (gl : LW ℝ → LW ℝ → ℝ → Lo) (r : ResamplerFn (PLang V D Lo lp))
  (T : Nat) (hT : 1 ≤ T) (kvs : List (String × PyVal (PLang V D Lo lp))) (frames : V)
  (hf : getL kvs "frames" = some (.tensor frames)) (hft : N.timesteps frames = T)

include hsame h1 h2 h3 hT hf hft in
/-- C83. The program without sweeps draws positions and appearance with the proposal's density, and the log weight is the model's log density less the
proposal's: for every function of the three. -/
theorem C83_law (hN : Tractable β μ ν N T frames) (H : List V → V → ℝ → ℝ≥0∞)
    (hH : Measurable fun x : ((Nat → V) × V) × ℝ => H ((List.range T).map x.1.1) x.1.2 x.2) :
    ∃ q, gibbsSweeps fresh (apgObjs N i0 i1 i2 i3 fl gl r) 0 T = .ok q ∧
      ∀ kw, KwOk kw → ∀ w, (∀ j, w.cond j = none) → w.store.hooks = apgHooks same →
        expectB β (eval q (.dict kvs) kw w) (seen T 0 frames H) =
          overPositions μ frames T fun p => ∫⁻ z, dens (proposalLog N T frames p z) *
            H ((List.range T).map p) z (modelJoint N T frames p z - proposalLog N T frames p z) ∂ν := by
  let r' : ResamplerFn (PLang V D Lo lp) := fun _ _ t lw => .ret (.ok (t, lw))
  have hi : ∀ m, gibbsInit fresh (apgObjs N i0 i1 i2 i3 fl gl r) m = gibbsInit fresh (apgObjs N i0 i1 i2 i3 fl gl r') m := by
    intro m
    induction m with
    | zero => rfl
    | succ m ih => unfold gibbsInit; rw [ih]; rfl
  have hr : gibbsSweeps fresh (apgObjs N i0 i1 i2 i3 fl gl r) 0 T = gibbsSweeps fresh (apgObjs N i0 i1 i2 i3 fl gl r') 0 T := by
    unfold gibbsSweeps
    simp only [Nat.lt_irrefl, if_false]
    unfold gibbsIs
    rw [hi]
    rfl
  obtain ⟨q, e, -⟩ := C64_program N same hsame (fun _ => rfl) fresh i0 i1 i2 i3 h1 h2 h3 fl gl r' .none .none id (fun _ _ _ => .ret) T 0 hT kvs frames hf hft
  refine ⟨q, hr.trans e, fun kw hkw w hc hh => ?_⟩
  obtain ⟨q', e', h⟩ := C64_program N same hsame (fun _ => rfl) fresh i0 i1 i2 i3 h1 h2 h3 fl gl r' kw.sampleDims kw.batchDim id (fun _ _ _ => .ret) T 0 hT
    kvs frames hf hft
  rw [e] at e'
  cases e'
  have hl := h kw hkw rfl rfl w hc hh
  rw [expect_like hl (g := seen T 0 frames H) (k := fun p => H ((List.range T).map p.pos) p.what p.lw)]
  · exact expect_is hN (fun p z x => H ((List.range T).map p) z x) hH
  · intro p out w' hQ
    exact seen_eq hQ.1 hQ.2.1

end general

section networks
open Bouncing
variable {fp dp hd hc zd K T : Nat}

/-- One coordinate of independent ones. -/
theorem lintegral_pi_coord {X : Type} [MeasurableSpace X] (μ : Measure X) [SigmaFinite μ] (n : Nat) (f : Fin n → X → ℝ≥0∞) (hf : ∀ i, Measurable (f i))
    (h1 : ∀ i, ∫⁻ x, f i x ∂μ = 1) (i : Fin n) (g : X → ℝ≥0∞) (hg : Measurable g) :
    ∫⁻ v : Fin n → X, (∏ j, f j (v j)) * g (v i) ∂Measure.pi (fun _ => μ) = ∫⁻ x, f i x * g x ∂μ := by
  have h := lintegral_pi_prod μ n (fun j x => f j x * if j = i then g x else 1) fun j => (hf j).mul (by split_ifs <;> fun_prop)
  have e : ∀ v : Fin n → X, (∏ j, f j (v j) * if j = i then g (v j) else 1) = (∏ j, f j (v j)) * g (v i) := by
    intro v
    rw [Finset.prod_mul_distrib, Finset.prod_ite_eq' Finset.univ i fun j => g (v j), if_pos (Finset.mem_univ i)]
  rw [← lintegral_congr e, h, Finset.prod_eq_single i]
  · simp only [if_true]
  · intro j _ hj
    simp only [if_neg hj, mul_one, h1]
  · simp

/-- One coordinate of a Gaussian. -/
theorem normal1_coord {n : Nat} (m s : Fin n → ℝ) (hs : ∀ i, 0 < s i) (i : Fin n) (g : ℝ → ℝ≥0∞) (hg : Measurable g) :
    ∫⁻ v : Fin n → ℝ, dens (∑ j, normalLp (m j) (s j) (v j)) * g (v i) = ∫⁻ x, dens (normalLp (m i) (s i) x) * g x := by
  simp_rw [dens_sum]
  exact lintegral_pi_coord volume n (fun j x => dens (normalLp (m j) (s j) x))
    (fun j => measurable_dens.comp (measurable_normalLp measurable_const measurable_const measurable_id)) (fun j => normalLp_mass _ _ (hs j)) i g hg

/-- The first position's coordinate in a walk. -/
theorem walk_first {n : Nat} (k : Fin K) (i : Fin 2) (g : ℝ → ℝ≥0∞) (hg : Measurable g) :
    ∫⁻ z : Fin (n + 1) → Pos K, Spec.Bouncing.walk z * g (z 0 k i) = ∫⁻ x, gaussianPDF 0 1 x * g x := by
  have hc : ∀ n, Measurable fun z : Fin (n + 1) → Pos K => g (z 0 k i) := fun n =>
    hg.comp (measurable_pi_iff.1 (measurable_pi_iff.1 (measurable_pi_apply 0) k) i)
  induction n with
  | zero =>
    refine (lintegral_pi_snoc (X := Pos K) volume 0 (fun z => Spec.Bouncing.walk z * g (z 0 k i)) (measurable_walk.mul (hc 0))).trans ?_
    simp only [walk_snoc]
    have e : ∀ (y : Fin 0 → Pos K) (x : Pos K), (Fin.snoc (α := fun _ => Pos K) y x : Fin 1 → Pos K) 0 = x := fun y x =>
      Fin.snoc_last (α := fun _ => Pos K) x y
    have e2 : ∀ y : Fin 0 → Pos K, Spec.Bouncing.walk y = 1 := fun y => by simp [Spec.Bouncing.walk]
    simp only [e, e2, one_mul, dif_pos, ← dens_one, ← dens_sum]
    rw [lintegral_const]
    have hu : (Measure.pi fun _ : Fin 0 => (volume : Measure (Pos K))) Set.univ = 1 := by simp
    rw [hu, mul_one]
    have e3 : ∀ x : Pos K, dens (∑ k, ∑ i, normalLp 0 1 (x k i)) = ∏ k, dens (∑ i, normalLp 0 1 (x k i)) := fun x => dens_sum _ _
    simp only [e3]
    refine (lintegral_pi_coord (X := Fin 2 → ℝ) volume K (fun _ v => dens (∑ i, normalLp 0 1 (v i))) (fun _ => ?_) (fun _ => ?_) k (fun v => g (v i)) ?_).trans ?_
    · exact measurable_dens.comp (measurable_normal1 measurable_const measurable_const measurable_id)
    · exact normal_mass1 (fun _ => 0) (fun _ => 1) fun _ => one_pos
    · exact hg.comp (measurable_pi_apply i)
    · exact normal1_coord (fun _ => 0) (fun _ => 1) (fun _ => one_pos) i g hg
  | succ n ih =>
    refine (lintegral_pi_snoc (X := Pos K) volume (n + 1) (fun z => Spec.Bouncing.walk z * g (z 0 k i)) (measurable_walk.mul (hc _))).trans (Eq.trans ?_ ih)
    refine lintegral_congr fun y => ?_
    have e : ∀ x : Pos K, (Fin.snoc (α := fun _ => Pos K) y x : Fin (n + 2) → Pos K) 0 = y 0 := fun x =>
      Fin.snoc_castSucc (α := fun _ => Pos K) x y 0
    simp only [walk_snoc, e]
    have e2 : ∀ x : Pos K, (Spec.Bouncing.walk y * ∏ k, ∏ i, if hn : n + 1 = 0 then gaussianPDF 0 1 (x k i)
        else gaussianPDF (y ⟨n + 1 - 1, by omega⟩ k i) ((1 / 5) ^ 2) (x k i)) * g (y 0 k i) =
        (Spec.Bouncing.walk y * g (y 0 k i)) * ∏ k, ∏ i, if hn : n + 1 = 0 then gaussianPDF 0 1 (x k i)
          else gaussianPDF (y ⟨n + 1 - 1, by omega⟩ k i) ((1 / 5) ^ 2) (x k i) := fun x => mul_right_comm _ _ _
    simp only [e2]
    rw [lintegral_const_mul _ (measurable_step y), step_mass, mul_one]

variable (P : Params fp dp hd hc zd) (ms : Img dp) (rep : Bool)

theorem coorDraws_head {L : Lang} {N : ApgNet L} {f : L.V} {t : Int} {what : Option L.V} (m : Nat) (v : L.V) (zs : List L.V) {ys : List L.V}
    (h : (coorDraws N f t what m (v :: zs)).Ret ys) : ys[0]? = some v := by
  induction m generalizing zs with
  | zero => cases h; rfl
  | succ m ih =>
    obtain ⟨u, h⟩ := h
    exact ih (zs ++ [u]) h

/-- Under importance sampling the first object's first position has the law the network says. -/
theorem is_first (f : Val K zd T fp) (hT : 0 < T) (hK : 0 < K) (i : Fin 2) (g : ℝ → ℝ≥0∞) (hg : Measurable g) :
    expectB base (isLaw (net P ms K T rep) f T) (fun p => g (toPos (p.pos 0) ⟨0, hK⟩ i)) =
      ∫⁻ x, dens (normalLp (coorMean P (toVideo f ⟨0, hT⟩) ms i) (coorStd P (toVideo f ⟨0, hT⟩) ms i) x) * g x := by
  have hN := tractable P ms (K := K) (T := T) rep f
  rw [isLaw, expect_bind']
  have e1 : ∀ x : (Nat → Val K zd T fp) × ℝ, expectB (D := Dist K zd T fp) (Lo := ℝ) (lp := logProb) base
      (.draw ((net P ms K T rep).digitDist f ((List.range T).map x.1)) (net P ms K T rep).reparam fun z => .ret
        ({ pos := x.1, what := z,
           lw := Apg.joint (net P ms K T rep) T T f x.1 z - (x.2 + logProb ((net P ms K T rep).digitDist f ((List.range T).map x.1)) z) } : Particle (L K zd T fp)))
      (fun p => g (toPos (p.pos 0) ⟨0, hK⟩ i)) = g (toPos (x.1 0) ⟨0, hK⟩ i) := by
    intro x
    simp only [expectB]
    rw [lintegral_mul_const]
    · rw [hN.digit_base, hN.digit_one, one_mul]
    · exact measurable_dens.comp (measurable_normal2 measurable_const measurable_const measurable_toWhat)
  refine Eq.trans (congrArg _ (funext e1)) ?_
  have e2 : ∀ m, expectB base (initLaw (net P ms K T rep) f (m + 1)) (fun x => g (toPos (x.1 0) ⟨0, hK⟩ i)) =
      expectB base (initLaw (net P ms K T rep) f 1) (fun x => g (toPos (x.1 0) ⟨0, hK⟩ i)) := by
    intro m
    induction m with
    | zero => rfl
    | succ m ih =>
      rw [← ih, initLaw, expect_bind']
      congr 1
      funext x
      rw [expect_bind']
      simp only [expectB]
      rw [← expect_mul_coor (β := base) (N := net P ms K T rep) (f := f) K [] ((m + 1 : Nat)) none (g (toPos (x.1 0) ⟨0, hK⟩ i)) (hN.step_one _ _)]
      congr 1
  obtain ⟨T', rfl⟩ : ∃ n, T = n + 1 := ⟨T - 1, by omega⟩
  rw [e2 T']
  simp only [initLaw, Comp.bind_ret, expect_bind', expectB, Function.update_self]
  obtain ⟨K', rfl⟩ : ∃ n, K = n + 1 := ⟨K - 1, by omega⟩
  have e3 : (net P ms (K' + 1) (T' + 1) rep).objects = K' + 1 := rfl
  rw [e3]
  simp only [coorDraws, expectB]
  have hstep : (net P ms (K' + 1) (T' + 1) rep).coorStep f ((0 : Nat) : Int) none [] =
      .one (coorMean P (toVideo f 0) ms) (coorStd P (toVideo f 0) ms) := by
    simp only [net, List.length_nil, dif_pos (Nat.succ_pos K')]
    have : frameAt (toVideo f) ((0 : Nat) : Int) = toVideo f 0 := by
      unfold frameAt
      rw [dif_pos (by constructor <;> simp <;> omega)]
      rfl
    rw [this]
    rfl
  rw [hstep]
  simp only [base]
  rw [emb_one.lintegral_map]
  refine Eq.trans ?_ (normal1_coord (coorMean P (toVideo f 0) ms) (coorStd P (toVideo f 0) ms) (fun _ => Real.exp_pos _) i g hg)
  refine lintegral_congr fun v => ?_
  congr 1
  rw [← expect_mul_coor (β := base) (N := net P ms (K' + 1) (T' + 1) rep) (f := f) K' [mkOne v] ((0 : Nat)) none (g (v i)) (hN.step_one _ _)]
  refine expect_congr_ret _ fun ys hy => ?_
  have hh := coorDraws_head (L := L (K' + 1) zd (T' + 1) fp) K' (mkOne v) [] hy
  show g (zAt ys 0 i) = _
  unfold zAt
  rw [hh]
  rfl

/-- Half a line of length `n`, on the other side of zero than `m`. -/
def half (m : ℝ) (n : ℕ) : Set ℝ := if 0 ≤ m then Set.Icc (-n) 0 else Set.Icc 0 n

theorem half_volume (m : ℝ) (n : ℕ) : volume (half m n) = n := by
  unfold half
  split_ifs <;> simp [Real.volume_Icc]

theorem half_measurable (m : ℝ) (n : ℕ) : MeasurableSet (half m n) := by
  unfold half
  split_ifs <;> exact measurableSet_Icc

theorem half_far {m : ℝ} {n : ℕ} {x : ℝ} (h : x ∈ half m n) : x ^ 2 ≤ (x - m) ^ 2 := by
  unfold half at h
  split_ifs at h with hm
  · nlinarith [h.2]
  · nlinarith [h.1, not_le.1 hm]

/-- Log density of a standard normal less that of another. -/
noncomputable def gain (m s x : ℝ) : ℝ := normalLp 0 1 x - normalLp m s x

/-- A narrow proposal misses infinitely much. -/
theorem chi_lower (m s : ℝ) (hs : 0 < s) (h2 : s ^ 2 ≤ 1 / 2) {n : ℕ} {x : ℝ} (h : x ∈ half m n) : Real.log s - Real.log (√(2 * Real.pi)) ≤ normalLp 0 1 x + gain m s x := by
  unfold gain normalLp
  have h3 : x ^ 2 ≤ (x - m) ^ 2 / (2 * s ^ 2) := by
    rw [le_div_iff₀ (by positivity)]
    nlinarith [half_far h, sq_nonneg x, sq_nonneg (x - m)]
  simp only [Real.log_one, sub_zero]
  have e : -(x - m) ^ 2 / (2 * s ^ 2) = -((x - m) ^ 2 / (2 * s ^ 2)) := neg_div _ _
  rw [e]
  have : -x ^ 2 / (2 * 1 ^ 2) = -(x ^ 2) / 2 := by norm_num
  rw [this]
  linarith

/-- What is missed within the half line. -/
noncomputable def missed (m s : ℝ) (n : ℕ) : ℝ≥0∞ := ∫⁻ x in half m n, dens (normalLp 0 1 x + gain m s x)

theorem missed_lower (m s : ℝ) (hs : 0 < s) (h2 : s ^ 2 ≤ 1 / 2) (n : ℕ) : dens (Real.log s - Real.log (√(2 * Real.pi))) * n ≤ missed m s n := by
  unfold missed
  rw [← half_volume m n, ← setLIntegral_const]
  refine setLIntegral_mono' (half_measurable m n) fun x hx => ?_
  exact ENNReal.ofReal_le_ofReal (Real.exp_le_exp.2 (chi_lower m s hs h2 hx))

theorem missed_finite (m s : ℝ) (n : ℕ) : missed m s n ≠ ⊤ := by
  have hc : Continuous fun x => Real.exp (normalLp 0 1 x + gain m s x) := by
    unfold gain normalLp
    fun_prop
  have hi : IntegrableOn (fun x => Real.exp (normalLp 0 1 x + gain m s x)) (half m n) := by
    unfold half
    split_ifs <;> exact hc.integrableOn_Icc
  exact (Integrable.lintegral_lt_top hi).ne

theorem measurable_gain (m s : ℝ) : Measurable (gain m s) := by
  unfold gain
  exact (measurable_normalLp measurable_const measurable_const measurable_id).sub (measurable_normalLp measurable_const measurable_const measurable_id)

/-- The test function. -/
noncomputable def probe (c : ℝ≥0∞) (m s : ℝ) (n : ℕ) (x : ℝ) : ℝ≥0∞ := (half m n).indicator (fun x => c * dens (gain m s x)) x

theorem measurable_probe (c : ℝ≥0∞) (m s : ℝ) (n : ℕ) : Measurable (probe c m s n) :=
  ((measurable_dens.comp (measurable_gain m s)).const_mul c).indicator (half_measurable m n)

theorem probe_prior (c : ℝ≥0∞) (m s : ℝ) (n : ℕ) : ∫⁻ x, gaussianPDF 0 1 x * probe c m s n x = c * missed m s n := by
  have e : ∀ x, gaussianPDF 0 1 x * probe c m s n x = (half m n).indicator (fun x => c * dens (normalLp 0 1 x + gain m s x)) x := by
    intro x
    unfold probe
    by_cases hx : x ∈ half m n
    · rw [Set.indicator_of_mem hx, Set.indicator_of_mem hx, ← dens_one, dens_add]
      ring
    · rw [Set.indicator_of_notMem hx, Set.indicator_of_notMem hx, mul_zero]
  simp only [e]
  rw [lintegral_indicator (half_measurable m n), lintegral_const_mul]
  · rfl
  · exact measurable_dens.comp ((measurable_normalLp measurable_const measurable_const measurable_id).add (measurable_gain m s))

theorem probe_proposal (c : ℝ≥0∞) (m s : ℝ) (n : ℕ) : ∫⁻ x, dens (normalLp m s x) * probe c m s n x ^ 2 = c ^ 2 * missed m s n := by
  have e : ∀ x, dens (normalLp m s x) * probe c m s n x ^ 2 = (half m n).indicator (fun x => c ^ 2 * dens (normalLp 0 1 x + gain m s x)) x := by
    intro x
    unfold probe
    by_cases hx : x ∈ half m n
    · rw [Set.indicator_of_mem hx, Set.indicator_of_mem hx]
      have : normalLp 0 1 x = normalLp m s x + gain m s x := by unfold gain; ring
      rw [this, dens_add, dens_add]
      ring
    · rw [Set.indicator_of_notMem hx, Set.indicator_of_notMem hx]
      simp
  simp only [e]
  rw [lintegral_indicator (half_measurable m n), lintegral_const_mul]
  · rfl
  · exact measurable_dens.comp ((measurable_normalLp measurable_const measurable_const measurable_id).add (measurable_gain m s))

theorem two_mul_le_sq (a b : ℝ≥0∞) : 2 * (a * b) ≤ a ^ 2 + b ^ 2 := by
  by_cases ha : a = ⊤
  · subst ha; simp
  by_cases hb : b = ⊤
  · subst hb; simp
  lift a to NNReal using ha
  lift b to NNReal using hb
  have : 2 * (a * b) ≤ a ^ 2 + b ^ 2 := by
    rw [← NNReal.coe_le_coe]
    push_cast
    nlinarith [sq_nonneg ((a : ℝ) - b)]
  exact_mod_cast this

theorem low_bound (f : Video T fp) (hT : 0 < T) (hK : 0 < K) (i : Fin 2) (hfr : ∀ t i j, 0 ≤ f t i j ∧ f t i j ≤ 1) (m s : ℝ) (n : ℕ) :
    ENNReal.ofReal ((1 / 2 ^ 23) ^ (T * (fp * fp))) ^ 2 * missed m s n ≤ ∫⁻ z : Fin T → Pos K, ∫⁻ w : What K zd, Spec.Bouncing.density (digitMean P) f z w *
        probe (ENNReal.ofReal ((1 / 2 ^ 23) ^ (T * (fp * fp)))) m s n (z ⟨0, hT⟩ ⟨0, hK⟩ i) := by
  obtain ⟨T', rfl⟩ : ∃ n, T = n + 1 := ⟨T - 1, by omega⟩
  have hl : ∀ (z : Fin (T' + 1) → Pos K) (w : What K zd), ENNReal.ofReal ((1 / 2 ^ 23) ^ ((T' + 1) * (fp * fp))) ≤
      ENNReal.ofReal (Spec.Bouncing.likelihood f (Spec.Bouncing.picture (fun k => digitMean P (w k)) z)) :=
    fun z w => ENNReal.ofReal_le_ofReal (C82_likelihood f _ hfr).1
  have hct : ENNReal.ofReal ((1 / 2 ^ 23) ^ ((T' + 1) * (fp * fp))) ≠ ⊤ := ENNReal.ofReal_ne_top
  generalize ENNReal.ofReal ((1 / 2 ^ 23) ^ ((T' + 1) * (fp * fp))) = c at hl hct ⊢
  rw [pow_two, mul_assoc, ← probe_prior, ← walk_first (n := T') (⟨0, hK⟩ : Fin K) i _ (measurable_probe c m s n), ← lintegral_const_mul' _ _ hct]
  refine lintegral_mono fun z => ?_
  have e : c * (Spec.Bouncing.walk z * probe c m s n (z 0 ⟨0, hK⟩ i)) =
      ∫⁻ w : What K zd, (c * (Spec.Bouncing.walk z * probe c m s n (z 0 ⟨0, hK⟩ i))) * Spec.Bouncing.looks w := by
    rw [lintegral_const_mul _ measurable_looks, looks_mass, mul_one]
  refine e.le.trans ?_
  refine lintegral_mono fun w => ?_
  unfold Spec.Bouncing.density
  calc c * (Spec.Bouncing.walk z * probe c m s n (z 0 ⟨0, hK⟩ i)) * Spec.Bouncing.looks w
      = Spec.Bouncing.walk z * Spec.Bouncing.looks w * c * probe c m s n (z 0 ⟨0, hK⟩ i) := by ring
    _ ≤ _ := mul_le_mul_left (mul_le_mul_right (hl z w) _) _

/-- The inequality `2 a b ≤ a² + b²` under the integral. -/
theorem cross_le {f : Val K zd T fp} (hT : 0 < T) (J Q : (Nat → Val K zd T fp) → Val K zd T fp → ℝ) (X : (Nat → Val K zd T fp) → ℝ≥0∞) (Y : (Fin T → Pos K) → ℝ≥0∞)
    (hj : Measurable fun x : (Nat → Val K zd T fp) × Val K zd T fp => J x.1 x.2) (hk : Measurable fun x : (Nat → Val K zd T fp) × Val K zd T fp => Q x.1 x.2)
    (hx : Measurable X) (D : (Fin T → Pos K) → What K zd → ℝ≥0∞)
    (hD : ∀ z w, D z w = dens (J (fun n => if hn : n < T then mkPos (z ⟨n, hn⟩) else f) (mkWhat w)))
    (hY : ∀ z, X (fun n => if hn : n < T then mkPos (z ⟨n, hn⟩) else f) = Y z) :
    2 * ∫⁻ z : Fin T → Pos K, ∫⁻ w : What K zd, D z w * Y z ≤
      ∫⁻ z : Fin T → Pos K, ((∫⁻ y, dens (Q (fun n => if hn : n < T then mkPos (z ⟨n, hn⟩) else f) y) *
          dens (J (fun n => if hn : n < T then mkPos (z ⟨n, hn⟩) else f) y - Q (fun n => if hn : n < T then mkPos (z ⟨n, hn⟩) else f) y) ^ 2 ∂(whatBase K zd T fp)) +
        ∫⁻ y, dens (Q (fun n => if hn : n < T then mkPos (z ⟨n, hn⟩) else f) y) * X (fun n => if hn : n < T then mkPos (z ⟨n, hn⟩) else f) ^ 2 ∂(whatBase K zd T fp)) := by
  rw [← lintegral_const_mul' _ _ ENNReal.ofNat_ne_top]
  refine lintegral_mono fun z => ?_
  have hq : Measurable fun w : What K zd => Q (fun n => if hn : n < T then mkPos (z ⟨n, hn⟩) else f) (mkWhat w) :=
    hk.comp (measurable_const.prodMk emb_what.measurable)
  have hJ : Measurable fun w : What K zd => J (fun n => if hn : n < T then mkPos (z ⟨n, hn⟩) else f) (mkWhat w) :=
    hj.comp (measurable_const.prodMk emb_what.measurable)
  unfold whatBase
  rw [← lintegral_const_mul' _ _ ENNReal.ofNat_ne_top, emb_what.lintegral_map, emb_what.lintegral_map]
  refine le_trans ?_ (le_of_eq (lintegral_add_left ((measurable_dens.comp hq).mul ((measurable_dens.comp (hJ.sub hq)).pow_const 2)) _))
  refine lintegral_mono fun w => ?_
  show _ ≤ dens (Q _ _) * dens (J _ _ - Q _ _) ^ 2 + _
  simp only [hD, hY]
  generalize J _ _ = a
  generalize Q _ _ = b
  have : dens a = dens b * dens (a - b) := by rw [← dens_add]; congr 1; ring
  rw [this, ← mul_add]
  calc 2 * (dens b * dens (a - b) * Y z) = dens b * (2 * (dens (a - b) * Y z)) := by ring
    _ ≤ _ := mul_le_mul_right (two_mul_le_sq _ _) _

/-- The second moment of the weight is at least what the test function shows. -/
theorem second_moment_lower (f : Val K zd T fp) (hT : 0 < T) (hK : 0 < K) (i : Fin 2) (hfr : ∀ t i j, 0 ≤ toVideo f t i j ∧ toVideo f t i j ≤ 1) (n : ℕ) :
    ENNReal.ofReal ((1 / 2 ^ 23) ^ (T * (fp * fp))) ^ 2 * missed (coorMean P (toVideo f ⟨0, hT⟩) ms i) (coorStd P (toVideo f ⟨0, hT⟩) ms i) n ≤
      expectB base (isLaw (net P ms K T rep) f T) fun p => dens p.lw ^ 2 := by
  have a2' := fun c m s => is_first P ms rep f hT hK i (fun x => probe c m s n x ^ 2) ((measurable_probe c m s n).pow_const 2)
  generalize coorMean P (toVideo f ⟨0, hT⟩) ms i = m at a2' ⊢
  generalize coorStd P (toVideo f ⟨0, hT⟩) ms i = s at a2' ⊢
  obtain ⟨c, hc⟩ : ∃ c, c = ENNReal.ofReal ((1 / 2 ^ 23) ^ (T * (fp * fp))) := ⟨_, rfl⟩
  rw [← hc]
  have hN := tractable P ms (K := K) (T := T) rep f
  have hg := measurable_probe c m s n
  have hx : Measurable fun p : Nat → Val K zd T fp => probe c m s n (toPos (p 0) ⟨0, hK⟩ i) :=
    hg.comp ((measurable_pi_apply i).comp ((measurable_pi_apply (⟨0, hK⟩ : Fin K)).comp
      (measurable_toPos.comp (measurable_pi_apply (X := fun _ => Val K zd T fp) 0))))
  have hQ : Measurable fun p : Nat → Val K zd T fp => ∑ t ∈ Finset.range T, logProb ((net P ms K T rep).coorDist f (t : Nat) none (slices (net P ms K T rep) (p t))) (p t) :=
    Finset.measurable_sum _ fun t _ => (hN.coor0 t).comp (measurable_pi_apply t)
  have hj : Measurable fun x : (Nat → Val K zd T fp) × Val K zd T fp => modelJoint (net P ms K T rep) T f x.1 x.2 := by
    have := hN.joint T
    simp only [joint_model] at this
    exact this
  have hk : Measurable fun x : (Nat → Val K zd T fp) × Val K zd T fp => proposalLog (net P ms K T rep) T f x.1 x.2 := (hQ.comp measurable_fst).add hN.digit
  -- the three integrals
  have a1 := expect_is hN (fun _ _ l => dens l ^ 2) ((measurable_dens.comp measurable_snd).pow_const 2)
  have a2 := expect_is hN (fun p _ _ => probe c m s n (toPos (p 0) ⟨0, hK⟩ i) ^ 2) ((hx.comp (measurable_fst.comp measurable_fst)).pow_const 2)
  rw [a2', probe_proposal] at a2
  have ext : Measurable fun z : Fin T → Pos K => fun n => if hn : n < T then (mkPos (z ⟨n, hn⟩) : Val K zd T fp) else f := by
    refine measurable_pi_lambda _ fun n => ?_
    by_cases hn : n < T
    · simp only [dif_pos hn]
      exact emb_pos.measurable.comp (measurable_pi_apply _)
    · simp only [dif_neg hn]
      exact measurable_const
  have m1 : Measurable fun x : (Nat → Val K zd T fp) × Val K zd T fp => dens (proposalLog (net P ms K T rep) T f x.1 x.2) *
      dens (modelJoint (net P ms K T rep) T f x.1 x.2 - proposalLog (net P ms K T rep) T f x.1 x.2) ^ 2 :=
    (measurable_dens.comp hk).mul ((measurable_dens.comp (hj.sub hk)).pow_const 2)
  have m2 : Measurable fun x : (Nat → Val K zd T fp) × Val K zd T fp => dens (proposalLog (net P ms K T rep) T f x.1 x.2) *
      probe c m s n (toPos (x.1 0) ⟨0, hK⟩ i) ^ 2 := (measurable_dens.comp hk).mul ((hx.comp measurable_fst).pow_const 2)
  rw [overPositions_pi _ _ _ m1.lintegral_prod_right'] at a1
  rw [overPositions_pi _ _ _ m2.lintegral_prod_right'] at a2
  have key : 2 * (c ^ 2 * missed m s n) ≤ (expectB base (isLaw (net P ms K T rep) f T) fun p => dens p.lw ^ 2) + c ^ 2 * missed m s n := by
    rw [a1]
    refine le_trans ?_ (le_of_eq (congrArg _ a2.symm))
    refine le_trans ?_ (le_of_eq (lintegral_add_left (m1.lintegral_prod_right'.comp ext) _))
    have low := low_bound P (T := T) (K := K) (toVideo f) hT hK i hfr m s n
    rw [← hc] at low
    refine (mul_le_mul_right low 2).trans ?_
    refine cross_le (f := f) hT _ _ _ _ hj hk hx _ (fun z w => ?_) fun z => ?_
    · have e1 := C82_density P ms rep f (fun n => if hn : n < T then (mkPos (z ⟨n, hn⟩) : Val K zd T fp) else f) (mkWhat w)
      have e2 : (fun t : Fin T => toPos ((fun n => if hn : n < T then (mkPos (z ⟨n, hn⟩) : Val K zd T fp) else f) t)) = z := by
        funext t
        simp only [dif_pos t.2]
        rfl
      rw [e2] at e1
      exact e1.symm
    · show probe c m s n (toPos (if hn : 0 < T then (mkPos (z ⟨0, hn⟩) : Val K zd T fp) else f) ⟨0, hK⟩ i) = _
      rw [dif_pos hT]
      rfl
  have hfin : c ^ 2 * missed m s n ≠ ⊤ := ENNReal.mul_ne_top (ENNReal.pow_ne_top (hc ▸ ENNReal.ofReal_ne_top)) (missed_finite m s n)
  rw [two_mul] at key
  exact (ENNReal.add_le_add_iff_right hfin).1 key

variable (same : Val K zd T fp → Val K zd T fp → Bool) (hsame : ∀ v, same v v = true)
  (fresh i0 i1 i2 i3 : ObjId) (h1 : i1 ≤ fresh) (h2 : i2 ≤ fresh) (h3 : i3 ≤ fresh) (fl : LW ℝ → LW ℝ → LW ℝ → ℝ)
  (gl : LW ℝ → LW ℝ → ℝ → ℝ) (r : ResamplerFn (L K zd T fp))
  (hT : 1 ≤ T) (kvs : List (String × PyVal (L K zd T fp))) (frames : Video T fp)
  (hf : getL kvs "frames" = some (.tensor (mkVideo frames)))

include hsame h1 h2 h3 hT hf in
/-- C83. Whenever the network's scale for a coordinate of the first object in the first frame is at most 1/√2 (the prior's is 1), the weights of
importance sampling have infinite variance: their expectation is at most 1 (C82) but the expectation of their squares is infinite. The pixels are between
0 and 1; all other parameters are arbitrary. -/
theorem C83_infinite (hK : 0 < K) (hfr : ∀ t i j, 0 ≤ frames t i j ∧ frames t i j ≤ 1) (i : Fin 2) (hs : coorStd P (frames ⟨0, hT⟩) ms i ^ 2 ≤ 1 / 2) :
    ∃ q, gibbsSweeps fresh (apgObjs (net P ms K T rep) i0 i1 i2 i3 fl gl r) 0 T = .ok q ∧
      ∀ kw, KwOk kw → ∀ w, (∀ j, w.cond j = none) → w.store.hooks = apgHooks same →
        expectB base (eval q (.dict kvs) kw w) (weighed T 0 (mkVideo frames) fun _ _ => 1) ≤ 1 ∧
        expectB base (eval q (.dict kvs) kw w) (seen T 0 (mkVideo frames) fun _ _ l => dens l ^ 2) = ⊤ := by
  have hN := tractable P ms (K := K) (T := T) rep (mkVideo frames)
  have hH : Measurable fun x : ((Nat → Val K zd T fp) × Val K zd T fp) × ℝ => dens x.2 ^ 2 := (measurable_dens.comp measurable_snd).pow_const 2
  obtain ⟨q, e, h⟩ := C83_law (net P ms K T rep) same hsame fresh i0 i1 i2 i3 h1 h2 h3 fl gl r T hT kvs (mkVideo frames) hf rfl hN
    (fun _ _ l => dens l ^ 2) hH
  refine ⟨q, e, fun kw hkw w hc hh => ⟨?_, ?_⟩⟩
  · obtain ⟨q', e', h'⟩ := C82_evidence (S := 0) P ms rep same hsame fresh i0 i1 i2 i3 h1 h2 h3 fl gl (fun _ _ t lw => .ret (.ok (t, lw))) kw.sampleDims
      kw.batchDim hT kvs frames hf fun _ _ _ => .ret
    have hi : ∀ m (r' : ResamplerFn (L K zd T fp)), gibbsInit fresh (apgObjs (net P ms K T rep) i0 i1 i2 i3 fl gl r) m =
        gibbsInit fresh (apgObjs (net P ms K T rep) i0 i1 i2 i3 fl gl r') m := by
      intro m r'
      induction m with
      | zero => rfl
      | succ m ih => unfold gibbsInit; rw [ih]; rfl
    have hr : gibbsSweeps fresh (apgObjs (net P ms K T rep) i0 i1 i2 i3 fl gl r) 0 T =
        gibbsSweeps fresh (apgObjs (net P ms K T rep) i0 i1 i2 i3 fl gl fun _ _ t lw => .ret (.ok (t, lw))) 0 T := by
      unfold gibbsSweeps
      simp only [Nat.lt_irrefl, if_false]
      unfold gibbsIs
      rw [hi]
      rfl
    rw [← hr, e] at e'
    cases e'
    rw [h' kw hkw rfl rfl w hc hh]
    exact (C82_evidence_range (digitMean P) frames hfr).2
  · rw [h kw hkw w hc hh, ← expect_is hN (fun _ _ l => dens l ^ 2) hH]
    refine ENNReal.eq_top_of_forall_nnreal_le fun a => ?_
    set m := coorMean P (frames ⟨0, hT⟩) ms i
    set s := coorStd P (frames ⟨0, hT⟩) ms i with hsd
    have hs0 : 0 < s := Real.exp_pos _
    set κ := ENNReal.ofReal ((1 / 2 ^ 23) ^ (T * (fp * fp))) ^ 2 * dens (Real.log s - Real.log (√(2 * Real.pi))) with hκ
    have hκ0 : κ ≠ 0 := mul_ne_zero (pow_ne_zero _ (by simp)) (by simp [dens, Real.exp_pos])
    have hκt : κ ≠ ⊤ := ENNReal.mul_ne_top (ENNReal.pow_ne_top ENNReal.ofReal_ne_top) (dens_ne_top _)
    obtain ⟨n, hn⟩ := ENNReal.exists_nat_gt (r := (a : ℝ≥0∞) / κ) (ENNReal.div_ne_top ENNReal.coe_ne_top hκ0)
    have hlow := second_moment_lower P ms rep (mkVideo frames) hT hK i hfr n
    refine le_trans ?_ hlow
    have h5 : (a : ℝ≥0∞) ≤ κ * n := by
      have := ENNReal.div_le_iff_le_mul (a := (a : ℝ≥0∞)) (b := κ) (c := n) (Or.inl hκ0) (Or.inl hκt)
      rw [mul_comm]
      exact this.1 hn.le
    refine h5.trans ?_
    rw [hκ, mul_assoc]
    exact mul_le_mul_right (missed_lower m s hs0 hs n) _

end networks

namespace BouncingExample
open Bouncing Classical

/-- Layers of zero weights. -/
noncomputable def zero (m n : Nat) : Linear m n := { weight := 0, bias := 0 }

/-- Networks for frames of four by four pixels and shapes of two by two; the scales of the positions are exp (-1). -/
noncomputable def P : Params 4 2 2 2 1 where
  dec1 := zero _ _
  dec2 := zero _ _
  dec3 := zero _ _
  coor := zero _ _
  mean1 := zero _ _
  mean2 := zero _ _
  std1 := zero _ _
  std2 := { weight := 0, bias := fun _ => -1 }
  digit1 := zero _ _
  digit2 := zero _ _
  whatMean := zero _ _
  whatStd := zero _ _

/-- Two frames, a lit square that moves; two objects. -/
noncomputable def frames : Video 2 4 := fun t i j => if (i : ℕ) = t ∧ (j : ℕ) = t then 1 else 0

noncomputable def w : World (L 2 1 2 4) :=
  { cond := fun _ => none, store := { data := Dict.empty, hooks := apgHooks fun a b => decide (a = b) } }

noncomputable def keep : ResamplerFn (L 2 1 2 4) := fun _ _ t lw => .ret (.ok (t, lw))

theorem frames_range (t i j) : 0 ≤ frames t i j ∧ frames t i j ≤ 1 := by unfold frames; split_ifs <;> norm_num

theorem std_le : coorStd P (frames ⟨0, by decide⟩) 1 0 ^ 2 ≤ 1 / 2 := by
  have e : coorStd P (frames ⟨0, by decide⟩) 1 0 = Real.exp (-1) := by
    simp [coorStd, P, Linear.app]
  rw [e, ← Real.exp_nat_mul]
  have h2 : Real.exp (((2 : ℕ) : ℝ) * -1) = 1 / Real.exp 2 := by rw [one_div, ← Real.exp_neg]; norm_num
  rw [h2]
  exact one_div_le_one_div_of_le (by norm_num) ((by norm_num : (2 : ℝ) ≤ 2 + 1).trans (Real.add_one_le_exp 2))

/-- Two time steps, three sweeps, weights kept: the expected weight is the density of the two frames. -/
example : ∃ q, gibbsSweeps 4 (apgObjs (net P 1 2 2 true) 0 1 2 3 (fun a _ _ => a.val) (fun a _ _ => a.val) keep) 3 2 = .ok q ∧
    expectB base (eval q (.dict [("frames", .tensor (mkVideo frames))]) {} w) (weighed 2 3 (mkVideo frames) fun _ _ => 1) =
      Spec.Bouncing.evidence 2 (digitMean P) frames := by
  obtain ⟨q, e, h⟩ := C82_evidence (S := 3) P 1 true (fun a b => decide (a = b)) (by simp) 4 0 1 2 3 (by decide) (by decide) (by decide)
    (fun a _ _ => a.val) (fun a _ _ => a.val) keep .none .none (by decide) [("frames", .tensor (mkVideo frames))] frames rfl fun _ _ _ => .ret
  exact ⟨q, e, h {} (by simp [KwOk]) rfl rfl w (fun _ => rfl) rfl⟩

/-- Its weights without sweeps have infinite variance. -/
example : ∃ q, gibbsSweeps 4 (apgObjs (net P 1 2 2 true) 0 1 2 3 (fun a _ _ => a.val) (fun a _ _ => a.val) keep) 0 2 = .ok q ∧
    expectB base (eval q (.dict [("frames", .tensor (mkVideo frames))]) {} w) (seen 2 0 (mkVideo frames) fun _ _ l => dens l ^ 2) = ⊤ := by
  obtain ⟨q, e, h⟩ := C83_infinite P 1 true (fun a b => decide (a = b)) (by simp) 4 0 1 2 3 (by decide) (by decide) (by decide)
    (fun a _ _ => a.val) (fun a _ _ => a.val) keep (by decide) [("frames", .tensor (mkVideo frames))] frames rfl (by decide) frames_range 0 std_le
  exact ⟨q, e, (h {} (by simp [KwOk]) w (fun _ => rfl) rfl).2⟩

/-- The density of the frames is positive. -/
example : Spec.Bouncing.evidence 2 (digitMean P) frames ≠ 0 :=
  ((ENNReal.ofReal_pos.2 (by positivity)).trans_le (C82_evidence_range (K := 2) (digitMean P) frames frames_range).1).ne'

end BouncingExample
end Verif
