import Verif.Model.Kernel
import Verif.Props.Annealing
/-
C71: the kernels of the annealing experiment before training.
-/
namespace Verif

theorem softplus_inverse (s : ℝ) (hs : 0 < s) (ht : Real.log (Real.exp s - 1) ≤ 20) : softplus (Real.log (Real.exp s - 1)) = s := by
  have h1 : 0 < Real.exp s - 1 := by have := Real.add_one_lt_exp hs.ne'; linarith
  unfold softplus
  rw [if_neg (not_lt.2 ht), Real.exp_log h1]
  rw [show 1 + (Real.exp s - 1) = Real.exp s by ring, Real.log_exp]

theorem newKernel_dist {h : Nat} (net : ResMLPJ 2 h) (cov : Fin 2 → Fin 2 → ℝ) (x : Fin 2 → ℝ) :
    kernelDist (newKernel net cov) x = (x, fun i => softplus (Real.log (Real.exp (cov i i) - 1))) := by
  unfold kernelDist newKernel
  ext i
  · simp [ResMLPJ.forward, ResMLPJ.initialize, Linear.app]
  · show softplus (Fin.append _ _ (Fin.natAdd 2 i)) = _
    rw [Fin.append_right]
    simp [ResMLPJ.initialize, Linear.app]

/-- C71. A new kernel is a random walk, whatever its network's other parameters: its mean is its input, its covariance the diagonal of `cov`. -/
theorem C71_random_walk {h : Nat} (net : ResMLPJ 2 h) (cov : Fin 2 → Fin 2 → ℝ) (hc : ∀ i, 0 < cov i i)
    (ht : ∀ i, Real.log (Real.exp (cov i i) - 1) ≤ 20) (x : Fin 2 → ℝ) : kernelDist (newKernel net cov) x = (x, fun i => cov i i) := by
  rw [newKernel_dist]
  exact Prod.ext rfl (funext fun i => softplus_inverse _ (hc i) (ht i))

/-- C71. Beyond softplus's threshold the variance is a little too small: by less than e^(-20). -/
theorem C71_large_variance {h : Nat} (net : ResMLPJ 2 h) (cov : Fin 2 → Fin 2 → ℝ) (x : Fin 2 → ℝ) (i : Fin 2) (hc : 0 < cov i i)
    (ht : 20 < Real.log (Real.exp (cov i i) - 1)) :
    (kernelDist (newKernel net cov) x).2 i < cov i i ∧ cov i i - Real.exp (-20) < (kernelDist (newKernel net cov) x).2 i := by
  rw [newKernel_dist]
  have hs : softplus (Real.log (Real.exp (cov i i) - 1)) = Real.log (Real.exp (cov i i) - 1) := by
    unfold softplus; rw [if_pos ht]
  show softplus _ < _ ∧ _ < softplus _
  rw [hs]
  have h1 : 0 < Real.exp (cov i i) - 1 := by have := Real.add_one_lt_exp hc.ne'; linarith
  have h2 : Real.exp 20 < Real.exp (cov i i) - 1 := (Real.lt_log_iff_exp_lt h1).1 ht
  refine ⟨(Real.log_lt_iff_lt_exp h1).2 (by linarith), ?_⟩
  have h3 : Real.log (Real.exp (cov i i) / (Real.exp (cov i i) - 1)) ≤ Real.exp (cov i i) / (Real.exp (cov i i) - 1) - 1 :=
    Real.log_le_sub_one_of_pos (div_pos (Real.exp_pos _) h1)
  rw [Real.log_div (Real.exp_pos _).ne' h1.ne', Real.log_exp] at h3
  have h4 : Real.exp (cov i i) / (Real.exp (cov i i) - 1) - 1 = 1 / (Real.exp (cov i i) - 1) := by
    field_simp
    ring
  have h5 : 1 / (Real.exp (cov i i) - 1) < Real.exp (-20) := by
    rw [Real.exp_neg, one_div]
    exact (inv_lt_inv₀ h1 (Real.exp_pos _)).2 h2
  linarith

/-- C71. New kernels with the same covariance are each other's reverse: the density of going from x to y is that of going from y to x. -/
theorem C71_symmetric {h h' : Nat} (net : ResMLPJ 2 h) (net' : ResMLPJ 2 h') (cov : Fin 2 → Fin 2 → ℝ) (x y : Fin 2 → ℝ) :
    mvnLogProb (kernelDist (newKernel net cov) x) y = mvnLogProb (kernelDist (newKernel net' cov) y) x := by
  rw [newKernel_dist, newKernel_dist]
  unfold mvnLogProb
  have : ∀ i, (y i - x i) ^ 2 = (x i - y i) ^ 2 := fun i => by ring
  simp only [this]

theorem weight_telescopes {L : Lang} (hV : ∀ v, L.detachV v = v) (hW : ∀ x, L.detachW x = x) (M : AnnealModel L)
    (hs : ∀ k x y, L.logProb (M.f k x) y = L.logProb (M.r k y) x) (z : Nat → L.V) (K : Nat) :
    M.weight z K = M.density K (z K) - M.density 0 (z 0) := by
  induction K with
  | zero => simp [AnnealModel.weight]
  | succ K ih =>
    have hp : ∀ k, AnnealModel.point z k = z k := fun k => by cases k <;> simp [AnnealModel.point, hV]
    simp only [AnnealModel.weight, AnnealModel.increment, hW, hp, ih, hs]
    abel

/-- C71. Before training, vsmc with the kernels of paper_model (and any targets) is a random walk whose weight forgets the path: a particle's
log weight after K steps is the last log density at its last point minus the log density of the first point, so the targets in between have no
effect on it. -/
theorem C71_untrained (n b : Nat) (M : AnnealModel (GaussLang n b)) (net net' : Nat → ResMLPJ 2 50)
    (hf : ∀ k, M.f k = paperKernel n b (net k) 1) (hr : ∀ k, M.r k = paperKernel n b (net' k) 1)
    (fresh : ObjId) (I : AnnealIds) (hid : I.Below fresh) (lossFn : Out (GaussLang n b) → Except Err (GaussLang n b).Lo) (hl : LossOk lossFn)
    (transf : Option (Trace (GaussLang n b) → Kw (GaussLang n b) → Except Err (Trace (GaussLang n b)))) (ht : AnnealTransf transf) (K : Nat) :
    ∃ nd : Node (GaussLang n b), vsmc fresh (M.initial I :: (List.range K).map (M.target I)) ((List.range K).map (M.forward I))
        ((List.range K).map (M.reverse I)) lossFn transf none = .ok nd ∧
      ∀ (c : PyVal _) (kw : Kw _) (w : World _), KwOk kw → (∀ j, w.cond j = none) →
        ∃ F : (Nat → Fin n → Fin b → Fin 2 → ℝ) → Out (GaussLang n b), eval nd c kw w = (M.chain K).bind (fun z => .ret (.ok (F z), w)) ∧
          (∀ k (x : Fin n → Fin b → Fin 2 → ℝ) s j, M.f k x s j = (x s j, fun _ => 1)) ∧
          ∀ z, (F z).logWeight.val = M.density K (z K) - M.density 0 (z 0) := by
  obtain ⟨nd, h1, h2⟩ := C30_vsmc fresh M I hid lossFn hl transf ht K
  refine ⟨nd, h1, fun c kw w hk hw => ?_⟩
  obtain ⟨F, h3, h4⟩ := h2 c kw w hk hw
  refine ⟨F, h3, ?_, fun z => ?_⟩
  · intro k x s j
    rw [hf]
    refine (C71_random_walk (net k) _ (fun i => by simp) (fun i => ?_) (x s j)).trans ?_
    · simp only [if_true]
      have h5 : Real.exp (1 ^ 2) - 1 ≤ Real.exp 20 := by
        have : Real.exp (1 ^ 2) ≤ Real.exp 20 := Real.exp_le_exp.2 (by norm_num)
        linarith
      have h6 : (0 : ℝ) < Real.exp (1 ^ 2) - 1 := by have := Real.add_one_lt_exp (x := 1 ^ 2) (by norm_num); linarith
      exact (Real.log_le_iff_le_exp h6).2 h5
    · simp
  · rw [(h4 z).1]
    refine weight_telescopes (fun _ => rfl) (fun _ => rfl) M (fun k x y => ?_) z K
    rw [hf, hr]
    funext s j
    exact C71_symmetric (net k) (net' k) _ (x s j) (y s j)

/-- C71: a step of length one, from the origin, of a kernel with arbitrary first layer. -/
example (j : Linear 2 50) (m c : Linear 50 2) : mvnLogProb (kernelDist (newKernel ⟨j, m, c⟩ fun i i' => if i = i' then 1 else 0) (fun _ => 0)) (fun i => if i = 0 then 1 else 0) =
    -(1 / 2) * (2 * Real.log (2 * Real.pi) + 1) := by
  have h5 : Real.exp 1 - 1 ≤ Real.exp 20 := by
    have : Real.exp 1 ≤ Real.exp 20 := Real.exp_le_exp.2 (by norm_num)
    linarith
  have h6 : (0 : ℝ) < Real.exp 1 - 1 := by have := Real.add_one_lt_exp (x := 1) (by norm_num); linarith
  rw [C71_random_walk _ _ (fun i => by simp) (fun i => by simpa using (Real.log_le_iff_le_exp h6).2 h5)]
  simp [mvnLogProb]

/-- The random walk of `paper_model` before training, with one network for all kernels and targets -|v|^2, -2|v|^2, ... -/
noncomputable def walkModel (net : ResMLPJ 2 50) : AnnealModel (GaussLang 3 2) where
  d0 _ _ := (fun _ => 0, fun _ => 25)
  rep0 := false
  cls0 := "FixedMultivariateNormal"
  g k v s j := -((k + 1 : Nat) * ∑ i, v s j i ^ 2)
  cls _ := "Tempered"
  f _ := paperKernel 3 2 net 1
  rep := true
  r _ := paperKernel 3 2 net 1
  rep' := false

/-- C71: three particles, two batch elements, four steps. -/
example (net : ResMLPJ 2 50) (st : Store (GaussLang 3 2)) : ∃ nd : Node (GaussLang 3 2), vsmc 100 ((walkModel net).initial Toy.annealIds ::
      (List.range 4).map ((walkModel net).target Toy.annealIds)) ((List.range 4).map ((walkModel net).forward Toy.annealIds))
      ((List.range 4).map ((walkModel net).reverse Toy.annealIds)) (fun _ => .ok (0 : ℝ)) none none = .ok nd ∧
    ∃ F : (Nat → Fin 3 → Fin 2 → Fin 2 → ℝ) → Out (GaussLang 3 2),
      eval nd .none {} ⟨fun _ => none, st⟩ = ((walkModel net).chain 4).bind (fun z => .ret (.ok (F z), ⟨fun _ => none, st⟩)) ∧
      ∀ z s j, (F z).logWeight.val s j = -(4 * ∑ i, z 4 s j i ^ 2) - mvnLogProb (fun _ => 0, fun _ => 25) (z 0 s j) := by
  obtain ⟨nd, h1, h2⟩ := C71_untrained 3 2 (walkModel net) (fun _ => net) (fun _ => net) (fun _ => rfl) (fun _ => rfl) 100 Toy.annealIds
    (fun k => by simp only [Toy.annealIds]; exact ⟨(by have := Nat.mod_lt k (y := 4) (by omega); omega : 3 * (k % 4) + 2 < 100),
      (by have := Nat.mod_lt k (y := 4) (by omega); omega : 3 * (k % 4) + 3 < 100),
      (by have := Nat.mod_lt k (y := 4) (by omega); omega : 3 * (k % 4) + 1 < 100)⟩)
    (fun _ => .ok (0 : ℝ)) (fun _ _ _ => ⟨_, rfl⟩) none (.inl rfl) 4
  obtain ⟨F, h3, -, h4⟩ := h2 .none {} ⟨fun _ => none, st⟩ (fun e he => by cases he) (fun _ => rfl)
  refine ⟨nd, h1, F, h3, fun z s j => ?_⟩
  rw [h4 z]
  show -(((3 + 1 : Nat) : ℝ) * _) - _ = _
  norm_num
  rfl

end Verif
