import Mathlib.Topology.Algebra.InfiniteSum.Constructions
import Mathlib.Analysis.SpecialFunctions.Log.Basic
import Mathlib.MeasureTheory.Integral.Lebesgue.Countable
import Verif.Proofs.MeasurableDiscrete
import Verif.Proofs.WeightingRun
import Verif.Props.Scoping
/-
C29: proper weighting.
-/
namespace Verif
open Spec MeasureTheory
open scoped ENNReal

/-! ### A coin, for the examples -/
namespace Coin

/-- Values are coin flips; the distribution `true` is biased, `false` is fair. -/
noncomputable def prob (d v : Bool) : ℝ := if d then (if v then 3 / 4 else 1 / 4) else 1 / 2

@[reducible] noncomputable def lp (d v : Bool) : ℝ := Real.log (prob d v)

@[reducible] noncomputable def L : Lang := PLang Bool Bool Int lp

theorem prob_pos (d v : Bool) : 0 < prob d v := by unfold prob; cases d <;> cases v <;> norm_num

theorem dens_lp (d v : Bool) : dens (lp d v) = ENNReal.ofReal (prob d v) := by
  rw [dens, lp, Real.exp_log (prob_pos d v)]

theorem lintegral_bool (f : Bool → ℝ≥0∞) : ∫⁻ v, f v ∂Measure.count = f false + f true := by
  rw [lintegral_count, tsum_bool]

theorem normalised (d : Bool) : Normalised Measure.count lp d := by
  refine ⟨measurable_of_countable _, ?_⟩
  rw [lintegral_bool]
  simp only [dens_lp]
  rw [← ENNReal.ofReal_add (prob_pos _ _).le (prob_pos _ _).le, ← ENNReal.ofReal_one]
  congr 1
  cases d <;> norm_num [prob]

def sig : ArgSpec := { args := ["self", "trace", "c"], varargs := false, kwonly := [], varkw := false }

noncomputable def w0 : World L := { cond := fun _ => none, store := Store.init }

noncomputable def attrs (i : Nat) : Attrs L := mkAttrs i none none .none false

/-- Flips `name` with the coin `d`. -/
noncomputable def flip (name : String) (d : Bool) : ProgSpec L where
  name := "Flip"
  sig := sig
  debugAttr := none
  model _ _ := .variable name d none none true fun x => .ret (.tensor x)

/-- Flips `name` with a coin that depends on the input. -/
noncomputable def kernel (name : String) : ProgSpec L where
  name := "Kernel"
  sig := sig
  debugAttr := none
  model c _ := .variable name (match c with | .tensor x => x | _ => false) none none true fun x => .ret (.tensor x)

/-- Flips "x" with a fair coin; if it is heads, also flips "extra"; then observes "y". -/
noncomputable def model : ProgSpec L where
  name := "Model"
  sig := sig
  debugAttr := none
  model _ _ := .variable "x" false none none true fun x =>
    if x then .variable "extra" true none none true fun e => .variable "y" e (some true) none true fun _ => .ret (.tensor x)
    else .variable "y" true (some true) none true fun _ => .ret (.tensor x)

/-- Observes `name` to be heads, with the biased coin. -/
noncomputable def observes (name : String) : ProgSpec L where
  name := "Observes"
  sig := sig
  debugAttr := none
  model _ _ := .variable name true (some true) none true fun x => .ret (.tensor x)

/-- Returns its input. -/
noncomputable def noop : ProgSpec L where
  name := "Noop"
  sig := sig
  debugAttr := none
  model c _ := .ret c

/-- `Propose(Extend(model, kernel "z"), Compose(kernel "z", flip "x"))`. -/
noncomputable def nest : Node L :=
  .propose (attrs 0) (fun t _ => .ok t) true
    (.extend (attrs 1) (.prog 2 model) (.prog 3 (kernel "z")))
    (.compose (attrs 4) (.prog 5 (kernel "z")) (.prog 6 (flip "x" true)))

/-- Using that nest as a proposal for another program. -/
noncomputable def nest2 : Node L :=
  .propose (attrs 10) (fun t _ => .ok t) false (.prog 11 (flip "x" false)) nest

/-- No outcome of the flips raises. -/
noncomputable def neverRaises {α : Type} : Comp L (Except Err α × World L) → Bool
  | .ret (.ok _, _) => true
  | .ret (.error _, _) => false
  | .draw _ _ k => neverRaises (k false) && neverRaises (k true)
  | .rand k => neverRaises (k ())

theorem neverRaises_spec {α : Type} {m : Comp L (Except Err α × World L)} (h : neverRaises m = true) (r : Except Err α) (w : World L)
    (hr : m.Ret (r, w)) : ∃ o, r = .ok o := by
  induction m with
  | ret a =>
    cases hr
    cases r with
    | ok o => exact ⟨o, rfl⟩
    | error e => simp [neverRaises] at h
  | draw d b k ih =>
    obtain ⟨v, hv⟩ := hr
    simp only [neverRaises, Bool.and_eq_true] at h
    cases v
    · exact ih false h.1 hv
    · exact ih true h.2 hv
  | rand k ih =>
    obtain ⟨u, hu⟩ := hr
    exact ih u h hu

end Coin

section
variable {V D Lo : Type} [Nonempty V] [AddCommMonoid Lo] {lp : D → V → ℝ} [MeasurableSpace V] {μ : Measure V}
local notation "𝕃" => PLang V D Lo lp

/-! ### A single particle -/

/-- The only particle of a population of one. -/
def oneLane (V D Lo : Type) [AddCommMonoid Lo] (lp : D → V → ℝ) : Lane (PLang V D Lo lp) lp where
  v x := x
  w := AddMonoidHom.id ℝ
  d x := x
  logProb _ _ := rfl
  detachV _ := rfl
  detachW _ := rfl

mutual
theorem lanePy_one : ∀ x : PyVal 𝕃, lanePy (Lo := Lo) (oneLane V D Lo lp) x = x
  | .none => rfl
  | .bool _ => rfl
  | .int _ => rfl
  | .str _ => rfl
  | .tensor _ => rfl
  | .weakref _ => rfl
  | .tuple xs => by rw [lanePy, lanePys_one xs]
  | .dict kvs => by rw [lanePy, laneKvs_one kvs]
  | .opaque _ => rfl
theorem lanePys_one : ∀ xs : List (PyVal 𝕃), lanePys (Lo := Lo) (oneLane V D Lo lp) xs = xs
  | [] => rfl
  | x :: xs => by rw [lanePys, lanePy_one x, lanePys_one xs]
theorem laneKvs_one : ∀ kvs : List (String × PyVal 𝕃), laneKvs (Lo := Lo) (oneLane V D Lo lp) kvs = kvs
  | [] => rfl
  | (k, x) :: kvs => by rw [laneKvs, lanePy_one x, laneKvs_one kvs]
end

theorem laneKw_one (kw : Kw 𝕃) : laneKw (Lo := Lo) (oneLane V D Lo lp) kw = kw := by
  simp only [laneKw, lanePy_one, laneKvs_one]

theorem laneTree_one (m : MTree 𝕃) : LaneTree (Lo := Lo) (oneLane V D Lo lp) m m := by
  induction m with
  | ret o =>
    have := LaneTree.ret (Lo := Lo) (l := oneLane V D Lo lp) o
    rwa [lanePy_one] at this
  | «variable» name d value prov rep k ih =>
    have := LaneTree.var (Lo := Lo) (l := oneLane V D Lo lp) name d value prov rep k k ih
    rwa [show value.map (oneLane V D Lo lp).v = value from by cases value <;> rfl] at this
  | _ => exact LaneTree.stuck _ _ trivial

theorem laneNode_one (n : Node 𝕃) : LaneNode (Lo := Lo) (oneLane V D Lo lp) n n := by
  induction n with
  | prog i s =>
    refine ⟨rfl, fun c kwargs => ?_⟩
    rw [lanePy_one, laneKvs_one]
    exact laneTree_one _
  | resample a r q ih => exact ⟨lanePy_one _, ih⟩
  | extend a p f ihp ihf => exact ⟨lanePy_one _, ihp, ihf⟩
  | compose a q2 q1 ih2 ih1 => exact ⟨lanePy_one _, ih2, ih1⟩
  | propose a tr nr p q ihp ihq => exact ⟨lanePy_one _, ihp, ihq, fun t kw t' h h' => h t kw t' rfl h'⟩

theorem reorders_id (e : Env V) : Reorders (lp := lp) (Lo := Lo) (fun t _ => .ok t) e := by
  rintro t kw t' rfl h
  cases h
  exact List.Perm.refl _

theorem expect_bind {α β : Type} (m : Comp 𝕃 α) (f : α → Comp 𝕃 β) (g : β → ℝ≥0∞) :
    expect μ (m.bind f) g = expect μ m fun a => expect μ (f a) g := by
  induction m with
  | ret a => rfl
  | draw d b k ih => simp only [Comp.bind, expect, ih]
  | rand k ih => exact ih ()

theorem isLaw_expect : IsLaw μ (fun _ : Unit => oneLane V D Lo lp) (fun {_} m g => expect μ m g) where
  ret _ _ := rfl
  bind := expect_bind
  congr m g g' h := by
    induction m with
    | ret a => exact h a rfl
    | draw d b k ih => exact lintegral_congr fun v => congrArg (dens (lp d v) * ·) (ih v fun a ha => h a ⟨v, ha⟩)
    | rand k ih => exact ih () fun a ha => h a ⟨(), ha⟩
  draw d b k g F hF h := by
    simp only [Finset.univ_unique, Finset.sum_singleton] at h ⊢
    exact lintegral_congr fun v => congrArg (dens (lp d v) * ·) (h v)

/-- C29. For every nest of programs, Compose and Propose that fits (see `Fits`: targets of Propose may be extended by kernels), whose
call does not raise, the expectation of exp(log_weight) * h(trace, output) over all draws is the integral of h against the
unnormalised measure that the nest targets. Values may be discrete or continuous, the base measure is any σ-finite (s-finite) one, and
models may branch on all values as long as all this is measurable (`MeasNode`, `MeasFun`; always so for countably many values,
`measNode_countable`). -/
theorem C29_properly_weighted [SFinite μ] (n : Node 𝕃) (c : PyVal 𝕃) (kw : Kw 𝕃) (w : World 𝕃)
    (hs : WellScoped false n) (hw : ∀ i ∈ objects n, w.cond i = none)
    (hok : ∀ r w', (eval n c kw).Runs w r w' → ∃ o, r = .ok o) (hn : Whole n) (hf : Fits μ n c kw) (hm : MeasNode n)
    {h : Env V → PyVal 𝕃 → ℝ≥0∞} (hh : MeasFun h) :
    expect μ (eval n c kw w) (fun r => match r.1 with
      | .ok o => dens o.logWeight.val * h (envOf o.trace) o.output
      | .error _ => 0) = target μ n false (fun _ => none) c kw h := by
  have h0 : w.cond n.id = none := hw n.id (by simp [objects])
  have he : eval n c kw w = evalP n none c kw w := by
    have := C05_lexical n c kw w (by rw [h0]; exact hs) fun i hi => hw i (by simp [objects, hi])
    rwa [h0] at this
  rw [he]
  have hev := whole_ev (w := w) (isLaw_expect (μ := μ)) hm (fun _ => laneNode_one n) hn (c := c) (kw := kw)
    (fun r w' hr => hok r w' (by rw [Exec.Runs, he]; exact hr)) (fun _ => by rw [lanePy_one, laneKw_one]; exact hf) (h := fun _ => h) fun _ => hh
  simp only [Finset.univ_unique, Finset.sum_singleton, lanePy_one, laneKw_one] at hev
  refine Eq.trans ?_ hev
  congr 1
  funext r
  rcases r with ⟨e | o, w'⟩
  · rfl
  · simp only [onOk, laneSum, laneAgg, Finset.univ_unique, Finset.sum_singleton, lanePy_one]
    rfl

/-- C29. In particular the mean of exp(log_weight) is the target's normalising constant. -/
theorem C29_normaliser [SFinite μ] (n : Node 𝕃) (c : PyVal 𝕃) (kw : Kw 𝕃) (w : World 𝕃)
    (hs : WellScoped false n) (hw : ∀ i ∈ objects n, w.cond i = none)
    (hok : ∀ r w', (eval n c kw).Runs w r w' → ∃ o, r = .ok o) (hn : Whole n) (hf : Fits μ n c kw) (hm : MeasNode n) :
    expect μ (eval n c kw w) (fun r => match r.1 with
      | .ok o => dens o.logWeight.val
      | .error _ => 0) = target μ n false (fun _ => none) c kw fun _ _ => 1 := by
  rw [← C29_properly_weighted n c kw w hs hw hok hn hf hm (measFun_const 1)]
  congr 1
  funext r
  rcases r with ⟨e | o, w'⟩
  · rfl
  · simp

end

/-- The hypotheses can be met: by a target with a variable that is only sometimes there, an observation and a kernel, … -/
example : WellScoped false Coin.nest2 ∧ (∀ i ∈ objects Coin.nest2, Coin.w0.cond i = none) ∧ Whole Coin.nest2 ∧ MeasNode Coin.nest2 ∧
    Fits Measure.count Coin.nest2 .none {} ∧
    (∀ r w', (eval Coin.nest2 .none {}).Runs Coin.w0 r w' → ∃ o, r = .ok o) := by
  refine ⟨?_, fun _ _ => rfl, by simp [Coin.nest2, Coin.nest, Whole], measNode_countable _, ?_, ?_⟩
  · simp [Coin.nest2, Coin.nest, WellScoped, below, Node.id, Coin.attrs, mkAttrs]
  · have hN : ∀ d, Normalised Measure.count Coin.lp d := Coin.normalised
    simp [Fits, IsTarget, Covered, reorders_id, alwaysN, always, samplesN, samples, hN, Coin.nest2, Coin.nest, Coin.model, Coin.kernel, Coin.flip,
      Env.lat, List.findSome?, Env.names]
    grind
  · exact Coin.neverRaises_spec (by decide +kernel)

/-- C29, the restriction is needed: an Extend that is not the target of a Propose samples its kernel and counts the kernel's density as
well, so that the mean of the weight is not the normalising constant 1 but 1/2. -/
theorem C29_extend_counts_twice :
    let n : Node Coin.L := .extend (Coin.attrs 0) (.prog 1 Coin.noop) (.prog 2 (Coin.flip "z" false))
    expect Measure.count (eval n .none {} Coin.w0) (fun r => match r.1 with
      | .ok o => dens o.logWeight.val
      | .error _ => 0) = ENNReal.ofReal (1 / 2) ∧
    target Measure.count n false (fun _ => none) .none {} (fun _ _ => 1) = 1 := by
  intro n
  constructor
  · show ∫⁻ v, dens (Coin.lp false v) * dens (Coin.lp false v) ∂Measure.count = _
    rw [Coin.lintegral_bool]
    simp only [Coin.dens_lp]
    rw [← ENNReal.ofReal_mul (Coin.prob_pos _ _).le, ← ENNReal.ofReal_mul (Coin.prob_pos _ _).le, ← ENNReal.ofReal_add]
    · congr 1; norm_num [Coin.prob]
    · norm_num [Coin.prob]
    · norm_num [Coin.prob]
  · show ∫⁻ v, dens (Coin.lp false v) * 1 ∂Measure.count = 1
    simp only [mul_one]
    exact (Coin.normalised false).2

/-- C29, the restriction is needed: if the proposal does not sample what the target's kernel does, then the kernel's density is
counted although the kernel itself sampled. -/
theorem C29_uncovered_kernel :
    let n : Node Coin.L := .propose (Coin.attrs 0) (fun t _ => .ok t) true
      (.extend (Coin.attrs 1) (.prog 2 (Coin.flip "x" false)) (.prog 3 (Coin.flip "z" false)))
      (.compose (Coin.attrs 4) (.prog 5 Coin.noop) (.prog 6 (Coin.flip "x" false)))
    expect Measure.count (eval n .none {} Coin.w0) (fun r => match r.1 with
      | .ok o => dens o.logWeight.val
      | .error _ => 0) = ENNReal.ofReal (1 / 2) ∧
    target Measure.count n false (fun _ => none) .none {} (fun _ _ => 1) = 1 := by
  intro n
  constructor
  · have h : ∀ x z : Bool, dens (Coin.lp false x + Coin.lp false z - Coin.lp false x) = ENNReal.ofReal (1 / 2) := by
      intro x z
      rw [add_sub_cancel_left, Coin.dens_lp]
      norm_num [Coin.prob]
    show ∫⁻ x, dens (Coin.lp false x) * ∫⁻ z, dens (Coin.lp false z) *
      dens (Coin.lp false x + Coin.lp false z - Coin.lp false x) ∂Measure.count ∂Measure.count = _
    have e : ∀ y : ℝ≥0∞, ∫⁻ v, dens (Coin.lp false v) * y ∂Measure.count = y := by
      intro y
      rw [lintegral_mul_const _ (measurable_of_countable _), (Coin.normalised false).2, one_mul]
    simp only [h, e]
  · show ∫⁻ v, dens (Coin.lp false v) * 1 ∂Measure.count = 1
    simp only [mul_one]
    exact (Coin.normalised false).2

/-- C29, the restriction is needed: if the proposal observes what the target samples, then the target's variable is stuck to the
observed value without weight. -/
theorem C29_observed_by_proposal :
    let n : Node Coin.L := .propose (Coin.attrs 0) (fun t _ => .ok t) true (.prog 1 (Coin.flip "x" false))
      (.compose (Coin.attrs 4) (.prog 5 Coin.noop) (.prog 6 (Coin.observes "x")))
    let heads : Env Bool → PyVal Coin.L → ℝ≥0∞ := fun _ o => match o with | .tensor x => if x then 1 else 0 | _ => 0
    expect Measure.count (eval n .none {} Coin.w0) (fun r => match r.1 with
      | .ok o => dens o.logWeight.val * heads (envOf o.trace) o.output
      | .error _ => 0) = 1 ∧
    target Measure.count n false (fun _ => none) .none {} heads = ENNReal.ofReal (1 / 2) := by
  intro n heads
  constructor
  · show dens (Coin.lp true true + -Coin.lp true true) * 1 = 1
    simp [dens]
  · show ∫⁻ v : Bool, dens (Coin.lp false v) * (if v then 1 else 0) ∂Measure.count = _
    rw [Coin.lintegral_bool]
    simp [Coin.dens_lp, Coin.prob]

end Verif
