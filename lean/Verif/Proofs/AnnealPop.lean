import Verif.Proofs.AnnealChain
import Verif.Proofs.PopulationLaw
import Verif.Spec.AnnealPop
/-
vsmc with resampling on populations.
-/
namespace Verif
open Spec MeasureTheory
open scoped ENNReal

/-! ### What a single particle sees -/
section
variable {X D Lo : Type} [AddCommMonoid Lo] {lp : D → X → ℝ} [MeasurableSpace X] {μ : Measure X}
local notation "𝕃" => PLang X D Lo lp

namespace AnnealSpec

/-- The density of the last target. -/
def last (S : AnnealSpec X D) : Nat → D
  | 0 => S.d0
  | k + 1 => S.g k

/-- A program with one variable. -/
noncomputable def single (name : String) (d : D) (sig : ArgSpec) (rep : Bool) : ProgSpec 𝕃 where
  name := ""
  sig := sig
  debugAttr := none
  model _ _ := .variable name d none none rep fun x => .ret (outDict name x)

/-- A transformation that keeps the traces that occur. -/
noncomputable def keep (k : Nat) (t : Trace 𝕃) (_ : Kw 𝕃) : Except Err (Trace 𝕃) :=
  if t.keys = [gname (k + 1), gname k] then .ok t else .ok Dict.empty

/-- One step. -/
noncomputable def step (S : AnnealSpec X D) (rep rep' : Bool) (k : Nat) (q : Node 𝕃) : Node 𝕃 :=
  .propose (mkAttrs 0 none none (.int k) true) (keep k) false
    (.extend (mkAttrs 0 none none .none false) (.prog 0 (single (gname (k + 1)) (S.g k) { args := ["self", "trace", "c"], varargs := false, kwonly := [], varkw := false } false))
      (.prog 0 (kernelProg (gname (k + 1)) (gname k) (S.r k) rep')))
    (.compose (mkAttrs 0 none none .none true) (.prog 0 (kernelProg (gname k) (gname (k + 1)) (S.f k) rep)) q)

/-- The nest of vsmc. -/
noncomputable def node (S : AnnealSpec X D) (rep0 rep rep' : Bool) (resample : Nat → Bool) : Nat → Node 𝕃
  | 0 => .prog 0 (single (gname 0) S.d0 { args := ["self", "trace", "c", "sample_shape"], varargs := false, kwonly := [], varkw := false } rep0)
  | k + 1 =>
    if resample k then .resample (mkAttrs 0 none none .none false) (fun _ _ t lw => .ret (.ok (t, lw))) (S.step rep rep' k (S.node rep0 rep rep' resample k))
    else S.step rep rep' k (S.node rep0 rep rep' resample k)

end AnnealSpec

open AnnealSpec

/-- The trace and output of a step. -/
def OneVar (k : Nat) (d : D) (e : Env X) (o : PyVal 𝕃) : Prop := ∃ v, e = [(gname k, ⟨v, lp d v, true⟩)] ∧ o = outDict (gname k) v

theorem kernel_always (a b : String) (net : X → D) (rep : Bool) (v : X) (cond : String → Option X) (kw : Kw 𝕃) (i : ObjId)
    (Q : Env X → PyVal 𝕃 → Prop) :
    alwaysN (.prog i (kernelProg (L := 𝕃) a b net rep)) false cond (outDict a v) kw Q ↔
      ∀ x, (∀ v', cond b = some v' → x = v') → Q [(b, ⟨x, lp (net v) x, true⟩)] (outDict b x) := by
  simp only [alwaysN, kernelProg, kernelModel, kernelInput_outDict, always, Env.names]
  simp

theorem node_always (S : AnnealSpec X D) (rep0 rep rep' : Bool) (rs : Nat → Bool) (K : Nat) (c : PyVal 𝕃) (kw : Kw 𝕃) :
    alwaysN (S.node rep0 rep rep' rs K) false (fun _ => none) c kw (OneVar K (S.last K)) := by
  cases K with
  | zero =>
    simp only [AnnealSpec.node, alwaysN, single, always]
    exact ⟨trivial, by simp [Env.names], fun v _ => ⟨v, rfl, rfl⟩⟩
  | succ K =>
    have : ∀ kw, alwaysN (S.step rep rep' K (S.node rep0 rep rep' rs K)) false (fun _ => none) c kw (OneVar (K + 1) (S.g K)) := by
      intro kw
      simp only [AnnealSpec.step, alwaysN, single, always]
      exact ⟨trivial, by simp [Env.names], fun v _ => ⟨v, rfl, rfl⟩⟩
    simp only [AnnealSpec.node]
    split
    · exact this _
    · exact this _

theorem node_target (S : AnnealSpec X D) (rep0 rep rep' : Bool) (rs : Nat → Bool) (K : Nat) (c : PyVal 𝕃) (kw : Kw 𝕃)
    (h : Env X → PyVal 𝕃 → ℝ≥0∞) :
    target μ (S.node rep0 rep rep' rs K) false (fun _ => none) c kw h =
      ∫⁻ v, dens (lp (S.last K) v) * h [(gname K, ⟨v, lp (S.last K) v, true⟩)] (outDict (gname K) v) ∂μ := by
  cases K with
  | zero =>
    simp only [AnnealSpec.node, target, single, mass, Env.names]
    simp [last]
  | succ K =>
    have : ∀ kw, target μ (S.step rep rep' K (S.node rep0 rep rep' rs K)) false (fun _ => none) c kw h =
      ∫⁻ v, dens (lp (S.last (K + 1)) v) * h [(gname (K + 1), ⟨v, lp (S.last (K + 1)) v, true⟩)] (outDict (gname (K + 1)) v) ∂μ := by
      intro kw
      simp only [AnnealSpec.step, target, single, mass, Env.names]
      simp [last]
    simp only [AnnealSpec.node]
    split
    · exact this _
    · exact this _

/-- All distributions that are sampled are normalised, and log densities are measurable. -/
structure AnnealSpec.Norm (S : AnnealSpec X D) (μ : Measure X) (lp : D → X → ℝ) : Prop where
  d0 : Normalised μ lp S.d0
  f : ∀ k x, Normalised μ lp (S.f k x)
  r : ∀ k x, Normalised μ lp (S.r k x)
  measG : ∀ k, Measurable (lp (S.g k))
  measF : ∀ k, Measurable fun x : X × X => lp (S.f k x.1) x.2
  measR : ∀ k, Measurable fun x : X × X => lp (S.r k x.1) x.2

/-- What a kernel reads of its argument depends measurably on the argument. -/
theorem plot_kernelInput {Γ : Type} [MeasurableSpace Γ] {c : Γ → PyVal 𝕃} (hc : PlotPy c) (a : String) :
    (∃ e, ∀ γ, kernelInput (c γ) a = .error e) ∨ ∃ v : Γ → X, Measurable v ∧ ∀ γ, kernelInput (c γ) a = .ok (v γ) := by
  cases hc with
  | const o =>
    cases h : kernelInput o a with
    | error e => exact Or.inl ⟨e, fun _ => h⟩
    | ok v => exact Or.inr ⟨fun _ => v, measurable_const, fun _ => h⟩
  | tensor f hf => exact Or.inl ⟨.type, fun _ => rfl⟩
  | tuple l hl => exact Or.inl ⟨.type, fun _ => rfl⟩
  | dict l hl =>
    simp only [kernelInput]
    induction l with
    | nil => exact Or.inl ⟨.key, fun _ => rfl⟩
    | cons x l ih =>
      simp only [List.map_cons, getL]
      by_cases hx : x.1 = a
      · simp only [if_pos hx]
        have h1 := hl x (by simp)
        generalize x.2 = y at h1
        cases h1 with
        | const o =>
          cases o with
          | tensor v => exact Or.inr ⟨fun _ => v, measurable_const, fun _ => rfl⟩
          | _ => exact Or.inl ⟨.type, fun _ => rfl⟩
        | tensor f hf => exact Or.inr ⟨f, hf, fun _ => rfl⟩
        | tuple l hl => exact Or.inl ⟨.type, fun _ => rfl⟩
        | dict l hl => exact Or.inl ⟨.type, fun _ => rfl⟩
      · simp only [if_neg hx]
        exact ih fun y hy => hl y (by simp [hy])

theorem plot_out {Γ : Type} [MeasurableSpace Γ] (name : String) {v : Γ → X} (hv : Measurable v) :
    PlotPy fun γ => outDict (L := 𝕃) name (v γ) := PlotPy.dict [(name, fun γ => .tensor (v γ))] (by simpa using PlotPy.tensor v hv)

theorem measProg_kernel (a b : String) (net : X → D) (rep : Bool) (h : Measurable fun x : X × X => lp (net x.1) x.2) :
    MeasProg (kernelProg (L := 𝕃) a b net rep) := by
  intro kwargs Γ _ c hc
  show PlotTree fun γ => kernelModel (L := 𝕃) a b net rep (c γ)
  rcases plot_kernelInput hc a with ⟨e, he⟩ | ⟨v, hv, he⟩
  · simp only [kernelModel, he]
    exact .stuck _ fun _ => trivial
  · simp only [kernelModel, he]
    exact .sample b (fun γ => net (v γ)) none rep (fun _ x => .ret (outDict b x))
      (h.comp ((hv.comp measurable_fst).prodMk measurable_snd)) (.ret _ (plot_out b measurable_snd))

theorem measProg_single (name : String) (d : D) (sig : ArgSpec) (rep : Bool) (h : Measurable (lp d)) :
    MeasProg (single (Lo := Lo) (lp := lp) name d sig rep) := by
  intro kwargs Γ _ c hc
  exact .sample name (fun _ => d) none rep (fun _ x => .ret (outDict name x)) (h.comp measurable_snd) (.ret _ (plot_out name measurable_snd))

theorem node_meas (S : AnnealSpec X D) (hS : S.Norm μ lp) (rep0 rep rep' : Bool) (rs : Nat → Bool) (K : Nat) :
    MeasNode (S.node (Lo := Lo) (lp := lp) rep0 rep rep' rs K) := by
  induction K with
  | zero => exact measProg_single _ _ _ _ hS.d0.1
  | succ K ih =>
    have h : MeasNode (S.step (Lo := Lo) (lp := lp) rep rep' K (S.node rep0 rep rep' rs K)) :=
      ⟨⟨measProg_single _ _ _ _ (hS.measG K), measProg_kernel _ _ _ _ (hS.measR K)⟩, measProg_kernel _ _ _ _ (hS.measF K), ih⟩
    simp only [AnnealSpec.node]
    split
    · exact h
    · exact h

theorem keys_of_env {t : Trace 𝕃} {e : Env X} (h : envOf t = e) : t.keys = e.names := by
  rw [← h]
  simp [envOf, Env.names, Dict.keys, keysL]

theorem kernel_samples (M : String → D → Prop) (a b : String) (net : X → D) (rep : Bool) (v : X) (kw : Kw 𝕃) (i : ObjId)
    (h : M b (net v)) : samplesN M (.prog i (kernelProg (L := 𝕃) a b net rep)) false (outDict a v) kw := by
  simp only [samplesN, kernelProg, kernelModel, kernelInput_outDict, samples]
  exact ⟨h, fun _ => trivial⟩

theorem node_samples (S : AnnealSpec X D) (rep0 rep rep' : Bool) (rs : Nat → Bool) (K : Nat) (M : String → D → Prop)
    (hM : M (gname K) (S.last K)) (c : PyVal 𝕃) (kw : Kw 𝕃) :
    samplesN M (S.node rep0 rep rep' rs K) false c kw := by
  cases K with
  | zero => exact ⟨hM, fun _ => trivial⟩
  | succ K =>
    have : ∀ kw, samplesN M (S.step rep rep' K (S.node rep0 rep rep' rs K)) false c kw := fun kw => ⟨hM, fun _ => trivial⟩
    simp only [AnnealSpec.node]
    split
    · exact this _
    · exact this _

theorem step_fits (S : AnnealSpec X D) (hS : S.Norm μ lp) (rep rep' : Bool) (K : Nat) (q : Node 𝕃) (c : PyVal 𝕃)
    (hq : ∀ kw, Fits μ q c kw) (hqa : ∀ kw, alwaysN q false (fun _ => none) c kw (OneVar K (S.last K)))
    (hqs : ∀ kw (M : String → D → Prop), M (gname K) (S.last K) → samplesN M q false c kw) (kw : Kw 𝕃) :
    Fits μ (S.step rep rep' K q) c kw := by
  have hne : gname (K + 1) ≠ gname K := fun h => by have := gname_inj h; omega
  refine ⟨⟨hq _, ?_⟩, ⟨?_, ?_⟩, ⟨hqs _ _ ?_, ?_⟩, ?_⟩
  · -- the parts of Compose
    refine alwaysN_mono (hqa _) ?_
    rintro e o ⟨v, rfl, rfl⟩
    refine ⟨(kernel_always _ _ _ _ _ _ _ _ _).2 fun _ _ => trivial, (kernel_always _ _ _ _ _ _ _ _ _).2 fun x _ => ?_⟩
    simp [Env.names, hne, hne.symm]
  · simp [IsTarget, alwaysN, single, always, Env.names]
  · simp only [alwaysN, single, always, Env.names]
    refine ⟨trivial, by simp, fun v _ => ⟨kernel_samples _ _ _ _ _ _ _ _ (hS.r K v), ?_⟩⟩
    refine (kernel_always _ _ _ _ _ _ _ 0 _).2 fun x _ => ?_
    simp [hne, hne.symm]
  · -- the target samples what the proposal does
    right
    simp only [alwaysN, single, always, Env.names]
    refine ⟨trivial, by simp, fun v _ => (kernel_always _ _ _ _ _ _ _ 0 _).2 fun x _ => ⟨x, ?_⟩⟩
    simp [Env.lat, hne, hne.symm]
  · refine alwaysN_mono (hqa _) ?_
    rintro e o ⟨v, rfl, rfl⟩
    exact kernel_samples _ _ _ _ _ _ _ _ (Or.inl (hS.f K v))
  · simp only [alwaysN]
    refine alwaysN_mono (n := q) (marg := false) (hqa _) ?_
    rintro e o ⟨v, rfl, rfl⟩
    refine (kernel_always _ _ _ _ _ _ _ 0 _).2 fun x _ => ⟨?_, ?_, ?_⟩
    · rintro t kw t' he ht
      rw [AnnealSpec.keep, if_pos (by rw [keys_of_env he]; rfl)] at ht
      cases ht
      rw [he]
    · refine ⟨trivial, ?_⟩
      simp only [alwaysN, single, always, Env.names]
      refine ⟨trivial, by simp, fun v' _ => (kernel_always _ _ _ _ _ _ _ 0 _).2 fun y _ => ?_⟩
      simp [Env.lat, hne, hne.symm]
    · simp only [alwaysN, single, always, Env.names]
      refine ⟨trivial, by simp, fun v' _ => (kernel_always _ _ _ _ _ _ _ 0 _).2 fun y _ => ?_⟩
      simp only [List.mem_append, List.mem_singleton]
      rintro k x (⟨rfl, rfl⟩ | ⟨rfl, rfl⟩) <;> aesop

theorem node_fits (S : AnnealSpec X D) (hS : S.Norm μ lp) (rep0 rep rep' : Bool) (rs : Nat → Bool) (K : Nat) (c : PyVal 𝕃)
    (kw : Kw 𝕃) : Fits μ (S.node rep0 rep rep' rs K) c kw := by
  induction K generalizing kw with
  | zero => simp [AnnealSpec.node, Fits, alwaysN, single, always, Env.names]
  | succ K ih =>
    have h := step_fits S hS rep rep' K (S.node rep0 rep rep' rs K) c ih (node_always S rep0 rep rep' rs K c)
      (fun kw M hM => node_samples S rep0 rep rep' rs K M hM c kw)
    simp only [AnnealSpec.node]
    split
    · refine ⟨h _, fun _ => .none, ?_⟩
      simp only [AnnealSpec.step, alwaysN, single, always, Env.names]
      refine ⟨trivial, by simp, fun v _ => ⟨by simp, _, rfl, ?_⟩⟩
      simp
    · exact h _

end

/-! ### The vectorised nest -/
section
variable {L : Lang}

/-- The nest that vsmc builds, K steps of n. -/
def vsmcNode (fresh : ObjId) (n : Nat) (M : AnnealModel L) (I : AnnealIds) (lossFn : Out L → Except Err L.Lo)
    (transf : Option (Trace L → Kw L → Except Err (Trace L))) (r : ResamplerFn L) : Nat → Node L
  | 0 => M.initial I
  | k + 1 =>
    let q := Node.propose (mkAttrs (fresh + 4 * k + 2) (some (addLoss lossFn)) none (.int k) true) (transf.getD fun t _ => .ok t) false
      (mkExtend (fresh + 4 * k) (M.target I k) (M.reverse I k) none none .none false)
      (mkCompose (fresh + 4 * k + 1) (M.forward I k) (vsmcNode fresh n M I lossFn transf r k) none none .none true)
    if k + 1 < n then mkResample (fresh + 4 * k + 3) r q none .none false else q

theorem vsmc_eq (fresh : ObjId) (n : Nat) (M : AnnealModel L) (I : AnnealIds) (lossFn : Out L → Except Err L.Lo)
    (transf : Option (Trace L → Kw L → Except Err (Trace L))) (r : ResamplerFn L) (K : Nat) :
    ((List.range K).map fun k => ((M.forward I k, M.reverse I k, M.target I k), k)).foldlM
        (vsmcStep fresh n lossFn transf (some r)) (M.initial I) = .ok (vsmcNode fresh n M I lossFn transf r K) := by
  induction K with
  | zero => rfl
  | succ K ih =>
    rw [List.range_succ, List.map_append, List.foldlM_append, ih]
    rfl

/-- What the next step needs. -/
def PopInv (K : Nat) (o : Out L) : Prop :=
  ∃ ra : RV L, o.trace = tr1 (gname K) ra ∧ ra.prov ≠ .observed ∧ ra.kind ≠ .other ∧ o.output = outDict (gname K) ra.value ∧
    (K = 0 ∨ ∃ lv, o.logWeight = .tensor lv)

/-- The hook called by Resample does nothing. -/
def QuietStore (w : World L) : Prop := ∀ t t', w.store.hooks.resampleUpdate w.store.data t t' = (.ok (), w.store.data)

end

section
variable {n b : Nat} {X D : Type} {lp : D → (Fin n → Fin b → X) → Fin n → Fin b → ℝ}
local notation "𝕋" => TLang n b X D lp

theorem resample_step [NeZero n] (i : ObjId) (kw : Kw 𝕋) (w : World 𝕋) (K : Nat) (o : Out 𝕋) (ho : PopInv (K + 1) o)
    (hd : checkDims false n b kw.sampleDims kw.batchDim = .ok ()) (hw : QuietStore w) :
    ∃ m : Comp 𝕋 { o : Out 𝕋 // PopInv (K + 1) o },
      resampleRest (mkAttrs i none none .none false) (systematic false false) kw o w = m.bind fun x => .ret (.ok x.1, w) := by
  obtain ⟨ra, h1, h2, h3, h4, h5⟩ := ho
  obtain ⟨lv, h5⟩ := h5.resolve_left (Nat.succ_ne_zero K)
  have key : ∀ u, ∃ o' : { o : Out 𝕋 // PopInv (K + 1) o }, ∃ y, systematicAt false o.trace lv u = .ok y ∧
      (Exec.bind (Exec.lift (resampleOutput o.output y.1)) fun c2 => Exec.bind (Exec.onStore (·.resampleUpdate o.trace y.1)) fun _ =>
        Exec.bind (Exec.lift (foldLoss (mkAttrs i none none .none false) (Out.mk y.1 y.2 c2 .resample (some (pickIx (mkAttrs (L := 𝕋) i none none .none false).ix kw.ix)) none none none []) o)) fun out =>
          Exec.pure (if kw.debug || (mkAttrs (L := 𝕋) i none none .none false).debug then out.setSubs [("q_out", o)] else out)) w = .ret (.ok o'.1, w) := by
    intro u
    obtain ⟨⟨t', lw'⟩, hy⟩ := systematicAt_total false o.trace lv u (by
      intro k rv hk _
      rw [h1, tr1_get] at hk
      split at hk
      · cases hk; exact h3
      · cases hk)
    obtain ⟨a, -, hm, hlw⟩ := systematicAt_ok _ _ _ _ _ _ hy
    rw [h1] at hm
    obtain ⟨ra', ht', hra⟩ : ∃ ra', t' = tr1 (gname (K + 1)) ra' ∧ Moved a ra ra' := by
      have hm' : List.Forall₂ (fun e e' => e'.1 = e.1 ∧ Moved a e.2 e'.2) [(gname (K + 1), ra)] t'.entries := hm
      generalize hE : t'.entries = E at hm'
      cases hm' with
      | cons h hr =>
        cases hr
        rename_i e
        obtain ⟨k, ra'⟩ := e
        obtain ⟨rfl, h⟩ := h
        exact ⟨ra', Dict.ext' hE, h⟩
    have hout : resampleOutput o.output t' = .ok (outDict (gname (K + 1)) ra'.value) := by
      rw [h4, ht']
      simp [resampleOutput, outDict, isTensor, resampleEntry]
    have hst : (w.store.resampleUpdate o.trace t') = (.ok (), w.store) := by
      have := hw o.trace t'
      unfold Store.resampleUpdate
      rw [this]
    have hinv : ∀ x : Out 𝕋, x.trace = t' → x.logWeight = lw' → x.output = outDict (gname (K + 1)) ra'.value → PopInv (K + 1) x := by
      intro x e1 e2 e3
      refine ⟨ra', e1.trans ht', ?_, ?_, e3, Or.inr ⟨_, e2.trans hlw⟩⟩
      · by_cases hp : Permuted ra
        · rw [(hra.1 hp).1]; exact h2
        · rw [hra.2 hp]; exact h2
      · by_cases hp : Permuted ra
        · rw [(hra.1 hp).2.1]; exact h3
        · rw [hra.2 hp]; exact h3
    obtain ⟨l, hl⟩ : ∃ l, foldLoss (mkAttrs i none none .none false) (Out.mk t' lw' (outDict (gname (K + 1)) ra'.value) .resample (some (pickIx (mkAttrs (L := 𝕋) i none none .none false).ix kw.ix)) none none none []) o =
        .ok ((Out.mk t' lw' (outDict (gname (K + 1)) ra'.value) .resample (some (pickIx (mkAttrs (L := 𝕋) i none none .none false).ix kw.ix)) none none none []).setLoss l) := ⟨_, rfl⟩
    refine ⟨⟨if kw.debug || (mkAttrs (L := 𝕋) i none none .none false).debug then
      ((Out.mk t' lw' (outDict (gname (K + 1)) ra'.value) .resample (some (pickIx (mkAttrs (L := 𝕋) i none none .none false).ix kw.ix)) none none none []).setLoss l).setSubs [("q_out", o)]
      else (Out.mk t' lw' (outDict (gname (K + 1)) ra'.value) .resample (some (pickIx (mkAttrs (L := 𝕋) i none none .none false).ix kw.ix)) none none none []).setLoss l, ?_⟩, _, hy, ?_⟩
    · split <;> exact hinv _ rfl rfl rfl
    · simp only [Exec.bind, Exec.lift, Exec.onStore, Exec.pure, hout, hst, hl, Comp.bind_ret]
  choose o' y hy ho' using key
  refine ⟨.rand fun u => .ret (o' u), ?_⟩
  simp only [resampleRest, bind, Exec.bind, Exec.liftComp, h5, systematic, hd, Comp.bind_rand, Comp.bind_ret]
  refine congrArg Comp.rand (funext fun u => ?_)
  have h6 : ∀ z, systematicAt false o.trace lv u = z → z = .ok (y u) := fun z hz => hz ▸ hy u
  generalize hz : systematicAt false o.trace lv u = z
  cases h6 z hz
  exact ho' u

theorem vsmcNode_eval [NeZero n] (fresh : ObjId) (m : Nat) (M : AnnealModel 𝕋) (I : AnnealIds) (hid : I.Below fresh) (lossFn : Out 𝕋 → Except Err (𝕋).Lo) (hl : LossOk lossFn)
    (transf : Option (Trace 𝕋 → Kw 𝕋 → Except Err (Trace 𝕋))) (ht : ∀ k, TransfOk k (gname k) (gname (k + 1)) transf) (K : Nat)
    (c : PyVal 𝕋) (kw : Kw 𝕋) (w : World 𝕋) (hk : KwOk kw) (hd : checkDims false n b kw.sampleDims kw.batchDim = .ok ())
    (hw : ∀ j, w.cond j = none) (hq : QuietStore w) :
    ∃ x : Comp 𝕋 { o : Out 𝕋 // PopInv K o }, eval (vsmcNode fresh m M I lossFn transf (systematic false false) K) c kw w = x.bind fun o => .ret (.ok o.1, w) := by
  induction K generalizing kw with
  | zero =>
    refine ⟨.draw M.d0 M.rep0 fun v => .ret ⟨Out.mk (tr1 (gname 0) (RV.mk' M.d0 v .sampled M.rep0)) .float0
      (outDict (gname 0) v) (.program M.cls0) none none none none [], _, rfl, by simp [RV.mk'], by simp [RV.mk'], rfl, Or.inl rfl⟩, ?_⟩
    show eval (.prog I.initial (distributionProg M.cls0 (gname 0) M.d0 M.rep0)) c kw w = _
    rw [eval_distribution _ _ _ _ _ _ _ _ hk (hw _)]
    rfl
  | succ K ih =>
    have hne : gname (K + 1) ≠ gname K := fun h => by have := gname_inj h; omega
    obtain ⟨x, hx⟩ := ih { kw with ix := .int K } hk hd
    choose ra hr1 hr2 hr3 hr4 hr5 using fun o : { o : Out 𝕋 // PopInv K o } => o.2
    obtain ⟨nd', G, e1, e2, e3⟩ := step_eval (fresh + 4 * K) K lossFn transf (gname K) (gname (K + 1)) (ht K) (hl K) hne (I.forward K)
      (I.reverse K) (I.target K) (Nat.ne_of_lt (Nat.lt_of_lt_of_le (hid K).2.2 (Nat.le_add_right _ _)))
      (Nat.ne_of_lt (Nat.lt_of_lt_of_le (hid K).2.1 (Nat.le_add_right _ _))) (M.cls K) (M.g K) (M.f K) (M.r K)
      M.rep (M.rep') _ c kw w hk hw x (fun o => o.1) ra hx (fun o => ⟨hr1 o, hr2 o, hr4 o⟩)
    cases e1
    have hinv : ∀ o v, PopInv (K + 1) (G o v) := fun o v =>
      ⟨_, (e3 o v).trace, by simp [RV.mkImproper], by simp [RV.mkImproper], (e3 o v).output, Or.inr ⟨_, (e3 o v).logWeight⟩⟩
    simp only [vsmcNode]
    split
    · choose rs hrs using fun o : { o : Out 𝕋 // PopInv (K + 1) o } => resample_step (fresh + 4 * K + 3) kw w K o.1 o.2 hd hq
      refine ⟨x.bind fun o => .draw (M.f K (ra o).value) M.rep fun v => rs ⟨G o v, hinv o v⟩, ?_⟩
      have h1 : eval (mkResample (fresh + 4 * K + 3) (systematic false false) (Node.propose (mkAttrs (fresh + 4 * K + 2) (some (addLoss lossFn)) none (.int K) true) (transf.getD fun t _ => .ok t) false
          (mkExtend (fresh + 4 * K) (M.target I K) (M.reverse I K) none none .none false)
          (mkCompose (fresh + 4 * K + 1) (M.forward I K) (vsmcNode fresh m M I lossFn transf (systematic false false) K) none none .none true)) none .none false) c kw =
          Exec.bind (eval (Node.propose (mkAttrs (fresh + 4 * K + 2) (some (addLoss lossFn)) none (.int K) true) (transf.getD fun t _ => .ok t) false
          (mkExtend (fresh + 4 * K) (M.target I K) (M.reverse I K) none none .none false)
          (mkCompose (fresh + 4 * K + 1) (M.forward I K) (vsmcNode fresh m M I lossFn transf (systematic false false) K) none none .none true)) c kw)
            (resampleRest (mkAttrs (fresh + 4 * K + 3) none none .none false) (systematic false false) kw) := by
        rw [mkResample, eval]
        rfl
      rw [h1]
      simp only [Exec.bind]
      erw [e2]
      simp only [Comp.bind_assoc, Comp.bind_draw, Comp.bind_ret]
      congr 1; funext o; congr 1; funext v
      exact hrs ⟨G o v, hinv o v⟩
    · refine ⟨x.bind fun o => .draw (M.f K (ra o).value) M.rep fun v => .ret ⟨G o v, hinv o v⟩, ?_⟩
      simp only [Comp.bind_assoc, Comp.bind_draw, Comp.bind_ret]
      exact e2

end

/-! ### Every particle of the vectorised nest behaves like the nest for one -/
section
variable {L : Lang} {X D Lo : Type} [AddCommMonoid Lo] {lp : D → X → ℝ}
local notation "𝕃" => PLang X D Lo lp

/-- The decimal form of the successor does not begin that of a number. -/
theorem not_succ_prefix (k : Nat) : ¬ (toString (k + 1)).toList <+: (toString k).toList := by
  rintro ⟨r, h⟩
  rw [Nat.toString_eq_repr, Nat.toString_eq_repr, Nat.toList_repr, Nat.toList_repr] at h
  have h2 := congrArg (fun l => Nat.ofDigitChars 10 l 0) h
  simp only [Nat.ofDigitChars_append, Nat.ofDigitChars_ten_toDigits] at h2
  have := ofDigitChars_ge r (k + 1)
  rw [h2] at this
  have hp : 0 < 10 ^ r.length := Nat.pow_pos (by norm_num)
  nlinarith

/-- A particle's part of a trace is a trace. -/
noncomputable def laneTrace (l : Lane L lp) (t : Trace L) : Trace 𝕃 where
  entries := t.entries.map fun e => (e.1, { kind := .other, value := l.v e.2.value, logProb := l.w e.2.logProb, prov := e.2.prov, reparam := false, resamplable := true })
  nodup := by
    have h := t.nodup
    simp only [keysL, List.map_map] at h ⊢
    exact h

theorem envOf_laneTrace (l : Lane L lp) (t : Trace L) : envOf (laneTrace (Lo := Lo) l t) = laneEnv l t := by
  simp [envOf, laneTrace, laneEnv]

theorem keys_of_reorders {l : Lane L lp} {t : Trace L} {k : Nat} (h : Reorders (AnnealSpec.keep (X := X) (D := D) (Lo := Lo) (lp := lp) k) (laneEnv l t)) :
    t.keys = [gname (k + 1), gname k] ∨ t.entries = [] := by
  have hk : (laneTrace (Lo := Lo) l t).keys = t.keys := by simp [laneTrace, Dict.keys, keysL]
  by_cases hc : t.keys = [gname (k + 1), gname k]
  · exact Or.inl hc
  · have := h (laneTrace l t) {} Dict.empty (envOf_laneTrace l t) (by rw [AnnealSpec.keep, if_neg (by rw [hk]; exact hc)])
    right
    have h2 := this.symm.eq_nil
    simpa [laneEnv] using h2

theorem stl_perm (detachD : L.D → L.D) (weq : L.W → L.W → Bool) (hw : ∀ x y, weq x y = true → x = y) (l : Lane L lp) (k : Nat)
    (t t' : Trace L) (kw : Kw L) (hr : Reorders (AnnealSpec.keep (X := X) (D := D) (Lo := Lo) (lp := lp) k) (laneEnv l t))
    (h : stlTrace detachD weq t kw = .ok t') : (laneEnv l t').Perm (laneEnv l t) := by
  have hne : gname (k + 1) ≠ gname k := fun h => by have := gname_inj h; omega
  unfold stlTrace at h
  split at h
  · rename_i ix _
    simp only [copytraces_single, bind, Except.bind] at h
    generalize hname : ("g" : String) ++ toString (ix + 1) = name at h
    split at h
    · cases h
    · rename_i rv hrv
      cases hev : evalDetached detachD weq rv with
      | error e => rw [hev] at h; cases h
      | ok rv' =>
        rw [hev] at h
        cases h
        have hrv' : rv'.value = rv.value ∧ rv'.logProb = rv.logProb ∧ rv'.prov = rv.prov := by
          unfold evalDetached at hev
          split at hev
          · simp only at hev
            split at hev
            · rename_i hq
              cases hev
              exact ⟨rfl, (hw _ _ hq).symm, rfl⟩
            · cases hev
          · cases hev
        rcases keys_of_reorders hr with hk | hk
        · obtain ⟨x, y, hE⟩ : ∃ x y, t = tr2 (gname (k + 1)) x (gname k) y hne := by
            obtain ⟨E, nd⟩ := t
            simp only [Dict.keys, keysL] at hk
            match E, hk with
            | [(a, x), (b, y)], hk =>
              simp only [List.map_cons, List.map_nil, List.cons.injEq, and_true] at hk
              obtain ⟨rfl, rfl⟩ := hk
              exact ⟨x, y, rfl⟩
          subst hE
          rw [tr2_get] at hrv
          have h1 : pyStrIn (gname k) (gname (k + 1)) = false := by
            rw [Bool.eq_false_iff]; intro h; exact not_prefix_succ k ((gname_in_iff _ _).mp h)
          have h2 : pyStrIn (gname (k + 1)) (gname k) = false := by
            rw [Bool.eq_false_iff]; intro h; exact not_succ_prefix k ((gname_in_iff _ _).mp h)
          have h3 : ∀ j, pyStrIn (gname j) (gname j) = true := fun j => (gname_in_iff _ _).mpr List.prefix_rfl
          split at hrv
          · rename_i he
            cases hrv
            subst he
            show List.Perm ((insertL ([(gname (k + 1), rv), (gname k, y)].filter fun e => !pyStrIn e.1 (gname (k + 1))) (gname (k + 1)) rv').map _)
              ([(gname (k + 1), rv), (gname k, y)].map _)
            simp only [List.filter, h1, h3, Bool.not_true, Bool.not_false, insertL, if_neg hne.symm, List.map_cons, List.map_nil, hrv'.1, hrv'.2.1, hrv'.2.2]
            exact List.Perm.swap _ _ _
          · split at hrv
            · rename_i he
              cases hrv
              subst he
              show List.Perm ((insertL ([(gname (k + 1), x), (gname k, rv)].filter fun e => !pyStrIn e.1 (gname k)) (gname k) rv').map _)
                ([(gname (k + 1), x), (gname k, rv)].map _)
              simp only [List.filter, h2, h3, Bool.not_true, Bool.not_false, insertL, if_neg hne, List.map_cons, List.map_nil, hrv'.1, hrv'.2.1, hrv'.2.2]
              exact List.Perm.refl _
            · cases hrv
        · exfalso
          simp [Dict.get?, hk, getL] at hrv
  · cases h

theorem lane_kernel (l : Lane L lp) (i i' : ObjId) (a b : String) (net : L.V → L.D) (snet : X → D) (hn : ∀ v, l.d (net v) = snet (l.v v)) (rep : Bool) :
    LaneNode l (.prog i (kernelProg a b net rep)) (.prog i' (kernelProg (L := 𝕃) a b snet rep)) := by
  refine ⟨rfl, fun c kwargs => ?_⟩
  have key : ∀ v, kernelInput c a = .ok v → kernelInput (lanePy (Lo := Lo) l c) a = .ok (l.v v) := by
    intro v hv
    unfold kernelInput at hv
    split at hv
    · rename_i kvs
      split at hv
      · rename_i v' hg
        cases hv
        have : ∀ kvs, getL kvs a = some (.tensor v) → getL (laneKvs (Lo := Lo) l kvs) a = some (PyVal.tensor (L := 𝕃) (l.v v)) := by
          intro kvs
          induction kvs with
          | nil => intro h; cases h
          | cons e kvs ih =>
            obtain ⟨k, x⟩ := e
            intro h
            simp only [laneKvs, getL] at h ⊢
            split at h
            · cases h; simp [*, lanePy]
            · simp [*]
        simp only [lanePy, kernelInput, this kvs hg]
      · cases hv
      · cases hv
    · cases hv
  have key' : ∀ v', kernelInput (lanePy (Lo := Lo) l c) a = .ok v' → ∃ v, kernelInput c a = .ok v ∧ l.v v = v' := by
    intro v' hv
    cases c with
    | dict kvs =>
      simp only [lanePy, kernelInput] at hv
      have : ∀ kvs, getL (laneKvs (Lo := Lo) l kvs) a = some (PyVal.tensor (L := 𝕃) v') → ∃ v, getL kvs a = some (.tensor v) ∧ l.v v = v' := by
        intro kvs
        induction kvs with
        | nil => intro h; cases h
        | cons e kvs ih =>
          obtain ⟨k, x⟩ := e
          intro h
          simp only [laneKvs, getL] at h ⊢
          split at h
          · cases x <;> simp_all [lanePy]
          · simp [*]
      split at hv
      · rename_i v'' hg
        cases hv
        obtain ⟨v, h1, h2⟩ := this kvs hg
        exact ⟨v, by simp [kernelInput, h1], h2⟩
      · cases hv
      · cases hv
    | _ => cases hv
  show LaneTree l (kernelModel a b net rep c) (kernelModel (L := 𝕃) a b snet rep (lanePy l c))
  unfold kernelModel
  cases hc : kernelInput (lanePy (Lo := Lo) l c) a with
  | error e => exact .stuck _ _ trivial
  | ok v' =>
    obtain ⟨v, h1, rfl⟩ := key' v' hc
    rw [h1]
    have := LaneTree.var (Lo := Lo) (l := l) b (net v) none none rep (fun x => .ret (outDict b x)) (fun x => .ret (outDict b x))
      (fun x => by have := LaneTree.ret (Lo := Lo) (l := l) (outDict b x); simpa [outDict, lanePy, laneKvs] using this)
    rw [hn] at this
    exact this

end

section
variable {n b : Nat} {X D Lo : Type} [AddCommMonoid Lo] [MeasurableSpace X] {μ : Measure X} {lp : D → X → ℝ}
local notation "ℙ" => PopLang n b X D μ lp
local notation "𝕃" => PLang X D Lo lp

theorem lane_out (l : Lane ℙ lp) (name : String) (x : (ℙ).V) :
    LaneTree (Lo := Lo) l (.ret (outDict name x)) (.ret (outDict (L := 𝕃) name (l.v x))) := by
  have := LaneTree.ret (Lo := Lo) (l := l) (outDict name x)
  simpa [outDict, lanePy, laneKvs] using this

theorem vsmcNode_lane (fresh : ObjId) (m : Nat) (M : AnnealModel ℙ) (S : AnnealSpec X D) (j : Fin b) (hV : Vectorises M S j) (I : AnnealIds)
    (lossFn : Out ℙ → Except Err (ℙ).Lo) (transf : Option (Trace ℙ → Kw ℙ → Except Err (Trace ℙ)))
    (ht : transf = none ∨ ∃ detachD weq, transf = some (stlTrace detachD weq) ∧ ∀ x y, weq x y = true → x = y)
    (r : ResamplerFn ℙ) (s : Fin n) (K : Nat) :
    LaneNode (particleLane s j) (vsmcNode fresh m M I lossFn transf r K)
      (S.node (Lo := Lo) (lp := lp) M.rep0 M.rep M.rep' (fun k => decide (k + 1 < m)) K) := by
  induction K with
  | zero =>
    refine ⟨rfl, fun c kwargs => ?_⟩
    have := LaneTree.distribution (Lo := Lo) (l := particleLane (μ := μ) (lp := lp) s j) (gname 0) M.d0 M.rep0 (fun x => .ret (outDict (gname 0) x)) (fun x => .ret (outDict (gname 0) x))
      (fun x => lane_out _ _ _)
    rw [show (particleLane (μ := μ) (lp := lp) s j).d M.d0 = S.d0 from hV.d0 s] at this
    exact this
  | succ K ih =>
    have hstep : LaneNode (particleLane s j) (Node.propose (mkAttrs (fresh + 4 * K + 2) (some (addLoss lossFn)) none (.int K) true) (transf.getD fun t _ => .ok t) false
        (mkExtend (fresh + 4 * K) (M.target I K) (M.reverse I K) none none .none false)
        (mkCompose (fresh + 4 * K + 1) (M.forward I K) (vsmcNode fresh m M I lossFn transf r K) none none .none true))
        (S.step (Lo := Lo) (lp := lp) M.rep M.rep' K (S.node M.rep0 M.rep M.rep' (fun k => decide (k + 1 < m)) K)) := by
      refine ⟨rfl, ⟨rfl, ⟨rfl, fun c kwargs => ?_⟩, lane_kernel _ _ _ _ _ _ _ (fun v => hV.r s K v) _⟩,
        ⟨rfl, lane_kernel _ _ _ _ _ _ _ (fun v => hV.f s K v) _, ih⟩, ?_⟩
      · exact LaneTree.density (Lo := Lo) (l := particleLane (μ := μ) (lp := lp) s j) (gname (K + 1)) (M.g K) (S.g K) .assertion false (fun x => .ret (outDict (gname (K + 1)) x)) (fun x => .ret (outDict (gname (K + 1)) x))
          (fun x => hV.g s K x) (fun x => lane_out _ _ _)
      · intro t kw t' hr hok
        rcases ht with rfl | ⟨detachD, weq, rfl, hw⟩
        · cases hok
          exact List.Perm.refl _
        · exact stl_perm detachD weq hw _ K t t' kw hr hok
    simp only [vsmcNode, AnnealSpec.node]
    by_cases hK : K + 1 < m
    · rw [if_pos hK, if_pos (by simpa using hK)]
      exact ⟨rfl, hstep⟩
    · rw [if_neg hK, if_neg (by simpa using hK)]
      exact hstep

theorem vsmcNode_resamples {L : Lang} (fresh : ObjId) (m : Nat) (M : AnnealModel L) (I : AnnealIds) (lossFn : Out L → Except Err L.Lo)
    (transf : Option (Trace L → Kw L → Except Err (Trace L))) (r : ResamplerFn L) (K : Nat) :
    Resamples (· = r) (vsmcNode fresh m M I lossFn transf r K) := by
  induction K with
  | zero => trivial
  | succ K ih =>
    simp only [vsmcNode]
    split
    · exact ⟨rfl, ⟨trivial, trivial⟩, trivial, ih⟩
    · exact ⟨⟨trivial, trivial⟩, trivial, ih⟩

theorem vsmcNode_scoped {L : Lang} (fresh : ObjId) (m : Nat) (M : AnnealModel L) (I : AnnealIds) (hid : I.Below fresh) (lossFn : Out L → Except Err L.Lo)
    (transf : Option (Trace L → Kw L → Except Err (Trace L))) (r : ResamplerFn L) (K : Nat) :
    WellScoped false (vsmcNode fresh m M I lossFn transf r K) := by
  induction K with
  | zero => trivial
  | succ K ih =>
    have hp : WellScoped true (mkExtend (fresh + 4 * K) (M.target I K) (M.reverse I K) none none .none false) ∧
        (mkExtend (fresh + 4 * K) (M.target I K) (M.reverse I K) none none .none false).id ∉
          below (mkExtend (fresh + 4 * K) (M.target I K) (M.reverse I K) none none .none false) := by
      have h1 := (hid K).2.1
      have h2 := (hid K).2.2
      simp only [mkExtend, WellScoped, AnnealModel.target, AnnealModel.reverse, below, Node.id, mkAttrs]
      simp
      exact ⟨(Nat.ne_of_lt (Nat.lt_of_lt_of_le h2 (Nat.le_add_right _ _))).symm, (Nat.ne_of_lt (Nat.lt_of_lt_of_le h1 (Nat.le_add_right _ _))).symm⟩
    simp only [vsmcNode]
    split
    · exact ⟨⟨ih, trivial⟩, hp⟩
    · exact ⟨⟨ih, trivial⟩, hp⟩

end
end Verif
