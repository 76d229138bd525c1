import Verif.Proofs.Measurable
/-
Proper weighting: nests, the disintegration of a target along the names of a proposal.
-/
namespace Verif
open Spec MeasureTheory
open scoped ENNReal

section
variable {V D Lo : Type} [AddCommMonoid Lo] {lp : D → V → ℝ} [MeasurableSpace V] {μ : Measure V}
local notation "𝕃" => PLang V D Lo lp

theorem alwaysN_mono {n : Node 𝕃} {marg : Bool} {cond : String → Option V} {c : PyVal 𝕃} {kw : Kw 𝕃}
    {Q Q' : Env V → PyVal 𝕃 → Prop} (h : alwaysN n marg cond c kw Q) (hQ : ∀ e o, Q e o → Q' e o) : alwaysN n marg cond c kw Q' := by
  induction n generalizing marg cond c kw Q Q' with
  | prog i s => exact always_mono h hQ
  | resample a r q ih => exact ih (marg := false) h hQ
  | extend a p f ihp ihf =>
    cases marg with
    | true => exact ihp (marg := false) h hQ
    | false => exact ihp (marg := false) h fun e1 o1 h1 => ihf (marg := false) h1 fun e2 o2 h2 => hQ _ _ h2
  | compose a q2 q1 ih2 ih1 => exact ih1 (marg := false) h fun e1 o1 h1 => ih2 (marg := false) h1 fun e2 o2 h2 => hQ _ _ h2
  | propose a t b p q ihp ihq => exact ihp (marg := true) h hQ

theorem alwaysN_and {n : Node 𝕃} {marg : Bool} {cond : String → Option V} {c : PyVal 𝕃} {kw : Kw 𝕃}
    {Q Q' : Env V → PyVal 𝕃 → Prop} (h : alwaysN n marg cond c kw Q) (h' : alwaysN n marg cond c kw Q') :
    alwaysN n marg cond c kw fun e o => Q e o ∧ Q' e o := by
  induction n generalizing marg cond c kw Q Q' with
  | prog i s => exact always_and h h'
  | resample a r q ih => exact ih (marg := false) h h'
  | extend a p f ihp ihf =>
    cases marg with
    | true => exact ihp (marg := false) h h'
    | false => exact alwaysN_mono (n := p) (marg := false) (ihp (marg := false) h h') fun e1 o1 h1 => ihf (marg := false) h1.1 h1.2
  | compose a q2 q1 ih2 ih1 => exact alwaysN_mono (n := q1) (marg := false) (ih1 (marg := false) h h') fun e1 o1 h1 => ih2 (marg := false) h1.1 h1.2
  | propose a t b p q ihp ihq => exact ihp (marg := true) h h'

theorem alwaysN_cond {n : Node 𝕃} {marg : Bool} {cond cond' : String → Option V} {c : PyVal 𝕃} {kw : Kw 𝕃}
    {Q : Env V → PyVal 𝕃 → Prop} (h : alwaysN n marg cond c kw Q) (hc : ∀ k v, cond k = some v → cond' k = some v) :
    alwaysN n marg cond' c kw Q := by
  induction n generalizing marg cond cond' c kw Q with
  | prog i s => exact always_cond h hc
  | resample a r q ih => exact h
  | extend a p f ihp ihf =>
    cases marg with
    | true => exact ihp (marg := false) h hc
    | false => exact alwaysN_mono (n := p) (marg := false) (ihp (marg := false) (Q := fun e1 o1 => alwaysN f false cond o1 (subKw a kw) fun e2 o2 => Q (e1 ++ e2) o2) h hc) fun e1 o1 h1 => ihf (marg := false) h1 hc
  | compose a q2 q1 ih2 ih1 => exact h
  | propose a t b p q ihp ihq => exact h

theorem alwaysN_none {n : Node 𝕃} {marg : Bool} {cond : String → Option V} {c : PyVal 𝕃} {kw : Kw 𝕃}
    {Q : Env V → PyVal 𝕃 → Prop} (h : alwaysN n marg (fun _ => none) c kw Q) : alwaysN n marg cond c kw Q :=
  alwaysN_cond h fun _ _ hk => by cases hk

theorem target_congr {n : Node 𝕃} {marg : Bool} {cond : String → Option V} {c : PyVal 𝕃} {kw : Kw 𝕃} {Q : Env V → PyVal 𝕃 → Prop}
    {H H' : Env V → PyVal 𝕃 → ℝ≥0∞} (h : alwaysN n marg cond c kw Q) (hH : ∀ e o, Q e o → H e o = H' e o) :
    target μ n marg cond c kw H = target μ n marg cond c kw H' := by
  induction n generalizing marg cond c kw Q H H' with
  | prog i s => exact mass_congr h hH
  | resample a r q ih => exact ih (marg := false) h hH
  | extend a p f ihp ihf =>
    cases marg with
    | true => exact ihp (marg := false) h hH
    | false => exact ihp (marg := false) h fun e1 o1 h1 => ihf (marg := false) h1 fun e2 o2 h2 => hH _ _ h2
  | compose a q2 q1 ih2 ih1 => exact ih1 (marg := false) h fun e1 o1 h1 => ih2 (marg := false) h1 fun e2 o2 h2 => hH _ _ h2
  | propose a t b p q ihp ihq => exact ihp (marg := true) h hH

theorem target_mul (n : Node 𝕃) (marg : Bool) (cond : String → Option V) (c : PyVal 𝕃) (kw : Kw 𝕃) {x : ℝ≥0∞} (hx : x ≠ ⊤)
    (H : Env V → PyVal 𝕃 → ℝ≥0∞) : target μ n marg cond c kw (fun e o => x * H e o) = x * target μ n marg cond c kw H := by
  induction n generalizing marg cond c kw H with
  | prog i s => exact mass_mul _ _ _ hx _
  | resample a r q ih => exact ih false _ _ _ _
  | extend a p f ihp ihf =>
    cases marg with
    | true => exact ihp false _ _ _ _
    | false => simp only [target, ihf, ihp]
  | compose a q2 q1 ih2 ih1 => simp only [target, ih2, ih1]
  | propose a t b p q ihp ihq => exact ihp true _ _ _ _

/-! ### The whole target and its marginal at once -/

/-- The target of a node with what it is extended from. -/
noncomputable def joint (μ : Measure V) (n : Node 𝕃) (cond : String → Option V) (c : PyVal 𝕃) (kw : Kw 𝕃)
    (H : Env V × PyVal 𝕃 × Env V × PyVal 𝕃 → ℝ≥0∞) : ℝ≥0∞ :=
  match n with
  | .extend a p f => target μ p false cond c (subKw a kw) fun e1 o1 =>
      target μ f false cond o1 (subKw a kw) fun e2 o2 => H (e1 ++ e2, o2, e1, o1)
  | n => target μ n false cond c kw fun e o => H (e, o, e, o)

theorem target_eq_joint (n : Node 𝕃) (cond : String → Option V) (c : PyVal 𝕃) (kw : Kw 𝕃) (h : Env V → PyVal 𝕃 → ℝ≥0∞) :
    target μ n false cond c kw h = joint μ n cond c kw fun ω => h ω.1 ω.2.1 := by
  cases n <;> rfl

/-- A function of a parameter and an outcome is measurable along the families `P` of outcomes. -/
def PlotH {Ω : Type} (P : ∀ (Γ : Type) [MeasurableSpace Γ], (Γ → Ω) → Prop) {Γ : Type} [MeasurableSpace Γ] (H : Γ → Ω → ℝ≥0∞) : Prop :=
  ∀ (Δ : Type) [MeasurableSpace Δ] (φ : Δ → Γ) (ω : Δ → Ω), Measurable φ → P Δ ω → Measurable fun δ => H (φ δ) (ω δ)

/-- A family of measures that integrate to each other. -/
structure Splits {Ω : Type} (P : ∀ (Γ : Type) [MeasurableSpace Γ], (Γ → Ω) → Prop) (μ : Measure V) (lat : Ω → String → Option V)
    (F : (String → Option V) → (Ω → ℝ≥0∞) → ℝ≥0∞) : Prop where
  plot : ∀ (Γ : Type) [MeasurableSpace Γ] (ω : Γ → Ω), P Γ ω → PlotCond fun γ => lat (ω γ)
  mul : ∀ cond x H, x ≠ ⊤ → F cond (fun ω => x * H ω) = x * F cond H
  split : ∀ cond k (H : V → Ω → ℝ≥0∞), PlotH P H → cond k = none →
    ∫⁻ v, F (Function.update cond k (some v)) (H v) ∂μ = F cond (joined μ lat k H)

/-- Outcomes of `joint` that depend measurably on a parameter. -/
def PlotJ (Γ : Type) [MeasurableSpace Γ] (ω : Γ → Env V × PyVal 𝕃 × Env V × PyVal 𝕃) : Prop :=
  PlotEnv (fun γ => (ω γ).1) ∧ PlotPy (fun γ => (ω γ).2.1) ∧ PlotEnv (fun γ => (ω γ).2.2.1) ∧ PlotPy (fun γ => (ω γ).2.2.2)

theorem measNode_target [SFinite μ] {n : Node 𝕃} (hn : MeasNode n) {Γ : Type} [MeasurableSpace Γ] (marg : Bool) {cond : Γ → String → Option V}
    {c : Γ → PyVal 𝕃} (kw : Kw 𝕃) {h : Γ → Env V → PyVal 𝕃 → ℝ≥0∞} (hcond : PlotCond cond) (hc : PlotPy c) (hh : PlotFun h) :
    Measurable fun γ => target μ n marg (cond γ) (c γ) kw (h γ) := by
  induction n generalizing Γ marg kw with
  | prog i s => exact PlotTree.mass (hn _ _ c hc) hcond .nil hh
  | resample a r q ih => exact ih hn false (subKw a kw) (.const _) hc hh
  | extend a p f ihp ihf =>
    cases marg with
    | true => exact ihp hn.1 false (subKw a kw) hcond hc hh
    | false =>
      refine ihp hn.1 false (subKw a kw) (h := fun γ e1 o1 => target μ f false (cond γ) o1 (subKw a kw) fun e2 o2 => h γ (e1 ++ e2) o2) hcond hc ?_
      intro Δ _ φ e1 o1 hφ he1 ho1
      refine ihf hn.2 false (subKw a kw) (cond := fun δ => cond (φ δ)) (h := fun δ e2 o2 => h (φ δ) (e1 δ ++ e2) o2) (hcond.comp hφ) ho1 ?_
      intro Δ' _ ψ e2 o2 hψ he2 ho2
      exact hh _ (fun x => φ (ψ x)) _ o2 (hφ.comp hψ) ((he1.comp hψ).append he2) ho2
  | compose a q2 q1 ih2 ih1 =>
    refine ih1 hn.2 false (subKw a kw) (h := fun γ e1 o1 => target μ q2 false (fun _ => none) o1 (subKw a kw) fun e2 o2 => h γ (e2 ++ e1) o2)
      (.const _) hc ?_
    intro Δ _ φ e1 o1 hφ he1 ho1
    refine ih2 hn.1 false (subKw a kw) (h := fun δ e2 o2 => h (φ δ) (e2 ++ e1 δ) o2) (.const _) ho1 ?_
    intro Δ' _ ψ e2 o2 hψ he2 ho2
    exact hh _ (fun x => φ (ψ x)) _ o2 (hφ.comp hψ) (he2.append (he1.comp hψ)) ho2
  | propose a t b p q ihp ihq => exact ihp hn.1 true (subKw a kw) (.const _) hc hh

theorem measProg_tree {s : ProgSpec 𝕃} (h : MeasProg s) (c : PyVal 𝕃) (kwargs : List (String × PyVal 𝕃)) : MeasTree (s.model c kwargs) :=
  h kwargs _ (fun _ => c) (.const c)

theorem isTarget_total {p : Node 𝕃} {c : PyVal 𝕃} {kw : Kw 𝕃} (h : IsTarget μ p c kw) :
    alwaysN p false (fun _ => none) c kw fun e _ => e.names.Nodup := by
  induction p generalizing c kw with
  | prog i s => exact always_mono (always_prefix h (by simp)) fun e o h => h.2.2
  | extend a p f ihp ihf =>
    cases f with
    | prog i s =>
      refine alwaysN_mono (n := p) (marg := false) (alwaysN_and (ihp h.1) h.2) ?_
      rintro e1 o1 ⟨h1, h2⟩
      refine always_mono (always_prefix h2.2 (by simp)) ?_
      rintro e2 o2 ⟨⟨_, h3⟩, _, h4⟩
      rw [names_append, List.nodup_append]
      exact ⟨h1, h4, fun k hk k' hk' e => h3 k hk (e ▸ hk')⟩
    | _ => exact h.elim
  | _ => exact h.elim

theorem joint_mul (p : Node 𝕃) (cond : String → Option V) (c : PyVal 𝕃) (kw : Kw 𝕃) {x : ℝ≥0∞} (hx : x ≠ ⊤)
    (H : Env V × PyVal 𝕃 × Env V × PyVal 𝕃 → ℝ≥0∞) : joint μ p cond c kw (fun ω => x * H ω) = x * joint μ p cond c kw H := by
  cases p <;> simp only [joint, target_mul _ _ _ _ _ hx]

theorem joint_split [SFinite μ] {p : Node 𝕃} (hm : MeasNode p) {c : PyVal 𝕃} {kw : Kw 𝕃} (h : IsTarget μ p c kw) (cond : String → Option V)
    (k : String) (H : V → Env V × PyVal 𝕃 × Env V × PyVal 𝕃 → ℝ≥0∞) (hH : PlotH PlotJ H) (hc : cond k = none) :
    ∫⁻ v, joint μ p (Function.update cond k (some v)) c kw (H v) ∂μ = joint μ p cond c kw (joined μ (fun ω => ω.1.lat) k H) := by
  induction p generalizing c kw H with
  | prog i s =>
    exact mass_split cond (measProg_tree hm c (receivedKwargs s.sig kw)) [] k (H := fun v e o => H v (e, o, e, o))
      (fun _ _ φ e o hφ he ho => hH _ φ _ hφ ⟨he, ho, he, ho⟩) (by simp) (by simp) hc
  | extend a p f ihp ihf =>
    cases f with
    | prog i s =>
      have ih := ihp hm.1 h.1 (fun v ω => target μ (.prog i s) false (Function.update cond k (some v)) ω.2.1 (subKw a kw)
        fun e2 o2 => H v (ω.1 ++ e2, o2, ω.1, ω.2.1)) (by
          intro Δ _ φ ω hφ hω
          refine measNode_target (n := .prog i s) hm.2 false (subKw a kw) (cond := fun δ => Function.update cond k (some (φ δ)))
            (h := fun δ e2 o2 => H (φ δ) ((ω δ).1 ++ e2, o2, (ω δ).1, (ω δ).2.1)) ((PlotCond.const cond).update k hφ) hω.2.1 ?_
          intro Δ' _ ψ e2 o2 hψ he2 ho2
          exact hH _ (fun x => φ (ψ x)) _ (hφ.comp hψ) ⟨(hω.1.comp hψ).append he2, ho2, hω.1.comp hψ, hω.2.1.comp hψ⟩)
      have e1 : ∀ v, joint μ (.extend a p (.prog i s)) (Function.update cond k (some v)) c kw (H v) =
        joint μ p (Function.update cond k (some v)) c (subKw a kw) fun ω =>
          target μ (.prog i s) false (Function.update cond k (some v)) ω.2.1 (subKw a kw)
            fun e2 o2 => H v (ω.1 ++ e2, o2, ω.1, ω.2.1) := fun v => target_eq_joint _ _ _ _ _
      simp only [e1, ih]
      have e2 : joint μ p cond c (subKw a kw) (joined μ (fun ω => ω.1.lat) k fun v ω =>
            target μ (.prog i s) false (Function.update cond k (some v)) ω.2.1 (subKw a kw)
              fun e2 o2 => H v (ω.1 ++ e2, o2, ω.1, ω.2.1)) =
          target μ p false cond c (subKw a kw) fun e1 o1 => joined μ (fun e => e.lat) k (fun v e1 =>
            target μ (.prog i s) false (Function.update cond k (some v)) o1 (subKw a kw)
              fun e2 o2 => H v (e1 ++ e2, o2, e1, o1)) e1 :=
        (target_eq_joint p cond c (subKw a kw) fun e1 o1 => joined μ (fun e => e.lat) k (fun v e1 =>
            target μ (.prog i s) false (Function.update cond k (some v)) o1 (subKw a kw)
              fun e2 o2 => H v (e1 ++ e2, o2, e1, o1)) e1).symm
      rw [e2]
      refine target_congr (alwaysN_none h.2) ?_
      intro e1 o1 h1
      cases hl : e1.lat k with
      | some v =>
        rw [joined_some hl]
        have hk := mem_names_of_lat hl
        have h2 : always cond (s.model o1 (receivedKwargs s.sig (subKw a kw))) [] fun e2 _ => k ∉ Env.names e2 :=
          always_mono (always_cond h1.2 fun _ _ hk => by cases hk) fun e2 o2 h2 => h2.2 k hk
        refine (mass_update_unused cond _ [] k v _ (by simp) hc h2).trans ?_
        refine mass_congr' (by simp) fun e2 o2 _ _ => ?_
        rw [joined_some]
        show (e1 ++ e2).lat k = some v
        rw [lat_append, hl]
        rfl
      | none =>
        rw [joined_none hl]
        refine (mass_split cond (measProg_tree hm.2 o1 (receivedKwargs s.sig (subKw a kw))) [] k (H := fun v e2 o2 => H v (e1 ++ e2, o2, e1, o1))
          (fun _ _ φ e2 o2 hφ he ho => hH _ φ _ hφ ⟨(PlotEnv.const e1).append he, ho, .const e1, .const o1⟩) (by simp) (by simp) hc).trans ?_
        refine mass_congr' (by simp) fun e2 o2 _ _ => ?_
        have hl' : (e1 ++ e2).lat k = Env.lat e2 k := by rw [lat_append, hl]; rfl
        cases hl2 : Env.lat e2 k with
        | some v => rw [joined_some hl2]; exact (joined_some (ω := (e1 ++ e2, o2, e1, o1)) (lat := fun ω => Env.lat ω.1) (hl'.trans hl2)).symm
        | none => rw [joined_none hl2]; exact (joined_none (ω := (e1 ++ e2, o2, e1, o1)) (lat := fun ω => Env.lat ω.1) (hl'.trans hl2)).symm
    | _ => exact h.elim
  | _ => exact h.elim

theorem joint_splits [SFinite μ] {p : Node 𝕃} (hm : MeasNode p) {c : PyVal 𝕃} {kw : Kw 𝕃} (h : IsTarget μ p c kw) :
    Splits PlotJ μ (fun ω => ω.1.lat) fun cond H => joint μ p cond c kw H where
  plot _ _ _ hω := hω.1.lat
  mul cond x H hx := joint_mul p cond c kw hx H
  split cond k H hH hc := joint_split hm h cond k H hH hc

/-- Every run that a family of measures sees has a latent variable `k`. -/
def Keeps {Ω : Type} (lat : Ω → String → Option V) (F : (String → Option V) → (Ω → ℝ≥0∞) → ℝ≥0∞) (k : String) : Prop :=
  ∀ cond H H', (∀ ω v, lat ω k = some v → H ω = H' ω) → F cond H = F cond H'

theorem joint_keeps {p : Node 𝕃} {c : PyVal 𝕃} {kw : Kw 𝕃} {k : String}
    (h : alwaysN p false (fun _ => none) c kw fun e _ => ∃ v, e.lat k = some v) :
    Keeps (fun ω => ω.1.lat) (fun cond H => joint μ p cond c kw H) k := by
  intro cond H H' hH
  have h' := alwaysN_none (cond := cond) h
  cases p with
  | extend a p f =>
    refine target_congr (n := p) (marg := false) h' fun e1 o1 h1 => ?_
    refine target_congr (n := f) (marg := false) h1 fun e2 o2 h2 => ?_
    obtain ⟨v, hv⟩ := h2
    exact hH (e1 ++ e2, o2, e1, o1) v hv
  | prog i s =>
    refine target_congr (n := .prog i s) (marg := false) h' fun e o h1 => ?_
    obtain ⟨v, hv⟩ := h1
    exact hH (e, o, e, o) v hv
  | resample a r q =>
    refine target_congr (n := .resample a r q) (marg := false) h' fun e o h1 => ?_
    obtain ⟨v, hv⟩ := h1
    exact hH (e, o, e, o) v hv
  | compose a q2 q1 =>
    refine target_congr (n := .compose a q2 q1) (marg := false) (H := fun e o => H (e, o, e, o)) (H' := fun e o => H' (e, o, e, o)) h'
      fun e o h1 => ?_
    obtain ⟨v, hv⟩ := h1
    exact hH (e, o, e, o) v hv
  | propose a t b p q =>
    refine target_congr (n := .propose a t b p q) (marg := false) h' fun e o h1 => ?_
    obtain ⟨v, hv⟩ := h1
    exact hH (e, o, e, o) v hv

/-! ### Integrating over what a proposal draws -/

/-- The log density that a proposal's trace contributes to a denominator: what it observes, and what the target knows. -/
noncomputable def Den (lat : String → Option V) (e : Env V) : ℝ :=
  (e.map fun x => if x.2.latent = true ∧ lat x.1 = none then 0 else x.2.logp).sum

@[simp] theorem Den_nil (lat : String → Option V) : Den lat [] = 0 := rfl
theorem Den_append (lat : String → Option V) (e e' : Env V) : Den lat (e ++ e') = Den lat e + Den lat e' := by simp [Den]
theorem Den_single (lat : String → Option V) (x : String × Entry V) :
    Den lat [x] = if x.2.latent = true ∧ lat x.1 = none then 0 else x.2.logp := by simp [Den]

theorem Den_perm (lat : String → Option V) {e e' : Env V} (h : e.Perm e') : Den lat e = Den lat e' :=
  (h.map _).sum_eq

section
variable [Nonempty V] {Ω : Type} {lat : Ω → String → Option V} {F : (String → Option V) → (Ω → ℝ≥0∞) → ℝ≥0∞} {M : String → D → Prop}
  {P : ∀ (Γ : Type) [MeasurableSpace Γ], (Γ → Ω) → Prop}

theorem measurable_Den (hF : Splits P μ lat F) (e : Env V) (Γ : Type) [MeasurableSpace Γ] (ω : Γ → Ω) (hω : P Γ ω) :
    Measurable fun γ => Den (lat (ω γ)) e := by
  induction e with
  | nil => exact measurable_const
  | cons x e ih =>
    have h1 : ∀ γ, Den (lat (ω γ)) (x :: e) = Den (lat (ω γ)) [x] + Den (lat (ω γ)) e := fun γ => Den_append _ [x] e
    simp only [h1]
    refine Measurable.add ?_ ih
    simp only [Den_single]
    rcases hF.plot Γ ω hω x.1 with h | ⟨v, _, h⟩
    · simp only [h]; exact measurable_const
    · simp only [h, reduceCtorEq, and_false, if_false]; exact measurable_const

/-- A measurable function of outcomes. -/
def PlotH1 (P : ∀ (Γ : Type) [MeasurableSpace Γ], (Γ → Ω) → Prop) (H : Ω → ℝ≥0∞) : Prop :=
  ∀ (Γ : Type) [MeasurableSpace Γ] (ω : Γ → Ω), P Γ ω → Measurable fun γ => H (ω γ)

theorem plotH1_den (hF : Splits P μ lat F) {H : Ω → ℝ≥0∞} (hH : PlotH1 P H) (e : Env V) : PlotH1 P fun ω => H ω * dens (-Den (lat ω) e) :=
  fun Γ _ ω hω => (hH Γ ω hω).mul (measurable_dens.comp (measurable_Den hF e Γ ω hω).neg)

/-- The family at what a trace fixes, divided by the trace's densities. -/
noncomputable def over (lat : Ω → String → Option V) (F : (String → Option V) → (Ω → ℝ≥0∞) → ℝ≥0∞) (c0 : String → Option V)
    (H : Ω → ℝ≥0∞) (e : Env V) : ℝ≥0∞ :=
  F (fun k => (c0 k).or (e.lat k)) fun ω => H ω * dens (-Den (lat ω) e)

theorem over_nil (c0 : String → Option V) (H : Ω → ℝ≥0∞) : over lat F c0 H [] = F c0 H := by
  simp [over, dens_zero]

theorem over_append (c0 : String → Option V) (H : Ω → ℝ≥0∞) (e e' : Env V) :
    over lat F c0 H (e ++ e') = over lat F (fun k => (c0 k).or (e.lat k)) (fun ω => H ω * dens (-Den (lat ω) e)) e' := by
  unfold over
  congr 1
  · funext k; rw [lat_append, Option.or_assoc]
  · funext ω; rw [Den_append, neg_add, dens_add, mul_assoc]

theorem mass_over (hM : ∀ k d, M k d → Normalised μ lp d ∨ Keeps lat F k) (hF : Splits P μ lat F) (m : MTree 𝕃) (hm : MeasTree m) (a : Env V)
    (c0 : String → Option V) (H : Ω → ℝ≥0∞) (hH : PlotH1 P H) (ha : a.names.Nodup) (h : always (fun _ => none) m a fun e _ => ∀ k ∈ Env.names e, c0 k = none)
    (hs : samples M m) :
    mass μ (fun _ => none) m a (fun e _ => over lat F c0 H e) = over lat F c0 H a := by
  induction m generalizing a with
  | ret o => rfl
  | «variable» name d value prov rep f ih =>
    rw [always_var] at h
    rw [mass_var, if_neg h.2.1]
    have hnd : ∀ x : Entry V, (Env.names (a ++ [(name, x)])).Nodup := by
      intro x
      rw [names_append, names_single, List.nodup_append]
      exact ⟨ha, by simp, by rintro k hk _ hk' rfl; simp at hk'; exact h.2.1 (hk' ▸ hk)⟩
    cases value with
    | some v =>
      simp only []
      rw [ih v hm.observe _ (hnd _) h.2.2 hs, over_append]
      unfold over
      rw [← hF.mul _ _ _ (dens_ne_top _)]
      congr 1
      · funext k; simp [lat_single]
      · funext ω
        rw [Den_single, if_neg (by simp)]
        rw [show dens (lp d v) * (H ω * dens (-Den (lat ω) a) * dens (-lp d v)) =
          H ω * dens (-Den (lat ω) a) * (dens (lp d v) * dens (-lp d v)) by ring, dens_cancel, mul_one]
    | none =>
      simp only []
      have h2 := fun v => h.2.2 v fun v' hv' => by cases hv'
      have hc0 : c0 name = none := by
        have v := Classical.arbitrary V
        obtain ⟨e, o, h3, ⟨s, h4⟩, _⟩ := always_exists (always_prefix (h2 v) (hnd _))
        refine h3 name ?_
        rw [← h4]
        simp
      have hal := lat_none_of_not_mem h.2.1
      obtain ⟨hd0, hf⟩ := hm.sample
      have e1 : ∀ v, (dens (lp d v) * mass μ (fun _ => none) (f v) (a ++ [(name, ⟨v, lp d v, true⟩)]) fun e _ => over lat F c0 H e) =
          F (Function.update (fun k => (c0 k).or (a.lat k)) name (some v)) (fun ω => dens (lp d v) *
            (H ω * dens (-Den (lat ω) a) * dens (-(if lat ω name = none then 0 else lp d v)))) := by
        intro v
        rw [ih v (hf.at v) _ (hnd _) (h2 v) (hs.2 v), over_append]
        unfold over
        rw [← hF.mul _ _ _ (dens_ne_top _)]
        congr 1
        · funext k
          by_cases hk : k = name
          · subst hk
            simp [hc0, hal, lat_single]
          · rw [Function.update_of_ne hk, lat_single, if_neg (fun h => hk h.1.symm)]
            simp
        · funext ω
          rw [Den_single]
          simp
      rw [lintegral_congr e1, hF.split _ _ _ ?meas (by simp [hc0, hal])]
      case meas =>
        intro Δ _ φ ω hφ hω
        refine (measurable_dens.comp (hd0.comp hφ)).mul ((plotH1_den hF hH a Δ ω hω).mul (measurable_dens.comp (Measurable.neg ?_)))
        rcases hF.plot Δ ω hω name with h | ⟨v, _, h⟩
        · simp only [h]; exact measurable_const
        · simp only [h]; exact hd0.comp hφ
      unfold over
      have hsome : ∀ ω v, lat ω name = some v → joined μ lat name (fun v ω => dens (lp d v) *
          (H ω * dens (-Den (lat ω) a) * dens (-(if lat ω name = none then 0 else lp d v)))) ω = H ω * dens (-Den (lat ω) a) := by
        intro ω v hl
        rw [joined_some hl]
        simp only [hl]
        rw [if_neg (by simp)]
        rw [show dens (lp d v) * (H ω * dens (-Den (lat ω) a) * dens (-lp d v)) =
          H ω * dens (-Den (lat ω) a) * (dens (lp d v) * dens (-lp d v)) by ring, dens_cancel, mul_one]
      rcases hM name d hs.1 with hd | hk
      · congr 1
        funext ω
        cases hl : lat ω name with
        | some v => exact hsome ω v hl
        | none =>
          rw [joined_none hl]
          simp only [hl, if_pos, neg_zero, dens_zero, mul_one]
          rw [lintegral_mul_const _ (f := fun v => dens (lp d v)) (measurable_dens.comp hd.1), hd.2, one_mul]
      · exact hk _ _ _ hsome
  | _ => exact h.elim

theorem isTarget_over (hM : ∀ k d, M k d → Normalised μ lp d ∨ Keeps lat F k) (hF : Splits P μ lat F) {p : Node 𝕃} (hm : MeasNode p)
    {c : PyVal 𝕃} {kw : Kw 𝕃} (hp : IsTarget μ p c kw) (c0 : String → Option V) (H : Ω → ℝ≥0∞) (hH : PlotH1 P H)
    (h : alwaysN p false (fun _ => none) c kw fun e _ => ∀ k ∈ Env.names e, c0 k = none) (hs : samplesN M p false c kw) :
    target μ p false (fun _ => none) c kw (fun e _ => over lat F c0 H e) = F c0 H := by
  induction p generalizing c kw with
  | prog i s => exact (mass_over hM hF _ (measProg_tree hm _ _) [] c0 H hH (by simp) h hs).trans (over_nil _ _)
  | extend a p f ihp ihf =>
    cases f with
    | prog i s =>
      have h1 : alwaysN p false (fun _ => none) c (subKw a kw) fun e _ => ∀ k ∈ Env.names e, c0 k = none := by
        refine alwaysN_mono h fun e1 o1 h1 => ?_
        obtain ⟨e2, o2, h2⟩ := always_exists (show always _ _ _ _ from h1)
        exact fun k hk => h2 k (by simp [hk])
      rw [← ihp hm.1 hp.1 h1 hs.1]
      refine target_congr (n := p) (marg := false) (alwaysN_and (n := p) (marg := false) h (alwaysN_and (n := p) (marg := false) hp.2 hs.2)) ?_
      rintro e1 o1 ⟨h2, ⟨-, h3⟩, h3s⟩
      refine Eq.trans ?_ (mass_over hM hF (s.model o1 (receivedKwargs s.sig (subKw a kw))) (measProg_tree hm.2 _ _) []
        (fun k => (c0 k).or (e1.lat k)) (fun ω => H ω * dens (-Den (lat ω) e1)) (plotH1_den hF hH e1) (by simp) ?_ h3s |>.trans (over_nil _ _))
      · refine mass_congr' (by simp) fun e2 o2 _ _ => ?_
        exact over_append _ _ _ _
      · refine always_mono (always_and (show always _ _ _ _ from h2) (show always _ _ _ _ from h3)) ?_
        rintro e2 o2 ⟨h4, _, h5⟩ k hk
        rw [h4 k (by simp [hk]), lat_none_of_not_mem fun hk1 => h5 k hk1 hk]
        rfl
    | _ => exact hp.elim
  | _ => exact hp.elim

theorem alwaysN_exists {n : Node 𝕃} {marg : Bool} {cond : String → Option V} {c : PyVal 𝕃} {kw : Kw 𝕃} {Q : Env V → PyVal 𝕃 → Prop}
    (h : alwaysN n marg cond c kw Q) : ∃ e o, Q e o := by
  induction n generalizing marg cond c kw Q with
  | prog i s => exact always_exists (show always _ _ _ _ from h)
  | resample a r q ih => exact ih (marg := false) h
  | extend a p f ihp ihf =>
    cases marg with
    | true => exact ihp (marg := false) h
    | false =>
      obtain ⟨e1, o1, h1⟩ := ihp (marg := false) h
      obtain ⟨e2, o2, h2⟩ := ihf (marg := false) h1
      exact ⟨_, _, h2⟩
  | compose a q2 q1 ih2 ih1 =>
    obtain ⟨e1, o1, h1⟩ := ih1 (marg := false) h
    obtain ⟨e2, o2, h2⟩ := ih2 (marg := false) h1
    exact ⟨_, _, h2⟩
  | propose a t b p q ihp ihq => exact ihp (marg := true) h

theorem over_comm (c0 : String → Option V) (H : Ω → ℝ≥0∞) {e e' : Env V} (h : ∀ k ∈ e.names, k ∉ e'.names) :
    over lat F c0 H (e' ++ e) = over lat F c0 H (e ++ e') := by
  unfold over
  congr 1
  · funext k
    rw [lat_append, lat_append]
    by_cases hk : k ∈ e.names
    · rw [lat_none_of_not_mem (h k hk)]
      simp
    · rw [lat_none_of_not_mem hk]
      simp
  · funext ω
    rw [Den_append, Den_append, add_comm]

theorem isTarget_marg {p : Node 𝕃} {c : PyVal 𝕃} {kw : Kw 𝕃} (hp : IsTarget μ p c kw) :
    alwaysN p true (fun _ => none) c kw fun e _ => e.names.Nodup := by
  cases p with
  | prog i s => exact isTarget_total hp
  | extend a p f =>
    cases f with
    | prog i s => exact isTarget_total hp.1
    | _ => exact hp.elim
  | _ => exact hp.elim

theorem fits_nodup {q : Node 𝕃} {c : PyVal 𝕃} {kw : Kw 𝕃} (hq : Fits μ q c kw) :
    alwaysN q false (fun _ => none) c kw fun e _ => e.names.Nodup := by
  induction q generalizing c kw with
  | prog i s => exact always_mono (always_prefix hq (by simp)) fun e o h => h.2.2
  | compose a q2 q1 ih2 ih1 =>
    refine alwaysN_mono (n := q1) (marg := false) (alwaysN_and (n := q1) (marg := false) (ih1 hq.1) hq.2) ?_
    rintro e1 o1 ⟨h1, h2, h3⟩
    refine alwaysN_mono (n := q2) (marg := false) (alwaysN_and (n := q2) (marg := false) (ih2 h2) h3) ?_
    rintro e2 o2 ⟨h4, h5⟩
    rw [names_append, List.nodup_append]
    exact ⟨h4, h1, fun k hk k' hk' e => h5 k' hk' (e ▸ hk)⟩
  | propose a t b p q ihp ihq => exact isTarget_marg hq.2.1
  | resample a r q ih => exact ih hq.1
  | _ => exact hq.elim

theorem fits_total {q : Node 𝕃} {c : PyVal 𝕃} {kw : Kw 𝕃} (hq : Fits μ q c kw) : alwaysN q false (fun _ => none) c kw fun _ _ => True :=
  alwaysN_mono (fits_nodup hq) fun _ _ _ => trivial

/-- Integrating over what a proposal targets undoes fixing its values and dividing by their densities. -/
theorem fits_over (hM : ∀ k d, M k d → Normalised μ lp d ∨ Keeps lat F k) (hF : Splits P μ lat F) {q : Node 𝕃} (hm : MeasNode q)
    {c : PyVal 𝕃} {kw : Kw 𝕃} (hq : Fits μ q c kw) (c0 : String → Option V) (H : Ω → ℝ≥0∞) (hH : PlotH1 P H)
    (h : alwaysN q false (fun _ => none) c kw fun e _ => ∀ k ∈ Env.names e, c0 k = none) (hs : samplesN M q false c kw) :
    target μ q false (fun _ => none) c kw (fun e _ => over lat F c0 H e) = F c0 H := by
  induction q generalizing c kw c0 H with
  | prog i s => exact (mass_over hM hF _ (measProg_tree hm _ _) [] c0 H hH (by simp) h hs).trans (over_nil _ _)
  | compose a q2 q1 ih2 ih1 =>
    obtain ⟨hq1, hq2⟩ := hq
    have h1 : alwaysN q1 false (fun _ => none) c (subKw a kw) fun e _ => ∀ k ∈ Env.names e, c0 k = none := by
      refine alwaysN_mono (n := q1) (marg := false) h fun e1 o1 h1 => ?_
      obtain ⟨e2, o2, h2⟩ := alwaysN_exists h1
      exact fun k hk => h2 k (by simp [hk])
    rw [← ih1 hm.2 hq1 c0 H hH h1 hs.1]
    refine target_congr (n := q1) (marg := false) (alwaysN_and (n := q1) (marg := false) h (alwaysN_and (n := q1) (marg := false) hq2 hs.2)) ?_
    rintro e1 o1 ⟨h2, ⟨h3, h4⟩, h3s⟩
    refine Eq.trans ?_ (ih2 hm.1 h3 (fun k => (c0 k).or (e1.lat k)) (fun ω => H ω * dens (-Den (lat ω) e1)) (plotH1_den hF hH e1) ?_ h3s)
    · refine target_congr (n := q2) (marg := false) h4 ?_
      intro e2 o2 h5
      exact (over_comm c0 H h5).trans (over_append _ _ _ _)
    · refine alwaysN_mono (n := q2) (marg := false) (alwaysN_and (n := q2) (marg := false) h2 h4) ?_
      rintro e2 o2 ⟨h5, h6⟩ k hk
      rw [h5 k (by simp [hk]), lat_none_of_not_mem fun hk1 => h6 k hk1 hk]
      rfl
  | propose a t b p q ihp ihq =>
    have hp := hq.2.1
    cases p with
    | prog i s => exact isTarget_over hM hF hm.1 hp c0 H hH h hs
    | extend a' p f =>
      cases f with
      | prog i s => exact isTarget_over hM hF hm.1.1 hp.1 c0 H hH h hs
      | _ => exact hp.elim
    | _ => exact hp.elim
  | resample a r q ih => exact ih hm hq.1 c0 H hH h hs
  | _ => exact hq.elim

theorem splits_unit : Splits (fun _ _ _ => True) μ (fun (_ : Unit) (_ : String) => (none : Option V)) fun _ H => H () where
  plot _ _ _ _ _ := Or.inl fun _ => rfl
  mul _ _ _ _ := rfl
  split _ _ _ _ _ := rfl

theorem Den_zero {e : Env V} (h : ∀ x ∈ e, x.2.latent = true) : Den (fun _ => none) e = 0 := by
  unfold Den
  rw [List.map_congr_left (g := fun _ => 0) fun x hx => if_pos ⟨h x hx, rfl⟩]
  simp

/-- A kernel integrates to one. -/
theorem kernel_mass {m : MTree 𝕃} (hm : MeasTree m) (hs : samples (fun _ d => Normalised μ lp d) m)
    (h : always (fun _ => none) m [] fun e _ => ∀ x ∈ e, x.2.latent = true) (x : ℝ≥0∞) :
    mass μ (fun _ => none) m [] (fun _ _ => x) = x := by
  have h1 := mass_over (fun _ _ h => Or.inl h) (splits_unit (V := V)) m hm [] (fun _ => none) (fun _ => x) (fun _ _ _ _ => measurable_const) (by simp) (always_mono h fun _ _ _ _ _ => rfl) hs
  rw [over_nil] at h1
  refine Eq.trans ?_ h1
  refine mass_congr h fun e o he => ?_
  show x = x * dens (-Den (fun _ => none) e)
  rw [Den_zero he, neg_zero, dens_zero, mul_one]

theorem joint_marg {p : Node 𝕃} (hm : MeasNode p) {c : PyVal 𝕃} {kw : Kw 𝕃} (hp : IsTarget μ p c kw)
    (h : Env V → PyVal 𝕃 → ℝ≥0∞) :
    joint μ p (fun _ => none) c kw (fun ω => h ω.2.2.1 ω.2.2.2) = target μ p true (fun _ => none) c kw h := by
  cases p with
  | prog i s => rfl
  | extend a p f =>
    cases f with
    | prog i s =>
      refine target_congr (n := p) (marg := false) hp.2 ?_
      intro e1 o1 h1
      exact kernel_mass (measProg_tree hm.2 _ _) h1.1 (always_mono (show always _ _ _ _ from h1.2) fun e2 o2 h2 => h2.1) (h e1 o1)
    | _ => exact hp.elim
  | _ => exact hp.elim

/-- The law of Propose: weighing the target, given the proposal's values, by the proposal's densities gives the target's marginal. -/
theorem propose_law [SFinite μ] {p q : Node 𝕃} (hmp : MeasNode p) (hmq : MeasNode q) {c : PyVal 𝕃} {kw : Kw 𝕃} (hq : Fits μ q c kw)
    (hp : IsTarget μ p c kw) (hs : samplesN (fun k d => Normalised μ lp d ∨
      alwaysN p false (fun _ => none) c kw fun e' _ => ∃ v, e'.lat k = some v) q false c kw) {h : Env V → PyVal 𝕃 → ℝ≥0∞} (hh : MeasFun h) :
    target μ q false (fun _ => none) c kw (fun e _ => joint μ p e.lat c kw fun ω => h ω.2.2.1 ω.2.2.2 * dens (-Den ω.1.lat e)) =
      target μ p true (fun _ => none) c kw h := by
  rw [← joint_marg hmp hp, ← fits_over (fun k d hk => hk.imp id joint_keeps) (joint_splits hmp hp) hmq hq (fun _ => none)
    (fun ω => h ω.2.2.1 ω.2.2.2) (fun Γ _ ω hω => hh _ _ _ hω.2.2.1 hω.2.2.2) (alwaysN_mono (Q := fun _ _ => True) ?_ fun _ _ _ _ _ => rfl) hs]
  · rfl
  · exact fits_total hq

end
end
end Verif
