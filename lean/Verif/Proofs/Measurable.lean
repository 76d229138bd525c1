import Mathlib.MeasureTheory.Measure.Prod
import Mathlib.MeasureTheory.Function.SpecialFunctions.Basic
import Verif.Proofs.Weighting
import Verif.Spec.Measurable
/-
Measurable models: integrals over their runs depend measurably on parameters.
-/
namespace Verif
open Spec MeasureTheory
open scoped ENNReal

theorem measurable_dens : Measurable dens := ENNReal.measurable_ofReal.comp Real.measurable_exp

/-- Countably many cases. -/
theorem measurable_cases {Γ β : Type} [MeasurableSpace Γ] [MeasurableSpace β] {f : Γ → ℕ} (hf : Measurable f) {F : ℕ → Γ → β}
    (hF : ∀ i, Measurable (F i)) : Measurable fun γ => F (f γ) γ := by
  have : Measurable fun x : Γ × ℕ => F x.2 x.1 := measurable_from_prod_countable_left hF
  exact this.comp (measurable_id.prodMk hf)

section
variable {V D Lo : Type} [AddCommMonoid Lo] {lp : D → V → ℝ} [MeasurableSpace V] {Γ Δ : Type} [MeasurableSpace Γ] [MeasurableSpace Δ]
local notation "𝕃" => PLang V D Lo lp

theorem Spec.PlotPy.comp {o : Γ → PyVal 𝕃} (h : PlotPy o) {φ : Δ → Γ} (hφ : Measurable φ) : PlotPy fun δ => o (φ δ) := by
  induction h with
  | const o => exact .const o
  | tensor f hf => exact .tensor _ (hf.comp hφ)
  | tuple l _ ih =>
    have := PlotPy.tuple (l.map fun x δ => x (φ δ)) (by
      intro x hx
      obtain ⟨y, hy, rfl⟩ := List.mem_map.1 hx
      exact ih y hy)
    simpa [List.map_map, Function.comp_def] using this
  | dict l _ ih =>
    have := PlotPy.dict (l.map fun x => (x.1, fun δ => x.2 (φ δ))) (by
      intro x hx
      obtain ⟨y, hy, rfl⟩ := List.mem_map.1 hx
      exact ih y hy)
    simpa [List.map_map, Function.comp_def] using this

theorem Spec.PlotEnv.comp {e : Γ → Env V} (h : PlotEnv e) {φ : Δ → Γ} (hφ : Measurable φ) : PlotEnv fun δ => e (φ δ) := by
  induction h with
  | nil => exact .nil
  | cons name v w latent e hv hw _ ih => exact .cons name _ _ latent _ (hv.comp hφ) (hw.comp hφ) ih

theorem Spec.PlotEnv.append {e e' : Γ → Env V} (h : PlotEnv e) (h' : PlotEnv e') : PlotEnv fun γ => e γ ++ e' γ := by
  induction h with
  | nil => exact h'
  | cons name v w latent e hv hw _ ih => exact .cons name v w latent _ hv hw ih

theorem Spec.PlotEnv.single (name : String) {v : Γ → V} {w : Γ → ℝ} (latent : Bool) (hv : Measurable v) (hw : Measurable w) :
    PlotEnv fun γ => [(name, (⟨v γ, w γ, latent⟩ : Entry V))] := .cons name v w latent _ hv hw .nil

theorem Spec.PlotEnv.const (e : Env V) : PlotEnv fun _ : Γ => e := by
  induction e with
  | nil => exact .nil
  | cons x e ih => exact .cons x.1 (fun _ => x.2.value) (fun _ => x.2.logp) x.2.latent _ measurable_const measurable_const ih

theorem Spec.PlotEnv.names {e : Γ → Env V} (h : PlotEnv e) : ∃ ns, ∀ γ, (e γ).names = ns := by
  induction h with
  | nil => exact ⟨[], fun _ => rfl⟩
  | cons name v w latent e _ _ _ ih =>
    obtain ⟨ns, hns⟩ := ih
    exact ⟨name :: ns, fun γ => by rw [names_cons, hns]⟩

/-- Fixed values that depend measurably on a parameter. -/
def PlotCond (cond : Γ → String → Option V) : Prop :=
  ∀ k, (∀ γ, cond γ k = none) ∨ ∃ v : Γ → V, Measurable v ∧ ∀ γ, cond γ k = some (v γ)

theorem PlotCond.comp {cond : Γ → String → Option V} (h : PlotCond cond) {φ : Δ → Γ} (hφ : Measurable φ) : PlotCond fun δ => cond (φ δ) := by
  intro k
  rcases h k with h | ⟨v, hv, h⟩
  · exact Or.inl fun δ => h _
  · exact Or.inr ⟨_, hv.comp hφ, fun δ => h _⟩

theorem PlotCond.const (cond : String → Option V) : PlotCond fun _ : Γ => cond := by
  intro k
  cases h : cond k with
  | none => exact Or.inl fun _ => h
  | some v => exact Or.inr ⟨fun _ => v, measurable_const, fun _ => h⟩

theorem PlotCond.update {cond : Γ → String → Option V} (h : PlotCond cond) (k : String) {v : Γ → V} (hv : Measurable v) :
    PlotCond fun γ => Function.update (cond γ) k (some (v γ)) := by
  intro k'
  by_cases hk : k' = k
  · subst hk
    exact Or.inr ⟨v, hv, fun γ => by simp⟩
  · simp only [Function.update_of_ne hk]
    exact h k'

theorem PlotCond.or {c c' : Γ → String → Option V} (h : PlotCond c) (h' : PlotCond c') : PlotCond fun γ k => (c γ k).or (c' γ k) := by
  intro k
  rcases h k with h | ⟨v, hv, h⟩
  · simp only [h, Option.none_or]
    exact h' k
  · exact Or.inr ⟨v, hv, fun γ => by simp only [h, Option.some_or]⟩

theorem Spec.PlotEnv.lat {e : Γ → Env V} (h : PlotEnv e) : PlotCond fun γ => (e γ).lat := by
  induction h with
  | nil => exact fun k => Or.inl fun _ => rfl
  | cons name v w latent e hv hw _ ih =>
    have h1 : PlotCond fun γ => Env.lat [(name, (⟨v γ, w γ, latent⟩ : Entry V))] := by
      intro k
      simp only [lat_single]
      by_cases hk : name = k ∧ latent = true
      · exact Or.inr ⟨v, hv, fun γ => if_pos hk⟩
      · exact Or.inl fun γ => if_neg hk
    have h2 := h1.or ih
    simp only [← lat_append] at h2
    exact h2

theorem Spec.PlotTree.comp {m : Γ → MTree 𝕃} (h : PlotTree m) {φ : Δ → Γ} (hφ : Measurable φ) : PlotTree fun δ => m (φ δ) := by
  induction h generalizing Δ with
  | ret o ho => exact .ret _ (ho.comp hφ)
  | sample name d prov rep k hd _ ih =>
    have h2 : Measurable fun x : Δ × V => (φ x.1, x.2) := (hφ.comp measurable_fst).prodMk measurable_snd
    exact .sample name (fun δ => d (φ δ)) prov rep (fun δ => k (φ δ)) (hd.comp h2) (ih h2)
  | observe name d v prov rep k hv hd _ ih =>
    exact .observe name (fun δ => d (φ δ)) (fun δ => v (φ δ)) prov rep (fun δ => k (φ δ)) (hv.comp hφ) (hd.comp hφ) (ih hφ)
  | branch f m hf _ ih => exact .branch (fun δ => f (φ δ)) (fun i δ => m i (φ δ)) (hf.comp hφ) fun i => ih i hφ
  | stuck m hm => exact .stuck _ fun δ => hm _

/-- A single measurable model. -/
def MeasTree (m : MTree 𝕃) : Prop := PlotTree fun _ : Unit => m

theorem Spec.PlotTree.at {m : Γ → MTree 𝕃} (h : PlotTree m) (γ : Γ) : MeasTree (m γ) := h.comp (φ := fun _ : Unit => γ) measurable_const

theorem MeasTree.const {m : MTree 𝕃} (h : MeasTree m) : PlotTree fun _ : Γ => m := PlotTree.comp h (φ := fun _ : Γ => ()) measurable_const

theorem Spec.PlotTree.sample_inv {m : Γ → MTree 𝕃} (h : PlotTree m) (γ : Γ) {name : String} {d : D} {prov : Option Prov} {rep : Bool}
    {k : V → MTree 𝕃} (hm : m γ = MTree.variable (L := 𝕃) name d none prov rep k) : Measurable (lp d) ∧ PlotTree k := by
  induction h with
  | ret o ho => cases hm
  | sample name d prov rep k hd hk ih =>
    simp only [MTree.variable.injEq] at hm
    obtain ⟨rfl, rfl, -, rfl, rfl, rfl⟩ := hm
    have h2 : Measurable fun x : V => (γ, x) := measurable_const.prodMk measurable_id
    exact ⟨hd.comp h2, hk.comp h2⟩
  | observe name d v prov rep k hv hd hk ih =>
    simp only [MTree.variable.injEq] at hm
    obtain ⟨-, -, h, -⟩ := hm
    cases h
  | branch f m hf hm' ih => exact ih (f γ) γ hm
  | stuck m hs =>
    have := hs γ
    rw [hm] at this
    exact this.elim

theorem Spec.PlotTree.observe_inv {m : Γ → MTree 𝕃} (h : PlotTree m) (γ : Γ) {name : String} {d : D} {v : V} {prov : Option Prov} {rep : Bool}
    {k : V → MTree 𝕃} (hm : m γ = MTree.variable (L := 𝕃) name d (some v) prov rep k) : MeasTree (k v) := by
  induction h with
  | ret o ho => cases hm
  | sample name d prov rep k hd hk ih =>
    simp only [MTree.variable.injEq] at hm
    obtain ⟨-, -, h, -⟩ := hm
    cases h
  | observe name d v prov rep k hv hd hk ih =>
    simp only [MTree.variable.injEq, Option.some.injEq] at hm
    obtain ⟨rfl, rfl, rfl, rfl, rfl, rfl⟩ := hm
    exact hk.at γ
  | branch f m hf hm' ih => exact ih (f γ) γ hm
  | stuck m hs =>
    have := hs γ
    rw [hm] at this
    exact this.elim

theorem MeasTree.sample {name : String} {d : D} {prov : Option Prov} {rep : Bool} {k : V → MTree 𝕃}
    (h : MeasTree (MTree.variable (L := 𝕃) name d none prov rep k)) : Measurable (lp d) ∧ PlotTree k := PlotTree.sample_inv h () rfl

theorem MeasTree.observe {name : String} {d : D} {v : V} {prov : Option Prov} {rep : Bool} {k : V → MTree 𝕃}
    (h : MeasTree (MTree.variable (L := 𝕃) name d (some v) prov rep k)) : MeasTree (k v) := PlotTree.observe_inv h () rfl

/-! ### Integrals -/

/-- Functions that depend measurably on a parameter. -/
def PlotFun (h : Γ → Env V → PyVal 𝕃 → ℝ≥0∞) : Prop :=
  ∀ (Δ : Type) [MeasurableSpace Δ] (φ : Δ → Γ) (e : Δ → Env V) (o : Δ → PyVal 𝕃), Measurable φ → PlotEnv e → PlotPy o →
    Measurable fun δ => h (φ δ) (e δ) (o δ)

theorem PlotFun.comp {h : Γ → Env V → PyVal 𝕃 → ℝ≥0∞} (hh : PlotFun h) {φ : Δ → Γ} (hφ : Measurable φ) : PlotFun fun δ => h (φ δ) :=
  fun Δ' _ ψ e o hψ he ho => hh Δ' (fun x => φ (ψ x)) e o (hφ.comp hψ) he ho

theorem PlotFun.const {h : Env V → PyVal 𝕃 → ℝ≥0∞} (hh : MeasFun h) : PlotFun fun _ : Γ => h := fun Δ _ _ e o _ he ho => hh Δ e o he ho

theorem PlotFun.at {h : Γ → Env V → PyVal 𝕃 → ℝ≥0∞} (hh : PlotFun h) (γ : Γ) : MeasFun (h γ) :=
  fun Δ _ e o he ho => hh Δ (fun _ => γ) e o measurable_const he ho

theorem PlotFun.mul {x : Γ → ℝ≥0∞} (hx : Measurable x) {h : Γ → Env V → PyVal 𝕃 → ℝ≥0∞} (hh : PlotFun h) : PlotFun fun γ e o => x γ * h γ e o :=
  fun Δ _ φ e o hφ he ho => (hx.comp hφ).mul (hh Δ φ e o hφ he ho)

theorem Spec.MeasFun.mul (x : ℝ≥0∞) {h : Env V → PyVal 𝕃 → ℝ≥0∞} (hh : MeasFun h) : MeasFun fun e o => x * h e o :=
  fun Δ _ e o he ho => (hh Δ e o he ho).const_mul x

theorem measFun_const (x : ℝ≥0∞) : MeasFun (V := V) (D := D) (Lo := Lo) (lp := lp) fun _ _ => x := fun _ _ _ _ _ _ => measurable_const

variable {μ : Measure V} [SFinite μ]

theorem Spec.PlotTree.mass {m : Γ → MTree 𝕃} (hm : PlotTree m) {cond : Γ → String → Option V} {e : Γ → Env V}
    {h : Γ → Env V → PyVal 𝕃 → ℝ≥0∞} (hc : PlotCond cond) (he : PlotEnv e) (hh : PlotFun h) :
    Measurable fun γ => mass μ (cond γ) (m γ) (e γ) (h γ) := by
  induction hm with
  | ret o ho => exact hh _ id e o measurable_id he ho
  | sample name d prov rep k hd hk ih =>
    obtain ⟨ns, hns⟩ := he.names
    simp only [mass_var, hns]
    by_cases hn : name ∈ ns
    · simp only [if_pos hn]; exact measurable_const
    · simp only [if_neg hn]
      rename_i Γ' _
      have h1 := ih (cond := fun x => cond x.1) (e := fun x => e x.1 ++ [(name, ⟨x.2, lp (d x.1) x.2, true⟩)]) (h := fun x => h x.1)
        (hc.comp measurable_fst) ((he.comp measurable_fst).append (.single name true measurable_snd hd)) (hh.comp measurable_fst)
      have h2 := (measurable_dens.comp hd).mul h1
      rcases hc name with h3 | ⟨v, hv, h3⟩
      · simp only [h3]
        exact h2.lintegral_prod_right'
      · simp only [h3]
        exact h2.comp (measurable_id.prodMk hv)
  | observe name d v prov rep k hv hd hk ih =>
    obtain ⟨ns, hns⟩ := he.names
    simp only [mass_var, hns]
    by_cases hn : name ∈ ns
    · simp only [if_pos hn]; exact measurable_const
    · simp only [if_neg hn]
      exact (measurable_dens.comp hd).mul (ih hc (he.append (.single name false hv hd)) hh)
  | branch f m hf hm ih => exact measurable_cases hf (F := fun i γ => Spec.mass μ (cond γ) (m i γ) (e γ) (h γ)) fun i => ih i hc he hh
  | stuck m hs =>
    have : (fun γ => Spec.mass μ (cond γ) (m γ) (e γ) (h γ)) = fun _ => 0 := by
      funext γ
      have := hs γ
      generalize m γ = x at this ⊢
      cases x <;> first | exact this.elim | rfl
    rw [this]
    exact measurable_const

theorem mass_lintegral {ν : Measure Γ} [SFinite ν] (cond : String → Option V) {m : MTree 𝕃} (hm : MeasTree m) (a : Env V)
    {H : Γ → Env V → PyVal 𝕃 → ℝ≥0∞} (hH : PlotFun H) :
    mass μ cond m a (fun e o => ∫⁻ i, H i e o ∂ν) = ∫⁻ i, mass μ cond m a (H i) ∂ν := by
  induction m generalizing a with
  | ret o => rfl
  | «variable» name d value prov rep k ih =>
    simp only [mass_var]
    by_cases hn : name ∈ a.names
    · simp only [if_pos hn, lintegral_zero]
    · simp only [if_neg hn]
      cases value with
      | some v => simp only []; rw [ih v hm.observe, lintegral_const_mul' _ _ (dens_ne_top _)]
      | none =>
        simp only []
        obtain ⟨hd, hk⟩ := hm.sample
        cases hc : cond name with
        | some v => simp only []; rw [ih v (hk.at v), lintegral_const_mul' _ _ (dens_ne_top _)]
        | none =>
          simp only []
          rw [lintegral_lintegral_swap]
          · refine lintegral_congr fun v => ?_
            rw [ih v (hk.at v), lintegral_const_mul' _ _ (dens_ne_top _)]
          · have h2 : Measurable fun x : Γ × V => lp d x.2 := hd.comp measurable_snd
            refine ((measurable_dens.comp h2).mul ?_).aemeasurable
            exact PlotTree.mass (m := fun x : Γ × V => k x.2) (hk.comp measurable_snd) (.const cond)
              ((PlotEnv.const a).append (.single name true measurable_snd h2)) (hH.comp measurable_fst)
  | _ => simp only [mass, lintegral_zero]

/-- What becomes of a family of functions when the value of `k` is integrated over. -/
noncomputable def joined {Ω : Type} (μ : Measure V) (lat : Ω → String → Option V) (k : String) (H : V → Ω → ℝ≥0∞) (ω : Ω) : ℝ≥0∞ :=
  match lat ω k with
  | some v => H v ω
  | none => ∫⁻ v, H v ω ∂μ

omit [SFinite μ] in
theorem joined_some {Ω : Type} {lat : Ω → String → Option V} {k : String} {H : V → Ω → ℝ≥0∞} {ω : Ω} {v : V} (h : lat ω k = some v) :
    joined μ lat k H ω = H v ω := by simp [joined, h]

omit [SFinite μ] in
theorem joined_none {Ω : Type} {lat : Ω → String → Option V} {k : String} {H : V → Ω → ℝ≥0∞} {ω : Ω} (h : lat ω k = none) :
    joined μ lat k H ω = ∫⁻ v, H v ω ∂μ := by simp [joined, h]

/-- Running a model with one more fixed value and then integrating over that value is the same as running it without. -/
theorem mass_split (cond : String → Option V) {m : MTree 𝕃} (hm : MeasTree m) (a : Env V) (k : String) {H : V → Env V → PyVal 𝕃 → ℝ≥0∞}
    (hH : PlotFun H) (ha : a.names.Nodup) (hk : k ∉ a.names) (hc : cond k = none) :
    ∫⁻ v, mass μ (Function.update cond k (some v)) m a (H v) ∂μ =
      mass μ cond m a fun e o => joined μ Env.lat k (fun v e => H v e o) e := by
  induction m generalizing a with
  | ret o => simp only [mass]; rw [joined_none (lat_none_of_not_mem hk)]
  | «variable» name d value prov rep f ih =>
    simp only [mass_var]
    by_cases hn : name ∈ a.names
    · simp only [if_pos hn, lintegral_zero]
    · simp only [if_neg hn]
      have hnd : ∀ x : Entry V, (Env.names (a ++ [(name, x)])).Nodup := by
        intro x
        rw [names_append, names_single, List.nodup_append]
        exact ⟨ha, by simp, by rintro k hk _ hk' rfl; simp at hk'; exact hn (hk' ▸ hk)⟩
      have hka : ∀ x : Entry V, name ≠ k → k ∉ Env.names (a ++ [(name, x)]) := by
        intro x hne; simp [hk, Ne.symm hne]
      have hlat : ∀ (x : Entry V) (e : Env V), a ++ [(k, x)] <+: e → e.names.Nodup → e.lat k = if x.latent = true then some x.value else none := by
        rintro x e ⟨s, rfl⟩ hd
        rw [lat_append, lat_append, lat_none_of_not_mem hk, lat_single]
        have : k ∉ Env.names s := by
          intro hs
          rw [names_append, List.nodup_append] at hd
          exact hd.2.2 k (by simp) k hs rfl
        rw [lat_none_of_not_mem this]
        simp
      cases value with
      | some x =>
        simp only []
        rw [lintegral_const_mul' _ _ (dens_ne_top _)]
        congr 1
        by_cases hne : name = k
        · subst hne
          rw [mass_congr' (H' := fun e o => ∫⁻ v, H v e o ∂μ) (hnd _), mass_lintegral _ hm.observe _ hH]
          · refine lintegral_congr fun v => ?_
            rw [mass_update_mem _ _ _ _ _ _ (by simp)]
          · intro e o h1 h2
            rw [joined_none]
            rw [hlat _ _ h1 h2]
            rfl
        · rw [← ih x hm.observe _ (hnd _) (hka _ hne)]
      | none =>
        simp only []
        obtain ⟨hd, hf⟩ := hm.sample
        by_cases hne : name = k
        · subst hne
          rw [hc]
          simp only []
          refine lintegral_congr fun v => ?_
          rw [Function.update_self]
          simp only []
          rw [mass_update_mem _ _ _ _ _ _ (by simp)]
          congr 1
          refine mass_congr' (hnd _) fun e o h1 h2 => ?_
          rw [joined_some]
          rw [hlat _ _ h1 h2]
          rfl
        · simp only [Function.update_of_ne hne]
          cases hcn : cond name with
          | some x =>
            simp only []
            rw [← ih x (hf.at x) _ (hnd _) (hka _ hne), lintegral_const_mul' _ _ (dens_ne_top _)]
          | none =>
            simp only []
            rw [lintegral_lintegral_swap]
            · refine lintegral_congr fun x => ?_
              rw [← ih x (hf.at x) _ (hnd _) (hka _ hne), lintegral_const_mul' _ _ (dens_ne_top _)]
            · have h2 : Measurable fun x : V × V => lp d x.2 := hd.comp measurable_snd
              refine ((measurable_dens.comp h2).mul ?_).aemeasurable
              exact PlotTree.mass (m := fun x : V × V => f x.2) (hf.comp measurable_snd)
                ((PlotCond.const cond).update k measurable_fst)
                ((PlotEnv.const a).append (.single name true measurable_snd h2)) (hH.comp measurable_fst)
  | _ => simp only [mass, lintegral_zero]

end
end Verif
