import Mathlib.MeasureTheory.Integral.Lebesgue.Add
import Verif.Spec.Weighting
/-
Proper weighting: the measures that nests target.
-/
namespace Verif
open Spec MeasureTheory
open scoped ENNReal

theorem dens_add (x y : ℝ) : dens (x + y) = dens x * dens y := by
  unfold dens
  rw [Real.exp_add, ENNReal.ofReal_mul (Real.exp_nonneg x)]

theorem dens_ne_top (x : ℝ) : dens x ≠ ⊤ := ENNReal.ofReal_ne_top

theorem dens_zero : dens 0 = 1 := by simp [dens]

theorem dens_cancel (x : ℝ) : dens x * dens (-x) = 1 := by
  rw [← dens_add, add_neg_cancel, dens_zero]

section
variable {V : Type}

@[simp] theorem names_append (e e' : Env V) : (e ++ e').names = e.names ++ e'.names := by simp [Env.names]
@[simp] theorem names_nil : Env.names ([] : Env V) = [] := rfl
@[simp] theorem names_single (x : String × Entry V) : Env.names ([x] : Env V) = [x.1] := rfl

@[simp] theorem names_cons (x : String × Entry V) (e : Env V) : Env.names (x :: e) = x.1 :: Env.names e := rfl

@[simp] theorem lat_nil (k : String) : Env.lat ([] : Env V) k = none := rfl

theorem lat_append (e e' : Env V) (k : String) : (e ++ e').lat k = (e.lat k).or (e'.lat k) := by
  simp [Env.lat, List.findSome?_append]

theorem lat_single (k' k : String) (x : Entry V) :
    Env.lat [(k', x)] k = if k' = k ∧ x.latent = true then some x.value else none := by
  simp only [Env.lat, List.findSome?_cons, List.findSome?_nil]
  split <;> rename_i h <;> revert h <;> split <;> simp_all

theorem lat_none_of_not_mem {e : Env V} {k : String} (h : k ∉ e.names) : e.lat k = none := by
  unfold Env.lat
  rw [List.findSome?_eq_none_iff]
  intro x hx
  rw [if_neg]
  rintro ⟨h1, _⟩
  exact h (List.mem_map.2 ⟨x, hx, h1⟩)

theorem mem_names_of_lat {e : Env V} {k : String} {v : V} (h : e.lat k = some v) : k ∈ e.names := by
  by_contra hk
  rw [lat_none_of_not_mem hk] at h
  cases h
end

section
variable {V D Lo : Type} [AddCommMonoid Lo] {lp : D → V → ℝ} [MeasurableSpace V] {μ : Measure V}
local notation "𝕃" => PLang V D Lo lp

/-! ### Models -/

theorem always_var (cond : String → Option V) (name : String) (d : D) (value : Option V) (prov : Option Prov) (rep : Bool)
    (k : V → MTree 𝕃) (a : Env V) (Q : Env V → PyVal 𝕃 → Prop) :
    always cond (MTree.variable (L := 𝕃) name d value prov rep k) a Q ↔ (prov = none ∧ name ∉ a.names ∧
      match value with
      | some v => always cond (k v) (a ++ [(name, ⟨v, lp d v, false⟩)]) Q
      | none => ∀ v, (∀ v', cond name = some v' → v = v') → always cond (k v) (a ++ [(name, ⟨v, lp d v, true⟩)]) Q) := by
  cases value <;> simp only [always]

theorem mass_var (cond : String → Option V) (name : String) (d : D) (value : Option V) (prov : Option Prov) (rep : Bool)
    (k : V → MTree 𝕃) (e : Env V) (h : Env V → PyVal 𝕃 → ℝ≥0∞) :
    mass μ cond (MTree.variable (L := 𝕃) name d value prov rep k) e h =
    if name ∈ e.names then 0
    else match value with
      | some v => dens (lp d v) * mass μ cond (k v) (e ++ [(name, ⟨v, lp d v, false⟩)]) h
      | none =>
        match cond name with
        | some v => dens (lp d v) * mass μ cond (k v) (e ++ [(name, ⟨v, lp d v, true⟩)]) h
        | none => ∫⁻ v, dens (lp d v) * mass μ cond (k v) (e ++ [(name, ⟨v, lp d v, true⟩)]) h ∂μ := by
  cases value with
  | some v => simp only [mass]
  | none => cases hc : cond name <;> rw [mass.eq_def] <;> simp only [hc]

theorem always_mono {cond : String → Option V} {m : MTree 𝕃} {a : Env V} {Q Q' : Env V → PyVal 𝕃 → Prop}
    (h : always cond m a Q) (hQ : ∀ e o, Q e o → Q' e o) : always cond m a Q' := by
  induction m generalizing a with
  | ret o => exact hQ _ _ h
  | «variable» name d value prov rep k ih =>
    rw [always_var] at h ⊢
    refine ⟨h.1, h.2.1, ?_⟩
    cases value with
    | some v => exact ih v h.2.2
    | none => exact fun v hv => ih v (h.2.2 v hv)
  | _ => exact h

theorem always_and {cond : String → Option V} {m : MTree 𝕃} {a : Env V} {Q Q' : Env V → PyVal 𝕃 → Prop}
    (h : always cond m a Q) (h' : always cond m a Q') : always cond m a fun e o => Q e o ∧ Q' e o := by
  induction m generalizing a with
  | ret o => exact ⟨h, h'⟩
  | «variable» name d value prov rep k ih =>
    rw [always_var] at h h' ⊢
    refine ⟨h.1, h.2.1, ?_⟩
    cases value with
    | some v => exact ih v h.2.2 h'.2.2
    | none => exact fun v hv => ih v (h.2.2 v hv) (h'.2.2 v hv)
  | _ => exact h

/-- Runs with fewer choices. -/
theorem always_cond {cond cond' : String → Option V} {m : MTree 𝕃} {a : Env V} {Q : Env V → PyVal 𝕃 → Prop}
    (h : always cond m a Q) (hc : ∀ k v, cond k = some v → cond' k = some v) : always cond' m a Q := by
  induction m generalizing a with
  | ret o => exact h
  | «variable» name d value prov rep k ih =>
    rw [always_var] at h ⊢
    refine ⟨h.1, h.2.1, ?_⟩
    cases value with
    | some v => exact ih v h.2.2
    | none => exact fun v hv => ih v (h.2.2 v fun v' hv' => hv v' (hc _ _ hv'))
  | _ => exact h

/-- Runs append entries with new names. -/
theorem always_prefix {cond : String → Option V} {m : MTree 𝕃} {a : Env V} {Q : Env V → PyVal 𝕃 → Prop}
    (h : always cond m a Q) (ha : a.names.Nodup) : always cond m a fun e o => Q e o ∧ a <+: e ∧ e.names.Nodup := by
  induction m generalizing a with
  | ret o => exact ⟨h, List.prefix_rfl, ha⟩
  | «variable» name d value prov rep k ih =>
    rw [always_var] at h ⊢
    refine ⟨h.1, h.2.1, ?_⟩
    have hnd : ∀ x : Entry V, (Env.names (a ++ [(name, x)])).Nodup := by
      intro x
      rw [names_append, names_single, List.nodup_append]
      exact ⟨ha, by simp, by rintro k hk _ hk' rfl; simp at hk'; exact h.2.1 (hk' ▸ hk)⟩
    have hp : ∀ (x : Entry V) e, a ++ [(name, x)] <+: e → a <+: e := fun x e he => (List.prefix_append _ _).trans he
    cases value with
    | some v => exact always_mono (ih v h.2.2 (hnd _)) fun e o ⟨h1, h2, h3⟩ => ⟨h1, hp _ _ h2, h3⟩
    | none => exact fun v hv => always_mono (ih v (h.2.2 v hv) (hnd _)) fun e o ⟨h1, h2, h3⟩ => ⟨h1, hp _ _ h2, h3⟩
  | _ => exact h

/-- Some run exists. -/
theorem always_exists [Nonempty V] {cond : String → Option V} {m : MTree 𝕃} {a : Env V} {Q : Env V → PyVal 𝕃 → Prop}
    (h : always cond m a Q) : ∃ e o, Q e o := by
  induction m generalizing a with
  | ret o => exact ⟨_, _, h⟩
  | «variable» name d value prov rep k ih =>
    rw [always_var] at h
    cases value with
    | some v => exact ih v h.2.2
    | none =>
      cases hc : cond name with
      | some v => exact ih v (h.2.2 v fun v' hv' => by rw [hc] at hv'; exact Option.some.inj hv')
      | none => exact ih (Classical.arbitrary V) (h.2.2 _ fun v' hv' => by rw [hc] at hv'; cases hv')
  | _ => exact h.elim

theorem mass_congr {cond : String → Option V} {m : MTree 𝕃} {a : Env V} {Q : Env V → PyVal 𝕃 → Prop}
    {H H' : Env V → PyVal 𝕃 → ℝ≥0∞} (h : always cond m a Q) (hH : ∀ e o, Q e o → H e o = H' e o) :
    mass μ cond m a H = mass μ cond m a H' := by
  induction m generalizing a with
  | ret o => exact hH _ _ h
  | «variable» name d value prov rep k ih =>
    rw [always_var] at h
    simp only [mass_var]
    rw [if_neg h.2.1, if_neg h.2.1]
    cases value with
    | some v => simp only []; rw [ih v h.2.2]
    | none =>
      simp only []
      cases hc : cond name with
      | some v => simp only []; rw [ih v (h.2.2 v fun v' hv' => by rw [hc] at hv'; exact Option.some.inj hv')]
      | none =>
        simp only []
        refine lintegral_congr fun v => ?_
        rw [ih v (h.2.2 v fun v' hv' => by rw [hc] at hv'; cases hv')]
  | _ => rfl

/-- Without assumptions on the model. -/
theorem mass_congr' {cond : String → Option V} {m : MTree 𝕃} {a : Env V} {H H' : Env V → PyVal 𝕃 → ℝ≥0∞}
    (ha : a.names.Nodup) (hH : ∀ e o, a <+: e → (Env.names e).Nodup → H e o = H' e o) :
    mass μ cond m a H = mass μ cond m a H' := by
  induction m generalizing a with
  | ret o => exact hH _ _ List.prefix_rfl ha
  | «variable» name d value prov rep k ih =>
    simp only [mass_var]
    by_cases hn : name ∈ a.names
    · rw [if_pos hn, if_pos hn]
    · rw [if_neg hn, if_neg hn]
      have hnd : ∀ x : Entry V, (Env.names (a ++ [(name, x)])).Nodup := by
        intro x
        rw [names_append, names_single, List.nodup_append]
        exact ⟨ha, by simp, by rintro k hk _ hk' rfl; simp at hk'; exact hn (hk' ▸ hk)⟩
      have hp : ∀ (x : Entry V) e, a ++ [(name, x)] <+: e → a <+: e := fun x e he => (List.prefix_append _ _).trans he
      cases value with
      | some v => simp only []; rw [ih v (hnd _) fun e o h1 h2 => hH e o (hp _ _ h1) h2]
      | none =>
        simp only []
        cases hc : cond name with
        | some v => simp only []; rw [ih v (hnd _) fun e o h1 h2 => hH e o (hp _ _ h1) h2]
        | none =>
          simp only []
          refine lintegral_congr fun v => ?_
          rw [ih v (hnd _) fun e o h1 h2 => hH e o (hp _ _ h1) h2]
  | _ => rfl

theorem mass_mul (cond : String → Option V) (m : MTree 𝕃) (a : Env V) {x : ℝ≥0∞} (hx : x ≠ ⊤) (H : Env V → PyVal 𝕃 → ℝ≥0∞) :
    mass μ cond m a (fun e o => x * H e o) = x * mass μ cond m a H := by
  induction m generalizing a with
  | ret o => rfl
  | «variable» name d value prov rep k ih =>
    simp only [mass_var]
    by_cases hn : name ∈ a.names
    · rw [if_pos hn, if_pos hn, mul_zero]
    · rw [if_neg hn, if_neg hn]
      cases value with
      | some v => simp only []; rw [ih v, mul_left_comm]
      | none =>
        simp only []
        cases hc : cond name with
        | some v => simp only []; rw [ih v, mul_left_comm]
        | none =>
          simp only []
          rw [← lintegral_const_mul' _ _ hx]
          refine lintegral_congr fun v => ?_
          rw [ih v]
          ring
  | _ => exact (mul_zero x).symm

theorem mass_zero (cond : String → Option V) (m : MTree 𝕃) (a : Env V) : mass μ cond m a (fun _ _ => 0) = 0 := by
  have := mass_mul (μ := μ) cond m a ENNReal.zero_ne_top (fun _ _ => 0)
  simpa using this

/-- The condition for a name that is already in the trace is not looked at. -/
theorem mass_update_mem (cond : String → Option V) (m : MTree 𝕃) (a : Env V) (k : String) (v : V) (H : Env V → PyVal 𝕃 → ℝ≥0∞)
    (hk : k ∈ a.names) : mass μ (Function.update cond k (some v)) m a H = mass μ cond m a H := by
  induction m generalizing a with
  | ret o => rfl
  | «variable» name d value prov rep f ih =>
    simp only [mass_var]
    by_cases hn : name ∈ a.names
    · simp only [if_pos hn]
    · simp only [if_neg hn]
      have hne : name ≠ k := fun e => hn (e ▸ hk)
      have hk' : ∀ x : Entry V, k ∈ Env.names (a ++ [(name, x)]) := fun x => by simp [hk]
      rw [Function.update_of_ne hne]
      cases value with
      | some x => simp only []; rw [ih x _ (hk' _)]
      | none =>
        simp only []
        cases hc : cond name with
        | some x => simp only []; rw [ih x _ (hk' _)]
        | none => simp only []; exact lintegral_congr fun x => by rw [ih x _ (hk' _)]
  | _ => rfl

/-- Nor is the condition for a name that the model never asks for. -/
theorem mass_update_unused (cond : String → Option V) (m : MTree 𝕃) (a : Env V) (k : String) (v : V) (H : Env V → PyVal 𝕃 → ℝ≥0∞)
    (ha : a.names.Nodup) (hc : cond k = none) (h : always cond m a fun e _ => k ∉ Env.names e) :
    mass μ (Function.update cond k (some v)) m a H = mass μ cond m a H := by
  induction m generalizing a with
  | ret o => rfl
  | «variable» name d value prov rep f ih =>
    have h0 := h
    rw [always_var] at h
    simp only [mass_var]
    have hnd : ∀ x : Entry V, (Env.names (a ++ [(name, x)])).Nodup := by
      intro x
      rw [names_append, names_single, List.nodup_append]
      exact ⟨ha, by simp, by rintro k hk _ hk' rfl; simp at hk'; exact h.2.1 (hk' ▸ hk)⟩
    simp only [if_neg h.2.1]
    cases value with
    | some x => simp only []; rw [ih x _ (hnd _) h.2.2]
    | none =>
      simp only []
      by_cases hne : name = k
      · subst hne
        have hz : ∀ x, mass μ cond (f x) (a ++ [(name, ⟨x, lp d x, true⟩)]) H = 0 := by
          intro x
          have h2 := h.2.2 x fun v' hv' => by rw [hc] at hv'; cases hv'
          rw [mass_congr (H' := fun _ _ => 0) (always_prefix h2 (hnd _)), mass_zero]
          rintro e o ⟨h3, h4, _⟩
          refine absurd ?_ h3
          obtain ⟨s, rfl⟩ := h4
          simp
        rw [Function.update_self, hc]
        simp only []
        have : mass μ (Function.update cond name (some v)) (f v) (a ++ [(name, ⟨v, lp d v, true⟩)]) H = 0 := by
          rw [mass_update_mem _ _ _ _ _ _ (by simp)]
          exact hz v
        rw [this]
        simp [hz]
      · rw [Function.update_of_ne hne]
        cases hcn : cond name with
        | some x => simp only []; rw [ih x _ (hnd _) (h.2.2 x fun v' hv' => by rw [hcn] at hv'; exact Option.some.inj hv')]
        | none => simp only []; exact lintegral_congr fun x => by rw [ih x _ (hnd _) (h.2.2 x fun v' hv' => by rw [hcn] at hv'; cases hv')]
  | _ => rfl

end
end Verif
