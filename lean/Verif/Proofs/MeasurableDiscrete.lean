import Mathlib.Data.Nat.Pairing
import Verif.Proofs.Measurable
/-
When there are only countably many values, all models are measurable.
-/
namespace Verif
open Spec MeasureTheory
open scoped ENNReal

/-- A function that factors measurably through the natural numbers. -/
def Disc {Γ α : Type} [MeasurableSpace Γ] (c : Γ → α) : Prop := ∃ (f : Γ → ℕ) (F : ℕ → α), Measurable f ∧ ∀ γ, c γ = F (f γ)

theorem disc_const {Γ α : Type} [MeasurableSpace Γ] (a : α) : Disc fun _ : Γ => a := ⟨fun _ => 0, fun _ => a, measurable_const, fun _ => rfl⟩

theorem Disc.map {Γ α β : Type} [MeasurableSpace Γ] {c : Γ → α} (h : Disc c) (g : α → β) : Disc fun γ => g (c γ) := by
  obtain ⟨f, F, hf, h⟩ := h
  exact ⟨f, fun i => g (F i), hf, fun γ => congrArg g (h γ)⟩

theorem Disc.map₂ {Γ α β δ : Type} [MeasurableSpace Γ] {c : Γ → α} {c' : Γ → β} (h : Disc c) (h' : Disc c') (g : α → β → δ) :
    Disc fun γ => g (c γ) (c' γ) := by
  obtain ⟨f, F, hf, h⟩ := h
  obtain ⟨f', F', hf', h'⟩ := h'
  refine ⟨fun γ => Nat.pair (f γ) (f' γ), fun i => g (F (Nat.unpair i).1) (F' (Nat.unpair i).2), ?_, fun γ => by simp [h γ, h' γ]⟩
  have : Measurable fun x : ℕ × ℕ => Nat.pair x.1 x.2 := measurable_of_countable _
  exact this.comp (hf.prodMk hf')

theorem disc_list {Γ α β : Type} [MeasurableSpace Γ] (g : α → Γ → β) (l : List α) (h : ∀ x ∈ l, Disc (g x)) :
    Disc fun γ => l.map fun x => g x γ := by
  induction l with
  | nil => exact disc_const []
  | cons x l ih => exact (h x (by simp)).map₂ (ih fun y hy => h y (by simp [hy])) List.cons

section
variable {V D Lo : Type} [AddCommMonoid Lo] {lp : D → V → ℝ} [MeasurableSpace V] [Countable V] [MeasurableSingletonClass V]
local notation "𝕃" => PLang V D Lo lp

theorem disc_value [Nonempty V] {Γ : Type} [MeasurableSpace Γ] {v : Γ → V} (hv : Measurable v) : Disc v := by
  obtain ⟨f, hf⟩ := exists_surjective_nat V
  choose g hg using hf
  have : Measurable g := measurable_of_countable _
  exact ⟨fun γ => g (v γ), f, this.comp hv, fun γ => (hg _).symm⟩

theorem disc_py [Nonempty V] {Γ : Type} [MeasurableSpace Γ] {c : Γ → PyVal 𝕃} (h : PlotPy c) : Disc c := by
  induction h with
  | const o => exact disc_const o
  | tensor f hf => exact (disc_value hf).map fun v => PyVal.tensor (L := 𝕃) v
  | tuple l _ ih => exact (disc_list (fun x γ => x γ) l ih).map PyVal.tuple
  | dict l _ ih => exact (disc_list (fun x γ => (x.1, x.2 γ)) l fun x hx => (ih x hx).map fun y => (x.1, y)).map PyVal.dict

theorem plotTree_const [Nonempty V] (m : MTree 𝕃) (Γ : Type) [MeasurableSpace Γ] : PlotTree fun _ : Γ => m := by
  induction m generalizing Γ with
  | ret o => exact .ret _ (.const o)
  | «variable» name d value prov rep k ih =>
    cases value with
    | none =>
      obtain ⟨f, F, hf, h⟩ := disc_value (V := V) (measurable_snd (α := Γ) (β := V))
      have hk := PlotTree.branch f (fun i _ => k (F i)) hf fun i => ih (F i) (Γ × V)
      simp only [← h] at hk
      have hd : Measurable (lp d) := measurable_of_countable _
      exact .sample name (fun _ => d) prov rep (fun _ => k) (hd.comp measurable_snd) hk
    | some v => exact .observe name (fun _ => d) (fun _ => v) prov rep (fun _ => k) measurable_const measurable_const (ih v Γ)
  | _ => exact .stuck _ fun _ => trivial

theorem measProg_countable [Nonempty V] (s : ProgSpec 𝕃) : MeasProg s := by
  intro kwargs Γ _ c hc
  obtain ⟨f, F, hf, h⟩ := disc_py hc
  simp only [h]
  exact .branch f (fun i _ => s.model (F i) kwargs) hf fun i => plotTree_const _ Γ

/-- If there are only countably many values, all nests are measurable. -/
theorem measNode_countable [Nonempty V] (n : Node 𝕃) : MeasNode n := by
  induction n with
  | prog i s => exact measProg_countable s
  | resample a r q ih => exact ih
  | extend a p f ihp ihf => exact ⟨ihp, ihf⟩
  | compose a q2 q1 ih2 ih1 => exact ⟨ih2, ih1⟩
  | propose a tr nr p q ihp ihq => exact ⟨ihp, ihq⟩

/-- A function of the output only. -/
theorem measFun_output [Nonempty V] (f : PyVal 𝕃 → ℝ≥0∞) : MeasFun (V := V) (D := D) (Lo := Lo) (lp := lp) fun _ o => f o := by
  intro Γ _ e o _ ho
  obtain ⟨g, F, hg, h⟩ := disc_py ho
  simp only [h]
  have : Measurable fun i => f (F i) := measurable_of_countable _
  exact this.comp hg

end
end Verif
