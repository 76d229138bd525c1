import Verif.Spec.Parts
import Verif.Spec.Population
/-
Some of the batch elements.
-/
namespace Verif.Spec
open MeasureTheory

section
variable {n b b' : Nat} {X D D' : Type} {lp : D → (Fin n → Fin b → X) → Fin n → Fin b → ℝ} {lp' : D' → (Fin n → Fin b' → X) → Fin n → Fin b' → ℝ}

/-- The batch elements `σ 0, σ 1, ...`, all different, of tensors: one (`b' = 1`), several, or all in a different order (`b' = b`). `dm` are the
distributions of these batch elements. Losses are related by any `lo`. With one particle an assertion about a tensor with one element may pass
where one about several elements raises, so this part is then not exact. -/
noncomputable def batchPart (σ : Fin b' → Fin b) (hσ : Function.Injective σ) (hb : b' ≠ 0) (dm : D → D')
    (hd : ∀ d x, (fun s i => lp d x s (σ i)) = lp' (dm d) fun s i => x s (σ i)) (lo : ℝ → ℝ → Prop) :
    Part (TLang n b X D lp) (TLang n b' X D' lp') where
  v x := fun s i => x s (σ i)
  w := { toFun := fun x s i => x s (σ i), map_zero' := rfl, map_add' := fun _ _ => rfl }
  d := dm
  u x := fun i => x (σ i)
  lo := lo
  exact := n ≠ 1 ∨ b' ≠ 1 ∨ b = 1
  logProb := hd
  detachV _ := rfl
  detachW _ := rfl
  isZero x hx := by
    have h0 : n * b = 1 ∧ x = 0 := @of_decide_eq_true _ (Classical.dec _) hx
    refine @decide_eq_true _ (Classical.dec _) ⟨?_, ?_⟩
    · obtain ⟨h1, h2⟩ : n = 1 ∧ b = 1 := ⟨Nat.eq_one_of_mul_eq_one_right h0.1, Nat.eq_one_of_mul_eq_one_left h0.1⟩
      subst h1 h2
      have := Fintype.card_le_of_injective σ hσ
      simp only [Fintype.card_fin] at this
      omega
    · rw [h0.2]; rfl
  isZero_exact he x hx := by
    have h0 : n * b' = 1 ∧ (fun s i => x s (σ i)) = 0 := @of_decide_eq_true _ (Classical.dec _) hx
    obtain ⟨h1, h2⟩ : n = 1 ∧ b' = 1 := ⟨Nat.eq_one_of_mul_eq_one_right h0.1, Nat.eq_one_of_mul_eq_one_left h0.1⟩
    subst h1 h2
    obtain rfl : b = 1 := by omega
    refine @decide_eq_true _ (Classical.dec _) ⟨rfl, ?_⟩
    funext s j
    have := congrFun (congrFun h0.2 s) 0
    rwa [Subsingleton.elim (σ 0) j] at this

end

section
variable {n b b' : Nat} {X D : Type} [MeasurableSpace X] {μ : Measure X} {lp : D → X → ℝ}

/-- Some batch elements of a population. -/
noncomputable def popPart (σ : Fin b' → Fin b) (hσ : Function.Injective σ) (hb : b' ≠ 0) (lo : ℝ → ℝ → Prop) :
    Part (PopLang n b X D μ lp) (PopLang n b' X D μ lp) :=
  batchPart σ hσ hb (fun d s i => d s (σ i)) (fun _ _ => rfl) lo

end
end Verif.Spec
