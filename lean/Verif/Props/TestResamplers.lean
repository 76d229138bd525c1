import Verif.Props.Metrics
import Verif.Props.Systematic
import Verif.Props.TensorResampler
/-
C92: the tests of tests/test_resamplers.py, in exact arithmetic.
-/
namespace Verif
namespace Tests
open Nd Spec

/-- `torch.tensor([0.1, 0.2, 0.3, 0.4])` (tests/test_resamplers.py:24,35,67). -/
noncomputable def weights : Fin 4 → ℝ := ![1 / 10, 2 / 10, 3 / 10, 4 / 10]

/-- `lw.unsqueeze(1).expand(S, B)` (tests/test_resamplers.py:25,37) -/
noncomputable def lwBatch (B : Nat) : Nd ℝ := ofFn [4, B] fun is => Real.log (weights (Fin.ofNat 4 (is.headD 0)))

/-- `torch.tensor([..]).log()` (tests/test_resamplers.py:67) -/
noncomputable def lwFlat : Nd ℝ := ofFn [4] fun is => Real.log (weights (Fin.ofNat 4 (is.headD 0)))

/-- `value.unsqueeze(1).expand(S, B, 2)` (tests/test_resamplers.py:34,38) -/
noncomputable def valueBatch (B : Nat) : Nd ℝ := ofFn [4, B, 2] fun is => (is.headD 0 : ℝ) + 1

/-- `torch.tensor([[1, 1], [2, 2], [3, 3], [4, 4]])` (tests/test_resamplers.py:66) -/
noncomputable def valueFlat : Nd ℝ := ofFn [4, 2] fun is => (is.headD 0 : ℝ) + 1

theorem exp_log_weights (i : Fin 4) : Real.exp (Real.log (weights i)) = weights i := Real.exp_log (by fin_cases i <;> simp [weights])

theorem sum_weights : ∑ i, weights i = 1 := by
  rw [Fin.sum_univ_four]
  show (1 / 10 : ℝ) + 2 / 10 + 3 / 10 + 4 / 10 = 1
  norm_num

theorem quarter (s : Fin 4) : Real.exp (resampledLw false (fun i => Real.log (weights i)) s) = 1 / 4 := by
  have h : (∑ i, Real.exp (Real.log (weights i))) = 1 := by rw [← sum_weights]; exact Finset.sum_congr rfl fun i _ => exp_log_weights i
  rw [resampledLw_eq, logZHat, zHat, h, Real.exp_log (by norm_num)]
  norm_num

theorem softmax_weights : (softmax fun i => Real.log (weights i)) = weights := by
  have h : (∑ i, Real.exp (Real.log (weights i))) = 1 := by rw [← sum_weights]; exact Finset.sum_congr rfl fun i _ => exp_log_weights i
  funext i
  rw [softmax, h, div_one, exp_log_weights]

theorem lwBatch_get (B : Nat) (j : Fin B) : (fun i : Fin 4 => (lwBatch B).get [i, j]) = fun i => Real.log (weights i) := by
  funext i
  rw [lwBatch, get_ofFn _ (.cons i.2 (.cons j.2 .nil))]
  simp

theorem lwFlat_get : (fun i : Fin 4 => lwFlat.get [i]) = fun i => Real.log (weights i) := by
  funext i
  rw [lwFlat, get_ofFn _ (.cons i.2 .nil)]
  simp

/-- C92. `test_resample_with_batch` never fails in exact arithmetic, whatever the batch size, the number of variables and the offsets: the new weights are all 1/4. The values are
the numbers of the particles that the slots descend from. -/
theorem C92_resample_with_batch (B N : Nat) (u : Nat → Nd ℝ) (hu : (u B).shape = [B]) (hu1 : ∀ j : Fin B, (u B).get [j.val] ≤ 1) :
    ∃ zs lw, systematicNd false (lwBatch B) 0 (some 1) u (List.replicate N (valueBatch B)) = .ok (zs, lw) ∧
      (lw.shape = [4, B] ∧ ∀ (s : Fin 4) (j : Fin B), Real.exp (lw.get [s, j]) = 1 / 4) ∧ zs.length = N ∧
      ∀ z ∈ zs, z.shape = [4, B, 2] ∧ ∀ (s : Fin 4) (j : Fin B) (d : Fin 2), z.get [s, j, d] = ancestors weights ((u B).get [j.val]) s + 1 := by
  obtain ⟨zs, lw, h1, h2, h3, h4⟩ := C86_systematic false (lwBatch B) 4 B rfl 1 (Or.inl rfl) u hu hu1 (List.replicate N (valueBatch B)) (by
    intro z hz
    rw [List.eq_of_mem_replicate hz]
    exact ⟨[2], rfl⟩)
  refine ⟨zs, lw, h1, ⟨h3, fun s j => ?_⟩, ?_, fun z hz => ?_⟩
  · rw [h4, lwBatch_get, quarter]
  · rw [← h2.length_eq, List.length_replicate]
  · obtain ⟨z0, hz0, hp⟩ : ∃ z0 ∈ List.replicate N (valueBatch B), Picked (fun (s : Fin 4) (j : Fin B) => ancestors (softmax fun i : Fin 4 => (lwBatch B).get [i, j]) ((u B).get [j.val]) s) z0 z := by
      clear h1
      generalize List.replicate N (valueBatch B) = l at h2
      induction h2 with
      | nil => simp at hz
      | cons a _ ih =>
        rcases List.mem_cons.1 hz with rfl | hz
        · exact ⟨_, List.mem_cons_self, a⟩
        · obtain ⟨z0, a, b⟩ := ih hz
          exact ⟨z0, List.mem_cons_of_mem _ a, b⟩
    rw [List.eq_of_mem_replicate hz0] at hp
    refine ⟨hp.1, fun s j d => ?_⟩
    have hlt : ancestors weights ((u B).get [j.val]) s < 4 :=
      ancestors_lt (fun i => by rw [← exp_log_weights]; positivity) (by rw [sum_weights]; norm_num) (hu1 j) s
    have := hp.2 s j [d.val] (.cons d.2 .nil)
    beta_reduce at this
    rw [lwBatch_get, softmax_weights] at this
    rw [this, valueBatch, get_ofFn _ (.cons hlt (.cons j.2 (.cons d.2 .nil)))]
    simp

/-- C92. `test_resample_without_batch` never fails in exact arithmetic. -/
theorem C92_resample_without_batch (N : Nat) (u : Nat → Nd ℝ) (hu : (u 1).shape = [1]) (hu1 : (u 1).get [0] ≤ 1) :
    ∃ zs lw, systematicNd false lwFlat 0 none u (List.replicate N valueFlat) = .ok (zs, lw) ∧
      lw.shape = [4, 1] ∧ ∀ s : Fin 4, Real.exp (lw.get [s, 0]) = 1 / 4 := by
  obtain ⟨zs, lw, h1, -, h3, h4⟩ := C86_unbatched false lwFlat 4 rfl u hu hu1 (List.replicate N valueFlat) (by
    intro z hz
    rw [List.eq_of_mem_replicate hz]
    exact ⟨[2], rfl⟩)
  refine ⟨zs, lw, h1, h3, fun s => ?_⟩
  rw [h4, lwFlat_get, quarter]

/-- C92. What `test_ancestor_indices_systematic` prints: in every batch element the first two particles have at most one slot, the last two one or two; so the printed shares are at most
1/4, at most 1/4, and between 1/4 and 1/2 (for offsets other than 0). -/
theorem C92_offspring (u : ℝ) (h0 : 0 < u) (h1 : u < 1) :
    offspring weights u 0 ≤ 1 ∧ offspring weights u 1 ≤ 1 ∧ (1 ≤ offspring weights u 2 ∧ offspring weights u 2 ≤ 2) ∧ 1 ≤ offspring weights u 3 ∧ offspring weights u 3 ≤ 2 := by
  have h := fun i => C21_offspring weights (fun i => by rw [← exp_log_weights]; positivity) (by rw [sum_weights]; norm_num) u h0 h1 i
  have hs : ∀ i, share weights i = weights i := fun i => by rw [share, sum_weights, div_one]
  simp only [hs] at h
  have e0 : ⌈((4 : Nat) : ℝ) * weights 0⌉ = 1 := by rw [Int.ceil_eq_iff]; norm_num [weights]
  have e1 : ⌈((4 : Nat) : ℝ) * weights 1⌉ = 1 := by rw [Int.ceil_eq_iff]; norm_num [weights]
  have e2 : weights 2 = 3 / 10 := rfl
  have e3 : weights 3 = 4 / 10 := rfl
  have f2 : ⌊((4 : Nat) : ℝ) * weights 2⌋ = 1 ∧ ⌈((4 : Nat) : ℝ) * weights 2⌉ = 2 := by rw [Int.ceil_eq_iff, Int.floor_eq_iff, e2]; norm_num
  have f3 : ⌊((4 : Nat) : ℝ) * weights 3⌋ = 1 ∧ ⌈((4 : Nat) : ℝ) * weights 3⌉ = 2 := by rw [Int.ceil_eq_iff, Int.floor_eq_iff, e3]; norm_num
  have a0 := (h 0).2; have a1 := (h 1).2; have a2 := h 2; have a3 := h 3
  rw [e0] at a0; rw [e1] at a1; rw [f2.1, f2.2] at a2; rw [f3.1, f3.2] at a3
  omega

/-- C92 for a batch of a hundred, five variables and all offsets one half. -/
example : ∃ zs lw, systematicNd false (lwBatch 100) 0 (some 1) (fun b => ⟨[b], fun _ => 1 / 2⟩) (List.replicate 5 (valueBatch 100)) = .ok (zs, lw) ∧ lw.shape = [4, 100] := by
  obtain ⟨zs, lw, h, h', -⟩ := C92_resample_with_batch 100 5 (fun b => ⟨[b], fun _ => 1 / 2⟩) rfl (fun _ => by simp [Nd.get]; norm_num)
  exact ⟨zs, lw, h, h'.1⟩

end Tests
end Verif
