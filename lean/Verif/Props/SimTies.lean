import Verif.Props.SimFrames
import Verif.Props.SimStart
/-
C101: offsets exactly between two pixels have probability zero.
-/
namespace Verif
open MeasureTheory ProbabilityTheory

theorem ties_countable (F P : Nat) : {y : ℝ | ¬ Spec.NoTie (Spec.offset F P (Spec.fold y))}.Countable := by
  have hsub : {y : ℝ | ¬ Spec.NoTie (Spec.offset F P (Spec.fold y))} ⊆
      Set.range (fun q : ℤ × ℤ => 4 * (q.1 : ℝ) + 1 + (2 * (q.2 : ℝ) + 1) / ((F : ℝ) - P)) ∪
        Set.range (fun q : ℤ × ℤ => 4 * (q.1 : ℝ) + 1 - (2 * (q.2 : ℝ) + 1) / ((F : ℝ) - P)) := by
    intro y hy
    simp only [Set.mem_setOf_eq, Spec.NoTie, not_forall, not_not] at hy
    obtain ⟨m, hm⟩ := hy
    have hne : (F : ℝ) - P ≠ 0 := by
      intro h
      unfold Spec.offset at hm
      rw [h] at hm
      have : ((2 * m : ℤ) : ℝ) = (-1 : ℤ) := by push_cast; linarith
      have : 2 * m = -1 := by exact_mod_cast this
      omega
    have h1 : 1 - Spec.fold y = (2 * (m : ℝ) + 1) / ((F : ℝ) - P) := by
      unfold Spec.offset at hm
      rw [eq_div_iff hne]
      linarith
    have h2 : |(y + 1) - 4 * ⌊(y + 1) / 4⌋ - 2| = (2 * (m : ℝ) + 1) / ((F : ℝ) - P) := by
      rw [← h1]; unfold Spec.fold; ring
    rcases abs_choice ((y + 1) - 4 * ⌊(y + 1) / 4⌋ - 2) with h | h
    · left
      refine ⟨(⌊(y + 1) / 4⌋, m), ?_⟩
      show 4 * ((⌊(y + 1) / 4⌋ : ℤ) : ℝ) + 1 + (2 * (m : ℝ) + 1) / ((F : ℝ) - P) = y
      rw [← h2, h]; ring
    · right
      refine ⟨(⌊(y + 1) / 4⌋, m), ?_⟩
      show 4 * ((⌊(y + 1) / 4⌋ : ℤ) : ℝ) + 1 - (2 * (m : ℝ) + 1) / ((F : ℝ) - P) = y
      rw [← h2, h]; ring
  exact ((Set.countable_range _).union (Set.countable_range _)).mono hsub

theorem ties_null (F P : Nat) (c : ℝ) : ∀ᵐ x : ℝ, Spec.NoTie (Spec.offset F P (Spec.fold (x + c))) := by
  have h : {x : ℝ | ¬ Spec.NoTie (Spec.offset F P (Spec.fold (x + c)))}.Countable := by
    have := (ties_countable F P).preimage (add_left_injective c)
    exact this
  exact h.measure_zero volume

/-- C101: whatever the directions and the speed, with probability one over the accepted initial positions no object in any frame has an offset
exactly between two pixels. -/
theorem C101_no_ties (n : Nat) (hn : 3 ≤ n) (F P : Nat) (dv : ℝ) (u : Nat → ℝ) :
    ∀ᵐ v ∂(Spec.uniformPoints n)[|Spec.separated n hn], ∀ (k : Fin n) (t : Nat),
      Spec.NoTie (Spec.offset F P (Spec.fold ((v k).1 + t * (Real.cos (u k * 2 * Real.pi) * dv)))) ∧
        Spec.NoTie (Spec.offset F P (Spec.fold ((v k).2 + t * (Real.sin (u k * 2 * Real.pi) * dv)))) := by
  have hac : (Spec.uniformPoints n)[|Spec.separated n hn] ≪ Spec.uniformPoints n := cond_absolutelyContinuous
  refine hac.ae_le ?_
  change ∀ᵐ v ∂Spec.uniformPoints n, ∀ (k : Fin n) (t : Nat), _ ∧ _
  rw [ae_all_iff]
  intro k
  rw [ae_all_iff]
  intro t
  have h2 : ∀ᵐ q : ℝ × ℝ, Spec.NoTie (Spec.offset F P (Spec.fold (q.1 + t * (Real.cos (u k * 2 * Real.pi) * dv)))) ∧
        Spec.NoTie (Spec.offset F P (Spec.fold (q.2 + t * (Real.sin (u k * 2 * Real.pi) * dv)))) := by
    rw [Measure.volume_eq_prod]
    filter_upwards [Measure.quasiMeasurePreserving_fst.ae (ties_null F P (t * (Real.cos (u k * 2 * Real.pi) * dv))),
      Measure.quasiMeasurePreserving_snd.ae (ties_null F P (t * (Real.sin (u k * 2 * Real.pi) * dv)))] with q h1 h2
    exact ⟨h1, h2⟩
  have h3 : ∀ᵐ q ∂(volume : Measure (ℝ × ℝ))[|Spec.square], Spec.NoTie (Spec.offset F P (Spec.fold (q.1 + t * (Real.cos (u k * 2 * Real.pi) * dv)))) ∧
        Spec.NoTie (Spec.offset F P (Spec.fold (q.2 + t * (Real.sin (u k * 2 * Real.pi) * dv)))) := (cond_absolutelyContinuous : _ ≪ volume).ae_le h2
  exact (measurePreserving_eval (fun _ : Fin n => (volume : Measure (ℝ × ℝ))[|Spec.square]) k).quasiMeasurePreserving.ae h3

/-- C101: so with probability one every object is shown by one exact copy in every frame, at the point its flight has reached. -/
theorem C101_almost_surely (n : Nat) (hn : 3 ≤ n) (T F S p : Nat) (hT : 0 < T) (hS : 0 < S) (hF : S + p * 2 ≤ F) (dv : ℝ) (hv : |dv| ≤ 2)
    (u : Nat → ℝ) (objects : List (Img (S + p * 2))) (ho : n ≤ objects.length) :
    ∀ᵐ v ∂(Spec.uniformPoints n)[|Spec.separated n hn],
      ∃ (video : Nat → Img F) (part : Fin n → Nat → Img F), simOneSequence T n F S p dv objects (List.ofFn v) u = .ok video ∧
        ∀ t < T, (∀ i j, video t i j = min (max (∑ k, part k t i j) 0) 1) ∧
          ∀ k : Fin n, ∃ a b : Nat, Spec.CopyAt (part k t) objects[k] a b ∧
            |(a : ℝ) - Spec.offset F (S + p * 2) (Spec.fold ((v k).2 + t * (Real.sin (u k * 2 * Real.pi) * dv)))| < 1 / 2 ∧
            |(b : ℝ) - Spec.offset F (S + p * 2) (Spec.fold ((v k).1 + t * (Real.cos (u k * 2 * Real.pi) * dv)))| < 1 / 2 := by
  have hbox : ∀ᵐ v ∂(Spec.uniformPoints n)[|Spec.separated n hn], ∀ k, v k ∈ Spec.square := by
    have hac : (Spec.uniformPoints n)[|Spec.separated n hn] ≪ Spec.uniformPoints n := cond_absolutelyContinuous
    refine hac.ae_le ?_
    have h : ∀ᵐ v ∂Spec.uniformPoints n, ∀ k, v k ∈ Spec.square := by
      rw [ae_all_iff]
      intro k
      have h3 : ∀ᵐ q ∂(volume : Measure (ℝ × ℝ))[|Spec.square], q ∈ Spec.square := ae_cond_mem square_measurable
      exact (measurePreserving_eval (fun _ : Fin n => (volume : Measure (ℝ × ℝ))[|Spec.square]) k).quasiMeasurePreserving.ae h3
    exact h
  filter_upwards [C101_no_ties n hn F (S + p * 2) dv u, hbox] with v h1 h2
  obtain ⟨video, pos, hv1, hv2⟩ := C101_video T n F S p dv objects (List.ofFn v) u hT (by omega) ho (by simp)
    (by
      intro x hx
      rw [List.mem_ofFn] at hx
      obtain ⟨k, rfl⟩ := hx
      have := h2 k
      simp only [Spec.square, Set.mem_prod, Set.mem_Icc] at this
      exact this) hv
  refine ⟨video, fun k t => simObject F S p objects[k] (pos k t), hv1, fun t ht => ⟨(hv2 t ht).2, fun k => ?_⟩⟩
  obtain ⟨hb, he⟩ := (hv2 t ht).1 k
  have e : (List.ofFn v)[k] = v k := by simp
  rw [e] at he
  have ht1 := (h1 k t).1
  have ht2 := (h1 k t).2
  obtain ⟨a, b, ha, hb', hc⟩ := C101_copy F S p hS hF objects[k] (pos k t) hb (by rw [he]; exact ht1) (by rw [he]; exact ht2)
  refine ⟨a, b, hc, ?_, ?_⟩
  · rw [he] at ha; exact ha
  · rw [he] at hb'; exact hb'

/-- The hypotheses for the simulator's defaults. -/
example (objects : List (Img (20 + 4 * 2))) (h : 3 ≤ objects.length) (u : Nat → ℝ) :
    ∀ᵐ v ∂(Spec.uniformPoints 3)[|Spec.separated 3 le_rfl], ∃ video : Nat → Img 96,
      simOneSequence 10 3 96 20 4 0.1 objects (List.ofFn v) u = .ok video := by
  filter_upwards [C101_almost_surely 3 le_rfl 10 96 20 4 (by norm_num) (by norm_num) (by norm_num) 0.1 (by rw [abs_of_nonneg] <;> norm_num) u objects h] with v hv
  obtain ⟨video, -, h, -⟩ := hv
  exact ⟨video, h⟩

end Verif
