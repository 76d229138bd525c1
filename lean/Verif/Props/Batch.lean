import Verif.Proofs.Batch
import Verif.Props.WeightingNormal
/-
C85: parts of tensors that the programs treat on their own, in particular batch elements.
-/
namespace Verif
open Spec Part MeasureTheory
open scoped ENNReal

section
variable {L L' : Lang} {h : Part L L'}

/-- C85. If the nest `N'` does on a part of all tensors what `N` does on the whole, a call of `N'` with the part of the input draws the parts of
`N`'s draws, and returns the part of `N`'s result (trace, log weight, output, all entries) or raises the same exception. -/
theorem C85_part {dims : PyVal L → PyVal L → Prop} {N : Node L} {N' : Node L'} (hN : h.NodeRel dims N N') (c : PyVal L) (kw : Kw L)
    (hd : dims kw.sampleDims kw.batchDim) (w : World L) (w' : World L') (hw : h.WRel w w') :
    h.Sim (fun x => h.Escapes x.1) (fun x x' => ExEq h.OutRel x.1 x'.1 ∧ h.WRel x.2 x'.2) (eval N c kw w) (eval N' (h.py c) (h.kw kw) w') :=
  eval_rel hN c kw hd w w' hw

theorem sim_ret {α β : Type} {E : α → Prop} {R : α → β → Prop} {m : Comp L α} {m' : Comp L' β} (hm : h.Sim E R m m') :
    ∀ a, m.Ret a → E a ∨ ∃ b, m'.Ret b ∧ R a b := by
  induction hm with
  | ret a b hab => rintro _ rfl; exact Or.inr ⟨b, rfl, hab⟩
  | escape a m' ha => rintro _ rfl; exact Or.inl ha
  | draw d rep k k' _ ih =>
    rintro a ⟨x, hx⟩
    exact (ih x a hx).imp_right fun ⟨b, hb, hr⟩ => ⟨b, ⟨_, hb⟩, hr⟩
  | rand k k' _ ih =>
    rintro a ⟨x, hx⟩
    exact (ih x a hx).imp_right fun ⟨b, hb, hr⟩ => ⟨b, ⟨_, hb⟩, hr⟩

theorem sim_ret_back {α β : Type} {E : α → Prop} {R : α → β → Prop} {m : Comp L α} {m' : Comp L' β} (hm : h.Sim E R m m') (hE : ∀ a, ¬ E a)
    (hv : Function.Surjective h.v) (hu : Function.Surjective h.u) : ∀ b, m'.Ret b → ∃ a, m.Ret a ∧ R a b := by
  induction hm with
  | ret a b hab => rintro _ rfl; exact ⟨a, rfl, hab⟩
  | escape a m' ha => exact absurd ha (hE a)
  | draw d rep k k' _ ih =>
    rintro b ⟨x, hx⟩
    obtain ⟨x, rfl⟩ := hv x
    obtain ⟨a, ha, hr⟩ := ih x b hx
    exact ⟨a, ⟨x, ha⟩, hr⟩
  | rand k k' _ ih =>
    rintro b ⟨x, hx⟩
    obtain ⟨x, rfl⟩ := hu x
    obtain ⟨a, ha, hr⟩ := ih x b hx
    exact ⟨a, ⟨x, ha⟩, hr⟩

/-- C85. Every result of the whole has a part, which is a result of the part. -/
theorem C85_runs {dims : PyVal L → PyVal L → Prop} {N : Node L} {N' : Node L'} (hN : h.NodeRel dims N N') (c : PyVal L) (kw : Kw L)
    (hd : dims kw.sampleDims kw.batchDim) (w : World L) (w' : World L') (hw : h.WRel w w') (o : Out L) (w1 : World L)
    (hr : Exec.Runs (eval N c kw) w (.ok o) w1) :
    ∃ o' w1', Exec.Runs (eval N' (h.py c) (h.kw kw)) w' (.ok o') w1' ∧ h.OutRel o o' ∧ h.WRel w1 w1' := by
  rcases sim_ret (C85_part hN c kw hd w w' hw) _ hr with ⟨_, he⟩ | ⟨⟨r', w1'⟩, h1, h2, h3⟩
  · cases he
  · cases r' with
    | error e => exact absurd h2 id
    | ok o' => exact ⟨o', w1', h1, h2, h3⟩

/-- C85. Where no check can tell the part from the whole, every run of the part is the part of a run of the whole. -/
theorem C85_extends {dims : PyVal L → PyVal L → Prop} {N : Node L} {N' : Node L'} (hN : h.NodeRel dims N N') (c : PyVal L) (kw : Kw L)
    (hd : dims kw.sampleDims kw.batchDim) (w : World L) (w' : World L') (hw : h.WRel w w') (hexact : h.exact) (hv : Function.Surjective h.v)
    (hu : Function.Surjective h.u) (r' : Except Err (Out L')) (w1' : World L') (hr : Exec.Runs (eval N' (h.py c) (h.kw kw)) w' r' w1') :
    ∃ r w1, Exec.Runs (eval N c kw) w r w1 ∧ ExEq h.OutRel r r' ∧ h.WRel w1 w1' := by
  obtain ⟨⟨r, w1⟩, h1, h2⟩ := sim_ret_back (C85_part hN c kw hd w w' hw) (fun _ h => h.1 hexact) hv hu _ hr
  exact ⟨r, w1, h1, h2⟩

end

section
variable {n b b' : Nat} {X D D' : Type} {lp : D → (Fin n → Fin b → X) → Fin n → Fin b → ℝ} {lp' : D' → (Fin n → Fin b' → X) → Fin n → Fin b' → ℝ}

/-- C85. `Systematic` treats batch elements on their own. -/
theorem C85_systematic (σ : Fin b' → Fin b) (hσ : Function.Injective σ) (hb : b' ≠ 0) (dm : D → D')
    (hd : ∀ d x, (fun s i => lp d x s (σ i)) = lp' (dm d) fun s i => x s (σ i)) (lo : ℝ → ℝ → Prop) (oneD normalize : Bool) :
    (batchPart σ hσ hb dm hd lo).ResRel (fun _ bd => bd ≠ .int 0) (systematic oneD normalize) (systematic oneD normalize) :=
  systematic_rel oneD normalize

/-- C85. The first exception: without conditioning, a kernel whose log weight is a tensor passes the check only if that is a single 0. -/
theorem C85_zero_weight (o : Out (TLang n b X D lp)) (w : Fin n → Fin b → ℝ) (hw : o.logWeight = .tensor w)
    (h : ¬o.trace.entries.any fun e => e.2.prov == .observed || e.2.prov == .reused) :
    extendCheckF none o = .ok () ↔ n * b = 1 ∧ w = 0 := by
  have hz : zeroWeight o.logWeight = @decide (n * b = 1 ∧ w = 0) (Classical.dec _) := by rw [hw]; rfl
  unfold extendCheckF
  dsimp only
  rw [hz, if_neg h]
  by_cases hb : n * b = 1 ∧ w = 0
  · simp [hb]
  · rw [@decide_eq_false _ (Classical.dec _) hb]
    simp only [hb, iff_false, Bool.not_false, if_true]
    exact fun h => by cases h

/-- C85. The second exception: `batch_dim=0`, with a batch dimension, is rejected unless the two dimensions have the same size. -/
theorem C85_batch_dim (normalize : Bool) (sd : PyVal (TLang n b X D lp)) (t : Trace (TLang n b X D lp)) (lw : LW (TLang n b X D lp).W) (hnb : n ≠ b) :
    ∃ e, systematic false normalize sd (.int 0) t lw = .ret (.error e) := by
  unfold systematic
  cases lw with
  | float0 => dsimp only; split <;> exact ⟨_, rfl⟩
  | tensor lw =>
    have : ∃ e, checkDims (L := TLang n b X D lp) false n b sd (.int 0) = .error e := by
      unfold checkDims
      split
      · exact ⟨_, if_neg hnb⟩
      · exact ⟨_, rfl⟩
    obtain ⟨e, he⟩ := this
    dsimp only
    rw [he]
    exact ⟨e, rfl⟩

end

section
variable {n b b₁ b₂ : Nat} {X D : Type} [MeasurableSpace X] {μ : Measure X} {lp : D → X → ℝ}
local notation "ℙ" => PopLang n b X D μ lp

theorem lintegral_le_bound {Ω : Type} [MeasurableSpace Ω] (ν : Measure Ω) [IsProbabilityMeasure ν] (f : Ω → ℝ≥0∞) {C : ℝ≥0∞} (hf : ∀ x, f x ≤ C) :
    ∫⁻ x, f x ∂ν ≤ C := by
  refine (lintegral_mono hf).trans ?_
  rw [lintegral_const, measure_univ, mul_one]

theorem expectT_le {α : Type} (m : Comp ℙ α) {g : α → ℝ≥0∞} {C : ℝ≥0∞} (hg : ∀ a, g a ≤ C) : expectT m g ≤ C := by
  induction m with
  | ret a => exact hg a
  | draw d rep k ih =>
    have h1 : ∀ s j, IsProbabilityMeasure (μ.withDensity fun x => dens (lp (d s j).1 x)) := fun s j => normalised_prob (d s j).2
    exact lintegral_le_bound (Ω := Fin n → Fin b → X) _ _ ih
  | rand k ih =>
    have := unit_prob
    exact lintegral_le_bound (Ω := Fin b → Set.Ico (0 : ℝ) 1) _ _ ih

theorem sim_expect {σ : Fin b₁ → Fin b} {hσ : Function.Injective σ} {hb : b₁ ≠ 0} {lo : ℝ → ℝ → Prop} {α β : Type} {E : α → Prop} {R : α → β → Prop}
    {m : Comp ℙ α} {m' : Comp (PopLang n b₁ X D μ lp) β} (hm : (popPart σ hσ hb lo).Sim E R m m') (hE : ∀ a, ¬ E a) (g : α → ℝ≥0∞) (g' : β → ℝ≥0∞)
    (hg : ∀ a x, R a x → g a = g' x) : expectT m g = expectT m' g' := by
  induction hm with
  | ret a x hax => exact hg a x hax
  | escape a m' ha => exact absurd ha (hE a)
  | draw d rep k k' _ ih =>
    have h1 : ∀ s j, IsProbabilityMeasure (μ.withDensity fun x => dens (lp (d s j).1 x)) := fun s j => normalised_prob (d s j).2
    refine (lintegral_congr ih).trans ?_
    exact (hasPart_arrow fun s => hasPart_pi σ hσ fun j => μ.withDensity fun x => dens (lp (d s j).1 x)).lintegral fun x => expectT (k' x) g'
  | rand k k' _ ih =>
    have := unit_prob
    refine (lintegral_congr ih).trans ?_
    exact (hasPart_pi σ hσ fun _ : Fin b => volume.comap (Subtype.val : Set.Ico (0 : ℝ) 1 → ℝ)).lintegral fun x => expectT (k' x) g'

theorem sim_expect₂ {σ₁ : Fin b₁ → Fin b} {hσ₁ : Function.Injective σ₁} {hb₁ : b₁ ≠ 0} {lo₁ : ℝ → ℝ → Prop} {σ₂ : Fin b₂ → Fin b}
    {hσ₂ : Function.Injective σ₂} {hb₂ : b₂ ≠ 0} {lo₂ : ℝ → ℝ → Prop} (hne : ∀ i k, σ₁ i ≠ σ₂ k) {α β₁ β₂ : Type} {E₁ E₂ : α → Prop}
    {R₁ : α → β₁ → Prop} {R₂ : α → β₂ → Prop} {m : Comp ℙ α} {m₁ : Comp (PopLang n b₁ X D μ lp) β₁} {m₂ : Comp (PopLang n b₂ X D μ lp) β₂}
    (h₁ : (popPart σ₁ hσ₁ hb₁ lo₁).Sim E₁ R₁ m m₁) (h₂ : (popPart σ₂ hσ₂ hb₂ lo₂).Sim E₂ R₂ m m₂) (hE₁ : ∀ a, ¬ E₁ a) (hE₂ : ∀ a, ¬ E₂ a)
    (g : α → ℝ≥0∞) (g₁ : β₁ → ℝ≥0∞) (g₂ : β₂ → ℝ≥0∞) (hg : ∀ a x y, R₁ a x → R₂ a y → g a = g₁ x * g₂ y) (C₁ C₂ : ℝ≥0∞) (hC₁ : C₁ ≠ ⊤) (hC₂ : C₂ ≠ ⊤)
    (hg₁ : ∀ x, g₁ x ≤ C₁) (hg₂ : ∀ x, g₂ x ≤ C₂) :
    expectT m g = expectT m₁ g₁ * expectT m₂ g₂ := by
  have he : Function.Injective (Sum.elim σ₁ σ₂) := hσ₁.sumElim hσ₂ hne
  induction h₁ generalizing m₂ with
  | ret a x hax =>
    cases h₂ with
    | ret _ y hay => exact hg a x y hax hay
    | escape _ _ ha => exact absurd ha (hE₂ a)
  | escape a m' ha => exact absurd ha (hE₁ a)
  | draw d rep k k₁ _ ih =>
    cases h₂ with
    | draw _ _ _ k₂ hk₂ =>
      have h1 : ∀ s j, IsProbabilityMeasure (μ.withDensity fun x => dens (lp (d s j).1 x)) := fun s j => normalised_prob (d s j).2
      refine (lintegral_congr fun x => ih x (hk₂ x)).trans ?_
      refine (lintegral_two σ₁ σ₂ he (fun s j => μ.withDensity fun x => dens (lp (d s j).1 x)) fun x => expectT (k₁ x.1) g₁ * expectT (k₂ x.2) g₂).trans ?_
      exact lintegral_prod_mul_any (A := Fin n → Fin b₁ → X) (B := Fin n → Fin b₂ → X) (fun x => expectT (k₁ x) g₁) (fun x => expectT (k₂ x) g₂) (fun x => ne_top_of_le_ne_top hC₁ (expectT_le _ hg₁))
        (ne_top_of_le_ne_top hC₂ (lintegral_le_bound (Ω := Fin n → Fin b₂ → X) _ _ fun x => expectT_le _ hg₂))
  | rand k k₁ _ ih =>
    cases h₂ with
    | rand _ k₂ hk₂ =>
      have := unit_prob
      refine (lintegral_congr fun x => ih x (hk₂ x)).trans ?_
      refine (lintegral_two_pi σ₁ σ₂ he (fun _ : Fin b => volume.comap (Subtype.val : Set.Ico (0 : ℝ) 1 → ℝ))
        fun x => expectT (k₁ x.1) g₁ * expectT (k₂ x.2) g₂).trans ?_
      exact lintegral_prod_mul_any (A := Fin b₁ → Set.Ico (0 : ℝ) 1) (B := Fin b₂ → Set.Ico (0 : ℝ) 1) (fun x => expectT (k₁ x) g₁) (fun x => expectT (k₂ x) g₂) (fun x => ne_top_of_le_ne_top hC₁ (expectT_le _ hg₁))
        (ne_top_of_le_ne_top hC₂ (lintegral_le_bound (Ω := Fin b₂ → Set.Ico (0 : ℝ) 1) _ _ fun x => expectT_le _ hg₂))

/-- C85. What happens to some batch elements is distributed as if the nest was called with these alone: the expectation of every function of their
results. -/
theorem C85_law (σ : Fin b₁ → Fin b) (hσ : Function.Injective σ) (hb : b₁ ≠ 0) (lo : ℝ → ℝ → Prop) (hexact : n ≠ 1 ∨ b₁ ≠ 1 ∨ b = 1)
    {dims : PyVal ℙ → PyVal ℙ → Prop} {N : Node ℙ} {N' : Node (PopLang n b₁ X D μ lp)} (hN : (popPart σ hσ hb lo).NodeRel dims N N') (c : PyVal ℙ) (kw : Kw ℙ)
    (hd : dims kw.sampleDims kw.batchDim) (w : World ℙ) (w' : World (PopLang n b₁ X D μ lp)) (hw : (popPart σ hσ hb lo).WRel w w')
    (g : Except Err (Out ℙ) × World ℙ → ℝ≥0∞) (g' : Except Err (Out (PopLang n b₁ X D μ lp)) × World (PopLang n b₁ X D μ lp) → ℝ≥0∞)
    (hg : ∀ x x', ExEq (popPart σ hσ hb lo).OutRel x.1 x'.1 → (popPart σ hσ hb lo).WRel x.2 x'.2 → g x = g' x') :
    expectT (eval N c kw w) g = expectT (eval N' ((popPart σ hσ hb lo).py c) ((popPart σ hσ hb lo).kw kw) w') g' :=
  sim_expect (C85_part hN c kw hd w w' hw) (fun _ h => h.1 hexact) g g' fun x x' hx => hg x x' hx.1 hx.2

/-- C85. What happens to some batch elements is independent of what happens to others. -/
theorem C85_independent (σ₁ : Fin b₁ → Fin b) (hσ₁ : Function.Injective σ₁) (hb₁ : b₁ ≠ 0) (σ₂ : Fin b₂ → Fin b) (hσ₂ : Function.Injective σ₂) (hb₂ : b₂ ≠ 0)
    (hne : ∀ i k, σ₁ i ≠ σ₂ k) (lo₁ lo₂ : ℝ → ℝ → Prop) (hn : n ≠ 1) {dims₁ dims₂ : PyVal ℙ → PyVal ℙ → Prop} {N : Node ℙ}
    {N₁ : Node (PopLang n b₁ X D μ lp)} {N₂ : Node (PopLang n b₂ X D μ lp)} (hN₁ : (popPart σ₁ hσ₁ hb₁ lo₁).NodeRel dims₁ N N₁)
    (hN₂ : (popPart σ₂ hσ₂ hb₂ lo₂).NodeRel dims₂ N N₂) (c : PyVal ℙ) (kw : Kw ℙ) (hd₁ : dims₁ kw.sampleDims kw.batchDim)
    (hd₂ : dims₂ kw.sampleDims kw.batchDim) (w : World ℙ) (w₁ : World (PopLang n b₁ X D μ lp)) (w₂ : World (PopLang n b₂ X D μ lp))
    (hw₁ : (popPart σ₁ hσ₁ hb₁ lo₁).WRel w w₁) (hw₂ : (popPart σ₂ hσ₂ hb₂ lo₂).WRel w w₂) (g₁ g₂ : Except Err (Out ℙ) × World ℙ → ℝ≥0∞)
    (g₁' : Except Err (Out (PopLang n b₁ X D μ lp)) × World (PopLang n b₁ X D μ lp) → ℝ≥0∞)
    (g₂' : Except Err (Out (PopLang n b₂ X D μ lp)) × World (PopLang n b₂ X D μ lp) → ℝ≥0∞)
    (hg₁ : ∀ x x', ExEq (popPart σ₁ hσ₁ hb₁ lo₁).OutRel x.1 x'.1 → (popPart σ₁ hσ₁ hb₁ lo₁).WRel x.2 x'.2 → g₁ x = g₁' x')
    (hg₂ : ∀ x x', ExEq (popPart σ₂ hσ₂ hb₂ lo₂).OutRel x.1 x'.1 → (popPart σ₂ hσ₂ hb₂ lo₂).WRel x.2 x'.2 → g₂ x = g₂' x')
    (C : ℝ≥0∞) (hC : C ≠ ⊤) (hle₁ : ∀ x, g₁' x ≤ C) (hle₂ : ∀ x, g₂' x ≤ C) :
    expectT (eval N c kw w) (fun x => g₁ x * g₂ x) = expectT (eval N c kw w) g₁ * expectT (eval N c kw w) g₂ := by
  rw [C85_law σ₁ hσ₁ hb₁ lo₁ (Or.inl hn) hN₁ c kw hd₁ w w₁ hw₁ g₁ g₁' hg₁, C85_law σ₂ hσ₂ hb₂ lo₂ (Or.inl hn) hN₂ c kw hd₂ w w₂ hw₂ g₂ g₂' hg₂]
  exact sim_expect₂ hne (C85_part hN₁ c kw hd₁ w w₁ hw₁) (C85_part hN₂ c kw hd₂ w w₂ hw₂) (fun _ h => h.1 (Or.inl hn)) (fun _ h => h.1 (Or.inl hn)) _ g₁' g₂'
    (fun a x y hx hy => by rw [hg₁ a x hx.1 hx.2, hg₂ a y hy.1 hy.2]) C C hC hC hle₁ hle₂

end

namespace Gauss
section
variable (n b : Nat)

/-- "x" is standard normal; the observation "y", different for each batch element, is normal around "x". -/
noncomputable def batchModel : ProgSpec (PopLang n b ℝ ℝ volume lp) where
  name := "Model"
  sig := sig
  debugAttr := none
  model c _ := match c with
    | .tensor y => .variable "x" (fun _ _ => ⟨(0 : ℝ), normalised 0⟩) none none true fun x =>
      .variable "y" (fun s j => ⟨x s j, normalised _⟩) (some y) none true fun _ => .ret (.tensor x)
    | _ => .raise .type

/-- Proposes "x" around the observation. -/
noncomputable def batchGuess : ProgSpec (PopLang n b ℝ ℝ volume lp) where
  name := "Guess"
  sig := sig
  debugAttr := none
  model c _ := match c with
    | .tensor y => .variable "x" (fun s j => ⟨y s j / 2, normalised _⟩) none none true fun x => .ret (.tensor x)
    | _ => .raise .type

/-- `Resample(Propose(p=Model(), q=Guess()), resampler=Systematic())` -/
noncomputable def batchNest : Node (PopLang n b ℝ ℝ volume lp) :=
  .resample (mkAttrs 3 none none .none false) (systematic false false)
    (.propose (mkAttrs 2 none none .none false) (fun t _ => .ok t) true (.prog 1 (batchModel n b)) (.prog 0 (batchGuess n b)))

end

section
variable {n b b' : Nat} {σ : Fin b' → Fin b} {hσ : Function.Injective σ} {hb : b' ≠ 0}

theorem batchAttrs_rel (i : ObjId) : (popPart (n := n) (X := ℝ) (μ := volume) (lp := lp) σ hσ hb fun _ _ => True).AttrsRel
    (mkAttrs i none none .none false) (mkAttrs i none none .none false) :=
  ⟨rfl, rfl, rfl, trivial, fun _ _ _ _ _ _ => Or.inr trivial⟩

theorem batchNest_rel : (popPart (n := n) (X := ℝ) (μ := volume) (lp := lp) σ hσ hb fun _ _ => True).NodeRel (fun _ bd => bd ≠ .int 0)
    (batchNest n b) (batchNest n b') := by
  refine .resample _ _ _ _ _ _ (batchAttrs_rel 3) (C85_systematic σ hσ hb _ _ _ false false) (.propose _ _ _ _ _ _ _ _ _ (batchAttrs_rel 2) ?_ ?_ ?_)
  · refine .prog 1 _ _ rfl rfl rfl fun c kwargs => ?_
    cases c with
    | tensor y =>
      refine .variable "x" _ none none true _ _ fun x => .variable "y" _ (some y) none true _ _ fun _ => .ret (.tensor x)
    | _ => exact .raise .type
  · refine .prog 0 _ _ rfl rfl rfl fun c kwargs => ?_
    cases c with
    | tensor y => exact .variable "x" _ none none true _ _ fun x => .ret (.tensor x)
    | _ => exact .raise .type
  · exact fun t t' kw ht => Or.inr ht

theorem batchWorld_rel : (popPart (n := n) (X := ℝ) (μ := volume) (lp := lp) σ hσ hb fun _ _ => True).WRel
    { cond := fun _ => none, store := Store.init } { cond := fun _ => none, store := Store.init } :=
  ⟨fun _ => trivial, rfl, ⟨fun _ _ => Or.inr ⟨trivial, rfl⟩, fun _ _ _ => Or.inr ⟨rfl, rfl⟩, fun _ _ _ => Or.inr ⟨trivial, rfl⟩,
    fun _ _ _ => Or.inr ⟨trivial, rfl⟩, fun _ _ _ _ _ _ _ => Or.inr ⟨trivial, rfl⟩⟩⟩

/-- Whether the first particle's log weight of a batch element is positive. -/
noncomputable def positive (b : Nat) (j : Fin b) (x : Except Err (Out (PopLang 5 b ℝ ℝ volume lp)) × World (PopLang 5 b ℝ ℝ volume lp)) : ℝ≥0∞ := by
  classical exact match x.1 with
  | .ok o => match o.logWeight with
    | .tensor w => if 0 < w 0 j then 1 else 0
    | .float0 => 0
  | .error _ => 2

theorem positive_rel {b b' : Nat} {σ : Fin b' → Fin b} {hσ : Function.Injective σ} {hb : b' ≠ 0} (i : Fin b') (x) (x')
    (hx : ExEq (popPart (n := 5) (X := ℝ) (μ := volume) (lp := lp) σ hσ hb fun _ _ => True).OutRel x.1 x'.1) : positive b (σ i) x = positive b' i x' := by
  obtain ⟨x, w⟩ := x
  obtain ⟨x', w'⟩ := x'
  cases x <;> cases x' <;> simp only [ExEq] at hx
  · rfl
  · cases hx with
    | mk t t' lw o ty ix l l' mg px px' s s' => cases lw <;> rfl

theorem positive_le (b : Nat) (j : Fin b) (x) : positive b j x ≤ 2 := by
  obtain ⟨x, w⟩ := x
  cases x with
  | error e => exact le_rfl
  | ok o =>
    obtain ⟨t, lw, _⟩ := o
    cases lw with
    | float0 => exact bot_le
    | tensor w =>
      show (if _ then (1 : ℝ≥0∞) else 0) ≤ 2
      split
      · exact one_le_two
      · exact bot_le

end
end Gauss

/-- C85 for importance sampling and resampling with five particles, in a batch of three: the last batch element is distributed as if the batch
consisted of it, for all observations. -/
example (y : Fin 5 → Fin 3 → ℝ) :
    expectT (eval (Gauss.batchNest 5 3) (.tensor y) { sampleDims := .int 0, batchDim := .int 1 }
        { cond := fun _ => none, store := Store.init }) (Gauss.positive 3 2) =
      expectT (eval (Gauss.batchNest 5 1) (.tensor fun s _ => y s 2)
        { sampleDims := .int 0, batchDim := .int 1 }
        { cond := fun _ => none, store := Store.init }) (Gauss.positive 1 0) :=
  C85_law (fun _ : Fin 1 => (2 : Fin 3)) (fun _ _ _ => Subsingleton.elim _ _) one_ne_zero (fun _ _ => True) (Or.inl (by decide)) Gauss.batchNest_rel
    (.tensor y) _ (by intro h; cases h) _ _ Gauss.batchWorld_rel _ _ fun x x' hx _ => Gauss.positive_rel 0 x x' hx

/-- And its first two batch elements are independent of the last. -/
example (y : Fin 5 → Fin 3 → ℝ) :
    let m := eval (Gauss.batchNest 5 3) (.tensor y) { sampleDims := .int 0, batchDim := .int 1 }
      { cond := fun _ => none, store := Store.init }
    expectT m (fun x => Gauss.positive 3 1 x * Gauss.positive 3 2 x) = expectT m (Gauss.positive 3 1) * expectT m (Gauss.positive 3 2) :=
  C85_independent (b₁ := 2) (b₂ := 1) (fun i => i.castSucc) (Fin.castSucc_injective 2) two_ne_zero (fun _ => 2) (fun _ _ _ => Subsingleton.elim _ _) one_ne_zero
    (fun i _ => (Fin.castSucc_lt_last i).ne) (fun _ _ => True) (fun _ _ => True) (by decide) Gauss.batchNest_rel Gauss.batchNest_rel (.tensor y) _
    (by intro h; cases h) (by intro h; cases h) _ _ _ Gauss.batchWorld_rel Gauss.batchWorld_rel _ _ (Gauss.positive 2 1) (Gauss.positive 1 0)
    (fun x x' hx _ => Gauss.positive_rel 1 x x' hx) (fun x x' hx _ => Gauss.positive_rel 0 x x' hx) 2 (by simp) (Gauss.positive_le 2 1) (Gauss.positive_le 1 0)

end Verif
