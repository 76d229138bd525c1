import Mathlib.Analysis.Calculus.LineDeriv.Basic
import Verif.Props.ObjectiveChain
import Verif.Proofs.AnnealStl
/-
C96: which parameters the loss of each step of vsmc depends on.
-/
namespace Verif
variable {n b : Nat} {ι X D : Type} {θ₀ : ι → ℝ} {lp : D → X → Fin n → Fin b → ℝ}
local notation "𝔾" => GradLang n b θ₀ lp

theorem SameOn.mono {S T : Set ι} {θ θ' : ι → ℝ} (h : SameOn T θ θ') (hs : S ⊆ T) : SameOn S θ θ' := fun i hi => h i (hs hi)

/-- A reparameterised draw varies only with the parameters of its distribution. -/
theorem DrawnFrom.agree {rep : Bool} {d : (ι → ℝ) → D} {v : (ι → ℝ) → X} (h : DrawnFrom rep d v) {θ θ' : ι → ℝ} (hd : d θ = d θ') : v θ = v θ' := by
  unfold DrawnFrom at h
  split at h
  · obtain ⟨s, rfl⟩ := h
    simp only [hd]
  · obtain ⟨x, rfl⟩ := h
    rfl

theorem DrawnFrom.const {d : (ι → ℝ) → D} {v : (ι → ℝ) → X} (h : DrawnFrom false d v) (θ θ' : ι → ℝ) : v θ = v θ' := by
  obtain ⟨x, rfl⟩ := h
  rfl

section
variable {P : ParamModel n b ι X D} {I : Set ι} {G F R : Nat → Set ι} {rep0 rep rep' : Bool} {cls0 : String} {cls : Nat → String} {z : Nat → (ι → ℝ) → X}

theorem point_agree (hU : P.Uses I G F R) (hz : P.Drawn θ₀ rep0 rep z) (k : Nat) {θ θ' : ι → ℝ} (h : SameOn (startsFrom I G k) θ θ') :
    AnnealModel.point (L := 𝔾) z k θ = AnnealModel.point (L := 𝔾) z k θ' := by
  cases k with
  | zero => exact hz.first.agree (hU.d0 _ _ h)
  | succ k => rfl

theorem density_agree (hU : P.Uses I G F R) (hz : P.Drawn θ₀ rep0 rep z) (k : Nat) {θ θ' : ι → ℝ} (h : SameOn (startsFrom I G k) θ θ') (i : Fin n) (j : Fin b) :
    (P.toModel θ₀ lp rep0 rep rep' cls0 cls).density k (AnnealModel.point (L := 𝔾) z k) i j θ =
      (P.toModel θ₀ lp rep0 rep rep' cls0 cls).density k (AnnealModel.point (L := 𝔾) z k) i j θ' := by
  cases k with
  | zero =>
    show lp (P.d0 θ) (z 0 θ) i j = lp (P.d0 θ') (z 0 θ') i j
    rw [hU.d0 _ _ h, hz.first.agree (hU.d0 _ _ h)]
  | succ k =>
    show P.g k θ _ i j = P.g k θ' _ i j
    rw [hU.g k _ _ h]
    rfl

theorem forward_agree (hU : P.Uses I G F R) (hz : P.Drawn θ₀ rep0 rep z) (k : Nat) {θ θ' : ι → ℝ} (h : SameOn (startsFrom I G k) θ θ') (h' : SameOn (F k) θ θ') :
    P.f k θ (AnnealModel.point (L := 𝔾) z k θ) = P.f k θ' (AnnealModel.point (L := 𝔾) z k θ') := by
  rw [point_agree hU hz k h, hU.f k _ _ h']

theorem drawn_agree (hz : P.Drawn θ₀ rep0 rep z) (k : Nat) {θ θ' : ι → ℝ}
    (h : P.f k θ (AnnealModel.point (L := 𝔾) z k θ) = P.f k θ' (AnnealModel.point (L := 𝔾) z k θ')) : z (k + 1) θ = z (k + 1) θ' := by
  cases k with
  | zero => exact hz.second.agree h
  | succ k => exact (hz.next k).agree h

theorem drawn_const (hz : P.Drawn θ₀ rep0 false z) (k : Nat) (θ θ' : ι → ℝ) : z (k + 1) θ = z (k + 1) θ' := by
  cases k with
  | zero => exact hz.second.const θ θ'
  | succ k => exact (hz.next k).const θ θ'

theorem increment_agree (hU : P.Uses I G F R) (hz : P.Drawn θ₀ rep0 rep z) (k : Nat) (ψ : ((ι → ℝ) → D) → (ι → ℝ) → D) {θ θ' : ι → ℝ} (h : SameOn (startsFrom I G k) θ θ')
    (hR : SameOn (R k) θ θ') (hG : SameOn (G k) θ θ') (hv : z (k + 1) θ = z (k + 1) θ')
    (hψ : ψ (fun θ => P.f k θ (AnnealModel.point (L := 𝔾) z k θ)) θ = ψ (fun θ => P.f k θ (AnnealModel.point (L := 𝔾) z k θ)) θ') (i : Fin n) (j : Fin b) :
    (AnnealModel.incrementTo (L := 𝔾) ψ (P.toModel θ₀ lp rep0 rep rep' cls0 cls) z k : Ten n b (ι → ℝ)) i j θ =
      (AnnealModel.incrementTo (L := 𝔾) ψ (P.toModel θ₀ lp rep0 rep rep' cls0 cls) z k : Ten n b (ι → ℝ)) i j θ' := by
  show (P.g k θ (z (k + 1) θ) i j + lp (P.r k θ (z (k + 1) θ)) (AnnealModel.point (L := 𝔾) z k θ) i j) -
      ((P.toModel θ₀ lp rep0 rep rep' cls0 cls).density k (AnnealModel.point (L := 𝔾) z k) i j θ +
        lp (ψ (fun θ => P.f k θ (AnnealModel.point (L := 𝔾) z k θ)) θ) (z (k + 1) θ) i j) =
    (P.g k θ' (z (k + 1) θ') i j + lp (P.r k θ' (z (k + 1) θ')) (AnnealModel.point (L := 𝔾) z k θ') i j) -
      ((P.toModel θ₀ lp rep0 rep rep' cls0 cls).density k (AnnealModel.point (L := 𝔾) z k) i j θ' +
        lp (ψ (fun θ => P.f k θ (AnnealModel.point (L := 𝔾) z k θ)) θ') (z (k + 1) θ') i j)
  rw [hU.g k _ _ hG, hU.r k _ _ hR, hv, hψ, point_agree hU hz k h, density_agree hU hz k h]

theorem estimateMc_agree {f w : Ten n b (ι → ℝ)} {θ θ' : ι → ℝ} {j : Fin b} (hf : ∀ i, f i j θ = f i j θ') (hw : ∀ i, w i j θ = w i j θ') :
    estimateMc f w j θ = estimateMc f w j θ' := by
  unfold estimateMc
  simp only [hf, hw]

variable [Fintype ι]

/-- nvo_avo varies only with lv. -/
theorem avo_agree (ψ : ((ι → ℝ) → D) → (ι → ℝ) → D) (M : AnnealModel 𝔾) (k : Nat) (o : Out 𝔾) (ho : StepSeen (L := 𝔾) ψ M z k o) (l : Red b (ι → ℝ)) (hl : nvoAvo o = .ok l)
    {θ θ' : ι → ℝ} (h : ∀ i j, (AnnealModel.incrementTo (L := 𝔾) ψ M z k : Ten n b (ι → ℝ)) i j θ = (AnnealModel.incrementTo (L := 𝔾) ψ M z k : Ten n b (ι → ℝ)) i j θ') (j : Fin b) :
    l j θ = l j θ' := by
  obtain ⟨-, px, prop, targ, hp, hlv, -⟩ := ho
  obtain ⟨l', e1, e2⟩ := C38_avo o px hp _ hlv
  rw [e1] at hl
  cases hl
  rw [e2, e2]
  simp only [h]

/-- nvo_rkl varies only with lv, the log probability of the proposal's variable, and the target's density at the detached value. -/
theorem rkl_agree (ψ : ((ι → ℝ) → D) → (ι → ℝ) → D) (M : AnnealModel 𝔾) (k : Nat) (o : Out 𝔾) (ho : StepSeen (L := 𝔾) ψ M z k o) (l : Red b (ι → ℝ)) (hl : nvoRkl o = .ok l)
    {θ θ' : ι → ℝ} (h : ∀ i j, (AnnealModel.incrementTo (L := 𝔾) ψ M z k : Ten n b (ι → ℝ)) i j θ = (AnnealModel.incrementTo (L := 𝔾) ψ M z k : Ten n b (ι → ℝ)) i j θ')
    (hd : ∀ i j, (M.density k (AnnealModel.point (L := 𝔾) z k) : Ten n b (ι → ℝ)) i j θ = (M.density k (AnnealModel.point (L := 𝔾) z k) : Ten n b (ι → ℝ)) i j θ')
    (hg : ∀ i j, (M.g k (fun _ => z (k + 1) θ₀) : Ten n b (ι → ℝ)) i j θ = (M.g k (fun _ => z (k + 1) θ₀) : Ten n b (ι → ℝ)) i j θ') (j : Fin b) :
    l j θ = l j θ' := by
  obtain ⟨hix, px, prop, targ, hp, hlv, -, hpr, hpl, htg, hk, hv⟩ := ho
  obtain ⟨r, lv, z2, e1, e2, -, e3, rfl⟩ := nvoRkl_ok hl
  obtain ⟨px', ix, f1, f2, f3, f4, f5, f6, -, -⟩ := readRkl_ok e1
  rw [hp] at f1
  cases f1
  rw [hix] at f2
  cases f2
  rw [f4, hlv] at e2
  cases e2
  have f5' : px.proposalTrace.get? (AnnealModel.name k) = some r.proposal := f5
  have f6' : px.targetTrace.get? (AnnealModel.name (k + 1)) = some r.target := f6
  rw [hpr] at f5'
  rw [htg] at f6'
  have hrp : r.proposal = prop := (Option.some.inj f5').symm
  have hrt : r.target = targ := (Option.some.inj f6').symm
  have hlw : ∀ i, r.lw i j θ = r.lw i j θ' := fun i => by rw [f3]; rfl
  have hprop : ∀ i, r.proposal.logProb i j θ = r.proposal.logProb i j θ' := fun i => by rw [hrp, hpl]; exact hd i j
  have hz1 : gradZ1 r.lw r.proposal j θ = gradZ1 r.lw r.proposal j θ' := by
    unfold gradZ1
    split
    · rfl
    · exact estimateMc_agree hprop hlw
  have hz2 : z2 j θ = z2 j θ' := by
    rw [hrt] at e3
    simp only [gradZ2, isProper, evalNrep, hk] at e3
    cases e3
    refine estimateMc_agree (fun i => ?_) (fun i => ?_)
    · rw [hv]
      exact hg i j
    · show r.lw i j θ + _ = r.lw i j θ' + _
      rw [hlw]
      rfl
  have hbase : ∀ f : Ten n b (ι → ℝ), estimateMc (detachT θ₀ f) r.lw j θ = estimateMc (detachT θ₀ f) r.lw j θ' := fun f =>
    estimateMc_agree (fun _ => rfl) hlw
  unfold rklLoss
  show estimateMc _ _ j θ + (z2 j θ - _) + _ = estimateMc _ _ j θ' + (z2 j θ' - _) + _
  rw [hbase, hz2]
  congr 2
  refine estimateMc_agree (fun i => ?_) hlw
  show (-(_ - logMeanExp θ₀ _ j θ) - estimateMc (detachT θ₀ _) r.lw j θ) * Real.exp ((r.proposal.logProb i j θ - gradZ1 r.lw r.proposal j θ) - _) =
    (-(_ - logMeanExp θ₀ _ j θ') - estimateMc (detachT θ₀ _) r.lw j θ') * Real.exp ((r.proposal.logProb i j θ' - gradZ1 r.lw r.proposal j θ') - _)
  rw [hbase, hprop, hz1, h]
  rfl

/-- vsmc with a loss function and the transformation of the proposal's trace: what the steps' losses are. -/
theorem vsmc_to {L : Lang} (fresh : ObjId) (M : AnnealModel L) (ids : AnnealIds) (hid : ids.Below fresh) (lossFn : Out L → Except Err L.Lo) (hl : LossOk lossFn)
    (transf : Option (Trace L → Kw L → Except Err (Trace L))) (ψ : L.D → L.D) (ht : ∀ k, TransfTo ψ k (gname k) (gname (k + 1)) transf) (K : Nat) :
    ∃ nd : Node L, vsmc fresh (M.initial ids :: (List.range K).map (M.target ids)) ((List.range K).map (M.forward ids)) ((List.range K).map (M.reverse ids)) lossFn transf none = .ok nd ∧
      ∀ (c : PyVal L) (kw : Kw L) (w : World L), KwOk kw → (∀ j, w.cond j = none) →
        ∃ O : (Nat → L.V) → Out L, eval nd c kw w = (M.chain K).bind (fun z => .ret (.ok (O z), w)) ∧ ∀ z, LossTo ψ lossFn M z K (O z).loss := by
  obtain ⟨nd, h1, h2⟩ := chain_to fresh ((List.range K).map (M.forward ids)).length M ids hid lossFn hl transf ψ ht K
  refine ⟨nd, ?_, ?_⟩
  · simp only [vsmc]
    rw [zip3_range]
    exact h1
  · intro c kw w hk hw
    obtain ⟨O, e1, e2⟩ := h2 c kw w hk hw
    refine ⟨O, e1, fun z => ?_⟩
    obtain ⟨ra, -, -, -, -, -, -, r⟩ := e2 z
    exact r

/-- C96. vsmc with nvo_avo (and no transformation of the trace, as vsmc chooses): whatever the parameters of the targets and kernels are, the loss is a sum of one term for each step, nvo_avo on
the outcome of that step, and the term of step k is the same for any parameters that agree on those of its forward and reverse kernel and of the two targets next to it. In particular its
gradient does not reach the kernels of the steps before it, although their draws are its input. -/
theorem C96_avo (fresh : ObjId) (hU : P.Uses I G F R) (ids : AnnealIds) (hid : ids.Below fresh) (K : Nat) :
    let M := P.toModel θ₀ lp rep0 rep rep' cls0 cls
    ∃ nd : Node 𝔾, vsmc fresh (M.initial ids :: (List.range K).map (M.target ids)) ((List.range K).map (M.forward ids)) ((List.range K).map (M.reverse ids)) nvoAvo none none = .ok nd ∧
      ∀ (c : PyVal 𝔾) (kw : Kw 𝔾) (w : World 𝔾), KwOk kw → (∀ j, w.cond j = none) →
        ∃ O : (Nat → (ι → ℝ) → X) → Out 𝔾, eval nd c kw w = (M.chain K).bind (fun z => .ret (.ok (O z), w)) ∧
          ∀ z, P.Drawn θ₀ rep0 rep z → LocalLoss id nvoAvo M z K (fun k => startsFrom I G k ∪ F k ∪ R k ∪ G k) (O z).loss := by
  intro M
  obtain ⟨nd, h1, h2⟩ := vsmc_to fresh M ids hid nvoAvo C59_avo_returns none id (fun k => TransfTo_none k _ _) K
  refine ⟨nd, h1, fun c kw w hk hw => ?_⟩
  obtain ⟨O, e1, e2⟩ := h2 c kw w hk hw
  refine ⟨O, e1, fun z hz => ?_⟩
  obtain ⟨ls, l1, l2⟩ := e2 z
  refine ⟨ls, l1, fun k hk => ⟨l2 k hk, fun θ θ' h j => ?_⟩⟩
  obtain ⟨o, ho, hl⟩ := l2 k hk
  have hs : SameOn (startsFrom I G k) θ θ' := h.mono fun i hi => .inl (.inl (.inl hi))
  have hf : SameOn (F k) θ θ' := h.mono fun i hi => .inl (.inl (.inr hi))
  have hr : SameOn (R k) θ θ' := h.mono fun i hi => .inl (.inr hi)
  have hg : SameOn (G k) θ θ' := h.mono fun i hi => .inr hi
  exact avo_agree id M k o ho _ hl (fun i j => increment_agree hU hz k id hs hr hg (drawn_agree (lp := lp) hz k (forward_agree hU hz k hs hf)) (forward_agree hU hz k hs hf) i j) j

omit [Fintype ι] in
/-- stl_trace as vsmc applies it: the parameters of the forward kernel's distribution are detached, and its check that the log probability keeps its value succeeds. -/
theorem stl_to (weq : Ten n b (ι → ℝ) → Ten n b (ι → ℝ) → Bool) (hw : ∀ x y : Ten n b (ι → ℝ), (∀ i j, x i j θ₀ = y i j θ₀) → weq x y = true) (k : Nat) :
    TransfTo (L := 𝔾) (fun d _ => d θ₀) k (gname k) (gname (k + 1)) (some (stlTrace (L := 𝔾) (fun d _ => d θ₀) weq)) :=
  TransfTo_stl (L := 𝔾) (fun d _ => d θ₀) weq (fun _ _ => hw _ _ fun _ _ => rfl) k

/-- C96. The same for vsmc with nvo_rkl and stl_trace (as vsmc chooses), for at least one particle. -/
theorem C96_rkl (fresh : ObjId) (hn : n ≠ 0) (hU : P.Uses I G F R) (ids : AnnealIds) (hid : ids.Below fresh) (K : Nat)
    (weq : Ten n b (ι → ℝ) → Ten n b (ι → ℝ) → Bool) (hw : ∀ x y : Ten n b (ι → ℝ), (∀ i j, x i j θ₀ = y i j θ₀) → weq x y = true) :
    let M := P.toModel θ₀ lp rep0 rep rep' cls0 cls
    ∃ nd : Node 𝔾, vsmc fresh (M.initial ids :: (List.range K).map (M.target ids)) ((List.range K).map (M.forward ids)) ((List.range K).map (M.reverse ids)) nvoRkl
        (some (stlTrace (L := 𝔾) (fun d _ => d θ₀) weq)) none = .ok nd ∧
      ∀ (c : PyVal 𝔾) (kw : Kw 𝔾) (w : World 𝔾), KwOk kw → (∀ j, w.cond j = none) →
        ∃ O : (Nat → (ι → ℝ) → X) → Out 𝔾, eval nd c kw w = (M.chain K).bind (fun z => .ret (.ok (O z), w)) ∧
          ∀ z, P.Drawn θ₀ rep0 rep z → LocalLoss (fun d _ => d θ₀) nvoRkl M z K (fun k => startsFrom I G k ∪ F k ∪ R k ∪ G k) (O z).loss ∧
            (rep = false → LocalLoss (fun d _ => d θ₀) nvoRkl M z K (fun k => startsFrom I G k ∪ R k ∪ G k) (O z).loss) := by
  intro M
  obtain ⟨nd, h1, h2⟩ := vsmc_to fresh M ids hid nvoRkl (C59_rkl_returns hn) (some (stlTrace (L := 𝔾) (fun d _ => d θ₀) weq)) (fun d _ => d θ₀) (fun k => stl_to weq hw k) K
  refine ⟨nd, h1, fun c kw w hk hw => ?_⟩
  obtain ⟨O, e1, e2⟩ := h2 c kw w hk hw
  refine ⟨O, e1, fun z hz => ?_⟩
  obtain ⟨ls, l1, l2⟩ := e2 z
  have key : ∀ k < K, ∀ θ θ', SameOn (startsFrom I G k) θ θ' → SameOn (R k) θ θ' → SameOn (G k) θ θ' → z (k + 1) θ = z (k + 1) θ' → ∀ j, ls k j θ = ls k j θ' := by
    intro k hk θ θ' hs hr hg hv j
    obtain ⟨o, ho, hl⟩ := l2 k hk
    refine rkl_agree (fun d _ => d θ₀) M k o ho _ hl (fun i j => increment_agree hU hz k (fun d _ => d θ₀) hs hr hg hv rfl i j) (fun i j => density_agree hU hz k hs i j) (fun i j => ?_) j
    show P.g k θ (z (k + 1) θ₀) i j = P.g k θ' (z (k + 1) θ₀) i j
    rw [hU.g k _ _ hg]
  refine ⟨⟨ls, l1, fun k hk => ⟨l2 k hk, fun θ θ' h j => ?_⟩⟩, fun hrep => ⟨ls, l1, fun k hk => ⟨l2 k hk, fun θ θ' h j => ?_⟩⟩⟩
  · have hs : SameOn (startsFrom I G k) θ θ' := h.mono fun i hi => .inl (.inl (.inl hi))
    have hf : SameOn (F k) θ θ' := h.mono fun i hi => .inl (.inl (.inr hi))
    exact key k hk θ θ' hs (h.mono fun i hi => .inl (.inr hi)) (h.mono fun i hi => .inr hi) (drawn_agree (lp := lp) hz k (forward_agree hU hz k hs hf)) j
  · subst hrep
    exact key k hk θ θ' (h.mono fun i hi => .inl (.inl hi)) (h.mono fun i hi => .inl (.inr hi)) (h.mono fun i hi => .inr hi) (drawn_const hz k θ θ') j

omit [Fintype ι] in
/-- C96. In the direction of parameters that only step k uses, the derivative of the whole loss is that of the loss function on step k alone; in the direction of parameters that no step
uses it is zero. -/
theorem C96_gradient (ψ : ((ι → ℝ) → D) → (ι → ℝ) → D) (lossFn : Out 𝔾 → Except Err (Red b (ι → ℝ))) (M : AnnealModel 𝔾) (K : Nat) (S : Nat → Set ι) (l : Red b (ι → ℝ))
    (hl : LocalLoss ψ lossFn M z K S (some l)) (j : Fin b) (v : ι → ℝ) :
    (∀ k < K, (∀ m < K, m ≠ k → ∀ i ∈ S m, v i = 0) → ∃ o lk, StepSeen (L := 𝔾) ψ M z k o ∧ lossFn o = .ok lk ∧ ∀ θ, lineDeriv ℝ (l j) θ v = lineDeriv ℝ (lk j) θ v) ∧
      ((∀ m < K, ∀ i ∈ S m, v i = 0) → ∀ θ, lineDeriv ℝ (l j) θ v = 0) := by
  obtain ⟨ls, h1, h2⟩ := hl
  have hK : K ≠ 0 := by
    rintro rfl
    cases h1
  rw [if_neg hK] at h1
  cases h1
  have hc : ∀ m < K, (∀ i ∈ S m, v i = 0) → ∀ θ (t : ℝ), ls m j (θ + t • v) = ls m j θ := fun m hm h θ t =>
    (h2 m hm).2 _ _ (fun i hi => by simp [h i hi]) j
  have hsum : ∀ θ, (∑ k ∈ Finset.range K, ls k) j θ = ∑ k ∈ Finset.range K, ls k j θ := fun θ => by
    simp only [Finset.sum_apply]
  refine ⟨fun k hk h => ?_, fun h θ => ?_⟩
  · obtain ⟨o, ho, hlo⟩ := (h2 k hk).1
    refine ⟨o, ls k, ho, hlo, fun θ => ?_⟩
    have : (fun t : ℝ => (∑ k ∈ Finset.range K, ls k) j (θ + t • v)) = fun t => ls k j (θ + t • v) + ∑ m ∈ (Finset.range K).erase k, ls m j θ := by
      funext t
      rw [hsum, ← Finset.add_sum_erase _ _ (Finset.mem_range.mpr hk)]
      congr 1
      refine Finset.sum_congr rfl fun m hm => ?_
      rw [Finset.mem_erase, Finset.mem_range] at hm
      exact hc m hm.2 (h m hm.2 hm.1) θ t
    unfold lineDeriv
    rw [this, deriv_add_const]
  · have : (fun t : ℝ => (∑ k ∈ Finset.range K, ls k) j (θ + t • v)) = fun _ => ∑ k ∈ Finset.range K, ls k j θ := by
      funext t
      rw [hsum]
      exact Finset.sum_congr rfl fun m hm => hc m (Finset.mem_range.mp hm) (h m (Finset.mem_range.mp hm)) θ t
    unfold lineDeriv
    rw [this, deriv_const]

end

namespace GradientExample

/-- Two steps; the first parameter shifts the first kernel and the second the second kernel, the last target prefers large values. -/
noncomputable def P : ParamModel 1 1 (Fin 2) ℝ ℝ where
  d0 _ := 0
  g k _ x := fun _ _ => if k = 1 then x else 0
  f k θ x := if k = 0 then θ 0 else x + θ 1
  r _ _ _ := 0

def sq (d x : ℝ) : Fin 1 → Fin 1 → ℝ := fun _ _ => -(x - d) ^ 2

/-- The values drawn when the noise is zero, as vsmc makes them depend on the parameters. -/
noncomputable def z : Nat → (Fin 2 → ℝ) → ℝ
  | 0 => fun _ => 0
  | 1 => fun θ => θ 0
  | k + 2 => fun θ => z (k + 1) 0 + θ 1

/-- The same values when nothing is detached. -/
noncomputable def y : Nat → (Fin 2 → ℝ) → ℝ
  | 0 => fun _ => 0
  | 1 => fun θ => θ 0
  | k + 2 => fun θ => y (k + 1) θ + θ 1

theorem uses : P.Uses ∅ (fun _ => ∅) (fun k => if k = 0 then {0} else {1}) (fun _ => ∅) where
  d0 _ _ _ := rfl
  g _ _ _ _ := rfl
  f k θ θ' h := by
    funext x
    show (if k = 0 then θ 0 else x + θ 1) = if k = 0 then θ' 0 else x + θ' 1
    split
    · rename_i hk
      exact h 0 (by simp [hk])
    · rename_i hk
      rw [h 1 (by simp [hk])]
  r _ _ _ _ := rfl

theorem drawn : P.Drawn 0 false true z where
  first := ⟨0, rfl⟩
  second := ⟨id, rfl⟩
  next _ := ⟨id, rfl⟩

/-- In this model the hypotheses of `C96_avo` and `C96_gradient` hold, with the second parameter used only by the second step. -/
example (fresh : ObjId) (ids : AnnealIds) (hid : ids.Below fresh) (c : PyVal (GradLang 1 1 0 sq)) (kw : Kw (GradLang 1 1 0 sq)) (w : World (GradLang 1 1 0 sq)) (hk : KwOk kw)
    (hw : ∀ j, w.cond j = none) :
    let M := P.toModel 0 sq false true true "" fun _ => ""
    ∃ (nd : Node (GradLang 1 1 0 sq)) (O : (Nat → (Fin 2 → ℝ) → ℝ) → Out (GradLang 1 1 0 sq)) (l : Red 1 (Fin 2 → ℝ)) (o : Out (GradLang 1 1 0 sq)) (l1 : Red 1 (Fin 2 → ℝ)),
      eval nd c kw w = (M.chain 2).bind (fun z => .ret (.ok (O z), w)) ∧ (O z).loss = some l ∧ StepSeen (L := GradLang 1 1 0 sq) id M z 1 o ∧ nvoAvo o = .ok l1 ∧
        ∀ θ, lineDeriv ℝ (l 0) θ (Pi.single 1 1) = lineDeriv ℝ (l1 0) θ (Pi.single 1 1) := by
  intro M
  obtain ⟨nd, h1, h2⟩ := C96_avo (θ₀ := 0) (lp := sq) (rep0 := false) (rep := true) (rep' := true) (cls0 := "") (cls := fun _ => "") fresh uses ids hid 2
  obtain ⟨O, e1, e2⟩ := h2 c kw w hk hw
  have hl := e2 z drawn
  have hl' := hl
  obtain ⟨ls, l1, l2⟩ := hl'
  rw [l1, if_neg (by norm_num)] at hl
  rw [if_neg (by norm_num)] at l1
  obtain ⟨o, lk, ho, hlk, hd⟩ := (C96_gradient id nvoAvo M 2 _ _ hl 0 (Pi.single 1 1)).1 1 (by norm_num) (fun m hm hne i hi => by
    obtain rfl : m = 0 := by omega
    simp [startsFrom] at hi
    simp [hi])
  exact ⟨nd, O, _, o, lk, e1, l1, ho, hlk, hd⟩

end GradientExample

theorem GradientExample.loss (l : Red 1 (Fin 2 → ℝ)) (hl : LossTo (L := GradLang 1 1 0 GradientExample.sq) id nvoAvo (GradientExample.P.toModel 0 GradientExample.sq false true true "" fun _ => "")
    GradientExample.z 2 (some l)) : lineDeriv ℝ (l 0) 0 (Pi.single 0 1) = 0 := by
  obtain ⟨ls, h1, h2⟩ := hl
  rw [if_neg (by norm_num)] at h1
  cases h1
  have hk : ∀ k < 2, ∀ θ, ls k 0 θ = -(AnnealModel.incrementTo (L := GradLang 1 1 0 GradientExample.sq) id (GradientExample.P.toModel 0 GradientExample.sq false true true "" fun _ => "") GradientExample.z k : Ten 1 1 (Fin 2 → ℝ)) 0 0 θ := by
    intro k hk θ
    obtain ⟨o, ⟨-, px, prop, targ, hp, hlv, -⟩, ho⟩ := h2 k hk
    obtain ⟨l', e1, e2⟩ := C38_avo o px hp _ hlv
    rw [e1] at ho
    cases ho
    rw [e2]
    simp
  have key : ∀ θ : Fin 2 → ℝ, (∑ k ∈ Finset.range 2, ls k) 0 θ =
      -(GradientExample.z 2 θ - GradientExample.z 1 0 ^ 2 - (GradientExample.z 2 θ - GradientExample.z 1 0 - θ 1) ^ 2) := by
    intro θ
    simp only [Finset.sum_range_succ, Finset.range_zero, Finset.sum_empty, zero_add]
    show ls 0 0 θ + ls 1 0 θ = _
    rw [hk 0 (by norm_num), hk 1 (by norm_num)]
    simp [AnnealModel.incrementTo, ParamModel.toModel, AnnealModel.density, AnnealModel.point, GradLang, CLang, GradientExample.P, GradientExample.sq, GradientExample.z]
  have : (fun t : ℝ => (∑ k ∈ Finset.range 2, ls k) 0 (0 + t • Pi.single 0 1)) = fun _ => 0 := by
    funext t
    rw [key]
    simp [GradientExample.z]
  unfold lineDeriv
  rw [this, deriv_const]

/-- C96. The gradient is not that of the free energy: there is a model of two steps (one particle, reparameterised draws, nvo_avo) in which the free energy falls with the parameter of the
first kernel at rate 1, while the derivative of the loss in that direction is 0. -/
theorem C96_not_joint : ∃ (P : ParamModel 1 1 (Fin 2) ℝ ℝ) (lp : ℝ → ℝ → Fin 1 → Fin 1 → ℝ) (z y : Nat → (Fin 2 → ℝ) → ℝ), P.Drawn 0 false true z ∧ (∀ k, z k 0 = y k 0) ∧
    (y 0 = fun _ => 0) ∧ (∀ k, y (k + 1) = fun θ => P.f k θ (y k θ)) ∧ lineDeriv ℝ (P.freeEnergy lp y 2 0) 0 (Pi.single 0 1) = -1 ∧
    let M := P.toModel 0 lp false true true "" fun _ => ""
    ∀ (fresh : ObjId) (ids : AnnealIds), ids.Below fresh →
      ∃ nd : Node (GradLang 1 1 0 lp), vsmc fresh (M.initial ids :: (List.range 2).map (M.target ids)) ((List.range 2).map (M.forward ids)) ((List.range 2).map (M.reverse ids)) nvoAvo none none = .ok nd ∧
        ∀ (c : PyVal (GradLang 1 1 0 lp)) (kw : Kw (GradLang 1 1 0 lp)) (w : World (GradLang 1 1 0 lp)), KwOk kw → (∀ j, w.cond j = none) →
          ∃ (O : (Nat → (Fin 2 → ℝ) → ℝ) → Out (GradLang 1 1 0 lp)) (l : Red 1 (Fin 2 → ℝ)), eval nd c kw w = (M.chain 2).bind (fun z => .ret (.ok (O z), w)) ∧ (O z).loss = some l ∧
            lineDeriv ℝ (l 0) 0 (Pi.single 0 1) = 0 := by
  refine ⟨GradientExample.P, GradientExample.sq, GradientExample.z, GradientExample.y, GradientExample.drawn, fun k => ?_, rfl, fun k => ?_, ?_, fun fresh ids hid => ?_⟩
  · have : ∀ k, GradientExample.z k 0 = 0 ∧ GradientExample.y k 0 = 0 := fun k => by
      induction k using Nat.strong_induction_on with
      | _ k ih =>
        match k with
        | 0 => exact ⟨rfl, rfl⟩
        | 1 => exact ⟨rfl, rfl⟩
        | k + 2 =>
          have := ih (k + 1) (by omega)
          simp [GradientExample.z, GradientExample.y, this.1, this.2]
    rw [(this k).1, (this k).2]
  · cases k with
    | zero => rfl
    | succ k => rfl
  · have : (fun t : ℝ => GradientExample.P.freeEnergy GradientExample.sq GradientExample.y 2 0 (0 + t • Pi.single 0 1)) = fun t => -(t - t ^ 2) := by
      funext t
      simp [ParamModel.freeEnergy, GradientExample.P, GradientExample.sq, GradientExample.y, Finset.sum_range_succ]
      ring
    unfold lineDeriv
    rw [this]
    have h : HasDerivAt (fun t : ℝ => -(t - t ^ 2)) (-(1 - 2 * 0)) 0 := by
      have := ((hasDerivAt_id' (0 : ℝ)).sub (hasDerivAt_pow 2 (0 : ℝ))).neg
      exact this.congr_deriv (by norm_num)
    rw [h.deriv]
    norm_num
  · obtain ⟨nd, h1, h2⟩ := vsmc_to fresh (GradientExample.P.toModel 0 GradientExample.sq false true true "" fun _ => "") ids hid nvoAvo C59_avo_returns none id (fun k => TransfTo_none k _ _) 2
    refine ⟨nd, h1, fun c kw w hk hw => ?_⟩
    obtain ⟨O, e1, e2⟩ := h2 c kw w hk hw
    obtain ⟨ls, l1, l2⟩ := e2 GradientExample.z
    exact ⟨O, _, e1, l1, GradientExample.loss _ ⟨ls, rfl, l2⟩⟩

end Verif
