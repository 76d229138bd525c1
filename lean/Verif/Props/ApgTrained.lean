import Mathlib.Analysis.SpecialFunctions.Artanh
import Verif.Spec.ApgTrained
import Verif.Proofs.ApgNets
import Verif.Props.ApgLoss
/-
C98: which networks the losses of the amortized Gibbs sampler train, and on what.
-/
namespace Verif
open Spec Apg Bouncing

namespace Bouncing
variable {fp dp hd hc zd : Nat} {K T n b : Nat}

/-- Stacking the positions of the objects loses nothing that the encoder looks at. -/
theorem coorDist_slices (θ P : Params fp dp hd hc zd) (ms : Img dp) (f : Val K zd T fp) (t : Int) (what : Option (Val K zd T fp)) (zs : List (Val K zd T fp)) :
    (net θ ms K T false).coorDist f t what (slices (net P ms K T false) ((net P ms K T false).stack zs)) = (net θ ms K T false).coorDist f t what zs := by
  have e : ∀ k < K, zAt (slices (net P ms K T false) ((net P ms K T false).stack zs)) k = zAt zs k := by
    intro k hk
    rw [zAt_slices, dif_pos hk]
    rfl
  have e2 : ∀ k : Fin K, frameLeft (frameAt (toVideo f) t) (kernels θ ms what) (zAt (slices (net P ms K T false) ((net P ms K T false).stack zs))) k =
      frameLeft (frameAt (toVideo f) t) (kernels θ ms what) (zAt zs) k := fun k => frameLeft_congr _ _ fun n hn => e n (hn.trans k.2)
  show Dist.pos _ _ = Dist.pos _ _
  simp only [e2]

section
variable {α : Type} [AddCommMonoid α]

theorem sum_with_succ (p : Nat → Prop) [DecidablePred p] (g : Nat → α) (m : Nat) :
    ∑ k ∈ Finset.range (m + 1) with p k, g k = (∑ k ∈ Finset.range m with p k, g k) + if p m then g m else 0 := by
  rw [Finset.sum_filter, Finset.sum_range_succ, ← Finset.sum_filter]

end

variable (ms : Img dp) (f : Fin n → Fin b → Val K zd T fp) (P θ : Params fp dp hd hc zd)

/-- The history with one more step. -/
def extend (h : Nat → Rec n b K zd T fp) (m : Nat) (r : Rec n b K zd T fp) : Nat → Rec n b K zd T fp := fun k => if k ≤ m then h k else r

theorem extend_old (h : Nat → Rec n b K zd T fp) {m k : Nat} (r : Rec n b K zd T fp) (hk : k ≤ m) : extend h m r k = h k := if_pos hk
theorem extend_new (h : Nat → Rec n b K zd T fp) (m : Nat) (r : Rec n b K zd T fp) : extend h m r (m + 1) = r := if_neg (by omega)

theorem decLoss_extend (h : Nat → Rec n b K zd T fp) (m : Nat) (r : Rec n b K zd T fp) :
    decLoss ms f (extend h m r) (m + 1) θ =
      decLoss ms f h m θ + weightedLoss r.w fun i j => pFrames ms θ (f i j) (fun t => r.pos t i j) (r.what i j) := by
  unfold decLoss
  rw [Finset.sum_range_succ, extend_new]
  congr 1
  refine Finset.sum_congr rfl fun k hk => ?_
  rw [extend_old _ _ (by have := Finset.mem_range.mp hk; omega)]

theorem coorLoss_extend (h : Nat → Rec n b K zd T fp) (m : Nat) (r : Rec n b K zd T fp) :
    coorLoss ms f P (extend h m r) (m + 1) θ = coorLoss ms f P h m θ + if m % (T + 1) < T then weightedLoss r.w fun i j =>
      qWhere ms θ P (f i j) (m % (T + 1)) (some (r.what i j)) (r.pos (m % (T + 1)) i j) else 0 := by
  unfold coorLoss
  rw [sum_with_succ, extend_new, extend_old _ _ (Nat.zero_le m), add_assoc]
  congr 2
  refine Finset.sum_congr rfl fun k hk => ?_
  rw [extend_old _ _ (by have := Finset.mem_range.mp (Finset.mem_filter.mp hk).1; omega)]

theorem digitLoss_extend (h : Nat → Rec n b K zd T fp) (m : Nat) (r : Rec n b K zd T fp) :
    digitLoss ms f (extend h m r) (m + 1) θ = digitLoss ms f h m θ + if m % (T + 1) = T then weightedLoss r.w fun i j =>
      qWhat ms θ (f i j) (fun t => r.pos t i j) (r.what i j) else 0 := by
  unfold digitLoss
  rw [sum_with_succ, extend_new, extend_old _ _ (Nat.zero_le m), add_assoc]
  congr 2
  refine Finset.sum_congr rfl fun k hk => ?_
  rw [extend_old _ _ (by have := Finset.mem_range.mp (Finset.mem_filter.mp hk).1; omega)]

theorem priorLoss_extend (h : Nat → Rec n b K zd T fp) (m : Nat) (r : Rec n b K zd T fp) : priorLoss (extend h m r) = priorLoss h := by
  unfold priorLoss
  rw [extend_old _ _ (Nat.zero_le m)]

variable {ms f P θ}

theorem valueAt_some {L : Lang} {t : Trace L} {k : String} {rv : RV L} (h : t.get? k = some rv) : valueAt t k = some rv.value := by
  unfold valueAt; rw [h]; rfl

theorem map_range_lane {X : Type} (val : Nat → Fin n → Fin b → X) (i : Fin n) (j : Fin b) :
    ((List.range T).map val).map (fun v => v i j) = (List.range T).map fun t => val t i j := by rw [List.map_map]; rfl

theorem apgGrad_eq (lw lq : LW (TrainLang n b K T P).W) (lp : (TrainLang n b K T P).W) (lq' lp' : Fin n → Fin b → ℝ) (h1 : ∀ i j, lq.val i j θ = lq' i j) (h2 : ∀ i j, lp i j θ = lp' i j) :
    apgGrad lw lq lp θ = weightedLoss (fun i j => lw.val i j P) lq' + weightedLoss (fun i j => lw.val i j P) lp' := by
  obtain rfl : (fun i j => lq.val i j θ) = lq' := funext fun i => funext fun j => h1 i j
  obtain rfl : (fun i j => lp i j θ) = lp' := funext fun i => funext fun j => h2 i j
  rfl

theorem isGrad_eq (lw lq lp : LW (TrainLang n b K T P).W) (lq' lp' : Fin n → Fin b → ℝ) (h1 : ∀ i j, lq.val i j θ = lq' i j) (h2 : ∀ i j, lp.val i j θ = lp' i j) :
    isGrad lw lq lp θ = weightedLoss (fun i j => lw.val i j P) lq' + weightedLoss (fun i j => lw.val i j P) lp' := by
  obtain rfl : (fun i j => lq.val i j θ) = lq' := funext fun i => funext fun j => h1 i j
  obtain rfl : (fun i j => lp.val i j θ) = lp' := funext fun i => funext fun j => h2 i j
  rfl

theorem grad_recon (val : Nat → Fin n → Fin b → Val K zd T fp) (what : Fin n → Fin b → Val K zd T fp) (i : Fin n) (j : Fin b) :
    (TrainLang n b K T P).logProb ((gradNet n b P ms K T).recon ((List.range T).map val) what) f i j θ = pFrames ms θ (f i j) (fun t => val t i j) (what i j) := by
  show logProb ((net θ ms K T false).recon (((List.range T).map val).map fun v => v i j) (what i j)) (f i j) = _
  rw [map_range_lane]
  rfl

theorem grad_digit (val : Nat → Fin n → Fin b → Val K zd T fp) (what : Fin n → Fin b → Val K zd T fp) (i : Fin n) (j : Fin b) :
    (TrainLang n b K T P).logProb ((gradNet n b P ms K T).digitDist f ((List.range T).map val)) what i j θ = qWhat ms θ (f i j) (fun t => val t i j) (what i j) := by
  show logProb ((net θ ms K T false).digitDist (f i j) (((List.range T).map val).map fun v => v i j)) (what i j) = _
  rw [map_range_lane]
  rfl

theorem grad_coor (t : Nat) (what : Option (Fin n → Fin b → Val K zd T fp)) (zs : List (Fin n → Fin b → Val K zd T fp)) (i : Fin n) (j : Fin b) :
    (TrainLang n b K T P).logProb ((gradNet n b P ms K T).coorDist f t what zs) ((gradNet n b P ms K T).stack zs) i j θ =
      qWhere ms θ P (f i j) t (what.map fun v => v i j) ((gradNet n b P ms K T).stack zs i j) := by
  unfold qWhere
  have e : (gradNet n b P ms K T).stack zs i j = (net P ms K T false).stack (zs.map fun v => v i j) := rfl
  rw [e, coorDist_slices]
  rfl

theorem trained_position {t s m : Nat} (ht : t < T) (hm : m % (T + 1) = t) {out : Out (TrainLang n b K T P)} {l0 : Params fp dp hd hc zd → ℝ}
    (h : ∃ h, l0 = trainedOn ms f P h m) (hl : PositionLoss (gradNet n b P ms K T) T t s f apgGrad l0 out) :
    ∃ h, out.loss = some (trainedOn ms f P h (m + 1)) ∧ Returned (t + 1) s ((s : Int) - 1) (h (m + 1)) out := by
  obtain ⟨h, rfl⟩ := h
  obtain ⟨what, zs, val, hL, hz, hv, e⟩ := hl
  refine ⟨extend h m ⟨fun i j => out.logWeight.val i j P, val, what⟩, ?_, ?_⟩
  · rw [e]
    congr 1
    funext θ
    show apgGrad _ _ _ θ + trainedOn ms f P h m θ = _
    rw [apgGrad_eq _ _ _ (fun i j => qWhere ms θ P (f i j) t (some (what i j)) (val t i j)) _ (fun i j => by rw [hv]; exact grad_coor t (some what) zs i j)
      (fun i j => grad_recon val what i j)]
    unfold trainedOn
    rw [coorLoss_extend, digitLoss_extend, decLoss_extend, priorLoss_extend, if_pos (by omega), if_neg (by omega), hm]
    ring
  · rw [extend_new]
    exact ⟨rfl, fun i hi => valueAt_some (hL.wheres i hi), valueAt_some hL.appearance⟩

theorem trained_appearance {s m : Nat} (hm : m % (T + 1) = T) {out : Out (TrainLang n b K T P)} {l0 : Params fp dp hd hc zd → ℝ}
    (h : ∃ h, l0 = trainedOn ms f P h m) (hl : AppearanceLoss (gradNet n b P ms K T) T s f apgGrad l0 out) :
    ∃ h, out.loss = some (trainedOn ms f P h (m + 1)) ∧ Returned T s s (h (m + 1)) out := by
  obtain ⟨h, rfl⟩ := h
  obtain ⟨what, val, hL, e⟩ := hl
  refine ⟨extend h m ⟨fun i j => out.logWeight.val i j P, val, what⟩, ?_, ?_⟩
  · rw [e]
    congr 1
    funext θ
    show apgGrad _ _ _ θ + trainedOn ms f P h m θ = _
    rw [apgGrad_eq _ _ _ (fun i j => qWhat ms θ (f i j) (fun t => val t i j) (what i j)) _ (fun i j => by exact grad_digit val what i j)
      (fun i j => by exact grad_recon val what i j)]
    unfold trainedOn
    rw [coorLoss_extend, digitLoss_extend, decLoss_extend, priorLoss_extend, if_neg (by omega), if_pos hm]
    ring
  · rw [extend_new]
    exact ⟨rfl, fun i hi => valueAt_some (hL.wheres i hi), valueAt_some hL.appearance⟩

theorem weightedLoss_add (w l l' : Fin n → Fin b → ℝ) : weightedLoss w (fun i j => l i j + l' i j) = weightedLoss w l + weightedLoss w l' := by
  unfold weightedLoss
  rw [← add_div, ← Finset.sum_add_distrib]
  congr 1
  refine Finset.sum_congr rfl fun j _ => ?_
  rw [← Finset.sum_add_distrib]
  exact Finset.sum_congr rfl fun i _ => by ring

theorem list_sum_lane (g : Nat → (TrainLang n b K T P).W) (m : Nat) (i : Fin n) (j : Fin b) (θ : Params fp dp hd hc zd) :
    ((List.range m).map g).sum i j θ = ∑ t ∈ Finset.range m, g t i j θ := by
  induction m with
  | zero => rfl
  | succ m ih =>
    rw [List.range_succ, List.map_append, List.sum_append, Finset.sum_range_succ, ← ih]
    show _ + ([g m].sum) i j θ = _
    rw [List.sum_singleton]

theorem sum_lane {ι : Type} (s : Finset ι) (g : ι → Fin n → Fin b → Params fp dp hd hc zd → ℝ) (i : Fin n) (j : Fin b) (θ : Params fp dp hd hc zd) :
    (∑ k ∈ s, g k) i j θ = ∑ k ∈ s, g k i j θ := by
  simp only [Finset.sum_apply]

theorem trained_start {out : Out (TrainLang n b K T P)} (hl : StartLoss (gradNet n b P ms K T) T f isGrad out) :
    ∃ h, out.loss = some (trainedOn ms f P h 0) ∧ Returned T 0 0 (h 0) out := by
  obtain ⟨zs, what, -, hL, e⟩ := hl
  refine ⟨fun _ => ⟨fun i j => out.logWeight.val i j P, fun t => (gradNet n b P ms K T).stack (zs t), what⟩, ?_, ⟨rfl, fun i hi => valueAt_some (hL.wheres i hi), valueAt_some hL.appearance⟩⟩
  rw [e]
  congr 1
  funext θ
  unfold trainedOn coorLoss digitLoss decLoss priorLoss
  simp only [zero_add, Finset.range_one, Finset.sum_singleton, Finset.range_zero, Finset.filter_empty, Finset.sum_empty, add_zero]
  rw [← weightedLoss_add, add_assoc, ← weightedLoss_add]
  refine isGrad_eq _ _ _ _ _ (fun i j => ?_) fun i j => ?_
  · show startDensity (L := TrainLang n b K T P) (gradNet n b P ms K T) T f zs what i j θ = _
    unfold startDensity
    show ((List.range T).map fun t : Nat => (TrainLang n b K T P).logProb ((gradNet n b P ms K T).coorDist f t none (zs t)) ((gradNet n b P ms K T).stack (zs t))).sum i j θ + _ = _
    rw [list_sum_lane]
    exact congrArg₂ _ (Finset.sum_congr rfl fun t _ => grad_coor t none (zs t) i j) (grad_digit _ what i j)
  · show Apg.joint (L := TrainLang n b K T P) (gradNet n b P ms K T) T T f (fun t => (gradNet n b P ms K T).stack (zs t)) what i j θ = _
    unfold Apg.joint
    show (∑ t ∈ Finset.range T, (TrainLang n b K T P).logProb (prior (gradNet n b P ms K T) T _ t) _) i j θ + _ + _ = _
    rw [sum_lane, add_comm]
    refine congrArg₂ _ (grad_recon _ what i j) (congrArg₂ _ (Finset.sum_congr rfl fun t ht => ?_) rfl)
    unfold prior
    have ht := Finset.mem_range.mp ht
    by_cases h0 : t = 0
    · subst h0; rfl
    · rw [if_neg h0, if_neg h0, min_eq_left (by omega)]
      show logProb ((net θ ms K T false).whereT _) _ = _
      unfold net
      simp only [one_mul]

/-! ### Each part of the loss trains one network -/

variable (ms f P)

theorem qWhere_same {θ θ' : Params fp dp hd hc zd} (h : SameCoor θ θ') (x : Val K zd T fp) (t : Nat) (what : Option (Val K zd T fp)) (z : Val K zd T fp) :
    qWhere ms θ P x t what z = qWhere ms θ' P x t what z := by
  obtain ⟨h1, h2, h3, h4, h5⟩ := h
  have hk : kernels (K := K) (T := T) (θ.withDecoder P) ms what = kernels (θ'.withDecoder P) ms what := by cases what <;> rfl
  have hm : ∀ l (k : Img dp), coorMean (θ.withDecoder P) (l : Img fp) k = coorMean (θ'.withDecoder P) l k := by
    intro l k; unfold coorMean coorHidden Params.withDecoder; rw [h1, h2, h3]
  have hs : ∀ l (k : Img dp), coorStd (θ.withDecoder P) (l : Img fp) k = coorStd (θ'.withDecoder P) l k := by
    intro l k; unfold coorStd coorHidden Params.withDecoder; rw [h1, h4, h5]
  unfold qWhere
  show logProb (.pos _ _) z = logProb (.pos _ _) z
  simp only [hk, hm, hs]

theorem qWhat_same {θ θ' : Params fp dp hd hc zd} (h : SameDigit θ θ') (x : Val K zd T fp) (z : Nat → Val K zd T fp) (w : Val K zd T fp) :
    qWhat ms θ x z w = qWhat ms θ' x z w := by
  obtain ⟨h1, h2, h3, h4⟩ := h
  have e : ∀ (v : Video T fp) p, digitHidden θ v p = digitHidden θ' v p := by intro v p; unfold digitHidden; rw [h1, h2]
  unfold qWhat
  show logProb (.what _ _) w = logProb (.what _ _) w
  simp only [e, h3, h4]

theorem pFrames_same {θ θ' : Params fp dp hd hc zd} (h : SameDec θ θ') (x : Val K zd T fp) (z : Nat → Val K zd T fp) (w : Val K zd T fp) :
    pFrames ms θ x z w = pFrames ms θ' x z w := by
  obtain ⟨h1, h2, h3⟩ := h
  have e : ∀ w, digitMean θ w = digitMean θ' w := by intro w; unfold digitMean; rw [h1, h2, h3]
  unfold pFrames
  show logProb (.video _) x = logProb (.video _) x
  unfold reconProbs
  simp only [e]

end Bouncing

section C98
variable {fp dp hd hc zd : Nat} {K T n b : Nat} (P : Params fp dp hd hc zd) (ms : Img dp)

/-- C98. The position encoder's part of the loss depends on the parameters of the position encoder only: not on the decoder, though the encoder looks for the shapes the
decoder makes. -/
theorem C98_coor (f : Fin n → Fin b → Val K zd T fp) (h : Nat → Rec n b K zd T fp) (m : Nat) {θ θ' : Params fp dp hd hc zd} (e : SameCoor θ θ') :
    coorLoss ms f P h m θ = coorLoss ms f P h m θ' := by
  unfold coorLoss
  simp only [qWhere_same ms P e]

/-- C98. The appearance encoder's part depends on the parameters of the appearance encoder only. -/
theorem C98_digit (f : Fin n → Fin b → Val K zd T fp) (h : Nat → Rec n b K zd T fp) (m : Nat) {θ θ' : Params fp dp hd hc zd} (e : SameDigit θ θ') :
    digitLoss ms f h m θ = digitLoss ms f h m θ' := by
  unfold digitLoss
  simp only [qWhat_same ms e]

/-- C98. The decoder's part depends on the parameters of the decoder only. -/
theorem C98_dec (f : Fin n → Fin b → Val K zd T fp) (h : Nat → Rec n b K zd T fp) (m : Nat) {θ θ' : Params fp dp hd hc zd} (e : SameDec θ θ') :
    decLoss ms f h m θ = decLoss ms f h m θ' := by
  unfold decLoss
  simp only [pFrames_same ms e]

variable (same : (TrainLang n b K T P).V → (TrainLang n b K T P).V → Bool) (hsame : ∀ v, same v v = true)
  (fresh i0 i1 i2 i3 : ObjId) (h1 : i1 ≤ fresh) (h2 : i2 ≤ fresh) (h3 : i3 ≤ fresh) (r : ResamplerFn (TrainLang n b K T P))
  (hr : ∀ sd bd t lw t2 lw2, (r sd bd t lw).Ret (.ok (t2, lw2)) → ∀ k, t2.contains k = t.contains k)
  (hp : ∀ sd bd t lw t2 lw2, (r sd bd t lw).Ret (.ok (t2, lw2)) → ∀ k rv rv2, t.get? k = some rv → t2.get? k = some rv2 → rv2.prov = rv.prov)
  (S : Nat) (hT : 1 ≤ T) (kvs : List (String × PyVal (TrainLang n b K T P))) (frames : (TrainLang n b K T P).V)
  (hf : getL kvs "frames" = some (.tensor frames))

/-- Every result of the node has a loss that trains the networks as it should after `m` steps. -/
def Trains (m : Nat) (p : Node (TrainLang n b K T P)) : Prop :=
  ∀ kw, KwOk kw → ∀ w, (∀ j, w.cond j = none) → w.store.hooks = apgHooks same → ∀ out w',
    (eval p (.dict kvs) kw).Runs w (.ok out) w' → ∃ h, out.loss = some (trainedOn ms frames P h m)

theorem foldlM_one {α β : Type} (g : β → α → Except Err β) (x : β) (a : α) : [a].foldlM g x = g x a := by
  show (g x a >>= fun y => pure y) = _
  cases g x a <;> rfl

theorem mkResample_inj {L : Lang} {fresh : ObjId} {r : ResamplerFn L} {p p' : Node L} (h : mkResample fresh r p none .none false = mkResample fresh r p' none .none false) : p = p' := by
  unfold mkResample at h
  injection h

include hsame h1 h2 h3 hr hp hT hf in
theorem trains_stage (s : Nat) (hs : 1 ≤ s) (hsS : s ≤ S)
    (h0 : ∀ p0, BuiltBefore (gradNet n b P ms K T) fresh i0 i1 i2 i3 isGrad apgGrad r T S s 0 p0 → Trains P ms same kvs frames ((s - 1) * (T + 1)) p0)
    (t : Nat) (ht : t ≤ T) : ∀ p0, BuiltBefore (gradNet n b P ms K T) fresh i0 i1 i2 i3 isGrad apgGrad r T S s t p0 →
      Trains P ms same kvs frames ((s - 1) * (T + 1) + t) p0 := by
  induction t with
  | zero => exact h0
  | succ t ih =>
    rintro p' ⟨q0, q, e0, e1, e2⟩
    obtain ⟨p0, p, ⟨q0', q', e0', e1', e2'⟩, e, h⟩ := position_run (gradNet n b P ms K T) same hsame (fun _ => rfl) fresh i0 i1 i2 i3 h1 h2 h3 isGrad apgGrad r hr hp T S s t
      hT hs hsS kvs frames hf rfl (by omega)
    obtain rfl : q0 = q0' := by rw [e0] at e0'; injection e0'
    obtain rfl : q = q' := by rw [e1] at e1'; injection e1'
    rw [List.range_succ, List.foldlM_append, e2'] at e2
    have e3 : gibbsStep fresh (apgObjs (gradNet n b P ms K T) i0 i1 i2 i3 isGrad apgGrad r) T s (mkResample fresh r p0 none .none false) t =
        .ok (mkResample fresh r p' none .none false) := by
      exact (foldlM_one _ _ _).symm.trans e2
    unfold gibbsStep at e3
    rw [e] at e3
    have e4 : (Except.ok (mkResample fresh r p none .none false) : Except Err (Node (TrainLang n b K T P))) = .ok (mkResample fresh r p' none .none false) := e3
    injection e4 with e4
    obtain rfl := mkResample_inj e4
    intro kw hkw w hc hh out w' hx
    obtain ⟨kw0, o0, w0, t1, lw1, h4, h5, h6, h7, -, h8⟩ := h kw hkw w hc hh out w' hx
    obtain ⟨hist, hl⟩ := ih (by omega) p0 ⟨q0, q, e0, e1, e2'⟩ kw0 h4 w hc hh o0 w0 h5
    rw [hl] at h8
    have hm : ((s - 1) * (T + 1) + t) % (T + 1) = t := by
      rw [Nat.mul_add_mod_of_lt]; omega
    obtain ⟨h', e5, -⟩ := trained_position (by omega) hm ⟨hist, rfl⟩ h8
    exact ⟨h', e5⟩

include hsame h1 h2 h3 hr hp hT hf in
theorem trains_sweep (s : Nat) (hs : 1 ≤ s) (hsS : s ≤ S) :
    ∀ p0, BuiltBefore (gradNet n b P ms K T) fresh i0 i1 i2 i3 isGrad apgGrad r T S s 0 p0 → Trains P ms same kvs frames ((s - 1) * (T + 1)) p0 := by
  induction s, hs using Nat.le_induction with
  | base =>
    rintro p' ⟨q0, q, e0, e1, e2⟩
    have e1 : Except.ok (mkResample fresh r q0 none .none false) = Except.ok (ε := Err) q := e1
    have e2 : Except.ok q = Except.ok (ε := Err) (mkResample fresh r p' none .none false) := e2
    injection e1 with e1
    injection e2 with e2
    subst e1
    obtain rfl := mkResample_inj e2
    intro kw hkw w hc hh out w' hx
    obtain ⟨h, e, -⟩ := trained_start (C66_start (gradNet n b P ms K T) same (fun _ => rfl) fresh i0 i1 i2 i3 isGrad apgGrad r T hT kvs frames hf rfl e0 hkw hc hh hx)
    rw [Nat.sub_self, Nat.zero_mul]
    exact ⟨h, e⟩
  | succ s hs ih =>
    rintro p' ⟨q0, q, e0, e1, e2⟩
    obtain ⟨p0, p, ⟨q0', q', e0', e1', e2'⟩, e, h⟩ := appearance_run (gradNet n b P ms K T) same hsame (fun _ => rfl) fresh i0 i1 i2 i3 h1 h2 h3 isGrad apgGrad r hr hp T S s
      hT hs (by omega) kvs frames hf rfl
    obtain rfl : q0 = q0' := by rw [e0] at e0'; injection e0'
    have e2 : Except.ok q = Except.ok (ε := Err) (mkResample fresh r p' none .none false) := e2
    injection e2 with e2
    subst e2
    have hsplit : List.range' 1 (s + 1 - 1) = List.range' 1 (s - 1) ++ [s] := by
      obtain ⟨k, rfl⟩ : ∃ k, s = k + 1 := ⟨s - 1, by omega⟩
      rw [Nat.add_sub_cancel, Nat.add_sub_cancel, List.range'_1_concat, Nat.add_comm]
    rw [hsplit, List.foldlM_append, e1'] at e1
    have e3 : gibbsSweep fresh (apgObjs (gradNet n b P ms K T) i0 i1 i2 i3 isGrad apgGrad r) T S q' s = .ok (mkResample fresh r p' none .none false) := by
      exact (foldlM_one _ _ _).symm.trans e1
    unfold gibbsSweep at e3
    rw [e2'] at e3
    simp only [bind, Except.bind] at e3
    rw [e] at e3
    simp only [if_pos (show s ≠ S by omega), pure, Except.pure] at e3
    injection e3 with e3
    obtain rfl := mkResample_inj e3
    intro kw hkw w hc hh out w' hx
    obtain ⟨kw0, o0, w0, t1, lw1, h4, h5, h6, h7, -, h8⟩ := h kw hkw w hc hh out w' hx
    obtain ⟨hist, hl⟩ := trains_stage P ms same hsame fresh i0 i1 i2 i3 h1 h2 h3 r hr hp S hT kvs frames hf s hs (by omega) (ih (by omega)) T le_rfl p0 ⟨q0, q', e0, e1', e2'⟩ kw0 h4 w hc hh o0 w0 h5
    rw [hl] at h8
    have hm : ((s - 1) * (T + 1) + T) % (T + 1) = T := by
      rw [Nat.mul_add_mod_of_lt]; omega
    obtain ⟨h', e5, -⟩ := trained_appearance hm ⟨hist, rfl⟩ h8
    refine ⟨h', ?_⟩
    rw [e5]
    congr 2
    obtain ⟨k, rfl⟩ : ∃ k, s = k + 1 := ⟨s - 1, by omega⟩
    simp only [Nat.add_sub_cancel]
    ring

include hsame h1 h2 h3 hr hp hT hf in
/-- C98. The loss of a call of what `gibbs_sweeps` builds, as a function of the parameters being trained, is the sum of a part for the position encoder, a part for the
appearance encoder, a part for the decoder and a number: for any number of sweeps, time steps, objects, particles and batch elements, and any resampler that keeps
addresses and provenances. The last of the steps it sums over is what the call returns. -/
theorem C98_loss : ∃ q, gibbsSweeps fresh (apgObjs (gradNet n b P ms K T) i0 i1 i2 i3 isGrad apgGrad r) S T = .ok q ∧
    ∀ kw, KwOk kw → ∀ w, (∀ j, w.cond j = none) → w.store.hooks = apgHooks same → ∀ out w',
      (eval q (.dict kvs) kw).Runs w (.ok out) w' →
        ∃ h, out.loss = some (trainedOn ms frames P h (S * (T + 1))) ∧ Returned T S S (h (S * (T + 1))) out := by
  rcases Nat.eq_zero_or_pos S with rfl | hS
  · obtain ⟨q0, e0⟩ : ∃ q0, gibbsIs fresh (apgObjs (gradNet n b P ms K T) i0 i1 i2 i3 isGrad apgGrad r) T = .ok q0 := ⟨_, rfl⟩
    refine ⟨q0, ?_, fun kw hkw w hc hh out w' hx => ?_⟩
    · unfold gibbsSweeps
      rw [e0]
      rfl
    · obtain ⟨h, e, hR⟩ := trained_start (C66_start (gradNet n b P ms K T) same (fun _ => rfl) fresh i0 i1 i2 i3 isGrad apgGrad r T hT kvs frames hf rfl e0 hkw hc hh hx)
      rw [Nat.zero_mul]
      exact ⟨h, e, hR⟩
  · obtain ⟨p0, p, ⟨q0, q', e0, e1, e2⟩, e, h⟩ := appearance_run (gradNet n b P ms K T) same hsame (fun _ => rfl) fresh i0 i1 i2 i3 h1 h2 h3 isGrad apgGrad r hr hp T S S
      hT hS le_rfl kvs frames hf rfl
    refine ⟨p, ?_, fun kw hkw w hc hh out w' hx => ?_⟩
    · unfold gibbsSweeps
      rw [e0]
      simp only [bind, Except.bind, if_pos hS]
      have hsplit : List.range' 1 S = List.range' 1 (S - 1) ++ [S] := by
        obtain ⟨k, rfl⟩ : ∃ k, S = k + 1 := ⟨S - 1, by omega⟩
        rw [Nat.add_sub_cancel, List.range'_1_concat, Nat.add_comm]
      rw [hsplit, List.foldlM_append]
      have e1' : (List.range' 1 (S - 1)).foldlM (gibbsSweep fresh (apgObjs (gradNet n b P ms K T) i0 i1 i2 i3 isGrad apgGrad r) T S)
        (mkResample fresh (apgObjs (gradNet n b P ms K T) i0 i1 i2 i3 isGrad apgGrad r).resampler q0 none .none false) = .ok q' := e1
      rw [e1']
      have e3 : gibbsSweep fresh (apgObjs (gradNet n b P ms K T) i0 i1 i2 i3 isGrad apgGrad r) T S q' S = .ok p := by
        unfold gibbsSweep
        rw [e2]
        simp only [bind, Except.bind]
        rw [e]
        simp [pure, Except.pure]
      simp [bind, Except.bind, pure, Except.pure, e3]
    · obtain ⟨kw0, o0, w0, t1, lw1, h4, h5, h6, h7, -, h8⟩ := h kw hkw w hc hh out w' hx
      obtain ⟨hist, hl⟩ := trains_stage P ms same hsame fresh i0 i1 i2 i3 h1 h2 h3 r hr hp S hT kvs frames hf S hS le_rfl
        (trains_sweep P ms same hsame fresh i0 i1 i2 i3 h1 h2 h3 r hr hp S hT kvs frames hf S hS le_rfl) T le_rfl p0 ⟨q0, q', e0, e1, e2⟩ kw0 h4 w hc hh o0 w0 h5
      rw [hl] at h8
      have hm : ((S - 1) * (T + 1) + T) % (T + 1) = T := by
        rw [Nat.mul_add_mod_of_lt]; omega
      obtain ⟨h', e5, hR⟩ := trained_appearance hm ⟨hist, rfl⟩ h8
      have he : (S - 1) * (T + 1) + T + 1 = S * (T + 1) := by
        obtain ⟨k, rfl⟩ : ∃ k, S = k + 1 := ⟨S - 1, by omega⟩
        simp only [Nat.add_sub_cancel]
        ring
      rw [he] at e5 hR
      exact ⟨h', e5, hR⟩

end C98

section gradients
variable {fp dp hd hc zd : Nat} {K T n b : Nat} (ms : Img dp) (f : Fin n → Fin b → Val K zd T fp) (P : Params fp dp hd hc zd)

theorem weightedLoss_deriv (w : Fin n → Fin b → ℝ) (l : ℝ → Fin n → Fin b → ℝ) (d : Fin n → Fin b → ℝ) (x : ℝ) (h : ∀ i j, HasDerivAt (fun x => l x i j) (d i j) x) :
    HasDerivAt (fun x => weightedLoss w (l x)) (weightedLoss w d) x := by
  unfold weightedLoss
  refine HasDerivAt.div_const (HasDerivAt.fun_sum fun j _ => HasDerivAt.fun_sum fun i _ => ?_) _
  exact (h i j).fun_neg.const_mul _

/-- C98. When only the decoder moves, the derivative of the loss is minus the sum over the steps of the mean derivative of the frames' log density, by the weights of the particles:
nothing else, neither the weights nor the encoders, passes a gradient to the decoder. -/
theorem C98_decoder_gradient (h : Nat → Rec n b K zd T fp) (m : Nat) (θ : ℝ → Params fp dp hd hc zd) (x : ℝ) (h1 : ∀ y, SameCoor (θ y) (θ x)) (h2 : ∀ y, SameDigit (θ y) (θ x))
    (d : Nat → Fin n → Fin b → ℝ)
    (hd : ∀ k ≤ m, ∀ i j, HasDerivAt (fun y => pFrames ms (θ y) (f i j) (fun t => (h k).pos t i j) ((h k).what i j)) (d k i j) x) :
    HasDerivAt (fun y => trainedOn ms f P h m (θ y)) (-∑ k ∈ Finset.range (m + 1), (∑ j, ∑ i, softmax (fun i => (h k).w i j) i * d k i j) / b) x := by
  have e : (fun y => trainedOn ms f P h m (θ y)) = fun y => decLoss ms f h m (θ y) + (coorLoss ms f P h m (θ x) + digitLoss ms f h m (θ x) + priorLoss h) := by
    funext y
    unfold trainedOn
    rw [C98_coor P ms f h m (h1 y), C98_digit ms f h m (h2 y)]
    ring
  rw [e]
  refine HasDerivAt.add_const _ ?_
  unfold decLoss
  have := HasDerivAt.fun_sum (u := Finset.range (m + 1)) (fun k hk => weightedLoss_deriv (h k).w (fun y i j => pFrames ms (θ y) (f i j) (fun t => (h k).pos t i j) ((h k).what i j)) (d k) x
    (hd k (by have := Finset.mem_range.mp hk; omega)))
  refine this.congr_deriv ?_
  rw [← Finset.sum_neg_distrib]
  refine Finset.sum_congr rfl fun k _ => ?_
  unfold weightedLoss
  simp only [mul_neg, Finset.sum_neg_distrib, neg_div]

/-- C98. When only the position encoder moves, the derivative of the loss is minus the mean derivative of its log density of the positions drawn: all of them after importance
sampling, then in each position step the new one. -/
theorem C98_coor_gradient (h : Nat → Rec n b K zd T fp) (m : Nat) (θ : ℝ → Params fp dp hd hc zd) (x : ℝ) (h1 : ∀ y, SameDec (θ y) (θ x)) (h2 : ∀ y, SameDigit (θ y) (θ x))
    (d0 : Nat → Fin n → Fin b → ℝ) (d : Nat → Fin n → Fin b → ℝ)
    (hd0 : ∀ t < T, ∀ i j, HasDerivAt (fun y => qWhere ms (θ y) P (f i j) t none ((h 0).pos t i j)) (d0 t i j) x)
    (hd : ∀ k < m, k % (T + 1) < T → ∀ i j, HasDerivAt (fun y => qWhere ms (θ y) P (f i j) (k % (T + 1)) (some ((h (k + 1)).what i j)) ((h (k + 1)).pos (k % (T + 1)) i j)) (d k i j) x) :
    HasDerivAt (fun y => trainedOn ms f P h m (θ y)) (-((∑ j, ∑ i, softmax (fun i => (h 0).w i j) i * ∑ t ∈ Finset.range T, d0 t i j) / b +
      ∑ k ∈ Finset.range m with k % (T + 1) < T, (∑ j, ∑ i, softmax (fun i => (h (k + 1)).w i j) i * d k i j) / b)) x := by
  have e : (fun y => trainedOn ms f P h m (θ y)) = fun y => coorLoss ms f P h m (θ y) + (digitLoss ms f h m (θ x) + decLoss ms f h m (θ x) + priorLoss h) := by
    funext y
    unfold trainedOn
    rw [C98_dec ms f h m (h1 y), C98_digit ms f h m (h2 y)]
    ring
  rw [e]
  refine HasDerivAt.add_const _ ?_
  unfold coorLoss
  have a := weightedLoss_deriv (h 0).w (fun y i j => ∑ t ∈ Finset.range T, qWhere ms (θ y) P (f i j) t none ((h 0).pos t i j)) (fun i j => ∑ t ∈ Finset.range T, d0 t i j) x
    fun i j => HasDerivAt.fun_sum fun t ht => hd0 t (Finset.mem_range.mp ht) i j
  have c := HasDerivAt.fun_sum (u := (Finset.range m).filter fun k => k % (T + 1) < T) (fun k hk => weightedLoss_deriv (h (k + 1)).w
    (fun y i j => qWhere ms (θ y) P (f i j) (k % (T + 1)) (some ((h (k + 1)).what i j)) ((h (k + 1)).pos (k % (T + 1)) i j)) (d k) x
    (hd k (Finset.mem_range.mp (Finset.mem_filter.mp hk).1) (Finset.mem_filter.mp hk).2))
  refine (a.add c).congr_deriv ?_
  rw [neg_add, ← Finset.sum_neg_distrib]
  refine congrArg₂ _ ?_ (Finset.sum_congr rfl fun k _ => ?_) <;>
  · unfold weightedLoss
    simp only [mul_neg, Finset.sum_neg_distrib, neg_div]

/-- C98. When only the appearance encoder moves, the derivative of the loss is minus the mean derivative of its log density of the appearances drawn: after importance sampling and after
each sweep. -/
theorem C98_digit_gradient (h : Nat → Rec n b K zd T fp) (m : Nat) (θ : ℝ → Params fp dp hd hc zd) (x : ℝ) (h1 : ∀ y, SameDec (θ y) (θ x)) (h2 : ∀ y, SameCoor (θ y) (θ x))
    (d0 : Fin n → Fin b → ℝ) (d : Nat → Fin n → Fin b → ℝ)
    (hd0 : ∀ i j, HasDerivAt (fun y => qWhat ms (θ y) (f i j) (fun t => (h 0).pos t i j) ((h 0).what i j)) (d0 i j) x)
    (hd : ∀ k < m, k % (T + 1) = T → ∀ i j, HasDerivAt (fun y => qWhat ms (θ y) (f i j) (fun t => (h (k + 1)).pos t i j) ((h (k + 1)).what i j)) (d k i j) x) :
    HasDerivAt (fun y => trainedOn ms f P h m (θ y)) (-((∑ j, ∑ i, softmax (fun i => (h 0).w i j) i * d0 i j) / b +
      ∑ k ∈ Finset.range m with k % (T + 1) = T, (∑ j, ∑ i, softmax (fun i => (h (k + 1)).w i j) i * d k i j) / b)) x := by
  have e : (fun y => trainedOn ms f P h m (θ y)) = fun y => digitLoss ms f h m (θ y) + (coorLoss ms f P h m (θ x) + decLoss ms f h m (θ x) + priorLoss h) := by
    funext y
    unfold trainedOn
    rw [C98_dec ms f h m (h1 y), C98_coor P ms f h m (h2 y)]
    ring
  rw [e]
  refine HasDerivAt.add_const _ ?_
  unfold digitLoss
  have a := weightedLoss_deriv (h 0).w (fun y i j => qWhat ms (θ y) (f i j) (fun t => (h 0).pos t i j) ((h 0).what i j)) d0 x hd0
  have c := HasDerivAt.fun_sum (u := (Finset.range m).filter fun k => k % (T + 1) = T) (fun k hk => weightedLoss_deriv (h (k + 1)).w
    (fun y i j => qWhat ms (θ y) (f i j) (fun t => (h (k + 1)).pos t i j) ((h (k + 1)).what i j)) (d k) x
    (hd k (Finset.mem_range.mp (Finset.mem_filter.mp hk).1) (Finset.mem_filter.mp hk).2))
  refine (a.add c).congr_deriv ?_
  rw [neg_add, ← Finset.sum_neg_distrib]
  refine congrArg₂ _ ?_ (Finset.sum_congr rfl fun k _ => ?_) <;>
  · unfold weightedLoss
    simp only [mul_neg, Finset.sum_neg_distrib, neg_div]

end gradients

section detach

/-- Networks for one object in frames of two by two pixels, shapes of one pixel: the decoder makes a pixel of brightness `sigmoid β`. -/
noncomputable def detachParams (β : ℝ) : Params 2 1 2 2 1 where
  dec1 := ⟨fun _ _ => 0, fun _ => 0⟩
  dec2 := ⟨fun _ _ => 0, fun _ => 0⟩
  dec3 := ⟨fun _ _ => 0, fun _ => β⟩
  coor := ⟨fun _ a => if a = 0 then 1 else 0, fun _ => 0⟩
  mean1 := ⟨fun _ a => if a = 0 then 1 else 0, fun _ => 0⟩
  mean2 := ⟨fun i _ => if i = 0 then 1 else 0, fun _ => 0⟩
  std1 := ⟨fun _ _ => 0, fun _ => 0⟩
  std2 := ⟨fun _ _ => 0, fun _ => 0⟩
  digit1 := ⟨fun _ _ => 0, fun _ => 0⟩
  digit2 := ⟨fun _ _ => 0, fun _ => 0⟩
  whatMean := ⟨fun _ _ => 0, fun _ => 0⟩
  whatStd := ⟨fun _ _ => 0, fun _ => 0⟩

/-- The upper left pixel is on. -/
def detachFrame : Img 2 := fun i j => if i = 0 ∧ j = 0 then 1 else 0

theorem detach_kernel (β : ℝ) (what : Fin 1 → ℝ) : digitMean (detachParams β) what = fun _ _ => sigmoid β := by
  funext i j
  unfold digitMean
  simp [detachParams, Linear.app]

theorem detach_conv (c : ℝ) : conv detachFrame (fun _ _ : Fin 1 => c) = fun i j : Fin 2 => if i = 0 ∧ j = 0 then c else 0 := by
  funext i j
  unfold conv
  fin_cases i <;> fin_cases j <;> simp [pixelAt, detachFrame]

theorem detach_soft (c : ℝ) : softmax (flat (fun i j : Fin 2 => if i = 0 ∧ j = 0 then c else 0)) 0 = Real.exp c / (Real.exp c + 3) := by
  have e : ∀ q : Fin (2 * 2), flat (fun i j : Fin 2 => if i = 0 ∧ j = 0 then c else 0) q = if q = 0 then c else 0 := by
    intro q
    unfold flat
    fin_cases q <;> simp [finProdFinEquiv, Fin.divNat, Fin.modNat]
  unfold softmax
  simp only [e]
  rw [Fin.sum_univ_four]
  simp
  rw [show Real.exp c + 1 + 1 + 1 = Real.exp c + 3 by ring]

theorem detach_hidden (β : ℝ) (c : ℝ) (i : Fin 2) : coorHidden (detachParams β) detachFrame (fun _ _ => c) i = Real.exp c / (Real.exp c + 3) := by
  unfold coorHidden
  rw [detach_conv]
  unfold relu Linear.app
  have : ∑ j : Fin 4, (detachParams β).coor.weight i j * softmax (flat (fun i j : Fin 2 => if i = 0 ∧ j = 0 then c else 0)) j = Real.exp c / (Real.exp c + 3) := by
    rw [← detach_soft c]
    simp [detachParams]
  have h2 : (detachParams β).coor.bias i = 0 := rfl
  rw [h2]
  refine (congrArg (fun y => max (y + 0) 0) this).trans ?_
  rw [add_zero, max_eq_left]
  positivity

theorem detach_mean (β c : ℝ) : coorMean (detachParams β) detachFrame (fun _ _ => c) = fun i => if i = 0 then Real.tanh (Real.exp c / (Real.exp c + 3)) else 0 := by
  have hp : 0 ≤ Real.exp c / (Real.exp c + 3) := by positivity
  funext i
  unfold coorMean
  have h1 : ∀ k : Fin 1, relu ((detachParams β).mean1.app (coorHidden (detachParams β) detachFrame fun _ _ => c)) k = Real.exp c / (Real.exp c + 3) := by
    intro k
    unfold relu Linear.app
    have : ∑ j : Fin 2, (detachParams β).mean1.weight k j * coorHidden (detachParams β) detachFrame (fun _ _ => c) j = Real.exp c / (Real.exp c + 3) := by
      simp only [detach_hidden]
      simp [detachParams]
    refine (congrArg (fun y => max (y + 0) 0) this).trans ?_
    rw [add_zero, max_eq_left hp]
  unfold Linear.app
  have : ∑ j : Fin 1, (detachParams β).mean2.weight i j * relu ((detachParams β).mean1.app (coorHidden (detachParams β) detachFrame fun _ _ => c)) j = if i = 0 then Real.exp c / (Real.exp c + 3) else 0 := by
    rw [Fin.sum_univ_one, h1]
    simp [detachParams]
  refine (congrArg (fun y => Real.tanh (y + 0)) this).trans ?_
  rw [add_zero]
  split <;> simp

theorem detach_std (β : ℝ) (ker : Img 1) (i : Fin 2) : coorStd (detachParams β) detachFrame ker i = 1 := by
  unfold coorStd
  simp [detachParams, Linear.app]

theorem detach_inj {c c' : ℝ} (h : c ≠ c') : Real.tanh (Real.exp c / (Real.exp c + 3)) ≠ Real.tanh (Real.exp c' / (Real.exp c' + 3)) := by
  intro e
  have e := Real.tanh_injective e
  have h1 := Real.exp_pos c
  have h2 := Real.exp_pos c'
  rw [div_eq_div_iff (by positivity) (by positivity)] at e
  exact h (Real.exp_injective (by linarith))

/-- C98. Without the detaching in `get_conv_kernel` the position encoder's log density would depend on the decoder, and its loss would train the decoder too: two sets of
parameters that differ only in the decoder, and give a position different densities. -/
theorem C98_needs_detach : ∃ (θ θ' : Params 2 1 2 2 1) (ms : Img 1) (f what z : Val 1 1 1 2), SameCoor θ θ' ∧ SameDigit θ θ' ∧
    logProb ((net θ ms 1 1 false).coorDist f 0 (some what) (slices (net θ ms 1 1 false) z)) z ≠
      logProb ((net θ' ms 1 1 false).coorDist f 0 (some what) (slices (net θ' ms 1 1 false) z)) z := by
  have hs : sigmoid 0 ≠ sigmoid (Real.log 2) := by
    unfold sigmoid
    rw [Real.exp_neg, Real.exp_neg, Real.exp_zero, Real.exp_log (by norm_num)]
    norm_num
  have key : ∀ β y, logProb ((net (detachParams β) 0 1 1 false).coorDist (mkVideo fun _ => detachFrame) 0 (some (mkWhat 0)) (slices (net (detachParams β) 0 1 1 false) (mkPos fun _ => y)))
      (mkPos (fun _ => y) : Val 1 1 1 2) = normalLp (Real.tanh (Real.exp (sigmoid β) / (Real.exp (sigmoid β) + 3))) 1 (y 0) + normalLp 0 1 (y 1) := by
    intro β y
    rw [logProb_coor]
    unfold coorLp
    have e1 : ∀ z, frameLeft (frameAt (toVideo (mkVideo (K := 1) (zd := 1) fun _ : Fin 1 => detachFrame)) 0) (kernels (K := 1) (T := 1) (detachParams β) 0 (some (mkWhat 0))) z 0 = detachFrame := fun z => rfl
    have e2 : kernels (K := 1) (T := 1) (detachParams β) 0 (some (mkWhat 0)) 0 = fun _ _ => sigmoid β := detach_kernel β _
    rw [Fin.sum_univ_one, Fin.sum_univ_two]
    simp only [Fin.val_zero, e1, e2, detach_mean, detach_std]
    rfl
  refine ⟨detachParams 0, detachParams (Real.log 2), 0, mkVideo fun _ => detachFrame, mkWhat 0,
    mkPos fun _ i => if i = 0 then Real.tanh (Real.exp (sigmoid 0) / (Real.exp (sigmoid 0) + 3)) else 0, ⟨rfl, rfl, rfl, rfl, rfl⟩, ⟨rfl, rfl, rfl, rfl⟩, ?_⟩
  rw [key, key]
  intro e
  have e := add_right_cancel e
  unfold normalLp at e
  rw [if_pos rfl] at e
  have hne := detach_inj hs
  have h0 : 0 < (Real.tanh (Real.exp (sigmoid 0) / (Real.exp (sigmoid 0) + 3)) - Real.tanh (Real.exp (sigmoid (Real.log 2)) / (Real.exp (sigmoid (Real.log 2)) + 3))) ^ 2 :=
    lt_of_le_of_ne (sq_nonneg _) (Ne.symm (pow_ne_zero 2 (sub_ne_zero.mpr hne)))
  norm_num at e
  linarith

end detach

section run

theorem Comp.exists_Ret {L : Lang} [Nonempty L.V] [Nonempty L.U] {α : Type} : ∀ m : Comp L α, ∃ a, m.Ret a
  | .ret a => ⟨a, rfl⟩
  | .draw _ _ k => by
    obtain ⟨a, h⟩ := Comp.exists_Ret (k (Classical.arbitrary _))
    exact ⟨a, _, h⟩
  | .rand k => by
    obtain ⟨a, h⟩ := Comp.exists_Ret (k (Classical.arbitrary _))
    exact ⟨a, _, h⟩

/-- A call with two sweeps over three frames, two objects, five particles and two batch elements, for any parameters: it has results, and their losses are sums over the eight steps. -/
example (P : Params 6 3 4 4 2) (ms : Img 3) (frames : Fin 5 → Fin 2 → Val 2 2 3 6) : ∃ q out w' h,
    gibbsSweeps 4 (apgObjs (gradNet 5 2 P ms 2 3) 0 1 2 3 isGrad apgGrad fun _ _ t lw => .ret (.ok (t, lw))) 2 3 = .ok q ∧
    (eval q (.dict [("frames", .tensor frames)]) {}).Runs ⟨fun _ => none, ⟨Dict.empty, apgHooks (fun _ _ => true)⟩⟩ (.ok out) w' ∧
    out.loss = some (trainedOn ms frames P h 8) := by
  have hr : ∀ (sd bd : PyVal (TrainLang 5 2 2 3 P)) (t : Trace (TrainLang 5 2 2 3 P)) (lw : LW (TrainLang 5 2 2 3 P).W) t2 lw2, (Comp.ret (.ok (t, lw)) : Comp (TrainLang 5 2 2 3 P) (Except Err _)).Ret (.ok (t2, lw2)) → t = t2 := by
    intro sd bd t lw t2 lw2 h
    simp only [Comp.ret_Ret, Except.ok.injEq, Prod.mk.injEq] at h
    exact h.1
  obtain ⟨q, e, h⟩ := C98_loss P ms (n := 5) (b := 2) (K := 2) (T := 3) (fun _ _ => true) (fun _ => rfl) 4 0 1 2 3 (by decide) (by decide) (by decide) (fun _ _ t lw => .ret (.ok (t, lw)))
    (fun sd bd t lw t2 lw2 h k => by rw [hr sd bd t lw t2 lw2 h])
    (fun sd bd t lw t2 lw2 h k rv rv2 h1 h2 => by rw [hr sd bd t lw t2 lw2 h, h2] at h1; cases h1; rfl) 2 (by decide) [("frames", .tensor frames)] frames rfl
  obtain ⟨q', e', h'⟩ := C41_gibbs (gradNet 5 2 P ms 2 3) (fun _ _ => true) (fun _ => rfl) (fun _ => rfl) 4 0 1 2 3 (by decide) (by decide) (by decide) isGrad apgGrad (fun _ _ t lw => .ret (.ok (t, lw)))
    (fun sd bd t lw t2 lw2 h k => by rw [hr sd bd t lw t2 lw2 h]) 3 2 (by decide) [("frames", .tensor frames)] frames rfl rfl
  obtain rfl : q = q' := by rw [e] at e'; injection e'
  have : Nonempty (TrainLang 5 2 2 3 P).V := ⟨frames⟩
  have : Nonempty (TrainLang 5 2 2 3 P).U := ⟨()⟩
  obtain ⟨⟨x, w'⟩, hx⟩ := Comp.exists_Ret (eval q (.dict [("frames", .tensor frames)]) {} ⟨fun _ => none, ⟨Dict.empty, apgHooks (fun _ _ => true)⟩⟩)
  rcases h' {} (by simp [KwOk]) _ (fun _ => rfl) rfl x w' hx with ⟨e2, sd, bd, t, lw, -, h3⟩ | ⟨out, rfl, -⟩
  · cases h3
  · obtain ⟨hist, h4, -⟩ := h {} (by simp [KwOk]) _ (fun _ => rfl) rfl out w' hx
    exact ⟨q, out, w', hist, e, hx, h4⟩

end run
end Verif
