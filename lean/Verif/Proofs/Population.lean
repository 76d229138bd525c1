import Verif.Proofs.WeightingRun
/-
Proper weighting of populations of particles, with resampling.
-/
namespace Verif
open Spec MeasureTheory
open scoped ENNReal

section
variable {L : Lang}

variable {V D Lo : Type} [Nonempty V] [AddCommMonoid Lo] {lp : D → V → ℝ} [MeasurableSpace V] {μ : Measure V}
local notation "𝕃" => PLang V D Lo lp

/-- Every variable takes part in resampling. -/
def Movable (t : Trace L) : Prop := ∀ k rv, t.get? k = some rv → rv.resamplable = true

theorem Good.movable {l : Lane L lp} {t : Trace L} (h : Good l t) : Movable t := fun k rv hk => (h k rv hk).1

theorem Movable.union {t a b : Trace L} (h : IsUnion t a b) (ha : Movable a) (hb : Movable b) : Movable t := by
  intro k rv hk
  have := Dict.get?_eq_some.1 hk
  rw [h, List.mem_append] at this
  rcases this with h1 | h1
  · exact ha k rv (Dict.get?_eq_some.2 h1)
  · exact hb k rv (Dict.get?_eq_some.2 h1)

/-- No observations. -/
def Latent (t : Trace L) : Prop := ∀ k rv, t.get? k = some rv → rv.prov ≠ .observed

theorem latent_of_env {l : Lane L lp} {t : Trace L} (h : ∀ x ∈ laneEnv l t, x.2.latent = true) : Latent t := by
  intro k rv hk ho
  have := h (k, ⟨l.v rv.value, l.w rv.logProb, rv.prov != .observed⟩) (List.mem_map.2 ⟨(k, rv), Dict.get?_eq_some.1 hk, rfl⟩)
  rw [ho] at this
  cases this

/-- A resampler that moves whole particles, and keeps weighted sums in expectation. -/
structure Unbiased {ι : Type} [Fintype ι] (l : ι → Lane L lp) (E : ∀ {α : Type}, Comp L α → (α → ℝ≥0∞) → ℝ≥0∞) (r : ResamplerFn L) : Prop where
  moves : ∀ sd bd t lw t' lw', (r sd bd t lw).Ret (.ok (t', lw')) → Movable t → Latent t →
    Movable t' ∧ ∃ anc : ι → ι, ∀ i, laneEnv (l i) t' = laneEnv (l (anc i)) t
  law : ∀ sd bd t lw, Movable t → Latent t → (∀ x, (r sd bd t lw).Ret x → ∃ y, x = .ok y) → ∀ G : Env V → ℝ≥0∞,
    E (r sd bd t lw) (fun x => match x with
      | .ok y => ∑ i, dens ((l i).w y.2.val) * G (laneEnv (l i) y.1)
      | .error _ => 0) = ∑ i, dens ((l i).w lw.val) * G (laneEnv (l i) t)

/-- The output of something resampled, from the particle's trace. -/
def outOf (kvs : List (String × PyVal L)) (f : String → PyVal 𝕃) (e : Env V) : PyVal 𝕃 :=
  .dict (kvs.map fun x => (x.1, match e.find? (fun y => y.1 = x.1) with
    | some y => .tensor y.2.value
    | none => f x.1))

theorem find_of_mem {e : Env V} (hn : e.names.Nodup) {k : String} {y : Entry V} (h : (k, y) ∈ e) :
    e.find? (fun y => y.1 = k) = some (k, y) := by
  induction e with
  | nil => simp at h
  | cons x e ih =>
    simp only [Env.names, List.map_cons, List.nodup_cons] at hn
    rcases List.mem_cons.1 h with rfl | h
    · simp [List.find?]
    · have hx : x.1 ≠ k := fun hx => hn.1 (hx ▸ List.mem_map.2 ⟨(k, y), h, rfl⟩)
      rw [List.find?_cons_of_neg (by simpa using hx)]
      exact ih hn.2 h

theorem find_of_not_mem {e : Env V} {k : String} (h : k ∉ e.names) : e.find? (fun y => y.1 = k) = none := by
  rw [List.find?_eq_none]
  intro y hy
  simp only [decide_eq_true_eq]
  rintro rfl
  exact h (List.mem_map.2 ⟨y, hy, rfl⟩)

theorem outOf_before {l : Lane L lp} {t : Trace L} {o : PyVal L} {f : String → PyVal 𝕃} {kvs : List (String × PyVal L)} (ho : o = .dict kvs)
    (h : ∃ kvs, lanePy l o = .dict kvs ∧ ∀ x ∈ kvs, (∃ y, (x.1, y) ∈ laneEnv l t ∧ x.2 = .tensor y.value) ∨
      (x.1 ∉ (laneEnv l t).names ∧ x.2 = f x.1)) : lanePy l o = outOf kvs f (laneEnv l t) := by
  obtain ⟨kvs', h1, h2⟩ := h
  subst ho
  simp only [lanePy, laneKvs_eq, PyVal.dict.injEq] at h1
  subst h1
  simp only [lanePy, outOf]
  congr 1
  rw [laneKvs_eq]
  refine List.map_congr_left fun x hx => ?_
  congr 1
  rcases h2 (x.1, lanePy l x.2) (List.mem_map.2 ⟨x, hx, rfl⟩) with ⟨y, h3, h4⟩ | ⟨h3, h4⟩
  · rw [find_of_mem (by rw [names_laneEnv]; exact t.nodup_keys) h3]
    exact h4
  · rw [find_of_not_mem h3]
    exact h4

theorem outOf_after {l : Lane L lp} {t : Trace L} {c2 : PyVal L} {f : String → PyVal 𝕃} {kvs : List (String × PyVal L)}
    (h : resampleOutput (.dict kvs) t = .ok c2) (hf : ∀ x ∈ kvs, x.1 ∉ t.keys → lanePy l x.2 = f x.1) :
    lanePy l c2 = outOf kvs f (laneEnv l t) := by
  simp only [resampleOutput] at h
  split at h
  · cases h
  · cases h
    simp only [lanePy, outOf]
    congr 1
    rw [laneKvs_eq, List.map_map]
    refine List.map_congr_left fun x hx => ?_
    simp only [Function.comp, Prod.mk.injEq, true_and, resampleEntry]
    rcases Option.eq_none_or_eq_some (t.get? x.1) with hg | ⟨rv, hg⟩
    · have hk : x.1 ∉ t.keys := Dict.get?_eq_none.1 hg
      rw [hg, find_of_not_mem (by rw [names_laneEnv]; exact hk)]
      exact hf x hx hk
    · rw [hg, find_of_mem (e := laneEnv l t) (k := x.1) (y := ⟨l.v rv.value, l.w rv.logProb, rv.prov != .observed⟩)
        (by rw [names_laneEnv]; exact t.nodup_keys) (List.mem_map.2 ⟨(x.1, rv), Dict.get?_eq_some.1 hg, rfl⟩)]
      rfl

/-- What is not in the trace is constant. -/
theorem constants {l : Lane L lp} {t t' : Trace L} {o : PyVal L} {f : String → PyVal 𝕃} {kvs : List (String × PyVal L)} (ho : o = .dict kvs)
    (h : ∃ kvs, lanePy l o = .dict kvs ∧ ∀ x ∈ kvs, (∃ y, (x.1, y) ∈ laneEnv l t ∧ x.2 = .tensor y.value) ∨
      (x.1 ∉ (laneEnv l t).names ∧ x.2 = f x.1)) (ht : t'.keys = t.keys) : ∀ x ∈ kvs, x.1 ∉ t'.keys → lanePy l x.2 = f x.1 := by
  intro x hx hk
  obtain ⟨kvs', h1, h2⟩ := h
  subst ho
  simp only [lanePy, laneKvs_eq, PyVal.dict.injEq] at h1
  subst h1
  rcases h2 (x.1, lanePy l x.2) (List.mem_map.2 ⟨x, hx, rfl⟩) with ⟨y, h3, -⟩ | ⟨-, h3⟩
  · refine (hk ?_).elim
    rw [ht, ← names_laneEnv l]
    exact List.mem_map.2 ⟨_, h3, rfl⟩
  · exact h3

theorem evalP_resample (a : Attrs L) (r : ResamplerFn L) (q : Node L) (cond : Option (Trace L)) (c : PyVal L) (kw : Kw L) :
    evalP (.resample a r q) cond c kw = evalP q none c (subKw a kw) >>= fun qo => resampleRest a r kw qo := by
  rw [← childKw_eq]
  rfl

theorem resampleRest_ok {a : Attrs L} {r : ResamplerFn L} {kw : Kw L} {qo o : Out L} {w w' : World L}
    (h : (resampleRest a r kw qo).Runs w (.ok o) w') :
    ∃ t lw c2, (r kw.sampleDims kw.batchDim qo.trace qo.logWeight).Ret (.ok (t, lw)) ∧ resampleOutput qo.output t = .ok c2 ∧
      o.trace = t ∧ o.logWeight = lw ∧ o.output = c2 := by
  unfold resampleRest at h
  simp only [Exec.Runs_bind_ok, Exec.Runs_lift, Exec.Runs_liftComp, Exec.Runs_onStore, Exec.Runs_pure] at h
  obtain ⟨⟨t, lw⟩, w2, ⟨h2, rfl⟩, c2, w3, ⟨h3, rfl⟩, u, w4, ⟨h4, rfl⟩, o', w5, ⟨h5, rfl⟩, h6, rfl⟩ := h
  have h7 : finish a kw (Out.mk t lw c2 .resample (some (nearest a.ix kw.ix)) none none none []) qo [("q_out", qo)] = .ok o := by
    rw [← foldLoss_finish _ _ _ _ _ rfl, ← pickIx_eq, ← h5]
    exact h6.symm
  obtain ⟨l, -, rfl⟩ := finish_ok h7
  exact ⟨t, lw, c2, h2, h3.symm, rfl, rfl, rfl⟩

section
variable {ι : Type} [Fintype ι] [Nonempty ι] {l : ι → Lane L lp} {E : ∀ {α : Type}, Comp L α → (α → ℝ≥0∞) → ℝ≥0∞}
  {P : ResamplerFn L → Prop}

/-- What resampling makes of the proposal's result. -/
theorem resample_reach (hr : ResamplerFn L) (hP : Unbiased l E hr) {A : Attrs L} {kw : Kw L} {qo o : Out L} {w w' : World L}
    (h1 : ∀ i, (∀ x ∈ laneEnv (l i) qo.trace, x.2.latent = true)) (hmv : Movable qo.trace) {f : String → PyVal 𝕃}
    (h2 : ∀ i, ∃ kvs, lanePy (l i) qo.output = .dict kvs ∧ ∀ x ∈ kvs,
      (∃ y, (x.1, y) ∈ laneEnv (l i) qo.trace ∧ x.2 = .tensor y.value) ∨ (x.1 ∉ (laneEnv (l i) qo.trace).names ∧ x.2 = f x.1))
    (h : (resampleRest A hr kw qo).Runs w (.ok o) w') :
    ∃ kvs, qo.output = .dict kvs ∧ (∀ i, lanePy (l i) qo.output = outOf kvs f (laneEnv (l i) qo.trace)) ∧
      (∀ i, lanePy (l i) o.output = outOf kvs f (laneEnv (l i) o.trace)) ∧ Movable o.trace ∧
      ∃ anc : ι → ι, ∀ i, laneEnv (l i) o.trace = laneEnv (l (anc i)) qo.trace := by
  obtain ⟨t, lw, c2, h3, h4, e1, -, e2⟩ := resampleRest_ok h
  have hlat : Latent qo.trace := latent_of_env (h1 (Classical.arbitrary ι))
  obtain ⟨h5, anc, h6⟩ := hP.moves _ _ _ _ _ _ h3 hmv hlat
  cases hq : qo.output with
  | dict kvs =>
    rw [hq] at h4
    refine ⟨kvs, rfl, fun i => outOf_before rfl (hq ▸ h2 i), fun i => ?_, e1 ▸ h5, anc, fun i => e1 ▸ h6 i⟩
    rw [e2, e1]
    exact outOf_after h4 (constants rfl (hq ▸ h2 i) (by rw [← names_laneEnv (l i), h6 i, names_laneEnv]))
  | _ => rw [hq] at h4; cases h4

theorem pop_reach (hP : ∀ r, P r → Unbiased l E r) {N : Node L} {n : Node 𝕃} (hl : ∀ i, LaneNode (l i) N n) (hN : Resamples P N)
    {c : PyVal L} {kw : Kw L} {c0 : PyVal 𝕃} {kw0 : Kw 𝕃} (hc : ∀ i, lanePy (l i) c = c0) (hkw : ∀ i, laneKw (l i) kw = kw0)
    {w w' : World L} {o : Out L} {Q : Env V → PyVal 𝕃 → Prop} (hn : Fits μ n c0 kw0)
    (hm : alwaysN n false (fun _ => none) c0 kw0 Q) (h : (evalP N none c kw).Runs w (.ok o) w') :
    (∀ i, Q (laneEnv (l i) o.trace) (lanePy (l i) o.output)) ∧ Movable o.trace := by
  let i0 : ι := Classical.arbitrary ι
  induction n generalizing N kw kw0 w w' o Q with
  | prog i s =>
    have key : ∀ i, Q (laneEnv (l i) o.trace) (lanePy (l i) o.output) ∧ Good (l i) o.trace := fun i => by
      have hn' := hn
      have hm' := hm
      rw [← hc i, ← hkw i] at hn' hm'
      cases N with
      | prog i' S => exact whole_reach (hl i) trivial hn' hm' h
      | _ => exact (hl i).elim
    exact ⟨fun i => (key i).1, (key i0).2.movable⟩
  | compose a q2 q1 ih2 ih1 =>
    cases N with
    | compose A Q2 Q1 =>
      have hix := fun i => (hl i).1
      have hkw' : ∀ i, laneKw (l i) (subKw A kw) = subKw a kw0 := fun i => by rw [subKw_lane (hix i), hkw]
      rw [evalP_compose] at h
      obtain ⟨o1, w1, h1, h⟩ := Exec.Runs_bind_ok.1 h
      obtain ⟨o2, w2, h2, h⟩ := Exec.Runs_bind_ok.1 h
      obtain ⟨h3, -⟩ := Exec.Runs_lift.1 h
      obtain ⟨e1, e2, -⟩ := composeRest_ok h3.symm
      obtain ⟨h4, h6⟩ := ih1 (fun i => (hl i).2.2) hN.2 hkw' hn.1 (alwaysN_and (n := q1) (marg := false) hm hn.2) h1
      have key : ∀ i, Q (laneEnv (l i) o2.trace ++ laneEnv (l i) o1.trace) (lanePy (l i) o2.output) ∧ Good (l i) o2.trace := fun i => by
        obtain ⟨h5, h7, -⟩ := h4 i
        rw [← hkw' i] at h5 h7
        exact whole_reach (hl i).2.1 hN.1 h7 h5 h2
      refine ⟨fun i => ?_, (key i0).2.movable.union e1 h6⟩
      rw [laneEnv_union _ e1, e2]
      exact (key i).1
    | _ => exact (hl i0).elim
  | propose a tr nr p q ihp ihq =>
    cases N with
    | propose A TR nr' P' Q' =>
      have hix := fun i => (hl i).1
      have hkw' : ∀ i, laneKw (l i) (subKw A kw) = subKw a kw0 := fun i => by rw [subKw_lane (hix i), hkw]
      rw [evalP_propose] at h
      obtain ⟨qo, w1, h1, h⟩ := Exec.Runs_bind_ok.1 h
      obtain ⟨po, w2, h2, h⟩ := Exec.Runs_bind_ok.1 h
      obtain ⟨h3, -⟩ := Exec.Runs_lift.1 h
      obtain ⟨hq1, hp, -, hall⟩ := hn
      obtain ⟨h4, -⟩ := ihq (fun i => (hl i).2.2.1) hN.2 hkw' hq1 hall h1
      have hm1 : alwaysN p true (fun _ => none) c0 (subKw a kw0) Q := hm
      have key : ∀ i, Q (laneEnv (l i) o.trace) (lanePy (l i) o.output) ∧ Good (l i) o.trace := fun i => by
        have h5 := (h4 i).2.2
        have hp' := hp
        have hm' := hm1
        rw [← hkw' i, ← hc i] at h5 hp' hm'
        exact propose_reach (hl i).2.1 hp' h5 hm' h2 h3.symm
      exact ⟨fun i => (key i).1, (key i0).2.movable⟩
    | _ => exact (hl i0).elim
  | resample a r q ih =>
    cases N with
    | resample A R Q' =>
      have hix := fun i => (hl i).1
      have hkw' : ∀ i, laneKw (l i) (subKw A kw) = subKw a kw0 := fun i => by rw [subKw_lane (hix i), hkw]
      obtain ⟨hn1, f, hn2⟩ := hn
      rw [evalP_resample] at h
      obtain ⟨qo, w1, h1, h⟩ := Exec.Runs_bind_ok.1 h
      have hm1 : alwaysN q false (fun _ => none) c0 (subKw a kw0) Q := hm
      obtain ⟨h4, h5⟩ := ih (fun i => (hl i).2) hN.2 hkw' hn1 (alwaysN_and hm1 hn2) h1
      obtain ⟨kvs, -, e1, e2, e3, anc, e4⟩ := resample_reach R (hP R hN.1) (fun i => (h4 i).2.1) h5 (fun i => (h4 i).2.2) h
      refine ⟨fun i => ?_, e3⟩
      rw [e2, e4, ← e1]
      exact (h4 (anc i)).1
    | _ => exact (hl i0).elim
  | _ => exact hn.elim

/-- The weighted sum over the particles. -/
noncomputable def total (l : ι → Lane L lp) (h : Env V → PyVal 𝕃 → ℝ≥0∞) (o : Out L) : ℝ≥0∞ :=
  laneSum l (fun _ => h) o

theorem pop_ev [SFinite μ] [Nonempty L.V] (hE : IsLaw μ l E) (hP : ∀ r, P r → Unbiased l E r) {N : Node L} {n : Node 𝕃}
    (hms : MeasNode n) (hl : ∀ i, LaneNode (l i) N n)
    (hN : Resamples P N) {c : PyVal L} {kw : Kw L} {c0 : PyVal 𝕃} {kw0 : Kw 𝕃} (hc : ∀ i, lanePy (l i) c = c0)
    (hkw : ∀ i, laneKw (l i) kw = kw0) {w : World L} (hn : Fits μ n c0 kw0) (hw : NoErr (evalP N none c kw) w)
    {h : Env V → PyVal 𝕃 → ℝ≥0∞} (hh : MeasFun h) :
    E (evalP N none c kw w) (onOk (total l h)) = Fintype.card ι * target μ n false (fun _ => none) c0 kw0 h := by
  let i0 : ι := Classical.arbitrary ι
  have hconst : ∀ x : ℝ≥0∞, ∑ _i : ι, x = Fintype.card ι * x := fun x => by simp
  induction n generalizing N kw kw0 w h with
  | prog i s =>
    cases N with
    | prog i' S =>
      refine (whole_ev hE hms hl trivial hw (fun i => by rw [hc i, hkw i]; exact hn) fun _ => hh).trans ?_
      rw [← hconst]
      exact Finset.sum_congr rfl fun i _ => by beta_reduce; rw [hc i, hkw i]
    | _ => exact (hl i0).elim
  | compose a q2 q1 ih2 ih1 =>
    cases N with
    | compose A Q2 Q1 =>
      have hkw' : ∀ i, laneKw (l i) (subKw A kw) = subKw a kw0 := fun i => by rw [subKw_lane (hl i).1, hkw]
      rw [evalP_compose] at hw ⊢
      refine Eq.trans ?_ (ih1 hms.2 (fun i => (hl i).2.2) hN.2 hkw' hn.1 hw.fst (measFun_compose (μ := μ) hms.1 (subKw a kw0) hh))
      refine hE.onOk_bind _ fun o1 w1 h1 => ?_
      have hw1 := hw.snd h1
      obtain ⟨h2, -⟩ := pop_reach hP (fun i => (hl i).2.2) hN.2 hc hkw' hn.1 hn.2 h1
      refine compose_step hE hw1 ?_
      refine (whole_ev hE hms.1 (fun i => (hl i).2.1) hN.1 hw1.fst (fun i => by rw [hkw' i]; exact (h2 i).1)
        (h := fun i e2 o2 => dens ((l i).w o1.logWeight.val) * h (e2 ++ laneEnv (l i) o1.trace) o2)
        fun i => MeasFun.mul _ fun _ _ e o he ho => hh _ _ _ (he.append (.const _)) ho).trans ?_
      simp only [target_mul _ _ _ _ _ (dens_ne_top _)]
      exact Finset.sum_congr rfl fun i _ => by rw [hkw' i]
    | _ => exact (hl i0).elim
  | propose a tr nr p q ihp ihq =>
    cases N with
    | propose A TR nr' P' Q' =>
      have hkw' : ∀ i, laneKw (l i) (subKw A kw) = subKw a kw0 := fun i => by rw [subKw_lane (hl i).1, hkw]
      obtain ⟨hq1, hp, hs, hall⟩ := hn
      rw [evalP_propose] at hw ⊢
      have ht : target μ (.propose a tr nr p q) false (fun _ => none) c0 kw0 h = target μ p true (fun _ => none) c0 (subKw a kw0) h := rfl
      rw [ht, ← propose_law hms.1 hms.2 hq1 hp hs hh]
      refine Eq.trans ?_ (ihq hms.2 (fun i => (hl i).2.2.1) hN.2 hkw' hq1 hw.fst (measFun_joint (μ := μ) hms.1 _ _ hh))
      refine hE.onOk_bind _ fun qo w1 h1 => ?_
      obtain ⟨h2, -⟩ := pop_reach hP (fun i => (hl i).2.2.1) hN.2 hc hkw' hq1 hall h1
      have hp' : ∀ i, IsTarget μ p (lanePy (l i) c) (laneKw (l i) (subKw A kw)) := fun i => by rw [hkw' i, hc i]; exact hp
      have h3 : ∀ i, Covered p (laneEnv (l i) qo.trace).lat (lanePy (l i) c) (laneKw (l i) (subKw A kw)) :=
        fun i => by rw [hkw' i, hc i]; exact (h2 i).2.1
      have h4 := fun i => (h2 i).2.2
      refine (propose_step hE hms.1 (fun i => (hl i).2.1) (hw.snd h1) (fun i kw' t' => (hl i).2.2.2 _ _ _ (h2 i).1) hp' h3
        (fun i => by rw [hkw' i, hc i]; exact h4 i) fun _ => hh).trans ?_
      exact Finset.sum_congr rfl fun i _ => by beta_reduce; rw [hkw' i, hc i]
    | _ => exact (hl i0).elim
  | resample a r q ih =>
    cases N with
    | resample A R Q' =>
      have hkw' : ∀ i, laneKw (l i) (subKw A kw) = subKw a kw0 := fun i => by rw [subKw_lane (hl i).1, hkw]
      obtain ⟨hn1, f, hn2⟩ := hn
      rw [evalP_resample] at hw ⊢
      refine Eq.trans ?_ (ih hms (fun i => (hl i).2) hN.2 hkw' hn1 hw.fst hh)
      refine hE.onOk_bind _ fun qo w1 h1 => ?_
      obtain ⟨h2, h3⟩ := pop_reach hP (fun i => (hl i).2) hN.2 hc hkw' hn1 hn2 h1
      have hw1 := hw.snd h1
      have hlat : Latent qo.trace := latent_of_env (h2 i0).1
      have hU := hP R hN.1
      -- the result's dict
      obtain ⟨kvs, hkvs⟩ : ∃ kvs, qo.output = .dict kvs := by
        obtain ⟨kvs', h4, -⟩ := (h2 i0).2
        cases hq : qo.output with
        | dict kvs => exact ⟨kvs, rfl⟩
        | _ => rw [hq] at h4; simp [lanePy] at h4
      have hb : ∀ i, lanePy (l i) qo.output = outOf kvs f (laneEnv (l i) qo.trace) := fun i => outOf_before hkvs (h2 i).2
      have hnoerr : ∀ x, (R kw.sampleDims kw.batchDim qo.trace qo.logWeight).Ret x → ∃ y, x = .ok y := by
        intro x hx
        refine hw1.fst x w1 ?_
        exact Exec.Runs_liftComp.2 ⟨hx, rfl⟩
      have hlaw := hU.law kw.sampleDims kw.batchDim qo.trace qo.logWeight h3 hlat hnoerr fun e => h e (outOf kvs f e)
      have e1 : total l h qo = ∑ i, dens ((l i).w qo.logWeight.val) * h (laneEnv (l i) qo.trace) (outOf kvs f (laneEnv (l i) qo.trace)) :=
        Finset.sum_congr rfl fun i _ => by beta_reduce; rw [hb i]
      rw [e1, ← hlaw]
      have hsplit : E (resampleRest A R kw qo w1) (onOk (total l h)) =
          E (Exec.liftComp (R kw.sampleDims kw.batchDim qo.trace qo.logWeight) w1)
            (onOk fun y => ∑ i, dens ((l i).w y.2.val) * h (laneEnv (l i) y.1) (outOf kvs f (laneEnv (l i) y.1))) := by
        unfold resampleRest
        refine hE.onOk_bind _ fun y w2 h4 => ?_
        obtain ⟨t, lw⟩ := y
        obtain ⟨h5, rfl⟩ := Exec.Runs_liftComp.1 h4
        have hw2 := hw1.snd h4
        obtain ⟨c2, hc2⟩ := hw2.fst.lift
        have hf : ∀ i, ∀ x ∈ kvs, x.1 ∉ t.keys → lanePy (l i) x.2 = f x.1 := by
          obtain ⟨-, anc, h6⟩ := hU.moves _ _ _ _ _ _ h5 h3 hlat
          exact fun i => constants hkvs (h2 i).2 (by rw [← names_laneEnv (l i), h6 i, names_laneEnv])
        have hc2' : ∀ i, lanePy (l i) c2 = outOf kvs f (laneEnv (l i) t) := fun i => outOf_after (hkvs ▸ hc2) (hf i)
        refine (hE.onOk_bind (fun _ => ∑ i, dens ((l i).w lw.val) * h (laneEnv (l i) t) (outOf kvs f (laneEnv (l i) t)))
          fun c3 w3 h6 => ?_).trans (by rw [hc2]; exact hE.ret _ _)
        obtain ⟨h7, rfl⟩ := Exec.Runs_lift.1 h6
        rw [hc2] at h7
        cases h7
        have hw3 := hw2.snd h6
        obtain ⟨u, hu⟩ := hw3.fst _ _ (Exec.Runs_onStore.2 ⟨rfl, rfl⟩)
        refine (hE.onOk_bind (fun _ => ∑ i, dens ((l i).w lw.val) * h (laneEnv (l i) t) (outOf kvs f (laneEnv (l i) t)))
          fun u' w4 h8 => ?_).trans ((hE.ret _ _).trans (by simp only [onOk]; rw [hu]))
        have hw4 := hw3.snd h8
        obtain ⟨o', ho'⟩ := hw4.fst.lift
        refine (hE.onOk_bind (fun _ => ∑ i, dens ((l i).w lw.val) * h (laneEnv (l i) t) (outOf kvs f (laneEnv (l i) t)))
          fun o'' w5 h9 => ?_).trans (by rw [ho']; exact hE.ret _ _)
        obtain ⟨h10, -⟩ := Exec.Runs_lift.1 h9
        refine (hE.ret _ _).trans ?_
        have hfin : finish A kw (Out.mk t lw c2 .resample (some (nearest A.ix kw.ix)) none none none []) qo [("q_out", qo)] =
            .ok (if kw.debug || A.debug then o''.setSubs [("q_out", qo)] else o'') := by
          rw [← foldLoss_finish _ _ _ _ _ rfl, ← pickIx_eq, ← h10]
          rfl
        obtain ⟨ls, -, hls⟩ := finish_ok hfin
        simp only [onOk, total, laneSum, laneAgg]
        rw [hls]
        refine Finset.sum_congr rfl fun i _ => ?_
        rw [← hc2']
        rfl
      rw [hsplit]
      show E (Comp.bind _ _) _ = _
      refine (hE.bind _ _ _).trans ?_
      congr 1
      funext x
      refine (hE.ret _ _).trans ?_
      rcases x with e | y <;> rfl
    | _ => exact (hl i0).elim
  | _ => exact hn.elim

end
end
end Verif
