import Verif.Spec.ApgLoss
import Verif.Proofs.ApgLaw
/-
The log weights of the amortized Gibbs sampler between resamplings.
-/
namespace Verif
open Spec Apg
variable {L : Lang} {E : Err → Prop} {N : ApgNet L} {same : L.V → L.V → Bool} {T : Nat}

theorem contains_get? {α : Type} {d : Dict α} {k : String} : d.contains k = true ↔ ∃ v, d.get? k = some v := by
  rw [Dict.contains_iff, Dict.mem_keys_iff]

theorem stage_marked {n : Nat} {s zw : Int} {f : L.V} {out : Out L} {w : World L} (h : Stage N same T n s zw f out w) : Marked out.trace := by
  obtain ⟨val, what, hl⟩ := h.latent
  intro k rv hk
  have hc : out.trace.contains k = true := contains_get?.2 ⟨rv, hk⟩
  rcases (h.addr k).1 hc with rfl | rfl | ⟨i, hi, rfl⟩
  · rw [hl.recon] at hk; cases hk; simp [RV.mk']
  · rw [hl.appearance] at hk; cases hk
    simp only [RV.mk', reduceCtorEq, false_iff]
    exact fun he => (C42_kinds_disjoint 0 0 _).2.2.1 he
  · rw [hl.wheres i hi] at hk; cases hk
    simp only [RV.mk', reduceCtorEq, false_iff]
    exact fun he => (C42_kinds_disjoint _ _ 0).2.1 he

/-- The resampler does not change provenances. -/
def KeepsProv (r : ResamplerFn L) : Prop := ∀ sd bd t lw t2 lw2, (r sd bd t lw).Ret (.ok (t2, lw2)) → ∀ k rv rv2, t.get? k = some rv →
  t2.get? k = some rv2 → rv2.prov = rv.prov

theorem run_resample (hsame : ∀ v, same v v = true) {r : ResamplerFn L} {K : PyVal L → PyVal L → Prop} (hr : Resamples E K r)
    {n : Nat} {s zw : Int} {f : L.V} {a : Attrs L} {q : Node L} {c : PyVal L} {kw : Kw L} (hK : K kw.sampleDims kw.batchDim) {w : World L} (hl : a.lossFn = idLoss)
    (hq : (eval q c (childKw a kw)).Safe E w (Stage N same T n s zw f)) {o1 : Out L} {w1 : World L}
    (h : (eval (.resample a r q) c kw).Runs w (.ok o1) w1) :
    Ready N same T n s zw f o1 w1 ∧ ∃ o0 w0, (eval q c (childKw a kw)).Runs w (.ok o0) w0 ∧ Stage N same T n s zw f o0 w0 ∧
      (r kw.sampleDims kw.batchDim o0.trace o0.logWeight).Ret (.ok (o1.trace, o1.logWeight)) ∧ (KeepsProv r → Marked o1.trace) ∧
      o1.loss = some (o0.loss.getD a.loss0) := by
  rw [eval_resampleTail, ← Exec.bind_eq, Exec.Runs_bind_ok] at h
  obtain ⟨o0, w0, h0, h⟩ := h
  have hS := hq.result h0
  rw [← Exec.bind_eq, Exec.Runs_bind_ok] at h
  obtain ⟨⟨t2, lw2⟩, w2, h2, h3⟩ := h
  rw [Exec.Runs_liftComp] at h2
  obtain ⟨h2, rfl⟩ := h2
  rcases hr _ _ _ _ _ hK (stage_fit hS) h2 with ⟨e, he, -⟩ | ⟨t2', lw2', he, hk⟩
  · cases he
  cases he
  have h4 := (done_resampleTail (a := a) (kw := kw) hsame hl hS lw2 hk).safe (E := fun _ => False)
  obtain ⟨h5, h6, h7, h8⟩ := h4.result h3
  refine ⟨h5, o0, w2, h0, hS, by rw [h6, h7]; exact h2, fun hp k rv2 hrv => ?_, h8⟩
  have hc : o0.trace.contains k = true := by
    rw [← hk, ← h6]; exact contains_get?.2 ⟨rv2, hrv⟩
  obtain ⟨rv, hrv0⟩ := contains_get?.1 hc
  rw [hp _ _ _ _ _ _ h2 k rv rv2 hrv0 (by rw [← h6]; exact hrv)]
  exact stage_marked hS k rv hrv0

section whole
variable {i0 i1 i2 i3 fresh : ObjId} {fl : LW L.W → LW L.W → LW L.W → L.Lo} {gl : LW L.W → LW L.W → L.W → L.Lo} {r : ResamplerFn L}
  {kvs : List (String × PyVal L)} {f : L.V}
  {K : PyVal L → PyVal L → Prop} (hd : ∀ v, N.timesteps (L.detachV v) = N.timesteps v) (hsame : ∀ v, same v v = true)
  (hr : Resamples E K r) (hp : KeepsProv r)
  (hf : item (.dict kvs) "frames" = .ok f) (hT : N.timesteps f = T) (h1 : i1 ≤ fresh) (h2 : i2 ≤ fresh) (h3 : i3 ≤ fresh)

include hd hsame hr hp hf hT h1 h3 in
theorem coor_increment {q : Node L} {n t s : Nat} {s0 : Int} (ht : t < T) (hs : 0 < s)
    (hn : ∀ o w, Ready N same T n s0 ((s : Int) - 1) f o w → Ready N same T t s ((s : Int) - 1) f o w)
    (hq : ∀ kw, KwOn K kw → ∀ w, Calm same w → (eval q (.dict kvs) kw).Safe E w (Stage N same T n s0 ((s : Int) - 1) f)) {p : Node L}
    (he : gibbsPropose fresh (apgObjs N i0 i1 i2 i3 fl gl r) T (apgObjs N i0 i1 i2 i3 fl gl r).coor t s
      (mkResample fresh r q none .none false) = .ok p) {kw : Kw L} (hkw : KwOn K kw) {w w' : World L} (hw : Calm same w) {out : Out L}
    (hx : (eval p (.dict kvs) kw).Runs w (.ok out) w') :
    ∃ kw0 o0 w0 t1 lw1, KwOk kw0 ∧ (eval q (.dict kvs) kw0).Runs w (.ok o0) w0 ∧ Stage N same T n s0 ((s : Int) - 1) f o0 w0 ∧
      (r kw.sampleDims kw.batchDim o0.trace o0.logWeight).Ret (.ok (t1, lw1)) ∧ PositionStep N T t s f t1 lw1 out ∧
      PositionLoss N T t s f gl (o0.loss.getD 0) out := by
  rw [gibbsPropose_eq] at he
  cases he
  rw [eval_afterFirst, ← Exec.bind_eq, Exec.Runs_bind_ok] at hx
  obtain ⟨o1, w1, hx1, hx⟩ := hx
  obtain ⟨hR, o0, w0, hx0, hS, hret, hM, hls⟩ := run_resample hsame hr (by exact hkw.2) rfl (hq _ (by exact hkw) w hw) hx1
  obtain ⟨what, hwhat, h⟩ := draws_coorStep (fresh := fresh) (gl := gl) (q := mkResample fresh r q none .none false) hd hf hT h1 h3 ht hs hkw.1
    (hn _ _ hR)
  obtain ⟨F, h4, h5⟩ := h
  unfold Exec.Runs at hx
  have h4' := h4
  unfold mkResample at h4'
  rw [show (apgObjs N i0 i1 i2 i3 fl gl r).coor = .prog i1 (encCoorProg N) from rfl] at hx
  erw [h4', Comp.bind_Ret] at hx
  obtain ⟨zs, hzs, hx⟩ := hx
  simp only [Comp.ret_Ret, Prod.mk.injEq, Except.ok.injEq] at hx
  obtain ⟨-, val, z, h6, h7, h8, h9⟩ := h5 zs
  rw [hx.1] at h6 h8 h9
  have hlen : zs.length = N.objects := by
    have := coorDraws_length _ _ hzs
    simpa using this
  have hvt : val t = N.stack zs := by
    have hv := h8.values (zWhereName t s) (Or.inr (Or.inr ⟨t, ht, (whereAt_lt (by omega)).symm⟩)) (fun he => (C42_kinds_disjoint _ _ 0).2.1 he)
    have h9 := h6.wheres t ht
    rw [whereAt_lt (by omega)] at h9
    rw [if_pos rfl, valueAt, h9] at hv
    exact Option.some.inj hv
  refine ⟨_, o0, w0, _, _, ?_, hx0, hS, hret, ⟨what, z, zs, val, hwhat, h7, hlen, fun i hi hit => ?_, hvt, h6, ?_, h8.recorded⟩,
    what, zs, val, h6, hlen, hvt, by rw [h9, hls, hvt]; rfl⟩
  · exact hkw.1
  · have hv := h8.values (whereAt (t + 1) s i) (Or.inr (Or.inr ⟨i, hi, rfl⟩)) (fun he => (C42_kinds_disjoint _ _ 0).2.1 he)
    rw [if_neg (fun he => hit (by have := ((C42_z_where_injective _ _ _ _).1 he).1; omega))] at hv
    rw [show zWhereName i (if i < t then (s : Int) else (s : Int) - 1) = whereAt (t + 1) s i from by
      unfold whereAt
      congr 1
      by_cases h : i < t
      · rw [if_pos h, if_pos (by omega)]
      · rw [if_neg h, if_neg (by omega)], ← hv, valueAt, h6.wheres i hi]
    rfl
  · rw [h8.weight (hM hp), h6.total]

include hd hsame hr hp hf hT h2 h3 in
theorem digit_increment {q : Node L} {n s : Nat} {s0 : Int} (hpos : 0 < T) (hs : 0 < s)
    (hn : ∀ o w, Ready N same T n s0 ((s : Int) - 1) f o w → Ready N same T T s ((s : Int) - 1) f o w)
    (hq : ∀ kw, KwOn K kw → ∀ w, Calm same w → (eval q (.dict kvs) kw).Safe E w (Stage N same T n s0 ((s : Int) - 1) f)) {p : Node L}
    (he : gibbsPropose fresh (apgObjs N i0 i1 i2 i3 fl gl r) T (apgObjs N i0 i1 i2 i3 fl gl r).digit T s
      (mkResample fresh r q none .none false) = .ok p) {kw : Kw L} (hkw : KwOn K kw) {w w' : World L} (hw : Calm same w) {out : Out L}
    (hx : (eval p (.dict kvs) kw).Runs w (.ok out) w') :
    ∃ kw0 o0 w0 t1 lw1, KwOk kw0 ∧ (eval q (.dict kvs) kw0).Runs w (.ok o0) w0 ∧ Stage N same T n s0 ((s : Int) - 1) f o0 w0 ∧
      (r kw.sampleDims kw.batchDim o0.trace o0.logWeight).Ret (.ok (t1, lw1)) ∧ AppearanceStep N T s f t1 lw1 out ∧
      AppearanceLoss N T s f gl (o0.loss.getD 0) out := by
  rw [gibbsPropose_eq] at he
  cases he
  rw [eval_afterFirst, ← Exec.bind_eq, Exec.Runs_bind_ok] at hx
  obtain ⟨o1, w1, hx1, hx⟩ := hx
  obtain ⟨hR, o0, w0, hx0, hS, hret, hM, hls⟩ := run_resample hsame hr (by exact hkw.2) rfl (hq _ (by exact hkw) w hw) hx1
  have hR' := hn _ _ hR
  obtain ⟨F, h4, h5⟩ := draws_digitStep (fresh := fresh) (gl := gl) (q := mkResample fresh r q none .none false) hd hf hT h2 h3 hpos hs hkw.1
    hR'
  unfold Exec.Runs at hx
  have h4' := h4
  unfold mkResample at h4'
  rw [show (apgObjs N i0 i1 i2 i3 fl gl r).digit = .prog i2 (encDigitProg N) from rfl] at hx
  erw [h4', Comp.bind_Ret] at hx
  obtain ⟨z, hz, hx⟩ := hx
  simp only [Comp.ret_Ret, Prod.mk.injEq, Except.ok.injEq] at hx
  obtain ⟨-, old, h6, h7, h8, h9⟩ := h5 z
  rw [hx.1] at h6 h8 h9
  refine ⟨_, o0, w0, _, _, ?_, hx0, hS, hret, ⟨old, z, posOf f o1.trace s, h7, fun i hi => ?_, h6, ?_, h8.recorded⟩,
    z, posOf f o1.trace s, h6, by rw [h9, hls]; rfl⟩
  · exact hkw.1
  · obtain ⟨rv, e1, -⟩ := hR'.wheres i hi
    rw [posOf_eq e1, valueAt, e1]
    rfl
  · rw [h8.weight (hM hp), h6.total]

/-- What the first loop draws. -/
theorem initLaw_ret {m : Nat} {x : (Nat → L.V) × L.W} (h : (initLaw N f m).Ret x) : ∃ zs : Nat → List L.V,
    (∀ i, i < m → (zs i).length = N.objects ∧ x.1 i = N.stack (zs i)) ∧
    x.2 = ((List.range m).map fun t : Nat => L.logProb (N.coorDist f t none (zs t)) (N.stack (zs t))).sum := by
  induction m generalizing x with
  | zero => cases h; exact ⟨fun _ => [], fun i hi => by omega, rfl⟩
  | succ m ih =>
    unfold initLaw at h
    simp only [Comp.bind_Ret, Comp.ret_Ret] at h
    obtain ⟨x0, h0, ys, hy, rfl⟩ := h
    obtain ⟨zs, h1, h2⟩ := ih h0
    have hlen := coorDraws_length _ _ hy
    refine ⟨Function.update zs m ys, fun i hi => ?_, ?_⟩
    · rcases Nat.lt_or_ge i m with h' | h'
      · simp only [Function.update_of_ne (Nat.ne_of_lt h')]
        exact h1 i h'
      · have : i = m := by omega
        subst this
        simp only [Function.update_self]
        exact ⟨by simpa using hlen, trivial⟩
    · rw [List.range_succ, List.map_append, List.sum_append]
      show x0.2 + _ = _
      rw [h2]
      congr 1
      · congr 1
        refine List.map_congr_left fun i hi => ?_
        have : i ≠ m := by have := List.mem_range.1 hi; omega
        simp only [Function.update_of_ne this]
      · simp

include hd hf hT in
theorem start_loss (hpos : 0 < T) {q : Node L} (e : gibbsIs fresh (apgObjs N i0 i1 i2 i3 fl gl r) T = .ok q) {kw : Kw L} (hkw : KwOk kw)
    {w w' : World L} (hw : Calm same w) {out : Out L} (hx : (eval q (.dict kvs) kw).Runs w (.ok out) w') :
    StartLoss N T f fl out ∧ Stage N same T T 0 0 f out w' := by
  unfold gibbsIs mkCompose at e
  cases e
  rw [eval_afterFirst, ← Exec.bind_eq, Exec.Runs_bind_ok] at hx
  obtain ⟨o1, w1, hx1, hx⟩ := hx
  obtain ⟨x, o1', hxr, he, h1, h2, h3⟩ := (like_gibbsInit (fresh := fresh) (fl := fl) (gl := gl) (r := r) (i0 := i0) (i1 := i1) (i2 := i2) (i3 := i3)
    hf hT T (le_refl _) _ ((hkw.sub _).sub _) w hw).runs hx1
  cases he
  obtain ⟨zs, hz1, hz2⟩ := initLaw_ret hxr
  have hp : ∀ i, i < T → posOf f o1.trace 0 i = N.stack (zs i) := fun i hi => by rw [posOf_val (h3 i hi), (hz1 i hi).2]
  have hr : (List.range T).map (posOf f o1.trace 0) = (List.range T).map fun t => N.stack (zs t) :=
    List.map_congr_left fun i hi => hp i (by simpa using hi)
  obtain ⟨F, h4, h5⟩ := draws_isStep (fl := fl) (same := same) (i2 := i2) (i3 := i3) hd hpos hf hT
    (ap := mkAttrs fresh (some (lossIs fl)) none (fwdIx T 0) false) (ac := mkAttrs fresh none none (fwdIx T 0) false)
    (q := gibbsInit fresh (apgObjs N i0 i1 i2 i3 fl gl r) T) rfl rfl rfl rfl (by
    intro out px tot h1
    simp only [mkAttrs, Option.getD_some, lossIs, h1]) hkw h1
  unfold Exec.Runs at hx
  erw [h4, Comp.bind_Ret] at hx
  obtain ⟨z, -, hx⟩ := hx
  simp only [Comp.ret_Ret, Prod.mk.injEq, Except.ok.injEq] at hx
  obtain ⟨h6, h7, -, h8⟩ := h5 z
  rw [hx.1] at h6 h7 h8
  have h9 := h7.congr hp
  rw [hx.2] at h6
  refine ⟨⟨zs, z, fun t ht => (hz1 t ht).1, h9, ?_⟩, h6⟩
  rw [h8, h9.total, h2, hz2, hr]
  show some (_ + o1.loss.getD 0) = _
  rw [h1.loss, add_zero]
  rfl

include hd hsame hr hf hT h1 h2 h3 in
theorem safe_sweep_stage {q : Node L} {S s : Nat} (hpos : 0 < T) (hs : 0 < s)
    (hq : ∀ kw, KwOn K kw → ∀ w, Calm same w → (eval q (.dict kvs) kw).Safe E w (Ready N same T 0 s ((s : Int) - 1) f)) :
    ∃ p, gibbsSweep fresh (apgObjs N i0 i1 i2 i3 fl gl r) T S q s = .ok (if s ≠ S then mkResample fresh r p none .none false else p) ∧
      ∀ kw, KwOn K kw → ∀ w, Calm same w → (eval p (.dict kvs) kw).Safe E w (Stage N same T T s s f) := by
  obtain ⟨q', e, hq'⟩ := safe_steps (i0 := i0) (i2 := i2) (fl := fl) (gl := gl) hd hsame hr hf hT h1 h3 hs hq T (le_refl _)
  obtain ⟨p, e2, hp⟩ := safe_digitStep (i0 := i0) (i1 := i1) (fl := fl) (gl := gl) (r := r) hd hf hT h2 h3 hpos hs hq'
  refine ⟨p, ?_, hp⟩
  unfold gibbsSweep
  simp only [e, e2, bind, Except.bind]
  rfl

include hd hsame hr hf hT h1 h2 h3 in
/-- What the sampler is before the sweep `m + 1`: a Resample of something. -/
theorem resampled_sweeps (hpos : 0 < T) (S m : Nat) (hm : m < S) :
    ∃ q0 p, gibbsIs fresh (apgObjs N i0 i1 i2 i3 fl gl r) T = .ok q0 ∧
      (List.range' 1 m).foldlM (gibbsSweep fresh (apgObjs N i0 i1 i2 i3 fl gl r) T S) (mkResample fresh r q0 none .none false) =
        .ok (mkResample fresh r p none .none false) ∧
      ∀ kw, KwOn K kw → ∀ w, Calm same w → (eval p (.dict kvs) kw).Safe E w (Stage N same T T m m f) := by
  obtain ⟨q0, e0, h0⟩ := safe_sweeps (i0 := i0) (fl := fl) (gl := gl) hd hsame hr hf hT h1 h2 h3 hpos S
  cases m with
  | zero =>
    obtain ⟨q0', e0', h0'⟩ := safe_gibbsIs (E := E) (N := N) (same := same) (i0 := i0) (i1 := i1) (i2 := i2) (i3 := i3) (fresh := fresh)
      (fl := fl) (gl := gl) (r := r) hd hpos hf hT
    exact ⟨q0', q0', e0', rfl, fun kw hkw => h0' kw hkw.1⟩
  | succ m =>
    obtain ⟨q, e, hq, -⟩ := h0 m (by omega)
    rw [if_pos (by omega)] at e
    have hq1 : ∀ kw, KwOn K kw → ∀ w, Calm same w →
        (eval q (.dict kvs) kw).Safe E w (Ready N same T 0 ((m + 1 : Nat) : Int) (((m + 1 : Nat) : Int) - 1) f) := by
      intro kw hkw w hw
      refine (hq (by omega) kw hkw w hw).mono fun o w' h => ?_
      have e1 : ((m + 1 : Nat) : Int) = (m : Int) + 1 := by omega
      rw [e1, Int.add_sub_cancel]
      exact Ready_next h
    obtain ⟨p, e', h'⟩ := safe_sweep_stage (i0 := i0) (fl := fl) (gl := gl) (S := S) hd hsame hr hf hT h1 h2 h3 hpos (Nat.succ_pos m) hq1
    rw [if_pos (by omega)] at e'
    refine ⟨q0, p, e0, ?_, h'⟩
    rw [List.range'_concat, List.foldlM_append, e]
    simp only [bind, Except.bind, List.foldlM_cons, List.foldlM_nil, Nat.one_mul]
    rw [Nat.add_comm 1 m, e']
    rfl

include hd hsame hr hf hT h1 h2 h3 in
/-- What the sampler is before the step of sweep `s` at time `t`: a Resample of something. -/
theorem resampled_steps (hpos : 0 < T) (S s t : Nat) (hs : 0 < s) (hsS : s ≤ S) (ht : t ≤ T) :
    ∃ q0 q p, gibbsIs fresh (apgObjs N i0 i1 i2 i3 fl gl r) T = .ok q0 ∧
      (List.range' 1 (s - 1)).foldlM (gibbsSweep fresh (apgObjs N i0 i1 i2 i3 fl gl r) T S)
        (mkResample fresh r q0 none .none false) = .ok q ∧
      (List.range t).foldlM (gibbsStep fresh (apgObjs N i0 i1 i2 i3 fl gl r) T s) q = .ok (mkResample fresh r p none .none false) ∧
      ∀ kw, KwOn K kw → ∀ w, Calm same w → (eval p (.dict kvs) kw).Safe E w (Before N same T t s f) := by
  have e1 : ((s - 1 : Nat) : Int) = (s : Int) - 1 := by omega
  obtain ⟨q0, p, e0, e, h⟩ := resampled_sweeps (i0 := i0) (fl := fl) (gl := gl) hd hsame hr hf hT h1 h2 h3 hpos S (s - 1) (by omega)
  rw [e1] at h
  cases t with
  | zero => exact ⟨q0, _, p, e0, e, rfl, by unfold Before; rw [if_pos rfl]; exact h⟩
  | succ t =>
    have hq1 : ∀ kw, KwOn K kw → ∀ w, Calm same w →
        (eval (mkResample fresh r p none .none false) (.dict kvs) kw).Safe E w (Ready N same T 0 s ((s : Int) - 1) f) := by
      intro kw hkw w hw
      refine (safe_gibbsResample hsame hr hkw.2 rfl (h _ (by exact hkw) w hw)).mono fun o w' h => ?_
      have := Ready_next h
      rwa [Int.sub_add_cancel] at this
    obtain ⟨q', e', hq'⟩ := safe_steps (i0 := i0) (i2 := i2) (fl := fl) (gl := gl) hd hsame hr hf hT h1 h3 hs hq1 t (by omega)
    obtain ⟨p', e2, hp'⟩ := safe_coorStep (i0 := i0) (i2 := i2) (fl := fl) (gl := gl) (r := r) hd hf hT h1 h3 (by omega) hs hq'
    refine ⟨q0, _, p', e0, e, ?_, by unfold Before; rw [if_neg (Nat.succ_ne_zero t)]; exact hp'⟩
    rw [List.range_succ, List.foldlM_append, e']
    simp only [bind, Except.bind, List.foldlM_cons, List.foldlM_nil, gibbsStep, e2]
    rfl

end whole
end Verif
