import Verif.Model.ApgLoop
import Verif.Props.ApgLoss
/-
C41 with the resampler that Resample makes for itself. C68: what train_apg reports.
-/
namespace Verif
open Spec Apg

section systematic
variable {n b : Nat} {X D : Type} {lp : D → (Fin n → Fin b → X) → Fin n → Fin b → ℝ}

/-- Systematic resampling of a result of the sampler, with the right dimensions: never an error, the same addresses. -/
theorem resamples_systematic [NeZero n] (oneD normalize : Bool) :
    Resamples (fun _ => False) (fun sd bd => checkDims oneD n b sd bd = .ok ()) (systematic (lp := lp) oneD normalize) := by
  intro sd bd t lw x hK hF hx
  obtain ⟨⟨lv, rfl⟩, hF⟩ := hF
  have hx' := hx
  unfold systematic at hx
  simp only [hK] at hx
  obtain ⟨u, hx⟩ := hx
  rw [Comp.ret_Ret] at hx
  obtain ⟨⟨t', lw'⟩, e⟩ := systematicAt_total normalize t lv u (by
    intro k rv h _ h'
    obtain ⟨d, v, p, rp, rfl⟩ := hF k rv h
    cases h')
  rw [e] at hx
  refine Or.inr ⟨t', lw', hx.symm, fun k => ?_⟩
  obtain ⟨a, -, h3, -⟩ := systematicAt_ok normalize t t' lv u lw' e
  have : t'.keys = t.keys := by
    unfold Dict.keys
    clear hx' hx e hF
    generalize t.entries = l at h3
    generalize t'.entries = l' at h3
    induction h3 with
    | nil => rfl
    | cons h _ ih =>
      unfold keysL at ih ⊢
      simp only [List.map_cons, ih, h.1]
  rw [Bool.eq_iff_iff, Dict.contains_iff, Dict.contains_iff, this]

/-- Every result of systematic resampling has the addresses and provenances of what was resampled. -/
theorem systematic_keeps (oneD normalize : Bool) {sd bd : PyVal (TLang n b X D lp)} {t t2 : Trace (TLang n b X D lp)}
    {lw lw2 : LW (TLang n b X D lp).W} (h : (systematic oneD normalize sd bd t lw).Ret (.ok (t2, lw2))) :
    (∀ k, t2.contains k = t.contains k) ∧ ∀ k rv rv2, t.get? k = some rv → t2.get? k = some rv2 → rv2.prov = rv.prov := by
  obtain ⟨_, lv, u, a, -, -, -, h3, -⟩ := systematic_ok oneD normalize sd bd t t2 lw lw2 h
  have hg : ∀ k, (t2.get? k).map (·.prov) = (t.get? k).map (·.prov) := by
    intro k
    unfold Dict.get?
    clear h
    generalize t.entries = l at h3
    generalize t2.entries = l' at h3
    induction h3 with
    | nil => rfl
    | @cons e e' l l' he _ ih =>
      rw [getL.eq_def (e' :: l'), getL.eq_def (e :: l)]
      dsimp only
      rw [he.1]
      split
      · simp only [Option.map_some, Option.some.injEq]
        by_cases hp : Permuted e.2
        · exact (he.2.1 hp).1
        · rw [he.2.2 hp]
      · exact ih
  refine ⟨fun k => ?_, fun k rv rv2 e1 e2 => ?_⟩
  · rw [Bool.eq_iff_iff, Dict.contains_iff, Dict.contains_iff, Dict.mem_keys_iff, Dict.mem_keys_iff]
    have := congrArg Option.isSome (hg k)
    simp only [Option.isSome_map] at this
    simp only [← Option.isSome_iff_exists, this]
  · have := hg k
    rw [e1, e2] at this
    exact Option.some.inj this

/-- All log weights after systematic resampling are equal. -/
theorem systematic_equal (oneD normalize : Bool) {sd bd : PyVal (TLang n b X D lp)} {t t2 : Trace (TLang n b X D lp)}
    {lw lw2 : LW (TLang n b X D lp).W} (h : (systematic oneD normalize sd bd t lw).Ret (.ok (t2, lw2))) (i i' : Fin n) (j : Fin b) :
    lw2.val i j = lw2.val i' j := by
  obtain ⟨hn, lv, u, a, -, -, -, -, rfl⟩ := systematic_ok oneD normalize sd bd t t2 lw lw2 h
  show resampledLw normalize _ i = resampledLw normalize _ i'
  cases normalize
  · exact ((C24_resampled_weights _).1 i).trans ((C24_resampled_weights _).1 i').symm
  · exact ((C24_normalized _).1 i).trans ((C24_normalized _).1 i').symm

/-- The last sweep of gibbs_sweeps ends with its appearance step. -/
theorem gibbs_last {L : Lang} (N : ApgNet L) (fresh i0 i1 i2 i3 : ObjId) (fl : LW L.W → LW L.W → LW L.W → L.Lo)
    (gl : LW L.W → LW L.W → L.W → L.Lo) (r : ResamplerFn L) (T S : Nat) (hS : 1 ≤ S) {p0 p : Node L}
    (h : BuiltBefore N fresh i0 i1 i2 i3 fl gl r T S S T p0)
    (e3 : gibbsPropose fresh (apgObjs N i0 i1 i2 i3 fl gl r) T (apgObjs N i0 i1 i2 i3 fl gl r).digit T S
      (mkResample fresh r p0 none .none false) = .ok p) : gibbsSweeps fresh (apgObjs N i0 i1 i2 i3 fl gl r) S T = .ok p := by
  obtain ⟨q0, q, e0, e1, e2⟩ := h
  unfold gibbsSweeps
  obtain ⟨S, rfl⟩ : ∃ S', S = S' + 1 := ⟨S - 1, by omega⟩
  rw [e0]
  simp only [bind, Except.bind, if_pos (Nat.succ_pos S)]
  rw [Nat.add_sub_cancel] at e1
  rw [List.range'_concat, List.foldlM_append]
  have e1' : List.foldlM (gibbsSweep fresh (apgObjs N i0 i1 i2 i3 fl gl r) T (S + 1))
    (mkResample fresh (apgObjs N i0 i1 i2 i3 fl gl r).resampler q0 none .none false) (List.range' 1 S) = .ok q := e1
  rw [e1']
  simp only [bind, Except.bind, List.foldlM_cons, List.foldlM_nil, Nat.one_mul]
  unfold gibbsSweep
  rw [Nat.add_comm 1 S, e2]
  simp only [bind, Except.bind]
  rw [e3]
  simp only [ne_eq, not_true_eq_false, if_false]
  rfl

section gibbs
variable [NeZero n] (N : ApgNet (TLang n b X D lp)) (same : (TLang n b X D lp).V → (TLang n b X D lp).V → Bool)
  (hsame : ∀ v, same v v = true) (fresh i0 i1 i2 i3 : ObjId) (h1 : i1 ≤ fresh) (h2 : i2 ≤ fresh) (h3 : i3 ≤ fresh)
  (fl : LW (TLang n b X D lp).W → LW (TLang n b X D lp).W → LW (TLang n b X D lp).W → (TLang n b X D lp).Lo)
  (gl : LW (TLang n b X D lp).W → LW (TLang n b X D lp).W → (TLang n b X D lp).W → (TLang n b X D lp).Lo)
  (oneD normalize : Bool) (T S : Nat) (hT : 1 ≤ T) (kvs : List (String × PyVal (TLang n b X D lp))) (frames : (TLang n b X D lp).V)
  (hf : getL kvs "frames" = some (.tensor frames)) (hft : N.timesteps frames = T)

include hsame h1 h2 h3 hT hf hft in
/-- C41. With the resampler that Resample makes for itself and the dimensions it wants, gibbs_sweeps never raises, whatever the number of
particles, of times and of sweeps. -/
theorem C41_systematic :
    ∃ q, gibbsSweeps fresh (apgObjs N i0 i1 i2 i3 fl gl (systematic oneD normalize)) S T = .ok q ∧
      ∀ kw, KwOk kw → checkDims oneD n b kw.sampleDims kw.batchDim = .ok () → ∀ w, (∀ j, w.cond j = none) →
        w.store.hooks = apgHooks same → ∀ x w', (eval q (.dict kvs) kw).Runs w x w' →
          ∃ out, x = .ok out ∧ (∀ j, w'.cond j = none) ∧
            (∀ k, k ∈ out.trace.keys ↔ k = "recon" ∨ k = zWhatName S ∨ ∃ i, i < T ∧ k = zWhereName i S) := by
  obtain ⟨q, e, hq⟩ := safe_gibbs (same := same) (i0 := i0) (fl := fl) (gl := gl) (fun _ => rfl) hsame (resamples_systematic oneD normalize)
    (kvs := kvs) (f := frames) (by simp only [item, hf]) hft h1 h2 h3 hT S
  refine ⟨q, e, fun kw hkw hdim w hc hh x w' hx => ?_⟩
  rcases hq kw ⟨hkw, hdim⟩ w ⟨hc, hh⟩ x w' hx with ⟨out, h4, h5⟩ | ⟨e, h4, h5⟩
  · refine ⟨out, h4, h5.calm.cond, fun k => ?_⟩
    rw [← Dict.contains_iff, h5.addr]
    refine or_congr Iff.rfl (or_congr Iff.rfl ⟨?_, ?_⟩)
    · rintro ⟨i, hi, rfl⟩; exact ⟨i, hi, whereAt_lt hi⟩
    · rintro ⟨i, hi, rfl⟩; exact ⟨i, hi, (whereAt_lt hi).symm⟩
  · exact h5.elim

omit [NeZero n] in
/-- C68. Without sweeps train_apg reports an effective sample size of 0. -/
theorem C68_no_sweeps (lw : Fin n → Fin b → ℝ) : trainEss 0 lw = 0 := if_neg (Nat.lt_irrefl 0)

include hsame h1 h2 h3 hT hf hft in
/-- C68. The attribute `lw` of what gibbs_sweeps returns is the log weight before the last step, just after resampling. It is the same for
all particles, so the effective sample size that train_apg computes from it is the number of particles, whatever the weights are. -/
theorem C68_ess (hS : 1 ≤ S) (hb : 1 ≤ b) :
    ∃ q, gibbsSweeps fresh (apgObjs N i0 i1 i2 i3 fl gl (systematic oneD normalize)) S T = .ok q ∧
      ∀ kw, KwOk kw → ∀ w, (∀ j, w.cond j = none) → w.store.hooks = apgHooks same → ∀ out w',
        (eval q (.dict kvs) kw).Runs w (.ok out) w' → ∃ px, out.px = some px ∧ (∀ i i' j, px.lw i j = px.lw i' j) ∧ trainEss S px.lw = n := by
  obtain ⟨p0, p, ⟨q0, q, e0, e1, e2⟩, e3, h⟩ := appearance_run N same hsame (fun _ => rfl) fresh i0 i1 i2 i3 h1 h2 h3 fl gl
    (systematic oneD normalize) (fun _ _ _ _ _ _ h => (systematic_keeps oneD normalize h).1)
    (fun _ _ _ _ _ _ h => (systematic_keeps oneD normalize h).2) T S S hT hS (le_refl _) kvs frames hf hft
  refine ⟨p, gibbs_last N fresh i0 i1 i2 i3 fl gl _ T S hS ⟨q0, q, e0, e1, e2⟩ e3, fun kw hkw w hc hh out w' hx => ?_⟩
  · obtain ⟨kw0, o0, w0, t1, lw1, -, -, -, h7, ⟨old, z, val, -, -, -, -, px, hpx, hlw⟩, -⟩ := h kw hkw w hc hh out w' hx
    have heq : ∀ i i' j, px.lw i j = px.lw i' j := by
      intro i i' j
      rcases hlw with hlw | ⟨-, hlw⟩
      · rw [hlw]
        exact systematic_equal oneD normalize h7 i i' j
      · rw [hlw]; rfl
    refine ⟨px, hpx, heq, ?_⟩
    unfold trainEss
    rw [if_pos (by omega), Finset.sum_congr rfl (g := fun _ => (n : ℝ)) fun j _ => (C27_max_iff _).2 fun i i' => heq i i' j]
    rw [Finset.sum_const, Finset.card_univ, Fintype.card_fin, nsmul_eq_mul, mul_div_cancel_left₀]
    exact_mod_cast (by omega : b ≠ 0)

end gibbs

end systematic

section blind

/-- A density that prefers `true`, or none. -/
abbrev preferTrue (d : Bool) (v : Fin 2 → Fin 1 → Bool) (i : Fin 2) (j : Fin 1) : ℝ := if d && v i j then 1 else 0

/-- Only the appearance has a density that depends on the value. -/
def oneNet : ApgNet (TLang 2 1 Bool Bool preferTrue) :=
  { objects := 1, timesteps := fun _ => 1, coorStep := fun _ _ _ _ => false, stack := fun zs => zs.headD fun _ _ => true,
    slice := fun v _ => v, coorDist := fun _ _ _ _ => false, digitDist := fun _ _ => false, where0 := false, whereT := fun _ => false,
    what := true, recon := fun _ _ => false, reparam := true }

theorem Comp.exists_ret (m : Comp (TLang 2 1 Bool Bool preferTrue) α) : ∃ a, m.Ret a := by
  induction m with
  | ret a => exact ⟨a, rfl⟩
  | draw d rep k ih => obtain ⟨a, ha⟩ := ih fun _ _ => true; exact ⟨a, _, ha⟩
  | rand k ih => obtain ⟨a, ha⟩ := ih fun _ => ⟨0, by simp⟩; exact ⟨a, _, ha⟩

/-- Two particles of one frame. -/
def oneInput : List (String × PyVal (TLang 2 1 Bool Bool preferTrue)) := [("frames", .tensor fun _ _ => true)]

/-- C68. Two particles, one time, one sweep: a run in which the two log weights returned differ, so that their effective sample size is
below 2, while train_apg reports 2. -/
theorem C68_blind : ∃ q, gibbsSweeps 4 (apgObjs oneNet 0 1 2 3 (fun _ _ _ => (0 : ℝ)) (fun _ _ _ => (0 : ℝ)) (systematic false true)) 1 1 = .ok q ∧
    ∃ kw w out w' px, KwOk kw ∧ (∀ j, w.cond j = none) ∧ w.store.hooks = apgHooks (fun _ _ => true) ∧
      (eval q (.dict oneInput) kw).Runs w (.ok out) w' ∧ out.px = some px ∧ trainEss 1 px.lw = 2 ∧
      effectiveSampleSize (fun i => out.logWeight.val i 0) < 2 := by
  have hr := resamples_systematic (n := 2) (b := 1) (lp := preferTrue) false true
  have hf : item (.dict oneInput) "frames" = .ok fun _ _ => true := rfl
  obtain ⟨q0, q, p0, e0, e1, e2, hs⟩ := resampled_steps (N := oneNet) (same := fun _ _ => true) (i0 := 0) (i1 := 1) (i2 := 2) (i3 := 3) (fresh := 4)
    (fl := fun _ _ _ => (0 : ℝ)) (gl := fun _ _ _ => (0 : ℝ)) (T := 1) (fun _ => rfl) (fun _ => rfl) hr hf rfl (by decide) (by decide) (by decide)
    (by decide) 1 1 1 (by decide) (by decide) (by decide)
  have hb : BuiltBefore oneNet 4 0 1 2 3 (fun _ _ _ => (0 : ℝ)) (fun _ _ _ => (0 : ℝ)) (systematic false true) 1 1 1 1 p0 := ⟨q0, q, e0, e1, e2⟩
  have e3 := gibbsPropose_eq (N := oneNet) (i0 := 0) (i1 := 1) (i2 := 2) (i3 := 3) (fresh := 4) (fl := fun _ _ _ => (0 : ℝ))
    (gl := fun _ _ _ => (0 : ℝ)) (r := systematic false true) (T := 1)
    (apgObjs oneNet 0 1 2 3 (fun _ _ _ => (0 : ℝ)) (fun _ _ _ => (0 : ℝ)) (systematic false true)).digit (mkResample 4 (systematic false true) p0 none .none false) 1 1
  have hq := gibbs_last oneNet 4 0 1 2 3 _ _ _ 1 1 (le_refl _) hb e3
  obtain ⟨q', hq', hess⟩ := C68_ess oneNet (fun _ _ => true) (fun _ => rfl) 4 0 1 2 3 (by decide) (by decide) (by decide) (fun _ _ _ => (0 : ℝ))
    (fun _ _ _ => (0 : ℝ)) false true 1 1 (le_refl _) oneInput (fun _ _ => true) rfl rfl (le_refl _) (le_refl _)
  rw [hq] at hq'
  cases hq'
  refine ⟨_, hq, ?_⟩
  let w : World (TLang 2 1 Bool Bool preferTrue) := { cond := fun _ => none, store := { data := Dict.empty, hooks := apgHooks fun _ _ => true } }
  let kw : Kw (TLang 2 1 Bool Bool preferTrue) := { sampleDims := .int 0, batchDim := .int 1 }
  have hw : Calm (fun _ _ => true) w := ⟨fun _ => rfl, rfl⟩
  have hkw : KwOn (fun sd bd => checkDims false 2 1 sd bd = .ok ()) kw := ⟨by simp [kw, KwOk], rfl⟩
  have hS : ∀ kw, KwOn (fun sd bd => checkDims false 2 1 sd bd = .ok ()) kw → ∀ w, Calm (fun _ _ => true) w →
      (eval p0 (.dict oneInput) kw).Safe (fun _ => False) w (Stage oneNet (fun _ _ => true) 1 1 (1 : Nat) (((1 : Nat) : Int) - 1) fun _ _ => true) := hs
  have hR := safe_gibbsResample (a := mkAttrs 4 none none .none false) (kw := subKw (sweepParts 4 (fun _ _ _ => (0 : ℝ)) 1 1 1).2.1
    (subKw (sweepParts 4 (fun _ _ _ => (0 : ℝ)) 1 1 1).1 kw)) (fun _ => rfl) hr (by exact hkw.2) rfl (hS _ (by exact hkw) w hw)
  obtain ⟨⟨x1, w1⟩, hx1⟩ := Comp.exists_ret (eval (.resample (mkAttrs 4 none none .none false) (systematic false true) p0) (.dict oneInput)
    (subKw (sweepParts 4 (fun _ _ _ => (0 : ℝ)) 1 1 1).2.1 (subKw (sweepParts 4 (fun _ _ _ => (0 : ℝ)) 1 1 1).1 kw)) w)
  obtain ⟨o1, rfl⟩ : ∃ o1, x1 = .ok o1 := by
    rcases hR _ _ hx1 with ⟨o, h, -⟩ | ⟨_, -, h⟩
    · exact ⟨o, h⟩
    · exact h.elim
  obtain ⟨hR1, o0, w0, -, -, hret, hM, -⟩ := run_resample (fun _ => rfl) hr (by exact hkw.2) rfl (hS _ (by exact hkw) w hw) hx1
  have hM := hM fun _ _ _ _ _ _ h => (systematic_keeps false true h).2
  obtain ⟨F, h4, h5⟩ := draws_digitStep (N := oneNet) (T := 1) (fresh := 4) (gl := fun _ _ _ => (0 : ℝ)) (i2 := 2) (i3 := 3)
    (q := mkResample 4 (systematic false true) p0 none .none false) (fun _ => rfl) hf rfl (by decide) (by decide) (by decide) (by decide) hkw.1 hR1
  obtain ⟨z, hz⟩ : ∃ z : Fin 2 → Fin 1 → Bool, preferTrue true z 0 0 - total o1.trace 0 0 ≠ preferTrue true z 1 0 - total o1.trace 1 0 := by
    by_cases h : (1 : ℝ) - total o1.trace 0 0 = 0 - total o1.trace 1 0
    · refine ⟨fun _ _ => true, ?_⟩
      simp only [preferTrue, Bool.and_self, if_true]
      intro h'
      linarith
    · exact ⟨fun i _ => decide (i = 0), by simpa [preferTrue] using h⟩
  obtain ⟨-, old, h6, -, h8, -⟩ := h5 z
  have hrun : (eval (.propose (sweepParts 4 (fun _ _ _ => (0 : ℝ)) 1 1 1).1 (fun t _ => .ok t) true
      (.extend (sweepParts 4 (fun _ _ _ => (0 : ℝ)) 1 1 1).2.2 (.prog 3 (decProg oneNet)) (.prog 2 (encDigitProg oneNet)))
      (.compose (sweepParts 4 (fun _ _ _ => (0 : ℝ)) 1 1 1).2.1 (.prog 2 (encDigitProg oneNet)) (mkResample 4 (systematic false true) p0 none .none false)))
      (.dict oneInput) kw).Runs w (.ok (F z).1) (F z).2 := by
    rw [eval_afterFirst, ← Exec.bind_eq, Exec.Runs_bind_ok]
    refine ⟨o1, w1, hx1, ?_⟩
    unfold Exec.Runs
    rw [h4, Comp.bind_Ret]
    exact ⟨z, ⟨z, rfl⟩, rfl⟩
  obtain ⟨px, hpx, -, hpe⟩ := hess kw hkw.1 w (fun _ => rfl) rfl _ _ hrun
  refine ⟨kw, w, _, _, px, hkw.1, fun _ => rfl, rfl, hrun, hpx, by exact_mod_cast hpe, ?_⟩
  refine lt_of_le_of_ne (by exact_mod_cast (C27_bounds _).2) fun he => ?_
  have he := (C27_max_iff (fun i => (F z).1.logWeight.val i 0)).1 (by exact_mod_cast he) 0 1
  have hlw := h8.weight hM
  rw [h6.total] at hlw
  rw [hlw] at he
  have h9 : o1.logWeight.val 0 0 = o1.logWeight.val 1 0 := systematic_equal false true hret 0 1 0
  have hj : ∀ i : Fin 2, joint oneNet 1 1 (fun _ _ => true) (posOf (fun _ _ => true) o1.trace 1) z i 0 = preferTrue true z i 0 := by
    intro i
    unfold joint
    rw [Finset.sum_range_one]
    show (preferTrue false (posOf (fun _ _ => true) o1.trace 1 0) i 0 + preferTrue true z i 0) + preferTrue false (fun _ _ => true) i 0 = _
    simp [preferTrue]
  have he' : o1.logWeight.val 0 0 + ((joint oneNet 1 1 (fun _ _ => true) (posOf (fun _ _ => true) o1.trace 1) z 0 0 + preferTrue false old 0 0) -
        (total o1.trace 0 0 + preferTrue false z 0 0)) =
      o1.logWeight.val 1 0 + ((joint oneNet 1 1 (fun _ _ => true) (posOf (fun _ _ => true) o1.trace 1) z 1 0 + preferTrue false old 1 0) -
        (total o1.trace 1 0 + preferTrue false z 1 0)) := he
  rw [hj, hj, h9] at he'
  have hp : ∀ (v : Fin 2 → Fin 1 → Bool) i, preferTrue false v i 0 = 0 := fun v i => by simp [preferTrue]
  have e0 := hp old 0
  have e1 := hp old 1
  have e2 := hp z 0
  have e3 := hp z 1
  exact hz (by linarith)

end blind
end Verif
