import Verif.Model.NviTrain
import Verif.Spec.NviTrain
import Verif.Props.AnnealMain
/-
C73: what nvi_train does.
-/
namespace Verif
open Spec
variable {L : Lang} {Θ R : Type}

/-- The report of `nvi_train` made of the statistics of every iteration. -/
def reportOf (ess lz : L.W → R) (θ : Θ) (rows : List (List (StatRow L))) : TrainReport L Θ R where
  params := θ
  loss := rows.map fun r => r.map fun x => x.loss
  ess := rows.map fun r => r.map fun x => ess x.lw.val
  lZHat := rows.map fun r => r.map fun x => lz x.lw.val

theorem runs_bind_ok {α β : Type} {m : Exec L α} {f : α → Exec L β} {w w' : World L} {b : β} :
    (Exec.bind m f).Runs w (.ok b) w' ↔ ∃ a w₁, m.Runs w (.ok a) w₁ ∧ (f a).Runs w₁ (.ok b) w' := by
  rw [← Exec.Runs_bind_ok]
  rfl

theorem trainRound_ok (T : Trainer L Θ) (kw : Kw L) (θ θ' : Θ) (rows : List (StatRow L)) (w w' : World L) :
    (trainRound T kw θ).Runs w (.ok (θ', rows)) w' ↔
      ∃ o lw, (eval (T.q θ) .none { kw with debug := true }).Runs w (.ok o) w' ∧ o.loss.isSome ∧ o.logWeight = .tensor lw ∧
        T.update θ o = .ok θ' ∧ T.single lw = true ∧ getStats o = .ok rows := by
  unfold trainRound
  rw [runs_bind_ok]
  constructor
  · rintro ⟨o, w₁, h1, h2⟩
    rw [Exec.Runs_lift] at h2
    obtain ⟨h2, rfl⟩ := h2
    have hl : trainLw o = o.logWeight := rfl
    rw [hl] at h2
    cases e1 : o.loss with
    | none => simp [e1] at h2
    | some l =>
      cases e2 : o.logWeight with
      | float0 => simp [e1, e2] at h2
      | tensor lw =>
        simp only [e1, e2] at h2
        cases e3 : T.update θ o with
        | error e => simp [e3] at h2
        | ok θ₁ =>
          simp only [e3] at h2
          by_cases e4 : T.single lw
          · rw [if_pos e4] at h2
            cases e5 : getStats o with
            | error e => simp [e5] at h2
            | ok r =>
              simp only [e5, Except.ok.injEq, Prod.mk.injEq] at h2
              obtain ⟨rfl, rfl⟩ := h2
              exact ⟨o, lw, h1, by simp [e1], e2, e3, e4, e5⟩
          · rw [if_neg e4] at h2; cases h2
  · rintro ⟨o, lw, h1, h2, h3, h4, h5, h6⟩
    obtain ⟨l, hl⟩ := Option.isSome_iff_exists.1 h2
    refine ⟨o, w', h1, ?_⟩
    rw [Exec.Runs_lift]
    simp [hl, trainLw, h3, h4, h5, h6]

theorem trainRounds_ok (T : Trainer L Θ) (kw : Kw L) (n : Nat) (θ θ' : Θ) (rows : List (List (StatRow L))) (w w' : World L) :
    (trainRounds T kw n θ).Runs w (.ok (θ', rows)) w' ↔
      ∃ l : List (Θ × Out L), l.length = n ∧
        Rounds (fun θ w o w' => (eval (T.q θ) .none { kw with debug := true }).Runs w (.ok o) w') T.update θ w l θ' w' ∧
        (∀ e ∈ l, e.2.loss.isSome ∧ ∃ lw, e.2.logWeight = .tensor lw ∧ T.single lw = true) ∧
        List.Forall₂ (fun e r => getStats e.2 = .ok r) l rows := by
  induction n generalizing θ w rows with
  | zero =>
    rw [trainRounds, Exec.Runs_pure']
    constructor
    · rintro ⟨h, rfl⟩
      cases h
      exact ⟨[], rfl, .done _ _, by simp, .nil⟩
    · rintro ⟨l, h1, h2, -, h4⟩
      rw [List.length_eq_zero_iff] at h1
      subst h1
      cases h2
      cases h4
      exact ⟨rfl, rfl⟩
  | succ n ih =>
    rw [trainRounds, runs_bind_ok]
    constructor
    · rintro ⟨⟨θ₁, r⟩, w₁, h1, h2⟩
      rw [runs_bind_ok] at h2
      obtain ⟨⟨θ₂, rs⟩, w₂, h2, h3⟩ := h2
      rw [Exec.Runs_pure'] at h3
      obtain ⟨h3, rfl⟩ := h3
      cases h3
      obtain ⟨o, lw, a1, a2, a3, a4, a5, a6⟩ := (trainRound_ok ..).1 h1
      obtain ⟨l, b1, b2, b3, b4⟩ := (ih ..).1 h2
      refine ⟨(θ, o) :: l, by simp [b1], .step a1 a4 b2, ?_, .cons a6 b4⟩
      intro e he
      rcases List.mem_cons.1 he with rfl | he
      · exact ⟨a2, lw, a3, a5⟩
      · exact b3 e he
    · rintro ⟨l, h1, h2, h3, h4⟩
      cases h2 with
      | done => simp at h1
      | @step _ _ o w₁ θ₁ l _ _ a1 a2 a3 =>
        cases h4 with
        | cons b1 b2 =>
          rename_i r rs
          obtain ⟨c1, lw, c2, c3⟩ := h3 _ (List.mem_cons_self ..)
          refine ⟨(θ₁, r), w₁, (trainRound_ok ..).2 ⟨o, lw, a1, c1, c2, a2, c3, b1⟩, ?_⟩
          rw [runs_bind_ok]
          refine ⟨(θ', rs), w', (ih ..).2 ⟨l, by simpa using h1, a3, fun e he => h3 e (List.mem_cons_of_mem _ he), b2⟩, ?_⟩
          rw [Exec.Runs_pure']
          exact ⟨rfl, rfl⟩

theorem nviTrain_ok (ess lz : L.W → R) (T : Trainer L Θ) (kw : Kw L) (n : Nat) (θ : Θ) (rep : TrainReport L Θ R) (w w' : World L) :
    (nviTrain ess lz T kw n θ).Runs w (.ok rep) w' ↔
      ∃ (o₀ : Out L) (w₁ : World L) (rows : List (List (StatRow L))),
        (eval (T.q θ) .none { kw with debug := true }).Runs w (.ok o₀) w₁ ∧ (∃ r, getStats o₀ = .ok r) ∧
        (trainRounds T kw n θ).Runs w₁ (.ok (rep.params, rows)) w' ∧ rep = reportOf ess lz rep.params rows := by
  unfold nviTrain
  rw [runs_bind_ok]
  constructor
  · rintro ⟨o, w₁, h1, h2⟩
    rw [runs_bind_ok] at h2
    obtain ⟨r, w₂, h2, h3⟩ := h2
    rw [Exec.Runs_lift] at h2
    obtain ⟨h2, rfl⟩ := h2
    rw [runs_bind_ok] at h3
    obtain ⟨⟨θ', rows⟩, w₃, h3, h4⟩ := h3
    rw [Exec.Runs_pure'] at h4
    obtain ⟨h4, rfl⟩ := h4
    cases h4
    exact ⟨o, _, rows, h1, ⟨r, h2.symm⟩, h3, rfl⟩
  · rintro ⟨o, w₁, rows, h1, ⟨r, h2⟩, h3, h4⟩
    refine ⟨o, w₁, h1, ?_⟩
    rw [runs_bind_ok]
    refine ⟨r, w₁, by rw [Exec.Runs_lift]; exact ⟨h2.symm, rfl⟩, ?_⟩
    rw [runs_bind_ok]
    refine ⟨_, w', h3, ?_⟩
    rw [Exec.Runs_pure']
    exact ⟨congrArg Except.ok h4, rfl⟩

/-- The rows of get_stats for a result of what vsmc builds. -/
theorem vsmc_stats (fresh : ObjId) (q : Node L) (hq : IsProg q) (ps fs rs : List (Node L)) (hf : ∀ f ∈ fs, IsProg f) (K : Nat) (hK : 0 < K)
    (hlen : fs.length = K ∧ K ≤ rs.length ∧ K ≤ ps.length)
    (lossFn : Out L → Except Err L.Lo) (transf : Option (Trace L → Kw L → Except Err (Trace L))) (resample : Option (ResamplerFn L)) (nd : Node L)
    (hv : vsmc fresh (q :: ps) fs rs lossFn transf resample = .ok nd) (kw : Kw L) (w w' : World L) (o : Out L)
    (h : (eval nd .none { kw with debug := true }).Runs w (.ok o) w') :
    ∃ r x, getStats o = .ok r ∧ r.length = K ∧ RowsOf o r ∧ r.getLast? = some x ∧ detachLW o.logWeight = .ok x.lw ∧ o.loss = some x.loss := by
  obtain ⟨a1, a2, a3⟩ := hlen
  obtain ⟨r, x, b1, b2, b3, b4, b5⟩ := C63_train fresh q hq ps fs rs hf (by omega) lossFn transf resample _ hv (by omega) _ _ rfl w w' o h
  obtain ⟨r', c1, -, c3⟩ := C36_get_stats fresh q hq ps fs rs hf lossFn transf resample _ hv (by omega) _ _ (Or.inr rfl) w w' o h
  rw [b1] at c1
  cases c1
  exact ⟨r, x, b1, by omega, c3, b3, b4, b5⟩

/-- C73. nvi_train on what vsmc builds, with K ≥ 1 steps, any kernels, loss and resampler: the runs that return are exactly these. One call for the shapes, whose
result is thrown away and changes no parameter; then `iterations` calls with `_debug=True`, call i with the parameters after i updates, followed by an update from
that call's result, each with a single batch element (otherwise `.item()` raises). The report has one row of K entries per iteration, from get_stats of
that iteration's result: its last entries are the loss and the metrics of the log weight of the result itself. -/
theorem C73_nvi_train (ess lz : L.W → R) (T : Trainer L Θ) (K : Nat) (hK : 0 < K)
    (fresh : Θ → ObjId) (q : Θ → Node L) (hq : ∀ θ, IsProg (q θ)) (ps fs rs : Θ → List (Node L)) (hf : ∀ θ, ∀ f ∈ fs θ, IsProg f)
    (hlen : ∀ θ, (fs θ).length = K ∧ K ≤ (rs θ).length ∧ K ≤ (ps θ).length)
    (lossFn : Out L → Except Err L.Lo) (transf : Option (Trace L → Kw L → Except Err (Trace L))) (resample : Option (ResamplerFn L))
    (hv : ∀ θ, vsmc (fresh θ) (q θ :: ps θ) (fs θ) (rs θ) lossFn transf resample = .ok (T.q θ))
    (kw : Kw L) (iterations : Nat) (θ : Θ) (w w' : World L) (rep : TrainReport L Θ R) :
    (nviTrain ess lz T kw iterations θ).Runs w (.ok rep) w' ↔
      ∃ (o₀ : Out L) (w₁ : World L) (l : List (Θ × Out L)) (rows : List (List (StatRow L))),
        (eval (T.q θ) .none { kw with debug := true }).Runs w (.ok o₀) w₁ ∧ l.length = iterations ∧
        Rounds (fun θ w o w' => (eval (T.q θ) .none { kw with debug := true }).Runs w (.ok o) w') T.update θ w₁ l rep.params w' ∧
        List.Forall₂ (fun e r => T.single e.2.logWeight.val = true ∧ getStats e.2 = .ok r ∧ r.length = K ∧ RowsOf e.2 r ∧
          ∃ x, r.getLast? = some x ∧ detachLW e.2.logWeight = .ok x.lw ∧ e.2.loss = some x.loss) l rows ∧
        rep.loss = rows.map (fun r => r.map fun x => x.loss) ∧ rep.ess = rows.map (fun r => r.map fun x => ess x.lw.val) ∧
        rep.lZHat = rows.map (fun r => r.map fun x => lz x.lw.val) := by
  have key : ∀ θ (w w' : World L) o, (eval (T.q θ) .none { kw with debug := true }).Runs w (.ok o) w' →
      ∃ r x, getStats o = .ok r ∧ r.length = K ∧ RowsOf o r ∧ r.getLast? = some x ∧ detachLW o.logWeight = .ok x.lw ∧ o.loss = some x.loss :=
    fun θ => vsmc_stats (fresh θ) (q θ) (hq θ) (ps θ) (fs θ) (rs θ) (hf θ) K hK (hlen θ) lossFn transf resample _ (hv θ) kw
  have keyl : ∀ {θ w l θ' w'}, Rounds (fun θ w o w' => (eval (T.q θ) .none { kw with debug := true }).Runs w (.ok o) w') T.update θ w l θ' w' →
      ∀ e ∈ l, ∃ r x, getStats e.2 = .ok r ∧ r.length = K ∧ RowsOf e.2 r ∧ r.getLast? = some x ∧ detachLW e.2.logWeight = .ok x.lw ∧ e.2.loss = some x.loss := by
    intro θ w l θ' w' h
    induction h with
    | done => simp
    | step a1 a2 a3 ih =>
      intro e he
      rcases List.mem_cons.1 he with rfl | he
      · exact key _ _ _ _ a1
      · exact ih e he
  have tens : ∀ {x : LW L.W} {y}, detachLW x = .ok y → x = .tensor x.val := by
    intro x y h
    cases x with
    | float0 => simp [detachLW] at h
    | tensor a => rfl
  rw [nviTrain_ok]
  constructor
  · rintro ⟨o₀, w₁, rows, h1, -, h3, h4⟩
    obtain ⟨l, a1, a2, a3, a4⟩ := (trainRounds_ok ..).1 h3
    refine ⟨o₀, w₁, l, rows, h1, a1, a2, ?_, by rw [h4]; rfl, by rw [h4]; rfl, by rw [h4]; rfl⟩
    have hk := keyl a2
    clear a1 a2 h3 h4
    induction a4 with
    | nil => exact .nil
    | @cons e r l rows b1 b2 ih =>
      refine .cons ?_ (ih (fun e he => a3 e (List.mem_cons_of_mem _ he)) fun e he => hk e (List.mem_cons_of_mem _ he))
      obtain ⟨r', x, c1, c2, c3, c4, c5, c6⟩ := hk e (List.mem_cons_self ..)
      rw [b1] at c1
      cases c1
      obtain ⟨-, lw, d1, d2⟩ := a3 e (List.mem_cons_self ..)
      exact ⟨by rw [d1]; exact d2, b1, c2, c3, x, c4, c5, c6⟩
  · rintro ⟨o₀, w₁, l, rows, h1, h2, h3, h4, h5, h6, h7⟩
    obtain ⟨r, -, e, -⟩ := key _ _ _ _ h1
    refine ⟨o₀, w₁, rows, h1, ⟨r, e⟩, (trainRounds_ok ..).2 ⟨l, h2, h3, ?_, h4.imp fun _ _ h => h.2.1⟩, ?_⟩
    · intro e he
      obtain ⟨r, x, c1, c2, c3, c4, c5, c6⟩ := keyl h3 e he
      refine ⟨by rw [c6]; rfl, _, tens c5, ?_⟩
      clear h1 h2 h3 h5 h6 h7
      induction h4 with
      | nil => simp at he
      | cons b1 b2 ih =>
        rcases List.mem_cons.1 he with rfl | he
        · exact b1.1
        · exact ih he
    · cases rep
      simp only at h5 h6 h7
      subst h5 h6 h7
      rfl

/-- The report of a training run on chains: the parameters and the chain of every iteration, and the final parameters. -/
structure TrainedOn (ess lz : L.W → R) (lossFn : Out L → Except Err L.Lo) (M : Θ → AnnealModel L) (K : Nat) (θ' : Θ)
    (l : List (Θ × (Nat → L.V))) (rep : TrainReport L Θ R) : Prop where
  params : rep.params = θ'
  ess : rep.ess = l.map fun e => (List.range K).map fun t => ess ((M e.1).incoming e.2 (t + 1))
  lZHat : rep.lZHat = l.map fun e => (List.range K).map fun t => lz ((M e.1).incoming e.2 (t + 1))
  loss : List.Forall₂ (fun e r => r.length = K ∧ ∀ (t : Nat) x, r[t]? = some x → ChainLoss lossFn (M e.1) e.2 (t + 1) (some x)) l rep.loss

/-- The update of the training loop from the result `F θ z` of a call: it raises if the update raises, and then if there is more than one batch element. -/
def chainUpdate (T : Trainer L Θ) (M : Θ → AnnealModel L) (K : Nat) (F : Θ → (Nat → L.V) → Out L) (θ : Θ) (z : Nat → L.V) : Except Err Θ :=
  match T.update θ (F θ z) with
  | .error e => .error e
  | .ok θ' => if T.single ((M θ).weight z K) then .ok θ' else .error .value

theorem trainRounds_chain (T : Trainer L Θ) (M : Θ → AnnealModel L) (K : Nat) (kw : Kw L) (w : World L) (F : Θ → (Nat → L.V) → Out L)
    (rows : Θ → (Nat → L.V) → List (StatRow L))
    (hF : ∀ θ, eval (T.q θ) .none { kw with debug := true } w = ((M θ).chain K).bind fun z => .ret (.ok (F θ z), w))
    (hw : ∀ θ z, (F θ z).logWeight = .tensor ((M θ).weight z K)) (hl : ∀ θ z, (F θ z).loss.isSome)
    (hs : ∀ θ z, getStats (F θ z) = .ok (rows θ z)) (n : Nat) (θ : Θ) :
    trainRounds T kw n θ w = (trainChains M K (chainUpdate T M K F) n θ).bind fun r =>
      .ret (r.map fun s => (s.1, s.2.map fun e => rows e.1 e.2), w) := by
  induction n generalizing θ with
  | zero => rfl
  | succ n ih =>
    rw [trainRounds, trainChains, Comp.bind_assoc]
    simp only [Exec.bind, trainRound, hF, Comp.bind_assoc]
    congr 1
    funext z
    obtain ⟨l, hl⟩ := Option.isSome_iff_exists.1 (hl θ z)
    simp only [Comp.bind, Exec.lift, trainLw, hl, hw, hs, chainUpdate]
    cases T.update θ (F θ z) with
    | error e => rfl
    | ok θ' =>
      by_cases h : T.single ((M θ).weight z K)
      · simp only [if_pos h, ih, Comp.bind_assoc]
        congr 1
        funext r
        cases r <;> rfl
      · simp only [if_neg h]
        rfl

/-- C73. Without resampling (`M θ` is the annealing model with parameters θ, K its steps): with at least one step the calls never raise and nvi_train is this: draw a
chain and forget it; then, per iteration, draw a chain of the current model and update the parameters from its result, whose log weight
and loss are those of the chain. The report lists per iteration and step the metrics of the log weight of annealed importance sampling after that many steps, and the
sum of the losses so far, all with the parameters before that iteration's update. Everything raised comes from an update, or from `.item()` with more than one batch
element. With a single target it always raises NameError. -/
theorem C73_chains (ess lz : L.W → R) (T : Trainer L Θ) (M : Θ → AnnealModel L) (I : AnnealIds) (fresh : ObjId) (hid : I.Below fresh)
    (lossFn : Out L → Except Err L.Lo) (hl : LossOk lossFn)
    (transf : Option (Trace L → Kw L → Except Err (Trace L))) (ht : AnnealTransf transf) (K : Nat)
    (hv : ∀ θ, vsmc fresh ((M θ).initial I :: (List.range K).map ((M θ).target I)) ((List.range K).map ((M θ).forward I))
        ((List.range K).map ((M θ).reverse I)) lossFn transf none = .ok (T.q θ))
    (kw : Kw L) (hkw : KwOk kw) (w : World L) (hw : ∀ j, w.cond j = none) (iterations : Nat) (θ : Θ) :
    (K = 0 → ∀ r w', (nviTrain ess lz T kw iterations θ).Runs w r w' → r = .error .name ∧ w' = w) ∧
    (K ≠ 0 → ∃ (F : Θ → (Nat → L.V) → Out L) (G : Θ → List (Θ × (Nat → L.V)) → TrainReport L Θ R),
      (∀ θ z, (F θ z).logWeight.val = (M θ).weight z K ∧ ChainLoss lossFn (M θ) z K (F θ z).loss) ∧
      (∀ θ' l, TrainedOn ess lz lossFn M K θ' l (G θ' l)) ∧
      nviTrain ess lz T kw iterations θ w = ((M θ).chain K).bind fun _ =>
        (trainChains M K (chainUpdate T M K F) iterations θ).bind fun r => .ret (r.map fun s => G s.1 s.2, w)) := by
  have key : ∀ θ, ∃ F : (Nat → L.V) → Out L, eval (T.q θ) .none { kw with debug := true } w = ((M θ).chain K).bind (fun z => .ret (.ok (F z), w)) ∧
      ∀ z, (F z).logWeight = (M θ).lw z K ∧ ChainLoss lossFn (M θ) z K (F z).loss ∧ ChainStats lossFn (M θ) z K (F z) := by
    intro θ
    obtain ⟨nd, h1, h2⟩ := chain_vsmc fresh ((List.range K).map ((M θ).forward I)).length (M θ) I hid lossFn hl transf ht.ok K
    have h := hv θ
    simp only [vsmc] at h
    rw [zip3_range] at h
    have hnd : nd = T.q θ := Except.ok.inj (h1.symm.trans h)
    subst hnd
    obtain ⟨F, e1, e2⟩ := h2 .none { kw with debug := true } w hkw hw
    refine ⟨F, e1, fun z => ?_⟩
    obtain ⟨_, -, -, -, -, -, r5, r6, r7⟩ := e2 z
    exact ⟨r5, r6, r7⟩
  choose F e1 e2 using key
  refine ⟨fun hK r w' hr => ?_, fun hK => ?_⟩
  · have e3 : ∀ z, getStats (F θ z) = .error .name := by
      intro z
      obtain ⟨m, hm⟩ := (e2 θ z).2.2.1 hK
      unfold getStats
      rw [traverseProposals]
      simp only [hm]
    simp only [Exec.Runs, nviTrain, Exec.bind, e1, Comp.bind_assoc] at hr
    rw [Comp.bind_Ret] at hr
    obtain ⟨z, -, hz⟩ := hr
    simp only [Comp.bind, Exec.lift, e3] at hz
    cases hz
    exact ⟨rfl, rfl⟩
  · have hlw : ∀ θ z, (F θ z).logWeight = .tensor ((M θ).weight z K) := by
      intro θ z
      rw [(e2 θ z).1]
      cases K with
      | zero => exact absurd rfl hK
      | succ K => rfl
    have hloss : ∀ θ z, (F θ z).loss.isSome := by
      intro θ z
      obtain ⟨_, h, -⟩ := (e2 θ z).2.1
      rw [h]
      cases K with
      | zero => exact absurd rfl hK
      | succ K => rfl
    have hst : ∀ θ z, ∃ rows, getStats (F θ z) = .ok rows ∧ rows.length = K ∧ ∀ i r, rows[i]? = some r → RowAt lossFn (M θ) z i r := by
      intro θ z
      obtain ⟨-, -, rows, t2, t3, t4⟩ := (e2 θ z).2.2
      refine ⟨rows, ?_, t2, t3⟩
      unfold getStats
      rw [t4 hK [], List.append_nil]
      cases rows with
      | nil => simp at t2; omega
      | cons r rows => rfl
    choose rows s1 s2 s3 using hst
    have hrow : ∀ {β : Type} (f : L.W → β) θ z, (rows θ z).map (fun r => f r.lw.val) = (List.range K).map fun t => f ((M θ).incoming z (t + 1)) := by
      intro β f θ z
      apply List.ext_getElem
      · simp [s2]
      · intro i h1 h2
        have hi : i < (rows θ z).length := by simpa using h1
        simp only [List.getElem_map, List.getElem_range]
        rw [(s3 θ z i _ (List.getElem?_eq_getElem hi)).lw]
        rfl
    refine ⟨F, fun θ' l => reportOf ess lz θ' (l.map fun e => rows e.1 e.2), ?_, ?_, ?_⟩
    · intro θ z
      exact ⟨by rw [hlw]; rfl, (e2 θ z).2.1⟩
    · intro θ' l
      refine ⟨rfl, ?_, ?_, ?_⟩
      · simp only [reportOf, List.map_map]
        exact List.map_congr_left fun e _ => hrow ess e.1 e.2
      · simp only [reportOf, List.map_map]
        exact List.map_congr_left fun e _ => hrow lz e.1 e.2
      · simp only [reportOf, List.map_map]
        rw [List.forall₂_map_right_iff]
        refine List.forall₂_same.2 fun e _ => ⟨by simp [s2], fun t x hx => ?_⟩
        simp only [Function.comp, List.getElem?_map, Option.map_eq_some_iff] at hx
        obtain ⟨r, h3, rfl⟩ := hx
        exact (s3 _ _ t r h3).loss
    · simp only [nviTrain, Exec.bind, e1, Comp.bind_assoc]
      congr 1
      funext z
      simp only [Comp.bind, Exec.lift, s1, trainRounds_chain T M K kw w F rows e1 hlw hloss s1, Comp.bind_assoc]
      congr 1
      funext r
      cases r <;> rfl

/-- A training run on chains that returns has one chain per iteration, starts from the given parameters, and goes on with the updated ones. -/
theorem trainChains_ok (M : Θ → AnnealModel L) (K : Nat) (update : Θ → (Nat → L.V) → Except Err Θ) (n : Nat) (θ : Θ)
    (s : Except Err (Θ × List (Θ × (Nat → L.V)))) :
    (trainChains M K update (n + 1) θ).Ret s ↔ ∃ z, ((M θ).chain K).Ret z ∧
      match update θ z with
      | .error e => s = .error e
      | .ok θ' => ∃ r, (trainChains M K update n θ').Ret r ∧ s = r.map fun x => (x.1, (θ, z) :: x.2) := by
  rw [trainChains, Comp.bind_Ret]
  refine exists_congr fun z => and_congr_right fun _ => ?_
  cases update θ z with
  | error e => exact eq_comm
  | ok θ' =>
    simp only [Comp.bind_Ret]
    refine exists_congr fun r => and_congr_right fun _ => ?_
    cases r <;> exact eq_comm

namespace Toy
/-- The toy annealing model with a parameter of the forward kernels. -/
def annealθ (θ : Int) : AnnealModel Toy.L := { anneal with f := fun k (v : Int × Int) => 3 + k + v.1 + θ }

/-- Two steps of it, trained by adding the log weight to the parameter. -/
def trainer : Trainer Toy.L Int where
  q θ := match vsmc 100 ((annealθ θ).initial annealIds :: (List.range 2).map ((annealθ θ).target annealIds))
      ((List.range 2).map ((annealθ θ).forward annealIds)) ((List.range 2).map ((annealθ θ).reverse annealIds))
      (fun o => .ok o.logWeight.val.1) none none with
    | .ok nd => nd
    | .error _ => (annealθ θ).initial annealIds
  update θ o := .ok (θ + o.logWeight.val.1)
  single _ := true

theorem trainer_q (θ : Int) : vsmc 100 ((annealθ θ).initial annealIds :: (List.range 2).map ((annealθ θ).target annealIds))
      ((List.range 2).map ((annealθ θ).forward annealIds)) ((List.range 2).map ((annealθ θ).reverse annealIds))
      (fun o => .ok o.logWeight.val.1) none none = .ok (trainer.q θ) := by
  obtain ⟨nd, h, -⟩ := C30_vsmc 100 (annealθ θ) annealIds Coin.ids_below (fun o => .ok o.logWeight.val.1) (fun _ _ _ => ⟨_, rfl⟩) none (Or.inl rfl) 2
  simp only [trainer]
  rw [h]
end Toy

/-- C73: two iterations over the toy language, all three calls drawing 1, 2, 3: the parameter is 0 for the first iteration, then 5, and -15 in the end. The
numbers reported are those of the log weights with parameter 0 and with parameter 5. -/
example : ∃ rep w', (nviTrain (L := Toy.L) (fun x => x.1) (fun x => -x.1) Toy.trainer {} 2 0).Runs Toy.w0 (.ok rep) w' ∧ rep.params = -15 ∧
    rep.ess = [[1, 5], [-9, -20]] ∧ rep.lZHat = [[-1, -5], [9, 20]] ∧ rep.loss.length = 2 := by
  obtain ⟨F, G, h1, h2, h3⟩ := (C73_chains (L := Toy.L) (fun x => x.1) (fun x => -x.1) Toy.trainer Toy.annealθ Toy.annealIds 100 Coin.ids_below
    (fun o => .ok o.logWeight.val.1) (fun _ _ _ => ⟨_, rfl⟩) none (Or.inl rfl) 2 Toy.trainer_q {} (fun e he => by cases he) Toy.w0 (fun _ => rfl) 2 0).2
    (by decide)
  let z : Nat → Toy.L.V := fun j => if j ≤ 1 then (if j ≤ 0 then (1, 1) else (2, 1)) else (3, 1)
  have hz : ∀ θ, ((Toy.annealθ θ).chain 2).Ret z := fun θ => ⟨(1, 1), (2, 1), (3, 1), rfl⟩
  have hu : ∀ θ, chainUpdate Toy.trainer Toy.annealθ 2 F θ z = .ok (θ + ((Toy.annealθ θ).weight z 2).1) := by
    intro θ
    simp only [chainUpdate, Toy.trainer, if_true]
    rw [(h1 θ z).1]
  have ht : (trainChains Toy.annealθ 2 (chainUpdate Toy.trainer Toy.annealθ 2 F) 2 0).Ret (.ok (-15, [(0, z), (5, z)])) := by
    rw [trainChains_ok]
    refine ⟨z, hz 0, ?_⟩
    rw [hu 0]
    refine ⟨.ok (-15, [(5, z)]), ?_, rfl⟩
    rw [trainChains_ok]
    refine ⟨z, hz _, ?_⟩
    rw [hu]
    refine ⟨.ok (-15, []), ?_, rfl⟩
    rw [trainChains, Comp.ret_Ret]
    exact congrArg (fun t : Int => Except.ok (t, [])) (show (_ : Int) = _ by decide)
  refine ⟨G (-15) [(0, z), (5, z)], Toy.w0, ?_, (h2 _ _).params, ?_, ?_, ?_⟩
  · show Comp.Ret _ _
    rw [h3, Comp.bind_Ret]
    refine ⟨z, hz 0, ?_⟩
    rw [Comp.bind_Ret]
    exact ⟨_, ht, rfl⟩
  · rw [(h2 _ _).ess]; decide
  · rw [(h2 _ _).lZHat]; decide
  · exact (h2 _ _).loss.length_eq.symm

namespace Toy
/-- The same with resampling. -/
def resampled : Trainer Toy.L Int where
  q θ := match vsmc 100 ((annealθ θ).initial annealIds :: [0, 1].map ((annealθ θ).target annealIds))
      ([0, 1].map ((annealθ θ).forward annealIds)) ([0, 1].map ((annealθ θ).reverse annealIds))
      (fun o => .ok o.logWeight.val.1) none (some keepAll) with
    | .ok nd => nd
    | .error _ => (annealθ θ).initial annealIds
  update θ o := .ok (θ + o.logWeight.val.1)
  single _ := true

/-- A call for the shapes and two more, the second with the updated parameter. -/
def threeCalls (vs : List Toy.L.V) : Bool :=
  match feed (eval (resampled.q 0) .none { debug := true } w0) vs with
  | some (.ok _, w₁) =>
    match feed (eval (resampled.q 0) .none { debug := true } w₁) vs with
    | some (.ok o, w₂) =>
      match feed (eval (resampled.q (0 + o.logWeight.val.1)) .none { debug := true } w₂) vs with
      | some (.ok _, _) => true
      | _ => false
    | _ => false
  | _ => false
end Toy

/-- C73: a run with resampling and two iterations, which reports two rows of two steps. -/
example : ∃ rep w', (nviTrain (L := Toy.L) (fun x => x.1) (fun x => -x.1) Toy.resampled {} 2 0).Runs Toy.w0 (.ok rep) w' ∧
    rep.loss.map List.length = [2, 2] := by
  have hc : Toy.threeCalls [(1, 1), (2, 1), (3, 1)] = true := by decide +kernel
  have hc : ∃ o₀ w₁ o₁ w₂ o₂ w₃, (eval (Toy.resampled.q 0) .none { debug := true }).Runs Toy.w0 (.ok o₀) w₁ ∧
      (eval (Toy.resampled.q 0) .none { debug := true }).Runs w₁ (.ok o₁) w₂ ∧
      (eval (Toy.resampled.q (0 + o₁.logWeight.val.1)) .none { debug := true }).Runs w₂ (.ok o₂) w₃ := by
    unfold Toy.threeCalls at hc
    split at hc
    · rename_i o₀ w₁ h1
      split at hc
      · rename_i o₁ w₂ h2
        split at hc
        · rename_i o₂ w₃ h3
          exact ⟨o₀, w₁, o₁, w₂, o₂, w₃, Toy.feed_Ret h1, Toy.feed_Ret h2, Toy.feed_Ret h3⟩
        · cases hc
      · cases hc
    · cases hc
  obtain ⟨o₀, w₁, o₁, w₂, o₂, w₃, h1, h2, h3⟩ := hc
  have hv : ∀ θ, vsmc 100 ((Toy.annealθ θ).initial Toy.annealIds :: [0, 1].map ((Toy.annealθ θ).target Toy.annealIds))
      ([0, 1].map ((Toy.annealθ θ).forward Toy.annealIds)) ([0, 1].map ((Toy.annealθ θ).reverse Toy.annealIds))
      (fun o => .ok o.logWeight.val.1) none (some Toy.keepAll) = .ok (Toy.resampled.q θ) := fun θ => rfl
  have hu : ∀ θ o, Toy.resampled.update θ o = .ok (θ + o.logWeight.val.1) := fun _ _ => rfl
  have hs : ∀ x, Toy.resampled.single x = true := fun _ => rfl
  generalize Toy.resampled = T at h1 h2 h3 hv hu hs ⊢
  have hp : ∀ θ, ∀ f ∈ [0, 1].map ((Toy.annealθ θ).forward Toy.annealIds), IsProg f := fun θ => by simp [IsProg, AnnealModel.forward]
  have k := fun θ => vsmc_stats 100 _ ⟨_, _, rfl⟩ _ _ _ (hp θ) 2 (by decide) ⟨rfl, by simp, by simp⟩ _ _ _ _ (hv θ) {}
  obtain ⟨r₁, x₁, c1, c2, c3⟩ := k _ _ _ _ h2
  obtain ⟨r₂, x₂, d1, d2, d3⟩ := k _ _ _ _ h3
  refine ⟨reportOf (fun x => x.1) (fun x => -x.1) (0 + o₁.logWeight.val.1 + o₂.logWeight.val.1) [r₁, r₂], w₃, ?_, by simp [reportOf, c2, d2]⟩
  refine (C73_nvi_train (L := Toy.L) _ _ T 2 (by decide) (fun _ => 100) _ (fun θ => ⟨_, _, rfl⟩) _ _ _ hp (fun θ => by simp) _ none _ hv {} 2 0 _ _ _).2
    ⟨o₀, w₁, [(0, o₁), (0 + o₁.logWeight.val.1, o₂)], [r₁, r₂], h1, rfl, ?_, ?_, rfl, rfl, rfl⟩
  · exact .step h2 (hu _ _) (.step h3 (hu _ _) (.done _ _))
  · exact .cons ⟨hs _, c1, c2, c3.1, x₁, c3.2⟩ (.cons ⟨hs _, d1, d2, d3.1, x₂, d3.2⟩ .nil)

end Verif
