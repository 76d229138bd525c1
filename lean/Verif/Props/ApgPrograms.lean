import Verif.Props.ApgFrames
import Verif.Proofs.ApgLaw
import Verif.Props.AnnealPrograms
import Mathlib.Tactic.IntervalCases
/-
C81: the programs of the bouncing shapes experiment, called on their own.
-/
namespace Verif
open Spec Apg
variable {L : Lang} {N : ApgNet L} {same : L.V → L.V → Bool} {e : Err}

/-- The result of an encoder: one variable, no loss. -/
structure ApgOneVar (name cls : String) (rv : RV L) (weight : LW L.W) (output : PyVal L) (o : Out L) : Prop where
  trace : o.trace.entries = [(name, rv)]
  output : o.output = output
  weight : o.logWeight = weight
  type : o.type = .program cls
  loss : o.loss = none

/-- The weight of a program whose one variable, with log density `x`, is held as `h` by the conditioning trace. -/
def heldWeight (h : Option (RV L)) (x : L.W) : LW L.W :=
  match h with
  | some rv => if rv.prov = .observed then .float0 else .tensor x
  | none => .float0

/-- The variable `a` as the conditioning trace of the object `i` holds it. -/
def heldAt (w : World L) (i : ObjId) (a : String) : Option (RV L) := (w.cond i).bind (·.get? a)

theorem one_eq (a : String) (r : RV L) : one a r = tr1 a r := rfl

theorem weight_one (cond : Option (Trace L)) (a : String) (r : RV L) (hr : r.prov ≠ .observed) :
    logJoint (one a r) (weightNodes cond (one a r)) = heldWeight (cond.bind (·.get? a)) r.logProb := by
  rw [one_eq, single_weight cond a r hr]
  rfl

/-- A model that raises at once leaves everything as it was. -/
theorem eval_raises {i : ObjId} {s : ProgSpec L} {c : PyVal L} {kw : Kw L} {w : World L}
    (hb : bindModel s.sig (receivedKwargs s.sig kw) = .ok ()) (hm : s.model c (receivedKwargs s.sig kw) = .raise e) :
    eval (.prog i s) c kw w = .ret (.error e, w) := by
  rw [eval_prog_apply, hb]
  simp only [hm, runModel]
  rfl

theorem run_sampled {cond : Option (Trace L)} {name : String} {d : L.D} {p : Option Prov} {rep : Bool} {k : L.V → MTree L} {t : Trace L}
    {w : World L} (hn : t.contains name = false) (hv : variableValue cond name none p = none) :
    runModel cond (.variable name d none p rep k) t w = .draw d rep fun v => runModel cond (k v) (t.insert name (RV.mk' d v .sampled rep)) w := by
  have : runModel cond (.variable name d none p rep k) t = fun w => .draw d rep fun v =>
      runModel cond (k v) (t.insert name (RV.mk' d v .sampled rep)) w := by
    simp only [runModel, hv]
    exact if_neg (by simp [hn])
  rw [this]

theorem run_held {cond : Option (Trace L)} {name : String} {d : L.D} {v' : Option L.V} {p : Option Prov} {rep : Bool} {k : L.V → MTree L} {t : Trace L}
    {w : World L} {v : L.V} {q : Prov} (hn : t.contains name = false) (hv : variableValue cond name v' p = some (v, q)) :
    runModel cond (.variable name d v' p rep k) t w = runModel cond (k v) (t.insert name (RV.mk' d v q rep)) w := by
  simp only [runModel, hn, Bool.false_eq_true, if_false, hv]

theorem apg_getItem_none {s : Store L} (hs : s.hooks = apgHooks same) {k : String} (h : s.data.get? k = none) : s.getItem k = (.error .key, s) := by
  obtain ⟨d, hk⟩ := s
  subst hs
  unfold Store.getItem
  simp only [apgHooks, Hooks.noop, h]

/-- Every run of `m` in `w` raises `e` and leaves the world as it was. -/
def OnlyRaises (e : Err) (w : World L) {α : Type} (m : Exec L α) : Prop := ∀ r w', m.Runs w r w' → r = .error e ∧ w' = w

theorem onlyRaises_variable {w : World L} {cond : Option (Trace L)} {name : String} {d : L.D} {v : Option L.V} {p : Option Prov} {rep : Bool} {k : L.V → MTree L}
    {t : Trace L} (hn : t.contains name = false) (h : ∀ v rv, rv.value = v → OnlyRaises e w (runModel cond (k v) (t.insert name rv))) :
    OnlyRaises e w (runModel cond (.variable name d v p rep k) t) := by
  intro r w' hr
  simp only [runModel, hn, Bool.false_eq_true, if_false] at hr
  split at hr
  · exact h _ _ (by simp [RV.mk']) r w' hr
  · obtain ⟨v, hr⟩ := hr
    exact h _ _ (by simp [RV.mk']) r w' hr

theorem onlyRaises_get {w : World L} {cond : Option (Trace L)} {key : String} {k : PyVal L → MTree L} {t : Trace L} (hw : w.store.hooks = apgHooks same)
    (h : w.store.data.get? key = none) : OnlyRaises .key w (runModel cond (.storeGet key k) t) := by
  intro r w' hr
  simp only [runModel, Exec.Runs, Exec.bind, Exec.onStore, apg_getItem_none hw h, Comp.bind_ret, Comp.ret_Ret, Prod.mk.injEq] at hr
  exact ⟨hr.1.symm, hr.2.symm⟩

theorem onlyRaises_prog {e : Err} {w : World L} {i : ObjId} {s : ProgSpec L} {c : PyVal L} {kw : Kw L}
    (hb : bindModel s.sig (receivedKwargs s.sig kw) = .ok ())
    (key : OnlyRaises e w (runModel (w.cond i) (s.model c (receivedKwargs s.sig kw)) Dict.empty)) : OnlyRaises e w (eval (.prog i s) c kw) := by
  intro r w' hr
  unfold Exec.Runs at hr
  rw [eval_prog_apply, hb] at hr
  simp only [Comp.bind_Ret, Comp.ret_Ret] at hr
  obtain ⟨⟨y, w1⟩, hy, he⟩ := hr
  obtain ⟨rfl, rfl⟩ := key y w1 hy
  simp only [Prod.mk.injEq] at he
  exact ⟨he.1.symm, he.2.symm⟩

theorem onlyRaises_raise {e : Err} {w : World L} {cond : Option (Trace L)} {t : Trace L} {α : Type} {k : α → MTree L} :
    OnlyRaises e w (runModel cond (andThen (.error e) k) t) := by
  intro r w' hr
  simp only [andThen, runModel, Exec.Runs, Exec.throw, Comp.ret_Ret, Prod.mk.injEq] at hr
  exact ⟨hr.1.symm, hr.2.symm⟩

theorem variableValue_heldAt {w : World L} {i : ObjId} {a : String} {p : Option Prov} {rv : RV L} (h : heldAt w i a = some rv) :
    variableValue (w.cond i) a none p = some (rv.value, .reused) := by
  unfold heldAt at h
  cases hc : w.cond i with
  | none => rw [hc] at h; simp at h
  | some c => rw [hc] at h; simp only [variableValue]; simp only [Option.bind_some] at h; rw [h]; rfl

theorem variableValue_unheld {w : World L} {i : ObjId} {a : String} {p : Option Prov} (h : heldAt w i a = none) :
    variableValue (w.cond i) a none p = none := by
  unfold heldAt at h
  cases hc : w.cond i with
  | none => rfl
  | some c => rw [hc] at h; simp only [variableValue]; simp only [Option.bind_some] at h; rw [h]; rfl

/-- A drawn appearance cannot be decoded. -/
theorem onlyRaises_drawn {w : World L} {i : ObjId} {s : Int} {d : L.D} {rep : Bool} {k : Int → L.V → MTree L} {t : Trace L}
    (hn : t.contains (zWhatName s) = false) (hh : heldAt w i (zWhatName s) = none) :
    OnlyRaises .value w (runModel (w.cond i) (andThen (.ok s) fun s => .variable (zWhatName s) d none none rep fun what => .getTrace fun tr =>
      andThen (unpackWhat tr (zWhatName s)) fun _ => k s what) t) := by
  intro r w' hr
  unfold Exec.Runs at hr
  rw [andThen_ok rfl, run_sampled hn (variableValue_unheld hh)] at hr
  simp only [Comp.draw_Ret] at hr
  obtain ⟨v, hr⟩ := hr
  simp only [runModel] at hr
  rw [show unpackWhat (t.insert (zWhatName s) (RV.mk' d v .sampled rep)) (zWhatName s) = .error .value by simp [unpackWhat, RV.mk']] at hr
  exact onlyRaises_raise (k := fun _ : Unit => k s v) r w' hr

/-- Whatever positions are drawn or taken from the conditioning trace, what remains raises. -/
theorem onlyRaises_decWheres {e : Err} {N : ApgNet L} {w : World L} (hh : w.store.hooks = apgHooks same) {ix : ApgIx} (h0 : 0 ≤ ix.t) (x : Nat → L.V)
    {cond : Option (Trace L)} {k : List L.V → MTree L} (m : Nat) : ∀ (a : Nat) (zs : List L.V) (t : Trace L),
    (∀ j : Nat, j < a + m → (j : Int) ≤ ix.t → w.store.data.get? (zWhereName j ix.sweep) = some (.weakref (x j))) →
    (∀ n, t.contains n = true → ∃ (j : Nat) (s : Int), j < a ∧ n = zWhereName j s) →
    (∀ zs t, (∀ n, t.contains n = true → ∃ (j : Nat) (s : Int), j < a + m ∧ n = zWhereName j s) → OnlyRaises e w (runModel cond (k zs) t)) →
    OnlyRaises e w (runModel cond (decWheres N ix (List.range' a m) zs k) t) := by
  induction m with
  | zero => exact fun a zs t _ ht h => h zs t ht
  | succ m ih =>
    intro a zs t hst ht h
    rw [List.range'_succ]
    have hfresh : ∀ s, t.contains (zWhereName a s) = false := by
      intro s
      rw [Bool.eq_false_iff]
      intro hc
      obtain ⟨j, s', hj, he⟩ := ht _ hc
      have := ((C42_z_where_injective _ _ _ _).1 he).1
      omega
    have hgo : ∀ s (rv : RV L) v, OnlyRaises e w (runModel cond (decWheres N ix (List.range' (a + 1) m) (zs ++ [v]) k) (t.insert (zWhereName a s) rv)) := by
      intro s rv v
      refine ih (a + 1) _ _ (fun j hj => hst j (by omega)) ?_ ?_
      · intro n hn
        rw [Dict.contains_iff, Dict.mem_keys_insert, ← Dict.contains_iff] at hn
        rcases hn with rfl | hn
        · exact ⟨a, s, by omega, rfl⟩
        · obtain ⟨j, s', hj, he⟩ := ht _ hn
          exact ⟨j, s', by omega, he⟩
      · intro zs' t' h'
        exact h zs' t' fun n hn => (h' n hn).imp fun j h => h.imp fun s h => ⟨by omega, h.2⟩
    have hfrom : ∀ (b : Nat) (s : Int), b < a + (m + 1) → (b : Int) ≤ ix.t →
        OnlyRaises e w (runModel cond (whereFrom N (zWhereName b ix.sweep) (zWhereName a s) fun v => decWheres N ix (List.range' (a + 1) m) (zs ++ [v]) k) t) := by
      intro b s hb hb'
      unfold whereFrom
      intro r w' hr
      simp only [runModel, Exec.Runs, Exec.bind, Exec.onStore, apg_getItem hh (hst b hb hb'), Comp.bind_ret] at hr
      rw [andThen_ok (show deref (.weakref (x b)) = .ok (x b) from rfl)] at hr
      refine onlyRaises_variable (hfresh s) (fun v rv hv => ?_) r w' hr
      simp only [runModel]
      rw [andThen_ok (a := rv.value) (by simp [traceValue])]
      exact hgo s rv _
    unfold decWheres
    split
    · split
      · rename_i h1 h2
        subst h2
        refine onlyRaises_variable (hfresh _) fun v rv hv => ?_
        simp only [runModel]
        rw [andThen_ok (a := rv.value) (by simp [traceValue])]
        exact hgo _ rv _
      · rename_i h1 h2
        have := hfrom (a - 1) ix.sweep (by omega) (by omega)
        rwa [show (((a - 1 : Nat)) : Int) = (a : Int) - 1 by omega] at this
    · obtain ⟨b, hb⟩ := Int.eq_ofNat_of_zero_le h0
      have := hfrom b (ix.sweep - 1) (by omega) (by omega)
      rw [← hb] at this
      split <;> exact this

section Coor
variable (i : ObjId) (ix : ApgIx) (kvs : List (String × PyVal L)) (kw : Kw L) (w : World L) (hk : KwOk kw) (hix : kw.ix = ix.toPy)
include hk hix

/-- C81, position encoder, what its input has to be: it raises KeyError without frames; KeyError, after the first sweep, without the
appearance of the sweep before; IndexError when the frames do not have the time; ValueError when the direction is neither of the two.
Nothing is drawn or stored. -/
theorem C81_coor_input :
    (getL kvs "frames" = none → eval (.prog i (encCoorProg N)) (.dict kvs) kw w = .ret (.error .key, w)) ∧
    ∀ frames, getL kvs "frames" = some (.tensor frames) →
      (ix.sweep ≠ 0 → getL kvs (zWhatName (ix.sweep - 1)) = none → eval (.prog i (encCoorProg N)) (.dict kvs) kw w = .ret (.error .key, w)) ∧
      (ix.sweep = 0 ∨ (∃ v, getL kvs (zWhatName (ix.sweep - 1)) = some (.tensor v)) →
        (ix.t < -(N.timesteps frames : Int) ∨ (N.timesteps frames : Int) ≤ ix.t →
          eval (.prog i (encCoorProg N)) (.dict kvs) kw w = .ret (.error .index, w)) ∧
        (-(N.timesteps frames : Int) ≤ ix.t → ix.t < (N.timesteps frames : Int) → ix.dir ≠ "forward" → ix.dir ≠ "reverse" →
          eval (.prog i (encCoorProg N)) (.dict kvs) kw w = .ret (.error .value, w))) := by
  have hb : bindModel (encCoorProg N).sig (receivedKwargs (encCoorProg N).sig kw) = .ok () := bindModel_ok hk (by rfl)
  have hi : ixOf (receivedKwargs (encCoorProg N).sig kw) = .ok ix := ixOf_received _ (by simp [encCoorProg]) kw ix hix
  refine ⟨fun h => eval_raises hb ?_, fun frames hf => ?_⟩
  · show andThen (ixOf (receivedKwargs (encCoorProg N).sig kw)) _ = _
    rw [andThen_ok hi]
    simp only [item, h]
    rfl
  have hfr : item (.dict kvs) "frames" = .ok frames := by simp only [item, hf]
  refine ⟨fun hs h => eval_raises hb ?_, fun hw => ?_⟩
  · show andThen (ixOf (receivedKwargs (encCoorProg N).sig kw)) _ = _
    rw [andThen_ok hi, andThen_ok hfr]
    simp only [convKernel, if_neg hs, item, h]
    rfl
  obtain ⟨what, hwhat⟩ : ∃ what, convKernel (.dict kvs) ix = .ok what := by
    unfold convKernel
    by_cases h0 : ix.sweep = 0
    · exact ⟨none, by rw [if_pos h0]⟩
    · obtain ⟨v, hv⟩ := hw.resolve_left h0
      exact ⟨some v, by simp only [if_neg h0, item, hv]⟩
  refine ⟨fun h => eval_raises hb ?_, fun h1 h2 h3 h4 => eval_raises hb ?_⟩
  · show andThen (ixOf (receivedKwargs (encCoorProg N).sig kw)) _ = _
    rw [andThen_ok hi, andThen_ok hfr, andThen_ok hwhat, if_pos h]
  · show andThen (ixOf (receivedKwargs (encCoorProg N).sig kw)) _ = _
    rw [andThen_ok hi, andThen_ok hfr, andThen_ok hwhat, if_neg (by omega)]
    simp only [isForward, if_neg h3, if_neg h4]
    rfl

variable (frames : L.V) (hf : getL kvs "frames" = some (.tensor frames)) (h1 : -(N.timesteps frames : Int) ≤ ix.t)
  (h2 : ix.t < (N.timesteps frames : Int)) (what : Option L.V)
  (hw : (ix.sweep = 0 ∧ what = none) ∨ ix.sweep ≠ 0 ∧ ∃ v, what = some v ∧ getL kvs (zWhatName (ix.sweep - 1)) = some (.tensor v))
include hf h1 h2 hw

theorem coor_model : encCoorModel N (.dict kvs) (receivedKwargs (encCoorProg N).sig kw) =
    andThen (isForward ix) fun fwd =>
      if fwd then coorForward N frames ix.t what N.objects [] (coorForwardEnd N (.dict kvs) ix frames what)
      else coorReverse N (zWhereName ix.t (ix.sweep - 1)) (coorReverseEnd N ix frames what) := by
  have hi : ixOf (receivedKwargs (encCoorProg N).sig kw) = .ok ix := ixOf_received _ (by simp [encCoorProg]) kw ix hix
  have hfr : item (.dict kvs) "frames" = .ok frames := by simp only [item, hf]
  have hwhat : convKernel (.dict kvs) ix = .ok what := by
    unfold convKernel
    rcases hw with ⟨h0, rfl⟩ | ⟨h0, v, rfl, hv⟩
    · rw [if_pos h0]
    · simp only [if_neg h0, item, hv]
  unfold encCoorModel
  rw [andThen_ok hi, andThen_ok hfr, andThen_ok hwhat, if_neg (by omega)]

/-- C81, position encoder, forward: it draws the objects' positions one after the other, each given those before, from the frame of its time
(counted from the end if negative) and the appearance of the sweep before (the mean shape in sweep 0); a conditioning trace does not
matter for that. The positions are stored together as one variable marked SAMPLED, in the trace and in the global store; the input is
returned, in sweep 0 with the positions added. -/
theorem C81_coor_forward (hd : ix.dir = "forward") (hh : w.store.hooks = apgHooks same) :
    ∃ F : List L.V → Out L, eval (.prog i (encCoorProg N)) (.dict kvs) kw w =
        (coorDraws N frames ix.t what N.objects []).bind (fun zs => .ret (.ok (F zs), w.put (zWhereName ix.t ix.sweep) (N.stack zs))) ∧
      ∀ zs, ApgOneVar (zWhereName ix.t ix.sweep) "Enc_coor" (RV.mk' (N.coorDist frames ix.t what zs) (N.stack zs) .sampled N.reparam)
        (heldWeight (heldAt w i (zWhereName ix.t ix.sweep)) (L.logProb (N.coorDist frames ix.t what zs) (N.stack zs)))
        (.dict (if ix.sweep = 0 then insertL kvs (zWhereName ix.t ix.sweep) (.tensor (N.stack zs)) else kvs)) (F zs) := by
  have hm := coor_model (N := N) ix kvs kw hk hix frames hf h1 h2 what hw
  have hfw : isForward ix = .ok true := by simp only [isForward, if_pos hd]
  have key : (eval (.prog i (encCoorProg N)) (.dict kvs) kw).Draws w (coorDraws N frames ix.t what N.objects []) fun zs o w' =>
      w' = w.put (zWhereName ix.t ix.sweep) (N.stack zs) ∧
      ApgOneVar (zWhereName ix.t ix.sweep) "Enc_coor" (RV.mk' (N.coorDist frames ix.t what zs) (N.stack zs) .sampled N.reparam)
        (heldWeight (heldAt w i (zWhereName ix.t ix.sweep)) (L.logProb (N.coorDist frames ix.t what zs) (N.stack zs)))
        (.dict (if ix.sweep = 0 then insertL kvs (zWhereName ix.t ix.sweep) (.tensor (N.stack zs)) else kvs)) o := by
    refine draws_prog (s := encCoorProg N) (bindModel_ok hk (by rfl)) ?_
    show (runModel _ (encCoorModel N (.dict kvs) (receivedKwargs (encCoorProg N).sig kw)) _).Draws _ _ _
    rw [hm, andThen_ok hfw, if_pos rfl]
    refine draws_coorForward fun zs => ?_
    unfold coorForwardEnd
    refine done_given rfl ?_
    simp only [runModel]
    refine Exec.Done.onStore_bind (apg_setItem hh _ _) ?_
    refine Exec.Done.pure ⟨rfl, rfl, ?_, weight_one _ _ _ (by simp [RV.mk']), rfl, rfl⟩
    by_cases h : ix.sweep = 0 <;> simp [h]
  obtain ⟨F, hF, hQ⟩ := key
  refine ⟨fun zs => (F zs).1, ?_, fun zs => (hQ zs).2⟩
  rw [hF]
  congr 1
  funext zs
  rw [(hQ zs).1]

/-- C81, position encoder, in reverse: without a conditioning trace it raises TypeError, and KeyError when the trace does not have the
positions of the sweep before (if there are objects at all); otherwise it draws nothing and gives them the density they have under
the kernel - where each object's density depends on the ones before. It stores nothing and returns None. -/
theorem C81_coor_reverse (hd : ix.dir = "reverse") :
    (w.cond i = none → 0 < N.objects → eval (.prog i (encCoorProg N)) (.dict kvs) kw w = .ret (.error .type, w)) ∧
    (∀ c, w.cond i = some c → c.get? (zWhereName ix.t (ix.sweep - 1)) = none → 0 < N.objects →
      eval (.prog i (encCoorProg N)) (.dict kvs) kw w = .ret (.error .key, w)) ∧
    ∀ rv, heldAt w i (zWhereName ix.t (ix.sweep - 1)) = some rv → ∃ o, eval (.prog i (encCoorProg N)) (.dict kvs) kw w = .ret (.ok o, w) ∧
      ApgOneVar (zWhereName ix.t (ix.sweep - 1)) "Enc_coor"
        (RV.mk' (N.coorDist frames ix.t what ((List.range N.objects).map (N.slice rv.value))) rv.value .reused N.reparam)
        (if rv.prov = .observed then .float0
         else .tensor (L.logProb (N.coorDist frames ix.t what ((List.range N.objects).map (N.slice rv.value))) rv.value)) .none o := by
  have hm := coor_model (N := N) ix kvs kw hk hix frames hf h1 h2 what hw
  have hb : bindModel (encCoorProg N).sig (receivedKwargs (encCoorProg N).sig kw) = .ok () := bindModel_ok hk (by rfl)
  have hfw : isForward ix = .ok false := by
    simp only [isForward]
    rw [if_neg (by rw [hd]; decide), if_pos hd]
  have hmm : (encCoorProg N).model (.dict kvs) (receivedKwargs (encCoorProg N).sig kw) =
      coorReverse N (zWhereName ix.t (ix.sweep - 1)) (coorReverseEnd N ix frames what) := by
    show encCoorModel N (.dict kvs) (receivedKwargs (encCoorProg N).sig kw) = _
    rw [hm, andThen_ok hfw]
    rfl
  refine ⟨fun hc ho => ?_, fun c hc hn ho => ?_, fun rv hrv => ?_⟩
  · rw [eval_prog_apply, hb, hmm, hc]
    unfold coorReverse
    rw [if_neg (by omega)]
    simp only [runModel]
    rfl
  · rw [eval_prog_apply, hb, hmm, hc]
    unfold coorReverse
    rw [if_neg (by omega)]
    simp only [runModel, traceValue, hn]
    rfl
  · obtain ⟨c, hc, hg⟩ : ∃ c, w.cond i = some c ∧ c.get? (zWhereName ix.t (ix.sweep - 1)) = some rv := by
      simpa [heldAt, Option.bind_eq_some_iff] using hrv
    have key : (eval (.prog i (encCoorProg N)) (.dict kvs) kw).Done w fun o w' => w' = w ∧
        ApgOneVar (zWhereName ix.t (ix.sweep - 1)) "Enc_coor"
          (RV.mk' (N.coorDist frames ix.t what ((List.range N.objects).map (N.slice rv.value))) rv.value .reused N.reparam)
          (if rv.prov = .observed then .float0
           else .tensor (L.logProb (N.coorDist frames ix.t what ((List.range N.objects).map (N.slice rv.value))) rv.value)) .none o := by
      refine done_prog hb ?_
      rw [hmm, hc]
      have hz : ∀ zs, zs = (List.range N.objects).map (N.slice rv.value) →
          (runModel (some c) (coorReverseEnd N ix frames what zs) Dict.empty).Done w fun r w' => w' = w ∧
            ApgOneVar (zWhereName ix.t (ix.sweep - 1)) "Enc_coor"
              (RV.mk' (N.coorDist frames ix.t what ((List.range N.objects).map (N.slice rv.value))) rv.value .reused N.reparam)
              (if rv.prov = .observed then .float0
               else .tensor (L.logProb (N.coorDist frames ix.t what ((List.range N.objects).map (N.slice rv.value))) rv.value)) .none
              (Out.mk r.2 (logJoint r.2 (weightNodes (some c) r.2)) r.1 (.program "Enc_coor") none none none none []) := by
        rintro zs rfl
        unfold coorReverseEnd
        refine done_reused rfl hg ?_
        refine Exec.Done.pure ⟨rfl, rfl, rfl, ?_, rfl, rfl⟩
        refine (weight_one (some c) _ _ (by simp [RV.mk'])).trans ?_
        simp only [Option.bind_some, hg, heldWeight]
        rfl
      unfold coorReverse
      split
      · exact hz _ (by simp [*])
      · simp only [runModel]
        rw [andThen_ok (show traceValue c (zWhereName ix.t (ix.sweep - 1)) = .ok rv.value by simp [traceValue, hg])]
        exact hz _ rfl
    obtain ⟨o, w', h3, rfl, h4⟩ := key
    exact ⟨o, h3, h4⟩

end Coor

section Digit
variable (i : ObjId) (ix : ApgIx) (kvs : List (String × PyVal L)) (kw : Kw L) (w : World L) (hk : KwOk kw) (hix : kw.ix = ix.toPy)
include hk hix

/-- C81, appearance encoder, what its input has to be: it raises KeyError without frames, and when the position of some frame in this
sweep (or, without frames, of time 0) is missing; ValueError when the direction is neither of the two. Nothing is drawn or stored. -/
theorem C81_digit_input :
    (getL kvs "frames" = none → eval (.prog i (encDigitProg N)) (.dict kvs) kw w = .ret (.error .key, w)) ∧
    ∀ frames, getL kvs "frames" = some (.tensor frames) →
      (∀ m : Nat, m = 0 ∨ m < N.timesteps frames → getL kvs (zWhereName m ix.sweep) = none →
        (∀ j : Nat, j < m → ∃ v, getL kvs (zWhereName j ix.sweep) = some (.tensor v)) →
        eval (.prog i (encDigitProg N)) (.dict kvs) kw w = .ret (.error .key, w)) ∧
      ((∀ j : Nat, j = 0 ∨ j < N.timesteps frames → ∃ v, getL kvs (zWhereName j ix.sweep) = some (.tensor v)) →
        ix.dir ≠ "forward" → ix.dir ≠ "reverse" → eval (.prog i (encDigitProg N)) (.dict kvs) kw w = .ret (.error .value, w)) := by
  have hb : bindModel (encDigitProg N).sig (receivedKwargs (encDigitProg N).sig kw) = .ok () := bindModel_ok hk (by rfl)
  have hi : ixOf (receivedKwargs (encDigitProg N).sig kw) = .ok ix := ixOf_received _ (by simp [encDigitProg]) kw ix hix
  refine ⟨fun h => eval_raises hb ?_, fun frames hf => ?_⟩
  · show andThen (ixOf (receivedKwargs (encDigitProg N).sig kw)) _ = _
    rw [andThen_ok hi]
    simp only [item, h]
    rfl
  have hfr : item (.dict kvs) "frames" = .ok frames := by simp only [item, hf]
  refine ⟨fun m hm hn hj => eval_raises hb ?_, fun hj h3 h4 => eval_raises hb ?_⟩
  · show andThen (ixOf (receivedKwargs (encDigitProg N).sig kw)) _ = _
    rw [andThen_ok hi, andThen_ok hfr]
    have hr : readWheres (.dict kvs) ix.sweep (N.timesteps frames) = .error .key := by
      have hkey : item (.dict kvs) (zWhereName m ix.sweep) = .error .key := by simp only [item, hn]
      rcases hm with rfl | hm
      · unfold readWheres
        rw [show ((0 : Nat) : Int) = 0 from rfl] at hkey
        rw [hkey]
        rfl
      · refine readWheres_long hm (fun j h => ?_) hkey
        obtain ⟨v, hv⟩ := hj j h
        exact ⟨v, by simp only [item, hv]⟩
    rw [hr]
    rfl
  · show andThen (ixOf (receivedKwargs (encDigitProg N).sig kw)) _ = _
    haveI : Nonempty L.V := ⟨frames⟩
    choose! val hval using hj
    obtain ⟨zs, hz⟩ : ∃ zs, readWheres (.dict kvs) ix.sweep (N.timesteps frames) = .ok zs := by
      refine ⟨(List.range (N.timesteps frames)).map val, ?_⟩
      unfold readWheres
      have h0 := hval 0 (Or.inl rfl)
      rw [show ((0 : Nat) : Int) = 0 from rfl] at h0
      have hzs := mapM_map_ok (fun t : Nat => item (.dict kvs) (zWhereName t ix.sweep)) val (List.range (N.timesteps frames)) fun a ha => by
        simp only [item, hval a (Or.inr (by simpa using ha))]
      rw [hzs]
      simp only [item, h0]
      rfl
    rw [andThen_ok hi, andThen_ok hfr, andThen_ok hz]
    simp only [isForward, if_neg h3, if_neg h4]
    rfl

/-- C81, appearance encoder: its variable is the appearance of this sweep (forward) or of the sweep before (in reverse). It is drawn from the
kernel given the frames and this sweep's positions, unless the conditioning trace holds it: then that value is taken over, at its density
under the kernel. Forward, the value is put into the global store. It returns None. -/
theorem C81_digit (fwd : Bool) (hd : ix.dir = if fwd then "forward" else "reverse") (hh : w.store.hooks = apgHooks same) (frames : L.V)
    (hf : getL kvs "frames" = some (.tensor frames)) (hpos : 0 < N.timesteps frames) (val : Nat → L.V)
    (hz : ∀ j : Nat, j < N.timesteps frames → getL kvs (zWhereName j ix.sweep) = some (.tensor (val j))) (name : String)
    (hn : name = if fwd then zWhatName ix.sweep else zWhatName (ix.sweep - 1)) (d : L.D)
    (hdd : d = N.digitDist frames ((List.range (N.timesteps frames)).map val)) :
    (heldAt w i name = none → ∃ F : L.V → Out L, eval (.prog i (encDigitProg N)) (.dict kvs) kw w =
        .draw d N.reparam (fun v => .ret (.ok (F v), if fwd then w.put name v else w)) ∧
      ∀ v, ApgOneVar name "Enc_digit" (RV.mk' d v .sampled N.reparam) .float0 .none (F v)) ∧
    ∀ rv, heldAt w i name = some rv → ∃ o, eval (.prog i (encDigitProg N)) (.dict kvs) kw w =
        .ret (.ok o, if fwd then w.put name rv.value else w) ∧
      ApgOneVar name "Enc_digit" (RV.mk' d rv.value .reused N.reparam) (if rv.prov = .observed then .float0 else .tensor (L.logProb d rv.value)) .none o := by
  have hb : bindModel (encDigitProg N).sig (receivedKwargs (encDigitProg N).sig kw) = .ok () := bindModel_ok hk (by rfl)
  have hi : ixOf (receivedKwargs (encDigitProg N).sig kw) = .ok ix := ixOf_received _ (by simp [encDigitProg]) kw ix hix
  have hfr : item (.dict kvs) "frames" = .ok frames := by simp only [item, hf]
  have hfw : isForward ix = .ok fwd := by
    unfold isForward
    cases fwd <;> simp [hd]
  have hname : zWhatName (if fwd then ix.sweep else ix.sweep - 1) = name := by
    rw [hn]; cases fwd <;> rfl
  have hmm : (encDigitProg N).model (.dict kvs) (receivedKwargs (encDigitProg N).sig kw) =
      .variable name d none none N.reparam fun z => if fwd then .storeSet name (.weakref z) (.ret .none) else .ret .none := by
    show encDigitModel N (.dict kvs) (receivedKwargs (encDigitProg N).sig kw) = _
    unfold encDigitModel
    rw [andThen_ok hi, andThen_ok hfr, andThen_ok (readWheres_ok (val := val) hpos fun j hj => by simp only [item, hz j hj]), andThen_ok hfw]
    unfold digitEnd
    rw [hname, hdd]
    congr 1
    funext z
    cases fwd
    · rfl
    · simp only [if_true] at hname ⊢
      rw [hname]
  have hrun : ∀ (cond : Option (Trace L)) (t : Trace L) (v : L.V),
      runModel cond (if fwd then .storeSet name (.weakref v) (.ret .none) else .ret .none : MTree L) t w =
        .ret (.ok (.none, t), if fwd then w.put name v else w) := by
    intro cond t v
    cases fwd
    · rfl
    · simp only [if_true, runModel, Exec.bind, Exec.onStore, apg_setItem hh, Comp.bind_ret]
      rfl
  have hne : (Dict.empty : Trace L).contains name = false := rfl
  constructor
  · intro h
    refine ⟨fun v => Out.mk (one name (RV.mk' d v .sampled N.reparam)) (logJoint (one name (RV.mk' d v .sampled N.reparam))
      (weightNodes (w.cond i) (one name (RV.mk' d v .sampled N.reparam)))) .none (.program "Enc_digit") none none none none [], ?_,
      fun v => ⟨rfl, rfl, ?_, rfl, rfl⟩⟩
    · have hv : variableValue (w.cond i) name none none = none := by
        unfold heldAt at h
        cases hc : w.cond i with
        | none => rfl
        | some c => rw [hc] at h; simp only [variableValue]; simp only [Option.bind_some] at h; rw [h]; rfl
      rw [eval_prog_apply, hb, hmm]
      simp only []
      rw [run_sampled hne hv]
      simp only [hrun]
      rfl
    · refine (weight_one _ _ _ (by simp [RV.mk'])).trans ?_
      unfold heldAt at h
      rw [h]
      rfl
  · intro rv h
    refine ⟨Out.mk (one name (RV.mk' d rv.value .reused N.reparam)) (logJoint (one name (RV.mk' d rv.value .reused N.reparam))
      (weightNodes (w.cond i) (one name (RV.mk' d rv.value .reused N.reparam)))) .none (.program "Enc_digit") none none none none [], ?_,
      ⟨rfl, rfl, ?_, rfl, rfl⟩⟩
    · have hv : variableValue (w.cond i) name none none = some (rv.value, .reused) := by
        unfold heldAt at h
        cases hc : w.cond i with
        | none => rw [hc] at h; simp at h
        | some c => rw [hc] at h; simp only [variableValue]; simp only [Option.bind_some] at h; rw [h]; rfl
      rw [eval_prog_apply, hb, hmm]
      simp only []
      rw [run_held hne hv, hrun]
      rfl
    · refine (weight_one _ _ _ (by simp [RV.mk'])).trans ?_
      unfold heldAt at h
      rw [h]
      rfl

end Digit

section Decoder
variable (i : ObjId) (ix : ApgIx) (kvs : List (String × PyVal L)) (kw : Kw L) (w : World L) (hk : KwOk kw) (hix : kw.ix = ix.toPy)
  (frames : L.V) (hf : getL kvs "frames" = some (.tensor frames)) (hh : w.store.hooks = apgHooks same)
include hk hix hf hh

/-- C81, decoder: the generative model cannot be run on its own. While the global store does not have the position of time 0 in this sweep,
every call with two or more frames raises KeyError, whatever the conditioning trace: at the second position, whose prior it takes from the
store instead of from its own first position. -/
theorem C81_decoder_alone (h0 : 0 ≤ ix.t) (hs : w.store.data.get? (zWhereName 0 ix.sweep) = none) (hT : 2 ≤ N.timesteps frames)
    (r : Except Err (Out L)) (w' : World L) (hr : (eval (.prog i (decProg N)) (.dict kvs) kw).Runs w r w') : r = .error .key ∧ w' = w := by
  have hi : ixOf (receivedKwargs (decProg N).sig kw) = .ok ix := ixOf_received _ (by simp [decProg]) kw ix hix
  have hfr : item (.dict kvs) "frames" = .ok frames := by simp only [item, hf]
  refine onlyRaises_prog (s := decProg N) (bindModel_ok hk (by rfl)) ?_ r w' hr
  show OnlyRaises .key w (runModel (w.cond i) (decModel N (.dict kvs) (receivedKwargs (decProg N).sig kw)) Dict.empty)
  unfold decModel
  rw [andThen_ok hi, andThen_ok hfr]
  obtain ⟨T, hT⟩ : ∃ T, N.timesteps frames = T + 2 := ⟨N.timesteps frames - 2, by omega⟩
  rw [hT, show List.range (T + 2) = 0 :: 1 :: List.range' 2 T by
    rw [List.range_eq_range', List.range'_succ, List.range'_succ]]
  unfold decWheres
  rw [if_pos (by simpa using h0), if_pos rfl]
  refine onlyRaises_variable rfl fun v rv hv => ?_
  simp only [runModel]
  rw [andThen_ok (a := rv.value) (by simp [traceValue])]
  unfold decWheres
  have hget : ∀ name (k : L.V → MTree L) (t : Trace L), OnlyRaises .key w (runModel (w.cond i) (whereFrom N (zWhereName 0 ix.sweep) name k) t) :=
    fun name k t => onlyRaises_get hh hs
  split
  · rw [if_neg (by decide)]
    exact hget _ _ _
  · have : ix.t = 0 := by omega
    rw [if_pos (by omega), this]
    exact hget _ _ _

/-- C81, decoder, with one frame and without the position in the global store: if the conditioning trace has the appearance it raises
KeyError, when it collects its output; otherwise ValueError, when it decodes the appearance that it has drawn. -/
theorem C81_decoder_one (hs : w.store.data.get? (zWhereName 0 ix.sweep) = none) (hT : N.timesteps frames = 1) (s : Int)
    (hi : ix.t = 1 ∧ s = ix.sweep ∨ ix.t = 0 ∧ 0 < ix.sweep ∧ s = ix.sweep - 1)
    (r : Except Err (Out L)) (w' : World L) (hr : (eval (.prog i (decProg N)) (.dict kvs) kw).Runs w r w') :
    r = .error (if (heldAt w i (zWhatName s)).isSome then .key else .value) ∧ w' = w := by
  have hix' : ixOf (receivedKwargs (decProg N).sig kw) = .ok ix := ixOf_received _ (by simp [decProg]) kw ix hix
  have hfr : item (.dict kvs) "frames" = .ok frames := by simp only [item, hf]
  refine onlyRaises_prog (s := decProg N) (bindModel_ok hk (by rfl)) ?_ r w' hr
  show OnlyRaises _ w (runModel (w.cond i) (decModel N (.dict kvs) (receivedKwargs (decProg N).sig kw)) Dict.empty)
  unfold decModel
  rw [andThen_ok hix', andThen_ok hfr]
  rw [hT, show List.range 1 = [0] from rfl]
  unfold decWheres
  rw [if_pos (show ((0 : Nat) : Int) ≤ ix.t by omega), if_pos rfl]
  refine onlyRaises_variable rfl fun v rv hv => ?_
  simp only [runModel]
  rw [andThen_ok (a := rv.value) (by simp [traceValue])]
  unfold decWheres
  have hzi : whatIndex 1 ix = .ok s := by
    unfold whatIndex
    rcases hi with ⟨hi, rfl⟩ | ⟨hi, hi', rfl⟩
    · rw [if_pos (by simpa using hi)]
    · rw [if_neg (by simp [hi]), if_pos ⟨by simp [hi], hi'⟩]
  beta_reduce
  rw [hzi]
  have hd := fun t s s' => C42_kinds_disjoint t s s'
  have hfresh : (Dict.empty.insert (zWhereName 0 ix.sweep) rv).contains (zWhatName s) = false := by
    rw [Dict.contains, Dict.get?_insert, if_neg (Ne.symm (hd _ _ _).1)]; rfl
  cases hheld : heldAt w i (zWhatName s) with
  | none => exact onlyRaises_drawn hfresh hheld
  | some rv' =>
    simp only [Option.isSome_some, if_true]
    intro r1 w1 hr1
    unfold Exec.Runs at hr1
    rw [andThen_ok rfl, run_held hfresh (variableValue_heldAt hheld)] at hr1
    simp only [runModel] at hr1
    rw [andThen_ok (a := ()) (by simp [unpackWhat, RV.mk'])] at hr1
    refine onlyRaises_variable ?_ (fun _ rv3 _ => ?_) r1 w1 hr1
    · rw [Dict.contains, Dict.get?_insert, if_neg (Ne.symm (hd 0 0 _).2.2.1), Dict.get?_insert, if_neg (Ne.symm (hd _ _ 0).2.1)]; rfl
    rw [show (min (ix.t + 1) ((1 : Nat) : Int)).toNat = 1 by omega, show List.range 1 = [0] from rfl]
    unfold decOutput
    exact onlyRaises_get hh hs

/-- C81, decoder: also with the positions in the global store it cannot draw an appearance. Unless the conditioning trace has the appearance
that belongs to the index, every call raises ValueError, with whatever positions in the conditioning trace. -/
theorem C81_decoder_drawn (h0 : 0 ≤ ix.t) (x : Nat → L.V)
    (hx : ∀ j : Nat, j < N.timesteps frames → (j : Int) ≤ ix.t → w.store.data.get? (zWhereName j ix.sweep) = some (.weakref (x j)))
    (hn : ∀ s, ix.t = N.timesteps frames ∧ s = ix.sweep ∨ ix.t < N.timesteps frames ∧ s = ix.sweep - 1 → heldAt w i (zWhatName s) = none)
    (r : Except Err (Out L)) (w' : World L) (hr : (eval (.prog i (decProg N)) (.dict kvs) kw).Runs w r w') : r = .error .value ∧ w' = w := by
  have hi : ixOf (receivedKwargs (decProg N).sig kw) = .ok ix := ixOf_received _ (by simp [decProg]) kw ix hix
  have hfr : item (.dict kvs) "frames" = .ok frames := by simp only [item, hf]
  refine onlyRaises_prog (s := decProg N) (bindModel_ok hk (by rfl)) ?_ r w' hr
  show OnlyRaises .value w (runModel (w.cond i) (decModel N (.dict kvs) (receivedKwargs (decProg N).sig kw)) Dict.empty)
  unfold decModel
  rw [andThen_ok hi, andThen_ok hfr, List.range_eq_range']
  refine onlyRaises_decWheres hh h0 x _ 0 [] Dict.empty (by simpa using hx) (fun k hk => by simp [Dict.contains] at hk) fun zs t ht => ?_
  unfold whatIndex
  have hfresh : ∀ s, t.contains (zWhatName s) = false := by
    intro s
    rw [Bool.eq_false_iff]
    intro hc
    obtain ⟨j, s', -, he⟩ := ht _ hc
    exact (C42_kinds_disjoint _ _ _).1 he.symm
  split
  · rename_i h
    exact onlyRaises_drawn (hfresh _) (hn _ (Or.inl ⟨h, rfl⟩))
  · split
    · rename_i h1 h
      exact onlyRaises_drawn (hfresh _) (hn _ (Or.inr ⟨h.1, rfl⟩))
    · exact onlyRaises_raise

end Decoder

theorem like_prog {β : Type} {i : ObjId} {s : ProgSpec L} {c : PyVal L} {kw : Kw L} {w : World L} {K : Comp L β} {Q : β → Out L → World L → Prop}
    (hb : bindModel s.sig (receivedKwargs s.sig kw) = .ok ())
    (h : Like (fun b r w' => Q b (Out.mk r.2 (logJoint r.2 (weightNodes (w.cond i) r.2)) r.1 (.program s.name) none none none none []) w')
      (runModel (w.cond i) (s.model c (receivedKwargs s.sig kw)) Dict.empty w) K) : Like Q (eval (.prog i s) c kw w) K := by
  rw [eval_prog_apply, hb]
  simp only
  generalize runModel (w.cond i) (s.model c (receivedKwargs s.sig kw)) Dict.empty w = m at h
  induction h with
  | ret h => exact .ret h
  | draw _ ih => exact .draw ih
  | rand _ ih => exact .rand ih
  | skip _ ih => exact .skip ih

/-- The prior of the position of time `j`, when the positions before are `x`. -/
def priorFrom (N : ApgNet L) (x : Nat → L.V) (j : Nat) : L.D := if j = 0 then N.where0 else N.whereT (x (j - 1))

/-- Positions of the times from `a` on, `m` of them, each drawn around the one that `x` has for the time before. -/
def aroundDraws (N : ApgNet L) (x : Nat → L.V) : Nat → Nat → List L.V → Comp L (List L.V)
  | 0, _, zs => .ret zs
  | m + 1, a, zs => .draw (priorFrom N x a) N.reparam fun z => aroundDraws N x m (a + 1) (zs ++ [z])

/-- The variables of positions `zs` drawn around `x`. -/
def aroundVars (N : ApgNet L) (x : Nat → L.V) (s : Int) (zs : List L.V) : List (String × RV L) :=
  zs.mapIdx fun j z => (zWhereName j s, RV.mk' (priorFrom N x j) z .sampled N.reparam)

theorem aroundVars_keys {x : Nat → L.V} {s : Int} {zs : List L.V} {k : String} (h : k ∈ keysL (aroundVars N x s zs)) :
    ∃ j, j < zs.length ∧ k = zWhereName j s := by
  unfold aroundVars keysL at h
  simp only [List.mem_map, List.mem_mapIdx] at h
  obtain ⟨e, ⟨j, hj, rfl⟩, rfl⟩ := h
  exact ⟨j, hj, rfl⟩

theorem like_decWheres {γ : Type} {Q : γ → PyVal L × Trace L → World L → Prop} {w : World L} (hh : w.store.hooks = apgHooks same) {x : Nat → L.V} {ix : ApgIx}
    {cond : Option (Trace L)} (hfree : ∀ j : Nat, variableValue cond (zWhereName j ix.sweep) none none = none)
    {k : List L.V → MTree L} {G : List L.V → Comp L γ} (m : Nat) : ∀ (a : Nat) (zs : List L.V) (t : Trace L), ((a + m : Nat) : Int) ≤ ix.t →
    (∀ j, j < a + m → w.store.data.get? (zWhereName j ix.sweep) = some (.weakref (x j))) → zs.length = a → t.entries = aroundVars N x ix.sweep zs →
    (∀ zs' t', zs'.length = a + m → t'.entries = aroundVars N x ix.sweep zs' → Like Q (runModel cond (k zs') t' w) (G zs')) →
    Like Q (runModel cond (decWheres N ix (List.range' a m) zs k) t w) ((aroundDraws N x m a zs).bind G) := by
  induction m with
  | zero =>
    intro a zs t _ _ hl ht h
    exact h zs t hl ht
  | succ m ih =>
    intro a zs t hix hst hl ht h
    rw [List.range'_succ]
    have hfresh : t.contains (zWhereName a ix.sweep) = false := by
      rw [Dict.contains_eq_false]
      intro hc
      unfold Dict.keys at hc
      rw [ht] at hc
      obtain ⟨j, hj, he⟩ := aroundVars_keys hc
      have := ((C42_z_where_injective _ _ _ _).1 he).1
      omega
    have hnext : ∀ z, (t.insert (zWhereName a ix.sweep) (RV.mk' (priorFrom N x a) z .sampled N.reparam)).entries = aroundVars N x ix.sweep (zs ++ [z]) := by
      intro z
      rw [Dict.entries_insert_of_not_mem _ (Dict.contains_eq_false.1 hfresh), ht]
      unfold aroundVars
      rw [List.mapIdx_concat, hl]
    have hgo : ∀ z, Like Q (runModel cond (decWheres N ix (List.range' (a + 1) m) (zs ++ [z]) k)
        (t.insert (zWhereName a ix.sweep) (RV.mk' (priorFrom N x a) z .sampled N.reparam)) w) ((aroundDraws N x m (a + 1) (zs ++ [z])).bind G) := by
      intro z
      refine ih (a + 1) (zs ++ [z]) _ (by omega) (fun j hj => hst j (by omega)) (by simp [hl]) (hnext z) fun zs' t' h1 h2 => h zs' t' (by omega) h2
    have hback : ∀ z, traceValue (t.insert (zWhereName a ix.sweep) (RV.mk' (priorFrom N x a) z .sampled N.reparam)) (zWhereName a ix.sweep) = .ok z := by
      intro z
      simp [traceValue, RV.mk']
    unfold decWheres
    rw [if_pos (by omega)]
    by_cases h0 : a = 0
    · subst h0
      rw [if_pos rfl]
      have : zWhereName 0 ix.sweep = zWhereName ((0 : Nat) : Int) ix.sweep := rfl
      rw [this, run_sampled hfresh (hfree _)]
      refine .draw fun z => ?_
      simp only [runModel]
      rw [show N.where0 = priorFrom N x 0 from rfl, andThen_ok (hback z)]
      exact hgo z
    · rw [if_neg h0]
      unfold whereFrom
      have hs := hst (a - 1) (by omega)
      rw [show (((a - 1 : Nat)) : Int) = (a : Int) - 1 by omega] at hs
      simp only [runModel, Exec.bind, Exec.onStore, apg_getItem hh hs, Comp.bind_ret]
      rw [andThen_ok (show deref (.weakref (x (a - 1))) = .ok (x (a - 1)) from rfl), run_sampled hfresh (hfree _),
        show N.whereT (x (a - 1)) = priorFrom N x a from by simp [priorFrom, h0]]
      refine .draw fun z => ?_
      simp only [runModel]
      rw [andThen_ok (hback z)]
      exact hgo z

theorem run_decOutput {w : World L} (hh : w.store.hooks = apgHooks same) {x : Nat → L.V} {ix : ApgIx} {cond : Option (Trace L)} {t : Trace L}
    {k : List (String × PyVal L) → MTree L} (m : Nat) : ∀ a kvs,
    (∀ j, j < a + m → w.store.data.get? (zWhereName j ix.sweep) = some (.weakref (x j))) →
    kvs = (List.range a).map (fun j : Nat => (zWhereName j ix.sweep, PyVal.tensor (x j))) →
    runModel cond (decOutput ix (List.range' a m) kvs k) t w =
      runModel cond (k ((List.range (a + m)).map fun j : Nat => (zWhereName j ix.sweep, PyVal.tensor (x j)))) t w := by
  induction m with
  | zero => rintro a kvs _ rfl; rfl
  | succ m ih =>
    rintro a kvs hst rfl
    rw [List.range'_succ]
    unfold decOutput
    simp only [runModel, Exec.bind, Exec.onStore, apg_getItem hh (hst a (by omega)), Comp.bind_ret]
    rw [andThen_ok (show deref (.weakref (x a)) = .ok (x a) from rfl)]
    refine (ih (a + 1) _ (fun j hj => hst j (by omega)) ?_).trans (by rw [show a + 1 + m = a + (m + 1) by omega])
    rw [insertL_of_not_mem, List.range_succ, List.map_append]
    · rfl
    · unfold keysL
      simp only [List.map_map, List.mem_map, List.mem_range, Function.comp_apply, not_exists, not_and]
      intro j hj he
      have := ((C42_z_where_injective _ _ _ _).1 he).1
      omega

/-- C81, decoder, at the time of the initial step, with positions `x` in the global store and a conditioning trace that has the appearance but
no positions: it draws the first position from its prior, every other one around the *stored* position of the time before - not around the
one it has drawn; its weight is the log density of the appearance and of the frames given what it has drawn. But the positions it returns
are the stored ones, which it has not used for that. -/
theorem C81_decoder_free (i : ObjId) (ix : ApgIx) (kvs : List (String × PyVal L)) (kw : Kw L) (w : World L) (hk : KwOk kw) (hix : kw.ix = ix.toPy)
    (frames : L.V) (hf : getL kvs "frames" = some (.tensor frames)) (hh : w.store.hooks = apgHooks same) (rv : RV L)
    (hrv : heldAt w i (zWhatName ix.sweep) = some rv) (hno : rv.prov ≠ .observed) (hfree : ∀ j : Nat, heldAt w i (zWhereName j ix.sweep) = none)
    (ht : ix.t = N.timesteps frames) (x : Nat → L.V)
    (hx : ∀ j : Nat, j < N.timesteps frames → w.store.data.get? (zWhereName j ix.sweep) = some (.weakref (x j))) :
    Like (fun (zs : List L.V) o w' => w' = w ∧
        o.trace.entries = aroundVars N x ix.sweep zs ++ [(zWhatName ix.sweep, RV.mk' N.what rv.value .reused N.reparam),
          ("recon", RV.mk' (N.recon zs rv.value) frames .observed N.reparam)] ∧
        o.logWeight = .tensor (L.logProb N.what rv.value + L.logProb (N.recon zs rv.value) frames) ∧
        o.output = .dict ((List.range (N.timesteps frames)).map (fun j : Nat => (zWhereName j ix.sweep, PyVal.tensor (x j))) ++
          [(zWhatName ix.sweep, .tensor rv.value), ("frames", .tensor frames)]))
      (eval (.prog i (decProg N)) (.dict kvs) kw w) (aroundDraws N x (N.timesteps frames) 0 []) := by
  have hi : ixOf (receivedKwargs (decProg N).sig kw) = .ok ix := ixOf_received _ (by simp [decProg]) kw ix hix
  have hfr : item (.dict kvs) "frames" = .ok frames := by simp only [item, hf]
  have hd := fun t s s' => C42_kinds_disjoint t s s'
  refine like_prog (s := decProg N) (bindModel_ok hk (by rfl)) ?_
  show Like _ (runModel _ (decModel N (.dict kvs) (receivedKwargs (decProg N).sig kw)) _ _) _
  unfold decModel
  rw [andThen_ok hi, andThen_ok hfr, List.range_eq_range', ← Comp.bind_ret_right (aroundDraws N x (N.timesteps frames) 0 [])]
  refine like_decWheres hh (fun j => variableValue_unheld (hfree j)) (N.timesteps frames) 0 [] Dict.empty (by omega) (fun j hj => hx j (by omega)) rfl rfl
    fun zs t _ hte => ?_
  beta_reduce
  have hwi : whatIndex (N.timesteps frames) ix = .ok ix.sweep := by unfold whatIndex; rw [if_pos ht]
  rw [andThen_ok hwi]
  have hf1 : t.contains (zWhatName ix.sweep) = false := by
    rw [Dict.contains_eq_false]
    intro h
    unfold Dict.keys at h
    rw [hte] at h
    obtain ⟨j, -, he⟩ := aroundVars_keys h
    exact (hd _ _ _).1 he.symm
  rw [run_held hf1 (variableValue_heldAt hrv)]
  have hf2 : (t.insert (zWhatName ix.sweep) (RV.mk' N.what rv.value .reused N.reparam)).contains "recon" = false := by
    rw [Dict.contains_eq_false]
    intro h
    unfold Dict.keys at h
    rw [Dict.entries_insert_of_not_mem _ (Dict.contains_eq_false.1 hf1), keysL_append, hte, List.mem_append] at h
    rcases h with h | h
    · obtain ⟨j, -, he⟩ := aroundVars_keys h
      exact (hd _ _ 0).2.1 he.symm
    · simp only [keysL_cons, keysL_nil, List.mem_singleton] at h
      exact (hd 0 0 _).2.2.1 h.symm
  simp only [runModel.eq_def (L := L) _ (.getTrace _)]
  rw [andThen_ok (a := ()) (by simp [unpackWhat, RV.mk'])]
  rw [run_held hf2 rfl, show (min (ix.t + 1) (N.timesteps frames : Int)).toNat = N.timesteps frames by omega, List.range_eq_range',
    run_decOutput hh (N.timesteps frames) 0 [] (fun j hj => hx j (by omega)) rfl, Nat.zero_add]
  have hent := Dict.entries_insert_of_not_mem (RV.mk' (N.recon zs rv.value) frames .observed N.reparam) (Dict.contains_eq_false.1 hf2)
  rw [Dict.entries_insert_of_not_mem _ (Dict.contains_eq_false.1 hf1), hte, List.append_assoc] at hent
  refine .ret ⟨rfl, hent, ?_, ?_⟩
  · show logJoint ((t.insert (zWhatName ix.sweep) (RV.mk' N.what rv.value .reused N.reparam)).insert "recon"
      (RV.mk' (N.recon zs rv.value) frames .observed N.reparam)) (weightNodes (w.cond i) ((t.insert (zWhatName ix.sweep)
        (RV.mk' N.what rv.value .reused N.reparam)).insert "recon" (RV.mk' (N.recon zs rv.value) frames .observed N.reparam))) =
      .tensor (L.logProb N.what rv.value + L.logProb (N.recon zs rv.value) frames)
    generalize (t.insert (zWhatName ix.sweep) (RV.mk' N.what rv.value .reused N.reparam)).insert "recon"
      (RV.mk' (N.recon zs rv.value) frames .observed N.reparam) = tr at hent ⊢
    have hnode : ∀ e ∈ tr.entries, weightNodes (w.cond i) tr e.1 = (e.2.prov == .observed || (match heldAt w i e.1 with
        | some c => c.prov != .observed
        | none => false)) := by
      intro e he
      rw [weightNodes_of_get (rv := e.2) (Dict.get?_eq_some.2 he),
        show held (w.cond i) e.1 = heldAt w i e.1 by unfold held heldAt; cases w.cond i <;> rfl]
      rfl
    have hfil : tr.entries.filter (fun e => weightNodes (w.cond i) tr e.1) = [(zWhatName ix.sweep, RV.mk' N.what rv.value .reused N.reparam),
        ("recon", RV.mk' (N.recon zs rv.value) frames .observed N.reparam)] := by
      rw [List.filter_congr hnode, hent, List.filter_append, List.filter_eq_nil_iff.2]
      · simp [RV.mk', hrv, hno]
      · intro e he
        unfold aroundVars at he
        rw [List.mem_mapIdx] at he
        obtain ⟨j, hj, rfl⟩ := he
        simp [RV.mk', hfree]
    unfold logJoint
    rw [hfil]
    rfl
  · simp only [PyVal.dict.injEq]
    have hk1 : zWhatName ix.sweep ∉ keysL ((List.range (N.timesteps frames)).map fun j : Nat => (zWhereName j ix.sweep, PyVal.tensor (L := L) (x j))) := by
      unfold keysL
      simp only [List.map_map, List.mem_map, Function.comp_apply, not_exists, not_and]
      exact fun j _ he => (hd _ _ _).1 he
    have hk2 : "frames" ∉ keysL ((List.range (N.timesteps frames)).map (fun j : Nat => (zWhereName j ix.sweep, PyVal.tensor (L := L) (x j))) ++
        [(zWhatName ix.sweep, PyVal.tensor rv.value)]) := by
      rw [keysL_append, List.mem_append]
      unfold keysL
      simp only [List.map_map, List.mem_map, Function.comp_apply, List.map_cons, List.map_nil, List.mem_singleton, not_or, not_exists, not_and]
      exact ⟨fun j _ he => (hd _ _ 0).2.2.2.1 he, fun he => (hd 0 0 _).2.2.2.2 he.symm⟩
    rw [insertL_of_not_mem _ hk1, insertL_of_not_mem _ hk2, List.append_assoc, ← List.range_eq_range']
    rfl

/-- The keyword arguments for the time `t` and the sweep `s`. -/
def Toy.kwAt (t s : Int) (dir : String) : Kw Toy.L := { ix := ApgIx.toPy ⟨t, s, dir⟩ }

theorem Toy.kwAt_ok (t s : Int) (dir : String) : KwOk (Toy.kwAt t s dir) := by intro e he; cases he

/-- Three frames, and the positions and the appearance of sweep 1. -/
def Toy.given : List (String × PyVal Toy.L) :=
  [("frames", .tensor ((3, 0) : Int × Int)), ("z_what_1", .tensor ((2, 0) : Int × Int)), ("z_where_0_1", .tensor ((1, 0) : Int × Int)),
    ("z_where_1_1", .tensor ((2, 0) : Int × Int)), ("z_where_2_1", .tensor ((3, 0) : Int × Int))]

/-- The fourth of three frames. -/
example : eval (.prog 1 (encCoorProg Toy.net)) (.dict Toy.given) (Toy.kwAt 3 0 "forward") Toy.wApg = .ret (.error .index, Toy.wApg) :=
  (((C81_coor_input (N := Toy.net) 1 ⟨3, 0, "forward"⟩ Toy.given _ Toy.wApg (Toy.kwAt_ok _ _ _) rfl).2 (3, 0) rfl).2 (Or.inl rfl)).1 (by decide)

/-- In reverse without a conditioning trace. -/
example : eval (.prog 1 (encCoorProg Toy.net)) (.dict Toy.given) (Toy.kwAt 1 2 "reverse") Toy.wApg = .ret (.error .type, Toy.wApg) :=
  (C81_coor_reverse (N := Toy.net) 1 ⟨1, 2, "reverse"⟩ Toy.given _ Toy.wApg (Toy.kwAt_ok _ _ _) rfl (3, 0) rfl (by decide) (by decide)
    (some (2, 0)) (Or.inr ⟨by decide, (2, 0), rfl, by rfl⟩) rfl).1 rfl (by decide)

/-- The last of three frames, counted from the end. -/
example : ∃ F : List Toy.L.V → Out Toy.L, eval (.prog 1 (encCoorProg Toy.net)) (.dict Toy.given) (Toy.kwAt (-1) 2 "forward") Toy.wApg =
    (coorDraws Toy.net ((3, 0) : Int × Int) (-1) (some ((2, 0) : Int × Int)) 1 []).bind
      (fun zs => .ret (.ok (F zs), Toy.wApg.put (zWhereName (-1) 2) (Toy.net.stack zs))) :=
  have h := C81_coor_forward (N := Toy.net) (same := Toy.same) 1 ⟨-1, 2, "forward"⟩ Toy.given _ Toy.wApg (Toy.kwAt_ok _ _ _) rfl (3, 0) rfl
    (by decide) (by decide) (some (2, 0)) (Or.inr ⟨by decide, (2, 0), rfl, by rfl⟩) rfl rfl
  ⟨h.choose, h.choose_spec.1⟩

/-- The appearance given the three positions. -/
example : ∃ F : Toy.L.V → Out Toy.L, eval (.prog 2 (encDigitProg Toy.net)) (.dict Toy.given) (Toy.kwAt 3 1 "forward") Toy.wApg =
    .draw (9 : Int) true (fun v => .ret (.ok (F v), Toy.wApg.put (zWhatName 1) v)) := by
  have h := (C81_digit (N := Toy.net) (same := Toy.same) 2 ⟨3, 1, "forward"⟩ Toy.given _ Toy.wApg (Toy.kwAt_ok _ _ _) rfl true rfl rfl (3, 0) rfl
    (by decide) (fun j => ((j : Int) + 1, 0)) (fun j hj => by
      have hj : j < 3 := hj
      interval_cases j <;> rfl) _ rfl (9 : Int) (by decide +kernel)).1 rfl
  exact ⟨h.choose, h.choose_spec.1⟩

/-- The decoder with an empty store. -/
example (r : Except Err (Out Toy.L)) (w' : World Toy.L)
    (hr : (eval (.prog 3 (decProg Toy.net)) (.dict Toy.given) (Toy.kwAt 3 1 "forward")).Runs Toy.wApg r w') : r = .error .key :=
  (C81_decoder_alone (N := Toy.net) (same := Toy.same) 3 ⟨3, 1, "forward"⟩ Toy.given _ Toy.wApg (Toy.kwAt_ok _ _ _) rfl (3, 0) rfl rfl (by decide) rfl
    (by decide) r w' hr).1

/-- Positions 1, 2 and 3 in the store. -/
def Toy.wStored : World Toy.L :=
  ((Toy.wApg.put (zWhereName 0 1) ((1, 0) : Int × Int)).put (zWhereName 1 1) ((2, 0) : Int × Int)).put (zWhereName 2 1) ((3, 0) : Int × Int)

/-- The decoder with a store and no appearance. -/
example (r : Except Err (Out Toy.L)) (w' : World Toy.L)
    (hr : (eval (.prog 3 (decProg Toy.net)) (.dict Toy.given) (Toy.kwAt 3 1 "forward")).Runs Toy.wStored r w') : r = .error .value :=
  (C81_decoder_drawn (N := Toy.net) (same := Toy.same) 3 ⟨3, 1, "forward"⟩ Toy.given _ Toy.wStored (Toy.kwAt_ok _ _ _) rfl (3, 0) rfl rfl (by decide)
    (fun j => ((j : Int) + 1, 0)) (fun j hj _ => by
      have hj : j < 3 := hj
      interval_cases j <;> rfl) (fun _ _ => rfl) r w' hr).1

/-- One frame, with and without an appearance to condition on. -/
example (r : Except Err (Out Toy.L)) (w' : World Toy.L)
    (hr : (eval (.prog 3 (decProg Toy.net)) (.dict [("frames", .tensor ((1, 0) : Int × Int))]) (Toy.kwAt 1 1 "forward")).Runs Toy.wApg r w') :
    r = .error .value :=
  (C81_decoder_one (N := Toy.net) (same := Toy.same) 3 ⟨1, 1, "forward"⟩ _ _ Toy.wApg (Toy.kwAt_ok _ _ _) rfl (1, 0) rfl rfl rfl rfl 1
    (Or.inl ⟨rfl, rfl⟩) r w' hr).1

/-- An appearance to condition on. -/
def Toy.seen : Trace Toy.L := Dict.empty.insert (zWhatName 1) (RV.mk' (5 : Int) ((4, 0) : Int × Int) .sampled true)

theorem Toy.seen_where (j : Nat) : Toy.seen.get? (zWhereName j 1) = none := by
  unfold Toy.seen
  rw [Dict.get?_insert, if_neg (fun h => (C42_kinds_disjoint _ _ _).1 h)]
  rfl

/-- The decoder with a store and an appearance: the positions are drawn from the distributions 1, 2 and 3, whatever is drawn. -/
example : ∃ Q : List Toy.L.V → Out Toy.L → World Toy.L → Prop,
    Like Q (eval (.prog 3 (decProg Toy.net)) (.dict Toy.given) (Toy.kwAt 3 1 "forward") { Toy.wStored with cond := fun _ => some Toy.seen })
      (.draw (1 : Int) true fun a => .draw (2 : Int) true fun b => .draw (3 : Int) true fun c => .ret [a, b, c]) :=
  ⟨_, C81_decoder_free (N := Toy.net) (same := Toy.same) 3 ⟨3, 1, "forward"⟩ Toy.given _ { Toy.wStored with cond := fun _ => some Toy.seen }
    (Toy.kwAt_ok _ _ _) rfl (3, 0) rfl rfl (RV.mk' (5 : Int) ((4, 0) : Int × Int) .sampled true) (by simp [heldAt, Toy.seen]) (by simp [RV.mk'])
    (fun j => Toy.seen_where j) rfl
    (fun j => ((j : Int) + 1, 0)) (fun j hj => by
      have hj : j < 3 := hj
      interval_cases j <;> rfl)⟩

end Verif
