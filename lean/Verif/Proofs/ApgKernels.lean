import Verif.Proofs.Apg
/-
The encoders of the amortized Gibbs sampler, and the end of a Propose.
-/
namespace Verif
open Spec Apg
variable {L : Lang} {E : Err → Prop} {N : ApgNet L} {same : L.V → L.V → Bool} {T : Nat}

/-- The world after `global_store[k] = weakref.ref(v)`. -/
def World.put (w : World L) (k : String) (v : L.V) : World L :=
  { w with store := { w.store with data := w.store.data.insert k (.weakref v) } }

@[simp] theorem World.put_cond (w : World L) (k : String) (v : L.V) : (w.put k v).cond = w.cond := rfl
@[simp] theorem World.put_hooks (w : World L) (k : String) (v : L.V) : (w.put k v).store.hooks = w.store.hooks := rfl
theorem World.put_data (w : World L) (k : String) (v : L.V) :
    (w.put k v).store.data = w.store.data.insert k (.weakref v) := rfl

/-- A trace of one variable. -/
def one (k : String) (rv : RV L) : Trace L := Dict.empty.insert k rv

theorem one_get? (k j : String) (rv : RV L) : (one k rv).get? j = if j = k then some rv else none := by
  unfold one; rw [Dict.get?_insert]; rfl

theorem mem_keys_one (k j : String) (rv : RV L) : j ∈ (one k rv).keys ↔ j = k := by
  unfold one; rw [Dict.mem_keys_insert]; simp [Dict.keys, Dict.empty]

/-- A program that samples its one variable has the weight zero. -/
theorem logJoint_one {k : String} (rv : RV L) (h : rv.prov = .sampled) : logJoint (one k rv) (weightNodes none (one k rv)) = .float0 := by
  rw [logJoint_eq_float0]
  intro j hj
  rw [mem_keys_one] at hj
  subst hj
  rw [weightNodes_of_get (rv := rv) (by rw [one_get?, if_pos rfl]), h]
  rfl

theorem total_one (k : String) (rv : RV L) : total (one k rv) = rv.logProb := by
  unfold one
  rw [total_insert _ rfl, total_empty, zero_add]

/-- log_joint of a trace that is not empty. -/
theorem logJoint_tensor {t : Trace L} {k : String} {rv : RV L} (h : t.get? k = some rv) :
    logJoint t (fun _ => true) = .tensor (total t) := by
  have h1 : logJoint t (fun _ => true) ≠ .float0 := by
    rw [Ne, logJoint_eq_float0]
    intro h2
    cases h2 k (Dict.mem_keys_iff.2 ⟨_, h⟩)
  have h2 := logJoint_total (t := t) (nodes := fun _ => true) fun _ _ => rfl
  cases h3 : logJoint t (fun _ => true) with
  | float0 => exact absurd h3 h1
  | tensor x => rw [h3] at h2; exact congrArg LW.tensor h2

theorem item_of_output {P : String → Prop} {o : PyVal L} (h : IsOutput N T P o) {k : String} (hk : P k) : ∃ v, item o k = .ok v := by
  obtain ⟨kvs, rfl, h1, h2, -⟩ := h
  have := (h1 k).2 hk
  rw [← getL_isSome, Option.isSome_iff_exists] at this
  obtain ⟨v, hv⟩ := this
  obtain ⟨x, rfl⟩ := h2 k v (getL_mem hv)
  exact ⟨x, by simp only [item, hv]⟩

theorem frames_of_output {P : String → Prop} {o : PyVal L} (h : IsOutput N T P o) :
    ∃ f, item o "frames" = .ok f ∧ N.timesteps f = T := by
  obtain ⟨kvs, rfl, h1, h2, f, hf, hT⟩ := h
  exact ⟨f, by simp only [item, hf], hT⟩

theorem draws_coorForward {w : World L} {frames : L.V} {t : Int} {what : Option L.V} {m : Nat} {zs : List L.V}
    {k : List L.V → MTree L} {tr : Trace L} {cond : Option (Trace L)} {Q} (h : ∀ zs, (runModel cond (k zs) tr).Done w (Q zs)) :
    (runModel cond (coorForward N frames t what m zs k) tr).Draws w (coorDraws N frames t what m zs) Q := by
  choose a w' h1 h2 using h
  refine ⟨fun zs => (a zs, w' zs), ?_, h2⟩
  induction m generalizing zs with
  | zero => exact h1 zs
  | succ m ih =>
    show Comp.draw _ _ _ = Comp.draw _ _ _
    congr 1
    funext z
    exact ih

theorem convKernel_ok {c : PyVal L} {ix : ApgIx} {what : L.V} (h : item c (zWhatName (ix.sweep - 1)) = .ok what) (hs : ix.sweep ≠ 0) :
    convKernel c ix = .ok (some what) := by
  unfold convKernel
  rw [if_neg hs, h]

/-- The position encoder run forward. -/
theorem draws_coor_fwd (i : ObjId) (t s : Nat) (ht : t < T) {kvs : List (String × PyVal L)} {frames : L.V}
    (hf : item (.dict kvs) "frames" = .ok frames) (hT : N.timesteps frames = T) {what : Option L.V}
    (hw : convKernel (.dict kvs) ⟨t, s, "forward"⟩ = .ok what) {kw : Kw L} (hkw : KwOk kw)
    (hix : kw.ix = fwdIx t s) {w : World L} (hc : w.cond i = none) (hh : w.store.hooks = apgHooks same) :
    (eval (.prog i (encCoorProg N)) (.dict kvs) kw).Draws w (coorDraws N frames t what N.objects []) fun zs o w' =>
      w' = w.put (zWhereName t s) (N.stack zs) ∧
      o.trace = one (zWhereName t s) (RV.mk' (N.coorDist frames t what zs) (N.stack zs) .sampled N.reparam) ∧
      o.logWeight = .float0 ∧
      o.output = .dict (if s = 0 then insertL kvs (zWhereName t s) (.tensor (N.stack zs)) else kvs) := by
  apply draws_prog (bindModel_ok hkw (by rfl))
  rw [hc]
  simp only [encCoorProg, encCoorModel]
  rw [andThen_ok (ixOf_received _ (by simp) _ _ hix), andThen_ok hf, andThen_ok hw, if_neg (by simp only [hT]; omega),
    andThen_ok (show isForward ⟨t, s, "forward"⟩ = .ok true from rfl), if_pos rfl]
  refine draws_coorForward fun zs => ?_
  unfold coorForwardEnd
  refine done_given rfl ?_
  simp only [runModel]
  refine Exec.Done.onStore_bind (apg_setItem hh _ _) ?_
  refine Exec.Done.pure ⟨rfl, rfl, logJoint_one _ rfl, ?_⟩
  by_cases h : s = 0 <;> simp [h]

/-- The position encoder run in reverse. -/
theorem done_coor_rev (i : ObjId) (t s : Nat) (ht : t < T) (hs : 0 < s) {o : PyVal L} {frames what : L.V}
    (hf : item o "frames" = .ok frames) (hT : N.timesteps frames = T) (hw : item o (zWhatName ((s : Int) - 1)) = .ok what)
    {kw : Kw L} (hkw : KwOk kw) (hix : kw.ix = revIx t s) {w : World L} {c : Trace L} (hc : w.cond i = some c) {rv : RV L}
    (hold : c.get? (zWhereName t ((s : Int) - 1)) = some rv) :
    (eval (.prog i (encCoorProg N)) o kw).Done w fun o w' => w' = w ∧
      o.trace = one (zWhereName t ((s : Int) - 1)) (RV.mk' (N.coorDist frames t (some what) (slices N rv.value)) rv.value .reused N.reparam) := by
  apply done_prog (bindModel_ok hkw (by rfl))
  rw [hc]
  simp only [encCoorProg, encCoorModel]
  rw [andThen_ok (ixOf_received _ (by simp) _ _ hix), andThen_ok hf, andThen_ok (convKernel_ok (ix := ⟨t, s, "reverse"⟩) hw (by show (s : Int) ≠ 0; omega)),
    if_neg (by simp only [hT]; omega),
    andThen_ok (show isForward ⟨t, s, "reverse"⟩ = .ok false from rfl), if_neg (by simp)]
  have key : ∀ zs, zs = slices N rv.value → (runModel (some c) (coorReverseEnd N ⟨t, s, "reverse"⟩ frames (some what) zs) Dict.empty).Done w fun r w' =>
      w' = w ∧ (Out.mk r.2 (logJoint r.2 (weightNodes (some c) r.2)) r.1 (.program "Enc_coor") none none none none []).trace =
        one (zWhereName t ((s : Int) - 1)) (RV.mk' (N.coorDist frames t (some what) (slices N rv.value)) rv.value .reused N.reparam) := by
    rintro zs rfl
    unfold coorReverseEnd
    refine done_reused rfl hold ?_
    exact Exec.Done.pure ⟨rfl, rfl⟩
  unfold coorReverse
  split
  · exact key _ (by simp only [slices, *]; rfl)
  · simp only [runModel]
    rw [andThen_ok (show traceValue c (zWhereName t ((s : Int) - 1)) = .ok rv.value by simp [traceValue, hold])]
    exact key _ rfl

theorem mapM_map_ok {α β : Type} (f : α → Except Err β) (g : α → β) (l : List α) (h : ∀ a ∈ l, f a = .ok (g a)) :
    l.mapM f = .ok (l.map g) := by
  induction l with
  | nil => rfl
  | cons a l ih =>
    rw [List.mapM_cons, h a (by simp), ih fun a ha => h a (by simp [ha])]
    rfl

theorem readWheres_ok {o : PyVal L} {s : Int} {val : Nat → L.V} (hT : 0 < T) (h : ∀ i : Nat, i < T → item o (zWhereName i s) = .ok (val i)) :
    readWheres o s T = .ok ((List.range T).map val) := by
  unfold readWheres
  have hv := h 0 hT
  have hzs := mapM_map_ok (fun t : Nat => item o (zWhereName t s)) val (List.range T) fun a ha => h a (by simpa using ha)
  have hv' : item o (zWhereName 0 s) = .ok (val 0) := hv
  rw [hv', hzs]
  rfl

/-- The appearance encoder run forward. -/
theorem draws_digit_fwd (i : ObjId) (s : Nat) (hpos : 0 < T) {o : PyVal L} {frames : L.V} {val : Nat → L.V}
    (hf : item o "frames" = .ok frames) (hT : N.timesteps frames = T)
    (hz : ∀ i : Nat, i < T → item o (zWhereName i s) = .ok (val i)) {kw : Kw L} (hkw : KwOk kw)
    (hix : kw.ix = fwdIx T s) {w : World L} (hc : w.cond i = none) (hh : w.store.hooks = apgHooks same) :
    (eval (.prog i (encDigitProg N)) o kw).Draws w (.draw (N.digitDist frames ((List.range T).map val)) N.reparam .ret) fun z o w' =>
      w' = w.put (zWhatName s) z ∧
      o.trace = one (zWhatName s) (RV.mk' (N.digitDist frames ((List.range T).map val)) z .sampled N.reparam) ∧ o.logWeight = .float0 := by
  apply draws_prog (bindModel_ok hkw (by rfl))
  rw [hc]
  simp only [encDigitProg, encDigitModel]
  rw [andThen_ok (ixOf_received _ (by simp) _ _ hix), andThen_ok hf, hT, andThen_ok (readWheres_ok hpos hz),
    andThen_ok (show isForward ⟨T, s, "forward"⟩ = .ok true from rfl)]
  unfold digitEnd
  refine draws_sampled rfl fun v => ?_
  simp only [if_true, runModel]
  refine Exec.Done.onStore_bind (apg_setItem hh _ _) ?_
  exact Exec.Done.pure ⟨rfl, rfl, logJoint_one _ rfl⟩

/-- The appearance encoder run in reverse. -/
theorem done_digit_rev (i : ObjId) (s : Nat) (hpos : 0 < T) {o : PyVal L} {frames : L.V} {val : Nat → L.V}
    (hf : item o "frames" = .ok frames) (hT : N.timesteps frames = T)
    (hz : ∀ i : Nat, i < T → item o (zWhereName i s) = .ok (val i)) {kw : Kw L} (hkw : KwOk kw)
    (hix : kw.ix = revIx T s) {w : World L} {c : Trace L} (hc : w.cond i = some c) {rv : RV L}
    (hold : c.get? (zWhatName ((s : Int) - 1)) = some rv) :
    (eval (.prog i (encDigitProg N)) o kw).Done w fun o w' => w' = w ∧
      o.trace = one (zWhatName ((s : Int) - 1)) (RV.mk' (N.digitDist frames ((List.range T).map val)) rv.value .reused N.reparam) := by
  apply done_prog (bindModel_ok hkw (by rfl))
  rw [hc]
  simp only [encDigitProg, encDigitModel]
  rw [andThen_ok (ixOf_received _ (by simp) _ _ hix), andThen_ok hf, hT, andThen_ok (readWheres_ok hpos hz),
    andThen_ok (show isForward ⟨T, s, "reverse"⟩ = .ok false from rfl)]
  unfold digitEnd
  simp only [Bool.false_eq_true, if_false]
  refine done_reused rfl hold ?_
  exact Exec.Done.pure ⟨rfl, rfl⟩

theorem mem_keys_union {t a b : Trace L} (h : IsUnion t a b) (k : String) : k ∈ t.keys ↔ k ∈ a.keys ∨ k ∈ b.keys := by
  unfold Dict.keys
  rw [h, keysL_append, List.mem_append]

theorem get?_union {t a b : Trace L} (h : IsUnion t a b) (k : String) (hk : k ∉ a.keys) : t.get? k = b.get? k := by
  cases hb : b.get? k with
  | some v =>
    rw [Dict.get?_eq_some] at hb ⊢
    rw [h]
    exact List.mem_append_right _ hb
  | none =>
    rw [Dict.get?_eq_none] at hb ⊢
    rw [mem_keys_union h]
    tauto

theorem get?_union_left {t a b : Trace L} (h : IsUnion t a b) {k : String} {rv : RV L} (hk : a.get? k = some rv) :
    t.get? k = some rv := by
  rw [Dict.get?_eq_some] at hk ⊢
  rw [h]
  exact List.mem_append_left _ hk

theorem val_proposeNodes (q p : Trace L) : (logJoint q (proposeNodes q p)).val = sumLogProb q (InDenominator p) := by
  rw [logJoint_val]
  exact sumLogProb_congr q fun k rv hg => proposeNodes_eq q p k rv hg

/-- The end of a Propose that does not rerun and does not transform. -/
theorem proposeRest_done {a : Attrs L} {p q : Node L} {kw : Kw L} {qo po : Out L} {x : L.W} {m : PyVal L × Trace L}
    {fwd : Option (Trace L)} {g : LW L.W → L.Lo} (h1 : po.logWeight = .tensor x) (h2 : marginalize p po = .ok m) (h3 : forwardTrace q qo = .ok fwd)
    (h4 : ∀ out px tot, out.px = some px → px.proposalTrace = qo.trace → px.targetTrace = po.trace → px.forwardTrace = fwd →
      a.lossFn out tot = .ok (g out.logWeight + tot)) :
    ∃ o, proposeRest a (fun t _ => .ok t) true p q kw qo po = .ok o ∧ o.trace = m.2 ∧ o.output = detachOutput m.1 ∧
      o.logWeight = .tensor (L.detachW (qo.logWeight.val + (x - sumLogProb qo.trace (InDenominator po.trace)))) ∧
      o.loss = some (g o.logWeight + qo.loss.getD a.loss0) ∧ ∃ px, o.px = some px ∧ px.lw = incomingLw qo.logWeight := by
  obtain ⟨m1, m2⟩ := m
  unfold proposeRest
  have e : ∃ y, qo.logWeight.add (po.logWeight.sub (logJoint qo.trace (proposeNodes qo.trace po.trace))) = .tensor y := by
    rw [h1]
    cases qo.logWeight <;> cases (logJoint qo.trace (proposeNodes qo.trace po.trace)) <;> exact ⟨_, rfl⟩
  obtain ⟨y, hy⟩ := e
  have hy2 : y = qo.logWeight.val + (x - sumLogProb qo.trace (InDenominator po.trace)) := by
    have := congrArg LW.val hy
    rw [LW.val_add, LW.val_sub, val_proposeNodes, h1] at this
    exact this.symm
  simp only [h2, h3, copytrace1_ok, bind, Except.bind, if_true, hy, detachLW, foldLoss]
  have hl := h4 (Out.mk m2 (.tensor (L.detachW y)) (detachOutput m1) .propose (some (pickIx a.ix kw.ix)) none none
    (some { nodes := qo.trace.keys.filter (proposeNodes qo.trace po.trace),
            lv := po.logWeight.sub (logJoint qo.trace (proposeNodes qo.trace po.trace)), lw := incomingLw qo.logWeight,
            proposalTrace := qo.trace, targetTrace := po.trace, forwardTrace := fwd }) []) _ (qo.loss.getD a.loss0) rfl rfl rfl rfl
  rw [hl]
  refine ⟨_, rfl, ?_⟩
  split <;> exact ⟨rfl, rfl, by rw [← hy2]; rfl, rfl, _, rfl, rfl⟩

theorem detach_item {o : PyVal L} {k : String} {v : L.V} (ho : ∃ kvs, o = .dict kvs) (h : item o k = .ok v) :
    item (detachOutput o) k = .ok (L.detachV v) := by
  obtain ⟨kvs, rfl⟩ := ho
  simp only [detachOutput, item] at h ⊢
  induction kvs with
  | nil => simp [getL] at h
  | cons e l ih =>
    obtain ⟨k', v'⟩ := e
    simp only [List.map_cons, getL] at h ⊢
    by_cases h' : k' = k
    · rw [if_pos h'] at h ⊢
      cases v' <;> simp at h
      subst h
      rfl
    · rw [if_neg h'] at h ⊢
      exact ih h

theorem detach_output (hd : ∀ v, N.timesteps (L.detachV v) = N.timesteps v) {P : String → Prop} {o : PyVal L}
    (h : IsOutput N T P o) : IsOutput N T P (detachOutput o) := by
  obtain ⟨kvs, rfl, h1, h2, f, hf, hT⟩ := h
  refine ⟨_, rfl, ?_, ?_, L.detachV f, ?_, by rw [hd, hT]⟩
  · intro k
    rw [← h1]
    simp [keysL, List.map_map]
  · intro k v hkv
    simp only [List.mem_map, Prod.mk.injEq] at hkv
    obtain ⟨⟨k', v'⟩, hm, rfl, rfl⟩ := hkv
    obtain ⟨x, rfl⟩ := h2 _ _ hm
    exact ⟨_, rfl⟩
  · clear h1 h2
    induction kvs with
    | nil => simp [getL] at hf
    | cons e l ih =>
      obtain ⟨k', v'⟩ := e
      simp only [List.map_cons, getL] at hf ⊢
      split at hf
      · rename_i h'
        rw [if_pos h']
        cases hf
        rfl
      · rename_i h'
        rw [if_neg h']
        exact ih hf

/-- The marginal of an Extend is its target's trace and output. -/
theorem marginalize_extend {a : Attrs L} {p f : Node L} {t : Trace L} {lw : LW L.W} {out : PyVal L} {ty : OutTy}
    {ix : Option (PyVal L)} {l : Option L.Lo} {po : Out L} {fo : Trace L} {px : Option (ProposeX L)} {subs : List (String × Out L)}
    (h : IsUnion t po.trace fo) (hd : ¬ Overlap po.trace fo) :
    marginalize (.extend a p f) (Out.mk t lw out ty ix l (some (po.trace.keys, po.output)) px subs) = .ok (po.output, po.trace) := by
  unfold marginalize
  simp only [Node.isExtend, if_true, Out.marginal_mk, Out.trace_mk]
  rw [copytraces_single]
  simp only [bind, Except.bind]
  have : t.filterKeys (fun k => !(t.contains k && !po.trace.keys.contains k)) = po.trace := by
    apply Dict.ext'
    simp only [Dict.filterKeys]
    rw [h, List.filter_append]
    have e1 : ∀ e ∈ po.trace.entries, (!(t.contains e.1 && !po.trace.keys.contains e.1)) = true := by
      intro e he
      have : po.trace.keys.contains e.1 = true := by
        rw [List.contains_iff_mem]; exact Dict.mem_keys_of_mem (v := e.2) he
      rw [this, Bool.not_true, Bool.and_false]; rfl
    have e2 : ∀ e ∈ fo.entries, ¬ (!(t.contains e.1 && !po.trace.keys.contains e.1)) = true := by
      intro e he
      have hm := Dict.mem_keys_of_mem (k := e.1) (v := e.2) he
      have h1 : t.contains e.1 = true := by rw [Dict.contains_iff, mem_keys_union h]; exact Or.inr hm
      have h2 : po.trace.keys.contains e.1 = false := by
        rw [Bool.eq_false_iff, Ne, List.contains_iff_mem]
        exact fun hp => hd ⟨_, hp, hm⟩
      rw [h1, h2]; simp
    rw [List.filter_eq_self.2 e1, List.filter_eq_nil_iff.2 e2, List.append_nil]
  rw [this]
  rfl

end Verif
