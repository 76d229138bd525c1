import Verif.Model.ApgWeak
import Verif.Proofs.ApgGibbs
/-
The amortized Gibbs sampler with references that die: the decoder reads only what its conditioning trace holds. The lemmas from
`weak_draws_gibbsPropose` on follow those of the same names in `Proofs/ApgStep` and `Proofs/ApgGibbs`.
-/
namespace Verif
open Spec Apg
variable {L : Lang} {E : Err → Prop} {N : ApgNet L} {same : L.V → L.V → Bool} {T : Nat} {er : Err}

theorem weakTree_andThen {α : Type} (x : Except Err α) (k : α → MTree L) :
    weakTree same er (andThen x k) = andThen x fun a => weakTree same er (k a) := by
  cases x <;> rfl

/-- The programs that do not read the store are the same. -/
theorem weakProg_noop : weakProg same er (noopProg : ProgSpec L) = noopProg := rfl

theorem weakTree_coorForward (frames : L.V) (t : Int) (what : Option L.V) (n : Nat) (zs : List L.V) (k : List L.V → MTree L) :
    weakTree same er (coorForward N frames t what n zs k) = coorForward N frames t what n zs fun zs => weakTree same er (k zs) := by
  induction n generalizing zs with
  | zero => rfl
  | succ n ih => simp only [coorForward, weakTree, ih]

theorem weakTree_coorReverse (name : String) (k : List L.V → MTree L) :
    weakTree same er (coorReverse N name k) = coorReverse N name fun zs => weakTree same er (k zs) := by
  unfold coorReverse
  split
  · rfl
  · simp only [weakTree]
    congr 1
    funext c
    cases c with
    | none => rfl
    | some c => exact weakTree_andThen _ _

theorem weakProg_coor : weakProg same er (encCoorProg N) = encCoorProg N := by
  unfold weakProg encCoorProg
  congr 1
  funext c kwargs
  unfold encCoorModel
  simp only [weakTree_andThen]
  congr 1; funext ix; congr 1; funext frames; congr 1; funext what
  split
  · rfl
  · rw [weakTree_andThen]
    congr 1; funext fwd
    split
    · rw [weakTree_coorForward]; rfl
    · rw [weakTree_coorReverse]; rfl

theorem weakProg_digit : weakProg same er (encDigitProg N) = encDigitProg N := by
  unfold weakProg encDigitProg
  congr 1
  funext c kwargs
  unfold encDigitModel
  simp only [weakTree_andThen]
  congr 1; funext ix; congr 1; funext frames; congr 1; funext zs; congr 1; funext fwd
  unfold digitEnd
  simp only [weakTree]
  congr 1; funext z
  split <;> rfl

/-- The objects, of which only the decoder reads the store. -/
def weakDec (same : L.V → L.V → Bool) (er : Err) (N : ApgNet L) (i0 i1 i2 i3 : ObjId) (fl : LW L.W → LW L.W → LW L.W → L.Lo)
    (gl : LW L.W → LW L.W → L.W → L.Lo) (r : ResamplerFn L) : ApgObjs L :=
  { apgObjs N i0 i1 i2 i3 fl gl r with dec := .prog i3 (weakProg same er (decProg N)) }

theorem weakObjs_eq {i0 i1 i2 i3 : ObjId} {fl : LW L.W → LW L.W → LW L.W → L.Lo} {gl : LW L.W → LW L.W → L.W → L.Lo} {r : ResamplerFn L} :
    weakObjs same er N i0 i1 i2 i3 fl gl r = weakDec same er N i0 i1 i2 i3 fl gl r := by
  unfold weakObjs weakDec apgObjs
  rw [weakProg_noop, weakProg_coor, weakProg_digit]

/-- The model leaves the store alone and reads only entries with names in `P`. -/
def ReadsOnly (P : String → Prop) : MTree L → Prop
  | .ret _ => True
  | .raise _ => True
  | .variable _ _ _ _ _ k => ∀ z, ReadsOnly P (k z)
  | .inject _ _ k => ReadsOnly P k
  | .getCond k => ∀ c, ReadsOnly P (k c)
  | .getTrace k => ∀ t, ReadsOnly P (k t)
  | .storeGet key k => P key ∧ ∀ r, ReadsOnly P (k r)
  | .storeSet _ _ _ => False
  | .sampleFree _ _ k => ∀ z, ReadsOnly P (k z)

theorem readsOnly_andThen {P : String → Prop} {α : Type} (x : Except Err α) (k : α → MTree L) (h : ∀ a, x = .ok a → ReadsOnly P (k a)) :
    ReadsOnly P (andThen x k) := by
  cases x with
  | ok a => exact h a rfl
  | error e => trivial

/-- Where all entries that the model reads are held by the conditioning trace, dying references make no difference. -/
theorem run_weakTree {P : String → Prop} {c : Trace L} {w : World L} (hw : w.store.hooks = apgHooks same)
    (hP : ∀ k, P k → ∀ v, w.store.data.get? k = some (.weakref v) → heldBy same c v = true) (m : MTree L) (hm : ReadsOnly P m) (t : Trace L) :
    runModel (some c) (weakTree same er m) t w = runModel (some c) m t w := by
  induction m generalizing t with
  | ret o => rfl
  | raise x => rfl
  | «variable» name d value prov reparam k ih =>
    simp only [weakTree, runModel]
    split
    · rfl
    · cases variableValue (some c) name value prov with
      | some vp => exact ih _ (hm _) _
      | none => exact congrArg _ (funext fun v => ih v (hm v) _)
  | inject name rv k ih => exact ih hm _
  | getCond k ih => exact ih _ (hm _) _
  | getTrace k ih => exact ih _ (hm _) _
  | storeSet key v k ih => exact hm.elim
  | sampleFree d reparam k ih =>
    simp only [weakTree, runModel]
    exact congrArg _ (funext fun v => ih v (hm v) _)
  | storeGet key k ih =>
    obtain ⟨hk, hm⟩ := hm
    obtain ⟨cond, data, hooks⟩ := w
    simp only at hw hP
    subst hw
    simp only [weakTree, runModel]
    cases hg : data.get? key with
    | none => simp [Exec.bind, Exec.onStore, Store.getItem, apgHooks, Hooks.noop, hg]
    | some r =>
      have ha : refAlive same (some c) t r = true := by
        cases r with
        | weakref v => simp [refAlive, hP key hk v hg]
        | _ => rfl
      simp only [Exec.bind, Exec.onStore, Store.getItem, apgHooks, Hooks.noop, hg, Comp.bind_ret, ha, if_true]
      exact ih r (hm r) t

theorem readsOnly_decWheres {n : Nat} (ix : ApgIx) (h0 : 0 ≤ ix.t) (hn : (n : Int) = min (ix.t + 1) T) (l : List Nat) (hl : ∀ t ∈ l, t < T)
    (zs : List L.V) (k : List L.V → MTree L) (hk : ∀ zs, ReadsOnly (fun a => ∃ i : Nat, i < n ∧ a = zWhereName i ix.sweep) (k zs)) :
    ReadsOnly (fun a => ∃ i : Nat, i < n ∧ a = zWhereName i ix.sweep) (decWheres N ix l zs k) := by
  induction l generalizing zs with
  | nil => exact hk zs
  | cons t ts ih =>
    have ht : t < T := hl t (by simp)
    have ih := fun zs => ih (fun t h => hl t (by simp [h])) zs
    have hfrom : ∀ (src name : String), (∃ i : Nat, i < n ∧ src = zWhereName i ix.sweep) →
        ReadsOnly (fun a => ∃ i : Nat, i < n ∧ a = zWhereName i ix.sweep) (whereFrom N src name fun v => decWheres N ix ts (zs ++ [v]) k) :=
      fun src name h => ⟨h, fun r => readsOnly_andThen _ _ fun loc _ _ tr => readsOnly_andThen _ _ fun v _ => ih _⟩
    unfold decWheres
    split
    · split
      · exact fun _ tr => readsOnly_andThen _ _ fun v _ => ih _
      · exact hfrom _ _ ⟨t - 1, by omega, by congr 1; omega⟩
    · have : ix.t = ((n - 1 : Nat) : Int) := by omega
      split
      · exact hfrom _ _ ⟨n - 1, by omega, by rw [this]⟩
      · exact hfrom _ _ ⟨n - 1, by omega, by rw [this]⟩

theorem readsOnly_decOutput {n : Nat} (ix : ApgIx) (l : List Nat) (hl : ∀ t ∈ l, t < n) (kvs : List (String × PyVal L))
    (k : List (String × PyVal L) → MTree L) (hk : ∀ kvs, ReadsOnly (fun a => ∃ i : Nat, i < n ∧ a = zWhereName i ix.sweep) (k kvs)) :
    ReadsOnly (fun a => ∃ i : Nat, i < n ∧ a = zWhereName i ix.sweep) (decOutput ix l kvs k) := by
  induction l generalizing kvs with
  | nil => exact hk kvs
  | cons t ts ih =>
    unfold decOutput
    exact ⟨⟨t, hl t (by simp), rfl⟩, fun r => readsOnly_andThen _ _ fun v _ => ih (fun t h => hl t (by simp [h])) _⟩

theorem readsOnly_dec {n : Nat} {ix : ApgIx} (h0 : 0 ≤ ix.t) (hn : (n : Int) = min (ix.t + 1) T) {frames : L.V} (hT : N.timesteps frames = T)
    {inp : PyVal L} (hinp : item inp "frames" = .ok frames) {kwargs : List (String × PyVal L)} (hix : ixOf kwargs = .ok ix) :
    ReadsOnly (fun a => ∃ i : Nat, i < n ∧ a = zWhereName i ix.sweep) (decModel N inp kwargs) := by
  unfold decModel
  rw [andThen_ok hix, andThen_ok hinp, hT]
  refine readsOnly_decWheres ix h0 hn _ (fun t h => by simpa using h) _ _ fun zs => readsOnly_andThen _ _ fun i _ what tr =>
    readsOnly_andThen _ _ fun _ _ _ => ?_
  have hnn : (min (ix.t + 1) (T : Int)).toNat = n := by omega
  rw [hnn]
  exact readsOnly_decOutput ix _ (fun t h => by simpa using h) _ _ fun kvs => trivial

/-- The decoder run on a trace that holds all its latent variables, when references die. -/
theorem weak_done_dec (er : Err) (hsame : ∀ v, same v v = true) {n : Nat} {s : Int} {c : Trace L} {w : World L} {val : Nat → L.V}
    (i : ObjId) (ix : ApgIx) (hix : ix.sweep = s) (hn : (n : Int) = min (ix.t + 1) T) (hpos : 0 < n) (zw : Int)
    (hzw : whatIndex T ix = .ok zw) (frames : L.V) (hT : N.timesteps frames = T) (inp : PyVal L)
    (hinp : item inp "frames" = .ok frames) (kw : Kw L) (hkw : KwOk kw) (hkix : kw.ix = ix.toPy) (what : L.V)
    (hw : w.store.hooks = apgHooks same) (hc : w.cond i = some c)
    (hval : ∀ i, i < T → ∃ rv, c.get? (whereAt n s i) = some rv ∧ rv.value = val i)
    (hwhat : ∃ rv, c.get? (zWhatName zw) = some rv ∧ rv.value = what)
    (hst : ∀ i, i < n → w.store.data.get? (zWhereName i s) = some (.weakref (val i))) :
    (eval (.prog i (weakProg same er (decProg N))) inp kw).Done w fun o w' => w' = w ∧
      (∃ x, o.logWeight = .tensor x ∧
        ((∀ k rv, c.get? k = some rv → rv.prov = .observed → k = "recon") → x = total o.trace)) ∧ o.loss = none ∧
      (∀ k, o.trace.contains k = true ↔ Addr T n s zw k) ∧
      IsOutput N T (fun k => k = "frames" ∨ k = zWhatName zw ∨ ∃ i, i < n ∧ k = zWhereName i s) o.output ∧
      item o.output "frames" = .ok frames ∧ item o.output (zWhatName zw) = .ok what ∧
      (∀ i, i < n → item o.output (zWhereName i s) = .ok (val i)) ∧
      Latents N T n s zw frames val what o.trace := by
  have key : eval (.prog i (weakProg same er (decProg N))) inp kw w = eval (.prog i (decProg N)) inp kw w := by
    subst hix
    have hr := readsOnly_dec (N := N) (n := n) (by omega) hn hT hinp (ixOf_received (decProg N).sig (by simp [decProg]) kw ix hkix)
    have hP : ∀ k, (∃ i : Nat, i < n ∧ k = zWhereName i ix.sweep) → ∀ v, w.store.data.get? k = some (.weakref v) → heldBy same c v = true := by
      rintro k ⟨j, hj, rfl⟩ v hv
      rw [hst j hj] at hv
      cases hv
      obtain ⟨rv, h1, h2⟩ := hval j (by omega)
      rw [← h2]
      exact List.any_eq_true.2 ⟨(_, rv), getL_mem h1, hsame _⟩
    rw [eval_prog_apply, eval_prog_apply, hc]
    have := run_weakTree (er := er) hw hP _ hr Dict.empty
    simp only [weakProg]
    rw [show (decProg N).model = decModel N from rfl, this]
  have h := done_dec (N := N) (same := same) i ix hix hn hpos zw hzw frames hT inp hinp kw hkw hkix what hw hc hval hwhat hst
  unfold Exec.Done at h ⊢
  rwa [key]

theorem weak_draws_gibbsPropose {β : Type} (hsame : ∀ v, same v v = true) (hd : ∀ v, N.timesteps (L.detachV v) = N.timesteps v) (i kid : ObjId) (kp : ProgSpec L)
    {q : Node L} {ap ac ae : Attrs L} {c : PyVal L} {f : L.V} {kw : Kw L} {n n' t s : Nat} {zw zw' : Int} {new old : String}
    (hkw : KwOk kw) (he1 : ae.id ≠ i) (he2 : ae.id ≠ kid)
    (hf : item c "frames" = .ok f) (hT : N.timesteps f = T)
    (hac : ac.debug = true) (hcl : ac.lossFn = idLoss) (hel : ae.lossFn = idLoss) (hix : ae.ix = revIx t s)
    {gl : LW L.W → LW L.W → L.W → L.Lo}
    (hpl : ∀ out px tot rv fw, out.px = some px → px.targetTrace.get? "recon" = some rv → px.forwardTrace = some fw →
      ap.lossFn out tot = .ok (gl out.logWeight (logJoint fw fun _ => true) rv.logProb + tot))
    (hn : (n' : Int) = min ((t : Int) + 1) T) (hpos : 0 < n') (hzw : whatIndex T ⟨t, s, "reverse"⟩ = .ok zw')
    (hnew : ¬ Addr T n s zw new) (hold : Addr T n s zw old) (hold' : ¬ Addr T n' s zw' old)
    (haddr : ∀ k, Addr T n' s zw' k → k = new ∨ Addr T n s zw k) (hback : ∀ k, k = new ∨ Addr T n s zw k → Addr T n' s zw' k ∨ k = old)
    (hst : ∀ j : Nat, j < n' → zWhereName j s = new ∨ j < n)
    {K : Comp L β} {Z : β → L.V} {Df : β → L.D} {Dr : (Nat → L.V) → L.V → L.V → L.D} {o1 : Out L} {w1 : World L}
    (hR : Ready N same T n s zw f o1 w1)
    (hfwd : (eval (.prog kid kp) o1.output (subKw ac (subKw ap kw))).Draws w1 K fun b o w' =>
      w' = w1.put new (Z b) ∧ o.trace = one new (RV.mk' (Df b) (Z b) .sampled N.reparam) ∧ o.logWeight = .float0)
    (hrev : ∀ o val what w c rv, item o "frames" = .ok f → item o (zWhatName zw') = .ok what →
      (∀ i, i < n' → item o (zWhereName i s) = .ok (val i)) → w.cond kid = some c → c.get? old = some rv →
      (eval (.prog kid kp) o (subKw ae (subKw ap kw))).Done w fun o w' =>
        w' = w ∧ o.trace = one old (RV.mk' (Dr val what rv.value) rv.value .reused N.reparam)) :
    (afterFirst ap ac (fun t _ => .ok t) true (.extend ae (.prog i (weakProg same er (decProg N))) (.prog kid kp)) (.prog kid kp) q c kw o1).Draws w1 K
      fun b out w' => Stage N same T n' s zw' f out w' ∧ ∃ val what z, Latents N T n' s zw' f val what out.trace ∧
        valueAt o1.trace old = some z ∧
        Moved T n' s zw' new (Z b) (L.logProb (Df b) (Z b)) (L.logProb (Dr val what z) z) o1 out ∧
        out.loss = some (gl out.logWeight (.tensor (L.logProb (Df b) (Z b))) (L.logProb (N.recon ((List.range T).map val) what) f) +
          o1.loss.getD ac.loss0) := by
  unfold afterFirst
  refine Exec.Draws.bind hfwd ?_
  rintro b o2 w2 ⟨rfl, ho2, hlw2⟩
  generalize hz : Z b = z
  generalize hdf : Df b = d
  rw [hz, hdf] at ho2
  have hnrec : new ≠ "recon" := fun h => hnew (Or.inl h)
  have hQ : (Exec.lift (composeRest ac (subKw ap kw) o1 o2)).Done (w1.put new z) fun o w' => w' = w1.put new z ∧
        IsUnion o.trace o2.trace o1.trace ∧ o.type = .compose ∧ getL o.subs "q2_out" = some o2 ∧ o.logWeight.val = o1.logWeight.val ∧
        o.loss = some (o1.loss.getD ac.loss0) := by
    have hno : ¬ Overlap o1.trace o2.trace := by
      rintro ⟨k, hk1, hk2⟩
      rw [ho2, mem_keys_one] at hk2
      subst hk2
      exact hnew ((hR.addr _).1 (Dict.contains_iff.2 hk1))
    rcases composeRest_spec ac (subKw ap kw) o1 o2 with ⟨h, -⟩ | ⟨-, t', lw, h4, h6, -, h5⟩
    · exact absurd h hno
    unfold finish at h5
    rw [hcl] at h5
    simp only [idLoss] at h5
    refine Exec.Done.lift h5 ⟨rfl, h4, rfl, ?_, ?_, ?_⟩
    · simp [hac, Out.setLoss, Out.setSubs, Out.subs, getL]
    · rw [hlw2] at h6
      simpa [Out.setLoss, Out.setSubs, Out.logWeight, LW.val] using h6
    · exact congrArg some (by cases o1.loss <;> rfl : (match o1.loss with | some l => l | none => ac.loss0) = o1.loss.getD ac.loss0)
  refine Exec.Done.bind hQ ?_
  rintro qo w2 ⟨rfl, hun, hty, hsub, hqlw, hql⟩
  -- the values of the new stage
  have hget : ∀ k, Addr T n' s zw' k → ∃ rv, qo.trace.get? k = some rv := by
    intro k hk
    rw [← Dict.mem_keys_iff, mem_keys_union hun, ho2, mem_keys_one]
    rcases haddr k hk with h | h
    · exact Or.inl h
    · exact Or.inr (Dict.contains_iff.1 ((hR.addr k).2 h))
  have hgetnew : qo.trace.get? new = some (RV.mk' d z .sampled N.reparam) :=
    get?_union_left hun (by rw [ho2, one_get?, if_pos rfl])
  have hgetold : ∀ k, k ≠ new → qo.trace.get? k = o1.trace.get? k := fun k hk =>
    get?_union hun _ (by rw [ho2, mem_keys_one]; exact hk)
  have hvalue : ∀ k rv, qo.trace.get? k = some rv → some rv.value = if k = new then some z else valueAt o1.trace k := by
    intro k rv h
    by_cases hk : k = new
    · subst hk
      rw [if_pos rfl]
      rw [hgetnew] at h
      cases h; rfl
    · rw [if_neg hk]
      rw [hgetold k hk] at h
      simp [valueAt, h]
  obtain ⟨rvo, hrvo1⟩ : ∃ rv, o1.trace.get? old = some rv := by
    rw [← Dict.mem_keys_iff, ← Dict.contains_iff]
    exact (hR.addr old).2 hold
  have hrvo : qo.trace.get? old = some rvo := by rw [hgetold old (fun h => hnew (h ▸ hold)), hrvo1]
  have hval : ∀ j, j < T → ∃ rv, qo.trace.get? (whereAt n' s j) = some rv ∧ rv.value = valOf f qo.trace n' s j := by
    intro j hj
    obtain ⟨rv, hrv⟩ := hget (whereAt n' s j) (Or.inr (Or.inr ⟨j, hj, rfl⟩))
    exact ⟨rv, hrv, by simp only [valOf, hrv]⟩
  obtain ⟨rvw, hrvw⟩ := hget (zWhatName zw') (Or.inr (Or.inl rfl))
  have hn'T : n' ≤ T := by omega
  have hstore : ∀ j : Nat, j < n' → (w1.put new z).store.data.get? (zWhereName j s) = some (.weakref (valOf f qo.trace n' s j)) := by
    intro j hj
    obtain ⟨rv, h1, h2⟩ := hval j (by omega)
    rw [← h2, World.put_data, Dict.get?_insert]
    rw [whereAt_lt hj] at h1
    by_cases he : zWhereName j s = new
    · rw [if_pos he]
      rw [he, hgetnew] at h1
      cases h1; rfl
    · rw [if_neg he]
      have h3 := (hst j hj).resolve_left he
      obtain ⟨rv', h4, h5⟩ := hR.stored j h3
      rw [hgetold _ he, h4] at h1
      cases h1; exact h5
  have hcond : ∀ j, (w1.put new z).cond j = none := hR.calm.cond
  have hhooks : (w1.put new z).store.hooks = apgHooks same := hR.calm.hooks
  have hobs : Marked o1.trace → ∀ k rv, qo.trace.get? k = some rv → (rv.prov = .observed ↔ k = "recon") := by
    intro hm k rv h
    by_cases hk : k = new
    · subst hk
      rw [hgetnew] at h
      cases h
      simp [RV.mk', hnrec]
    · rw [hgetold k hk] at h
      exact hm k rv h
  generalize w1.put new z = w2 at hstore hcond hhooks
  -- the target
  have hP : (eval (.extend ae (.prog i (weakProg same er (decProg N))) (.prog kid kp)) c (subKw ap kw)).Done (w2.setCond ae.id (some qo.trace))
      fun po w' => ∃ (po1 : Out L) (fo : Trace L) (x : L.W) (lw : LW L.W) (out : PyVal L) (ty : OutTy)
        (ix : Option (PyVal L)) (l : Option L.Lo) (px : Option (ProposeX L)) (subs : List (String × Out L)), w' = ((w2.setCond ae.id (some qo.trace)).setCond kid none).setCond i none ∧
        IsUnion po.trace po1.trace fo ∧ ¬ Overlap po1.trace fo ∧ lw = .tensor x ∧
        po = Out.mk po.trace lw out ty ix l (some (po1.trace.keys, po1.output)) px subs ∧
        fo = one old (RV.mk' (Dr (valOf f qo.trace n' s) rvw.value rvo.value) rvo.value .reused N.reparam) ∧
        (Marked o1.trace → x = total po1.trace + L.logProb (Dr (valOf f qo.trace n' s) rvw.value rvo.value) rvo.value) ∧
      (∀ k, po1.trace.contains k = true ↔ Addr T n' s zw' k) ∧
      IsOutput N T (fun k => k = "frames" ∨ k = zWhatName zw' ∨ ∃ i, i < n' ∧ k = zWhereName i s) po1.output ∧
      item po1.output "frames" = .ok f ∧
      Latents N T n' s zw' f (valOf f qo.trace n' s) rvw.value po1.trace := by
    have hdec := weak_done_dec er hsame (N := N) (same := same) (T := T) (n := n') (s := s) (c := qo.trace) (val := valOf f qo.trace n' s)
      (w := ((w2.setCond ae.id (some qo.trace)).setCond i (some qo.trace)).setCond kid (some qo.trace)) i ⟨t, s, "reverse"⟩ rfl hn hpos
      zw' hzw f hT c hf (subKw ae (subKw ap kw)) ((hkw.sub _).sub _) (by rw [subKw, hix]; rfl) rvw.value
      hhooks (by simp) hval ⟨rvw, hrvw, rfl⟩ hstore
    refine done_extend (by simp [below, Node.id, he1, he2]) ?_ ?_
      (Q1 := fun po w' => w' = ((w2.setCond ae.id (some qo.trace)).setCond i (some qo.trace)).setCond kid (some qo.trace) ∧ 
      (∃ x, po.logWeight = .tensor x ∧
        ((∀ k rv, qo.trace.get? k = some rv → rv.prov = .observed → k = "recon") → x = total po.trace)) ∧
      (∀ k, po.trace.contains k = true ↔ Addr T n' s zw' k) ∧
      IsOutput N T (fun k => k = "frames" ∨ k = zWhatName zw' ∨ ∃ i, i < n' ∧ k = zWhereName i s) po.output ∧
      item po.output "frames" = .ok f ∧ item po.output (zWhatName zw') = .ok rvw.value ∧
      (∀ i, i < n' → item po.output (zWhereName i s) = .ok (valOf f qo.trace n' s i)) ∧
      Latents N T n' s zw' f (valOf f qo.trace n' s) rvw.value po.trace)
    · simp only [Node.id, World.setCond_cond, if_true]
      refine hdec.mono ?_
      rintro po w' ⟨rfl, h1, -, h2⟩
      exact ⟨rfl, h1, h2⟩
    · rintro po w' ⟨rfl, ⟨x, hx, hxt⟩, h2, h3, h4, h4', h4'', hlat⟩
      refine (hrev _ _ _ _ qo.trace rvo h4 h4' h4'' (by simp) hrvo).mono ?_
      rintro fo w' ⟨rfl, hfo⟩
      simp only [World.setCond_cond, if_true]
      have hno : ¬ Overlap po.trace fo.trace := by
        rintro ⟨k, hk1, hk2⟩
        rw [hfo, mem_keys_one] at hk2
        subst hk2
        exact hold' ((h2 _).1 (Dict.contains_iff.2 hk1))
      have hk : KernelOK (some qo.trace) fo := by
        refine ⟨fun k rv hrv => ⟨?_, fun h => by cases h⟩, fun h => by cases h⟩
        rw [hfo, one_get?] at hrv
        split at hrv
        · cases hrv; simp [RV.mk']
        · cases hrv
      rcases extendRest_spec ae (subKw ap kw) (some qo.trace) po fo with ⟨h, -⟩ | ⟨-, -, t', lw, h5, h8, h6, h7⟩
      · exact absurd hk (h.resolve_left hno)
      unfold finish at h7
      rw [hel] at h7
      simp only [idLoss] at h7
      refine ⟨_, h7, po, fo.trace, ?_⟩
      obtain ⟨x', hx'⟩ : ∃ x', lw = .tensor x' := by
        cases lw with
        | tensor x => exact ⟨x, rfl⟩
        | float0 =>
          have := (h6.1 rfl).1
          rw [hx] at this; cases this
      refine ⟨x', _, _, _, _, _, _, _, ?_, h5, hno, hx', rfl, hfo, ?_, h2, h3, h4, hlat⟩
      · simp only [Node.id]
        show World.mk _ _ = World.mk _ _
        congr 1
        funext j
        by_cases h1 : j = i <;> by_cases h2 : j = kid <;> simp [h1, h2]
      · intro hm
        have : sumLogProb fo.trace (fun _ _ => true) = L.logProb (Dr (valOf f qo.trace n' s) rvw.value rvo.value) rvo.value := by
          rw [hfo]
          exact total_one _ _
        rw [hx', hx, this] at h8
        rw [← hxt fun k rv h1 h2 => (hobs hm k rv h1).1 h2]
        exact h8
  refine Exec.Done.bind (Exec.Done.withSub' hP) ?_
  rintro po w3 ⟨w4, rfl, po1, fo, x, lw, out, ty, ix, l, px, subs, rfl, hu, hno, hlw, hpo, hfo, hx, ha1, ha2, ha3, hlat⟩
  have hrecon := get?_union_left hu hlat.recon
  have hfw : forwardTrace (.compose ac (.prog kid kp) q) qo = .ok (some o2.trace) := by
    unfold forwardTrace
    simp only [Node.debugAttr, hac, hty, if_true, hsub]
  have hm : marginalize (.extend ae (.prog i (weakProg same er (decProg N))) (.prog kid kp)) po = .ok (po1.output, po1.trace) := by
    rw [hpo]
    exact marginalize_extend hu hno
  have hlw' : po.logWeight = .tensor x := by rw [hpo]; exact hlw
  obtain ⟨o, h1, h2, h3, h4, hls, pxo, hpx, hpxw⟩ := proposeRest_done (a := ap) (kw := kw) (g := fun lw => gl lw
      (.tensor (L.logProb d z)) (L.logProb (N.recon ((List.range T).map (valOf f qo.trace n' s)) rvw.value) f)) hlw' hm hfw (by
    intro out px tot h1 _ h2 h3
    rw [hpl out px tot _ _ h1 (by rw [h2]; exact hrecon) h3, ho2, logJoint_tensor (k := new) (by rw [one_get?, if_pos rfl]), total_one]
    rfl)
  have hlat' : Latents N T n' s zw' f (valOf f qo.trace n' s) rvw.value o.trace := by rw [h2]; exact hlat
  refine Exec.Done.lift h1 ⟨⟨?_, ?_, ?_, ?_, ?_, ⟨_, h4⟩, ⟨_, _, hlat'⟩⟩, _, _, rvo.value, hlat', by simp [valueAt, hrvo1], ⟨?_, ?_, pxo, hpx, ?_⟩, by rw [hls, hql]; rfl⟩
  · refine ⟨fun j => ?_, hhooks⟩
    simp only [Node.id, World.setCond_cond]
    by_cases e1 : j = ae.id <;> by_cases e2 : j = i <;> by_cases e3 : j = kid <;> simp [e1, e2, e3, hcond]
  · rw [h2]; exact ha1
  · rw [h3]; exact detach_output hd ha2
  · rw [h3]; exact detach_item (by obtain ⟨kvs, h, -⟩ := ha2; exact ⟨kvs, h⟩) ha3
  · intro j hj
    have := hlat'.wheres j (by omega)
    rw [whereAt_lt hj] at this
    refine ⟨_, this, ?_⟩
    exact hstore j hj
  · intro k hk hne
    rcases hk with h | rfl | ⟨j, hj, rfl⟩
    · exact absurd h hne
    · rw [← hvalue _ _ hrvw, valueAt, hlat'.appearance]; rfl
    · obtain ⟨rv, h5, h6⟩ := hval j hj
      rw [← hvalue _ _ h5, valueAt, hlat'.wheres j hj, h6]; rfl
  · intro hmark
    rw [h4, hqlw, hx hmark, h2]
    congr 5
    have e1 : total qo.trace = L.logProb d z + total o1.trace := by
      rw [total_union hun, ho2, total_one]; rfl
    rw [add_comm, ← e1]
    refine sumLogProb_congr _ fun k rv hk => ?_
    have hin : k = new ∨ Addr T n s zw k := by
      have : k ∈ qo.trace.keys := Dict.mem_keys_iff.2 ⟨_, hk⟩
      rw [mem_keys_union hun, ho2, mem_keys_one] at this
      exact this.imp id fun h => (hR.addr k).1 (Dict.contains_iff.2 h)
    by_cases hr : k = "recon"
    · have := (hobs hmark k rv hk).2 hr
      simp [InDenominator, this]
    · have hno' := fun h => hr ((hobs hmark k rv hk).1 h)
      have : ∃ rv', po.trace.get? k = some rv' ∧ rv'.prov = .reused := by
        rcases hback k hin with (h | rfl | ⟨j, hj, rfl⟩) | rfl
        · exact absurd h hr
        · exact ⟨_, get?_union_left hu hlat.appearance, rfl⟩
        · exact ⟨_, get?_union_left hu (hlat.wheres j hj), rfl⟩
        · refine ⟨_, (get?_union hu _ fun h => hold' ((ha1 _).1 (Dict.contains_iff.2 h))).trans
            (by rw [hfo, one_get?, if_pos rfl]), rfl⟩
      obtain ⟨rv', h5, h6⟩ := this
      unfold InDenominator
      rw [h5]
      cases hp : rv.prov <;> simp [h6]
  · rw [hpxw, ← hqlw]
    cases qo.logWeight with
    | tensor x => exact Or.inl rfl
    | float0 => exact Or.inr ⟨rfl, rfl⟩

section whole
variable {i0 i1 i2 i3 fresh : ObjId} {fl : LW L.W → LW L.W → LW L.W → L.Lo} {gl : LW L.W → LW L.W → L.W → L.Lo} {r : ResamplerFn L}
  {kvs : List (String × PyVal L)} {f : L.V}

theorem weak_gibbsInit (m : Nat) : gibbsInit fresh (weakDec same er N i0 i1 i2 i3 fl gl r) m = gibbsInit fresh (apgObjs N i0 i1 i2 i3 fl gl r) m := by
  induction m with
  | zero => rfl
  | succ m ih => unfold gibbsInit; rw [ih]; rfl

theorem weak_safe_gibbsInit (hf : item (.dict kvs) "frames" = .ok f) (hT : N.timesteps f = T) (m : Nat) (hm : m ≤ T) (kw : Kw L)
    (hkw : KwOk kw) (w : World L) (hw : Calm same w) :
    (eval (gibbsInit fresh (weakDec same er N i0 i1 i2 i3 fl gl r) m) (.dict kvs) kw).Safe E w (Started N same T m f) := by
  rw [weak_gibbsInit]
  exact safe_gibbsInit hf hT m hm kw hkw w hw

/-- The rest of the initial importance sampling, after the first loop. -/
theorem weak_draws_isStep (hsame : ∀ v, same v v = true) (hd : ∀ v, N.timesteps (L.detachV v) = N.timesteps v) (hpos : 0 < T) {c : PyVal L} (hf : item c "frames" = .ok f)
    (hT : N.timesteps f = T) {ap ac : Attrs L} {q : Node L} (hpx : ap.ix = fwdIx T 0) (hcx : ac.ix = fwdIx T 0) (hcl : ac.lossFn = idLoss) (hcd : ac.debug = false)
    {fl : LW L.W → LW L.W → LW L.W → L.Lo} (hpl : ∀ out px tot, out.px = some px → ap.lossFn out tot =
      .ok (fl out.logWeight (logJoint px.proposalTrace fun _ => true) (logJoint px.targetTrace fun _ => true) + tot)) {kw : Kw L} (hkw : KwOk kw) {o1 : Out L} {w1 : World L}
    (h1 : Started N same T T f o1 w1) :
    (afterFirst ap ac (fun t _ => .ok t) true (.prog i3 (weakProg same er (decProg N))) (.prog i2 (encDigitProg N)) q c kw o1).Draws w1
      (.draw (N.digitDist f ((List.range T).map (posOf f o1.trace 0))) N.reparam .ret) fun z out w' => Stage N same T T 0 0 f out w' ∧
        Latents N T T 0 0 f (posOf f o1.trace 0) z out.trace ∧
        out.logWeight = .tensor (L.detachW (total out.trace -
          (total o1.trace + L.logProb (N.digitDist f ((List.range T).map (posOf f o1.trace 0))) z))) ∧
        out.loss = some (fl out.logWeight (.tensor (total o1.trace + L.logProb (N.digitDist f ((List.range T).map (posOf f o1.trace 0))) z))
          (.tensor (total out.trace)) + o1.loss.getD ac.loss0) := by
  have hz1 : ∀ i : Nat, i < T → item o1.output (zWhereName i (0 : Nat)) = .ok (posOf f o1.trace 0 i) := by
    intro i hi
    obtain ⟨rv, h2, h3⟩ := h1.wheres i hi
    rw [posOf_eq h2]
    exact h3
  unfold afterFirst
  refine Exec.Draws.bind (draws_digit_fwd (same := same) i2 0 hpos h1.given hT hz1 ((hkw.sub _).sub _) (by rw [subKw, hcx]; rfl)
    (h1.calm.cond _) h1.calm.hooks) ?_
  rintro z o2 w2 ⟨rfl, h2, h3⟩
  generalize N.digitDist f ((List.range T).map (posOf f o1.trace 0)) = d at h2 ⊢
  have hQ : (Exec.lift (composeRest ac (subKw ap kw) o1 o2)).Done (w1.put (zWhatName (0 : Nat)) z) fun o w' =>
      w' = w1.put (zWhatName (0 : Nat)) z ∧ IsUnion o.trace o2.trace o1.trace ∧ o.logWeight.val = 0 ∧
      o.loss = some (o1.loss.getD ac.loss0) := by
    have hno : ¬ Overlap o1.trace o2.trace := by
      rintro ⟨k, hk1, hk2⟩
      rw [h2, mem_keys_one] at hk2
      subst hk2
      obtain ⟨i, -, he⟩ := (h1.addr _).1 (Dict.contains_iff.2 hk1)
      exact (C42_kinds_disjoint _ _ _).1 he.symm
    rcases composeRest_spec ac (subKw ap kw) o1 o2 with ⟨h, -⟩ | ⟨-, t', lw, h5, h7, -, h6⟩
    · exact absurd h hno
    unfold finish at h6
    rw [hcl] at h6
    simp only [idLoss] at h6
    refine Exec.Done.lift h6 ?_
    rw [h3, h1.weight] at h7
    have h8 : lw.val = 0 := by rw [h7]; exact add_zero _
    have h9 : (match o1.loss with | some l => l | none => ac.loss0) = o1.loss.getD ac.loss0 := by cases o1.loss <;> rfl
    split
    · exact ⟨rfl, h5, h8, congrArg some h9⟩
    · exact ⟨rfl, h5, h8, congrArg some h9⟩
  refine Exec.Done.bind hQ ?_
  rintro qo w2 ⟨rfl, h5, hqlw, hql⟩
  have hwh : ∀ j, j < T → whereAt T 0 j = zWhereName j 0 := fun j hj => whereAt_lt hj
  have hne : ∀ i : Nat, zWhereName i 0 ≠ zWhatName ((0 : Nat) : Int) := fun i => (C42_kinds_disjoint _ _ _).1
  have hgeto : ∀ i : Nat, qo.trace.get? (zWhereName i 0) = o1.trace.get? (zWhereName i 0) := fun i =>
    get?_union h5 _ (by rw [h2, mem_keys_one]; exact hne i)
  have hgetw : qo.trace.get? (zWhatName 0) = some (RV.mk' d z .sampled N.reparam) :=
    get?_union_left h5 (by rw [h2, one_get?]; exact if_pos rfl)
  have hsamp : ∀ k rv, qo.trace.get? k = some rv → rv.prov = .sampled := by
    intro k rv hk
    by_cases h' : k = zWhatName 0
    · subst h'
      rw [hgetw] at hk
      cases hk; rfl
    · rw [get?_union h5 _ (by rw [h2, mem_keys_one]; exact h')] at hk
      exact h1.sampled k rv hk
  have hval : ∀ j, j < T → ∃ rv, qo.trace.get? (whereAt T 0 j) = some rv ∧ rv.value = posOf f o1.trace 0 j := by
    intro j hj
    obtain ⟨rv, h7, -⟩ := h1.wheres j hj
    exact ⟨rv, by rw [hwh j hj, hgeto, h7], (posOf_eq h7).symm⟩
  have hstore : ∀ j : Nat, j < T → (w1.put (zWhatName (0 : Nat)) z).store.data.get? (zWhereName j 0) = some (.weakref (posOf f o1.trace 0 j)) := by
    intro j hj
    obtain ⟨rv, h7, h8⟩ := h1.stored j hj
    rw [posOf_eq h7, World.put_data, Dict.get?_insert, if_neg (hne j)]
    exact h8
  have hcond : ∀ j, (w1.put (zWhatName (0 : Nat)) z).cond j = none := h1.calm.cond
  have hhooks : (w1.put (zWhatName (0 : Nat)) z).store.hooks = apgHooks same := h1.calm.hooks
  generalize w1.put (zWhatName (0 : Nat)) z = w2 at hstore hcond hhooks
  have hdec := weak_done_dec er hsame (N := N) (same := same) (T := T) (n := T) (s := 0) (c := qo.trace) (val := posOf f o1.trace 0)
    (w := w2.setCond i3 (some qo.trace)) i3 ⟨T, 0, "forward"⟩ rfl (by show (T : Int) = min ((T : Int) + 1) T; omega) hpos 0 (by simp [whatIndex]) f hT c hf
    (subKw ap kw) (hkw.sub _) (by rw [subKw, hpx]; rfl) z hhooks (by simp) hval ⟨_, hgetw, rfl⟩ hstore
  refine Exec.Done.bind (Exec.Done.withSub' hdec) ?_
  rintro po w3 ⟨w4, rfl, rfl, ⟨x, hx, hxt⟩, -, ha1, ha2, ha3, -, -, hlat⟩
  have hx' := hxt fun k rv h7 h8 => by rw [hsamp k rv h7] at h8; cases h8
  have hone : L.logProb d z = total o2.trace := by
    rw [h2, total_one]; rfl
  obtain ⟨o, h7, h8, h9, h10, h11, _⟩ := proposeRest_done (a := ap) (kw := kw) (qo := qo)
    (g := fun lw => fl lw (.tensor (total o1.trace + L.logProb d z)) (.tensor (total po.trace)))
    (p := .prog i3 (weakProg same er (decProg N))) (q := .compose ac (.prog i2 (encDigitProg N)) q) (fwd := none) (m := (po.output, po.trace)) hx rfl
    (by unfold forwardTrace; simp only [Node.debugAttr, hcd]) (by
    intro out px tot e1 e2 e3 _
    rw [hpl out px tot e1, e2, e3, logJoint_tensor hgetw, logJoint_tensor hlat.recon, add_comm (total o1.trace), hone, ← total_union h5])
  have hlat' : Latents N T T 0 0 f (posOf f o1.trace 0) z o.trace := by rw [h8]; exact hlat
  refine Exec.Done.lift h7 ⟨⟨?_, ?_, ?_, ?_, ?_, ⟨_, h10⟩, ⟨_, _, hlat'⟩⟩, hlat', ?_, by rw [h11, hql, h8]; rfl⟩
  · refine ⟨fun j => ?_, hhooks⟩
    simp only [Node.id, World.setCond_cond]
    by_cases e1 : j = i3 <;> simp [e1, hcond]
  · rw [h8]; exact ha1
  · rw [h9]; exact detach_output hd ha2
  · rw [h9]; exact detach_item (by obtain ⟨kvs, h, -⟩ := ha2; exact ⟨kvs, h⟩) ha3
  · intro j hj
    have := hlat'.wheres j hj
    rw [hwh j hj] at this
    exact ⟨_, this, hstore j hj⟩
  · rw [h10, hqlw, zero_add, hx', h8]
    congr 3
    rw [add_comm, hone, ← total_union h5]
    refine sumLogProb_congr _ fun k rv hk => ?_
    have hin : k ∈ qo.trace.keys := Dict.mem_keys_iff.2 ⟨_, hk⟩
    rw [mem_keys_union h5, h2, mem_keys_one, ← Dict.contains_iff, h1.addr] at hin
    have : ∃ rv', po.trace.get? k = some rv' ∧ rv'.prov = .reused := by
      rcases hin with rfl | ⟨i, hi, rfl⟩
      · exact ⟨_, hlat.appearance, rfl⟩
      · exact ⟨_, by rw [← hwh i hi]; exact hlat.wheres i hi, rfl⟩
    obtain ⟨rv', e1, e2⟩ := this
    unfold InDenominator
    rw [e1]
    cases hp : rv.prov <;> simp [e2]

theorem weak_safe_gibbsIs (hsame : ∀ v, same v v = true) (hd : ∀ v, N.timesteps (L.detachV v) = N.timesteps v) (hpos : 0 < T) (hf : item (.dict kvs) "frames" = .ok f)
    (hT : N.timesteps f = T) :
    ∃ q, gibbsIs fresh (weakDec same er N i0 i1 i2 i3 fl gl r) T = .ok q ∧ ∀ kw, KwOk kw → ∀ w, Calm same w →
      (eval q (.dict kvs) kw).Safe E w (Stage N same T T 0 0 f) := by
  refine ⟨_, rfl, fun kw hkw w hw => ?_⟩
  unfold mkCompose
  rw [eval_afterFirst]
  refine Exec.Safe.bind' (weak_safe_gibbsInit (er := er) hf hT T (le_refl _) _ ((hkw.sub _).sub _) w hw) fun o1 w1 h1 => ?_
  exact (weak_draws_isStep (fl := fl) hsame hd hpos hf hT rfl rfl rfl rfl (by
    intro out px tot h1
    simp only [mkAttrs, Option.getD_some, weakDec, apgObjs, lossIs, h1]) hkw h1).safe.mono fun _ _ ⟨_, h, _⟩ => h

variable {K : PyVal L → PyVal L → Prop} (hd : ∀ v, N.timesteps (L.detachV v) = N.timesteps v) (hsame : ∀ v, same v v = true)
  (hr : Resamples E K r)
  (hf : item (.dict kvs) "frames" = .ok f) (hT : N.timesteps f = T) (h1 : i1 ≤ fresh) (h2 : i2 ≤ fresh) (h3 : i3 ≤ fresh)

theorem weak_gibbsPropose_eq (k q : Node L) (t s : Nat) :
    gibbsPropose fresh (weakDec same er N i0 i1 i2 i3 fl gl r) T k t s q = .ok (.propose (sweepParts fresh gl T t s).1 (fun t _ => .ok t) true
      (.extend (sweepParts fresh gl T t s).2.2 (.prog i3 (weakProg same er (decProg N))) k) (.compose (sweepParts fresh gl T t s).2.1 k q)) := rfl

include hd hsame hf hT h1 h3 in
/-- The Propose of a position step, after the proposal so far. -/
theorem weak_draws_coorStep {q : Node L} {t s : Nat} (ht : t < T) (hs : 0 < s) {kw : Kw L} (hkw : KwOk kw) {o1 : Out L} {w1 : World L}
    (hR : Ready N same T t s ((s : Int) - 1) f o1 w1) :
    ∃ what, valueAt o1.trace (zWhatName ((s : Int) - 1)) = some what ∧
    (afterFirst (sweepParts fresh gl T t s).1 (sweepParts fresh gl T t s).2.1 (fun t _ => .ok t) true
      (.extend (sweepParts fresh gl T t s).2.2 (.prog i3 (weakProg same er (decProg N))) (.prog i1 (encCoorProg N))) (.prog i1 (encCoorProg N)) q
      (.dict kvs) kw o1).Draws w1 (coorDraws N (L.detachV f) t (some what) N.objects []) fun zs out w' =>
        Stage N same T (t + 1) s ((s : Int) - 1) f out w' ∧ ∃ val z, Latents N T (t + 1) s ((s : Int) - 1) f val what out.trace ∧
        valueAt o1.trace (zWhereName t ((s : Int) - 1)) = some z ∧
        Moved T (t + 1) s ((s : Int) - 1) (zWhereName t s) (N.stack zs) (L.logProb (N.coorDist (L.detachV f) t (some what) zs) (N.stack zs))
          (L.logProb (N.coorDist f t (some what) (slices N z)) z) o1 out ∧
            out.loss = some (gl out.logWeight (.tensor (L.logProb (N.coorDist (L.detachV f) t (some what) zs) (N.stack zs)))
              (L.logProb (N.recon ((List.range T).map val) what) f) + o1.loss.getD 0) := by
  obtain ⟨rv, hw1, hw2⟩ := hR.appearance
  refine ⟨rv.value, by simp [valueAt, hw1], ?_⟩
  have hid : ∀ i, i ≤ fresh → (fresh + 1 + (s * (T + 1) + t) : Nat) ≠ i := fun i hi =>
    Nat.ne_of_gt (Nat.lt_of_lt_of_le (Nat.lt_succ_of_le hi) (Nat.le_add_right _ _))
  obtain ⟨a1, a2, a3, a4, a5⟩ := coor_addr (T := T) (t := t) (s := s) ht
  obtain ⟨kvs1, ho⟩ := hR.dict
  refine (weak_draws_gibbsPropose (er := er) (same := same) hsame hd i3 i1 (encCoorProg N) (n := t) (n' := t + 1) (t := t) (s := s) (zw := (s : Int) - 1)
    (new := zWhereName t s) (old := zWhereName t ((s : Int) - 1)) (Z := N.stack)
    (Df := N.coorDist (L.detachV f) t (some rv.value)) (Dr := fun _ what z => N.coorDist f t (some what) (slices N z))
    hkw (hid _ h3) (hid _ h1) hf hT rfl rfl rfl rfl
    (fun out px tot rv fw e1 e2 e3 => lossApg_ok e1 e2 e3) (by omega) (by omega) ?_ a1 a2 a3 a4 a5 ?_ hR ?_ ?_).mono ?_
  · unfold whatIndex
    simp only
    rw [if_neg (by omega), if_pos (by omega)]
  · intro j hj
    by_cases e : j = t
    · subst e; exact Or.inl rfl
    · exact Or.inr (by omega)
  · have hg := hR.given
    rw [ho] at hg hw2 ⊢
    refine (draws_coor_fwd (same := same) i1 t s ht hg (by rw [hd, hT]) (convKernel_ok hw2 (by show (s : Int) ≠ 0; omega)) ((hkw.sub _).sub _) rfl (hR.calm.cond _) hR.calm.hooks).mono ?_
    rintro zs o w' ⟨e1, e2, e3, -⟩
    exact ⟨e1, e2, e3⟩
  · intro o val what w c rv e1 e2 e3 e4 e5
    exact done_coor_rev i1 t s ht hs e1 hT e2 ((hkw.sub _).sub _) rfl e4 e5
  · rintro zs out w' ⟨hS, val, what, z, hlat, hz, hM, hl⟩
    have : what = rv.value := by
      have := hM.values (zWhatName ((s : Int) - 1)) (Or.inr (Or.inl rfl)) (fun he => (C42_kinds_disjoint 0 0 _).2.2.1 he)
      rw [if_neg (fun he => (C42_kinds_disjoint _ _ _).1 he.symm), valueAt, valueAt, hlat.appearance, hw1] at this
      exact Option.some.inj this
    subst this
    exact ⟨hS, val, z, hlat, hz, hM, hl⟩

include hd hsame hf hT h2 h3 in
/-- The Propose of an appearance step, after the proposal so far. -/
theorem weak_draws_digitStep {q : Node L} {s : Nat} (hpos : 0 < T) (hs : 0 < s) {kw : Kw L} (hkw : KwOk kw) {o1 : Out L} {w1 : World L}
    (hR : Ready N same T T s ((s : Int) - 1) f o1 w1) :
    (afterFirst (sweepParts fresh gl T T s).1 (sweepParts fresh gl T T s).2.1 (fun t _ => .ok t) true
      (.extend (sweepParts fresh gl T T s).2.2 (.prog i3 (weakProg same er (decProg N))) (.prog i2 (encDigitProg N))) (.prog i2 (encDigitProg N)) q
      (.dict kvs) kw o1).Draws w1 (.draw (N.digitDist (L.detachV f) ((List.range T).map (posOf f o1.trace s))) N.reparam .ret) fun z out w' =>
        Stage N same T T s s f out w' ∧ ∃ what, Latents N T T s s f (posOf f o1.trace s) z out.trace ∧
        valueAt o1.trace (zWhatName ((s : Int) - 1)) = some what ∧
        Moved T T s s (zWhatName s) z (L.logProb (N.digitDist (L.detachV f) ((List.range T).map (posOf f o1.trace s))) z)
          (L.logProb (N.digitDist f ((List.range T).map (posOf f o1.trace s))) what) o1 out ∧
            out.loss = some (gl out.logWeight (.tensor (L.logProb (N.digitDist (L.detachV f) ((List.range T).map (posOf f o1.trace s))) z))
              (L.logProb (N.recon ((List.range T).map (posOf f o1.trace s)) z) f) + o1.loss.getD 0) := by
  have hid : ∀ i, i ≤ fresh → (fresh + 1 + (s * (T + 1) + T) : Nat) ≠ i := fun i hi =>
    Nat.ne_of_gt (Nat.lt_of_lt_of_le (Nat.lt_succ_of_le hi) (Nat.le_add_right _ _))
  obtain ⟨a1, a2, a3, a4, a5⟩ := digit_addr (T := T) (s := s)
  refine (weak_draws_gibbsPropose (er := er) (same := same) hsame hd i3 i2 (encDigitProg N) (n := T) (n' := T) (t := T) (s := s) (zw := (s : Int) - 1) (zw' := s)
    (new := zWhatName s) (old := zWhatName ((s : Int) - 1)) (Z := id)
    (Df := fun _ => N.digitDist (L.detachV f) ((List.range T).map (posOf f o1.trace s))) (Dr := fun val _ _ => N.digitDist f ((List.range T).map val))
    hkw (hid _ h3) (hid _ h2) hf hT rfl rfl rfl rfl
    (fun out px tot rv fw e1 e2 e3 => lossApg_ok e1 e2 e3) (by omega) (by omega) ?_ a1 a2 a3 a4 a5 (fun j hj => Or.inr hj) hR ?_ ?_).mono ?_
  · unfold whatIndex
    rw [if_pos rfl]
  · refine draws_digit_fwd (same := same) i2 s hpos hR.given (by rw [hd, hT]) (fun i hi => ?_) ((hkw.sub _).sub _) rfl
      (hR.calm.cond _) hR.calm.hooks
    obtain ⟨rv, e1, e2⟩ := hR.wheres i hi
    rw [posOf_eq e1]
    exact e2
  · intro o val what w c rv e1 e2 e3 e4 e5
    exact done_digit_rev i2 s hpos e1 hT e3 ((hkw.sub _).sub _) rfl e4 e5
  · rintro z out w' ⟨hS, val, what, zo, hlat, hz, hM, hl⟩
    have hv : ∀ i, i < T → val i = posOf f o1.trace s i := by
      intro i hi
      have := hM.values (zWhereName i s) (Or.inr (Or.inr ⟨i, hi, (whereAt_lt hi).symm⟩)) (fun he => (C42_kinds_disjoint _ _ 0).2.1 he)
      obtain ⟨rv, e1, -⟩ := hR.wheres i hi
      have h' := hlat.wheres i hi
      rw [whereAt_lt hi] at h'
      rw [if_neg (fun he => (C42_kinds_disjoint _ _ _).1 he), valueAt, valueAt, h', e1] at this
      rw [posOf_eq e1]
      exact Option.some.inj this
    have hw : what = z := by
      have := hM.values (zWhatName s) (Or.inr (Or.inl rfl)) (fun he => (C42_kinds_disjoint 0 0 _).2.2.1 he)
      rw [if_pos rfl, valueAt, hlat.appearance] at this
      exact Option.some.inj this
    subst hw
    have hr : (List.range T).map val = (List.range T).map (posOf f o1.trace s) :=
      List.map_congr_left fun i hi => hv i (by simpa using hi)
    simp only [id, hr] at hM hl
    exact ⟨hS, zo, hlat.congr hv, hz, hM, hl⟩

include hd hsame hf hT h1 h3 in
/-- The Propose of a position step. -/
theorem weak_safe_coorStep {q : Node L} {t s : Nat} (ht : t < T) (hs : 0 < s)
    (hq : ∀ kw, KwOn K kw → ∀ w, Calm same w → (eval q (.dict kvs) kw).Safe E w (Ready N same T t s ((s : Int) - 1) f)) :
    ∃ p, gibbsPropose fresh (weakDec same er N i0 i1 i2 i3 fl gl r) T (weakDec same er N i0 i1 i2 i3 fl gl r).coor t s q = .ok p ∧
      ∀ kw, KwOn K kw → ∀ w, Calm same w → (eval p (.dict kvs) kw).Safe E w (Stage N same T (t + 1) s ((s : Int) - 1) f) := by
  refine ⟨_, weak_gibbsPropose_eq _ _ _ _, fun kw hkw w hw => ?_⟩
  rw [eval_afterFirst]
  refine Exec.Safe.bind' (hq _ ((hkw.sub _).sub _) w hw) fun o1 w1 hR => ?_
  obtain ⟨what, -, h⟩ := weak_draws_coorStep (er := er) (fresh := fresh) (gl := gl) (q := q) hd hsame hf hT h1 h3 ht hs hkw.1 hR
  exact h.safe.mono fun _ _ ⟨_, h, _⟩ => h

include hd hsame hf hT h2 h3 in
/-- The Propose of an appearance step. -/
theorem weak_safe_digitStep {q : Node L} {s : Nat} (hpos : 0 < T) (hs : 0 < s)
    (hq : ∀ kw, KwOn K kw → ∀ w, Calm same w → (eval q (.dict kvs) kw).Safe E w (Ready N same T T s ((s : Int) - 1) f)) :
    ∃ p, gibbsPropose fresh (weakDec same er N i0 i1 i2 i3 fl gl r) T (weakDec same er N i0 i1 i2 i3 fl gl r).digit T s q = .ok p ∧
      ∀ kw, KwOn K kw → ∀ w, Calm same w → (eval p (.dict kvs) kw).Safe E w (Stage N same T T s s f) := by
  refine ⟨_, weak_gibbsPropose_eq _ _ _ _, fun kw hkw w hw => ?_⟩
  rw [eval_afterFirst]
  refine Exec.Safe.bind' (hq _ ((hkw.sub _).sub _) w hw) fun o1 w1 hR => ?_
  exact (weak_draws_digitStep (er := er) (fresh := fresh) (gl := gl) (q := q) hd hsame hf hT h2 h3 hpos hs hkw.1 hR).safe.mono fun _ _ ⟨_, h, _⟩ => h

include hd hsame hr hf hT h1 h3 in
theorem weak_safe_steps {q : Node L} {s : Nat} (hs : 0 < s)
    (hq : ∀ kw, KwOn K kw → ∀ w, Calm same w → (eval q (.dict kvs) kw).Safe E w (Ready N same T 0 s ((s : Int) - 1) f)) (m : Nat) (hm : m ≤ T) :
    ∃ q', (List.range m).foldlM (gibbsStep fresh (weakDec same er N i0 i1 i2 i3 fl gl r) T s) q = .ok q' ∧
      ∀ kw, KwOn K kw → ∀ w, Calm same w → (eval q' (.dict kvs) kw).Safe E w (Ready N same T m s ((s : Int) - 1) f) := by
  induction m with
  | zero => exact ⟨q, rfl, hq⟩
  | succ m ih =>
    obtain ⟨q', e, hq'⟩ := ih (by omega)
    obtain ⟨p, e2, hp⟩ := weak_safe_coorStep (er := er) (i0 := i0) (i2 := i2) (fl := fl) (gl := gl) (r := r) hd hsame hf hT h1 h3 (by omega) hs hq'
    refine ⟨mkResample fresh (weakDec same er N i0 i1 i2 i3 fl gl r).resampler p none .none false, ?_, fun kw hkw w hw => ?_⟩
    · rw [List.range_succ, List.foldlM_append, e]
      simp only [bind, Except.bind, List.foldlM_cons, List.foldlM_nil, gibbsStep, e2]
      rfl
    · exact safe_gibbsResample hsame hr hkw.2 rfl (hp _ hkw w hw)

include hd hsame hr hf hT h1 h2 h3 in
theorem weak_safe_sweep {q : Node L} {S s : Nat} (hpos : 0 < T) (hs : 0 < s)
    (hq : ∀ kw, KwOn K kw → ∀ w, Calm same w → (eval q (.dict kvs) kw).Safe E w (Ready N same T 0 s ((s : Int) - 1) f)) :
    ∃ q', gibbsSweep fresh (weakDec same er N i0 i1 i2 i3 fl gl r) T S q s = .ok q' ∧
      (s ≠ S → ∀ kw, KwOn K kw → ∀ w, Calm same w → (eval q' (.dict kvs) kw).Safe E w (Ready N same T T s s f)) ∧
      (s = S → ∀ kw, KwOn K kw → ∀ w, Calm same w → (eval q' (.dict kvs) kw).Safe E w (Stage N same T T s s f)) := by
  obtain ⟨q', e, hq'⟩ := weak_safe_steps (er := er) (i0 := i0) (i2 := i2) (fl := fl) (gl := gl) hd hsame hr hf hT h1 h3 hs hq T (le_refl _)
  obtain ⟨p, e2, hp⟩ := weak_safe_digitStep (er := er) (i0 := i0) (i1 := i1) (fl := fl) (gl := gl) (r := r) hd hsame hf hT h2 h3 hpos hs hq'
  unfold gibbsSweep
  simp only [e, e2, bind, Except.bind]
  refine ⟨_, rfl, fun h kw hkw w hw => ?_, fun h => ?_⟩
  · rw [if_pos h]
    exact safe_gibbsResample hsame hr hkw.2 rfl (hp _ hkw w hw)
  · rw [if_neg (by simpa using h)]
    exact hp

include hd hsame hr hf hT h1 h2 h3 in
/-- The sampler after the first `m` sweeps. -/
theorem weak_safe_sweeps (hpos : 0 < T) (S : Nat) :
    ∃ q0, gibbsIs fresh (weakDec same er N i0 i1 i2 i3 fl gl r) T = .ok q0 ∧
      ∀ m, m ≤ S → ∃ q, (List.range' 1 m).foldlM (gibbsSweep fresh (weakDec same er N i0 i1 i2 i3 fl gl r) T S)
      (if 0 < S then mkResample fresh r q0 none .none false else q0) = .ok q ∧
      (m ≠ S → ∀ kw, KwOn K kw → ∀ w, Calm same w → (eval q (.dict kvs) kw).Safe E w (Ready N same T T m m f)) ∧
      (m = S → ∀ kw, KwOn K kw → ∀ w, Calm same w → (eval q (.dict kvs) kw).Safe E w (Stage N same T T m m f)) := by
  obtain ⟨q0, e0, h0⟩ := weak_safe_gibbsIs (E := E) (N := N) (same := same) (i0 := i0) (i1 := i1) (i2 := i2) (i3 := i3) (fresh := fresh)
    (er := er) (fl := fl) (gl := gl) (r := r) hsame hd hpos hf hT
  refine ⟨q0, e0, fun m hm => ?_⟩
  induction m with
  | zero =>
    refine ⟨_, rfl, fun h kw hkw w hw => ?_, fun h => ?_⟩
    · rw [if_pos (by omega)]
      exact safe_gibbsResample hsame hr hkw.2 rfl (h0 _ hkw.1 w hw)
    · rw [if_neg (by omega)]
      exact fun kw hkw => h0 kw hkw.1
  | succ m ih =>
    obtain ⟨q, e, hq, -⟩ := ih (by omega)
    have hq1 : ∀ kw, KwOn K kw → ∀ w, Calm same w →
        (eval q (.dict kvs) kw).Safe E w (Ready N same T 0 ((m + 1 : Nat) : Int) (((m + 1 : Nat) : Int) - 1) f) := by
      intro kw hkw w hw
      refine (hq (by omega) kw hkw w hw).mono fun o w' h => ?_
      have e1 : ((m + 1 : Nat) : Int) = (m : Int) + 1 := by omega
      rw [e1, Int.add_sub_cancel]
      exact Ready_next h
    obtain ⟨q', e', h'⟩ := weak_safe_sweep (er := er) (i0 := i0) (fl := fl) (gl := gl) (S := S) hd hsame hr hf hT h1 h2 h3 hpos
      (Nat.succ_pos m) hq1
    refine ⟨q', ?_, h'⟩
    rw [List.range'_concat, List.foldlM_append, e]
    simp only [bind, Except.bind, List.foldlM_cons, List.foldlM_nil, Nat.one_mul]
    rw [Nat.add_comm 1 m, e']
    rfl

include hd hsame hr hf hT h1 h2 h3 in
theorem weak_safe_gibbs (hpos : 0 < T) (S : Nat) :
    ∃ q, gibbsSweeps fresh (weakDec same er N i0 i1 i2 i3 fl gl r) S T = .ok q ∧
      ∀ kw, KwOn K kw → ∀ w, Calm same w → (eval q (.dict kvs) kw).Safe E w (Stage N same T T S S f) := by
  obtain ⟨q0, e0, h0⟩ := weak_safe_sweeps (er := er) (i0 := i0) (fl := fl) (gl := gl) hd hsame hr hf hT h1 h2 h3 hpos S
  obtain ⟨q, e, -, h⟩ := h0 S (le_refl _)
  refine ⟨q, ?_, h rfl⟩
  unfold gibbsSweeps
  rw [e0]
  exact e

end whole

end Verif
