import Verif.Proofs.ApgKernels
import Verif.Proofs.Annealing
import Verif.Proofs.Laws
/-
One step of the amortized Gibbs sampler.
-/
namespace Verif
open Spec Apg
variable {L : Lang} {E : Err → Prop} {N : ApgNet L} {same : L.V → L.V → Bool} {T : Nat}

theorem KwOk.sub {kw : Kw L} (h : KwOk kw) (a : Attrs L) : KwOk (subKw a kw) := h

/-- The values at the addresses of a stage. -/
noncomputable def valOf (dflt : L.V) (t : Trace L) (n : Nat) (s : Int) (i : Nat) : L.V :=
  match t.get? (whereAt n s i) with
  | some rv => rv.value
  | none => dflt

/-- A Propose from a Compose, after the first proposal has returned `o1`. -/
def afterFirst (ap ac : Attrs L) (tr : Trace L → Kw L → Except Err (Trace L)) (nr : Bool) (p k q : Node L) (c : PyVal L) (kw : Kw L)
    (o1 : Out L) : Exec L (Out L) :=
  Exec.bind (eval k o1.output (subKw ac (subKw ap kw))) fun o2 =>
  Exec.bind (Exec.lift (composeRest ac (subKw ap kw) o1 o2)) fun qo =>
  Exec.bind (Exec.withSub p.id (some qo.trace) (eval p c (subKw ap kw))) fun po =>
  Exec.lift (proposeRest ap tr nr p (.compose ac k q) kw qo po)

theorem eval_afterFirst (ap ac : Attrs L) (tr : Trace L → Kw L → Except Err (Trace L)) (nr : Bool) (p k q : Node L) (c : PyVal L)
    (kw : Kw L) : eval (.propose ap tr nr p (.compose ac k q)) c kw =
      Exec.bind (eval q c (subKw ac (subKw ap kw))) (afterFirst ap ac tr nr p k q c kw) := by
  rw [eval_propose_eq, eval_compose_eq, Exec.bind_assoc']
  unfold afterFirst
  simp only [childKw_eq, Exec.bind_assoc']

theorem draws_gibbsPropose {β : Type} (hd : ∀ v, N.timesteps (L.detachV v) = N.timesteps v) (i kid : ObjId) (kp : ProgSpec L)
    {q : Node L} {ap ac ae : Attrs L} {c : PyVal L} {f : L.V} {kw : Kw L} {n n' t s : Nat} {zw zw' : Int} {new old : String}
    (hkw : KwOk kw) (he1 : ae.id ≠ i) (he2 : ae.id ≠ kid)
    (hf : item c "frames" = .ok f) (hT : N.timesteps f = T)
    (hac : ac.debug = true) (hcl : ac.lossFn = idLoss) (hel : ae.lossFn = idLoss) (hix : ae.ix = revIx t s)
    {gl : LW L.W → LW L.W → L.W → L.Lo}
    (hpl : ∀ out px tot rv fw, out.px = some px → px.targetTrace.get? "recon" = some rv → px.forwardTrace = some fw →
      ap.lossFn out tot = .ok (gl out.logWeight (logJoint fw fun _ => true) rv.logProb + tot))
    (hn : (n' : Int) = min ((t : Int) + 1) T) (hpos : 0 < n') (hzw : whatIndex T ⟨t, s, "reverse"⟩ = .ok zw')
    (hnew : ¬ Addr T n s zw new) (hold : Addr T n s zw old) (hold' : ¬ Addr T n' s zw' old)
    (haddr : ∀ k, Addr T n' s zw' k → k = new ∨ Addr T n s zw k) (hback : ∀ k, k = new ∨ Addr T n s zw k → Addr T n' s zw' k ∨ k = old)
    (hst : ∀ j : Nat, j < n' → zWhereName j s = new ∨ j < n)
    {K : Comp L β} {Z : β → L.V} {Df : β → L.D} {Dr : (Nat → L.V) → L.V → L.V → L.D} {o1 : Out L} {w1 : World L}
    (hR : Ready N same T n s zw f o1 w1)
    (hfwd : (eval (.prog kid kp) o1.output (subKw ac (subKw ap kw))).Draws w1 K fun b o w' =>
      w' = w1.put new (Z b) ∧ o.trace = one new (RV.mk' (Df b) (Z b) .sampled N.reparam) ∧ o.logWeight = .float0)
    (hrev : ∀ o val what w c rv, item o "frames" = .ok f → item o (zWhatName zw') = .ok what →
      (∀ i, i < n' → item o (zWhereName i s) = .ok (val i)) → w.cond kid = some c → c.get? old = some rv →
      (eval (.prog kid kp) o (subKw ae (subKw ap kw))).Done w fun o w' =>
        w' = w ∧ o.trace = one old (RV.mk' (Dr val what rv.value) rv.value .reused N.reparam)) :
    (afterFirst ap ac (fun t _ => .ok t) true (.extend ae (.prog i (decProg N)) (.prog kid kp)) (.prog kid kp) q c kw o1).Draws w1 K
      fun b out w' => Stage N same T n' s zw' f out w' ∧ ∃ val what z, Latents N T n' s zw' f val what out.trace ∧
        valueAt o1.trace old = some z ∧
        Moved T n' s zw' new (Z b) (L.logProb (Df b) (Z b)) (L.logProb (Dr val what z) z) o1 out ∧
        out.loss = some (gl out.logWeight (.tensor (L.logProb (Df b) (Z b))) (L.logProb (N.recon ((List.range T).map val) what) f) +
          o1.loss.getD ac.loss0) := by
  unfold afterFirst
  refine Exec.Draws.bind hfwd ?_
  rintro b o2 w2 ⟨rfl, ho2, hlw2⟩
  generalize hz : Z b = z
  generalize hdf : Df b = d
  rw [hz, hdf] at ho2
  have hnrec : new ≠ "recon" := fun h => hnew (Or.inl h)
  have hQ : (Exec.lift (composeRest ac (subKw ap kw) o1 o2)).Done (w1.put new z) fun o w' => w' = w1.put new z ∧
        IsUnion o.trace o2.trace o1.trace ∧ o.type = .compose ∧ getL o.subs "q2_out" = some o2 ∧ o.logWeight.val = o1.logWeight.val ∧
        o.loss = some (o1.loss.getD ac.loss0) := by
    have hno : ¬ Overlap o1.trace o2.trace := by
      rintro ⟨k, hk1, hk2⟩
      rw [ho2, mem_keys_one] at hk2
      subst hk2
      exact hnew ((hR.addr _).1 (Dict.contains_iff.2 hk1))
    rcases composeRest_spec ac (subKw ap kw) o1 o2 with ⟨h, -⟩ | ⟨-, t', lw, h4, h6, -, h5⟩
    · exact absurd h hno
    unfold finish at h5
    rw [hcl] at h5
    simp only [idLoss] at h5
    refine Exec.Done.lift h5 ⟨rfl, h4, rfl, ?_, ?_, ?_⟩
    · simp [hac, Out.setLoss, Out.setSubs, Out.subs, getL]
    · rw [hlw2] at h6
      simpa [Out.setLoss, Out.setSubs, Out.logWeight, LW.val] using h6
    · exact congrArg some (by cases o1.loss <;> rfl : (match o1.loss with | some l => l | none => ac.loss0) = o1.loss.getD ac.loss0)
  refine Exec.Done.bind hQ ?_
  rintro qo w2 ⟨rfl, hun, hty, hsub, hqlw, hql⟩
  -- the values of the new stage
  have hget : ∀ k, Addr T n' s zw' k → ∃ rv, qo.trace.get? k = some rv := by
    intro k hk
    rw [← Dict.mem_keys_iff, mem_keys_union hun, ho2, mem_keys_one]
    rcases haddr k hk with h | h
    · exact Or.inl h
    · exact Or.inr (Dict.contains_iff.1 ((hR.addr k).2 h))
  have hgetnew : qo.trace.get? new = some (RV.mk' d z .sampled N.reparam) :=
    get?_union_left hun (by rw [ho2, one_get?, if_pos rfl])
  have hgetold : ∀ k, k ≠ new → qo.trace.get? k = o1.trace.get? k := fun k hk =>
    get?_union hun _ (by rw [ho2, mem_keys_one]; exact hk)
  have hvalue : ∀ k rv, qo.trace.get? k = some rv → some rv.value = if k = new then some z else valueAt o1.trace k := by
    intro k rv h
    by_cases hk : k = new
    · subst hk
      rw [if_pos rfl]
      rw [hgetnew] at h
      cases h; rfl
    · rw [if_neg hk]
      rw [hgetold k hk] at h
      simp [valueAt, h]
  obtain ⟨rvo, hrvo1⟩ : ∃ rv, o1.trace.get? old = some rv := by
    rw [← Dict.mem_keys_iff, ← Dict.contains_iff]
    exact (hR.addr old).2 hold
  have hrvo : qo.trace.get? old = some rvo := by rw [hgetold old (fun h => hnew (h ▸ hold)), hrvo1]
  have hval : ∀ j, j < T → ∃ rv, qo.trace.get? (whereAt n' s j) = some rv ∧ rv.value = valOf f qo.trace n' s j := by
    intro j hj
    obtain ⟨rv, hrv⟩ := hget (whereAt n' s j) (Or.inr (Or.inr ⟨j, hj, rfl⟩))
    exact ⟨rv, hrv, by simp only [valOf, hrv]⟩
  obtain ⟨rvw, hrvw⟩ := hget (zWhatName zw') (Or.inr (Or.inl rfl))
  have hn'T : n' ≤ T := by omega
  have hstore : ∀ j : Nat, j < n' → (w1.put new z).store.data.get? (zWhereName j s) = some (.weakref (valOf f qo.trace n' s j)) := by
    intro j hj
    obtain ⟨rv, h1, h2⟩ := hval j (by omega)
    rw [← h2, World.put_data, Dict.get?_insert]
    rw [whereAt_lt hj] at h1
    by_cases he : zWhereName j s = new
    · rw [if_pos he]
      rw [he, hgetnew] at h1
      cases h1; rfl
    · rw [if_neg he]
      have h3 := (hst j hj).resolve_left he
      obtain ⟨rv', h4, h5⟩ := hR.stored j h3
      rw [hgetold _ he, h4] at h1
      cases h1; exact h5
  have hcond : ∀ j, (w1.put new z).cond j = none := hR.calm.cond
  have hhooks : (w1.put new z).store.hooks = apgHooks same := hR.calm.hooks
  have hobs : Marked o1.trace → ∀ k rv, qo.trace.get? k = some rv → (rv.prov = .observed ↔ k = "recon") := by
    intro hm k rv h
    by_cases hk : k = new
    · subst hk
      rw [hgetnew] at h
      cases h
      simp [RV.mk', hnrec]
    · rw [hgetold k hk] at h
      exact hm k rv h
  generalize w1.put new z = w2 at hstore hcond hhooks
  -- the target
  have hP : (eval (.extend ae (.prog i (decProg N)) (.prog kid kp)) c (subKw ap kw)).Done (w2.setCond ae.id (some qo.trace))
      fun po w' => ∃ (po1 : Out L) (fo : Trace L) (x : L.W) (lw : LW L.W) (out : PyVal L) (ty : OutTy)
        (ix : Option (PyVal L)) (l : Option L.Lo) (px : Option (ProposeX L)) (subs : List (String × Out L)), w' = ((w2.setCond ae.id (some qo.trace)).setCond kid none).setCond i none ∧
        IsUnion po.trace po1.trace fo ∧ ¬ Overlap po1.trace fo ∧ lw = .tensor x ∧
        po = Out.mk po.trace lw out ty ix l (some (po1.trace.keys, po1.output)) px subs ∧
        fo = one old (RV.mk' (Dr (valOf f qo.trace n' s) rvw.value rvo.value) rvo.value .reused N.reparam) ∧
        (Marked o1.trace → x = total po1.trace + L.logProb (Dr (valOf f qo.trace n' s) rvw.value rvo.value) rvo.value) ∧
      (∀ k, po1.trace.contains k = true ↔ Addr T n' s zw' k) ∧
      IsOutput N T (fun k => k = "frames" ∨ k = zWhatName zw' ∨ ∃ i, i < n' ∧ k = zWhereName i s) po1.output ∧
      item po1.output "frames" = .ok f ∧
      Latents N T n' s zw' f (valOf f qo.trace n' s) rvw.value po1.trace := by
    have hdec := done_dec (N := N) (same := same) (T := T) (n := n') (s := s) (c := qo.trace) (val := valOf f qo.trace n' s)
      (w := ((w2.setCond ae.id (some qo.trace)).setCond i (some qo.trace)).setCond kid (some qo.trace)) i ⟨t, s, "reverse"⟩ rfl hn hpos
      zw' hzw f hT c hf (subKw ae (subKw ap kw)) ((hkw.sub _).sub _) (by rw [subKw, hix]; rfl) rvw.value
      hhooks (by simp) hval ⟨rvw, hrvw, rfl⟩ hstore
    refine done_extend (by simp [below, Node.id, he1, he2]) ?_ ?_
      (Q1 := fun po w' => w' = ((w2.setCond ae.id (some qo.trace)).setCond i (some qo.trace)).setCond kid (some qo.trace) ∧ 
      (∃ x, po.logWeight = .tensor x ∧
        ((∀ k rv, qo.trace.get? k = some rv → rv.prov = .observed → k = "recon") → x = total po.trace)) ∧
      (∀ k, po.trace.contains k = true ↔ Addr T n' s zw' k) ∧
      IsOutput N T (fun k => k = "frames" ∨ k = zWhatName zw' ∨ ∃ i, i < n' ∧ k = zWhereName i s) po.output ∧
      item po.output "frames" = .ok f ∧ item po.output (zWhatName zw') = .ok rvw.value ∧
      (∀ i, i < n' → item po.output (zWhereName i s) = .ok (valOf f qo.trace n' s i)) ∧
      Latents N T n' s zw' f (valOf f qo.trace n' s) rvw.value po.trace)
    · simp only [Node.id, World.setCond_cond, if_true]
      refine hdec.mono ?_
      rintro po w' ⟨rfl, h1, -, h2⟩
      exact ⟨rfl, h1, h2⟩
    · rintro po w' ⟨rfl, ⟨x, hx, hxt⟩, h2, h3, h4, h4', h4'', hlat⟩
      refine (hrev _ _ _ _ qo.trace rvo h4 h4' h4'' (by simp) hrvo).mono ?_
      rintro fo w' ⟨rfl, hfo⟩
      simp only [World.setCond_cond, if_true]
      have hno : ¬ Overlap po.trace fo.trace := by
        rintro ⟨k, hk1, hk2⟩
        rw [hfo, mem_keys_one] at hk2
        subst hk2
        exact hold' ((h2 _).1 (Dict.contains_iff.2 hk1))
      have hk : KernelOK (some qo.trace) fo := by
        refine ⟨fun k rv hrv => ⟨?_, fun h => by cases h⟩, fun h => by cases h⟩
        rw [hfo, one_get?] at hrv
        split at hrv
        · cases hrv; simp [RV.mk']
        · cases hrv
      rcases extendRest_spec ae (subKw ap kw) (some qo.trace) po fo with ⟨h, -⟩ | ⟨-, -, t', lw, h5, h8, h6, h7⟩
      · exact absurd hk (h.resolve_left hno)
      unfold finish at h7
      rw [hel] at h7
      simp only [idLoss] at h7
      refine ⟨_, h7, po, fo.trace, ?_⟩
      obtain ⟨x', hx'⟩ : ∃ x', lw = .tensor x' := by
        cases lw with
        | tensor x => exact ⟨x, rfl⟩
        | float0 =>
          have := (h6.1 rfl).1
          rw [hx] at this; cases this
      refine ⟨x', _, _, _, _, _, _, _, ?_, h5, hno, hx', rfl, hfo, ?_, h2, h3, h4, hlat⟩
      · simp only [Node.id]
        show World.mk _ _ = World.mk _ _
        congr 1
        funext j
        by_cases h1 : j = i <;> by_cases h2 : j = kid <;> simp [h1, h2]
      · intro hm
        have : sumLogProb fo.trace (fun _ _ => true) = L.logProb (Dr (valOf f qo.trace n' s) rvw.value rvo.value) rvo.value := by
          rw [hfo]
          exact total_one _ _
        rw [hx', hx, this] at h8
        rw [← hxt fun k rv h1 h2 => (hobs hm k rv h1).1 h2]
        exact h8
  refine Exec.Done.bind (Exec.Done.withSub' hP) ?_
  rintro po w3 ⟨w4, rfl, po1, fo, x, lw, out, ty, ix, l, px, subs, rfl, hu, hno, hlw, hpo, hfo, hx, ha1, ha2, ha3, hlat⟩
  have hrecon := get?_union_left hu hlat.recon
  have hfw : forwardTrace (.compose ac (.prog kid kp) q) qo = .ok (some o2.trace) := by
    unfold forwardTrace
    simp only [Node.debugAttr, hac, hty, if_true, hsub]
  have hm : marginalize (.extend ae (.prog i (decProg N)) (.prog kid kp)) po = .ok (po1.output, po1.trace) := by
    rw [hpo]
    exact marginalize_extend hu hno
  have hlw' : po.logWeight = .tensor x := by rw [hpo]; exact hlw
  obtain ⟨o, h1, h2, h3, h4, hls, pxo, hpx, hpxw⟩ := proposeRest_done (a := ap) (kw := kw) (g := fun lw => gl lw
      (.tensor (L.logProb d z)) (L.logProb (N.recon ((List.range T).map (valOf f qo.trace n' s)) rvw.value) f)) hlw' hm hfw (by
    intro out px tot h1 _ h2 h3
    rw [hpl out px tot _ _ h1 (by rw [h2]; exact hrecon) h3, ho2, logJoint_tensor (k := new) (by rw [one_get?, if_pos rfl]), total_one]
    rfl)
  have hlat' : Latents N T n' s zw' f (valOf f qo.trace n' s) rvw.value o.trace := by rw [h2]; exact hlat
  refine Exec.Done.lift h1 ⟨⟨?_, ?_, ?_, ?_, ?_, ⟨_, h4⟩, ⟨_, _, hlat'⟩⟩, _, _, rvo.value, hlat', by simp [valueAt, hrvo1], ⟨?_, ?_, pxo, hpx, ?_⟩, by rw [hls, hql]; rfl⟩
  · refine ⟨fun j => ?_, hhooks⟩
    simp only [Node.id, World.setCond_cond]
    by_cases e1 : j = ae.id <;> by_cases e2 : j = i <;> by_cases e3 : j = kid <;> simp [e1, e2, e3, hcond]
  · rw [h2]; exact ha1
  · rw [h3]; exact detach_output hd ha2
  · rw [h3]; exact detach_item (by obtain ⟨kvs, h, -⟩ := ha2; exact ⟨kvs, h⟩) ha3
  · intro j hj
    have := hlat'.wheres j (by omega)
    rw [whereAt_lt hj] at this
    refine ⟨_, this, ?_⟩
    exact hstore j hj
  · intro k hk hne
    rcases hk with h | rfl | ⟨j, hj, rfl⟩
    · exact absurd h hne
    · rw [← hvalue _ _ hrvw, valueAt, hlat'.appearance]; rfl
    · obtain ⟨rv, h5, h6⟩ := hval j hj
      rw [← hvalue _ _ h5, valueAt, hlat'.wheres j hj, h6]; rfl
  · intro hmark
    rw [h4, hqlw, hx hmark, h2]
    congr 5
    have e1 : total qo.trace = L.logProb d z + total o1.trace := by
      rw [total_union hun, ho2, total_one]; rfl
    rw [add_comm, ← e1]
    refine sumLogProb_congr _ fun k rv hk => ?_
    have hin : k = new ∨ Addr T n s zw k := by
      have : k ∈ qo.trace.keys := Dict.mem_keys_iff.2 ⟨_, hk⟩
      rw [mem_keys_union hun, ho2, mem_keys_one] at this
      exact this.imp id fun h => (hR.addr k).1 (Dict.contains_iff.2 h)
    by_cases hr : k = "recon"
    · have := (hobs hmark k rv hk).2 hr
      simp [InDenominator, this]
    · have hno' := fun h => hr ((hobs hmark k rv hk).1 h)
      have : ∃ rv', po.trace.get? k = some rv' ∧ rv'.prov = .reused := by
        rcases hback k hin with (h | rfl | ⟨j, hj, rfl⟩) | rfl
        · exact absurd h hr
        · exact ⟨_, get?_union_left hu hlat.appearance, rfl⟩
        · exact ⟨_, get?_union_left hu (hlat.wheres j hj), rfl⟩
        · refine ⟨_, (get?_union hu _ fun h => hold' ((ha1 _).1 (Dict.contains_iff.2 h))).trans
            (by rw [hfo, one_get?, if_pos rfl]), rfl⟩
      obtain ⟨rv', h5, h6⟩ := this
      unfold InDenominator
      rw [h5]
      cases hp : rv.prov <;> simp [h6]
  · rw [hpxw, ← hqlw]
    cases qo.logWeight with
    | tensor x => exact Or.inl rfl
    | float0 => exact Or.inr ⟨rfl, rfl⟩

end Verif
