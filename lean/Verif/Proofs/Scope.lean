import Verif.Proofs.Program
import Verif.Spec.Lexical
import Mathlib.Tactic.Tauto
/-
The `_cond_trace` slots: what calls do to them, and when they amount to lexical scoping.
-/
namespace Verif
open Spec
variable {L : Lang} {α β : Type}

/-! ### Statements that neither read nor write any `_cond_trace` -/

/-- `m` does not touch the slots. -/
structure NoSlots (m : Exec L α) : Prop where
  eq : ∀ w g, m (withCond w g) = (m w).bind fun r => .ret (r.1, withCond r.2 g)

theorem NoSlots.pure (a : α) : NoSlots (Pure.pure a : Exec L α) := ⟨fun _ _ => rfl⟩
theorem NoSlots.pure' (a : α) : NoSlots (Exec.pure a : Exec L α) := ⟨fun _ _ => rfl⟩
theorem NoSlots.lift (x : Except Err α) : NoSlots (Exec.lift x : Exec L α) := ⟨fun _ _ => rfl⟩
theorem NoSlots.throw (e : Err) : NoSlots (Exec.throw e : Exec L α) := ⟨fun _ _ => rfl⟩
theorem NoSlots.onStore (f : Store L → Except Err α × Store L) : NoSlots (Exec.onStore f) := ⟨fun _ _ => rfl⟩
theorem NoSlots.liftComp (m : Comp L (Except Err α)) : NoSlots (Exec.liftComp m) := by
  constructor
  intro w g
  simp only [Exec.liftComp, Comp.bind_assoc]; rfl

theorem NoSlots.bind {m : Exec L α} {f : α → Exec L β} (hm : NoSlots m) (hf : ∀ a, NoSlots (f a)) :
    NoSlots (m >>= f) := by
  constructor
  intro w g
  simp only [Exec.bind_eq, Exec.bind]
  rw [hm.eq w g, Comp.bind_assoc, Comp.bind_assoc]
  congr 1
  funext r
  rcases r with ⟨r | a, w'⟩
  · rfl
  · exact (hf a).eq w' g

theorem NoSlots.bind' {m : Exec L α} {f : α → Exec L β} (hm : NoSlots m) (hf : ∀ a, NoSlots (f a)) :
    NoSlots (Exec.bind m f) := NoSlots.bind hm hf

theorem NoSlots.draw (d : L.D) (b : Bool) (k : L.V → Exec L α) (hk : ∀ v, NoSlots (k v)) :
    NoSlots (fun w => Comp.draw d b (fun v => k v w)) := by
  constructor
  intro w g
  simp only [Comp.bind_draw]
  congr 1
  funext v
  exact (hk v).eq w g

theorem NoSlots.runModel (cond : Option (Trace L)) (m : MTree L) (t : Trace L) : NoSlots (runModel cond m t) := by
  induction m generalizing t with
  | ret o => exact NoSlots.pure' _
  | raise e => exact NoSlots.throw e
  | «variable» name d value prov rep k ih =>
    simp only [Verif.runModel]
    split
    · exact NoSlots.throw _
    · split
      · exact ih _ _
      · exact NoSlots.draw d rep _ (fun v => ih v _)
  | inject name rv k ih => simp only [Verif.runModel]; exact ih _
  | getCond k ih => simp only [Verif.runModel]; exact ih _ _
  | getTrace k ih => simp only [Verif.runModel]; exact ih _ _
  | storeGet key k ih => simp only [Verif.runModel]; exact NoSlots.bind' (NoSlots.onStore _) (fun v => ih v _)
  | storeSet key v k ih => simp only [Verif.runModel]; exact NoSlots.bind' (NoSlots.onStore _) (fun _ => ih _)
  | sampleFree d rep k ih => simp only [Verif.runModel]; exact NoSlots.draw d rep _ (fun v => ih v _)

theorem NoSlots.programForward (s : ProgSpec L) (cond : Option (Trace L)) (c sd bd rp : PyVal L)
    (kws : List (String × PyVal L)) : NoSlots (programForward s cond c sd bd rp kws) := by
  unfold Verif.programForward
  exact NoSlots.bind (NoSlots.lift _) (fun _ => NoSlots.bind (NoSlots.runModel _ _ _) (fun _ => NoSlots.pure _))

theorem NoSlots.resampleRest (a : Attrs L) (r : ResamplerFn L) (kw : Kw L) (q : Out L) :
    NoSlots (resampleRest a r kw q) := by
  unfold Verif.resampleRest
  exact NoSlots.bind (NoSlots.liftComp _) (fun _ => NoSlots.bind (NoSlots.lift _) (fun _ =>
    NoSlots.bind (NoSlots.onStore _) (fun _ => NoSlots.bind (NoSlots.lift _) (fun _ => NoSlots.pure _))))

theorem NoSlots.evalP (n : Node L) (cond : Option (Trace L)) (c : PyVal L) (kw : Kw L) :
    NoSlots (evalP n cond c kw) := by
  induction n generalizing cond c kw with
  | prog i s =>
    unfold Spec.evalP
    exact NoSlots.bind (NoSlots.programForward ..) (fun _ => NoSlots.pure _)
  | resample a r q ih =>
    unfold Spec.evalP
    exact NoSlots.bind (ih ..) (fun _ => NoSlots.resampleRest ..)
  | extend a p f ihp ihf =>
    unfold Spec.evalP
    exact NoSlots.bind (ihp ..) (fun _ => NoSlots.bind (ihf ..) (fun _ => NoSlots.lift _))
  | compose a q2 q1 ih2 ih1 =>
    unfold Spec.evalP
    exact NoSlots.bind (ih1 ..) (fun _ => NoSlots.bind (ih2 ..) (fun _ => NoSlots.lift _))
  | propose a tr nr p q ihp ihq =>
    unfold Spec.evalP
    exact NoSlots.bind (ihq ..) (fun _ => NoSlots.bind (ihp ..) (fun _ => NoSlots.lift _))

/-- Such a statement leaves the slots as they are. -/
theorem NoSlots.cond_eq {m : Exec L α} (hm : NoSlots m) {w w' : World L} {r : Except Err α} (h : m.Runs w r w') :
    w'.cond = w.cond := by
  have := hm.eq w w.cond
  have hw : withCond w w.cond = w := rfl
  rw [hw] at this
  unfold Exec.Runs at h
  rw [this, Comp.bind_Ret] at h
  obtain ⟨⟨r1, w1⟩, -, h⟩ := h
  simp only [Comp.ret_Ret, Prod.mk.injEq] at h
  rw [← h.2]; rfl

theorem bind_congr_left {m m' : Exec L α} (k : α → Exec L β) (w : World L) (h : m w = m' w) :
    (m >>= k) w = (m' >>= k) w := by
  show (m w).bind _ = (m' w).bind _
  rw [h]

/-- Continuations need only agree on worlds with the slots that `m` started from. -/
theorem bind_congr_slots {m : Exec L α} (hm : NoSlots m) {k k' : α → Exec L β} (w : World L)
    (h : ∀ a w', w'.cond = w.cond → k a w' = k' a w') : (m >>= k) w = (m >>= k') w := by
  have hw : withCond w w.cond = w := rfl
  have := hm.eq w w.cond
  rw [hw] at this
  simp only [Exec.bind_eq, Exec.bind]
  rw [this, Comp.bind_assoc, Comp.bind_assoc]
  congr 1
  funext r
  rcases r with ⟨r | a, w'⟩
  · rfl
  · exact h a _ rfl

theorem eval_eq_evalP (n : Node L) (b : Bool) (hn : WellScoped b n) (c : PyVal L) (kw : Kw L) (w : World L)
    (hb : w.cond n.id = none ∨ b = true) (hw : ∀ i ∈ below n, w.cond i = none) :
    eval n c kw w = evalP n (w.cond n.id) c kw w := by
  induction n generalizing b c kw w with
  | prog i s => rfl
  | resample a r q ih =>
    unfold eval evalP
    have hq : w.cond q.id = none := hw _ (by simp [below])
    have e := ih false hn c (childKw a kw) w (Or.inl hq) (fun i hi => hw i (by simp [below, hi]))
    simp only [Exec.bind_eq, Exec.bind, e, hq]
  | compose a q2 q1 ih2 ih1 =>
    unfold eval evalP
    simp only [dispatchKw_node]
    have hq1 : w.cond q1.id = none := hw _ (by simp [below])
    have hq2 : w.cond q2.id = none := hw _ (by simp [below])
    have e1 := ih1 false hn.1 c (childKw a kw) w (Or.inl hq1) (fun i hi => hw i (by simp [below, hi]))
    calc _ = _ := by simp only [Exec.bind_eq, Exec.bind]; rw [e1, hq1]
      _ = (evalP q1 none c (childKw a kw) >>= fun q1Out => do
            let q2Out ← eval q2 q1Out.output (childKw a kw)
            Exec.lift (composeRest a kw q1Out q2Out)) w := rfl
      _ = _ := by
        apply bind_congr_slots (NoSlots.evalP ..)
        intro q1Out w' hw'
        have e2 := ih2 false hn.2 q1Out.output (childKw a kw) w' (Or.inl (by rw [hw', hq2]))
          (fun i hi => by rw [hw']; exact hw i (by simp [below, hi]))
        simp only [Exec.bind_eq, Exec.bind]
        rw [e2, hw', hq2]
  | extend a p f ihp ihf =>
    unfold eval evalP
    simp only [dispatchKw_node]
    obtain ⟨hp, hf, hsc⟩ := hn
    generalize ht : w.cond a.id = t
    have hpid : w.cond p.id = none := hw _ (by simp [below])
    have hfid : w.cond f.id = none := hw _ (by simp [below])
    -- the slots while the body runs
    let g : ObjId → Option (Trace L) := ((w.setCond p.id t).setCond f.id t).cond
    have hgp : g p.id = t := by simp [g]
    have hgf : g f.id = t := by simp [g]
    have hgbelow : ∀ i, i ∈ below p ∨ i ∈ below f → g i = none := by
      intro i hi
      have hwi : w.cond i = none := hw i (by rcases hi with h | h <;> simp [below, h])
      cases t with
      | none => simp only [g, World.setCond_cond, ite_self, hwi]
      | some t' =>
        have hb' : b = true := by
          rcases hb with h | h
          · rw [show (Node.extend a p f).id = a.id from rfl, ht] at h; cases h
          · exact h
        obtain ⟨h1, h2, h3, h4⟩ := hsc hb'
        have e1 : i ≠ p.id := by rintro rfl; rcases hi with h | h; exact h1 h; exact h2 h
        have e2 : i ≠ f.id := by rintro rfl; rcases hi with h | h; exact h3 h; exact h4 h
        simp [g, e1, e2, hwi]
    have hgt : t = none ∨ b = true := by
      rcases hb with h | h
      · left; rw [← ht]; exact h
      · exact Or.inr h
    -- the two calls in that world
    have hbody : ∀ x : World L, x.cond = g →
        (do let pOut ← eval p c (childKw a kw)
            let fOut ← eval f pOut.output (childKw a kw)
            return (pOut, fOut) : Exec L (Out L × Out L)) x =
        (do let pOut ← evalP p t c (childKw a kw)
            let fOut ← evalP f t pOut.output (childKw a kw)
            return (pOut, fOut) : Exec L (Out L × Out L)) x := by
      intro x hx
      have e1 := ihp b hp c (childKw a kw) x (by rw [hx, hgp]; exact hgt)
        (fun i hi => by rw [hx]; exact hgbelow i (Or.inl hi))
      calc _ = (evalP p t c (childKw a kw) >>= fun pOut => do
            let fOut ← eval f pOut.output (childKw a kw)
            return (pOut, fOut) : Exec L (Out L × Out L)) x := by
              simp only [Exec.bind_eq, Exec.bind]; rw [e1, hx, hgp]
        _ = _ := by
          apply bind_congr_slots (NoSlots.evalP ..)
          intro pOut w' hw'
          have e2 := ihf b hf pOut.output (childKw a kw) w' (by rw [hw', hx, hgf]; exact hgt)
            (fun i hi => by rw [hw', hx]; exact hgbelow i (Or.inr hi))
          simp only [Exec.bind_eq, Exec.bind]
          rw [e2, hw', hx, hgf]
    have hM : NoSlots (do
        let pOut ← evalP p t c (childKw a kw)
        let fOut ← evalP f t pOut.output (childKw a kw)
        return (pOut, fOut) : Exec L (Out L × Out L)) :=
      NoSlots.bind (NoSlots.evalP ..) (fun _ => NoSlots.bind (NoSlots.evalP ..) (fun _ => NoSlots.pure _))
    generalize hMdef : (do
        let pOut ← evalP p t c (childKw a kw)
        let fOut ← evalP f t pOut.output (childKw a kw)
        return (pOut, fOut) : Exec L (Out L × Out L)) = M at hM hbody
    have hrhs : (do
        let pOut ← evalP p t c (childKw a kw)
        let fOut ← evalP f t pOut.output (childKw a kw)
        Exec.lift (extendRest a kw t pOut fOut) : Exec L (Out L)) =
        (M >>= fun x => Exec.lift (extendRest a kw t x.1 x.2)) := by
      rw [← hMdef]; simp
    rw [show (Node.extend a p f).id = a.id from rfl, ht, hrhs]
    -- evaluate the with-blocks
    have hcond' : (w.setCond p.id t).cond a.id = t := by
      simp only [World.setCond_cond, ht, ite_self]
    have hsub : (Exec.withSub p.id t (do
        let cond' ← Exec.getCond a.id
        Exec.withSub f.id cond' (do
          let pOut ← eval p c (childKw a kw)
          let fOut ← eval f pOut.output (childKw a kw)
          return (pOut, fOut))) : Exec L (Out L × Out L)) w = M w := by
      rw [Exec.withSub_eq]
      simp only [Exec.bind_eq, Exec.bind, Exec.getCond, Comp.bind_ret, hcond']
      rw [Exec.withSub_eq]
      have hg2 : (w.setCond p.id t).setCond f.id t = withCond w g := rfl
      have hb2 := hbody (withCond w g) rfl
      simp only [Exec.bind_eq] at hb2
      rw [hg2, hb2, hM.eq w g, Comp.bind_assoc, Comp.bind_assoc]
      have hself := hM.eq w w.cond
      rw [show withCond w w.cond = w from rfl] at hself
      conv => rhs; rw [hself]
      congr 1
      funext r
      simp only [Comp.bind_ret]
      congr 2
      apply World.ext'
      · intro i
        simp only [World.setCond_cond, withCond, g]
        by_cases h1 : i = p.id
        · subst h1; simp [hpid]
        · by_cases h2 : i = f.id
          · subst h2; simp [hfid]
          · simp [h1, h2]
      · rfl
    calc _ = (Exec.withSub p.id t (do
        let cond' ← Exec.getCond a.id
        Exec.withSub f.id cond' (do
          let pOut ← eval p c (childKw a kw)
          let fOut ← eval f pOut.output (childKw a kw)
          return (pOut, fOut))) >>= fun x => do
            let cond'' ← Exec.getCond a.id
            Exec.lift (extendRest a kw cond'' x.1 x.2) : Exec L (Out L)) w := by
          simp only [Exec.bind_eq, Exec.bind, Exec.getCond, Comp.bind_ret, ht]
      _ = (M >>= fun x => do
            let cond'' ← Exec.getCond a.id
            Exec.lift (extendRest a kw cond'' x.1 x.2) : Exec L (Out L)) w := by
          exact bind_congr_left _ _ hsub
      _ = _ := by
          apply bind_congr_slots hM
          intro x w' hw'
          simp only [Exec.bind_eq, Exec.bind, Exec.getCond, Comp.bind_ret, hw', ht]
  | propose a tr nr p q ihp ihq =>
    unfold eval evalP
    simp only [dispatchKw_node]
    obtain ⟨hq, hp, hsc⟩ := hn
    have hpid : w.cond p.id = none := hw _ (by simp [below])
    have hqid : w.cond q.id = none := hw _ (by simp [below])
    have e1 := ihq false hq c (childKw a kw) w (Or.inl hqid) (fun i hi => hw i (by simp [below, hi]))
    calc _ = (evalP q none c (childKw a kw) >>= fun qOut => do
            let pOut ← Exec.withSub p.id (some qOut.trace) (eval p c (childKw a kw))
            Exec.lift (proposeRest a tr nr p q kw qOut pOut)) w := by
              simp only [Exec.bind_eq, Exec.bind]; rw [e1, hqid]
      _ = _ := by
        apply bind_congr_slots (NoSlots.evalP ..)
        intro qOut w' hw'
        have hsub : Exec.withSub p.id (some qOut.trace) (eval p c (childKw a kw)) w' =
            evalP p (some qOut.trace) c (childKw a kw) w' := by
          rw [Exec.withSub_eq]
          have e2 := ihp true hp c (childKw a kw) (w'.setCond p.id (some qOut.trace)) (Or.inr rfl)
            (fun i hi => by
              have : i ≠ p.id := by rintro rfl; exact hsc hi
              simp only [World.setCond_cond, this, if_false, hw']
              exact hw i (by simp [below, hi]))
          rw [e2]
          have hM := NoSlots.evalP p (some qOut.trace) c (childKw a kw)
          simp only [World.setCond_cond, if_true]
          rw [show w'.setCond p.id (some qOut.trace) = withCond w' (w'.setCond p.id (some qOut.trace)).cond from rfl,
            hM.eq w', Comp.bind_assoc]
          have hself := hM.eq w' w'.cond
          rw [show withCond w' w'.cond = w' from rfl] at hself
          conv => rhs; rw [hself]
          congr 1
          funext r
          simp only [Comp.bind_ret]
          congr 2
          apply World.ext'
          · intro i
            simp only [World.setCond_cond, withCond]
            by_cases h1 : i = p.id
            · subst h1; simp [hw', hpid]
            · simp [h1]
          · rfl
        simp only [Exec.bind_eq, Exec.bind]
        rw [hsub]

/-! ### Arbitrary graphs -/

/-- What a call can do to the slots, for every graph: outside the graph nothing; inside, a slot keeps its trace or is
emptied. -/
theorem eval_slots (n : Node L) (c : PyVal L) (kw : Kw L) (w w' : World L) (r : Except Err (Out L))
    (h : (eval n c kw).Runs w r w') :
    (∀ i, w'.cond i = none ∨ w'.cond i = w.cond i) ∧ ∀ i, i ∉ below n → w'.cond i = w.cond i := by
  have combine : ∀ {l1 l2 : List ObjId} {w0 w1 w2 : World L},
      ((∀ i, w1.cond i = none ∨ w1.cond i = w0.cond i) ∧ ∀ i, i ∉ l1 → w1.cond i = w0.cond i) →
      ((∀ i, w2.cond i = none ∨ w2.cond i = w1.cond i) ∧ ∀ i, i ∉ l2 → w2.cond i = w1.cond i) →
      ((∀ i, w2.cond i = none ∨ w2.cond i = w0.cond i) ∧ ∀ i, i ∉ l1 → i ∉ l2 → w2.cond i = w0.cond i) := by
    intro l1 l2 w0 w1 w2 h1 h2
    refine ⟨fun i => ?_, fun i a b => by rw [h2.2 i b, h1.2 i a]⟩
    rcases h2.1 i with h | h
    · exact Or.inl h
    · rw [h]; exact h1.1 i
  induction n generalizing c kw w w' r with
  | prog i s =>
    have h' : (evalP (.prog i s) (w.cond i) c kw).Runs w r w' := h
    have : w'.cond = w.cond := NoSlots.cond_eq (NoSlots.evalP ..) h'
    simp [this]
  | resample a rs q ih =>
    unfold eval at h
    rw [Exec.Runs_bind] at h
    rcases h with ⟨e, rfl, h⟩ | ⟨qo, w1, h1, h2⟩
    · have := ih _ _ _ _ _ h
      exact ⟨this.1, fun i hi => this.2 i (fun h' => hi (by simp [below, h']))⟩
    · have := ih _ _ _ _ _ h1
      rw [NoSlots.cond_eq (NoSlots.resampleRest ..) h2]
      exact ⟨this.1, fun i hi => this.2 i (fun h' => hi (by simp [below, h']))⟩
  | compose a q2 q1 ih2 ih1 =>
    unfold eval at h
    rw [Exec.Runs_bind] at h
    rcases h with ⟨e, rfl, h⟩ | ⟨qo, w1, h1, h⟩
    · have := ih1 _ _ _ _ _ h
      exact ⟨this.1, fun i hi => this.2 i (fun h' => hi (by simp [below, h']))⟩
    · rw [Exec.Runs_bind] at h
      rcases h with ⟨e, rfl, h⟩ | ⟨qo2, w2, h2, h⟩
      · have := combine (ih1 _ _ _ _ _ h1) (ih2 _ _ _ _ _ h)
        exact ⟨this.1, fun i hi => this.2 i (fun h' => hi (by simp [below, h'])) (fun h' => hi (by simp [below, h']))⟩
      · simp only [Exec.Runs_lift] at h
        rw [h.2]
        have := combine (ih1 _ _ _ _ _ h1) (ih2 _ _ _ _ _ h2)
        exact ⟨this.1, fun i hi => this.2 i (fun h' => hi (by simp [below, h'])) (fun h' => hi (by simp [below, h']))⟩
  | extend a p f ihp ihf =>
    unfold eval at h
    rw [Exec.Runs_bind] at h
    simp only [Exec.Runs_getCond, Except.ok.injEq] at h
    rcases h with ⟨e, -, h, -⟩ | ⟨cond, w1, ⟨rfl, rfl⟩, h⟩
    · cases h
    -- the body, then the resets
    have body : ∀ (r : Except Err (Out L × Out L)) (w' : World L),
        (Exec.withSub p.id (w1.cond a.id) (do
          let cond' ← Exec.getCond a.id
          Exec.withSub f.id cond' (do
            let pOut ← eval p c (dispatchKw p.callable (childKw a kw))
            let fOut ← eval f pOut.output (dispatchKw f.callable (childKw a kw))
            return (pOut, fOut))) : Exec L (Out L × Out L)).Runs w1 r w' →
        (∀ i, w'.cond i = none ∨ w'.cond i = w1.cond i) ∧ ∀ i, i ∉ below (.extend a p f) → w'.cond i = w1.cond i := by
      intro r w' h
      rw [Exec.Runs_withSub] at h
      obtain ⟨w2, h, rfl⟩ := h
      rw [Exec.Runs_bind] at h
      simp only [Exec.Runs_getCond, Except.ok.injEq] at h
      rcases h with ⟨e, -, h, -⟩ | ⟨cond, w3, ⟨rfl, rfl⟩, h⟩
      · cases h
      rw [Exec.Runs_withSub] at h
      obtain ⟨w4, h, rfl⟩ := h
      have h4 : (∀ i, w4.cond i = none ∨ w4.cond i =
            (((w1.setCond p.id (w1.cond a.id)).setCond f.id ((w1.setCond p.id (w1.cond a.id)).cond a.id)).cond i)) ∧
          ∀ i, i ∉ below p → i ∉ below f → w4.cond i =
            (((w1.setCond p.id (w1.cond a.id)).setCond f.id ((w1.setCond p.id (w1.cond a.id)).cond a.id)).cond i) := by
        rw [Exec.Runs_bind] at h
        rcases h with ⟨e, rfl, h⟩ | ⟨po, w5, h1, h⟩
        · have := ihp _ _ _ _ _ h
          exact ⟨this.1, fun i hi _ => this.2 i hi⟩
        · rw [Exec.Runs_bind] at h
          rcases h with ⟨e, rfl, h⟩ | ⟨fo, w6, h2, h⟩
          · exact combine (ihp _ _ _ _ _ h1) (ihf _ _ _ _ _ h)
          · simp only [Exec.Runs_pure] at h
            rw [h.2]
            exact combine (ihp _ _ _ _ _ h1) (ihf _ _ _ _ _ h2)
      constructor
      · intro i
        simp only [World.setCond_cond]
        by_cases e1 : i = p.id
        · simp [e1]
        · by_cases e2 : i = f.id
          · simp [e2]
          · simpa [e1, e2] using h4.1 i
      · intro i hi
        simp only [below, List.mem_cons, List.mem_append, not_or] at hi
        obtain ⟨e1, e2, e3, e4⟩ := hi
        simpa [World.setCond_cond, e1, e2] using h4.2 i e3 e4
    rw [Exec.Runs_bind] at h
    rcases h with ⟨e, rfl, h⟩ | ⟨⟨po, fo⟩, w2, h1, h⟩
    · exact body _ _ h
    · have hb := body _ _ h1
      simp only at h
      rw [Exec.Runs_bind] at h
      simp only [Exec.Runs_getCond, Except.ok.injEq] at h
      rcases h with ⟨e, -, h, -⟩ | ⟨cond, w3, ⟨rfl, rfl⟩, h⟩
      · cases h
      simp only [Exec.Runs_lift] at h
      rw [h.2]
      exact hb
  | propose a tr nr p q ihp ihq =>
    unfold eval at h
    rw [Exec.Runs_bind] at h
    rcases h with ⟨e, rfl, h⟩ | ⟨qo, w1, h1, h⟩
    · have := ihq _ _ _ _ _ h
      exact ⟨this.1, fun i hi => this.2 i (fun h' => hi (by simp [below, h']))⟩
    · have body : ∀ (r : Except Err (Out L)) (w' : World L),
          (Exec.withSub p.id (some qo.trace) (eval p c (dispatchKw p.callable (childKw a kw)))).Runs w1 r w' →
          (∀ i, w'.cond i = none ∨ w'.cond i = w1.cond i) ∧ ∀ i, i ∉ p.id :: below p → w'.cond i = w1.cond i := by
        intro r w' h
        rw [Exec.Runs_withSub] at h
        obtain ⟨w2, h, rfl⟩ := h
        have h2 := ihp _ _ _ _ _ h
        constructor
        · intro i
          by_cases e1 : i = p.id
          · simp [e1]
          · simpa [World.setCond_cond, e1] using h2.1 i
        · intro i hi
          simp only [List.mem_cons, not_or] at hi
          simpa [World.setCond_cond, hi.1] using h2.2 i hi.2
      rw [Exec.Runs_bind] at h
      rcases h with ⟨e, rfl, h⟩ | ⟨po, w2, h2, h⟩
      · have := combine (ihq _ _ _ _ _ h1) (body _ _ h)
        refine ⟨this.1, fun i hi => this.2 i (fun h' => hi (by simp [below, h'])) (fun h' => hi ?_)⟩
        rcases List.mem_cons.1 h' with h' | h' <;> simp [below, h']
      · simp only [Exec.Runs_lift] at h
        rw [h.2]
        have := combine (ihq _ _ _ _ _ h1) (body _ _ h2)
        refine ⟨this.1, fun i hi => this.2 i (fun h' => hi (by simp [below, h'])) (fun h' => hi ?_)⟩
        rcases List.mem_cons.1 h' with h' | h' <;> simp [below, h']

/-! ### Frame: a slot of an object that is not called does not matter -/

/-- `m` does not depend on slot `i`. -/
structure Frame (i : ObjId) (m : Exec L α) : Prop where
  eq : ∀ w t, m (w.setCond i t) = (m w).bind fun r => .ret (r.1, r.2.setCond i t)

theorem NoSlots.frame {m : Exec L α} (h : NoSlots m) (i : ObjId) : Frame i m := by
  constructor
  intro w t
  have e := h.eq w (w.setCond i t).cond
  rw [show withCond w (w.setCond i t).cond = w.setCond i t from rfl] at e
  have e2 := h.eq w w.cond
  rw [show withCond w w.cond = w from rfl] at e2
  rw [e]
  conv => rhs; rw [e2]
  rw [Comp.bind_assoc]
  congr 1

theorem Frame.bind {i : ObjId} {m : Exec L α} {f : α → Exec L β} (hm : Frame i m) (hf : ∀ a, Frame i (f a)) :
    Frame i (m >>= f) := by
  constructor
  intro w g
  simp only [Exec.bind_eq, Exec.bind]
  rw [hm.eq w g, Comp.bind_assoc, Comp.bind_assoc]
  congr 1
  funext r
  rcases r with ⟨r | a, w'⟩
  · rfl
  · exact (hf a).eq w' g

theorem Frame.getCond {i j : ObjId} (h : j ≠ i) : Frame i (Exec.getCond j : Exec L _) := by
  constructor
  intro w t
  simp [Exec.getCond, h]

theorem setCond_comm (w : World L) {i j : ObjId} (h : i ≠ j) (t s : Option (Trace L)) :
    (w.setCond i t).setCond j s = (w.setCond j s).setCond i t := by
  apply World.ext'
  · intro k
    simp only [World.setCond_cond]
    by_cases h1 : k = i
    · subst h1; simp [h]
    · by_cases h2 : k = j
      · subst h2; simp [h1]
      · simp [h1, h2]
  · rfl

theorem Frame.withSub {i j : ObjId} (h : j ≠ i) (t : Option (Trace L)) {body : Exec L α} (hb : Frame i body) :
    Frame i (Exec.withSub j t body) := by
  constructor
  intro w s
  rw [Exec.withSub_eq, Exec.withSub_eq, setCond_comm w (Ne.symm h) s t, hb.eq, Comp.bind_assoc, Comp.bind_assoc]
  congr 1
  funext r
  simp only [Comp.bind_ret]
  rw [setCond_comm _ h]

theorem Frame.eval (n : Node L) (c : PyVal L) (kw : Kw L) (i : ObjId) (hi : i ∉ objects n) :
    Frame i (eval n c kw) := by
  induction n generalizing c kw with
  | prog j s =>
    have hj : j ≠ i := by
      rintro rfl; exact hi (by simp [objects, Node.id])
    unfold Verif.eval
    exact Frame.bind (Frame.getCond hj) (fun _ =>
      (NoSlots.bind (NoSlots.programForward ..) (fun _ => NoSlots.pure _)).frame i)
  | resample a r q ih =>
    unfold Verif.eval
    refine Frame.bind (ih _ _ ?_) (fun _ => (NoSlots.resampleRest ..).frame i)
    intro h; apply hi; simp only [objects, below, List.mem_cons] at h ⊢; tauto
  | compose a q2 q1 ih2 ih1 =>
    unfold Verif.eval
    refine Frame.bind (ih1 _ _ ?_) (fun _ => Frame.bind (ih2 _ _ ?_) (fun _ => (NoSlots.lift _).frame i))
    all_goals intro h; apply hi; simp only [objects, below, List.mem_cons, List.mem_append] at h ⊢; tauto
  | extend a p f ihp ihf =>
    unfold Verif.eval
    have ha : a.id ≠ i := by rintro rfl; exact hi (by simp [objects, Node.id])
    have hp : p.id ≠ i := by rintro rfl; exact hi (by simp [objects, below])
    have hf : f.id ≠ i := by rintro rfl; exact hi (by simp [objects, below])
    refine Frame.bind (Frame.getCond ha) (fun _ => Frame.bind (Frame.withSub hp _ (Frame.bind (Frame.getCond ha)
      (fun _ => Frame.withSub hf _ (Frame.bind (ihp _ _ ?_) (fun _ => Frame.bind (ihf _ _ ?_) (fun _ =>
        (NoSlots.pure _).frame i)))))) (fun _ => Frame.bind (Frame.getCond ha) (fun _ => (NoSlots.lift _).frame i)))
    all_goals intro h; apply hi; simp only [objects, below, List.mem_cons, List.mem_append] at h ⊢; tauto
  | propose a tr nr p q ihp ihq =>
    unfold Verif.eval
    have hp : p.id ≠ i := by rintro rfl; exact hi (by simp [objects, below])
    refine Frame.bind (ihq _ _ ?_) (fun _ => Frame.bind (Frame.withSub hp _ (ihp _ _ ?_)) (fun _ =>
      (NoSlots.lift _).frame i))
    all_goals intro h; apply hi; simp only [objects, below, List.mem_cons, List.mem_append] at h ⊢; tauto

end Verif
