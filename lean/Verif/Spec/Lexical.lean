import Verif.Model.Inference
/-
The evaluator one would write with lexical scoping: the conditioning trace is an argument, no object carries one.
-/
namespace Verif.Spec
variable {L : Lang}

/-- The objects below an object. -/
def below : Node L → List ObjId
  | .prog _ _ => []
  | .resample _ _ q => q.id :: below q
  | .extend _ p f => p.id :: f.id :: (below p ++ below f)
  | .compose _ q2 q1 => q1.id :: q2.id :: (below q1 ++ below q2)
  | .propose _ _ _ p q => p.id :: q.id :: (below p ++ below q)

/-- All objects of a graph. -/
def objects (n : Node L) : List ObjId := n.id :: below n

/-- Calling an object with the conditioning trace `cond` as an argument. Only Program and Extend use it; Extend hands it
to both parts; Propose evaluates its target conditioned on the proposal's trace; everything else starts afresh. -/
def evalP : Node L → Option (Trace L) → PyVal L → Kw L → Exec L (Out L)
  | .prog _ s, cond, c, kw => do
    let (t, lw, o) ← programForward s cond c kw.sampleDims kw.batchDim kw.reparam
      ([("_debug", .bool kw.debug), ("ix", kw.ix)] ++ kw.shared)
    return Out.mk t lw o (.program s.name) none none none none []
  | .resample a r q, _, c, kw => do
    let qOut ← evalP q none c (childKw a kw)
    resampleRest a r kw qOut
  | .extend a p f, cond, c, kw => do
    let pOut ← evalP p cond c (childKw a kw)
    let fOut ← evalP f cond pOut.output (childKw a kw)
    Exec.lift (extendRest a kw cond pOut fOut)
  | .compose a q2 q1, _, c, kw => do
    let q1Out ← evalP q1 none c (childKw a kw)
    let q2Out ← evalP q2 none q1Out.output (childKw a kw)
    Exec.lift (composeRest a kw q1Out q2Out)
  | .propose a transf noReruns p q, _, c, kw => do
    let qOut ← evalP q none c (childKw a kw)
    let pOut ← evalP p (some qOut.trace) c (childKw a kw)
    Exec.lift (proposeRest a transf noReruns p q kw qOut pOut)

/-- No object is conditioned while it is also reachable below one of the objects conditioned with it. `cond` says
whether the root may be called with a conditioning trace. -/
def WellScoped : Bool → Node L → Prop
  | _, .prog _ _ => True
  | _, .resample _ _ q => WellScoped false q
  | cond, .extend _ p f => WellScoped cond p ∧ WellScoped cond f ∧
      (cond = true → p.id ∉ below p ∧ p.id ∉ below f ∧ f.id ∉ below p ∧ f.id ∉ below f)
  | _, .compose _ q2 q1 => WellScoped false q1 ∧ WellScoped false q2
  | _, .propose _ _ _ p q => WellScoped false q ∧ WellScoped true p ∧ p.id ∉ below p

/-- `w` with all conditioning traces replaced. -/
def withCond (w : World L) (g : ObjId → Option (Trace L)) : World L := { w with cond := g }

end Verif.Spec
