import Mathlib.Algebra.BigOperators.Group.Finset.Basic
import Verif.Model.Annealing
/-
What vsmc computes on an annealing model, stated without the combinators: a Markov chain z_0, z_1, ... and the log weight of
annealed importance sampling with forward kernels f and reverse kernels r.
-/
namespace Verif

/-- The parts of an annealing model (experiments/annealing/models.py:265-295): an initial distribution, unnormalised log
densities `g k` of the target called g(k+1), forward kernels `f k` from g(k) to g(k+1), reverse kernels `r k` back. -/
structure AnnealModel (L : Lang) where
  d0 : L.D
  rep0 : Bool
  cls0 : String
  g : Nat → L.V → L.W
  cls : Nat → String
  f : Nat → L.V → L.D
  rep : Bool
  r : Nat → L.V → L.D
  rep' : Bool

/-- Identities of the objects of an annealing model. -/
structure AnnealIds where
  initial : ObjId
  target : Nat → ObjId
  forward : Nat → ObjId
  reverse : Nat → ObjId

def AnnealIds.Below (I : AnnealIds) (fresh : ObjId) : Prop :=
  ∀ k, I.forward k < fresh ∧ I.reverse k < fresh ∧ I.target k < fresh

namespace AnnealModel
variable {L : Lang}

/-- `f"g{k}"` -/
def name (k : Nat) : String := "g" ++ toString k

def initial (M : AnnealModel L) (I : AnnealIds) : Node L := .prog I.initial (distributionProg M.cls0 (name 0) M.d0 M.rep0)
def target (M : AnnealModel L) (I : AnnealIds) (k : Nat) : Node L := .prog (I.target k) (densityProg (M.cls k) (name (k + 1)) (M.g k))
def forward (M : AnnealModel L) (I : AnnealIds) (k : Nat) : Node L :=
  .prog (I.forward k) (kernelProg (name k) (name (k + 1)) (M.f k) M.rep)
def reverse (M : AnnealModel L) (I : AnnealIds) (k : Nat) : Node L :=
  .prog (I.reverse k) (kernelProg (name (k + 1)) (name k) (M.r k) M.rep')

/-- The value a later step sees: Propose detaches the values it hands on. -/
def point (z : Nat → L.V) : Nat → L.V
  | 0 => z 0
  | k + 1 => L.detachV (z (k + 1))

/-- Log density of the target called g(k). -/
def density (M : AnnealModel L) : Nat → L.V → L.W
  | 0 => L.logProb M.d0
  | k + 1 => M.g k

/-- The chain: an initial value, then one draw from each forward kernel. Beyond the last index the last value repeats. -/
def chain (M : AnnealModel L) : Nat → Comp L (Nat → L.V)
  | 0 => .draw M.d0 M.rep0 fun v => .ret fun _ => v
  | K + 1 => (M.chain K).bind fun z => .draw (M.f K (point z K)) M.rep fun v => .ret (fun j => if j ≤ K then z j else v)

/-- The increment of step `k`: `[g_{k+1}(z_{k+1}) + r_k(z_k|z_{k+1})] - [g_k(z_k) + f_k(z_{k+1}|z_k)]`. -/
def increment (M : AnnealModel L) (z : Nat → L.V) (k : Nat) : L.W :=
  (M.density (k + 1) (z (k + 1)) + L.logProb (M.r k (z (k + 1))) (point z k)) -
    (M.density k (point z k) + L.logProb (M.f k (point z k)) (z (k + 1)))

/-- The log weight after `K` steps, detached after every step. -/
def weight (M : AnnealModel L) (z : Nat → L.V) : Nat → L.W
  | 0 => 0
  | K + 1 => L.detachW (M.weight z K + M.increment z K)

/-- The incoming weight that step `k` records: zero for a single program, otherwise detached once more. -/
def incoming (M : AnnealModel L) (z : Nat → L.V) : Nat → L.W
  | 0 => 0
  | k + 1 => L.detachW (M.weight z (k + 1))

end AnnealModel

variable {L : Lang}

/-- The user's shared keyword arguments do not clash with the parameters of the annealing programs. -/
def KwOk (kw : Kw L) : Prop := ∀ e ∈ kw.shared, e.1 ≠ "self" ∧ e.1 ≠ "trace" ∧ e.1 ≠ "c"

/-- A Program object. -/
def IsProg (n : Node L) : Prop := ∃ i s, n = .prog i s

/-- `out` is `o` itself or a resampled `o`. -/
def Core (out o : Out L) : Prop := out = o ∨ (out.type = .resample ∧ subOut out "q_out" = some o)

/-- The proposal of the step of `o` started from `i`. -/
def StepFrom (o i : Out L) : Prop := ∃ qo q1, subOut o "q_out" = some qo ∧ subOut qo "q1_out" = some q1 ∧ Core q1 i

/-- A result as the loss function sees it: without loss and debugging entries. -/
def Out.bare (o : Out L) : Out L := Out.mk o.trace o.logWeight o.output o.type o.ix none o.marginal o.px []

/-- What a loss function can rely on when it is called for step `k`: a tensor lv, both variables in the two traces, and an
improper target. -/
structure IsStep (k : Nat) (a b : String) (o : Out L) : Prop where
  ix : o.ix = some (.int k)
  px : ∃ px, o.px = some px ∧ (∃ lv, px.lv = .tensor lv) ∧ (∃ rv, px.proposalTrace.get? a = some rv) ∧
    (∃ rv, px.proposalTrace.get? b = some rv) ∧ (∃ rv, px.targetTrace.get? a = some rv) ∧
    ∃ rv f, px.targetTrace.get? b = some rv ∧ rv.kind = .improper f

/-- What the loss function sees at step `k` of the chain `z`. -/
structure StepOf (M : AnnealModel L) (z : Nat → L.V) (k : Nat) (o : Out L) : Prop where
  ix : o.ix = some (.int k)
  px : ∃ px prop targ, o.px = some px ∧ px.lv = .tensor (M.increment z k) ∧ px.lw = M.incoming z k ∧
    px.proposalTrace.get? (AnnealModel.name k) = some prop ∧ prop.logProb = M.density k (AnnealModel.point z k) ∧
    px.targetTrace.get? (AnnealModel.name (k + 1)) = some targ ∧ targ.kind = .improper (M.g k) ∧ targ.value = z (k + 1)

/-- `loss` is the sum of the loss function's values on the first `K` steps of the chain `z`; a single program has no loss. -/
def ChainLoss (lossFn : Out L → Except Err L.Lo) (M : AnnealModel L) (z : Nat → L.V) (K : Nat) (loss : Option L.Lo) : Prop :=
  ∃ ls : Nat → L.Lo, loss = (if K = 0 then none else some (∑ k ∈ Finset.range K, ls k)) ∧
    ∀ k < K, ∃ o, StepOf M z k o ∧ lossFn o = .ok (ls k)

/-- What row `i` of get_stats holds for the chain `z`: the log weight after `i + 1` steps, the losses up to there, and the value
drawn at that step. -/
structure RowAt (lossFn : Out L → Except Err L.Lo) (M : AnnealModel L) (z : Nat → L.V) (i : Nat) (r : StatRow L) : Prop where
  lw : r.lw = .tensor (M.incoming z (i + 1))
  loss : ChainLoss lossFn M z (i + 1) (some r.loss)
  sample : ∃ rv, r.proposalTrace.get? (AnnealModel.name (i + 1)) = some rv ∧ rv.value = z (i + 1)

/-- A loss function that returns for every step of vsmc. -/
def LossOk (lossFn : Out L → Except Err L.Lo) : Prop :=
  ∀ k o, IsStep k (AnnealModel.name k) (AnnealModel.name (k + 1)) o → ∃ l, lossFn o = .ok l

/-- What a row of get_stats holds of the Propose result it is made from. -/
def RowEntries (r : StatRow L) : Prop :=
  ∃ px x, r.out.px = some px ∧ r.out.logWeight = .tensor x ∧ r.lw = .tensor (L.detachW x) ∧ r.out.loss = some r.loss ∧
    r.proposalTrace = px.proposalTrace ∧ r.targetTrace = px.targetTrace

/-- The rows of get_stats for the result `out`: row i is that of the Propose with index i, each Propose's proposal started from
the result of the row before, and the last row is that of `out`. -/
structure RowsOf (out : Out L) (rows : List (StatRow L)) : Prop where
  row : ∀ (i : Nat) r, rows[i]? = some r → r.out.ix = some (.int i) ∧ r.out.type = .propose ∧ RowEntries r
  link : ∀ (i : Nat) r r', rows[i]? = some r → rows[i + 1]? = some r' → StepFrom r'.out r.out
  last : ∀ r, rows.getLast? = some r → Core out r.out

/-- The losses of the rows accumulate the loss function's values on the steps, and the result's loss is that of the last. -/
structure LossesOf (lossFn : Out L → Except Err L.Lo) (out : Out L) (rows : List (StatRow L)) : Prop where
  first : ∀ r, rows[0]? = some r → ∃ l, lossFn r.out.bare = .ok l ∧ r.loss = l
  next : ∀ (i : Nat) r r', rows[i]? = some r → rows[i + 1]? = some r' → ∃ l, lossFn r'.out.bare = .ok l ∧ r'.loss = l + r.loss
  last : ∀ r, rows.getLast? = some r → out.loss = some r.loss

end Verif
