import Verif.Model.ApgLoop
/-
What a training run of the amortized Gibbs sampler does, from outside (C69).
-/
namespace Verif

/-- The same arguments without `smoketest`. -/
abbrev ApgLoop.Config.plain (c : Config) : Config := { c with smoke := false }

/-- The same arguments with `smoketest`. -/
abbrev ApgLoop.Config.smoky (c : Config) : Config := { c with smoke := true }

/-- The number of steps after which a smoke test stops. -/
def ApgLoop.Config.steps (c : Config) : Nat := max 1 c.limit.toNat

namespace Spec
open ApgLoop

/-- The steps of the optimiser among the events. -/
def updates (evs : List Event) : List Event := evs.filter fun | .update .. => true | _ => false

/-- The data files read. -/
def loads (evs : List Event) : List Event := evs.filter fun | .load .. => true | _ => false

/-- The parameters saved. -/
def saves (evs : List Event) : List Event := evs.filter fun | .save .. => true | _ => false

/-- The lines printed. -/
def reports (evs : List Event) : List Event := evs.filter fun | .report .. => true | _ => false

/-- Everything but the lines printed. -/
def silent (evs : List Event) : List Event := evs.filter fun | .report .. => false | _ => true

/-- The numbers that the steps among the events add to the metrics. -/
def measured : List Event → List Metrics
  | [] => []
  | .update _ _ m :: evs => m :: measured evs
  | _ :: evs => measured evs

/-- The mean of each of the metrics. -/
noncomputable def meanOf (ms : List Metrics) : Metrics :=
  ((ms.map (·.1)).sum / ms.length, (ms.map (·.2.1)).sum / ms.length, (ms.map (·.2.2)).sum / ms.length)

/-- One data file in an epoch: it is read, there is one step for each minibatch of a random order of its sequences, the parameters are saved,
and the means over these steps are printed. -/
def GroupRun (c : Config) (size : String → Nat) (epoch group : Nat) (path : String) (evs : List Event) : Prop :=
  ∃ (perm : List Nat) (batches : List (List Nat)) (ms : List Metrics), perm.Perm (List.range (size path)) ∧ minibatches perm c.batchSize = .ok batches ∧ ms.length = batches.length ∧
    evs = .load path :: List.zipWith (.update path) batches ms ++
      [.save (checkpointPath c.version), .report (epoch + 1) (group + 1) (meanOf ms)]

/-- One epoch: all data files, in some order. -/
def EpochRun (c : Config) (size : String → Nat) (paths : List String) (epoch : Nat) (evs : List Event) : Prop :=
  ∃ (order : List String) (gs : List (List Event)), order.Perm paths ∧ gs.length = order.length ∧ evs = gs.flatten ∧
    ∀ i path ev, order[i]? = some path → gs[i]? = some ev → GroupRun c size epoch i path ev

/-- A whole run. -/
def TrainingRun (c : Config) (size : String → Nat) (paths : List String) (evs : List Event) : Prop :=
  ∃ es : List (List Event), es.length = c.epochs ∧ evs = es.flatten ∧ ∀ e ev, es[e]? = some ev → EpochRun c size paths e ev

/-- Steps for one file. -/
def AllUpdates (path : String) (evs : List Event) : Prop := ∀ e ∈ evs, ∃ i d, e = .update path i d

/-- Events that end with steps for a file just read; `m` is their sum divided by the number of minibatches that the file has, not by the
number of steps. -/
def CutShort (c : Config) (size : String → Nat) (evs : List Event) (m : Metrics) : Prop :=
  ∃ front path ups, evs = front ++ .load path :: ups ∧ ups ≠ [] ∧ AllUpdates path ups ∧
    m = average (measured ups).sum (if size path ≤ c.batchSize then 1 else size path / c.batchSize)

end Spec
end Verif
