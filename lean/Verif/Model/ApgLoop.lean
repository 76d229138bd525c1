import Verif.Model.ApgTrain
import Verif.Model.Metrics
/-
experiments/apgs/main.py: the training loop, its metrics and its files.
-/
namespace Verif

/-- What is added to `metrics["ess"]` for a minibatch (experiments/apgs/main.py:97-103): the mean of the effective sample sizes of
`out.lw` for the batch elements, or the number 0 without sweeps. -/
noncomputable def trainEss {n b : Nat} (sweeps : Nat) (lw : Fin n → Fin b → ℝ) : ℝ :=
  if 0 < sweeps then (∑ j, effectiveSampleSize fun i => lw i j) / b else 0

namespace ApgLoop

/-- `get_model_version` (experiments/apgs/main.py:27-29). -/
def modelVersion (timesteps objects sweeps samples : Int) : String :=
  "apg-timesteps=" ++ toString timesteps ++ "-objects=" ++ toString objects ++ "-sweeps=" ++ toString sweeps ++ "-samples=" ++
    toString samples

/-- `budget // (num_sweeps + 1)` (experiments/apgs/main.py:46); ZeroDivisionError at -1. -/
def sampleSize (budget sweeps : Int) : Except Err Int :=
  if sweeps + 1 = 0 then .error (.other 3) else .ok (Int.fdiv budget (sweeps + 1))

/-- The file of parameters (experiments/apgs/main.py:128; combinators/utils.py:30-36). -/
def checkpointPath (version : String) : String := "./weights" ++ "/" ++ ("cp-" ++ version)

/-- The log file (experiments/apgs/main.py:61). -/
def logPath (version : String) : String := "./results/log-" ++ version ++ ".txt"

/-- `metrics` (experiments/apgs/main.py:74): `ess`, `log_p` and `loss`. -/
abbrev Metrics := ℝ × ℝ × ℝ

/-- `v / num_batches` for each of the metrics (experiments/apgs/main.py:163-165). -/
noncomputable def average (m : Metrics) (numBatches : Nat) : Metrics :=
  (m.1 / numBatches, m.2.1 / numBatches, m.2.2 / numBatches)

/-- What the loop does that can be seen from outside. -/
inductive Event where
  /-- `torch.load(data_path)` -/
  | load (path : String)
  /-- one step of the optimiser on `data[indices]`, and the numbers added to `metrics` (experiments/apgs/main.py:85-111) -/
  | update (path : String) (indices : List Nat) (m : Metrics)
  /-- `torch.save` of the parameters (experiments/apgs/main.py:128) -/
  | save (path : String)
  /-- the line printed by `cleanup` (experiments/apgs/main.py:161-173): the numbers after "Epoch=" and "Group=", and the metrics -/
  | report (epoch group : Nat) (m : Metrics)

/-- The arguments of `train_apg` that the loop uses. -/
structure Config where
  /-- `num_epochs`; `range` of a negative number is empty -/
  epochs : Nat
  batchSize : Nat
  timesteps : Nat
  /-- `smoketest[0]` -/
  smoke : Bool
  /-- `smoketest[1]` -/
  limit : Int
  /-- `model_version` -/
  version : String

/-- What the loop calls. `σ` is everything that it changes: parameters, optimiser and random number generators. -/
structure Machine (σ : Type) where
  /-- `random.shuffle(data_paths)`: the list afterwards -/
  shuffle : List String → σ → List String × σ
  /-- `torch.load(data_path)`: N and T of its shape. Files do not change during training; a tensor without four dimensions raises. -/
  load : String → Except Err (Nat × Nat)
  /-- `torch.randperm(N)` -/
  perm : Nat → σ → List Nat × σ
  /-- experiments/apgs/main.py:85-111 for the sequences with the given indices: what is added to `metrics` -/
  step : String → List Nat → σ → Except Err Metrics × σ

/-- How a loop ends: after its last round, by `return`, or by an exception. -/
inductive End (α : Type) where
  | done (a : α)
  | stopped
  | raised (e : Err)

/-- The exception, if any. -/
def End.err {α : Type} : End α → Option Err
  | .raised e => some e
  | _ => none

variable {σ : Type} (c : Config) (M : Machine σ)

/-- The loop over minibatches (experiments/apgs/main.py:84-126). `m` is `metrics`, `k` the number of steps so far, which is `counter` with
`smoketest[0]` and not counted otherwise. -/
noncomputable def batchLoop (epoch group numBatches : Nat) (path : String) :
    List (List Nat) → Metrics → Nat → σ → List Event × End (Metrics × Nat × σ)
  | [], m, k, s => ([], .done (m, k, s))
  | idx :: rest, m, k, s =>
    match M.step path idx s with
    | (.error e, _) => ([], .raised e)
    | (.ok d, s') =>
      if c.smoke = true ∧ c.limit ≤ ((k + 1 : Nat) : Int) then
        ([.update path idx d, .report (epoch + 1) (group + 1) (average (m + d) numBatches)], .stopped)
      else
        let r := batchLoop epoch group numBatches path rest (m + d) (k + 1) s'
        (.update path idx d :: r.1, r.2)

/-- The loop over the data files (experiments/apgs/main.py:72-133). -/
noncomputable def fileLoop (epoch : Nat) : Nat → List String → Nat → σ → List Event × End (Nat × σ)
  | _, [], k, s => ([], .done (k, s))
  | group, path :: rest, k, s =>
    match M.load path with
    | .error e => ([], .raised e)
    | .ok (N, T) =>
      if T ≠ c.timesteps then ([.load path], .raised .assertion)
      else
        match numBatches N c.batchSize with
        | .error e => ([.load path], .raised e)
        | .ok nb =>
          let p := M.perm N s
          let batches := (List.range nb).map fun b => pySlice p.1 (b * c.batchSize) ((b + 1) * c.batchSize)
          match batchLoop c M epoch group nb path batches 0 k p.2 with
          | (ev, .raised e) => (.load path :: ev, .raised e)
          | (ev, .stopped) => (.load path :: ev, .stopped)
          | (ev, .done (m, k', s')) =>
            let r := fileLoop epoch (group + 1) rest k' s'
            (.load path :: ev ++ .save (checkpointPath c.version) ::
              (if c.smoke then [] else [.report (epoch + 1) (group + 1) (average m nb)]) ++ r.1, r.2)

/-- The loop over epochs (experiments/apgs/main.py:67-133), beginning with the given one; each shuffles the list anew. -/
noncomputable def epochLoop (epoch : Nat) : Nat → List String → Nat → σ → List Event × End (Nat × σ)
  | 0, _, k, s => ([], .done (k, s))
  | n + 1, paths, k, s =>
    let p := M.shuffle paths s
    match fileLoop c M epoch 0 p.1 k p.2 with
    | (ev, .raised e) => (ev, .raised e)
    | (ev, .stopped) => (ev, .stopped)
    | (ev, .done (k', s')) =>
      let r := epochLoop (epoch + 1) n p.1 k' s'
      (ev ++ r.1, r.2)

/-- The loops of `train_apg` (experiments/apgs/main.py:59-136): what happens, and the exception, if any. -/
noncomputable def loop (paths : List String) (s : σ) : List Event × Option Err :=
  let r := epochLoop c M 0 c.epochs paths 0 s
  (r.1, r.2.err)

/-- What `train_apg` finds in the file system and gets from the functions it calls before its loops. -/
structure Setup (σ : Type) where
  /-- `torch.load(data_dir + "mean_shape.pt").to(device)` -/
  meanShape : String → Except Err Unit
  /-- `os.listdir` -/
  listing : String → Except Err (List String)
  /-- `init_models(…)` and `adam(…)` -/
  models : Except Err σ
  /-- `gibbs_sweeps(models, num_sweeps, timesteps)` -/
  build : Except Err Unit
  /-- whether the directory "./results/" exists -/
  results : Bool

/-- `train_apg` (experiments/apgs/main.py:32-137): the version, the files, the objects, the log file, the loops. Opening a file in a missing
directory raises FileNotFoundError (`Err.other 4`); the directory is made only afterwards (lines 64-65). -/
noncomputable def trainApg (E : Setup σ) (budget sweeps : Int) (timesteps objects : Nat) (dataDir : String) (epochs batchSize : Nat)
    (smoke : Bool) (limit : Int) : List Event × Option Err :=
  let before : Except Err (String × List String × σ) := do
    let n ← sampleSize budget sweeps
    if ¬ 0 < n then throw .assertion
    E.meanShape (dataDir ++ "mean_shape.pt")
    let files ← E.listing (dataDir ++ "/video/")
    let chosen ← getDataPaths files timesteps objects
    let s ← E.models
    E.build
    if ¬ smoke ∧ ¬ E.results then throw (.other 4)
    return (modelVersion timesteps objects sweeps n, chosen.map fun f => dataDir ++ "/video/" ++ f, s)
  match before with
  | .error e => ([], some e)
  | .ok (version, paths, s) => loop ⟨epochs, batchSize, timesteps, smoke, limit, version⟩ M paths s

end ApgLoop

end Verif
