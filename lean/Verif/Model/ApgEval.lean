import Verif.Model.Apg
import Verif.Model.ApgLoop
import Verif.Model.Cli
/-
experiments/apgs/notebooks/evaluate_saved_model.py: the script that loads a trained model and shows samples.
-/
namespace Verif
namespace ApgEval
variable {L : Lang}

/-- The constants of the script that its calls depend on (evaluate_saved_model.py:24-41). -/
structure Settings where
  dataDir : String
  timesteps : Nat
  numObjects : Nat
  batchSize : Nat
  budget : Int
  numSweeps : Int
  markov : Bool
deriving DecidableEq

/-- Their values. -/
def settings : Settings :=
  { dataDir := "./dataset/", timesteps := 10, numObjects := 3, batchSize := 2, budget := 120, numSweeps := 5, markov := false }

/-- The parameters of `init_models` (experiments/apgs/models.py:28-39); all but the last have no default. -/
def initParams : List String :=
  ["frame_pixels", "shape_pixels", "num_hidden_digit", "num_hidden_coor", "z_where_dim", "z_what_dim", "num_objects", "mean_shape", "device",
    "reparameterized"]

/-- A call of `init_models` with keyword arguments of these names: TypeError for an unknown name and for a missing one. -/
def callInit (names : List String) : Except Err Unit :=
  if names.all (initParams.contains ·) && (initParams.dropLast).all (names.contains ·) then .ok () else .error .type

/-- The keyword arguments that the script passes (evaluate_saved_model.py:69-80). -/
def passed : List String :=
  ["mean_shape", "frame_pixels", "shape_pixels", "num_hidden_digit", "num_hidden_coor", "z_where_dim", "z_what_dim", "num_objects", "device",
    "use_markov_blanket"]

/-- The name of the model (evaluate_saved_model.py:62-68). -/
def evalVersion (timesteps objects sweeps samples : Int) (markov : Bool) : String :=
  "apg-timesteps=" ++ toString timesteps ++ "-objects=" ++ toString objects ++ "-sweeps=" ++ toString sweeps ++ "-samples=" ++
    toString samples ++ (if markov then "-with_opt" else "")

/-- What the script does that can be seen from outside. Shapes stand for tensors. -/
inductive Act where
  /-- `torch.load(path)` -/
  | load (path : String)
  /-- `os.listdir(dir)` -/
  | listdir (dir : String)
  /-- `init_models(…)` -/
  | initModels
  /-- the call of the sampler, with the shape of `frames_expand` -/
  | run (shape : List Nat)
deriving DecidableEq

/-- What the script's calls give. -/
structure Env where
  /-- `torch.load(path)` of a tensor: its shape -/
  load : String → Except Err (List Nat)
  /-- `os.listdir(dir)` -/
  listdir : String → Except Err (List String)
  /-- `torch.load(path)` and `load_state_dict` in `load_models` (combinators/utils.py:39-44) -/
  weights : String → Except Err Unit
  /-- the call of the sampler -/
  run : List Nat → Except Err Unit

/-- The length of `x[i:j]` for a dimension of length `n`. -/
def sliceLen (n i j : Nat) : Nat := min n j - i

/-- The shape of `t[3 : 3 + batch_size, :timesteps].repeat(copies, 1, 1, 1, 1)` (evaluate_saved_model.py:57-59) for videos, which have four
dimensions; other tensors are not modelled. -/
def expandShape (C : Settings) (copies : Int) : List Nat → Except Err (List Nat)
  | [n, t, h, w] => .ok [copies.toNat, sliceLen n 3 (3 + C.batchSize), min t C.timesteps, h, w]
  | _ => .error .runtime

/-- The script (evaluate_saved_model.py:43-113) with the constants `C` and the keyword arguments `names` of `init_models`. The first exception ends it. The calls done
are in the list; one that raises is not counted. Importing a package that does not exist raises ModuleNotFoundError (`Err.other 5`). -/
def script (E : Env) (C : Settings) (names : List String) : List Act × Except Err Unit :=
  match ApgLoop.sampleSize C.budget C.numSweeps with
  | .error e => ([], .error e)
  | .ok n =>
    if ¬ 0 < n then ([], .error .assertion) else
    match E.load (C.dataDir ++ "mean_shape.pt") with
    | .error e => ([], .error e)
    | .ok _ =>
      let a1 := [Act.load (C.dataDir ++ "mean_shape.pt")]
      match E.listdir (C.dataDir ++ "/video/") with
      | .error e => (a1, .error e)
      | .ok files =>
        let a2 := a1 ++ [.listdir (C.dataDir ++ "/video/")]
        match getDataPaths files C.timesteps C.numObjects with
        | .error e => (a2, .error e)
        | .ok [] => (a2, .error .index)
        | .ok (f :: _) =>
          match E.load (C.dataDir ++ "/video/" ++ f) with
          | .error e => (a2, .error e)
          | .ok shape =>
            let a3 := a2 ++ [.load (C.dataDir ++ "/video/" ++ f)]
            match expandShape C n shape with
            | .error e => (a3, .error e)
            | .ok s =>
              match callInit names with
              | .error e => (a3, .error e)
              | .ok _ =>
                let a4 := a3 ++ [.initModels]
                let path := Cli.normpath ("./weights" ++ "/" ++ ("cp-" ++ evalVersion C.timesteps C.numObjects C.numSweeps n C.markov))
                match E.weights path with
                | .error e => (a4, .error e)
                | .ok _ =>
                  let a5 := a4 ++ [.load path]
                  match E.run s with
                  | .error e => (a5, .error e)
                  | .ok _ => (a5 ++ [.run s], .error (.other 5))

/-- `out.trace["z_where_%d_%d" % (t, sweeps)].value` for `t` below `T` (evaluate_saved_model.py:99-102); KeyError if there is none. -/
def positions (tr : Trace L) (sweeps : Int) (T : Nat) : Except Err (List L.V) :=
  (List.range T).mapM fun t : Nat =>
    match tr.get? ("z_where_" ++ toString (t : Int) ++ "_" ++ toString sweeps) with
    | some rv => .ok rv.value
    | none => .error .key

/-- `get_samples` (evaluate_saved_model.py:95-104): the probabilities of the reconstruction and the positions by time. `probs` is the attribute of a distribution. -/
def getSamples {P : Type} (probs : L.D → P) (markov : Bool) (tr : Trace L) (sweeps : Int) (T : Nat) : Except Err (P × List L.V) :=
  if markov then .error .assertion
  else
    match tr.get? "recon" with
    | none => .error .key
    | some rv =>
      match rv.kind with
      | .proper d => do
        let z ← positions tr sweeps T
        return (probs d, z)
      | _ => .error .attribute

end ApgEval
end Verif
