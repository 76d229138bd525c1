import Verif.Model.Cli
import Verif.Model.ApgLoop
/-
experiments/apgs/main.py:176-255: the script, its arguments and `test_gibbs_sweep`.
-/
namespace Verif
namespace ApgCli
open Cli (pyInt pyBool)

/-! ### The command line -/

/-- `args` (experiments/apgs/main.py:193-219). `F` are the floating point numbers. -/
structure Args (F : Type) where
  dataDir : String
  framePixels : Int
  shapePixels : Int
  timesteps : Int
  numObjects : Int
  device : String
  numEpochs : Int
  lr : F
  batchSize : Int
  budget : Int
  numSweeps : Int
  numHiddenDigit : Int
  numHiddenCoor : Int
  zWhereDim : Int
  zWhatDim : Int
  test : Bool
  smoketest : Bool
  iterations : Int
  seed : Int
deriving DecidableEq

/-- The options' defaults (experiments/apgs/main.py:195-217); `lr` is 2e-4. -/
def defaults {F : Type} (lr : F) : Args F :=
  { dataDir := "./dataset/", framePixels := 96, shapePixels := 28, timesteps := 10, numObjects := 3, device := "cpu", numEpochs := 200,
    lr := lr, batchSize := 10, budget := 120, numSweeps := 5, numHiddenDigit := 400, numHiddenCoor := 400, zWhereDim := 2, zWhatDim := 10,
    test := false, smoketest := false, iterations := 10, seed := 1 }

/-- The options of the parser, "--help" included. -/
def optionNames : List String :=
  ["help", "data_dir", "frame_pixels", "shape_pixels", "timesteps", "num_objects", "device", "num_epochs", "lr", "batch_size", "budget",
    "num_sweeps", "num_hidden_digit", "num_hidden_coor", "z_where_dim", "z_what_dim", "test", "smoketest", "iterations", "seed"]

/-- argparse: an option is given by its name or by the beginning of the name of exactly one option; `none`: the parser exits. -/
def resolve (o : String) : Option String :=
  if o ∈ optionNames then some o
  else
    match optionNames.filter fun n => o.toList.isPrefixOf n.toList with
    | [n] => some n
    | _ => none

variable {F : Type} (float : String → Option F)

/-- Storing one value, converted by the option's `type` (experiments/apgs/main.py:195-217): `str`, `int`, `bool`, or `float`, which is
not modelled. `none`: the parser exits, with an error message or after printing the help text. -/
def store (a : Args F) (name value : String) : Option (Args F) :=
  match name with
  | "data_dir" => some { a with dataDir := value }
  | "frame_pixels" => (pyInt value).map fun n => { a with framePixels := n }
  | "shape_pixels" => (pyInt value).map fun n => { a with shapePixels := n }
  | "timesteps" => (pyInt value).map fun n => { a with timesteps := n }
  | "num_objects" => (pyInt value).map fun n => { a with numObjects := n }
  | "device" => some { a with device := value }
  | "num_epochs" => (pyInt value).map fun n => { a with numEpochs := n }
  | "lr" => (float value).map fun x => { a with lr := x }
  | "batch_size" => (pyInt value).map fun n => { a with batchSize := n }
  | "budget" => (pyInt value).map fun n => { a with budget := n }
  | "num_sweeps" => (pyInt value).map fun n => { a with numSweeps := n }
  | "num_hidden_digit" => (pyInt value).map fun n => { a with numHiddenDigit := n }
  | "num_hidden_coor" => (pyInt value).map fun n => { a with numHiddenCoor := n }
  | "z_where_dim" => (pyInt value).map fun n => { a with zWhereDim := n }
  | "z_what_dim" => (pyInt value).map fun n => { a with zWhatDim := n }
  | "test" => some { a with test := pyBool value }
  | "smoketest" => some { a with smoketest := pyBool value }
  | "iterations" => (pyInt value).map fun n => { a with iterations := n }
  | "seed" => (pyInt value).map fun n => { a with seed := n }
  | _ => none

/-- `parser.parse_args()` on a command line of arguments "--option=value" (experiments/apgs/main.py:219), as pairs of option and value.
`none`: the parser exits (SystemExit). Arguments of another form are not modelled. -/
def parseArgs : Args F → List (String × String) → Option (Args F)
  | a, [] => some a
  | a, (o, v) :: opts => (resolve o).bind fun n => (store float a n v).bind fun a' => parseArgs a' opts

/-! ### The script -/

/-- The arguments of `init_models` besides `mean_shape` (experiments/apgs/models.py:28-39). -/
structure ModelArgs where
  framePixels : Int
  shapePixels : Int
  numHiddenDigit : Int
  numHiddenCoor : Int
  zWhereDim : Int
  zWhatDim : Int
  numObjects : Int
  device : String
deriving DecidableEq

/-- The arguments of `train_apg` (experiments/apgs/main.py:32-43); `**kwargs` and `num_objects` go to `init_models` (line 54). -/
structure TrainArgs (F : Type) where
  numEpochs : Int
  lr : F
  batchSize : Int
  budget : Int
  numSweeps : Int
  timesteps : Int
  dataDir : String
  smoketest : Bool × Int
  models : ModelArgs
deriving DecidableEq

/-- What the script does that can be seen from outside. Shapes stand for tensors. -/
inductive Act (F : Type) where
  /-- `utils.seed(s)`: seeds torch, numpy and random (combinators/utils.py:138-147). -/
  | seed (s : Int)
  /-- `train_apg(…)` -/
  | train (t : TrainArgs F)
  /-- `torch.load(path)` -/
  | load (path : String)
  /-- `os.listdir(dir)` -/
  | listdir (dir : String)
  /-- `init_models(mean_shape=…, …)`: new models -/
  | initModels (m : ModelArgs)
  /-- `gibbs_sweeps(models, num_sweeps, timesteps)` -/
  | sweeps (numSweeps timesteps : Int)
  /-- the call of the sampler on `{"frames": frames_expand}`, with the shape of `frames_expand` -/
  | run (shape : List Nat)
  /-- `torch.save` -/
  | save (path : String)
  /-- `print("done!")` -/
  | done
deriving DecidableEq

/-- What the script's calls give. -/
structure Env (F : Type) where
  /-- `torch.load(path)` of a tensor: its shape -/
  load : String → Except Err (List Nat)
  /-- `os.listdir(dir)` -/
  listdir : String → Except Err (List String)
  /-- whether the other calls raise -/
  raises : Act F → Option Err

/-- Doing things one after the other; the first exception ends it. -/
structure Done (F α : Type) where
  acts : List (Act F)
  res : Except Err α

/-- `x` and then `k` with its result. -/
def Done.andThen {α β : Type} (x : Done F α) (k : α → Done F β) : Done F β :=
  match x.res with
  | .error e => ⟨x.acts, .error e⟩
  | .ok a => ⟨x.acts ++ (k a).acts, (k a).res⟩

/-- A call; one that raises is not counted as done. -/
def act (E : Env F) (a : Act F) : Done F Unit :=
  match E.raises a with
  | some e => ⟨[], .error e⟩
  | none => ⟨[a], .ok ()⟩

def actLoad (E : Env F) (path : String) : Done F (List Nat) :=
  match E.load path with
  | .error e => ⟨[], .error e⟩
  | .ok s => ⟨[.load path], .ok s⟩

def actListdir (E : Env F) (dir : String) : Done F (List String) :=
  match E.listdir dir with
  | .error e => ⟨[], .error e⟩
  | .ok l => ⟨[.listdir dir], .ok l⟩

/-- The length of `x[:k]` for a dimension of length `n`. -/
def cut (n : Nat) (k : Int) : Nat := if k < 0 then (n + k).toNat else min n k.toNat

/-- The shape of `t[:, :timesteps].repeat(copies, 1, 1, 1, 1)` (experiments/apgs/main.py:184-185): IndexError below two dimensions,
RuntimeError above five and for a negative number of copies. -/
def expand (shape : List Nat) (timesteps copies : Int) : Except Err (List Nat) :=
  match shape with
  | n :: t :: rest =>
    if 5 < shape.length ∨ copies < 0 then .error .runtime
    else
      let s := n :: cut t timesteps :: rest
      if shape.length = 5 then .ok (match s with | n :: s => copies.toNat * n :: s | [] => [])
      else .ok (copies.toNat :: List.replicate (4 - shape.length) 1 ++ s)
  | _ => .error .index

/-- The arguments passed on to `init_models` (experiments/apgs/main.py:227-234,245-252). -/
def modelArgs (a : Args F) : ModelArgs :=
  { framePixels := a.framePixels, shapePixels := a.shapePixels, numHiddenDigit := a.numHiddenDigit, numHiddenCoor := a.numHiddenCoor,
    zWhereDim := a.zWhereDim, zWhatDim := a.zWhatDim, numObjects := a.numObjects, device := a.device }

/-- `test_gibbs_sweep` (experiments/apgs/main.py:176-189). `data_paths[0]` raises IndexError for an empty list. -/
def testSweep (E : Env F) (a : Args F) : Done F Unit :=
  match ApgLoop.sampleSize a.budget a.numSweeps with
  | .error e => ⟨[], .error e⟩
  | .ok n =>
    (actLoad E (a.dataDir ++ "mean_shape.pt")).andThen fun _ =>
    (actListdir E (a.dataDir ++ "/video/")).andThen fun files =>
    match files.filter fun f => pyEndsWith f ".pt" with
    | [] => ⟨[], .error .index⟩
    | f :: _ =>
      (actLoad E (a.dataDir ++ "/video/" ++ f)).andThen fun shape =>
      match expand shape a.timesteps n with
      | .error e => ⟨[], .error e⟩
      | .ok s =>
        (act E (.initModels (modelArgs a))).andThen fun _ =>
        (act E (.sweeps a.numSweeps a.timesteps)).andThen fun _ => act E (.run s)

/-- The script after parsing (experiments/apgs/main.py:220-255). -/
def script (E : Env F) (a : Args F) : Done F Unit :=
  (act E (.seed a.seed)).andThen fun _ =>
  (if a.test then testSweep E a
  else act E (.train
    { numEpochs := a.numEpochs, lr := a.lr, batchSize := a.batchSize, budget := a.budget, numSweeps := a.numSweeps,
      timesteps := a.timesteps, dataDir := a.dataDir, smoketest := (a.smoketest, a.iterations), models := modelArgs a })).andThen fun _ =>
  act E .done

end ApgCli
end Verif
