import Verif.Model.Core
/-
experiments/annealing/main.py:119-224 (the script), experiments/annealing/utils.py:64-83 (file names of a model), and the functions of
experiments/annealing/scripts/tabulate_and_plot.py that build and read the names of runs.
-/
namespace Verif
namespace Cli

/-! ### Python on strings -/

/-- `str.strip()`, for the white space of ASCII. -/
def strip (cs : List Char) : List Char :=
  let ws := fun c : Char => c = ' ' ∨ ('\t' ≤ c ∧ c ≤ '\r') ∨ ('\x1c' ≤ c ∧ c ≤ '\x1f')
  ((cs.dropWhile fun c => decide (ws c)).reverse.dropWhile fun c => decide (ws c)).reverse

/-- Decimal digits, with single underscores allowed between two digits: the value, given the value of the digits before. -/
def digitsVal : Nat → List Char → Option Nat
  | acc, [] => some acc
  | acc, '_' :: c :: cs => if c.isDigit then digitsVal (acc * 10 + (c.toNat - '0'.toNat)) cs else none
  | acc, c :: cs => if c.isDigit then digitsVal (acc * 10 + (c.toNat - '0'.toNat)) cs else none

/-- An unsigned numeral: it begins with a digit. -/
def unsigned : List Char → Option Nat
  | [] => none
  | c :: cs => if c.isDigit then digitsVal (c.toNat - '0'.toNat) cs else none

/-- `int(s)` for a string; `none` is ValueError. Digits outside ASCII are not modelled. -/
def pyInt (s : String) : Option Int :=
  match strip s.toList with
  | '-' :: cs => (unsigned cs).map fun n : Nat => -(n : Int)
  | '+' :: cs => (unsigned cs).map fun n : Nat => (n : Int)
  | cs => (unsigned cs).map fun n : Nat => (n : Int)

/-- `bool(s)` for a string. -/
def pyBool (s : String) : Bool := s != ""

/-- `s.split(c)` -/
def pySplit (c : Char) : List Char → List (List Char)
  | [] => [[]]
  | x :: xs =>
    if x = c then [] :: pySplit c xs
    else
      match pySplit c xs with
      | [] => [[x]]
      | p :: ps => (x :: p) :: ps

/-- One component of `os.path.normpath`: empty components and "." are dropped, ".." removes the component before. `acc` is
reversed. A leading "/" is not modelled: the paths here are relative. -/
def normStep (acc : List (List Char)) (p : List Char) : List (List Char) :=
  if p = [] ∨ p = ['.'] then acc
  else if p = ['.', '.'] then
    match acc with
    | [] => [p]
    | q :: qs => if q = ['.', '.'] then p :: acc else qs
  else p :: acc

/-- `os.path.normpath(path)` for a relative path. -/
def normpath (s : String) : String :=
  match ((pySplit '/' s.toList).foldl normStep []).reverse with
  | [] => "."
  | ps => String.ofList (List.intercalate ['/'] ps)

/-! ### The command line -/

/-- `args` (experiments/annealing/main.py:123-137). -/
structure Args where
  objective : String
  seed : Int
  resample : Bool
  iterations : Int
  numTargets : Int
  sampleBudget : Int
  optimizePath : Bool
  trainAndTest : Bool
  smoketest : Bool
deriving DecidableEq, Repr

/-- The options' defaults (experiments/annealing/main.py:125-135). -/
def defaults : Args :=
  { objective := "nvo_rkl", seed := 0, resample := false, iterations := 20000, numTargets := 4, sampleBudget := 288,
    optimizePath := false, trainAndTest := true, smoketest := false }

/-- The options of the parser, "--help" included. -/
def optionNames : List String :=
  ["help", "objective", "seed", "resample", "iterations", "num_targets", "sample_budget", "optimize_path", "train_and_test", "smoketest"]

/-- argparse: an option is given by its name or by the beginning of the name of exactly one option; `none`: the parser exits. -/
def resolve (o : String) : Option String :=
  if o ∈ optionNames then some o
  else
    match optionNames.filter fun n => o.toList.isPrefixOf n.toList with
    | [n] => some n
    | _ => none

/-- Storing one value, converted by the option's `type` (experiments/annealing/main.py:125-135): `str`, `int` or `bool`. `none`: the
parser exits, with an error message or after printing the help text. -/
def store (a : Args) (name value : String) : Option Args :=
  match name with
  | "objective" => some { a with objective := value }
  | "seed" => (pyInt value).map fun n => { a with seed := n }
  | "resample" => some { a with resample := pyBool value }
  | "iterations" => (pyInt value).map fun n => { a with iterations := n }
  | "num_targets" => (pyInt value).map fun n => { a with numTargets := n }
  | "sample_budget" => (pyInt value).map fun n => { a with sampleBudget := n }
  | "optimize_path" => some { a with optimizePath := pyBool value }
  | "train_and_test" => some { a with trainAndTest := pyBool value }
  | "smoketest" => some { a with smoketest := pyBool value }
  | _ => none

/-- `parser.parse_args()` on a command line of arguments "--option=value" (experiments/annealing/main.py:137), as pairs of option and
value. `none`: the parser exits (SystemExit). Arguments of another form are not modelled. -/
def parseArgs : Args → List (String × String) → Option Args
  | a, [] => some a
  | a, (o, v) :: opts => (resolve o).bind fun n => (store a n v).bind fun a' => parseArgs a' opts

/-! ### The script -/

/-- What the script does, one step after the other. -/
inductive Step where
  /-- `os.makedirs(dir)` -/
  | makedirs (dir : String)
  /-- raising -/
  | raise (e : Err)
  /-- `torch.manual_seed(seed)` -/
  | seed (s : Int)
  /-- `mk_model(K, optimize_path=…)` -/
  | mkModel (numTargets : Int) (optimizePath : Bool)
  /-- `q = vsmc(*model, objective, resample=…)` -/
  | vsmc (objective : String) (resample : Bool)
  /-- the placeholders `torch.zeros(iterations, K - 1, 1)` -/
  | zeros (iterations steps : Int)
  /-- `nvi_train(q, *model, sample_shape=(samples, batch), iterations=…)` -/
  | train (samples batch : Int) (iterations : Int)
  /-- `torch.save(checkpoint, path)` of `save_models`; the directory exists already. -/
  | saveModel (path : String)
  /-- `torch.load(path)` of `load_models` and giving the models their states -/
  | loadModel (path : String)
  /-- `nvi_test(q, (samples, batch))` -/
  | test (samples batch : Int)
  /-- `torch.save` of the metrics -/
  | saveMetrics (path : String)
  /-- `plot(…, filename=filename)` -/
  | plot (filename : String)
  /-- `print("done!")` -/
  | done
deriving DecidableEq, Repr

/-- `filename` (experiments/annealing/main.py:165-173). -/
def runName (a : Args) : String :=
  "nvi" ++ (if a.resample then "r" else "") ++ (if a.optimizePath then "s" else "") ++ "_" ++ a.objective ++ "_S" ++
    toString a.sampleBudget ++ "_K" ++ toString a.numTargets ++ "_I" ++ toString a.iterations ++ "_seed" ++ toString a.seed

/-- The path `save_nvi_model` writes (experiments/annealing/utils.py:64-72; combinators/utils.py:30-36). -/
def savePath (filename : String) : String := "./weights" ++ "/" ++ (filename ++ ".pt")

/-- The path `load_nvi_model` reads (experiments/annealing/utils.py:75-83; combinators/utils.py:39-42). -/
def loadPath (filename : String) : String := normpath ("./weights" ++ "/" ++ ("./" ++ filename ++ ".pt"))

/-- The name of the file with the metrics of a run (experiments/annealing/main.py:209-211). -/
def metricsName (filename : String) : String :=
  filename ++ "-metric-tuple_S" ++ toString (1000 : Nat) ++ "_B" ++ toString (100 : Nat) ++ "-loss-ess-logZhat.pt"

/-- The names of the loss functions the script knows (experiments/annealing/main.py:153-162); each is its function's `__name__`
(experiments/annealing/objectives.py). -/
def objectives : List String := ["nvo_avo", "nvo_rkl", "nvo_rkl_mod"]

/-- `if not os.path.exists(dir): os.makedirs(dir)` -/
def ensureDir (ex : String → Bool) (dir : String) : List Step := if ex dir then [] else [.makedirs dir]

/-- The steps of the script (experiments/annealing/main.py:139-224), given which directories exist. `S` is the sample budget for the
file name and 288 for training (lines 139, 178). -/
def steps (ex : String → Bool) (a : Args) : List Step :=
  ensureDir ex "./weights/" ++ ensureDir ex "./metrics/" ++
    if a.objective ∈ objectives then
      [.seed a.seed, .mkModel a.numTargets a.optimizePath, .vsmc a.objective a.resample, .zeros a.iterations (a.numTargets - 1)] ++
      (if a.trainAndTest then
        if a.numTargets = 0 then [.raise (.other 3)]
        else [.train (Int.fdiv 288 a.numTargets) 1 a.iterations, .saveModel (savePath (runName a))]
      else [.loadModel (loadPath (runName a))]) ++
      [.vsmc a.objective false] ++
      (if a.smoketest then []
      else
        [.test 1000 100, .saveMetrics ("./metrics/" ++ metricsName (runName a))] ++
        (if a.resample && a.optimizePath && a.numTargets == 8 then ensureDir ex "./figures/" ++ [.plot (runName a)] else [])) ++
      [.done]
    else [.raise .type]

/-- Running steps, each of which may raise: what was done, and the exception that ended it. -/
def runSteps (raises : Step → Option Err) : List Step → List Step × Option Err
  | [] => ([], none)
  | .raise e :: _ => ([], some e)
  | s :: ss =>
    match raises s with
    | some e => ([], some e)
    | none => let r := runSteps raises ss; (s :: r.1, r.2)

/-! ### Reading the names of runs -/

/-- `get_file_prefix` (experiments/annealing/scripts/tabulate_and_plot.py:55-58). -/
def filePrefix (resample optimizePath : Bool) (objective : String) (S K I : Int) : String :=
  "nvi" ++ (if resample then "r" else "") ++ (if optimizePath then "s" else "") ++ "_" ++ objective ++ "_S" ++ toString S ++ "_K" ++
    toString K ++ "_I" ++ toString I

/-- `keyspec` (experiments/annealing/scripts/tabulate_and_plot.py:61-63); the objective is named. -/
structure KeySpec where
  resample : Bool
  optimizePath : Bool
  numTargets : Int
  objective : String
  numIters : Int
  sampleBudget : Int
deriving DecidableEq, Repr

/-- `from_file_prefix(k)` (experiments/annealing/scripts/tabulate_and_plot.py:66-76): ValueError unless there are six parts between
underscores, or if a number is none; IndexError for a part that is too short. -/
def fromPrefix (k : String) : Except Err KeySpec :=
  match pySplit '_' k.toList with
  | [runtype, _, objective, ssamples, kk, iiters] =>
    match runtype.reverse with
    | last :: before :: _ =>
      match kk[1]? with
      | none => .error .index
      | some c =>
        match pyInt (String.ofList [c]), pyInt (String.ofList (iiters.drop 1)), pyInt (String.ofList (ssamples.drop 1)) with
        | some K, some I, some S =>
          .ok { resample := before = 'r' || last = 'r', optimizePath := last = 's', numTargets := K,
                objective := if objective = "avo".toList then "nvo_avo" else "nvo_rkl", numIters := I, sampleBudget := S }
        | _, _, _ => .error .value
    | _ => .error .index
  | _ => .error .value

/-- The files `load_metrics` loads for a prefix, out of a directory's (experiments/annealing/scripts/tabulate_and_plot.py:92-103):
`file.startswith(prefix)`. -/
def metricsOf (pre : String) (files : List String) : List String := files.filter fun f => pre.toList.isPrefixOf f.toList

end Cli
end Verif
