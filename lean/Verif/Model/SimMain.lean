import Verif.Model.Cli
import Verif.Model.ApgTrain
import Verif.Model.Simulator
/-
experiments/apgs/dataset/simulator.py:174-220,239-283: the script, its arguments and the files it reads and writes.
-/
namespace Verif
namespace SimMain
open Cli (pyInt pySplit)

/-! ### Files -/

/-- A path as its components from the root. -/
abbrev Path := List String

/-- What a file holds: a saved tensor, with its shape, or something else. -/
inductive File where
  | tensor (shape : List Nat)
  | other
deriving DecidableEq

/-- Directories and files. Links and permissions are not modelled. -/
structure Fs where
  dirs : List Path
  files : List (Path × File)

/-- The path of a name relative to the working directory: empty components and "." are dropped. ".." and a leading "/" are not
modelled. -/
def resolve (cwd : Path) (s : String) : Path :=
  cwd ++ ((pySplit '/' s.toList).filter fun p => !(p = [] || p = ['.'])).map String.ofList

/-- `torch.load(path)`: the shape; FileNotFoundError (`Err.other 4`) without such a file. -/
def Fs.load (fs : Fs) (p : Path) : Except Err (List Nat) :=
  match fs.files.find? fun f => f.1 = p with
  | none => .error (.other 4)
  | some (_, .tensor s) => .ok s
  | some (_, .other) => .error (.other 5)

/-- `torch.save(t, path)`: RuntimeError if the directory does not exist; an existing file is replaced. -/
def Fs.save (fs : Fs) (p : Path) (shape : List Nat) : Except Err Fs :=
  if p.dropLast ∈ fs.dirs then .ok { fs with files := (fs.files.filter fun f => f.1 ≠ p) ++ [(p, .tensor shape)] } else .error .runtime

/-- The names of the files in a directory. -/
def Fs.names (fs : Fs) (dir : Path) : List String :=
  fs.files.filterMap fun f => if f.1.dropLast = dir then f.1.getLast? else none

/-- `os.listdir(dir)`: FileNotFoundError without the directory. Its order is arbitrary in Python, and it lists subdirectories as well;
these are left out, as none is called "… .png" or "… .pt". -/
def Fs.listdir (fs : Fs) (dir : Path) : Except Err (List String) :=
  if dir ∈ fs.dirs then .ok (fs.names dir) else .error (.other 4)

/-- `if not os.path.exists(PATH): os.makedirs(PATH)` (simulator.py:183-184), where no file has the name of the directory. -/
def Fs.makedirs (fs : Fs) (dir : Path) : Fs :=
  if dir ∈ fs.dirs then fs else { fs with dirs := fs.dirs ++ dir.inits }

/-! ### The command line -/

/-- `args` (simulator.py:242-267). `F` are the floating point numbers. -/
structure Args (F : Type) where
  numInstances : Int
  savingPath : String
  timesteps : Int
  numObjects : Int
  dv : F
  frameSize : Int
  shapeSize : Int
  paddingSize : Int
  blacklistShapes : String
  shapeDir : String
  chunkSize : Int
deriving DecidableEq

/-- The options' defaults (simulator.py:243-266); `dv` is 0.1. -/
def defaults {F : Type} (dv : F) : Args F :=
  { numInstances := 10000, savingPath := "video/", timesteps := 10, numObjects := 3, dv := dv, frameSize := 96, shapeSize := 20,
    paddingSize := 4, blacklistShapes := "[]", shapeDir := "shapes/", chunkSize := 1000 }

/-- The options of the parser, "--help" included. -/
def optionNames : List String :=
  ["help", "num_instances", "saving_path", "timesteps", "num_objects", "dv", "frame_size", "shape_size", "padding_size",
    "blacklist_shapes", "shape_dir", "chunk_size"]

/-- argparse: an option is given by its name or by the beginning of the name of exactly one option; `none`: the parser exits. -/
def resolveOption (o : String) : Option String :=
  if o ∈ optionNames then some o
  else
    match optionNames.filter fun n => o.toList.isPrefixOf n.toList with
    | [n] => some n
    | _ => none

variable {F : Type} (float : String → Option F)

/-- Storing one value, converted by the option's `type` (simulator.py:243-266); `float` is a parameter. `none`: the parser exits. -/
def store (a : Args F) (name value : String) : Option (Args F) :=
  match name with
  | "num_instances" => (pyInt value).map fun n => { a with numInstances := n }
  | "saving_path" => some { a with savingPath := value }
  | "timesteps" => (pyInt value).map fun n => { a with timesteps := n }
  | "num_objects" => (pyInt value).map fun n => { a with numObjects := n }
  | "dv" => (float value).map fun x => { a with dv := x }
  | "frame_size" => (pyInt value).map fun n => { a with frameSize := n }
  | "shape_size" => (pyInt value).map fun n => { a with shapeSize := n }
  | "padding_size" => (pyInt value).map fun n => { a with paddingSize := n }
  | "blacklist_shapes" => some { a with blacklistShapes := value }
  | "shape_dir" => some { a with shapeDir := value }
  | "chunk_size" => (pyInt value).map fun n => { a with chunkSize := n }
  | _ => none

/-- `parser.parse_args()` on arguments "--option=value" (simulator.py:267). -/
def parseArgs : Args F → List (String × String) → Option (Args F)
  | a, [] => some a
  | a, (o, v) :: opts => (resolveOption o).bind fun n => (store float a n v).bind fun a' => parseArgs a' opts

/-! ### The script -/

/-- The side of a loaded shape (simulator.py:73-83): padded only with a positive padding. `shape_size` is positive. -/
def side (a : Args F) : Nat := (if 0 < a.paddingSize then a.shapeSize + 2 * a.paddingSize else a.shapeSize).toNat

/-- The exception of `sim_one_sequence`, if any, with the given number of shapes, in the order of the checks: the rejection loop
(simulator.py:122-131; with one or two objects it raises as soon as it does not reject, see C49), `sim_trajectory` (lines 95-97),
`objects[k]` (line 151, see C101). `frame_size` is positive. -/
def sequenceRaises (a : Args F) (shapes : Nat) : Option Err :=
  if a.numObjects < 0 then some .runtime
  else if a.numObjects < 3 then some .index
  else if a.timesteps < 0 then some .runtime
  else if a.timesteps = 0 then some .index
  else if (shapes : Int) < a.numObjects then some .index
  else none

/-- Saving the chunks one after the other (simulator.py:203-208). -/
def saveChunks (a : Args F) (cwd : Path) : List Chunk → Fs → Fs × Except Err Unit
  | [], fs => (fs, .ok ())
  | c :: cs, fs =>
    match fs.save (resolve cwd (a.savingPath ++ chunkFile a.timesteps.toNat a.numObjects.toNat c.counter))
        [c.size.toNat, a.timesteps.toNat, a.frameSize.toNat, a.frameSize.toNat] with
    | .error e => (fs, .error e)
    | .ok fs' => saveChunks a cwd cs fs'

/-- `sim_save_data` with `load_resize_shapes` (simulator.py:61-86,174-220): the files afterwards, and the exception, if any. Reading the
images is assumed to succeed. -/
def saveData (a : Args F) (blacklist : List String) (cwd : Path) (fs : Fs) : Fs × Except Err Unit :=
  match fs.listdir (resolve cwd a.shapeDir) with
  | .error e => (fs, .error e)
  | .ok files =>
    let paths := (files.filter fun f => pyEndsWith f ".png").filter fun f => !blacklist.contains f
    if paths.isEmpty then (fs, .error .value)
    else
      match fs.save (resolve cwd "mean_shape.pt") [side a, side a] with
      | .error e => (fs, .error e)
      | .ok fs =>
        let fs := fs.makedirs (resolve cwd a.savingPath)
        match sequenceRaises a paths.length with
        | some e => if 0 < a.numInstances ∧ 0 < a.chunkSize then (fs, .error e) else (fs, (simSaveData a.chunkSize a.numInstances).2)
        | none =>
          match saveChunks a cwd (simSaveData a.chunkSize a.numInstances).1 fs with
          | (fs, .error e) => (fs, .error e)
          | (fs, .ok ()) => (fs, (simSaveData a.chunkSize a.numInstances).2)

/-- The script after parsing (simulator.py:268-283). `eval` is Python's, on the blacklist. -/
def script (eval : String → Except Err (List String)) (a : Args F) (cwd : Path) (fs : Fs) : Fs × Except Err Unit :=
  match eval a.blacklistShapes with
  | .error e => (fs, .error e)
  | .ok blacklist => saveData a blacklist cwd fs

end SimMain
end Verif
