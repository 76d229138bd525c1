import Mathlib.Data.Real.Basic
import Verif.Model.Cli
/-
The script that tabulates the annealing experiment's results (experiments/annealing/scripts/tabulate_and_plot.py). The names it imports from `main` and
`combinators.objectives` (`nvi_declarative`, `test`, …) do not exist; they are taken to be what they were renamed to (`vsmc`, `nvi_test`, …). Not modelled: the plots,
progress bars, and the output before the table (lines 171-180).
-/
namespace Verif
namespace Tabulate
open Cli

/-- The three tensors of a metrics file (experiments/annealing/main.py:207-212): one number per step. -/
structure Stats where
  loss : List ℝ
  ess : List ℝ
  lZh : List ℝ

/-- The result of `tuple_to_report`. -/
structure Report where
  loss : List ℝ
  ess : List ℝ
  lZh : List ℝ
  numSeeds : Nat

/-- `all_file_prefixes()` (experiments/annealing/scripts/tabulate_and_plot.py:79-89). -/
def prefixes : List String :=
  [true, false].flatMap fun r => [true, false].flatMap fun s => ["nvo_avo", "nvo_rkl"].flatMap fun o => [2, 4, 6, 8].map fun K => filePrefix r s o 288 K 20000

/-- `load_metrics(directory)` (experiments/annealing/scripts/tabulate_and_plot.py:92-103), for a directory with the given files: the dict, as a list in the order in which it
is filled. -/
noncomputable def loadMetrics (files : List String) (load : String → Except Err Stats) : Except Err (List (String × List Stats)) := do
  let all ← prefixes.mapM fun k => do
    let ts ← (metricsOf k files).mapM load
    pure (k, ts)
  pure (all.filter fun p => !p.2.isEmpty)

/-- `torch.stack(ts).mean(0)`: RuntimeError for tensors of different sizes or no tensors at all. -/
noncomputable def stackMean (ts : List (List ℝ)) : Except Err (List ℝ) :=
  match ts with
  | [] => .error .runtime
  | t :: _ =>
    if ∀ u ∈ ts, u.length = t.length then .ok ((List.range t.length).map fun i => (ts.map fun u => u.getD i 0).sum / ts.length)
    else .error .runtime

/-- `tuple_to_report(*zip(*ts))` (experiments/annealing/scripts/tabulate_and_plot.py:106-116): TypeError (three arguments missing) for no tuples. -/
noncomputable def report (ts : List Stats) : Except Err Report :=
  match ts with
  | [] => .error .type
  | _ => do
    let loss ← stackMean (ts.map (·.loss))
    let ess ← stackMean (ts.map (·.ess))
    let lZh ← stackMean (ts.map (·.lZh))
    pure ⟨loss, ess, lZh, ts.length⟩

/-- `runtype, _, objective, ssamples, kk, iiters = k.split("_")`: ValueError unless there are six parts. -/
def parts (k : String) : Except Err (List Char × List Char × List Char) :=
  match pySplit '_' k.toList with
  | [runtype, _, objective, _, kk, _] => .ok (runtype, objective, kk)
  | _ => .error .value

/-- An entry of `resampled` (experiments/annealing/scripts/tabulate_and_plot.py:129-136). -/
structure Resampled where
  key : String
  numTargets : Int
  optimizePath : Bool
  objective : String

/-- The last but one character, the last one: IndexError if there are not two. (Python only raises for one character if the first comparison needs it, which it does.) -/
def lastTwo (runtype : List Char) : Except Err (Char × Char) :=
  match runtype.reverse with
  | last :: before :: _ => .ok (before, last)
  | _ => .error .index

/-- The first loop of `main` (experiments/annealing/scripts/tabulate_and_plot.py:124-138) on one entry: whether it is a run with resampling (an entry of `resampled`), or its
report. -/
noncomputable def classify (k : String) (ts : List Stats) : Except Err (Resampled ⊕ (String × Report)) := do
  let (runtype, objective, kk) ← parts k
  let (before, last) ← lastTwo runtype
  if before = 'r' ∨ last = 'r' then
    match kk[1]? with
    | none => .error .index
    | some c =>
      match pyInt (String.ofList [c]) with
      | none => .error .value
      | some K => pure (.inl ⟨k, K, last = 's', if objective = "nvo".toList then "nvo_avo" else "nvo_rkl"⟩)
  else
    let r ← report ts
    pure (.inr (k, r))

/-- Which files of the weights' directory are loaded for a key (experiments/annealing/scripts/tabulate_and_plot.py:144-145). -/
def weightsOf (k : String) (files : List String) : List String :=
  files.filter fun f => k.toList.isPrefixOf f.toList && !decide ("metric-tuple".toList <:+: f.toList) && "pt".toList.isSuffixOf f.toList

/-- Making and loading the models of a run with resampling (experiments/annealing/scripts/tabulate_and_plot.py:140-152). `mkLoad K optimize_path f` is `mk_model` followed by
`load_models`. -/
def loadRun {M : Type} (files : List String) (mkLoad : Int → Bool → String → Except Err M) (r : Resampled) : Except Err (String × List (String × M × String)) := do
  let ms ← (weightsOf r.key files).mapM fun f => do
    let m ← mkLoad r.numTargets r.optimizePath f
    pure (f, m, r.objective)
  pure (r.key, ms)

/-- Testing them again (experiments/annealing/scripts/tabulate_and_plot.py:153-168), once each, with seed 5; `test m objective` is `rerun_test` after setting the seed. -/
noncomputable def retest {M : Type} (test : M → String → Except Err Stats) (p : String × List (String × M × String)) : Except Err (String × Report) := do
  let ts ← p.2.mapM fun q => test q.2.1 q.2.2
  let r ← report ts
  pure (p.1, r)

/-- `t[-1].item()`. -/
def lastItem (t : List ℝ) : Except Err ℝ :=
  match t.getLast? with
  | none => .error .index
  | some x => .ok x

/-- A row of the table (experiments/annealing/scripts/tabulate_and_plot.py:182-193); `showFloat` is `"{:.4f}".format`. -/
noncomputable def row (showFloat : ℝ → String) (p : String × Report) : Except Err (List String) := do
  let (runtype, objective, kk) ← parts p.1
  match kk[1]? with
  | none => .error .index
  | some c =>
    let ess ← lastItem p.2.ess
    let lZh ← lastItem p.2.lZh
    pure [if objective = "avo".toList then "avo" else String.ofList runtype, toString p.2.numSeeds, String.ofList [c], showFloat ess, showFloat lZh]

def header : List String := ["method", "#", "num_targets", "ess", "lZh"]

/-- The table (experiments/annealing/scripts/tabulate_and_plot.py:119-193). The keys of `all_stats` are different, so the dict is a list. -/
noncomputable def table {M : Type} (showFloat : ℝ → String) (metricFiles weightFiles : List String) (load : String → Except Err Stats)
    (mkLoad : Int → Bool → String → Except Err M) (test : M → String → Except Err Stats) : Except Err (List (List String)) := do
  let stats ← loadMetrics metricFiles load
  let cs ← stats.mapM fun p => classify p.1 p.2
  let plain := cs.filterMap fun c => match c with | .inr p => some p | .inl _ => none
  let resampled := cs.filterMap fun c => match c with | .inl r => some r | .inr _ => none
  let models ← resampled.mapM (loadRun weightFiles mkLoad)
  let again ← models.mapM (retest test)
  let rows ← (plain ++ again).mapM (row showFloat)
  pure (header :: rows)

/-- `("{:>" + str(n) + "}").format(s)`. -/
def rjust (n : Nat) (s : String) : String := String.ofList (List.replicate (n - s.toList.length) ' ') ++ s

/-- The width of column `j`: `max(map(len, col))`. -/
def colMax (rows : List (List String)) (j : Nat) : Nat := (rows.map fun r => (r.getD j "").toList.length).foldl max 0

/-- The text of a row. -/
def rowText (cols : List Nat) (r : List String) : String :=
  ((List.range cols.length).map fun j => (if j = 0 then "" else "| ") ++ rjust (cols.getD j 0) (r.getD j "") ++ " ").foldl (· ++ ·) ""

/-- The loop that prints the rows (experiments/annealing/scripts/tabulate_and_plot.py:200-216); `last` is the first cell of the row before. -/
def printRows (cols : List Nat) : Option String → List (List String) → List String
  | _, [] => []
  | last, r :: rs =>
    let item := rjust (cols.getD 0 0) (r.getD 0 "")
    let line := if last.getD item = item then [] else [String.ofList (List.replicate (cols.sum + cols.length * 3) '-')]
    line ++ rowText cols r :: printRows cols (some item) rs

/-- What is printed for a table (experiments/annealing/scripts/tabulate_and_plot.py:195-216). -/
def printTable (t : List (List String)) : List String := printRows ((List.range 5).map (colMax t)) none t

end Tabulate
end Verif
