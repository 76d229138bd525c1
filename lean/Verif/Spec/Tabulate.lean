import Verif.Model.Tabulate
/-
What the table of the annealing experiment's results should contain (for C95).
-/
namespace Verif
namespace Tabulate

/-- A group of runs that differ in their seeds: with resampling, with an optimised path, with the objective `nvo_avo` (else `nvo_rkl`), and with so many targets. -/
structure Group where
  resample : Bool
  optimizePath : Bool
  avo : Bool
  targets : Nat
deriving DecidableEq

/-- The groups that are tabulated. -/
def groups : List Group := [true, false].flatMap fun r => [true, false].flatMap fun s => [true, false].flatMap fun a => [2, 4, 6, 8].map fun K => ⟨r, s, a, K⟩

/-- What the names of a group's files begin with. -/
def Group.pre (g : Group) : String :=
  (if g.resample then if g.optimizePath then "nvirs" else "nvir" else if g.optimizePath then "nvis" else "nvi") ++ (if g.avo then "_nvo_avo" else "_nvo_rkl") ++ "_S288_K" ++
    toString g.targets ++ "_I20000"

/-- The first column. -/
def Group.label (g : Group) : String :=
  if g.avo then "avo" else if g.resample then if g.optimizePath then "nvirs" else "nvir" else if g.optimizePath then "nvis" else "nvi"

/-- The files whose names begin so. -/
def Group.files (g : Group) (files : List String) : List String := files.filter fun f => g.pre.toList.isPrefixOf f.toList

/-- Of these, the saved models. -/
def Group.models (g : Group) (files : List String) : List String :=
  (g.files files).filter fun f => decide (¬ "metric-tuple".toList <:+: f.toList ∧ "pt".toList <:+ f.toList)

/-- The average. -/
noncomputable def average (xs : List ℝ) : ℝ := xs.sum / xs.length

/-- A row: the group's label, the number of seeds, the number of targets, and the averages of the effective sample size and of the log evidence at the last target. -/
noncomputable def Group.row (showFloat : ℝ → String) (g : Group) (ts : List Stats) : List String :=
  [g.label, toString ts.length, toString g.targets, showFloat (average (ts.map fun t => t.ess.getLastD 0)), showFloat (average (ts.map fun t => t.lZh.getLastD 0))]

/-- Usable tensors: as many numbers everywhere, at least one. -/
def Fit (ts : List Stats) : Prop := ∃ n, 0 < n ∧ ∀ t ∈ ts, t.loss.length = n ∧ t.ess.length = n ∧ t.lZh.length = n

end Tabulate
end Verif
