import Verif.Model.Core
/-
combinators/utils.py:30-62, saving and loading models.
-/
namespace Verif

/-- The first argument of `models_as_dict`: a list of lists of models, or a dict of lists (a dict value that is not a
list fails the first assertion, combinators/utils.py:49-51). -/
inductive ModelIter (M : Type) where
  | list (ms : List (List M))
  | dict (ms : Dict (Option (List M)))

/-- `f"{str(i)}_{name}_{str(j)}"` (combinators/utils.py:61). -/
def modelKey (i : Nat) (name : String) (j : Nat) : String := toString i ++ "_" ++ name ++ "_" ++ toString j

/-- The inner loop: `for j, m in enumerate(models)`, starting from index `j` (combinators/utils.py:60-61). -/
def addModels {M : Type} (i : Nat) (name : String) : Nat → List M → Dict M → Dict M
  | _, [], d => d
  | j, m :: ms, d => addModels i name (j + 1) ms (d.insert (modelKey i name j) m)

/-- The outer loop: `for i, (name, models) in enumerate(..)`, starting from index `i` (combinators/utils.py:55-61). -/
def addGroups {M : Type} : Nat → List (String × List M) → Dict M → Dict M
  | _, [], d => d
  | i, g :: gs, d => addGroups (i + 1) gs (addModels i g.1 0 g.2 d)

/-- `models_as_dict(model_iter, names)` (combinators/utils.py:47-62). -/
def modelsAsDict {M : Type} (it : ModelIter M) (names : List String) : Except Err (Dict M) :=
  match it with
  | .list ms => if names.length = ms.length then .ok (addGroups 0 (names.zip ms) Dict.empty) else .error .assertion
  | .dict d =>
    if d.entries.any (fun e => e.2.isNone) then .error .assertion
    else if names.length = d.entries.length then
      .ok (addGroups 0 (d.entries.map fun e => (e.1, e.2.getD [])) Dict.empty)
    else .error .assertion

/-- `save_models`: the checkpoint written to the file (combinators/utils.py:30-36). `state` is `v.state_dict()`. The file
system is not modelled: what is written is what is read. -/
def saveModels {M S : Type} (state : M → S) (models : Dict M) : Dict S := models.mapVal state

/-- `load_models`: the models in the order visited, each with the state it is given (combinators/utils.py:39-44).
`checkpoint[k]` raises KeyError. -/
def loadModels {M S : Type} (models : Dict M) (checkpoint : Dict S) : Except Err (List (M × S)) :=
  models.entries.mapM fun e =>
    match checkpoint.get? e.1 with
    | some s => .ok (e.2, s)
    | none => .error .key

end Verif
