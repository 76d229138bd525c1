import Verif.Model.Core
/-
experiments/apgs/utils.py:52-62, the names of the latent variables.
-/
namespace Verif

/-- `f"z_where_{t}_{sweep}"` -/
def zWhereName (t sweep : Int) : String := "z_where_" ++ toString t ++ "_" ++ toString sweep

/-- `f"z_what_{sweep}"` -/
def zWhatName (sweep : Int) : String := "z_what_" ++ toString sweep

/-- `key.z_where(t, sweep)` with the default `None`s (experiments/apgs/utils.py:53-56). -/
def zWhereKey (t sweep : Option Int) : Except Err String :=
  match t, sweep with
  | some t, some s => .ok (zWhereName t s)
  | _, _ => .error .assertion

/-- `key.z_what(sweep)` (experiments/apgs/utils.py:58-61). -/
def zWhatKey (sweep : Option Int) : Except Err String :=
  match sweep with
  | some s => .ok (zWhatName s)
  | none => .error .assertion

end Verif
