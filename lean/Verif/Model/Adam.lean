import Verif.Model.Store
import Mathlib.Data.List.Dedup
/-
combinators/utils.py: adam, and the modules that the experiments give it.
-/
namespace Verif

/-- An `nn.Module`: the identities of its own parameters, and its registered submodules. An attribute registers if its value is a Parameter
or a Module; other tensors, lists, functions and the combinators (`Inf` is no Module) do not. -/
inductive Mod where
  | mk (own : List Nat) (kids : List Mod)

mutual
/-- All parameters below a module, own ones first, in the order of registration. -/
def Mod.flat : Mod → List Nat
  | .mk own kids => own ++ Mod.flats kids
def Mod.flats : List Mod → List Nat
  | [] => []
  | m :: ms => m.flat ++ Mod.flats ms
end

/-- `list(m.parameters())`: each parameter once, where it first occurs. -/
def Mod.parameters (m : Mod) : List Nat := m.flat.reverse.dedup.reverse

/-- What a caller may put into the list or dict for `adam`. -/
inductive Trainable where
  | module (m : Mod)
  /-- an object without `.parameters()`, such as a combinator -/
  | other

/-- `x.parameters()` -/
def Trainable.parameters : Trainable → Except Err (List Nat)
  | .module m => .ok m.parameters
  | .other => .error .attribute

/-- `Optimizer.add_param_group` for each group in turn (torch): ValueError for a parameter that an earlier group has. -/
def addParamGroups : List (List Nat) → List (List Nat) → Except Err (List (List Nat))
  | acc, [] => .ok acc
  | acc, g :: gs => if g.any fun p => acc.any fun h => h.contains p then .error .value else addParamGroups (acc ++ [g]) gs

/-- `adam(models)` as its parameter groups (combinators/utils.py:65-68): the list of groups is complete before the optimiser looks at it; without any
group it raises ValueError. Options such as the learning rate are not modelled. -/
def adam (models : List Trainable) : Except Err (List (List Nat)) :=
  match models.mapM Trainable.parameters with
  | .error e => .error e
  | .ok [] => .error .value
  | .ok gs => addParamGroups [] gs

/-- `nn.Linear`: a new weight and a new bias. -/
def linearMod (n : Nat) : Mod := .mk [n, n + 1] []

/-- `nn.ReLU`, `nn.Tanh`, `nn.Sigmoid`: no parameters. -/
def actMod : Mod := .mk [] []

/-- `nn.Sequential` -/
def seqMod (ms : List Mod) : Mod := .mk [] ms

/-- `ResMLPJ(...)` (experiments/annealing/models.py:44-48); `initialize_` changes values in place and no identity. -/
def resMLPJMod (n : Nat) : Mod := .mk [] [seqMod [linearMod n, actMod], seqMod [linearMod (n + 2)], seqMod [linearMod (n + 4)]]

/-- `ConditionalMultivariateNormal(..., net=ResMLPJ(...))` (experiments/annealing/models.py:142-150): `cov_emb` is a tensor. -/
def kernelMod (n : Nat) : Mod := .mk [] [resMLPJMod n]

/-- `Tempered(name, d1, d2, beta, optimize)` (experiments/annealing/models.py:182-188): the logit is a Parameter if it is optimised; both densities
are registered. -/
def temperedMod (optimize : Bool) (n : Nat) (d1 d2 : Mod) : Mod := .mk (if optimize then [n] else []) [d1, d2]

/-- The path of `anneal_between(left, right, total, optimize_path)` as modules, for `total ≥ 2` (experiments/annealing/models.py:253-262, see `annealBetween`
in `Model/Path` for when it raises). The logits are the parameters `n`, `n + 1`, … -/
def pathMods (left right : Mod) (total : Nat) (optimize : Bool) (n : Nat) : List Mod :=
  [left] ++ (List.range (total - 2)).map (fun k => temperedMod optimize (n + k) left right) ++ [right]

/-- `FixedMultivariateNormal`, `RingGMM`: tensors and distributions, no Parameters (experiments/annealing/models.py:117-124,205-213). -/
def fixedMod : Mod := .mk [] []

/-- `[*targets, *forwards, *reverses]` of `paper_model(num_targets, optimize_path)` (experiments/annealing/models.py:265-295, main.py:53). -/
def paperMods (num : Nat) (optimize : Bool) : List Mod :=
  pathMods fixedMod fixedMod num optimize 0 ++ (List.range (num - 1)).map (fun k => kernelMod (num + 6 * k)) ++
    (List.range (num - 1)).map (fun k => kernelMod (num + 6 * (num - 1) + 6 * k))

/-- `DecoderFull(...)` (experiments/apgs/models.py:267-284): the priors are tensors, `AT` is no Module. -/
def decoderMod (n : Nat) : Mod :=
  .mk [] [seqMod [linearMod n, actMod, linearMod (n + 2), actMod, linearMod (n + 4), actMod]]

/-- `Enc_coor(...)` (experiments/apgs/models.py:93-113): `get_dec` is a function, which does not register the decoder. -/
def encCoorMod (n : Nat) (_dec : Mod) : Mod :=
  .mk [] [seqMod [linearMod n, actMod], seqMod [linearMod (n + 2), actMod, linearMod (n + 4), actMod],
    seqMod [linearMod (n + 6), actMod, linearMod (n + 8)]]

/-- `Enc_digit(...)` (experiments/apgs/models.py:209-223). -/
def encDigitMod (n : Nat) : Mod :=
  .mk [] [seqMod [linearMod n, actMod, linearMod (n + 2), actMod], seqMod [linearMod (n + 4)], seqMod [linearMod (n + 6)]]

/-- `init_models(...).values()`; the parameters are created in this order, the first is `n` (experiments/apgs/models.py:40-74). -/
def apgMods (n : Nat) : List Mod := [decoderMod n, encCoorMod (n + 6) (decoderMod n), encDigitMod (n + 16)]

end Verif
