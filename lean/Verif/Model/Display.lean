import Verif.Model.Core
/-
Display and devices: combinators/tensor/utils.py, the `show` functions of combinators/trace/utils.py and `ppr_show` of combinators/utils.py. Strings are lists of
characters.
-/
namespace Verif
namespace Disp

abbrev Str := List Char

/-- What is shown of a tensor: the last part of `str(t.dtype)`, its size, whether it has a `grad_fn`, and the hash of its contents (`_hash`, tensor/utils.py:47-50;
hashing is not modelled). -/
structure Ten where
  dtype : Str
  size : List Nat
  grad : Bool
  hash : Str

/-- Decimal digits of a number. -/
def natStr (n : Nat) : Str := (toString n).toList

/-- `sep.join(xs)`. -/
def join (sep : Str) : List Str → Str
  | [] => []
  | [x] => x
  | x :: y :: xs => x ++ sep ++ join sep (y :: xs)

/-- `prettyshape` (tensor/utils.py:71-72). -/
def prettyshape (size : List Nat) : Str := if size.length = 0 then "[]".toList else "[".toList ++ join "×".toList (size.map natStr) ++ "]".toList

/-- `tensor_utils.show` (tensor/utils.py:75-78) with `thash` (53-68) and its default arguments. -/
def tenShow (t : Ten) : Str := t.dtype ++ prettyshape t.size ++ "#".toList ++ (if t.grad then "∇".toList else " ".toList) ++ t.hash

/-- A parameter of a distribution: `show` rejects what is no tensor (`@typechecked`). -/
def paramShow : Option Ten → Except Err Str
  | some t => .ok (tenShow t)
  | none => .error .type

/-- A distribution: the name of its class and its properties in the order in which Python's set gives them (`distprops`, trace/utils.py:37-43). -/
structure Dst where
  name : Str
  props : List (Str × Option Ten)

/-- A random variable. `logProb` is none if it is no tensor. -/
structure Var where
  value : Ten
  logProb : Option Ten
  dist : Dst

/-- The `p{sep}tensor` of all properties. -/
def propsShow (sep : Str) : List (Str × Option Ten) → Except Err (List Str)
  | [] => .ok []
  | (p, v) :: ps => do
    let s ← paramShow v
    let rest ← propsShow sep ps
    .ok ((p ++ sep ++ s) :: rest)

/-- `showDist` (trace/utils.py:143-147). -/
def showDist (d : Dst) : Except Err Str := do
  let sattrs ← propsShow ":".toList d.props
  .ok (d.name ++ "(".toList ++ join ", ".toList sattrs ++ ")".toList)

/-- Which of `value`, `log_prob` are shown (`args`), and whether the distribution is (`dists`). -/
structure What where
  value : Bool
  logProb : Bool
  dists : Bool
  deriving DecidableEq

/-- `showRV` (trace/utils.py:150-161). -/
def showRV (v : Var) (w : What) : Except Err Str := do
  let a1 := if w.value then ["value=".toList ++ tenShow v.value] else []
  let a2 ← if w.logProb then do let s ← paramShow v.logProb; .ok ["log_prob=".toList ++ s] else .ok []
  if w.dists then do
    let name := v.dist.name ++ "(".toList
    let sattrs ← propsShow "=".toList v.dist.props
    .ok (name ++ join ", ".toList (a1 ++ a2 ++ ["dist=".toList ++ name ++ "(".toList ++ join ", ".toList sattrs ++ ")".toList]))
  else .ok (join ", ".toList (a1 ++ a2))

/-- The options of `showall`. -/
structure Opts where
  delim : Str := "; ".toList
  pretty : Bool := true
  mlen : Nat := 0
  sort : Bool := true

/-- `"{:>mlen}".format(k)`. -/
def padLeft (n : Nat) (k : Str) : Str := List.replicate (n - k.length) ' ' ++ k

/-- Python's order of strings. -/
def strLe : Str → Str → Bool
  | [], _ => true
  | _ :: _, [] => false
  | a :: as, b :: bs => if a.toNat < b.toNat then true else if b.toNat < a.toNat then false else strLe as bs

/-- The `key-➢variable` of all variables. -/
def itemsShow (mlen : Nat) (w : What) : List (Str × Var) → Except Err (List Str)
  | [] => .ok []
  | (k, v) :: xs => do
    let s ← showRV v w
    let rest ← itemsShow mlen w xs
    .ok ((padLeft mlen k ++ "-➢".toList ++ s) :: rest)

/-- `showall` (trace/utils.py:164-191); a trace is its variables in the order in which they were added. `delim[0]` raises IndexError for an empty `delim`. -/
def showall (tr : List (Str × Var)) (o : Opts) (w : What) : Except Err Str :=
  if tr.length = 0 then .ok "Trace{}".toList
  else do
    let mlen := if o.pretty then (tr.map fun kv => kv.1.length).foldl max 0 else o.mlen
    let delim := if o.pretty then "\n,".toList else o.delim
    let items := if o.sort then tr.mergeSort (fun a b => strLe a.1 b.1) else tr
    match delim.head?, delim.getLast? with
    | some a, some b =>
      let pref := if '\n' = a ∨ '\n' = b then delim else []
      let ss ← itemsShow mlen w items
      .ok ("{".toList ++ pref ++ join delim ss ++ "}".toList)
    | _, _ => .error .index

/-- `showvals` (trace/utils.py:194-196): does not pass its options on. -/
def showvals (tr : List (Str × Var)) (_ : Opts) : Except Err Str := showall tr {} ⟨true, false, false⟩

/-- `showprobs` (trace/utils.py:199-201). -/
def showprobs (tr : List (Str × Var)) (_ : Opts) : Except Err Str := showall tr {} ⟨false, true, false⟩

/-- `showdists` (trace/utils.py:204-206). -/
def showdists (tr : List (Str × Var)) (_ : Opts) : Except Err Str := showall tr {} ⟨false, false, true⟩

/-- `trace_utils.show` (trace/utils.py:135-140): passes `fix_width` to `tensor_utils.show`, which has no such parameter. -/
def traceShow : List (Str × Ten) → Except Err Str
  | [] => .ok "{}".toList
  | _ :: _ => .error .type

/-- What `ppr_show` is given. `other` carries its repr. -/
inductive Val where
  | ten (t : Ten)
  | dist (d : Dst)
  | list (xs : List Val)
  | trace (tr : List (Str × Var))
  | rv (v : Var)
  | out (trace : Val)
  | dict (kvs : List (Str × Val))
  | other (repr : Str)

/-- The mode `m` of `ppr_show`: None or a string. -/
abbrev Mode := Option Str

/-- What of a variable a mode shows (combinators/utils.py:91-99). -/
def whatOf : Mode → What
  | none => ⟨false, false, false⟩
  | some m => ⟨m.contains 'v' || m == ['a'], m.contains 'p' || m == ['a'], m.contains 'd' || m == ['a']⟩

/-- The default mode. -/
def dv : Mode := some ['d', 'v']

mutual

/-- `ppr_show` (combinators/utils.py:80-114); `o` are further keyword arguments, all of them options of `showall` (none of `showRV`). `reprDict` is Python's repr of a dict of
strings. -/
def pprShow (reprDict : List (Str × Str) → Str) (a : Val) (m : Mode) (o : Option Opts) : Except Err Str :=
  match a with
  | .ten t => .ok (tenShow t)
  | .dist d => showDist d
  | .list xs => do
    let ss ← pprShowList reprDict xs
    .ok ("[".toList ++ join ", ".toList ss ++ "]".toList)
  | .trace tr => showall tr (o.getD {}) (whatOf m)
  | .rv v => match o with
    | none => showRV v (whatOf m)
    | some _ => .error .type
  | .out tr => pprShow reprDict tr dv none
  | .dict kvs => do
    let ss ← pprShowDict reprDict kvs
    .ok (reprDict ss)
  | .other r => .ok r

/-- `map(ppr_show, a)` (combinators/utils.py:89). -/
def pprShowList (reprDict : List (Str × Str) → Str) : List Val → Except Err (List Str)
  | [] => .ok []
  | x :: xs => do
    let s ← pprShow reprDict x dv none
    let rest ← pprShowList reprDict xs
    .ok (s :: rest)

/-- `{k: ppr_show(v) for k, v in a.items()}` (combinators/utils.py:112). -/
def pprShowDict (reprDict : List (Str × Str) → Str) : List (Str × Val) → Except Err (List (Str × Str))
  | [] => .ok []
  | (k, x) :: xs => do
    let s ← pprShow reprDict x dv none
    let rest ← pprShowDict reprDict xs
    .ok ((k, s) :: rest)

end

/-- What `autodevice` is given. -/
inductive Pref (Dev : Type) where
  | dev (d : Dev)
  | str (s : Str)
  | int (s : Int)
  | none

/-- The machine: `torch.cuda.is_available()`, the environment variable CUDA_VISIBLE_DEVICES, and `torch.device` of a string. -/
structure Machine (Dev : Type) where
  cuda : Bool
  visible : Option Str
  device : Str → Except Err Dev

/-- `autodevice` (tensor/utils.py:25-39). -/
def autodevice {Dev : Type} (M : Machine Dev) : Pref Dev → Except Err Dev
  | .dev d => .ok d
  | .str s => M.device s
  | .int n => if M.cuda = false ∨ M.visible = some [] then M.device "cpu".toList else M.device ("cuda:".toList ++ (toString n).toList)
  | .none => if M.cuda = false ∨ M.visible = some [] then M.device "cpu".toList else M.device "cuda".toList

/-- `kw_autodevice` (tensor/utils.py:42-44): its annotation leaves out devices, and `@typechecked` enforces it. -/
def kwAutodevice {Dev : Type} (M : Machine Dev) : Pref Dev → Except Err Dev
  | .dev _ => .error .type
  | p => autodevice M p

end Disp
end Verif
