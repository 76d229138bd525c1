import Verif.Model.Comp
/-
combinators/out.py:88-134, the global store.
-/
namespace Verif

/-- The five hooks (combinators/out.py:101-107). A hook receives the store; it may raise and it may change the stored
data. Simplified: it changes the data directly (not through `__setitem__`) and does not install hooks. A hook's return
value `PyVal.none` is Python's `None`. -/
structure Hooks (L : Lang) where
  preGet : Dict (PyVal L) → String → Except Err Unit × Dict (PyVal L)
  postGet : Dict (PyVal L) → String → PyVal L → Except Err (PyVal L) × Dict (PyVal L)
  preSet : Dict (PyVal L) → String → PyVal L → Except Err Unit × Dict (PyVal L)
  postSet : Dict (PyVal L) → String → PyVal L → Except Err Unit × Dict (PyVal L)
  resampleUpdate : Dict (PyVal L) → Trace L → Trace L → Except Err Unit × Dict (PyVal L)

/-- combinators/out.py:98-107 -/
def Hooks.noop {L : Lang} : Hooks L where
  preGet s _ := (.ok (), s)
  postGet s _ _ := (.ok .none, s)
  preSet s _ _ := (.ok (), s)
  postSet s _ _ := (.ok (), s)
  resampleUpdate s _ _ := (.ok (), s)

/-- `GlobalStore` (combinators/out.py:88-107): a dict with hooks. -/
structure Store (L : Lang) where
  data : Dict (PyVal L)
  hooks : Hooks L

namespace Store
variable {L : Lang}

/-- `GlobalStore()` (combinators/out.py:95-107). -/
def init : Store L := { data := Dict.empty, hooks := Hooks.noop }

/-- `__getitem__` (combinators/out.py:109-113). -/
def getItem (s : Store L) (k : String) : Except Err (PyVal L) × Store L :=
  match s.hooks.preGet s.data k with
  | (.error e, d) => (.error e, { s with data := d })
  | (.ok (), d) =>
    match d.get? k with
    | none => (.error .key, { s with data := d })
    | some v =>
      match s.hooks.postGet d k v with
      | (.error e, d') => (.error e, { s with data := d' })
      | (.ok .none, d') => (.ok v, { s with data := d' })
      | (.ok o, d') => (.ok o, { s with data := d' })

/-- `__setitem__` (combinators/out.py:120-124). -/
def setItem (s : Store L) (k : String) (v : PyVal L) : Except Err Unit × Store L :=
  match s.hooks.preSet s.data k v with
  | (.error e, d) => (.error e, { s with data := d })
  | (.ok (), d) =>
    match s.hooks.postSet (d.insert k v) k v with
    | (.error e, d') => (.error e, { s with data := d' })
    | (.ok (), d') => (.ok (), { s with data := d' })

/-- `resample_update` (combinators/out.py:126-128). -/
def resampleUpdate (s : Store L) (t r : Trace L) : Except Err Unit × Store L :=
  match s.hooks.resampleUpdate s.data t r with
  | (x, d) => (x, { s with data := d })

/-- An argument of `set_hook`: the hook's name and the function (combinators/out.py:89-92,115-118). -/
inductive HookArg (L : Lang) where
  | preGet (f : Dict (PyVal L) → String → Except Err Unit × Dict (PyVal L))
  | postGet (f : Dict (PyVal L) → String → PyVal L → Except Err (PyVal L) × Dict (PyVal L))
  | preSet (f : Dict (PyVal L) → String → PyVal L → Except Err Unit × Dict (PyVal L))
  | postSet (f : Dict (PyVal L) → String → PyVal L → Except Err Unit × Dict (PyVal L))
  | resampleUpdate (f : Dict (PyVal L) → Trace L → Trace L → Except Err Unit × Dict (PyVal L))
  | unknown (name : String)

/-- `set_hook` (combinators/out.py:115-118). -/
def setHook (s : Store L) : HookArg L → Except Err Unit × Store L
  | .preGet f => (.ok (), { s with hooks := { s.hooks with preGet := f } })
  | .postGet f => (.ok (), { s with hooks := { s.hooks with postGet := f } })
  | .preSet f => (.ok (), { s with hooks := { s.hooks with preSet := f } })
  | .postSet f => (.ok (), { s with hooks := { s.hooks with postSet := f } })
  | .resampleUpdate f => (.ok (), { s with hooks := { s.hooks with resampleUpdate := f } })
  | .unknown _ => (.error .assertion, s)

end Store

/-- Identity of a Python object that carries a `_cond_trace` attribute. -/
abbrev ObjId := Nat

/-- The mutable state: every object's `_cond_trace` attribute (combinators/program.py:30,43,46) and the global store
(combinators/out.py:134). -/
structure World (L : Lang) where
  cond : ObjId → Option (Trace L)
  store : Store L

/-- Assign an object's `_cond_trace`. -/
def World.setCond {L : Lang} (w : World L) (i : ObjId) (t : Option (Trace L)) : World L :=
  { w with cond := fun j => if j = i then t else w.cond j }

/-- Python statements: they change the world, draw, and return or raise. -/
def Exec (L : Lang) (α : Type) := World L → Comp L (Except Err α × World L)

namespace Exec
variable {L : Lang} {α β : Type}

def pure (a : α) : Exec L α := fun w => .ret (.ok a, w)

def bind (m : Exec L α) (f : α → Exec L β) : Exec L β := fun w =>
  (m w).bind fun
    | (.ok a, w') => f a w'
    | (.error e, w') => .ret (.error e, w')

instance : Monad (Exec L) where
  pure := Exec.pure
  bind := Exec.bind

/-- `raise`. -/
def throw (e : Err) : Exec L α := fun w => .ret (.error e, w)

/-- A pure function that may raise. -/
def lift (x : Except Err α) : Exec L α := fun w => .ret (x, w)

/-- `assert b` -/
def assert (b : Bool) : Exec L Unit := if b then Exec.pure () else throw .assertion

/-- A computation that only draws (and may raise). -/
def liftComp (m : Comp L (Except Err α)) : Exec L α := fun w => m.bind (fun r => .ret (r, w))

/-- Read an object's `_cond_trace`. -/
def getCond (i : ObjId) : Exec L (Option (Trace L)) := fun w => .ret (.ok (w.cond i), w)

/-- A store operation. -/
def onStore (f : Store L → Except Err α × Store L) : Exec L α := fun w =>
  .ret ((f w.store).1, { w with store := (f w.store).2 })

/-- `with WithSubstitution(obj, t): body` (combinators/program.py:33-46): `__init__` copies the trace, `__enter__`
assigns it, `__exit__` assigns `None` whether or not the body raised. -/
def withSub (i : ObjId) (t : Option (Trace L)) (body : Exec L α) : Exec L α := fun w =>
  match t with
  | none => (body (w.setCond i none)).bind fun (r, w') => .ret (r, w'.setCond i none)
  | some t =>
    match copytrace1 t with
    | .error e => .ret (.error e, w)
    | .ok t' => (body (w.setCond i (some t'))).bind fun (r, w') => .ret (r, w'.setCond i none)

/-- `Runs m w r w'`: for some draws, running `m` in world `w` ends with result `r` and world `w'`. -/
def Runs (m : Exec L α) (w : World L) (r : Except Err α) (w' : World L) : Prop := (m w).Ret (r, w')

end Exec
end Verif
