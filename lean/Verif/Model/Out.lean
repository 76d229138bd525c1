import Verif.Model.Core
/-
combinators/out.py:20-45,137-167: PropertyDict and Out as Python objects. (The combinators' use of Out is in Inference.lean.)
-/
namespace Verif

/-- The attributes that every `PropertyDict` has from its class: `dir(dict)` and what a class statement adds. The instance
`__dict__` stays empty, because `__setattr__` stores items (combinators/out.py:29-30). -/
def dictAttrs : List String :=
  ["clear", "copy", "fromkeys", "get", "items", "keys", "pop", "popitem", "setdefault", "update", "values",
   "__class__", "__class_getitem__", "__contains__", "__delattr__", "__delitem__", "__dict__", "__dir__", "__doc__",
   "__eq__", "__format__", "__ge__", "__getattr__", "__getattribute__", "__getitem__", "__getstate__", "__gt__",
   "__hash__", "__init__", "__init_subclass__", "__ior__", "__iter__", "__le__", "__len__", "__lt__", "__module__",
   "__ne__", "__new__", "__or__", "__reduce__", "__reduce_ex__", "__repr__", "__reversed__", "__ror__", "__setattr__",
   "__setitem__", "__sizeof__", "__str__", "__subclasshook__", "__weakref__"]

/-- What reading an attribute gives: something of the class (a method), or an item. -/
inductive AttrVal (α : Type) where
  | ofClass (name : String)
  | item (a : α)

namespace PDict
variable {α : Type}

/-- `d[name]` -/
def getItem (d : Dict α) (name : String) : Except Err α :=
  match d.get? name with
  | some a => .ok a
  | none => .error .key

/-- `d.name`: the class first, then `__getattr__` (combinators/out.py:23-27). -/
def getAttr (d : Dict α) (name : String) : Except Err (AttrVal α) :=
  if dictAttrs.contains name then .ok (.ofClass name)
  else match d.get? name with
    | some a => .ok (.item a)
    | none => .error .attribute

/-- `hasattr(d, name)` -/
def hasAttr (d : Dict α) (name : String) : Bool :=
  match getAttr d name with
  | .ok _ => true
  | .error _ => false

/-- `d.name = a` (combinators/out.py:29-30). -/
def setAttr (d : Dict α) (name : String) (a : α) : Dict α := d.insert name a

/-- `del d.name` (combinators/out.py:32-36). -/
def delAttr (d : Dict α) (name : String) : Except Err (Dict α) :=
  if d.contains name then .ok (d.erase name) else .error .attribute

end PDict

/-- A value as `show_nest` sees it: a PropertyDict with its items, or anything else. -/
inductive PVal where
  | other
  | pd (items : List (String × PVal))

mutual
/-- `show_nest` (combinators/out.py:42-85), which is `repr` of a PropertyDict: `max(map(len, p.keys()))` raises ValueError
for an empty one; it calls itself for the items that are PropertyDicts. Everything else is string formatting and stands for
`.ok`. -/
def PVal.showNest : PVal → Except Err Unit
  | .other => .ok ()
  | .pd items => if items.isEmpty then .error .value else showItems items
/-- The calls for the nested items (combinators/out.py:73-83). -/
def PVal.showItems : List (String × PVal) → Except Err Unit
  | [] => .ok ()
  | e :: l =>
    match e.2.showNest with
    | .error x => .error x
    | .ok () => showItems l
end

/-- `Out.__init__` (combinators/out.py:146-157). -/
def pyOut {α : Type} (trace logWeight output : α) (extras : Dict α) : Dict α :=
  let d := PDict.setAttr Dict.empty "trace" trace
  let d := PDict.setAttr d "log_weight" logWeight
  let d := PDict.setAttr d "output" output
  extras.entries.foldl (fun d e => d.insert e.1 e.2) d

/-- One pass of the loop over `optionals` (combinators/out.py:161-164). -/
def iterStep {α : Type} (d : Dict α) (extras : Dict (AttrVal α)) (o : String) : Except Err (Dict (AttrVal α)) :=
  if PDict.hasAttr d o then
    match PDict.getAttr d o with
    | .ok a => .ok (extras.insert o a)
    | .error e => .error e
  else .ok extras

/-- `list(iter(out))` (combinators/out.py:159-167): three attributes, and the dict of optional entries. -/
def iterOut {α : Type} (d : Dict α) : Except Err (List (AttrVal α) × Dict (AttrVal α)) := do
  let extras ← ["ix", "program", "kernel", "proposal"].foldlM (iterStep d) Dict.empty
  let t ← PDict.getAttr d "trace"
  let w ← PDict.getAttr d "log_weight"
  let o ← PDict.getAttr d "output"
  return ([t, w, o], extras)

end Verif
