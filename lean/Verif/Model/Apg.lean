import Verif.Model.Inference
import Verif.Model.ApgKeys
/-
The amortized Gibbs sampler: experiments/apgs/gibbs.py, the programs of experiments/apgs/models.py, the store hooks of
experiments/apgs/utils.py and the losses of experiments/apgs/objectives.py.

Simplified: the networks, affine transformations and tensor reshapings are functions without errors (shapes are assumed to fit);
a weak reference in the store never dies (every value read through it is held by the current trace).
-/
namespace Verif
variable {L : Lang}

/-- One turn of `_resample_hook` (experiments/apgs/utils.py:26-33). `same` is Python's `is` on tensors. -/
def resampleHookStep (same : L.V → L.V → Bool) (tr retr : Trace L) (d : Dict (PyVal L)) (k : String) : Dict (PyVal L) :=
  match d.get? k, retr.get? k, tr.get? k with
  | some (.weakref v), some rv', some rv => if same v rv.value then d.insert k (.weakref rv'.value) else d
  | _, _, _ => d

/-- `_resample_hook` (experiments/apgs/utils.py:25-33). The assignment passes the PreSet hook, since it stores a weak reference. -/
def resampleHook (same : L.V → L.V → Bool) (d : Dict (PyVal L)) (tr retr : Trace L) : Except Err Unit × Dict (PyVal L) :=
  (.ok (), tr.keys.foldl (resampleHookStep same tr retr) d)

/-- `_pre_set_hook` (experiments/apgs/utils.py:39-40). -/
def preSetHook (d : Dict (PyVal L)) (_k : String) (v : PyVal L) : Except Err Unit × Dict (PyVal L) :=
  match v with
  | .weakref _ => (.ok (), d)
  | _ => (.error .assertion, d)

/-- The hooks after importing experiments/apgs/utils.py (lines 36 and 43). -/
def apgHooks (same : L.V → L.V → Bool) : Hooks L := { Hooks.noop with preSet := preSetHook, resampleUpdate := resampleHook same }

/-- `apg_ix` (experiments/apgs/utils.py:66): a named tuple. -/
structure ApgIx where
  t : Int
  sweep : Int
  dir : String

def ApgIx.toPy (ix : ApgIx) : PyVal L := .tuple [.int ix.t, .int ix.sweep, .str ix.dir]

/-- The argument `ix` of a program: TypeError when missing, AttributeError when it is not an `apg_ix` (in the code after `frames` has been read,
here before). -/
def ixOf (kwargs : List (String × PyVal L)) : Except Err ApgIx :=
  match getL kwargs "ix" with
  | some (.tuple [.int t, .int s, .str dir]) => .ok ⟨t, s, dir⟩
  | some _ => .error .attribute
  | none => .error .type

/-- `check_dir`, `is_forward` (experiments/apgs/utils.py:69-76). -/
def isForward (ix : ApgIx) : Except Err Bool :=
  if ix.dir = "forward" then .ok true else if ix.dir = "reverse" then .ok false else .error .value

/-- `c[k]` for a dictionary `c` of tensors. -/
def item (c : PyVal L) (k : String) : Except Err L.V :=
  match c with
  | .dict kvs =>
    match getL kvs k with
    | some (.tensor v) => .ok v
    | some _ => .error .attribute
    | none => .error .key
  | _ => .error .type

/-- `global_store[k]()`: only a weak reference can be called. -/
def deref (v : PyVal L) : Except Err L.V :=
  match v with
  | .weakref v => .ok v
  | _ => .error .type

/-- `trace[k].value`. -/
def traceValue (t : Trace L) (k : String) : Except Err L.V :=
  match t.get? k with
  | some rv => .ok rv.value
  | none => .error .key

/-- Continue a model with a value that may be missing. -/
def andThen {α : Type} (x : Except Err α) (k : α → MTree L) : MTree L :=
  match x with
  | .ok a => k a
  | .error e => .raise e

/-- What the programs compute with networks and tensors.
* `objects` is `num_objects`; `timesteps frames` is `frames.shape[2]`;
* `coorStep frames t what zs` is the distribution of the next object's position, given the appearance `what` (`none`: the mean
  shape) and the positions `zs` of the objects before (experiments/apgs/models.py:136-170);
* `stack zs` is `z_where_t` after the loop, `slice z k` is `z[:, :, k, :]`;
* `coorDist frames t what zs` is Normal(q_mean, q_std) (lines 128-131,148-151,178-185,194-199);
* `digitDist frames zs` is Normal(q_mu, q_std) of lines 236-246;
* `where0`, `whereT loc`, `what` are the priors of lines 276-280,313-343,356-361; `recon zs what` is the Bernoulli of lines 379-390. -/
structure ApgNet (L : Lang) where
  objects : Nat
  timesteps : L.V → Nat
  coorStep : L.V → Int → Option L.V → List L.V → L.D
  stack : List L.V → L.V
  slice : L.V → Nat → L.V
  coorDist : L.V → Int → Option L.V → List L.V → L.D
  digitDist : L.V → List L.V → L.D
  where0 : L.D
  whereT : L.V → L.D
  what : L.D
  recon : List L.V → L.V → L.D
  reparam : Bool

/-- `Noop` (experiments/apgs/gibbs.py:20-27). -/
def noopProg : ProgSpec L :=
  { name := "Noop", sig := { args := ["self", "trace", "c"], varargs := false, kwonly := [], varkw := false },
    debugAttr := none, model := fun c _ => .ret c }

/-- The loop over the objects, run forward (experiments/apgs/models.py:136,152-155): `n` objects left. -/
def coorForward (N : ApgNet L) (frames : L.V) (t : Int) (what : Option L.V) : Nat → List L.V → (List L.V → MTree L) → MTree L
  | 0, zs, k => k zs
  | n + 1, zs, k => .sampleFree (N.coorStep frames t what zs) false fun z => coorForward N frames t what n (zs ++ [z]) k

/-- The loop over the objects, run in reverse (experiments/apgs/models.py:136,156-160): the positions come from the conditioning
trace. Without objects it is not read. -/
def coorReverse (N : ApgNet L) (name : String) (k : List L.V → MTree L) : MTree L :=
  if N.objects = 0 then k []
  else .getCond fun cond =>
    match cond with
    | none => .raise .type
    | some c => andThen (traceValue c name) fun v => k ((List.range N.objects).map (N.slice v))

/-- The end of `Enc_coor.model`, forward (experiments/apgs/models.py:174-192). -/
def coorForwardEnd (N : ApgNet L) (c : PyVal L) (ix : ApgIx) (frames : L.V) (what : Option L.V) (zs : List L.V) : MTree L :=
  .variable (zWhereName ix.t ix.sweep) (N.coorDist frames ix.t what zs) (some (N.stack zs)) (some .sampled) N.reparam fun z =>
    .storeSet (zWhereName ix.t ix.sweep) (.weakref z)
      (.ret (if ix.sweep = 0 then
        match c with
        | .dict kvs => .dict (insertL kvs (zWhereName ix.t ix.sweep) (.tensor z))
        | c => c
      else c))

/-- The end of `Enc_coor.model`, in reverse (experiments/apgs/models.py:193-200). -/
def coorReverseEnd (N : ApgNet L) (ix : ApgIx) (frames : L.V) (what : Option L.V) (zs : List L.V) : MTree L :=
  .variable (zWhereName ix.t (ix.sweep - 1)) (N.coorDist frames ix.t what zs) none none N.reparam fun _ => .ret .none

/-- `conv_kernel` (experiments/apgs/models.py:119-124): from the mean shape in sweep 0, else from the previous appearance. -/
def convKernel (c : PyVal L) (ix : ApgIx) : Except Err (Option L.V) :=
  if ix.sweep = 0 then .ok none
  else match item c (zWhatName (ix.sweep - 1)) with
    | .ok v => .ok (some v)
    | .error e => .error e

/-- `Enc_coor.model` (experiments/apgs/models.py:115-200). `frames[:, :, ix.t, :, :]` raises IndexError out of range. -/
def encCoorModel (N : ApgNet L) (c : PyVal L) (kwargs : List (String × PyVal L)) : MTree L :=
  andThen (ixOf kwargs) fun ix =>
  andThen (item c "frames") fun frames =>
  andThen (convKernel c ix) fun what =>
  if ix.t < -(N.timesteps frames : Int) ∨ (N.timesteps frames : Int) ≤ ix.t then .raise .index
  else andThen (isForward ix) fun fwd =>
    if fwd then coorForward N frames ix.t what N.objects [] (coorForwardEnd N c ix frames what)
    else coorReverse N (zWhereName ix.t (ix.sweep - 1)) (coorReverseEnd N ix frames what)

def encCoorProg (N : ApgNet L) : ProgSpec L :=
  { name := "Enc_coor", sig := { args := ["self", "trace", "c", "ix"], varargs := false, kwonly := [], varkw := false },
    debugAttr := none, model := encCoorModel N }

/-- The positions read by `Enc_digit` (experiments/apgs/models.py:229-234): first that of time 0 for its shape, then all. -/
def readWheres (c : PyVal L) (sweep : Int) (T : Nat) : Except Err (List L.V) := do
  let _ ← item c (zWhereName 0 sweep)
  (List.range T).mapM fun t : Nat => item c (zWhereName t sweep)

/-- The end of `Enc_digit.model` (experiments/apgs/models.py:241-252). -/
def digitEnd (N : ApgNet L) (ix : ApgIx) (fwd : Bool) (frames : L.V) (zs : List L.V) : MTree L :=
  .variable (zWhatName (if fwd then ix.sweep else ix.sweep - 1)) (N.digitDist frames zs) none none N.reparam fun z =>
    if fwd then .storeSet (zWhatName ix.sweep) (.weakref z) (.ret .none) else .ret .none

/-- `Enc_digit.model` (experiments/apgs/models.py:225-252). -/
def encDigitModel (N : ApgNet L) (c : PyVal L) (kwargs : List (String × PyVal L)) : MTree L :=
  andThen (ixOf kwargs) fun ix =>
  andThen (item c "frames") fun frames =>
  andThen (readWheres c ix.sweep (N.timesteps frames)) fun zs =>
  andThen (isForward ix) fun fwd => digitEnd N ix fwd frames zs

def encDigitProg (N : ApgNet L) : ProgSpec L :=
  { name := "Enc_digit", sig := { args := ["self", "trace", "c", "ix"], varargs := false, kwonly := [], varkw := false },
    debugAttr := none, model := encDigitModel N }

/-- `trace.normal(loc=global_store[src](), scale=.., name=name)` and reading the value back. -/
def whereFrom (N : ApgNet L) (src name : String) (k : L.V → MTree L) : MTree L :=
  .storeGet src fun r => andThen (deref r) fun loc =>
    .variable name (N.whereT loc) none none N.reparam fun _ => .getTrace fun tr => andThen (traceValue tr name) k

/-- The loop of `get_z_where` (experiments/apgs/models.py:308-343), over the remaining times. -/
def decWheres (N : ApgNet L) (ix : ApgIx) : List Nat → List L.V → (List L.V → MTree L) → MTree L
  | [], zs, k => k zs
  | t :: ts, zs, k =>
    if (t : Int) ≤ ix.t then
      if t = 0 then
        .variable (zWhereName 0 ix.sweep) N.where0 none none N.reparam fun _ => .getTrace fun tr =>
          andThen (traceValue tr (zWhereName t ix.sweep)) fun v => decWheres N ix ts (zs ++ [v]) k
      else whereFrom N (zWhereName (t - 1) ix.sweep) (zWhereName t ix.sweep) fun v => decWheres N ix ts (zs ++ [v]) k
    else if (t : Int) = ix.t + 1 then
      whereFrom N (zWhereName ix.t ix.sweep) (zWhereName t (ix.sweep - 1)) fun v => decWheres N ix ts (zs ++ [v]) k
    else whereFrom N (zWhereName ix.t ix.sweep) (zWhereName t (ix.sweep - 1)) fun v => decWheres N ix ts (zs ++ [v]) k

/-- `z_what_index` (experiments/apgs/models.py:347-354). -/
def whatIndex (T : Nat) (ix : ApgIx) : Except Err Int :=
  if ix.t = T then .ok ix.sweep else if ix.t < T ∧ 0 < ix.sweep then .ok (ix.sweep - 1) else .error .value

/-- `z_wheres` of the decoder's output (experiments/apgs/models.py:392-395), over the remaining times. -/
def decOutput (ix : ApgIx) : List Nat → List (String × PyVal L) → (List (String × PyVal L) → MTree L) → MTree L
  | [], kvs, k => k kvs
  | t :: ts, kvs, k =>
    .storeGet (zWhereName t ix.sweep) fun r => andThen (deref r) fun v =>
      decOutput ix ts (insertL kvs (zWhereName t ix.sweep) (.tensor v)) k

/-- `S, B, K, DP2 = digit_mean.shape` in `get_conv_kernel` (experiments/apgs/models.py:287-294): an appearance that the decoder has drawn
itself has the shape `(z_what_dim,)` of its prior (lines 280-281), which cannot be unpacked. One from a conditioning trace is taken to have
the sample, batch and object dimensions. -/
def unpackWhat (tr : Trace L) (name : String) : Except Err Unit :=
  if (tr.get? name).map (·.prov) = some .sampled then .error .value else .ok ()

/-- `DecoderFull.model` (experiments/apgs/models.py:366-398). The argument `EPS` does not matter here. -/
def decModel (N : ApgNet L) (c : PyVal L) (kwargs : List (String × PyVal L)) : MTree L :=
  andThen (ixOf kwargs) fun ix =>
  andThen (item c "frames") fun frames =>
  decWheres N ix (List.range (N.timesteps frames)) [] fun zs =>
  andThen (whatIndex (N.timesteps frames) ix) fun i =>
  .variable (zWhatName i) N.what none none N.reparam fun what => .getTrace fun tr =>
  andThen (unpackWhat tr (zWhatName i)) fun _ =>
  .variable "recon" (N.recon zs what) (some frames) (some .observed) N.reparam fun _ =>
  decOutput ix (List.range (min (ix.t + 1) (N.timesteps frames)).toNat) [] fun kvs =>
  .ret (.dict (insertL (insertL kvs (zWhatName i) (.tensor what)) "frames" (.tensor frames)))

def decProg (N : ApgNet L) : ProgSpec L :=
  { name := "DecoderFull", sig := { args := ["self", "trace", "c", "ix", "EPS"], varargs := false, kwonly := [], varkw := false },
    debugAttr := none, model := decModel N }

/-- `loss_is` (experiments/apgs/objectives.py:17-25), `f` its arithmetic on the log weight and the two log joints. -/
def lossIs (f : LW L.W → LW L.W → LW L.W → L.Lo) (out : Out L) (total : L.Lo) : Except Err L.Lo :=
  match out.px with
  | some px => .ok (f out.logWeight (logJoint px.proposalTrace fun _ => true) (logJoint px.targetTrace fun _ => true) + total)
  | none => .error .attribute

/-- `recon_key` (experiments/apgs/objectives.py:37-41). -/
def reconKey (t : Trace L) (ix : Option (PyVal L)) : Except Err String :=
  if t.contains "recon" then .ok "recon"
  else match ix with
    | some (.tuple [.int t, .int s, .str _]) => .ok ("recon_" ++ toString t ++ "_" ++ toString s)
    | _ => .error .attribute

/-- `loss_apg` (experiments/apgs/objectives.py:28-51), `f` its arithmetic on the log weight, the forward kernel's log joint and
the reconstruction's log probability. -/
def lossApg (f : LW L.W → LW L.W → L.W → L.Lo) (out : Out L) (total : L.Lo) : Except Err L.Lo :=
  match out.px with
  | none => .error .attribute
  | some px =>
    match px.forwardTrace with
    | none => .error .assertion
    | some fwd =>
      match reconKey px.targetTrace out.ix with
      | .error e => .error e
      | .ok k =>
        match px.targetTrace.get? k with
        | none => .error .key
        | some rv => .ok (f out.logWeight (logJoint fwd fun _ => true) rv.logProb + total)

/-- The objects `gibbs_sweeps` starts from (experiments/apgs/gibbs.py:32-34,41) and the functions it passes on: the losses and
the resampler that Resample makes for itself (combinators/inference.py:88-92). -/
structure ApgObjs (L : Lang) where
  noop : Node L
  coor : Node L
  digit : Node L
  dec : Node L
  lossIs : Out L → L.Lo → Except Err L.Lo
  lossApg : Out L → L.Lo → Except Err L.Lo
  resampler : ResamplerFn L

/-- The objects of `init_models` (experiments/apgs/models.py:28-74) and `Noop()`, with their identities. -/
def apgObjs (N : ApgNet L) (i0 i1 i2 i3 : ObjId) (f : LW L.W → LW L.W → LW L.W → L.Lo) (g : LW L.W → LW L.W → L.W → L.Lo) (r : ResamplerFn L) :
    ApgObjs L where
  noop := .prog i0 noopProg
  coor := .prog i1 (encCoorProg N)
  digit := .prog i2 (encDigitProg N)
  dec := .prog i3 (decProg N)
  lossIs := lossIs f
  lossApg := lossApg g
  resampler := r

def fwdIx (t s : Nat) : PyVal L := ApgIx.toPy ⟨t, s, "forward"⟩
def revIx (t s : Nat) : PyVal L := ApgIx.toPy ⟨t, s, "reverse"⟩
def prpIx (t s : Nat) : PyVal L := ApgIx.toPy ⟨t, s, "propose"⟩

/-- `q_os` after `t` turns of the first loop (experiments/apgs/gibbs.py:41-43). -/
def gibbsInit (fresh : ObjId) (O : ApgObjs L) : Nat → Node L
  | 0 => O.noop
  | t + 1 => mkCompose fresh O.coor (gibbsInit fresh O t) none none (fwdIx t 0) false

/-- `q_is` before resampling (experiments/apgs/gibbs.py:44-48). -/
def gibbsIs (fresh : ObjId) (O : ApgObjs L) (T : Nat) : Except Err (Node L) :=
  mkPropose fresh O.dec (mkCompose fresh O.digit (gibbsInit fresh O T) none none (fwdIx T 0) false) (some O.lossIs) none
    (fwdIx T 0) none false true

/-- One Propose of a sweep (experiments/apgs/gibbs.py:56-62,64-70), with the kernel `k` at time `t` (`T` for the appearance). The
Extend object gets an identity of its own. -/
def gibbsPropose (fresh : ObjId) (O : ApgObjs L) (T : Nat) (k : Node L) (t s : Nat) (q : Node L) : Except Err (Node L) :=
  mkPropose fresh (mkExtend (fresh + 1 + (s * (T + 1) + t)) O.dec k none none (revIx t s) false)
    (mkCompose fresh k q none none (fwdIx t s) true) (some O.lossApg) none (prpIx t s) none false true

/-- One turn of the loop over the times (experiments/apgs/gibbs.py:55-63). -/
def gibbsStep (fresh : ObjId) (O : ApgObjs L) (T s : Nat) (q : Node L) (t : Nat) : Except Err (Node L) := do
  let p ← gibbsPropose fresh O T O.coor t s q
  return mkResample fresh O.resampler p none .none false

/-- One sweep (experiments/apgs/gibbs.py:54-72). -/
def gibbsSweep (fresh : ObjId) (O : ApgObjs L) (T S : Nat) (q : Node L) (s : Nat) : Except Err (Node L) := do
  let q ← (List.range T).foldlM (gibbsStep fresh O T s) q
  let p ← gibbsPropose fresh O T O.digit T s q
  return if s ≠ S then mkResample fresh O.resampler p none .none false else p

/-- `gibbs_sweeps(models, num_sweeps, T)` (experiments/apgs/gibbs.py:31-73). Simplified: combinator objects other than Extend, which
carry no conditioning trace, all get the identity `fresh`. -/
def gibbsSweeps (fresh : ObjId) (O : ApgObjs L) (S T : Nat) : Except Err (Node L) := do
  let q ← gibbsIs fresh O T
  let q := if 0 < S then mkResample fresh O.resampler q none .none false else q
  (List.range' 1 S).foldlM (gibbsSweep fresh O T S) q

end Verif
