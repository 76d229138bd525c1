import Mathlib.Algebra.BigOperators.Group.Finset.Basic
import Verif.Model.Apg
import Verif.Spec.Trace
/-
What the stages of the amortized Gibbs sampler should look like, by addresses, provenance and store contents.
-/
namespace Verif.Apg
open Spec
variable {L : Lang}

/-- Address of the position at time `i` when the first `n` positions belong to sweep `s` and the others to the sweep before. -/
def whereAt (n : Nat) (s : Int) (i : Nat) : String := zWhereName i (if i < n then s else s - 1)

/-- The addresses of a stage: one position per time, one appearance, the reconstruction. -/
def Addr (T n : Nat) (s zw : Int) (k : String) : Prop := k = "recon" ∨ k = zWhatName zw ∨ ∃ i, i < T ∧ k = whereAt n s i

/-- No conditioning trace is set and the store has the sampler's hooks. -/
structure Calm (same : L.V → L.V → Bool) (w : World L) : Prop where
  cond : ∀ j, w.cond j = none
  hooks : w.store.hooks = apgHooks same

/-- `o` is a dictionary of tensors with exactly the keys `P`; its frames have `T` time steps. -/
def IsOutput (N : ApgNet L) (T : Nat) (P : String → Prop) (o : PyVal L) : Prop :=
  ∃ kvs, o = .dict kvs ∧ (∀ k, k ∈ keysL kvs ↔ P k) ∧ (∀ k v, (k, v) ∈ kvs → ∃ x, v = .tensor x) ∧
    ∃ f, getL kvs "frames" = some (.tensor f) ∧ N.timesteps f = T

/-- The store holds the trace's positions of sweep `s` up to time `n`. -/
def Stored (n : Nat) (s : Int) (t : Trace L) (w : World L) : Prop :=
  ∀ i, i < n → ∃ rv, t.get? (zWhereName i s) = some rv ∧ w.store.data.get? (zWhereName i s) = some (.weakref rv.value)

/-- The prior of the position at time `i` in the decoder, when the first `n` positions belong to the current sweep and `val` are
the positions: `where0` at time 0, later a step from the position before, but from position `n - 1` for all times from `n` on. -/
def prior (N : ApgNet L) (n : Nat) (val : Nat → L.V) (i : Nat) : L.D :=
  if i = 0 then N.where0 else N.whereT (val (min (i - 1) (n - 1)))

/-- The log density of positions, appearance and frames in the decoder. -/
def joint (N : ApgNet L) (T n : Nat) (frames : L.V) (val : Nat → L.V) (what : L.V) : L.W :=
  ∑ i ∈ Finset.range T, L.logProb (prior N n val i) (val i) + L.logProb N.what what +
    L.logProb (N.recon ((List.range T).map val) what) frames

/-- The sum of all log_probs of a trace. -/
def total (t : Trace L) : L.W := sumLogProb t fun _ _ => true

/-- The value under an address. -/
def valueAt (t : Trace L) (k : String) : Option L.V := (t.get? k).map (·.value)

/-- The trace of a stage with positions `val` and appearance `what`: latent variables reused with the decoder's priors, the frames
observed. -/
structure Latents (N : ApgNet L) (T n : Nat) (s zw : Int) (frames : L.V) (val : Nat → L.V) (what : L.V) (t : Trace L) : Prop where
  wheres : ∀ i, i < T → t.get? (whereAt n s i) = some (RV.mk' (prior N n val i) (val i) .reused N.reparam)
  appearance : t.get? (zWhatName zw) = some (RV.mk' N.what what .reused N.reparam)
  recon : t.get? "recon" = some (RV.mk' (N.recon ((List.range T).map val) what) frames .observed N.reparam)
  total : total t = joint N T n frames val what

/-- The result of a stage: positions of sweep `s` for the first `n` times and of sweep `s - 1` for the rest, the appearance of
sweep `zw`, and the reconstruction; all latent variables reused; densities as the decoder's. -/
structure Stage (N : ApgNet L) (same : L.V → L.V → Bool) (T n : Nat) (s zw : Int) (frames : L.V) (out : Out L) (w : World L) : Prop where
  calm : Calm same w
  addr : ∀ k, out.trace.contains k = true ↔ Addr T n s zw k
  output : IsOutput N T (fun k => k = "frames" ∨ k = zWhatName zw ∨ ∃ i, i < n ∧ k = zWhereName i s) out.output
  given : item out.output "frames" = .ok (L.detachV frames)
  stored : Stored n s out.trace w
  weight : ∃ x, out.logWeight = .tensor x
  latent : ∃ (val : Nat → L.V) (what : L.V), Latents N T n s zw frames val what out.trace

/-- What the next stage relies on after resampling: the output's entries are the trace's values. -/
structure Ready (N : ApgNet L) (same : L.V → L.V → Bool) (T n : Nat) (s zw : Int) (frames : L.V) (out : Out L) (w : World L) : Prop where
  calm : Calm same w
  addr : ∀ k, out.trace.contains k = true ↔ Addr T n s zw k
  dict : ∃ kvs, out.output = .dict kvs
  given : item out.output "frames" = .ok (L.detachV frames)
  appearance : ∃ rv, out.trace.get? (zWhatName zw) = some rv ∧ item out.output (zWhatName zw) = .ok rv.value
  wheres : ∀ i, i < n → ∃ rv, out.trace.get? (zWhereName i s) = some rv ∧ item out.output (zWhereName i s) = .ok rv.value
  stored : Stored n s out.trace w

/-- The positions of the objects drawn one after the other, `m` to go. -/
def coorDraws (N : ApgNet L) (frames : L.V) (t : Int) (what : Option L.V) : Nat → List L.V → Comp L (List L.V)
  | 0, zs => .ret zs
  | m + 1, zs => .draw (N.coorStep frames t what zs) false fun z => coorDraws N frames t what m (zs ++ [z])

/-- The objects' positions in a stacked one. -/
def slices (N : ApgNet L) (v : L.V) : List L.V := (List.range N.objects).map (N.slice v)

/-- The reconstruction is marked observed and nothing else is. -/
def Marked (t : Trace L) : Prop := ∀ k rv, t.get? k = some rv → (rv.prov = .observed ↔ k = "recon")

/-- The attribute `lw` of `out` is the log weight `lw1` before the step, detached if it is a tensor (combinators/inference.py:423-425). -/
def Recorded (lw1 : LW L.W) (out : Out L) : Prop :=
  ∃ px, out.px = some px ∧ (px.lw = L.detachW lw1.val ∨ lw1.val = 0 ∧ px.lw = 0)

/-- One step: `out` is `o1` with one variable `new` of value `z` (log density `fwd` under the kernel) in place of one that has the log
density `rev` under the reverse kernel. The log weight grows by the log joint of the new values and `rev`, less all log_probs of `o1`
and `fwd`. -/
structure Moved (T n : Nat) (s zw : Int) (new : String) (z : L.V) (fwd rev : L.W) (o1 out : Out L) : Prop where
  values : ∀ k, Addr T n s zw k → k ≠ "recon" → valueAt out.trace k = if k = new then some z else valueAt o1.trace k
  weight : Marked o1.trace →
    out.logWeight = .tensor (L.detachW (o1.logWeight.val + ((total out.trace + rev) - (total o1.trace + fwd))))
  recorded : Recorded o1.logWeight out

end Verif.Apg
