import Verif.Model.ApgEval
import Verif.Props.Apg
/-
C100: the script that shows samples of a trained amortized Gibbs sampler.
-/
namespace Verif
open Spec Apg
namespace ApgEval

theorem call_passed : callInit passed = .error .type := by decide

theorem call_repaired : callInit (passed.erase "use_markov_blanket") = .ok () := by decide

/-- C100. Whatever the files and constants, the script raises before models are made: it never calls the sampler. -/
theorem C100_raises (E : Env) (C : Settings) : (∃ e, (script E C passed).2 = .error e) ∧
    Act.initModels ∉ (script E C passed).1 ∧ ∀ s, Act.run s ∉ (script E C passed).1 := by
  unfold script
  rw [call_passed]
  repeat' split
  all_goals first
    | (rename_i h; cases h; done)
    | (rename_i h _ _ _; cases h; done)
    | simp

/-- C100. With a mean shape and a video file it raises TypeError, having read the first fitting file. -/
theorem C100_type_error (E : Env) (m : List Nat) (files rest : List String) (f : String) (n t h w : Nat)
    (h1 : E.load "./dataset/mean_shape.pt" = .ok m) (h2 : E.listdir "./dataset//video/" = .ok files)
    (h3 : getDataPaths files 10 3 = .ok (f :: rest)) (h4 : E.load ("./dataset//video/" ++ f) = .ok [n, t, h, w]) :
    script E settings passed = ([.load "./dataset/mean_shape.pt", .listdir "./dataset//video/", .load ("./dataset//video/" ++ f)], .error .type) := by
  have e1 : ("./dataset/" : String) ++ "mean_shape.pt" = "./dataset/mean_shape.pt" := rfl
  have e2 : ("./dataset/" : String) ++ "/video/" = "./dataset//video/" := rfl
  have e3 : ApgLoop.sampleSize 120 5 = .ok 20 := rfl
  unfold script
  simp only [settings, e1, e2, e3, h1, h2, h3, h4, expandShape, call_passed]
  rfl

/-- C100. Without that argument it reads the parameters that `train_apg` saves for the same numbers, runs the sampler on the videos from the fourth on (so on none if the file
has at most three), and then raises ModuleNotFoundError. -/
theorem C100_repaired (E : Env) (C : Settings) (k : Int) (hk : ApgLoop.sampleSize C.budget C.numSweeps = .ok k) (h0 : 0 < k) (hm : C.markov = false)
    (m : List Nat) (files rest : List String) (f : String) (n t h w : Nat)
    (h1 : E.load (C.dataDir ++ "mean_shape.pt") = .ok m) (h2 : E.listdir (C.dataDir ++ "/video/") = .ok files)
    (h3 : getDataPaths files C.timesteps C.numObjects = .ok (f :: rest)) (h4 : E.load (C.dataDir ++ "/video/" ++ f) = .ok [n, t, h, w])
    (h5 : E.weights (Cli.normpath (ApgLoop.checkpointPath (ApgLoop.modelVersion C.timesteps C.numObjects C.numSweeps k))) = .ok ())
    (h6 : E.run [k.toNat, min (n - 3) C.batchSize, min t C.timesteps, h, w] = .ok ()) :
    script E C (passed.erase "use_markov_blanket") = ([.load (C.dataDir ++ "mean_shape.pt"), .listdir (C.dataDir ++ "/video/"), .load (C.dataDir ++ "/video/" ++ f), .initModels,
      .load (Cli.normpath (ApgLoop.checkpointPath (ApgLoop.modelVersion C.timesteps C.numObjects C.numSweeps k))), .run [k.toNat, min (n - 3) C.batchSize, min t C.timesteps, h, w]],
      .error (.other 5)) := by
  have e1 : evalVersion C.timesteps C.numObjects C.numSweeps k C.markov = ApgLoop.modelVersion C.timesteps C.numObjects C.numSweeps k := by
    have e0 : ∀ (a b : String) (c : Bool), c = false → a ++ (if c then b else "") = a := by
      rintro a b c rfl
      simp
    exact e0 _ _ _ hm
  have e2 : sliceLen n 3 (3 + C.batchSize) = min (n - 3) C.batchSize := by
    unfold sliceLen
    omega
  have e3 : ("./weights" : String) ++ "/" ++ ("cp-" ++ ApgLoop.modelVersion C.timesteps C.numObjects C.numSweeps k) =
    ApgLoop.checkpointPath (ApgLoop.modelVersion C.timesteps C.numObjects C.numSweeps k) := by unfold ApgLoop.checkpointPath; with_reducible rfl
  unfold script
  simp only [hk, h0, h1, h2, h3, h4, expandShape, call_repaired, e1, e2, e3, h5, h6, not_true_eq_false, if_false, List.cons_append, List.nil_append]

section samples
variable {L : Lang} {P : Type} (probs : L.D → P)

theorem positions_ok (tr : Trace L) (s : Int) (v : Nat → L.V) (T : Nat)
    (h : ∀ t, t < T → ∃ rv, tr.get? (zWhereName t s) = some rv ∧ rv.value = v t) : positions tr s T = .ok ((List.range T).map v) := by
  unfold positions
  induction T with
  | zero => rfl
  | succ T ih =>
    rw [List.range_succ, List.mapM_append, ih fun t ht => h t (by omega)]
    obtain ⟨rv, e1, e2⟩ := h T (by omega)
    have e1' : tr.get? ("z_where_" ++ toString (T : Int) ++ "_" ++ toString s) = some rv := e1
    rw [List.mapM_cons, e1', List.map_append, List.map_singleton, ← e2]
    rfl

theorem positions_missing (tr : Trace L) (s : Int) (T : Nat) (hT : 1 ≤ T) (h : tr.get? (zWhereName 0 s) = none) : positions tr s T = .error .key := by
  obtain ⟨n, rfl⟩ : ∃ n, T = n + 1 := ⟨T - 1, by omega⟩
  have e1' : tr.get? ("z_where_" ++ toString ((0 : Nat) : Int) ++ "_" ++ toString s) = none := h
  unfold positions
  rw [List.range_succ_eq_map, List.mapM_cons, e1']
  rfl

/-- C100. `get_samples` on what the sampler returns gives the last sweep's positions, and as reconstruction the decoder's probabilities for exactly these positions and the
appearance of the same trace. Asked for another sweep it raises KeyError; with `use_markov_blanket` AssertionError. -/
theorem C100_samples (N : ApgNet L) (same : L.V → L.V → Bool) (hsame : ∀ v, same v v = true)
    (hd : ∀ v, N.timesteps (L.detachV v) = N.timesteps v) (fresh i0 i1 i2 i3 : ObjId) (h1 : i1 ≤ fresh) (h2 : i2 ≤ fresh)
    (h3 : i3 ≤ fresh) (fl : LW L.W → LW L.W → LW L.W → L.Lo) (gl : LW L.W → LW L.W → L.W → L.Lo) (r : ResamplerFn L)
    (hr : ∀ sd bd t lw t2 lw2, (r sd bd t lw).Ret (.ok (t2, lw2)) → ∀ k, t2.contains k = t.contains k)
    (T S : Nat) (hT : 1 ≤ T) (kvs : List (String × PyVal L)) (frames : L.V) (hf : getL kvs "frames" = some (.tensor frames))
    (hft : N.timesteps frames = T) :
    ∃ q, gibbsSweeps fresh (apgObjs N i0 i1 i2 i3 fl gl r) S T = .ok q ∧
      ∀ kw, KwOk kw → ∀ w, (∀ j, w.cond j = none) → w.store.hooks = apgHooks same → ∀ out w', (eval q (.dict kvs) kw).Runs w (.ok out) w' →
        ∃ (z : Nat → L.V) (what : L.V), (∀ t : Nat, t < T → valueAt out.trace (zWhereName t S) = some (z t)) ∧ valueAt out.trace (zWhatName S) = some what ∧
          getSamples probs false out.trace S T = .ok (probs (N.recon ((List.range T).map z) what), (List.range T).map z) ∧
          (∀ s : Int, s ≠ S → getSamples probs false out.trace s T = .error .key) ∧ ∀ s, getSamples probs true out.trace s T = .error .assertion := by
  obtain ⟨q, e, hq⟩ := C41_gibbs N same hsame hd fresh i0 i1 i2 i3 h1 h2 h3 fl gl r hr T S hT kvs frames hf hft
  refine ⟨q, e, fun kw hkw w hc hh out w' hx => ?_⟩
  rcases hq kw hkw w hc hh _ _ hx with ⟨_, _, _, _, _, h, -⟩ | ⟨o, h, -, hk, hS⟩
  · cases h
  cases h
  obtain ⟨z, what, hl⟩ := hS.latent
  have hw : ∀ t : Nat, t < T → out.trace.get? (zWhereName t S) = some (RV.mk' (prior N T z t) (z t) .reused N.reparam) := fun t ht => by
    rw [← whereAt_lt ht]
    exact hl.wheres t ht
  refine ⟨z, what, fun t ht => ?_, ?_, ?_, fun s hs => ?_, fun s => rfl⟩
  · rw [valueAt, hw t ht]; rfl
  · rw [valueAt, hl.appearance]; rfl
  · have e1 := positions_ok out.trace S z T fun t ht => ⟨_, hw t ht, rfl⟩
    simp only [getSamples, hl.recon, RV.mk', e1]
    rfl
  · have hn : out.trace.get? (zWhereName 0 s) = none := by
      by_contra h0
      have : out.trace.contains (zWhereName 0 s) = true := by
        rw [Dict.contains, Option.isSome_iff_ne_none]
        exact h0
      rw [Dict.contains_iff] at this
      rcases (hk _).1 this with h | h | ⟨i, hi, h⟩
      · exact (C42_kinds_disjoint 0 s S).2.1 h
      · exact (C42_kinds_disjoint 0 s S).1 h
      · exact hs ((C42_z_where_injective _ _ _ _).1 h).2
    have e1 := positions_missing out.trace s T hT hn
    simp only [getSamples, hl.recon, RV.mk', e1]
    rfl

end samples

/-- A listing with one fitting file of five videos. -/
example : script ⟨(fun p => if p = "./dataset/mean_shape.pt" then .ok [28, 28] else .ok [5, 12, 96, 96]),
      (fun _ => .ok ["notes.txt", "video-timesteps=10-objects=3-0.pt"]), (fun _ => .ok ()), (fun _ => .ok ())⟩ settings passed =
    ([.load "./dataset/mean_shape.pt", .listdir "./dataset//video/", .load "./dataset//video/video-timesteps=10-objects=3-0.pt"], .error .type) :=
  C100_type_error _ [28, 28] _ [] "video-timesteps=10-objects=3-0.pt" 5 12 96 96 rfl rfl (by decide +kernel) (by simp)

/-- Three frames, two sweeps: the samples of a run. -/
example : ∃ (nd : Node Toy.L) (out : Out Toy.L) (w' : World Toy.L) (z : Nat → Int × Int) (what : Int × Int), Toy.gibbs = .ok nd ∧
    (eval nd (.dict [("frames", .tensor ((3, 0) : Int × Int))]) {}).Runs Toy.wApg (.ok out) w' ∧
    getSamples (L := Toy.L) id false out.trace 2 3 = .ok (Toy.net.recon [z 0, z 1, z 2] what, [z 0, z 1, z 2]) := by
  have hs : Toy.gibbsSucceeds [(1, 1), (2, 1), (3, 1), (4, 1), (5, 1), (6, 1), (7, 1), (8, 1), (9, 1), (10, 1), (11, 1), (12, 1)] = true := by
    decide +kernel
  unfold Toy.gibbsSucceeds at hs
  obtain ⟨q, e, h⟩ := C100_samples (L := Toy.L) id Toy.net Toy.same (by simp [Toy.same]) (by intro v; rfl) 4 0 1 2 3 (by decide) (by decide) (by decide)
    (fun a _ _ => a.val.1) (fun a _ _ => a.val.1) Toy.keepAll
    (by intro sd bd t lw t2 lw2 h k; simp only [Toy.keepAll, Comp.ret_Ret, Except.ok.injEq, Prod.mk.injEq] at h; rw [h.1])
    3 2 (by decide) [("frames", .tensor ((3, 0) : Int × Int))] (3, 0) rfl rfl
  have e' : Toy.gibbs = .ok q := e
  rw [e'] at hs
  simp only at hs
  split at hs
  · rename_i out w' hf
    obtain ⟨z, what, -, -, h1, -⟩ := h {} (by simp [KwOk]) Toy.wApg (fun _ => rfl) rfl _ _ (Toy.feed_Ret hf)
    exact ⟨q, out, w', z, what, e', Toy.feed_Ret hf, h1⟩
  · cases hs

end ApgEval
end Verif
