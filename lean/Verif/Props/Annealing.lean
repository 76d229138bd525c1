import Verif.Proofs.AnnealChain
import Verif.Proofs.AnnealStats
import Verif.Props.Toy
/-
C30 (the K-step weight of vsmc), C36 (get_stats), C51 (stl_trace).
-/
namespace Verif

namespace Toy

/-- An annealing model over the toy language; every density depends on its argument and its index. -/
def anneal : AnnealModel L where
  d0 := 2
  rep0 := false
  cls0 := "FixedMultivariateNormal"
  g k v := ((k + 1) * v.1 * v.1, 0)
  cls _ := "Tempered"
  f k v := 3 + k + v.1
  rep := true
  r k v := 7 - k * v.1
  rep' := false

def annealIds : AnnealIds where
  initial := 0
  target k := 3 * (k % 4) + 1
  forward k := 3 * (k % 4) + 2
  reverse k := 3 * (k % 4) + 3

end Toy

open Spec
variable {L : Lang}

/-- The transformations vsmc is called with (experiments/annealing/main.py): none, or stl_trace, where detaching parameters
does not change log probabilities and `torch.equal` is reflexive. -/
def AnnealTransf (transf : Option (Trace L → Kw L → Except Err (Trace L))) : Prop :=
  transf = none ∨ ∃ detachD weq, transf = some (stlTrace detachD weq) ∧ (∀ x, weq x x = true) ∧
    ∀ d v, L.logProb (detachD d) v = L.logProb d v

theorem AnnealTransf.ok {transf : Option (Trace L → Kw L → Except Err (Trace L))} (h : AnnealTransf transf) (k : Nat) :
    TransfOk k (gname k) (gname (k + 1)) transf := by
  rcases h with rfl | ⟨detachD, weq, rfl, h1, h2⟩
  · exact TransfOk_none _ _ _
  · exact TransfOk_stl detachD weq h1 h2 k

/-- C30. vsmc on an annealing model with K forward and reverse kernels and K+1 targets builds an object; called in a world
without conditioning traces it never raises, leaves the world alone, draws exactly z_0 from the first target and each z_{k+1}
from the k-th forward kernel at z_k, and returns the log weight obtained by adding, for each step,
[g_{k+1}(z_{k+1}) + log r_k(z_k|z_{k+1})] - [g_k(z_k) + log f_k(z_{k+1}|z_k)] (and detaching), with output {g_K: z_K}. -/
theorem C30_vsmc (fresh : ObjId) (M : AnnealModel L) (I : AnnealIds) (hid : I.Below fresh) (lossFn : Out L → Except Err L.Lo) (hl : LossOk lossFn)
    (transf : Option (Trace L → Kw L → Except Err (Trace L))) (ht : AnnealTransf transf) (K : Nat) :
    ∃ nd : Node L, vsmc fresh (M.initial I :: (List.range K).map (M.target I)) ((List.range K).map (M.forward I))
        ((List.range K).map (M.reverse I)) lossFn transf none = .ok nd ∧
      ∀ (c : PyVal L) (kw : Kw L) (w : World L), KwOk kw → (∀ j, w.cond j = none) →
        ∃ F : (Nat → L.V) → Out L, eval nd c kw w = (M.chain K).bind (fun z => .ret (.ok (F z), w)) ∧
          ∀ z, (F z).logWeight.val = M.weight z K ∧
            (F z).output = .dict [(AnnealModel.name K, .tensor (AnnealModel.point z K))] ∧
            (F z).trace.keys = [AnnealModel.name K] ∧ ChainLoss lossFn M z K (F z).loss := by
  obtain ⟨nd, h1, h2⟩ := chain_vsmc fresh ((List.range K).map (M.forward I)).length M I hid lossFn hl transf ht.ok K
  refine ⟨nd, ?_, ?_⟩
  · simp only [vsmc]
    rw [zip3_range]
    exact h1
  · intro c kw w hk hw
    obtain ⟨F, e1, e2⟩ := h2 c kw w hk hw
    refine ⟨F, e1, fun z => ?_⟩
    obtain ⟨ra, r1, -, -, -, r2, r3, r4, -⟩ := e2 z
    exact ⟨by rw [r3, AnnealModel.lw_val], r2, by rw [r1]; rfl, r4⟩

/-- C30. Where detaching does not change a number, the weight is the sum over the steps. -/
theorem C30_weight_sum (hV : ∀ v, L.detachV v = v) (hW : ∀ x, L.detachW x = x) (M : AnnealModel L) (z : Nat → L.V) (K : Nat) :
    M.weight z K = ∑ k ∈ Finset.range K, ((M.density (k + 1) (z (k + 1)) + L.logProb (M.r k (z (k + 1))) (z k)) -
      (M.density k (z k) + L.logProb (M.f k (z k)) (z (k + 1)))) := by
  have hp : ∀ k, AnnealModel.point z k = z k := fun k => by cases k <;> simp [AnnealModel.point, hV]
  induction K with
  | zero => rfl
  | succ K ih => rw [Finset.sum_range_succ, ← ih]; simp only [AnnealModel.weight, AnnealModel.increment, hW, hp]

example : ∃ nd : Node Toy.L, vsmc 100 (Toy.anneal.initial Toy.annealIds :: (List.range 2).map (Toy.anneal.target Toy.annealIds))
      ((List.range 2).map (Toy.anneal.forward Toy.annealIds)) ((List.range 2).map (Toy.anneal.reverse Toy.annealIds))
      (fun o => .ok o.logWeight.val.1) (some (stlTrace (L := Toy.L) id (· == ·))) none = .ok nd ∧
    ∃ o w', (eval nd .none {}).Runs Toy.w0 (.ok o) w' ∧ o.logWeight.val = (5, 0) ∧
      o.output = .dict [("g2", .tensor (3, 0))] := by
  obtain ⟨nd, h1, h2⟩ := C30_vsmc 100 Toy.anneal Toy.annealIds
    (fun k => by simp only [Toy.annealIds]; exact ⟨(by have := Nat.mod_lt k (y := 4) (by omega); omega : 3 * (k % 4) + 2 < 100),
      (by have := Nat.mod_lt k (y := 4) (by omega); omega : 3 * (k % 4) + 3 < 100),
      (by have := Nat.mod_lt k (y := 4) (by omega); omega : 3 * (k % 4) + 1 < 100)⟩) (fun o => .ok o.logWeight.val.1)
    (fun _ _ _ => ⟨_, rfl⟩) (some (stlTrace (L := Toy.L) id (· == ·))) (Or.inr ⟨_, _, rfl, by simp, fun _ _ => rfl⟩) 2
  refine ⟨nd, h1, ?_⟩
  obtain ⟨F, e1, e2⟩ := h2 .none {} Toy.w0 (fun e he => by cases he) (fun _ => rfl)
  let z : Nat → Toy.L.V := fun j => if j ≤ 1 then (if j ≤ 0 then (1, 1) else (2, 1)) else (3, 1)
  refine ⟨F z, Toy.w0, ?_, ?_, ?_⟩
  · show Comp.Ret _ _
    rw [e1]
    exact ⟨(1, 1), (2, 1), (3, 1), rfl⟩
  · rw [(e2 z).1]; decide
  · rw [(e2 z).2.1]; rfl

/-- C36. get_stats on any successful run of vsmc's object (any kernels, targets, loss, transformation; the call made with
`_debug=True`, or no resampling) lists exactly one row per step: row i is the Propose with index i, each Propose's proposal
started from the result of the row before it (resampled or not), and the last row is the result itself. -/
theorem C36_get_stats (fresh : ObjId) (q : Node L) (hq : IsProg q) (ps fs rs : List (Node L)) (hf : ∀ f ∈ fs, IsProg f)
    (lossFn : Out L → Except Err L.Lo) (transf : Option (Trace L → Kw L → Except Err (Trace L)))
    (resample : Option (ResamplerFn L)) (nd : Node L) (h : vsmc fresh (q :: ps) fs rs lossFn transf resample = .ok nd)
    (hK : 0 < min fs.length (min rs.length ps.length))
    (c : PyVal L) (kw : Kw L) (hkw : resample = none ∨ kw.debug = true) (w w' : World L) (out : Out L)
    (hr : (eval nd c kw).Runs w (.ok out) w') :
    ∃ rows, getStats out = .ok rows ∧ rows.length = min fs.length (min rs.length ps.length) ∧ RowsOf out rows := by
  have hs := stats_vsmc fresh fs.length lossFn transf resample q hq (fs.zip (rs.zip ps))
    (fun e he => hf _ (List.of_mem_zip he).1) nd h c kw hkw w w' out hr
  have hl : (fs.zip (rs.zip ps)).length = min fs.length (min rs.length ps.length) := by simp
  rw [hl] at hs
  unfold Stats at hs
  rw [if_neg (by omega)] at hs
  obtain ⟨-, rows, h1, h2, -, h3⟩ := hs
  refine ⟨rows, ?_, h1, h2⟩
  unfold getStats
  rw [h3 [], List.append_nil]
  cases rows with
  | nil => simp at h1; omega
  | cons r rows => rfl

/-- Runs a computation on the given draws, for the examples. -/
def Toy.feed {α : Type} : Comp Toy.L α → List Toy.L.V → Option α
  | .ret a, _ => some a
  | .draw _ _ k, v :: vs => Toy.feed (k v) vs
  | .draw _ _ _, [] => none
  | .rand k, vs => Toy.feed (k ()) vs

theorem Toy.feed_Ret {α : Type} {c : Comp Toy.L α} {vs : List Toy.L.V} {a : α} (h : Toy.feed c vs = some a) : c.Ret a := by
  induction c generalizing vs with
  | ret b => simpa [Toy.feed] using h
  | draw d r k ih =>
    cases vs with
    | nil => simp [Toy.feed] at h
    | cons v vs => exact ⟨v, ih v h⟩
  | rand k ih => exact ⟨(), ih () h⟩

/-- Whether the object is built and the run on the given draws succeeds. -/
def Toy.succeeds (n : Except Err (Node Toy.L)) (kw : Kw Toy.L) (vs : List Toy.L.V) : Bool :=
  match n with
  | .ok nd =>
    match Toy.feed (eval nd .none kw Toy.w0) vs with
    | some (.ok _, _) => true
    | _ => false
  | .error _ => false

theorem Toy.succeeds_runs {n : Except Err (Node Toy.L)} {kw : Kw Toy.L} {vs : List Toy.L.V} (h : Toy.succeeds n kw vs = true) :
    ∃ nd out w', n = .ok nd ∧ (eval nd .none kw).Runs Toy.w0 (.ok out) w' := by
  unfold Toy.succeeds at h
  split at h
  · rename_i nd
    split at h
    · rename_i out w' hf
      exact ⟨nd, out, w', rfl, Toy.feed_Ret hf⟩
    · cases h
  · cases h

/-- C53. The losses get_stats lists are the running sums of the objective over the steps: the first is the objective on the first
Propose's result, each next one adds the objective on that step's result, and the loss of the whole result is the last. -/
theorem C53_losses (fresh : ObjId) (q : Node L) (hq : IsProg q) (ps fs rs : List (Node L)) (hf : ∀ f ∈ fs, IsProg f)
    (lossFn : Out L → Except Err L.Lo) (transf : Option (Trace L → Kw L → Except Err (Trace L)))
    (resample : Option (ResamplerFn L)) (nd : Node L) (h : vsmc fresh (q :: ps) fs rs lossFn transf resample = .ok nd)
    (hK : 0 < min fs.length (min rs.length ps.length))
    (c : PyVal L) (kw : Kw L) (hkw : resample = none ∨ kw.debug = true) (w w' : World L) (out : Out L)
    (hr : (eval nd c kw).Runs w (.ok out) w') :
    ∃ rows, getStats out = .ok rows ∧ LossesOf lossFn out rows ∧
      ∃ ls, rows.mapM (fun r => lossFn r.out.bare) = .ok ls ∧ out.loss = some ls.sum := by
  have hs := stats_vsmc fresh fs.length lossFn transf resample q hq (fs.zip (rs.zip ps))
    (fun e he => hf _ (List.of_mem_zip he).1) nd h c kw hkw w w' out hr
  have hl : (fs.zip (rs.zip ps)).length = min fs.length (min rs.length ps.length) := by simp
  rw [hl] at hs
  unfold Stats at hs
  rw [if_neg (by omega)] at hs
  obtain ⟨-, rows, h1, -, h2, h3⟩ := hs
  have hne : rows ≠ [] := by rintro rfl; simp at h1; omega
  refine ⟨rows, ?_, h2, losses_sum h2 hne⟩
  unfold getStats
  rw [h3 [], List.append_nil]
  cases rows with
  | nil => exact absurd rfl hne
  | cons r rows => rfl

/-- The resampler that keeps everything as it is. -/
def Toy.keepAll : ResamplerFn Toy.L := fun _ _ t lw => .ret (.ok (t, lw))

example : ∃ nd out w' rows, vsmc 100 (Toy.anneal.initial Toy.annealIds :: [0, 1].map (Toy.anneal.target Toy.annealIds))
      ([0, 1].map (Toy.anneal.forward Toy.annealIds)) ([0, 1].map (Toy.anneal.reverse Toy.annealIds))
      (fun o => .ok o.logWeight.val.1) none (some Toy.keepAll) = .ok nd ∧
    (eval nd .none { debug := true }).Runs Toy.w0 (.ok out) w' ∧ getStats out = .ok rows ∧ rows.length = 2 ∧
      LossesOf (L := Toy.L) (fun o => .ok o.logWeight.val.1) out rows := by
  have hr : ∃ nd out w', vsmc 100 (Toy.anneal.initial Toy.annealIds :: [0, 1].map (Toy.anneal.target Toy.annealIds))
      ([0, 1].map (Toy.anneal.forward Toy.annealIds)) ([0, 1].map (Toy.anneal.reverse Toy.annealIds))
      (fun o => .ok o.logWeight.val.1) none (some Toy.keepAll) = .ok nd ∧
    (eval nd .none { debug := true }).Runs Toy.w0 (.ok out) w' :=
    Toy.succeeds_runs (vs := [(1, 1), (2, 1), (3, 1)]) (by decide +kernel)
  obtain ⟨nd, out, w', h1, h2⟩ := hr
  obtain ⟨rows, h3, h4, -⟩ := C36_get_stats 100 _ ⟨_, _, rfl⟩ _ _ _ (by simp [IsProg, AnnealModel.forward]) _ _ _ nd h1
    (by decide) .none { debug := true } (Or.inr rfl) _ _ out h2
  obtain ⟨rows', h5, h6, -⟩ := C53_losses 100 _ ⟨_, _, rfl⟩ _ _ _ (by simp [IsProg, AnnealModel.forward]) _ _ _ nd h1
    (by decide) .none { debug := true } (Or.inr rfl) _ _ out h2
  rw [h3, Except.ok.injEq] at h5
  subst h5
  exact ⟨nd, out, w', rows, h1, h2, h3, h4, h6⟩

/-- C36. With resampling and two or more steps, a call without `_debug=True` leaves no `q_out` in the inner Resample's result:
get_stats raises AttributeError, although every Propose is constructed with `_debug=True`. -/
theorem C36_needs_debug (fresh : ObjId) (q : Node L) (ps fs rs : List (Node L)) (hf : ∀ f ∈ fs, IsProg f)
    (lossFn : Out L → Except Err L.Lo) (transf : Option (Trace L → Kw L → Except Err (Trace L))) (r : ResamplerFn L) (nd : Node L)
    (h : vsmc fresh (q :: ps) fs rs lossFn transf (some r) = .ok nd) (hK : 2 ≤ min fs.length (min rs.length ps.length))
    (c : PyVal L) (kw : Kw L) (hkw : kw.debug = false) (w w' : World L) (out : Out L)
    (hr : (eval nd c kw).Runs w (.ok out) w') : getStats out = .error .attribute := by
  have hl : (fs.zip (rs.zip ps)).length = min fs.length (min rs.length ps.length) := by simp
  simp only [vsmc] at h
  have hm : ∀ e ∈ fs.zip (rs.zip ps), IsProg e.1 := fun e he => hf _ (List.of_mem_zip he).1
  have hle : (fs.zip (rs.zip ps)).length ≤ fs.length := by rw [hl]; exact min_le_left _ _
  rw [← hl] at hK
  generalize fs.zip (rs.zip ps) = l at h hK hm hle
  rcases List.eq_nil_or_concat l with rfl | ⟨l1, x, rfl⟩
  · simp at hK
  rcases List.eq_nil_or_concat l1 with rfl | ⟨l2, y, rfl⟩
  · simp at hK
  simp only [List.concat_eq_append] at h hm hle
  have := stats_nodebug fresh fs.length lossFn transf r q l2 y x (hm x (by simp)) (by simpa using hle) nd h c kw hkw w w' out hr []
  unfold getStats
  rw [this]

example : ∃ nd out w', vsmc 100 (Toy.anneal.initial Toy.annealIds :: [0, 1].map (Toy.anneal.target Toy.annealIds))
      ([0, 1].map (Toy.anneal.forward Toy.annealIds)) ([0, 1].map (Toy.anneal.reverse Toy.annealIds))
      (fun o => .ok o.logWeight.val.1) none (some Toy.keepAll) = .ok nd ∧
    (eval nd .none {}).Runs Toy.w0 (.ok out) w' ∧ getStats out = .error .attribute := by
  have hr : ∃ nd out w', vsmc 100 (Toy.anneal.initial Toy.annealIds :: [0, 1].map (Toy.anneal.target Toy.annealIds))
      ([0, 1].map (Toy.anneal.forward Toy.annealIds)) ([0, 1].map (Toy.anneal.reverse Toy.annealIds))
      (fun o => .ok o.logWeight.val.1) none (some Toy.keepAll) = .ok nd ∧
    (eval nd .none {}).Runs Toy.w0 (.ok out) w' :=
    Toy.succeeds_runs (vs := [(1, 1), (2, 1), (3, 1)]) (by decide +kernel)
  obtain ⟨nd, out, w', h1, h2⟩ := hr
  exact ⟨nd, out, w', h1, h2, C36_needs_debug 100 _ _ _ _ (by simp [IsProg, AnnealModel.forward]) _ _ _ nd h1
    (by decide) .none {} rfl _ _ out h2⟩

/-- C51. On the traces vsmc gives it (the entries g_{k+1} and g_k of the proposal of step k), stl_trace keeps g_k as it is and
replaces g_{k+1} by the same value under the distribution with detached parameters. -/
theorem C51_stl_trace (detachD : L.D → L.D) (weq : L.W → L.W → Bool) (hw : ∀ x, weq x x = true)
    (hd : ∀ d v, L.logProb (detachD d) v = L.logProb d v) (k : Nat) (kw : Kw L) (hk : kw.ix = .int k) (t : Trace L)
    (ra : RV L) (d : L.D) (v : L.V) (rep : Bool)
    (ht : t.entries = [(AnnealModel.name (k + 1), RV.mk' d v .sampled rep), (AnnealModel.name k, ra)]) :
    ∃ t', stlTrace detachD weq t kw = .ok t' ∧
      t'.entries = [(AnnealModel.name k, ra), (AnnealModel.name (k + 1), RV.mk' (detachD d) v .sampled rep)] := by
  have hne : gname (k + 1) ≠ gname k := fun h => by have := gname_inj h; omega
  have : t = tr2 (gname (k + 1)) (RV.mk' d v .sampled rep) (gname k) ra hne := Dict.ext' ht
  subst this
  exact TransfOk_stl_entries detachD weq hw hd k hne d v rep ra kw hk

example : ∃ t', stlTrace (L := Toy.L) id (· == ·) (tr2 "g3" (RV.mk' (L := Toy.L) 4 (6, 1) .sampled true) "g2"
      (RV.mkImproper (L := Toy.L) (fun v => v) (5, 0) .reused) (by decide)) { ix := .int 2 } = .ok t' ∧ t'.keys = ["g2", "g3"] := by
  obtain ⟨t', h1, h2⟩ := C51_stl_trace (L := Toy.L) id (· == ·) (by simp) (fun _ _ => rfl) 2 { ix := .int 2 } rfl
    (tr2 "g3" (RV.mk' (L := Toy.L) 4 (6, 1) .sampled true) "g2" (RV.mkImproper (L := Toy.L) (fun v => v) (5, 0) .reused) (by decide))
    _ _ _ _ rfl
  exact ⟨t', h1, by simp only [Dict.keys, h2]; decide⟩

/-- C51. In general stl_trace drops every address that is a substring of the name it replaces: g_j is lost whenever the
decimal form of j begins that of k+1 (for instance g1 when k+1 = 10). -/
theorem C51_stl_drops (detachD : L.D → L.D) (weq : L.W → L.W → Bool) (k : Nat) (kw : Kw L) (hk : kw.ix = .int k)
    (t t' : Trace L) (h : stlTrace detachD weq t kw = .ok t') (a : String) :
    t'.get? a ≠ none ↔ a = AnnealModel.name (k + 1) ∨ (t.get? a ≠ none ∧ ¬ a.toList <:+: (AnnealModel.name (k + 1)).toList) := by
  simp only [stlTrace, hk, gname_succ, copytraces_single, bind, Except.bind] at h
  cases h1 : t.get? (gname (k + 1)) with
  | none => rw [h1] at h; cases h
  | some rv =>
    rw [h1] at h
    simp only at h
    cases h2 : evalDetached detachD weq rv with
    | error e => rw [h2] at h; cases h
    | ok rv' =>
      rw [h2] at h
      simp only [pure, Except.pure, Except.ok.injEq] at h
      subst h
      rw [Dict.get?_insert, Dict.get?_filterKeys]
      by_cases ha : a = gname (k + 1)
      · simp [ha]
      · have : ¬ a = AnnealModel.name (k + 1) := ha
        simp only [ha, this, if_false, false_or, pyStrIn]
        by_cases hs : a.toList <:+: (gname (k + 1)).toList
        · simp [hs]
        · simp [hs]

example : ∃ t', stlTrace (L := Toy.L) id (· == ·) (tr2 "g10" (RV.mk' (L := Toy.L) 4 (6, 1) .sampled true) "g1"
      (RV.mk' (L := Toy.L) 2 (5, 0) .sampled true) (by decide)) { ix := .int 9 } = .ok t' ∧ t'.get? "g1" = none := by
  refine ⟨tr1 "g10" (RV.mk' (L := Toy.L) 4 (6, 1) .sampled true), ?_, rfl⟩
  rfl

/-- C51. What stl_trace does in every case: KeyError without a variable g_{ix+1}; ValueError if that one has no distribution;
AssertionError if its log probability changes when the parameters are detached; otherwise this variable is replaced by the same value under
the detached distribution, the addresses that are substrings of its name are dropped, and everything else stays as it is. -/
theorem C51_stl_cases (detachD : L.D → L.D) (weq : L.W → L.W → Bool) (k : Nat) (kw : Kw L) (hk : kw.ix = .int k) (t : Trace L) :
    (t.get? (AnnealModel.name (k + 1)) = none → stlTrace detachD weq t kw = .error .key) ∧
    ∀ rv, t.get? (AnnealModel.name (k + 1)) = some rv →
      ((∀ d, rv.kind ≠ .proper d) → stlTrace detachD weq t kw = .error .value) ∧
      ∀ d, rv.kind = .proper d →
        (weq rv.logProb (L.logProb (detachD d) rv.value) = false → stlTrace detachD weq t kw = .error .assertion) ∧
        (weq rv.logProb (L.logProb (detachD d) rv.value) = true → ∃ t', stlTrace detachD weq t kw = .ok t' ∧ ∀ a,
          (a = AnnealModel.name (k + 1) → t'.get? a = some (RV.mk' (detachD d) rv.value rv.prov rv.reparam)) ∧
          (a ≠ AnnealModel.name (k + 1) → a.toList <:+: (AnnealModel.name (k + 1)).toList → t'.get? a = none) ∧
          (¬ a.toList <:+: (AnnealModel.name (k + 1)).toList → t'.get? a = t.get? a)) := by
  have e : stlTrace detachD weq t kw = match t.get? (gname (k + 1)) with
      | none => .error .key
      | some rv => match evalDetached detachD weq rv with
        | .error e => .error e
        | .ok rv' => .ok ((t.filterKeys fun a => !pyStrIn a (gname (k + 1))).insert (gname (k + 1)) rv') := by
    simp only [stlTrace, hk, gname_succ, copytraces_single, bind, Except.bind]
    cases t.get? (gname (k + 1)) with
    | none => rfl
    | some rv => cases h : evalDetached detachD weq rv <;> simp [h, pure, Except.pure]
  refine ⟨fun h => ?_, fun rv h => ⟨fun hd => ?_, fun d hd => ⟨fun hq => ?_, fun hq => ?_⟩⟩⟩
  · rw [e, show t.get? (gname (k + 1)) = none from h]
  · rw [e, show t.get? (gname (k + 1)) = some rv from h]
    cases hkd : rv.kind with
    | proper d => exact absurd hkd (hd d)
    | _ => simp [evalDetached, hkd]
  · rw [e, show t.get? (gname (k + 1)) = some rv from h]
    simp [evalDetached, hd, RV.mk', hq]
  · rw [e, show t.get? (gname (k + 1)) = some rv from h]
    refine ⟨(t.filterKeys fun a => !pyStrIn a (gname (k + 1))).insert (gname (k + 1)) (RV.mk' (detachD d) rv.value rv.prov rv.reparam), ?_, fun a => ?_⟩
    · simp [evalDetached, hd, RV.mk', hq]
    · rw [Dict.get?_insert, Dict.get?_filterKeys]
      refine ⟨fun ha => by simp [show a = gname (k + 1) from ha], fun ha hs => ?_, fun hs => ?_⟩
      · have hs' : a.toList <:+: (gname (k + 1)).toList := hs
        simp [show a ≠ gname (k + 1) from ha, pyStrIn, hs']
      · have hs' : ¬ a.toList <:+: (gname (k + 1)).toList := hs
        have ha : a ≠ gname (k + 1) := fun h => hs' (by rw [h])
        simp [ha, pyStrIn, hs']

/-- C51: the three failures occur. -/
example : stlTrace (L := Toy.L) id (· == ·) (tr1 "g1" (RV.mk' (L := Toy.L) 4 (6, 1) .sampled true)) { ix := .int 1 } = .error .key ∧
    stlTrace (L := Toy.L) id (· == ·) (tr1 "g2" (RV.mkImproper (L := Toy.L) (fun v => v) (5, 0) .reused)) { ix := .int 1 } = .error .value ∧
    stlTrace (L := Toy.L) (· + 1) (· == ·) (tr1 "g2" (RV.mk' (L := Toy.L) 4 (6, 1) .sampled true)) { ix := .int 1 } = .error .assertion := by
  refine ⟨rfl, rfl, ?_⟩
  exact (((C51_stl_cases (L := Toy.L) (· + 1) (· == ·) 1 { ix := .int 1 } rfl _).2 _ rfl).2 _ rfl).1 (by decide)

/-- `Walk o ps z`: following the proposals from `o` (the q_out of Propose and Resample; of a Compose's two parts the one which comes from a
combinator, if there is exactly one) leads to `z`, passing through the Proposes `ps`, innermost first. -/
inductive Spec.Walk : Out L → List (Out L) → Out L → Prop
  | here (o : Out L) : Walk o [] o
  | propose (o q z : Out L) (ps : List (Out L)) : o.type = .propose → subOut o "q_out" = some q → Walk q ps z → Walk o (ps ++ [o]) z
  | resample (o q z : Out L) (ps : List (Out L)) : o.type = .resample → subOut o "q_out" = some q → Walk q ps z → Walk o ps z
  | first (o q1 q2 z : Out L) (ps : List (Out L)) : o.type = .compose → subOut o "q1_out" = some q1 → subOut o "q2_out" = some q2 →
    isInfType q1.type = true → isInfType q2.type = false → Walk q1 ps z → Walk o ps z
  | second (o q1 q2 z : Out L) (ps : List (Out L)) : o.type = .compose → subOut o "q1_out" = some q1 → subOut o "q2_out" = some q2 →
    isInfType q1.type = false → isInfType q2.type = true → Walk q2 ps z → Walk o ps z

/-- C36. `traverse_proposals` follows the proposals and collects `fn` of the Proposes, innermost first. It ends well exactly at a Compose of
which both parts or none come from a combinator. Reaching a plain program it raises NameError (the name `Condition` is not defined), reaching
an Extend ValueError, and AttributeError where `_debug` had not kept the parts. -/
theorem C36_traverse {α : Type} (fn : Out L → Except Err α) (f : Out L → α) (o z : Out L) (ps : List (Out L)) (h : Walk o ps z)
    (hf : ∀ p ∈ ps, fn p = .ok (f p)) (memo : List α) :
    (∀ name, z.type = .program name → traverseProposals fn o memo = .error .name) ∧
    (z.type = .extend → traverseProposals fn o memo = .error .value) ∧
    (z.type = .compose → (subOut z "q1_out" = none ∨ subOut z "q2_out" = none) → traverseProposals fn o memo = .error .attribute) ∧
    ((z.type = .propose ∧ ∃ a, fn z = .ok a) ∨ z.type = .resample → subOut z "q_out" = none → traverseProposals fn o memo = .error .attribute) ∧
    ∀ q1 q2, z.type = .compose → subOut z "q1_out" = some q1 → subOut z "q2_out" = some q2 → isInfType q1.type = isInfType q2.type →
      traverseProposals fn o memo = .ok (ps.map f ++ memo) := by
  induction h generalizing memo with
  | here o =>
    refine ⟨fun name h => ?_, fun h => ?_, fun h h' => ?_, ?_, fun q1 q2 h h1 h2 h3 => ?_⟩
    · rw [traverseProposals, h]
    · rw [traverseProposals, h]
    · rw [traverseProposals, h]
      rcases h' with h' | h'
      · simp only; split
        · rfl
        · next h'' => rw [h'] at h''; cases h''
      · simp only; split
        · rfl
        · split
          · rfl
          · next h'' => rw [h'] at h''; cases h''
    · rintro (⟨h, a, ha⟩ | h) h'
      · rw [traverseProposals, h]
        simp only [ha]
        split
        · rfl
        · next h'' => rw [h'] at h''; cases h''
      · rw [traverseProposals, h]
        simp only
        split
        · rfl
        · next h'' => rw [h'] at h''; cases h''
    · rw [traverseProposals, h]
      simp only
      split
      · next h'' => rw [h1] at h''; cases h''
      · next x h'' =>
        rw [h1] at h''; cases h''
        split
        · next h'' => rw [h2] at h''; cases h''
        · next y h'' =>
          rw [h2] at h''; cases h''
          simp [h3]
  | propose o q z ps ho hq _ ih =>
    have e : traverseProposals fn o memo = traverseProposals fn q (f o :: memo) := by
      rw [traverseProposals, ho]
      simp only [hf o (by simp)]
      split
      · next h'' => rw [hq] at h''; cases h''
      · next x h'' => rw [hq] at h''; cases h''; rfl
    rw [e]
    have := ih (fun p hp => hf p (by simp [hp])) (f o :: memo)
    simpa using this
  | resample o q z ps ho hq _ ih =>
    have e : traverseProposals fn o memo = traverseProposals fn q memo := by
      rw [traverseProposals, ho]
      simp only
      split
      · next h'' => rw [hq] at h''; cases h''
      · next x h'' => rw [hq] at h''; cases h''; rfl
    rw [e]
    exact ih hf memo
  | first o q1 q2 z ps ho h1 h2 i1 i2 _ ih =>
    have e : traverseProposals fn o memo = traverseProposals fn q1 memo := by
      rw [traverseProposals, ho]
      simp only
      split
      · next h'' => rw [h1] at h''; cases h''
      · next x h'' =>
        rw [h1] at h''; cases h''
        split
        · next h'' => rw [h2] at h''; cases h''
        · next y h'' => rw [h2] at h''; cases h''; simp [i1, i2]
    rw [e]
    exact ih hf memo
  | second o q1 q2 z ps ho h1 h2 i1 i2 _ ih =>
    have e : traverseProposals fn o memo = traverseProposals fn q2 memo := by
      rw [traverseProposals, ho]
      simp only
      split
      · next h'' => rw [h1] at h''; cases h''
      · next x h'' =>
        rw [h1] at h''; cases h''
        split
        · next h'' => rw [h2] at h''; cases h''
        · next y h'' => rw [h2] at h''; cases h''; simp [i1, i2]
    rw [e]
    exact ih hf memo

/-- C36: a resampled program: NameError. -/
example (fn : Out L → Except Err Nat) (t : Trace L) (lw : LW L.W) (c : PyVal L) :
    traverseProposals fn (Out.mk t lw c .resample none none none none
      [("q_out", Out.mk t lw c (.program "P") none none none none [])]) [] = .error .name :=
  (C36_traverse fn (fun _ => 0) _ _ [] (.resample _ _ _ _ rfl rfl (.here _)) (by simp) []).1 "P" rfl

end Verif
