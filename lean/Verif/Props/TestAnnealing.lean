import Verif.Model.TestAnnealing
import Verif.Props.AnnealMain
/-
C93: nested variational inference written out without combinators (tests/test_annealing.py) computes what vsmc computes.
-/
namespace Verif
namespace Tests
namespace Plain
/-- Integers, without gradients. -/
@[reducible] def L : Lang where
  V := Int
  W := Int
  D := Int
  U := Unit
  Lo := Int
  grpW := inferInstance
  monLo := inferInstance
  logProb d v := d * v
  detachV v := v
  detachW w := w
  veq a b := a == b
  isZero w := w == 0
  isZero_spec w h := by
    have : w = 0 := by simpa using h
    exact this

def model : AnnealModel L where
  d0 := 2
  rep0 := false
  cls0 := "FixedMultivariateNormal"
  g k v := (k + 1) * v * v
  cls _ := "Tempered"
  f k v := 3 + k + v
  rep := true
  r k v := 7 - k * v
  rep' := false

end Plain

variable {L : Lang}
open AnnealModel

/-- The targets of an annealing model, from the initial distribution on. -/
def targets (M : AnnealModel L) (I : AnnealIds) : Nat → Node L
  | 0 => M.initial I
  | k + 1 => M.target I k

/-- The variable of target `k` when it is the proposal of step `k`: drawn for the first, taken over for the others. -/
def propRV (M : AnnealModel L) : Nat → L.V → RV L
  | 0, v => RV.mk' M.d0 v .sampled M.rep0
  | k + 1, v => RV.mkImproper (M.g k) v .reused

def propOut (M : AnnealModel L) : Nat → L.V → Out L
  | 0, v => Out.mk (tr1 (name 0) (propRV M 0 v)) .float0 (outDict (name 0) v) (.program M.cls0) none none none none []
  | k + 1, v => Out.mk (tr1 (name (k + 1)) (propRV M (k + 1) v)) (.tensor (M.g k v)) (outDict (name (k + 1)) v) (.program (M.cls k)) none none none none []

/-- What step `k` returns for the values `x` and `y`. -/
def stepOut (M : AnnealModel L) (k : Nat) (x y : L.V) (lw : L.W) : NviOut L where
  lw := .tensor lw
  lwBefore := .tensor lw
  trace := tr1 (name (k + 1)) (RV.mkImproper (M.g k) y .reused)
  target := Out.mk (tr1 (name (k + 1)) (RV.mkImproper (M.g k) y .reused)) (.tensor (M.g k y)) (outDict (name (k + 1)) y) (.program (M.cls k)) none none none none []
  proposal := propOut M k x
  forward := Out.mk (tr1 (name (k + 1)) (RV.mk' (M.f k x) y .sampled M.rep)) .float0 (outDict (name (k + 1)) y) (.program "ConditionalMultivariateNormal") none none none none []
  reverse := Out.mk (tr1 (name k) (RV.mk' (M.r k y) x .reused M.rep')) (.tensor (L.logProb (M.r k y) x)) (outDict (name k) x) (.program "ConditionalMultivariateNormal") none none none none []

/-- The weight of step `k`. -/
def stepInc (M : AnnealModel L) (k : Nat) (x y : L.V) : L.W := (M.g k y + L.logProb (M.r k y) x) - (M.density k x + L.logProb (M.f k x) y)

theorem propRV_logProb (M : AnnealModel L) (k : Nat) (x : L.V) : (propRV M k x).logProb = M.density k x := by
  cases k <;> rfl

theorem propRV_value (M : AnnealModel L) (k : Nat) (x : L.V) : (propRV M k x).value = x := by
  cases k <;> rfl

theorem propOut_trace (M : AnnealModel L) (k : Nat) (x : L.V) : (propOut M k x).trace = tr1 (name k) (propRV M k x) := by
  cases k <;> rfl

theorem propRV_prov (M : AnnealModel L) (k : Nat) (x : L.V) : (propRV M k x).prov ≠ .observed := by
  cases k <;> simp [propRV, RV.mk', RV.mkImproper]

theorem kernelInput_outDict (a : String) (x : L.V) : kernelInput (outDict a x) a = .ok x := by
  simp [kernelInput, outDict, getL]

theorem rvOf_mk (a : String) (r : RV L) (lw : LW L.W) (o : PyVal L) (ty : OutTy) : rvOf (Out.mk (tr1 a r) lw o ty none none none none []) a = .ok r := by
  simp [rvOf, Out.trace]

theorem trace_mk (t : Trace L) (lw : LW L.W) (o : PyVal L) (ty : OutTy) : (Out.mk t lw o ty none none none none []).trace = t := rfl

theorem step_eq (M : AnnealModel L) (I : AnnealIds) (k : Nat) (C : Comp L L.V) (lw : LW L.W) (kw : Kw L) (hk : KwOk kw) (w0 w : World L)
    (hp : eval (targets M I k) .none kw w0 = C.bind fun x => .ret (.ok (propOut M k x), w)) (hf : w.cond (I.forward k) = none) :
    computeNviWeight (targets M I k) (targets M I (k + 1)) (M.forward I k) (M.reverse I k) (name k) (name (k + 1)) lw none kw w0 =
      C.bind fun x => .draw (M.f k x) M.rep fun y => .ret (.ok (stepOut M k x y (stepInc M k x y + lw.val)),
        (w.setCond (I.target k) (some (tr1 (name (k + 1)) (RV.mk' (M.f k x) y .sampled M.rep)))).setCond (I.reverse k) (some (tr1 (name k) (propRV M k x)))) := by
  have hval : ∀ y, (LW.tensor y).add lw = .tensor (y + lw.val) := fun y => by cases lw <;> simp [LW.add, LW.val]
  unfold computeNviWeight
  simp only [bind, Exec.bind, hp, Comp.bind_assoc, Comp.bind_ret]
  congr 1; funext x
  have h1 : rvOf (propOut M k x) (name k) = .ok (propRV M k x) := by simp [rvOf, propOut_trace]
  simp only [h1, Exec.lift, Comp.bind_ret, propRV_value, forward]
  rw [eval_kernel _ _ _ _ _ _ _ _ hk hf x (kernelInput_outDict _ _)]
  simp only [Comp.bind_draw, Comp.bind_ret]
  congr 1; funext y
  have i1 : (targets M I (k + 1)).id = I.target k := rfl
  have i2 : (M.reverse I k).id = I.reverse k := rfl
  simp only [rvOf_mk, Comp.bind_ret, setCondTrace, trace_mk, i1, i2]
  rw [targets, target, eval_density_cond _ _ _ _ _ _ _ hk (tr1 (name (k + 1)) (RV.mk' (M.f k x) y .sampled M.rep)) (by simp [World.setCond]) (RV.mk' (M.f k x) y .sampled M.rep) (by simp) (by simp [RV.mk'])]
  have v1 : (RV.mkImproper (M.g k) y .reused).value = y := rfl
  have v2 : (RV.mk' (M.f k x) y .sampled M.rep).value = y := rfl
  simp only [Comp.bind_ret, rvOf_mk, reverse, propOut_trace, trace_mk, v1, v2]
  rw [eval_kernel_cond _ _ _ _ _ _ _ _ hk (tr1 (name k) (propRV M k x)) (by simp [World.setCond]) (propRV M k x) (by simp) (propRV_prov M k x) y (kernelInput_outDict _ _)]
  simp only [Comp.bind_ret, rvOf_mk, pure, Exec.pure, hval, propRV_logProb, propRV_value]
  rfl

/-- The weight the loop accumulates. -/
def loopWeight (M : AnnealModel L) (z : Nat → L.V) : Nat → L.W
  | 0 => 0
  | k + 1 => stepInc M k (z k) (z (k + 1)) + loopWeight M z k

theorem loopWeight_eq (hV : ∀ v, L.detachV v = v) (hW : ∀ x, L.detachW x = x) (M : AnnealModel L) (z : Nat → L.V) (K : Nat) : loopWeight M z K = M.weight z K := by
  have hp : ∀ k, point z k = z k := fun k => by cases k <;> simp [point, hV]
  induction K with
  | zero => rfl
  | succ K ih => simp only [loopWeight, weight, increment, hW, hp, ih, stepInc, density]; rw [add_comm]

theorem loopWeight_congr (M : AnnealModel L) {z z' : Nat → L.V} {K : Nat} (h : ∀ j ≤ K, z j = z' j) : loopWeight M z K = loopWeight M z' K := by
  induction K with
  | zero => rfl
  | succ K ih => simp only [loopWeight, ih fun j hj => h j (by omega), h (K + 1) le_rfl, h K (by omega)]

/-- What the loop has after `K + 1` steps. -/
def loopOut (M : AnnealModel L) (z : Nat → L.V) (K : Nat) : Option (Trace L) × LW L.W × List (NviOut L) :=
  (some (tr1 (name (K + 1)) (RV.mkImproper (M.g K) (z (K + 1)) .reused)), .tensor (loopWeight M z (K + 1)),
    (List.range (K + 1)).map fun k => stepOut M k (z k) (z (k + 1)) (loopWeight M z (k + 1)))

theorem loopOut_congr (M : AnnealModel L) {z z' : Nat → L.V} {K : Nat} (h : ∀ j ≤ K + 1, z j = z' j) : loopOut M z K = loopOut M z' K := by
  unfold loopOut
  rw [h _ le_rfl, loopWeight_congr M h]
  congr 2
  refine List.map_congr_left fun k hk => ?_
  rw [List.mem_range] at hk
  rw [h k (by omega), h (k + 1) (by omega), loopWeight_congr M fun j hj => h j (by omega)]

theorem loopOut_succ (M : AnnealModel L) (z : Nat → L.V) (K : Nat) :
    loopOut M z (K + 1) = (some (stepOut M (K + 1) (z (K + 1)) (z (K + 2)) (stepInc M (K + 1) (z (K + 1)) (z (K + 2)) + loopWeight M z (K + 1))).trace,
      (stepOut M (K + 1) (z (K + 1)) (z (K + 2)) (stepInc M (K + 1) (z (K + 1)) (z (K + 2)) + loopWeight M z (K + 1))).lw,
      (loopOut M z K).2.2 ++ [stepOut M (K + 1) (z (K + 1)) (z (K + 2)) (stepInc M (K + 1) (z (K + 1)) (z (K + 2)) + loopWeight M z (K + 1))]) := by
  conv_lhs => rw [loopOut, List.range_succ, List.map_append]
  rfl

theorem loop_eq (hV : ∀ v, L.detachV v = v) (M : AnnealModel L) (I : AnnealIds) (hI : ∀ j k, I.forward k ≠ I.target j ∧ I.forward k ≠ I.reverse j) (kw : Kw L) (hk : KwOk kw)
    (w : World L) (hw : ∀ k, w.cond (I.forward k) = none) (K : Nat) :
    ∃ W : (Nat → L.V) → World L, (∀ z k, (W z).cond (I.forward k) = none) ∧
      nviLoop (targets M I) (M.forward I) (M.reverse I) name none kw (K + 1) w = (M.chain (K + 1)).bind fun z => .ret (.ok (loopOut M z K), W z) := by
  have hp : ∀ (z : Nat → L.V) k, point z k = z k := fun z k => by cases k <;> simp [point, hV]
  have hset : ∀ (w : World L) i t k, w.cond (I.forward k) = none → (I.forward k ≠ i ∨ t = none) → (w.setCond i t).cond (I.forward k) = none := by
    intro w i t k h1 h2
    simp only [World.setCond]
    split
    · exact h2.resolve_left (by simpa using ‹_›)
    · exact h1
  induction K with
  | zero =>
    refine ⟨fun z => ((w.setCond I.initial none).setCond (I.target 0) (some (tr1 (name 1) (RV.mk' (M.f 0 (z 0)) (z 1) .sampled M.rep)))).setCond (I.reverse 0) (some (tr1 (name 0) (propRV M 0 (z 0)))), ?_, ?_⟩
    · intro z k
      exact hset _ _ _ _ (hset _ _ _ _ (hset _ _ _ _ (hw k) (Or.inr rfl)) (Or.inl (hI 0 k).1)) (Or.inl (hI 0 k).2)
    · have hs := step_eq M I 0 (.draw M.d0 M.rep0 fun v => .ret v) .float0 kw hk (w.setCond I.initial none) (w.setCond I.initial none) (by
        rw [targets, initial, eval_distribution _ _ _ _ _ _ _ _ hk (by simp [World.setCond])]
        rfl) (hset _ _ _ _ (hw 0) (Or.inr rfl))
      simp only [nviLoop, bind, Exec.bind, pure, Exec.pure, Comp.bind_ret, setCondCopy, show (targets M I 0).id = I.initial from rfl, hs, Comp.bind_draw, Comp.bind_assoc, chain, hp]
      rfl
  | succ K ih =>
    obtain ⟨W, hW, e⟩ := ih
    let W1 : (Nat → L.V) → World L := fun z => (W z).setCond (I.target K) (some (tr1 (name (K + 1)) (RV.mkImproper (M.g K) (z (K + 1)) .reused)))
    have hs := fun z : Nat → L.V => step_eq M I (K + 1) (.ret (z (K + 1))) (.tensor (loopWeight M z (K + 1))) kw hk (W1 z) (W1 z) (by
      rw [targets, target, eval_density_cond _ _ _ _ _ _ _ hk (tr1 (name (K + 1)) (RV.mkImproper (M.g K) (z (K + 1)) .reused)) (by simp [W1, World.setCond]) (RV.mkImproper (M.g K) (z (K + 1)) .reused) (by simp) (by simp [RV.mkImproper])]
      rfl) (hset _ _ _ _ (hW z _) (Or.inl (hI _ _).1))
    refine ⟨fun z => ((W1 (trunc (K + 1) z)).setCond (I.target (K + 1)) (some (tr1 (name (K + 2)) (RV.mk' (M.f (K + 1) (z (K + 1))) (z (K + 2)) .sampled M.rep)))).setCond (I.reverse (K + 1))
      (some (tr1 (name (K + 1)) (propRV M (K + 1) (z (K + 1))))), ?_, ?_⟩
    · intro z k
      exact hset _ _ _ _ (hset _ _ _ _ (hset _ _ _ _ (hW _ k) (Or.inl (hI _ k).1)) (Or.inl (hI _ k).1)) (Or.inl (hI _ k).2)
    · rw [nviLoop]
      simp only [bind, Exec.bind, e, Comp.bind_assoc, Comp.bind_ret, loopOut, setCondCopy, copytrace1_ok, Exec.lift, setCondTrace, show (targets M I (K + 1)).id = I.target K from rfl]
      rw [chain_trunc]
      have hs' : ∀ z, computeNviWeight (targets M I (K + 1)) (targets M I (K + 1 + 1)) (M.forward I (K + 1)) (M.reverse I (K + 1)) (name (K + 1)) (name (K + 1 + 1))
          (.tensor (loopWeight M z (K + 1))) none kw ((W z).setCond (I.target K) (some (tr1 (name (K + 1)) (RV.mkImproper (M.g K) (z (K + 1)) .reused)))) = _ := hs
      simp only [hs', Comp.bind_ret, Comp.bind_draw]
      show _ = (Comp.bind ((M.chain (K + 1)).bind _) _)
      simp only [Comp.bind_assoc, Comp.bind_draw, Comp.bind_ret, hp]
      congr 1; funext z
      have ht : ∀ j ≤ K + 1, trunc (K + 1) z j = z j := fun j hj => by simp [trunc, hj]
      rw [ht _ le_rfl]
      congr 1; funext y
      set z' : Nat → L.V := fun j => if j ≤ K + 1 then z j else y with hz'
      have h1 : ∀ j ≤ K + 1, z' j = z j := fun j hj => if_pos hj
      have h2 : z' (K + 2) = y := if_neg (by omega)
      have h3 : ∀ j ≤ K + 1, trunc (K + 1) z j = z' j := fun j hj => by rw [ht j hj, h1 j hj]
      have h4 : trunc (K + 1) z' = trunc (K + 1) z := trunc_upd _ _ _
      refine congrArg Comp.ret (Prod.ext (congrArg Except.ok ?_) ?_)
      · show _ = loopOut M z' (K + 1)
        rw [loopOut_succ, ← loopOut_congr M h3, h1 _ le_rfl, h2, ← loopWeight_congr M h3]
        rfl
      · show _ = ((W1 (trunc (K + 1) z')).setCond _ (some (tr1 _ (RV.mk' (M.f (K + 1) (z' (K + 1))) (z' (K + 2)) _ _)))).setCond _ (some (tr1 _ (propRV M (K + 1) (z' (K + 1)))))
        rw [h4, h1 _ le_rfl, h2]

/-- C93. The loop of `test_K_step_nvi`, without resampling, on an annealing model with one kernel or more, whose forward kernels are other objects than the targets and reverse
kernels and not conditioned: it never raises, draws the same chain as vsmc (C30), and the log weight after step k is the weight of vsmc's chain after k + 1 steps. The values of its
traces are those of the chain. -/
theorem C93_loop (hV : ∀ v, L.detachV v = v) (hW : ∀ x, L.detachW x = x) (M : AnnealModel L) (I : AnnealIds) (hI : ∀ j k, I.forward k ≠ I.target j ∧ I.forward k ≠ I.reverse j)
    (kw : Kw L) (hk : KwOk kw) (w : World L) (hw : ∀ k, w.cond (I.forward k) = none) (K : Nat) (hK : 0 < K) :
    ∃ (G : (Nat → L.V) → Option (Trace L) × LW L.W × List (NviOut L)) (W : (Nat → L.V) → World L),
      nviLoop (targets M I) (M.forward I) (M.reverse I) name none kw K w = (M.chain K).bind (fun z => .ret (.ok (G z), W z)) ∧
      ∀ z, (G z).2.1 = .tensor (M.weight z K) ∧ (G z).2.2.length = K ∧ ∀ (k : Nat) o, (G z).2.2[k]? = some o →
        o.lw = .tensor (M.weight z (k + 1)) ∧ o.lwBefore = o.lw ∧
          (∃ rv, o.proposal.trace.get? (name k) = some rv ∧ rv.value = z k) ∧ (∃ rv, o.forward.trace.get? (name (k + 1)) = some rv ∧ rv.value = z (k + 1)) ∧
          (∃ rv, o.target.trace.get? (name (k + 1)) = some rv ∧ rv.value = z (k + 1)) ∧ ∃ rv, o.reverse.trace.get? (name k) = some rv ∧ rv.value = z k := by
  obtain ⟨K, rfl⟩ : ∃ k, K = k + 1 := ⟨K - 1, by omega⟩
  obtain ⟨W, -, e⟩ := loop_eq hV M I hI kw hk w hw K
  refine ⟨_, W, e, fun z => ⟨by rw [loopOut, loopWeight_eq hV hW], by simp [loopOut], fun k o ho => ?_⟩⟩
  obtain ⟨hkK, rfl⟩ : k < K + 1 ∧ stepOut M k (z k) (z (k + 1)) (loopWeight M z (k + 1)) = o := by
    simp only [loopOut, List.getElem?_map, Option.map_eq_some_iff, List.getElem?_range, List.getElem?_eq_some_iff] at ho
    obtain ⟨a, ⟨h1, h2⟩, h3⟩ := ho
    simp only [List.length_range] at h1
    simp only [List.getElem_range] at h2
    subst h2
    exact ⟨h1, h3⟩
  refine ⟨by rw [← loopWeight_eq hV hW]; rfl, rfl, ⟨propRV M k (z k), ?_, propRV_value M k _⟩, ⟨_, by simp only [stepOut, trace_mk, tr1_get, if_true]; rfl, rfl⟩,
    ⟨_, by simp only [stepOut, trace_mk, tr1_get, if_true]; rfl, rfl⟩, ⟨_, by simp only [stepOut, trace_mk, tr1_get, if_true]; rfl, rfl⟩⟩
  simp only [stepOut, propOut_trace, tr1_get, if_true]

/-- C93. On the same draws vsmc without resampling and the loop end with the same log weight, and row k of `get_stats` holds the log weight that the loop has after its step k.
`test_K_step_nvi` compares with row -(k + 1) instead: that is the weight after K - k steps, so its assertion says that the weights after k + 1 and K - k steps are equal. -/
theorem C93_agrees (hV : ∀ v, L.detachV v = v) (hW : ∀ x, L.detachW x = x) (fresh : ObjId) (M : AnnealModel L) (I : AnnealIds) (hid : I.Below fresh)
    (hI : ∀ j k, I.forward k ≠ I.target j ∧ I.forward k ≠ I.reverse j) (lossFn : Out L → Except Err L.Lo) (hl : LossOk lossFn)
    (transf : Option (Trace L → Kw L → Except Err (Trace L))) (ht : AnnealTransf transf) (K : Nat) (hK : 0 < K) :
    ∃ nd : Node L, vsmc fresh (M.initial I :: (List.range K).map (M.target I)) ((List.range K).map (M.forward I)) ((List.range K).map (M.reverse I)) lossFn transf none = .ok nd ∧
      ∀ (c : PyVal L) (kw : Kw L) (w : World L), KwOk kw → (∀ j, w.cond j = none) →
        ∃ (F : (Nat → L.V) → Out L) (G : (Nat → L.V) → Option (Trace L) × LW L.W × List (NviOut L)) (W : (Nat → L.V) → World L),
          eval nd c kw w = (M.chain K).bind (fun z => .ret (.ok (F z), w)) ∧
          nviLoop (targets M I) (M.forward I) (M.reverse I) name none kw K w = (M.chain K).bind (fun z => .ret (.ok (G z), W z)) ∧
          ∀ z, (F z).logWeight.val = (G z).2.1.val ∧ ∃ rows, getStats (F z) = .ok rows ∧ rows.length = K ∧ (G z).2.2.length = K ∧
            ∀ (k : Nat) r o, rows[k]? = some r → (G z).2.2[k]? = some o → r.lw = o.lwBefore ∧
              (statLw rows k = .ok o.lwBefore ↔ M.weight z (k + 1) = M.weight z (K - k)) := by
  obtain ⟨nd, h1, h2⟩ := chain_vsmc fresh ((List.range K).map (M.forward I)).length M I hid lossFn hl transf ht.ok K
  refine ⟨nd, ?_, fun c kw w hk hw => ?_⟩
  · simp only [vsmc]
    rw [zip3_range]
    exact h1
  obtain ⟨F, e1, e2⟩ := h2 c kw w hk hw
  obtain ⟨G, W, e3, e4⟩ := C93_loop hV hW M I hI kw hk w (fun _ => hw _) K hK
  refine ⟨F, G, W, e1, e3, fun z => ?_⟩
  obtain ⟨ra, -, -, -, -, -, r3, -, -, -, rows, r4, r5, r6⟩ := e2 z
  obtain ⟨g1, g2, g3⟩ := e4 z
  have hin : ∀ k, M.incoming z (k + 1) = M.weight z (k + 1) := fun k => by rw [incoming, hW]
  have hne : rows ≠ [] := by rintro rfl; simp at r4; omega
  have hst : getStats (F z) = .ok rows := by
    unfold getStats
    rw [r6 (by omega) [], List.append_nil]
    cases rows with
    | nil => exact absurd rfl hne
    | cons => rfl
  refine ⟨by rw [r3, lw_val, g1]; rfl, rows, hst, r4, g2, fun k r o hr ho => ?_⟩
  obtain ⟨o1, o2, -⟩ := g3 k o ho
  have hrk : k < K := by rw [← r4]; exact (List.getElem?_eq_some_iff.1 hr).1
  refine ⟨by rw [(r5 k r hr).lw, hin, o2, o1], ?_⟩
  have hrev : rows.reverse[k]? = rows[K - 1 - k]? := by rw [List.getElem?_reverse (by omega), r4]
  obtain ⟨r', hr'⟩ : ∃ r', rows[K - 1 - k]? = some r' := ⟨_, List.getElem?_eq_getElem (by omega)⟩
  have hl' := (r5 _ _ hr').lw
  rw [hin, show K - 1 - k + 1 = K - k by omega] at hl'
  simp only [statLw, hrev, hr', hl', o2, o1, Except.ok.injEq, LW.tensor.injEq]
  exact eq_comm

/-- C93 for two steps and the chain 1, 2, 3: the weights after the steps differ, so that the assertion of `test_K_step_nvi`, which compares the first with the second, fails. -/
example (w : World Plain.L) (hw : ∀ j, w.cond j = none) : ∃ nd : Node Plain.L, vsmc 100 (Plain.model.initial Toy.annealIds :: (List.range 2).map (Plain.model.target Toy.annealIds))
      ((List.range 2).map (Plain.model.forward Toy.annealIds)) ((List.range 2).map (Plain.model.reverse Toy.annealIds)) (fun o => .ok o.logWeight.val) none none = .ok nd ∧
    ∃ (o : Out Plain.L), (eval nd .none {}).Runs w (.ok o) w ∧
      ∃ (out : Option (Trace Plain.L) × LW Int × List (NviOut Plain.L)) (w' : World Plain.L) (rows : List (StatRow Plain.L)) (o0 : NviOut Plain.L),
        Exec.Runs (nviLoop (targets Plain.model Toy.annealIds) (Plain.model.forward Toy.annealIds) (Plain.model.reverse Toy.annealIds) name none {} 2) w (.ok out) w' ∧
        getStats o = .ok rows ∧ out.2.2[0]? = some o0 ∧ statLw rows 0 ≠ .ok o0.lwBefore := by
  obtain ⟨nd, h1, h2⟩ := C93_agrees (L := Plain.L) (fun _ => rfl) (fun _ => rfl) 100 Plain.model Toy.annealIds
    (fun k => by simp only [Toy.annealIds]; exact ⟨(by have := Nat.mod_lt k (y := 4) (by omega); omega : 3 * (k % 4) + 2 < 100),
      (by have := Nat.mod_lt k (y := 4) (by omega); omega : 3 * (k % 4) + 3 < 100),
      (by have := Nat.mod_lt k (y := 4) (by omega); omega : 3 * (k % 4) + 1 < 100)⟩)
    (fun j k => by simp only [Toy.annealIds]; exact ⟨(by omega : 3 * (k % 4) + 2 ≠ 3 * (j % 4) + 1), (by omega : 3 * (k % 4) + 2 ≠ 3 * (j % 4) + 3)⟩)
    (fun o => .ok o.logWeight.val) (fun _ _ _ => ⟨_, rfl⟩) none (Or.inl rfl) 2 (by omega)
  refine ⟨nd, h1, ?_⟩
  obtain ⟨F, G, W, e1, e2, e3⟩ := h2 .none {} w (fun e he => by cases he) hw
  let z : Nat → Plain.L.V := fun j => if j ≤ 1 then (if j ≤ 0 then (1 : Int) else (2 : Int)) else (3 : Int)
  obtain ⟨-, rows, r1, r2, r3, r4⟩ := e3 z
  refine ⟨F z, ?_, G z, W z, rows, (G z).2.2[0]'(by omega), ?_, r1, List.getElem?_eq_getElem _, ?_⟩
  · show Comp.Ret _ _
    rw [e1]
    exact ⟨(1 : Int), (2 : Int), (3 : Int), rfl⟩
  · show Comp.Ret _ _
    rw [e2]
    exact ⟨(1 : Int), (2 : Int), (3 : Int), rfl⟩
  · have := (r4 0 (rows[0]'(by omega)) ((G z).2.2[0]'(by omega)) (List.getElem?_eq_getElem _) (List.getElem?_eq_getElem _)).2
    rw [Ne, this]
    show ¬ ((_ : Int) = _)
    decide

end Tests
end Verif
