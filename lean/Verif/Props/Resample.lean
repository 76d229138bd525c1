import Mathlib.Data.List.Forall2
import Verif.Proofs.Resample
/-
C19, C25: the Resample combinator with systematic resampling.
-/
namespace Verif
open Spec

namespace TToy
/-- Two particles, no batches; `log_prob` is the value itself. -/
noncomputable abbrev L : Lang := TLang 2 1 ℝ Unit fun _ v => v
/-- Particles with values 5 and 7. -/
noncomputable def x : L.V := fun s _ => if s = 0 then 5 else 7
/-- Data with log densities 0 and log 3. -/
noncomputable def y : L.V := fun s _ => if s = 0 then 0 else Real.log 3
/-- Samples "x", observes "y", returns x. -/
noncomputable def prog : ProgSpec L where
  name := "P"
  sig := { args := ["self", "trace", "c"], varargs := false, kwonly := [], varkw := false }
  debugAttr := none
  model _ _ := .variable "x" () none none true fun x => .variable "y" () (some y) none true fun _ =>
    .ret (.dict [("x", .tensor x), ("note", .str "kept")])
noncomputable def w0 : World L := { cond := fun _ => none, store := Store.init }
/-- The trace of the run that draws `x`. -/
noncomputable def tr : Trace L := (Dict.empty.insert "x" (RV.mk' (L := L) () x .sampled true)).insert "y"
  (RV.mk' (L := L) () y .observed true)
/-- Its result. -/
noncomputable def res : Out L := Out.mk tr (.tensor y) (.dict [("x", .tensor x), ("note", .str "kept")]) (.program "P")
  none none none none []
noncomputable def kw : Kw L := { sampleDims := .int 0 }
end TToy

section
variable {n b : Nat} {X D : Type} {lp : D → (Fin n → Fin b → X) → Fin n → Fin b → ℝ}

/-- Which particle a slot gets in systematic resampling: the first one whose share of the total weight, cumulated, reaches
`(s + u) / n`. -/
def Spec.IsAncestor (w : Fin n → ℝ) (u : ℝ) (s i : Fin n) : Prop :=
  (s.val + u) / n ≤ (∑ l ∈ Finset.univ.filter (· ≤ i), w l) / ∑ l, w l ∧
  ∀ i' < i, (∑ l ∈ Finset.univ.filter (· ≤ i'), w l) / ∑ l, w l < (s.val + u) / n

/-- Same addresses in the same order, related variables. -/
def Spec.SameAddrs {L : Lang} (R : RV L → RV L → Prop) (t t' : Trace L) : Prop :=
  t'.keys = t.keys ∧ ∀ k rv, t.get? k = some rv → ∃ rv', t'.get? k = some rv' ∧ R rv rv'

theorem sameAddrs_of_forall₂ {L : Lang} {R : RV L → RV L → Prop} {t t' : Trace L}
    (h : List.Forall₂ (fun e e' => e'.1 = e.1 ∧ R e.2 e'.2) t.entries t'.entries) : SameAddrs R t t' := by
  constructor
  · have : ∀ l l' : List (String × RV L), List.Forall₂ (fun e e' => e'.1 = e.1 ∧ R e.2 e'.2) l l' → keysL l' = keysL l := by
      intro l l' h
      induction h with
      | nil => rfl
      | cons h _ ih => simp [h.1, ih]
    exact this _ _ h
  · intro k rv hk
    rw [Dict.get?_eq_some] at hk
    obtain ⟨i, hi, he⟩ := List.mem_iff_getElem.1 hk
    have hl := h.length_eq
    have hget := (List.forall₂_iff_get.1 h).2 i hi (hl ▸ hi)
    simp only [List.get_eq_getElem, he] at hget
    refine ⟨(t'.entries[i]'(hl ▸ hi)).2, ?_, hget.2⟩
    rw [Dict.get?_eq_some]
    have : t'.entries[i]'(hl ▸ hi) = (k, (t'.entries[i]'(hl ▸ hi)).2) := Prod.ext hget.1 rfl
    rw [← this]
    exact List.getElem_mem _

theorem isAncestor_of_eq [NeZero n] (lw : Fin n → ℝ) (u : ℝ) (s i : Fin n)
    (h : i.val = ancestors (softmax lw) u s) : IsAncestor (fun i => Real.exp (lw i)) u s i := by
  have h' := h.symm
  unfold ancestors at h'
  rw [searchsorted_eq_iff, maxOf_cumsum (softmax_hyps lw).1, softmax_sum] at h'
  have hc : ∀ i, cumsum (softmax lw) i / 1 =
      (∑ l ∈ Finset.univ.filter (· ≤ i), Real.exp (lw l)) / ∑ l, Real.exp (lw l) := by
    intro i
    unfold cumsum softmax
    rw [div_one, ← Finset.sum_div]
  simp only [hc] at h'
  exact h'

/-- What a Resample call should make of the result `qo` of its proposal, given every slot's ancestor. -/
structure Spec.Resampled (anc : Fin n → Fin b → Fin n) (qo o : Out (TLang n b X D lp)) : Prop where
  /-- Same addresses, in the same order; every variable either moved as a whole or untouched. -/
  trace : SameAddrs (Moved anc) qo.trace o.trace
  /-- The output is a dict with the same keys; an entry that is a trace address is that variable's new value, the others
  are untouched. -/
  output : ∃ kvs kvs', qo.output = .dict kvs ∧ o.output = .dict kvs' ∧ keysL kvs' = keysL kvs ∧
    ∀ k, (∀ rv, o.trace.get? k = some rv → k ∈ keysL kvs → getL kvs' k = some (.tensor rv.value)) ∧
      (o.trace.get? k = none → getL kvs' k = getL kvs k)

theorem getL_map_val {α β : Type} (l : List (String × α)) (f : String × α → β) (k : String) :
    getL (l.map fun e => (e.1, f e)) k = (getL l k).map fun v => f (k, v) := by
  induction l with
  | nil => rfl
  | cons e l ih =>
    obtain ⟨k', v⟩ := e
    by_cases h : k' = k
    · subst h; simp [getL]
    · simp only [List.map_cons, getL, h]
      simpa [h] using ih

theorem resampleOutput_ok {L : Lang} {c c2 : PyVal L} {t : Trace L} (h : resampleOutput c t = .ok c2) :
    ∃ kvs kvs', c = .dict kvs ∧ c2 = .dict kvs' ∧ keysL kvs' = keysL kvs ∧
    ∀ k, (∀ rv, t.get? k = some rv → k ∈ keysL kvs → getL kvs' k = some (.tensor rv.value)) ∧
      (t.get? k = none → getL kvs' k = getL kvs k) := by
  unfold resampleOutput at h
  split at h
  · rename_i kvs
    split at h
    · cases h
    · cases h
      refine ⟨kvs, _, rfl, rfl, ?_, fun k => ⟨?_, ?_⟩⟩
      · simp [keysL]
      · intro rv hk hm
        rw [getL_map_val]
        obtain ⟨v, hv⟩ := Option.isSome_iff_exists.1 (getL_isSome.2 hm)
        simp [hv, hk, resampleEntry]
      · intro hk
        rw [getL_map_val]
        cases getL kvs k <;> simp [hk, resampleEntry]
  · cases h

theorem resample_core (a : Attrs (TLang n b X D lp)) (oneD normalize : Bool) (q : Node (TLang n b X D lp))
    (c : PyVal (TLang n b X D lp)) (kw : Kw (TLang n b X D lp)) (w w' : World (TLang n b X D lp))
    (o : Out (TLang n b X D lp)) (h : (eval (.resample a (systematic oneD normalize) q) c kw).Runs w (.ok o) w') :
    ∃ (qo : Out (TLang n b X D lp)) (w1 : World (TLang n b X D lp)) (lv : Fin n → Fin b → ℝ) (u : Fin b → ℝ)
      (anc : Fin n → Fin b → Fin n), (eval q c (subKw a kw)).Runs w (.ok qo) w1 ∧ qo.logWeight = .tensor lv ∧
      (∀ s j, IsAncestor (fun i => Real.exp (lv i j)) (u j) s (anc s j)) ∧ (∀ j, 0 ≤ u j ∧ u j < 1) ∧
      Resampled anc qo o := by
  obtain ⟨qo, w1, t, lw, c2, h1, h2, h3, -, -, h4⟩ := eval_resample_ok h
  obtain ⟨hn, lv, u, anc, h5, -, h6, h7, h8⟩ := systematic_ok _ _ _ _ _ _ _ _ h2
  obtain ⟨l, -, rfl⟩ := finish_ok h4
  refine ⟨qo, w1, lv, fun j => (u j).1, anc, h1, h5, fun s j => isAncestor_of_eq _ _ _ _ (h6 s j),
    fun j => ⟨(u j).2.1, (u j).2.2⟩, ?_, ?_⟩
  · exact sameAddrs_of_forall₂ h7
  · exact resampleOutput_ok h3

/-- C19. Resample keeps the addresses and their order, every variable's provenance, class and distribution, and
(for variables with a distribution) its reparameterized flag; OBSERVED and non-resamplable variables are untouched; the
output dict keeps its keys, entries named like a trace address are that variable's new value and the others are
untouched. -/
theorem C19_structure (a : Attrs (TLang n b X D lp)) (oneD normalize : Bool) (q : Node (TLang n b X D lp))
    (c : PyVal (TLang n b X D lp)) (kw : Kw (TLang n b X D lp)) (w w' : World (TLang n b X D lp))
    (o : Out (TLang n b X D lp)) (h : (eval (.resample a (systematic oneD normalize) q) c kw).Runs w (.ok o) w') :
    ∃ qo w1, (eval q c (subKw a kw)).Runs w (.ok qo) w1 ∧
      o.trace.keys = qo.trace.keys ∧
      (∀ k rv, qo.trace.get? k = some rv → ∃ rv', o.trace.get? k = some rv' ∧
        rv'.prov = rv.prov ∧ rv'.kind = rv.kind ∧ rv'.resamplable = rv.resamplable ∧
        (∀ d, rv.kind = .proper d → rv'.reparam = rv.reparam) ∧
        (rv.resamplable = false ∨ rv.prov = .observed → rv' = rv)) ∧
      ∃ kvs kvs', qo.output = .dict kvs ∧ o.output = .dict kvs' ∧ keysL kvs' = keysL kvs ∧
        ∀ k ∈ keysL kvs, (∀ rv, o.trace.get? k = some rv → getL kvs' k = some (.tensor rv.value)) ∧
          (o.trace.get? k = none → getL kvs' k = getL kvs k) := by
  obtain ⟨qo, w1, lv, u, anc, h1, -, -, -, h2⟩ := resample_core a oneD normalize q c kw w w' o h
  refine ⟨qo, w1, h1, h2.trace.1, fun k rv hk => ?_, ?_⟩
  · obtain ⟨rv', h3, h4, h5⟩ := h2.trace.2 k rv hk
    refine ⟨rv', h3, ?_⟩
    by_cases hp : Permuted rv
    · obtain ⟨e1, e2, e3, -, -, e4, -, -⟩ := h4 hp
      refine ⟨e1, e2, by rw [e3, hp.1], e4, ?_⟩
      rintro (h6 | h6)
      · rw [hp.1] at h6; cases h6
      · exact absurd h6 hp.2
    · rw [h5 hp]
      exact ⟨rfl, rfl, rfl, fun _ _ => rfl, fun _ => rfl⟩
  · obtain ⟨kvs, kvs', h3, h4, h5, h6⟩ := h2.output
    exact ⟨kvs, kvs', h3, h4, h5, fun k hk => ⟨fun rv hr => (h6 k).1 rv hr hk, (h6 k).2⟩⟩

/-- C25. There is one ancestor particle per slot, chosen from the incoming weights, such that for every permuted variable
value and log_prob of the slot are the ancestor's, and so is the value of every output entry named like a permuted
variable. Variables that are not permuted keep the old order. -/
theorem C25_aligned (a : Attrs (TLang n b X D lp)) (oneD normalize : Bool) (q : Node (TLang n b X D lp))
    (c : PyVal (TLang n b X D lp)) (kw : Kw (TLang n b X D lp)) (w w' : World (TLang n b X D lp))
    (o : Out (TLang n b X D lp)) (h : (eval (.resample a (systematic oneD normalize) q) c kw).Runs w (.ok o) w') :
    ∃ qo w1, (eval q c (subKw a kw)).Runs w (.ok qo) w1 ∧
      ∃ (lv : Fin n → Fin b → ℝ) (u : Fin b → ℝ) (anc : Fin n → Fin b → Fin n), qo.logWeight = .tensor lv ∧ (∀ j, 0 ≤ u j ∧ u j < 1) ∧
        (∀ s j, IsAncestor (fun i => Real.exp (lv i j)) (u j) s (anc s j)) ∧
        ∀ k rv, qo.trace.get? k = some rv →
          (rv.resamplable = true ∧ rv.prov ≠ .observed →
            (∃ rv', o.trace.get? k = some rv' ∧ ∀ s j, rv'.value s j = rv.value (anc s j) j ∧
              rv'.logProb s j = rv.logProb (anc s j) j) ∧
            ∀ kvs, o.output = .dict kvs → k ∈ keysL kvs →
              getL kvs k = some (.tensor fun s j => rv.value (anc s j) j)) ∧
          (¬ (rv.resamplable = true ∧ rv.prov ≠ .observed) → o.trace.get? k = some rv) := by
  obtain ⟨qo, w1, lv, u, anc, h1, h2, h3, hu, h4⟩ := resample_core a oneD normalize q c kw w w' o h
  refine ⟨qo, w1, h1, lv, u, anc, h2, hu, h3, fun k rv hk => ?_⟩
  obtain ⟨rv', h5, h6, h7⟩ := h4.trace.2 k rv hk
  refine ⟨fun hp => ?_, fun hp => by rw [h5, h7 hp]⟩
  obtain ⟨-, -, -, -, -, -, e1, e2⟩ := h6 hp
  refine ⟨⟨rv', h5, fun s j => ⟨e1 s j, e2 s j⟩⟩, fun kvs ho hkm => ?_⟩
  obtain ⟨kv, kv', -, h8, h9, h10⟩ := h4.output
  rw [h8] at ho
  cases ho
  rw [(h10 k).1 rv' h5 (h9 ▸ hkm)]
  congr 2
  funext s j
  exact e1 s j

/-- C19. Systematic resampling cannot fail on `n > 0` particles with tensor weights when the dimensions are as required and
every variable to permute is of one of the two known classes. -/
theorem C19_returns [NeZero n] (oneD normalize : Bool) (sd bd : PyVal (TLang n b X D lp)) (t : Trace (TLang n b X D lp))
    (lv : Fin n → Fin b → ℝ) (hd : sd = .int 0 ∧ (oneD = true ∧ bd = .none ∨ oneD = false ∧ bd = .int 1))
    (ht : ∀ k rv, t.get? k = some rv → rv.kind ≠ .other) (r : Except Err (Trace (TLang n b X D lp) × LW _))
    (h : (systematic oneD normalize sd bd t (.tensor lv)).Ret r) : ∃ x, r = .ok x := by
  have hc : checkDims oneD n b sd bd = .ok () := by
    obtain ⟨rfl, ⟨rfl, rfl⟩ | ⟨rfl, rfl⟩⟩ := hd <;> rfl
  unfold systematic at h
  simp only [hc] at h
  obtain ⟨u, h⟩ := h
  obtain ⟨x, hx⟩ := systematicAt_total normalize t lv u fun k rv hk _ => ht k rv hk
  exact ⟨x, by rw [← hx]; exact h.symm⟩

/-- C19. What systematic resampling refuses: sample dimensions other than 0 and weights with two dimensions but no batch_dim
(AssertionError), and the Python float 0.0 as weight (AttributeError). -/
theorem C19_refuses (oneD normalize : Bool) (sd bd : PyVal (TLang n b X D lp)) (t : Trace (TLang n b X D lp)) (lw : LW (TLang n b X D lp).W)
    (r : Except Err (Trace (TLang n b X D lp) × LW _)) (h : (systematic oneD normalize sd bd t lw).Ret r) :
    (sd ≠ .int 0 → r = .error .assertion) ∧ (sd = .int 0 → lw = .float0 → r = .error .attribute) ∧
    (sd = .int 0 → (∃ lv, lw = .tensor lv) → oneD = false → bd = .none → r = .error .assertion) := by
  unfold systematic at h
  refine ⟨fun h1 => ?_, ?_, ?_⟩
  · have hc : checkDims oneD n b sd bd = .error .assertion := by
      unfold checkDims
      split
      · exact absurd rfl h1
      · rfl
    cases lw with
    | float0 =>
      dsimp only at h
      split at h
      · exact absurd rfl h1
      · exact h.symm
    | tensor lv =>
      simp only [hc] at h
      exact h.symm
  · rintro rfl rfl
    exact h.symm
  · rintro rfl ⟨lv, rfl⟩ rfl rfl
    exact h.symm

end

/-- The converse of `eval_resample_ok` for the default loss. -/
theorem eval_resample_runs {L : Lang} {i : ObjId} {r : ResamplerFn L} {q : Node L} {c : PyVal L} {kw : Kw L} {w w1 : World L}
    {qo : Out L} {t : Trace L} {lw : LW L.W} {c2 : PyVal L} (h1 : (eval q c kw).Runs w (.ok qo) w1)
    (h2 : (r kw.sampleDims kw.batchDim qo.trace qo.logWeight).Ret (.ok (t, lw)))
    (h3 : resampleOutput qo.output t = .ok c2) (h4 : w1.store.hooks = Hooks.noop) :
    ∃ o w', (eval (mkResample i r q none .none false) c kw).Runs w (.ok o) w' ∧ o.trace = t ∧ o.logWeight = lw ∧
      o.output = c2 := by
  have h5 : w1.store.resampleUpdate qo.trace t = (.ok (), w1.store) := by
    obtain ⟨cond, ⟨data, hooks⟩⟩ := w1
    simp only at h4
    subst h4
    rfl
  unfold mkResample eval resampleRest
  refine ⟨_, w1, Exec.Runs_bind_ok.2 ⟨qo, w1, h1, Exec.Runs_bind_ok.2 ⟨(t, lw), w1, Exec.Runs_liftComp.2 ⟨h2, rfl⟩,
    Exec.Runs_bind_ok.2 ⟨c2, w1, Exec.Runs_lift.2 ⟨h3.symm, rfl⟩, Exec.Runs_bind_ok.2 ⟨(), w1, Exec.Runs_onStore.2 ?_,
      Exec.Runs_bind_ok.2 ⟨_, w1, Exec.Runs_lift.2 ⟨rfl, rfl⟩, Exec.Runs_pure.2 ⟨rfl, rfl⟩⟩⟩⟩⟩⟩, ?_⟩
  · rw [h5]; exact ⟨rfl, rfl⟩
  · cases kw.debug <;> exact ⟨rfl, rfl, rfl⟩

namespace TToy

theorem run : (eval (.prog 0 prog) .none kw).Runs w0 (.ok res) w0 := by
  refine ⟨x, ?_⟩
  show (Comp.ret _).Ret _
  rw [Comp.ret_Ret]
  rfl

end TToy

open TToy in
/-- C25, the OBSERVED case. A program samples "x" and observes "y", and is resampled; in some run slot 0 holds particle 1's
"x" but particle 0's density of "y", and the log_probs of the slot do not add up to the joint of any incoming
particle. (The run is also an instance of C19_structure and C25_aligned.) -/
theorem C25_observed_misaligned :
    ∃ (qo o : Out TToy.L) (w1 w' : World TToy.L), (eval (.prog 0 TToy.prog) .none kw).Runs w0 (.ok qo) w1 ∧
      (eval (mkResample 1 (systematic true false) (.prog 0 TToy.prog) none .none false) .none kw).Runs w0 (.ok o) w' ∧
      ∃ x y x' y', qo.trace.get? "x" = some x ∧ qo.trace.get? "y" = some y ∧
        o.trace.get? "x" = some x' ∧ o.trace.get? "y" = some y' ∧
        x'.logProb 0 0 = x.logProb 1 0 ∧ y'.logProb 0 0 = y.logProb 0 0 ∧
        ∀ i, x'.logProb 0 0 + y'.logProb 0 0 ≠ x.logProb i 0 + y.logProb i 0 := by
  let u : Fin 1 → Set.Ico (0 : ℝ) 1 := fun _ => ⟨3 / 4, by norm_num, by norm_num⟩
  obtain ⟨t', lw', h1, h2⟩ := systematic_total true false (.int 0) .none res.trace y (by rfl) (by
    intro k rv hk _ ho
    have : k = "y" ∨ k = "x" := by
      have := Dict.mem_keys_iff.2 ⟨rv, hk⟩
      simpa [res, tr, Dict.mem_keys_insert] using this
    rcases this with rfl | rfl <;> cases hk <;> cases ho) u
  obtain ⟨anc, h3, h4, -⟩ := systematicAt_ok false res.trace t' y u lw' h1
  obtain ⟨hk, h4⟩ := sameAddrs_of_forall₂ h4
  have hanc : anc 0 0 = 1 := by
    have := (isAncestor_of_eq _ _ _ _ (h3 0 0)).1
    by_contra hne
    have h0 : anc 0 0 = 0 := by omega
    rw [h0] at this
    have hf : (Finset.univ.filter (· ≤ (0 : Fin 2))) = {0} := by decide
    rw [hf, Finset.sum_singleton, Fin.sum_univ_two] at this
    simp [y, u, Real.exp_log] at this
    norm_num at this
  obtain ⟨x', hx1, hx2, -⟩ := h4 "x" (RV.mk' (L := TToy.L) () x .sampled true) rfl
  obtain ⟨y', hy1, -, hy2⟩ := h4 "y" (RV.mk' (L := TToy.L) () y .observed true) rfl
  obtain ⟨-, -, -, -, -, -, -, hx3⟩ := hx2 ⟨rfl, by simp [RV.mk']⟩
  have hy3 := hy2 (by rintro ⟨-, h⟩; exact h rfl)
  obtain ⟨o, w', h5, h6, -, -⟩ := eval_resample_runs (i := 1) (r := systematic true false) run h2
    (c2 := .dict [("x", .tensor x'.value), ("note", .str "kept")]) (by
      have hn : t'.get? "note" = none := by rw [Dict.get?_eq_none, hk]; decide
      simp [resampleOutput, res, resampleEntry, hx1, hn, Dict.contains, isTensor]) rfl
  have hX : ∀ i, (RV.mk' (L := TToy.L) () x .sampled true).logProb i 0 = if i = 0 then 5 else 7 := fun _ => rfl
  have hY : ∀ i, (RV.mk' (L := TToy.L) () y .observed true).logProb i 0 = if i = 0 then 0 else Real.log 3 := fun _ => rfl
  have hxv : x'.logProb 0 0 = 7 := by
    rw [hx3, hanc, hX]
    simp
  refine ⟨res, o, w0, w', run, h5, _, _, x', y', rfl, rfl, by rw [h6, hx1], by rw [h6, hy1], ?_, by rw [hy3], ?_⟩
  · rw [hx3, hanc]
  · intro i
    rw [hxv, hy3, hX, hY, hY]
    have hl : Real.log 3 ≠ 0 := by
      have := Real.log_pos (show (1 : ℝ) < 3 by norm_num)
      exact this.ne'
    fin_cases i <;> simp [hl]

end Verif
