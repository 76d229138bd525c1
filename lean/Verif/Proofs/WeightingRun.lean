import Verif.Proofs.WeightingNode
import Verif.Proofs.Scope
import Verif.Props.Combinators
import Verif.Spec.Lanes
/-
Proper weighting: expectations over the runs of programs and combinators, as one particle sees them.
-/
namespace Verif
open Spec MeasureTheory
open scoped ENNReal

section
variable {L : Lang} {V D Lo : Type} [AddCommMonoid Lo] {lp : D → V → ℝ} [MeasurableSpace V] {μ : Measure V}
local notation "𝕃" => PLang V D Lo lp

/-! ### Expectations -/

/-- What an expectation over draws satisfies, for functions of the particles `l i` that are put together by `G` (a sum, or a product).
A draw has, for each of the particles, its distribution there. -/
structure IsLawOf {ι : Type} (G : (ι → ℝ≥0∞) → ℝ≥0∞) (μ : Measure V) (l : ι → Lane L lp) (E : ∀ {α : Type}, Comp L α → (α → ℝ≥0∞) → ℝ≥0∞) : Prop where
  ret : ∀ {α : Type} (a : α) (g : α → ℝ≥0∞), E (.ret a) g = g a
  bind : ∀ {α β : Type} (m : Comp L α) (f : α → Comp L β) (g : β → ℝ≥0∞), E (m.bind f) g = E m fun a => E (f a) g
  congr : ∀ {α : Type} (m : Comp L α) (g g' : α → ℝ≥0∞), (∀ a, m.Ret a → g a = g' a) → E m g = E m g'
  draw : ∀ {α : Type} (d : L.D) (b : Bool) (k : L.V → Comp L α) (g : α → ℝ≥0∞) (F : ι → V → ℝ≥0∞), (∀ i, Measurable (F i)) →
    (∀ v, E (k v) g = G fun i => F i ((l i).v v)) → E (.draw d b k) g = G fun i => ∫⁻ x, dens (lp ((l i).d d) x) * F i x ∂μ

/-- The sum over the particles. -/
abbrev IsLaw {ι : Type} [Fintype ι] (μ : Measure V) (l : ι → Lane L lp) (E : ∀ {α : Type}, Comp L α → (α → ℝ≥0∞) → ℝ≥0∞) : Prop :=
  IsLawOf (fun f => ∑ i, f i) μ l E

/-- A function of the results that return. -/
def onOk {α : Type} (g : α → ℝ≥0∞) (r : Except Err α × World L) : ℝ≥0∞ :=
  match r.1 with
  | .ok a => g a
  | .error _ => 0

section
variable {ι : Type} [Fintype ι] {l : ι → Lane L lp} {E : ∀ {α : Type}, Comp L α → (α → ℝ≥0∞) → ℝ≥0∞}

theorem IsLawOf.onOk_bind {G₀ : (ι → ℝ≥0∞) → ℝ≥0∞} (hE : IsLawOf G₀ μ l E) {α β : Type} {m : Exec L α} {f : α → Exec L β} {w : World L} {g : β → ℝ≥0∞} (G : α → ℝ≥0∞)
    (h : ∀ a w1, m.Runs w (.ok a) w1 → E (f a w1) (onOk g) = G a) :
    E ((m >>= f) w) (onOk g) = E (m w) (onOk G) := by
  rw [Exec.bind_eq]
  simp only [Exec.bind]
  rw [hE.bind]
  refine hE.congr _ _ _ ?_
  rintro ⟨e | a, w'⟩ hr
  · exact hE.ret _ _
  · exact h a w' hr

end

/-- No run raises. -/
def NoErr {α : Type} (m : Exec L α) (w : World L) : Prop := ∀ r w', m.Runs w r w' → ∃ a, r = .ok a

theorem NoErr.fst {α β : Type} {m : Exec L α} {f : α → Exec L β} {w : World L} (h : NoErr (m >>= f) w) : NoErr m w := by
  intro r w' hr
  cases r with
  | ok a => exact ⟨a, rfl⟩
  | error e =>
    obtain ⟨a, ha⟩ := h (.error e) w' (Exec.Runs_bind.2 (Or.inl ⟨e, rfl, hr⟩))
    cases ha

theorem NoErr.snd {α β : Type} {m : Exec L α} {f : α → Exec L β} {w : World L} (h : NoErr (m >>= f) w) {a : α} {w1 : World L}
    (ha : m.Runs w (.ok a) w1) : NoErr (f a) w1 :=
  fun r w' hr => h r w' (Exec.Runs_bind.2 (Or.inr ⟨a, w1, ha, hr⟩))

theorem NoErr.lift {α : Type} {x : Except Err α} {w : World L} (h : NoErr (Exec.lift x) w) : ∃ a, x = .ok a :=
  h x w (by simp [Exec.Runs, Exec.lift])

/-! ### Traces -/

section
variable (l : Lane L lp)

theorem names_laneEnv (t : Trace L) : (laneEnv l t).names = t.keys := by
  simp [laneEnv, Env.names, Dict.keys, keysL]

theorem laneEnv_insert (t : Trace L) (k : String) (rv : RV L) (h : k ∉ t.keys) :
    laneEnv l (t.insert k rv) = laneEnv l t ++ [(k, ⟨l.v rv.value, l.w rv.logProb, rv.prov != .observed⟩)] := by
  unfold laneEnv
  rw [Dict.entries_insert_of_not_mem _ h]
  simp

theorem laneEnv_union {t a b : Trace L} (h : IsUnion t a b) : laneEnv l t = laneEnv l a ++ laneEnv l b := by
  unfold laneEnv
  rw [h]
  simp

theorem lat_laneEnv_some {t : Trace L} {k : String} {rv : RV L} (h : t.get? k = some rv) :
    (laneEnv l t).lat k = if rv.prov = .observed then none else some (l.v rv.value) := by
  have hm := Dict.get?_eq_some.1 h
  obtain ⟨s, s', hs⟩ := List.append_of_mem hm
  have hnd : (laneEnv l t).names.Nodup := by rw [names_laneEnv]; exact t.nodup_keys
  have he : laneEnv l t = s.map (fun e => (e.1, (⟨l.v e.2.value, l.w e.2.logProb, e.2.prov != .observed⟩ : Entry V))) ++
      ([(k, ⟨l.v rv.value, l.w rv.logProb, rv.prov != .observed⟩)] ++
        s'.map (fun e => (e.1, (⟨l.v e.2.value, l.w e.2.logProb, e.2.prov != .observed⟩ : Entry V)))) := by
    unfold laneEnv
    rw [hs]
    simp
  rw [he, names_append, names_append, names_single, List.nodup_append] at hnd
  rw [he, lat_append, lat_append, lat_none_of_not_mem (fun hk => hnd.2.2 k hk k (by simp) rfl),
    lat_none_of_not_mem (e := s'.map _) (k := k) (fun hk => by
      have h2 := hnd.2.1
      simp only [List.singleton_append, List.nodup_cons] at h2
      exact h2.1 hk), lat_single]
  by_cases ho : rv.prov = .observed <;> simp [ho]

theorem lat_laneEnv_none {t : Trace L} {k : String} (h : t.get? k = none) : (laneEnv l t).lat k = none := by
  refine lat_none_of_not_mem ?_
  rw [names_laneEnv]
  exact Dict.get?_eq_none.1 h

/-- The values that a conditioning trace fixes. -/
def latOf (cond : Option (Trace L)) (k : String) : Option V :=
  match cond with
  | some ct => (laneEnv l ct).lat k
  | none => none

/-- Nothing latent in the run is OBSERVED in the conditioning trace. -/
def Clear (cond : Option (Trace L)) (e : Env V) : Prop :=
  ∀ k x, (k, x) ∈ e → x.latent = true → ∀ rv, held cond k = some rv → rv.prov ≠ .observed

theorem Clear.left {cond : Option (Trace L)} {e e' : Env V} (h : Clear cond (e ++ e')) : Clear cond e :=
  fun k x hk => h k x (List.mem_append_left _ hk)

theorem Clear.right {cond : Option (Trace L)} {e e' : Env V} (h : Clear cond (e ++ e')) : Clear cond e' :=
  fun k x hk => h k x (List.mem_append_right _ hk)

theorem latOf_held {cond : Option (Trace L)} {k : String} {rv : RV L} (h : held cond k = some rv) (ho : rv.prov ≠ .observed) :
    latOf l cond k = some (l.v rv.value) := by
  cases cond with
  | none => cases h
  | some ct => exact (lat_laneEnv_some l h).trans (if_neg ho)

theorem latOf_not_held {cond : Option (Trace L)} {k : String} (h : held cond k = none) : latOf l cond k = none := by
  cases cond with
  | none => rfl
  | some ct => exact lat_laneEnv_none l h

/-- Does a variable count towards a program's weight? -/
def counts (cond : Option (Trace L)) (k : String) (rv : RV L) : Bool :=
  rv.prov == .observed || (match held cond k with
      | some c => c.prov != .observed
      | none => false)

/-- The log weight of a program's run. -/
def wt (cond : Option (Trace L)) (t : Trace L) : ℝ := l.w (sumLogProb t (counts cond))

theorem sumLogProb_insert (t : Trace L) (k : String) (rv : RV L) (P : String → RV L → Bool) (h : k ∉ t.keys) :
    sumLogProb (t.insert k rv) P = sumLogProb t P + if P k rv then rv.logProb else 0 := by
  unfold sumLogProb
  rw [Dict.entries_insert_of_not_mem _ h, List.filter_append, List.map_append, List.sum_append]
  congr 1
  by_cases hp : P k rv <;> simp [hp]

theorem logJoint_wt (cond : Option (Trace L)) (t : Trace L) : l.w (logJoint t (weightNodes cond t)).val = wt l cond t := by
  rw [logJoint_val]
  unfold wt
  congr 1
  exact sumLogProb_congr t fun k rv h => (weightNodes_of_get (cond := cond) h).trans (by unfold counts; cases held cond k <;> rfl)

/-- The variable's log probability is, for the particle, that of its distribution or density. -/
def GoodRV (rv : RV L) : Prop :=
  rv.resamplable = true ∧
  match rv.kind with
  | .proper d => l.w rv.logProb = lp (l.d d) (l.v rv.value)
  | .improper f => ∃ d, (∀ x, l.w (f x) = lp d (l.v x)) ∧ l.w rv.logProb = lp d (l.v rv.value)
  | .other => False

def Good (t : Trace L) : Prop := ∀ k rv, t.get? k = some rv → GoodRV l rv

theorem goodRV_mk (d : L.D) (v : L.V) (p : Prov) (r : Bool) : GoodRV l (RV.mk' d v p r) := ⟨rfl, l.logProb d v⟩

theorem goodRV_mkImproper {f : L.V → L.W} {d : D} (h : ∀ x, l.w (f x) = lp d (l.v x)) (v : L.V) (p : Prov) :
    GoodRV l (RV.mkImproper f v p) := ⟨rfl, d, h, h v⟩

variable {l}

theorem Good.insert {t : Trace L} (h : Good l t) {k : String} {rv : RV L} (hrv : GoodRV l rv) : Good l (t.insert k rv) := by
  intro k' rv' hk
  rw [Dict.get?_insert] at hk
  split at hk
  · cases hk; exact hrv
  · exact h k' rv' hk

theorem Good.union {t a b : Trace L} (h : IsUnion t a b) (ha : Good l a) (hb : Good l b) : Good l t := by
  intro k rv hk
  have := Dict.get?_eq_some.1 hk
  rw [h, List.mem_append] at this
  rcases this with h1 | h1
  · exact ha k rv (Dict.get?_eq_some.2 h1)
  · exact hb k rv (Dict.get?_eq_some.2 h1)

/-! ### Programs -/

variable [Nonempty V]

/-- The cases of a variable in a run as it should be, whatever the implementation. -/
theorem variable_cases {cond : Option (Trace L)} {name : String} {d : D} {value : Option V} {prov : Option Prov} {rep : Bool}
    {k : V → MTree 𝕃} {t : Trace L} {Q : Env V → PyVal 𝕃 → Prop}
    (h : always (latOf l cond) (.variable (L := 𝕃) name d value prov rep k) (laneEnv l t) fun e o => Clear cond e ∧ Q e o) :
    prov = none ∧ name ∉ t.keys ∧
    match value with
    | some v => always (latOf l cond) (k v) (laneEnv l t ++ [(name, ⟨v, lp d v, false⟩)]) fun e o => Clear cond e ∧ Q e o
    | none =>
      (∀ c, held cond name = some c → c.prov ≠ .observed ∧ latOf l cond name = some (l.v c.value) ∧
        always (latOf l cond) (k (l.v c.value)) (laneEnv l t ++ [(name, ⟨l.v c.value, lp d (l.v c.value), true⟩)])
          fun e o => Clear cond e ∧ Q e o) ∧
      (held cond name = none → latOf l cond name = none ∧ ∀ v,
        always (latOf l cond) (k v) (laneEnv l t ++ [(name, ⟨v, lp d v, true⟩)]) fun e o => Clear cond e ∧ Q e o) := by
  rw [always_var] at h
  obtain ⟨rfl, hn, h⟩ := h
  rw [names_laneEnv] at hn
  refine ⟨rfl, hn, ?_⟩
  cases value with
  | some v => exact h
  | none =>
    refine ⟨fun c hh => ?_, fun hh => ⟨latOf_not_held l hh, fun v => ?_⟩⟩
    · have ho : c.prov ≠ .observed := by
        have : ∃ v, ∀ v', latOf l cond name = some v' → v = v' := by
          cases latOf l cond name with
          | none => exact ⟨Classical.arbitrary V, fun _ h => by cases h⟩
          | some v => exact ⟨v, fun _ h => Option.some.inj h⟩
        obtain ⟨v, hv⟩ := this
        have hnd : (Env.names (laneEnv l t ++ [(name, (⟨v, lp d v, true⟩ : Entry V))])).Nodup := by
          rw [names_append, names_laneEnv, names_single, List.nodup_append]
          exact ⟨t.nodup_keys, by simp, by rintro k hk _ hk' rfl; simp at hk'; exact hn (hk' ▸ hk)⟩
        obtain ⟨e, o, ⟨h1, _⟩, ⟨s, h2⟩, _⟩ := always_exists (always_prefix (h v hv) hnd)
        exact h1 name ⟨v, lp d v, true⟩ (by rw [← h2]; simp) rfl c hh
      exact ⟨ho, latOf_held l hh ho, h _ fun v' hv' => by rw [latOf_held l hh ho] at hv'; exact Option.some.inj hv'⟩
    · exact h v fun v' hv' => by rw [latOf_not_held l hh] at hv'; cases hv'

theorem wt_insert (cond : Option (Trace L)) (t : Trace L) (k : String) (rv : RV L) (h : k ∉ t.keys) :
    wt l cond (t.insert k rv) = wt l cond t + if counts cond k rv then l.w rv.logProb else 0 := by
  unfold wt
  rw [sumLogProb_insert _ _ _ _ h, map_add]
  congr 1
  split <;> simp

theorem variableValue_held {cond : Option (Trace L)} {name : String} {c : RV L} (h : held cond name = some c) :
    variableValue cond name none none = some (c.value, .reused) := by
  cases cond with
  | none => cases h
  | some ct =>
    have hh' : ct.get? name = some c := h
    simp [variableValue, hh']

theorem variableValue_not_held {cond : Option (Trace L)} {name : String} (h : held cond name = none) :
    variableValue cond name none none = none := by
  cases cond with
  | none => rfl
  | some ct =>
    have hh' : ct.get? name = none := h
    simp [variableValue, hh']

theorem bind_get_held (cond : Option (Trace L)) (name : String) : (cond.bind (·.get? name)) = held cond name := by
  cases cond <;> rfl

/-- What one step of a run adds to the integral. -/
theorem step_ev {E : ∀ {α : Type}, Comp L α → (α → ℝ≥0∞) → ℝ≥0∞} {cond : Option (Trace L)} {t : Trace L} {name : String} {d : D} {rv : RV L}
    {k : V → MTree 𝕃} {h : Env V → PyVal 𝕃 → ℝ≥0∞} {x : ℝ≥0∞} (hn : name ∉ t.keys) (hl : l.w rv.logProb = lp d (l.v rv.value))
    (ih : x = dens (wt l cond (t.insert name rv)) * mass μ (latOf l cond) (k (l.v rv.value)) (laneEnv l (t.insert name rv)) h) :
    x = dens (wt l cond t) * ((if counts cond name rv then dens (lp d (l.v rv.value)) else 1) *
      mass μ (latOf l cond) (k (l.v rv.value)) (laneEnv l t ++ [(name, ⟨l.v rv.value, lp d (l.v rv.value), rv.prov != .observed⟩)]) h) := by
  rw [ih, laneEnv_insert _ _ _ _ hn, wt_insert _ _ _ _ hn, dens_add, mul_assoc, hl]
  congr 2
  split <;> simp [dens_zero]

theorem runModel_reach (cond : Option (Trace L)) {T : MTree L} {m : MTree 𝕃} (hT : LaneTree l T m) (t : Trace L) (w w' : World L)
    (o : PyVal L) (t' : Trace L) {Q : Env V → PyVal 𝕃 → Prop}
    (hm : always (latOf l cond) m (laneEnv l t) fun e o => Clear cond e ∧ Q e o) (ht : Good l t)
    (h : (runModel cond T t).Runs w (.ok (o, t')) w') : Q (laneEnv l t') (lanePy l o) ∧ Good l t' := by
  induction hT generalizing t with
  | ret o' =>
    simp only [runModel, Exec.Runs_pure', Except.ok.injEq, Prod.mk.injEq] at h
    obtain ⟨⟨rfl, rfl⟩, -⟩ := h
    exact ⟨hm.2, ht⟩
  | var name d value prov rep K k hK ih =>
    obtain ⟨rfl, hn, hcase⟩ := variable_cases (Q := Q) hm
    have hc : t.contains name = false := Dict.contains_eq_false.2 hn
    simp only [runModel, hc, Bool.false_eq_true, if_false] at h
    cases value with
    | some v =>
      have hv : variableValue cond name (some v) none = some (v, .observed) := rfl
      rw [hv] at h
      exact ih v _ (by rw [laneEnv_insert _ _ _ _ hn]; exact (l.logProb d v) ▸ hcase) (ht.insert (goodRV_mk ..)) h
    | none =>
      rcases Option.eq_none_or_eq_some (held cond name) with hh | ⟨c, hh⟩
      · obtain ⟨hl, ha⟩ := hcase.2 hh
        rw [variableValue_not_held hh] at h
        obtain ⟨v, h⟩ := h
        exact ih v _ (by rw [laneEnv_insert _ _ _ _ hn]; exact (l.logProb d v) ▸ ha (l.v v)) (ht.insert (goodRV_mk ..)) h
      · obtain ⟨ho, hl, ha⟩ := hcase.1 c hh
        rw [variableValue_held hh] at h
        exact ih c.value _ (by rw [laneEnv_insert _ _ _ _ hn]; exact (l.logProb d c.value) ▸ ha) (ht.insert (goodRV_mk ..)) h
  | density name f d e rep K k hf hK ih =>
    obtain ⟨-, hn, hcase⟩ := variable_cases (Q := Q) hm
    simp only [runModel, bind_get_held] at h
    rcases Option.eq_none_or_eq_some (held cond name) with hh | ⟨c, hh⟩
    · rw [hh] at h
      simp [runModel, Exec.Runs, Exec.throw] at h
    · rw [hh] at h
      obtain ⟨ho, hl, ha⟩ := hcase.1 c hh
      simp only [runModel] at h
      exact ih c.value _ (by rw [laneEnv_insert _ _ _ _ hn]; exact (hf c.value) ▸ ha) (ht.insert (goodRV_mkImproper l hf ..)) h
  | distribution name d rep K k hK ih =>
    obtain ⟨-, hn, hcase⟩ := variable_cases (Q := Q) hm
    simp only [runModel, bind_get_held] at h
    rcases Option.eq_none_or_eq_some (held cond name) with hh | ⟨c, hh⟩
    · obtain ⟨hl, ha⟩ := hcase.2 hh
      rw [hh] at h
      simp only [runModel] at h
      obtain ⟨v, h⟩ := h
      exact ih v _ (by rw [laneEnv_insert _ _ _ _ hn]; exact (l.logProb d v) ▸ ha (l.v v)) (ht.insert (goodRV_mk ..)) h
    · obtain ⟨ho, hl, ha⟩ := hcase.1 c hh
      rw [hh] at h
      simp only [runModel] at h
      exact ih c.value _ (by rw [laneEnv_insert _ _ _ _ hn]; exact (l.logProb d c.value) ▸ ha) (ht.insert (goodRV_mk ..)) h
  | stuck T m hs =>
    cases m with
    | ret o => exact hs.elim
    | «variable» => exact hs.elim
    | _ => exact hm.elim

theorem evalP_prog_apply (i : ObjId) (s : ProgSpec L) (cond : Option (Trace L)) (c : PyVal L) (kw : Kw L) (w : World L) :
    evalP (.prog i s) cond c kw w =
      match bindModel s.sig (receivedKwargs s.sig kw) with
      | .error e => .ret (.error e, w)
      | .ok () => (runModel cond (s.model c (receivedKwargs s.sig kw)) Dict.empty w).bind fun r =>
        .ret (match r.1 with
          | .ok (o, t) => .ok (Out.mk t (logJoint t (weightNodes cond t)) o (.program s.name) none none none none [])
          | .error e => .error e, r.2) := by
  simp only [evalP, programForward, received_eq]
  simp only [Exec.bind_eq, Exec.pure_eq, Exec.bind, Exec.lift, Exec.pure, Comp.bind_ret]
  cases bindModel s.sig (receivedKwargs s.sig kw) with
  | error e => rfl
  | ok u =>
    simp only [Comp.bind_assoc]
    congr 1
    funext r
    rcases r with ⟨r | ⟨o, t⟩, w'⟩ <;> rfl

theorem laneKvs_eq (l : Lane L lp) (kvs : List (String × PyVal L)) :
    laneKvs (Lo := Lo) l kvs = kvs.map fun e => (e.1, lanePy l e.2) := by
  induction kvs with
  | nil => rfl
  | cons e kvs ih => rcases e with ⟨k, x⟩; simp only [laneKvs, ih, List.map_cons]

theorem received_lane (l : Lane L lp) (s : ArgSpec) (kw : Kw L) :
    receivedKwargs s (laneKw (Lo := Lo) l kw) = laneKvs l (receivedKwargs s kw) := by
  have : offeredKwargs (laneKw (Lo := Lo) l kw) = (offeredKwargs kw).map fun e => (e.1, lanePy l e.2) := by
    simp [offeredKwargs, laneKw, laneKvs_eq, lanePy]
  unfold receivedKwargs
  rw [this, laneKvs_eq, List.filter_map]
  rfl

theorem subKw_lane {l : Lane L lp} {A : Attrs L} {a : Attrs 𝕃} (h : lanePy l A.ix = a.ix) (kw : Kw L) :
    laneKw l (subKw A kw) = subKw a (laneKw l kw) := by
  unfold subKw laneKw
  simp only [Kw.mk.injEq, true_and, and_true]
  rw [← h]
  cases A.ix <;> rfl

theorem prog_reach {i i' : ObjId} {S : ProgSpec L} {s : ProgSpec 𝕃} (hl : LaneNode l (.prog i S) (.prog i' s))
    {cond : Option (Trace L)} {c : PyVal L} {kw : Kw L} {w w' : World L} {o : Out L}
    {Q : Env V → PyVal 𝕃 → Prop}
    (hm : alwaysN (.prog i' s) false (latOf l cond) (lanePy l c) (laneKw l kw) fun e o => Clear cond e ∧ Q e o)
    (h : (evalP (.prog i S) cond c kw).Runs w (.ok o) w') :
    Q (laneEnv l o.trace) (lanePy l o.output) ∧ Good l o.trace ∧ l.w o.logWeight.val = wt l cond o.trace := by
  obtain ⟨hs, hl⟩ := hl
  have hm' : always (latOf l cond) (s.model (lanePy l c) (laneKvs l (receivedKwargs S.sig kw))) [] fun e o => Clear cond e ∧ Q e o := by
    rw [← received_lane, ← hs]
    exact hm
  rw [Exec.Runs, evalP_prog_apply] at h
  cases hb : bindModel S.sig (receivedKwargs S.sig kw) with
  | error e => rw [hb] at h; simp at h
  | ok u =>
    rw [hb] at h
    simp only [Comp.bind_Ret, Comp.ret_Ret] at h
    obtain ⟨⟨r | ⟨o', t⟩, w1⟩, h1, h2⟩ := h
    · simp at h2
    · simp only [Prod.mk.injEq, Except.ok.injEq] at h2
      obtain ⟨rfl, rfl⟩ := h2
      obtain ⟨h3, h4⟩ := runModel_reach cond (hl c _) Dict.empty w _ o' t hm' (fun k rv hk => by cases hk) h1
      exact ⟨h3, h4, logJoint_wt l cond t⟩

/-! ### Targets -/

theorem sumLogProb_all {cond : Option (Trace L)} {t : Trace L} (h : ∀ k ∈ (laneEnv l t).names, ∃ v, latOf l cond k = some v) :
    l.w (sumLogProb t (fun _ _ => true)) = wt l cond t := by
  unfold wt
  congr 1
  refine sumLogProb_congr t fun k rv hk => ?_
  obtain ⟨v, hv⟩ := h k (by rw [names_laneEnv]; exact Dict.mem_keys_iff.2 ⟨rv, hk⟩)
  cases hh : held cond k with
  | none => rw [latOf_not_held l hh] at hv; cases hv
  | some c =>
    have ho : c.prov ≠ .observed := by
      intro ho
      cases cond with
      | none => cases hh
      | some ct =>
        have := lat_laneEnv_some l (show ct.get? k = some c from hh)
        rw [if_pos ho] at this
        rw [show latOf l (some ct) k = (laneEnv l ct).lat k from rfl, this] at hv
        cases hv
    simp [counts, hh, ho]

/-- The marginal trace and output of a target's result. -/
noncomputable def margOf (l : Lane L lp) (p : Node L) (o : Out L) : Env V × PyVal 𝕃 :=
  match marginalize p o with
  | .ok m => (laneEnv l m.2, lanePy l m.1)
  | .error _ => ([], .none)

theorem filterKeys_union {t a b : Trace L} (h : IsUnion t a b) (hd : ¬ Overlap a b) :
    t.filterKeys (fun k => !(t.contains k && !a.keys.contains k)) = a := by
  apply Dict.ext'
  simp only [Dict.filterKeys]
  conv_lhs => arg 2; rw [h]
  rw [List.filter_append]
  have e1 : a.entries.filter (fun e => !(t.contains e.1 && !a.keys.contains e.1)) = a.entries := by
    rw [List.filter_eq_self]
    intro e he
    have : e.1 ∈ a.keys := Dict.mem_keys_of_mem (v := e.2) he
    simp [this]
  have e2 : b.entries.filter (fun e => !(t.contains e.1 && !a.keys.contains e.1)) = [] := by
    rw [List.filter_eq_nil_iff]
    intro e he
    have h1 : e.1 ∈ b.keys := Dict.mem_keys_of_mem (v := e.2) he
    have h2 : e.1 ∉ a.keys := fun hh => hd ⟨_, hh, h1⟩
    have h3 : t.contains e.1 = true := by
      rw [Dict.contains_iff]
      have : (e.1, e.2) ∈ t.entries := by rw [h]; exact List.mem_append_right _ he
      exact Dict.mem_keys_of_mem this
    simp [h2, h3]
  rw [e1, e2, List.append_nil]

/-- What a returning Extend gives. -/
theorem extendRest_ok {a : Attrs L} {kw : Kw L} {cond : Option (Trace L)} {po fo o : Out L} (h : extendRest a kw cond po fo = .ok o)
    (p f : Node L) :
    IsUnion o.trace po.trace fo.trace ∧ o.output = fo.output ∧
      o.logWeight.val = po.logWeight.val + sumLogProb fo.trace (fun _ _ => true) ∧
      marginalize (.extend a p f) o = .ok (po.output, po.trace) := by
  rcases extendRest_spec a kw cond po fo with ⟨_, hr⟩ | ⟨hd, _, t, lw, ht, hlw, _, hr⟩
  · rw [hr] at h; cases h
  · rw [hr] at h
    obtain ⟨l, _, rfl⟩ := finish_ok h
    refine ⟨ht, rfl, hlw, ?_⟩
    simp only [marginalize, Node.isExtend, if_true, Out.marginal_mk, Out.setLoss_mk, Out.setSubs_mk, copytraces_single, Out.trace_mk]
    rw [filterKeys_union ht hd]
    rfl

theorem evalP_extend (a : Attrs L) (p f : Node L) (cond : Option (Trace L)) (c : PyVal L) (kw : Kw L) :
    evalP (.extend a p f) cond c kw = evalP p cond c (subKw a kw) >>= fun po =>
      evalP f cond po.output (subKw a kw) >>= fun fo => Exec.lift (extendRest a kw cond po fo) := by
  rw [← childKw_eq]
  rfl

theorem target_reach {P : Node L} {p : Node 𝕃} (hl : LaneNode l P p) {cond : Option (Trace L)} {c : PyVal L} {kw : Kw L} {w w' : World L}
    {o : Out L} {Q : Env V → PyVal 𝕃 → Prop} (hp : IsTarget μ p (lanePy l c) (laneKw l kw))
    (hm : alwaysN p false (latOf l cond) (lanePy l c) (laneKw l kw) fun e o => Clear cond e ∧ Q e o)
    (h : (evalP P cond c kw).Runs w (.ok o) w') :
    Q (laneEnv l o.trace) (lanePy l o.output) ∧ Good l o.trace := by
  induction p generalizing P c kw w w' o Q with
  | prog i s =>
    cases P with
    | prog i' S => exact ⟨(prog_reach hl hm h).1, (prog_reach hl hm h).2.1⟩
    | _ => exact hl.elim
  | extend a p f ihp ihf =>
    cases P with
    | extend A P F =>
      obtain ⟨hix, hl1, hl2⟩ := hl
      cases f with
      | prog i s =>
        cases F with
        | prog i' S =>
          rw [evalP_extend] at h
          obtain ⟨po, w1, h1, h⟩ := Exec.Runs_bind_ok.1 h
          obtain ⟨fo, w2, h2, h⟩ := Exec.Runs_bind_ok.1 h
          obtain ⟨h3, -⟩ := Exec.Runs_lift.1 h
          obtain ⟨e1, e2, -, -⟩ := extendRest_ok h3.symm P (.prog i' S)
          have hm1 : alwaysN p false (latOf l cond) (lanePy l c) (subKw a (laneKw l kw)) fun e1 o1 => Clear cond e1 ∧
              alwaysN (.prog i s) false (latOf l cond) o1 (subKw a (laneKw l kw)) fun e2 o2 => Clear cond (e1 ++ e2) ∧ Q (e1 ++ e2) o2 := by
            refine alwaysN_mono (n := p) (marg := false) hm fun e1 o1 h1 => ⟨?_, h1⟩
            obtain ⟨e2, o2, h2⟩ := alwaysN_exists h1
            exact h2.1.left
          have hp1 := hp.1
          rw [← subKw_lane hix] at hm1 hp1
          obtain ⟨h4, h5⟩ := ihp hl1 hp1 hm1 h1
          have h4' : alwaysN (.prog i s) false (latOf l cond) (lanePy l po.output) (laneKw l (subKw A kw)) fun e2 o2 =>
              Clear cond e2 ∧ Q (laneEnv l po.trace ++ e2) o2 := alwaysN_mono h4 fun e2 o2 h => ⟨h.1.right, h.2⟩
          obtain ⟨h6, h7, -⟩ := prog_reach hl2 h4' h2
          rw [laneEnv_union l e1, e2]
          exact ⟨h6, h5.union e1 h7⟩
        | _ => exact hl2.elim
      | _ => exact hp.elim
    | _ => exact hl.elim
  | _ => exact hp.elim

theorem marg_reach {P : Node L} {p : Node 𝕃} (hl : LaneNode l P p) {cond : Option (Trace L)} {c : PyVal L} {kw : Kw L} {w w' : World L}
    {o : Out L} {Q : Env V → PyVal 𝕃 → Prop} {m : PyVal L × Trace L} (hp : IsTarget μ p (lanePy l c) (laneKw l kw))
    (hc : alwaysN p false (latOf l cond) (lanePy l c) (laneKw l kw) fun e _ => Clear cond e)
    (hm : alwaysN p true (latOf l cond) (lanePy l c) (laneKw l kw) Q)
    (h : (evalP P cond c kw).Runs w (.ok o) w') (ho : marginalize P o = .ok m) :
    Q (laneEnv l m.2) (lanePy l m.1) ∧ Good l m.2 := by
  cases p with
  | prog i s =>
    cases P with
    | prog i' S =>
      cases ho
      exact target_reach hl hp (alwaysN_and (n := .prog i s) (marg := false) hc hm) h
    | _ => exact hl.elim
  | extend a p f =>
    cases P with
    | extend A P F =>
      obtain ⟨hix, hl1, hl2⟩ := hl
      cases f with
      | prog i s =>
        rw [evalP_extend] at h
        obtain ⟨po, w1, h1, h⟩ := Exec.Runs_bind_ok.1 h
        obtain ⟨fo, w2, h2, h⟩ := Exec.Runs_bind_ok.1 h
        obtain ⟨h3, -⟩ := Exec.Runs_lift.1 h
        obtain ⟨-, -, -, e3⟩ := extendRest_ok h3.symm P F
        rw [e3] at ho
        cases ho
        have hp1 := hp.1
        have hm1 : alwaysN p false (latOf l cond) (lanePy l c) (subKw a (laneKw l kw)) fun e o => Clear cond e ∧ Q e o := by
          refine alwaysN_and (n := p) (marg := false) (alwaysN_mono (n := p) (marg := false) hc fun e1 o1 h1 => ?_) hm
          obtain ⟨e2, o2, h2⟩ := alwaysN_exists h1
          exact h2.left
        rw [← subKw_lane hix] at hm1 hp1
        exact target_reach hl1 hp1 hm1 h1
      | _ => exact hp.elim
    | _ => exact hl.elim
  | _ => exact hp.elim

/-! ### Nests -/

theorem lanePy_detach (l : Lane L lp) (m : PyVal L) : lanePy (Lo := Lo) l (detachOutput m) = lanePy l m := by
  cases m with
  | tensor v => simp only [detachOutput, lanePy, l.detachV]
  | dict kvs =>
    simp only [detachOutput, lanePy, laneKvs_eq, List.map_map]
    congr 1
    refine List.map_congr_left fun e _ => ?_
    rcases e with ⟨k, v⟩
    cases v <;> simp [lanePy, l.detachV]
  | _ => rfl

theorem returned_env {nr : Bool} {t t' : Trace L} (h : Returned nr t t') (ht : Good l t) : laneEnv l t' = laneEnv l t ∧ Good l t' := by
  cases nr with
  | true => cases (show t' = t from h); exact ⟨rfl, ht⟩
  | false =>
    have h' : List.Forall₂ (fun e e' => e'.1 = e.1 ∧ Rerun e.2 e'.2) t.entries t'.entries := h
    have hg : ∀ e ∈ t.entries, GoodRV l e.2 := fun e he => ht e.1 e.2 (Dict.get?_eq_some.2 he)
    have key : ∀ (x x' : List (String × RV L)), List.Forall₂ (fun e e' => e'.1 = e.1 ∧ Rerun e.2 e'.2) x x' →
        (∀ e ∈ x, GoodRV l e.2) →
        x'.map (fun e => (e.1, (⟨l.v e.2.value, l.w e.2.logProb, e.2.prov != .observed⟩ : Entry V))) =
          x.map (fun e => (e.1, ⟨l.v e.2.value, l.w e.2.logProb, e.2.prov != .observed⟩)) ∧
        ∀ e ∈ x', GoodRV l e.2 := by
      intro x x' hx
      induction hx with
      | nil => exact fun _ => ⟨rfl, by simp⟩
      | cons hx _ ih =>
        rename_i x y xs ys _
        intro hgl
        obtain ⟨ih1, ih2⟩ := ih fun e he => hgl e (List.mem_cons_of_mem _ he)
        obtain ⟨hx1, hx2, hx3, hx4⟩ := hx
        have hv : l.v y.2.value = l.v x.2.value := by rw [hx3, l.detachV]
        have hG : GoodRV l y.2 ∧ l.w y.2.logProb = l.w x.2.logProb := by
          obtain ⟨-, hg2⟩ := hgl x List.mem_cons_self
          cases hk : x.2.kind with
          | proper d =>
            rw [hk] at hg2 hx4
            obtain ⟨hx4, hx5, -, hx6⟩ := hx4
            have hg2' : l.w x.2.logProb = lp (l.d d) (l.v x.2.value) := hg2
            have e1 : l.w y.2.logProb = lp (l.d d) (l.v y.2.value) := by rw [hx5, l.logProb, ← hx3]
            exact ⟨⟨hx6, by rw [hx4]; exact e1⟩, by rw [e1, hg2', hv]⟩
          | improper f =>
            rw [hk] at hg2 hx4
            obtain ⟨hx4, hx5, hx6⟩ := hx4
            obtain ⟨d, hf, hg2'⟩ := hg2
            have e1 : l.w y.2.logProb = lp d (l.v y.2.value) := by rw [hx5, hf, ← hx3]
            exact ⟨⟨hx6, by rw [hx4]; exact ⟨d, hf, e1⟩⟩, by rw [e1, hg2', hv]⟩
          | other => rw [hk] at hg2; exact hg2.elim
        refine ⟨?_, ?_⟩
        · rw [List.map_cons, List.map_cons, ih1, hx1, hx2, hv, hG.2]
        · intro e he
          rcases List.mem_cons.1 he with rfl | he
          · exact hG.1
          · exact ih2 e he
    obtain ⟨h1, h2⟩ := key _ _ h' hg
    exact ⟨h1, fun k rv hk => h2 (k, rv) (Dict.get?_eq_some.1 hk)⟩

theorem evalP_compose (a : Attrs L) (q2 q1 : Node L) (cond : Option (Trace L)) (c : PyVal L) (kw : Kw L) :
    evalP (.compose a q2 q1) cond c kw = evalP q1 none c (subKw a kw) >>= fun o1 =>
      evalP q2 none o1.output (subKw a kw) >>= fun o2 => Exec.lift (composeRest a kw o1 o2) := by
  rw [← childKw_eq]
  rfl

theorem evalP_propose (a : Attrs L) (tr : Trace L → Kw L → Except Err (Trace L)) (nr : Bool) (p q : Node L) (cond : Option (Trace L))
    (c : PyVal L) (kw : Kw L) :
    evalP (.propose a tr nr p q) cond c kw = evalP q none c (subKw a kw) >>= fun qo =>
      evalP p (some qo.trace) c (subKw a kw) >>= fun po => Exec.lift (proposeRest a tr nr p q kw qo po) := by
  rw [← childKw_eq]
  rfl

theorem composeRest_ok {a : Attrs L} {kw : Kw L} {o1 o2 o : Out L} (h : composeRest a kw o1 o2 = .ok o) :
    IsUnion o.trace o2.trace o1.trace ∧ o.output = o2.output ∧ o.logWeight.val = o1.logWeight.val + o2.logWeight.val := by
  rcases composeRest_spec a kw o1 o2 with ⟨_, hr⟩ | ⟨_, t, lw, ht, hlw, _, hr⟩
  · rw [hr] at h; cases h
  · rw [hr] at h
    obtain ⟨l, _, rfl⟩ := finish_ok h
    exact ⟨ht, rfl, hlw⟩

theorem clear_none (e : Env V) : Clear (L := L) none e := by
  intro k x _ _ rv hrv
  cases hrv

/-- The path conditions on a target given the proposal's trace. -/
theorem clear_of_env {t : Trace L} {e : Env V} (h : ∀ k x, (k, x) ∈ e → x.latent = true → ∀ y, (k, y) ∈ laneEnv l t → y.latent = true) :
    Clear (some t) e := by
  intro k x hx hl rv hrv ho
  have hm : (k, rv) ∈ t.entries := Dict.get?_eq_some.1 hrv
  have := h k x hx hl ⟨l.v rv.value, l.w rv.logProb, rv.prov != .observed⟩ (List.mem_map.2 ⟨(k, rv), hm, rfl⟩)
  rw [ho] at this
  cases this

/-- The denominator of Propose. -/
theorem denominator_eq {q qt p : Trace L} (hqt : (laneEnv l qt).Perm (laneEnv l q)) :
    l.w (sumLogProb qt (fun k _ => proposeNodes q p k)) = Den (laneEnv l p).lat (laneEnv l q) := by
  have e1 : ∀ t : Trace L, l.w (sumLogProb t (fun k _ => proposeNodes q p k)) =
      ((laneEnv l t).map fun x => if proposeNodes q p x.1 = true then x.2.logp else 0).sum := by
    intro t
    unfold sumLogProb laneEnv
    generalize t.entries = es
    induction es with
    | nil => exact map_zero l.w
    | cons e es ih =>
      simp only [List.map_cons, List.sum_cons]
      rw [← ih, List.filter_cons]
      split <;> simp_all
  rw [e1, (hqt.map _).sum_eq]
  unfold Den
  congr 1
  refine List.map_congr_left fun x hx => ?_
  obtain ⟨⟨k, rv⟩, hm, rfl⟩ := List.mem_map.1 hx
  have hg : q.get? k = some rv := Dict.get?_eq_some.2 hm
  have hI : InDenominator p k rv = true ↔ ¬ ((rv.prov != .observed) = true ∧ (laneEnv l p).lat k = none) := by
    rcases Option.eq_none_or_eq_some (p.get? k) with hp | ⟨rv', hp⟩
    · rw [lat_laneEnv_none l hp]
      cases ho : rv.prov <;> simp [InDenominator, hp, ho]
    · rw [lat_laneEnv_some l hp]
      cases ho : rv.prov <;> cases ho' : rv'.prov <;> simp [InDenominator, hp, ho, ho']
  show (if proposeNodes q p k = true then l.w rv.logProb else 0) = _
  rw [proposeNodes_eq q p k rv hg]
  by_cases h : (rv.prov != .observed) = true ∧ (laneEnv l p).lat k = none
  · rw [if_neg (fun h' => hI.1 h' h)]
    exact (if_pos h).symm
  · rw [if_pos (hI.2 h)]
    exact (if_neg h).symm

/-- What Propose returns. -/
theorem propose_reach {A : Attrs L} {TR : Trace L → Kw L → Except Err (Trace L)} {nr : Bool} {P Q' : Node L} {p : Node 𝕃}
    (hl : LaneNode l P p) {c : PyVal L} {kw : Kw L} {qo po o : Out L} {w w' : World L} {Q : Env V → PyVal 𝕃 → Prop}
    (hp : IsTarget μ p (lanePy l c) (laneKw l (subKw A kw)))
    (h3 : alwaysN p false (laneEnv l qo.trace).lat (lanePy l c) (laneKw l (subKw A kw)) fun e' _ =>
      ∀ k x, (k, x) ∈ e' → x.latent = true → ∀ y, (k, y) ∈ laneEnv l qo.trace → y.latent = true)
    (hm : alwaysN p true (fun _ => none) (lanePy l c) (laneKw l (subKw A kw)) Q)
    (h : (evalP P (some qo.trace) c (subKw A kw)).Runs w (.ok po) w') (ho : proposeRest A TR nr P Q' kw qo po = .ok o) :
    Q (laneEnv l o.trace) (lanePy l o.output) ∧ Good l o.trace := by
  obtain ⟨qt, m, t, fwd, lv, x, -, -, -, e1, e2, -, e4⟩ := proposeRest_ok ho
  obtain ⟨ls, -, rfl⟩ := finish_ok e4
  obtain ⟨h6, h7⟩ := marg_reach (cond := some qo.trace) hl hp (alwaysN_mono h3 fun e o h => clear_of_env h) (alwaysN_none hm) h e1
  obtain ⟨h8, h9⟩ := returned_env (returned_of e2) h7
  refine ⟨?_, h9⟩
  show Q (laneEnv l t) (lanePy l (detachOutput m.1))
  rw [h8, lanePy_detach]
  exact h6

theorem whole_reach {N : Node L} {n : Node 𝕃} (hl : LaneNode l N n) (hN : Whole N) {c : PyVal L} {kw : Kw L} {w w' : World L} {o : Out L}
    {Q : Env V → PyVal 𝕃 → Prop} (hn : Fits μ n (lanePy l c) (laneKw l kw))
    (hm : alwaysN n false (fun _ => none) (lanePy l c) (laneKw l kw) Q) (h : (evalP N none c kw).Runs w (.ok o) w') :
    Q (laneEnv l o.trace) (lanePy l o.output) ∧ Good l o.trace := by
  induction n generalizing N c kw w w' o Q with
  | prog i s =>
    cases N with
    | prog i' S =>
      have := prog_reach (cond := none) hl (alwaysN_mono (n := .prog i s) (marg := false) hm fun e o h => ⟨clear_none e, h⟩) h
      exact ⟨this.1, this.2.1⟩
    | _ => exact hl.elim
  | compose a q2 q1 ih2 ih1 =>
    cases N with
    | compose A Q2 Q1 =>
      obtain ⟨hix, hl2, hl1⟩ := hl
      rw [evalP_compose] at h
      obtain ⟨o1, w1, h1, h⟩ := Exec.Runs_bind_ok.1 h
      obtain ⟨o2, w2, h2, h⟩ := Exec.Runs_bind_ok.1 h
      obtain ⟨h3, -⟩ := Exec.Runs_lift.1 h
      obtain ⟨e1, e2, -⟩ := composeRest_ok h3.symm
      have hn1 := hn.1
      have hm1 := alwaysN_and (n := q1) (marg := false) hm hn.2
      rw [← subKw_lane hix] at hn1 hm1
      obtain ⟨⟨h4, h5, -⟩, h6⟩ := ih1 hl1 hN.2 hn1 hm1 h1
      obtain ⟨h7, h8⟩ := ih2 hl2 hN.1 h5 h4 h2
      rw [laneEnv_union l e1, e2]
      exact ⟨h7, h8.union e1 h6⟩
    | _ => exact hl.elim
  | propose a tr nr p q ihp ihq =>
    cases N with
    | propose A TR nr' P Q =>
      obtain ⟨hix, hlp, hlq, -⟩ := hl
      rw [evalP_propose] at h
      obtain ⟨qo, w1, h1, h⟩ := Exec.Runs_bind_ok.1 h
      obtain ⟨po, w2, h2, h⟩ := Exec.Runs_bind_ok.1 h
      obtain ⟨h3, -⟩ := Exec.Runs_lift.1 h
      obtain ⟨hq1, hp, -, hall⟩ := hn
      have hm1 : alwaysN p true (fun _ => none) (lanePy l c) (subKw a (laneKw l kw)) _ := hm
      rw [← subKw_lane hix] at hq1 hp hall hm1
      obtain ⟨⟨-, -, h5⟩, -⟩ := ihq hlq hN.2 hq1 hall h1
      exact propose_reach hlp hp h5 hm1 h2 h3.symm
    | _ => exact hl.elim
  | resample a r q ih =>
    cases N with
    | resample A R Q => exact hN.elim
    | _ => exact hl.elim
  | _ => exact hn.elim

end

/-! ### Expectations over the runs, summed over the particles -/

section
variable {ι : Type} [Fintype ι] [Nonempty ι] {l : ι → Lane L lp} [Nonempty V]

/-- All particles of a vectorised model at once. -/
inductive LaneTrees (l : ι → Lane L lp) : MTree L → (ι → MTree 𝕃) → Prop
  | ret (o : PyVal L) : LaneTrees l (.ret o) fun i => .ret (lanePy (l i) o)
  | var (name : String) (d : L.D) (value : Option L.V) (prov : Option Prov) (rep : Bool) (K : L.V → MTree L) (k : ι → V → MTree 𝕃) :
    (∀ x, LaneTrees l (K x) fun i => k i ((l i).v x)) →
    LaneTrees l (.variable name d value prov rep K) fun i => MTree.variable (L := 𝕃) name ((l i).d d) (value.map (l i).v) prov rep (k i)
  | density (name : String) (f : L.V → L.W) (d : ι → D) (e : Err) (rep : ι → Bool) (K : L.V → MTree L) (k : ι → V → MTree 𝕃) :
    (∀ i x, (l i).w (f x) = lp (d i) ((l i).v x)) → (∀ x, LaneTrees l (K x) fun i => k i ((l i).v x)) →
    LaneTrees l (.getCond fun cond =>
      match cond.bind (·.get? name) with
      | none => .raise e
      | some rv => .inject name (RV.mkImproper f rv.value .reused) (K rv.value)) fun i => MTree.variable (L := 𝕃) name (d i) none none (rep i) (k i)
  | distribution (name : String) (d : L.D) (rep : Bool) (K : L.V → MTree L) (k : ι → V → MTree 𝕃) :
    (∀ x, LaneTrees l (K x) fun i => k i ((l i).v x)) →
    LaneTrees l (.getCond fun cond =>
      match cond.bind (·.get? name) with
      | some rv => .inject name (RV.mk' d rv.value .reused rep) (K rv.value)
      | none => .sampleFree d rep fun x => .inject name (RV.mk' d x .sampled rep) (K x))
      fun i => MTree.variable (L := 𝕃) name ((l i).d d) none none rep (k i)
  | stuck (T : MTree L) (m : ι → MTree 𝕃) : (∃ i, Stuck (m i)) → LaneTrees l T m

omit [MeasurableSpace V] [Nonempty V] in
theorem laneTree_ret {l : Lane L lp} {o : PyVal L} {m : MTree 𝕃} (h : LaneTree l (.ret o) m) : Stuck m ∨ m = .ret (lanePy l o) := by
  cases h with
  | ret => exact Or.inr rfl
  | stuck _ _ hs => exact Or.inl hs

omit [MeasurableSpace V] [Nonempty V] in
theorem laneTree_var {l : Lane L lp} {name : String} {d : L.D} {value : Option L.V} {prov : Option Prov} {rep : Bool} {K : L.V → MTree L}
    {m : MTree 𝕃} (h : LaneTree l (.variable name d value prov rep K) m) :
    Stuck m ∨ ∃ k : V → MTree 𝕃, m = MTree.variable (L := 𝕃) name (l.d d) (value.map l.v) prov rep k ∧ ∀ x, LaneTree l (K x) (k (l.v x)) := by
  cases h with
  | var _ _ _ _ _ _ k hk => exact Or.inr ⟨k, rfl, hk⟩
  | stuck _ _ hs => exact Or.inl hs

omit [MeasurableSpace V] [Nonempty V] in
theorem laneTree_density [Nonempty L.V] {l : Lane L lp} {name : String} {f : L.V → L.W} {e : Err} {K : L.V → MTree L} {m : MTree 𝕃}
    (h : LaneTree l (.getCond fun cond =>
      match cond.bind (·.get? name) with
      | none => .raise e
      | some rv => .inject name (RV.mkImproper f rv.value .reused) (K rv.value)) m) :
    Stuck m ∨ ∃ (d : D) (rep : Bool) (k : V → MTree 𝕃), m = MTree.variable (L := 𝕃) name d none none rep k ∧
      (∀ x, l.w (f x) = lp d (l.v x)) ∧ ∀ x, LaneTree l (K x) (k (l.v x)) := by
  generalize hT : (MTree.getCond fun cond : Option (Trace L) =>
      match cond.bind (·.get? name) with
      | none => MTree.raise e
      | some rv => .inject name (RV.mkImproper f rv.value .reused) (K rv.value)) = T at h
  cases h with
  | ret => cases hT
  | var => cases hT
  | stuck _ _ hs => exact Or.inl hs
  | density name' f' d e' rep K' k hf hk =>
    have hT' := fun x : L.V => congrFun (MTree.getCond.inj hT) (some (Dict.empty.insert name (RV.mkImproper f x .reused)))
    simp only [Option.bind_some, Dict.get?_insert, if_true] at hT'
    have hname : name' = name := by
      by_contra hne
      have := hT' (Classical.arbitrary L.V)
      simp [hne] at this
    subst hname
    simp only [if_true, MTree.inject.injEq, true_and] at hT'
    have hff : f = f' := by
      have := (hT' (Classical.arbitrary L.V)).1
      simp [RV.mkImproper] at this
      exact this.1
    subst hff
    have hKK : K = K' := funext fun x => (hT' x).2
    subst hKK
    exact Or.inr ⟨d, rep, k, rfl, hf, hk⟩
  | distribution name' d rep K' k hk =>
    have := congrFun (MTree.getCond.inj hT) none
    simp at this

omit [MeasurableSpace V] [Nonempty V] in
theorem laneTree_distribution [Nonempty L.V] {l : Lane L lp} {name : String} {d : L.D} {rep : Bool} {K : L.V → MTree L} {m : MTree 𝕃}
    (h : LaneTree l (.getCond fun cond =>
      match cond.bind (·.get? name) with
      | some rv => .inject name (RV.mk' d rv.value .reused rep) (K rv.value)
      | none => .sampleFree d rep fun x => .inject name (RV.mk' d x .sampled rep) (K x)) m) :
    Stuck m ∨ ∃ k : V → MTree 𝕃, m = MTree.variable (L := 𝕃) name (l.d d) none none rep k ∧ ∀ x, LaneTree l (K x) (k (l.v x)) := by
  generalize hT : (MTree.getCond fun cond : Option (Trace L) =>
      match cond.bind (·.get? name) with
      | some rv => .inject name (RV.mk' d rv.value .reused rep) (K rv.value)
      | none => .sampleFree d rep fun x => .inject name (RV.mk' d x .sampled rep) (K x)) = T at h
  cases h with
  | ret => cases hT
  | var => cases hT
  | stuck _ _ hs => exact Or.inl hs
  | density name' f' d e' rep K' k hf hk =>
    have := congrFun (MTree.getCond.inj hT) none
    simp at this
  | distribution name' d' rep' K' k hk =>
    have := congrFun (MTree.getCond.inj hT) none
    simp only [Option.bind_none, MTree.sampleFree.injEq] at this
    obtain ⟨rfl, rfl, h3⟩ := this
    have h4 := fun x => congrFun h3 x
    simp only [MTree.inject.injEq] at h4
    have hname := (h4 (Classical.arbitrary L.V)).1
    subst hname
    have hKK : K = K' := funext fun x => (h4 x).2.2
    subst hKK
    exact Or.inr ⟨k, rfl, hk⟩

omit [MeasurableSpace V] [Fintype ι] [Nonempty V] in
theorem laneTrees_of [Nonempty L.V] {T : MTree L} {m : ι → MTree 𝕃} (h : ∀ i, LaneTree (l i) T (m i)) : LaneTrees l T m := by
  have h0 := h (Classical.arbitrary ι)
  generalize hm0 : m (Classical.arbitrary ι) = m0 at h0
  induction h0 generalizing m with
  | ret o =>
    by_cases hs : ∃ i, Stuck (m i)
    · exact .stuck _ _ hs
    · have : m = fun i => .ret (lanePy (l i) o) := funext fun i => (laneTree_ret (h i)).resolve_left fun hi => hs ⟨i, hi⟩
      subst this
      exact .ret o
  | var name d value prov rep K k0 hk0 ih =>
    by_cases hs : ∃ i, Stuck (m i)
    · exact .stuck _ _ hs
    · choose k hk1 hk2 using fun i => (laneTree_var (h i)).resolve_left fun hi => hs ⟨i, hi⟩
      obtain rfl : m = _ := funext hk1
      refine .var name d value prov rep K k fun x => ih x (fun i => hk2 i x) ?_
      have := (MTree.variable.inj hm0).2.2.2.2.2
      rw [this]
  | density name f d0 e rep0 K k0 hf0 hk0 ih =>
    by_cases hs : ∃ i, Stuck (m i)
    · exact .stuck _ _ hs
    · choose d rep k hk1 hf hk2 using fun i => (laneTree_density (h i)).resolve_left fun hi => hs ⟨i, hi⟩
      obtain rfl : m = _ := funext hk1
      refine .density name f d e rep K k hf fun x => ih x (fun i => hk2 i x) ?_
      have := (MTree.variable.inj hm0).2.2.2.2.2
      rw [this]
  | distribution name d rep K k0 hk0 ih =>
    by_cases hs : ∃ i, Stuck (m i)
    · exact .stuck _ _ hs
    · choose k hk1 hk2 using fun i => (laneTree_distribution (h i)).resolve_left fun hi => hs ⟨i, hi⟩
      obtain rfl : m = _ := funext hk1
      refine .distribution name d rep K k fun x => ih x (fun i => hk2 i x) ?_
      have := (MTree.variable.inj hm0).2.2.2.2.2
      rw [this]
  | stuck T t hs => exact .stuck _ _ ⟨_, hm0 ▸ hs⟩


variable [SFinite μ] [Nonempty L.V] {G : (ι → ℝ≥0∞) → ℝ≥0∞} {E : ∀ {α : Type}, Comp L α → (α → ℝ≥0∞) → ℝ≥0∞}

theorem runModel_ev (hE : IsLawOf G μ l E) (cond : Option (Trace L)) {T : MTree L} {m : ι → MTree 𝕃} (hT : LaneTrees l T m)
    (hms : ∀ i, MeasTree (m i)) (t : Trace L) (w : World L) (hw : NoErr (runModel cond T t) w)
    (hm : ∀ i, always (latOf (l i) cond) (m i) (laneEnv (l i) t) fun e _ => Clear cond e ∧ True) {h : ι → Env V → PyVal 𝕃 → ℝ≥0∞}
    (hh : ∀ i, MeasFun (h i)) :
    E (runModel cond T t w) (onOk fun r => G fun i => dens (wt (l i) cond r.2) * h i (laneEnv (l i) r.2) (lanePy (l i) r.1)) =
      G fun i => dens (wt (l i) cond t) * mass μ (latOf (l i) cond) (m i) (laneEnv (l i) t) (h i) := by
  -- sampling a new value
  have hdraw : ∀ (t : Trace L) (name : String) (d : L.D) (rep : Bool) (K : L.V → MTree L) (k : ι → V → MTree 𝕃),
      name ∉ t.keys → held cond name = none → (∀ i, Measurable (lp ((l i).d d)) ∧ PlotTree (k i)) →
      (∀ v, E (runModel cond (K v) (t.insert name (RV.mk' d v .sampled rep)) w)
        (onOk fun r => G fun i => dens (wt (l i) cond r.2) * h i (laneEnv (l i) r.2) (lanePy (l i) r.1)) =
        G fun i => dens (wt (l i) cond (t.insert name (RV.mk' d v .sampled rep))) *
          mass μ (latOf (l i) cond) (k i ((l i).v v)) (laneEnv (l i) (t.insert name (RV.mk' d v .sampled rep))) (h i)) →
      E (.draw d rep fun v => runModel cond (K v) (t.insert name (RV.mk' d v .sampled rep)) w)
        (onOk fun r => G fun i => dens (wt (l i) cond r.2) * h i (laneEnv (l i) r.2) (lanePy (l i) r.1)) =
      G fun i => dens (wt (l i) cond t) * ∫⁻ v, dens (lp ((l i).d d) v) *
        mass μ (latOf (l i) cond) (k i v) (laneEnv (l i) t ++ [(name, ⟨v, lp ((l i).d d) v, true⟩)]) (h i) ∂μ := by
    intro t name d rep K k hn hheld hk hv
    rw [hE.draw _ _ _ _ (fun i x => dens (wt (l i) cond t) *
      mass μ (latOf (l i) cond) (k i x) (laneEnv (l i) t ++ [(name, ⟨x, lp ((l i).d d) x, true⟩)]) (h i))]
    · refine congrArg G (funext fun i => ?_)
      rw [← lintegral_const_mul' _ _ (dens_ne_top _)]
      refine lintegral_congr fun v => ?_
      ring
    · intro i
      refine Measurable.const_mul ?_ _
      exact PlotTree.mass (hk i).2 (.const _) ((PlotEnv.const _).append (.single name true measurable_id (hk i).1)) (PlotFun.const (hh i))
    · intro v
      rw [hv v]
      refine congrArg G (funext fun i => ?_)
      have := step_ev (E := @E) (μ := μ) (k := k i) (h := h i) (cond := cond) hn (goodRV_mk (l i) d v .sampled rep).2 rfl
      have hct : counts cond name (RV.mk' (L := L) d v .sampled rep) = false := by simp [counts, hheld, RV.mk']
      rw [hct] at this
      simp only [Bool.false_eq_true, if_false, one_mul] at this
      exact this
  induction hT generalizing t with
  | ret o => exact hE.ret _ _
  | var name d value prov rep K k hK ih =>
    have hc1 := fun i => variable_cases (Q := fun _ _ => True) (hm i)
    have hprov := (hc1 (Classical.arbitrary ι)).1
    have hn := (hc1 (Classical.arbitrary ι)).2.1
    have hcase := fun i => (hc1 i).2.2
    subst hprov
    have hc : t.contains name = false := Dict.contains_eq_false.2 hn
    simp only [runModel, hc, Bool.false_eq_true, if_false] at hw ⊢
    have hn' : ∀ i, name ∉ (laneEnv (l i) t).names := fun i => by rw [names_laneEnv]; exact hn
    simp only [mass_var, if_neg (hn' _)]
    cases value with
    | some v =>
      have hv : variableValue cond name (some v) none = some (v, .observed) := rfl
      rw [hv] at hw ⊢
      simp only [] at hw ⊢
      rw [ih v (fun i => (hms i).observe) _ hw fun i => by rw [laneEnv_insert _ _ _ _ hn]; exact ((l i).logProb d v) ▸ hcase i]
      refine congrArg G (funext fun i => ?_)
      exact step_ev (E := @E) hn (goodRV_mk (l i) d v .observed rep).2 rfl
    | none =>
      have hms' := fun i => (hms i).sample
      rcases Option.eq_none_or_eq_some (held cond name) with hheld | ⟨c, hheld⟩
      · have hl := fun i => ((hcase i).2 hheld).1
        have ha := fun i => ((hcase i).2 hheld).2
        rw [variableValue_not_held hheld] at hw ⊢
        simp only [Option.map_none, hl]
        refine hdraw t name d rep K k hn hheld hms' fun v => ih v (fun i => (hms' i).2.at _) _ ?_ fun i => ?_
        · exact fun r w' hr => hw r w' ⟨v, hr⟩
        · rw [laneEnv_insert _ _ _ _ hn]; exact ((l i).logProb d v) ▸ ha i ((l i).v v)
      · have ho := ((hcase (Classical.arbitrary ι)).1 c hheld).1
        have hl := fun i => ((hcase i).1 c hheld).2.1
        have ha := fun i => ((hcase i).1 c hheld).2.2
        rw [variableValue_held hheld] at hw ⊢
        simp only [Option.map_none, hl] at hw ⊢
        rw [ih c.value (fun i => (hms' i).2.at _) _ hw fun i => by rw [laneEnv_insert _ _ _ _ hn]; exact ((l i).logProb d c.value) ▸ ha i]
        refine congrArg G (funext fun i => ?_)
        refine (step_ev (E := @E) hn (goodRV_mk (l i) d c.value .reused rep).2 rfl).trans ?_
        have hct : counts cond name (RV.mk' (L := L) d c.value .reused rep) = true := by simp [counts, hheld, ho]
        rw [hct]
        rfl
  | density name f d e rep K k hf hK ih =>
    have hc1 := fun i => variable_cases (Q := fun _ _ => True) (hm i)
    have hn := (hc1 (Classical.arbitrary ι)).2.1
    have hcase := fun i => (hc1 i).2.2
    have hms' := fun i => (hms i).sample
    simp only [runModel, bind_get_held] at hw ⊢
    have hn' : ∀ i, name ∉ (laneEnv (l i) t).names := fun i => by rw [names_laneEnv]; exact hn
    simp only [mass_var, if_neg (hn' _)]
    rcases Option.eq_none_or_eq_some (held cond name) with hheld | ⟨c, hheld⟩
    · rw [hheld] at hw
      obtain ⟨a, ha⟩ := hw (.error e) w (by simp [runModel, Exec.Runs, Exec.throw])
      cases ha
    · rw [hheld] at hw ⊢
      have ho := ((hcase (Classical.arbitrary ι)).1 c hheld).1
      have hl := fun i => ((hcase i).1 c hheld).2.1
      have ha := fun i => ((hcase i).1 c hheld).2.2
      simp only [runModel] at hw ⊢
      simp only [hl]
      rw [ih c.value (fun i => (hms' i).2.at _) _ hw fun i => by rw [laneEnv_insert _ _ _ _ hn]; exact (hf i c.value) ▸ ha i]
      refine congrArg G (funext fun i => ?_)
      refine (step_ev (E := @E) (d := d i) (rv := RV.mkImproper f c.value .reused) hn (hf i c.value) rfl).trans ?_
      have hct : counts cond name (RV.mkImproper f c.value .reused) = true := by simp [counts, hheld, ho]
      rw [hct]
      rfl
  | distribution name d rep K k hK ih =>
    have hc1 := fun i => variable_cases (Q := fun _ _ => True) (hm i)
    have hn := (hc1 (Classical.arbitrary ι)).2.1
    have hcase := fun i => (hc1 i).2.2
    have hms' := fun i => (hms i).sample
    simp only [runModel, bind_get_held] at hw ⊢
    have hn' : ∀ i, name ∉ (laneEnv (l i) t).names := fun i => by rw [names_laneEnv]; exact hn
    simp only [mass_var, if_neg (hn' _)]
    rcases Option.eq_none_or_eq_some (held cond name) with hheld | ⟨c, hheld⟩
    · have hl := fun i => ((hcase i).2 hheld).1
      have ha := fun i => ((hcase i).2 hheld).2
      rw [hheld] at hw ⊢
      simp only [runModel] at hw ⊢
      simp only [hl]
      refine hdraw t name d rep K k hn hheld hms' fun v => ih v (fun i => (hms' i).2.at _) _ ?_ fun i => ?_
      · exact fun r w' hr => hw r w' ⟨v, hr⟩
      · rw [laneEnv_insert _ _ _ _ hn]; exact ((l i).logProb d v) ▸ ha i ((l i).v v)
    · have ho := ((hcase (Classical.arbitrary ι)).1 c hheld).1
      have hl := fun i => ((hcase i).1 c hheld).2.1
      have ha := fun i => ((hcase i).1 c hheld).2.2
      rw [hheld] at hw ⊢
      simp only [runModel] at hw ⊢
      simp only [hl]
      rw [ih c.value (fun i => (hms' i).2.at _) _ hw fun i => by rw [laneEnv_insert _ _ _ _ hn]; exact ((l i).logProb d c.value) ▸ ha i]
      refine congrArg G (funext fun i => ?_)
      refine (step_ev (E := @E) hn (goodRV_mk (l i) d c.value .reused rep).2 rfl).trans ?_
      have hct : counts cond name (RV.mk' (L := L) d c.value .reused rep) = true := by simp [counts, hheld, ho]
      rw [hct]
      rfl
  | stuck T m hs =>
    obtain ⟨i, hi⟩ := hs
    have := hm i
    generalize m i = mi at hi this
    cases mi with
    | ret o => exact hi.elim
    | «variable» => exact hi.elim
    | _ => exact this.elim

/-- The weighted particles put together, of functions that may differ. -/
noncomputable def laneAgg (G : (ι → ℝ≥0∞) → ℝ≥0∞) (l : ι → Lane L lp) (h : ι → Env V → PyVal 𝕃 → ℝ≥0∞) (o : Out L) : ℝ≥0∞ :=
  G fun i => dens ((l i).w o.logWeight.val) * h i (laneEnv (l i) o.trace) (lanePy (l i) o.output)

/-- The weighted sum over the particles. -/
noncomputable abbrev laneSum (l : ι → Lane L lp) (h : ι → Env V → PyVal 𝕃 → ℝ≥0∞) (o : Out L) : ℝ≥0∞ :=
  laneAgg (fun f => ∑ i, f i) l h o

theorem prog_ev (hE : IsLawOf G μ l E) {i₀ i' : ObjId} {S : ProgSpec L} {s : ProgSpec 𝕃} (hs : MeasProg s)
    (hl : ∀ i, LaneNode (l i) (.prog i₀ S) (.prog i' s)) {cond : Option (Trace L)} {c : PyVal L} {kw : Kw L} {w : World L}
    (hw : NoErr (evalP (.prog i₀ S) cond c kw) w)
    (hm : ∀ i, alwaysN (.prog i' s) false (latOf (l i) cond) (lanePy (l i) c) (laneKw (l i) kw) fun e _ => Clear cond e)
    {h : ι → Env V → PyVal 𝕃 → ℝ≥0∞} (hh : ∀ i, MeasFun (h i)) :
    E (evalP (.prog i₀ S) cond c kw w) (onOk (laneAgg G l h)) =
      G fun i => target μ (.prog i' s) false (latOf (l i) cond) (lanePy (l i) c) (laneKw (l i) kw) (h i) := by
  have hap := evalP_prog_apply i₀ S cond c kw w
  have hsig := (hl (Classical.arbitrary ι)).1
  cases hb : bindModel S.sig (receivedKwargs S.sig kw) with
  | error e =>
    rw [hb] at hap
    obtain ⟨a, ha⟩ := hw (.error e) w (by rw [Exec.Runs, hap]; rfl)
    cases ha
  | ok u =>
    rw [hb] at hap
    have hw' : NoErr (runModel cond (S.model c (receivedKwargs S.sig kw)) Dict.empty) w := by
      intro r w' hr
      cases r with
      | ok a => exact ⟨a, rfl⟩
      | error e =>
        obtain ⟨a, ha⟩ := hw (.error e) w' (by
          rw [Exec.Runs, hap]
          exact (Comp.bind_Ret _ _ _).2 ⟨_, hr, rfl⟩)
        cases ha
    rw [hap]
    simp only []
    rw [hE.bind]
    have hm' : ∀ i, always (latOf (l i) cond) (s.model (lanePy (l i) c) (laneKvs (l i) (receivedKwargs S.sig kw))) [] fun e _ => Clear cond e := by
      intro i
      rw [← received_lane, ← hsig]
      exact hm i
    have := runModel_ev hE cond (laneTrees_of fun i => (hl i).2 c (receivedKwargs S.sig kw)) (fun i => measProg_tree hs _ _) Dict.empty w hw'
      (fun i => always_mono (hm' i) fun e o he => ⟨he, trivial⟩) hh
    simp only [show ∀ i, wt (l i) cond (Dict.empty : Trace L) = 0 from fun i => map_zero (l i).w, dens_zero, one_mul] at this
    have e2 : ∀ i, target μ (.prog i' s) false (latOf (l i) cond) (lanePy (l i) c) (laneKw (l i) kw) (h i) =
        mass μ (latOf (l i) cond) (s.model (lanePy (l i) c) (laneKvs (l i) (receivedKwargs S.sig kw))) [] (h i) := by
      intro i
      rw [← received_lane, ← hsig]
      rfl
    simp only [e2]
    refine Eq.trans ?_ this
    congr 1
    funext r
    rcases r with ⟨e | ⟨o, t⟩, w'⟩
    · exact hE.ret _ _
    · refine (hE.ret _ _).trans ?_
      refine congrArg G (funext fun i => ?_)
      show dens ((l i).w (logJoint t (weightNodes cond t)).val) * h i (laneEnv (l i) t) (lanePy (l i) o) =
        dens (wt (l i) cond t) * h i (laneEnv (l i) t) (lanePy (l i) o)
      rw [logJoint_wt]

theorem target_ev (hE : IsLawOf G μ l E) {P : Node L} {p : Node 𝕃} (hms : MeasNode p) (hl : ∀ i, LaneNode (l i) P p)
    {cond : Option (Trace L)} {c : PyVal L} {kw : Kw L} {w : World L} (hw : NoErr (evalP P cond c kw) w)
    (hp : ∀ i, IsTarget μ p (lanePy (l i) c) (laneKw (l i) kw)) (hk : ∀ i, Covered p (latOf (l i) cond) (lanePy (l i) c) (laneKw (l i) kw))
    (hc : ∀ i, alwaysN p false (latOf (l i) cond) (lanePy (l i) c) (laneKw (l i) kw) fun e _ => Clear cond e)
    {H : ι → Env V × PyVal 𝕃 × Env V × PyVal 𝕃 → ℝ≥0∞} (hH : ∀ i, PlotH1 PlotJ (H i)) :
    E (evalP P cond c kw w) (onOk fun o => G fun i => dens ((l i).w o.logWeight.val) *
        H i (laneEnv (l i) o.trace, lanePy (l i) o.output, margOf (l i) P o)) =
      G fun i => joint μ p (latOf (l i) cond) (lanePy (l i) c) (laneKw (l i) kw) (H i) := by
  let i0 : ι := Classical.arbitrary ι
  induction p generalizing P c kw w H with
  | prog i s =>
    cases P with
    | prog i' S => exact prog_ev hE hms hl hw hc (h := fun i e o => H i (e, o, e, o)) fun i _ _ e o he ho => hH i _ _ ⟨he, ho, he, ho⟩
    | _ => exact (hl i0).elim
  | extend a p f ihp ihf =>
    cases P with
    | extend A P F =>
      have hix := fun i => (hl i).1
      have hl1 := fun i => (hl i).2.1
      have hl2 := fun i => (hl i).2.2
      cases f with
      | prog j s =>
        cases F with
        | prog j' S =>
          rw [evalP_extend] at hw ⊢
          have hc1 : ∀ i, alwaysN p false (latOf (l i) cond) (lanePy (l i) c) (laneKw (l i) (subKw A kw)) fun e _ => Clear cond e := by
            intro i
            rw [subKw_lane (hix i)]
            refine alwaysN_mono (n := p) (marg := false) (hc i) fun e1 o1 h1 => ?_
            obtain ⟨e2, o2, h2⟩ := alwaysN_exists h1
            exact h2.left
          have hp1 : ∀ i, IsTarget μ p (lanePy (l i) c) (laneKw (l i) (subKw A kw)) := fun i => by rw [subKw_lane (hix i)]; exact (hp i).1
          have hk1 : ∀ i, Covered p (latOf (l i) cond) (lanePy (l i) c) (laneKw (l i) (subKw A kw)) :=
            fun i => by rw [subKw_lane (hix i)]; exact (hk i).1
          have hk2 := fun i => (hk i).2
          have hc2 : ∀ i, alwaysN p false (latOf (l i) cond) (lanePy (l i) c) (subKw a (laneKw (l i) kw)) fun e1 o1 =>
            alwaysN (.prog j s) false (latOf (l i) cond) o1 (subKw a (laneKw (l i) kw)) fun e2 o2 => Clear cond (e1 ++ e2) := hc
          simp only [← fun i => subKw_lane (hix i)] at hk2 hc2
          have ih := ihp hms.1 hl1 hw.fst hp1 hk1 hc1 (H := fun i ω => target μ (.prog j s) false (latOf (l i) cond) ω.2.1
            (laneKw (l i) (subKw A kw)) fun e2 o2 => H i (ω.1 ++ e2, o2, ω.1, ω.2.1)) (by
              intro i Δ _ ω hω
              refine measNode_target (n := .prog j s) hms.2 false _ (cond := fun _ => latOf (l i) cond)
                (h := fun δ e2 o2 => H i ((ω δ).1 ++ e2, o2, (ω δ).1, (ω δ).2.1)) (.const _) hω.2.1 ?_
              intro Δ' _ ψ e2 o2 hψ he2 ho2
              exact hH i _ _ ⟨(hω.1.comp hψ).append he2, ho2, hω.1.comp hψ, hω.2.1.comp hψ⟩)
          have ej : ∀ i, joint μ (.extend a p (.prog j s)) (latOf (l i) cond) (lanePy (l i) c) (laneKw (l i) kw) (H i) =
              joint μ p (latOf (l i) cond) (lanePy (l i) c) (laneKw (l i) (subKw A kw)) fun ω =>
                target μ (.prog j s) false (latOf (l i) cond) ω.2.1 (laneKw (l i) (subKw A kw)) fun e2 o2 => H i (ω.1 ++ e2, o2, ω.1, ω.2.1) := by
            intro i
            rw [subKw_lane (hix i)]
            exact target_eq_joint (μ := μ) p (latOf (l i) cond) (lanePy (l i) c) (subKw a (laneKw (l i) kw)) fun e1 o1 =>
              target μ (.prog j s) false (latOf (l i) cond) o1 (subKw a (laneKw (l i) kw)) fun e2 o2 => H i (e1 ++ e2, o2, e1, o1)
          rw [funext ej, ← ih]
          refine hE.onOk_bind _ fun po w1 h1 => ?_
          have hw1 := hw.snd h1
          -- what holds of every run of the kernel
          have hrun := fun i => target_reach (Q := fun e1 o1 => alwaysN (.prog j s) false (latOf (l i) cond) o1 (laneKw (l i) (subKw A kw)) fun e2 _ =>
              (Clear cond e2 ∧ ∀ k ∈ Env.names e2, ∃ v, latOf (l i) cond k = some v)) (hl1 i) (hp1 i)
            (alwaysN_mono (n := p) (marg := false) (alwaysN_and (n := p) (marg := false) (hc1 i)
                (alwaysN_and (n := p) (marg := false) (hc2 i) (hk2 i)))
              fun e1 o1 h => ⟨h.1, alwaysN_mono (n := .prog j s) (marg := false)
                (alwaysN_and (n := .prog j s) (marg := false) h.2.1 h.2.2) fun e2 o2 h => ⟨h.1.right, h.2⟩⟩) h1
          have e0 := prog_ev hE hms.2 hl2 hw1.fst (fun i => alwaysN_mono (hrun i).1 fun e o h => h.1)
            (h := fun i e2 o2 => dens ((l i).w po.logWeight.val) * H i (laneEnv (l i) po.trace ++ e2, o2, laneEnv (l i) po.trace, lanePy (l i) po.output))
            (fun i => MeasFun.mul _ fun _ _ e o he ho => hH i _ _ ⟨(PlotEnv.const _).append he, ho, .const _, .const _⟩)
          simp only [target_mul _ _ _ _ _ (dens_ne_top _)] at e0
          rw [← e0]
          refine hE.onOk_bind _ fun fo w2 h2 => ?_
          obtain ⟨o, ho⟩ := (hw1.snd h2).lift
          obtain ⟨e1, e2, e3, e4⟩ := extendRest_ok ho P (.prog j' S)
          rw [ho]
          refine (hE.ret _ _).trans ?_
          refine congrArg G (funext fun i => ?_)
          obtain ⟨h6, h7, h8⟩ := prog_reach (hl2 i) (hrun i).1 h2
          have e5 : margOf (Lo := Lo) (l i) (.extend A P (.prog j' S)) o = (laneEnv (l i) po.trace, lanePy (l i) po.output) := by
            unfold margOf; rw [e4]
          rw [e5, e3, map_add, sumLogProb_all h6, ← h8, laneEnv_union (l i) e1, e2, dens_add]
          ring
        | _ => exact (hl2 i0).elim
      | _ => exact (hp i0).elim
    | _ => exact (hl i0).elim
  | _ => exact (hp i0).elim

theorem measurable_Den_plot {Γ : Type} [MeasurableSpace Γ] {e e' : Γ → Env V} (he : PlotEnv e) (he' : PlotEnv e') :
    Measurable fun γ => Den (e γ).lat (e' γ) := by
  induction he' with
  | nil => exact measurable_const
  | cons name v w latent e' hv hw _ ih =>
    have h1 : ∀ γ, Den (e γ).lat ((name, (⟨v γ, w γ, latent⟩ : Entry V)) :: e' γ) =
      Den (e γ).lat [(name, (⟨v γ, w γ, latent⟩ : Entry V))] + Den (e γ).lat (e' γ) := fun γ => Den_append _ [_] _
    simp only [h1]
    refine Measurable.add ?_ ih
    simp only [Den_single]
    rcases he.lat name with h | ⟨u, _, h⟩
    · simp only [h]
      by_cases hl : latent = true
      · simp only [hl, and_self, if_true]; exact measurable_const
      · simp only [hl, false_and, if_false]; exact hw
    · simp only [h, reduceCtorEq, and_false, if_false]; exact hw

/-- What the law of Propose integrates is measurable. -/
theorem measFun_joint {p : Node 𝕃} (hms : MeasNode p) (c : PyVal 𝕃) (kw : Kw 𝕃) {h : Env V → PyVal 𝕃 → ℝ≥0∞} (hh : MeasFun h) :
    MeasFun fun e (_ : PyVal 𝕃) => joint μ p e.lat c kw fun ω => h ω.2.2.1 ω.2.2.2 * dens (-Den ω.1.lat e) := by
  intro Γ _ e o he ho
  have key : ∀ (n : Node 𝕃), MeasNode n → Measurable fun γ => target μ n false (e γ).lat c kw fun e' o' => h e' o' * dens (-Den e'.lat (e γ)) := by
    intro n hn
    refine measNode_target hn false kw he.lat (.const c) (h := fun γ e' o' => h e' o' * dens (-Den e'.lat (e γ))) ?_
    intro Δ _ φ e' o' hφ he' ho'
    exact (hh _ e' o' he' ho').mul (measurable_dens.comp (measurable_Den_plot he' (he.comp hφ)).neg)
  cases p with
  | extend a p f =>
    refine measNode_target hms.1 false (subKw a kw) he.lat (.const c) (h := fun γ e1 o1 =>
      target μ f false (e γ).lat o1 (subKw a kw) fun e2 _ => h e1 o1 * dens (-Den (e1 ++ e2).lat (e γ))) ?_
    intro Δ _ φ e1 o1 hφ he1 ho1
    refine measNode_target hms.2 false (subKw a kw) (he.comp hφ).lat ho1
      (h := fun δ e2 _ => h (e1 δ) (o1 δ) * dens (-Den (e1 δ ++ e2).lat (e (φ δ)))) ?_
    intro Δ' _ ψ e2 o2 hψ he2 ho2
    exact (hh _ _ _ (he1.comp hψ) (ho1.comp hψ)).mul
      (measurable_dens.comp (measurable_Den_plot ((he1.comp hψ).append he2) (he.comp (hφ.comp hψ))).neg)
  | prog i s => exact key _ hms
  | resample a r q => exact key _ hms
  | compose a q2 q1 => exact key _ hms
  | propose a t b p q => exact key _ hms

/-- One Propose, given what is known of its proposal's result. -/
theorem propose_step (hE : IsLawOf G μ l E) {A : Attrs L}
    {TR : Trace L → Kw L → Except Err (Trace L)} {nr : Bool} {P Q : Node L} {p : Node 𝕃} (hms : MeasNode p) (hl : ∀ i, LaneNode (l i) P p)
    {c : PyVal L} {kw : Kw L} {qo : Out L} {w : World L}
    (hw : NoErr (evalP P (some qo.trace) c (subKw A kw) >>= fun po => Exec.lift (proposeRest A TR nr P Q kw qo po)) w)
    (htr : ∀ i kw' t', TR qo.trace kw' = .ok t' → (laneEnv (l i) t').Perm (laneEnv (l i) qo.trace))
    (hp : ∀ i, IsTarget μ p (lanePy (l i) c) (laneKw (l i) (subKw A kw)))
    (h2 : ∀ i, Covered p (laneEnv (l i) qo.trace).lat (lanePy (l i) c) (laneKw (l i) (subKw A kw)))
    (h3 : ∀ i, alwaysN p false (laneEnv (l i) qo.trace).lat (lanePy (l i) c) (laneKw (l i) (subKw A kw)) fun e' _ =>
      ∀ k x, (k, x) ∈ e' → x.latent = true → ∀ y, (k, y) ∈ laneEnv (l i) qo.trace → y.latent = true)
    {h : ι → Env V → PyVal 𝕃 → ℝ≥0∞} (hh : ∀ i, MeasFun (h i)) :
    E ((evalP P (some qo.trace) c (subKw A kw) >>= fun po => Exec.lift (proposeRest A TR nr P Q kw qo po)) w) (onOk (laneAgg G l h)) =
      G fun i => dens ((l i).w qo.logWeight.val) * joint μ p (laneEnv (l i) qo.trace).lat (lanePy (l i) c) (laneKw (l i) (subKw A kw)) fun ω =>
        h i ω.2.2.1 ω.2.2.2 * dens (-Den ω.1.lat (laneEnv (l i) qo.trace)) := by
  have hcl : ∀ i, alwaysN p false (latOf (l i) (some qo.trace)) (lanePy (l i) c) (laneKw (l i) (subKw A kw)) fun e _ => Clear (some qo.trace) e :=
    fun i => alwaysN_mono (h3 i) fun e o h => clear_of_env h
  have ht := target_ev hE hms hl (cond := some qo.trace) hw.fst hp h2 hcl
    (H := fun i ω => dens ((l i).w qo.logWeight.val) * (h i ω.2.2.1 ω.2.2.2 * dens (-Den ω.1.lat (laneEnv (l i) qo.trace)))) (by
      intro i Δ _ ω hω
      exact ((hh i _ _ _ hω.2.2.1 hω.2.2.2).mul (measurable_dens.comp (measurable_Den_plot hω.1 (.const _)).neg)).const_mul _)
  simp only [joint_mul _ _ _ _ (dens_ne_top _)] at ht
  refine Eq.trans ?_ ht
  refine hE.onOk_bind _ fun po w2 h4 => ?_
  obtain ⟨o, ho⟩ := (hw.snd h4).lift
  obtain ⟨qt, m, t, fwd, lv, x, e0, e1, e2, e3, e4, -, e5⟩ := proposeRest_ok ho
  obtain ⟨ls, -, rfl⟩ := finish_ok e5
  rw [ho]
  refine (hE.ret _ _).trans ?_
  refine congrArg G (funext fun i => ?_)
  obtain ⟨-, h7⟩ := marg_reach (Q := fun _ _ => True) (hl i) (hp i) (hcl i)
    (alwaysN_mono (alwaysN_none (isTarget_marg (hp i))) fun _ _ _ => trivial) h4 e3
  obtain ⟨h8, -⟩ := returned_env (returned_of e4) h7
  have e6 : margOf (Lo := Lo) (l i) P po = (laneEnv (l i) m.2, lanePy (l i) m.1) := by unfold margOf; rw [e3]
  rw [e6]
  show dens ((l i).w (L.detachW x)) * h i (laneEnv (l i) t) (lanePy (l i) (detachOutput m.1)) = _
  rw [(l i).detachW, e2, map_add, e1, map_sub, h8, lanePy_detach, denominator_eq (htr i _ _ e0), sub_eq_add_neg, dens_add, dens_add]
  ring

/-- One Compose, given what is known of its first part's result. -/
theorem compose_step (hE : IsLawOf G μ l E) {A : Attrs L} {Q2 : Node L} {kw : Kw L} {o1 : Out L} {w : World L}
    (hw : NoErr (evalP Q2 none o1.output (subKw A kw) >>= fun o2 => Exec.lift (composeRest A kw o1 o2)) w)
    {h : ι → Env V → PyVal 𝕃 → ℝ≥0∞} {R : ℝ≥0∞}
    (hR : E (evalP Q2 none o1.output (subKw A kw) w) (onOk (laneAgg G l fun i e2 o2 =>
      dens ((l i).w o1.logWeight.val) * h i (e2 ++ laneEnv (l i) o1.trace) o2)) = R) :
    E ((evalP Q2 none o1.output (subKw A kw) >>= fun o2 => Exec.lift (composeRest A kw o1 o2)) w) (onOk (laneAgg G l h)) = R := by
  rw [← hR]
  refine hE.onOk_bind _ fun o2 w2 h3 => ?_
  obtain ⟨o, ho⟩ := (hw.snd h3).lift
  obtain ⟨e1, e2, e3⟩ := composeRest_ok ho
  rw [ho]
  refine (hE.ret _ _).trans ?_
  refine congrArg G (funext fun i => ?_)
  rw [e3, map_add, laneEnv_union (l i) e1, e2, dens_add]
  ring

theorem measFun_compose {q2 : Node 𝕃} (hms : MeasNode q2) (kw : Kw 𝕃) {h : Env V → PyVal 𝕃 → ℝ≥0∞} (hh : MeasFun h) :
    MeasFun fun e1 o1 => target μ q2 false (fun _ => none) o1 kw fun e2 o2 => h (e2 ++ e1) o2 := by
  intro Γ _ e1 o1 he1 ho1
  refine measNode_target hms false kw (.const _) ho1 (h := fun γ e2 o2 => h (e2 ++ e1 γ) o2) ?_
  intro Δ _ φ e2 o2 hφ he2 ho2
  exact hh _ _ _ (he2.append (he1.comp hφ)) ho2

theorem whole_ev (hE : IsLawOf G μ l E) {N : Node L} {n : Node 𝕃} (hms : MeasNode n) (hl : ∀ i, LaneNode (l i) N n)
    (hN : Whole N) {c : PyVal L} {kw : Kw L} {w : World L} (hw : NoErr (evalP N none c kw) w)
    (hn : ∀ i, Fits μ n (lanePy (l i) c) (laneKw (l i) kw)) {h : ι → Env V → PyVal 𝕃 → ℝ≥0∞} (hh : ∀ i, MeasFun (h i)) :
    E (evalP N none c kw w) (onOk (laneAgg G l h)) = G fun i => target μ n false (fun _ => none) (lanePy (l i) c) (laneKw (l i) kw) (h i) := by
  let i0 : ι := Classical.arbitrary ι
  induction n generalizing N c kw w h with
  | prog j s =>
    cases N with
    | prog j' S =>
      exact prog_ev (cond := none) hE hms hl hw (fun i => alwaysN_mono (n := .prog j s) (marg := false) (hn i) fun e _ _ => clear_none e) hh
    | _ => exact (hl i0).elim
  | compose a q2 q1 ih2 ih1 =>
    cases N with
    | compose A Q2 Q1 =>
      have hix := fun i => (hl i).1
      have hn1 := fun i => (hn i).1
      have hn2 := fun i => (hn i).2
      simp only [← fun i => subKw_lane (hix i)] at hn1 hn2
      rw [evalP_compose] at hw ⊢
      have e0 := ih1 hms.2 (fun i => (hl i).2.2) hN.2 hw.fst hn1 fun i => measFun_compose (μ := μ) hms.1 (laneKw (l i) (subKw A kw)) (hh i)
      refine Eq.trans ?_ (e0.trans (congrArg G (funext fun i => by rw [subKw_lane (hix i)]; rfl)))
      refine hE.onOk_bind _ fun o1 w1 h1 => ?_
      have hw1 := hw.snd h1
      refine compose_step hE hw1 ?_
      have h2 := fun i => (whole_reach (hl i).2.2 hN.2 (hn1 i) (hn2 i) h1).1.1
      refine (ih2 hms.1 (fun i => (hl i).2.1) hN.1 hw1.fst h2
        (h := fun i e2 o2 => dens ((l i).w o1.logWeight.val) * h i (e2 ++ laneEnv (l i) o1.trace) o2)
        fun i => MeasFun.mul _ fun _ _ e o he ho => hh i _ _ _ (he.append (.const _)) ho).trans ?_
      simp only [target_mul _ _ _ _ _ (dens_ne_top _)]
      rfl
    | _ => exact (hl i0).elim
  | propose a tr nr p q ihp ihq =>
    cases N with
    | propose A TR nr' P Q =>
      have hix := fun i => (hl i).1
      have hq1 := fun i => (hn i).1
      have hp := fun i => (hn i).2.1
      have hall := fun i => (hn i).2.2.2
      rw [evalP_propose] at hw ⊢
      have e0 : ∀ i, target μ (.propose a tr nr p q) false (fun _ => none) (lanePy (l i) c) (laneKw (l i) kw) (h i) = _ :=
        fun i => (propose_law hms.1 hms.2 (hq1 i) (hp i) (hn i).2.2.1 (hh i)).symm
      rw [funext e0]
      simp only [← fun i => subKw_lane (hix i)] at hq1 hp hall ⊢
      rw [← ihq hms.2 (fun i => (hl i).2.2.1) hN.2 hw.fst hq1 fun i => measFun_joint (μ := μ) hms.1 _ _ (hh i)]
      refine hE.onOk_bind _ fun qo w1 h1 => ?_
      have h2 := fun i => (whole_reach (hl i).2.2.1 hN.2 (hq1 i) (hall i) h1).1
      exact propose_step hE hms.1 (fun i => (hl i).2.1) (hw.snd h1) (fun i kw' t' => (hl i).2.2.2 _ _ _ (h2 i).1) hp
        (fun i => (h2 i).2.1) (fun i => (h2 i).2.2) hh
    | _ => exact (hl i0).elim
  | resample a r q ih =>
    cases N with
    | resample A R Q => exact hN.elim
    | _ => exact (hl i0).elim
  | _ => exact (hn i0).elim

end
end
end Verif
