import Verif.Props.Cli
import Verif.Spec.Tabulate
import Mathlib.Tactic.Choose
import Mathlib.Tactic.Tauto
/-
C95: the table of the annealing experiment's results.
-/
namespace Verif
namespace Tabulate
open Cli

theorem mapM_ok {α β : Type} (f : α → Except Err β) (g : α → β) : ∀ l : List α, (∀ x ∈ l, f x = .ok (g x)) → l.mapM f = .ok (l.map g)
  | [], _ => rfl
  | x :: l, h => by
    rw [List.mapM_cons, h x (by simp), mapM_ok f g l fun y hy => h y (by simp [hy])]
    rfl

theorem mapM_error {α β : Type} (f : α → Except Err β) (e : Err) : ∀ l : List α, (∀ x ∈ l, (∃ y, f x = .ok y) ∨ f x = .error e) → (∃ x ∈ l, f x = .error e) → l.mapM f = .error e
  | [], _, h => by obtain ⟨x, hx, -⟩ := h; cases hx
  | x :: l, h, he => by
    rw [List.mapM_cons]
    rcases h x (by simp) with ⟨y, hy⟩ | hy
    · rw [hy]
      have : ∃ z ∈ l, f z = .error e := by
        obtain ⟨z, hz, hez⟩ := he
        rcases List.mem_cons.1 hz with rfl | hz
        · rw [hy] at hez; cases hez
        · exact ⟨z, hz, hez⟩
      show (do let ys ← l.mapM f; pure (y :: ys)) = _
      rw [mapM_error f e l (fun z hz => h z (by simp [hz])) this]
      rfl
    · rw [hy]
      rfl

theorem prefixes_eq : prefixes = groups.map Group.pre := by decide +kernel

theorem groups_nodup : (groups.map Group.pre).Nodup := by decide +kernel

/-- What is read off the prefix. -/
theorem parts_group : ∀ g ∈ groups, parts g.pre = .ok (if g.resample then if g.optimizePath then "nvirs".toList else "nvir".toList else if g.optimizePath then "nvis".toList else "nvi".toList,
    if g.avo then "avo".toList else "rkl".toList, 'K' :: (toString g.targets).toList) := by
  have h : ∀ g ∈ groups, (parts g.pre).toOption = some (if g.resample then if g.optimizePath then "nvirs".toList else "nvir".toList else if g.optimizePath then "nvis".toList else "nvi".toList,
      if g.avo then "avo".toList else "rkl".toList, 'K' :: (toString g.targets).toList) := by decide +kernel
  intro g hg
  have := h g hg
  cases hp : parts g.pre with
  | error e => rw [hp] at this; cases this
  | ok p =>
    rw [hp] at this
    exact congrArg _ (Option.some.inj this)

theorem digit_group : ∀ g ∈ groups, ∃ c, ('K' :: (toString g.targets).toList)[1]? = some c ∧ String.ofList [c] = toString g.targets ∧ pyInt (String.ofList [c]) = some (g.targets : Int) := by
  intro g hg
  have hK : g.targets ∈ [2, 4, 6, 8] := by
    revert g
    decide +kernel
  simp only [List.mem_cons, List.not_mem_nil, or_false] at hK
  rcases hK with h | h | h | h <;> rw [h]
  · exact ⟨'2', by decide +kernel, by decide +kernel, by decide +kernel⟩
  · exact ⟨'4', by decide +kernel, by decide +kernel, by decide +kernel⟩
  · exact ⟨'6', by decide +kernel, by decide +kernel, by decide +kernel⟩
  · exact ⟨'8', by decide +kernel, by decide +kernel, by decide +kernel⟩

/-- The average of tensors of one size. -/
theorem stackMean_ok (ts : List (List ℝ)) (h0 : ts ≠ []) (n : Nat) (h : ∀ u ∈ ts, u.length = n) :
    stackMean ts = .ok ((List.range n).map fun i => (ts.map fun u => u.getD i 0).sum / ts.length) := by
  cases ts with
  | nil => exact absurd rfl h0
  | cons t l =>
    unfold stackMean
    have ht := h t (by simp)
    simp only
    rw [if_pos fun u hu => (h u hu).trans ht.symm, ht]

theorem report_ok (ts : List Stats) (h0 : ts ≠ []) (hf : Fit ts) : ∃ r, report ts = .ok r ∧ r.numSeeds = ts.length ∧
    lastItem r.ess = .ok (average (ts.map fun t => t.ess.getLastD 0)) ∧ lastItem r.lZh = .ok (average (ts.map fun t => t.lZh.getLastD 0)) := by
  obtain ⟨n, hn, hs⟩ := hf
  have hne : ∀ f : Stats → List ℝ, ts.map f ≠ [] := fun f h => h0 (List.map_eq_nil_iff.1 h)
  have e1 := stackMean_ok (ts.map (·.loss)) (hne _) n (by simpa using fun t ht => (hs t ht).1)
  have e2 := stackMean_ok (ts.map (·.ess)) (hne _) n (by simpa using fun t ht => (hs t ht).2.1)
  have e3 := stackMean_ok (ts.map (·.lZh)) (hne _) n (by simpa using fun t ht => (hs t ht).2.2)
  have hlast : ∀ f : Stats → List ℝ, (∀ t ∈ ts, (f t).length = n) →
      lastItem ((List.range n).map fun i => ((ts.map f).map fun u => u.getD i 0).sum / (ts.map f).length) = .ok (average (ts.map fun t => (f t).getLastD 0)) := by
    intro f hf
    unfold lastItem
    obtain ⟨k, rfl⟩ : ∃ k, n = k + 1 := ⟨n - 1, by omega⟩
    rw [List.range_succ, List.map_append, List.map_singleton, List.getLast?_concat]
    unfold average
    rw [List.map_map, List.length_map, List.length_map]
    show Except.ok _ = Except.ok _
    congr 3
    refine List.map_congr_left fun t ht => ?_
    have := hf t ht
    show (f t).getD k 0 = (f t).getLastD 0
    rw [List.getLastD_eq_getLast?, List.getLast?_eq_getElem?, this, List.getD_eq_getElem?_getD]
    rfl
  refine ⟨⟨(List.range n).map fun i => ((ts.map (·.loss)).map fun u => u.getD i 0).sum / (ts.map (·.loss)).length, _, _, ts.length⟩, ?_, rfl, hlast (·.ess) fun t ht => (hs t ht).2.1, hlast (·.lZh) fun t ht => (hs t ht).2.2⟩
  unfold report
  split
  · exact absurd rfl h0
  · rw [e1, e2, e3]
    rfl

theorem row_ok (showFloat : ℝ → String) (g : Group) (hg : g ∈ groups) (ts : List Stats) (h0 : ts ≠ []) (hf : Fit ts) :
    ∃ r, report ts = .ok r ∧ row showFloat (g.pre, r) = .ok (g.row showFloat ts) := by
  obtain ⟨r, hr, h1, h2, h3⟩ := report_ok ts h0 hf
  refine ⟨r, hr, ?_⟩
  obtain ⟨c, hc, hc', -⟩ := digit_group g hg
  unfold row
  rw [parts_group g hg]
  show (match ('K' :: (toString g.targets).toList)[1]? with | none => _ | some c => _) = _
  rw [hc]
  simp only [h2, h3]
  show Except.ok _ = Except.ok _
  congr 1
  unfold Group.row Group.label
  simp only [h1, hc']
  obtain ⟨a, b, c', K⟩ := g
  congr 1
  cases a <;> cases b <;> cases c' <;> rfl

theorem metricsOf_eq (g : Group) (files : List String) : metricsOf g.pre files = g.files files := rfl

theorem weightsOf_eq (g : Group) (files : List String) : weightsOf g.pre files = g.models files := by
  unfold weightsOf Group.models Group.files
  rw [List.filter_filter]
  refine List.filter_congr fun f _ => ?_
  have : "pt".toList.isSuffixOf f.toList = decide ("pt".toList <:+ f.toList) := by
    rw [Bool.eq_iff_iff, List.isSuffixOf_iff_suffix, decide_eq_true_iff]
  rw [this, Bool.eq_iff_iff]
  simp only [Bool.and_eq_true, Bool.not_eq_true', decide_eq_true_iff, decide_eq_false_iff_not]
  tauto

/-- The first loop, on the entry of a group. -/
theorem classify_group (g : Group) (hg : g ∈ groups) (ts : List Stats) :
    classify g.pre ts = if g.resample then .ok (.inl ⟨g.pre, g.targets, g.optimizePath, "nvo_rkl"⟩) else (report ts).map fun r => .inr (g.pre, r) := by
  obtain ⟨c, hc, -, hc'⟩ := digit_group g hg
  have hobj : (if (if g.avo then "avo".toList else "rkl".toList) = "nvo".toList then "nvo_avo" else "nvo_rkl") = "nvo_rkl" := by
    cases g.avo <;> decide +kernel
  unfold classify
  rw [parts_group g hg]
  obtain ⟨a, b, c', K⟩ := g
  have l1 : lastTwo "nvi".toList = .ok ('v', 'i') := rfl
  have l2 : lastTwo "nvis".toList = .ok ('i', 's') := rfl
  have l3 : lastTwo "nvir".toList = .ok ('i', 'r') := rfl
  have l4 : lastTwo "nvirs".toList = .ok ('r', 's') := rfl
  have d1 : ('v' : Char) ≠ 'r' := by decide
  have d2 : ('i' : Char) ≠ 'r' := by decide
  have d3 : ('s' : Char) ≠ 'r' := by decide
  have d4 : ('r' : Char) ≠ 's' := by decide
  simp only at hc hc' hobj ⊢
  cases a <;> cases b <;>
    simp only [Bool.false_eq_true, ↓reduceIte, l1, l2, l3, l4, bind, Except.bind, hc, hc', hobj, d1, d2, d3, d4, or_self, or_true, or_false, decide_true, decide_false, pure, Except.pure]
  · cases report ts <;> rfl
  · cases report ts <;> rfl

/-- The groups with metrics. -/
def present (files : List String) : List Group := groups.filter fun g => !(g.files files).isEmpty

theorem present_mem {files : List String} {g : Group} (h : g ∈ present files) : g ∈ groups ∧ g.files files ≠ [] := by
  unfold present at h
  rw [List.mem_filter] at h
  refine ⟨h.1, fun h0 => ?_⟩
  rw [h0] at h
  exact absurd h.2 (by decide)

theorem loadMetrics_ok (files : List String) (load : String → Except Err Stats) (stat : String → Stats) (h : ∀ g ∈ groups, ∀ f ∈ g.files files, load f = .ok (stat f)) :
    loadMetrics files load = .ok ((present files).map fun g => (g.pre, (g.files files).map stat)) := by
  unfold loadMetrics
  have e : prefixes.mapM (fun k => do
      let ts ← (metricsOf k files).mapM load
      pure (k, ts)) = (.ok (groups.map fun g => (g.pre, (g.files files).map stat)) : Except Err _) := by
    rw [prefixes_eq, List.mapM_map]
    refine mapM_ok _ _ _ fun g hg => ?_
    show (do let ts ← (metricsOf g.pre files).mapM load; pure (g.pre, ts)) = _
    rw [metricsOf_eq, mapM_ok load stat _ (h g hg)]
    rfl
  rw [e]
  show Except.ok _ = Except.ok _
  congr 1
  unfold present
  rw [List.filter_map]
  congr 1
  refine List.filter_congr fun g _ => ?_
  show (!((g.files files).map stat).isEmpty) = _
  rw [List.isEmpty_map]

/-- Which runs of the first loop are tested again. -/
theorem loop_ok (gs : List Group) (hgs : ∀ g ∈ gs, g ∈ groups) (ts : Group → List Stats) (rep : Group → Report) (h : ∀ g ∈ gs, g.resample = false → report (ts g) = .ok (rep g)) :
    ∃ cs, (gs.map fun g => (g.pre, ts g)).mapM (fun p => classify p.1 p.2) = .ok cs ∧
      (cs.filterMap fun c => match c with | .inr p => some p | .inl _ => none) = (gs.filter fun g => !g.resample).map (fun g => (g.pre, rep g)) ∧
      (cs.filterMap fun c => match c with | .inl r => some r | .inr _ => none) = (gs.filter fun g => g.resample).map (fun g => (⟨g.pre, g.targets, g.optimizePath, "nvo_rkl"⟩ : Resampled)) := by
  refine ⟨gs.map fun g => if g.resample then .inl ⟨g.pre, g.targets, g.optimizePath, "nvo_rkl"⟩ else .inr (g.pre, rep g), ?_, ?_, ?_⟩
  · rw [List.mapM_map]
    refine mapM_ok _ _ _ fun g hg => ?_
    show classify g.pre (ts g) = _
    rw [classify_group g (hgs g hg)]
    cases hr : g.resample
    · rw [h g hg hr]
      rfl
    · rfl
  · clear hgs h
    induction gs with
    | nil => rfl
    | cons g gs ih =>
      rw [List.map_cons, List.filterMap_cons, List.filter_cons, ih]
      cases g.resample <;> rfl
  · clear hgs h
    induction gs with
    | nil => rfl
    | cons g gs ih =>
      rw [List.map_cons, List.filterMap_cons, List.filter_cons, ih]
      cases g.resample <;> rfl

/-- C95: no file belongs to two groups. -/
theorem C95_exclusive (g g' : Group) (hg : g ∈ groups) (hg' : g' ∈ groups) (f : String) (files : List String) (h : f ∈ g.files files) (h' : f ∈ g'.files files) : g = g' := by
  have hp := (List.mem_filter.1 h).2
  have hp' := (List.mem_filter.1 h').2
  rw [List.isPrefixOf_iff_prefix] at hp hp'
  have key : ∀ a ∈ groups, ∀ b ∈ groups, a.pre.toList.isPrefixOf b.pre.toList = true → a = b := by decide +kernel
  rcases Nat.le_total g.pre.toList.length g'.pre.toList.length with hl | hl
  · exact key g hg g' hg' (List.isPrefixOf_iff_prefix.2 (List.prefix_of_prefix_length_le hp hp' hl))
  · exact (key g' hg' g hg (List.isPrefixOf_iff_prefix.2 (List.prefix_of_prefix_length_le hp' hp hl))).symm

variable {M : Type} (showFloat : ℝ → String) (metricFiles weightFiles : List String) (load : String → Except Err Stats) (mkLoad : Int → Bool → String → Except Err M)
  (test : M → String → Except Err Stats)

/-- C95: the table. First the groups without resampling, from their metrics; then those with resampling, from their saved models, all of which are tested with `nvo_rkl`. -/
theorem C95_table (stat : String → Stats) (model : Group → String → M) (again : Group → String → Stats)
    (hload : ∀ g ∈ groups, ∀ f ∈ g.files metricFiles, load f = .ok (stat f))
    (hmk : ∀ g ∈ groups, g.resample = true → ∀ f ∈ g.models weightFiles, mkLoad g.targets g.optimizePath f = .ok (model g f) ∧ test (model g f) "nvo_rkl" = .ok (again g f))
    (hfit : ∀ g ∈ groups, g.resample = false → Fit ((g.files metricFiles).map stat))
    (hfit' : ∀ g ∈ groups, g.resample = true → Fit ((g.models weightFiles).map (again g)))
    (hw : ∀ g ∈ groups, g.resample = true → g.files metricFiles ≠ [] → g.models weightFiles ≠ []) :
    table showFloat metricFiles weightFiles load mkLoad test = .ok (["method", "#", "num_targets", "ess", "lZh"] ::
      (((groups.filter fun g => !(g.files metricFiles).isEmpty).filter fun g => !g.resample).map (fun g => g.row showFloat ((g.files metricFiles).map stat)) ++
        ((groups.filter fun g => !(g.files metricFiles).isEmpty).filter fun g => g.resample).map (fun g => g.row showFloat ((g.models weightFiles).map (again g))))) := by
  have hrep : ∀ g : Group, ∃ r, g ∈ present metricFiles → g.resample = false → report ((g.files metricFiles).map stat) = .ok r ∧ row showFloat (g.pre, r) = .ok (g.row showFloat ((g.files metricFiles).map stat)) := by
    intro g
    by_cases h : g ∈ present metricFiles ∧ g.resample = false
    · obtain ⟨hg, h0⟩ := present_mem h.1
      obtain ⟨r, h1, h2⟩ := row_ok showFloat g hg ((g.files metricFiles).map stat) (fun e => h0 (List.map_eq_nil_iff.1 e)) (hfit g hg h.2)
      exact ⟨r, fun _ _ => ⟨h1, h2⟩⟩
    · exact ⟨⟨[], [], [], 0⟩, fun h1 h2 => absurd ⟨h1, h2⟩ h⟩
  have hrep' : ∀ g : Group, ∃ r, g ∈ present metricFiles → g.resample = true → report ((g.models weightFiles).map (again g)) = .ok r ∧ row showFloat (g.pre, r) = .ok (g.row showFloat ((g.models weightFiles).map (again g))) := by
    intro g
    by_cases h : g ∈ present metricFiles ∧ g.resample = true
    · obtain ⟨hg, h0⟩ := present_mem h.1
      obtain ⟨r, h1, h2⟩ := row_ok showFloat g hg ((g.models weightFiles).map (again g)) (fun e => hw g hg h.2 h0 (List.map_eq_nil_iff.1 e)) (hfit' g hg h.2)
      exact ⟨r, fun _ _ => ⟨h1, h2⟩⟩
    · exact ⟨⟨[], [], [], 0⟩, fun h1 h2 => absurd ⟨h1, h2⟩ h⟩
  choose rep hrep using hrep
  choose rep' hrep' using hrep'
  obtain ⟨cs, hcs, hp, hr⟩ := loop_ok (present metricFiles) (fun g h => (present_mem h).1) (fun g => (g.files metricFiles).map stat) rep fun g h h' => (hrep g h h').1
  unfold table
  rw [loadMetrics_ok metricFiles load stat hload]
  show (((present metricFiles).map fun g : Group => (g.pre, (g.files metricFiles).map stat)).mapM (fun p : String × List Stats => classify p.1 p.2) >>= _) = _
  rw [hcs]
  show (do
    let models ← (cs.filterMap fun c : Resampled ⊕ (String × Report) => match c with | .inl r => some r | .inr _ => none).mapM (loadRun weightFiles mkLoad)
    let again ← models.mapM (retest test)
    let rows ← ((cs.filterMap fun c : Resampled ⊕ (String × Report) => match c with | .inr p => some p | .inl _ => none) ++ again).mapM (row showFloat)
    pure (header :: rows)) = _
  rw [hp, hr]
  have e1 : (((present metricFiles).filter fun g => g.resample).map (fun g => (⟨g.pre, g.targets, g.optimizePath, "nvo_rkl"⟩ : Resampled))).mapM (loadRun weightFiles mkLoad) =
      .ok (((present metricFiles).filter fun g => g.resample).map fun g => (g.pre, (g.models weightFiles).map fun f => (f, model g f, "nvo_rkl"))) := by
    rw [List.mapM_map]
    refine mapM_ok _ _ _ fun g hg => ?_
    obtain ⟨hg, hre⟩ := List.mem_filter.1 hg
    show (do
      let ms ← (weightsOf g.pre weightFiles).mapM fun f => do
        let m ← mkLoad g.targets g.optimizePath f
        pure (f, m, "nvo_rkl")
      pure (g.pre, ms)) = _
    rw [weightsOf_eq, mapM_ok _ (fun f => (f, model g f, "nvo_rkl"))]
    · rfl
    · intro f hf
      rw [(hmk g (present_mem hg).1 hre f hf).1]
      rfl
  rw [e1]
  show (do
    let again ← (((present metricFiles).filter fun g : Group => g.resample).map fun g : Group => (g.pre, (g.models weightFiles).map fun f => (f, model g f, "nvo_rkl"))).mapM (retest test)
    let rows ← (((present metricFiles).filter fun g : Group => !g.resample).map (fun g : Group => (g.pre, rep g)) ++ again).mapM (row showFloat)
    pure (header :: rows)) = _
  have e2 : (((present metricFiles).filter fun g => g.resample).map fun g => (g.pre, (g.models weightFiles).map fun f => (f, model g f, "nvo_rkl"))).mapM (retest test) =
      .ok (((present metricFiles).filter fun g => g.resample).map fun g => (g.pre, rep' g)) := by
    rw [List.mapM_map]
    refine mapM_ok _ _ _ fun g hg => ?_
    obtain ⟨hg, hre⟩ := List.mem_filter.1 hg
    show (do
      let ts ← ((g.models weightFiles).map fun f => (f, model g f, "nvo_rkl")).mapM fun q : String × M × String => test q.2.1 q.2.2
      let r ← report ts
      pure (g.pre, r)) = _
    rw [List.mapM_map, mapM_ok _ (again g)]
    · show (do
        let r ← report ((g.models weightFiles).map (again g))
        pure (g.pre, r)) = _
      rw [(hrep' g hg hre).1]
      rfl
    · intro f hf
      exact (hmk g (present_mem hg).1 hre f hf).2
  rw [e2]
  show (do
    let rows ← (((present metricFiles).filter fun g : Group => !g.resample).map (fun g : Group => (g.pre, rep g)) ++ (((present metricFiles).filter fun g : Group => g.resample).map fun g : Group => (g.pre, rep' g))).mapM (row showFloat)
    pure (header :: rows)) = _
  rw [List.mapM_append, List.mapM_map, List.mapM_map, mapM_ok _ (fun g : Group => g.row showFloat ((g.files metricFiles).map stat)), mapM_ok _ (fun g : Group => g.row showFloat ((g.models weightFiles).map (again g)))]
  · rfl
  · intro g hg
    obtain ⟨hg, hre⟩ := List.mem_filter.1 hg
    exact (hrep' g hg hre).2
  · intro g hg
    obtain ⟨hg, hre⟩ := List.mem_filter.1 hg
    exact (hrep g hg (by simpa using hre)).2

/-- C95: with metrics but no saved models for a group with resampling, there is no table: TypeError. -/
theorem C95_no_weights (stat : String → Stats) (model : Group → String → M) (again : Group → String → Stats)
    (hload : ∀ g ∈ groups, ∀ f ∈ g.files metricFiles, load f = .ok (stat f))
    (hmk : ∀ g ∈ groups, g.resample = true → ∀ f ∈ g.models weightFiles, mkLoad g.targets g.optimizePath f = .ok (model g f) ∧ test (model g f) "nvo_rkl" = .ok (again g f))
    (hfit : ∀ g ∈ groups, g.resample = false → Fit ((g.files metricFiles).map stat))
    (hfit' : ∀ g ∈ groups, g.resample = true → Fit ((g.models weightFiles).map (again g)))
    (g : Group) (hg : g ∈ groups) (hre : g.resample = true) (h0 : g.files metricFiles ≠ []) (hw : g.models weightFiles = []) :
    table showFloat metricFiles weightFiles load mkLoad test = .error .type := by
  have hrep : ∀ g : Group, ∃ r, g ∈ present metricFiles → g.resample = false → report ((g.files metricFiles).map stat) = .ok r := by
    intro g
    by_cases h : g ∈ present metricFiles ∧ g.resample = false
    · obtain ⟨hg, h0⟩ := present_mem h.1
      obtain ⟨r, h1, h2⟩ := row_ok showFloat g hg ((g.files metricFiles).map stat) (fun e => h0 (List.map_eq_nil_iff.1 e)) (hfit g hg h.2)
      exact ⟨r, fun _ _ => h1⟩
    · exact ⟨⟨[], [], [], 0⟩, fun h1 h2 => absurd ⟨h1, h2⟩ h⟩
  choose rep hrep using hrep
  obtain ⟨cs, hcs, hp, hr⟩ := loop_ok (present metricFiles) (fun g h => (present_mem h).1) (fun g => (g.files metricFiles).map stat) rep hrep
  unfold table
  rw [loadMetrics_ok metricFiles load stat hload]
  show (((present metricFiles).map fun g : Group => (g.pre, (g.files metricFiles).map stat)).mapM (fun p : String × List Stats => classify p.1 p.2) >>= _) = _
  rw [hcs]
  show (do
    let models ← (cs.filterMap fun c : Resampled ⊕ (String × Report) => match c with | .inl r => some r | .inr _ => none).mapM (loadRun weightFiles mkLoad)
    let again ← models.mapM (retest test)
    let rows ← ((cs.filterMap fun c : Resampled ⊕ (String × Report) => match c with | .inr p => some p | .inl _ => none) ++ again).mapM (row showFloat)
    pure (header :: rows)) = _
  rw [hp, hr]
  have e1 : (((present metricFiles).filter fun g => g.resample).map (fun g => (⟨g.pre, g.targets, g.optimizePath, "nvo_rkl"⟩ : Resampled))).mapM (loadRun weightFiles mkLoad) =
      .ok (((present metricFiles).filter fun g => g.resample).map fun g => (g.pre, (g.models weightFiles).map fun f => (f, model g f, "nvo_rkl"))) := by
    rw [List.mapM_map]
    refine mapM_ok _ _ _ fun g hg => ?_
    obtain ⟨hg, hre⟩ := List.mem_filter.1 hg
    show (do
      let ms ← (weightsOf g.pre weightFiles).mapM fun f => do
        let m ← mkLoad g.targets g.optimizePath f
        pure (f, m, "nvo_rkl")
      pure (g.pre, ms)) = _
    rw [weightsOf_eq, mapM_ok _ (fun f => (f, model g f, "nvo_rkl"))]
    · rfl
    · intro f hf
      rw [(hmk g (present_mem hg).1 hre f hf).1]
      rfl
  rw [e1]
  show (do
    let again ← (((present metricFiles).filter fun g : Group => g.resample).map fun g : Group => (g.pre, (g.models weightFiles).map fun f => (f, model g f, "nvo_rkl"))).mapM (retest test)
    let rows ← (((present metricFiles).filter fun g : Group => !g.resample).map (fun g : Group => (g.pre, rep g)) ++ again).mapM (row showFloat)
    pure (header :: rows)) = _
  have hre' : ∀ g ∈ (present metricFiles).filter (fun g => g.resample), retest test (g.pre, (g.models weightFiles).map fun f => (f, model g f, "nvo_rkl")) =
      (report ((g.models weightFiles).map (again g))).map fun r => (g.pre, r) := by
    intro g hg
    obtain ⟨hg, hre⟩ := List.mem_filter.1 hg
    show (do
      let ts ← ((g.models weightFiles).map fun f => (f, model g f, "nvo_rkl")).mapM fun q : String × M × String => test q.2.1 q.2.2
      let r ← report ts
      pure (g.pre, r)) = _
    rw [List.mapM_map, mapM_ok _ (again g)]
    · show (do
        let r ← report ((g.models weightFiles).map (again g))
        pure (g.pre, r)) = _
      cases report ((g.models weightFiles).map (again g)) <;> rfl
    · intro f hf
      exact (hmk g (present_mem hg).1 hre f hf).2
  have hpres : g ∈ (present metricFiles).filter fun g => g.resample := by
    refine List.mem_filter.2 ⟨List.mem_filter.2 ⟨hg, ?_⟩, hre⟩
    cases hf : g.files metricFiles with
    | nil => exact absurd hf h0
    | cons => rfl
  have e2 : (((present metricFiles).filter fun g => g.resample).map fun g => (g.pre, (g.models weightFiles).map fun f => (f, model g f, "nvo_rkl"))).mapM (retest test) = .error .type := by
    refine mapM_error _ _ _ ?_ ⟨_, List.mem_map_of_mem hpres, ?_⟩
    · intro x hx
      obtain ⟨k, hk, rfl⟩ := List.mem_map.1 hx
      rw [hre' k hk]
      by_cases hk0 : k.models weightFiles = []
      · rw [hk0]
        exact .inr rfl
      · obtain ⟨hk1, hk2⟩ := List.mem_filter.1 hk
        obtain ⟨r, h1, -⟩ := row_ok showFloat k (present_mem hk1).1 ((k.models weightFiles).map (again k)) (fun e => hk0 (List.map_eq_nil_iff.1 e)) (hfit' k (present_mem hk1).1 hk2)
        rw [h1]
        exact .inl ⟨_, rfl⟩
    · rw [hre' g hpres, hw]
      rfl
  rw [e2]
  rfl

/-- C95: for the objective `nvo_avo` the first column is `avo` whatever the method, so rows of different methods look alike. -/
theorem C95_labels (g g' : Group) (hg : g ∈ groups) (hg' : g' ∈ groups) : g.label = g'.label ↔ (g.avo = true ∧ g'.avo = true) ∨
    (g.avo = false ∧ g'.avo = false ∧ g.resample = g'.resample ∧ g.optimizePath = g'.optimizePath) := by
  obtain ⟨a, b, c, K⟩ := g
  obtain ⟨a', b', c', K'⟩ := g'
  cases a <;> cases b <;> cases c <;> cases a' <;> cases b' <;> cases c' <;> simp [Group.label]

theorem rjust_length (n : Nat) (s : String) (h : s.toList.length ≤ n) : (rjust n s).toList.length = n := by
  unfold rjust
  rw [String.toList_append, String.toList_ofList, List.length_append, List.length_replicate]
  omega

theorem rjust_inj (n : Nat) (s s' : String) (h : s.toList.length ≤ n) (h' : s'.toList.length ≤ n) (hs : s.toList.head? ≠ some ' ') (hs' : s'.toList.head? ≠ some ' ') :
    rjust n s = rjust n s' ↔ s = s' := by
  refine ⟨fun e => ?_, fun e => by rw [e]⟩
  have key : ∀ s s' : String, s.toList.length ≤ n → s'.toList.length ≤ n → s.toList.head? ≠ some ' ' → rjust n s = rjust n s' → s'.toList.length ≤ s.toList.length → s = s' := by
    intro s s' h h' hs e hl
    have e := congrArg String.toList e
    unfold rjust at e
    rw [String.toList_append, String.toList_ofList, String.toList_append, String.toList_ofList] at e
    obtain ⟨d, hd⟩ : ∃ d, n - s'.toList.length = (n - s.toList.length) + d := ⟨s.toList.length - s'.toList.length, by omega⟩
    rw [hd, List.replicate_add, List.append_assoc] at e
    have e := List.append_cancel_left e
    cases d with
    | zero => exact String.toList_injective (by simpa using e)
    | succ d => 
      rw [e] at hs
      exact absurd rfl hs
  rcases Nat.le_total s'.toList.length s.toList.length with hl | hl
  · exact key s s' h h' hs e hl
  · exact (key s' s h' h hs' e.symm hl).symm

theorem foldl_max_le (l : List Nat) (a : Nat) : a ≤ l.foldl max a ∧ ∀ x ∈ l, x ≤ l.foldl max a := by
  induction l generalizing a with
  | nil => exact ⟨le_rfl, fun x hx => by cases hx⟩
  | cons y l ih =>
    obtain ⟨h1, h2⟩ := ih (max a y)
    refine ⟨(le_max_left _ _).trans h1, fun x hx => ?_⟩
    rcases List.mem_cons.1 hx with rfl | hx
    · exact (le_max_right _ _).trans h1
    · exact h2 x hx

theorem colMax_le (t : List (List String)) (r : List String) (hr : r ∈ t) (j : Nat) : (r.getD j "").toList.length ≤ colMax t j :=
  (foldl_max_le _ _).2 _ (List.mem_map_of_mem (f := fun r : List String => (r.getD j "").toList.length) hr)

theorem rowText_eq (t : List (List String)) (r : List String) :
    rowText ((List.range 5).map (colMax t)) r = " | ".intercalate ((List.range 5).map fun j => rjust (colMax t j) (r.getD j "")) ++ " " := by
  apply String.toList_injective
  simp [rowText, List.range_succ, String.toList_append]

theorem printRows_eq (t : List (List String)) (h : ∀ r ∈ t, (r.getD 0 "").toList.head? ≠ some ' ') : ∀ (rs : List (List String)) (q : List String), (∀ r ∈ rs, r ∈ t) → q ∈ t →
    printRows ((List.range 5).map (colMax t)) (some (rjust (colMax t 0) (q.getD 0 ""))) rs = (rs.zip (q :: rs)).flatMap fun p =>
      (if p.1.getD 0 "" = p.2.getD 0 "" then [] else [String.ofList (List.replicate (((List.range 5).map (colMax t)).sum + 15) '-')]) ++ [rowText ((List.range 5).map (colMax t)) p.1]
  | [], _, _, _ => rfl
  | r :: rs, q, hrs, hq => by
    have hr := hrs r (by simp)
    rw [List.zip_cons_cons, List.flatMap_cons, ← printRows_eq t h rs r (fun x hx => hrs x (by simp [hx])) hr]
    have : (rjust (colMax t 0) (q.getD 0 "") = rjust (colMax t 0) (r.getD 0 "")) = (r.getD 0 "" = q.getD 0 "") := by
      rw [rjust_inj _ _ _ (colMax_le t q hq 0) (colMax_le t r hr 0) (h q hq) (h r hr)]
      exact propext eq_comm
    show (if rjust (colMax t 0) (q.getD 0 "") = rjust (colMax t 0) (r.getD 0 "") then _ else _) ++ _ = _
    simp only [this, List.append_assoc]
    rfl

/-- C95: what is printed for a table whose first cells do not begin with a space: each row, its cells aligned to the right in columns as wide as their widest cell, and between two
rows with different first cells a line of dashes. -/
theorem C95_print (r : List String) (rs : List (List String)) (h : ∀ x ∈ r :: rs, (x.getD 0 "").toList.head? ≠ some ' ') :
    ∃ (width : Nat → Nat) (text : List String → String),
      (∀ j x, x ∈ r :: rs → (x.getD j "").toList.length ≤ width j) ∧ (∀ j, width j = 0 ∨ ∃ x ∈ r :: rs, (x.getD j "").toList.length = width j) ∧
      (∀ x, text x = " | ".intercalate ((List.range 5).map fun j => rjust (width j) (x.getD j "")) ++ " ") ∧
      (∀ x ∈ r :: rs, (text x).toList.length = ((List.range 5).map width).sum + 13) ∧
      printTable (r :: rs) = text r :: (rs.zip (r :: rs)).flatMap fun p =>
        (if p.1.getD 0 "" = p.2.getD 0 "" then [] else [String.ofList (List.replicate (((List.range 5).map width).sum + 15) '-')]) ++ [text p.1] := by
  refine ⟨colMax (r :: rs), rowText ((List.range 5).map (colMax (r :: rs))), fun j x hx => colMax_le _ x hx j, fun j => ?_, rowText_eq _, fun x hx => ?_, ?_⟩
  · have key : ∀ (l : List Nat) (a : Nat), l.foldl max a = a ∨ l.foldl max a ∈ l := by
      intro l
      induction l with
      | nil => exact fun a => .inl rfl
      | cons y l ih =>
        intro a
        rcases ih (max a y) with e | e
        · rcases max_choice a y with m | m
          · left; show l.foldl max (max a y) = a; rw [e, m]
          · right; show l.foldl max (max a y) ∈ _; rw [e, m]; simp
        · exact .inr (List.mem_cons_of_mem _ e)
    rcases key ((r :: rs).map fun r => (r.getD j "").toList.length) 0 with e | e
    · exact .inl e
    · obtain ⟨x, hx, e⟩ := List.mem_map.1 e
      exact .inr ⟨x, hx, e⟩
  · have hl := fun j => rjust_length _ _ (colMax_le (r :: rs) x hx j)
    rw [rowText_eq]
    have : ∀ a b c d e : String, (" | ".intercalate [a, b, c, d, e] ++ " ").toList.length = a.toList.length + b.toList.length + c.toList.length + d.toList.length + e.toList.length + 13 := by
      intro a b c d e
      simp
      omega
    show (" | ".intercalate [_, _, _, _, _] ++ " ").toList.length = _
    rw [this, hl, hl, hl, hl, hl]
    simp [List.range_succ]
    omega
  · unfold printTable
    rw [printRows]
    simp only [Option.getD_none, ↓reduceIte, List.nil_append]
    congr 1
    exact printRows_eq (r :: rs) h rs r (fun x hx => by simp [hx]) (by simp)

/-- Metrics of one run without resampling and of one run with resampling and `nvo_avo`, and the model of the latter. -/
example (showFloat : ℝ → String) : table (M := Unit) showFloat ["nvi_nvo_rkl_S288_K2_I20000_seed1-metric-tuple.pt", "nvir_nvo_avo_S288_K4_I20000_seed1-metric-tuple.pt", "other"]
    ["nvir_nvo_avo_S288_K4_I20000_seed1.pt", "nvir_nvo_avo_S288_K4_I20000_seed1-metric-tuple.pt"] (fun _ => .ok ⟨[1], [2], [3]⟩) (fun _ _ _ => .ok ())
    (fun _ o => if o = "nvo_avo" then .error .runtime else .ok ⟨[4], [5], [6]⟩) =
    .ok [["method", "#", "num_targets", "ess", "lZh"], Group.row showFloat ⟨false, false, false, 2⟩ [⟨[1], [2], [3]⟩], Group.row showFloat ⟨true, false, true, 4⟩ [⟨[4], [5], [6]⟩]] := by
  rw [C95_table (M := Unit) showFloat _ _ _ _ _ (fun _ => ⟨[1], [2], [3]⟩) (fun _ _ => ()) (fun _ _ => ⟨[4], [5], [6]⟩) (fun _ _ _ _ => rfl) (fun _ _ _ _ _ => ⟨rfl, rfl⟩)
    (fun _ _ _ => ⟨1, one_pos, fun t ht => by obtain ⟨_, -, rfl⟩ := List.mem_map.1 ht; exact ⟨rfl, rfl, rfl⟩⟩)
    (fun _ _ _ => ⟨1, one_pos, fun t ht => by obtain ⟨_, -, rfl⟩ := List.mem_map.1 ht; exact ⟨rfl, rfl, rfl⟩⟩) (by decide +kernel)]
  have e1 : ((groups.filter fun g => !(g.files ["nvi_nvo_rkl_S288_K2_I20000_seed1-metric-tuple.pt", "nvir_nvo_avo_S288_K4_I20000_seed1-metric-tuple.pt", "other"]).isEmpty).filter
      fun g => !g.resample) = [⟨false, false, false, 2⟩] := by decide +kernel
  have e2 : ((groups.filter fun g => !(g.files ["nvi_nvo_rkl_S288_K2_I20000_seed1-metric-tuple.pt", "nvir_nvo_avo_S288_K4_I20000_seed1-metric-tuple.pt", "other"]).isEmpty).filter
      fun g => g.resample) = [⟨true, false, true, 4⟩] := by decide +kernel
  have e3 : (⟨false, false, false, 2⟩ : Group).files ["nvi_nvo_rkl_S288_K2_I20000_seed1-metric-tuple.pt", "nvir_nvo_avo_S288_K4_I20000_seed1-metric-tuple.pt", "other"] =
      ["nvi_nvo_rkl_S288_K2_I20000_seed1-metric-tuple.pt"] := by decide +kernel
  have e4 : (⟨true, false, true, 4⟩ : Group).models ["nvir_nvo_avo_S288_K4_I20000_seed1.pt", "nvir_nvo_avo_S288_K4_I20000_seed1-metric-tuple.pt"] =
      ["nvir_nvo_avo_S288_K4_I20000_seed1.pt"] := by decide +kernel
  rw [e1, e2]
  simp only [List.map_cons, List.map_nil, e3, e4]
  rfl

/-- Two methods and their lines. -/
example : printTable [["method", "#"], ["avo", "1"], ["avo", "10"], ["nvi", "3"]] =
    ["method |  # |  |  |  ", "-----------------------", "   avo |  1 |  |  |  ", "   avo | 10 |  |  |  ", "-----------------------", "   nvi |  3 |  |  |  "] := by decide +kernel

end Tabulate
end Verif
