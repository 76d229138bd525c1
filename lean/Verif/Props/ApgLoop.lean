import Mathlib.Data.Real.Basic
import Mathlib.Tactic.Linarith
import Verif.Spec.ApgLoop
import Verif.Props.ApgTrain
import Verif.Props.Cli
/-
C69: the training loop of the amortized Gibbs sampler.
-/
namespace Verif
open Spec ApgLoop

section loops
variable {σ : Type} {c : Config} {M : Machine σ}

theorem average_eq (ms : List Metrics) (n : Nat) (h : ms.length = n) : average ms.sum n = meanOf ms := by
  have : ms.sum = ((ms.map (·.1)).sum, (ms.map (·.2.1)).sum, (ms.map (·.2.2)).sum) := by
    clear h
    induction ms with
    | nil => rfl
    | cons m ms ih => simp only [List.map_cons, List.sum_cons, ih]; rfl
  subst h
  unfold average meanOf
  rw [this]

/-- A loop over minibatches that reaches its end. -/
theorem batchLoop_done {epoch group nb : Nat} {path : String} {batches : List (List Nat)} {m m' : Metrics} {k k' : Nat} {s s' : σ}
    {ev : List Event} (h : batchLoop c M epoch group nb path batches m k s = (ev, .done (m', k', s'))) :
    ∃ ms : List Metrics, ms.length = batches.length ∧ ev = List.zipWith (.update path) batches ms ∧ m' = m + ms.sum ∧ k' = k + batches.length := by
  induction batches generalizing m k s ev with
  | nil =>
    unfold batchLoop at h
    cases h
    exact ⟨[], rfl, rfl, by simp, rfl⟩
  | cons idx rest ih =>
    unfold batchLoop at h
    split at h
    · cases h
    · rename_i d s1 _
      split at h
      · cases h
      · simp only [Prod.mk.injEq] at h
        obtain ⟨ms, h1, h2, h3, h4⟩ := ih (Prod.ext rfl h.2)
        refine ⟨d :: ms, by simp [h1], ?_, ?_, ?_⟩
        · exact h.1.symm.trans (congrArg (_ :: ·) h2)
        · rw [h3, List.sum_cons, add_assoc]
        · rw [h4, List.length_cons]; omega

/-- Without `smoketest` no loop is left by `return`. -/
theorem batchLoop_plain (hc : c.smoke = false) {epoch group nb : Nat} {path : String} {batches : List (List Nat)} {m : Metrics} {k : Nat}
    {s : σ} {ev : List Event} : batchLoop c M epoch group nb path batches m k s ≠ (ev, .stopped) := by
  induction batches generalizing m k s ev with
  | nil => unfold batchLoop; intro h; cases h
  | cons idx rest ih =>
    unfold batchLoop
    intro h
    split at h
    · cases h
    · rw [hc, if_neg (by simp)] at h
      simp only [Prod.mk.injEq] at h
      exact ih (Prod.ext rfl h.2)

/-- A loop over data files that reaches its end. -/
theorem fileLoop_done (hc : c.smoke = false) {size : String → Nat} (hperm : ∀ N s, (M.perm N s).1.Perm (List.range N))
    (hsize : ∀ p N T, M.load p = .ok (N, T) → size p = N) {epoch group : Nat} {order : List String} {k k' : Nat} {s s' : σ}
    {ev : List Event} (h : fileLoop c M epoch group order k s = (ev, .done (k', s'))) :
    ∃ gs : List (List Event), gs.length = order.length ∧ ev = gs.flatten ∧
      (∀ i path e, order[i]? = some path → gs[i]? = some e → GroupRun c size epoch (group + i) path e) ∧
      ∀ p ∈ order, M.load p = .ok (size p, c.timesteps) := by
  induction order generalizing group k s ev with
  | nil =>
    unfold fileLoop at h
    cases h
    exact ⟨[], rfl, rfl, by simp, by simp⟩
  | cons path rest ih =>
    unfold fileLoop at h
    split at h
    · cases h
    · rename_i N T hl
      split at h
      · cases h
      · rename_i hT
        rw [not_not] at hT
        split at h
        · cases h
        · rename_i nb hnb
          dsimp only at h
          split at h
          · cases h
          · cases h
          · rename_i ev1 m1 k1 s1 hb
            simp only [Prod.mk.injEq] at h
            obtain ⟨gs, h1, h2, h3, h4⟩ := ih (Prod.ext rfl h.2)
            obtain ⟨ms, g1, g2, g3, g4⟩ := batchLoop_done hb
            have hN := hsize _ _ _ hl
            refine ⟨(.load path :: List.zipWith (.update path)
                ((List.range nb).map fun b => pySlice (M.perm N s).1 (b * c.batchSize) ((b + 1) * c.batchSize)) ms ++
              [.save (checkpointPath c.version), .report (epoch + 1) (group + 1) (meanOf ms)]) :: gs, by simp [h1], ?_, ?_, ?_⟩
            · rw [← h.1, g2, g3, zero_add, average_eq ms nb (by rw [g1]; simp), hc, List.flatten_cons, ← h2]
              simp
            · intro i p e hi he
              match i with
              | 0 =>
                cases hi
                cases he
                refine ⟨(M.perm N s).1, _, ms, hN ▸ hperm N s, ?_, g1, rfl⟩
                unfold minibatches
                rw [(hperm N s).length_eq, List.length_range, hnb]
                rfl
              | i + 1 =>
                have := h3 i p e (by simpa using hi) (by simpa using he)
                rwa [Nat.add_right_comm] at this
            · intro p hp
              rcases List.mem_cons.1 hp with rfl | hp
              · rw [hl, hN, hT]
              · exact h4 p hp

/-- Without `smoketest` no loop is left by `return`. -/
theorem fileLoop_plain (hc : c.smoke = false) {epoch group : Nat} {order : List String} {k : Nat} {s : σ} {ev : List Event} :
    fileLoop c M epoch group order k s ≠ (ev, .stopped) := by
  induction order generalizing group k s ev with
  | nil => unfold fileLoop; intro h; cases h
  | cons path rest ih =>
    unfold fileLoop
    intro h
    split at h
    · cases h
    · split at h
      · cases h
      · split at h
        · cases h
        · dsimp only at h
          split at h
          · cases h
          · rename_i hb; exact batchLoop_plain hc hb
          · simp only [Prod.mk.injEq] at h
            exact ih (Prod.ext rfl h.2)

theorem epochLoop_done (hc : c.smoke = false) {size : String → Nat} (hperm : ∀ N s, (M.perm N s).1.Perm (List.range N))
    (hshuf : ∀ l s, (M.shuffle l s).1.Perm l) (hsize : ∀ p N T, M.load p = .ok (N, T) → size p = N) {epoch n : Nat}
    {paths : List String} {k k' : Nat} {s s' : σ} {ev : List Event} (h : epochLoop c M epoch n paths k s = (ev, .done (k', s'))) :
    ∃ es : List (List Event), es.length = n ∧ ev = es.flatten ∧ (∀ e ev, es[e]? = some ev → EpochRun c size paths (epoch + e) ev) ∧
      (0 < n → ∀ p ∈ paths, M.load p = .ok (size p, c.timesteps)) := by
  induction n generalizing epoch paths k s ev with
  | zero =>
    unfold epochLoop at h
    cases h
    exact ⟨[], rfl, rfl, by simp, by simp⟩
  | succ n ih =>
    unfold epochLoop at h
    dsimp only at h
    split at h
    · cases h
    · cases h
    · rename_i ev1 k1 s1 hf
      simp only [Prod.mk.injEq] at h
      obtain ⟨gs, g1, g2, g3, g4⟩ := fileLoop_done hc hperm hsize hf
      obtain ⟨es, h1, h2, h3, h4⟩ := ih (Prod.ext rfl h.2)
      refine ⟨ev1 :: es, by simp [h1], ?_, ?_, ?_⟩
      · exact h.1.symm.trans (congrArg (ev1 ++ ·) h2)
      · intro e x he
        match e with
        | 0 =>
          cases he
          exact ⟨_, gs, hshuf _ _, g1, g2, fun i p e a b => by simpa using g3 i p e a b⟩
        | e + 1 =>
          obtain ⟨order, gs, q1, q2, q3, q4⟩ := h3 e x (by simpa using he)
          rw [Nat.add_right_comm] at q4
          exact ⟨order, gs, q1.trans (hshuf _ _), q2, q3, q4⟩
      · intro _ p hp
        exact g4 p ((hshuf _ _).mem_iff.2 hp)

theorem epochLoop_plain (hc : c.smoke = false) {epoch n : Nat} {paths : List String} {k : Nat} {s : σ} {ev : List Event} :
    epochLoop c M epoch n paths k s ≠ (ev, .stopped) := by
  induction n generalizing epoch paths k s ev with
  | zero => unfold epochLoop; intro h; cases h
  | succ n ih =>
    unfold epochLoop
    intro h
    dsimp only at h
    split at h
    · cases h
    · rename_i hf; exact fileLoop_plain hc hf
    · simp only [Prod.mk.injEq] at h
      exact ih (Prod.ext rfl h.2)

/-- C69. A run without `smoketest` that ends without an exception: for each epoch, all the data files once in some order; for each of them
one step per minibatch of a random order of its sequences, then the parameters are saved and the means are printed. All files then have
the right number of timesteps. -/
theorem C69_run (hc : c.smoke = false) {size : String → Nat} (hperm : ∀ N s, (M.perm N s).1.Perm (List.range N))
    (hshuf : ∀ l s, (M.shuffle l s).1.Perm l) (hsize : ∀ p N T, M.load p = .ok (N, T) → size p = N) {paths : List String} {s : σ}
    (h : (loop c M paths s).2 = none) :
    TrainingRun c size paths (loop c M paths s).1 ∧ (0 < c.epochs → ∀ p ∈ paths, M.load p = .ok (size p, c.timesteps)) := by
  unfold loop at h ⊢
  dsimp only at h ⊢
  rcases hr : epochLoop c M 0 c.epochs paths 0 s with ⟨ev, e⟩
  rw [hr] at h
  match e, hr with
  | .raised e, hr => cases h
  | .stopped, hr => exact absurd hr (epochLoop_plain hc)
  | .done (k', s'), hr =>
    obtain ⟨es, h1, h2, h3, h4⟩ := epochLoop_done hc hperm hshuf hsize hr
    exact ⟨⟨es, h1, h2, fun e ev he => by simpa using h3 e ev he⟩, h4⟩

/-- The number of steps for a file with `N` sequences. -/
theorem minibatches_length {perm : List Nat} {bs : Nat} {batches : List (List Nat)} (h : minibatches perm bs = .ok batches) :
    batches.length = if perm.length ≤ bs then 1 else perm.length / bs := by
  unfold minibatches numBatches at h
  split at h
  · cases h; rename_i hle; simp [if_pos hle]
  · rename_i hle
    split at h
    · cases h
    · cases h; simp [if_neg hle]

section counts
variable {size : String → Nat} {epoch group : Nat} {path : String} {evs : List Event}

theorem zipWith_update_filter (f : Event → Bool) (b : Bool) (hf : ∀ i m, f (.update path i m) = b) (batches : List (List Nat))
    (ms : List Metrics) : (List.zipWith (.update path) batches ms).filter f = if b then List.zipWith (.update path) batches ms else [] := by
  induction batches generalizing ms with
  | nil => cases b <;> rfl
  | cons x xs ih =>
    cases ms with
    | nil => cases b <;> rfl
    | cons m ms =>
      rw [List.zipWith_cons_cons, List.filter_cons, hf, ih]
      cases b <;> rfl

theorem groupRun_counts (h : GroupRun c size epoch group path evs) :
    (updates evs).length = (if size path ≤ c.batchSize then 1 else size path / c.batchSize) ∧ (loads evs).length = 1 ∧
      (saves evs).length = 1 ∧ (reports evs).length = 1 := by
  obtain ⟨perm, batches, ms, h1, h2, h3, rfl⟩ := h
  have := minibatches_length h2
  rw [h1.length_eq, List.length_range] at this
  unfold updates loads saves reports
  simp only [List.cons_append, List.filter_cons, List.filter_append]
  rw [zipWith_update_filter _ true (fun _ _ => rfl), zipWith_update_filter _ false (fun _ _ => rfl),
    zipWith_update_filter _ false (fun _ _ => rfl), zipWith_update_filter _ false (fun _ _ => rfl)]
  simp [h3, this]

theorem flatten_counts (f : Event → Bool) (n : String → Nat) (order : List String) (gs : List (List Event)) (hl : gs.length = order.length)
    (h : ∀ (i : Nat) (p : String) (e : List Event), order[i]? = some p → gs[i]? = some e → (e.filter f).length = n p) :
    (gs.flatten.filter f).length = (order.map n).sum := by
  induction order generalizing gs with
  | nil => cases gs with
    | nil => rfl
    | cons => cases hl
  | cons p order ih =>
    cases gs with
    | nil => cases hl
    | cons g gs =>
      rw [List.flatten_cons, List.filter_append, List.length_append, List.map_cons, List.sum_cons, h 0 p g rfl rfl,
        ih gs (by simpa using hl) fun i p e a b => h (i + 1) p e (by simpa using a) (by simpa using b)]

theorem flatten_counts' (f : Event → Bool) (n : Nat) (es : List (List Event)) (h : ∀ (e : Nat) (ev : List Event), es[e]? = some ev → (ev.filter f).length = n) :
    (es.flatten.filter f).length = es.length * n := by
  induction es with
  | nil => simp
  | cons e es ih =>
    rw [List.flatten_cons, List.filter_append, List.length_append, h 0 e rfl, ih fun i ev a => h (i + 1) ev (by simpa using a),
      List.length_cons, Nat.add_mul]
    omega

theorem epochRun_counts {paths : List String} (h : EpochRun c size paths epoch evs) :
    (updates evs).length = (paths.map fun p => if size p ≤ c.batchSize then 1 else size p / c.batchSize).sum ∧
      (loads evs).length = paths.length ∧ (saves evs).length = paths.length ∧ (reports evs).length = paths.length := by
  obtain ⟨order, gs, h1, h2, rfl, h4⟩ := h
  have one : (order.map fun _ => 1).sum = paths.length := by rw [← h1.length_eq]; simp
  refine ⟨?_, ?_, ?_, ?_⟩
  · rw [← (h1.map _).sum_eq]
    exact flatten_counts _ _ _ _ h2 fun i p e a b => (groupRun_counts (h4 i p e a b)).1
  · rw [← one]
    exact flatten_counts _ _ _ _ h2 fun i p e a b => (groupRun_counts (h4 i p e a b)).2.1
  · rw [← one]
    exact flatten_counts _ _ _ _ h2 fun i p e a b => (groupRun_counts (h4 i p e a b)).2.2.1
  · rw [← one]
    exact flatten_counts _ _ _ _ h2 fun i p e a b => (groupRun_counts (h4 i p e a b)).2.2.2

/-- C69. The number of steps of the optimiser, of files read and of checkpoints of a completed run. -/
theorem C69_counts {paths : List String} (h : TrainingRun c size paths evs) :
    (updates evs).length = c.epochs * (paths.map fun p => if size p ≤ c.batchSize then 1 else size p / c.batchSize).sum ∧
      (loads evs).length = c.epochs * paths.length ∧ (saves evs).length = c.epochs * paths.length ∧
      (reports evs).length = c.epochs * paths.length := by
  obtain ⟨es, h1, rfl, h3⟩ := h
  rw [← h1]
  exact ⟨flatten_counts' _ _ _ fun e ev he => (epochRun_counts (h3 e ev he)).1,
    flatten_counts' _ _ _ fun e ev he => (epochRun_counts (h3 e ev he)).2.1,
    flatten_counts' _ _ _ fun e ev he => (epochRun_counts (h3 e ev he)).2.2.1,
    flatten_counts' _ _ _ fun e ev he => (epochRun_counts (h3 e ev he)).2.2.2⟩

/-- C69. A number that is the same in all steps is the number printed: with C68, every line of a completed run reports the number of
particles as effective sample size. -/
theorem C69_constant_ess {paths : List String} (h : TrainingRun c size paths evs) {x : ℝ}
    (hx : ∀ p i m, Event.update p i m ∈ evs → m.1 = x) : ∀ e g m, Event.report e g m ∈ evs → m.1 = x := by
  intro e g m hm
  obtain ⟨es, h1, rfl, h3⟩ := h
  obtain ⟨ev, hev, hm⟩ := List.mem_flatten.1 hm
  obtain ⟨i, hi⟩ := List.getElem?_of_mem hev
  obtain ⟨order, gs, g1, g2, rfl, g4⟩ := h3 i ev hi
  obtain ⟨gv, hgv, hm⟩ := List.mem_flatten.1 hm
  obtain ⟨j, hj⟩ := List.getElem?_of_mem hgv
  have hjl : j < order.length := by
    rw [← g2]; exact (List.getElem?_eq_some_iff.1 hj).1
  obtain ⟨perm, batches, ms, q1, q2, q3, rfl⟩ := g4 j order[j] gv (List.getElem?_eq_getElem hjl) hj
  simp only [List.cons_append, List.mem_cons, List.mem_append, List.not_mem_nil, or_false, reduceCtorEq, false_or, Event.report.injEq] at hm
  have hms : ∀ m ∈ ms, m.1 = x := by
    intro m hmm
    obtain ⟨l, hl⟩ := List.getElem?_of_mem hmm
    have hll : l < batches.length := by rw [← q3]; exact (List.getElem?_eq_some_iff.1 hl).1
    refine hx order[j] batches[l] m (List.mem_flatten.2 ⟨_, hev, List.mem_flatten.2 ⟨_, hgv, ?_⟩⟩)
    simp only [List.cons_append, List.mem_cons, List.mem_append]
    refine Or.inr (Or.inl (List.mem_of_getElem? (i := l) ?_))
    rw [List.getElem?_zipWith, List.getElem?_eq_getElem hll, hl]
  rcases hm with hm | ⟨-, -, rfl⟩
  · exfalso
    obtain ⟨l, hl⟩ := List.getElem?_of_mem hm
    rw [List.getElem?_zipWith] at hl
    split at hl <;> cases hl
  · unfold meanOf
    have hlen : 0 < ms.length := by
      rw [q3, minibatches_length q2]
      split
      · exact Nat.one_pos
      · rename_i hlt
        refine Nat.div_pos (by omega) ?_
        rcases Nat.eq_zero_or_pos c.batchSize with h0 | h0
        · unfold minibatches numBatches at q2
          rw [h0] at hlt q2
          rw [if_neg hlt] at q2
          cases q2
        · exact h0
    rw [List.map_congr_left (g := fun _ => x) hms]
    simp only [List.map_const', List.sum_replicate, nsmul_eq_mul]
    rw [mul_div_cancel_left₀]
    exact_mod_cast hlen.ne'

end counts

section smoke

theorem limit_iff (k : Nat) : c.limit ≤ ((k + 1 : Nat) : Int) ↔ c.steps ≤ k + 1 := by
  unfold Config.steps
  omega

theorem allUpdates_filters {path : String} {evs : List Event} (h : AllUpdates path evs) :
    updates evs = evs ∧ silent evs = evs ∧ loads evs = [] := by
  refine ⟨List.filter_eq_self.2 fun e he => ?_, List.filter_eq_self.2 fun e he => ?_, List.filter_eq_nil_iff.2 fun e he => ?_⟩ <;>
  · obtain ⟨i, d, rfl⟩ := h e he
    simp

theorem batchLoop_updates {epoch group nb : Nat} {path : String} {batches : List (List Nat)} {m : Metrics} {k : Nat} {s : σ} {ev : List Event}
    {r : End (Metrics × Nat × σ)} (hp : batchLoop c.plain M epoch group nb path batches m k s = (ev, r)) :
    AllUpdates path ev ∧ ∀ m' k' s', r = .done (m', k', s') → k' = k + ev.length := by
  induction batches generalizing m k s ev with
  | nil =>
    unfold batchLoop at hp
    cases hp
    exact ⟨fun e he => by simp at he, fun m' k' s' h => by cases h; rfl⟩
  | cons idx rest ih =>
    unfold batchLoop at hp
    rcases hs : M.step path idx s with ⟨e | d, s1⟩
    · rw [hs] at hp
      cases hp
      exact ⟨fun e he => by simp at he, fun m' k' s' h => (by cases h)⟩
    · rw [hs] at hp
      dsimp only at hp
      rw [if_neg (by simp)] at hp
      rcases hb : batchLoop c.plain M epoch group nb path rest (m + d) (k + 1) s1 with ⟨ev1, r1⟩
      rw [hb] at hp
      dsimp only at hp
      cases hp
      obtain ⟨h1, h2⟩ := ih hb
      refine ⟨fun e he => ?_, fun m' k' s' h => ?_⟩
      · rcases List.mem_cons.1 he with rfl | he
        · exact ⟨_, _, rfl⟩
        · exact h1 e he
      · rw [h2 m' k' s' h, List.length_cons]; omega

theorem batchLoop_smoke {epoch group nb : Nat} {path : String} {batches : List (List Nat)} {m : Metrics} {k : Nat} {s : σ}
    (hk : k < c.steps) {ev : List Event} {r : End (Metrics × Nat × σ)}
    (hp : batchLoop c.plain M epoch group nb path batches m k s = (ev, r)) :
    AllUpdates path ev ∧ (∀ m' k' s', r = .done (m', k', s') → k' = k + ev.length) ∧
    ((k + ev.length < c.steps ∧ batchLoop c.smoky M epoch group nb path batches m k s = (ev, r)) ∨
     (c.steps ≤ k + ev.length ∧ batchLoop c.smoky M epoch group nb path batches m k s =
       (ev.take (c.steps - k) ++
         [.report (epoch + 1) (group + 1) (average (m + (measured (ev.take (c.steps - k))).sum) nb)], .stopped))) := by
  induction batches generalizing m k s ev with
  | nil =>
    unfold batchLoop at hp
    cases hp
    exact ⟨fun e he => by simp at he, fun m' k' s' h => by cases h; rfl, Or.inl ⟨hk, by unfold batchLoop; rfl⟩⟩
  | cons idx rest ih =>
    unfold batchLoop at hp ⊢
    rcases hs : M.step path idx s with ⟨e | d, s1⟩
    · rw [hs] at hp
      cases hp
      exact ⟨fun e he => by simp at he, fun m' k' s' h => (by cases h), Or.inl ⟨hk, rfl⟩⟩
    · rw [hs] at hp
      dsimp only at hp ⊢
      rw [if_neg (by simp)] at hp
      rcases hb : batchLoop c.plain M epoch group nb path rest (m + d) (k + 1) s1 with ⟨ev1, r1⟩
      rw [hb] at hp
      dsimp only at hp
      cases hp
      by_cases hK : c.steps ≤ k + 1
      · have hK' : c.steps - k = 1 := by omega
        have hup := batchLoop_updates hb
        refine ⟨?_, ?_, Or.inr ⟨by simp; omega, ?_⟩⟩
        · intro e he
          rcases List.mem_cons.1 he with rfl | he
          · exact ⟨_, _, rfl⟩
          · exact hup.1 e he
        · intro m' k' s' h
          rw [hup.2 m' k' s' h, List.length_cons]; omega
        · rw [if_pos ⟨rfl, (limit_iff k).2 hK⟩, hK']
          simp [measured]
      · obtain ⟨h1, h2, h3⟩ := ih (by omega) hb
        refine ⟨?_, ?_, ?_⟩
        · intro e he
          rcases List.mem_cons.1 he with rfl | he
          · exact ⟨_, _, rfl⟩
          · exact h1 e he
        · intro m' k' s' h
          rw [h2 m' k' s' h, List.length_cons]; omega
        · rw [if_neg (fun h => hK ((limit_iff k).1 h.2))]
          rcases h3 with ⟨h3, h4⟩ | ⟨h3, h4⟩
          · exact Or.inl ⟨by rw [List.length_cons]; omega, by rw [h4]⟩
          · refine Or.inr ⟨by rw [List.length_cons]; omega, ?_⟩
            rw [h4]
            have : c.steps - k = (c.steps - (k + 1)) + 1 := by omega
            rw [this, List.take_succ_cons]
            simp only [List.cons_append, measured, List.sum_cons, add_assoc]

theorem numBatches_length {N bs nb : Nat} (h : numBatches N bs = .ok nb) : nb = if N ≤ bs then 1 else N / bs := by
  unfold numBatches at h
  split at h
  · rename_i hle; cases h; rw [if_pos hle]
  · rename_i hle
    split at h
    · cases h
    · cases h; rw [if_neg hle]

theorem fileLoop_smoke {size : String → Nat} (hsize : ∀ p N T, M.load p = .ok (N, T) → size p = N) {epoch group : Nat}
    {order : List String} {k : Nat} {s : σ} (hk : k < c.steps) {ev : List Event} {r : End (Nat × σ)}
    (hp : fileLoop c.plain M epoch group order k s = (ev, r)) :
    (k + (updates ev).length < c.steps ∧ fileLoop c.smoky M epoch group order k s = (silent ev, r) ∧
      ∀ k' s', r = .done (k', s') → k' = k + (updates ev).length ∧ (loads ev).length = order.length) ∨
    (c.steps ≤ k + (updates ev).length ∧ ∃ pre post m, silent ev = pre ++ post ∧ (updates pre).length = c.steps - k ∧
      CutShort c size pre m ∧ (loads pre).length ≤ order.length ∧
      fileLoop c.smoky M epoch group order k s = (pre ++ [.report (epoch + 1) (group + (loads pre).length) m], .stopped)) := by
  induction order generalizing group k s ev with
  | nil =>
    unfold fileLoop at hp
    cases hp
    exact Or.inl ⟨hk, by unfold fileLoop; rfl, fun k' s' h => by cases h; exact ⟨rfl, rfl⟩⟩
  | cons path rest ih =>
    unfold fileLoop at hp ⊢
    rcases hl : M.load path with e | ⟨N, T⟩
    · rw [hl] at hp
      cases hp
      exact Or.inl ⟨hk, rfl, fun k' s' h => by cases h⟩
    · rw [hl] at hp
      dsimp only at hp ⊢
      by_cases hT : T ≠ c.timesteps
      · rw [if_pos hT] at hp ⊢
        cases hp
        exact Or.inl ⟨hk, rfl, fun k' s' h => by cases h⟩
      · rw [if_neg hT] at hp ⊢
        rcases hnb : numBatches N c.batchSize with e | nb
        · rw [hnb] at hp
          cases hp
          exact Or.inl ⟨hk, rfl, fun k' s' h => by cases h⟩
        · rw [hnb] at hp
          dsimp only at hp ⊢
          generalize hB : ((List.range nb).map fun b => pySlice (M.perm N s).1 (b * c.batchSize) ((b + 1) * c.batchSize)) = B at hp ⊢
          rcases hb : batchLoop c.plain M epoch group nb path B 0 k (M.perm N s).2 with ⟨ev1, r1⟩
          rw [hb] at hp
          obtain ⟨h1, h2, h3⟩ := batchLoop_smoke hk hb
          obtain ⟨u1, u2, u3⟩ := allUpdates_filters h1
          have hsz : (if size path ≤ c.batchSize then 1 else size path / c.batchSize) = nb := by
            rw [hsize _ _ _ hl, numBatches_length hnb]
          -- the events of this file and the rest
          have hev : ∃ tail, ev = .load path :: ev1 ++ tail := by
            match r1, hp with
            | .raised e, hp => cases hp; exact ⟨[], by simp⟩
            | .stopped, hp => cases hp; exact ⟨[], by simp⟩
            | .done (m1, k1, s1), hp => cases hp; exact ⟨_, by rw [List.append_assoc]⟩
          rcases h3 with ⟨h3, h4⟩ | ⟨h3, h4⟩
          · rw [h4]
            match r1, hp with
            | .raised e, hp =>
              cases hp
              refine Or.inl ⟨?_, ?_, fun k' s' h => by cases h⟩
              · show k + (updates (.load path :: ev1)).length < _
                rw [show updates (.load path :: ev1) = updates ev1 from rfl, u1]; exact h3
              · show _ = (silent (.load path :: ev1), _)
                rw [show silent (.load path :: ev1) = .load path :: silent ev1 from rfl, u2]
            | .stopped, hp => exact absurd hb (batchLoop_plain rfl)
            | .done (m1, k1, s1), hp =>
              have hk1 := h2 m1 k1 s1 rfl
              dsimp only at hp ⊢
              rcases hr : fileLoop c.plain M epoch (group + 1) rest k1 s1 with ⟨ev2, r2⟩
              rw [hr] at hp
              cases hp
              have e1 : updates (Event.load path :: ev1 ++ .save (checkpointPath c.version) ::
                  [.report (epoch + 1) (group + 1) (average m1 nb)] ++ ev2) = ev1 ++ updates ev2 := by
                unfold updates at u1 ⊢
                simp only [List.cons_append, List.append_assoc, List.nil_append, List.filter_cons, List.filter_append, u1]
                simp
              have e2 : silent (Event.load path :: ev1 ++ .save (checkpointPath c.version) ::
                  [.report (epoch + 1) (group + 1) (average m1 nb)] ++ ev2) =
                  .load path :: ev1 ++ .save (checkpointPath c.version) :: silent ev2 := by
                unfold silent at u2 ⊢
                simp only [List.cons_append, List.append_assoc, List.nil_append, List.filter_cons, List.filter_append, u2]
                simp
              have e3 : loads (Event.load path :: ev1 ++ .save (checkpointPath c.version) ::
                  [.report (epoch + 1) (group + 1) (average m1 nb)] ++ ev2) = .load path :: loads ev2 := by
                unfold loads at u3 ⊢
                simp only [List.cons_append, List.append_assoc, List.nil_append, List.filter_cons, List.filter_append, u3]
                simp
              dsimp only [Bool.false_eq_true, if_false]
              rw [if_neg (by simp), e1, e2, e3, List.length_append, if_pos rfl]
              rcases ih (by omega) hr with ⟨i1, i2, i3⟩ | ⟨i1, pre, post, m, i2, i3, ⟨front, path', ups, i4, i5, i6, i7⟩, i8, i9⟩
              · refine Or.inl ⟨by omega, by rw [i2]; simp, fun k' s' h => ?_⟩
                obtain ⟨j1, j2⟩ := i3 k' s' h
                exact ⟨by omega, by simp [j2]⟩
              · have e4 : loads (Event.load path :: ev1 ++ .save (checkpointPath c.version) :: pre) = .load path :: loads pre := by
                  unfold loads at u3 ⊢
                  simp only [List.cons_append, List.filter_cons, List.filter_append, u3]
                  simp
                refine Or.inr ⟨by omega, .load path :: ev1 ++ .save (checkpointPath c.version) :: pre, post, m, ?_, ?_, ?_, ?_, ?_⟩
                · rw [i2]; simp
                · unfold updates at u1 i3 ⊢
                  simp only [List.cons_append, List.filter_cons, List.filter_append, u1]
                  simp only [Bool.false_eq_true, if_false, List.length_append, i3]
                  omega
                · exact ⟨.load path :: ev1 ++ .save (checkpointPath c.version) :: front, path', ups, by rw [i4]; simp, i5, i6, i7⟩
                · rw [e4]; simpa using i8
                · rw [i9, e4, List.length_cons, Nat.add_assoc group, Nat.add_comm 1]; simp
          · rw [h4]
            obtain ⟨tail, rfl⟩ := hev
            have ht : AllUpdates path (ev1.take (c.steps - k)) := fun e he => h1 e (List.mem_of_mem_take he)
            obtain ⟨t1, t2, t3⟩ := allUpdates_filters ht
            have hL : loads (.load path :: ev1.take (c.steps - k)) = [.load path] := by
              rw [show loads (.load path :: ev1.take (c.steps - k)) = .load path :: loads (ev1.take (c.steps - k)) from rfl, t3]
            refine Or.inr ⟨?_, .load path :: ev1.take (c.steps - k), ev1.drop (c.steps - k) ++ silent tail,
              average (measured (ev1.take (c.steps - k))).sum nb, ?_, ?_, ?_, ?_, ?_⟩
            · unfold updates at u1 ⊢
              rw [List.cons_append, List.filter_cons_of_neg (by simp), List.filter_append, u1, List.length_append]
              omega
            · unfold silent at u2 ⊢
              rw [List.cons_append, List.filter_cons_of_pos (by simp), List.filter_append, u2, List.cons_append, ← List.append_assoc,
                List.take_append_drop]
            · rw [show updates (.load path :: ev1.take (c.steps - k)) = updates (ev1.take (c.steps - k)) from rfl, t1, List.length_take]
              omega
            · refine ⟨[], path, ev1.take (c.steps - k), rfl, ?_, ht, by rw [hsz]⟩
              intro h0
              have := congrArg List.length h0
              rw [List.length_take, List.length_nil] at this
              omega
            · rw [hL]; simp
            · rw [hL]
              simp

theorem epochLoop_smoke {size : String → Nat} (hsize : ∀ p N T, M.load p = .ok (N, T) → size p = N)
    (hshuf : ∀ l s, (M.shuffle l s).1.Perm l) {epoch n : Nat}
    {paths : List String} {k : Nat} {s : σ} (hk : k < c.steps) {ev : List Event} {r : End (Nat × σ)}
    (hp : epochLoop c.plain M epoch n paths k s = (ev, r)) :
    (k + (updates ev).length < c.steps ∧ epochLoop c.smoky M epoch n paths k s = (silent ev, r)) ∨
    (c.steps ≤ k + (updates ev).length ∧ ∃ pre post m e g, silent ev = pre ++ post ∧ (updates pre).length = c.steps - k ∧
      CutShort c size pre m ∧ (loads pre).length = e * paths.length + g ∧ 1 ≤ g ∧ g ≤ paths.length ∧ e < n ∧
      epochLoop c.smoky M epoch n paths k s = (pre ++ [.report (epoch + e + 1) g m], .stopped)) := by
  induction n generalizing epoch paths k s ev with
  | zero =>
    unfold epochLoop at hp
    cases hp
    exact Or.inl ⟨hk, by unfold epochLoop; rfl⟩
  | succ n ih =>
    unfold epochLoop at hp ⊢
    dsimp only at hp ⊢
    have hlen : (M.shuffle paths s).1.length = paths.length := (hshuf _ _).length_eq
    rcases hf : fileLoop c.plain M epoch 0 (M.shuffle paths s).1 k (M.shuffle paths s).2 with ⟨ev1, r1⟩
    rw [hf] at hp
    rcases fileLoop_smoke hsize hk hf with ⟨h1, h2, h3⟩ | ⟨h1, pre, post, m, h2, h3, h4, h5, h6⟩
    · rw [h2]
      match r1, hp with
      | .raised e, hp => cases hp; exact Or.inl ⟨h1, rfl⟩
      | .stopped, hp => exact absurd hf (fileLoop_plain rfl)
      | .done (k1, s1), hp =>
        obtain ⟨g1, g2⟩ := h3 k1 s1 rfl
        dsimp only at hp ⊢
        rcases hr : epochLoop c.plain M (epoch + 1) n (M.shuffle paths s).1 k1 s1 with ⟨ev2, r2⟩
        rw [hr] at hp
        cases hp
        have e1 : (updates (ev1 ++ ev2)).length = (updates ev1).length + (updates ev2).length := by
          unfold updates; rw [List.filter_append, List.length_append]
        have e2 : silent (ev1 ++ ev2) = silent ev1 ++ silent ev2 := by unfold silent; rw [List.filter_append]
        dsimp only
        rw [e1, e2]
        rcases ih (by omega) hr with ⟨i1, i2⟩ | ⟨i1, pre, post, m, e, g, i2, i3, ⟨front, path, ups, i4, i5, i6, i7⟩, i8, i9, i10, i11, i12⟩
        · exact Or.inl ⟨by omega, by rw [i2]⟩
        · have e3 : ∀ p, updates (silent p) = updates p := by
            intro p
            unfold updates silent
            rw [List.filter_filter]
            congr 1
            funext x
            cases x <;> rfl
          have e4 : ∀ p, loads (silent p) = loads p := by
            intro p
            unfold loads silent
            rw [List.filter_filter]
            congr 1
            funext x
            cases x <;> rfl
          refine Or.inr ⟨by omega, silent ev1 ++ pre, post, m, e + 1, g, by rw [i2, List.append_assoc], ?_, ?_, ?_, i9, ?_, by omega, ?_⟩
          · have : updates (silent ev1 ++ pre) = updates (silent ev1) ++ updates pre := by unfold updates; rw [List.filter_append]
            rw [this, e3, List.length_append, i3]; omega
          · exact ⟨silent ev1 ++ front, path, ups, by rw [i4]; simp, i5, i6, i7⟩
          · have : loads (silent ev1 ++ pre) = loads (silent ev1) ++ loads pre := by unfold loads; rw [List.filter_append]
            rw [this, e4, List.length_append, i8, g2, hlen, Nat.add_mul]; omega
          · rw [← hlen]; exact i10
          · rw [i12]
            simp only [List.append_assoc, Prod.mk.injEq, and_true]
            rw [show epoch + 1 + e + 1 = epoch + (e + 1) + 1 by omega]
    · rw [h6]
      have hev : ∃ tail, ev = ev1 ++ tail := by
        match r1, hp with
        | .raised e, hp => cases hp; exact ⟨[], by simp⟩
        | .stopped, hp => cases hp; exact ⟨[], by simp⟩
        | .done (k1, s1), hp => cases hp; exact ⟨_, rfl⟩
      obtain ⟨tail, rfl⟩ := hev
      refine Or.inr ⟨?_, pre, post ++ silent tail, m, 0, (loads pre).length, ?_, h3, h4, by simp, ?_, by rw [← hlen]; exact h5, by omega, ?_⟩
      · unfold updates at h1 ⊢
        rw [List.filter_append, List.length_append]; omega
      · unfold silent at h2 ⊢
        rw [List.filter_append, h2, List.append_assoc]
      · obtain ⟨front, path, ups, rfl, -, -, -⟩ := h4
        unfold loads
        rw [List.filter_append, List.filter_cons_of_pos (by simp), List.length_append, List.length_cons]
        omega
      · simp

/-- C69. A run with `smoketest` does what the run without does, except for printing, up to and including step number
`max(1, iterations)`; there it prints one line and returns. The metrics in that line are divided by the number of minibatches of the last
file, whether or not they were all used. It does not save the parameters after the last step. If the run without has fewer steps, the run
with `smoketest` prints nothing and ends in the same way. -/
theorem C69_smoke {size : String → Nat} (hsize : ∀ p N T, M.load p = .ok (N, T) → size p = N)
    (hshuf : ∀ l s, (M.shuffle l s).1.Perm l) (paths : List String) (s : σ) :
    ((updates (loop c.plain M paths s).1).length < max 1 c.limit.toNat ∧
      loop c.smoky M paths s = (silent (loop c.plain M paths s).1, (loop c.plain M paths s).2)) ∨
    (max 1 c.limit.toNat ≤ (updates (loop c.plain M paths s).1).length ∧ ∃ pre post m e g, silent (loop c.plain M paths s).1 = pre ++ post ∧
      (updates pre).length = max 1 c.limit.toNat ∧ CutShort c size pre m ∧ (loads pre).length = e * paths.length + g ∧ 1 ≤ g ∧
      g ≤ paths.length ∧ e < c.epochs ∧ loop c.smoky M paths s = (pre ++ [.report (e + 1) g m], none)) := by
  rcases hp : epochLoop c.plain M 0 c.epochs paths 0 s with ⟨ev, r⟩
  have h1 : loop c.plain M paths s = (ev, r.err) := by
    unfold loop
    dsimp only
    rw [hp]
  rw [h1]
  rcases epochLoop_smoke hsize hshuf (by unfold Config.steps; omega) hp with ⟨h2, h3⟩ | ⟨h2, pre, post, m, e, g, h3, h4, h5, h6, h7, h8, h9, h10⟩
  · refine Or.inl ⟨by rwa [Nat.zero_add] at h2, ?_⟩
    unfold loop
    dsimp only
    rw [h3]
  · refine Or.inr ⟨by rwa [Nat.zero_add] at h2, pre, post, m, e, g, h3, h4, h5, h6, h7, h8, h9, ?_⟩
    unfold loop
    dsimp only
    rw [h10, Nat.zero_add]
    rfl

end smoke

section ends

/-- A loop over minibatches raises only what a step raises. -/
theorem batchLoop_raised {epoch group nb : Nat} {path : String} {batches : List (List Nat)} {m : Metrics} {k : Nat} {s : σ} {ev : List Event}
    {e : Err} (h : batchLoop c M epoch group nb path batches m k s = (ev, .raised e)) : ∃ p i s', (M.step p i s').1 = .error e := by
  induction batches generalizing m k s ev with
  | nil => unfold batchLoop at h; cases h
  | cons idx rest ih =>
    unfold batchLoop at h
    split at h
    · rename_i hs
      cases h
      exact ⟨path, idx, s, by rw [hs]⟩
    · split at h
      · cases h
      · simp only [Prod.mk.injEq] at h
        exact ih (Prod.ext rfl h.2)

theorem fileLoop_raised {epoch group : Nat} {order : List String} {k : Nat} {s : σ} {ev : List Event} {e : Err}
    (h : fileLoop c M epoch group order k s = (ev, .raised e)) :
    (∃ p i s', (M.step p i s').1 = .error e) ∨ (∃ p ∈ order, M.load p = .error e) ∨
      (e = .assertion ∧ ∃ p ∈ order, ∃ N T, M.load p = .ok (N, T) ∧ T ≠ c.timesteps) ∨
      (e = .other 3 ∧ c.batchSize = 0 ∧ ∃ p ∈ order, ∃ N T, M.load p = .ok (N, T) ∧ 0 < N) := by
  induction order generalizing group k s ev with
  | nil => unfold fileLoop at h; cases h
  | cons path rest ih =>
    unfold fileLoop at h
    split at h
    · rename_i hl
      cases h
      exact Or.inr (Or.inl ⟨path, List.mem_cons_self, hl⟩)
    · rename_i N T hl
      split at h
      · rename_i hT
        cases h
        exact Or.inr (Or.inr (Or.inl ⟨rfl, path, List.mem_cons_self, N, T, hl, hT⟩))
      · split at h
        · rename_i hnb
          cases h
          unfold numBatches at hnb
          split at hnb
          · cases hnb
          · rename_i hle
            split at hnb
            · rename_i hz
              cases hnb
              exact Or.inr (Or.inr (Or.inr ⟨rfl, hz, path, List.mem_cons_self, N, T, hl, by omega⟩))
            · cases hnb
        · dsimp only at h
          split at h
          · rename_i hb
            cases h
            exact Or.inl (batchLoop_raised hb)
          · cases h
          · simp only [Prod.mk.injEq] at h
            rcases ih (Prod.ext rfl h.2) with h | ⟨p, hp, h⟩ | ⟨h, p, hp, h'⟩ | ⟨h, hz, p, hp, h'⟩
            · exact Or.inl h
            · exact Or.inr (Or.inl ⟨p, List.mem_cons_of_mem _ hp, h⟩)
            · exact Or.inr (Or.inr (Or.inl ⟨h, p, List.mem_cons_of_mem _ hp, h'⟩))
            · exact Or.inr (Or.inr (Or.inr ⟨h, hz, p, List.mem_cons_of_mem _ hp, h'⟩))

/-- C69. The only exceptions of the loops: of a step, of reading a file, AssertionError for a file with another number of timesteps, and
ZeroDivisionError for batch size 0. -/
theorem C69_raises (hshuf : ∀ l s, (M.shuffle l s).1.Perm l) {paths : List String} {s : σ} {e : Err} (h : (loop c M paths s).2 = some e) :
    (∃ p i s', (M.step p i s').1 = .error e) ∨ (∃ p ∈ paths, M.load p = .error e) ∨
      (e = .assertion ∧ ∃ p ∈ paths, ∃ N T, M.load p = .ok (N, T) ∧ T ≠ c.timesteps) ∨
      (e = .other 3 ∧ c.batchSize = 0 ∧ ∃ p ∈ paths, ∃ N T, M.load p = .ok (N, T) ∧ 0 < N) := by
  have main : ∀ n epoch paths k s ev, epochLoop c M epoch n paths k s = (ev, .raised e) →
      (∃ p i s', (M.step p i s').1 = .error e) ∨ (∃ p ∈ paths, M.load p = .error e) ∨
      (e = .assertion ∧ ∃ p ∈ paths, ∃ N T, M.load p = .ok (N, T) ∧ T ≠ c.timesteps) ∨
      (e = .other 3 ∧ c.batchSize = 0 ∧ ∃ p ∈ paths, ∃ N T, M.load p = .ok (N, T) ∧ 0 < N) := by
    intro n
    induction n with
    | zero => intro epoch paths k s ev h; unfold epochLoop at h; cases h
    | succ n ih =>
      intro epoch paths k s ev h
      have hmem : ∀ p, p ∈ (M.shuffle paths s).1 ↔ p ∈ paths := fun p => (hshuf _ _).mem_iff
      unfold epochLoop at h
      dsimp only at h
      split at h
      · rename_i hf
        cases h
        simpa only [hmem] using fileLoop_raised hf
      · cases h
      · simp only [Prod.mk.injEq] at h
        simpa only [hmem] using ih _ _ _ _ _ (Prod.ext rfl h.2)
  unfold loop at h
  dsimp only at h
  rcases hr : epochLoop c M 0 c.epochs paths 0 s with ⟨ev, r⟩
  rw [hr] at h
  match r, hr with
  | .raised e', hr => cases h; exact main _ _ _ _ _ _ hr
  | .stopped, hr => cases h
  | .done _, hr => cases h

/-- C69. One file with another number of timesteps: no run without `smoketest` completes, and if reading files and steps raise nothing it
ends with AssertionError in the first epoch. -/
theorem C69_timesteps (hc : c.smoke = false) (hperm : ∀ N s, (M.perm N s).1.Perm (List.range N))
    (hshuf : ∀ l s, (M.shuffle l s).1.Perm l) {paths : List String} {s : σ} (he : 0 < c.epochs) {p : String} (hp : p ∈ paths) {N T : Nat}
    (hl : M.load p = .ok (N, T)) (hT : T ≠ c.timesteps) :
    (loop c M paths s).2 ≠ none ∧
      (0 < c.batchSize → (∀ p i s, ∃ m, (M.step p i s).1 = .ok m) → (∀ p ∈ paths, ∃ x, M.load p = .ok x) →
        (loop c M paths s).2 = some .assertion) := by
  have h1 : (loop c M paths s).2 ≠ none := by
    intro h
    have := (C69_run hc (size := fun p => match M.load p with | .ok (N, _) => N | _ => 0) hperm hshuf
      (fun p N T h => by simp [h]) h).2 he p hp
    rw [hl] at this
    injection this with this
    injection this with _ this
    exact hT this
  refine ⟨h1, fun hb hs hload => ?_⟩
  obtain ⟨e, he⟩ := Option.ne_none_iff_exists'.1 h1
  rcases C69_raises hshuf he with ⟨q, i, s', h⟩ | ⟨q, hq, h⟩ | ⟨rfl, -⟩ | ⟨-, h, -⟩
  · obtain ⟨m, hm⟩ := hs q i s'; rw [hm] at h; cases h
  · obtain ⟨x, hx⟩ := hload q hq; rw [hx] at h; cases h
  · exact he
  · omega

end ends

end loops

/-! ### Before the loops -/

/-- C69. The number of particles: for a nonnegative number of sweeps the largest number that, times the number of sweeps and one, stays
within the budget; the run goes on exactly if it is positive, that is, if the budget allows one particle. -/
theorem C69_sample_size {budget sweeps : Int} (hs : 0 ≤ sweeps) :
    ∃ n, sampleSize budget sweeps = .ok n ∧ n * (sweeps + 1) ≤ budget ∧ budget < (n + 1) * (sweeps + 1) ∧ (0 < n ↔ sweeps + 1 ≤ budget) := by
  unfold sampleSize
  rw [if_neg (by omega)]
  refine ⟨_, rfl, ?_, ?_, ?_⟩
  · rw [Int.fdiv_eq_ediv_of_nonneg _ (by omega)]
    exact Int.ediv_mul_le _ (by omega)
  · rw [Int.fdiv_eq_ediv_of_nonneg _ (by omega)]
    exact Int.lt_ediv_add_one_mul_self _ (by omega)
  · rw [Int.fdiv_eq_ediv_of_nonneg _ (by omega), Int.lt_iff_add_one_le, Int.le_ediv_iff_mul_le (by omega)]
    omega

example : sampleSize 120 5 = .ok 20 := rfl
/-- Negative numbers of sweeps can pass, too. -/
example : sampleSize (-10) (-3) = .ok 5 := rfl
example : sampleSize 120 (-1) = .error (.other 3) := rfl

theorem version_toList (t o s n : Int) : (modelVersion t o s n).toList = "apg-timesteps=".toList ++ (((toString t).toList ++ ['-']) ++ 'o' ::
    ("bjects=".toList ++ (((toString o).toList ++ ['-']) ++ 's' :: ("weeps=".toList ++ (((toString s).toList ++ ['-']) ++ 's' ::
      ("amples=".toList ++ (toString n).toList)))))) := by
  unfold modelVersion
  simp only [String.toList_append, List.append_assoc]
  rfl

theorem numeral_dash (i : Int) {c : Char} (h1 : c ≠ '-') (h2 : c.isDigit = false) : c ∉ (toString i).toList ++ ['-'] := by
  rw [List.mem_append, not_or]
  exact ⟨Cli.int_not_mem i h1 h2, by simpa using h1⟩

/-- C69. Two runs have the same version, and so the same checkpoint and log file, exactly if they agree in the numbers of timesteps, objects,
sweeps and particles. -/
theorem C69_names {t o s n t' o' s' n' : Int} :
    (modelVersion t o s n = modelVersion t' o' s' n' ↔ t = t' ∧ o = o' ∧ s = s' ∧ n = n') ∧
    (checkpointPath (modelVersion t o s n) = checkpointPath (modelVersion t' o' s' n') ↔ t = t' ∧ o = o' ∧ s = s' ∧ n = n') ∧
    (logPath (modelVersion t o s n) = logPath (modelVersion t' o' s' n') ↔ t = t' ∧ o = o' ∧ s = s' ∧ n = n') := by
  have main : modelVersion t o s n = modelVersion t' o' s' n' → t = t' ∧ o = o' ∧ s = s' ∧ n = n' := by
    intro h
    have h := congrArg String.toList h
    rw [version_toList, version_toList] at h
    have h := List.append_cancel_left h
    obtain ⟨e1, h⟩ := split_first (numeral_dash t (by decide) (by decide)) (numeral_dash t' (by decide) (by decide)) h
    have h := List.append_cancel_left h
    obtain ⟨e2, h⟩ := split_first (numeral_dash o (by decide) (by decide)) (numeral_dash o' (by decide) (by decide)) h
    have h := List.append_cancel_left h
    obtain ⟨e3, h⟩ := split_first (numeral_dash s (by decide) (by decide)) (numeral_dash s' (by decide) (by decide)) h
    have e4 := List.append_cancel_left h
    exact ⟨Cli.toString_int_inj (String.toList_inj.1 (List.append_cancel_right e1)),
      Cli.toString_int_inj (String.toList_inj.1 (List.append_cancel_right e2)),
      Cli.toString_int_inj (String.toList_inj.1 (List.append_cancel_right e3)), Cli.toString_int_inj (String.toList_inj.1 e4)⟩
  refine ⟨⟨main, ?_⟩, ⟨fun h => main ?_, ?_⟩, ⟨fun h => main ?_, ?_⟩⟩
  · rintro ⟨rfl, rfl, rfl, rfl⟩; rfl
  · unfold checkpointPath at h
    have h := congrArg String.toList h
    simp only [String.toList_append] at h
    exact String.toList_inj.1 (List.append_cancel_left (List.append_cancel_left h))
  · rintro ⟨rfl, rfl, rfl, rfl⟩; rfl
  · unfold logPath at h
    have h := congrArg String.toList h
    simp only [String.toList_append] at h
    exact String.toList_inj.1 (List.append_cancel_left (List.append_cancel_right h))
  · rintro ⟨rfl, rfl, rfl, rfl⟩; rfl

/-- Budgets that give the same number of particles share their files. -/
example : sampleSize 120 5 = sampleSize 125 5 := rfl

section setup
variable {σ : Type} (M : Machine σ) (E : Setup σ) (budget sweeps : Int) (timesteps objects : Nat) (dataDir : String)
  (epochs batchSize : Nat) (smoke : Bool) (limit : Int)

/-- C69. train_apg either raises before its loops, with nothing trained, saved or printed, or everything before the loops succeeds: the
number of particles is positive, the file `data_dir + "mean_shape.pt"` (without a separator) and the directory of videos can be read, some
file fits, models and sampler can be built, and the directory for the log exists, or `smoketest` is on. -/
theorem C69_setup :
    (∃ e, trainApg M E budget sweeps timesteps objects dataDir epochs batchSize smoke limit = ([], some e)) ∧
      ¬ (∃ n files chosen s, sampleSize budget sweeps = .ok n ∧ 0 < n ∧ E.meanShape (dataDir ++ "mean_shape.pt") = .ok () ∧
        E.listing (dataDir ++ "/video/") = .ok files ∧ getDataPaths files timesteps objects = .ok chosen ∧ E.models = .ok s ∧ E.build = .ok () ∧
        (smoke = true ∨ E.results = true)) ∨
    ∃ n files chosen s, sampleSize budget sweeps = .ok n ∧ 0 < n ∧ E.meanShape (dataDir ++ "mean_shape.pt") = .ok () ∧
      E.listing (dataDir ++ "/video/") = .ok files ∧ getDataPaths files timesteps objects = .ok chosen ∧ E.models = .ok s ∧ E.build = .ok () ∧
      (smoke = true ∨ E.results = true) ∧
      trainApg M E budget sweeps timesteps objects dataDir epochs batchSize smoke limit =
        loop ⟨epochs, batchSize, timesteps, smoke, limit, modelVersion timesteps objects sweeps n⟩ M
          (chosen.map fun f => dataDir ++ "/video/" ++ f) s := by
  unfold trainApg
  rcases h1 : sampleSize budget sweeps with e | n
  · exact Or.inl ⟨⟨e, rfl⟩, by rintro ⟨n, files, chosen, s, h, -⟩; cases h⟩
  by_cases h2 : 0 < n
  swap
  · refine Or.inl ⟨⟨.assertion, ?_⟩, by rintro ⟨n', files, chosen, s, h, h', -⟩; cases h; exact h2 h'⟩
    simp [bind, Except.bind, h2, throw, throwThe, MonadExceptOf.throw]
  rcases h3 : E.meanShape (dataDir ++ "mean_shape.pt") with e | ⟨⟩
  · refine Or.inl ⟨⟨e, ?_⟩, by rintro ⟨n', files, chosen, s, -, -, h, -⟩; cases h⟩
    simp [bind, Except.bind, h2]
  rcases h4 : E.listing (dataDir ++ "/video/") with e | files
  · refine Or.inl ⟨⟨e, ?_⟩, by rintro ⟨n', files, chosen, s, -, -, -, h, -⟩; cases h⟩
    simp [bind, Except.bind, h2]
  rcases h5 : getDataPaths files timesteps objects with e | chosen
  · refine Or.inl ⟨⟨e, ?_⟩, by rintro ⟨n', files, chosen, s, -, -, -, h, h', -⟩; cases h; rw [h5] at h'; cases h'⟩
    simp [bind, Except.bind, h2, h5]
  rcases h6 : E.models with e | s
  · refine Or.inl ⟨⟨e, ?_⟩, by rintro ⟨n', files, chosen, s, -, -, -, -, -, h, -⟩; cases h⟩
    simp [bind, Except.bind, h2, h5]
  rcases h7 : E.build with e | ⟨⟩
  · refine Or.inl ⟨⟨e, ?_⟩, by rintro ⟨n', files, chosen, s, -, -, -, -, -, -, h, -⟩; cases h⟩
    simp [bind, Except.bind, h2, h5]
  by_cases h8 : smoke = true ∨ E.results = true
  · refine Or.inr ⟨n, files, chosen, s, rfl, h2, rfl, rfl, h5, rfl, rfl, h8, ?_⟩
    have : ¬ (smoke = false ∧ E.results = false) := by rintro ⟨a, b⟩; rw [a, b] at h8; simp at h8
    simp [bind, Except.bind, h2, pure, Except.pure, h5, this]
  · refine Or.inl ⟨⟨.other 4, ?_⟩, by rintro ⟨n', files, chosen, s, -, -, -, -, -, -, -, h⟩; exact h8 h⟩
    have : ¬ smoke = true ∧ ¬ E.results = true := by tauto
    simp [bind, Except.bind, h2, h5, this, throw, throwThe, MonadExceptOf.throw]

end setup

section examples

/-- A step that always adds the same numbers; nothing is shuffled. Two files with 5 and 3 sequences. -/
noncomputable def toyMachine : Machine Unit :=
  { shuffle := fun l s => (l, s), load := fun p => if p = "a" then .ok (5, 10) else .ok (3, 10), perm := fun N s => (List.range N, s),
    step := fun _ _ s => (.ok (20, 1, 2), s) }

/-- Two epochs with batch size 2: the last sequence of both files is left out, and the run completes. -/
noncomputable def toyConfig : Config := { epochs := 2, batchSize := 2, timesteps := 10, smoke := false, limit := 4, version := "v" }

example : (loop toyConfig toyMachine ["a", "b"] ()).2 = none := by
  simp [loop, epochLoop, fileLoop, batchLoop, toyConfig, toyMachine, numBatches, List.range_succ, End.err]

example : TrainingRun toyConfig (fun p => if p = "a" then 5 else 3) ["a", "b"] (loop toyConfig toyMachine ["a", "b"] ()).1 :=
  (C69_run rfl (fun _ _ => List.Perm.refl _) (fun _ _ => List.Perm.refl _)
    (fun p N T h => by
      simp only [toyMachine] at h
      split at h <;> rename_i hp <;> cases h <;> simp [hp]) (by
      simp [loop, epochLoop, fileLoop, batchLoop, toyConfig, toyMachine, numBatches, List.range_succ, End.err])).1

/-- With `smoketest` and 4 iterations it stops in the second epoch, one step of two for file "a" done: the reported effective sample size is
10, not 20. -/
example : (loop toyConfig.smoky toyMachine ["a", "b"] ()).1.getLast? = some (.report 2 1 (10, 1 / 2, 1)) := by
  simp [loop, epochLoop, fileLoop, batchLoop, toyConfig, toyMachine, numBatches, List.range_succ, average]
  norm_num

end examples

end Verif
