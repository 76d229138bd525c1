import Verif.Model.TensorMetrics
import Verif.Spec.TensorMetrics
import Verif.Proofs.TensorOps
import Verif.Props.Metrics
/-
C97: the metrics on tensors of any shape.
-/
namespace Verif
namespace Nd

theorem Means.pyIx {s : List Nat} {d : Int} {d' n : Nat} (h : Means s d d' n) : Nd.pyIx s.length d = .ok d' := by
  have hlt : d' < s.length := (List.getElem?_eq_some_iff.1 h.2).1
  rcases h.1 with rfl | rfl
  · exact pyIx_nat hlt
  · have : ((d' : Int) - s.length) = -((s.length - d' : Nat) : Int) := by omega
    rw [this, pyIx_neg (by omega) (by omega)]
    congr 1
    omega

theorem inRange_insert {s : List Nat} {d n : Nat} (hs : s[d]? = some n) {is : List Nat} (hi : InRange is (s.eraseIdx d)) (i : Fin n) :
    InRange (is.insertIdx d i) s ∧ (is.insertIdx d i).getD d 0 = i ∧ ∀ j : Nat, (is.insertIdx d i).set d j = is.insertIdx d j := by
  induction d generalizing s is with
  | zero =>
    cases s with
    | nil => cases hs
    | cons a s =>
      cases hs
      exact ⟨.cons i.2 hi, rfl, fun _ => rfl⟩
  | succ d ih =>
    cases s with
    | nil => cases hs
    | cons a s =>
      cases hi with
      | cons h1 h2 =>
        obtain ⟨e1, e2, e3⟩ := ih hs h2
        exact ⟨.cons h1 e1, e2, fun j => by rw [List.insertIdx_succ_cons, List.set_cons_succ, e3]; rfl⟩

/-- C97. `effective_sample_size`, `Z_hat` and `log_Z_hat` along a dimension of a tensor, counted from the front or the back: the result has the other dimensions, and each of its elements is the
metric of the numbers along that dimension. -/
theorem C97_lanes (lw : Nd ℝ) (d : Int) (d' n : Nat) (h : Means lw.shape d d' n) :
    ∃ ess z lz, lw.effectiveSampleSize d = .ok ess ∧ lw.zHat d = .ok z ∧ lw.logZHat d = .ok lz ∧
      ess.shape = lw.shape.eraseIdx d' ∧ z.shape = lw.shape.eraseIdx d' ∧ lz.shape = lw.shape.eraseIdx d' ∧
      ∀ is, InRange is (lw.shape.eraseIdx d') → ess.get is = Verif.effectiveSampleSize (lw.lane d' n is) ∧ z.get is = Verif.zHat (lw.lane d' n is) ∧ lz.get is = Verif.logZHat (lw.lane d' n is) := by
  have hd := h.pyIx
  have hn := h.2
  have hlt : d' < lw.shape.length := (List.getElem?_eq_some_iff.1 hn).1
  obtain ⟨p, p1, p2, p3⟩ := along_ok hd (n := n) (by simp [List.getD, hn]) id fun _ v => softmax v
  have hset : lw.shape.set d' n = lw.shape := by
    apply List.ext_getElem?
    intro k
    rw [List.getElem?_set]
    split
    · rename_i hk
      subst hk
      rw [hn]
    · rfl
  simp only [id] at p2 p3
  rw [hset] at p2 p3
  let q := (p.map Real.log).map fun x => 2 * x
  have hq : q.shape = lw.shape := p2
  obtain ⟨r, r1, r2, r3⟩ := reduce_ok (t := q) (d := d) (by rw [hq]; exact hd) (by rw [hq]; exact hn) fun _ v => logsumexp v
  obtain ⟨z, z1, z2, z3⟩ := reduce_ok (t := lw.map Real.exp) (d := d) hd hn fun n v => (∑ i, v i) / n
  refine ⟨r.map fun x => Real.exp (-x), z, z.map Real.log, ?_, z1, ?_, by rw [shape_map, r2, hq], z2, z2, fun is hi => ⟨?_, z3 is hi, ?_⟩⟩
  · unfold effectiveSampleSize
    rw [p1]
    show (do let r ← q.reduce d _; Except.ok _) = _
    rw [r1]
    rfl
  · unfold logZHat zHat
    rw [z1]
    rfl
  · rw [get_map, r3 is (by rw [hq]; exact hi)]
    unfold Verif.effectiveSampleSize
    congr 3
    funext i
    show 2 * Real.log (p.get (is.insertIdx d' i)) = _
    obtain ⟨e1, e2, e3⟩ := inRange_insert hn hi i
    rw [p3 _ e1 (by rw [e2]; exact i.2)]
    simp only [e2, e3]
    rfl
  · rw [get_map, z3 is hi]
    rfl

/-- C97. For any other `sample_dims` they raise IndexError. -/
theorem C97_raises (lw : Nd ℝ) (d : Int) (h : d < -lw.shape.length ∨ lw.shape.length ≤ d) :
    lw.effectiveSampleSize d = .error .index ∧ lw.zHat d = .error .index ∧ lw.logZHat d = .error .index := by
  have e := pyIx_error h
  refine ⟨?_, ?_, ?_⟩
  · unfold effectiveSampleSize along
    rw [e]
    rfl
  · unfold zHat reduce along
    rw [shape_map, e]
    rfl
  · unfold logZHat zHat reduce along
    rw [shape_map, e]
    rfl

/-- C97. Each effective sample size of a tensor is between 1 and the number of particles. -/
theorem C97_bounds (lw : Nd ℝ) (d : Int) (d' n : Nat) [NeZero n] (h : Means lw.shape d d' n) :
    ∃ ess, lw.effectiveSampleSize d = .ok ess ∧ ess.shape = lw.shape.eraseIdx d' ∧ ∀ is, InRange is ess.shape → 1 ≤ ess.get is ∧ ess.get is ≤ n := by
  obtain ⟨ess, z, lz, h1, -, -, h2, -, -, h3⟩ := C97_lanes lw d d' n h
  refine ⟨ess, h1, h2, fun is hi => ?_⟩
  rw [(h3 is (h2 ▸ hi)).1]
  exact C27_bounds _

theorem stack_ok {α : Type} (ts : List (Nd α)) (s : List Nat) (hne : ts ≠ []) (hs : ∀ t ∈ ts, t.shape = s) :
    ∃ r, stack ts = .ok r ∧ r.shape = ts.length :: s ∧ ∀ (k : Nat) (hk : k < ts.length) (is : List Nat), InRange is s → r.get (k :: is) = ts[k].get is := by
  cases ts with
  | nil => exact absurd rfl hne
  | cons t ts =>
    have ht : t.shape = s := hs t (by simp)
    refine ⟨_, if_pos fun u hu => by rw [hs u hu, ht], by rw [shape_ofFn, ht], fun k hk is hi => ?_⟩
    rw [get_ofFn _ (.cons hk (by rw [ht]; exact hi))]
    simp only [List.headD_cons, List.tail_cons]
    simp [List.getD, List.getElem?_eq_getElem hk]

theorem lane_stack {α : Type} {ts : List (Nd α)} {s : List Nat} {r : Nd α} (hr : ∀ (k : Nat) (hk : k < ts.length) (is : List Nat), InRange is s → r.get (k :: is) = ts[k].get is)
    {d n : Nat} (hn : s[d]? = some n) {k : Nat} (hk : k < ts.length) {is : List Nat} (hi : InRange is (s.eraseIdx d)) : r.lane (d + 1) n (k :: is) = ts[k].lane d n is := by
  funext i
  exact hr k hk _ (inRange_insert hn hi i).1

/-- C97. `nvi_test` with a `sample_dims` that is not negative: one row per step, with the metrics of that step's log weight along `sample_dims`. -/
theorem C97_test (lws : List (Nd ℝ)) (s : List Nat) (hne : lws ≠ []) (hs : ∀ t ∈ lws, t.shape = s) (d n : Nat) (hn : s[d]? = some n) :
    ∃ ess lz, testMetrics lws d = .ok (ess, lz) ∧ ess.shape = lws.length :: s.eraseIdx d ∧ lz.shape = lws.length :: s.eraseIdx d ∧
      ∀ (k : Nat) (hk : k < lws.length) (is : List Nat), InRange is (s.eraseIdx d) →
        ess.get (k :: is) = Verif.effectiveSampleSize (lws[k].lane d n is) ∧ lz.get (k :: is) = Verif.logZHat (lws[k].lane d n is) := by
  obtain ⟨r, r1, r2, r3⟩ := stack_ok lws s hne hs
  obtain ⟨ess, z, lz, h1, -, h3, h4, -, h6, h7⟩ := C97_lanes r (d + 1) (d + 1) n (by rw [r2]; exact ⟨.inl (by push_cast; rfl), hn⟩)
  rw [r2] at h4 h6 h7
  refine ⟨ess, lz, ?_, h4, h6, fun k hk is hi => ?_⟩
  · unfold testMetrics
    rw [r1]
    show (do let ess ← r.effectiveSampleSize (d + 1); let lz ← r.logZHat (d + 1); Except.ok (ess, lz)) = _
    rw [h1, h3]
    rfl
  · have := h7 (k :: is) (.cons hk hi)
    rw [lane_stack r3 hn hk hi] at this
    exact ⟨this.1, this.2.2⟩

/-- C97. `nvi_test` with `sample_dims=-1`, which elsewhere is the last dimension: the metrics are taken over the steps, for each particle. -/
theorem C97_test_negative (lws : List (Nd ℝ)) (s : List Nat) (hne : lws ≠ []) (hs : ∀ t ∈ lws, t.shape = s) :
    ∃ ess lz, testMetrics lws (-1) = .ok (ess, lz) ∧ ess.shape = s ∧ lz.shape = s ∧
      ∀ is, InRange is s → ess.get is = Verif.effectiveSampleSize (fun k : Fin lws.length => lws[k].get is) ∧ lz.get is = Verif.logZHat (fun k : Fin lws.length => lws[k].get is) := by
  obtain ⟨r, r1, r2, r3⟩ := stack_ok lws s hne hs
  obtain ⟨ess, z, lz, h1, -, h3, h4, -, h6, h7⟩ := C97_lanes r 0 0 lws.length (by rw [r2]; exact ⟨.inl rfl, rfl⟩)
  rw [r2] at h4 h6 h7
  refine ⟨ess, lz, ?_, h4, h6, fun is hi => ?_⟩
  · unfold testMetrics
    rw [r1]
    show (do let ess ← r.effectiveSampleSize 0; let lz ← r.logZHat 0; Except.ok (ess, lz)) = _
    rw [h1, h3]
    rfl
  · have := h7 is hi
    have e : r.lane 0 lws.length is = fun k : Fin lws.length => lws[k].get is := by
      funext k
      exact r3 k k.2 is hi
    rw [e] at this
    exact ⟨this.1, this.2.2⟩

theorem mapM_stack (lws : List (List (Nd ℝ))) (s : List Nat) (K : Nat) (hK : K ≠ 0) (hlen : ∀ l ∈ lws, l.length = K) (hs : ∀ l ∈ lws, ∀ t ∈ l, t.shape = s) :
    ∃ rows : List (Nd ℝ), lws.mapM stack = .ok rows ∧ rows.length = lws.length ∧ (∀ r ∈ rows, r.shape = K :: s) ∧
      ∀ (i : Nat) (hi : i < lws.length) (hi' : i < rows.length) (k : Nat) (hk : k < lws[i].length) (is : List Nat), InRange is s → rows[i].get (k :: is) = (lws[i])[k].get is := by
  induction lws with
  | nil => exact ⟨[], rfl, rfl, fun _ h => (by cases h), fun i hi => (by cases hi)⟩
  | cons l lws ih =>
    obtain ⟨rows, h1, h2, h3, h4⟩ := ih (fun l hl => hlen l (by simp [hl])) (fun l hl => hs l (by simp [hl]))
    have hl := hlen l (by simp)
    obtain ⟨r, r1, r2, r3⟩ := stack_ok l s (by rintro rfl; exact hK (by simpa using hl.symm)) (hs l (by simp))
    refine ⟨r :: rows, ?_, by simp [h2], ?_, ?_⟩
    · rw [List.mapM_cons, r1, h1]
      rfl
    · intro x hx
      rcases List.mem_cons.1 hx with rfl | hx
      · rw [r2, hl]
      · exact h3 x hx
    · intro i hi hi' k hk is his
      cases i with
      | zero => exact r3 k hk is his
      | succ i => exact h4 i (by simpa using hi) (by simpa using hi') k hk is his

/-- C97. `nvi_train`: one row per iteration and step, with the metrics of that log weight along its first dimension, whatever `sample_dims` is. -/
theorem C97_train (lws : List (List (Nd ℝ))) (n : Nat) (s : List Nat) (K : Nat) (hne : lws ≠ []) (hK : K ≠ 0) (hlen : ∀ l ∈ lws, l.length = K) (hs : ∀ l ∈ lws, ∀ t ∈ l, t.shape = n :: s) :
    ∃ ess lz, trainMetrics lws = .ok (ess, lz) ∧ ess.shape = lws.length :: K :: s ∧ lz.shape = lws.length :: K :: s ∧
      ∀ (i : Nat) (hi : i < lws.length) (k : Nat) (hk : k < lws[i].length) (is : List Nat), InRange is s →
        ess.get (i :: k :: is) = Verif.effectiveSampleSize ((lws[i])[k].lane 0 n is) ∧ lz.get (i :: k :: is) = Verif.logZHat ((lws[i])[k].lane 0 n is) := by
  obtain ⟨rows, m1, m2, m3, m4⟩ := mapM_stack lws (n :: s) K hK hlen hs
  obtain ⟨r, r1, r2, r3⟩ := stack_ok rows (K :: n :: s) (by rintro rfl; exact hne (by simpa using m2.symm)) m3
  obtain ⟨ess, z, lz, h1, -, h3, h4, -, h6, h7⟩ := C97_lanes r 2 2 n (by rw [r2]; exact ⟨.inl rfl, rfl⟩)
  rw [r2, m2] at h4 h6 h7
  refine ⟨ess, lz, ?_, h4, h6, fun i hi k hk is his => ?_⟩
  · unfold trainMetrics
    rw [m1]
    show (do let lw ← stack rows; let ess ← lw.effectiveSampleSize 2; let lz ← lw.logZHat 2; Except.ok (ess, lz)) = _
    rw [r1]
    show (do let ess ← r.effectiveSampleSize 2; let lz ← r.logZHat 2; Except.ok (ess, lz)) = _
    rw [h1, h3]
    rfl
  · have hkK : k < K := by rw [← hlen _ (List.getElem_mem hi)]; exact hk
    have := h7 (i :: k :: is) (.cons hi (.cons hkK his))
    have e : r.lane 2 n (i :: k :: is) = (lws[i])[k].lane 0 n is := by
      funext x
      have hx : InRange ((x : Nat) :: is) (n :: s) := .cons x.2 his
      show r.get (i :: k :: (x : Nat) :: is) = _
      rw [r3 i (by omega) (k :: (x : Nat) :: is) (.cons hkK hx), m4 i hi (by omega) k hk _ hx]
      rfl
    rw [e] at this
    exact ⟨this.1, this.2.2⟩

/-- C97. The default `sample_dims` is the last dimension: of a log weight with particles first and batch elements second, the metrics without `sample_dims` are one number per particle. -/
theorem C97_default (lw : Nd ℝ) (n b : Nat) (h : lw.shape = [n, b]) :
    ∃ ess lz, lw.effectiveSampleSize = .ok ess ∧ lw.logZHat = .ok lz ∧ ess.shape = [n] ∧ lz.shape = [n] ∧
      ∀ i < n, ess.get [i] = Verif.effectiveSampleSize (fun j : Fin b => lw.get [i, j]) ∧ lz.get [i] = Verif.logZHat (fun j : Fin b => lw.get [i, j]) := by
  obtain ⟨ess, z, lz, h1, -, h3, h4, -, h6, h7⟩ := C97_lanes lw (-1) 1 b (by rw [h]; exact ⟨.inr rfl, rfl⟩)
  rw [h] at h4 h6 h7
  refine ⟨ess, lz, h1, h3, h4, h6, fun i hi => ?_⟩
  have := h7 [i] (.cons hi .nil)
  exact ⟨this.1, this.2.2⟩

/-- Two steps, two particles and one batch element: along the particles the first step has effective sample size 2, as its weights are equal; over the steps it is another number. -/
example : ∃ lws : List (Nd ℝ), (∀ t ∈ lws, t.shape = [2, 1]) ∧ lws.length = 2 ∧
    (∃ ess lz, testMetrics lws 0 = .ok (ess, lz) ∧ ess.shape = [2, 1] ∧ ess.get [0, 0] = 2) ∧
    ∃ ess lz, testMetrics lws (-1) = .ok (ess, lz) ∧ ess.shape = [2, 1] ∧ ess.get [0, 0] ≠ 2 := by
  have hs : ∀ t ∈ [Nd.mk [2, 1] fun _ => (0 : ℝ), Nd.mk [2, 1] fun _ => 1], t.shape = [2, 1] := by
    intro t ht
    simp only [List.mem_cons, List.not_mem_nil, or_false] at ht
    rcases ht with rfl | rfl <;> rfl
  refine ⟨_, hs, rfl, ?_, ?_⟩
  · obtain ⟨ess, lz, h1, h2, -, h3⟩ := C97_test _ _ (by simp) hs 0 2 rfl
    refine ⟨ess, lz, h1, h2, ?_⟩
    rw [(h3 0 (by simp) [0] (.cons (by norm_num) .nil)).1]
    exact_mod_cast (C27_max_iff _).2 fun _ _ => rfl
  · obtain ⟨ess, lz, h1, h2, -, h3⟩ := C97_test_negative _ _ (by simp) hs
    refine ⟨ess, lz, h1, h2, fun h => ?_⟩
    rw [(h3 [0, 0] (.cons (by norm_num) (.cons (by norm_num) .nil))).1] at h
    have := (C27_max_iff (n := 2) _).1 (by exact_mod_cast h) 0 1
    simp [Nd.get] at this

end Nd
end Verif
