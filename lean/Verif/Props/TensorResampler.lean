import Verif.Proofs.Tensor
import Verif.Model.TensorResampler
import Verif.Props.Systematic
/-
C86: the tensor operations of the resampler.
-/
namespace Verif
namespace Nd
variable {α : Type}

theorem ravel_zeros (k : Nat) : ravel (List.replicate k 1) (List.replicate k 0) = 0 := by
  induction k with
  | zero => rfl
  | succ k ih => simp [List.replicate_succ, ravel, ih]

theorem unsqueezes (t : Nd α) (k : Nat) :
    (List.range k).foldlM (fun (m : Nd α) _ => m.unsqueeze (-1)) t = .ok ⟨t.shape ++ List.replicate k 1, t.data⟩ := by
  induction k with
  | zero => simp [pure, Except.pure]
  | succ k ih =>
    rw [List.range_succ, List.foldlM_append, ih]
    simp only [bind, Except.bind, List.foldlM_cons, List.foldlM_nil, unsqueeze_last, pure, Except.pure]
    rw [List.append_assoc, List.replicate_succ']

theorem mask_index {is p : List Nat} (h : InRange is p) (r rest : List Nat) (hr : InRange r rest) :
    List.zipWith (fun i n => if n = 1 then 0 else i) (is ++ r) (p ++ List.replicate rest.length 1) = is ++ List.replicate rest.length 0 := by
  induction h with
  | nil =>
    induction hr with
    | nil => rfl
    | cons _ _ ih => simpa [List.replicate_succ] using ih
  | @cons i n is p hi _ ih =>
    simp only [List.cons_append, List.zipWith_cons_cons, ih]
    by_cases h1 : n = 1
    · rw [if_pos h1, (by omega : i = 0)]
    · rw [if_neg h1]

theorem mask_ok (aidx : Nd Nat) (p rest : List Nat) (ha : aidx.shape = p) :
    ∃ m, (⟨p ++ List.replicate rest.length 1, aidx.data⟩ : Nd Nat).expand (p ++ rest) = .ok m ∧ m.shape = p ++ rest ∧
      ∀ is r, InRange is p → InRange r rest → m.get (is ++ r) = aidx.get is := by
  have hlen : (p ++ rest).length - (p ++ List.replicate rest.length 1).length = 0 := by simp
  obtain ⟨m, h1, h2, h3⟩ := expand_ok (t := ⟨p ++ List.replicate rest.length 1, aidx.data⟩) (s := p ++ rest) (by simp) (by
    show List.Forall₂ _ (p ++ List.replicate rest.length 1) _
    rw [hlen, List.drop_zero]
    clear hlen ha
    induction p with
    | nil => induction rest with
      | nil => exact .nil
      | cons x rest ih => exact .cons (Or.inl rfl) ih
    | cons x p ih => exact .cons (Or.inr rfl) ih)
  refine ⟨m, h1, h2, fun is r hi hr => ?_⟩
  rw [h3 _ (inRange_append hi hr), hlen, List.drop_zero]
  show aidx.data (ravel (p ++ List.replicate rest.length 1) (List.zipWith _ (is ++ r) (p ++ List.replicate rest.length 1))) = aidx.data _
  rw [mask_index hi r rest hr, ravel_append hi.length_eq, ravel_zeros, List.prod_replicate, one_pow, mul_one, add_zero, ha]

/-- C86. `pick` permutes the particles of a tensor of any shape: the index of a particle (and batch element) serves for all data dimensions. -/
theorem C86_pick (z : Nd α) (aidx : Nd Nat) (n : Nat) (p rest : List Nat) (ha : aidx.shape = n :: p) (hz : z.shape = n :: p ++ rest)
    (h : ∀ is, InRange is (n :: p) → aidx.get is < n) :
    ∃ r, z.pick aidx 0 = .ok r ∧ r.shape = z.shape ∧
      ∀ i is d, i < n → InRange is p → InRange d rest → r.get (i :: is ++ d) = z.get (aidx.get (i :: is) :: is ++ d) := by
  obtain ⟨m, h1, h2, h3⟩ := mask_ok aidx (n :: p) rest ha
  have hk : z.shape.length - aidx.shape.length = rest.length := by rw [hz, ha, List.length_append]; omega
  have hm : z.pick aidx 0 = z.gather (0 : Nat) m := by
    unfold pick
    simp only [hk]
    rw [if_pos (by rw [hz, ha]; simp), unsqueezes, ha]
    simp only [bind, Except.bind]
    rw [hz, h1]
    rfl
  obtain ⟨r, h4, h5, h6⟩ := gather_ok (t := z) (d := 0) (ix := m) (by rw [hz]; simp) (by
    rw [h2, hz]; exact List.forall₂_same.2 fun _ _ => le_rfl) (fun is hi => by
      rw [h2] at hi
      obtain ⟨i, r, rfl, hi, hr⟩ := inRange_split hi
      rw [h3 i r hi hr, hz]
      exact h i hi)
  refine ⟨r, hm.trans h4, by rw [h5, h2, hz], fun i is d hi his hd => ?_⟩
  have hr := inRange_append (List.Forall₂.cons hi his) hd
  rw [h6 _ (by rw [h2]; exact hr), h3 (i :: is) d (.cons hi his) hd]
  rfl

/-- C86. `pick` along any dimension of the index: there the index replaces the position, everywhere else positions stay. -/
theorem C86_pick_along (z : Nd α) (aidx : Nd Nat) (s rest : List Nat) (d : Nat) (hd : d < s.length) (ha : aidx.shape = s) (hz : z.shape = s ++ rest)
    (h : ∀ is, InRange is s → aidx.get is < s[d]) :
    ∃ r, z.pick aidx d = .ok r ∧ r.shape = z.shape ∧
      ∀ is e, InRange is s → InRange e rest → r.get (is ++ e) = z.get (is.set d (aidx.get is) ++ e) := by
  obtain ⟨m, h1, h2, h3⟩ := mask_ok aidx s rest ha
  have hk : z.shape.length - aidx.shape.length = rest.length := by rw [hz, ha, List.length_append]; omega
  have hm : z.pick aidx d = z.gather d m := by
    unfold pick
    simp only [hk]
    rw [if_pos (by rw [hz, ha]; simp), unsqueezes, ha]
    simp only [bind, Except.bind]
    rw [hz, h1]
  obtain ⟨r, h4, h5, h6⟩ := gather_ok (t := z) (d := d) (ix := m) (by rw [hz, List.length_append]; omega) (by
    rw [h2, hz]; exact List.forall₂_same.2 fun _ _ => le_rfl) (fun is hi => by
      rw [h2] at hi
      obtain ⟨i, r, rfl, hi, hr⟩ := inRange_split hi
      rw [h3 i r hi hr, hz, List.getD_eq_getElem?_getD, List.getElem?_append_left hd, List.getElem?_eq_getElem hd]
      exact h i hi)
  refine ⟨r, hm.trans h4, by rw [h5, h2, hz], fun is e his he => ?_⟩
  have hr := inRange_append his he
  rw [h6 _ (by rw [h2]; exact hr), h3 is e his he, List.set_append_left _ _ (by rw [his.length_eq]; exact hd)]

/-- C86. It raises AssertionError if the leading dimensions of the tensor are not those of the index. -/
theorem C86_pick_shape (z : Nd α) (aidx : Nd Nat) (sd : Int) (h : ¬ aidx.shape <+: z.shape) : z.pick aidx sd = .error .assertion := by
  unfold pick
  refine if_neg fun h1 => h ?_
  rw [List.prefix_iff_eq_take]
  exact h1.symm

/-- C86. And RuntimeError if an index is out of range. -/
theorem C86_pick_range (z : Nd α) (aidx : Nd Nat) (n : Nat) (p rest : List Nat) (ha : aidx.shape = n :: p) (hz : z.shape = n :: p ++ rest)
    (is d : List Nat) (hi : InRange is (n :: p)) (hd : InRange d rest) (h : n ≤ aidx.get is) : z.pick aidx 0 = .error .runtime := by
  obtain ⟨m, h1, h2, h3⟩ := mask_ok aidx (n :: p) rest ha
  have hk : z.shape.length - aidx.shape.length = rest.length := by rw [hz, ha, List.length_append]; omega
  have hm : z.pick aidx 0 = z.gather (0 : Nat) m := by
    unfold pick
    simp only [hk]
    rw [if_pos (by rw [hz, ha]; simp), unsqueezes, ha]
    simp only [bind, Except.bind]
    rw [hz, h1]
    rfl
  rw [hm]
  refine gather_error (by rw [hz]; simp) (is ++ d) (by rw [h2]; exact inRange_append hi hd) ?_
  rw [h3 is d hi hd, hz]
  exact h


theorem transpose_ok {t : Nd α} {d e : Int} {d' e' : Nat} (hd : pyIx t.shape.length d = .ok d') (he : pyIx t.shape.length e = .ok e') :
    ∃ r, t.transpose d e = .ok r ∧ r.shape = swap t.shape d' e' ∧ ∀ is, InRange is (swap t.shape d' e') → r.get is = t.get (swap is d' e') := by
  unfold transpose
  rw [hd, he]
  exact ⟨_, rfl, rfl, fun is hi => get_ofFn _ hi⟩

theorem searchsorted_ok {bounds vals : Nd ℝ} {n : Nat} (h1 : bounds.shape.length = vals.shape.length) (h2 : bounds.shape.dropLast = vals.shape.dropLast)
    (hn : bounds.shape.getLastD 0 = n) (hl : bounds.shape.length ≠ 1) :
    searchsortedT bounds vals = .ok (ofFn vals.shape fun is => searchsorted (fun i : Fin n => bounds.get (is.dropLast ++ [i.val])) (vals.get is)) := by
  subst hn
  unfold searchsortedT
  rw [if_pos (Or.inr ⟨h1, h2⟩)]
  simp only [if_neg hl]

theorem stack_steps {u : Nd ℝ} {b : Nat} (hu : u.shape = [b]) {n : Nat} (hn : 0 < n) :
    ∃ r, stackLast ((List.range n).map fun k : Nat => u.map fun x => (k : ℝ) + x) = .ok r ∧ r.shape = [b, n] ∧
      ∀ j k, j < b → k < n → r.get [j, k] = k + u.get [j] := by
  obtain ⟨n, rfl⟩ : ∃ m, n = m + 1 := ⟨n - 1, by omega⟩
  have hs : ((List.range (n + 1)).map fun k : Nat => u.map fun x => (k : ℝ) + x) =
      (u.map fun x => ((0 : Nat) : ℝ) + x) :: ((List.range n).map fun k : Nat => u.map fun x => ((k + 1 : Nat) : ℝ) + x) := by
    rw [List.range_succ_eq_map]; simp
  have hall : (((List.range (n + 1)).map fun k : Nat => u.map fun x => (k : ℝ) + x).all fun t' => t'.shape == (u.map fun x => ((0 : Nat) : ℝ) + x).shape) = true := by
    rw [List.all_eq_true]
    intro t ht
    obtain ⟨k, _, rfl⟩ := List.mem_map.1 ht
    simp
  refine ⟨ofFn ([b] ++ [n + 1]) fun is =>
    ((((List.range (n + 1)).map fun k : Nat => u.map fun x => (k : ℝ) + x)[is.getLastD 0]?).getD (u.map fun x => ((0 : Nat) : ℝ) + x)).get is.dropLast, ?_, rfl, ?_⟩
  · unfold stackLast
    rw [hs] at hall ⊢
    simp only
    rw [if_pos hall, ← hs]
    simp [hu]
  · intro j k hj hk
    refine (get_ofFn _ (inRange2 hj hk)).trans ?_
    simp [hk, get_map]

/-- C86. `ancestor_indices_systematic` on a tensor with sample and batch dimension: every batch element gets the indices of systematic resampling with
its own weights and its own offset. -/
theorem C86_ancestors (lw : Nd ℝ) (n b : Nat) [NeZero n] (hlw : lw.shape = [n, b]) (bd : Int) (hbd : bd = 1 ∨ bd = -1 ∨ n = b ∧ (bd = 0 ∨ bd = -2)) (u : Nat → Nd ℝ)
    (hu : (u b).shape = [b]) :
    ∃ r, ancestorIndices lw bd u = .ok r ∧ r.shape = [n, b] ∧
      ∀ (s : Fin n) (j : Fin b), r.get [s, j] = ancestors (softmax fun i : Fin n => lw.get [i, j]) ((u b).get [j.val]) s := by
  have hn : 0 < n := Nat.pos_of_ne_zero (NeZero.ne n)
  have hb : Shape.dim lw.shape bd = .ok b := by
    rw [hlw]
    rcases hbd with rfl | rfl | ⟨rfl, rfl | rfl⟩ <;> rfl
  have h0 : Shape.dim lw.shape 0 = .ok n := by rw [hlw]; rfl
  obtain ⟨st, e1, s1, g1⟩ := stack_steps hu hn
  obtain ⟨nws, e2, s2, g2⟩ := along_ok (t := lw) (d := 0) (d' := 0) (n := n) (by rw [hlw]; rfl) (by rw [hlw]; rfl) id fun _ v => softmax v
  rw [hlw] at s2 g2
  simp only [id, List.set_cons_zero] at s2 g2
  obtain ⟨tr, e3, s3, g3⟩ := transpose_ok (t := nws) (d := 0) (e := -1) (d' := 0) (e' := 1) (by rw [s2]; rfl) (by rw [s2]; rfl)
  rw [s2] at s3 g3
  simp only [swap, List.getD_cons_succ, List.getD_cons_zero, List.set_cons_zero, List.set_cons_succ] at s3 g3
  obtain ⟨cs, e4, s4, g4⟩ := along_ok (t := tr) (d := -1) (d' := 1) (n := n) (by rw [s3]; rfl) (by rw [s3]; rfl) id fun _ v => cumsum v
  rw [s3] at s4 g4
  simp only [id, List.set_cons_zero, List.set_cons_succ] at s4 g4
  obtain ⟨mx, e5, s5, g5⟩ := along_ok (t := cs) (d := -1) (d' := 1) (n := n) (by rw [s4]; rfl) (by rw [s4]; rfl) (fun _ => 1)
    fun n v _ => if h : n = 0 then (0 : ℝ) else have : NeZero n := ⟨h⟩; maxOf v
  rw [s4] at s5 g5
  simp only [List.set_cons_zero, List.set_cons_succ] at s5 g5
  obtain ⟨x1, e6, s6, g6⟩ := expand_ok (t := cs) (s := [b, n]) (by rw [s4]) (by rw [s4]; exact .cons (Or.inr rfl) (.cons (Or.inr rfl) .nil))
  obtain ⟨x2, e7, s7, g7⟩ := expand_ok (t := mx) (s := [b, n]) (by rw [s5]; exact le_rfl) (by rw [s5]; exact .cons (Or.inr rfl) (.cons (Or.inl rfl) .nil))
  have hbc : broadcastRev cs.shape.reverse mx.shape.reverse = .ok [n, b] := by
    rw [s4, s5]
    simp [broadcastRev, Except.map]
  obtain ⟨nc, e8, s8, g8⟩ : ∃ r, map₂ (· / ·) cs mx = .ok r ∧ r.shape = [b, n] ∧ ∀ is, r.get is = x1.get is / x2.get is := by
    refine ⟨⟨[b, n], fun q => x1.data q / x2.data q⟩, ?_, rfl, fun is => ?_⟩
    · unfold map₂
      simp only [bind, Except.bind, hbc, List.reverse_cons, List.reverse_nil, List.nil_append, List.cons_append, e6, e7]
    · show x1.data _ / x2.data _ = x1.data _ / x2.data _
      rw [s6, s7]
  have hss : searchsortedT nc (st.map fun x : ℝ => x / (n : ℝ)) = .ok (ofFn [b, n] fun is =>
      searchsorted (fun i : Fin n => nc.get (is.dropLast ++ [i.val])) ((st.map fun x : ℝ => x / (n : ℝ)).get is)) := by
    have := searchsorted_ok (bounds := nc) (vals := st.map fun x : ℝ => x / (n : ℝ)) (n := n) (by rw [s8, shape_map, s1]) (by rw [s8, shape_map, s1])
      (by rw [s8]; rfl) (by rw [s8]; simp)
    rw [shape_map, s1] at this
    exact this
  obtain ⟨ai, e9, s9, g9⟩ := transpose_ok (t := ofFn [b, n] fun is =>
      searchsorted (fun i : Fin n => nc.get (is.dropLast ++ [i.val])) ((st.map fun x : ℝ => x / (n : ℝ)).get is)) (d := -1) (e := 0) (d' := 1) (e' := 0) rfl rfl
  simp only [shape_ofFn, swap, List.getD_cons_succ, List.getD_cons_zero, List.set_cons_zero, List.set_cons_succ] at s9 g9
  refine ⟨ai, ?_, s9, fun s j => ?_⟩
  · unfold ancestorIndices
    simp only [bind, Except.bind, h0, hb, e1, e2, e3, e4, e5, e8, hss, e9]
  · have hcs : ∀ i : Fin n, cs.get [j.val, i.val] = cumsum (softmax fun i : Fin n => lw.get [i, j]) i := by
      intro i
      rw [g4 [j.val, i.val] (inRange2 j.2 i.2) i.2]
      refine congrArg (fun v => cumsum v i) (funext fun k => ?_)
      show tr.get [j.val, k.val] = _
      rw [g3 [j.val, k.val] (inRange2 j.2 k.2)]
      exact g2 [k.val, j.val] (inRange2 k.2 j.2) k.2
    have hnc : ∀ i : Fin n, nc.get [j.val, i.val] = cumsum (softmax fun i : Fin n => lw.get [i, j]) i / maxOf (cumsum (softmax fun i : Fin n => lw.get [i, j])) := by
      intro i
      rw [g8, g6 _ (inRange2 j.2 i.2), g7 _ (inRange2 j.2 i.2), s4, s5]
      have hz1 : List.zipWith (fun i n => if n = 1 then 0 else i) (List.drop ([b, n].length - [b, n].length) [j.val, i.val]) [b, n] = [j.val, i.val] := by
        have := j.2
        have := i.2
        simp
        constructor <;> intro <;> omega
      have hz2 : List.zipWith (fun i n => if n = 1 then 0 else i) (List.drop ([b, n].length - [b, 1].length) [j.val, i.val]) [b, 1] = [j.val, 0] := by
        have := j.2
        simp
        intro; omega
      rw [hz1, hz2, hcs i, g5 [j.val, 0] (inRange2 j.2 Nat.one_pos) Nat.one_pos, dif_neg hn.ne']
      refine congrArg (fun v => _ / maxOf v) (funext fun k => hcs k)
    rw [g9 _ (inRange2 s.2 j.2)]
    show (ofFn [b, n] _).get [j.val, s.val] = _
    rw [get_ofFn _ (inRange2 j.2 s.2), get_map, g1 _ _ j.2 s.2]
    exact congrArg (fun v => searchsorted v _) (funext fun i => hnc i)

theorem newWeights_ok (lw : Nd ℝ) (n b : Nat) (hlw : lw.shape = [n, b]) (normalize : Bool) :
    ∃ r, newWeights lw normalize = .ok r ∧ r.shape = [n, b] ∧ ∀ (s : Fin n) (j : Fin b), r.get [s, j] = resampledLw normalize (fun i : Fin n => lw.get [i, j]) s := by
  have h0 : Shape.dim [n, b] 0 = .ok n := rfl
  obtain ⟨ls, e1, s1, g1⟩ := along_ok (t := lw.map fun x => x - Real.log n) (d := 0) (d' := 0) (n := n) (by rw [shape_map, hlw]; rfl) (by rw [shape_map, hlw]; rfl)
    (fun _ => 1) fun _ v _ => logsumexp v
  rw [shape_map, hlw] at s1 g1
  simp only [List.set_cons_zero] at s1 g1
  obtain ⟨x, e2, s2, g2⟩ := expand_ok (t := ls) (s := [n, b]) (by rw [s1]; exact le_rfl) (by rw [s1]; exact .cons (Or.inl rfl) (.cons (Or.inr rfl) .nil))
  have hx : ∀ (s : Fin n) (j : Fin b), x.get [s.val, j.val] = logsumexp fun i : Fin n => lw.get [i, j] - Real.log n := by
    intro s j
    rw [g2 _ (inRange2 s.2 j.2), s1]
    have hz : List.zipWith (fun i n => if n = 1 then 0 else i) (List.drop ([n, b].length - [1, b].length) [s.val, j.val]) [1, b] = [0, j.val] := by
      have := j.2
      simp
      intro; omega
    rw [hz, g1 [0, j.val] (inRange2 Nat.one_pos j.2) Nat.one_pos]
    rfl
  cases normalize with
  | false =>
    refine ⟨x, ?_, s2, hx⟩
    unfold newWeights
    simp only [bind, Except.bind, h0, e1, hlw, e2]
    rfl
  | true =>
    obtain ⟨p, e3, s3, g3⟩ := along_ok (t := x) (d := 0) (d' := 0) (n := n) (by rw [s2]; rfl) (by rw [s2]; rfl) id fun _ v => softmax v
    rw [s2] at s3 g3
    simp only [id, List.set_cons_zero] at s3 g3
    refine ⟨p.map Real.log, ?_, s3, fun s j => ?_⟩
    · unfold newWeights
      simp only [bind, Except.bind, h0, e1, hlw, e2, e3, if_true]
    · rw [get_map, g3 [s.val, j.val] (inRange2 s.2 j.2) s.2]
      exact congrArg (fun v => Real.log (softmax v s)) (funext fun i => hx i j)

/-- The particles of `z'` are those of `z`, batch element by batch element: slot `s` of batch element `j` holds particle `anc s j`. -/
def Picked {n b : Nat} (anc : Fin n → Fin b → Nat) (z z' : Nd ℝ) : Prop :=
  z'.shape = z.shape ∧ ∀ (s : Fin n) (j : Fin b) d, InRange d (z.shape.drop 2) → z'.get (s.val :: j.val :: d) = z.get (anc s j :: j.val :: d)

theorem mapM_ok {f : Nd ℝ → Except Err (Nd ℝ)} {R : Nd ℝ → Nd ℝ → Prop} (zs : List (Nd ℝ)) (h : ∀ z ∈ zs, ∃ z', f z = .ok z' ∧ R z z') :
    ∃ zs', zs.mapM f = .ok zs' ∧ List.Forall₂ R zs zs' := by
  induction zs with
  | nil => exact ⟨[], rfl, .nil⟩
  | cons z zs ih =>
    obtain ⟨z', h1, h2⟩ := h z List.mem_cons_self
    obtain ⟨zs', h3, h4⟩ := ih fun z hz => h z (List.mem_cons_of_mem _ hz)
    refine ⟨z' :: zs', ?_, .cons h2 h4⟩
    rw [List.mapM_cons, h1]
    simp only [bind, Except.bind, h3]
    rfl

/-- C86. `Systematic` on tensors with sample and batch dimension and any data dimensions: all tensors of the trace have their particles replaced by the
same ancestors, which every batch element gets from its own weights and offset; the new log weight of a batch element is computed from its old ones. -/
theorem C86_systematic (normalize : Bool) (lw : Nd ℝ) (n b : Nat) [NeZero n] (hlw : lw.shape = [n, b]) (bd : Int) (hbd : bd = 1 ∨ bd = -1 ∨ n = b ∧ (bd = 0 ∨ bd = -2))
    (u : Nat → Nd ℝ) (hu : (u b).shape = [b]) (hu1 : ∀ j : Fin b, (u b).get [j.val] ≤ 1) (zs : List (Nd ℝ)) (hz : ∀ z ∈ zs, [n, b] <+: z.shape) :
    ∃ zs' lw', systematicNd normalize lw 0 (some bd) u zs = .ok (zs', lw') ∧
      List.Forall₂ (Picked fun (s : Fin n) (j : Fin b) => ancestors (softmax fun i : Fin n => lw.get [i, j]) ((u b).get [j.val]) s) zs zs' ∧
      lw'.shape = [n, b] ∧ ∀ (s : Fin n) (j : Fin b), lw'.get [s, j] = resampledLw normalize (fun i : Fin n => lw.get [i, j]) s := by
  obtain ⟨ai, e1, s1, g1⟩ := C86_ancestors lw n b hlw bd hbd u hu
  obtain ⟨lw', e2, s2, g2⟩ := newWeights_ok lw n b hlw normalize
  have hlt : ∀ is, InRange is [n, b] → ai.get is < n := by
    intro is hi
    cases hi with
    | @cons s _ _ _ hs hi => cases hi with
      | @cons j _ _ _ hj hi =>
        cases hi
        rw [g1 ⟨s, hs⟩ ⟨j, hj⟩]
        have hpos : 0 < ∑ i : Fin n, softmax (fun i : Fin n => lw.get [i, j]) i := Finset.sum_pos (fun i _ => div_pos (Real.exp_pos _)
          (Finset.sum_pos (fun i _ => Real.exp_pos _) ⟨0, Finset.mem_univ 0⟩)) ⟨0, Finset.mem_univ 0⟩
        exact ancestors_lt (fun i => div_nonneg (Real.exp_pos _).le (Finset.sum_nonneg fun i _ => (Real.exp_pos _).le)) hpos (hu1 ⟨j, hj⟩) ⟨s, hs⟩
  obtain ⟨zs', e3, h3⟩ := mapM_ok (f := fun z => z.pick ai 0)
      (R := Picked fun (s : Fin n) (j : Fin b) => ancestors (softmax fun i : Fin n => lw.get [i, j]) ((u b).get [j.val]) s) zs fun z hzs => by
    obtain ⟨rest, hrest⟩ := hz z hzs
    obtain ⟨r, e4, s4, g4⟩ := C86_pick z ai n [b] rest s1 hrest.symm hlt
    refine ⟨r, e4, s4, fun s j d hd => ?_⟩
    rw [← hrest] at hd
    have := g4 s.val [j.val] d s.2 (.cons j.2 .nil) hd
    rw [g1 s j] at this
    exact this
  refine ⟨zs', lw', ?_, h3, s2, g2⟩
  unfold systematicNd
  rw [if_neg (by simp)]
  simp only [bind, Except.bind, Option.getD_some, e1, e2, e3]

/-- C86. Without batch dimension the same happens to the one and only batch element, but the log weights come back with a second dimension of size 1. -/
theorem C86_unbatched (normalize : Bool) (lw : Nd ℝ) (n : Nat) [NeZero n] (hlw : lw.shape = [n]) (u : Nat → Nd ℝ) (hu : (u 1).shape = [1]) (hu1 : (u 1).get [0] ≤ 1)
    (zs : List (Nd ℝ)) (hz : ∀ z ∈ zs, [n] <+: z.shape) :
    ∃ zs' lw', systematicNd normalize lw 0 none u zs = .ok (zs', lw') ∧
      List.Forall₂ (fun z z' => z'.shape = z.shape ∧ ∀ (s : Fin n) d, InRange d (z.shape.drop 1) →
        z'.get (s.val :: d) = z.get (ancestors (softmax fun i : Fin n => lw.get [i]) ((u 1).get [0]) s :: d)) zs zs' ∧
      lw'.shape = [n, 1] ∧ ∀ s : Fin n, lw'.get [s, 0] = resampledLw normalize (fun i : Fin n => lw.get [i]) s := by
  have hq : lw.unsqueeze 1 = .ok ⟨[n, 1], lw.data⟩ := by
    unfold unsqueeze
    rw [hlw]
    rfl
  have hget : ∀ i : Nat, (⟨[n, 1], lw.data⟩ : Nd ℝ).get [i, 0] = lw.get [i] := by
    intro i
    show lw.data _ = lw.data _
    rw [hlw]
    simp [ravel]
  obtain ⟨ai, e1, s1, g1⟩ := C86_ancestors ⟨[n, 1], lw.data⟩ n 1 rfl 1 (Or.inl rfl) u hu
  obtain ⟨lw', e2, s2, g2⟩ := newWeights_ok ⟨[n, 1], lw.data⟩ n 1 rfl normalize
  have hsq : ai.squeeze 1 = .ok ⟨[n], ai.data⟩ := by
    unfold squeeze
    rw [s1]
    rfl
  have ha : ∀ s : Fin n, (⟨[n], ai.data⟩ : Nd Nat).get [s.val] = ancestors (softmax fun i : Fin n => lw.get [i]) ((u 1).get [0]) s := by
    intro s
    have h1 : (⟨[n], ai.data⟩ : Nd Nat).get [s.val] = ai.get [s.val, ((0 : Fin 1) : Nat)] := by
      show ai.data _ = ai.data _
      rw [s1]
      simp [ravel]
    rw [h1, g1 s 0]
    exact congrArg (fun v => ancestors (softmax v) _ s) (funext fun i => hget i)
  have hlt : ∀ is, InRange is [n] → (⟨[n], ai.data⟩ : Nd Nat).get is < n := by
    intro is hi
    cases hi with
    | @cons s _ _ _ hs hi =>
      cases hi
      rw [ha ⟨s, hs⟩]
      have hpos : 0 < ∑ i : Fin n, softmax (fun i : Fin n => lw.get [i]) i := Finset.sum_pos (fun i _ => div_pos (Real.exp_pos _)
        (Finset.sum_pos (fun i _ => Real.exp_pos _) ⟨0, Finset.mem_univ 0⟩)) ⟨0, Finset.mem_univ 0⟩
      exact ancestors_lt (fun i => div_nonneg (Real.exp_pos _).le (Finset.sum_nonneg fun i _ => (Real.exp_pos _).le)) hpos hu1 ⟨s, hs⟩
  obtain ⟨zs', e3, h3⟩ := mapM_ok (f := fun z => z.pick ⟨[n], ai.data⟩ 0)
      (R := fun z z' => z'.shape = z.shape ∧ ∀ (s : Fin n) d, InRange d (z.shape.drop 1) →
        z'.get (s.val :: d) = z.get (ancestors (softmax fun i : Fin n => lw.get [i]) ((u 1).get [0]) s :: d)) zs fun z hzs => by
    obtain ⟨rest, hrest⟩ := hz z hzs
    obtain ⟨r, e4, s4, g4⟩ := C86_pick z ⟨[n], ai.data⟩ n [] rest rfl hrest.symm hlt
    refine ⟨r, e4, s4, fun s d hd => ?_⟩
    rw [← hrest] at hd
    have := g4 s.val [] d s.2 .nil hd
    rw [ha s] at this
    exact this
  refine ⟨zs', lw', ?_, h3, s2, fun s => ?_⟩
  · unfold systematicNd
    rw [if_neg (by simp)]
    simp only [bind, Except.bind, Option.getD_none, hlw, hq, e1, e2, e3, hsq, List.length_singleton, if_true]
  · have := g2 s 0
    rw [show ((0 : Fin 1) : Nat) = 0 from rfl] at this
    rw [this]
    exact congrArg (fun v => resampledLw normalize v s) (funext fun i => hget i)

/-- C86. It raises AssertionError for other sample dimensions than the first, and without a batch dimension for log weights that are not vectors. -/
theorem C86_refuses (normalize : Bool) (lw : Nd ℝ) (sd : Int) (bd : Option Int) (u : Nat → Nd ℝ) (zs : List (Nd ℝ)) (h : sd ≠ 0 ∨ bd = none ∧ lw.shape.length ≠ 1) :
    systematicNd normalize lw sd bd u zs = .error .assertion := by
  unfold systematicNd
  by_cases hs : sd = 0
  · obtain ⟨rfl, hl⟩ := h.resolve_left (not_not.2 hs)
    simp only [hs, ne_eq, not_true_eq_false, if_false, hl, bind, Except.bind]
  · rw [if_pos hs]

/-- C86 for four particles and three batch elements: a variable with a vector of two numbers for each, and its log density. -/
example : ∃ zs' lw', systematicNd false ⟨[4, 3], fun q => q⟩ 0 (some 1) (fun b => ⟨[b], fun _ => 1 / 2⟩) [⟨[4, 3, 2], fun q => q * q⟩, ⟨[4, 3], fun q => -q⟩] = .ok (zs', lw') ∧
    lw'.shape = [4, 3] := by
  obtain ⟨zs', lw', h1, -, h2, -⟩ := C86_systematic false ⟨[4, 3], fun q => q⟩ 4 3 rfl 1 (Or.inl rfl) (fun b => ⟨[b], fun _ => 1 / 2⟩) rfl (fun _ => by simp [get]; norm_num)
    [⟨[4, 3, 2], fun q => q * q⟩, ⟨[4, 3], fun q => -q⟩] (by
      intro z hz
      simp only [List.mem_cons, List.not_mem_nil, or_false] at hz
      rcases hz with rfl | rfl
      · exact ⟨[2], rfl⟩
      · exact ⟨[], rfl⟩)
  exact ⟨zs', lw', h1, h2⟩

end Nd
end Verif
