import Verif.Proofs.TensorOps
import Verif.Proofs.ApgNets
/-
C87: the networks of experiments/apgs on tensors with all their dimensions.
-/
namespace Verif
namespace Nd
open Bouncing

/-- The first indices together as one. -/
theorem ravel_flat {pre is : List Nat} (h : is.length = pre.length) (N : Nat) (rest r : List Nat) :
    ravel (N :: rest) (ravel pre is :: r) = ravel (pre ++ rest) (is ++ r) := by
  rw [ravel_append h]
  rfl

/-- A tensor as an image, for fixed first indices. -/
def imgAt (t : Nd ℝ) (is : List Nat) (n : Nat) : Img n := fun i j => t.get (is ++ [i.val, j.val])

/-- A tensor as a vector, for fixed first indices. -/
def vecAt (t : Nd ℝ) (is : List Nat) (n : Nat) : Fin n → ℝ := fun i => t.get (is ++ [i.val])

theorem inRange4 {S B T K s b t k : Nat} (hs : s < S) (hb : b < B) (ht : t < T) (hk : k < K) : InRange [s, b, t, k] [S, B, T, K] :=
  .cons hs (.cons hb (.cons ht (.cons hk .nil)))

theorem catLast_ok {t t' : Nd ℝ} {s : List Nat} {n m : Nat} (h : t.shape = s ++ [n]) (h' : t'.shape = s ++ [m]) :
    ∃ r, catLast t t' = .ok r ∧ r.shape = s ++ [n + m] ∧ ∀ is, InRange is s → ∀ i, i < n + m →
      r.get (is ++ [i]) = if i < n then t.get (is ++ [i]) else t'.get (is ++ [i - n]) := by
  unfold catLast
  rw [h, h']
  simp only [List.reverse_append, List.reverse_cons, List.reverse_nil, List.nil_append, List.cons_append, if_true, List.reverse_reverse]
  refine ⟨_, rfl, rfl, fun is hi i hlt => ?_⟩
  rw [get_ofFn _ (inRange_append hi (inRange1 hlt))]
  simp

theorem thetas_ok (S B T K : Nat) (scale tr : ℝ) (f : Nat) (hf : f < 2) (z : Nd ℝ) (hz : z.shape = [S, B, T, K, 2]) :
    ∃ r, thetas S B T K scale tr f z = .ok r ∧ r.shape = [S * B * T * K, 2, 3] ∧ ∀ is, InRange is [S, B, T, K] → ∀ c, c < 2 → ∀ d, d < 3 →
      r.get [ravel [S, B, T, K] is, c, d] = if d < 2 then (if c = d then scale else 0) else
        (if c = f then -1 * (z.get (is ++ [c]) * tr) else z.get (is ++ [c]) * tr) := by
  obtain ⟨p1, e1, s1, g1⟩ := tile_ok (t := diag2 scale) (r := [S, B, T, K, 1, 1]) (by simp [diag2]) (s := [S, B, T, K, 2, 2]) (by simp [diag2])
  have e2 := unsqueeze_last z
  rw [hz] at e2
  set p2 : Nd ℝ := (⟨[S, B, T, K, 2] ++ [1], z.data⟩ : Nd ℝ).map fun x => x * tr with hp2
  have hs2 : p2.shape = [S, B, T, K, 2, 1] := rfl
  have g2 : ∀ is, InRange is [S, B, T, K] → ∀ c, p2.get (is ++ [c, 0]) = z.get (is ++ [c]) * tr := by
    intro is hi c
    show z.data (ravel ([S, B, T, K, 2] ++ [1]) _) * tr = z.data _ * tr
    rw [show ([S, B, T, K, 2] ++ [1] : List Nat) = [S, B, T, K] ++ [2, 1] from rfl, ravel_append hi.length_eq, hz,
      show ([S, B, T, K, 2] : List Nat) = [S, B, T, K] ++ [2] from rfl, ravel_append hi.length_eq]
    simp [ravel]
  obtain ⟨x, e3, s3, g3⟩ := select_ok (t := p2) (d := 4) (n := 2) (k := f) rfl hf
  obtain ⟨p3, e4, s4, g4⟩ := setSelect_ok (t := p2) (v := x.map fun x => -1 * x) (d := 4) (n := 2) (k := f) rfl hf s3 (fun is hi => inRange_eraseIdx hi 4)
  rw [hs2] at s4 g4 g3
  obtain ⟨p, e5, s5, g5⟩ := catLast_ok (t := p1) (t' := p3) (s := [S, B, T, K, 2]) (n := 2) (m := 1) s1 s4
  have e6 := view_eq (t := p) (s := [S * B * T * K, 2, 3]) (by rw [s5]; simp; ring)
  refine ⟨⟨[S * B * T * K, 2, 3], p.data⟩, ?_, rfl, fun is hi c hc d hd => ?_⟩
  · unfold thetas
    rw [e1, e2]
    simp only [bind, Except.bind]
    rw [← hp2, e3]
    simp only
    rw [e4]
    simp only
    rw [e5]
    exact e6
  · have h1 : (⟨[S * B * T * K, 2, 3], p.data⟩ : Nd ℝ).get [ravel [S, B, T, K] is, c, d] = p.get (is ++ [c, d]) := by
      refine get_mk ?_
      rw [ravel_flat hi.length_eq, s5]
      rfl
    have hi' : InRange (is ++ [c]) [S, B, T, K, 2] := inRange_append hi (inRange1 hc)
    rw [h1, show is ++ [c, d] = (is ++ [c]) ++ [d] by simp, g5 _ hi' d hd]
    by_cases h2 : d < 2
    · rw [if_pos h2, if_pos h2, g1 _ (inRange_append hi' (inRange1 h2))]
      have hl := hi.length_eq
      simp only [List.length_cons, List.length_nil] at hl
      simp only [diag2, shape_ofFn, List.length_cons, List.length_nil]
      have : List.zipWith (· % ·) ((is ++ [c] ++ [d]).drop 4) [2, 2] = [c, d] := by
        rw [List.append_assoc, List.drop_left' (by omega)]
        simp [Nat.mod_eq_of_lt hc, Nat.mod_eq_of_lt h2]
      simp only [Nat.reduceAdd, Nat.reduceSub] at this ⊢
      rw [this, get_ofFn _ (inRange2 hc h2)]
      have hcd : (([c, d] : List Nat) = [0, 0] ∨ ([c, d] : List Nat) = [1, 1]) ↔ c = d := by
        simp only [List.cons.injEq, and_true]
        omega
      simp only [hcd]
    · have hd2 : d = 2 := by omega
      subst hd2
      rw [if_neg (by omega), if_neg (by omega)]
      have hi3 : InRange (is ++ [c] ++ [0]) [S, B, T, K, 2, 1] := inRange_append hi' (inRange1 Nat.one_pos)
      rw [show 2 - 2 = 0 from rfl, g4 _ hi3]
      have hl := hi.length_eq
      simp only [List.length_cons, List.length_nil] at hl
      have hix : (is ++ [c] ++ [0])[4]? = some c := by
        rw [List.append_assoc, List.getElem?_append_right (by omega)]
        simp [hl]
      rw [hix]
      by_cases hcf : c = f
      · subst hcf
        rw [if_pos rfl, if_pos rfl, get_map]
        have her : (is ++ [c] ++ [0]).eraseIdx 4 = is ++ [0] := by
          rw [List.append_assoc, List.eraseIdx_append_of_length_le (by omega)]
          simp [hl]
        rw [her, g3 _ (inRange_append hi (inRange1 Nat.one_pos))]
        have : (is ++ [0]).insertIdx 4 c = is ++ [c, 0] := by
          match is, hl with
          | [a1, a2, a3, a4], _ => rfl
        rw [this, g2 is hi c]
      · rw [if_neg (by simpa using hcf), if_neg hcf, List.append_assoc]
        exact g2 is hi c

theorem squeeze_eq {t : Nd ℝ} {pre rest : List Nat} (h : t.shape = pre ++ 1 :: rest) {d : Int} (hd : d = pre.length) :
    t.squeeze d = .ok ⟨pre ++ rest, t.data⟩ := by
  subst hd
  unfold squeeze
  rw [h, pyIx_nat (by simp)]
  simp only [bind, Except.bind]
  rw [if_pos (by simp)]
  congr 2
  rw [List.eraseIdx_append_of_length_le le_rfl]
  simp

theorem unsqueeze_eq {t : Nd ℝ} {pre rest : List Nat} (h : t.shape = pre ++ rest) {d : Int} (hd : d = pre.length) :
    t.unsqueeze d = .ok ⟨pre ++ 1 :: rest, t.data⟩ := by
  subst hd
  unfold unsqueeze
  rw [h, pyIx_nat (by simp)]
  simp [bind, Except.bind]

/-- `affine_grid` and `grid_sample`, one image after the other. -/
theorem warp_ok (pre : List Nat) {N m n : Nat} {th src : Nd ℝ} (hth : th.shape = [N, 2, 3]) (hsrc : src.shape = [N, n, n]) (hN : pre.prod = N) :
    ∃ g d f f' r, affineGrid th N m = .ok g ∧ src.unsqueeze 1 = .ok d ∧ gridSample d g = .ok f ∧ f.squeeze 1 = .ok f' ∧ f'.view (pre ++ [m, m]) = .ok r ∧
      r.shape = pre ++ [m, m] ∧ ∀ is, InRange is pre → ∀ θ : Theta,
        th.get [ravel pre is, 0, 0] = θ.sx → th.get [ravel pre is, 0, 1] = 0 → th.get [ravel pre is, 0, 2] = θ.tx →
        th.get [ravel pre is, 1, 0] = 0 → th.get [ravel pre is, 1, 1] = θ.sy → th.get [ravel pre is, 1, 2] = θ.ty →
        imgAt r is m = warp θ (imgAt src [ravel pre is] n) := by
  subst hN
  have e1 : src.unsqueeze 1 = .ok ⟨[pre.prod, 1, n, n], src.data⟩ := by
    unfold unsqueeze
    rw [hsrc]
    rfl
  have hg : affineGrid th pre.prod m = .ok _ := if_pos hth
  obtain ⟨f, e2, sf, gf⟩ : ∃ f, gridSample ⟨[pre.prod, 1, n, n], src.data⟩ (ofFn [pre.prod, m, m, 2] fun is =>
      match is with
      | [n, i, j, c] =>
        let at_ : Nat → ℝ := fun i => if h : i < m then pixelCoord m ⟨i, h⟩ else 0
        th.get [n, c, 0] * at_ j + th.get [n, c, 1] * at_ i + th.get [n, c, 2]
      | _ => 0) = .ok f ∧ f.shape = [pre.prod, 1, m, m] ∧ ∀ q, q < pre.prod → ∀ i j : Fin m,
        f.get [q, 0, i.val, j.val] = pixelAt (fun a b : Fin n => src.get ([q] ++ [a.val, b.val]))
          (pixelIndex n (th.get [q, 1, 0] * pixelCoord m j + th.get [q, 1, 1] * pixelCoord m i + th.get [q, 1, 2]))
          (pixelIndex n (th.get [q, 0, 0] * pixelCoord m j + th.get [q, 0, 1] * pixelCoord m i + th.get [q, 0, 2])) := by
    refine ⟨_, if_pos ⟨rfl, rfl⟩, rfl, fun q hq i j => ?_⟩
    refine (get_ofFn _ (.cons hq (.cons Nat.one_pos (inRange2 i.2 j.2)))).trans ?_
    have g0 : ∀ c, c < 2 → ∀ f : List Nat → ℝ, (ofFn [pre.prod, m, m, 2] f).get [q, i.val, j.val, c] = f [q, i.val, j.val, c] :=
      fun c hc f => get_ofFn f (.cons hq (.cons i.2 (inRange2 j.2 hc)))
    simp only [g0 0 (by omega), g0 1 (by omega), dif_pos i.2, dif_pos j.2]
    congr 1
    funext a b
    refine get_mk ?_
    rw [hsrc]
    simp [ravel]
  refine ⟨_, _, _, _, _, hg, e1, e2, squeeze_eq (pre := [pre.prod]) (rest := [m, m]) sf rfl, view_eq (by simp), rfl,
    fun is hi θ h1 h2 h3 h4 h5 h6 => ?_⟩
  funext i j
  have hq := gf _ (ravel_lt hi) i j
  rw [h1, h2, h3, h4, h5, h6] at hq
  have : (⟨pre ++ [m, m], f.data⟩ : Nd ℝ).get (is ++ [i.val, j.val]) = f.get [ravel pre is, 0, i.val, j.val] := by
    refine get_mk ?_
    rw [← ravel_flat hi.length_eq pre.prod, sf]
    simp [ravel]
  refine this.trans (hq.trans ?_)
  unfold warp imgAt
  simp only [Theta.apply]
  congr 2 <;> ring

/-- C87. `digit_to_frame` pastes, for every particle, batch element, time and object, the digit of this particle, batch element and object at its own
position. -/
theorem C87_digit_to_frame (fp dp S B T K : Nat) (digit z : Nd ℝ) (hd : digit.shape = [S, B, K, dp, dp]) (hz : z.shape = [S, B, T, K, 2]) :
    ∃ r, digitToFrame fp dp digit z = .ok r ∧ r.shape = [S, B, T, K, fp, fp] ∧ ∀ s b t k, s < S → b < B → t < T → k < K →
      imgAt r [s, b, t, k] fp = warp (thetaDtoF fp dp (z.get [s, b, t, k, 0], z.get [s, b, t, k, 1])) (imgAt digit [s, b, k] dp) := by
  obtain ⟨th, e1, s1, g1⟩ := thetas_ok S B T K ((fp : ℝ) / dp) (((fp : ℝ) - dp) / dp) 0 (by omega) z hz
  have e2 := unsqueeze_eq (t := digit) (pre := [S, B]) (rest := [K, dp, dp]) hd (d := 2) rfl
  obtain ⟨d, e3, s3, g3⟩ := tile_ok (t := ⟨[S, B] ++ 1 :: [K, dp, dp], digit.data⟩) (r := [1, 1, T, 1, 1, 1]) (by simp) (s := [S, B, T, K, dp, dp]) (by simp)
  have e4 := view_eq (t := d) (s := [S * B * T * K, dp, dp]) (by rw [s3]; simp; ring)
  obtain ⟨g, d', f, f', r, e5, e6, e7, e8, e9, sr, gr⟩ := warp_ok [S, B, T, K] (N := S * B * T * K) (m := fp) (n := dp) (th := th) (src := ⟨[S * B * T * K, dp, dp], d.data⟩)
    s1 rfl (by simp; ring)
  refine ⟨r, ?_, sr, fun s b t k hs hb ht hk => ?_⟩
  · unfold digitToFrame
    rw [hz]
    simp only [bind, Except.bind, show ((0 : Nat) : Int) = 0 from rfl] at e1 ⊢
    simp only [e1, e5, e2, e3, e4, e6, e7, e8]
    exact e9
  · have hi := inRange4 hs hb ht hk
    rw [gr _ hi (thetaDtoF fp dp (z.get [s, b, t, k, 0], z.get [s, b, t, k, 1]))]
    · congr 1
      funext i j
      unfold imgAt
      refine (get_mk (t := d) (is := [s, b, t, k] ++ [i.val, j.val]) ?_).trans ?_
      · rw [s3]
        exact ravel_flat (pre := [S, B, T, K]) (is := [s, b, t, k]) rfl _ _ _
      · rw [g3 _ (inRange_append hi (inRange2 i.2 j.2))]
        refine get_mk ?_
        rw [hd]
        simp [ravel, Nat.mod_eq_of_lt hs, Nat.mod_eq_of_lt hb, Nat.mod_eq_of_lt hk, Nat.mod_one, Nat.mod_eq_of_lt i.2, Nat.mod_eq_of_lt j.2]
    all_goals rw [g1 _ hi _ (by omega) _ (by omega)]
    all_goals simp [thetaDtoF]

/-- C87. `frame_to_digit` cuts out of the frame of this particle, batch element and time what is at the position of the object. -/
theorem C87_frame_to_digit (fp dp S B T K : Nat) (frames z : Nd ℝ) (hf : frames.shape = [S, B, T, fp, fp]) (hz : z.shape = [S, B, T, K, 2]) :
    ∃ r, frameToDigit fp dp frames z = .ok r ∧ r.shape = [S, B, T, K, dp, dp] ∧ ∀ s b t k, s < S → b < B → t < T → k < K →
      imgAt r [s, b, t, k] dp = warp (thetaFtoD fp dp (z.get [s, b, t, k, 0], z.get [s, b, t, k, 1])) (imgAt frames [s, b, t] fp) := by
  obtain ⟨th, e1, s1, g1⟩ := thetas_ok S B T K ((dp : ℝ) / fp) (((fp : ℝ) - dp) / fp) 1 (by omega) z hz
  have e2 : frames.unsqueeze (-3) = .ok ⟨[S, B, T] ++ 1 :: [fp, fp], frames.data⟩ := by
    unfold unsqueeze
    rw [hf]
    rfl
  obtain ⟨d, e3, s3, g3⟩ := tile_ok (t := ⟨[S, B, T] ++ 1 :: [fp, fp], frames.data⟩) (r := [1, 1, 1, K, 1, 1]) (by simp) (s := [S, B, T, K, fp, fp]) (by simp)
  have e4 := view_eq (t := d) (s := [S * B * T * K, fp, fp]) (by rw [s3]; simp; ring)
  obtain ⟨g, d', f, f', r, e5, e6, e7, e8, e9, sr, gr⟩ := warp_ok [S, B, T, K] (N := S * B * T * K) (m := dp) (n := fp) (th := th) (src := ⟨[S * B * T * K, fp, fp], d.data⟩)
    s1 rfl (by simp; ring)
  refine ⟨r, ?_, sr, fun s b t k hs hb ht hk => ?_⟩
  · unfold frameToDigit
    rw [hz]
    simp only [bind, Except.bind, show ((1 : Nat) : Int) = 1 from rfl] at e1 ⊢
    simp only [e1, e5, e2, e3, e4, e6, e7, e8]
    exact e9
  · have hi := inRange4 hs hb ht hk
    rw [gr _ hi (thetaFtoD fp dp (z.get [s, b, t, k, 0], z.get [s, b, t, k, 1]))]
    · congr 1
      funext i j
      unfold imgAt
      refine (get_mk (t := d) (is := [s, b, t, k] ++ [i.val, j.val]) ?_).trans ?_
      · rw [s3]
        exact ravel_flat (pre := [S, B, T, K]) (is := [s, b, t, k]) rfl _ _ _
      · rw [g3 _ (inRange_append hi (inRange2 i.2 j.2))]
        refine get_mk ?_
        rw [hf]
        simp [ravel, Nat.mod_eq_of_lt hs, Nat.mod_eq_of_lt hb, Nat.mod_eq_of_lt ht, Nat.mod_one, Nat.mod_eq_of_lt i.2, Nat.mod_eq_of_lt j.2]
    all_goals rw [g1 _ hi _ (by omega) _ (by omega)]
    all_goals simp [thetaFtoD]

section
variable {fp dp hd hc zd : Nat} (P : Params fp dp hd hc zd)

/-- C87. `get_conv_kernel` decodes every particle's, batch element's and object's appearance on its own. -/
theorem C87_conv_kernel (S B K : Nat) (w : Nd ℝ) (hw : w.shape = [S, B, K, zd]) :
    ∃ r, convKernel P w = .ok r ∧ r.shape = [S, B, K, dp, dp] ∧ ∀ s b k, s < S → b < B → k < K → imgAt r [s, b, k] dp = digitMean P (vecAt w [s, b, k] zd) := by
  obtain ⟨x1, e1, s1, g1⟩ := layer_ok P.dec1 (t := w) (s := [S, B, K]) hw
  obtain ⟨x2, e2, s2, g2⟩ := layer_ok P.dec2 s1
  obtain ⟨x3, e3, s3, g3⟩ := linear_ok P.dec3 s2
  have hs : (x3.map sigmoid).shape = [S, B, K, dp * dp] := s3
  have e4 := view_eq (t := x3.map sigmoid) (s := [S, B, K, dp, dp]) (by rw [hs]; simp)
  refine ⟨⟨[S, B, K, dp, dp], (x3.map sigmoid).data⟩, ?_, rfl, fun s b k hs' hb hk => ?_⟩
  · unfold convKernel
    simp only [e1, e2, e3, bind, Except.bind]
    rw [hs]
    exact e4
  · have hi : InRange [s, b, k] [S, B, K] := .cons hs' (inRange2 hb hk)
    funext i j
    unfold imgAt
    have hij : i.val * dp + j.val < dp * dp := (finProdFinEquiv (i, j)).2.trans_eq' (by simp [finProdFinEquiv]; ring)
    refine (get_mk (t := x3.map sigmoid) (is := [s, b, k] ++ [(finProdFinEquiv (i, j)).val]) ?_).trans ?_
    · rw [hs]
      simp [ravel, finProdFinEquiv]
      ring
    · rw [get_map, g3 _ hi, g2 _ hi, g1 _ hi]
      rfl

/-- C87. An appearance that the decoder draws has no sample, batch and object dimensions: ValueError. -/
theorem C87_conv_kernel_prior (w : Nd ℝ) (hw : w.shape = [zd]) : convKernel P w = .error .value := by
  obtain ⟨x1, e1, s1, -⟩ := layer_ok P.dec1 (t := w) (s := []) hw
  obtain ⟨x2, e2, s2, -⟩ := layer_ok P.dec2 s1
  obtain ⟨x3, e3, s3, -⟩ := linear_ok P.dec3 s2
  have hs : (x3.map sigmoid).shape = [dp * dp] := s3
  unfold convKernel
  simp only [e1, e2, e3, bind, Except.bind]
  rw [hs]

/-- `F.conv2d` with one group for every particle and batch element, `conv_k` up to the softmax. -/
theorem conv_ok (S B : Nat) (hS : 0 < S) (hB : 0 < B) (left w : Nd ℝ) (hle : dp ≤ fp) (hl : left.shape = [S, B, fp, fp]) (hw : w.shape = [S, B, dp, dp]) :
    ∃ y, conv2d ⟨[1, S * B, fp, fp], left.data⟩ ⟨[S * B, 1, dp, dp], w.data⟩ (S * B) = .ok y ∧ y.shape = [1, S * B, fp - dp + 1, fp - dp + 1] ∧
      ∀ s b, s < S → b < B → ∀ i j : Fin (fp - dp + 1),
        y.get [0, ravel [S, B] [s, b], i.val, j.val] = conv (imgAt left [s, b] fp) (imgAt w [s, b] dp) i j := by
  have hSB : 0 < S * B := Nat.mul_pos hS hB
  refine ⟨_, if_pos ⟨hSB, by simp, Nat.mod_self _, hle, hle⟩, rfl, fun s b hs hb i j => ?_⟩
  have hq : ravel [S, B] [s, b] < S * B := (ravel_lt (inRange2 hs hb)).trans_eq (by simp)
  refine (get_ofFn _ (.cons Nat.one_pos (.cons hq (inRange2 i.2 j.2)))).trans ?_
  simp only [Nat.div_self hSB, Nat.div_one, mul_one, Finset.univ_unique, Fin.default_eq_zero, Finset.sum_singleton, Fin.val_zero, add_zero]
  unfold conv
  refine Finset.sum_congr rfl fun a _ => Finset.sum_congr rfl fun c _ => ?_
  have ha : i.val + a.val < fp := by omega
  have hc : j.val + c.val < fp := by omega
  congr 1
  · unfold pixelAt
    rw [dif_pos (by omega)]
    refine get_mk ?_
    have h1 : ((i.val : ℤ) + (a.val : ℤ)).toNat = i.val + a.val := by omega
    have h2 : ((j.val : ℤ) + (c.val : ℤ)).toNat = j.val + c.val := by omega
    simp only [h1, h2, hl]
    simp [ravel]
    ring
  · refine get_mk ?_
    rw [hw]
    simp [ravel]
    ring

/-- C87. The networks of `Enc_coor` for one object: for every particle and batch element those of its own frame and kernel. -/
theorem C87_coor_nets (S B K : Nat) (hS : 0 < S) (hB : 0 < B) (left ker : Nd ℝ) (hle : dp ≤ fp) (hl : left.shape = [S, B, fp, fp]) (hk : ker.shape = [S, B, K, dp, dp])
    (k : Nat) (hkK : k < K) :
    ∃ ms, coorNets P S B fp dp left ker k = .ok ms ∧ ms.1.shape = [S, B, 2] ∧ ms.2.shape = [S, B, 2] ∧ ∀ s b, s < S → b < B →
      vecAt ms.1 [s, b] 2 = coorMean P (imgAt left [s, b] fp) (imgAt ker [s, b, k] dp) ∧
      vecAt ms.2 [s, b] 2 = coorStd P (imgAt left [s, b] fp) (imgAt ker [s, b, k] dp) := by
  have e1 := view_eq (t := left) (s := [S * B, fp, fp]) (by rw [hl]; simp; ring)
  have e2 := unsqueeze_eq (t := ⟨[S * B, fp, fp], left.data⟩) (pre := []) (rest := [S * B, fp, fp]) rfl (d := 0) rfl
  obtain ⟨w, e3, s3, g3⟩ := select_ok (t := ker) (d := 2) (n := K) (k := k) (by rw [hk]; rfl) hkK
  rw [hk] at s3 g3
  have hw : w.shape = [S, B, dp, dp] := s3
  have e4 := view_eq (t := w) (s := [S * B, dp, dp]) (by rw [hw]; simp; ring)
  have e5 := unsqueeze_eq (t := ⟨[S * B, dp, dp], w.data⟩) (pre := [S * B]) (rest := [dp, dp]) rfl (d := 1) rfl
  obtain ⟨y, e6, s6, g6⟩ := conv_ok S B hS hB left w hle hl hw
  have hCP : y.shape.getLastD 0 = fp - dp + 1 := by rw [s6]; rfl
  have e7 := squeeze_eq (t := y) (pre := []) (rest := [S * B, fp - dp + 1, fp - dp + 1]) s6 (d := 0) rfl
  have e8 := view_eq (t := ⟨[S * B, fp - dp + 1, fp - dp + 1], y.data⟩) (s := [S, B, fp - dp + 1, fp - dp + 1]) (by simp; ring)
  have e9 := view_eq (t := ⟨[S, B, fp - dp + 1, fp - dp + 1], y.data⟩) (s := [S, B, (fp - dp + 1) * (fp - dp + 1)]) (by simp)
  obtain ⟨x, e10, s10, g10⟩ := alongLast_ok (t := ⟨[S, B, (fp - dp + 1) * (fp - dp + 1)], y.data⟩) (s := [S, B]) rfl id fun _ v => softmax v
  obtain ⟨h, e11, s11, g11⟩ := layer_ok P.coor s10
  obtain ⟨m1, e12, s12, g12⟩ := layer_ok P.mean1 s11
  obtain ⟨m2, e13, s13, g13⟩ := linear_ok P.mean2 s12
  obtain ⟨d1, e14, s14, g14⟩ := layer_ok P.std1 s11
  obtain ⟨d2, e15, s15, g15⟩ := linear_ok P.std2 s14
  refine ⟨(m2.map Real.tanh, d2.map Real.exp), ?_, s13, s15, fun s b hs hb => ?_⟩
  · unfold coorNets
    simp only [bind, Except.bind, e1, e2, e3, e4, e5, List.nil_append, List.cons_append]
    simp only [e6, hCP, e7, e8, e9, e10, e11, e12, e13, e14, e15, List.nil_append]
  · have hi := inRange2 hs hb
    have hker : imgAt w [s, b] dp = imgAt ker [s, b, k] dp := by
      funext i j
      exact g3 _ (inRange_append hi (inRange2 i.2 j.2))
    have hh : (fun i : Fin hc => (reluT h).get ([s, b] ++ [i.val])) = coorHidden P (imgAt left [s, b] fp) (imgAt ker [s, b, k] dp) := by
      rw [g11 _ hi]
      unfold coorHidden
      congr 2
      funext q
      rw [g10 _ hi q, ← hker]
      congr 1
      funext q
      unfold flat
      rw [← g6 s b hs hb]
      refine (get_mk (t := y) ?_)
      rw [s6]
      simp only [ravel, List.cons_append, List.nil_append, finProdFinEquiv_symm_apply, Fin.coe_divNat, Fin.coe_modNat, List.prod_cons, List.prod_nil, mul_one]
      have := Nat.div_add_mod q.val (fp - dp + 1)
      ring_nf
      ring_nf at this
      omega
    constructor
    · funext i
      show Real.tanh (m2.get _) = _
      rw [g13 _ hi i, g12 _ hi, hh]
      rfl
    · funext i
      show Real.exp (d2.get _) = _
      rw [g15 _ hi i, g14 _ hi, hh]
      rfl

/-- The positions of object `k` in a tensor of all objects. -/
theorem setRow_ok {S B K : Nat} {t v : Nd ℝ} (ht : t.shape = [S, B, K, 2]) (hv : v.shape = [S, B, 2]) {k : Nat} (hk : k < K) :
    ∃ r, t.setSelect 2 k v = .ok r ∧ r.shape = [S, B, K, 2] ∧ ∀ s b j, s < S → b < B → j < K →
      vecAt r [s, b, j] 2 = if j = k then vecAt v [s, b] 2 else vecAt t [s, b, j] 2 := by
  obtain ⟨r, e, s, g⟩ := setSelect_ok (t := t) (v := v) (d := 2) (n := K) (k := k) (by rw [ht]; rfl) hk (by rw [hv, ht]; rfl) (fun is hi => inRange_eraseIdx hi 2)
  refine ⟨r, e, s.trans ht, fun s b j hs hb hj => ?_⟩
  funext i
  have := g ([s, b, j] ++ [i.val]) (by rw [ht]; exact .cons hs (.cons hb (inRange2 hj i.2)))
  unfold vecAt
  rw [this]
  by_cases h : j = k
  · subst h; simp
  · simp [h]

/-- What remains of the round for one object. -/
theorem coorRest_ok (S B K : Nat) (ker : Nd ℝ) (hk : ker.shape = [S, B, K, dp, dp]) (k : Nat) (hkK : k < K) (st : CoorState) (ms : Nd ℝ × Nd ℝ) (z : Nd ℝ)
    (h1 : st.left.shape = [S, B, fp, fp]) (h2 : st.mean.shape = [S, B, K, 2]) (h3 : st.std.shape = [S, B, K, 2]) (h4 : st.zs.shape = [S, B, K, 2])
    (hm : ms.1.shape = [S, B, 2]) (hs : ms.2.shape = [S, B, 2]) (hz : z.shape = [S, B, 2]) :
    ∃ st', coorRest (fp := fp) (dp := dp) S B fp ker k st ms z = .ok st' ∧
      st'.left.shape = [S, B, fp, fp] ∧ st'.mean.shape = [S, B, K, 2] ∧ st'.std.shape = [S, B, K, 2] ∧ st'.zs.shape = [S, B, K, 2] ∧
      ∀ s b, s < S → b < B →
        (imgAt st'.left [s, b] fp = fun i j => imgAt st.left [s, b] fp i j - paste (imgAt ker [s, b, k] dp) (vecAt z [s, b] 2) i j) ∧
        ∀ j, j < K → vecAt st'.mean [s, b, j] 2 = (if j = k then vecAt ms.1 [s, b] 2 else vecAt st.mean [s, b, j] 2) ∧
          vecAt st'.std [s, b, j] 2 = (if j = k then vecAt ms.2 [s, b] 2 else vecAt st.std [s, b, j] 2) ∧
          vecAt st'.zs [s, b, j] 2 = (if j = k then vecAt z [s, b] 2 else vecAt st.zs [s, b, j] 2) := by
  obtain ⟨m', e1, s1, g1⟩ := setRow_ok h2 hm hkK
  obtain ⟨d', e2, s2, g2⟩ := setRow_ok h3 hs hkK
  obtain ⟨z', e3, s3, g3⟩ := setRow_ok h4 hz hkK
  obtain ⟨w, e4, s4, g4⟩ := select_ok (t := ker) (d := 2) (n := K) (k := k) (by rw [hk]; rfl) hkK
  rw [hk] at s4 g4
  have e5 := unsqueeze_eq (t := w) (pre := [S, B]) (rest := [dp, dp]) s4 (d := 2) rfl
  have e6 := unsqueeze_eq (t := z) (pre := [S, B]) (rest := [2]) hz (d := 2) rfl
  have e7 := unsqueeze_eq (t := ⟨[S, B, 1, 2], z.data⟩) (pre := [S, B]) (rest := [1, 2]) rfl (d := 2) rfl
  obtain ⟨r, e8, s8, g8⟩ := C87_digit_to_frame fp dp S B 1 1 ⟨[S, B, 1, dp, dp], w.data⟩ ⟨[S, B, 1, 1, 2], z.data⟩ rfl rfl
  have e9 := squeeze_eq (t := r) (pre := [S, B]) (rest := [1, fp, fp]) s8 (d := 2) rfl
  have e10 := squeeze_eq (t := ⟨[S, B, 1, fp, fp], r.data⟩) (pre := [S, B]) (rest := [fp, fp]) rfl (d := 2) rfl
  obtain ⟨l, e11, s11, g11⟩ := map₂_same (f := fun a b : ℝ => a - b) (t := st.left) (t' := ⟨[S, B, fp, fp], r.data⟩) h1.symm
  refine ⟨⟨l, m', d', z'⟩, ?_, s11.trans h1, s1, s2, s3, fun s b hs hb => ⟨?_, fun j hj => ⟨g1 s b j hs hb hj, g2 s b j hs hb hj, g3 s b j hs hb hj⟩⟩⟩
  · unfold coorRest
    simp only [bind, Except.bind, e1, e2, e3, e4, e5, e6, List.nil_append, List.cons_append]
    simp only [e7, List.nil_append, List.cons_append]
    simp only [e8, e9, List.nil_append, List.cons_append]
    simp only [e10, List.nil_append, List.cons_append, if_true, e11]
  · have hi := inRange2 hs hb
    funext i j
    have hij := inRange_append hi (inRange2 i.2 j.2)
    show l.get _ = _
    rw [g11 _ (by rw [h1]; exact hij)]
    show imgAt st.left [s, b] fp i j - _ = _
    congr 1
    have h8 := congrFun (congrFun (g8 s b 0 0 hs hb Nat.one_pos Nat.one_pos) i) j
    unfold paste
    have ha : (⟨[S, B, fp, fp], r.data⟩ : Nd ℝ).get ([s, b] ++ [i.val, j.val]) = imgAt r [s, b, 0, 0] fp i j := by
      refine get_mk ?_
      rw [s8]
      simp [ravel]
    have hb' : imgAt ⟨[S, B, 1, dp, dp], w.data⟩ [s, b, 0] dp = imgAt ker [s, b, k] dp := by
      funext a c
      refine (get_mk (t := w) (is := [s, b] ++ [a.val, c.val]) ?_).trans (g4 _ (inRange_append hi (inRange2 a.2 c.2)))
      rw [s4]
      simp [ravel]
    have hc : ∀ c : Fin 2, (⟨[S, B, 1, 1, 2], z.data⟩ : Nd ℝ).get [s, b, 0, 0, c.val] = vecAt z [s, b] 2 c := by
      intro c
      refine get_mk ?_
      rw [hz]
      simp [ravel]
    rw [ha, h8, hb', ← hc 0, ← hc 1]
    rfl

/-- C87. `Enc_coor.model`'s loop over the objects: for every particle and batch element the means and standard deviations are those of the one-particle
networks on its own frame, its own kernels and the positions drawn for it, whatever is drawn for others. `ms k` is what the networks say for object `k`. -/
theorem C87_coor (S B K : Nat) (hS : 0 < S) (hB : 0 < B) (hle : dp ≤ fp) (frame ker : Nd ℝ) (hf : frame.shape = [S, B, fp, fp]) (hk : ker.shape = [S, B, K, dp, dp])
    (draw : Nat → Nd ℝ × Nd ℝ → Nd ℝ) (hdraw : ∀ k ms, ms.1.shape = [S, B, 2] → ms.2.shape = [S, B, 2] → (draw k ms).shape = [S, B, 2]) :
    ∃ (st : CoorState) (ms : Nat → Nd ℝ × Nd ℝ), coorLoop P S B fp dp K ker draw ⟨frame, zeros [S, B, K, 2], zeros [S, B, K, 2], zeros [S, B, K, 2]⟩ = .ok st ∧
      st.mean.shape = [S, B, K, 2] ∧ st.std.shape = [S, B, K, 2] ∧ st.zs.shape = [S, B, K, 2] ∧
      ∀ k, k < K → (ms k).1.shape = [S, B, 2] ∧ (ms k).2.shape = [S, B, 2] ∧ ∀ s b, s < S → b < B →
        let left := frameLeft (imgAt frame [s, b] fp) (fun k : Fin K => imgAt ker [s, b, k] dp) (fun j => vecAt st.zs [s, b, j] 2) k
        vecAt (ms k).1 [s, b] 2 = coorMean P left (imgAt ker [s, b, k] dp) ∧ vecAt (ms k).2 [s, b] 2 = coorStd P left (imgAt ker [s, b, k] dp) ∧
        vecAt st.mean [s, b, k] 2 = vecAt (ms k).1 [s, b] 2 ∧ vecAt st.std [s, b, k] 2 = vecAt (ms k).2 [s, b] 2 ∧
        vecAt st.zs [s, b, k] 2 = vecAt (draw k (ms k)) [s, b] 2 := by
  have key : ∀ n, n ≤ K → ∃ (st : CoorState) (ms : Nat → Nd ℝ × Nd ℝ), (List.range n).foldlM (fun (st : CoorState) (k : Nat) => do
      let ms ← coorNets P S B fp dp st.left ker k
      coorRest (fp := fp) (dp := dp) S B fp ker k st ms (draw k ms))
        ⟨frame, zeros [S, B, K, 2], zeros [S, B, K, 2], zeros [S, B, K, 2]⟩ = .ok st ∧
      st.left.shape = [S, B, fp, fp] ∧ st.mean.shape = [S, B, K, 2] ∧ st.std.shape = [S, B, K, 2] ∧ st.zs.shape = [S, B, K, 2] ∧
      (∀ s b, s < S → b < B → imgAt st.left [s, b] fp =
        frameLeft (imgAt frame [s, b] fp) (fun k : Fin K => imgAt ker [s, b, k] dp) (fun j => vecAt st.zs [s, b, j] 2) n) ∧
      ∀ k, k < n → (ms k).1.shape = [S, B, 2] ∧ (ms k).2.shape = [S, B, 2] ∧ ∀ s b, s < S → b < B →
        let left := frameLeft (imgAt frame [s, b] fp) (fun k : Fin K => imgAt ker [s, b, k] dp) (fun j => vecAt st.zs [s, b, j] 2) k
        vecAt (ms k).1 [s, b] 2 = coorMean P left (imgAt ker [s, b, k] dp) ∧ vecAt (ms k).2 [s, b] 2 = coorStd P left (imgAt ker [s, b, k] dp) ∧
        vecAt st.mean [s, b, k] 2 = vecAt (ms k).1 [s, b] 2 ∧ vecAt st.std [s, b, k] 2 = vecAt (ms k).2 [s, b] 2 ∧
        vecAt st.zs [s, b, k] 2 = vecAt (draw k (ms k)) [s, b] 2 := by
    intro n
    induction n with
    | zero =>
      intro _
      exact ⟨_, fun _ => (frame, frame), rfl, hf, rfl, rfl, rfl, fun s b _ _ => rfl, fun k hk => absurd hk (Nat.not_lt_zero k)⟩
    | succ n ih =>
      intro hn
      obtain ⟨st, ms, e1, a1, a2, a3, a4, a5, a6⟩ := ih (by omega)
      obtain ⟨m, e2, b1, b2, b3⟩ := C87_coor_nets P S B K hS hB st.left ker hle a1 hk n hn
      obtain ⟨st', e3, c1, c2, c3, c4, c5⟩ := coorRest_ok S B K ker hk n hn st m (draw n m) a1 a2 a3 a4 b1 b2 (hdraw n m b1 b2)
      have hold : ∀ s b, s < S → b < B → ∀ j, j < n → vecAt st.zs [s, b, j] 2 = vecAt st'.zs [s, b, j] 2 := by
        intro s b hs hb j hj
        rw [((c5 s b hs hb).2 j (by omega)).2.2, if_neg (by omega)]
      have hleft : ∀ s b, s < S → b < B → ∀ k, k ≤ n →
          frameLeft (imgAt frame [s, b] fp) (fun k : Fin K => imgAt ker [s, b, k] dp) (fun j => vecAt st.zs [s, b, j] 2) k =
          frameLeft (imgAt frame [s, b] fp) (fun k : Fin K => imgAt ker [s, b, k] dp) (fun j => vecAt st'.zs [s, b, j] 2) k :=
        fun s b hs hb k hk => frameLeft_congr _ _ fun j hj => hold s b hs hb j (by omega)
      refine ⟨st', fun k => if k = n then m else ms k, ?_, c1, c2, c3, c4, fun s b hs hb => ?_, fun k hkn => ?_⟩
      · rw [List.range_succ, List.foldlM_append, e1]
        simp only [bind, Except.bind, List.foldlM_cons, List.foldlM_nil, e2, e3]
        rfl
      · have h1 := (c5 s b hs hb).1
        have h2 := ((c5 s b hs hb).2 n hn).2.2
        rw [if_pos rfl] at h2
        rw [h1, a5 s b hs hb, hleft s b hs hb n le_rfl]
        funext i j
        show _ = _ - if h : n < K then _ else _
        rw [dif_pos (show n < K from hn)]
        simp only [h2]
      · by_cases hkn' : k = n
        · subst hkn'
          simp only [if_true]
          refine ⟨b1, b2, fun s b hs hb => ?_⟩
          obtain ⟨d1, d2⟩ := b3 s b hs hb
          obtain ⟨f1, f2, f3⟩ := (c5 s b hs hb).2 k hn
          rw [if_pos rfl] at f1 f2 f3
          rw [a5 s b hs hb, hleft s b hs hb k le_rfl] at d1 d2
          exact ⟨d1, d2, f1, f2, f3⟩
        · simp only [if_neg hkn']
          obtain ⟨d1, d2, d3⟩ := a6 k (by omega)
          refine ⟨d1, d2, fun s b hs hb => ?_⟩
          obtain ⟨f1, f2, f3⟩ := (c5 s b hs hb).2 k (by omega)
          rw [if_neg hkn'] at f1 f2 f3
          have := d3 s b hs hb
          rw [hleft s b hs hb k (by omega)] at this
          rw [f1, f2, f3]
          exact this
  obtain ⟨st, ms, e1, -, a2, a3, a4, -, a6⟩ := key K le_rfl
  exact ⟨st, ms, e1, a2, a3, a4, a6⟩

section
variable {K T : Nat}

/-- One particle's and batch element's part of the frames, of the appearance, of the positions of all objects. -/
def videoLane (frames : Nd ℝ) (s b : Nat) : Val K zd T fp := mkVideo fun t => imgAt frames [s, b, t] fp
def whatLane (w : Nd ℝ) (s b : Nat) : Val K zd T fp := mkWhat fun k => vecAt w [s, b, k] zd
def posLane (z : Nd ℝ) (s b : Nat) : Val K zd T fp := mkPos fun k => vecAt z [s, b, k] 2
/-- The positions of the objects in a tensor of all, as a list. -/
def oneLanes (z : Nd ℝ) (s b n : Nat) : List (Val K zd T fp) := (List.range n).map fun k => mkOne (vecAt z [s, b, k] 2)

/-- C87. `Enc_coor`: for every particle and batch element, the mean and standard deviation of each object's position are those of the one-particle
model's distribution for its own frame and kernels and the positions drawn for the objects before; and so is the variable of all objects together. The
draw for an object only gets to see the means and standard deviations of this object. -/
theorem C87_enc_coor (meanShape frames : Nd ℝ) (S B : Nat) (hS : 0 < S) (hB : 0 < B) (hle : dp ≤ fp) (hf : frames.shape = [S, B, T, fp, fp])
    (hmean : meanShape.shape = [dp, dp]) (what : Option (Nd ℝ)) (hw : ∀ w, what = some w → w.shape = [S, B, K, zd]) (t : Int) (ht : -T ≤ t ∧ t < T)
    (reparam : Bool) (draw : Nat → Nd ℝ × Nd ℝ → Nd ℝ) (hdraw : ∀ k ms, ms.1.shape = [S, B, 2] → ms.2.shape = [S, B, 2] → (draw k ms).shape = [S, B, 2]) :
    ∃ (st : CoorState) (ms : Nat → Nd ℝ × Nd ℝ), coorT P K meanShape frames t what draw = .ok st ∧
      st.mean.shape = [S, B, K, 2] ∧ st.std.shape = [S, B, K, 2] ∧ st.zs.shape = [S, B, K, 2] ∧
      (∀ k, k < K → (ms k).1.shape = [S, B, 2] ∧ (ms k).2.shape = [S, B, 2]) ∧
      ∀ s b, s < S → b < B →
        let N := net P (imgAt meanShape [] dp) K T reparam
        (∀ k, k < K → N.coorStep (videoLane frames s b) t (what.map (whatLane · s b)) (oneLanes st.zs s b k) = .one (vecAt (ms k).1 [s, b] 2) (vecAt (ms k).2 [s, b] 2) ∧
          vecAt st.zs [s, b, k] 2 = vecAt (draw k (ms k)) [s, b] 2) ∧
        N.coorDist (videoLane frames s b) t (what.map (whatLane · s b)) (oneLanes st.zs s b K) =
          .pos (fun k => vecAt st.mean [s, b, k] 2) (fun k => vecAt st.std [s, b, k] 2) := by
  obtain ⟨t', ht'⟩ : ∃ t' : Nat, pyIx T t = .ok t' ∧ t' < T ∧ ∀ f : Video T fp, frameAt f t = fun i j => if h : t' < T then f ⟨t', h⟩ i j else 0 := by
    by_cases h0 : 0 ≤ t
    · refine ⟨t.toNat, ?_, by omega, fun f => ?_⟩
      · unfold pyIx
        rw [if_neg (by omega), if_neg (by omega)]
      · unfold frameAt
        rw [dif_pos ⟨h0, ht.2⟩]
        funext i j
        rw [dif_pos (by omega)]
    · refine ⟨(T + t).toNat, ?_, by omega, fun f => ?_⟩
      · unfold pyIx
        rw [if_neg (by omega), if_pos (by omega), add_comm]
      · unfold frameAt
        rw [dif_neg (by omega), dif_pos ⟨by omega, by omega⟩]
        funext i j
        rw [dif_pos (by omega)]
  obtain ⟨ht1, ht2, ht3⟩ := ht'
  obtain ⟨left, e1, s1, g1⟩ := select_int (t := frames) (d := 2) (n := T) (by rw [hf]; rfl) ht1
  rw [hf] at s1 g1
  obtain ⟨ker, e2, s2, g2⟩ : ∃ ker, coorKernel P S B K meanShape what = .ok ker ∧ ker.shape = [S, B, K, dp, dp] ∧ ∀ s b, s < S → b < B → ∀ k : Fin K,
      imgAt ker [s, b, k] dp = kernels P (imgAt meanShape [] dp) (what.map (whatLane (K := K) (zd := zd) (T := T) (fp := fp) · s b)) k := by
    cases what with
    | none =>
      obtain ⟨q, e, h1, h2⟩ := tile_ok (t := meanShape) (r := [S, B, K, 1, 1]) (by rw [hmean]; simp) (s := [S, B, K, dp, dp]) (by rw [hmean]; simp)
      refine ⟨q, e, h1, fun s b hs hb k => ?_⟩
      funext i j
      refine (h2 _ (.cons hs (.cons hb (.cons k.2 (inRange2 i.2 j.2))))).trans ?_
      rw [hmean]
      simp [kernels, imgAt, Nat.mod_eq_of_lt i.2, Nat.mod_eq_of_lt j.2]
    | some w =>
      obtain ⟨q, e, h1, h2⟩ := C87_conv_kernel P S B K w (hw w rfl)
      exact ⟨q, e, h1, fun s b hs hb k => h2 s b k hs hb k.2⟩
  obtain ⟨st, ms, e3, h1, h2, h3, h4⟩ := C87_coor P S B K hS hB hle left ker s1 s2 draw hdraw
  refine ⟨st, ms, ?_, h1, h2, h3, fun k hk => ⟨(h4 k hk).1, (h4 k hk).2.1⟩, fun s b hs hb => ?_⟩
  · unfold coorT
    rw [hf]
    simp only [bind, Except.bind, e2]
    rw [s2]
    simp only [coorInit, e1, bind, Except.bind]
    exact e3
  · have hframe : imgAt left [s, b] fp = frameAt (toVideo (videoLane (K := K) (zd := zd) (T := T) frames s b)) t := by
      rw [ht3]
      funext i j
      rw [dif_pos ht2]
      exact g1 _ (inRange_append (inRange2 hs hb) (inRange2 i.2 j.2))
    have hker : (fun k : Fin K => imgAt ker [s, b, k] dp) = kernels P (imgAt meanShape [] dp) (what.map (whatLane (K := K) (zd := zd) (T := T) (fp := fp) · s b)) :=
      funext fun k => g2 s b hs hb k
    have hz : ∀ n j, j < n → zAt (oneLanes (K := K) (zd := zd) (T := T) (fp := fp) st.zs s b n) j = vecAt st.zs [s, b, j] 2 := by
      intro n j hj
      unfold zAt oneLanes
      rw [List.getElem?_map, List.getElem?_range hj]
      rfl
    have hlen : ∀ n, (oneLanes (K := K) (zd := zd) (T := T) (fp := fp) st.zs s b n).length = n := fun n => by simp [oneLanes]
    have hleft : ∀ k n, k ≤ n → frameLeft (imgAt left [s, b] fp) (fun k : Fin K => imgAt ker [s, b, k] dp) (fun j => vecAt st.zs [s, b, j] 2) k =
        frameLeft (frameAt (toVideo (videoLane (K := K) (zd := zd) (T := T) frames s b)) t)
          (kernels P (imgAt meanShape [] dp) (what.map (whatLane (K := K) (zd := zd) (T := T) (fp := fp) · s b)))
          (zAt (oneLanes (K := K) (zd := zd) (T := T) (fp := fp) st.zs s b n)) k := by
      intro k n hkn
      rw [hframe, hker]
      exact frameLeft_congr _ _ fun j hj => (hz n j (by omega)).symm
    refine ⟨fun k hk => ⟨?_, ((h4 k hk).2.2 s b hs hb).2.2.2.2⟩, ?_⟩
    · obtain ⟨a1, a2, -⟩ := (h4 k hk).2.2 s b hs hb
      rw [hleft k k le_rfl, g2 s b hs hb ⟨k, hk⟩] at a1 a2
      rw [a1, a2]
      show (if h : _ < K then _ else _) = _
      simp only [hlen]
      rw [dif_pos hk]
    · show Dist.pos _ _ = Dist.pos _ _
      congr 1
      · funext k
        obtain ⟨a1, a2, a3, a4, -⟩ := (h4 k k.2).2.2 s b hs hb
        rw [hleft k K k.2.le, g2 s b hs hb k] at a1
        rw [a3, a1]
      · funext k
        obtain ⟨a1, a2, a3, a4, -⟩ := (h4 k k.2).2.2 s b hs hb
        rw [hleft k K k.2.le, g2 s b hs hb k] at a2
        rw [a4, a2]

/-- C87. Frames of another size than the networks are built for never give a distribution: RuntimeError. -/
theorem C87_frame_size (meanShape frames : Nd ℝ) (S B FP : Nat) (hS : 0 < S) (hB : 0 < B) (hK : 0 < K) (hle : dp ≤ fp) (hFP : FP ≠ fp) (hf : frames.shape = [S, B, T, FP, FP])
    (hmean : meanShape.shape = [dp, dp]) (what : Option (Nd ℝ)) (hw : ∀ w, what = some w → w.shape = [S, B, K, zd]) (t : Int) (ht : -T ≤ t ∧ t < T)
    (draw : Nat → Nd ℝ × Nd ℝ → Nd ℝ) : coorT P K meanShape frames t what draw = .error .runtime := by
  obtain ⟨t', ht1⟩ : ∃ t' : Nat, pyIx T t = .ok t' := by
    by_cases h0 : 0 ≤ t
    · refine ⟨t.toNat, ?_⟩
      unfold pyIx
      rw [if_neg (by omega), if_neg (by omega)]
    · refine ⟨(T + t).toNat, ?_⟩
      unfold pyIx
      rw [if_neg (by omega), if_pos (by omega), add_comm]
  obtain ⟨left, e1, s1, -⟩ := select_int (t := frames) (d := 2) (n := T) (by rw [hf]; rfl) ht1
  rw [hf] at s1
  have hl : left.shape = [S, B, FP, FP] := s1
  obtain ⟨ker, e2, s2⟩ : ∃ ker, coorKernel P S B K meanShape what = .ok ker ∧ ker.shape = [S, B, K, dp, dp] := by
    cases what with
    | none =>
      obtain ⟨q, e, h1, -⟩ := tile_ok (t := meanShape) (r := [S, B, K, 1, 1]) (by rw [hmean]; simp) (s := [S, B, K, dp, dp]) (by rw [hmean]; simp)
      exact ⟨q, e, h1⟩
    | some w =>
      obtain ⟨q, e, h1, -⟩ := C87_conv_kernel P S B K w (hw w rfl)
      exact ⟨q, e, h1⟩
  have key : coorNets P S B FP dp left ker (0 : Nat) = .error .runtime := by
    have e1 := view_eq (t := left) (s := [S * B, FP, FP]) (by rw [hl]; simp; ring)
    have e2 := unsqueeze_eq (t := ⟨[S * B, FP, FP], left.data⟩) (pre := []) (rest := [S * B, FP, FP]) rfl (d := 0) rfl
    obtain ⟨w, e3, s3, -⟩ := select_ok (t := ker) (d := 2) (n := K) (k := 0) (by rw [s2]; rfl) hK
    rw [s2] at s3
    have hw : w.shape = [S, B, dp, dp] := s3
    have e4 := view_eq (t := w) (s := [S * B, dp, dp]) (by rw [hw]; simp; ring)
    have e5 := unsqueeze_eq (t := ⟨[S * B, dp, dp], w.data⟩) (pre := [S * B]) (rest := [dp, dp]) rfl (d := 1) rfl
    unfold coorNets
    by_cases hd : dp ≤ FP
    · obtain ⟨y, e6, s6, -⟩ := conv_ok S B hS hB left w hd hl hw
      have hCP : y.shape.getLastD 0 = FP - dp + 1 := by rw [s6]; rfl
      have e7 := squeeze_eq (t := y) (pre := []) (rest := [S * B, FP - dp + 1, FP - dp + 1]) s6 (d := 0) rfl
      have e8 := view_eq (t := ⟨[S * B, FP - dp + 1, FP - dp + 1], y.data⟩) (s := [S, B, FP - dp + 1, FP - dp + 1]) (by simp; ring)
      have e9 := view_eq (t := ⟨[S, B, FP - dp + 1, FP - dp + 1], y.data⟩) (s := [S, B, (FP - dp + 1) * (FP - dp + 1)]) (by simp)
      obtain ⟨x, e10, s10, -⟩ := alongLast_ok (t := ⟨[S, B, (FP - dp + 1) * (FP - dp + 1)], y.data⟩) (s := [S, B]) rfl id fun _ v => softmax v
      have e11 : linear P.coor x = .error .runtime := by
        refine linear_error _ ?_
        rw [s10]
        intro h
        have h' : (FP - dp + 1) * (FP - dp + 1) = (fp - dp + 1) * (fp - dp + 1) := Option.some.inj h
        have := Nat.mul_self_inj.1 h'
        omega
      simp only [bind, Except.bind, e1, e2, e3, e4, e5, List.nil_append, List.cons_append]
      simp only [e6, hCP, e7, e8, e9, e10, e11, List.nil_append]
    · have e6 : conv2d ⟨[1, S * B, FP, FP], left.data⟩ ⟨[S * B, 1, dp, dp], w.data⟩ (S * B) = .error .runtime :=
        if_neg fun h => hd h.2.2.2.1
      simp only [bind, Except.bind, e1, e2, e3, e4, e5, List.nil_append, List.cons_append]
      simp only [e6]
  unfold coorT
  rw [hf]
  simp only [bind, Except.bind, e2]
  rw [s2]
  simp only [coorInit, e1, bind, Except.bind]
  unfold coorLoop
  obtain ⟨K, rfl⟩ := Nat.exists_eq_succ_of_ne_zero hK.ne'
  rw [List.range_succ_eq_map]
  simp only [List.foldlM_cons, key, bind, Except.bind]

/-- The positions at all times in one tensor. -/
theorem timeStack_ok (S B : Nat) (zs : Nat → Nd ℝ) (hz : ∀ t, t < T → (zs t).shape = [S, B, K, 2]) :
    ∃ r, timeStack [S, B, T] [K, 2] zs = .ok r ∧ r.shape = [S, B, T, K, 2] ∧ ∀ s b t k c, s < S → b < B → t < T → k < K → c < 2 →
      r.get [s, b, t, k, c] = (zs t).get [s, b, k, c] := by
  have key : ∀ n, n ≤ T → ∃ r, (List.range n).foldlM (fun (acc : Nd ℝ) (t : Nat) => acc.setSelect 2 t (zs t)) (zeros [S, B, T, K, 2]) = .ok r ∧
      r.shape = [S, B, T, K, 2] ∧ ∀ s b t k c, s < S → b < B → t < n → k < K → c < 2 → r.get [s, b, t, k, c] = (zs t).get [s, b, k, c] := by
    intro n
    induction n with
    | zero => exact fun _ => ⟨_, rfl, rfl, fun s b t k c _ _ h => absurd h (Nat.not_lt_zero t)⟩
    | succ n ih =>
      intro hn
      obtain ⟨r, e, h1, h2⟩ := ih (by omega)
      obtain ⟨r', e', h1', h2'⟩ := setSelect_ok (t := r) (v := zs n) (d := 2) (n := T) (k := n) (by rw [h1]; rfl) hn (by rw [hz n hn, h1]; rfl)
        (fun is hi => inRange_eraseIdx hi 2)
      refine ⟨r', ?_, h1'.trans h1, fun s b t k c hs hb ht hk hc => ?_⟩
      · rw [List.range_succ, List.foldlM_append, e]
        simp only [bind, Except.bind, List.foldlM_cons, List.foldlM_nil, e']
        rfl
      · rw [h2' _ (by rw [h1]; exact .cons hs (.cons hb (.cons (by omega) (inRange2 hk hc))))]
        by_cases htn : t = n
        · subst htn; simp
        · simp only [List.getElem?_cons_succ, List.getElem?_cons_zero, Option.some.injEq, htn, if_false]
          exact h2 s b t k c hs hb (by omega) hk hc
  exact key T le_rfl

/-- C87. `Enc_digit`: for every particle and batch element the distribution of its appearance is that of the one-particle model for its own frames and
positions. -/
theorem C87_enc_digit (meanShape : Img dp) (reparam : Bool) (frames : Nd ℝ) (S B : Nat) (hT : 0 < T) (hf : frames.shape = [S, B, T, fp, fp]) (zs : Nat → Nd ℝ)
    (hz : ∀ t, t < T → (zs t).shape = [S, B, K, 2]) :
    ∃ m d, encDigit P frames zs = .ok (m, d) ∧ m.shape = [S, B, K, zd] ∧ d.shape = [S, B, K, zd] ∧ ∀ s b, s < S → b < B →
      (net P meanShape K T reparam).digitDist (videoLane frames s b) ((List.range T).map fun t => posLane (zs t) s b) =
        .what (fun k => vecAt m [s, b, k] zd) (fun k => vecAt d [s, b, k] zd) := by
  obtain ⟨zw, e1, s1, g1⟩ := timeStack_ok (T := T) (K := K) S B zs hz
  obtain ⟨x, e2, s2, g2⟩ := C87_frame_to_digit fp dp S B T K frames zw hf s1
  have e3 : x.flattenLast2 = .ok ⟨[S, B, T, K] ++ [dp * dp], x.data⟩ := by
    unfold flattenLast2
    rw [s2]
    rfl
  obtain ⟨h1, e4, s4, g4⟩ := layer_ok P.digit1 (t := ⟨[S, B, T, K] ++ [dp * dp], x.data⟩) (s := [S, B, T, K]) rfl
  obtain ⟨h2, e5, s5, g5⟩ := layer_ok P.digit2 s4
  obtain ⟨h, e6, s6, g6⟩ := reduce_ok (t := reluT h2) (d := 2) (d' := 2) (n := T) (by rw [s5]; rfl) (by rw [s5]; rfl) fun n v => (∑ i, v i) / n
  rw [s5] at s6 g6
  have s6' : h.shape = [S, B, K] ++ [hd / 2] := s6
  obtain ⟨m, e7, s7, g7⟩ := linear_ok P.whatMean s6'
  obtain ⟨d, e8, s8, g8⟩ := linear_ok P.whatStd s6'
  refine ⟨m, d.map Real.exp, ?_, s7, s8, fun s b hs hb => ?_⟩
  · unfold encDigit
    rw [hf, hz 0 hT]
    simp only [bind, Except.bind]
    rw [show List.take 3 [S, B, T, fp, fp] = [S, B, T] from rfl,
      show List.drop (([S, B, K, 2] : List Nat).length - 2) [S, B, K, 2] = [K, 2] from rfl, e1]
    simp only [e2, e3]
    simp only [e4, e5, e6, e7, e8]
  · have hpos : ∀ k : Fin K, ∀ t : Fin T, posAt (K := K) (zd := zd) (T := T) (fp := fp) ((List.range T).map fun t => posLane (zs t) s b) k t = vecAt (zs t) [s, b, k] 2 := by
      intro k t
      unfold posAt
      rw [List.getElem?_map, List.getElem?_range t.2]
      rfl
    have hh : ∀ k : Fin K, (fun i : Fin (hd / 2) => h.get ([s, b, k.val] ++ [i.val])) =
        digitHidden P (toVideo (videoLane (K := K) (zd := zd) (T := T) frames s b)) (posAt (K := K) (zd := zd) (T := T) (fp := fp) ((List.range T).map fun t => posLane (zs t) s b) k) := by
      intro k
      funext i
      rw [g6 ([s, b, k.val] ++ [i.val]) (.cons hs (.cons hb (inRange2 k.2 i.2)))]
      unfold digitHidden
      congr 1
      refine Finset.sum_congr rfl fun t _ => ?_
      have hi := inRange4 hs hb t.2 k.2
      have := congrFun (g5 _ hi) i
      refine Eq.trans ?_ (this.trans ?_)
      · rfl
      rw [g4 _ hi]
      congr 5
      funext q
      unfold flat
      have h3 := congrFun (congrFun (g2 s b t k hs hb t.2 k.2) (finProdFinEquiv.symm q).1) (finProdFinEquiv.symm q).2
      rw [hpos]
      refine Eq.trans ?_ (h3.trans ?_)
      · unfold imgAt
        refine get_mk ?_
        rw [s2]
        simp only [ravel, List.cons_append, List.nil_append, finProdFinEquiv_symm_apply, Fin.coe_divNat, Fin.coe_modNat, List.prod_cons, List.prod_nil, mul_one]
        have := Nat.div_add_mod q.val dp
        ring_nf
        ring_nf at this
        omega
      · rw [g1 s b t k 0 hs hb t.2 k.2 (by omega), g1 s b t k 1 hs hb t.2 k.2 (by omega)]
        rfl
    show Dist.what _ _ = Dist.what _ _
    congr 1
    · funext k i
      show _ = m.get _
      rw [g7 [s, b, k.val] (.cons hs (inRange2 hb k.2)) i, hh k]
    · funext k i
      show _ = Real.exp (d.get _)
      rw [g8 [s, b, k.val] (.cons hs (inRange2 hb k.2)) i, hh k]

/-- C87. `DecoderFull`: for every particle and batch element the probabilities of its pixels are those of the one-particle model for its own positions and
appearance. -/
theorem C87_decoder (meanShape : Img dp) (reparam : Bool) (frames w : Nd ℝ) (S B : Nat) (hf : frames.shape = [S, B, T, fp, fp]) (hw : w.shape = [S, B, K, zd]) (zs : Nat → Nd ℝ)
    (hz : ∀ t, t < T → (zs t).shape = [S, B, K, 2]) :
    ∃ r, reconT P K frames w zs = .ok r ∧ r.shape = [S, B, T, fp, fp] ∧ ∀ s b, s < S → b < B →
      (net P meanShape K T reparam).recon ((List.range T).map fun t => posLane (zs t) s b) (whatLane w s b) = .video fun t => imgAt r [s, b, t] fp := by
  obtain ⟨zw, e1, s1, g1⟩ := timeStack_ok (T := T) (K := K) S B zs hz
  obtain ⟨ker, e2, s2, g2⟩ := C87_conv_kernel P S B K w hw
  obtain ⟨x, e3, s3, g3⟩ := C87_digit_to_frame fp dp S B T K ker zw s2 s1
  obtain ⟨h, e4, s4, g4⟩ := reduce_ok (t := x) (d := -3) (d' := 3) (n := K) (by rw [s3]; rfl) (by rw [s3]; rfl) fun n v => ∑ i, v i
  rw [s3] at s4 g4
  refine ⟨(h.map fun x => max 0 (min x 1)).map fun x => x + 1 / 10 ^ 9, ?_, s4, fun s b hs hb => ?_⟩
  · unfold reconT
    rw [hf]
    simp only [bind, Except.bind]
    rw [show List.take 3 [S, B, T, fp, fp] = [S, B, T] from rfl, e1]
    simp only [e2, e3, e4]
  · show Dist.video _ = Dist.video _
    congr 1
    funext t i j
    show _ = max 0 (min (h.get _) 1) + 1 / 10 ^ 9
    rw [g4 ([s, b, t.val] ++ [i.val, j.val]) (.cons hs (.cons hb (.cons t.2 (inRange2 i.2 j.2))))]
    unfold reconProbs
    congr 3
    refine Finset.sum_congr rfl fun k _ => ?_
    have h3 := congrFun (congrFun (g3 s b t k hs hb t.2 k.2) i) j
    refine Eq.trans ?_ h3.symm
    unfold paste
    have hpos : posAt (K := K) (zd := zd) (T := T) (fp := fp) ((List.range T).map fun t => posLane (zs t) s b) k t = vecAt (zs t) [s, b, k] 2 := by
      unfold posAt
      rw [List.getElem?_map, List.getElem?_range t.2]
      rfl
    simp only [hpos]
    rw [g1 s b t k 0 hs hb t.2 k.2 (by omega), g1 s b t k 1 hs hb t.2 k.2 (by omega), g2 s b k hs hb k.2]
    rfl

/-- Two particles, three batch elements with different frames, two frames of 4 by 4 pixels, five objects with different positions. -/
example (P : Params 4 2 6 6 3) (ms : Img 2) :
    let frames : Nd ℝ := ofFn [2, 3, 2, 4, 4] fun is => (ravel [2, 3, 2, 4, 4] is : ℝ) / 192
    let zs : Nat → Nd ℝ := fun t => ofFn [2, 3, 5, 2] fun is => (ravel [2, 3, 5, 2] is : ℝ) / 60 - t
    ∃ m d, encDigit P frames zs = .ok (m, d) ∧ m.shape = [2, 3, 5, 3] ∧
      (net P ms 5 2 false).digitDist (videoLane frames 1 2) ((List.range 2).map fun t => posLane (zs t) 1 2) =
        .what (fun k => vecAt m [1, 2, k] 3) (fun k => vecAt d [1, 2, k] 3) := by
  obtain ⟨m, d, e, h1, -, h2⟩ := C87_enc_digit P (K := 5) (T := 2) ms false (ofFn [2, 3, 2, 4, 4] fun is => (ravel [2, 3, 2, 4, 4] is : ℝ) / 192) 2 3 (by norm_num) rfl
    (fun t => ofFn [2, 3, 5, 2] fun is => (ravel [2, 3, 5, 2] is : ℝ) / 60 - t) fun _ _ => rfl
  exact ⟨m, d, e, h1, h2 1 2 (by norm_num) (by norm_num)⟩

end

end

end Nd
end Verif
