import Verif.Model.ApgNets
import Verif.Model.Tensor
/-
experiments/apgs/affine_transformer.py and the layers of experiments/apgs/models.py, on tensors with all their dimensions.
-/
namespace Verif
namespace Nd
open Bouncing

/-! ### torch -/

/-- `nn.Linear` on the last dimension. -/
noncomputable def linear {a b : Nat} (l : Linear a b) (t : Nd ℝ) : Except Err (Nd ℝ) :=
  if t.shape.getLast? = some a then
    t.along (-1) (fun _ => b) fun n v i => if h : a = n then l.app (fun j => v (j.cast h)) i else 0
  else .error .runtime

/-- `nn.ReLU` -/
noncomputable def reluT (t : Nd ℝ) : Nd ℝ := t.map fun x => max x 0

/-- `affine_grid(theta, (N, 1, m, m), align_corners=True)` for `theta` of shape (N, 2, 3): element (n, i, j, c) is coordinate c of the affine image of
pixel (i, j). RuntimeError for other shapes (torch, assumed). -/
noncomputable def affineGrid (theta : Nd ℝ) (N m : Nat) : Except Err (Nd ℝ) :=
  if theta.shape = [N, 2, 3] then
    .ok (ofFn [N, m, m, 2] fun is =>
      match is with
      | [n, i, j, c] =>
        let at_ : Nat → ℝ := fun i => if h : i < m then pixelCoord m ⟨i, h⟩ else 0
        theta.get [n, c, 0] * at_ j + theta.get [n, c, 1] * at_ i + theta.get [n, c, 2]
      | _ => 0)
  else .error .runtime

/-- `grid_sample(input, grid, mode="nearest", align_corners=True)` for square images: input (N, C, k, k), grid (N, m, m, 2), padding with zeros (torch,
assumed). -/
noncomputable def gridSample (input grid : Nd ℝ) : Except Err (Nd ℝ) :=
  match input.shape, grid.shape with
  | [N, C, k, k'], [N', m, m', 2] =>
    if N = N' ∧ k = k' then
      .ok (ofFn [N, C, m, m'] fun is =>
        match is with
        | [n, c, i, j] => pixelAt (fun (a b : Fin k) => input.get [n, c, a, b]) (pixelIndex k (grid.get [n, i, j, 1])) (pixelIndex k (grid.get [n, i, j, 0]))
        | _ => 0)
    else .error .runtime
  | _, _ => .error .runtime

/-- `F.conv2d(input, weight, groups=g)` without padding: input (N, C, H, W), weight (O, C / g, h, w); output channel o belongs to group o / (O / g)
(torch, assumed). -/
noncomputable def conv2d (input weight : Nd ℝ) (g : Nat) : Except Err (Nd ℝ) :=
  match input.shape, weight.shape with
  | [N, C, H, W], [O, Cg, h, w] =>
    if 0 < g ∧ C = g * Cg ∧ O % g = 0 ∧ h ≤ H ∧ w ≤ W then
      .ok (ofFn [N, O, H - h + 1, W - w + 1] fun is =>
        match is with
        | [n, o, i, j] => ∑ c : Fin Cg, ∑ a : Fin h, ∑ b : Fin w,
            input.get [n, o / (O / g) * Cg + c, i + a, j + b] * weight.get [o, c, a, b]
        | _ => 0)
    else .error .runtime
  | _, _ => .error .runtime

/-! ### Affine_Transformer -/

/-- A 2 by 2 diagonal matrix (experiments/apgs/affine_transformer.py:54-69). -/
noncomputable def diag2 (x : ℝ) : Nd ℝ := ofFn [2, 2] fun is => if is = [0, 0] ∨ is = [1, 1] then x else 0

/-- The affine matrices: `scale` repeated, next to the positions times `translation`, one of their coordinates (`flip`) with its sign changed
(experiments/apgs/affine_transformer.py:77-85,106-114). -/
noncomputable def thetas (S B T K : Nat) (scale translation : ℝ) (flip : Int) (zWhere : Nd ℝ) : Except Err (Nd ℝ) := do
  let p1 ← (diag2 scale).tile [S, B, T, K, 1, 1]
  let p2 ← zWhere.unsqueeze (-1)
  let p2 := p2.map fun x => x * translation
  let x ← p2.select 4 flip
  let p2 ← p2.setSelect 4 flip (x.map fun x => -1 * x)
  let p ← catLast p1 p2
  p.view [S * B * T * K, 2, 3]

/-- `digit_to_frame(digit, z_where)` (experiments/apgs/affine_transformer.py:71-98). -/
noncomputable def digitToFrame (fp dp : Nat) (digit zWhere : Nd ℝ) : Except Err (Nd ℝ) :=
  match zWhere.shape with
  | [S, B, T, K, _] => do
    let th ← thetas S B T K ((fp : ℝ) / dp) (((fp : ℝ) - dp) / dp) 0 zWhere
    let grid ← affineGrid th (S * B * T * K) fp
    let d ← digit.unsqueeze 2
    let d ← d.tile [1, 1, T, 1, 1, 1]
    let d ← d.view [S * B * T * K, dp, dp]
    let d ← d.unsqueeze 1
    let f ← gridSample d grid
    let f ← f.squeeze 1
    f.view [S, B, T, K, fp, fp]
  | _ => .error .value

/-- `frame_to_digit(frames, z_where)` (experiments/apgs/affine_transformer.py:100-127). -/
noncomputable def frameToDigit (fp dp : Nat) (frames zWhere : Nd ℝ) : Except Err (Nd ℝ) :=
  match zWhere.shape with
  | [S, B, T, K, _] => do
    let th ← thetas S B T K ((dp : ℝ) / fp) (((fp : ℝ) - dp) / fp) 1 zWhere
    let grid ← affineGrid th (S * B * T * K) dp
    let f ← frames.unsqueeze (-3)
    let f ← f.tile [1, 1, 1, K, 1, 1]
    let f ← f.view [S * B * T * K, fp, fp]
    let f ← f.unsqueeze 1
    let d ← gridSample f grid
    let d ← d.squeeze 1
    d.view [S, B, T, K, dp, dp]
  | _ => .error .value

/-! ### The programs -/

variable {fp dp hd hc zd : Nat}

/-- `get_conv_kernel(z_what_value)` (experiments/apgs/models.py:287-293). `int(math.sqrt(DP2))` is `dp`, the last layer having `dp * dp` outputs. -/
noncomputable def convKernel (P : Params fp dp hd hc zd) (zWhat : Nd ℝ) : Except Err (Nd ℝ) := do
  let x ← linear P.dec1 zWhat
  let x ← linear P.dec2 (reluT x)
  let x ← linear P.dec3 (reluT x)
  let x := x.map sigmoid
  match x.shape with
  | [S, B, K, _] => x.view [S, B, K, dp, dp]
  | _ => .error .value

/-- The state of the loop of `Enc_coor.model` (experiments/apgs/models.py:127-133): `frame_left`, `q_mean`, `q_std`, `z_where_t`. -/
structure CoorState where
  left : Nd ℝ
  mean : Nd ℝ
  std : Nd ℝ
  zs : Nd ℝ

/-- The state before the loop (experiments/apgs/models.py:115-133): `frames[:, :, ix.t, :, :]` and zeros, two for each object. -/
noncomputable def coorInit (S B K : Nat) (frames : Nd ℝ) (t : Int) : Except Err CoorState := do
  let left ← frames.select 2 t
  .ok { left, mean := zeros [S, B, K, 2], std := zeros [S, B, K, 2], zs := zeros [S, B, K, 2] }

/-- The networks for object `k` (experiments/apgs/models.py:137-150): `q_mean_k` and `q_std_k`. -/
noncomputable def coorNets (P : Params fp dp hd hc zd) (S B FP DP : Nat) (left ker : Nd ℝ) (k : Int) : Except Err (Nd ℝ × Nd ℝ) := do
  let x ← left.view [S * B, FP, FP]
  let x ← x.unsqueeze 0
  let w ← ker.select 2 k
  let w ← w.view [S * B, DP, DP]
  let w ← w.unsqueeze 1
  let y ← conv2d x w (S * B)
  let CP := y.shape.getLastD 0
  let y ← y.squeeze 0
  let y ← y.view [S, B, CP, CP]
  let y ← y.view [S, B, CP * CP]
  let y ← y.along (-1) id fun _ v => softmax v
  let h ← linear P.coor y
  let h := reluT h
  let m ← linear P.mean1 h
  let m ← linear P.mean2 (reluT m)
  let s ← linear P.std1 h
  let s ← linear P.std2 (reluT s)
  .ok (m.map Real.tanh, s.map Real.exp)

/-- The rest of the round for object `k`, with the position `z` drawn, or retrieved (experiments/apgs/models.py:151-173). -/
noncomputable def coorRest (S B FP : Nat) (ker : Nd ℝ) (k : Int) (st : CoorState) (ms : Nd ℝ × Nd ℝ) (z : Nd ℝ) : Except Err CoorState := do
  let mean ← st.mean.setSelect 2 k ms.1
  let std ← st.std.setSelect 2 k ms.2
  let zs ← st.zs.setSelect 2 k z
  let w ← ker.select 2 k
  let w ← w.unsqueeze 2
  let z ← z.unsqueeze 2
  let z ← z.unsqueeze 2
  let r ← digitToFrame fp dp w z
  let r ← r.squeeze 2
  let r ← r.squeeze 2
  if r.shape = [S, B, FP, FP] then do
    let left ← map₂ (· - ·) st.left r
    .ok { left, mean, std, zs }
  else .error .assertion

/-- `Enc_coor.model`'s loop over the objects (experiments/apgs/models.py:135-173): `zs k` is the position drawn (forward), or retrieved (reverse), for
object `k` given what the networks say. -/
noncomputable def coorLoop (P : Params fp dp hd hc zd) (S B FP DP K : Nat) (ker : Nd ℝ) (draw : Nat → Nd ℝ × Nd ℝ → Nd ℝ) (st : CoorState) :
    Except Err CoorState :=
  (List.range K).foldlM (fun (st : CoorState) (k : Nat) => do
    let ms ← coorNets P S B FP DP st.left ker k
    coorRest (fp := fp) (dp := dp) S B FP ker k st ms (draw k ms)) st

/-- `conv_kernel` (experiments/apgs/models.py:119-124): the mean shape repeated (sweep 0), or decoded from the appearance. -/
noncomputable def coorKernel (P : Params fp dp hd hc zd) (S B K : Nat) (meanShape : Nd ℝ) : Option (Nd ℝ) → Except Err (Nd ℝ)
  | none => meanShape.tile [S, B, K, 1, 1]
  | some w => convKernel P w

/-- `Enc_coor.model` up to the variable (experiments/apgs/models.py:115-173) for `K` objects: `q_mean`, `q_std` and `z_where_t`; the latter is used in
the forward direction only. -/
noncomputable def coorT (P : Params fp dp hd hc zd) (K : Nat) (meanShape frames : Nd ℝ) (t : Int) (what : Option (Nd ℝ))
    (draw : Nat → Nd ℝ × Nd ℝ → Nd ℝ) : Except Err CoorState :=
  match frames.shape with
  | [S, B, _, FP, _] => do
    let ker ← coorKernel P S B K meanShape what
    match ker.shape with
    | [_, _, _, DP, _] => do
      let st ← coorInit S B K frames t
      coorLoop P S B FP DP K ker draw st
    | _ => .error .value
  | _ => .error .value

/-- The positions at all times in one tensor: zeros of shape `(*sample_shape, *data_shape)`, filled time by time (experiments/apgs/models.py:229-234 and
303-344); `sample` is `frames.shape[:3]`, `zs t` the position at time `t`. -/
noncomputable def timeStack (sample data : List Nat) (zs : Nat → Nd ℝ) : Except Err (Nd ℝ) :=
  (List.range (sample.getD 2 0)).foldlM (fun (acc : Nd ℝ) (t : Nat) => acc.setSelect 2 t (zs t)) (zeros (sample ++ data))

/-- `Enc_digit.model`: `q_mu` and `q_std` (experiments/apgs/models.py:225-240); `zs t` is `c[key.z_where(t, ix.sweep)]`. -/
noncomputable def encDigit (P : Params fp dp hd hc zd) (frames : Nd ℝ) (zs : Nat → Nd ℝ) : Except Err (Nd ℝ × Nd ℝ) := do
  let zWhere ← timeStack (frames.shape.take 3) ((zs 0).shape.drop ((zs 0).shape.length - 2)) zs
  let x ← frameToDigit fp dp frames zWhere
  let x ← x.flattenLast2
  let x ← linear P.digit1 x
  let x ← linear P.digit2 (reluT x)
  let h ← (reluT x).reduce 2 fun n v => (∑ i, v i) / n
  let m ← linear P.whatMean h
  let s ← linear P.whatStd h
  .ok (m, s.map Real.exp)

/-- `recon_frames + EPS` of `DecoderFull.model` for `K` objects (experiments/apgs/models.py:303-344,376-385); `zs t` is the value of the position at
time `t` in the trace. -/
noncomputable def reconT (P : Params fp dp hd hc zd) (K : Nat) (frames zWhat : Nd ℝ) (zs : Nat → Nd ℝ) : Except Err (Nd ℝ) := do
  let zWhere ← timeStack (frames.shape.take 3) [K, 2] zs
  let digit ← convKernel P zWhat
  let f ← digitToFrame fp dp digit zWhere
  let f ← f.reduce (-3) fun _ v => ∑ i, v i
  .ok ((f.map fun x => max 0 (min x 1)).map fun x => x + 1 / 10 ^ 9)

end Nd
end Verif
