import Verif.Model.Autoreg
import Mathlib.Logic.Equiv.Fin.Basic

/-!
# Model of `GPSKet/nn/causal_conv.py` and `GPSKet/models/pixelcnn.py`

One sample (the code carries a batch axis).  `flax.linen.Conv` with its default `padding="SAME"` and unit strides is modelled as the
cross-correlation with `(k - 1) / 2` zeros in front of each axis (and the remaining `k - 1 - (k - 1) / 2` behind), which is the
contract of `jax.lax.conv_general_dilated` with `SAME` padding.  The dilation is the default 1, the only value the model uses.
-/

namespace GPSKet.PixelCNN
open AR

variable {l k C D : ℕ}

/-- An image with `l × l` pixels and `C` channels. -/
abbrev Image (l C : ℕ) := Fin l → Fin l → Fin C → ℂ

/-- The image padded with zeros. -/
def padded (x : Image l C) (r c : ℤ) (ch : Fin C) : ℂ :=
  if h : (0 ≤ r ∧ r < l) ∧ (0 ≤ c ∧ c < l) then x ⟨r.toNat, by omega⟩ ⟨c.toNat, by omega⟩ ch else 0

/-- Kernel and bias of a convolution. -/
structure ConvParams (kh kw Ci Co : ℕ) where
  kernel : Fin kh → Fin kw → Fin Ci → Fin Co → ℂ
  bias : Fin Co → ℂ

/-- `MaskedConv2D.__call__` (causal_conv.py:21-42): the masked convolution, the mask being repeated over channels. -/
def maskedConv {kh kw Ci Co : ℕ} (mask : Fin kh → Fin kw → ℂ) (p : ConvParams kh kw Ci Co) (x : Image l Ci) : Image l Co :=
  fun r c o => p.bias o + ∑ a, ∑ b, ∑ ch,
    p.kernel a b ch o * mask a b * padded x (r + a - ((kh - 1) / 2 : ℕ)) (c + b - ((kw - 1) / 2 : ℕ)) ch

/-- The mask of `VerticalStackConv` (causal_conv.py:56-59). -/
def vMask (k : ℕ) (mask_center : Bool) : Fin k → Fin k → ℂ := fun a _ =>
  if a.val ≥ k / 2 + 1 then 0 else if mask_center ∧ a.val = k / 2 then 0 else 1

/-- The mask of `HorizontalStackConv` (causal_conv.py:84-87). -/
def hMask (k : ℕ) (mask_center : Bool) : Fin 1 → Fin k → ℂ := fun _ b =>
  if b.val ≥ k / 2 + 1 then 0 else if mask_center ∧ b.val = k / 2 then 0 else 1

/-- `VerticalStackConv.__call__` (causal_conv.py:45-70). -/
def verticalStack {Ci Co : ℕ} (mask_center : Bool) (p : ConvParams k k Ci Co) (x : Image l Ci) : Image l Co :=
  maskedConv (vMask k mask_center) p x

/-- `HorizontalStackConv.__call__` (causal_conv.py:73-98). -/
def horizontalStack {Ci Co : ℕ} (mask_center : Bool) (p : ConvParams 1 k Ci Co) (x : Image l Ci) : Image l Co :=
  maskedConv (hMask k mask_center) p x

/-- A convolution with a `1 × 1` kernel (causal_conv.py:127-142; also NetKet's `MaskedConv2D` with kernel `(1, 1)` and
`exclusive=False`, pixelcnn.py:101-109). -/
def conv1x1 {Ci Co : ℕ} (p : ConvParams 1 1 Ci Co) (x : Image l Ci) : Image l Co := maskedConv (fun _ _ => 1) p x

/-- Parameters of a `CausalConv2d` layer (causal_conv.py:109-142). -/
structure Layer (k C : ℕ) where
  conv_v : ConvParams k k C C
  conv_h : ConvParams 1 k C C
  conv_v_to_h : ConvParams 1 1 C C
  conv_h_to_1x1 : ConvParams 1 1 C C

/-- The activation applied to every entry. -/
def applyAct (act : ℂ → ℂ) (x : Image l C) : Image l C := fun r c ch => act (x r c ch)

/-- Sum of two images. -/
def addImage (x y : Image l C) : Image l C := fun r c ch => x r c ch + y r c ch

/-- `CausalConv2d.__call__` (causal_conv.py:144-155). -/
def causalConv (act : ℂ → ℂ) (p : Layer k C) (s : Image l C × Image l C) : Image l C × Image l C :=
  let v_features := verticalStack false p.conv_v s.1
  let v_out := applyAct act v_features
  let h_features := horizontalStack false p.conv_h s.2
  let h_features := addImage h_features (conv1x1 p.conv_v_to_h v_features)
  let h_features := applyAct act h_features
  let h_out := addImage s.2 (conv1x1 p.conv_h_to_1x1 h_features)
  (v_out, h_out)

/-- `nk.nn.activation.reim_relu` (pixelcnn.py:74). -/
noncomputable def reimRelu (z : ℂ) : ℂ := ⟨max z.re 0, max z.im 0⟩

/-- Fields and parameters of `PixelCNN` (pixelcnn.py:34-109): `value d` is the value of local state `d`, `layers` has `depth`
entries, `broken` is `constraint_fn (gauge_fn inputs)` (or nothing). -/
structure Net (l k C D : ℕ) where
  value : Fin D → ℂ
  v_stack_conv : ConvParams k k 1 C
  h_stack_conv : ConvParams 1 k 1 C
  layers : List (Layer k C)
  final_conv : ConvParams 1 1 C D
  broken : Option ((Fin (l * l) → Fin D) → Fin (l * l) → Fin D → Bool)
  normalize : Bool
  machine_pow : ℝ

/-- `jnp.reshape(inputs, (batch_size, L, L, 1))` (pixelcnn.py:114). -/
def toImage (n : Net l k C D) (inputs : Fin (l * l) → Fin D) : Image l 1 := fun r c _ => n.value (inputs (finProdFinEquiv (r, c)))

/-- The stacks after the causal layers (pixelcnn.py:115-117). -/
noncomputable def stackPair (n : Net l k C D) (inputs : Fin (l * l) → Fin D) : Image l C × Image l C :=
  let x := toImage n inputs
  n.layers.foldl (fun s p => causalConv reimRelu p s) (verticalStack true n.v_stack_conv x, horizontalStack true n.h_stack_conv x)

/-- The network output, reshaped to `(N, D)` (pixelcnn.py:112-120). -/
noncomputable def networkOut (n : Net l k C D) (inputs : Fin (l * l) → Fin D) (i : Fin (l * l)) (d : Fin D) : ℂ :=
  let out := applyAct reimRelu (stackPair n inputs).2
  let out := conv1x1 n.final_conv out
  out (finProdFinEquiv.symm i).1 (finProdFinEquiv.symm i).2 d

/-- The entries where the gauge constraint is broken are set to `-inf` (pixelcnn.py:122-126). -/
def applyGauge (n : Net l k C D) (inputs : Fin (l * l) → Fin D) (log_psi : Fin (l * l) → Fin D → ℂ) (i : Fin (l * l)) (d : Fin D) :
    LogAmp :=
  match n.broken with
  | some is_broken => if is_broken inputs i d then none else some (log_psi i d)
  | none => some (log_psi i d)

/-- `PixelCNN.conditionals_log_psi` (pixelcnn.py:111-131). -/
noncomputable def conditionalsLogPsi (n : Net l k C D) (inputs : Fin (l * l) → Fin D) (i : Fin (l * l)) : Fin D → LogAmp :=
  let log_psi := applyGauge n inputs (networkOut n inputs)
  if n.normalize then normalizeLog n.machine_pow (log_psi i) else log_psi i

/-- `conditionals` of NetKet's `AbstractARNN`: the probabilities `|exp(log_psi)|^machine_pow`. -/
noncomputable def conditionals (n : Net l k C D) (inputs : Fin (l * l) → Fin D) (i : Fin (l * l)) (d : Fin D) : ℝ :=
  weight n.machine_pow (conditionalsLogPsi n inputs i d)

/-- `__call__` of NetKet's `AbstractARNN`: the sum over sites of the entries of the occupied local states. -/
noncomputable def logPsi (n : Net l k C D) (inputs : Fin (l * l) → Fin D) : LogAmp := pickSum (conditionalsLogPsi n inputs) inputs

end GPSKet.PixelCNN
