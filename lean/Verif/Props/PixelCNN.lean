import Verif.Model.PixelCNN
import Verif.Lemmas.Autoreg

/-!
# Property C43: PixelCNN

Specification used: `Spec.Causal`, `Spec.bornWeight` (`Verif/Spec/Autoreg.lean`).  Sites are numbered in raster order, site
`i = r * l + c` being the pixel in row `r` and column `c`.
-/

namespace GPSKet.PixelCNN
open AR Spec

variable {l k C D : ℕ}

theorem padded_congr {x y : Image l C} {r c : ℤ} (h : ∀ (r' c' : Fin l), (r' : ℤ) = r → (c' : ℤ) = c → x r' c' = y r' c') (ch : Fin C) :
    padded x r c ch = padded y r c ch := by
  unfold padded
  split_ifs with h1
  · rw [h _ _ (by simp; omega) (by simp; omega)]
  · rfl

theorem maskedConv_congr {kh kw Ci Co : ℕ} (mask : Fin kh → Fin kw → ℂ) (p : ConvParams kh kw Ci Co) {x y : Image l Ci} {r c : Fin l}
    (h : ∀ (a : Fin kh) (b : Fin kw), mask a b ≠ 0 → ∀ (r' c' : Fin l), (r' : ℤ) = r + a - ((kh - 1) / 2 : ℕ) →
      (c' : ℤ) = c + b - ((kw - 1) / 2 : ℕ) → x r' c' = y r' c') :
    maskedConv mask p x r c = maskedConv mask p y r c := by
  funext o
  unfold maskedConv
  congr 1
  refine Finset.sum_congr rfl fun a _ => Finset.sum_congr rfl fun b _ => Finset.sum_congr rfl fun ch _ => ?_
  by_cases hm : mask a b = 0
  · rw [hm]; ring
  · rw [padded_congr (h a b hm)]

theorem conv1x1_congr {Ci Co : ℕ} (p : ConvParams 1 1 Ci Co) {x y : Image l Ci} {r c : Fin l} (h : x r c = y r c) :
    conv1x1 p x r c = conv1x1 p y r c := by
  apply maskedConv_congr
  intro a b _ r' c' hr hc
  have ha := a.isLt
  have hb := b.isLt
  have : r' = r := Fin.ext (by simp at hr; omega)
  have : c' = c := Fin.ext (by simp at hc; omega)
  subst r' c'
  exact h

/-- odd kernels: the vertical stack reads rows up to its own (strictly above with the centre masked) -/
theorem vertical_congr {Ci Co : ℕ} (hk : k % 2 = 1) (center : Bool) (p : ConvParams k k Ci Co) {x y : Image l Ci} {r c : Fin l}
    (h : ∀ r' c', (if center then r' < r else r' ≤ r) → x r' c' = y r' c') :
    verticalStack center p x r c = verticalStack center p y r c := by
  apply maskedConv_congr
  intro a b hm r' c' hr hc
  apply h
  unfold vMask at hm
  rw [Fin.lt_def, Fin.le_def]
  have ha := a.isLt
  by_cases h1 : a.val ≥ k / 2 + 1
  · simp [h1] at hm
  · cases center with
    | false => simp; omega
    | true =>
      by_cases h2 : a.val = k / 2
      · simp [h2] at hm
      · simp; omega

theorem horizontal_congr {Ci Co : ℕ} (hk : k % 2 = 1) (center : Bool) (p : ConvParams 1 k Ci Co) {x y : Image l Ci} {r c : Fin l}
    (h : ∀ c', (if center then c' < c else c' ≤ c) → x r c' = y r c') :
    horizontalStack center p x r c = horizontalStack center p y r c := by
  apply maskedConv_congr
  intro a b hm r' c' hr hc
  have ha := a.isLt
  have : r' = r := Fin.ext (by simp at hr; omega)
  subst r'
  apply h
  unfold hMask at hm
  rw [Fin.lt_def, Fin.le_def]
  have hb := b.isLt
  by_cases h1 : b.val ≥ k / 2 + 1
  · simp [h1] at hm
  · cases center with
    | false => simp; omega
    | true =>
      by_cases h2 : b.val = k / 2
      · simp [h2] at hm
      · simp; omega

/-- the two stacks agree at `(r, c)` for the vertical and horizontal dependence -/
theorem stack_fold (hk : k % 2 = 1) (act : ℂ → ℂ) (layers : List (Layer k C)) (r : Fin l) (s t : Image l C × Image l C)
    (cmax : Fin l) (hv : ∀ r' c', r' ≤ r → s.1 r' c' = t.1 r' c') (hh : ∀ c', c' ≤ cmax → s.2 r c' = t.2 r c') :
    ∀ c', c' ≤ cmax → (layers.foldl (fun s p => causalConv act p s) s).2 r c' = (layers.foldl (fun s p => causalConv act p s) t).2 r c' := by
  induction layers generalizing s t with
  | nil => exact hh
  | cons p layers ih =>
    rw [List.foldl_cons, List.foldl_cons]
    have hvf : ∀ r' c', r' ≤ r → verticalStack false p.conv_v s.1 r' c' = verticalStack false p.conv_v t.1 r' c' := by
      intro r' c' hr
      apply vertical_congr hk
      intro r'' c'' h''
      exact hv _ _ (le_trans (by simpa using h'') hr)
    apply ih
    · intro r' c' hr
      unfold causalConv applyAct
      dsimp only
      rw [hvf r' c' hr]
    · intro c' hc
      have e1 := horizontal_congr hk false p.conv_h (x := s.2) (y := t.2) (r := r) (c := c')
        (fun c'' h'' => hh c'' (le_trans (by simpa using h'') hc))
      have e2 := conv1x1_congr p.conv_v_to_h (hvf r c' le_rfl)
      have e3 : conv1x1 p.conv_h_to_1x1 (applyAct act (addImage (horizontalStack false p.conv_h s.2)
            (conv1x1 p.conv_v_to_h (verticalStack false p.conv_v s.1)))) r c' =
          conv1x1 p.conv_h_to_1x1 (applyAct act (addImage (horizontalStack false p.conv_h t.2)
            (conv1x1 p.conv_v_to_h (verticalStack false p.conv_v t.1)))) r c' := by
        apply conv1x1_congr
        funext ch
        unfold applyAct addImage
        rw [e1, e2]
      funext ch
      show s.2 r c' ch + _ = t.2 r c' ch + _
      rw [hh c' hc]
      exact congrArg (t.2 r c' ch + ·) (congrFun e3 ch)

theorem raster_lt {r c r' c' : Fin l} (h : r' < r ∨ (r' = r ∧ c' < c)) : finProdFinEquiv (r', c') < finProdFinEquiv (r, c) := by
  rw [Fin.lt_def, finProdFinEquiv_apply_val, finProdFinEquiv_apply_val]
  have hc' := c'.isLt
  rcases h with h | ⟨rfl, h⟩
  · rw [Fin.lt_def] at h
    have : l * (r'.val + 1) ≤ l * r.val := Nat.mul_le_mul_left _ h
    rw [Nat.mul_succ] at this
    dsimp only
    omega
  · rw [Fin.lt_def] at h
    dsimp only
    omega

theorem stackPair_causal (hk : k % 2 = 1) (n : Net l k C D) (x y : Fin (l * l) → Fin D) (r c : Fin l)
    (h : ∀ j, j < finProdFinEquiv (r, c) → x j = y j) : (stackPair n x).2 r c = (stackPair n y).2 r c := by
  unfold stackPair
  dsimp only
  apply stack_fold hk reimRelu n.layers r _ _ c
  · intro r' c' hr
    apply vertical_congr hk
    intro r'' c'' h''
    funext ch
    unfold toImage
    rw [h _ (raster_lt (Or.inl (lt_of_lt_of_le (by simpa using h'') hr)))]
  · intro c' hc
    apply horizontal_congr hk
    intro c'' h''
    funext ch
    unfold toImage
    rw [h _ (raster_lt (Or.inr ⟨rfl, lt_of_lt_of_le (by simpa using h'') hc⟩))]
  · exact le_rfl

/-- The gauge constraint, if there is one, is itself causal. -/
def GaugeCausal (n : Net l k C D) : Prop := ∀ b, n.broken = some b → Causal fun i x => b x i

/-- **C43**: for every odd kernel size, number of layers and channels, all parameters and all pairs of configurations: the
conditional of a site only depends on the sites before it in raster order. -/
theorem C43_causal_partial (hk : k % 2 = 1) (n : Net l k C D) (hg : GaugeCausal n) : Causal fun i x => conditionals n x i := by
  intro i x y h
  suffices hs : conditionalsLogPsi n x i = conditionalsLogPsi n y i by
    funext d
    show weight _ (conditionalsLogPsi n x i d) = weight _ (conditionalsLogPsi n y i d)
    rw [hs]
  have hout : networkOut n x i = networkOut n y i := by
    funext d
    unfold networkOut
    dsimp only
    have := conv1x1_congr n.final_conv (x := applyAct reimRelu (stackPair n x).2) (y := applyAct reimRelu (stackPair n y).2)
      (r := (finProdFinEquiv.symm i).1) (c := (finProdFinEquiv.symm i).2) (by
        funext ch
        unfold applyAct
        rw [stackPair_causal hk n x y _ _ (by rw [Prod.mk.eta, Equiv.apply_symm_apply]; exact h)])
    exact congrFun this d
  have hrow : applyGauge n x (networkOut n x) i = applyGauge n y (networkOut n y) i := by
    funext d
    unfold applyGauge
    rw [hout]
    cases hb : n.broken with
    | none => rfl
    | some b =>
      dsimp only
      have : b x i = b y i := hg b hb i x y h
      rw [this]
  unfold conditionalsLogPsi
  dsimp only
  rw [hrow]

/-- **C43**: with `normalize=True` and a kernel of odd size the model is a normalised wave function, provided the gauge constraint
leaves at least one local state at every site. -/
theorem C43_normalised_partial [NeZero D] (hk : k % 2 = 1) (n : Net l k C D) (hg : GaugeCausal n) (hn : n.normalize = true)
    (hp : n.machine_pow ≠ 0) (hfree : ∀ b, n.broken = some b → ∀ x i, ∃ d, b x i d = false) :
    ∑ x, bornWeight n.machine_pow (logPsi n x) = 1 := by
  have : ∀ x, bornWeight n.machine_pow (logPsi n x) = chainLaw (fun i x => conditionals n x i) x := by
    intro x
    rw [bornWeight_eq, logPsi, weight_pickSum]
    rfl
  rw [Finset.sum_congr rfl fun x _ => this x]
  apply sum_chainLaw
  · exact C43_causal_partial hk n hg
  · intro i x _
    unfold conditionals conditionalsLogPsi
    rw [if_pos hn]
    unfold applyGauge
    simp only [weight_normalize hp]
    rw [← Finset.sum_div]
    apply div_self
    apply ne_of_gt
    cases hb : n.broken with
    | none => exact Finset.sum_pos (fun d _ => by rw [weight_pos_iff]; rfl) ⟨0, Finset.mem_univ _⟩
    | some b =>
      obtain ⟨d, hd⟩ := hfree b hb x i
      refine Finset.sum_pos' (fun e _ => weight_nonneg _ _) ⟨d, Finset.mem_univ _, ?_⟩
      rw [weight_pos_iff]
      simp [hd]

/-- **C43**: configurations that break the gauge constraint at some site have amplitude zero (every kernel size). -/
theorem C43_gauge (n : Net l k C D) (b) (hb : n.broken = some b) (x : Fin (l * l) → Fin D) (i : Fin (l * l)) (hi : b x i (x i) = true) :
    bornWeight n.machine_pow (logPsi n x) = 0 := by
  rw [bornWeight_eq, logPsi, weight_pickSum]
  apply Finset.prod_eq_zero (Finset.mem_univ i)
  have h : applyGauge n x (networkOut n x) i (x i) = none := by
    unfold applyGauge
    rw [hb]
    simp [hi]
  unfold conditionalsLogPsi
  split_ifs
  · unfold normalizeLog
    rw [h]; rfl
  · rw [h]; rfl

/-- A network for any kernel size: the horizontal stack copies the pixel `off` places left of the middle of the kernel, the layers do
nothing, the first of two local states gets it as logarithm. -/
noncomputable def witness (l k depth : ℕ) (b0 : ℕ) : Net l k 1 2 where
  value d := if d = 0 then 1 else -1
  v_stack_conv := ⟨fun _ _ _ _ => 0, fun _ => 0⟩
  h_stack_conv := ⟨fun _ b _ _ => if b.val = b0 then 1 else 0, fun _ => 0⟩
  layers := List.replicate depth ⟨⟨fun _ _ _ _ => 0, fun _ => 0⟩, ⟨fun _ _ _ _ => 0, fun _ => 0⟩, ⟨fun _ _ _ _ => 0, fun _ => 0⟩,
    ⟨fun _ _ _ _ => 0, fun _ => 0⟩⟩
  final_conv := ⟨fun _ _ _ d => if d = 0 then 1 else 0, fun _ => 0⟩
  broken := none
  normalize := true
  machine_pow := 2

theorem witness_stacks (depth b0 : ℕ) (x : Fin (l * l) → Fin 2) :
    (stackPair (witness l k depth b0) x).2 = horizontalStack true (witness l k depth b0).h_stack_conv (toImage (witness l k depth b0) x) := by
  unfold stackPair
  dsimp only
  have key : ∀ (N : ℕ) (s : Image l 1 × Image l 1), ((List.replicate N (⟨⟨fun _ _ _ _ => 0, fun _ => 0⟩, ⟨fun _ _ _ _ => 0, fun _ => 0⟩,
      ⟨fun _ _ _ _ => 0, fun _ => 0⟩, ⟨fun _ _ _ _ => 0, fun _ => 0⟩⟩ : Layer k 1)).foldl (fun s p => causalConv reimRelu p s) s).2 = s.2 := by
    intro N
    induction N with
    | zero => intro s; rfl
    | succ N ih =>
      intro s
      rw [List.replicate_succ, List.foldl_cons, ih]
      funext r c ch
      simp [causalConv, addImage, conv1x1, maskedConv]
  exact key depth _

theorem witness_cond (depth b0 : ℕ) (x : Fin (l * l) → Fin 2) (r c : Fin l) (hb : b0 < k / 2) (z : ℝ) (hz : 0 ≤ z)
    (h : reimRelu (padded (toImage (witness l k depth b0) x) r (c + b0 - ((k - 1) / 2 : ℕ)) 0) = z) :
    conditionals (witness l k depth b0) x (finProdFinEquiv (r, c)) 0 = Real.exp (2 * z) / (Real.exp (2 * z) + 1) := by
  unfold conditionals conditionalsLogPsi
  rw [if_pos (by rfl), weight_normalize (by simp [witness])]
  unfold applyGauge networkOut
  dsimp only
  have hout : ∀ d, conv1x1 (witness l k depth b0).final_conv (applyAct reimRelu (stackPair (witness l k depth b0) x).2) r c d =
      if d = 0 then (z : ℂ) else 0 := by
    intro d
    have hh : (stackPair (witness l k depth b0) x).2 r c 0 = padded (toImage (witness l k depth b0) x) r (c + b0 - ((k - 1) / 2 : ℕ)) 0 := by
      rw [witness_stacks]
      unfold horizontalStack maskedConv
      simp only [Finset.univ_unique, Finset.sum_singleton]
      rw [Finset.sum_eq_single (⟨b0, by omega⟩ : Fin k)]
      · simp [witness, hMask, show ¬ (k / 2 + 1 ≤ b0) by omega, show b0 ≠ k / 2 by omega]
      · intro b _ hne
        have : b.val ≠ b0 := fun h => hne (Fin.ext h)
        simp [witness, this]
      · simp
    have ha : applyAct reimRelu (stackPair (witness l k depth b0) x).2 r c 0 = z := by
      unfold applyAct
      rw [hh, h]
    unfold conv1x1 maskedConv
    simp only [Finset.univ_unique, Finset.sum_singleton]
    have hp : padded (applyAct reimRelu (stackPair (witness l k depth b0) x).2) ((r : ℤ) + ((default : Fin 1).val : ℤ) - ((1 - 1) / 2 : ℕ))
        ((c : ℤ) + ((default : Fin 1).val : ℤ) - ((1 - 1) / 2 : ℕ)) default = z := by
      unfold padded
      rw [dif_pos (by have := r.isLt; have := c.isLt; simp)]
      rw [← ha]
      congr 1 <;> simp
    rw [hp]
    simp [witness]
  simp only [Equiv.symm_apply_apply, hout]
  simp [witness, weight]

/-- **C43** fails for even kernels: for every even kernel size, every depth and every lattice there are parameters for which the
conditional of (say) the first site depends on that site itself, so that the model is not autoregressive. -/
theorem C43_even_fails (hk : k % 2 = 0) (hk2 : 2 ≤ k) (depth : ℕ) (hl : 0 < l) :
    ∃ n : Net l k 1 2, n.layers.length = depth ∧ GaugeCausal n ∧ ¬ Causal fun i x => conditionals n x i := by
  refine ⟨witness l k depth (k / 2 - 1), by simp [witness], by intro b hb; simp [witness] at hb, ?_⟩
  intro hc
  let o : Fin l := ⟨0, hl⟩
  have h := hc (finProdFinEquiv (o, o)) (fun _ => 0) (fun _ => 1) (by
    intro j hj
    rw [Fin.lt_def, finProdFinEquiv_apply_val] at hj
    simp [o] at hj)
  dsimp only at h
  have hpad : ∀ d : Fin 2, padded (toImage (witness l k depth (k / 2 - 1)) fun _ => d) o ((o : ℕ) + (k / 2 - 1 : ℕ) - ((k - 1) / 2 : ℕ)) 0 =
      if d = 0 then 1 else -1 := by
    intro d
    have e : ((o : ℕ) : ℤ) + ((k / 2 - 1 : ℕ) : ℤ) - (((k - 1) / 2 : ℕ) : ℤ) = 0 := by
      have : k / 2 - 1 = (k - 1) / 2 := by omega
      rw [this]; simp [o]
    rw [e]
    unfold padded
    rw [dif_pos (by simp [o, hl])]
    rfl
  have h0 := witness_cond (k := k) depth (k / 2 - 1) (fun _ => 0) o o (by omega) 1 (by norm_num) (by
    rw [hpad]; simp [reimRelu, Complex.ext_iff])
  have h1 := witness_cond (k := k) depth (k / 2 - 1) (fun _ => 1) o o (by omega) 0 le_rfl (by
    rw [hpad]; simp [reimRelu, Complex.ext_iff])
  have h2 := congrFun h 0
  rw [h0, h1] at h2
  have h3 : (1 : ℝ) < Real.exp (2 * 1) := by
    rw [Real.one_lt_exp_iff]; norm_num
  rw [div_eq_div_iff (by positivity) (by positivity)] at h2
  simp at h2
  have h4 : Real.exp 2 = 1 := by linarith
  simp at h3
  simp at h4

/-- The conditionals do depend on earlier sites: kernel size 3, two by two pixels, second site. -/
example : conditionals (witness 2 3 1 0) (fun _ => 0) (finProdFinEquiv ((0 : Fin 2), (1 : Fin 2))) 0 ≠
    conditionals (witness 2 3 1 0) (fun _ => 1) (finProdFinEquiv ((0 : Fin 2), (1 : Fin 2))) 0 := by
  rw [witness_cond (l := 2) (k := 3) 1 0 (fun _ => 0) 0 1 (by norm_num) 1 (by norm_num) (by
    simp [padded, toImage, witness, reimRelu, Complex.ext_iff]),
    witness_cond (l := 2) (k := 3) 1 0 (fun _ => 1) 0 1 (by norm_num) 0 le_rfl (by
    simp [padded, toImage, witness, reimRelu, Complex.ext_iff])]
  intro h2
  rw [div_eq_div_iff (by positivity) (by positivity)] at h2
  simp at h2
  have h4 : Real.exp 2 = 1 := by linarith
  simp at h4

end GPSKet.PixelCNN
