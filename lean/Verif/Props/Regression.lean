import Verif.Spec.Basic
import Verif.Lemmas.Regression

/-! Properties C23-C26: `linear_regression`. -/

namespace MFA

open Classical Finset

variable {n R : ℕ}

private theorem col_realArr (f : Fin n → Fin R → ℝ) (r : Fin R) :
    col (realArr f) r = finCol (fun i => f i r) := by
  rw [realArr, col_ofFn]; rfl

private theorem col_flArr (f : Fin n → Fin R → Fl) (r : Fin R) :
    col (flArr f) r = List.ofFn (fun i => f i r) := by
  rw [flArr, col_ofFn]

theorem lin_ok (x nj : Fin n → Fin R → ℝ) (y : Fin n → Fin R → Fl) :
    linearRegression (realArr x) (flArr y) (.mat (realArr nj)) = .ok {
      slope := fun r => dotB (lrWSlope (finCol fun i => x i r) (finCol fun i => nj i r))
        (List.ofFn fun i => y i r)
      intercept := fun r => dotB (lrWInter (finCol fun i => x i r) (finCol fun i => nj i r))
        (List.ofFn fun i => y i r)
      var := fun r => lrVar (finCol fun i => x i r) (finCol fun i => nj i r) } := by
  have hl : ∀ f : Fin n → Fin R → ℝ, (realArr f).length = n := fun f => by simp [realArr]
  have hl' : (flArr y).length = n := by simp [flArr]
  simp only [linearRegression, hl, hl', ne_eq, not_true_eq_false, if_false, true_or, if_true,
    col_realArr, col_flArr]

theorem realArr_eq_flArr (y : Fin n → Fin R → ℝ) : realArr y = flArr (fun i r => Fl.fin (y i r)) := rfl

/-- C23: whenever the weights are positive and `x` takes two values, the result of `linear_regression` is, for
each realisation, the unique minimiser of the weighted squared error over all lines. -/
theorem C23_regression_minimises (x y nj : Fin n → Fin R → ℝ) (hn : ∀ i r, 0 < nj i r)
    (hx : ∀ r, ∃ i i', x i r ≠ x i' r) :
    ∃ g : LinReg R, linearRegression (realArr x) (realArr y) (.mat (realArr nj)) = .ok g ∧
      ∀ r, ∃ a b : ℝ, g.slope r = Fl.fin a ∧ g.intercept r = Fl.fin b ∧
        (∀ a' b', sqErr (x · r) (y · r) (nj · r) a b ≤ sqErr (x · r) (y · r) (nj · r) a' b') ∧
        (∀ a' b', sqErr (x · r) (y · r) (nj · r) a' b' ≤ sqErr (x · r) (y · r) (nj · r) a b →
          a' = a ∧ b' = b) := by
  refine ⟨_, by rw [realArr_eq_flArr y, lin_ok], fun r => ?_⟩
  set X := fun i => x i r
  set Y := fun i => y i r
  set N := fun i => nj i r
  have hD : 0 < rD X N := rD_pos X N (fun i => hn i r) (hx r)
  refine ⟨∑ i, rWS X N i * Y i, ∑ i, rWI X N i * Y i, ?_, ?_, ?_⟩
  · show dotB _ _ = _
    rw [slope_col X N _ hD.ne']; simp only [Fl.fin_mul, Fl.sum_fin]; rfl
  · show dotB _ _ = _
    rw [inter_col X N _ hD.ne']; simp only [Fl.fin_mul, Fl.sum_fin]; rfl
  set a := ∑ i, rWS X N i * Y i with ha
  set b := ∑ i, rWI X N i * Y i with hb
  -- normal equations
  set S0 := ∑ i, N i * Y i with hS0
  set S1 := ∑ i, N i * X i * Y i with hS1
  have ha' : a = (rV0 N * S1 - rV1 X N * S0) / rD X N := by
    rw [ha, hS0, hS1, Finset.mul_sum, Finset.mul_sum, ← Finset.sum_sub_distrib, Finset.sum_div]
    apply Finset.sum_congr rfl; intro i _; rw [rWS]; ring
  have hb' : b = (rV2 X N * S0 - rV1 X N * S1) / rD X N := by
    rw [hb, hS0, hS1, Finset.mul_sum, Finset.mul_sum, ← Finset.sum_sub_distrib, Finset.sum_div]
    apply Finset.sum_congr rfl; intro i _; rw [rWI]; ring
  have n0 : S0 = a * rV1 X N + b * rV0 N := by
    rw [ha', hb']; field_simp; rw [rD]; ring
  have n1 : S1 = a * rV2 X N + b * rV1 X N := by
    rw [ha', hb']; field_simp; rw [rD]; ring
  have r0 : ∑ i, N i * (Y i - (a * X i + b)) = 0 := by
    have : ∑ i, N i * (Y i - (a * X i + b)) = S0 - (a * rV1 X N + b * rV0 N) := by
      rw [hS0, rV1, rV0, Finset.mul_sum, Finset.mul_sum, ← Finset.sum_add_distrib, ← Finset.sum_sub_distrib]
      apply Finset.sum_congr rfl; intros; ring
    rw [this, n0]; ring
  have r1 : ∑ i, N i * X i * (Y i - (a * X i + b)) = 0 := by
    have : ∑ i, N i * X i * (Y i - (a * X i + b)) = S1 - (a * rV2 X N + b * rV1 X N) := by
      rw [hS1, rV1, rV2, Finset.mul_sum, Finset.mul_sum, ← Finset.sum_add_distrib, ← Finset.sum_sub_distrib]
      apply Finset.sum_congr rfl; intros; ring
    rw [this, n1]; ring
  have key : ∀ a' b', sqErr X Y N a' b' = sqErr X Y N a b
      + ∑ i, N i * ((a' - a) * X i + (b' - b)) ^ 2 := by
    intro a' b'
    have h2 : sqErr X Y N a' b' = sqErr X Y N a b
        + ∑ i, N i * ((a' - a) * X i + (b' - b)) ^ 2
        - 2 * (a' - a) * (∑ i, N i * X i * (Y i - (a * X i + b)))
        - 2 * (b' - b) * ∑ i, N i * (Y i - (a * X i + b)) := by
      rw [sqErr, sqErr, Finset.mul_sum, Finset.mul_sum, ← Finset.sum_add_distrib,
        ← Finset.sum_sub_distrib, ← Finset.sum_sub_distrib]
      apply Finset.sum_congr rfl; intros; ring
    rw [h2, r0, r1]; ring
  have hterm : ∀ a' b' i, 0 ≤ N i * ((a' - a) * X i + (b' - b)) ^ 2 := fun a' b' i =>
    mul_nonneg (hn i r).le (sq_nonneg _)
  constructor
  · intro a' b'
    rw [key a' b']
    have := Finset.sum_nonneg (s := Finset.univ) (fun i _ => hterm a' b' i)
    linarith
  · intro a' b' hle
    rw [key a' b'] at hle
    have hs : ∑ i, N i * ((a' - a) * X i + (b' - b)) ^ 2 = 0 :=
      le_antisymm (by linarith) (Finset.sum_nonneg (fun i _ => hterm a' b' i))
    have hz := (Finset.sum_eq_zero_iff_of_nonneg (fun i _ => hterm a' b' i)).mp hs
    have hz' : ∀ i, (a' - a) * X i + (b' - b) = 0 := by
      intro i
      have := hz i (Finset.mem_univ _)
      rcases mul_eq_zero.mp this with h | h
      · exact absurd h (hn i r).ne'
      · exact pow_eq_zero_iff (two_ne_zero) |>.mp h
    obtain ⟨i, i', hne⟩ := hx r
    have h1 := hz' i
    have h2 := hz' i'
    have h3 : (a' - a) * (X i - X i') = 0 := by linarith
    have h4 : a' = a := by
      rcases mul_eq_zero.mp h3 with h | h
      · linarith
      · exact absurd (sub_eq_zero.mp h) hne
    refine ⟨h4, ?_⟩
    rw [h4] at h1; linarith

/-- Non-vacuity of C23: three scales, two realisations, unequal weights. -/
example : ∃ (x nj : Fin 3 → Fin 2 → ℝ), (∀ i r, 0 < nj i r) ∧ (∀ r, ∃ i i', x i r ≠ x i' r) :=
  ⟨fun i _ => i, fun i _ => 7 - i, by intro i _; fin_cases i <;> norm_num, fun r => ⟨0, 1, by norm_num⟩⟩

/-- C23 (shape contract): `linear_regression` raises AssertionError as soon as the weights and the abscissae have
different numbers of rows, ValueError when the ordinates then have a number of rows that does not broadcast, and
otherwise returns. -/
theorem C23_length_contract (x y nj : Arr R) :
    (nj.length ≠ x.length → linearRegression x y (.mat nj) = .error .assertionError) ∧
    (nj.length = x.length → x.length ≠ y.length → x.length ≠ 1 → y.length ≠ 1 →
      linearRegression x y (.mat nj) = .error .valueError) ∧
    (nj.length = x.length → x.length = y.length ∨ x.length = 1 ∨ y.length = 1 → ∃ g, linearRegression x y (.mat nj) = .ok g) := by
  refine ⟨fun h => ?_, fun h h1 h2 h3 => ?_, fun h h1 => ?_⟩
  · simp only [linearRegression, ne_eq, h, not_false_eq_true, if_true]
  · simp [linearRegression, h, h1, h2, h3]
  · rw [linearRegression, if_neg (by simp [h]), if_pos h1]; exact ⟨_, rfl⟩

/-- Non-vacuity: three scales with two weights, three scales with two ordinates. -/
example : (linearRegression (R := 1) [fun _ => Fl.fin 0, fun _ => Fl.fin 1, fun _ => Fl.fin 2] [fun _ => Fl.fin 0, fun _ => Fl.fin 1, fun _ => Fl.fin 2]
      (.mat [fun _ => 1, fun _ => 1]) = .error .assertionError) ∧
    (linearRegression (R := 1) [fun _ => Fl.fin 0, fun _ => Fl.fin 1, fun _ => Fl.fin 2] [fun _ => 0, fun _ => 1]
      (.mat [fun _ => 1, fun _ => 1, fun _ => 1]) = .error .valueError) :=
  ⟨(C23_length_contract _ _ _).1 (by simp), (C23_length_contract _ _ _).2.1 rfl (by simp) (by simp) (by simp)⟩

/-- C24 (exactness): data on a line give back that line. -/
theorem C24_exact_on_affine (x nj : Fin n → Fin R → ℝ) (a b : Fin R → ℝ) (hn : ∀ i r, 0 < nj i r)
    (hx : ∀ r, ∃ i i', x i r ≠ x i' r) :
    ∃ g : LinReg R, linearRegression (realArr x) (realArr fun i r => a r * x i r + b r) (.mat (realArr nj))
        = .ok g ∧ ∀ r, g.slope r = Fl.fin (a r) ∧ g.intercept r = Fl.fin (b r) := by
  refine ⟨_, by rw [realArr_eq_flArr (fun i r => a r * x i r + b r), lin_ok], fun r => ?_⟩
  have hD := (rD_pos (fun i => x i r) (fun i => nj i r) (fun i => hn i r) (hx r)).ne'
  have h0 : ∀ i, Fl.fin (a r * x i r + b r) = 0 + Fl.fin (b r + a r * x i r) := by
    intro i; rw [zero_add, add_comm]
  have hz : ∀ t : ℝ, Fl.fin t * 0 = 0 := fun t => by rw [Fl.zero_def, Fl.fin_mul, mul_zero]
  constructor
  · show dotB _ _ = _
    rw [slope_col _ _ _ hD]
    simp only [h0]
    rw [slope_shift (fun i => x i r) (fun i => nj i r) (fun _ => 0) (b r) (a r) hD]
    simp [hz]
  · show dotB _ _ = _
    rw [inter_col _ _ _ hD]
    simp only [h0]
    rw [inter_shift (fun i => x i r) (fun i => nj i r) (fun _ => 0) (b r) (a r) hD]
    simp [hz]

/-- C24 (equivariance): adding `c + d x` to arbitrary data (infinities and NaN included) adds `(d, c)` to
(slope, intercept). -/
theorem C24_affine_equivariant (x nj : Fin n → Fin R → ℝ) (y : Fin n → Fin R → Fl) (c d : Fin R → ℝ)
    (hn : ∀ i r, 0 < nj i r) (hx : ∀ r, ∃ i i', x i r ≠ x i' r) :
    ∃ g g' : LinReg R, linearRegression (realArr x) (flArr y) (.mat (realArr nj)) = .ok g ∧
      linearRegression (realArr x) (flArr fun i r => y i r + Fl.fin (c r + d r * x i r)) (.mat (realArr nj))
        = .ok g' ∧
      ∀ r, g'.slope r = g.slope r + Fl.fin (d r) ∧ g'.intercept r = g.intercept r + Fl.fin (c r) := by
  refine ⟨_, _, lin_ok _ _ _, lin_ok _ _ _, fun r => ?_⟩
  have hD := (rD_pos (fun i => x i r) (fun i => nj i r) (fun i => hn i r) (hx r)).ne'
  constructor
  · show dotB _ _ = dotB _ _ + _
    rw [slope_col _ _ _ hD, slope_col _ _ _ hD, slope_shift _ _ _ _ _ hD]
  · show dotB _ _ = dotB _ _ + _
    rw [inter_col _ _ _ hD, inter_col _ _ _ hD, inter_shift _ _ _ _ _ hD]

/-- C24 (weights): multiplying all weights by a positive constant changes neither slope nor intercept. -/
theorem C24_weight_scaling (x nj : Fin n → Fin R → ℝ) (y : Fin n → Fin R → Fl) (k : ℝ) (hk : 0 < k)
    (hn : ∀ i r, 0 < nj i r) (hx : ∀ r, ∃ i i', x i r ≠ x i' r) :
    ∃ g g' : LinReg R, linearRegression (realArr x) (flArr y) (.mat (realArr nj)) = .ok g ∧
      linearRegression (realArr x) (flArr y) (.mat (realArr fun i r => k * nj i r)) = .ok g' ∧
      g'.slope = g.slope ∧ g'.intercept = g.intercept := by
  have hk' := hk.ne'
  have aux : ∀ r, let X := fun i => x i r; let N := fun i => nj i r
      rWS X (fun i => k * N i) = rWS X N ∧ rWI X (fun i => k * N i) = rWI X N := by
    intro r X N
    have e0 : rV0 (fun i => k * N i) = k * rV0 N := by rw [rV0, rV0, Finset.mul_sum]
    have e1 : rV1 X (fun i => k * N i) = k * rV1 X N := by
      rw [rV1, rV1, Finset.mul_sum]; apply Finset.sum_congr rfl; intros; ring
    have e2 : rV2 X (fun i => k * N i) = k * rV2 X N := by
      rw [rV2, rV2, Finset.mul_sum]; apply Finset.sum_congr rfl; intros; ring
    have eD : rD X (fun i => k * N i) = k ^ 2 * rD X N := by rw [rD, rD, e0, e1, e2]; ring
    constructor <;> funext i
    · rw [rWS, rWS, eD, e0, e1, show k * N i * (k * rV0 N * X i - k * rV1 X N)
        = k ^ 2 * (N i * (rV0 N * X i - rV1 X N)) by ring, mul_div_mul_left _ _ (pow_ne_zero 2 hk')]
    · rw [rWI, rWI, eD, e2, e1, show k * N i * (k * rV2 X N - k * rV1 X N * X i)
        = k ^ 2 * (N i * (rV2 X N - rV1 X N * X i)) by ring, mul_div_mul_left _ _ (pow_ne_zero 2 hk')]
  refine ⟨_, _, lin_ok _ _ _, lin_ok _ _ _, ?_, ?_⟩ <;> funext r <;> show dotB _ _ = dotB _ _
  · have hD := (rD_pos (fun i => x i r) (fun i => nj i r) (fun i => hn i r) (hx r)).ne'
    have hD' := (rD_pos (fun i => x i r) (fun i => k * nj i r) (fun i => mul_pos hk (hn i r)) (hx r)).ne'
    rw [slope_col _ _ _ hD, slope_col _ _ _ hD', (aux r).1]
  · have hD := (rD_pos (fun i => x i r) (fun i => nj i r) (fun i => hn i r) (hx r)).ne'
    have hD' := (rD_pos (fun i => x i r) (fun i => k * nj i r) (fun i => mul_pos hk (hn i r)) (hx r)).ne'
    rw [inter_col _ _ _ hD, inter_col _ _ _ hD', (aux r).2]

/-- C24 (abscissae): translating the abscissae by `t` leaves the slope unchanged, for arbitrary data (infinities
and NaN included); only the position of the scales relative to one another matters. -/
theorem C24_translation_invariant (x nj : Fin n → Fin R → ℝ) (y : Fin n → Fin R → Fl) (t : Fin R → ℝ)
    (hn : ∀ i r, 0 < nj i r) (hx : ∀ r, ∃ i i', x i r ≠ x i' r) :
    ∃ g g' : LinReg R, linearRegression (realArr x) (flArr y) (.mat (realArr nj)) = .ok g ∧
      linearRegression (realArr fun i r => x i r + t r) (flArr y) (.mat (realArr nj)) = .ok g' ∧
      g'.slope = g.slope ∧ g'.var = g.var := by
  have aux : ∀ r, let X := fun i => x i r; let N := fun i => nj i r
      rWS (fun i => X i + t r) N = rWS X N ∧ rD (fun i => X i + t r) N = rD X N := by
    intro r X N
    have e1 : rV1 (fun i => X i + t r) N = rV1 X N + t r * rV0 N := by
      rw [rV1, rV1, rV0, Finset.mul_sum, ← Finset.sum_add_distrib]
      apply Finset.sum_congr rfl; intros; ring
    have e2 : rV2 (fun i => X i + t r) N = rV2 X N + 2 * t r * rV1 X N + t r ^ 2 * rV0 N := by
      rw [rV2, rV2, rV1, rV0, Finset.mul_sum, Finset.mul_sum, ← Finset.sum_add_distrib,
        ← Finset.sum_add_distrib]
      apply Finset.sum_congr rfl; intros; ring
    have eD : rD (fun i => X i + t r) N = rD X N := by rw [rD, rD, e1, e2]; ring
    refine ⟨?_, eD⟩
    funext i
    rw [rWS, rWS, eD, e1]; congr 2; ring
  refine ⟨_, _, lin_ok _ _ _, lin_ok _ _ _, ?_, ?_⟩ <;> funext r
  · show dotB _ _ = dotB _ _
    have hD := (rD_pos (fun i => x i r) (fun i => nj i r) (fun i => hn i r) (hx r)).ne'
    rw [slope_col _ _ _ hD, slope_col (fun i => x i r + t r) _ _ (by rw [(aux r).2]; exact hD), (aux r).1]
  · show lrVar _ _ = lrVar _ _
    have hD := (rD_pos (fun i => x i r) (fun i => nj i r) (fun i => hn i r) (hx r)).ne'
    rw [lrVar, lrVar, lrWSlope_fin _ _ hD,
      lrWSlope_fin (fun i => x i r + t r) _ (by rw [(aux r).2]; exact hD), (aux r).1]

/-- C25: the variance returned by `return_variance=True` is that of the slope estimate `Σ w_i y_i` (the linear
form giving the slope) for independent `y_i` of variance `1/nj_i`; it equals `V0/(V0 V2 - V1^2) > 0`. -/
theorem C25_slope_variance (x nj : Fin n → Fin R → ℝ) (hn : ∀ i r, 0 < nj i r)
    (hx : ∀ r, ∃ i i', x i r ≠ x i' r) (r : Fin R) :
    ∃ w : Fin n → ℝ,
      (∀ y : Fin n → Fin R → ℝ, ∃ g : LinReg R,
        linearRegression (realArr x) (realArr y) (.mat (realArr nj)) = .ok g ∧
        g.slope r = Fl.fin (∑ i, w i * y i r) ∧ g.var r = Fl.fin (∑ i, (w i) ^ 2 * (1 / nj i r))) ∧
      ∑ i, (w i) ^ 2 * (1 / nj i r)
        = (∑ i, nj i r) / ((∑ i, nj i r) * (∑ i, nj i r * x i r ^ 2) - (∑ i, nj i r * x i r) ^ 2) ∧
      0 < ∑ i, (w i) ^ 2 * (1 / nj i r) := by
  set X := fun i => x i r with hX
  set N := fun i => nj i r with hN
  have hDp : 0 < rD X N := rD_pos X N (fun i => hn i r) (hx r)
  have hD := hDp.ne'
  have hNi : ∀ i, N i ≠ 0 := fun i => (hn i r).ne'
  have e2 : rV2 X N = ∑ i, nj i r * x i r ^ 2 := by
    rw [rV2]; apply Finset.sum_congr rfl; intros; rw [hX, hN]; ring
  have hform : ∑ i, rWS X N i ^ 2 * (1 / nj i r) = rV0 N / rD X N := by
    have h1 : ∑ i, rWS X N i ^ 2 * (1 / nj i r)
        = (∑ i, N i * (rV0 N * X i - rV1 X N) ^ 2) / rD X N ^ 2 := by
      rw [Finset.sum_div]; apply Finset.sum_congr rfl; intro i _
      have := hNi i
      show _ ^ 2 * (1 / N i) = _
      rw [rWS]; field_simp
    have h2 : ∑ i, N i * (rV0 N * X i - rV1 X N) ^ 2 = rV0 N * rD X N := by
      have : ∑ i, N i * (rV0 N * X i - rV1 X N) ^ 2
          = rV0 N ^ 2 * rV2 X N - 2 * rV0 N * rV1 X N * rV1 X N + rV1 X N ^ 2 * rV0 N := by
        conv_rhs => arg 1; arg 1; arg 2; rw [rV2]
        conv_rhs => arg 1; arg 2; arg 2; rw [rV1]
        conv_rhs => arg 2; arg 2; rw [rV0]
        rw [Finset.mul_sum, Finset.mul_sum, Finset.mul_sum, ← Finset.sum_sub_distrib,
          ← Finset.sum_add_distrib]
        apply Finset.sum_congr rfl; intros; ring
      rw [this, rD]; ring
    rw [h1, h2, pow_two, mul_div_mul_right _ _ hD]
  refine ⟨rWS X N, fun y => ⟨_, by rw [realArr_eq_flArr y, lin_ok], ?_, ?_⟩, ?_, ?_⟩
  · show dotB _ _ = _
    rw [slope_col _ _ _ hD]; simp only [Fl.fin_mul, Fl.sum_fin]
  · show lrVar _ _ = _
    rw [lrVar, lrWSlope_fin _ _ hD, finCol, finCol, zipWith_ofFn, List.sum_ofFn]
    simp only [Fl.fin_div (hn _ r).ne', Fl.fin_mul, Fl.sum_fin]
    congr 1; apply Finset.sum_congr rfl; intros; rw [hN]; ring
  · rw [hform, ← e2, rD]; rw [show (∑ i, nj i r * x i r) = rV1 X N from rfl, pow_two]; rfl
  · rw [hform]
    obtain ⟨i, _⟩ := hx r
    exact div_pos (Finset.sum_pos (fun i _ => hn i r) ⟨i, Finset.mem_univ _⟩) hDp

/-- C26: if all abscissae coincide (in particular for a single scale), slope and intercept are NaN, whatever the
data and the weights. -/
theorem C26_degenerate_nan (hpos : 0 < n) (c : Fin R → ℝ) (nj : Fin n → Fin R → ℝ) (y : Fin n → Fin R → Fl) :
    ∃ g : LinReg R, linearRegression (realArr fun (_ : Fin n) r => c r) (flArr y) (.mat (realArr nj)) = .ok g ∧
      ∀ r, g.slope r = Fl.nan ∧ g.intercept r = Fl.nan := by
  refine ⟨_, lin_ok _ _ _, fun r => ?_⟩
  set X : Fin n → ℝ := fun _ => c r with hX
  set N := fun i => nj i r with hN
  have e1 : rV1 X N = rV0 N * c r := by rw [rV1, rV0, Finset.sum_mul]
  have e2 : rV2 X N = rV0 N * (c r * c r) := by rw [rV2, rV0, Finset.sum_mul]
  have z : Fl.fin 0 * (Fl.fin 0)⁻¹ = Fl.nan := by
    show Fl.fin 0 * (if (0:ℝ) = 0 then Fl.pinf else _) = _
    rw [if_pos rfl, Fl.fin_mul_pinf, Fl.sgnInf_zero]
  have hS : lrWSlope (finCol X) (finCol N) = List.ofFn (fun _ : Fin n => Fl.nan) := by
    rw [lrWSlope, lrV0_fin, lrV1_fin, lrV2_fin, finCol, finCol, zipWith_ofFn]
    congr 1; funext i
    simp only [Fl.fin_mul, Fl.fin_sub]
    rw [e1, e2, Fl.div_def]
    rw [show rV0 N * (rV0 N * (c r * c r)) - rV0 N * c r * (rV0 N * c r) = 0 by ring,
      show N i * (rV0 N * X i - rV0 N * c r) = 0 by rw [hX]; ring, z]
  have hI : lrWInter (finCol X) (finCol N) = List.ofFn (fun _ : Fin n => Fl.nan) := by
    rw [lrWInter, lrV0_fin, lrV1_fin, lrV2_fin, finCol, finCol, zipWith_ofFn]
    congr 1; funext i
    simp only [Fl.fin_mul, Fl.fin_sub]
    rw [e1, e2, Fl.div_def]
    rw [show rV0 N * (rV0 N * (c r * c r)) - rV0 N * c r * (rV0 N * c r) = 0 by ring,
      show N i * (rV0 N * (c r * c r) - rV0 N * c r * X i) = 0 by rw [hX]; ring, z]
  have hs : ∀ y : Fin n → Fl, ∑ i, Fl.nan * y i = Fl.nan := by
    intro y
    obtain ⟨m, rfl⟩ := Nat.exists_eq_succ_of_ne_zero hpos.ne'
    rw [Fin.sum_univ_succ]; simp
  constructor
  · show dotB _ _ = _; rw [hS, dotB_ofFn, hs]
  · show dotB _ _ = _; rw [hI, dotB_ofFn, hs]

/-- Non-vacuity of C26: one scale `j1 = j2 = 3`, one realisation, weight 12, datum 5. -/
example : ∃ g : LinReg 1, linearRegression (realArr fun (_ : Fin 1) _ => 3) (flArr fun (_ : Fin 1) _ => Fl.fin 5)
    (.mat (realArr fun (_ : Fin 1) _ => 12)) = .ok g ∧ g.slope 0 = Fl.nan := by
  obtain ⟨g, h, h'⟩ := C26_degenerate_nan (n := 1) one_pos (fun _ : Fin 1 => 3) (fun _ _ => 12)
    (fun _ _ => Fl.fin 5)
  exact ⟨g, h, (h' 0).1⟩

end MFA
