import Verif.Lemmas.Dft2

/-!
# C83: `fract_int_2d` is fractional integration
-/

namespace MFA

open Classical Finset

noncomputable section

variable {N R : ℕ}

theorem addIdx_addIdx (k : Fin N) : addIdx (N - N / 2) (addIdx (N / 2) k) = k := by
  have := k.isLt
  refine Fin.ext ?_
  simp only [addIdx]
  rw [Nat.mod_add_mod, show (k : ℕ) + N / 2 + (N - N / 2) = k + N by omega, Nat.add_mod_right, Nat.mod_eq_of_lt k.isLt]

theorem addIdx_freq (k : Fin N) : ((addIdx (N / 2) k : ℕ) : ℤ) - (N / 2 : ℕ) = freq N k := by
  have := k.isLt
  unfold addIdx freq
  simp only []
  split
  · rw [Nat.mod_eq_of_lt (by omega)]; omega
  · rw [Nat.mod_eq_sub_mod (by omega), Nat.mod_eq_of_lt (by omega)]; omega

theorem addIdx_real (k : Fin N) : ((addIdx (N / 2) k : ℕ) : ℝ) - (N : ℝ) / 2 = (freq N k : ℝ) - ((N % 2 : ℕ) : ℝ) / 2 := by
  rw [← addIdx_freq k]
  have h : (N : ℝ) = 2 * ((N / 2 : ℕ) : ℝ) + ((N % 2 : ℕ) : ℝ) := by
    exact_mod_cast (Nat.div_add_mod N 2).symm
  rw [Int.cast_sub, Int.cast_natCast, Int.cast_natCast]
  linarith

theorem freq_neg (k : Fin N) : freq N (negIdx k) = if 2 * (k : ℕ) = N then freq N k else -freq N k := by
  have := k.isLt
  by_cases h0 : (k : ℕ) = 0
  · unfold freq negIdx
    simp [h0]
    omega
  · have : ((negIdx k : Fin N) : ℕ) = N - k := by
      unfold negIdx; simp only []; rw [Nat.mod_eq_of_lt (by omega)]
    unfold freq
    rw [this]
    split_ifs <;> push_cast [Nat.cast_sub k.isLt.le] <;> omega

theorem mem_fractNonzero (v : ℝ) : v ∈ fractNonzero N ↔ v ≠ 0 ∧ ∃ i j, fractDist N i j = v := by
  unfold fractNonzero
  simp only [List.mem_filter, List.mem_flatMap, List.mem_finRange, List.mem_map, true_and, decide_eq_true_eq]
  tauto

theorem fractMin (hN : N ≠ 0) : ∃ m, (fractNonzero N).min? = some m ∧ (Even N → m = 1) := by
  have hne : (fractNonzero N).min? ≠ none := by
    rw [ne_eq, List.min?_eq_none_iff]
    intro h
    have hpos : 0 < N := by omega
    have : fractDist N ⟨0, hpos⟩ ⟨0, hpos⟩ ∈ fractNonzero N := by
      rw [mem_fractNonzero]
      refine ⟨?_, _, _, rfl⟩
      unfold fractDist
      have : (0:ℝ) < N := by exact_mod_cast hpos
      simp only [CharP.cast_eq_zero, zero_sub, ne_eq]
      rw [Real.sqrt_eq_zero (by positivity)]
      have : (0:ℝ) < (-((N : ℝ) / 2)) ^ 2 := by rw [neg_sq]; positivity
      linarith
    rw [h] at this
    simp at this
  obtain ⟨m, hm⟩ := Option.ne_none_iff_exists'.1 hne
  refine ⟨m, hm, ?_⟩
  rintro ⟨K, rfl⟩
  rw [List.min?_eq_some_iff] at hm
  obtain ⟨h1, h2⟩ := hm
  have cast : ∀ i : Fin (K + K), ((i : ℕ) : ℝ) - ((K + K : ℕ) : ℝ) / 2 = (((i : ℤ) - K : ℤ) : ℝ) := by
    intro i; push_cast; ring
  apply le_antisymm
  · refine h2 1 ?_
    rw [mem_fractNonzero]
    refine ⟨one_ne_zero, ⟨K - 1, by omega⟩, ⟨K, by omega⟩, ?_⟩
    unfold fractDist
    rw [cast, cast]
    have : (((K - 1 : ℕ) : ℤ) - K : ℤ) = -1 := by omega
    simp only [this]
    simp
  · obtain ⟨h0, i, j, rfl⟩ := (mem_fractNonzero m).1 h1
    unfold fractDist at h0 ⊢
    rw [cast, cast] at h0 ⊢
    rw [Real.le_sqrt' one_pos]
    have hz : (((i : ℤ) - K) ^ 2 + ((j : ℤ) - K) ^ 2 : ℤ) ≠ 0 := by
      intro hz
      apply h0
      have : ((((i : ℤ) - K : ℤ) : ℝ) ^ 2 + (((j : ℤ) - K : ℤ) : ℝ) ^ 2) = 0 := by exact_mod_cast hz
      rw [this, Real.sqrt_zero]
    have : (1 : ℤ) ≤ ((i : ℤ) - K) ^ 2 + ((j : ℤ) - K) ^ 2 := by
      have := add_nonneg (sq_nonneg ((i : ℤ) - K)) (sq_nonneg ((j : ℤ) - K))
      omega
    have h3 : ((1 : ℤ) : ℝ) ≤ (((((i : ℤ) - K) ^ 2 + ((j : ℤ) - K) ^ 2 : ℤ)) : ℝ) := by exact_mod_cast this
    push_cast at h3 ⊢
    linarith

/-- The multiplier at unshifted frequency `(k, l)`. -/
def fractMul (N : ℕ) (m alpha : ℝ) (k l : Fin N) : ℝ :=
  let d := fractDist N (addIdx (N / 2) k) (addIdx (N / 2) l)
  1 / (if d = 0 then m else d) ^ alpha

theorem fract_spectrum {m : ℝ} (hm : (fractNonzero N).min? = some m) (x : Sq N R ℝ) (alpha : ℝ) :
    ∃ y, fractInt2d x alpha = .ok y ∧ ∀ k l r, spectrum2 (fun a b => y a b r) k l =
      spectrum2 (fun a b => x a b r) k l * (((fractMul N m alpha k l + fractMul N m alpha (negIdx k) (negIdx l)) / 2 : ℝ) : ℂ) := by
  unfold fractInt2d
  rw [hm]
  refine ⟨_, rfl, fun k l r => ?_⟩
  refine (fft2_re (ifft2 _) k l r).trans ?_
  rw [spectrum2_eq, fft2_ifft2]
  simp only [ifftshift, fftshift, addIdx_addIdx]
  have hc := fft2_conj (fun a b r => (x a b r : ℂ)) k l r
  simp only [Complex.conj_ofReal] at hc
  rw [map_mul, hc, Complex.conj_ofReal]
  simp only [fractMul]
  push_cast
  ring

theorem fractMul_even (hE : Even N) (alpha : ℝ) (k l : Fin N) : fractMul N 1 alpha k l = 1 / radial N k l ^ alpha := by
  have h2 : N % 2 = 0 := Nat.even_iff.1 hE
  unfold fractMul fractDist
  simp only []
  rw [addIdx_real, addIdx_real, h2]
  simp only [CharP.cast_eq_zero, zero_div, sub_zero]
  unfold radial
  by_cases hz : freq N k = 0 ∧ freq N l = 0
  · rw [if_pos hz, if_pos]
    rw [hz.1, hz.2]
    simp
  · rw [if_neg hz, if_neg]
    rw [Real.sqrt_eq_zero (by positivity)]
    intro h
    apply hz
    have h1 : (freq N k : ℝ) ^ 2 = 0 := by nlinarith [sq_nonneg (freq N k : ℝ), sq_nonneg (freq N l : ℝ)]
    have h3 : (freq N l : ℝ) ^ 2 = 0 := by nlinarith [sq_nonneg (freq N k : ℝ), sq_nonneg (freq N l : ℝ)]
    exact ⟨by exact_mod_cast pow_eq_zero_iff (two_ne_zero) |>.1 h1, by exact_mod_cast pow_eq_zero_iff (two_ne_zero) |>.1 h3⟩

theorem radial_neg (k l : Fin N) : radial N (negIdx k) (negIdx l) = radial N k l := by
  have h1 : (freq N (negIdx k) : ℝ) ^ 2 = (freq N k : ℝ) ^ 2 := by
    rw [freq_neg]; split <;> push_cast <;> ring
  have h2 : (freq N (negIdx l) : ℝ) ^ 2 = (freq N l : ℝ) ^ 2 := by
    rw [freq_neg]; split <;> push_cast <;> ring
  have h3 : ∀ k : Fin N, freq N (negIdx k) = 0 ↔ freq N k = 0 := by
    intro k; rw [freq_neg]; split <;> omega
  unfold radial
  rw [h1, h2]
  simp only [h3]

theorem radial_ge_one (k l : Fin N) : 1 ≤ radial N k l := by
  unfold radial
  split
  · exact le_rfl
  · rename_i h
    rw [Real.le_sqrt' one_pos]
    have : (1 : ℤ) ≤ freq N k ^ 2 + freq N l ^ 2 := by
      by_contra hc
      have a := sq_nonneg (freq N k)
      have b := sq_nonneg (freq N l)
      have h1 : freq N k ^ 2 = 0 := by omega
      have h2 : freq N l ^ 2 = 0 := by omega
      exact h ⟨pow_eq_zero_iff two_ne_zero |>.1 h1, pow_eq_zero_iff two_ne_zero |>.1 h2⟩
    have h3 : ((1 : ℤ) : ℝ) ≤ ((freq N k ^ 2 + freq N l ^ 2 : ℤ) : ℝ) := by exact_mod_cast this
    push_cast at h3 ⊢
    linarith

/-- **C83**.  For every image of even size `N >= 2`, every number of realisations and every order `alpha`, `fract_int_2d` returns
the image whose Fourier coefficients are those of `x` divided by `|frequency|^alpha` (taken as 1 at the origin): taking the real
part loses nothing.  On an empty image it raises ValueError. -/
theorem C83_filter (hE : Even N) (x : Sq N R ℝ) (alpha : ℝ) :
    (N ≠ 0 → ∃ y, fractInt2d x alpha = .ok y ∧
      ∀ k l r, spectrum2 (fun a b => y a b r) k l = spectrum2 (fun a b => x a b r) k l / ((radial N k l ^ alpha : ℝ) : ℂ)) ∧
    (N = 0 → fractInt2d x alpha = .error .valueError) := by
  constructor
  · intro hN
    obtain ⟨m, hm, h1⟩ := fractMin hN
    obtain ⟨y, hy, hs⟩ := fract_spectrum hm x alpha
    refine ⟨y, hy, fun k l r => ?_⟩
    rw [hs, h1 hE, fractMul_even hE, fractMul_even hE, radial_neg]
    rw [add_self_div_two]
    push_cast
    rw [mul_one_div]
  · rintro rfl
    rfl

/-- **C83**, odd sizes ("assumes size of x divisible by two"): the filter is off by half a frequency in both directions, and the
real part averages it over opposite frequencies; in particular the mean of the image is multiplied by `2^(alpha/2)`. -/
theorem C83_odd (hO : Odd N) (x : Sq N R ℝ) (alpha : ℝ) :
    ∃ y, fractInt2d x alpha = .ok y ∧
      (∀ k l r, spectrum2 (fun a b => y a b r) k l = spectrum2 (fun a b => x a b r) k l *
        (((1 / Real.sqrt (((freq N k : ℝ) - 1 / 2) ^ 2 + ((freq N l : ℝ) - 1 / 2) ^ 2) ^ alpha
          + 1 / Real.sqrt (((freq N k : ℝ) + 1 / 2) ^ 2 + ((freq N l : ℝ) + 1 / 2) ^ 2) ^ alpha) / 2 : ℝ) : ℂ)) ∧
      ∀ r, ∑ a, ∑ b, y a b r = 2 ^ (alpha / 2) * ∑ a, ∑ b, x a b r := by
  have hN : N ≠ 0 := by rintro rfl; simp at hO
  have h2 : N % 2 = 1 := Nat.odd_iff.1 hO
  obtain ⟨m, hm, -⟩ := fractMin hN
  obtain ⟨y, hy, hs⟩ := fract_spectrum hm x alpha
  have hmul : ∀ k l : Fin N, fractMul N m alpha k l = 1 / Real.sqrt (((freq N k : ℝ) - 1 / 2) ^ 2 + ((freq N l : ℝ) - 1 / 2) ^ 2) ^ alpha := by
    intro k l
    unfold fractMul fractDist
    simp only []
    rw [addIdx_real, addIdx_real, h2]
    rw [if_neg]
    · norm_num
    · have hne : ∀ k : Fin N, ((freq N k : ℝ) - ((1 : ℕ) : ℝ) / 2) ≠ 0 := by
        intro k h
        have h3 : (((2 * freq N k : ℤ)) : ℝ) = ((1 : ℤ) : ℝ) := by push_cast at h ⊢; linarith
        have h4 : 2 * freq N k = 1 := by exact_mod_cast h3
        omega
      have := hne k
      have := hne l
      positivity
  have hneg : ∀ k : Fin N, (freq N (negIdx k) : ℝ) = -freq N k := by
    intro k; rw [freq_neg, if_neg (by omega)]; push_cast; rfl
  have hs' : ∀ k l r, spectrum2 (fun a b => y a b r) k l = spectrum2 (fun a b => x a b r) k l *
        (((1 / Real.sqrt (((freq N k : ℝ) - 1 / 2) ^ 2 + ((freq N l : ℝ) - 1 / 2) ^ 2) ^ alpha
          + 1 / Real.sqrt (((freq N k : ℝ) + 1 / 2) ^ 2 + ((freq N l : ℝ) + 1 / 2) ^ 2) ^ alpha) / 2 : ℝ) : ℂ) := by
    intro k l r
    rw [hs, hmul, hmul, hneg, hneg]
    have e : ∀ t : ℝ, (-t - 1 / 2) ^ 2 = (t + 1 / 2) ^ 2 := fun t => by ring
    rw [e, e]
  refine ⟨y, hy, hs', fun r => ?_⟩
  have h0 := hs' ⟨0, by omega⟩ ⟨0, by omega⟩ r
  have hf : freq N ⟨0, by omega⟩ = 0 := by
    unfold freq; simp
    try omega
  rw [hf] at h0
  have hh : Real.sqrt ((((0:ℤ) : ℝ) - 1 / 2) ^ 2 + (((0:ℤ) : ℝ) - 1 / 2) ^ 2) = 2 ^ (-(1 / 2) : ℝ) := by
    rw [Real.sqrt_eq_rpow, Real.rpow_neg (by norm_num), ← Real.inv_rpow (by norm_num)]; norm_num
  have hh' : Real.sqrt ((((0:ℤ) : ℝ) + 1 / 2) ^ 2 + (((0:ℤ) : ℝ) + 1 / 2) ^ 2) = 2 ^ (-(1 / 2) : ℝ) := by
    rw [← hh]; norm_num
  rw [hh, hh', add_self_div_two, ← Real.rpow_mul (by norm_num), one_div, ← Real.rpow_neg (by norm_num)] at h0
  unfold spectrum2 at h0
  simp only [CharP.cast_eq_zero, zero_mul, add_zero, mul_zero, zero_div, neg_zero, Complex.exp_zero, mul_one] at h0
  have h3 : ((∑ a, ∑ b, y a b r : ℝ) : ℂ) = ((2 ^ (alpha / 2) * ∑ a, ∑ b, x a b r : ℝ) : ℂ) := by
    push_cast
    rw [h0, mul_comm]
    congr 2
    ring_nf
  exact_mod_cast h3

/-- The result of `fract_int_2d` on an even, non-empty image. -/
theorem fract_unique (hE : Even N) {x y : Sq N R ℝ} {alpha : ℝ}
    (h : ∀ k l r, spectrum2 (fun a b => y a b r) k l = spectrum2 (fun a b => x a b r) k l / ((radial N k l ^ alpha : ℝ) : ℂ))
    (hN : N ≠ 0) : fractInt2d x alpha = .ok y := by
  obtain ⟨y', hy', hs⟩ := (C83_filter hE x alpha).1 hN
  rw [hy']
  congr 1
  exact spectrum2_ext fun k l r => by rw [hs, h]

theorem fract_spec (hE : Even N) {x y : Sq N R ℝ} {alpha : ℝ} (hy : fractInt2d x alpha = .ok y) (k l : Fin N) (r : Fin R) :
    spectrum2 (fun a b => y a b r) k l = spectrum2 (fun a b => x a b r) k l / ((radial N k l ^ alpha : ℝ) : ℂ) := by
  have hN : N ≠ 0 := by have := k.isLt; omega
  obtain ⟨y', hy', hs⟩ := (C83_filter hE x alpha).1 hN
  rw [hy] at hy'
  cases hy'
  exact hs k l r

theorem radial_pos (k l : Fin N) : 0 < radial N k l := lt_of_lt_of_le one_pos (radial_ge_one k l)

/-- **C83**, linearity in the image. -/
theorem C83_linear (hE : Even N) {x x' y y' : Sq N R ℝ} {alpha : ℝ} (hy : fractInt2d x alpha = .ok y) (hy' : fractInt2d x' alpha = .ok y')
    (c c' : ℝ) (hN : N ≠ 0) :
    fractInt2d (fun a b r => c * x a b r + c' * x' a b r) alpha = .ok fun a b r => c * y a b r + c' * y' a b r := by
  have hlin : ∀ (u v : Sq N R ℝ) k l r, spectrum2 (fun a b => c * u a b r + c' * v a b r) k l =
      c * spectrum2 (fun a b => u a b r) k l + c' * spectrum2 (fun a b => v a b r) k l := by
    intro u v k l r
    unfold spectrum2
    rw [mul_sum, mul_sum, ← sum_add_distrib]
    refine sum_congr rfl fun a _ => ?_
    rw [mul_sum, mul_sum, ← sum_add_distrib]
    refine sum_congr rfl fun b _ => ?_
    push_cast
    ring
  refine fract_unique hE (fun k l r => ?_) hN
  rw [hlin, hlin, fract_spec hE hy, fract_spec hE hy']
  ring

/-- **C83**, orders add up: integrating by `alpha`, then by `beta`, is integrating by `alpha + beta`; order 0 changes nothing.  So
order `-alpha` undoes order `alpha`. -/
theorem C83_semigroup (hE : Even N) (hN : N ≠ 0) (x : Sq N R ℝ) :
    fractInt2d x 0 = .ok x ∧
    ∀ alpha beta y, fractInt2d x alpha = .ok y → fractInt2d y beta = fractInt2d x (alpha + beta) := by
  refine ⟨fract_unique hE (fun k l r => by simp) hN, fun alpha beta y hy => ?_⟩
  obtain ⟨z, hz, hs⟩ := (C83_filter hE x (alpha + beta)).1 hN
  rw [hz]
  refine fract_unique hE (fun k l r => ?_) hN
  rw [hs, fract_spec hE hy, div_div, Real.rpow_add (radial_pos k l)]
  push_cast
  rfl

/-- **C83**: the mean of every realisation is preserved. -/
theorem C83_mean (hE : Even N) {x y : Sq N R ℝ} {alpha : ℝ} (hy : fractInt2d x alpha = .ok y) (r : Fin R) :
    ∑ a, ∑ b, y a b r = ∑ a, ∑ b, x a b r := by
  by_cases hN : N = 0
  · subst hN; simp
  have h0 := fract_spec hE hy ⟨0, by omega⟩ ⟨0, by omega⟩ r
  have hf : freq N ⟨0, by omega⟩ = 0 := by
    unfold freq; simp
    try omega
  rw [radial, if_pos ⟨hf, hf⟩, Real.one_rpow] at h0
  unfold spectrum2 at h0
  simp only [CharP.cast_eq_zero, zero_mul, add_zero, mul_zero, zero_div, neg_zero, Complex.exp_zero, mul_one, Complex.ofReal_one,
    div_one] at h0
  exact_mod_cast h0

/-- **C83**: integration does not increase the energy of the image (`alpha >= 0`); derivation does not decrease it. -/
theorem C83_energy (hE : Even N) {x y : Sq N R ℝ} {alpha : ℝ} (hy : fractInt2d x alpha = .ok y) (r : Fin R) :
    (0 ≤ alpha → ∑ a, ∑ b, y a b r ^ 2 ≤ ∑ a, ∑ b, x a b r ^ 2) ∧ (alpha ≤ 0 → ∑ a, ∑ b, x a b r ^ 2 ≤ ∑ a, ∑ b, y a b r ^ 2) := by
  by_cases hN : N = 0
  · subst hN; simp
  have hNpos : (0:ℝ) < (N : ℝ) ^ 2 := by positivity
  have hp : ∀ z : Sq N R ℝ, ∑ k, ∑ l, Complex.normSq (spectrum2 (fun a b => z a b r) k l) = (N : ℝ) ^ 2 * ∑ a, ∑ b, z a b r ^ 2 := by
    intro z
    have := parseval2 (fun a b r => (z a b r : ℂ)) r
    simp only [Complex.normSq_ofReal, ← sq] at this
    exact this
  have hn : ∀ k l, Complex.normSq (spectrum2 (fun a b => y a b r) k l) =
      Complex.normSq (spectrum2 (fun a b => x a b r) k l) / (radial N k l ^ alpha) ^ 2 := by
    intro k l
    rw [fract_spec hE hy, Complex.normSq_div, Complex.normSq_ofReal, sq]
  constructor
  · intro ha
    refine le_of_mul_le_mul_left ?_ hNpos
    rw [← hp, ← hp]
    refine sum_le_sum fun k _ => sum_le_sum fun l _ => ?_
    rw [hn]
    exact div_le_self (Complex.normSq_nonneg _) (one_le_pow₀ (Real.one_le_rpow (radial_ge_one k l) ha))
  · intro ha
    refine le_of_mul_le_mul_left ?_ hNpos
    rw [← hp, ← hp]
    refine sum_le_sum fun k _ => sum_le_sum fun l _ => ?_
    rw [hn]
    have h1 : radial N k l ^ alpha ≤ 1 := Real.rpow_le_one_of_one_le_of_nonpos (radial_ge_one k l) ha
    have h2 : 0 < radial N k l ^ alpha := Real.rpow_pos_of_pos (radial_pos k l) _
    rw [le_div_iff₀ (by positivity)]
    exact mul_le_of_le_one_right (Complex.normSq_nonneg _) (pow_le_one₀ h2.le h1)

theorem fwd_translate [NeZero N] (v : Fin N → ℂ) (s k : Fin N) : fwd (fun a => v (a - s)) k = ee N (-((k : ℤ) * s)) * fwd v k := by
  have hN : N ≠ 0 := NeZero.ne N
  unfold fwd
  rw [← Equiv.sum_comp (Equiv.addRight s), mul_sum]
  refine sum_congr rfl fun a _ => ?_
  simp only [Equiv.coe_addRight, add_sub_cancel_right]
  have h1 : ((a + s : Fin N) : ℕ) = ((a : ℕ) + s) % N := Fin.val_add a s
  have h2 : (((a + s : Fin N) : ℕ) : ℤ) = (a : ℤ) + s - N * ((((a : ℕ) + s) / N : ℕ) : ℤ) := by
    rw [h1]
    have := Nat.div_add_mod ((a : ℕ) + s) N
    have h3 : ((N * (((a : ℕ) + s) / N) + ((a : ℕ) + s) % N : ℕ) : ℤ) = ((a : ℕ) + s : ℕ) := by rw [this]
    rw [Nat.cast_add, Nat.cast_add, Nat.cast_mul] at h3
    linarith
  rw [h2, show -((k : ℤ) * ((a : ℤ) + s - N * ((((a : ℕ) + s) / N : ℕ) : ℤ))) =
    -((k : ℤ) * s) + -((k : ℤ) * a) + N * (k * ((((a : ℕ) + s) / N : ℕ) : ℤ)) by ring, ee_periodic hN, ee_add]
  ring

theorem spectrum2_translate [NeZero N] (z : Fin N → Fin N → ℝ) (s t k l : Fin N) : spectrum2 (fun a b => translate s t z a b) k l =
    ee N (-((k : ℤ) * s)) * ee N (-((l : ℤ) * t)) * spectrum2 z k l := by
  have e1 := spectrum2_eq (R := 1) (fun a b _ => translate s t z a b) k l 0
  have e2 := spectrum2_eq (R := 1) (fun a b _ => z a b) k l 0
  rw [e1, fft2_eq, e2, fft2_eq]
  simp only [translate]
  have : ∀ a, fwd (fun b => (z (a - s) (b - t) : ℂ)) l = ee N (-((l : ℤ) * t)) * fwd (fun b => (z (a - s) b : ℂ)) l :=
    fun a => fwd_translate (fun b => (z (a - s) b : ℂ)) t l
  simp_rw [this]
  have h2 := fwd_translate (fun a => ee N (-((l : ℤ) * t)) * fwd (fun b => (z a b : ℂ)) l) s k
  rw [h2, mul_assoc]
  congr 1
  unfold fwd
  rw [mul_sum]
  exact sum_congr rfl fun a _ => by ring

/-- **C83**: fractional integration commutes with translations of the image on the torus. -/
theorem C83_translate [NeZero N] (hE : Even N) {x y : Sq N R ℝ} {alpha : ℝ} (hy : fractInt2d x alpha = .ok y) (s t : Fin N) :
    fractInt2d (fun a b r => translate s t (fun a b => x a b r) a b) alpha =
      .ok fun a b r => translate s t (fun a b => y a b r) a b := by
  refine fract_unique hE (fun k l r => ?_) (NeZero.ne N)
  rw [spectrum2_translate, spectrum2_translate, fract_spec hE hy]
  ring

/-- C83 on a concrete size: integrating a 4 x 4 image twice, then differentiating twice, gives the image back. -/
example (x : Sq 4 1 ℝ) : ∃ y, fractInt2d x 2 = .ok y ∧ fractInt2d y (-2) = .ok x := by
  obtain ⟨y, hy, -⟩ := (C83_filter (by decide : Even 4) x 2).1 (by norm_num)
  refine ⟨y, hy, ?_⟩
  obtain ⟨h0, h1⟩ := C83_semigroup (by decide : Even 4) (by norm_num) x
  rw [h1 2 (-2) y hy, show (2:ℝ) + -2 = 0 by norm_num, h0]

end

end MFA
