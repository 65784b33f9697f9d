import Verif.Model.RoundedLevel
import Verif.Props.RoundingExact
import Verif.Props.RoundingBounds
import Verif.Props.Wavelet
import Mathlib.Analysis.Complex.ExponentialBounds

/-! C126: the decomposition level computed in floating-point arithmetic. -/

namespace MFA

open Classical

noncomputable section

/-- What is asked of division and `log2` beyond the bound on their errors: they are monotone, and exact when the result of the division, or the argument of the
logarithm, is a power of two (whose exponent is a floating-point number).  IEEE division has both properties; they are expected of `log2` in any mathematical library. -/
structure Machine.Faithful (M : Machine) : Prop where
  div_exact : ∀ {a b : ℝ} {k : ℤ}, 0 < b → a / b = 2 ^ k → M.div (Fl.fin a) (Fl.fin b) = Fl.fin (2 ^ k)
  div_mono : ∀ {a b c d x y : ℝ}, 0 < a → 0 < b → 0 < d → a / b ≤ c / d → M.div (Fl.fin a) (Fl.fin b) = Fl.fin x → M.div (Fl.fin c) (Fl.fin d) = Fl.fin y → x ≤ y
  log2_exact : ∀ k : ℤ, |(k : ℝ)| * M.u ≤ 1 → M.log2 (Fl.fin (2 ^ k)) = Fl.fin k
  log2_mono : ∀ {a b x y : ℝ}, 0 < a → a ≤ b → M.log2 (Fl.fin a) = Fl.fin x → M.log2 (Fl.fin b) = Fl.fin y → x ≤ y

theorem Machine.div_val (M : Machine) {a b : ℝ} (hb : b ≠ 0) : ∃ x, M.div (Fl.fin a) (Fl.fin b) = Fl.fin x ∧ |x - a / b| ≤ M.u * |a / b| := by
  have := M.div_ok (Fl.fin a) (Fl.fin b)
  rw [Fl.fin_div hb] at this
  exact this.fin

theorem Machine.log2_val (M : Machine) {a : ℝ} (ha : 0 < a) : ∃ x, M.log2 (Fl.fin a) = Fl.fin x ∧ |x - Real.logb 2 a| ≤ M.u * |Real.logb 2 a| := by
  have := M.log2_ok (Fl.fin a)
  rw [Fl.log2_fin ha] at this
  exact this.fin

/-- C126: the level computed in floating-point arithmetic is the exact one if `2 N (J + 2) u < 1`, where `J` is the level. -/
theorem C126_level {M : Machine} (hM : M.Faithful) {N F J : ℕ} (hF1 : 1 ≤ F) (h1 : 2 ^ J * (F + 1) ≤ N) (h2 : N < 2 ^ (J + 1) * (F + 1))
    (hu : 2 * (N : ℝ) * (J + 2) * M.u < 1) : M.maxLevel N F = .ok J ∧ MFA.maxLevel N F = .ok J := by
  have hF : (0:ℝ) < (F : ℝ) + 1 := by positivity
  have hp : (0:ℕ) < 2 ^ J := by positivity
  have hN1 : 1 ≤ N := by nlinarith
  have hNp : (0:ℝ) < N := by exact_mod_cast hN1
  have hu0 := M.u_nonneg
  have h1R : (2:ℝ) ^ J * ((F : ℝ) + 1) ≤ N := by exact_mod_cast h1
  have h2R : (N : ℝ) + 1 ≤ (2:ℝ) ^ (J + 1) * ((F : ℝ) + 1) := by exact_mod_cast h2
  have hmax : MFA.maxLevel N F = .ok J := by
    rw [maxLevel_iff (by omega)]
    rw [zpow_natCast]
    refine ⟨h1R, ?_⟩
    have : (2:ℝ) ^ ((J : ℤ) + 1) = 2 ^ (J + 1) := by exact_mod_cast zpow_natCast (2:ℝ) (J + 1)
    rw [this]; linarith
  refine ⟨?_, hmax⟩
  have hu1 : M.u < 1 := by
    have hJ : (0:ℝ) ≤ J := Nat.cast_nonneg J
    have : (1:ℝ) ≤ N := by exact_mod_cast hN1
    nlinarith [mul_nonneg hu0 hJ, mul_nonneg (mul_nonneg hu0 hJ) hNp.le, mul_nonneg hu0 hNp.le]
  obtain ⟨ρ, hρ⟩ : ∃ ρ, ρ = (N : ℝ) / ((F : ℝ) + 1) := ⟨_, rfl⟩
  have hρJ : (2:ℝ) ^ J ≤ ρ := by rw [hρ, le_div_iff₀ hF]; exact h1R
  have hρ1 : 1 ≤ ρ := le_trans (one_le_pow₀ (by norm_num)) hρJ
  obtain ⟨x, hx, hxe⟩ := M.div_val (a := (N : ℝ)) hF.ne'
  rw [← hρ] at hxe
  have hxJ : (2:ℝ) ^ J ≤ x := by
    have e := hM.div_exact (a := 2 ^ J * ((F : ℝ) + 1)) (b := (F : ℝ) + 1) (k := J) hF (by rw [mul_div_cancel_right₀ _ hF.ne', zpow_natCast])
    rw [zpow_natCast] at e
    refine hM.div_mono (by positivity) hF hF ?_ e hx
    rw [mul_div_cancel_right₀ _ hF.ne', ← hρ]; exact hρJ
  have hx1 : 1 ≤ x := le_trans (one_le_pow₀ (by norm_num)) hxJ
  obtain ⟨y, hy, hye⟩ := M.log2_val (a := x) (by linarith)
  have hyJ : (J : ℝ) ≤ y := by
    have e := hM.log2_exact J (by
      push_cast
      have hJ : (0:ℝ) ≤ J := Nat.cast_nonneg J
      have : (1:ℝ) ≤ N := by exact_mod_cast hN1
      rw [abs_of_nonneg hJ]
      nlinarith [mul_nonneg hu0 hJ, mul_nonneg (mul_nonneg hu0 hJ) hNp.le, mul_nonneg hu0 hNp.le])
    rw [zpow_natCast] at e
    have := hM.log2_mono (by positivity) hxJ e hy
    exact_mod_cast this
  have hlx : 0 ≤ Real.logb 2 x := Real.logb_nonneg (by norm_num) hx1
  -- the gap below the next power of two
  obtain ⟨δ, hδ⟩ : ∃ δ, δ = 1 / ((2:ℝ) ^ (J + 1) * ((F : ℝ) + 1)) := ⟨_, rfl⟩
  have hδN : 1 / (2 * (N : ℝ)) ≤ δ := by
    rw [hδ]
    apply one_div_le_one_div_of_le (by positivity)
    rw [pow_succ]; linarith
  have hδu : M.u * (J + 2) < δ := by
    refine lt_of_lt_of_le ?_ hδN
    rw [lt_div_iff₀ (by positivity)]
    linarith
  have hρδ : ρ ≤ 2 ^ (J + 1) * (1 - δ) := by
    rw [hρ, div_le_iff₀ hF, hδ]
    have hne : (2:ℝ) ^ (J + 1) * ((F : ℝ) + 1) ≠ 0 := by positivity
    have : (2:ℝ) ^ (J + 1) * (1 - 1 / (2 ^ (J + 1) * ((F : ℝ) + 1))) * ((F : ℝ) + 1) = 2 ^ (J + 1) * ((F : ℝ) + 1) - 1 := by
      field_simp
    rw [this]; linarith
  have hJ0 : (0:ℝ) ≤ J := Nat.cast_nonneg J
  have hδ1 : δ < 1 := by
    rw [hδ, div_lt_one (by positivity)]
    have : (1:ℝ) ≤ N := by exact_mod_cast hN1
    linarith
  have hxu : x ≤ 2 ^ (J + 1) * (1 - (δ - M.u)) := by
    have h3 : x ≤ (1 + M.u) * ρ := by
      rw [abs_of_pos (by linarith : 0 < ρ)] at hxe
      have := (abs_le.1 hxe).2
      linarith
    have h4 : (1 + M.u) * ρ ≤ (1 + M.u) * (2 ^ (J + 1) * (1 - δ)) := mul_le_mul_of_nonneg_left hρδ (by linarith)
    have h5 : (1 + M.u) * (2 ^ (J + 1) * (1 - δ)) = 2 ^ (J + 1) * (1 - (δ - M.u)) - 2 ^ (J + 1) * (M.u * δ) := by ring
    have h6 : (0:ℝ) ≤ 2 ^ (J + 1) * (M.u * δ) := mul_nonneg (by positivity) (mul_nonneg hu0 (by rw [hδ]; positivity))
    linarith
  have hgap : M.u < δ := by nlinarith
  have hlogx : Real.logb 2 x ≤ J + 1 - (δ - M.u) := by
    have h3 : Real.logb 2 x ≤ Real.logb 2 (2 ^ (J + 1) * (1 - (δ - M.u))) := Real.logb_le_logb_of_le (by norm_num) (by linarith) hxu
    rw [Real.logb_mul (by positivity) (by linarith), Real.logb_pow, Real.logb_self_eq_one (by norm_num)] at h3
    have h4 : Real.logb 2 (1 - (δ - M.u)) ≤ -(δ - M.u) := by
      rw [Real.logb, div_le_iff₀ (Real.log_pos (by norm_num))]
      have h5 := Real.log_le_sub_one_of_pos (x := 1 - (δ - M.u)) (by linarith)
      have h6 := Real.log_two_lt_d9
      nlinarith
    push_cast at h3
    linarith
  have hy2 : y < J + 1 := by
    rw [abs_of_nonneg hlx] at hye
    have h3 := (abs_le.1 hye).2
    have h4 : M.u * Real.logb 2 x ≤ M.u * (J + 1) := mul_le_mul_of_nonneg_left (by linarith) hu0
    linarith
  have hfl : ⌊y⌋ = (J : ℤ) := by
    rw [Int.floor_eq_iff]
    exact ⟨by exact_mod_cast hyJ, by exact_mod_cast hy2⟩
  obtain ⟨z, hz, -⟩ := M.log2_val hNp
  have hxN : x ≤ N := by
    have h3 : x ≤ (1 + M.u) * ρ := by
      rw [abs_of_pos (by linarith : 0 < ρ)] at hxe
      have := (abs_le.1 hxe).2
      linarith
    have : (1:ℝ) ≤ F := by exact_mod_cast hF1
    have h4 : ρ ≤ N / 2 := by rw [hρ]; apply div_le_div_of_nonneg_left hNp.le (by norm_num) (by linarith)
    nlinarith
  have hyz : y ≤ z := hM.log2_mono (by linarith) hxN hy hz
  rw [Machine.maxLevel, hx, hy]
  simp only [hz]
  rw [hfl, min_eq_right]
  rw [← hfl]
  exact Int.floor_le_floor hyz

/-- C126 in double precision (relative errors of at most `2^-52`): up to `2^44` samples, `decomposition_level` returns the exact level, the integer `J` with
`2^J (F + 1) ≤ N < 2^(J+1) (F + 1)`, for every recording at least as long as the filter plus one. -/
theorem C126_double {M : Machine} (hM : M.Faithful) (hu : M.u ≤ 1 / 2 ^ 52) {N F : ℕ} (hF : 1 ≤ F) (hFN : F + 1 ≤ N) (hN : N ≤ 2 ^ 44) :
    ∃ J : ℕ, M.maxLevel N F = .ok J ∧ 2 ^ J * (F + 1) ≤ N ∧ N < 2 ^ (J + 1) * (F + 1) := by
  obtain ⟨J, hJ⟩ : ∃ J, J = Nat.log 2 (N / (F + 1)) := ⟨_, rfl⟩
  have hq : N / (F + 1) ≠ 0 := by
    have := (Nat.one_le_div_iff (by omega : 0 < F + 1)).2 hFN
    omega
  have h1 : 2 ^ J * (F + 1) ≤ N := by
    rw [← Nat.le_div_iff_mul_le (by omega), hJ]
    exact Nat.pow_log_le_self 2 hq
  have h2 : N < 2 ^ (J + 1) * (F + 1) := by
    rw [← Nat.div_lt_iff_lt_mul (by omega), hJ]
    exact Nat.lt_pow_succ_log_self (by norm_num) _
  have hJ44 : J ≤ 44 := by
    by_contra hc
    have h3 : 2 ^ 45 ≤ 2 ^ J := Nat.pow_le_pow_right (by norm_num) (by omega)
    have h4 : 2 ^ J * 1 ≤ 2 ^ J * (F + 1) := Nat.mul_le_mul_left _ (by omega)
    omega
  refine ⟨J, (C126_level hM hF h1 h2 ?_).1, h1, h2⟩
  have hNR : (N : ℝ) ≤ 2 ^ 44 := by exact_mod_cast hN
  have hJR : (J : ℝ) ≤ 44 := by exact_mod_cast hJ44
  have hu0 := M.u_nonneg
  calc 2 * (N : ℝ) * (J + 2) * M.u ≤ 2 * 2 ^ 44 * (44 + 2) * (1 / 2 ^ 52) := by
        apply mul_le_mul _ hu hu0 (by positivity)
        apply mul_le_mul _ (by linarith) (by positivity) (by positivity)
        linarith
    _ < 1 := by norm_num

theorem Rounds.weaken {u : ℝ} (hu : 0 ≤ u) (a : Fl) : Rounds u a a := by
  cases a with
  | fin x => exact Or.inl ⟨x, x, rfl, rfl, by rw [sub_self, abs_zero]; positivity⟩
  | nan => exact Or.inr ⟨fun x => by simp, rfl⟩
  | pinf => exact Or.inr ⟨fun x => by simp, rfl⟩
  | ninf => exact Or.inr ⟨fun x => by simp, rfl⟩

theorem IsSum.weaken (l : List Fl) : IsSum (· + ·) l l.sum := isSum_sum l

/-- A machine that is exact except for the functions `div` and `log2`. -/
def Machine.withDivLog (u : ℝ) (hu : 0 ≤ u) (div : Fl → Fl → Fl) (log2 : Fl → Fl) (hd : ∀ a b, Rounds u (a / b) (div a b))
    (hl : ∀ a, Rounds u (Fl.log2 a) (log2 a)) : Machine where
  u := u
  u_nonneg := hu
  add := (· + ·)
  sub := (· - ·)
  mul := (· * ·)
  div := div
  pow := Fl.pow
  sqrt := Fl.sqrt
  log2 := log2
  ln := Fl.ln
  exp := Fl.exp
  exp2 := Fl.exp2
  sum := List.sum
  add_ok _ _ := Rounds.weaken hu _
  sub_ok _ _ := Rounds.weaken hu _
  mul_ok _ _ := Rounds.weaken hu _
  div_ok := hd
  pow_ok _ _ := Rounds.weaken hu _
  sqrt_ok _ := Rounds.weaken hu _
  log2_ok := hl
  ln_ok _ := Rounds.weaken hu _
  exp_ok _ := Rounds.weaken hu _
  exp2_ok _ := Rounds.weaken hu _
  sum_ok := isSum_sum

/-- C126: a small relative error is not enough.  For every `u > 0` there is an arithmetic with relative errors of at most `u` in which the level of a recording of
`2^J (F + 1)` samples, `1 ≤ J`, is one too small: its logarithms are too small by a factor `1 - u`. -/
theorem C126_needs_exact_log {u : ℝ} (hu : 0 < u) (F : ℕ) (hF : 1 ≤ F) {J : ℕ} (hJ : 1 ≤ J) :
    ∃ M : Machine, M.u ≤ u ∧ M.maxLevel (2 ^ J * (F + 1)) F = .ok (J - 1) ∧ MFA.maxLevel (2 ^ J * (F + 1)) F = .ok J := by
  have hF0 : (0:ℝ) < (F : ℝ) + 1 := by positivity
  have hJR : (1:ℝ) ≤ J := by exact_mod_cast hJ
  obtain ⟨e, he⟩ : ∃ e, e = min u (1 / J) := ⟨_, rfl⟩
  have he0 : 0 < e := by rw [he]; exact lt_min hu (by positivity)
  have heJ : e * J ≤ 1 := by
    have : e ≤ 1 / J := by rw [he]; exact min_le_right _ _
    calc e * J ≤ 1 / J * J := mul_le_mul_of_nonneg_right this (by linarith)
      _ = 1 := by field_simp
  have hok : ∀ a, Rounds e (Fl.log2 a) (inflate (-e) (Fl.log2 a)) := by
    intro a
    unfold inflate
    split_ifs with h
    · obtain ⟨x, hx⟩ := h
      rw [hx]
      refine Or.inl ⟨x, x * (1 + -e), rfl, by rw [Fl.fin_mul], ?_⟩
      rw [show x * (1 + -e) - x = -(e * x) by ring, abs_neg, abs_mul, abs_of_pos he0]
    · exact Or.inr ⟨fun x hx => h ⟨x, hx⟩, rfl⟩
  refine ⟨Machine.withDivLog e he0.le (· / ·) (fun a => inflate (-e) (Fl.log2 a)) (fun a b => Rounds.weaken he0.le _) hok, ?_, ?_, ?_⟩
  · show e ≤ u
    rw [he]; exact min_le_left _ _
  · have hdiv : (Fl.fin ((2 ^ J * (F + 1) : ℕ) : ℝ)) / Fl.fin ((F : ℝ) + 1) = Fl.fin (2 ^ J) := by
      rw [Fl.fin_div hF0.ne']
      push_cast
      rw [mul_div_cancel_right₀ _ hF0.ne']
    have hlog : ∀ {x : ℝ}, 0 < x → inflate (-e) (Fl.log2 (Fl.fin x)) = Fl.fin (Real.logb 2 x * (1 + -e)) := by
      intro x hx
      rw [Fl.log2_fin hx, inflate, if_pos ⟨_, rfl⟩, Fl.fin_mul]
    have hNp : (0:ℝ) < ((2 ^ J * (F + 1) : ℕ) : ℝ) := by positivity
    have e1 : Real.logb 2 ((2:ℝ) ^ J) = J := by rw [Real.logb_pow, Real.logb_self_eq_one (by norm_num), mul_one]
    have hfl : ⌊(J : ℝ) * (1 + -e)⌋ = (J : ℤ) - 1 := by
      rw [Int.floor_eq_iff]
      push_cast
      constructor <;> nlinarith
    have hge : (J : ℝ) * (1 + -e) ≤ Real.logb 2 ((2 ^ J * (F + 1) : ℕ) : ℝ) * (1 + -e) := by
      have : (J : ℝ) ≤ Real.logb 2 ((2 ^ J * (F + 1) : ℕ) : ℝ) := by
        rw [← e1]
        apply Real.logb_le_logb_of_le (by norm_num) (by positivity)
        push_cast
        have : (1:ℝ) ≤ (F : ℝ) + 1 := by have : (0:ℝ) ≤ F := Nat.cast_nonneg F
                                         linarith
        nlinarith [pow_pos (by norm_num : (0:ℝ) < 2) J]
      have he1 : e ≤ 1 := by nlinarith
      exact mul_le_mul_of_nonneg_right this (by linarith)
    show (match inflate (-e) (Fl.log2 (Fl.fin ((2 ^ J * (F + 1) : ℕ) : ℝ) / Fl.fin ((F : ℝ) + 1))) with
      | .nan => Except.error PyErr.valueError
      | .pinf => .error .overflowError
      | .ninf => .error .overflowError
      | .fin a => match inflate (-e) (Fl.log2 (Fl.fin ((2 ^ J * (F + 1) : ℕ) : ℝ))) with
        | .nan => .error .valueError
        | .pinf => .error .overflowError
        | .ninf => .error .overflowError
        | .fin b => .ok (min ⌊b⌋ ⌊a⌋)) = _
    rw [hdiv, hlog (by positivity), hlog hNp, e1]
    simp only
    rw [min_eq_right (Int.floor_le_floor hge), hfl]
  · rw [maxLevel_iff (by positivity), zpow_natCast]
    push_cast
    refine ⟨le_rfl, ?_⟩
    apply mul_lt_mul_of_pos_right _ hF0
    rw [show (2:ℝ) ^ ((J : ℤ) + 1) = 2 ^ (J + 1) by exact_mod_cast zpow_natCast (2:ℝ) (J + 1)]
    exact pow_lt_pow_right₀ (by norm_num) (by omega)

/-- Quotients rounded down to the grid `2^(i/n)`. -/
def gridDiv (n : ℕ) (a b : Fl) : Fl :=
  match a / b with
  | .fin x => if 0 < x then Fl.fin (2 ^ ((⌊n * Real.logb 2 x⌋ : ℝ) / n)) else Fl.fin x
  | v => v

theorem grid_ok {n : ℕ} (hn : 1 ≤ n) {x : ℝ} (hx : 0 < x) :
    |(2:ℝ) ^ ((⌊n * Real.logb 2 x⌋ : ℝ) / n) - x| ≤ (1 - 2 ^ (-1 / (n : ℝ))) * |x| := by
  have hn0 : (0:ℝ) < n := by exact_mod_cast hn
  have e : x = 2 ^ Real.logb 2 x := (Real.rpow_logb (by norm_num) (by norm_num) hx).symm
  have h1 : ((⌊n * Real.logb 2 x⌋ : ℝ)) / n ≤ Real.logb 2 x := by
    rw [div_le_iff₀ hn0]; have := Int.floor_le ((n:ℝ) * Real.logb 2 x); linarith
  have h2 : Real.logb 2 x + -1 / n ≤ ((⌊n * Real.logb 2 x⌋ : ℝ)) / n := by
    rw [le_div_iff₀ hn0, add_mul, div_mul_cancel₀ _ hn0.ne']
    have := Int.lt_floor_add_one ((n:ℝ) * Real.logb 2 x); linarith
  have h3 : (2:ℝ) ^ ((⌊n * Real.logb 2 x⌋ : ℝ) / n) ≤ x := by
    conv_rhs => rw [e]
    exact Real.rpow_le_rpow_of_exponent_le (by norm_num) h1
  have h4 : x * 2 ^ (-1 / (n : ℝ)) ≤ 2 ^ ((⌊n * Real.logb 2 x⌋ : ℝ) / n) := by
    calc x * 2 ^ (-1 / (n : ℝ)) = 2 ^ (Real.logb 2 x + -1 / n) := by rw [Real.rpow_add (by norm_num), ← e]
      _ ≤ _ := Real.rpow_le_rpow_of_exponent_le (by norm_num) h2
  rw [abs_of_nonpos (by linarith), abs_of_pos hx]
  linarith

/-- There are faithful machines with rounding errors, of every precision: here quotients are rounded to a logarithmic grid, all else is exact. -/
theorem faithful_grid {n : ℕ} (hn : 1 ≤ n) : ∃ M : Machine, M.Faithful ∧ M.u = 1 - 2 ^ (-1 / (n : ℝ)) ∧ M.div = gridDiv n := by
  have hn0 : (0:ℝ) < n := by exact_mod_cast hn
  have hu : (0:ℝ) ≤ 1 - 2 ^ (-1 / (n : ℝ)) := by
    have : (2:ℝ) ^ (-1 / (n : ℝ)) ≤ 2 ^ (0:ℝ) := Real.rpow_le_rpow_of_exponent_le (by norm_num) (by
      rw [div_nonpos_iff]; exact Or.inr ⟨by norm_num, hn0.le⟩)
    rw [Real.rpow_zero] at this; linarith
  have hval : ∀ {a b : ℝ}, b ≠ 0 → 0 < a / b → gridDiv n (Fl.fin a) (Fl.fin b) = Fl.fin (2 ^ ((⌊n * Real.logb 2 (a / b)⌋ : ℝ) / n)) := by
    intro a b hb hab
    rw [gridDiv, Fl.fin_div hb]
    simp only [if_pos hab]
  refine ⟨Machine.withDivLog _ hu (gridDiv n) Fl.log2 ?_ fun a => Rounds.weaken hu _, ⟨?_, ?_, ?_, ?_⟩, rfl, rfl⟩
  · intro a b
    unfold gridDiv
    split
    · rename_i x hx
      rw [hx]
      split_ifs with h
      · exact Or.inl ⟨_, _, rfl, rfl, grid_ok hn h⟩
      · exact Rounds.weaken hu _
    · exact Rounds.weaken hu _
  · intro a b k hb hab
    show gridDiv n _ _ = _
    rw [hval hb.ne' (by rw [hab]; positivity), hab, ← Real.rpow_intCast, Real.logb_rpow (by norm_num) (by norm_num)]
    have : (n : ℝ) * (k : ℝ) = ((n * k : ℤ) : ℝ) := by push_cast; ring
    rw [this, Int.floor_intCast]
    push_cast
    rw [mul_div_cancel_left₀ _ hn0.ne']
  · intro a b c d x y ha hb hd hle hx hy
    have h1 : 0 < a / b := by positivity
    change gridDiv n _ _ = _ at hx hy
    rw [hval hb.ne' h1] at hx
    rw [hval hd.ne' (h1.trans_le hle)] at hy
    rw [← (Fl.fin_inj _ _).1 hx, ← (Fl.fin_inj _ _).1 hy]
    apply Real.rpow_le_rpow_of_exponent_le (by norm_num)
    apply div_le_div_of_nonneg_right _ hn0.le
    have : ⌊(n:ℝ) * Real.logb 2 (a / b)⌋ ≤ ⌊(n:ℝ) * Real.logb 2 (c / d)⌋ :=
      Int.floor_le_floor (mul_le_mul_of_nonneg_left (Real.logb_le_logb_of_le (by norm_num) h1 hle) hn0.le)
    exact_mod_cast this
  · intro k _
    show Fl.log2 (Fl.fin (2 ^ k)) = Fl.fin k
    rw [Fl.log2_fin (by positivity), ← Real.rpow_intCast, Real.logb_rpow (by norm_num) (by norm_num)]
  · intro a b x y ha hab hx hy
    change Fl.log2 (Fl.fin a) = Fl.fin x at hx
    change Fl.log2 (Fl.fin b) = Fl.fin y at hy
    rw [Fl.log2_fin ha] at hx
    rw [Fl.log2_fin (ha.trans_le hab)] at hy
    rw [← (Fl.fin_inj _ _).1 hx, ← (Fl.fin_inj _ _).1 hy]
    exact Real.logb_le_logb_of_le (by norm_num) ha hab

/-- The hypotheses of `C126_double` are met by a machine that makes errors. -/
example : ∃ M : Machine, M.Faithful ∧ M.u ≤ 1 / 2 ^ 52 ∧ 0 < M.u := by
  obtain ⟨n, hn⟩ : ∃ n : ℕ, (n : ℝ) = 2 ^ 52 := ⟨4503599627370496, by norm_num⟩
  have hn0 : (0:ℝ) < n := by rw [hn]; positivity
  obtain ⟨M, hM, hu, -⟩ := faithful_grid (n := n) (by exact_mod_cast hn0)
  have hneg : -1 / (n : ℝ) < 0 := by rw [div_neg_iff]; exact Or.inr ⟨by norm_num, hn0⟩
  refine ⟨M, hM, ?_, ?_⟩
  · rw [hu]
    have h := Real.add_one_le_exp (Real.log 2 * (-1 / (n : ℝ)))
    rw [Real.rpow_def_of_pos (by norm_num)]
    have h2 := Real.log_two_lt_d9
    have h3 : 1 * (-1 / (n : ℝ)) ≤ Real.log 2 * (-1 / (n : ℝ)) := mul_le_mul_of_nonpos_right (by linarith) hneg.le
    have h4 : 1 * (-1 / (n : ℝ)) = - (1 / 2 ^ 52) := by rw [hn]; ring
    linarith
  · rw [hu, sub_pos]
    exact Real.rpow_lt_one_of_one_lt_of_neg (by norm_num) hneg

end

end MFA
