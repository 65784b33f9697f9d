import Verif.Model.Binary

namespace MFA

open Classical

noncomputable section

theorem roundEven_int (n : ℤ) : roundEven n = n := by
  unfold roundEven
  rw [Int.fract_intCast, if_pos (by norm_num), Int.floor_intCast]

theorem roundEven_err (x : ℝ) : |(roundEven x : ℝ) - x| ≤ 1 / 2 := by
  have e := Int.floor_add_fract x
  have h0 := Int.fract_nonneg x
  have h1 := Int.fract_lt_one x
  unfold roundEven
  split_ifs with h2 h3 h4 <;> push_cast <;> rw [abs_le] <;> constructor <;> linarith

theorem roundEven_mono {x y : ℝ} (h : x ≤ y) : roundEven x ≤ roundEven y := by
  have hf : ⌊x⌋ ≤ ⌊y⌋ := Int.floor_le_floor h
  have ex := Int.floor_add_fract x
  have ey := Int.floor_add_fract y
  rcases hf.lt_or_eq with hlt | heq
  · have h1 : roundEven x ≤ ⌊x⌋ + 1 := by unfold roundEven; split_ifs <;> omega
    have h2 : ⌊y⌋ ≤ roundEven y := by unfold roundEven; split_ifs <;> omega
    omega
  · have hfr : Int.fract x ≤ Int.fract y := by
      have : (⌊x⌋ : ℝ) = ⌊y⌋ := by exact_mod_cast heq
      linarith
    unfold roundEven
    rw [heq]
    split_ifs <;> first | omega | (exfalso; linarith)

theorem roundEven_nearest (x : ℝ) (n : ℤ) : |(roundEven x : ℝ) - x| ≤ |(n : ℝ) - x| := by
  have e := Int.floor_add_fract x
  have h0 := Int.fract_nonneg x
  have h1 := Int.fract_lt_one x
  rcases le_or_gt n ⌊x⌋ with hn | hn
  · have hnR : (n : ℝ) ≤ ⌊x⌋ := by exact_mod_cast hn
    rw [abs_of_nonpos (by linarith : (n : ℝ) - x ≤ 0)]
    unfold roundEven
    split_ifs with h2 h3 h4 <;> push_cast <;> rw [abs_le] <;> constructor <;> linarith
  · have hnR : (⌊x⌋ : ℝ) + 1 ≤ n := by exact_mod_cast hn
    rw [abs_of_nonneg (by linarith : 0 ≤ (n : ℝ) - x)]
    unfold roundEven
    split_ifs with h2 h3 h4 <;> push_cast <;> rw [abs_le] <;> constructor <;> linarith

theorem ulp_pos (p : ℕ) (x : ℝ) : 0 < ulp p x := by unfold ulp; positivity

theorem log_bounds {x : ℝ} (hx : x ≠ 0) : (2:ℝ) ^ Int.log 2 |x| ≤ |x| ∧ |x| < 2 ^ (Int.log 2 |x| + 1) := by
  have h := abs_pos.2 hx
  have h1 := Int.zpow_log_le_self (b := 2) (by norm_num) h
  have h2 := Int.lt_zpow_succ_log_self (b := 2) (by norm_num) |x|
  push_cast at h1 h2
  exact ⟨h1, h2⟩

theorem ulp_eq (p : ℕ) (x : ℝ) : ulp p x * 2 ^ p = 2 * 2 ^ Int.log 2 |x| := by
  unfold ulp
  rw [← zpow_natCast, ← zpow_add₀ (by norm_num)]
  rw [show Int.log 2 |x| + 1 - (p : ℤ) + p = Int.log 2 |x| + 1 by ring, zpow_add_one₀ (by norm_num), mul_comm]

theorem roundTo_abs (p : ℕ) (x : ℝ) : |roundTo p x - x| ≤ ulp p x / 2 := by
  unfold roundTo
  split_ifs with h
  · rw [h, sub_zero, abs_zero]; have := ulp_pos p 0; linarith
  · have hu := ulp_pos p x
    have h1 := roundEven_err (x / ulp p x)
    have e : (roundEven (x / ulp p x) : ℝ) * ulp p x - x = (roundEven (x / ulp p x) - x / ulp p x) * ulp p x := by
      field_simp
    rw [e, abs_mul, abs_of_pos hu]
    nlinarith

/-- The relative error of one rounding. -/
theorem roundTo_err (p : ℕ) (x : ℝ) : |roundTo p x - x| ≤ 1 / 2 ^ p * |x| := by
  by_cases h : x = 0
  · rw [h, roundTo, if_pos rfl]; simp
  · refine (roundTo_abs p x).trans ?_
    have e := ulp_eq p x
    have h1 := (log_bounds h).1
    have hp : (0:ℝ) < 2 ^ p := by positivity
    rw [one_div, ← div_eq_inv_mul, le_div_iff₀ hp]
    linarith

theorem zpow_split {a b : ℤ} (h : b ≤ a) : ∃ n : ℤ, (2:ℝ) ^ a = n * 2 ^ b := by
  refine ⟨2 ^ (a - b).toNat, ?_⟩
  push_cast
  rw [← zpow_natCast, ← zpow_add₀ (by norm_num), Int.toNat_of_nonneg (by omega)]
  congr 1; ring

theorem roundTo_exact_of {p : ℕ} {x : ℝ} {n : ℤ} (h : x = n * ulp p x) : roundTo p x = x := by
  unfold roundTo
  split_ifs with h0
  · exact h0.symm
  · have : x / ulp p x = n := by rw [div_eq_iff (ulp_pos p x).ne']; exact h
    rw [this, roundEven_int, ← h]

theorem roundTo_neg_like {p : ℕ} {x : ℝ} {n : ℤ} (h : x ≤ n * ulp p x) : roundTo p x ≤ n * ulp p x := by
  have hu := ulp_pos p x
  unfold roundTo
  split_ifs with h0
  · linarith
  · apply mul_le_mul_of_nonneg_right _ hu.le
    have := roundEven_mono (x := x / ulp p x) (y := n) (by rw [div_le_iff₀ hu]; exact h)
    rw [roundEven_int] at this
    exact_mod_cast this

theorem roundTo_ge {p : ℕ} {x : ℝ} {n : ℤ} (h : n * ulp p x ≤ x) : n * ulp p x ≤ roundTo p x := by
  have hu := ulp_pos p x
  unfold roundTo
  split_ifs with h0
  · linarith
  · apply mul_le_mul_of_nonneg_right _ hu.le
    have := roundEven_mono (x := n) (y := x / ulp p x) (by rw [le_div_iff₀ hu]; exact h)
    rw [roundEven_int] at this
    exact_mod_cast this

/-- The numbers with `p`-bit significands. -/
theorem roundTo_le_pow {p : ℕ} (hp : 1 ≤ p) {x : ℝ} {e : ℤ} (hx : 0 ≤ x) (h : x ≤ 2 ^ e) : roundTo p x ≤ 2 ^ e := by
  rcases hx.eq_or_lt with h0 | h0
  · rw [← h0, roundTo, if_pos rfl]; positivity
  · have hb := (log_bounds h0.ne').1
    rw [abs_of_pos h0] at hb
    have hle : Int.log 2 x ≤ e := (zpow_le_zpow_iff_right₀ (by norm_num : (1:ℝ) < 2)).1 (hb.trans h)
    obtain ⟨n, hn⟩ := zpow_split (a := e) (b := Int.log 2 |x| + 1 - p) (by rw [abs_of_pos h0]; omega)
    have hn' : (2:ℝ) ^ e = n * ulp p x := hn
    rw [hn'] at h ⊢
    exact roundTo_neg_like h

theorem pow_le_roundTo {p : ℕ} (hp : 1 ≤ p) {x : ℝ} {e : ℤ} (h : 2 ^ e ≤ x) : 2 ^ e ≤ roundTo p x := by
  have h0 : 0 < x := lt_of_lt_of_le (by positivity) h
  have hb := (log_bounds h0.ne')
  rw [abs_of_pos h0] at hb
  refine le_trans (b := 2 ^ Int.log 2 x) ?_ ?_
  · apply zpow_le_zpow_right₀ (by norm_num)
    have := (zpow_lt_zpow_iff_right₀ (by norm_num : (1:ℝ) < 2)).1 (h.trans_lt hb.2)
    omega
  · obtain ⟨n, hn⟩ := zpow_split (a := Int.log 2 x) (b := Int.log 2 |x| + 1 - p) (by rw [abs_of_pos h0]; omega)
    have hn' : (2:ℝ) ^ Int.log 2 x = n * ulp p x := hn
    rw [hn'] at hb ⊢
    exact roundTo_ge hb.1

theorem ulp_neg (p : ℕ) (x : ℝ) : ulp p (-x) = ulp p x := by unfold ulp; rw [abs_neg]

theorem roundEven_neg (x : ℝ) : roundEven (-x) = -roundEven x := by
  by_cases h : Int.fract x = 0
  · have : x = ⌊x⌋ := by have := Int.floor_add_fract x; linarith
    rw [this, ← Int.cast_neg, roundEven_int, roundEven_int]
  · have e := Int.fract_neg h
    have ef : ⌊-x⌋ = -⌊x⌋ - 1 := by
      have h1 := Int.floor_add_fract x
      have h2 := Int.floor_add_fract (-x)
      have : (⌊-x⌋ : ℝ) = -⌊x⌋ - 1 := by rw [e] at h2; linarith
      exact_mod_cast this
    unfold roundEven
    rw [e, ef]
    have hpar : Even (-⌊x⌋ - 1) ↔ ¬ Even ⌊x⌋ := by
      rw [Int.even_sub_one, even_neg]
    simp only [hpar]
    split_ifs <;> first | omega | (exfalso; linarith)

theorem roundTo_neg (p : ℕ) (x : ℝ) : roundTo p (-x) = -roundTo p x := by
  by_cases h : x = 0
  · simp [roundTo, h]
  · rw [roundTo, roundTo, if_neg h, if_neg (neg_ne_zero.2 h), ulp_neg, neg_div, roundEven_neg]; push_cast; ring

theorem roundTo_nonneg {p : ℕ} {x : ℝ} (h : 0 ≤ x) : 0 ≤ roundTo p x := by
  have := roundTo_ge (p := p) (x := x) (n := 0) (by simpa using h)
  simpa using this

theorem roundTo_mono_pos {p : ℕ} (hp : 1 ≤ p) {x y : ℝ} (hx : 0 < x) (h : x ≤ y) : roundTo p x ≤ roundTo p y := by
  have hy := hx.trans_le h
  have hbx := log_bounds hx.ne'
  have hby := log_bounds hy.ne'
  have hle : Int.log 2 |x| ≤ Int.log 2 |y| := by
    rw [abs_of_pos hx, abs_of_pos hy]; exact Int.log_mono_right hx h
  rcases hle.lt_or_eq with hlt | heq
  · have h1 : roundTo p x ≤ 2 ^ (Int.log 2 |x| + 1) := roundTo_le_pow hp hx.le (by rw [abs_of_pos hx] at hbx ⊢; exact hbx.2.le)
    have h2 : (2:ℝ) ^ Int.log 2 |y| ≤ roundTo p y := pow_le_roundTo hp (by rw [abs_of_pos hy] at hby ⊢; exact hby.1)
    exact h1.trans ((zpow_le_zpow_right₀ (by norm_num) (by omega)).trans h2)
  · have e : ulp p x = ulp p y := by unfold ulp; rw [heq]
    unfold roundTo
    rw [if_neg hx.ne', if_neg hy.ne', e]
    apply mul_le_mul_of_nonneg_right _ (ulp_pos p y).le
    exact_mod_cast roundEven_mono (div_le_div_of_nonneg_right h (ulp_pos p y).le)

theorem roundTo_mono {p : ℕ} (hp : 1 ≤ p) {x y : ℝ} (h : x ≤ y) : roundTo p x ≤ roundTo p y := by
  rcases lt_trichotomy x 0 with hx | hx | hx
  · rcases lt_or_ge y 0 with hy | hy
    · have := roundTo_mono_pos hp (x := -y) (y := -x) (by linarith) (by linarith)
      rw [roundTo_neg, roundTo_neg] at this
      linarith
    · have h1 := roundTo_nonneg (p := p) (x := -x) (by linarith)
      rw [roundTo_neg] at h1
      have h2 := roundTo_nonneg (p := p) hy
      linarith
  · subst hx
    rw [roundTo, if_pos rfl]; exact roundTo_nonneg h
  · exact roundTo_mono_pos hp hx h

/-- A number `n 2^e` with `|n| ≤ 2^p` is left unchanged. -/
theorem roundTo_rep {p : ℕ} (hp : 1 ≤ p) {n e : ℤ} (hn : |n| ≤ 2 ^ p) : roundTo p (n * 2 ^ e) = n * 2 ^ e := by
  by_cases h0 : n = 0
  · subst h0; simp [roundTo]
  have hnR : |(n : ℝ)| ≤ 2 ^ p := by
    have : ((|n| : ℤ) : ℝ) ≤ ((2 ^ p : ℤ) : ℝ) := by exact_mod_cast hn
    push_cast at this; exact this
  obtain ⟨x, hx⟩ : ∃ x : ℝ, x = n * 2 ^ e := ⟨_, rfl⟩
  have hx0 : x ≠ 0 := by
    rw [hx]; exact mul_ne_zero (by exact_mod_cast h0) (by positivity)
  have hax : |x| = |(n : ℝ)| * 2 ^ e := by rw [hx, abs_mul, abs_of_pos (by positivity : (0:ℝ) < 2 ^ e)]
  have hb := log_bounds hx0
  rw [← hx]
  have hle : |x| ≤ 2 ^ (e + p) := by
    rw [hax, zpow_add₀ (by norm_num), zpow_natCast, mul_comm]
    exact mul_le_mul_of_nonneg_left hnR (by positivity)
  have hlog : Int.log 2 |x| ≤ e + p := (zpow_le_zpow_iff_right₀ (by norm_num : (1:ℝ) < 2)).1 (hb.1.trans hle)
  rcases hlog.lt_or_eq with hlt | heq
  · obtain ⟨k, hk⟩ := zpow_split (a := e) (b := Int.log 2 |x| + 1 - p) (by omega)
    apply roundTo_exact_of (n := n * k)
    have hk' : (2:ℝ) ^ e = k * ulp p x := hk
    rw [hx] at hk' ⊢
    push_cast
    rw [mul_assoc, ← hk']
  · -- `|x|` is a power of two
    have hpow : |x| = 2 ^ (e + p) := le_antisymm hle (heq ▸ hb.1)
    obtain ⟨k, hk⟩ := zpow_split (a := e + p) (b := Int.log 2 |x| + 1 - p) (by omega)
    have hk' : (2:ℝ) ^ (e + p) = k * ulp p x := hk
    rcases abs_choice x with hs | hs
    · apply roundTo_exact_of (n := k)
      rw [← hk', ← hpow, hs]
    · apply roundTo_exact_of (n := -k)
      push_cast
      rw [neg_mul, ← hk', ← hpow, hs, neg_neg]

theorem roundTo_isRep {p : ℕ} (hp : 1 ≤ p) (x : ℝ) : ∃ n e : ℤ, |n| ≤ 2 ^ p ∧ roundTo p x = n * 2 ^ e := by
  by_cases h0 : x = 0
  · exact ⟨0, 0, by simp, by simp [roundTo, h0]⟩
  refine ⟨roundEven (x / ulp p x), Int.log 2 |x| + 1 - p, ?_, by rw [roundTo, if_neg h0]; rfl⟩
  have hb := (log_bounds h0).2
  have hu := ulp_pos p x
  have he := ulp_eq p x
  have hq : |x / ulp p x| ≤ 2 ^ p := by
    rw [abs_div, abs_of_pos hu, div_le_iff₀ hu, mul_comm, he]
    rw [zpow_add_one₀ (by norm_num)] at hb
    linarith
  rw [abs_le] at hq ⊢
  have hc : ((2 ^ p : ℤ) : ℝ) = 2 ^ p := by push_cast; rfl
  constructor
  · have := roundEven_mono (x := ((-2 ^ p : ℤ) : ℝ)) (y := x / ulp p x) (by push_cast; exact hq.1)
    rwa [roundEven_int] at this
  · have := roundEven_mono (x := x / ulp p x) (y := ((2 ^ p : ℤ) : ℝ)) (by push_cast; exact hq.2)
    rwa [roundEven_int] at this

/-- No `p`-bit number is nearer. -/
theorem roundTo_nearest {p : ℕ} (hp : 1 ≤ p) (x : ℝ) {n e : ℤ} (hn : |n| ≤ 2 ^ p) : |roundTo p x - x| ≤ |n * 2 ^ e - x| := by
  by_cases h0 : x = 0
  · rw [h0, roundTo, if_pos rfl, sub_zero, abs_zero]; exact abs_nonneg _
  have hu := ulp_pos p x
  have key : ∀ k : ℤ, |roundTo p x - x| ≤ |k * ulp p x - x| := by
    intro k
    have h1 := roundEven_nearest (x / ulp p x) k
    have e1 : ∀ t : ℝ, |t * ulp p x - x| = |t - x / ulp p x| * ulp p x := by
      intro t
      rw [← abs_of_pos hu, ← abs_mul, abs_of_pos hu, sub_mul, div_mul_cancel₀ _ hu.ne']
    rw [roundTo, if_neg h0, e1, e1]
    exact mul_le_mul_of_nonneg_right h1 hu.le
  rcases le_or_gt (Int.log 2 |x| + 1 - p) e with he | he
  · obtain ⟨k, hk⟩ := zpow_split he
    have hk' : (2:ℝ) ^ e = k * ulp p x := hk
    have := key (n * k)
    push_cast at this
    rw [mul_assoc, ← hk'] at this
    exact this
  · have hnR : |(n : ℝ)| ≤ 2 ^ p := by
      have : ((|n| : ℤ) : ℝ) ≤ ((2 ^ p : ℤ) : ℝ) := by exact_mod_cast hn
      push_cast at this; exact this
    have hy : |(n : ℝ) * 2 ^ e| ≤ 2 ^ Int.log 2 |x| := by
      rw [abs_mul, abs_of_pos (by positivity : (0:ℝ) < 2 ^ e)]
      calc |(n : ℝ)| * 2 ^ e ≤ 2 ^ p * 2 ^ e := mul_le_mul_of_nonneg_right hnR (by positivity)
        _ = 2 ^ ((p : ℤ) + e) := by rw [zpow_add₀ (by norm_num), zpow_natCast]
        _ ≤ _ := zpow_le_zpow_right₀ (by norm_num) (by omega)
    have hx := (log_bounds h0).1
    obtain ⟨k, hk⟩ := zpow_split (a := Int.log 2 |x|) (b := Int.log 2 |x| + 1 - p) (by omega)
    have hk' : (2:ℝ) ^ Int.log 2 |x| = k * ulp p x := hk
    rw [abs_le] at hy
    rcases abs_choice x with hs | hs
    · refine (key k).trans ?_
      rw [← hk']
      rw [hs] at hx hy ⊢
      rw [abs_of_nonpos (by linarith), abs_of_nonpos (by linarith)]
      linarith
    · refine (key (-k)).trans ?_
      push_cast
      rw [neg_mul, ← hk']
      rw [hs] at hx hy ⊢
      rw [abs_of_nonneg (by linarith), abs_of_nonneg (by linarith)]
      linarith

theorem rnd_ok (p : ℕ) (a : Fl) : Rounds (1 / 2 ^ p) a (rnd p a) := by
  cases a with
  | fin x => exact Or.inl ⟨x, _, rfl, rfl, roundTo_err p x⟩
  | nan => exact Or.inr ⟨fun x => by simp, rfl⟩
  | pinf => exact Or.inr ⟨fun x => by simp, rfl⟩
  | ninf => exact Or.inr ⟨fun x => by simp, rfl⟩

end

end MFA
