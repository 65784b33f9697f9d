import Verif.Spec.Basic
import Verif.Lemmas.Reductions

/-! Properties C27-C31: power, scale/frequency conversion, `build_q_log`, NaN-ignoring reductions. -/

namespace MFA

open Classical

/-- C27: `fast_power` is `np.power`, except that NaN entries stay NaN for exponent 0 and that `-inf` gives NaN
for exponent 1/2. -/
theorem C27_fast_power (e : Expo) (x : Fl) :
    fastPower e x = if e.val = 0 ∧ x = Fl.nan then Fl.nan
      else if e.val = 1 / 2 ∧ x = Fl.ninf then Fl.nan
      else x.pow e.val :=
  fastPower_eq e x

/-- C27, usual case: on finite data the result is the real power (positive base or integer exponent) and the two
exceptional cases do not occur. -/
theorem C27_fast_power_finite (e : Expo) (a : ℝ) (ha : 0 < a) : fastPower e (Fl.fin a) = Fl.fin (a ^ e.val) := by
  rw [C27_fast_power, if_neg (by simp), if_neg (by simp)]
  unfold Fl.pow
  by_cases h : e.val = 0
  · rw [if_pos h, h, Real.rpow_zero]
  · rw [if_neg h]; simp only [ha.ne', if_false, ha, true_or, if_true]

/-- C28: the two conversions are mutually inverse. -/
theorem C28_scale_freq_inverse (fs : ℝ) (hfs : 0 < fs) :
    (∀ s, freq2scale (scale2freq s fs) fs = s) ∧ (∀ f, 0 < f → scale2freq (freq2scale f fs) fs = f) := by
  have h2 : (0:ℝ) < 2 := two_pos
  have h3 : (2:ℝ) ≠ 1 := by norm_num
  constructor
  · intro s
    unfold freq2scale scale2freq
    have : 3 / 4 * fs * (2:ℝ) ^ (-s) / (3 * fs) = (2:ℝ) ^ (-2 - s : ℝ) := by
      rw [Real.rpow_sub h2, show (-2:ℝ) = ((-2:ℤ):ℝ) by norm_num, Real.rpow_intCast, Real.rpow_neg h2.le]
      field_simp; norm_num
    rw [this, Real.logb_rpow h2 h3]; ring
  · intro f hf
    unfold freq2scale scale2freq
    have hq : 0 < f / (3 * fs) := by positivity
    rw [neg_sub, sub_neg_eq_add, Real.rpow_add h2, Real.rpow_logb h2 h3 hq,
      show (2:ℝ) = ((2:ℕ):ℝ) by norm_num, Real.rpow_natCast]
    field_simp; norm_num

/-- The frequency of a scale is a strictly decreasing function (used below). -/
theorem scale2freq_le_iff {fs : ℝ} (hfs : 0 < fs) (s t : ℝ) : scale2freq s fs ≤ scale2freq t fs ↔ t ≤ s := by
  unfold scale2freq
  rw [mul_le_mul_iff_right₀ (by positivity), Real.rpow_le_rpow_left_iff one_lt_two, neg_le_neg_iff]

/-- C29: the integer scales selected by `fband2scale` are exactly those whose frequency lies in the band. -/
theorem C29_fband2scale (f0 f1 fs : ℝ) (h0 : 0 < f0) (h1 : 0 < f1) (hfs : 0 < fs) (j : ℤ) :
    ((fband2scale (f0, f1) fs).1 ≤ j ∧ j ≤ (fband2scale (f0, f1) fs).2) ↔
      (f0 ≤ scale2freq j fs ∧ scale2freq j fs ≤ f1) := by
  obtain ⟨_, inv⟩ := C28_scale_freq_inverse fs hfs
  unfold fband2scale
  simp only
  rw [Int.ceil_le, Int.le_floor]
  conv_rhs => rw [← inv f0 h0, ← inv f1 h1]
  rw [scale2freq_le_iff hfs, scale2freq_le_iff hfs, and_comm]

/-- Non-vacuity of C28, C29: sampling at 1 kHz, band 8-12 Hz. -/
example : (0:ℝ) < 8 ∧ (0:ℝ) < 12 ∧ (0:ℝ) < 1000 := by norm_num

/-! ### build_q_log -/

private theorem mem_linspace {a b t : ℝ} {n : ℕ} (h : t ∈ linspace a b n) : min a b ≤ t ∧ t ≤ max a b := by
  unfold linspace at h
  obtain ⟨i, hi, rfl⟩ := List.mem_map.mp h
  rw [List.mem_range] at hi
  by_cases hn : n = 1
  · rw [if_pos hn]; exact ⟨min_le_left _ _, le_max_left _ _⟩
  rw [if_neg hn]
  have h1 : (0:ℝ) < (n:ℝ) - 1 := by
    have : (1:ℝ) < n := by exact_mod_cast (by omega : 1 < n)
    linarith
  have h2 : (i:ℝ) ≤ (n:ℝ) - 1 := by
    have : ((i + 1 : ℕ) : ℝ) ≤ n := by exact_mod_cast hi
    push_cast at this; linarith
  have e : a + i * ((b - a) / ((n:ℝ) - 1)) = a + (i / ((n:ℝ) - 1)) * (b - a) := by field_simp
  rw [e]
  set u := (i:ℝ) / ((n:ℝ) - 1)
  have u0 : 0 ≤ u := by positivity
  have u1 : u ≤ 1 := by rw [div_le_one h1]; exact h2
  rcases le_total a b with hab | hab
  · rw [min_eq_left hab, max_eq_right hab]
    have := mul_nonneg u0 (sub_nonneg.mpr hab)
    have := mul_le_mul_of_nonneg_right u1 (sub_nonneg.mpr hab)
    constructor <;> linarith
  · rw [min_eq_right hab, max_eq_left hab]
    have := mul_nonneg u0 (sub_nonneg.mpr hab)
    have := mul_le_mul_of_nonneg_right u1 (sub_nonneg.mpr hab)
    constructor <;> linarith

private theorem fst_mem_linspace {a b : ℝ} {n : ℕ} (hn : 0 < n) : a ∈ linspace a b n := by
  unfold linspace
  rw [List.mem_map]
  exact ⟨0, List.mem_range.mpr hn, by simp⟩

private theorem lst_mem_linspace {a b : ℝ} {n : ℕ} (hn : 1 < n) : b ∈ linspace a b n := by
  unfold linspace
  rw [List.mem_map]
  refine ⟨n - 1, List.mem_range.mpr (by omega), ?_⟩
  rw [if_neg (by omega)]
  have h1 : ((n - 1 : ℕ) : ℝ) = (n:ℝ) - 1 := by rw [Nat.cast_sub hn.le]; simp
  have h2 : (n:ℝ) - 1 ≠ 0 := by
    have : (1:ℝ) < n := by exact_mod_cast hn
    linarith
  rw [h1]; field_simp; ring

/-- C30: `build_q_log`. -/
theorem C30_build_q_log (q_min q_max : ℝ) (n : ℕ) :
    (q_min ≤ 0 ∨ q_max ≤ 0 → buildQLog q_min q_max n = .error .valueError) ∧
    (0 < q_min → 0 < q_max → ∃ q : List ℝ, buildQLog q_min q_max n = .ok q ∧
      q.Pairwise (· < ·) ∧
      (∀ t, t ∈ q ↔ -t ∈ q) ∧
      (∀ t ∈ [-2, -1, 0, 1, 2], t ∈ q) ∧
      (1 ≤ n → q_min ∈ q) ∧ (2 ≤ n → q_max ∈ q) ∧
      (∀ t ∈ q, |t| ∈ ([0, 1, 2] : List ℝ) ∨ (min q_min q_max ≤ |t| ∧ |t| ≤ max q_min q_max)) ∧
      q.length ≤ 2 * n + 5) := by
  refine ⟨fun h => by rw [buildQLog, if_pos h], fun h0 h1 => ?_⟩
  unfold buildQLog
  rw [if_neg (by push Not; exact ⟨h0, h1⟩)]
  simp only
  set L := (linspace (Real.logb 10 q_min) (Real.logb 10 q_max) n).map fun t => (10:ℝ) ^ t with hL
  set Q := L ++ [0, 1, 2] with hQ
  have hmem : ∀ t, t ∈ unique (Q ++ Q.map fun t => -t) ↔ t ∈ Q ∨ -t ∈ Q := by
    intro t
    unfold unique
    rw [Finset.mem_sort, List.mem_toFinset, List.mem_append, List.mem_map]
    constructor
    · rintro (h | ⟨s, hs, rfl⟩)
      · exact Or.inl h
      · right; rwa [neg_neg]
    · rintro (h | h)
      · exact Or.inl h
      · exact Or.inr ⟨-t, h, neg_neg t⟩
  have h10 : (0:ℝ) < 10 := by norm_num
  have h10' : (10:ℝ) ≠ 1 := by norm_num
  have hpow : ∀ x : ℝ, 0 < x → (10:ℝ) ^ Real.logb 10 x = x := fun x hx => Real.rpow_logb h10 h10' hx
  have hLb : ∀ t ∈ L, min q_min q_max ≤ t ∧ t ≤ max q_min q_max := by
    intro t ht
    rw [hL, List.mem_map] at ht
    obtain ⟨s, hs, rfl⟩ := ht
    obtain ⟨a, b⟩ := mem_linspace hs
    constructor
    · rcases min_choice (Real.logb 10 q_min) (Real.logb 10 q_max) with h | h <;> rw [h] at a
      · refine le_trans (min_le_left _ _) ?_
        rw [← hpow _ h0] ; exact (Real.rpow_le_rpow_left_iff (by norm_num)).mpr a
      · refine le_trans (min_le_right _ _) ?_
        rw [← hpow _ h1] ; exact (Real.rpow_le_rpow_left_iff (by norm_num)).mpr a
    · rcases max_choice (Real.logb 10 q_min) (Real.logb 10 q_max) with h | h <;> rw [h] at b
      · refine le_trans ?_ (le_max_left _ _)
        rw [← hpow _ h0] ; exact (Real.rpow_le_rpow_left_iff (by norm_num)).mpr b
      · refine le_trans ?_ (le_max_right _ _)
        rw [← hpow _ h1] ; exact (Real.rpow_le_rpow_left_iff (by norm_num)).mpr b
  have hLpos : ∀ t ∈ L, 0 < t := fun t ht => lt_of_lt_of_le (lt_min h0 h1) (hLb t ht).1
  refine ⟨_, rfl, ?_, ?_, ?_, ?_, ?_, ?_, ?_⟩
  · exact Finset.sortedLT_sort _ |>.pairwise
  · intro t; rw [hmem, hmem, neg_neg, or_comm]
  · intro t ht
    rw [hmem]
    simp only [List.mem_cons, List.not_mem_nil, or_false] at ht
    rcases ht with rfl | rfl | rfl | rfl | rfl
    · right; simp [hQ]
    · right; simp [hQ]
    · left; simp [hQ]
    · left; simp [hQ]
    · left; simp [hQ]
  · intro hn
    rw [hmem]; left
    rw [hQ, List.mem_append, hL, List.mem_map]; left
    exact ⟨_, fst_mem_linspace hn, hpow _ h0⟩
  · intro hn
    rw [hmem]; left
    rw [hQ, List.mem_append, hL, List.mem_map]; left
    exact ⟨_, lst_mem_linspace hn, hpow _ h1⟩
  · intro t ht
    rw [hmem] at ht
    have key : ∀ s ∈ Q, |s| ∈ ([0, 1, 2] : List ℝ) ∨ (min q_min q_max ≤ |s| ∧ |s| ≤ max q_min q_max) := by
      intro s hs
      rw [hQ, List.mem_append] at hs
      rcases hs with hs | hs
      · right; rw [abs_of_pos (hLpos s hs)]; exact hLb s hs
      · left
        simp only [List.mem_cons, List.not_mem_nil, or_false] at hs
        rcases hs with rfl | rfl | rfl <;> simp
    rcases ht with h | h
    · exact key t h
    · rw [← abs_neg]; exact key _ h
  · have hset : (Q ++ Q.map fun t => -t).toFinset = (Q ++ (L ++ [1, 2]).map fun t => -t).toFinset := by
      ext t
      simp only [List.mem_toFinset, List.mem_append, List.mem_map, hQ, List.mem_cons, List.not_mem_nil,
        or_false]
      constructor
      · rintro (h | ⟨s, (h | rfl | h), rfl⟩)
        · exact Or.inl h
        · exact Or.inr ⟨s, Or.inl h, rfl⟩
        · left; right; left; simp
        · exact Or.inr ⟨s, Or.inr h, rfl⟩
      · rintro (h | ⟨s, (h | h), rfl⟩)
        · exact Or.inl h
        · exact Or.inr ⟨s, Or.inl h, rfl⟩
        · exact Or.inr ⟨s, Or.inr (Or.inr h), rfl⟩
    unfold unique
    rw [Finset.length_sort, hset]
    refine le_trans (List.toFinset_card_le _) ?_
    have hLl : L.length = n := by simp [hL, linspace]
    simp only [List.length_append, List.length_map, hQ, hLl, List.length_cons, List.length_nil]
    omega

/-- C30, log-spacing: the exponents are exactly 0, 1, 2, the `n` values `q_min (q_max / q_min)^(i/(n-1))` in geometric progression, and the
opposites of all these. -/
theorem C30_log_spaced {q_min q_max : ℝ} (h0 : 0 < q_min) (h1 : 0 < q_max) (n : ℕ) : ∃ q : List ℝ, buildQLog q_min q_max n = .ok q ∧
    ∀ t, t ∈ q ↔ |t| ∈ ([0, 1, 2] : List ℝ) ∨ ∃ i : ℕ, i < n ∧ |t| = q_min * (q_max / q_min) ^ ((i : ℝ) / ((n : ℝ) - 1)) := by
  obtain ⟨L, hL⟩ : ∃ L, L = (linspace (Real.logb 10 q_min) (Real.logb 10 q_max) n).map fun t => (10:ℝ) ^ t := ⟨_, rfl⟩
  have h10 : (0:ℝ) < 10 := by norm_num
  have hpow : ∀ x : ℝ, 0 < x → (10:ℝ) ^ Real.logb 10 x = x := fun x hx => Real.rpow_logb h10 (by norm_num) hx
  have hval : ∀ t, t ∈ L ↔ ∃ i : ℕ, i < n ∧ t = q_min * (q_max / q_min) ^ ((i : ℝ) / ((n : ℝ) - 1)) := by
    intro t
    rw [hL, linspace, List.map_map, List.mem_map]
    have e : ∀ i : ℕ, i < n → ((fun t => (10:ℝ) ^ t) ∘ fun (i : ℕ) => if n = 1 then Real.logb 10 q_min else Real.logb 10 q_min +
        (i : ℝ) * ((Real.logb 10 q_max - Real.logb 10 q_min) / ((n : ℝ) - 1))) i = q_min * (q_max / q_min) ^ ((i : ℝ) / ((n : ℝ) - 1)) := by
      intro i hi
      simp only [Function.comp_apply]
      split
      · rename_i h; subst h
        have : i = 0 := by omega
        subst this
        simp [hpow _ h0]
      · rw [Real.rpow_add h10, hpow _ h0, ← Real.logb_div h1.ne' h0.ne',
          show (i : ℝ) * (Real.logb 10 (q_max / q_min) / ((n : ℝ) - 1)) = Real.logb 10 (q_max / q_min) * ((i : ℝ) / ((n : ℝ) - 1)) by ring,
          Real.rpow_mul h10.le, hpow _ (div_pos h1 h0)]
    constructor
    · rintro ⟨i, hi, rfl⟩
      exact ⟨i, List.mem_range.1 hi, e i (List.mem_range.1 hi)⟩
    · rintro ⟨i, hi, rfl⟩
      exact ⟨i, List.mem_range.2 hi, e i hi⟩
  have hpos : ∀ t ∈ L, 0 < t := by
    intro t ht
    obtain ⟨i, -, rfl⟩ := (hval t).1 ht
    have := div_pos h1 h0
    positivity
  refine ⟨_, by rw [buildQLog, if_neg (by push Not; exact ⟨h0, h1⟩)], fun t => ?_⟩
  simp only [← hL, unique, Finset.mem_sort, List.mem_toFinset, List.mem_append, List.mem_map, ← hval]
  have habs : t = |t| ∨ t = -|t| := by
    rcases abs_choice t with h | h
    · exact Or.inl h.symm
    · right; linarith
  constructor
  · rintro ((h | h) | ⟨s, (h | h), rfl⟩)
    · right; rwa [abs_of_pos (hpos t h)]
    · left
      simp only [List.mem_cons, List.not_mem_nil, or_false] at h ⊢
      rcases h with rfl | rfl | rfl <;> norm_num
    · right; rwa [abs_neg, abs_of_pos (hpos s h)]
    · left
      simp only [List.mem_cons, List.not_mem_nil, or_false] at h ⊢
      rcases h with rfl | rfl | rfl <;> norm_num
  · intro h
    rcases habs with ht | ht
    · left; rw [ht]; exact h.symm
    · right; exact ⟨|t|, h.symm, ht.symm⟩

/-- Non-vacuity of C30. -/
example : (0:ℝ) < 0.1 ∧ (0:ℝ) < 5 := by norm_num

/-! ### NaN-ignoring reductions -/

/-- C31 (sum): NaN entries are ignored, NaN iff all entries are NaN (for data without infinities), and the
result is the sum of the non-NaN entries. -/
theorem C31_nansum (l : List Fl) :
    (∀ x ∈ l, x = Fl.nan) ∧ fixedNanSum l = Fl.nan ∨
    (∃ x ∈ l, x ≠ Fl.nan) ∧ fixedNanSum l = (l.filter (fun x => x ≠ Fl.nan)).sum := by
  rw [fixedNanSum_eq]
  have hd : dropNaN l = l.filter (fun x => x ≠ Fl.nan) := by
    unfold dropNaN; apply List.filter_congr; intro x _; cases x <;> simp
  by_cases h : ∀ x ∈ l, x = Fl.nan
  · left; exact ⟨h, by rw [if_pos ((dropNaN_eq_nil_iff l).mpr h)]⟩
  · right
    refine ⟨by push Not at h; exact h, ?_⟩
    rw [if_neg (fun h' => h ((dropNaN_eq_nil_iff l).mp h')), hd]

/-- C31 (sum, data without infinities): NaN iff all entries are NaN. -/
theorem C31_nansum_nan_iff (l : List Fl) (hl : ∀ x ∈ l, x ≠ Fl.nan → x.IsFin) :
    fixedNanSum l = Fl.nan ↔ ∀ x ∈ l, x = Fl.nan := by
  rw [fixedNanSum_eq]
  constructor
  · intro h
    by_contra hc
    rw [if_neg (fun h' => hc ((dropNaN_eq_nil_iff l).mp h'))] at h
    obtain ⟨rs, hrs⟩ := dropNaN_eq_map_fin hl
    rw [hrs, Fl.sum_map_fin] at h
    exact Fl.fin_ne_nan _ h
  · intro h; rw [if_pos ((dropNaN_eq_nil_iff l).mpr h)]

/-- C31 (max): the largest non-NaN entry; NaN iff all entries are NaN. -/
theorem C31_nanmax (l : List Fl) :
    ((∃ x ∈ l, x ≠ Fl.nan) → fixedNanMax l ∈ l ∧ fixedNanMax l ≠ Fl.nan ∧
      ∀ x ∈ l, x ≠ Fl.nan → Fl.le x (fixedNanMax l)) ∧
    ((∀ x ∈ l, x = Fl.nan) ↔ fixedNanMax l = Fl.nan) :=
  ⟨fun h => nanmax_spec h, (nanmax_eq_nan_iff l).symm⟩

/-- C31 (mean, data without infinities): the arithmetic mean of the non-NaN entries, NaN iff there are none. -/
theorem C31_nanmean (l : List Fl) (rs : List ℝ) (h : l.filter (fun x => x ≠ Fl.nan) = rs.map Fl.fin) :
    (rs ≠ [] → nanmean l = Fl.fin (rs.sum / rs.length)) ∧ (nanmean l = Fl.nan ↔ ∀ x ∈ l, x = Fl.nan) := by
  have hd : dropNaN l = rs.map Fl.fin := by
    rw [← h]; unfold dropNaN; apply List.filter_congr; intro x _; cases x <;> simp
  have h1 : rs ≠ [] → nanmean l = Fl.fin (rs.sum / rs.length) := by
    intro hr; rw [← nanmean_dropNaN, hd, nanmean_map_fin hr]
  refine ⟨h1, ?_⟩
  rw [← dropNaN_eq_nil_iff, hd, List.map_eq_nil_iff]
  constructor
  · intro hn; by_contra hr; rw [h1 hr] at hn; exact Fl.fin_ne_nan _ hn
  · intro hr
    rw [← nanmean_dropNaN, hd, hr, List.map_nil]
    show Fl.fin 0 * (if ((0:ℕ):ℝ) = 0 then Fl.pinf else _) = _
    rw [if_pos (by simp), Fl.fin_mul_pinf, Fl.sgnInf_zero]

/-- C31 (order): the reductions do not depend on the order of the entries, nor on inserted NaNs. -/
theorem C31_order_and_nan_insertion (l l' : List Fl)
    (h : (l.filter (fun x => x ≠ Fl.nan)).Perm (l'.filter (fun x => x ≠ Fl.nan))) :
    fixedNanSum l = fixedNanSum l' ∧ fixedNanMax l = fixedNanMax l' ∧ nanmean l = nanmean l' ∧
      countNotNaN l = countNotNaN l' := by
  have hd : ∀ l : List Fl, l.filter (fun x => x ≠ Fl.nan) = dropNaN l := by
    intro l; unfold dropNaN; apply List.filter_congr; intro x _; cases x <;> simp
  rw [hd, hd] at h
  refine ⟨?_, ?_, ?_, ?_⟩
  · rw [fixedNanSum_eq, fixedNanSum_eq, h.sum_eq]
    have : dropNaN l = [] ↔ dropNaN l' = [] := by
      rw [← List.length_eq_zero_iff, ← List.length_eq_zero_iff, h.length_eq]
    simp only [this]
  · rw [fixedNanMax, fixedNanMax, ← nanmax_dropNaN l, ← nanmax_dropNaN l', nanmax_perm h]
  · rw [← nanmean_dropNaN l, ← nanmean_dropNaN l', nanmean_perm h]
  · rw [countNotNaN, countNotNaN, h.length_eq]

/-- Non-vacuity of C31: NaN inserted and entries permuted. -/
example : (([Fl.fin 1, Fl.nan, Fl.fin 2] : List Fl).filter (fun x => x ≠ Fl.nan)).Perm
    (([Fl.fin 2, Fl.fin 1, Fl.nan] : List Fl).filter (fun x => x ≠ Fl.nan)) := by
  simp; exact List.Perm.swap _ _ _

end MFA
