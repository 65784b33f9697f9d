import Verif.Lemmas.Cumulants

/-! How the building blocks of the estimators react to multiplication of the data by a constant. -/

namespace MFA

open Classical Finset

namespace Fl

theorem fin_mul_isNaN {k : ℝ} (hk : k ≠ 0) (x : Fl) : (fin k * x).isNaN = x.isNaN := by
  rcases sgnInf_trichotomy k with ⟨_, h1, h2⟩ | ⟨_, h1, h2⟩ | ⟨h, _, _⟩
  · cases x <;> simp [fin_mul_pinf, fin_mul_ninf, fin_mul, h1, h2]
  · cases x <;> simp [fin_mul_pinf, fin_mul_ninf, fin_mul, h1, h2]
  · exact absurd h hk

theorem abs_fin_mul (a : ℝ) (x : Fl) : (fin a * x).abs = fin |a| * x.abs := by
  rcases lt_trichotomy a 0 with h | h | h
  · have h1 : sgnInf a = ninf := sgnInf_neg h
    have h2 : sgnInf (-a) = pinf := sgnInf_pos (by linarith)
    have h3 : sgnInf |a| = pinf := sgnInf_pos (abs_pos.mpr h.ne)
    cases x <;> simp [fin_mul_pinf, fin_mul_ninf, fin_mul, h1, h2, h3, abs_mul]
  · subst h; cases x <;> simp [fin_mul_pinf, fin_mul_ninf, fin_mul, abs, sgnInf, -fin_zero]
  · have h1 : sgnInf a = pinf := sgnInf_pos h
    have h2 : sgnInf (-a) = ninf := sgnInf_neg (by linarith)
    have h3 : sgnInf |a| = pinf := sgnInf_pos (abs_pos.mpr h.ne')
    cases x <;> simp [fin_mul_pinf, fin_mul_ninf, fin_mul, h1, h2, h3, abs_mul]

theorem log2_fin_mul {k : ℝ} (hk : 0 < k) (z : Fl) : (fin k * z).log2 = z.log2 + fin (Real.logb 2 k) := by
  have h1 : sgnInf k = pinf := sgnInf_pos hk
  have h2 : sgnInf (-k) = ninf := sgnInf_neg (by linarith)
  cases z with
  | nan => simp
  | pinf => rw [fin_mul_pinf, h1]; simp [log2, logOf]
  | ninf => rw [fin_mul_ninf, h2]; simp [log2, logOf]
  | fin a =>
    rw [fin_mul]
    rcases lt_trichotomy a 0 with h | h | h
    · have : k * a < 0 := mul_neg_of_pos_of_neg hk h
      simp [log2, logOf, not_lt.mpr this.le, this.ne, not_lt.mpr h.le, h.ne]
    · subst h; simp [log2, logOf, -fin_zero]
    · rw [log2_fin (mul_pos hk h), log2_fin h, fin_add, Real.logb_mul hk.ne' h.ne', _root_.add_comm]

theorem ln_fin_mul {k : ℝ} (hk : 0 < k) (z : Fl) : (fin k * z).ln = z.ln + fin (Real.log k) := by
  have h1 : sgnInf k = pinf := sgnInf_pos hk
  have h2 : sgnInf (-k) = ninf := sgnInf_neg (by linarith)
  cases z with
  | nan => simp
  | pinf => rw [fin_mul_pinf, h1]; simp [ln, logOf]
  | ninf => rw [fin_mul_ninf, h2]; simp [ln, logOf]
  | fin a =>
    rw [fin_mul]
    rcases lt_trichotomy a 0 with h | h | h
    · have : k * a < 0 := mul_neg_of_pos_of_neg hk h
      simp [ln, logOf, not_lt.mpr this.le, this.ne, not_lt.mpr h.le, h.ne]
    · subst h; simp [ln, logOf, -fin_zero]
    · rw [ln_fin (mul_pos hk h), ln_fin h, fin_add, Real.log_mul hk.ne' h.ne', _root_.add_comm]

theorem abs_ne_ninf (x : Fl) : x.abs ≠ ninf := by cases x <;> simp [abs]

/-- Power of a scaled non-negative float. -/
theorem pow_fin_mul_abs {k : ℝ} (hk : 0 < k) (x : Fl) {e : ℝ} (he : e ≠ 0) :
    (fin k * x.abs).pow e = fin (k ^ e) * x.abs.pow e := by
  have hp : 0 < k ^ e := Real.rpow_pos_of_pos hk e
  have key : (fin k * pinf).pow e = fin (k ^ e) * pinf.pow e := by
    rw [fin_mul_pinf, sgnInf_pos hk]
    simp only [pow, he, if_false]
    split
    · rw [fin_mul_pinf, sgnInf_pos hp]
    · rw [fin_mul, mul_zero]
  cases x with
  | nan => simp [pow, he]
  | pinf => exact key
  | ninf => exact key
  | fin a =>
    rw [abs_fin, fin_mul]
    simp only [pow, he, if_false]
    by_cases ha : a = 0
    · subst ha
      simp only [abs_zero, mul_zero, if_true]
      split
      · rw [fin_mul, mul_zero]
      · rw [fin_mul_pinf, sgnInf_pos hp]
    · have h1 : 0 < |a| := abs_pos.mpr ha
      have h2 : 0 < k * |a| := mul_pos hk h1
      rw [if_neg h2.ne', if_pos (Or.inl h2), if_neg h1.ne', if_pos (Or.inl h1), fin_mul,
        Real.mul_rpow hk.le h1.le]

end Fl

theorem fastPower_fin_mul_abs {k : ℝ} (hk : 0 < k) (e : Expo) (x : Fl) :
    fastPower e (Fl.fin k * x.abs) = Fl.fin (k ^ e.val) * fastPower e x.abs := by
  have hne : Fl.fin k * x.abs ≠ Fl.ninf := by
    rw [← abs_of_pos hk, ← Fl.abs_fin_mul]; exact Fl.abs_ne_ninf _
  have hnan : (Fl.fin k * x.abs = Fl.nan) ↔ (x.abs = Fl.nan) := by
    rw [← Fl.isNaN_iff, ← Fl.isNaN_iff, Fl.fin_mul_isNaN hk.ne']
  rw [fastPower_eq, fastPower_eq]
  rw [if_neg (fun h => hne h.2 : ¬ (e.val = 1 / 2 ∧ Fl.fin k * x.abs = Fl.ninf)),
    if_neg (fun h => Fl.abs_ne_ninf x h.2 : ¬ (e.val = 1 / 2 ∧ x.abs = Fl.ninf))]
  by_cases he : e.val = 0
  · by_cases hx : x.abs = Fl.nan
    · rw [if_pos ⟨he, hnan.mpr hx⟩, if_pos ⟨he, hx⟩]; simp
    · rw [if_neg (fun h => hx (hnan.mp h.2)), if_neg (fun h => hx h.2), he, Real.rpow_zero, Fl.pow_zero,
        Fl.pow_zero, Fl.fin_mul, mul_one]
  · rw [if_neg (fun h => he h.1), if_neg (fun h => he h.1), Fl.pow_fin_mul_abs hk x he]

theorem nanmean_fin_mul {k : ℝ} (hk : k ≠ 0) (l : List Fl) :
    nanmean (l.map fun x => Fl.fin k * x) = Fl.fin k * nanmean l := by
  rw [nanmean, nanmean, nansum, nansum, dropNaN_map (Fl.fin_mul_isNaN hk), countNotNaN_map (Fl.fin_mul_isNaN hk),
    ← Fl.fin_mul_sum, Fl.div_def, Fl.div_def, mul_assoc]

theorem nansum_fin_mul {k : ℝ} (hk : k ≠ 0) (l : List Fl) :
    nansum (l.map fun x => Fl.fin k * x) = Fl.fin k * nansum l := by
  rw [nansum, nansum, dropNaN_map (Fl.fin_mul_isNaN hk), ← Fl.fin_mul_sum]

theorem Fl.le_fin_mul {k : ℝ} (hk : 0 < k) {x y : Fl} (h : Fl.le x y) : Fl.le (Fl.fin k * x) (Fl.fin k * y) := by
  have h1 : Fl.sgnInf k = Fl.pinf := Fl.sgnInf_pos hk
  have h2 : Fl.sgnInf (-k) = Fl.ninf := Fl.sgnInf_neg (by linarith)
  cases x <;> cases y <;> simp_all [Fl.le, Fl.fin_mul_pinf, Fl.fin_mul_ninf, Fl.fin_mul]

theorem nanmax_fin_mul {k : ℝ} (hk : 0 < k) (l : List Fl) :
    nanmax (l.map fun x => Fl.fin k * x) = Fl.fin k * nanmax l := by
  by_cases h : ∃ x ∈ l, x ≠ Fl.nan
  · obtain ⟨h1, h2, h3⟩ := nanmax_spec h
    apply nanmax_unique
    · exact List.mem_map.mpr ⟨_, h1, rfl⟩
    · rw [← Fl.not_isNaN_iff, Fl.fin_mul_isNaN hk.ne']; exact (Fl.not_isNaN_iff _).mpr h2
    · intro y hy hyn
      obtain ⟨x, hx, rfl⟩ := List.mem_map.mp hy
      apply Fl.le_fin_mul hk
      apply h3 x hx
      rintro rfl; simp at hyn
  · push Not at h
    rw [nanmax_of_all_nan h, nanmax_of_all_nan]
    · simp
    · intro y hy
      obtain ⟨x, hx, rfl⟩ := List.mem_map.mp hy
      rw [h x hx]; simp

variable {R : ℕ}

/-- Structure function of scaled data. -/
theorem sfMean_scale {a : ℝ} (ha : a ≠ 0) (c : Arr R) (e : Expo) (r : Fin R) :
    (sfMean (mapArr (fun x => Fl.fin a * x) c) e r).log2
      = (sfMean c e r).log2 + Fl.fin (e.val * Real.logb 2 |a|) := by
  have h0 : 0 < |a| := abs_pos.mpr ha
  have hp : 0 < |a| ^ e.val := Real.rpow_pos_of_pos h0 _
  have : sfMean (mapArr (fun x => Fl.fin a * x) c) e r = Fl.fin (|a| ^ e.val) * sfMean c e r := by
    unfold sfMean red
    rw [col_mapArr, col_mapArr, col_mapArr, col_mapArr, col_mapArr, ← nanmean_fin_mul hp.ne']
    simp only [List.map_map, Function.comp_def, Fl.abs_fin_mul, fastPower_fin_mul_abs h0]
  rw [this, Fl.log2_fin_mul hp, Real.logb_rpow_eq_mul_logb_of_pos h0]

theorem hminCol_scale {a : ℝ} (ha : a ≠ 0) (l : List Fl) :
    (nanmax ((l.map fun x => Fl.fin a * x).map Fl.abs)).log2
      = (nanmax (l.map Fl.abs)).log2 + Fl.fin (Real.logb 2 |a|) := by
  have h0 : 0 < |a| := abs_pos.mpr ha
  have : (l.map fun x => Fl.fin a * x).map Fl.abs = (l.map Fl.abs).map fun x => Fl.fin |a| * x := by
    simp only [List.map_map, Function.comp_def, Fl.abs_fin_mul]
  rw [this, nanmax_fin_mul h0, Fl.log2_fin_mul h0]

/-- Real-valued description of a column: its non-NaN entries are the reals `xs`. -/
def Entries (c : List Fl) (xs : List ℝ) : Prop := dropNaN c = xs.map Fl.fin

theorem Entries.scale {c : List Fl} {xs : List ℝ} (h : Entries c xs) {a : ℝ} (ha : a ≠ 0) :
    Entries (c.map fun x => Fl.fin a * x) (xs.map (a * ·)) := by
  unfold Entries at *
  rw [dropNaN_map (Fl.fin_mul_isNaN ha), h, List.map_map, List.map_map]
  apply List.map_congr_left; intro x _; simp [Fl.fin_mul]

theorem Entries.logs {c : List Fl} {xs : List ℝ} (h : Entries c xs) (h0 : ∀ x ∈ xs, x ≠ 0) :
    dropNaN (c.map fun x => x.abs.ln) = (xs.map fun x => Real.log |x|).map Fl.fin := by
  have hmem : ∀ x ∈ c, x ≠ Fl.nan → ∃ r ∈ xs, x = Fl.fin r := by
    intro x hx hxn
    have : x ∈ dropNaN c := mem_dropNaN.mpr ⟨hx, (Fl.not_isNaN_iff x).mpr hxn⟩
    rw [h, List.mem_map] at this
    obtain ⟨r, hr, e⟩ := this
    exact ⟨r, hr, e.symm⟩
  rw [dropNaN_map_of (by simp), h, List.map_map, List.map_map]
  · apply List.map_congr_left
    intro x hx
    simp [Fl.ln_fin (abs_pos.mpr (h0 x hx))]
  · intro x hx hxn
    obtain ⟨r, hr, rfl⟩ := hmem x hx hxn
    rw [Fl.abs_fin, Fl.ln_fin (abs_pos.mpr (h0 r hr))]; simp

theorem Entries.mem {c : List Fl} {xs : List ℝ} (h : Entries c xs) {x : Fl} (hx : x ∈ c) (hxn : x ≠ Fl.nan) :
    ∃ r ∈ xs, x = Fl.fin r := by
  have : x ∈ dropNaN c := mem_dropNaN.mpr ⟨hx, (Fl.not_isNaN_iff x).mpr hxn⟩
  rw [h, List.mem_map] at this
  obtain ⟨r, hr, e⟩ := this
  exact ⟨r, hr, e.symm⟩

theorem Entries.count {c : List Fl} {xs : List ℝ} (h : Entries c xs) : countNotNaN c = xs.length := by
  rw [countNotNaN, h, List.length_map]

end MFA
