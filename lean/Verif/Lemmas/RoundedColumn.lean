import Verif.Lemmas.RoundedSlope
import Mathlib.Analysis.Complex.ExponentialBounds

/-! Explicit bounds on rounding errors: the statistics of one column. -/

namespace MFA

open Classical

noncomputable section

variable {M : Machine}

theorem Machine.gam_add (M : Machine) (k l : ℕ) : M.gam (k + l) = M.gam l * (1 + M.gam k) + M.gam k := by unfold Machine.gam; ring

theorem Machine.mul_gam_le (M : Machine) (a k : ℕ) : (a : ℝ) * M.gam k ≤ M.gam (a * k) := by
  have := one_add_mul_le_pow (a := M.gam k) (by linarith [M.gam_nonneg k]) a
  have e : (1 + M.gam k) ^ a = 1 + M.gam (a * k) := by unfold Machine.gam; rw [mul_comm a k, pow_mul]; ring
  rw [e] at this
  linarith

/-- A quotient by a known positive number. -/
theorem Ap.divExact {k : ℕ} {A d : ℝ} {f : Fl} {x : ℝ} (hf : Ap M k A f x) (hd : 0 < d) : Ap M (k + 1) (A / d) (M.div f (Fl.fin d)) (x / d) := by
  refine Ap.round (k := k) (f := f / Fl.fin d) ?_ (M.div_ok _ _)
  obtain ⟨z, rfl, h2, h3⟩ := hf
  refine ⟨z / d, by rw [Fl.fin_div hd.ne'], ?_, ?_⟩
  · rw [← sub_div, abs_div, abs_of_pos hd, ← mul_div_assoc]
    exact div_le_div_of_nonneg_right h2 hd.le
  · rw [abs_div, abs_of_pos hd]
    exact div_le_div_of_nonneg_right h3 hd.le

/-- Powers with a natural exponent. -/
theorem Ap.powNat {k : ℕ} {A : ℝ} {f : Fl} {x : ℝ} (hf : Ap M k A f x) (n : ℕ) : Ap M (k * n + 1) (A ^ n) (M.pow f (n : ℝ)) (x ^ n) := by
  refine Ap.round (k := k * n) (f := Fl.pow f (n : ℝ)) ?_ (M.pow_ok _ _)
  have hA := hf.nonneg
  obtain ⟨z, rfl, h2, h3⟩ := hf
  refine ⟨z ^ n, pow_natCast z n, ?_, by rw [abs_pow]; exact pow_le_pow_left₀ (abs_nonneg _) h3 n⟩
  induction n with
  | zero => simp [Machine.gam]
  | succ n ih =>
    have hz : |z| ≤ (1 + M.gam k) * A := by
      have := abs_sub_abs_le_abs_sub z x
      linarith
    rw [show z ^ (n + 1) - x ^ (n + 1) = (z ^ n - x ^ n) * z + x ^ n * (z - x) by ring]
    have a1 : |(z ^ n - x ^ n) * z| ≤ M.gam (k * n) * A ^ n * ((1 + M.gam k) * A) := by
      rw [abs_mul]; exact mul_le_mul ih hz (abs_nonneg _) (mul_nonneg (M.gam_nonneg _) (pow_nonneg hA n))
    have a2 : |x ^ n * (z - x)| ≤ A ^ n * (M.gam k * A) := by
      rw [abs_mul, abs_pow]; exact mul_le_mul (pow_le_pow_left₀ (abs_nonneg _) h3 n) h2 (abs_nonneg _) (pow_nonneg hA n)
    refine (abs_add_le _ _).trans ((add_le_add a1 a2).trans (le_of_eq ?_))
    rw [show k * (n + 1) = k + k * n by ring, M.gam_add]
    ring

theorem Ap.fastPowerNat {k : ℕ} {A : ℝ} {f : Fl} {x : ℝ} (hf : Ap M k A f x) {n : ℕ} (hn : 1 ≤ n) :
    Ap M (k * n + 1) (A ^ n) (M.fastPower (.real n) f) (x ^ n) := by
  have hn' : (1:ℝ) ≤ n := by exact_mod_cast hn
  unfold Machine.fastPower
  split_ifs with h1 h2 h3 h4 h5
  · have : n = 1 := by exact_mod_cast (show (n:ℝ) = 1 from h1)
    subst this
    rw [pow_one, pow_one]
    exact hf.mono (by omega) le_rfl
  · have : n = 2 := by exact_mod_cast (show (n:ℝ) = 2 from h2)
    subst this
    rw [pow_two, pow_two, show k * 2 + 1 = k + k + 1 by ring]
    exact hf.mul hf
  · exact absurd (show (n:ℝ) = 1 / 2 from h3) (by intro h; linarith)
  · exact absurd (show (n:ℝ) = 0 from h4) (by intro h; linarith)
  · exact absurd (show (n:ℝ) = 0 from h4) (by intro h; linarith)
  · exact absurd (show (n:ℝ) = -1 from by assumption) (by intro h; linarith)
  · exact hf.powNat n

/-- Powers of known positive numbers. -/
theorem Ap.absPower (M : Machine) {t : ℝ} (ht : t ≠ 0) (e : ℝ) : Ap M 1 (|t| ^ e) (M.fastPower (.real e) (Fl.fin t).abs) (|t| ^ e) := by
  have h0 : 0 ≤ |t| ^ e := (Real.rpow_pos_of_pos (abs_pos.2 ht) e).le
  have hx := fastPower_abs_fin (e := .real e) (x := t) (Or.inr ht)
  have key : Rounds M.u (MFA.fastPower (.real e) (Fl.fin t).abs) (M.fastPower (.real e) (Fl.fin t).abs) ∨
      M.fastPower (.real e) (Fl.fin t).abs = MFA.fastPower (.real e) (Fl.fin t).abs := by
    unfold Machine.fastPower MFA.fastPower
    split_ifs with h1 h2 h3 h4 h5
    · exact Or.inr rfl
    · exact Or.inl (M.mul_ok _ _)
    · exact Or.inl (M.sqrt_ok _)
    · exact Or.inr rfl
    · exact Or.inl (M.pow_ok _ _)
    · exact Or.inl (M.pow_ok _ _)
    · exact Or.inl (M.pow_ok _ _)
  have hE : Ap M 0 (|t| ^ e) (MFA.fastPower (.real e) (Fl.fin t).abs) (|t| ^ e) := by
    rw [hx]
    exact Ap.exact M 0 (le_of_eq (abs_of_nonneg h0))
  rcases key with h | h
  · exact hE.round h
  · rw [h]
    exact hE.mono (by omega) le_rfl

theorem abs_logb_le {g t : ℝ} (hg : g ≤ 1 / 2) (ht : |t - 1| ≤ g) : |Real.logb 2 t| ≤ 3 * g := by
  have h2 : (0.6931471803 : ℝ) < Real.log 2 := Real.log_two_gt_d9
  have hb := abs_le.1 ht
  have htp : 0 < t := by linarith
  have hg0 : 0 ≤ g := (abs_nonneg _).trans ht
  rw [Real.logb, abs_div, abs_of_pos (by linarith : (0:ℝ) < Real.log 2), div_le_iff₀ (by linarith)]
  have u1 := Real.log_le_sub_one_of_pos htp
  have u2 := Real.one_sub_inv_le_log_of_pos htp
  have u3 : t⁻¹ ≤ 1 + 2 * g := by
    rw [inv_le_comm₀ htp (by linarith), inv_eq_one_div, div_le_iff₀ (by linarith)]
    nlinarith
  rw [abs_le]
  constructor <;> nlinarith

/-- Logarithm of a positive number known with a small relative error. -/
theorem Ap.log2 {k : ℕ} {f : Fl} {x B : ℝ} (h : Ap M k x f x) (hx : 0 < x) (hk : 1 ≤ k) (hg : M.gam k ≤ 1 / 2) (hB : |Real.logb 2 x| ≤ B) :
    Ap M k (B + 5) (M.log2 f) (Real.logb 2 x) := by
  have hB0 : 0 ≤ B := (abs_nonneg _).trans hB
  have hg0 := M.gam_nonneg k
  have hu := M.u_le_gam hk
  have hu0 := M.u_nonneg
  obtain ⟨z, rfl, h2, h3⟩ := h
  have hz := abs_le.1 h2
  have hzp : 0 < z := by nlinarith
  have hq : |z / x - 1| ≤ M.gam k := by
    rw [show z / x - 1 = (z - x) / x by field_simp, abs_div, abs_of_pos hx, div_le_iff₀ hx]
    exact h2
  have hl := abs_logb_le hg hq
  rw [Real.logb_div hzp.ne' hx.ne'] at hl
  rcases M.log2_ok (Fl.fin z) with ⟨a, b, e1, e2, e3⟩ | ⟨e, -⟩
  · have hlz : Fl.log2 (Fl.fin z) = Fl.fin (Real.logb 2 z) := Fl.log2_fin hzp
    rw [hlz, Fl.fin_inj] at e1
    subst e1
    refine ⟨b, e2, ?_, by linarith⟩
    have h5 := abs_sub_le b (Real.logb 2 z) (Real.logb 2 x)
    have h6 : |Real.logb 2 z| ≤ B + 3 * M.gam k := by
      have := abs_sub_abs_le_abs_sub (Real.logb 2 z) (Real.logb 2 x)
      linarith
    have h7 : M.u * |Real.logb 2 z| ≤ M.gam k * (B + 3 * M.gam k) := mul_le_mul hu h6 (abs_nonneg _) hg0
    have h8 : M.gam k * M.gam k ≤ M.gam k * (1 / 2) := mul_le_mul_of_nonneg_left hg hg0
    nlinarith
  · exact absurd (Fl.log2_fin hzp) (e _)

/-- Logarithm of a known number. -/
theorem Ap.log2Exact (M : Machine) {x B : ℝ} (hx : 0 < x) (hB : |Real.logb 2 x| ≤ B) : Ap M 1 B (M.log2 (Fl.fin x)) (Real.logb 2 x) := by
  refine Ap.round (k := 0) (f := Fl.log2 (Fl.fin x)) ?_ (M.log2_ok _)
  rw [Fl.log2_fin hx]
  exact Ap.exact M 0 hB

theorem Ap.lnExact (M : Machine) {x B : ℝ} (hx : 0 < x) (hB : |Real.log x| ≤ B) : Ap M 1 B (M.ln (Fl.fin x)) (Real.log x) := by
  refine Ap.round (k := 0) (f := Fl.ln (Fl.fin x)) ?_ (M.ln_ok _)
  rw [Fl.ln_fin hx]
  exact Ap.exact M 0 hB

/-! ### Columns -/

/-- The computed entries `F x` of a column, NaN where `x` is. -/
def ApC (M : Machine) (k : ℕ) (c : List Fl) (F : Fl → Fl) (A X : Fl → ℝ) : Prop :=
  ∀ x ∈ c, (x = Fl.nan → F x = Fl.nan) ∧ (x ≠ Fl.nan → Ap M k (A x) (F x) (X x))

/-- Sum over the entries that are not NaN. -/
def usum (c : List Fl) (X : Fl → ℝ) : ℝ := (c.map fun x => if x = Fl.nan then 0 else X x).sum

variable {k : ℕ} {c : List Fl} {F : Fl → Fl} {A X : Fl → ℝ}

theorem ApC.isNaN (h : ApC M k c F A X) {x : Fl} (hx : x ∈ c) : (F x).isNaN = x.isNaN := by
  by_cases hn : x = Fl.nan
  · rw [(h x hx).1 hn, hn]
  · obtain ⟨z, e, -⟩ := (h x hx).2 hn
    rw [e, (Fl.not_isNaN_iff x).2 hn]; rfl

theorem ApC.count (h : ApC M k c F A X) : countNotNaN (c.map F) = countNotNaN c := by
  unfold countNotNaN dropNaN
  rw [List.filter_map, List.length_map]
  congr 1
  refine List.filter_congr fun x hx => ?_
  show (!(F x).isNaN) = _
  rw [h.isNaN hx]

theorem ApC.nansum (h : ApC M k c F A X) : Ap M (k + c.length) (usum c A) (M.nansum (c.map F)) (usum c X) := by
  have := Ap.sum (M := M) (k := k) (l := c) (F := fun x => if (F x).isNaN then Fl.fin 0 else F x)
    (A := fun x => if x = Fl.nan then 0 else A x) (X := fun x => if x = Fl.nan then 0 else X x) (by
      intro x hx
      by_cases hn : x = Fl.nan
      · rw [if_pos hn, if_pos hn, (h x hx).1 hn]
        exact Ap.exact M k (by simp)
      · rw [if_neg hn, if_neg hn]
        have : (F x).isNaN = false := by rw [h.isNaN hx]; exact (Fl.not_isNaN_iff x).2 hn
        rw [this]
        exact (h x hx).2 hn)
  unfold Machine.nansum
  rw [List.map_map]
  exact this

theorem usum_const (c : List Fl) (a : ℝ) : usum c (fun _ => a) = countNotNaN c * a := by
  unfold usum countNotNaN dropNaN
  induction c with
  | nil => simp
  | cons x c ih =>
    rw [List.map_cons, List.sum_cons, ih]
    by_cases hx : x = Fl.nan
    · subst hx; simp
    · rw [if_neg hx, List.filter_cons_of_pos (by rw [(Fl.not_isNaN_iff x).2 hx]; rfl)]
      push_cast [List.length_cons]
      ring

theorem usum_le {A B : Fl → ℝ} (h : ∀ x ∈ c, x ≠ Fl.nan → A x ≤ B x) : usum c A ≤ usum c B := by
  refine listSum_le _ _ _ fun x hx => ?_
  by_cases hn : x = Fl.nan
  · rw [if_pos hn, if_pos hn]
  · rw [if_neg hn, if_neg hn]; exact h x hx hn

theorem usum_pos {A : Fl → ℝ} (hne : ∃ x ∈ c, x ≠ Fl.nan) (h : ∀ x ∈ c, x ≠ Fl.nan → 0 < A x) : 0 < usum c A :=
  sum_pos_of (N := fun x => x = Fl.nan) hne h

theorem usum_mul (c : List Fl) (a : ℝ) (A : Fl → ℝ) : usum c (fun x => a * A x) = a * usum c A := by
  unfold usum
  rw [← listSum_mul]
  congr 1
  exact List.map_congr_left fun x _ => by split_ifs <;> simp

theorem count_pos (hne : ∃ x ∈ c, x ≠ Fl.nan) : 0 < countNotNaN c := by
  obtain ⟨x, hx, hn⟩ := hne
  refine List.length_pos_of_mem (a := x) ?_
  rw [dropNaN, List.mem_filter]
  exact ⟨hx, by rw [(Fl.not_isNaN_iff x).2 hn]; rfl⟩

theorem count_le (c : List Fl) : countNotNaN c ≤ c.length := List.length_filter_le _ _

theorem ApC.nanmean (h : ApC M k c F A X) (hne : ∃ x ∈ c, x ≠ Fl.nan) :
    Ap M (k + c.length + 1) (usum c A / countNotNaN c) (M.nanmean (c.map F)) (usum c X / countNotNaN c) := by
  unfold Machine.nanmean
  rw [h.count]
  exact h.nansum.divExact (by exact_mod_cast count_pos hne)

theorem ApC.fixedNanSum (h : ApC M k c F A X) (hne : ∃ x ∈ c, x ≠ Fl.nan) :
    Ap M (k + c.length) (usum c A) (M.fixedNanSum (c.map F)) (usum c X) := by
  unfold Machine.fixedNanSum
  rw [if_neg]
  · exact h.nansum
  · obtain ⟨x, hx, hn⟩ := hne
    intro hall
    rw [List.all_eq_true] at hall
    have := hall (F x) (List.mem_map.2 ⟨x, hx, rfl⟩)
    rw [h.isNaN hx, (Fl.not_isNaN_iff x).2 hn] at this
    cases this

end

end MFA
