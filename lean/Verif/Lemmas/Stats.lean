import Verif.Lemmas.Master
import Mathlib.Analysis.MeanInequalities

/-! Values of the per-scale statistics on special data, inequalities. -/

namespace MFA

open Classical Finset

variable {R : ℕ}

theorem fastPower_zero_of {x : Fl} (h : x ≠ Fl.nan) : fastPower (.real 0) x = Fl.fin 1 := by
  rw [fastPower_eq, if_neg (fun h' => h h'.2), if_neg (fun h' => by have := h'.1; simp [Expo.val] at this)]
  exact Fl.pow_zero x

theorem dropNaN_pow_zero (c : List Fl) :
    dropNaN ((c.map Fl.abs).map (fastPower (.real 0))) = (List.replicate (countNotNaN c) (1:ℝ)).map Fl.fin := by
  unfold countNotNaN
  rw [List.map_map]
  induction c with
  | nil => rfl
  | cons a c ih =>
    by_cases ha : a = Fl.nan
    · subst ha
      rw [List.map_cons, dropNaN_cons_nan]
      simp only [Function.comp_apply, Fl.abs_nan, fastPower_nan, dropNaN_cons_nan]
      exact ih
    · have : a.abs ≠ Fl.nan := by rw [← Fl.not_isNaN_iff, Fl.isNaN_abs, Fl.not_isNaN_iff]; exact ha
      rw [List.map_cons, dropNaN_cons_of ((Fl.not_isNaN_iff a).mpr ha)]
      simp only [Function.comp_apply, fastPower_zero_of this]
      rw [dropNaN_cons_of (by simp), List.length_cons, List.replicate_succ, List.map_cons, ih]

theorem countNotNaN_pos {c : List Fl} (h : ∃ x ∈ c, x ≠ Fl.nan) : 0 < countNotNaN c := by
  obtain ⟨x, hx, hn⟩ := h
  exact List.length_pos_of_mem (mem_dropNaN.mpr ⟨hx, (Fl.not_isNaN_iff x).mpr hn⟩)

/-- S(j,0) = 1. -/
theorem sfMean_zero {c : List Fl} (h : ∃ x ∈ c, x ≠ Fl.nan) :
    nanmean ((c.map Fl.abs).map (fastPower (.real 0))) = Fl.fin 1 := by
  have hpos := countNotNaN_pos h
  have h' : (countNotNaN c : ℝ) ≠ 0 := by exact_mod_cast hpos.ne'
  rw [← nanmean_dropNaN, dropNaN_pow_zero, nanmean_map_fin (by simp; omega)]
  simp [h']

/-- U(j,0) = 0. -/
theorem msU_zero {c : List Fl} (h : ∃ x ∈ c, x ≠ Fl.nan) : msU (countNotNaN c) c (.real 0) = Fl.fin 0 := by
  have hpos := countNotNaN_pos h
  have hn : (0:ℝ) < countNotNaN c := by exact_mod_cast hpos
  generalize hN : countNotNaN c = N at *
  have hs : nansum ((c.map Fl.abs).map (fastPower (.real 0))) = Fl.fin N := by
    rw [nansum, dropNaN_pow_zero, Fl.sum_map_fin, hN]; simp
  have hd : dropNaN ((msR c (.real 0)).map fun R => R * R.log2)
      = (List.replicate N (1 / (N:ℝ) * Real.logb 2 (1 / N))).map Fl.fin := by
    unfold msR
    simp only [hs]
    rw [List.map_map, dropNaN_map_of]
    · rw [dropNaN_pow_zero, hN, List.map_map, List.map_replicate, List.map_replicate]
      congr 1
      simp only [Function.comp_apply]
      rw [Fl.fin_div hn.ne', Fl.log2_fin (by positivity), Fl.fin_mul]
    · simp
    · intro x hx hxn
      have : x ∈ dropNaN ((c.map Fl.abs).map (fastPower (.real 0))) :=
        mem_dropNaN.mpr ⟨hx, (Fl.not_isNaN_iff x).mpr hxn⟩
      rw [dropNaN_pow_zero, List.map_replicate, List.mem_replicate] at this
      rw [this.2]
      simp only [Function.comp_apply]
      rw [Fl.fin_div hn.ne', Fl.log2_fin (by positivity), Fl.fin_mul]; simp
  unfold msU
  rw [fixedNanSum_eq, hd, if_neg (by simp; omega), Fl.sum_map_fin, Fl.log2_fin hn, Fl.fin_add]
  congr 1
  rw [List.sum_replicate, nsmul_eq_mul, one_div, Real.logb_inv]
  field_simp
  ring

/-! ### Constant modulus -/

section const
variable {c : List Fl} {xs : List ℝ} {K : ℝ}

theorem powSum_const (hK : ∀ x ∈ xs, |x| = K) (q : ℝ) : powSum xs q = xs.length * K ^ q := by
  unfold powSum
  rw [List.map_congr_left (g := fun _ => K ^ q) (fun x hx => by rw [hK x hx])]
  simp

variable (h : Entries c xs) (hne : xs ≠ []) (hK0 : 0 < K) (hK : ∀ x ∈ xs, |x| = K)
include h hne hK0 hK

theorem const_nonzero : ∀ x ∈ xs, x ≠ 0 := by
  intro x hx h0
  have := hK x hx
  rw [h0, abs_zero] at this; linarith

theorem const_exists : ∃ x ∈ xs, x ≠ 0 := by
  obtain ⟨x, hx⟩ := List.exists_mem_of_ne_nil xs hne
  exact ⟨x, hx, const_nonzero h hne hK0 hK x hx⟩

theorem const_sf (e : Expo) :
    (nanmean ((c.map Fl.abs).map (fastPower e))).log2 = Fl.fin (e.val * Real.logb 2 K) := by
  have hlen : (0:ℝ) < xs.length := by exact_mod_cast List.length_pos_iff.mpr hne
  have hp : 0 < K ^ e.val := Real.rpow_pos_of_pos hK0 _
  rw [sfMean_col h (Or.inr (const_nonzero h hne hK0 hK)) hne, powSum_const hK, mul_div_cancel_left₀ _ hlen.ne',
    Fl.log2_fin hp, Real.logb_rpow_eq_mul_logb_of_pos hK0]

theorem const_V (e : Expo) : msV c e = Fl.fin (Real.logb 2 K) := by
  have hq : 0 < e.val ∨ ∀ x ∈ xs, x ≠ 0 := Or.inr (const_nonzero h hne hK0 hK)
  have hex := const_exists h hne hK0 hK
  rw [msV_eq h hq hex]
  congr 1
  rw [List.map_congr_left (g := fun x => |x| ^ e.val / powSum xs e.val * Real.logb 2 K)
    (fun x hx => by rw [hK x hx]), List.sum_map_mul_right, probSum hex, one_mul]

theorem const_U (e : Expo) : msU (countNotNaN c) c e = Fl.fin 0 := by
  have hlen : (0:ℝ) < xs.length := by exact_mod_cast List.length_pos_iff.mpr hne
  have hq : 0 < e.val ∨ ∀ x ∈ xs, x ≠ 0 := Or.inr (const_nonzero h hne hK0 hK)
  have hex := const_exists h hne hK0 hK
  have hp : 0 < K ^ e.val := Real.rpow_pos_of_pos hK0 _
  rw [h.count, msU_eq_msV h hq hex hne, const_V h hne hK0 hK, powSum_const hK, mul_div_cancel_left₀ _ hlen.ne',
    Fl.log2_fin hp, Real.logb_rpow_eq_mul_logb_of_pos hK0, Fl.fin_mul, Fl.fin_mul, Fl.fin_add]
  congr 1; ring

theorem const_hmin : (nanmax (c.map Fl.abs)).log2 = Fl.fin (Real.logb 2 K) := by
  have : nanmax (c.map Fl.abs) = Fl.fin K := by
    obtain ⟨x, hx⟩ := List.exists_mem_of_ne_nil xs hne
    apply nanmax_unique
    · exact List.mem_map.mpr ⟨Fl.fin x, h.mem' hx, by rw [Fl.abs_fin, hK x hx]⟩
    · simp
    · intro y hy hyn
      obtain ⟨z, hz, rfl⟩ := List.mem_map.mp hy
      obtain ⟨t, ht, rfl⟩ := h.mem hz (by rintro rfl; simp at hyn)
      rw [Fl.abs_fin, hK t ht]; exact Fl.le_refl' (by simp)
  rw [this, Fl.log2_fin hK0]

theorem const_cum {n i : ℕ} (hi : i < n) :
    (cmColumn (c.map fun x => x.abs.ln) n).getD i Fl.nan = Fl.fin (if i = 0 then Real.log K else 0) := by
  have hls := h.logs (const_nonzero h hne hK0 hK)
  rw [cmColumn_getD hls (by simp [hne]) hi, kap_const (a := Real.log K) (by simp [hne])]
  intro l hl
  obtain ⟨x, hx, rfl⟩ := List.mem_map.mp hl
  rw [hK x hx]

end const

/-! ### Inequalities -/

/-- Log-convexity of power sums. -/
theorem powSum_logconvex {xs : List ℝ} (hne : xs ≠ []) (h0 : ∀ x ∈ xs, x ≠ 0) :
    ConvexOn ℝ Set.univ (fun q => Real.logb 2 (powSum xs q / xs.length)) := by
  obtain ⟨x0, hx0⟩ := List.exists_mem_of_ne_nil xs hne
  have hex : ∃ x ∈ xs, x ≠ 0 := ⟨x0, hx0, h0 x0 hx0⟩
  have hlen : (0:ℝ) < xs.length := by exact_mod_cast List.length_pos_iff.mpr hne
  refine ⟨convex_univ, fun q1 _ q2 _ a b ha hb hab => ?_⟩
  have p1 := powSum_pos q1 hex
  have p2 := powSum_pos q2 hex
  simp only [smul_eq_mul]
  have key : powSum xs (a * q1 + b * q2) ≤ powSum xs q1 ^ a * powSum xs q2 ^ b := by
    have hterm : ∀ x ∈ xs, |x| ^ (a * q1 + b * q2) ≤ powSum xs q1 ^ a * powSum xs q2 ^ b *
        (a * (|x| ^ q1 / powSum xs q1) + b * (|x| ^ q2 / powSum xs q2)) := by
      intro x hx
      have hx' : 0 < |x| := abs_pos.mpr (h0 x hx)
      have hA : 0 ≤ |x| ^ q1 / powSum xs q1 := by positivity
      have hB : 0 ≤ |x| ^ q2 / powSum xs q2 := by positivity
      have := Real.geom_mean_le_arith_mean2_weighted ha hb hA hB hab
      rw [Real.div_rpow (by positivity) p1.le, Real.div_rpow (by positivity) p2.le, ← Real.rpow_mul hx'.le,
        ← Real.rpow_mul hx'.le] at this
      have hP : 0 < powSum xs q1 ^ a * powSum xs q2 ^ b := by positivity
      calc |x| ^ (a * q1 + b * q2) = |x| ^ (q1 * a) * |x| ^ (q2 * b) := by
            rw [← Real.rpow_add hx']; ring_nf
        _ = powSum xs q1 ^ a * powSum xs q2 ^ b *
              (|x| ^ (q1 * a) / powSum xs q1 ^ a * (|x| ^ (q2 * b) / powSum xs q2 ^ b)) := by
            field_simp
        _ ≤ _ := mul_le_mul_of_nonneg_left this hP.le
    calc powSum xs (a * q1 + b * q2) ≤ (xs.map fun x => powSum xs q1 ^ a * powSum xs q2 ^ b *
        (a * (|x| ^ q1 / powSum xs q1) + b * (|x| ^ q2 / powSum xs q2))).sum :=
          List.sum_le_sum hterm
      _ = powSum xs q1 ^ a * powSum xs q2 ^ b := by
          rw [List.sum_map_mul_left, List.sum_map_add, List.sum_map_mul_left, List.sum_map_mul_left,
            show (xs.map fun x => |x| ^ q1 / powSum xs q1).sum = 1 from probSum (e := .real q1) hex,
            show (xs.map fun x => |x| ^ q2 / powSum xs q2).sum = 1 from probSum (e := .real q2) hex, mul_one, mul_one, hab, mul_one]
  have hpos := powSum_pos (a * q1 + b * q2) hex
  rw [Real.logb_div hpos.ne' hlen.ne', Real.logb_div p1.ne' hlen.ne', Real.logb_div p2.ne' hlen.ne']
  have h1 : Real.logb 2 (powSum xs (a * q1 + b * q2)) ≤ a * Real.logb 2 (powSum xs q1)
      + b * Real.logb 2 (powSum xs q2) := by
    calc _ ≤ Real.logb 2 (powSum xs q1 ^ a * powSum xs q2 ^ b) := Real.logb_le_logb_of_le (by norm_num) hpos key
      _ = _ := by
        rw [Real.logb_mul (by positivity) (by positivity), Real.logb_rpow_eq_mul_logb_of_pos p1,
          Real.logb_rpow_eq_mul_logb_of_pos p2]
  have : Real.logb 2 xs.length = a * Real.logb 2 xs.length + b * Real.logb 2 xs.length := by
    rw [← add_mul, hab, one_mul]
  linarith

section bounds
variable {c : List Fl} {xs : List ℝ} {e : Expo} (h : Entries c xs) (hq : 0 < e.val ∨ ∀ x ∈ xs, x ≠ 0)
  (hex : ∃ x ∈ xs, x ≠ 0)
include h hq hex

/-- V is a weighted mean of the log2 of the moduli of the non-zero entries. -/
theorem msV_bounds {lo hi : ℝ} (hlo : ∀ x ∈ xs, x ≠ 0 → lo ≤ Real.logb 2 |x|)
    (hhi : ∀ x ∈ xs, x ≠ 0 → Real.logb 2 |x| ≤ hi) : ∃ v, msV c e = Fl.fin v ∧ lo ≤ v ∧ v ≤ hi := by
  have hS := powSum_pos e.val hex
  refine ⟨_, msV_eq h hq hex, ?_, ?_⟩
  · have : lo = (xs.map fun x => |x| ^ e.val / powSum xs e.val * lo).sum := by
      rw [List.sum_map_mul_right, probSum hex, one_mul]
    rw [this]
    apply List.sum_le_sum
    intro x hx
    by_cases h0 : x = 0
    · subst h0
      have he : 0 < e.val := hq.resolve_right (fun h => h 0 hx rfl)
      simp [Real.zero_rpow he.ne']
    · exact mul_le_mul_of_nonneg_left (hlo x hx h0) (by positivity)
  · have : hi = (xs.map fun x => |x| ^ e.val / powSum xs e.val * hi).sum := by
      rw [List.sum_map_mul_right, probSum hex, one_mul]
    rw [this]
    apply List.sum_le_sum
    intro x hx
    by_cases h0 : x = 0
    · subst h0
      have he : 0 < e.val := hq.resolve_right (fun h => h 0 hx rfl)
      simp [Real.zero_rpow he.ne']
    · exact mul_le_mul_of_nonneg_left (hhi x hx h0) (by positivity)

theorem msU_bounds : ∃ u, msU (countNotNaN c) c e = Fl.fin u ∧ 0 ≤ u ∧ u ≤ Real.logb 2 (countNotNaN c) := by
  have hne : xs ≠ [] := by rintro rfl; obtain ⟨x, hx, _⟩ := hex; cases hx
  have hlen : 0 < xs.length := List.length_pos_iff.mpr hne
  have hlen' : (0:ℝ) < xs.length := by exact_mod_cast hlen
  have hS := powSum_pos e.val hex
  rw [h.count]
  have hp : ∀ x, 0 ≤ |x| ^ e.val / powSum xs e.val := fun x => by positivity
  have hp1 : ∀ x ∈ xs, |x| ^ e.val / powSum xs e.val ≤ 1 := by
    intro x hx
    rw [div_le_one hS]
    unfold powSum
    apply List.single_le_sum
    · intro y hy
      obtain ⟨z, _, rfl⟩ := List.mem_map.mp hy
      exact Real.rpow_nonneg (abs_nonneg z) _
    · exact List.mem_map.mpr ⟨x, hx, rfl⟩
  refine ⟨_, msU_eq h hq hex hlen, ?_, ?_⟩
  · -- Gibbs
    have hl2 : 0 < Real.log 2 := Real.log_pos (by norm_num)
    have hterm : ∀ x ∈ xs, |x| ^ e.val / powSum xs e.val * (1 / Real.log 2) - 1 / (xs.length : ℝ) * (1 / Real.log 2)
        ≤ Real.logb 2 xs.length * (|x| ^ e.val / powSum xs e.val)
          + |x| ^ e.val / powSum xs e.val * Real.logb 2 (|x| ^ e.val / powSum xs e.val) := by
      intro x _
      have hpx := hp x
      generalize |x| ^ e.val / powSum xs e.val = p at hpx
      rcases hpx.eq_or_lt with h0 | h0
      · rw [← h0]
        simp only [zero_mul, mul_zero, add_zero, zero_sub, Left.neg_nonpos_iff]
        positivity
      · have hl := Real.one_sub_inv_le_log_of_pos (mul_pos hlen' h0)
        rw [Real.log_mul hlen'.ne' h0.ne'] at hl
        have e1 : Real.logb 2 xs.length * p + p * Real.logb 2 p
            = p * (Real.log xs.length + Real.log p) * (1 / Real.log 2) := by
          rw [Real.logb, Real.logb]; field_simp
        have e2 : p * (1 / Real.log 2) - 1 / (xs.length : ℝ) * (1 / Real.log 2)
            = p * (1 - ((xs.length : ℝ) * p)⁻¹) * (1 / Real.log 2) := by
          field_simp
        rw [e1, e2]
        exact mul_le_mul_of_nonneg_right (mul_le_mul_of_nonneg_left hl h0.le) (by positivity)
    have := List.sum_le_sum hterm
    simp only [sub_eq_add_neg] at this
    rw [List.sum_map_add, List.sum_map_add, List.sum_map_mul_right, List.sum_map_mul_left, probSum hex] at this
    simp only [List.map_const', List.sum_replicate, nsmul_eq_mul, mul_one, one_mul] at this
    have e3 : (xs.length : ℝ) * (1 / (xs.length : ℝ) * (1 / Real.log 2)) = 1 / Real.log 2 := by field_simp
    rw [mul_neg, e3] at this
    linarith
  · have : (xs.map fun x => |x| ^ e.val / powSum xs e.val * Real.logb 2 (|x| ^ e.val / powSum xs e.val)).sum ≤ 0 := by
      refine le_trans (List.sum_le_sum (g := fun _ => (0:ℝ)) (fun x hx => ?_)) (by simp)
      exact mul_nonpos_of_nonneg_of_nonpos (hp x) (Real.logb_nonpos (by norm_num) (hp x) (hp1 x hx))
    linarith

end bounds

end MFA
