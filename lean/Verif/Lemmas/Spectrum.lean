import Verif.Lemmas.Scaling

/-! Closed forms of the quantities U(j,q), V(j,q), S(j,q). -/

namespace MFA

open Classical Finset

/-- Sums in which zero entries produce NaN terms that are ignored. -/
theorem fixedNanSum_entries {c : List Fl} {xs : List ℝ} (h : Entries c xs) (f : Fl → Fl) (g : ℝ → ℝ)
    (hnan : f Fl.nan = Fl.nan) (hf : ∀ x ∈ xs, x ≠ 0 → f (Fl.fin x) = Fl.fin (g x))
    (hz : (0:ℝ) ∈ xs → f (Fl.fin 0) = Fl.nan) (hg : (0:ℝ) ∈ xs → g 0 = 0) (hex : ∃ x ∈ xs, x ≠ 0) :
    fixedNanSum (c.map f) = Fl.fin (xs.map g).sum := by
  have key : dropNaN (c.map f) = ((xs.filter (fun x => decide (x ≠ 0))).map g).map Fl.fin := by
    have h1 : ∀ c : List Fl, dropNaN (c.map f) = dropNaN ((dropNaN c).map f) := by
      intro c
      induction c with
      | nil => rfl
      | cons a c ih =>
        by_cases ha : a = Fl.nan
        · subst ha; rw [List.map_cons, hnan, dropNaN_cons_nan, dropNaN_cons_nan, ih]
        · rw [dropNaN_cons_of ((Fl.not_isNaN_iff a).mpr ha), List.map_cons, List.map_cons]
          by_cases hfa : f a = Fl.nan
          · rw [hfa, dropNaN_cons_nan, dropNaN_cons_nan, ih]
          · rw [dropNaN_cons_of ((Fl.not_isNaN_iff _).mpr hfa), dropNaN_cons_of ((Fl.not_isNaN_iff _).mpr hfa), ih]
    rw [h1, h]
    have h2 : ∀ ys : List ℝ, (∀ x ∈ ys, x ∈ xs) → dropNaN ((ys.map Fl.fin).map f)
        = ((ys.filter (fun x => decide (x ≠ 0))).map g).map Fl.fin := by
      intro ys
      induction ys with
      | nil => intro _; rfl
      | cons y ys ih =>
        intro hy
        have hyx := hy y (by simp)
        have ih' := ih (fun x hx => hy x (by simp [hx]))
        rw [List.map_cons, List.map_cons]
        by_cases h0 : y = 0
        · subst h0
          rw [hz hyx, dropNaN_cons_nan, ih']; simp
        · rw [hf y hyx h0, dropNaN_cons_of (by simp), ih']; simp [h0]
    exact h2 xs (fun x hx => hx)
  have hsum : ∀ ys : List ℝ, (∀ x ∈ ys, x ∈ xs) →
      ((ys.filter (fun x => decide (x ≠ 0))).map g).sum = (ys.map g).sum := by
    intro ys
    induction ys with
    | nil => intro _; rfl
    | cons y ys ih =>
      intro hy
      have hyx := hy y (by simp)
      have ih' := ih (fun x hx => hy x (by simp [hx]))
      by_cases h0 : y = 0
      · subst h0; simp only [ne_eq, not_true_eq_false, decide_false, Bool.false_eq_true, not_false_eq_true,
          List.filter_cons_of_neg, List.map_cons, List.sum_cons, hg hyx, zero_add]; exact ih'
      · simp only [ne_eq, h0, not_false_eq_true, decide_true, List.filter_cons_of_pos, List.map_cons,
          List.sum_cons]; rw [← ih']
  rw [fixedNanSum_eq, key, if_neg, Fl.sum_map_fin, hsum xs (fun x hx => hx)]
  obtain ⟨x, hx, hx0⟩ := hex
  intro hnil
  have : x ∈ xs.filter (fun x => decide (x ≠ 0)) := by simp [hx, hx0]
  simp only [List.map_eq_nil_iff] at hnil
  rw [hnil] at this; cases this

/-- Sum of the q-th powers of the moduli. -/
noncomputable def powSum (xs : List ℝ) (q : ℝ) : ℝ := (xs.map fun x => |x| ^ q).sum

theorem powSum_pos {xs : List ℝ} (q : ℝ) (hex : ∃ x ∈ xs, x ≠ 0) : 0 < powSum xs q := by
  obtain ⟨x, hx, h0⟩ := hex
  have h1 : |x| ^ q ≤ powSum xs q := by
    unfold powSum
    apply List.single_le_sum
    · intro y hy
      obtain ⟨z, _, rfl⟩ := List.mem_map.mp hy
      exact Real.rpow_nonneg (abs_nonneg z) q
    · exact List.mem_map.mpr ⟨x, hx, rfl⟩
  exact lt_of_lt_of_le (Real.rpow_pos_of_pos (abs_pos.mpr h0) q) h1

/-- `fast_power(|x|, q)` of an admissible entry. -/
theorem fastPower_abs_fin {e : Expo} {x : ℝ} (h : 0 < e.val ∨ x ≠ 0) :
    fastPower e (Fl.fin x).abs = Fl.fin (|x| ^ e.val) := by
  rw [Fl.abs_fin, fastPower_eq, if_neg (by simp), if_neg (by simp)]
  by_cases h0 : x = 0
  · subst h0
    have he : 0 < e.val := h.resolve_right (fun h => h rfl)
    simp only [abs_zero, Fl.pow, he.ne', if_false, if_true, he, Real.zero_rpow he.ne']
  · have hx : 0 < |x| := abs_pos.mpr h0
    unfold Fl.pow
    by_cases he : e.val = 0
    · rw [if_pos he, he, Real.rpow_zero]
    · rw [if_neg he]; simp only [hx.ne', if_false, hx, true_or, if_true]

section
variable {c : List Fl} {xs : List ℝ} {e : Expo} (h : Entries c xs) (hq : 0 < e.val ∨ ∀ x ∈ xs, x ≠ 0)
include h hq

theorem entries_pow : Entries ((c.map Fl.abs).map (fastPower e)) (xs.map fun x => |x| ^ e.val) := by
  unfold Entries
  rw [List.map_map, dropNaN_map_of (by simp [fastPower_nan]), h, List.map_map, List.map_map]
  · apply List.map_congr_left
    intro x hx
    exact fastPower_abs_fin (hq.imp_right (fun h => h x hx))
  · intro x hx hxn
    obtain ⟨r, hr, rfl⟩ := h.mem hx hxn
    show fastPower e (Fl.fin r).abs ≠ _
    rw [fastPower_abs_fin (hq.imp_right (fun h => h r hr))]; simp

/-- S(j,q). -/
theorem sfMean_col (hne : xs ≠ []) :
    nanmean ((c.map Fl.abs).map (fastPower e)) = Fl.fin (powSum xs e.val / xs.length) := by
  rw [← nanmean_dropNaN, entries_pow h hq, nanmean_map_fin (by simp [hne])]
  simp [powSum]

theorem nansum_pow : nansum ((c.map Fl.abs).map (fastPower e)) = Fl.fin (powSum xs e.val) := by
  rw [nansum, entries_pow h hq, Fl.sum_map_fin]; rfl

theorem msR_eq : msR c e = c.map fun x => fastPower e x.abs / Fl.fin (powSum xs e.val) := by
  unfold msR
  simp only [nansum_pow h hq]
  simp only [List.map_map, Function.comp_def]

variable (hex : ∃ x ∈ xs, x ≠ 0)
include hex

theorem msV_eq : msV c e
    = Fl.fin (xs.map fun x => |x| ^ e.val / powSum xs e.val * Real.logb 2 |x|).sum := by
  have hS := powSum_pos e.val hex
  have hz : List.zipWith (fun R x => R * x.abs.log2) (msR c e) c
      = c.map fun x => fastPower e x.abs / Fl.fin (powSum xs e.val) * x.abs.log2 := by
    rw [msR_eq h hq]
    rw [List.zipWith_map_left]
    exact List.zipWith_self (f := fun (a b : Fl) => fastPower e a.abs / Fl.fin (powSum xs e.val) * b.abs.log2)
  unfold msV
  rw [hz]
  apply fixedNanSum_entries h _ (fun x => |x| ^ e.val / powSum xs e.val * Real.logb 2 |x|) _ _ _ _ hex
  · simp
  · intro x hx h0
    show fastPower e (Fl.fin x).abs / _ * (Fl.fin x).abs.log2 = _
    rw [fastPower_abs_fin (Or.inr h0), Fl.fin_div hS.ne', Fl.abs_fin, Fl.log2_fin (abs_pos.mpr h0), Fl.fin_mul]
  · intro hx
    have he : 0 < e.val := hq.resolve_right (fun h => h 0 hx rfl)
    show fastPower e (Fl.fin 0).abs / _ * (Fl.fin 0).abs.log2 = _
    rw [fastPower_abs_fin (Or.inl he), Fl.fin_div hS.ne', abs_zero, Real.zero_rpow he.ne', zero_div]
    simp [Fl.log2, Fl.logOf, -Fl.fin_zero, Fl.fin_mul_ninf]
  · intro _; simp

theorem msU_eq {n : ℕ} (hn : 0 < n) : msU n c e = Fl.fin (Real.logb 2 n +
    (xs.map fun x => |x| ^ e.val / powSum xs e.val * Real.logb 2 (|x| ^ e.val / powSum xs e.val)).sum) := by
  have hS := powSum_pos e.val hex
  have hn' : (0:ℝ) < n := by exact_mod_cast hn
  unfold msU
  rw [Fl.log2_fin hn', msR_eq h hq, List.map_map, fixedNanSum_entries h _
    (fun x => |x| ^ e.val / powSum xs e.val * Real.logb 2 (|x| ^ e.val / powSum xs e.val)) _ _ _ _ hex, Fl.fin_add]
  · simp [fastPower_nan]
  · intro x hx h0
    simp only [Function.comp_apply]
    rw [fastPower_abs_fin (Or.inr h0), Fl.fin_div hS.ne', Fl.log2_fin, Fl.fin_mul]
    exact div_pos (Real.rpow_pos_of_pos (abs_pos.mpr h0) _) hS
  · intro hx
    have he : 0 < e.val := hq.resolve_right (fun h => h 0 hx rfl)
    simp only [Function.comp_apply]
    rw [fastPower_abs_fin (Or.inl he), Fl.fin_div hS.ne', abs_zero, Real.zero_rpow he.ne', zero_div]
    simp [Fl.log2, Fl.logOf, -Fl.fin_zero, Fl.fin_mul_ninf]
  · intro hx
    have he : 0 < e.val := hq.resolve_right (fun h => h 0 hx rfl)
    simp [Real.zero_rpow he.ne']

omit hq h in
theorem probSum : (xs.map fun x => |x| ^ e.val / powSum xs e.val).sum = 1 := by
  have hS := powSum_pos e.val hex
  have : (xs.map fun x => |x| ^ e.val / powSum xs e.val) = (xs.map fun x => |x| ^ e.val).map (· * (powSum xs e.val)⁻¹) := by
    rw [List.map_map]; rfl
  rw [this, List.sum_map_mul_right, List.map_id']
  exact mul_inv_cancel₀ hS.ne'

/-- `U = q V - log2 S`. -/
theorem msU_eq_msV (hne : xs ≠ []) :
    msU xs.length c e = Fl.fin e.val * msV c e + Fl.fin (-1) * (Fl.fin (powSum xs e.val / xs.length)).log2 := by
  have hS := powSum_pos e.val hex
  have hlen : 0 < xs.length := List.length_pos_iff.mpr hne
  have hlen' : (0:ℝ) < xs.length := by exact_mod_cast hlen
  rw [msU_eq h hq hex hlen, msV_eq h hq hex, Fl.log2_fin (div_pos hS hlen'), Fl.fin_mul, Fl.fin_mul, Fl.fin_add]
  congr 1
  have hterm : (xs.map fun x => |x| ^ e.val / powSum xs e.val * Real.logb 2 (|x| ^ e.val / powSum xs e.val))
      = xs.map fun x => e.val * (|x| ^ e.val / powSum xs e.val * Real.logb 2 |x|)
        + (- Real.logb 2 (powSum xs e.val)) * (|x| ^ e.val / powSum xs e.val) := by
    apply List.map_congr_left
    intro x hx
    by_cases h0 : x = 0
    · subst h0
      have he : 0 < e.val := hq.resolve_right (fun h => h 0 hx rfl)
      simp [Real.zero_rpow he.ne']
    · have hx' : 0 < |x| := abs_pos.mpr h0
      rw [Real.logb_div (Real.rpow_pos_of_pos hx' _).ne' hS.ne', Real.logb_rpow_eq_mul_logb_of_pos hx']; ring
  rw [hterm, List.sum_map_add, List.sum_map_mul_left, List.sum_map_mul_left, probSum hex,
    Real.logb_div hS.ne' hlen'.ne']
  ring

end

end MFA
