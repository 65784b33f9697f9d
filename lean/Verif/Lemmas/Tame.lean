import Verif.Lemmas.Typical

/-!
# Statistics of values with bounded normalised moments

When one positive and one negative moment of the values divided by `σ` are bounded, all the statistics that the estimators regress are
within a bounded distance of `α log2 σ`.
-/

namespace MFA

open Finset

noncomputable section

/-- The values `xs` do not vanish, and their moments of orders `p` and `-s`, after division by `σ`, are at most `K`. -/
def Tame (p s K σ : ℝ) (xs : List ℝ) : Prop := xs ≠ [] ∧ (∀ x ∈ xs, x ≠ 0) ∧ tmean p 0 (σ, xs) ≤ K ∧ tmean (-s) 0 (σ, xs) ≤ K

theorem rpow_le_two {z e p s : ℝ} (hz : 0 < z) (h1 : -s ≤ e) (h2 : e ≤ p) : z ^ e ≤ z ^ p + z ^ (-s) := by
  rcases le_total 1 z with h | h
  · have := Real.rpow_le_rpow_of_exponent_le h h2
    have := (Real.rpow_pos_of_pos hz (-s)).le
    linarith
  · have := Real.rpow_le_rpow_of_exponent_ge hz h h1
    have := (Real.rpow_pos_of_pos hz p).le
    linarith

theorem abs_log_pow_le {z a : ℝ} (hz : 0 < z) (ha : 0 < a) (k : ℕ) : |Real.log z| ^ k ≤ (k.factorial / a ^ k) * (z ^ a + z ^ (-a)) := by
  have h1 := Real.pow_div_factorial_le_exp (a * |Real.log z|) (by positivity) k
  have h2 : Real.exp (a * |Real.log z|) ≤ z ^ a + z ^ (-a) := by
    rw [Real.rpow_def_of_pos hz, Real.rpow_def_of_pos hz]
    rcases le_total 0 (Real.log z) with h | h
    · rw [abs_of_nonneg h, mul_comm a]
      have := (Real.exp_pos (Real.log z * -a)).le
      linarith
    · rw [abs_of_nonpos h, show a * -Real.log z = Real.log z * -a by ring]
      have := (Real.exp_pos (Real.log z * a)).le
      linarith
  have hk : (0:ℝ) < k.factorial := by exact_mod_cast k.factorial_pos
  have hak : (0:ℝ) < a ^ k := by positivity
  have h3 := h1.trans h2
  rw [mul_pow, div_le_iff₀ hk] at h3
  rw [div_mul_eq_mul_div, le_div_iff₀ hak]
  linarith

theorem testF_le {e p s : ℝ} (h1 : -s < e) (h2 : e < p) (k : ℕ) : ∃ C, 0 ≤ C ∧ ∀ x : ℝ, x ≠ 0 →
    |testF e k x| ≤ C * (testF p 0 x + testF (-s) 0 x) := by
  obtain ⟨a, ha⟩ : ∃ a, a = min (p - e) (e + s) := ⟨_, rfl⟩
  have ha0 : 0 < a := by rw [ha]; exact lt_min (by linarith) (by linarith)
  have ha1 : a ≤ p - e := by rw [ha]; exact min_le_left _ _
  have ha2 : a ≤ e + s := by rw [ha]; exact min_le_right _ _
  refine ⟨k.factorial / a ^ k * 2, by positivity, fun x hx => ?_⟩
  have hz : 0 < |x| := abs_pos.2 hx
  simp only [testF, pow_zero, mul_one]
  rw [abs_mul, abs_pow, abs_of_pos (Real.rpow_pos_of_pos hz e)]
  calc |x| ^ e * |(Real.log |x|)| ^ k ≤ |x| ^ e * ((k.factorial / a ^ k) * (|x| ^ a + |x| ^ (-a))) :=
        mul_le_mul_of_nonneg_left (abs_log_pow_le hz ha0 k) (by positivity)
    _ = (k.factorial / a ^ k) * (|x| ^ (e + a) + |x| ^ (e + -a)) := by
        rw [Real.rpow_add hz, Real.rpow_add hz]; ring
    _ ≤ (k.factorial / a ^ k) * ((|x| ^ p + |x| ^ (-s)) + (|x| ^ p + |x| ^ (-s))) := by
        refine mul_le_mul_of_nonneg_left (add_le_add ?_ ?_) (by positivity)
        · exact rpow_le_two hz (by linarith) (by linarith)
        · exact rpow_le_two hz (by linarith) (by linarith)
    _ = _ := by ring

theorem tmean_le {e p s : ℝ} (h1 : -s < e) (h2 : e < p) (k : ℕ) : ∃ C, 0 ≤ C ∧ ∀ {K σ : ℝ} {xs : List ℝ}, 0 < σ → Tame p s K σ xs →
    |tmean e k (σ, xs)| ≤ C * K := by
  obtain ⟨C, hC, h⟩ := testF_le h1 h2 k
  refine ⟨C * 2, by positivity, ?_⟩
  intro K σ xs hσ ⟨t1, t2, t3, t4⟩
  have hl : (0:ℝ) < xs.length := by exact_mod_cast List.length_pos_iff.2 t1
  have hb : |tmean e k (σ, xs)| ≤ C * (tmean p 0 (σ, xs) + tmean (-s) 0 (σ, xs)) := by
    unfold tmean
    rw [abs_div, abs_of_pos hl, ← add_div, mul_div_assoc', ← List.sum_map_add, ← List.sum_map_mul_left]
    refine div_le_div_of_nonneg_right ?_ hl.le
    have : ∀ ys : List ℝ, (∀ y ∈ ys, y ≠ 0) → |(ys.map fun x => testF e k (x / σ)).sum| ≤
        (ys.map fun x => C * (testF p 0 (x / σ) + testF (-s) 0 (x / σ))).sum := by
      intro ys
      induction ys with
      | nil => simp
      | cons y ys ih =>
        intro hy
        simp only [List.map_cons, List.sum_cons]
        exact (abs_add_le _ _).trans (add_le_add (h _ (div_ne_zero (hy y (by simp)) hσ.ne')) (ih fun z hz => hy z (List.mem_cons_of_mem _ hz)))
    exact this xs t2
  nlinarith

/-- Jensen's inequality: the moments are bounded below. -/
theorem exp_le_tmean {σ : ℝ} {xs : List ℝ} (hσ : 0 < σ) (h1 : xs ≠ []) (h2 : ∀ x ∈ xs, x ≠ 0) (e : ℝ) :
    Real.exp (e * tmean 0 1 (σ, xs)) ≤ tmean e 0 (σ, xs) := by
  have hl : (0:ℝ) < xs.length := by exact_mod_cast List.length_pos_iff.2 h1
  obtain ⟨m, hm⟩ : ∃ m, m = tmean 0 1 (σ, xs) := ⟨_, rfl⟩
  have hm' : (xs.map fun x => testF 0 1 (x / σ)).sum = xs.length * m := by
    rw [hm]; unfold tmean; field_simp
  rw [← hm]
  unfold tmean
  rw [le_div_iff₀ hl]
  have key : ∀ ys : List ℝ, (∀ y ∈ ys, y ≠ 0) → Real.exp (e * m) * (ys.length + e * ((ys.map fun x => testF 0 1 (x / σ)).sum - ys.length * m)) ≤
      (ys.map fun x => testF e 0 (x / σ)).sum := by
    intro ys
    induction ys with
    | nil => simp
    | cons y ys ih =>
      intro hy
      have := ih fun z hz => hy z (List.mem_cons_of_mem _ hz)
      have hz : 0 < |y / σ| := abs_pos.2 (div_ne_zero (hy y (by simp)) hσ.ne')
      have hexp : Real.exp (e * m) * (1 + e * (testF 0 1 (y / σ) - m)) ≤ testF e 0 (y / σ) := by
        simp only [testF, pow_zero, pow_one, mul_one, Real.rpow_zero, one_mul]
        rw [Real.rpow_def_of_pos hz]
        have h3 := Real.add_one_le_exp (e * (Real.log |y / σ| - m))
        calc Real.exp (e * m) * (1 + e * (Real.log |y / σ| - m)) ≤ Real.exp (e * m) * Real.exp (e * (Real.log |y / σ| - m)) :=
              mul_le_mul_of_nonneg_left (by linarith) (Real.exp_pos _).le
          _ = _ := by rw [← Real.exp_add]; congr 1; ring
      simp only [List.map_cons, List.sum_cons, List.length_cons]
      push_cast
      nlinarith [this, hexp]
  have := key xs h2
  rw [hm', sub_self, mul_zero, add_zero] at this
  exact this

/-- The statistic `Y` of values with bounded normalised moments is within a bounded distance of `α log2 σ`. -/
def BoundedStat (p s : ℝ) (Y : List Fl → Fl) (α : ℝ) : Prop :=
  ∀ K : ℝ, ∃ C : ℝ, 0 ≤ C ∧ ∀ (σ : ℝ) (c : List Fl) (xs : List ℝ), 0 < σ → Entries c xs → Tame p s K σ xs →
    ∃ t, Y c = Fl.fin t ∧ |t - α * Real.logb 2 σ| ≤ C

theorem Statistic.bounded {p s : ℝ} {Y : List Fl → Fl} {α : ℝ} {G : ℝ × List ℝ → ℝ} (h : Statistic Y α G)
    (hG : ∀ K : ℝ, ∃ C : ℝ, ∀ (σ : ℝ) (xs : List ℝ), 0 < σ → Tame p s K σ xs → |G (σ, xs)| ≤ C) : BoundedStat p s Y α := by
  intro K
  obtain ⟨C, hC⟩ := hG K
  refine ⟨max C 0, le_max_right _ _, fun σ c xs hσ hc ht => ⟨_, h (σ, xs) c hc hσ ht.1 ht.2.1, ?_⟩⟩
  rw [add_sub_cancel_left]
  exact (hC σ xs hσ ht).trans (le_max_left _ _)

theorem logb_tmean_le {e p s : ℝ} (hs : 0 < s) (hp : 0 < p) (h1 : -s < e) (h2 : e < p) (K : ℝ) : ∃ C : ℝ, ∀ (σ : ℝ) (xs : List ℝ), 0 < σ →
    Tame p s K σ xs → |Real.logb 2 (tmean e 0 (σ, xs))| ≤ C := by
  obtain ⟨C1, hC1, hb1⟩ := tmean_le h1 h2 0
  obtain ⟨C2, hC2, hb2⟩ := tmean_le (e := 0) (p := p) (s := s) (by linarith) hp 1
  refine ⟨(|Real.log (C1 * K)| + |e| * (C2 * K)) / Real.log 2, fun σ xs hσ ht => ?_⟩
  have hlog : 0 < Real.log 2 := Real.log_pos (by norm_num)
  have hpos := tmean_pos (s := (σ, xs)) hσ ht.1 ht.2.1 e
  have h3 := hb1 hσ ht
  have h4 := hb2 hσ ht
  have h5 := exp_le_tmean hσ ht.1 ht.2.1 e
  unfold Real.logb
  rw [abs_div, abs_of_pos hlog]
  refine div_le_div_of_nonneg_right ?_ hlog.le
  have up : Real.log (tmean e 0 (σ, xs)) ≤ |Real.log (C1 * K)| :=
    (Real.log_le_log hpos ((le_abs_self _).trans h3)).trans (le_abs_self _)
  have lo : -(|e| * (C2 * K)) ≤ Real.log (tmean e 0 (σ, xs)) := by
    have := Real.log_le_log (Real.exp_pos _) h5
    rw [Real.log_exp] at this
    have h6 : |e * tmean 0 1 (σ, xs)| ≤ |e| * (C2 * K) := by
      rw [abs_mul]; exact mul_le_mul_of_nonneg_left h4 (abs_nonneg _)
    have := neg_le_of_abs_le h6
    linarith
  have h7 : 0 ≤ |e| * (C2 * K) := mul_nonneg (abs_nonneg _) ((abs_nonneg _).trans h4)
  rw [abs_le]
  constructor
  · have := abs_nonneg (Real.log (C1 * K)); linarith
  · linarith

theorem ratio_tmean_le {e p s : ℝ} (hs : 0 < s) (hp : 0 < p) (h1 : -s < e) (h2 : e < p) (K : ℝ) : ∃ C : ℝ, ∀ (σ : ℝ) (xs : List ℝ), 0 < σ →
    Tame p s K σ xs → |tmean e 1 (σ, xs) / tmean e 0 (σ, xs) / Real.log 2| ≤ C := by
  obtain ⟨C1, hC1, hb1⟩ := tmean_le h1 h2 1
  obtain ⟨C2, hC2, hb2⟩ := tmean_le (e := 0) (p := p) (s := s) (by linarith) hp 1
  refine ⟨C1 * K * Real.exp (|e| * (C2 * K)) / Real.log 2, fun σ xs hσ ht => ?_⟩
  have hlog : 0 < Real.log 2 := Real.log_pos (by norm_num)
  have hpos := tmean_pos (s := (σ, xs)) hσ ht.1 ht.2.1 e
  have h3 := hb1 hσ ht
  have h4 := hb2 hσ ht
  have h5 := exp_le_tmean hσ ht.1 ht.2.1 e
  rw [abs_div, abs_of_pos hlog, abs_div, abs_of_pos hpos]
  refine div_le_div_of_nonneg_right ?_ hlog.le
  rw [div_le_iff₀ hpos]
  have h6 : |e * tmean 0 1 (σ, xs)| ≤ |e| * (C2 * K) := by
    rw [abs_mul]; exact mul_le_mul_of_nonneg_left h4 (abs_nonneg _)
  have h7 : 1 ≤ Real.exp (|e| * (C2 * K)) * tmean e 0 (σ, xs) := by
    calc (1:ℝ) ≤ Real.exp (|e| * (C2 * K)) * Real.exp (e * tmean 0 1 (σ, xs)) := by
          rw [← Real.exp_add]; apply Real.one_le_exp; have := neg_le_of_abs_le h6; linarith
      _ ≤ _ := mul_le_mul_of_nonneg_left h5 (Real.exp_pos _).le
  have h8 : 0 ≤ C1 * K := (abs_nonneg _).trans h3
  calc |tmean e 1 (σ, xs)| ≤ C1 * K * 1 := by rw [mul_one]; exact h3
    _ ≤ C1 * K * (Real.exp (|e| * (C2 * K)) * tmean e 0 (σ, xs)) := mul_le_mul_of_nonneg_left h7 h8
    _ = _ := by ring

theorem kap_le {p s : ℝ} (hs : 0 < s) (hp : 0 < p) (K : ℝ) : ∀ k : ℕ, ∃ C : ℝ, ∀ (σ : ℝ) (xs : List ℝ), 0 < σ → Tame p s K σ xs →
    |kap (xs.map fun x => Real.log |x / σ|) (k + 1)| ≤ C := by
  intro k
  induction k using Nat.strong_induction_on with
  | _ k ih =>
    choose! D hD using ih
    have hT : ∀ m : ℕ, ∃ C : ℝ, ∀ (σ : ℝ) (xs : List ℝ), 0 < σ → Tame p s K σ xs → |tmean 0 m (σ, xs)| ≤ C := by
      intro m
      obtain ⟨C, -, h⟩ := tmean_le (e := 0) (p := p) (s := s) (by linarith) hp m
      exact ⟨C * K, fun σ xs hσ ht => h hσ ht⟩
    choose T hT using hT
    refine ⟨T (k + 1) + ∑ i ∈ range k, (k.choose i : ℝ) * D i * T (k - i), fun σ xs hσ ht => ?_⟩
    rw [kap_rec _ (by simpa using ht.1), mom_logs (σ, xs)]
    refine (abs_sub _ _).trans (add_le_add (hT _ σ xs hσ ht) ((abs_sum_le_sum_abs _ _).trans (sum_le_sum fun i hi => ?_)))
    rw [mom_logs (σ, xs), abs_mul, abs_mul, abs_of_nonneg (Nat.cast_nonneg _)]
    have h1 := hD i (mem_range.1 hi) σ xs hσ ht
    have h2 := hT (k - i) σ xs hσ ht
    have h3 := (abs_nonneg _).trans h1
    exact mul_le_mul (mul_le_mul_of_nonneg_left h1 (Nat.cast_nonneg _)) h2 (abs_nonneg _) (mul_nonneg (Nat.cast_nonneg _) h3)

theorem bounded_structure {p s : ℝ} (hs : 0 < s) (hp : 0 < p) (e : Expo) (h1 : -s < e.val) (h2 : e.val < p) :
    BoundedStat p s (fun c => (nanmean ((c.map Fl.abs).map (fastPower e))).log2) e.val :=
  (stat_structure e).bounded (logb_tmean_le hs hp h1 h2)

theorem bounded_V {p s : ℝ} (hs : 0 < s) (hp : 0 < p) (e : Expo) (h1 : -s < e.val) (h2 : e.val < p) :
    BoundedStat p s (fun c => msV c e) 1 :=
  (stat_V e).bounded (ratio_tmean_le hs hp h1 h2)

theorem bounded_U {p s : ℝ} (hs : 0 < s) (hp : 0 < p) (e : Expo) (h1 : -s < e.val) (h2 : e.val < p) :
    BoundedStat p s (fun c => msU (countNotNaN c) c e) 0 := by
  refine (stat_U e).bounded fun K => ?_
  obtain ⟨C1, hC1⟩ := ratio_tmean_le hs hp h1 h2 K
  obtain ⟨C2, hC2⟩ := logb_tmean_le hs hp h1 h2 K
  refine ⟨|e.val| * C1 + C2, fun σ xs hσ ht => ?_⟩
  refine (abs_sub _ _).trans (add_le_add ?_ (hC2 σ xs hσ ht))
  rw [abs_mul]
  exact mul_le_mul_of_nonneg_left (hC1 σ xs hσ ht) (abs_nonneg _)

theorem bounded_cumulant {p s : ℝ} (hs : 0 < s) (hp : 0 < p) {n i : ℕ} (hi : i < n) :
    BoundedStat p s (fun c => (cmColumn (c.map fun x => x.abs.ln) n).getD i Fl.nan) (if i = 0 then Real.log 2 else 0) :=
  (stat_cumulant hi).bounded fun K => kap_le hs hp K i

end

end MFA
