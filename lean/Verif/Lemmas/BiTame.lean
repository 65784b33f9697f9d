import Verif.Lemmas.BiTypical
import Verif.Props.LeaderScaling

/-! Bounded joint statistics of two tame quantities. -/

namespace MFA

universe u

open Classical Finset

noncomputable section

/-- The pairs of usable values of two columns that are NaN at the same places. -/
theorem joint_zip : ∀ {c1 c2 : List Fl} {xs ys : List ℝ}, c1.length = c2.length → (∀ z ∈ c1.zip c2, z.1 = Fl.nan ↔ z.2 = Fl.nan) →
    Entries c1 xs → Entries c2 ys → JointIs (c1.zip c2) (xs.zip ys) ∧ xs.length = ys.length := by
  intro c1
  induction c1 with
  | nil =>
    intro c2 xs ys hl _ h1 h2
    obtain rfl : c2 = [] := List.length_eq_zero_iff.1 hl.symm
    unfold Entries dropNaN at h1 h2
    simp only [List.filter_nil] at h1 h2
    have e1 := List.map_eq_nil_iff.1 h1.symm
    have e2 := List.map_eq_nil_iff.1 h2.symm
    subst e1 e2
    exact ⟨rfl, rfl⟩
  | cons a c1 ih =>
    intro c2 xs ys hl hz h1 h2
    cases c2 with
    | nil => simp at hl
    | cons b c2 =>
      have hl' : c1.length = c2.length := by simpa using hl
      have hab : a = Fl.nan ↔ b = Fl.nan := hz (a, b) (by simp)
      have hz' : ∀ z ∈ c1.zip c2, z.1 = Fl.nan ↔ z.2 = Fl.nan := fun z hm => hz z (by simp [hm])
      unfold Entries dropNaN at h1 h2
      by_cases ha : a = Fl.nan
      · have hb := hab.1 ha
        subst ha hb
        simp only [List.filter_cons, Fl.isNaN, Bool.not_true] at h1 h2
        obtain ⟨g1, g2⟩ := ih hl' hz' h1 h2
        refine ⟨?_, g2⟩
        unfold JointIs at g1 ⊢
        simpa [List.zip_cons_cons, List.filter_cons, Fl.isNaN] using g1
      · have hb : b ≠ Fl.nan := fun h => ha (hab.2 h)
        have ia : a.isNaN = false := by rw [← Bool.not_eq_true, Fl.isNaN_iff]; exact ha
        have ib : b.isNaN = false := by rw [← Bool.not_eq_true, Fl.isNaN_iff]; exact hb
        simp only [List.filter_cons, ia, ib, Bool.not_false, if_true] at h1 h2
        obtain ⟨x, xs, rfl, e1, h1⟩ := List.map_eq_cons_iff.1 h1.symm
        obtain ⟨y, ys, rfl, e2, h2⟩ := List.map_eq_cons_iff.1 h2.symm
        obtain ⟨g1, g2⟩ := ih hl' hz' h1.symm h2.symm
        refine ⟨?_, by simp [g2]⟩
        unfold JointIs at g1 ⊢
        rw [List.zip_cons_cons, List.filter_cons]
        simp only [ia, ib, Bool.not_false, Bool.and_self, if_true, List.zip_cons_cons, List.map_cons]
        rw [g1, e1, e2]

/-- The pairs of two quantities at one scale, when the values of both are tame. -/
theorem tame_pairs {m1 m2 : MRQ 1} {J : ℕ} (hp : Paired m1 m2 J) (hs : SameNaN m1 m2) {q : (ℤ × Arr 1) × (ℤ × Arr 1)} (hq : q ∈ biList m1 m2)
    {xs ys : List ℝ} (h1 : Entries (col q.1.2 0) xs) (h2 : Entries (col q.2.2 0) ys) {p s K σ1 σ2 : ℝ} (t1 : Tame p s K σ1 xs)
    (t2 : Tame p s K σ2 ys) : ∃ zs, JointIs (biPairs q) zs ∧ Tame p s K σ1 (zs.map Prod.fst) ∧ Tame p s K σ2 (zs.map Prod.snd) := by
  have hlen : (col q.1.2 0).length = (col q.2.2 0).length := by
    obtain ⟨k, hk⟩ := List.mem_iff_getElem?.1 hq
    obtain ⟨k1, k2⟩ := List.getElem?_zip_eq_some.1 hk
    have := List.forall₂_iff_get.1 hp.rows
    obtain ⟨g1, e1⟩ := List.getElem?_eq_some_iff.1 k1
    obtain ⟨g2, e2⟩ := List.getElem?_eq_some_iff.1 k2
    have := this.2 k g1 g2
    simp only [List.get_eq_getElem, e1, e2] at this
    simpa [col] using this
  obtain ⟨hJ, hl⟩ := joint_zip hlen (hs.pairs hq) h1 h2
  refine ⟨_, hJ, ?_, ?_⟩
  · rw [List.map_fst_zip hl.le]; exact t1
  · rw [List.map_snd_zip hl.ge]; exact t2

theorem Tame.pairs_ne {zs : List (ℝ × ℝ)} {p s K σ1 σ2 : ℝ} (t1 : Tame p s K σ1 (zs.map Prod.fst)) (t2 : Tame p s K σ2 (zs.map Prod.snd)) :
    zs ≠ [] ∧ ∀ z ∈ zs, z.1 ≠ 0 ∧ z.2 ≠ 0 :=
  ⟨fun h => t1.1 (by rw [h]; rfl), fun z hz => ⟨t1.2.1 _ (List.mem_map_of_mem hz), t2.2.1 _ (List.mem_map_of_mem hz)⟩⟩

theorem tmean_fst (e : ℝ) (k : ℕ) (σ : ℝ) (zs : List (ℝ × ℝ)) : tmean e k (σ, zs.map Prod.fst) = mean (zs.map fun z => testF e k (z.1 / σ)) := by
  unfold tmean mean
  simp [List.map_map, Function.comp_def]

theorem tmean_snd (e : ℝ) (k : ℕ) (σ : ℝ) (zs : List (ℝ × ℝ)) : tmean e k (σ, zs.map Prod.snd) = mean (zs.map fun z => testF e k (z.2 / σ)) := by
  unfold tmean mean
  simp [List.map_map, Function.comp_def]

theorem mean_le_mean {ι : Type} {l : List ι} {f g : ι → ℝ} (h : ∀ i ∈ l, f i ≤ g i) : mean (l.map f) ≤ mean (l.map g) := by
  unfold mean
  rw [List.length_map, List.length_map]
  exact div_le_div_of_nonneg_right (List.sum_le_sum h) (Nat.cast_nonneg _)

theorem mean_add_add {ι : Type} (l : List ι) (f g : ι → ℝ) : mean (l.map fun i => f i + g i) = mean (l.map f) + mean (l.map g) := by
  unfold mean
  rw [List.sum_map_add, List.length_map, List.length_map, List.length_map, add_div]

theorem mean_const {ι : Type} {l : List ι} (hl : l ≠ []) (c : ℝ) : mean (l.map fun _ => c) = c := by
  unfold mean
  have : (0:ℝ) < l.length := by exact_mod_cast List.length_pos_iff.2 hl
  rw [List.map_const', List.sum_replicate, List.length_replicate, nsmul_eq_mul]
  field_simp

theorem abs_mean_le_mean {ι : Type} {l : List ι} {f g : ι → ℝ} (h : ∀ i ∈ l, |f i| ≤ g i) : |mean (l.map f)| ≤ mean (l.map g) := by
  rw [abs_le]
  constructor
  · have := mean_le_mean (l := l) (f := fun i => -1 * g i) (g := f) fun i hi => by have := neg_le_of_abs_le (h i hi); linarith
    rw [mean_mul] at this
    linarith
  · exact mean_le_mean fun i hi => (le_abs_self _).trans (h i hi)

/-- Jensen's inequality. -/
theorem exp_mean_log_le {ι : Type} {l : List ι} (hl : l ≠ []) {f : ι → ℝ} (h : ∀ i ∈ l, 0 < f i) :
    Real.exp (mean (l.map fun i => Real.log (f i))) ≤ mean (l.map f) := by
  obtain ⟨m, hm⟩ : ∃ m, m = mean (l.map fun i => Real.log (f i)) := ⟨_, rfl⟩
  rw [← hm]
  have key : mean (l.map fun i => Real.exp m * (1 - m) + Real.exp m * Real.log (f i)) ≤ mean (l.map f) := by
    apply mean_le_mean
    intro i hi
    have h3 := Real.add_one_le_exp (Real.log (f i) - m)
    calc Real.exp m * (1 - m) + Real.exp m * Real.log (f i) = Real.exp m * (Real.log (f i) - m + 1) := by ring
      _ ≤ Real.exp m * Real.exp (Real.log (f i) - m) := mul_le_mul_of_nonneg_left h3 (Real.exp_pos _).le
      _ = f i := by rw [← Real.exp_add, add_sub_cancel, Real.exp_log (h i hi)]
  rw [mean_add_add, mean_const hl, mean_mul, ← hm] at key
  linarith

/-- The joint moments of orders within half the range of the bounded moments. -/
theorem logb_pmean_le {e1 e2 p s : ℝ} (hs : 0 < s) (hp : 0 < p) (a1 : -s < 2 * e1) (a2 : 2 * e1 < p) (b1 : -s < 2 * e2) (b2 : 2 * e2 < p) (K : ℝ) :
    ∃ C : ℝ, 0 ≤ C ∧ ∀ (σ1 σ2 : ℝ) (zs : List (ℝ × ℝ)), 0 < σ1 → 0 < σ2 → Tame p s K σ1 (zs.map Prod.fst) → Tame p s K σ2 (zs.map Prod.snd) →
      |Real.logb 2 (pmean ((e1, 0), (e2, 0)) σ1 σ2 zs)| ≤ C := by
  obtain ⟨C1, hC1, hb1⟩ := tmean_le a1 a2 0
  obtain ⟨C2, hC2, hb2⟩ := tmean_le b1 b2 0
  obtain ⟨C3, hC3, hb3⟩ := tmean_le (e := 0) (p := p) (s := s) (by linarith) hp 1
  refine ⟨(|Real.log ((C1 + C2) * K / 2)| + (|e1| + |e2|) * |C3 * K|) / Real.log 2, ?_, fun σ1 σ2 zs h1 h2 t1 t2 => ?_⟩
  · have : 0 < Real.log 2 := Real.log_pos (by norm_num)
    positivity
  have hlog : 0 < Real.log 2 := Real.log_pos (by norm_num)
  obtain ⟨hz, hn⟩ := t1.pairs_ne t2
  have u1 := hb1 h1 t1
  have u2 := hb2 h2 t2
  have v1 := hb3 h1 t1
  have v2 := hb3 h2 t2
  rw [tmean_fst] at u1 v1
  rw [tmean_snd] at u2 v2
  have hpos : ∀ z ∈ zs, 0 < |z.1 / σ1| ∧ 0 < |z.2 / σ2| := fun z hzm =>
    ⟨abs_pos.2 (div_ne_zero (hn z hzm).1 h1.ne'), abs_pos.2 (div_ne_zero (hn z hzm).2 h2.ne')⟩
  have hf : ∀ z ∈ zs, 0 < testF e1 0 (z.1 / σ1) * testF e2 0 (z.2 / σ2) := by
    intro z hzm
    obtain ⟨p1, p2⟩ := hpos z hzm
    simp only [testF, pow_zero, mul_one]
    positivity
  have hm0 : 0 < pmean ((e1, 0), (e2, 0)) σ1 σ2 zs := by
    apply mean_pos (by simpa using hz)
    intro t ht
    obtain ⟨z, hzm, rfl⟩ := List.mem_map.1 ht
    exact hf z hzm
  -- the upper bound
  have up : pmean ((e1, 0), (e2, 0)) σ1 σ2 zs ≤ (C1 + C2) * K / 2 := by
    have : pmean ((e1, 0), (e2, 0)) σ1 σ2 zs ≤ mean (zs.map fun z => 1 / 2 * (testF (2 * e1) 0 (z.1 / σ1) + testF (2 * e2) 0 (z.2 / σ2))) := by
      apply mean_le_mean
      intro z hzm
      obtain ⟨p1, p2⟩ := hpos z hzm
      simp only [testF, pow_zero, mul_one]
      rw [mul_comm 2 e1, mul_comm 2 e2, Real.rpow_mul p1.le, Real.rpow_mul p2.le, Real.rpow_two, Real.rpow_two]
      nlinarith [sq_nonneg (|z.1 / σ1| ^ e1 - |z.2 / σ2| ^ e2)]
    rw [mean_mul, mean_add_add] at this
    have := (le_abs_self _).trans u1
    have := (le_abs_self _).trans u2
    linarith
  -- the lower bound
  have lo := exp_mean_log_le hz hf
  have he : mean (zs.map fun z => Real.log (testF e1 0 (z.1 / σ1) * testF e2 0 (z.2 / σ2))) =
      e1 * mean (zs.map fun z => testF 0 1 (z.1 / σ1)) + e2 * mean (zs.map fun z => testF 0 1 (z.2 / σ2)) := by
    rw [← mean_mul, ← mean_mul, ← mean_add_add]
    congr 1
    apply List.map_congr_left
    intro z hzm
    obtain ⟨p1, p2⟩ := hpos z hzm
    simp only [testF, pow_zero, mul_one, Real.rpow_zero, pow_one, one_mul]
    rw [Real.log_mul (Real.rpow_pos_of_pos p1 _).ne' (Real.rpow_pos_of_pos p2 _).ne', Real.log_rpow p1, Real.log_rpow p2]
  rw [he] at lo
  have lo' := Real.log_le_log (Real.exp_pos _) lo
  rw [Real.log_exp] at lo'
  have w1 : |e1 * mean (zs.map fun z => testF 0 1 (z.1 / σ1))| ≤ |e1| * |C3 * K| := by
    rw [abs_mul]; exact mul_le_mul_of_nonneg_left (v1.trans (le_abs_self _)) (abs_nonneg _)
  have w2 : |e2 * mean (zs.map fun z => testF 0 1 (z.2 / σ2))| ≤ |e2| * |C3 * K| := by
    rw [abs_mul]; exact mul_le_mul_of_nonneg_left (v2.trans (le_abs_self _)) (abs_nonneg _)
  have up' := (Real.log_le_log hm0 up).trans (le_abs_self _)
  have lo2 : -((|e1| + |e2|) * |C3 * K|) ≤ Real.log (pmean ((e1, 0), (e2, 0)) σ1 σ2 zs) := by
    have x1 := neg_le_of_abs_le w1
    have x2 := neg_le_of_abs_le w2
    have x3 : e1 * mean (zs.map fun z => testF 0 1 (z.1 / σ1)) + e2 * mean (zs.map fun z => testF 0 1 (z.2 / σ2)) ≤
      Real.log (pmean ((e1, 0), (e2, 0)) σ1 σ2 zs) := lo'
    linarith
  unfold Real.logb
  rw [abs_div, abs_of_pos hlog]
  refine div_le_div_of_nonneg_right ?_ hlog.le
  have y1 : 0 ≤ (|e1| + |e2|) * |C3 * K| := by positivity
  have y2 := abs_nonneg (Real.log ((C1 + C2) * K / 2))
  rw [abs_le]
  constructor <;> linarith

/-- The covariance of the logarithms. -/
theorem cov_pmean_le {p s : ℝ} (hs : 0 < s) (hp : 0 < p) (K : ℝ) :
    ∃ C : ℝ, 0 ≤ C ∧ ∀ (σ1 σ2 : ℝ) (zs : List (ℝ × ℝ)), 0 < σ1 → 0 < σ2 → Tame p s K σ1 (zs.map Prod.fst) → Tame p s K σ2 (zs.map Prod.snd) →
      |pmean ((0, 1), (0, 1)) σ1 σ2 zs - pmean ((0, 1), (0, 0)) σ1 σ2 zs * pmean ((0, 0), (0, 1)) σ1 σ2 zs| ≤ C := by
  obtain ⟨C1, hC1, hb1⟩ := tmean_le (e := 0) (p := p) (s := s) (by linarith) hp 1
  obtain ⟨C2, hC2, hb2⟩ := tmean_le (e := 0) (p := p) (s := s) (by linarith) hp 2
  refine ⟨|C2 * K| + |C1 * K| * |C1 * K|, by positivity, fun σ1 σ2 zs h1 h2 t1 t2 => ?_⟩
  have u1 := (hb1 h1 t1).trans (le_abs_self _)
  have u2 := (hb1 h2 t2).trans (le_abs_self _)
  have v1 := (le_abs_self _).trans ((hb2 h1 t1).trans (le_abs_self _))
  have v2 := (le_abs_self _).trans ((hb2 h2 t2).trans (le_abs_self _))
  rw [tmean_fst] at u1 v1
  rw [tmean_snd] at u2 v2
  have e1 : pmean ((0, 1), (0, 0)) σ1 σ2 zs = mean (zs.map fun z => testF 0 1 (z.1 / σ1)) := by
    unfold pmean; congr 1; apply List.map_congr_left; intro z _; simp [testF]
  have e2 : pmean ((0, 0), (0, 1)) σ1 σ2 zs = mean (zs.map fun z => testF 0 1 (z.2 / σ2)) := by
    unfold pmean; congr 1; apply List.map_congr_left; intro z _; simp [testF]
  have e3 : |pmean ((0, 1), (0, 1)) σ1 σ2 zs| ≤ mean (zs.map fun z => 1 / 2 * (testF 0 2 (z.1 / σ1) + testF 0 2 (z.2 / σ2))) := by
    apply abs_mean_le_mean
    intro z _
    simp only [testF, Real.rpow_zero, one_mul, pow_one]
    rw [abs_mul, ← sq_abs (Real.log |z.1 / σ1|), ← sq_abs (Real.log |z.2 / σ2|)]
    obtain ⟨a, ha⟩ : ∃ a, a = abs (Real.log (abs (z.1 / σ1))) := ⟨_, rfl⟩
    obtain ⟨b, hb⟩ : ∃ b, b = abs (Real.log (abs (z.2 / σ2))) := ⟨_, rfl⟩
    rw [← ha, ← hb]
    nlinarith [sq_nonneg (a - b)]
  rw [mean_mul, mean_add_add] at e3
  rw [e1, e2]
  refine (abs_sub _ _).trans (add_le_add (by linarith) ?_)
  rw [abs_mul]
  exact mul_le_mul u1 u2 (abs_nonneg _) (abs_nonneg _)

/-- The unweighted slope of a curve over the common scales of two quantities, when the curve is within a bounded distance of a line. -/
theorem biSlope_wide {m1 m2 : MRQ 1} {J : ℕ} (hp : Paired m1 m2 J) {j1 j2 : ℕ} (hj1 : 1 ≤ j1) (hj12 : j1 < j2) (hJ : j2 ≤ J)
    (f : (ℤ × Arr 1) × (ℤ × Arr 1) → Fl) {c d E : ℝ}
    (hf : ∀ q ∈ biList m1 m2, ∀ j : ℕ, q.1.1 = j → j1 ≤ j → j ≤ j2 → ∃ t, f q = Fl.fin t ∧ |t - (c + d * j)| ≤ E) :
    ∃ z, biSlope m1 m2 j1 j2 false f = Fl.fin z ∧ |z - d| ≤ 6 * E / (j2 - j1) := by
  have ha1 : (1:ℤ) ≤ (j1 : ℤ) := by exact_mod_cast hj1
  have ha2 : (j1 : ℤ) ≤ (j2 : ℤ) := by exact_mod_cast hj12.le
  have ha3 : (j2 : ℤ) ≤ (J : ℤ) := by exact_mod_cast hJ
  have hkeys := hp.reg1.sub_keys ha1 ha2 ha3
  rw [hp.sub_fst, List.map_map] at hkeys
  refine slopeL_wide (biSub m1 m2 j1 j2) (fun q => q.1.1) (fun q => wtOf false q.1 0) (fun _ _ => rfl) hj12 hkeys f c d E ?_
  intro q hq
  have : q.1.1 ∈ arange (j1 : ℤ) ((j2 : ℤ) + 1) := by rw [← hkeys]; exact List.mem_map.2 ⟨q, hq, rfl⟩
  unfold arange at this
  obtain ⟨i, hi, he⟩ := List.mem_map.1 this
  rw [List.mem_range] at hi
  obtain ⟨t, ht, htb⟩ := hf q (biSub_mem hq) (j1 + i) (by rw [← he]; push_cast; ring) (by omega) (by omega)
  refine ⟨t, ht, ?_⟩
  rw [← he]
  push_cast at htb ⊢
  exact htb

end

end MFA
