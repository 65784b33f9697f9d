import Verif.Lemmas.Perturb
import Verif.Lemmas.IdealBank
import Mathlib.Algebra.Order.Chebyshev

/-! The filter bank is bounded on sequences with summable `P`-th powers, and typical scales stay typical under perturbations that are small in mean. -/

namespace MFA

open Finset

noncomputable section

/-- The `P`-th powers of `x` sum to at most `E`. -/
def PowBound (P : ℕ) (x : ℤ → ℝ) (E : ℝ) : Prop := ∀ S : Finset ℤ, ∑ k ∈ S, |x k| ^ P ≤ E

def tapNorm (f : List ℝ) (m : ℕ) : ℝ := (f.length : ℝ) ^ m * ∑ i ∈ range f.length, |f.getD i 0| ^ (m + 1)

theorem tapNorm_nonneg (f : List ℝ) (m : ℕ) : 0 ≤ tapNorm f m := by unfold tapNorm; positivity

theorem downFilter_pow (f : List ℝ) (m : ℕ) {x : ℤ → ℝ} {E : ℝ} (h : PowBound (m + 1) x E) : PowBound (m + 1) (downFilter f x) (tapNorm f m * E) := by
  intro S
  have h1 : ∀ k : ℤ, |downFilter f x k| ^ (m + 1) ≤
      (f.length : ℝ) ^ m * ∑ i ∈ range f.length, |f.getD i 0| ^ (m + 1) * |x (2 * k + 1 + ((f.length - 1) / 2 : ℕ) - i)| ^ (m + 1) := by
    intro k
    have e1 : |downFilter f x k| ≤ ∑ i ∈ range f.length, |f.getD i 0| * |x (2 * k + 1 + ((f.length - 1) / 2 : ℕ) - i)| := by
      unfold downFilter
      refine (abs_sum_le_sum_abs _ _).trans (le_of_eq ?_)
      exact sum_congr rfl fun i _ => abs_mul _ _
    refine (pow_le_pow_left₀ (abs_nonneg _) e1 _).trans ?_
    have := pow_sum_le_card_mul_sum_pow (s := range f.length) (f := fun i => |f.getD i 0| * |x (2 * k + 1 + ((f.length - 1) / 2 : ℕ) - i)|)
      (fun i _ => by positivity) m
    rw [card_range] at this
    refine this.trans (le_of_eq ?_)
    congr 1
    exact sum_congr rfl fun i _ => mul_pow _ _ _
  calc ∑ k ∈ S, |downFilter f x k| ^ (m + 1)
      ≤ ∑ k ∈ S, (f.length : ℝ) ^ m * ∑ i ∈ range f.length, |f.getD i 0| ^ (m + 1) * |x (2 * k + 1 + ((f.length - 1) / 2 : ℕ) - i)| ^ (m + 1) :=
        sum_le_sum fun k _ => h1 k
    _ = (f.length : ℝ) ^ m * ∑ i ∈ range f.length, |f.getD i 0| ^ (m + 1) * ∑ k ∈ S, |x (2 * k + 1 + ((f.length - 1) / 2 : ℕ) - i)| ^ (m + 1) := by
        rw [← mul_sum, sum_comm]
        congr 1
        exact sum_congr rfl fun i _ => (mul_sum _ _ _).symm
    _ ≤ (f.length : ℝ) ^ m * ∑ i ∈ range f.length, |f.getD i 0| ^ (m + 1) * E := by
        refine mul_le_mul_of_nonneg_left (sum_le_sum fun i _ => mul_le_mul_of_nonneg_left ?_ (by positivity)) (by positivity)
        have hinj : Set.InjOn (fun k : ℤ => 2 * k + 1 + ((f.length - 1) / 2 : ℕ) - (i : ℤ)) S := by
          intro a _ b _ hab
          simp only at hab
          omega
        have := h (S.image fun k : ℤ => 2 * k + 1 + ((f.length - 1) / 2 : ℕ) - (i : ℤ))
        rwa [sum_image hinj] at this
    _ = tapNorm f m * E := by
        rw [← sum_mul, tapNorm]; ring

theorem idealApprox_pow (lo : List ℝ) (m : ℕ) {x : ℤ → ℝ} {E : ℝ} (h : PowBound (m + 1) x E) :
    ∀ j : ℕ, PowBound (m + 1) (idealApprox lo x j) (tapNorm lo m ^ j * E)
  | 0 => by simpa [idealApprox] using h
  | j + 1 => by
    have := downFilter_pow lo m (idealApprox_pow lo m h j)
    rw [pow_succ']
    rw [mul_assoc]
    exact this

theorem idealDetail_pow (wt : Wavelet) (m : ℕ) {x : ℤ → ℝ} {E : ℝ} (h : PowBound (m + 1) x E) (j : ℕ) :
    PowBound (m + 1) (idealDetail wt x j) (tapNorm wt.dec_hi m * (tapNorm wt.dec_lo m ^ (j - 1) * E)) := by
  intro S
  have := downFilter_pow wt.dec_hi m (idealApprox_pow wt.dec_lo m h (j - 1)) S
  refine le_trans (le_of_eq (sum_congr rfl fun k _ => ?_)) this
  rw [idealDetail, abs_neg]

theorem testF_nat (m : ℕ) (t : ℝ) : testF ((m : ℝ)) 0 t = |t| ^ m := by simp [testF]

/-- One test function. -/
theorem mean_perturb {q : ℝ} (hq : 0 < q) {n : ℕ} (hn : n ≤ 1) {m : ℕ} (hm : q + 1 ≤ m) {ε : ℝ} (hε : 0 < ε) :
    ∃ η > 0, ∃ θ > 0, ∀ (I : Finset ℕ) (d d' : ℕ → ℝ), I.Nonempty →
      |(∑ k ∈ I, testF q n (d k)) / I.card - normalMoment q n| < η →
      |(∑ k ∈ I, testF ((m + 1 : ℕ) : ℝ) 0 (d k)) / I.card - normalMoment ((m + 1 : ℕ) : ℝ) 0| < η →
      ∑ k ∈ I, |d' k - d k| ^ (m + 1) ≤ θ * I.card →
      |(∑ k ∈ I, testF q n (d' k)) / I.card - normalMoment q n| < ε := by
  obtain ⟨M, hM⟩ : ∃ M, M = normalMoment ((m + 1 : ℕ) : ℝ) 0 := ⟨_, rfl⟩
  have hM0 : 0 < M := by rw [hM]; exact normalMoment_pos (by have : (0:ℝ) ≤ ((m + 1 : ℕ) : ℝ) := Nat.cast_nonneg _
                                                             linarith)
  obtain ⟨C, hC, hd⟩ := testF_diff hq hn hm (ε := ε / (4 * (M + 2))) (by positivity)
  refine ⟨min 1 (ε / 4), by positivity, ε / (4 * (C + 1)), by positivity, fun I d d' hI h1 h2 h3 => ?_⟩
  rw [← hM] at h2
  have hc : (0:ℝ) < I.card := by exact_mod_cast hI.card_pos
  have h1' := h1.trans_le (min_le_right _ _)
  have h2' := h2.trans_le (min_le_left _ _)
  have e2 : (∑ k ∈ I, |d k| ^ (m + 1)) / I.card < M + 1 := by
    have := (abs_lt.1 h2').2
    have e : ∑ k ∈ I, testF ((m + 1 : ℕ) : ℝ) 0 (d k) = ∑ k ∈ I, |d k| ^ (m + 1) := sum_congr rfl fun k _ => testF_nat _ _
    rw [e] at this
    linarith
  rw [div_lt_iff₀ hc] at e2
  have key : |∑ k ∈ I, testF q n (d' k) - ∑ k ∈ I, testF q n (d k)| ≤ ε / 2 * I.card := by
    rw [← sum_sub_distrib]
    calc |∑ k ∈ I, (testF q n (d' k) - testF q n (d k))| ≤ ∑ k ∈ I, |testF q n (d' k) - testF q n (d k)| := abs_sum_le_sum_abs _ _
      _ ≤ ∑ k ∈ I, (ε / (4 * (M + 2)) * (1 + |d k| ^ (m + 1)) + C * |d' k - d k| ^ (m + 1)) := sum_le_sum fun k _ => hd _ _
      _ = ε / (4 * (M + 2)) * (I.card + ∑ k ∈ I, |d k| ^ (m + 1)) + C * ∑ k ∈ I, |d' k - d k| ^ (m + 1) := by
        rw [sum_add_distrib, ← mul_sum, ← mul_sum, sum_add_distrib, sum_const, nsmul_eq_mul, mul_one]
      _ ≤ ε / (4 * (M + 2)) * ((M + 2) * I.card) + C * (ε / (4 * (C + 1)) * I.card) := by
        refine add_le_add (mul_le_mul_of_nonneg_left ?_ (by positivity)) (mul_le_mul_of_nonneg_left h3 hC)
        linarith
      _ ≤ ε / 4 * I.card + ε / 4 * I.card := by
        refine add_le_add (le_of_eq (by field_simp)) ?_
        have e : C * (ε / (4 * (C + 1)) * I.card) = ε / 4 * I.card * (C / (C + 1)) := by field_simp
        rw [e]
        refine mul_le_of_le_one_right (by positivity) ?_
        rw [div_le_one (by positivity)]; linarith
      _ = ε / 2 * I.card := by ring
  have key' : |(∑ k ∈ I, testF q n (d' k)) / I.card - (∑ k ∈ I, testF q n (d k)) / I.card| ≤ ε / 2 := by
    rw [← sub_div, abs_div, abs_of_pos hc, div_le_iff₀ hc]
    exact key
  have := abs_sub_le ((∑ k ∈ I, testF q n (d' k)) / I.card) ((∑ k ∈ I, testF q n (d k)) / I.card) (normalMoment q n)
  linarith

theorem means_perturb {m : ℕ} (F : List (ℝ × ℕ)) (hF : ∀ p ∈ F, 0 < p.1 ∧ p.2 ≤ 1 ∧ p.1 + 1 ≤ m) {ε : ℝ} (hε : 0 < ε) :
    ∃ η > 0, ∃ θ > 0, ∀ (I : Finset ℕ) (d d' : ℕ → ℝ), I.Nonempty →
      (∀ p ∈ F, |(∑ k ∈ I, testF p.1 p.2 (d k)) / I.card - normalMoment p.1 p.2| < η) →
      |(∑ k ∈ I, testF ((m + 1 : ℕ) : ℝ) 0 (d k)) / I.card - normalMoment ((m + 1 : ℕ) : ℝ) 0| < η →
      ∑ k ∈ I, |d' k - d k| ^ (m + 1) ≤ θ * I.card →
      ∀ p ∈ F, |(∑ k ∈ I, testF p.1 p.2 (d' k)) / I.card - normalMoment p.1 p.2| < ε := by
  induction F with
  | nil => exact ⟨1, one_pos, 1, one_pos, fun _ _ _ _ _ _ _ p hp => by cases hp⟩
  | cons p F ih =>
    obtain ⟨η1, hη1, θ1, hθ1, h1⟩ := ih fun p' hp' => hF p' (List.mem_cons_of_mem _ hp')
    obtain ⟨a, b, c⟩ := hF p (by simp)
    obtain ⟨η2, hη2, θ2, hθ2, h2⟩ := mean_perturb a b c hε
    refine ⟨min η1 η2, lt_min hη1 hη2, min θ1 θ2, lt_min hθ1 hθ2, fun I d d' hI e1 e2 e3 p' hp' => ?_⟩
    rcases List.mem_cons.1 hp' with rfl | hp'
    · exact h2 I d d' hI ((e1 _ (by simp)).trans_le (min_le_right _ _)) (e2.trans_le (min_le_right _ _))
        (e3.trans (mul_le_mul_of_nonneg_right (min_le_right _ _) (by positivity)))
    · exact h1 I d d' hI (fun p'' h'' => (e1 _ (List.mem_cons_of_mem _ h'')).trans_le (min_le_left _ _)) (e2.trans_le (min_le_left _ _))
        (e3.trans (mul_le_mul_of_nonneg_right (min_le_left _ _) (by positivity))) p' hp'

end

end MFA
