import Verif.Lemmas.Selfsim

/-! The coefficient of a walk as a combination of its increments: the primitive of the weights of the wavelet. -/

namespace MFA

open Finset

noncomputable section

/-- The coefficient `(j, k)` of the step at `n`: the weight of the increment `n` of a signal in its coefficient. -/
def stepWeight (wt : Wavelet) (j : ℕ) (k n : ℤ) : ℝ := idealDetail wt (fun t => if n ≤ t then 1 else 0) j k

theorem stepWeight_shift (wt : Wavelet) {j : ℕ} (hj : 1 ≤ j) (k n : ℤ) : stepWeight wt j k n = stepWeight wt j 0 (n - k * 2 ^ j) := by
  unfold stepWeight
  have h := idealDetail_shift wt (fun t => if n ≤ t then (1:ℝ) else 0) hj k 0
  rw [zero_add] at h
  rw [← h]
  congr 1
  funext t
  simp only [sub_le_iff_le_add]

/-- Sum of the values of a finite combination above `n`. -/
def tailSum (b : ℤ →₀ ℝ) (n : ℤ) : ℝ := ∑ s ∈ b.support, b s * if n ≤ s then 1 else 0

theorem tailSum_low {b : ℤ →₀ ℝ} {A B n : ℤ} (hs : b.support ⊆ Icc A B) (h0 : ∑ s ∈ b.support, b s = 0) (hn : n ≤ A) : tailSum b n = 0 := by
  rw [← h0, tailSum]
  refine sum_congr rfl fun s h => ?_
  rw [if_pos (hn.trans (mem_Icc.1 (hs h)).1), mul_one]

theorem tailSum_high {b : ℤ →₀ ℝ} {A B n : ℤ} (hs : b.support ⊆ Icc A B) (hn : B < n) : tailSum b n = 0 := by
  refine sum_eq_zero fun s h => ?_
  have := (mem_Icc.1 (hs h)).2
  rw [if_neg (by omega), mul_zero]

theorem tailSum_sq_le {b : ℤ →₀ ℝ} (h1 : ∑ s ∈ b.support, b s ^ 2 = 1) (n : ℤ) : tailSum b n ^ 2 ≤ b.support.card := by
  have h := sum_mul_sq_le_sq_mul_sq b.support (fun s => b s) (fun s => if n ≤ s then (1:ℝ) else 0)
  rw [h1, one_mul] at h
  refine h.trans ?_
  have : ∑ s ∈ b.support, (if n ≤ s then (1:ℝ) else 0) ^ 2 ≤ ∑ s ∈ b.support, (1:ℝ) := by
    refine sum_le_sum fun s _ => ?_
    split <;> norm_num
  exact this.trans (le_of_eq (by simp))

theorem tailSum_energy {b : ℤ →₀ ℝ} {A B : ℤ} (hs : b.support ⊆ Icc A B) (h0 : ∑ s ∈ b.support, b s = 0) :
    ∑ n ∈ Ioc A B, tailSum b n ^ 2 = -(∑ s ∈ b.support, ∑ t ∈ b.support, b s * b t * |((s - t : ℤ) : ℝ)|) / 2 := by
  have e1 : ∀ n, tailSum b n ^ 2 = ∑ s ∈ b.support, ∑ t ∈ b.support, b s * b t * if n ≤ min s t then 1 else 0 := by
    intro n
    rw [sq, tailSum, sum_mul_sum]
    refine sum_congr rfl fun s _ => sum_congr rfl fun t _ => ?_
    by_cases h1 : n ≤ s <;> by_cases h2 : n ≤ t <;> simp [h1, h2]
  simp only [e1]
  rw [sum_comm]
  have e2 : ∀ s ∈ b.support, ∀ t ∈ b.support, ∑ n ∈ Ioc A B, b s * b t * (if n ≤ min s t then (1:ℝ) else 0) =
      b s * b t * (((s : ℝ) + t) / 2 - A) - b s * b t * |((s - t : ℤ) : ℝ)| / 2 := by
    intro s hs' t ht'
    obtain ⟨a1, a2⟩ := mem_Icc.1 (hs hs')
    obtain ⟨b1, b2⟩ := mem_Icc.1 (hs ht')
    rw [← mul_sum, sum_ite, sum_const_zero, add_zero, sum_const, nsmul_eq_mul, mul_one]
    have : (Ioc A B).filter (fun n => n ≤ min s t) = Ioc A (min s t) := by
      ext n
      simp only [mem_filter, mem_Ioc, le_min_iff]
      constructor
      · rintro ⟨⟨h1, h2⟩, h3⟩; exact ⟨h1, h3⟩
      · rintro ⟨h1, h3⟩; exact ⟨⟨h1, by omega⟩, h3⟩
    rw [this, Int.card_Ioc]
    have hc : (((min s t - A).toNat : ℕ) : ℝ) = ((min s t : ℤ) : ℝ) - A := by
      have : ((min s t - A).toNat : ℤ) = min s t - A := Int.toNat_of_nonneg (by have := le_min a1 b1; omega)
      rw [← Int.cast_natCast, this]; push_cast; ring
    rw [hc]
    have hm : ((min s t : ℤ) : ℝ) = ((s : ℝ) + t) / 2 - |((s - t : ℤ) : ℝ)| / 2 := by
      rcases le_total s t with h | h
      · rw [min_eq_left h, abs_of_nonpos (by exact_mod_cast sub_nonpos.2 h)]; push_cast; ring
      · rw [min_eq_right h, abs_of_nonneg (by exact_mod_cast sub_nonneg.2 h)]; push_cast; ring
    rw [hm]; ring
  have e3 : ∑ s ∈ b.support, ∑ n ∈ Ioc A B, ∑ t ∈ b.support, b s * b t * (if n ≤ min s t then (1:ℝ) else 0) =
      ∑ s ∈ b.support, ∑ t ∈ b.support, (b s * b t * (((s : ℝ) + t) / 2 - A) - b s * b t * |((s - t : ℤ) : ℝ)| / 2) := by
    refine sum_congr rfl fun s hs' => ?_
    rw [sum_comm]
    exact sum_congr rfl fun t ht' => e2 s hs' t ht'
  rw [e3]
  simp only [sum_sub_distrib]
  have e4 : ∑ s ∈ b.support, ∑ t ∈ b.support, b s * b t * (((s : ℝ) + t) / 2 - A) = 0 := by
    have : ∀ s ∈ b.support, ∑ t ∈ b.support, b s * b t * (((s : ℝ) + t) / 2 - A) = b s * ∑ t ∈ b.support, b t * (t : ℝ) / 2 := by
      intro s _
      have : ∀ t ∈ b.support, b s * b t * (((s : ℝ) + t) / 2 - A) = b s * (b t * t / 2) + b s * ((s : ℝ) / 2 - A) * b t := fun t _ => by ring
      rw [sum_congr rfl this, sum_add_distrib, ← mul_sum, ← mul_sum, h0, mul_zero, add_zero]
    rw [sum_congr rfl this, ← sum_mul, h0, zero_mul]
  rw [e4, zero_sub]
  simp only [← sum_div, neg_div]

/-- What is needed of the weights of the increments: at scale `j + 1` they vanish outside a window of `2 F 2^j` positions, they are at most
`sqrt(2 F 2^j)`, and their energy is half the double detail of the distance. -/
theorem stepWeight_props {wt : Wavelet} (hwt : wt.Valid) (ho : OrthonormalBank wt) {M : ℕ} (hM : VanishingMoments wt.dec_hi M) (hM1 : 1 ≤ M) (j : ℕ) :
    ∃ A B : ℤ, A ≤ B ∧ ((B - A : ℤ) : ℝ) ≤ 2 * wt.dec_hi.length * 2 ^ j ∧ (∀ n, n ∉ Ioc A B → stepWeight wt (j + 1) 0 n = 0) ∧
      (∀ n, stepWeight wt (j + 1) 0 n ^ 2 ≤ 2 * wt.dec_hi.length * 2 ^ j) ∧
      ∑ n ∈ Ioc A B, stepWeight wt (j + 1) 0 n ^ 2 = -dblDetail wt (fun n => |(n : ℝ)| ^ (1:ℝ)) j / 2 := by
  obtain ⟨b, hb, hbx, -⟩ := weight_finsupp wt j
  have hnorm : ∑ s ∈ b.support, b s ^ 2 = 1 := by
    have := detail_weight hwt ho (j := j + 1) (j' := j + 1) (by omega) (by omega) 0 0
    rw [hbx, if_pos ⟨rfl, rfl⟩] at this
    rw [← this]
    exact sum_congr rfl fun s _ => by rw [← hb, sq]
  have h0 := detail_sum_zero hM hM1 hbx
  have hcard := weight_card hwt hb
  have hL := hwt.pos
  have hp : (1:ℤ) ≤ 2 ^ j := one_le_pow₀ (by norm_num)
  obtain ⟨o, ho'⟩ : ∃ o : ℤ, o = ((wt.dec_hi.length - 1) / 2 : ℕ) := ⟨_, rfl⟩
  obtain ⟨L, hL'⟩ : ∃ L : ℤ, L = (wt.dec_hi.length - 1 : ℕ) := ⟨_, rfl⟩
  have hL0 : 0 ≤ L := by rw [hL']; positivity
  have hsub : b.support ⊆ Icc (2 ^ j * (1 + o - L) + (2 ^ j - 1) * (1 + o - L)) (2 ^ j * (1 + o) + (2 ^ j - 1) * (1 + o)) := by
    intro t ht
    rw [Finsupp.mem_support_iff, hb, weight_succ] at ht
    obtain ⟨m, hm, hne⟩ := exists_ne_zero_of_sum_ne_zero ht
    obtain ⟨h1, h2⟩ := approxWeight_support _ j _ t (right_ne_zero_of_mul hne)
    have hm' := mem_range.1 hm
    have hmL : (m : ℤ) ≤ L := by rw [hL']; omega
    have hm0 : (0 : ℤ) ≤ m := by positivity
    rw [hwt.same, ← ho', ← hL'] at h1
    rw [hwt.same, ← ho'] at h2
    rw [mem_Icc]
    constructor <;> nlinarith
  have hst : ∀ n, stepWeight wt (j + 1) 0 n = tailSum b n := fun n => hbx _
  refine ⟨2 ^ j * (1 + o - L) + (2 ^ j - 1) * (1 + o - L), 2 ^ j * (1 + o) + (2 ^ j - 1) * (1 + o), ?_, ?_, ?_, ?_, ?_⟩
  rotate_left 2
  · intro n hn
    rw [hst]
    rw [mem_Ioc, not_and_or, not_lt, not_le] at hn
    rcases hn with h | h
    · exact tailSum_low hsub h0 h
    · exact tailSum_high hsub h
  · intro n
    rw [hst]
    exact (tailSum_sq_le hnorm n).trans hcard
  · simp only [hst]
    rw [tailSum_energy hsub h0, dblDetail_eq wt _ j hbx]
    simp only [Real.rpow_one]
  · nlinarith
  · have e : (2 ^ j * (1 + o) + (2 ^ j - 1) * (1 + o) - (2 ^ j * (1 + o - L) + (2 ^ j - 1) * (1 + o - L))) = (2 * 2 ^ j - 1) * L := by ring
    rw [e]
    have hLeq : (wt.dec_hi.length : ℤ) = L + 1 := by rw [hL']; omega
    have : (2 * 2 ^ j - 1) * L ≤ 2 * (wt.dec_hi.length : ℤ) * 2 ^ j := by rw [hLeq]; nlinarith
    exact_mod_cast this

end

end MFA
