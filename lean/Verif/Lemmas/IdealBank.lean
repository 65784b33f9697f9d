import Verif.Lemmas.DataIndep
import Mathlib.Algebra.Polynomial.Eval.Degree
import Mathlib.Algebra.Polynomial.Degree.Lemmas
import Mathlib.Algebra.Polynomial.BigOperators

/-! Linearity, shift covariance and vanishing moments of the ideal filter bank; congruence of the modelled loops. -/

namespace MFA

open Classical Finset Polynomial

variable {R : ℕ}

theorem downFilter_linear (f : List ℝ) (a b : ℝ) (x y : ℤ → ℝ) (k : ℤ) :
    downFilter f (fun t => a * x t + b * y t) k = a * downFilter f x k + b * downFilter f y k := by
  simp only [downFilter, Finset.mul_sum, ← Finset.sum_add_distrib]
  apply Finset.sum_congr rfl
  intro m _; ring

theorem idealApprox_linear (lo : List ℝ) (a b : ℝ) (x y : ℤ → ℝ) (j : ℕ) :
    idealApprox lo (fun t => a * x t + b * y t) j = fun k => a * idealApprox lo x j k + b * idealApprox lo y j k := by
  induction j with
  | zero => rfl
  | succ j ih => funext k; rw [idealApprox, ih, downFilter_linear]; rfl

theorem idealDetail_linear (wt : Wavelet) (a b : ℝ) (x y : ℤ → ℝ) (j : ℕ) (k : ℤ) :
    idealDetail wt (fun t => a * x t + b * y t) j k = a * idealDetail wt x j k + b * idealDetail wt y j k := by
  rw [idealDetail, idealApprox_linear, downFilter_linear, idealDetail, idealDetail]; ring

theorem idealApprox_shift (lo : List ℝ) (x : ℤ → ℝ) (j : ℕ) (c k : ℤ) :
    idealApprox lo (fun t => x (t + c * 2 ^ j)) j k = idealApprox lo x j (k + c) := by
  induction j generalizing c k with
  | zero => simp [idealApprox]
  | succ j ih =>
    rw [idealApprox, idealApprox, downFilter, downFilter]
    apply Finset.sum_congr rfl
    intro m _
    have := ih (2 * c) (2 * k + 1 + ((lo.length - 1) / 2 : ℕ) - m)
    rw [show (2 * c) * 2 ^ j = c * 2 ^ (j + 1) by ring] at this
    rw [this]
    congr 2; ring

theorem idealDetail_shift (wt : Wavelet) (x : ℤ → ℝ) {j : ℕ} (hj : 1 ≤ j) (c k : ℤ) :
    idealDetail wt (fun t => x (t + c * 2 ^ j)) j k = idealDetail wt x j (k + c) := by
  obtain ⟨i, rfl⟩ : ∃ i, j = i + 1 := ⟨j - 1, by omega⟩
  rw [idealDetail, idealDetail, Nat.add_sub_cancel, downFilter, downFilter]
  congr 1
  apply Finset.sum_congr rfl
  intro m _
  have := idealApprox_shift wt.dec_lo x i (2 * c) (2 * k + 1 + ((wt.dec_hi.length - 1) / 2 : ℕ) - m)
  rw [show (2 * c) * 2 ^ i = c * 2 ^ (i + 1) by ring] at this
  rw [this]
  congr 2; ring

/-- A decimated filter maps samples of polynomials to samples of polynomials of no larger degree. -/
theorem downFilter_poly (f : List ℝ) (q : ℝ[X]) : ∃ q' : ℝ[X], q'.natDegree ≤ q.natDegree ∧
    ∀ k : ℤ, downFilter f (fun t => q.eval (t : ℝ)) k = q'.eval (k : ℝ) := by
  refine ⟨∑ m ∈ range f.length, C (f.getD m 0) *
    q.comp (C 2 * X + C (1 + (((f.length - 1) / 2 : ℕ) : ℝ) - m)), ?_, ?_⟩
  · apply natDegree_sum_le_of_forall_le
    intro m _
    refine (natDegree_C_mul_le _ _).trans ?_
    rw [natDegree_comp]
    calc q.natDegree * (C 2 * X + C (1 + (((f.length - 1) / 2 : ℕ) : ℝ) - m)).natDegree
        ≤ q.natDegree * 1 := Nat.mul_le_mul_left _ natDegree_linear_le
      _ = q.natDegree := mul_one _
  · intro k
    rw [downFilter, eval_finsetSum]
    apply Finset.sum_congr rfl
    intro m _
    simp only [eval_mul, eval_C, eval_comp, eval_add, eval_X]
    congr 2
    generalize (f.length - 1) / 2 = h
    push_cast; ring

theorem idealApprox_poly (lo : List ℝ) (q : ℝ[X]) (j : ℕ) : ∃ q' : ℝ[X], q'.natDegree ≤ q.natDegree ∧
    idealApprox lo (fun t => q.eval (t : ℝ)) j = fun k : ℤ => q'.eval (k : ℝ) := by
  induction j with
  | zero => exact ⟨q, le_rfl, rfl⟩
  | succ j ih =>
    obtain ⟨q1, h1, e1⟩ := ih
    obtain ⟨q2, h2, e2⟩ := downFilter_poly lo q1
    refine ⟨q2, h2.trans h1, ?_⟩
    funext k
    rw [idealApprox, e1, e2]

theorem downFilter_vanish (f : List ℝ) {M : ℕ} (hf : VanishingMoments f M) (q : ℝ[X]) (hq : q.natDegree < M) (k : ℤ) :
    downFilter f (fun t => q.eval (t : ℝ)) k = 0 := by
  -- expand q(c - m) in powers of m
  set c : ℝ := 2 * k + 1 + (((f.length - 1) / 2 : ℕ) : ℝ) with hc
  set q1 : ℝ[X] := q.comp (C c - X) with hq1
  have hdeg : q1.natDegree < M := by
    refine lt_of_le_of_lt ?_ hq
    rw [hq1, natDegree_comp]
    calc q.natDegree * (C c - X).natDegree ≤ q.natDegree * 1 := by
          apply Nat.mul_le_mul_left
          rw [sub_eq_neg_add, show -(X : ℝ[X]) = C (-1) * X by simp]
          exact natDegree_linear_le
      _ = q.natDegree := mul_one _
  have heval : ∀ m : ℕ, q.eval (((2 * k + 1 + ((f.length - 1) / 2 : ℕ) - m : ℤ)) : ℝ) = q1.eval (m : ℝ) := by
    intro m
    rw [hq1, eval_comp, hc]
    congr 1
    simp only [eval_sub, eval_C, eval_X]
    generalize (f.length - 1) / 2 = h
    push_cast; ring
  rw [downFilter]
  simp only [heval]
  have hexp : ∀ m : ℕ, q1.eval (m : ℝ) = ∑ i ∈ range M, q1.coeff i * (m : ℝ) ^ i := by
    intro m
    rw [eval_eq_sum_range' hdeg]
  simp only [hexp, Finset.mul_sum]
  rw [Finset.sum_comm]
  apply Finset.sum_eq_zero
  intro i hi
  have := hf i (Finset.mem_range.mp hi)
  calc ∑ m ∈ range f.length, f.getD m 0 * (q1.coeff i * (m : ℝ) ^ i)
      = q1.coeff i * ∑ m ∈ range f.length, f.getD m 0 * (m : ℝ) ^ i := by
        rw [Finset.mul_sum]; apply Finset.sum_congr rfl; intro m _; ring
    _ = 0 := by rw [this, mul_zero]

theorem idealDetail_vanish (wt : Wavelet) {M : ℕ} (hf : VanishingMoments wt.dec_hi M) (q : ℝ[X])
    (hq : q.natDegree < M) (j : ℕ) (k : ℤ) : idealDetail wt (fun t => q.eval (t : ℝ)) j k = 0 := by
  obtain ⟨q', h1, e⟩ := idealApprox_poly wt.dec_lo q (j - 1)
  rw [idealDetail, e, downFilter_vanish _ hf _ (lt_of_le_of_lt h1 hq), neg_zero]

/-! ### Congruence of the loops -/

theorem coefLoop_congr (P : LoopParams) (sig sig' : Arr R) (n : ℕ) : ∀ (s : ℕ) (ml : ℤ) (acc : MRQ R), 1 ≤ s →
    (∀ i < n, coefSeq P sig (s + i) = coefSeq P sig' (s + i)) →
    coefLoop P n s ml (approxSeq P sig (s - 1)) acc = coefLoop P n s ml (approxSeq P sig' (s - 1)) acc := by
  induction n with
  | zero => intro s ml acc _ _; rfl
  | succ n ih =>
    intro s ml acc hs h
    rw [coefLoop, coefLoop]
    by_cases hR : R = 0
    · rw [if_pos hR, if_pos hR]
    · rw [if_neg hR, if_neg hR]
      have hd : ∀ sg : Arr R, (filtering (approxSeq P sg (s - 1)) P.high P.low).1 = detailSeq P sg (s - 1) := fun _ => rfl
      have ha : ∀ sg : Arr R, (filtering (approxSeq P sg (s - 1)) P.high P.low).2 = approxSeq P sg (s + 1 - 1) := by
        intro sg
        obtain ⟨t, rfl⟩ : ∃ t, s = t + 1 := ⟨s - 1, by omega⟩
        rfl
      simp only [hd, ha]
      by_cases hn : P.normalization = 0
      · simp only [normalize, if_pos hn]
      · rw [normalize_eq _ _ _ hn, normalize_eq _ _ _ hn]
        have hc : ∀ sg : Arr R, scaled P s (detailSeq P sg (s - 1)) = coefSeq P sg s := fun _ => rfl
        simp only [hc]
        have h0 := h 0 (by omega)
        rw [Nat.add_zero] at h0
        rw [h0]
        split
        · rfl
        · exact ih (s + 1) _ _ (by omega) (fun i hi => by
            have := h (i + 1) (by omega)
            rwa [show s + (i + 1) = s + 1 + i by omega] at this)

theorem leadLoop_congr (P : LoopParams) (p : PExp) (sig sig' : Arr R) (n : ℕ) :
    ∀ (s : ℕ) (ml : ℤ) (st : LeadState R), 1 ≤ s →
    (∀ i < n, coefSeq P sig (s + i) = coefSeq P sig' (s + i)) →
    leadLoop P p n s ml (approxSeq P sig (s - 1)) st = leadLoop P p n s ml (approxSeq P sig' (s - 1)) st := by
  induction n with
  | zero => intro s ml acc _ _; rfl
  | succ n ih =>
    intro s ml st hs h
    rw [leadLoop, leadLoop]
    by_cases hR : R = 0
    · rw [if_pos hR, if_pos hR]
    · rw [if_neg hR, if_neg hR]
      have hd : ∀ sg : Arr R, (filtering (approxSeq P sg (s - 1)) P.high P.low).1 = detailSeq P sg (s - 1) := fun _ => rfl
      have ha : ∀ sg : Arr R, (filtering (approxSeq P sg (s - 1)) P.high P.low).2 = approxSeq P sg (s + 1 - 1) := by
        intro sg
        obtain ⟨t, rfl⟩ : ∃ t, s = t + 1 := ⟨s - 1, by omega⟩
        rfl
      simp only [hd, ha]
      by_cases hn : P.normalization = 0
      · simp only [normalize, if_pos hn]
      · rw [normalize_eq _ _ _ hn, normalize_eq _ _ _ hn]
        have hc : ∀ sg : Arr R, scaled P s (detailSeq P sg (s - 1)) = coefSeq P sg s := fun _ => rfl
        simp only [hc]
        have h0 := h 0 (by omega)
        rw [Nat.add_zero] at h0
        rw [h0]
        split
        · rfl
        · cases hcl : computeLeaders (coefSeq P sig' s) st.sans_voisin s p with
          | error e => rfl
          | ok y =>
            obtain ⟨leaders, sv⟩ := y
            simp only
            split
            · rfl
            · exact ih (s + 1) _ _ (by omega) (fun i hi => by
                have := h (i + 1) (by omega)
                rwa [show s + (i + 1) = s + 1 + i by omega] at this)

theorem waveletAnalysis_congr {sig sig' : Arr R} (wt : Wavelet) (g nm : ℝ) (hlen : sig.length = sig'.length)
    (h : ∀ ml, maxLevel sig.length wt.dec_hi.length = .ok ml → ∀ s, 1 ≤ s → s ≤ ml.toNat →
      coefSeq (wparams wt g nm) sig s = coefSeq (wparams wt g nm) sig' s) (p : PExp) (j1 : ℤ) (j2 : Option ℝ)
    (weighted : Bool) :
    waveletAnalysis sig p wt j1 j2 g nm weighted = waveletAnalysis sig' p wt j1 j2 g nm weighted := by
  unfold waveletAnalysis
  rw [← hlen]
  dsimp only
  cases hd : decompositionLevelW sig.length (wt.dec_hi.map (fun t => -1 * t)).length j2 with
  | error e => rfl
  | ok y =>
    obtain ⟨ml, wd⟩ := y
    have h1 := (decompositionLevelW_ok hd).1
    rw [List.length_map] at h1
    have hh := h ml h1
    have hcoef : ∀ i < ml.toNat, coefSeq (wparams wt g nm) sig (1 + i) = coefSeq (wparams wt g nm) sig' (1 + i) :=
      fun i hi => hh (1 + i) (by omega) (by omega)
    cases p with
    | none =>
      simp only
      have e := coefLoop_congr (wparams wt g nm) sig sig' ml.toNat 1 ml (MRQ.empty .coef g) le_rfl hcoef
      rw [show approxSeq (wparams wt g nm) sig (1 - 1) = sig from rfl,
        show approxSeq (wparams wt g nm) sig' (1 - 1) = sig' from rfl, wparams] at e
      rw [e]
    | inf =>
      simp only
      have e := leadLoop_congr (wparams wt g nm) .inf sig sig' ml.toNat 1 ml
        { coefs := MRQ.empty .coef g, leaders := MRQ.empty (checkFormalism .inf) g, sans_voisin := [] } le_rfl hcoef
      rw [show approxSeq (wparams wt g nm) sig (1 - 1) = sig from rfl,
        show approxSeq (wparams wt g nm) sig' (1 - 1) = sig' from rfl, wparams] at e
      rw [e]
    | num q =>
      simp only
      have e := leadLoop_congr (wparams wt g nm) (.num q) sig sig' ml.toNat 1 ml
        { coefs := MRQ.empty .coef g, leaders := MRQ.empty (checkFormalism (.num q)) g, sans_voisin := [] } le_rfl hcoef
      rw [show approxSeq (wparams wt g nm) sig (1 - 1) = sig from rfl,
        show approxSeq (wparams wt g nm) sig' (1 - 1) = sig' from rfl, wparams] at e
      rw [e]

theorem arr_ext {a b : Arr R} (hl : a.length = b.length) (h : ∀ k < a.length, ∀ r, ent a k r = ent b k r) : a = b := by
  rw [arr_eq_range a, arr_eq_range b, hl]
  apply List.map_congr_left
  intro k hk
  rw [List.mem_range] at hk
  funext r
  exact h k (by omega) r

/-- If two finite signals have the same ideal details (at the scales that exist), all analyses give the same result. -/
theorem waveletAnalysis_congr_ideal {N : ℕ} (x y : Fin R → ℤ → ℝ) (wt : Wavelet) (hwt : wt.Valid) (g nm : ℝ)
    (h : ∀ r s k, 1 ≤ s → idealDetail wt (x r) s k = idealDetail wt (y r) s k) (p : PExp) (j1 : ℤ) (j2 : Option ℝ)
    (weighted : Bool) :
    waveletAnalysis (sampled N x) p wt j1 j2 g nm weighted = waveletAnalysis (sampled N y) p wt j1 j2 g nm weighted := by
  apply waveletAnalysis_congr wt g nm (by rw [sampled_length, sampled_length])
  intro ml hml s hs hsml
  rw [sampled_length] at hml
  have hroom : ∀ i < s, wt.dec_hi.length ≤ N / 2 ^ i + 1 := fun i hi => by
    have := level_room hml (i := i) (by omega); omega
  apply arr_ext
  · rw [coefSeq_length _ _ _ hs, coefSeq_length _ _ _ hs, sampled_length, sampled_length]
  · intro k hk r
    rw [coefSeq_length _ _ _ hs, sampled_length] at hk
    rw [coef_ent wt hwt g nm x r hs hroom hk, coef_ent wt hwt g nm y r hs hroom hk, h r s k hs]

end MFA
