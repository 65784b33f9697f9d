import Verif.Props.RoundingBounds
import Verif.Props.FilterBank
import Verif.Props.RoundingExact
import Verif.Props.Demo

/-! C124: the hypotheses of the explicit bounds, and what they give in double precision. -/

namespace MFA

open Classical

noncomputable section

variable {R : ℕ} {m : MRQ R} {J : ℕ}

/-- Every quantity without zeros (entries NaN or non-zero numbers, at least one number per scale and realisation) meets the size condition of C124 for
some `Y` and `n`. -/
theorem C124_sizes (hrow : ∀ p ∈ m.values, p.2 ≠ []) (h0 : NonzeroData m) : ∃ Y n, LogData Y n m := by
  refine ⟨(m.values.map fun p => ∑ r, ((col p.2 r).map fun x => |Real.logb 2 (|flVal x|)|).sum).sum, (m.values.map fun p => p.2.length).sum, fun p hp =>
    ⟨hrow p hp, List.single_le_sum (by simp) _ (List.mem_map.2 ⟨p, hp, rfl⟩), fun r => ⟨(h0 p hp r).1, fun x hx => ?_⟩⟩⟩
  rcases (h0 p hp r).2 x hx with e | ⟨t, ht, rfl⟩
  · exact Or.inl e
  · refine Or.inr ⟨t, ht, rfl, ?_⟩
    have c0 : ∀ p : ℤ × Arr R, ∀ r : Fin R, 0 ≤ ((col p.2 r).map fun x => |Real.logb 2 (|flVal x|)|).sum := fun p r =>
      List.sum_nonneg (by intro a ha; obtain ⟨x, -, rfl⟩ := List.mem_map.1 ha; exact abs_nonneg _)
    have c1 : |Real.logb 2 (|t|)| ≤ ((col p.2 r).map fun x => |Real.logb 2 (|flVal x|)|).sum :=
      List.single_le_sum (by intro a ha; obtain ⟨x, -, rfl⟩ := List.mem_map.1 ha; exact abs_nonneg _) _ (List.mem_map.2 ⟨Fl.fin t, hx, rfl⟩)
    have c2 := Finset.single_le_sum (f := fun r => ((col p.2 r).map fun x => |Real.logb 2 (|flVal x|)|).sum) (fun r _ => c0 p r) (Finset.mem_univ r)
    have c3 : ∑ r, ((col p.2 r).map fun x => |Real.logb 2 (|flVal x|)|).sum ≤
        (m.values.map fun p => ∑ r, ((col p.2 r).map fun x => |Real.logb 2 (|flVal x|)|).sum).sum :=
      List.single_le_sum (by
        intro a ha; obtain ⟨x, -, rfl⟩ := List.mem_map.1 ha; exact Finset.sum_nonneg fun r _ => c0 x r) _ (List.mem_map.2 ⟨p, hp, rfl⟩)
    exact c1.trans (c2.trans c3)

theorem Balanced.mono {ρ ρ' : ℝ} {weighted : Bool} {j1 j2 : ℕ} {r : Fin R} (h : Balanced ρ m weighted j1 j2 r) (hρ : ρ ≤ ρ') :
    Balanced ρ' m weighted j1 j2 r := by
  intro j hj
  refine (h j hj).trans (mul_le_mul_of_nonneg_right hρ ?_)
  have hw : ∀ i : ℕ, 0 ≤ scaleWeight m weighted i r := by
    intro i
    unfold scaleWeight
    split
    · split
      · exact Nat.cast_nonneg _
      · exact le_rfl
    · exact zero_le_one
  have := Finset.single_le_sum (f := fun i : ℕ => scaleWeight m weighted i r) (fun i _ => hw i) hj
  linarith

/-- C124: without weights no scale holds more than half of the weight. -/
theorem C124_unweighted (m : MRQ R) {j1 j2 : ℕ} (h12 : j1 < j2) (r : Fin R) : Balanced 2 m false j1 j2 r := by
  intro j hj
  have e : ∀ i : ℕ, scaleWeight m false i r = 1 := fun i => rfl
  simp only [e, Finset.sum_const, Nat.card_Icc, nsmul_eq_mul, mul_one]
  have : (2:ℝ) ≤ ((j2 + 1 - j1 : ℕ) : ℝ) := by exact_mod_cast (by omega : 2 ≤ j2 + 1 - j1)
  linarith

/-- Decreasing weights of which the first is at most three times the second. -/
theorem balanced_of {weighted : Bool} {j1 j2 : ℕ} {r : Fin R} (h12 : j1 < j2) (w : ℕ → ℕ)
    (hw : ∀ j, j1 ≤ j → j ≤ j2 → scaleWeight m weighted j r = w j) (hmono : ∀ j, j1 ≤ j → j ≤ j2 → w j ≤ w j1) (h3 : w j1 ≤ 3 * w (j1 + 1)) :
    Balanced 4 m weighted j1 j2 r := by
  intro j hj
  have hj' := Finset.mem_Icc.1 hj
  have hs : ∑ i ∈ Finset.Icc j1 j2, scaleWeight m weighted i r = ((∑ i ∈ Finset.Icc j1 j2, w i : ℕ) : ℝ) := by
    push_cast
    exact Finset.sum_congr rfl fun i hi => hw i (Finset.mem_Icc.1 hi).1 (Finset.mem_Icc.1 hi).2
  rw [hs, hw j hj'.1 hj'.2]
  have h4 : w j + ∑ i ∈ (Finset.Icc j1 j2).erase j, w i = ∑ i ∈ Finset.Icc j1 j2, w i := Finset.add_sum_erase _ w hj
  have h5 : w j ≤ 3 * ∑ i ∈ (Finset.Icc j1 j2).erase j, w i := by
    by_cases hjj : j = j1
    · subst hjj
      have : w (j + 1) ≤ ∑ i ∈ (Finset.Icc j j2).erase j, w i :=
        Finset.single_le_sum (f := w) (fun _ _ => Nat.zero_le _) (Finset.mem_erase.2 ⟨by omega, Finset.mem_Icc.2 (by omega)⟩)
      omega
    · have : w j1 ≤ ∑ i ∈ (Finset.Icc j1 j2).erase j, w i :=
        Finset.single_le_sum (f := w) (fun _ _ => Nat.zero_le _) (Finset.mem_erase.2 ⟨by omega, Finset.mem_Icc.2 (by omega)⟩)
      have := hmono j hj'.1 hj'.2
      omega
  have h6 : (∑ i ∈ Finset.Icc j1 j2, w i) ≤ 4 * ((∑ i ∈ Finset.Icc j1 j2, w i) - w j) := by omega
  have h7 : w j ≤ ∑ i ∈ Finset.Icc j1 j2, w i := by omega
  have h8 : (((∑ i ∈ Finset.Icc j1 j2, w i) - w j : ℕ) : ℝ) = ((∑ i ∈ Finset.Icc j1 j2, w i : ℕ) : ℝ) - w j := by rw [Nat.cast_sub h7]
  rw [← h8]
  exact_mod_cast h6

/-- C124: for the coefficients of a finite signal, no scale of a range `j1 < j2` holds more than 3/4 of the weight, as soon as scale `j1 + 1` has at least
`F + 2` usable coefficients. -/
theorem C124_coefficients {N : ℕ} {x : Fin R → ℤ → ℝ} {p : PExp} {wt : Wavelet} (hwt : wt.Valid) {j1' : ℤ} {j2' : Option ℝ} {g nm : ℝ} {weighted' : Bool}
    {w : WT R} (h : waveletAnalysis (sampled N x) p wt j1' j2' g nm weighted' = .ok w) {j1 j2 : ℕ} (h1 : 1 ≤ j1) (h12 : j1 < j2) {r : Fin R}
    {a b : ℕ} (ha : w.wt_coefs.nj? (j1 + 1) r = some a) (hF : wt.dec_hi.length + 2 ≤ a) (hb : w.wt_coefs.nj? j2 r = some b) (weighted : Bool) :
    Balanced 4 w.wt_coefs weighted j1 j2 r := by
  cases weighted with
  | false => exact (C124_unweighted _ h12 r).mono (by norm_num)
  | true =>
    have hR : R ≠ 0 := fun h0 => by subst h0; exact r.elim0
    have hsome : ∀ j, j1 ≤ j → j ≤ j2 → ∃ n, w.wt_coefs.nj? j r = some n := by
      obtain ⟨ml, K, Kc, -, -, -, -, e5, -, -, -⟩ := wa_finite hwt hR h
      intro j hj hj'
      rw [e5, scalesUpTo_nj] at hb ⊢
      split at hb
      · rename_i hc
        rw [if_pos (by omega)]
        exact ⟨_, rfl⟩
      · cases hb
    have hcl : ∀ j, j1 ≤ j → j ≤ j2 → w.wt_coefs.nj? j r = some (usable N wt.dec_hi.length j) := by
      intro j hj hj'
      obtain ⟨n, hn⟩ := hsome j hj hj'
      rw [hn, C07_nj hwt h hn]
      rfl
    have hpow : ∀ j, 1 ≤ j → N / 2 ^ j = N / 2 ^ (j - 1) / 2 := by
      intro j hj
      rw [Nat.div_div_eq_div_mul, ← pow_succ, Nat.sub_add_cancel hj]
    refine balanced_of h12 (usable N wt.dec_hi.length) (fun j hj hj' => ?_) (fun j hj hj' => ?_) ?_
    · have := hcl j hj hj'
      unfold MRQ.nj? at this
      unfold scaleWeight
      rw [if_pos rfl]
      cases hg : w.wt_coefs.nj.get? (j : ℤ) with
      | none => rw [hg] at this; cases this
      | some n =>
        rw [hg] at this
        simp only [Option.map_some, Option.some.injEq] at this
        simp [this]
    · have : N / 2 ^ (j - 1) ≤ N / 2 ^ (j1 - 1) := Nat.div_le_div_left (Nat.pow_le_pow_right (by norm_num) (by omega)) (by positivity)
      unfold usable
      omega
    · have := hcl (j1 + 1) (by omega) (by omega)
      rw [ha] at this
      simp only [Option.some.injEq] at this
      unfold usable at this ⊢
      have e := hpow j1 h1
      rw [show j1 + 1 - 1 = j1 by omega, e] at this ⊢
      omega

theorem FlClose.mono {a b : ℝ} {s t : Fl} (h : FlClose a s t) (hab : a ≤ b) : FlClose b s t := by
  obtain ⟨x, y, h1, h2, h3⟩ := h
  exact ⟨x, y, h1, h2, h3.trans hab⟩

theorem roundErr_double {u : ℝ} (hu0 : 0 ≤ u) (hu : u ≤ 1 / 2 ^ 52) {j1 j2 : ℕ} (h1 : 1 ≤ j1) (h12 : j1 < j2) (h20 : j2 ≤ 20) {k K A : ℝ} (hk0 : 0 ≤ k) (hk : k ≤ K)
    (hA : 0 ≤ A) : roundErr u 4 j1 j2 k A ≤ 640 * (3379200 + 7 * K) / 2 ^ 52 * A := by
  have hj2 : (1:ℝ) ≤ j2 := by exact_mod_cast (by omega : 1 ≤ j2)
  have hj20 : (j2:ℝ) ≤ 20 := by exact_mod_cast h20
  have hj1 : (1:ℝ) ≤ j1 := by exact_mod_cast h1
  have hL : (0:ℝ) ≤ j2 - j1 := by have : (j1:ℝ) ≤ j2 := by exact_mod_cast h12.le
                                  linarith
  have c1 : (j2:ℝ) ^ 2 ≤ 400 := by nlinarith
  have c2 : (j2:ℝ) ^ 2 * (j2 - j1 + 3) ≤ 400 * 22 := mul_le_mul c1 (by linarith) (by linarith) (by norm_num)
  have c3 : 96 * 4 * (j2:ℝ) ^ 2 * (j2 - j1 + 3) + 7 * k ≤ 3379200 + 7 * K := by nlinarith
  have c0 : 0 ≤ 96 * 4 * (j2:ℝ) ^ 2 * (j2 - j1 + 3) + 7 * k := by have : 0 ≤ (j2:ℝ) ^ 2 * (j2 - j1 + 3) := mul_nonneg (by positivity) (by linarith)
                                                                  nlinarith
  have c4 : 8 * 4 * (j2:ℝ) * (96 * 4 * (j2:ℝ) ^ 2 * (j2 - j1 + 3) + 7 * k) ≤ 640 * (3379200 + 7 * K) :=
    mul_le_mul (by linarith) c3 c0 (by norm_num)
  have hK0 : 0 ≤ 640 * (3379200 + 7 * K) := by linarith
  unfold roundErr
  calc 8 * 4 * (j2:ℝ) * (96 * 4 * (j2:ℝ) ^ 2 * (j2 - j1 + 3) + 7 * k) * A * u ≤ 640 * (3379200 + 7 * K) * A * (1 / 2 ^ 52) :=
        mul_le_mul (mul_le_mul_of_nonneg_right c4 hA) hu hu0 (mul_nonneg hK0 hA)
    _ = _ := by ring

/-- **C124 in double precision.**  Relative errors of at most `2^-52`, up to a million values per scale, scales up to 20, no scale with more than 3/4 of the
weight, values between `2^(-Y)` and `2^Y`: rounding changes `zeta(q)` by at most `1.6e-6 (|q| Y + 5)`, the Hurst exponent by at most
`1.6e-6 (2 Y + 5) + 2^-52 |gamint|`, `hmin` by at most `5e-7 Y`, the first log-cumulant by at most `5e-6 Y` and `h(q)` by at most `9e-6 Y`. -/
theorem C124_double (hm : Regular m J) {Y : ℝ} {n : ℕ} (hd : LogData Y n m) (hn : n ≤ 2 ^ 20) {j1 j2 : ℕ} (h1 : 1 ≤ j1) (h12 : j1 < j2) (h2 : j2 ≤ J)
    (h20 : j2 ≤ 20) (weighted : Bool) {q : List ℝ} (hq : (2:ℝ) ∈ q) {nc : ℕ} (hnc : nc ≤ 1000) (M : Machine) (hu : M.u ≤ 1 / 2 ^ 52) :
    ∃ v v', mfVar m j1 j2 weighted nc q = .ok v ∧ M.mfVar m j1 j2 weighted nc q = .ok v' ∧ ∀ r, Balanced 4 m weighted j1 j2 r →
      (∀ (i : ℕ) (e : ℝ), q[i]? = some e → ∃ z z', v.structure_.zeta[i]? = some z ∧ v'.structure_.zeta[i]? = some z' ∧
        FlClose (0.0000016 * (|e| * Y + 5)) (z r) (z' r)) ∧
      FlClose (0.0000016 * (2 * Y + 5) + |m.gamint| / 2 ^ 52) (v.structure_.H r) (v'.structure_.H r) ∧
      FlClose (0.0000005 * Y) (v.hmin r) (v'.hmin r) ∧
      (1 ≤ nc → ∃ c c', v.cumulants.log_cumulants[0]? = some c ∧ v'.cumulants.log_cumulants[0]? = some c' ∧ FlClose (0.000005 * Y) (c r) (c' r)) ∧
      ∀ (i : ℕ) (e : ℝ), q[i]? = some e → ∃ h h', v.spectrum.hq[i]? = some h ∧ v'.spectrum.hq[i]? = some h' ∧ FlClose (0.000009 * Y) (h r) (h' r) := by
  have hu0 := M.u_nonneg
  have hj2 : (1:ℝ) ≤ j2 := by exact_mod_cast (by omega : 1 ≤ j2)
  have hj20 : (j2:ℝ) ≤ 20 := by exact_mod_cast h20
  have hj1 : (1:ℝ) ≤ j1 := by exact_mod_cast h1
  have hL : (0:ℝ) ≤ j2 - j1 := by have : (j1:ℝ) ≤ j2 := by exact_mod_cast h12.le
                                  linarith
  have hnN : n ≤ 1048576 := by simpa using hn
  have hnR : (n:ℝ) ≤ 1048576 := by exact_mod_cast hnN
  have hn0 : (0:ℝ) ≤ n := Nat.cast_nonneg n
  have hncR : (nc:ℝ) ≤ 1000 := by exact_mod_cast hnc
  have hnc0 : (0:ℝ) ≤ nc := Nat.cast_nonneg nc
  have hu1 : 32 * (4:ℝ) * j2 ^ 2 * (j2 - j1 + 3) * M.u ≤ 1 := by
    have c2 : (j2:ℝ) ^ 2 * (j2 - j1 + 3) ≤ 400 * 22 := mul_le_mul (by nlinarith) (by linarith) (by linarith) (by norm_num)
    have c3 : (j2:ℝ) ^ 2 * (j2 - j1 + 3) * M.u ≤ 400 * 22 * (1 / 2 ^ 52) := mul_le_mul c2 hu hu0 (by norm_num)
    have c4 : (400 * 22 * (1 / 2 ^ 52) : ℝ) ≤ 1 / 128 := by norm_num
    calc 32 * (4:ℝ) * j2 ^ 2 * (j2 - j1 + 3) * M.u = 128 * ((j2:ℝ) ^ 2 * (j2 - j1 + 3) * M.u) := by ring
      _ ≤ 1 := by linarith
  have hu2 : 28 * ((n:ℝ) + 1) * M.u ≤ 1 := by
    have : 28 * ((n:ℝ) + 1) * M.u ≤ 28 * (1048576 + 1) * (1 / 2 ^ 52) := mul_le_mul (by linarith) hu hu0 (by norm_num)
    exact this.trans (by norm_num)
  obtain ⟨v, v', hv, hv', H⟩ := C124_bounds hm hd h1 h12 h2 weighted hq nc (ρ := 4) M hu1 hu2
  refine ⟨v, v', hv, hv', fun r hb => ?_⟩
  obtain ⟨z, hH, hh, hc, hhq, -⟩ := H r hb
  have a1 : (1:ℤ) ≤ (j1 : ℤ) := by exact_mod_cast h1
  have a2 : (j1 : ℤ) ≤ (j2 : ℤ) := by exact_mod_cast h12.le
  have a3 : (j2 : ℤ) ≤ (J : ℤ) := by exact_mod_cast h2
  have hY0 : 0 ≤ Y := by
    obtain ⟨p0, hp0⟩ := List.exists_mem_of_ne_nil _ (hm.sub_ne_nil a1 a2 a3)
    exact ((hd p0 (sub_mem hp0)).2.2 r).nonneg
  have E : ∀ {k K A C : ℝ}, 0 ≤ k → k ≤ K → 0 ≤ A → 640 * (3379200 + 7 * K) / 2 ^ 52 ≤ C → roundErr M.u 4 j1 j2 k A ≤ C * A := by
    intro k K A C hk0 hk hA hC
    exact (roundErr_double hu0 hu h1 h12 h20 hk0 hk hA).trans (mul_le_mul_of_nonneg_right hC hA)
  refine ⟨fun i e hi => ?_, ?_, ?_, fun h1c => ?_, fun i e hi => ?_⟩
  · obtain ⟨a, b, e1, e2, e3⟩ := z i e hi
    exact ⟨a, b, e1, e2, e3.mono (E (K := 1048578) (by linarith) (by linarith) (by have := mul_nonneg (abs_nonneg e) hY0; linarith) (by norm_num))⟩
  · refine hH.mono ?_
    have h3 := E (k := n + 2) (K := 1048578) (A := 2 * Y + 5) (C := 0.0000016) (by linarith) (by linarith) (by linarith) (by norm_num)
    have h4 := mul_le_mul_of_nonneg_left hu (abs_nonneg m.gamint)
    rw [mul_one_div] at h4
    linarith
  · exact hh.mono (E (K := 1) (by norm_num) le_rfl hY0 (by norm_num))
  · obtain ⟨a, b, e1, e2, e3⟩ := hc 0 (by omega) (by
      have : (((0:ℕ):ℝ) + 1) * (n + 2 * nc + 4) * M.u ≤ 1050580 * (1 / 2 ^ 52) := mul_le_mul (by push_cast; linarith) hu hu0 (by norm_num)
      exact this.trans (by norm_num))
    refine ⟨a, b, e1, e2, e3.mono ?_⟩
    have hl := Real.log_two_lt_d9
    have hl0 : 0 < Real.log 2 := Real.log_pos (by norm_num)
    have h3 := E (k := (((0:ℕ):ℝ) + 1) * (n + 2 * nc + 4)) (K := 1050580) (A := ((0 + 1).factorial : ℝ) * 2 ^ 0 * (Y * Real.log 2) ^ (0 + 1)) (C := 0.0000016)
      (by push_cast; linarith) (by push_cast; linarith) (by simp; positivity) (by norm_num)
    have h4 : ((0 + 1).factorial : ℝ) * 2 ^ 0 * (Y * Real.log 2) ^ (0 + 1) = Y * Real.log 2 := by simp
    rw [h4] at h3 ⊢
    have h5 : Y * Real.log 2 ≤ Y * 1 := mul_le_mul_of_nonneg_left (by linarith) hY0
    linarith
  · obtain ⟨a, b, e1, e2, e3⟩ := hhq i e hi
    exact ⟨a, b, e1, e2, e3.mono (E (K := 8388617) (by linarith) (by linarith) hY0 (by norm_num))⟩

theorem demo_logData : LogData 3 3 demo := by
  have hl : ∀ t : ℝ, 1 ≤ |t| → |t| ≤ 8 → |Real.logb 2 (|t|)| ≤ 3 := by
    intro t h1 h8
    rw [abs_of_nonneg (Real.logb_nonneg (by norm_num) h1)]
    calc Real.logb 2 (|t|) ≤ Real.logb 2 (2 ^ 3) := Real.logb_le_logb_of_le (by norm_num) (by linarith) (by norm_num; exact h8)
      _ = 3 := by rw [Real.logb_pow]; simp
  intro p hp
  refine ⟨demo_rows p hp, ?_, fun r => ⟨(demo_nonzero p hp r).1, ?_⟩⟩ <;> rw [demo_values] at hp <;>
    simp only [List.mem_cons, List.not_mem_nil, or_false] at hp
  · rcases hp with rfl | rfl <;> simp
  · rcases hp with rfl | rfl <;> simp only [col, List.map_cons, List.map_nil, List.mem_cons, List.not_mem_nil, or_false]
    · rintro x (rfl | rfl | rfl)
      · exact Or.inr ⟨1, by norm_num, rfl, hl _ (by norm_num) (by norm_num)⟩
      · by_cases h : r = 0
        · exact Or.inr ⟨-2, by norm_num, by rw [if_pos h], hl _ (by norm_num) (by norm_num)⟩
        · exact Or.inl (by rw [if_neg h])
      · exact Or.inr ⟨4, by norm_num, rfl, hl _ (by norm_num) (by norm_num)⟩
    · rintro x (rfl | rfl)
      · exact Or.inr ⟨8, by norm_num, rfl, hl _ (by norm_num) (by norm_num)⟩
      · exact Or.inr ⟨3, by norm_num, rfl, hl _ (by norm_num) (by norm_num)⟩

/-- All the hypotheses of `C124_bounds` and `C124_double` hold for the small data set (weighted regression, `ρ = 4`), on a machine that does make errors. -/
example (r : Fin 2) : Regular demo 2 ∧ LogData 3 3 demo ∧ Balanced 4 demo true 1 2 r ∧
    (Machine.inflating (1 / 2 ^ 52) (by positivity)).u ≤ 1 / 2 ^ 52 := by
  refine ⟨demo_regular, demo_logData, ?_, le_rfl⟩
  have hI : Finset.Icc 1 2 = ({1, 2} : Finset ℕ) := by decide
  have e : ∀ j : ℕ, j ∈ ({1, 2} : Finset ℕ) → scaleWeight demo true j r = if j = 1 ∧ r = 0 then 3 else 2 := by
    intro j hj
    simp only [Finset.mem_insert, Finset.mem_singleton] at hj
    fin_cases r <;> rcases hj with rfl | rfl <;>
      simp [scaleWeight, demo, MRQ.addValues, MRQ.empty, Dict.set, Dict.get?, countNotNaN, col, Fl.isNaN, dropNaN]
  intro j hj
  rw [hI] at hj ⊢
  rw [Finset.sum_pair (by norm_num), e 1 (by simp), e 2 (by simp), e j hj]
  fin_cases r <;> (simp only [Finset.mem_insert, Finset.mem_singleton] at hj; rcases hj with rfl | rfl) <;> norm_num

end

end MFA
