import Verif.Props.SimulChol
import Verif.Props.SimulArgs

/-! # C113: `mrw(method='chol')` and its log-volatility -/

namespace MFA

open Classical Finset MeasureTheory Matrix

noncomputable section

variable {R : ℕ} {Ω : Type*} [MeasurableSpace Ω] {μ : Measure Ω} {g : Ω → ℕ → ℝ}

theorem mrwLog_zero {lam L : ℝ} (hL : 1 < L) (hlam : lam ≠ 0) : 0 < mrwLogCovariance lam L 0 := by
  rw [mrwLog_eq_max lam (by linarith)]
  have : 0 < Real.log L := Real.log_pos hL
  have h2 : 0 < lam ^ 2 := by positivity
  refine mul_pos h2 (lt_max_of_lt_right ?_)
  simpa using this

theorem mrwLog_strict {lam L : ℝ} (hL : 1 < L) (hlam : lam ≠ 0) :
    mrwLogCovariance lam L 1 < mrwLogCovariance lam L 0 ∧
    2 * mrwLogCovariance lam L 1 < mrwLogCovariance lam L 0 + mrwLogCovariance lam L 2 := by
  have h2 : 0 < lam ^ 2 := by positivity
  have hlog : 0 < Real.log L := Real.log_pos hL
  have l2 : 0 < Real.log 2 := Real.log_pos (by norm_num)
  have l3 : Real.log 3 < 2 * Real.log 2 := by
    rw [show (2:ℝ) * Real.log 2 = Real.log (2 ^ 2) by rw [Real.log_pow]; norm_num]
    exact Real.log_lt_log (by norm_num) (by norm_num)
  simp only [mrwLog_eq_max lam (by linarith : 0 < L)]
  have e0 : Real.log (((0 : ℕ) : ℝ) + 1) = 0 := by simp
  have e1 : Real.log (((1 : ℕ) : ℝ) + 1) = Real.log 2 := by norm_num
  have e2 : Real.log (((2 : ℕ) : ℝ) + 1) = Real.log 3 := by norm_num
  rw [e0, e1, e2, sub_zero, max_eq_right hlog.le]
  constructor
  · refine mul_lt_mul_of_pos_left (max_lt hlog (by linarith)) h2
  · have : 2 * max 0 (Real.log L - Real.log 2) < Real.log L + max 0 (Real.log L - Real.log 3) := by
      rcases le_total (Real.log L - Real.log 2) 0 with h | h
      · rw [max_eq_left h]; linarith [le_max_left 0 (Real.log L - Real.log 3)]
      · rw [max_eq_right h]; linarith [le_max_right 0 (Real.log L - Real.log 3)]
    nlinarith

theorem w_posDef {L lam dt : ℝ} (hL : 0 < L) (hdt : 0 < dt) (h1 : 1 < L / dt) (hlam : lam ≠ 0) {N : ℕ} (hN : 2 ≤ N) :
    (toeplitz ((List.range N).map (wCov L lam dt))).PosDef := by
  have hL' : 0 < L / dt := by positivity
  have hfun : wCov L lam dt = mrwLogCovariance lam (L / dt) := funext fun i => wCov_spec hL hdt i
  rw [hfun]
  refine toeplitz_posDef _ (by simpa using hN) fun k hk => ?_
  rw [List.length_map, List.length_range] at hk
  refine polya_strict _ hN (fun i _ _ => mrwLog_convex lam hL' i) (fun _ => (mrwLog_strict h1 hlam).2) (mrwLog_strict h1 hlam).1
    (fun _ => mrwLog_antitone lam hL' (by omega)) ?_ k hk
  obtain ⟨m, rfl⟩ : ∃ m, N = m + 2 := ⟨N - 2, by omega⟩
  rw [evenExt_sum]
  have := mrwLog_zero h1 hlam
  have h3 := mrwLog_nonneg lam hL' (m + 1)
  have h4 : 0 ≤ ∑ i ∈ range m, mrwLogCovariance lam (L / dt) (i + 1) := sum_nonneg fun i _ => mrwLog_nonneg lam hL' _
  linarith

theorem w_singular {L lam dt : ℝ} (hL : 0 < L) (hdt : 0 < dt) (h : ¬ (1 < L / dt ∧ lam ≠ 0)) {N : ℕ} (hN : 2 ≤ N) :
    ¬ (toeplitz ((List.range N).map (wCov L lam dt))).PosDef := by
  intro hA
  have hL' : 0 < L / dt := by positivity
  have hz : wCov L lam dt 0 = 0 := by
    rw [wCov_spec hL hdt, mrwLog_eq_max lam hL']
    by_cases hl : lam = 0
    · simp [hl]
    · have h1 : L / dt ≤ 1 := not_lt.1 fun hc => h ⟨hc, hl⟩
      have : Real.log (L / dt) ≤ 0 := Real.log_nonpos hL'.le h1
      rw [max_eq_left (by simpa using this), mul_zero]
  have := hA.diag_pos (i := (⟨0, by simp; omega⟩ : Fin ((List.range N).map (wCov L lam dt)).length))
  simp only [toeplitz, sub_self, Int.natAbs_zero] at this
  rw [range_map_getD _ _ _ _ (by omega), hz] at this
  exact lt_irrefl _ this

theorem gaussianW_chol_eq {N : ℕ} {L lam dt : ℝ} (hL : 0 < L) (hdt : 0 < dt) (hLN : L / dt ≤ N) (z0 : Option (CArr R)) (g : Rng) :
    gaussianW R N L lam dt "chol" z0 g = gaussianChol ((List.range N).map (wCov L lam dt)) N z0 g := by
  unfold gaussianW
  rw [if_neg (by simp [hL, hdt]), if_neg]
  · simp
  · rintro ⟨h, -⟩
    have := (lt_pyInt_iff (by positivity) N).mp h
    linarith

/-- **C113**, the log-volatility: for `0 < L/dt <= N`, `gaussian_w(method='chol')` returns iff `lam /= 0` and `L/dt > 1`
(otherwise LinAlgError); and then the samples have the covariance of the default method iff `L/dt <= 2`, that is when they are
uncorrelated. -/
theorem C113_log_volatility {N : ℕ} {L lam dt : ℝ} (hL : 0 < L) (hdt : 0 < dt) (hLN : L / dt ≤ N) (hN : 2 ≤ N) (hR : R ≠ 0)
    (hg : WhiteNoise μ g) :
    (1 < L / dt → lam ≠ 0 → ∃ w : Ω → RArr R, Returns (gaussianW R N L lam dt "chol" none) g w ∧
      (HasCovariance μ N w (fun n m => mrwLogCovariance lam (L / dt) (Int.natAbs ((n : ℤ) - m))) ↔ L / dt ≤ 2)) ∧
    (¬ (1 < L / dt ∧ lam ≠ 0) → ∀ g' : Rng, gaussianW R N L lam dt "chol" none g' = .error .linAlgError) := by
  obtain ⟨cov, hcov⟩ : ∃ cov, cov = (List.range N).map (wCov L lam dt) := ⟨_, rfl⟩
  have hlen : cov.length = N := by simp [hcov]
  have hne : cov ≠ [] := by intro hc; rw [hc] at hlen; simp at hlen; omega
  have heq : gaussianW R N L lam dt "chol" none = gaussianChol cov cov.length none := by
    funext g; rw [gaussianW_chol_eq hL hdt hLN none g, hlen, hcov]
  have hL' : 0 < L / dt := by positivity
  have hget : ∀ k < N, cov.getD k 0 = mrwLogCovariance lam (L / dt) k := fun k hk => by
    rw [hcov, range_map_getD _ _ _ _ hk, wCov_spec hL hdt]
  constructor
  · intro h1 hlam
    have hA := w_posDef hL hdt h1 hlam hN
    rw [← hcov] at hA
    obtain ⟨x, hx, hiff⟩ := C71_exact_iff_uncorrelated (R := R) cov hne hA hg hR
    rw [heq]
    refine ⟨x, hx, ?_⟩
    have hcongr : HasCovariance μ N x (fun n m => mrwLogCovariance lam (L / dt) (Int.natAbs ((n : ℤ) - m)))
        ↔ HasCovariance μ cov.length x (fun n m => cov.getD (Int.natAbs ((n : ℤ) - m)) 0) := by
      rw [hlen]
      constructor <;> intro h <;> refine ⟨h.length, h.integrable1, h.mean, h.integrable, ?_⟩ <;> intro n hn m hm r r' <;>
        rw [h.cov n hn m hm r r', hget _ (by omega)]
    rw [hcongr, hiff]
    have h2 : 0 < lam ^ 2 := by positivity
    constructor
    · intro h
      have := h 1 le_rfl (by omega)
      rw [hget 1 (by omega), mrwLog_eq_max lam hL', mul_eq_zero] at this
      have h3 := this.resolve_left h2.ne'
      have h4 : Real.log (L / dt) ≤ Real.log 2 := by
        have := max_eq_left_iff.1 h3
        norm_num at this
        linarith
      exact (Real.log_le_log_iff hL' (by norm_num)).1 h4
    · intro h k hk1 hk
      rw [hget k (by omega), mrwLog_eq_max lam hL', max_eq_left, mul_zero]
      have hk' : (2:ℝ) ≤ (k : ℝ) + 1 := by have : (1:ℝ) ≤ k := by exact_mod_cast hk1
                                           linarith
      have := Real.log_le_log hL' (h.trans hk')
      linarith
  · intro h g'
    have hA := w_singular hL hdt h hN
    rw [← hcov] at hA
    rw [heq]
    exact (C71_returns_iff (R := R) cov hne g').2 hA

/-- **C113**.  `mrw(method='chol')` (without supplied noise, `0 <= H <= 1`, `0 < L <= N`, `N >= 2`) returns exactly when
`0 < H < 1`, `sigma /= 0`, `lam /= 0` and `L > 1`; otherwise LinAlgError is raised, in particular for `lam = 0`, where the default
method returns a fractional Brownian motion.  When it returns, its increments are those of `fgn(method='chol')` times the
exponential of the log-volatility of `gaussian_w(method='chol')`, centred over time and shifted by `-lam^2/2 log L`. -/
theorem C113_mrw {N : ℕ} {H lam L sigma : ℝ} (h0 : 0 ≤ H) (h1 : H ≤ 1) (hL : 0 < L) (hLN : L ≤ N) (hN : 2 ≤ N) (g : Rng) :
    ((0 < H ∧ H < 1) ∧ sigma ≠ 0 ∧ lam ≠ 0 ∧ 1 < L →
      ∃ s w e : Sim R, mrw R N H lam L sigma "chol" (none, none) g = .ok s ∧ s.warned = false ∧ s.x.length = N ∧
        gaussianW R N L lam 1 "chol" none g = .ok w ∧ fgn R N H sigma none "chol" none w.rng = .ok e ∧
        ∀ n < N, ∀ r, (s.x.getD n fun _ => 0) r = ∑ k ∈ range (n + 1), (e.x.getD k fun _ => 0) r *
          Real.exp ((w.x.getD k fun _ => 0) r - (∑ i ∈ range N, (w.x.getD i fun _ => 0) r) / N - lam ^ 2 / 2 * Real.log L)) ∧
    (¬ ((0 < H ∧ H < 1) ∧ sigma ≠ 0 ∧ lam ≠ 0 ∧ 1 < L) →
      mrw R N H lam L sigma "chol" (none, none) g = .error .linAlgError) := by
  have hN0 : N ≠ 0 := by omega
  have hLN' : L / 1 ≤ N := by simpa using hLN
  obtain ⟨cov, hcov⟩ : ∃ cov, cov = (List.range N).map (wCov L lam 1) := ⟨_, rfl⟩
  have hlen : cov.length = N := by simp [hcov]
  have hne : cov ≠ [] := by intro hc; rw [hc] at hlen; simp at hlen; omega
  have heq : ∀ g, gaussianW R N L lam 1 "chol" none g = gaussianChol cov cov.length none g := by
    intro g; rw [gaussianW_chol_eq hL one_pos hLN' none g, hlen, hcov]
  by_cases hw : 1 < L ∧ lam ≠ 0
  · have hA := w_posDef (dt := 1) hL one_pos (by simpa using hw.1) hw.2 hN
    rw [← hcov] at hA
    obtain ⟨U, -, hU⟩ := gaussianChol_ok (R := R) hne hA
    have hUg := hU g
    rw [← heq g] at hUg
    obtain ⟨w, hwdef⟩ : ∃ w : Sim R, w = { x := List.ofFn fun (i : Fin cov.length) (r : Fin R) => ∑ j : Fin cov.length, U i j * g ((j : ℕ) * R + r), warned := false, rng := g.skip (cov.length * R) } := ⟨_, rfl⟩
    rw [← hwdef] at hUg
    have hwlen : w.x.length = N := by rw [hwdef]; simp [hlen]
    have hww : w.warned = false := by rw [hwdef]
    by_cases hf : (0 < H ∧ H < 1) ∧ sigma ≠ 0
    · refine ⟨fun _ => ?_, fun h => absurd ⟨hf.1, hf.2, hw.2, hw.1⟩ h⟩
      have hstep := (fgnDt_eq (dt := none) hN0 (by simp)).2
      have hB := fgn_posDef hf.1.1 hf.1.2 hf.2 hstep hN
      obtain ⟨cf, hcf⟩ : ∃ cf, cf = (List.range N).map (fgnCov H sigma (effStep none N)) := ⟨_, rfl⟩
      have hflen : cf.length = N := by simp [hcf]
      rw [← hcf] at hB
      obtain ⟨V, -, hV⟩ := gaussianChol_ok (R := R) (cov := cf) (by intro hc; rw [hc] at hflen; simp at hflen; omega) hB
      have hfe := fgn_chol_eq (R := R) (N := N) (H := H) (sigma := sigma) (dt := none) none h0 h1 hN0 (by simp) w.rng
      rw [← hcf, show gaussianChol cf N none w.rng = gaussianChol cf cf.length none w.rng by rw [hflen], hV w.rng] at hfe
      obtain ⟨e, hedef⟩ : ∃ e : Sim R, .ok e = fgn R N H sigma none "chol" none w.rng ∧ e.x.length = N ∧ e.warned = false :=
        ⟨_, hfe.symm, by simp [hflen], rfl⟩
      obtain ⟨hf1, helen, hew⟩ := hedef
      have hwne : w.x ≠ [] := by intro hc; rw [hc] at hwlen; simp at hwlen; omega
      obtain ⟨w', hw'⟩ : ∃ w', w' = adjustMean (1 / 2) lam L w.x := ⟨_, rfl⟩
      have hw'len : w'.length = N := by rw [hw', adjustMean, List.length_map, hwlen]
      have hwalk := expWalk_eq (e := e.x) (w := w') (by rw [helen, hw'len])
      refine ⟨{ x := cumsum (List.zipWith (fun (a b : Fin R → ℝ) r => a r * Real.exp (b r)) e.x w'), warned := w.warned || e.warned, rng := e.rng }, w, e, ?_, by simp [hww, hew], ?_, hUg, hf1.symm, ?_⟩
      · unfold mrw
        rw [if_neg (by simp [h0, h1]), if_neg (not_lt.mpr hLN), hUg]
        simp only []
        rw [← hf1]
        simp only []
        rw [← hw', hwalk]
      · simp [cumsum_length, helen, hw'len]
      · intro n hn r
        rw [cumsum_getD _ _ (by rw [List.length_zipWith, helen, hw'len, min_self]; exact hn)]
        refine sum_congr rfl fun k hk => ?_
        have hkN : k < N := by have : k < n + 1 := mem_range.1 hk
                               omega
        have hmean : meanRow w.x r = (∑ i ∈ range N, (w.x.getD i fun _ => 0) r) / N := by
          rw [meanRow, sum_map_eq_range w.x (fun _ => 0), hwlen]
        have he : e.x[k]? = some (e.x[k]'(by rw [helen]; exact hkN)) := List.getElem?_eq_getElem _
        have hwk : w.x[k]? = some (w.x[k]'(by rw [hwlen]; exact hkN)) := List.getElem?_eq_getElem _
        rw [← hmean]
        simp only [List.getD_eq_getElem?_getD, List.getElem?_zipWith, hw', adjustMean, List.getElem?_map, he, hwk, Option.map_some,
          Option.getD_some]
        ring_nf
    · refine ⟨fun h => absurd ⟨h.1, h.2.1⟩ hf, fun _ => ?_⟩
      have hsing : H = 0 ∨ H = 1 ∨ sigma = 0 := by
        by_contra hc
        push Not at hc
        exact hf ⟨⟨lt_of_le_of_ne h0 (Ne.symm hc.1), lt_of_le_of_ne h1 hc.2.1⟩, hc.2.2⟩
      have := C71_fgn_singular (R := R) (dt := none) hsing h0 h1 hN (by simp) w.rng
      unfold mrw
      rw [if_neg (by simp [h0, h1]), if_neg (not_lt.mpr hLN), hUg]
      simp only []
      rw [this]
  · refine ⟨fun h => absurd ⟨h.2.2.2, h.2.2.1⟩ hw, fun _ => ?_⟩
    have hA := w_singular (dt := 1) hL one_pos (by simpa using hw) hN
    rw [← hcov] at hA
    have := (C71_returns_iff (R := R) cov hne g).2 hA
    unfold mrw
    rw [if_neg (by simp [h0, h1]), if_neg (not_lt.mpr hLN), heq, this]

/-- C113 on concrete calls: one that returns and one that does not, although the default method would. -/
example (g : Rng) : (∃ s, mrw 2 1024 (7 / 10) (1 / 5) 512 1 "chol" (none, none) g = .ok s) ∧
    mrw 2 1024 (7 / 10) 0 512 1 "chol" (none, none) g = .error .linAlgError := by
  constructor
  · obtain ⟨s, _, _, h, _⟩ := (C113_mrw (R := 2) (N := 1024) (H := 7 / 10) (lam := 1 / 5) (L := 512) (sigma := 1) (by norm_num)
      (by norm_num) (by norm_num) (by norm_num) (by norm_num) g).1 (by norm_num)
    exact ⟨s, h⟩
  · exact (C113_mrw (by norm_num) (by norm_num) (by norm_num) (by norm_num) (by norm_num) g).2 (by norm_num)

end

end MFA
