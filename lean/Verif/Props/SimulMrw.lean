import Verif.Props.SimulFgn

/-!
# C75: the log-volatility of the multifractal random walk, and C73 / C74 for the default method
-/

namespace MFA

open Classical Finset MeasureTheory

noncomputable section

variable {R : ℕ} {Ω : Type*} [MeasurableSpace Ω] {μ : Measure Ω} {g : Ω → ℕ → ℝ}

theorem lt_pyInt_iff {x : ℝ} (hx : 0 ≤ x) (k : ℕ) : (k : ℤ) < pyInt x ↔ (k : ℝ) + 1 ≤ x := by
  unfold pyInt
  rw [if_pos hx, Int.lt_iff_add_one_le, Int.le_floor]
  push_cast; rfl

/-- The formula of the code is the textbook covariance, with integral scale `L / dt`. -/
theorem wCov_spec {L lam dt : ℝ} (hL : 0 < L) (hdt : 0 < dt) (k : ℕ) : wCov L lam dt k = mrwLogCovariance lam (L / dt) k := by
  unfold wCov mrwLogCovariance
  have hx : 0 ≤ L / dt := by positivity
  by_cases h : (k : ℝ) + 1 ≤ L / dt
  · rw [if_pos ((lt_pyInt_iff hx k).mpr h), if_pos h]
    congr 2; field_simp
  · rw [if_neg (fun hc => h ((lt_pyInt_iff hx k).mp hc)), if_neg h, Real.log_one, mul_zero]

/-- **C75**: the covariance is the positive part of a decreasing logarithm. -/
theorem mrwLog_eq_max (lam : ℝ) {L : ℝ} (hL : 0 < L) (k : ℕ) :
    mrwLogCovariance lam L k = lam ^ 2 * max 0 (Real.log L - Real.log ((k : ℝ) + 1)) := by
  have hk : (0:ℝ) < (k : ℝ) + 1 := by positivity
  unfold mrwLogCovariance
  split
  · rename_i h
    rw [Real.log_div hL.ne' hk.ne', max_eq_right]
    exact sub_nonneg.mpr (Real.log_le_log hk h)
  · rename_i h
    rw [max_eq_left, mul_zero]
    exact sub_nonpos.mpr (Real.log_le_log hL (not_le.mp h).le)

theorem mrwLog_nonneg (lam : ℝ) {L : ℝ} (hL : 0 < L) (k : ℕ) : 0 ≤ mrwLogCovariance lam L k := by
  rw [mrwLog_eq_max lam hL]; exact mul_nonneg (sq_nonneg _) (le_max_left _ _)

theorem mrwLog_antitone (lam : ℝ) {L : ℝ} (hL : 0 < L) {k l : ℕ} (h : k ≤ l) :
    mrwLogCovariance lam L l ≤ mrwLogCovariance lam L k := by
  rw [mrwLog_eq_max lam hL, mrwLog_eq_max lam hL]
  refine mul_le_mul_of_nonneg_left (max_le_max le_rfl ?_) (sq_nonneg _)
  have hk : (0:ℝ) < (k : ℝ) + 1 := by positivity
  have : (k : ℝ) + 1 ≤ (l : ℝ) + 1 := by have : (k : ℝ) ≤ l := by exact_mod_cast h
                                         linarith
  linarith [Real.log_le_log hk this]

theorem mrwLog_convex (lam : ℝ) {L : ℝ} (hL : 0 < L) (k : ℕ) :
    2 * mrwLogCovariance lam L (k + 1) ≤ mrwLogCovariance lam L k + mrwLogCovariance lam L (k + 2) := by
  simp only [mrwLog_eq_max lam hL]
  have hk : (0:ℝ) ≤ (k : ℝ) := by positivity
  have hl : Real.log (k + 1) + Real.log (k + 3) ≤ 2 * Real.log (k + 2) := by
    rw [← Real.log_mul (by positivity) (by positivity), show (2:ℝ) * Real.log ((k:ℝ) + 2) = Real.log (((k:ℝ) + 2) ^ 2) by
      rw [Real.log_pow]; norm_num]
    exact Real.log_le_log (by positivity) (by nlinarith)
  have e1 : (((k + 1 : ℕ) : ℝ) + 1) = (k : ℝ) + 2 := by push_cast; ring
  have e2 : (((k + 2 : ℕ) : ℝ) + 1) = (k : ℝ) + 3 := by push_cast; ring
  rw [e1, e2]
  have hm : 2 * max 0 (Real.log L - Real.log ((k:ℝ) + 2))
      ≤ max 0 (Real.log L - Real.log ((k:ℝ) + 1)) + max 0 (Real.log L - Real.log ((k:ℝ) + 3)) := by
    have a1 := le_max_left 0 (Real.log L - Real.log ((k:ℝ) + 1))
    have a2 := le_max_right 0 (Real.log L - Real.log ((k:ℝ) + 1))
    have b1 := le_max_left 0 (Real.log L - Real.log ((k:ℝ) + 3))
    have b2 := le_max_right 0 (Real.log L - Real.log ((k:ℝ) + 3))
    rcases le_total 0 (Real.log L - Real.log ((k:ℝ) + 2)) with h | h
    · rw [max_eq_right h]; linarith
    · rw [max_eq_left h]; linarith
  nlinarith [sq_nonneg lam]

theorem w_no_warning {L lam dt : ℝ} (hL : 0 < L) (hdt : 0 < dt) {N : ℕ} (hN : 2 ≤ N) :
    cmeWarns ((List.range N).map (wCov L lam dt)) = false := by
  rw [cmeWarns_iff _ (by simpa using hN)]
  intro k hk
  rw [List.length_map, List.length_range] at hk
  have : wCov L lam dt = mrwLogCovariance lam (L / dt) := funext fun i => wCov_spec hL hdt i
  have hL' : 0 < L / dt := by positivity
  rw [this]
  refine polya _ hN (fun i _ => mrwLog_convex lam hL' i) ?_ ?_ k hk
  · exact mrwLog_antitone lam hL' (by omega)
  · exact sum_nonneg fun i _ => mrwLog_nonneg lam hL' _

theorem gaussianW_cme_eq {N : ℕ} {L lam dt : ℝ} (hL : 0 < L) (hdt : 0 < dt) (hLN : L / dt ≤ N) (z0 : Option (CArr R)) (g : Rng) :
    gaussianW R N L lam dt "cme" z0 g = gaussianCme ((List.range N).map (wCov L lam dt)) N z0 g := by
  unfold gaussianW
  rw [if_neg (by simp [hL, hdt]), if_neg]
  · simp
  · rintro ⟨h, -⟩
    have := (lt_pyInt_iff (by positivity) N).mp h
    linarith

/-- **C75**.  For every integral scale `0 < L / dt <= N`, every `lam` and `N >= 2`: `gaussian_w` returns without warning, and
its samples are centred with covariance `lam^2 log(L/dt/(k+1))` at lags `k < L/dt`, zero beyond. -/
theorem C75_log_covariance {N : ℕ} {L lam dt : ℝ} (hL : 0 < L) (hdt : 0 < dt) (hLN : L / dt ≤ N) (hN : 2 ≤ N) (hR : R ≠ 0)
    (hg : WhiteNoise μ g) :
    NoWarning (gaussianW R N L lam dt "cme" none) ∧
    ∃ w : Ω → RArr R, Returns (gaussianW R N L lam dt "cme" none) g w ∧
      HasCovariance μ N w (fun n m => mrwLogCovariance lam (L / dt) (Int.natAbs ((n : ℤ) - m))) := by
  set cov := (List.range N).map (wCov L lam dt) with hcov
  have hlen : cov.length = N := by simp [hcov]
  have heq : gaussianW R N L lam dt "cme" none = gaussianCme cov cov.length none := by
    funext g; rw [gaussianW_cme_eq hL hdt hLN none g, hlen]
  have hnw : NoWarning (gaussianCme (R := R) cov cov.length none) := by
    intro g s hs
    rw [gaussianCme_eq cov (by omega) g] at hs
    cases hs
    exact w_no_warning hL hdt hN
  rw [heq]
  refine ⟨hnw, ?_⟩
  obtain ⟨x, hx, hiff⟩ := C70_exact_iff_no_warning (R := R) cov (by omega) hg hR
  refine ⟨x, hx, ?_⟩
  have h := hiff.mpr hnw
  rw [hlen] at h
  refine ⟨h.length, h.integrable1, h.mean, h.integrable, ?_⟩
  intro n hn m hm r r'
  rw [h.cov n hn m hm r r', hcov, range_map_getD _ _ _ _ (by omega), wCov_spec hL hdt]

/-- **C75**: that covariance is non-negative and does not increase with the lag. -/
theorem C75_covariance_shape (lam : ℝ) {L : ℝ} (hL : 0 < L) :
    (∀ k, 0 ≤ mrwLogCovariance lam L k) ∧ (∀ k l, k ≤ l → mrwLogCovariance lam L l ≤ mrwLogCovariance lam L k) ∧
      (∀ k : ℕ, L ≤ k → mrwLogCovariance lam L k = 0) :=
  ⟨mrwLog_nonneg lam hL, fun _ _ h => mrwLog_antitone lam hL h, fun k hk => by
    unfold mrwLogCovariance; rw [if_neg (by linarith)]⟩

theorem sum_map_sub_const (l : List ℝ) (c : ℝ) : (l.map fun x => x - c).sum = l.sum - l.length * c := by
  induction l with
  | nil => simp
  | cons a l ih => simp [ih]; ring

theorem meanRow_adjust {w : RArr R} (hw : w ≠ []) (c lam L : ℝ) (r : Fin R) :
    meanRow (adjustMean c lam L w) r = -(c * lam ^ 2 * Real.log L) := by
  have hl : (w.length : ℝ) ≠ 0 := by exact_mod_cast (by simpa using hw : w.length ≠ 0)
  unfold meanRow adjustMean
  rw [List.map_map, List.length_map]
  have : (w.map ((fun row => row r) ∘ fun row r => row r - meanRow w r - c * lam ^ 2 * Real.log L)).sum
      = (((w.map fun row => row r).map fun x => x - (meanRow w r + c * lam ^ 2 * Real.log L))).sum := by
    rw [List.map_map]; congr 1; apply List.map_congr_left; intro row _; simp; ring
  rw [this, sum_map_sub_const, List.length_map]
  unfold meanRow
  field_simp
  ring

theorem sum_map_eq_range {α : Type} (l : List α) (d : α) (f : α → ℝ) :
    (l.map f).sum = ∑ n ∈ range l.length, f (l.getD n d) := by
  induction l with
  | nil => simp
  | cons a l ih => rw [List.map_cons, List.sum_cons, List.length_cons, sum_range_succ', ih]; simp [add_comm]

theorem expWalk_eq {e w : RArr R} (h : e.length = w.length) :
    expWalk e w = .ok (cumsum (List.zipWith (fun a b r => a r * Real.exp (b r)) e w)) := by
  unfold expWalk bcast
  rw [if_pos h]

theorem gaussianCme_length {cov : List ℝ} {g : Rng} {s : Sim R} (h : gaussianCme cov cov.length none g = .ok s) :
    s.x.length = cov.length ∧ 2 ≤ cov.length := by
  have h2 : 2 ≤ cov.length := by
    by_contra hc
    unfold gaussianCme at h
    split at h
    · cases h
    · rw [if_pos (by omega)] at h; cases h
  rw [gaussianCme_eq cov h2] at h
  cases h
  exact ⟨by simp, h2⟩

theorem fgn_length {N : ℕ} {H sigma : ℝ} {z0 : Option (CArr R)} {g : Rng} {s : Sim R}
    (h : fgn R N H sigma none "cme" z0 g = .ok s) : s.x.length = N := by
  unfold fgn at h
  split at h
  · cases h
  · split at h
    · cases h
    · simp only [if_true] at h
      rename_i dt _
      have h1 : gaussianCme (R := R) ((List.range N).map (fgnCov H sigma dt)) ((List.range N).map (fgnCov H sigma dt)).length none g
          = .ok s := by rw [List.length_map, List.length_range]; exact h
      have := (gaussianCme_length h1).1
      simpa using this

/-- **C75 / C73**.  For every `0 <= H <= 1`, `0 < L <= N`, `N >= 2` and every random stream, `mrw` (default method) returns
without warning.  Its increments are the samples of a fractional Gaussian noise `e` multiplied by `exp(w')`; `w'` differs from
the Gaussian process `w` of covariance `lam^2 log(L/(k+1))` by a constant in each realisation, and its empirical mean over time is
exactly `-lam^2/2 log L`. -/
theorem C75_mrw {N : ℕ} {H lam L sigma : ℝ} (h0 : 0 ≤ H) (h1 : H ≤ 1) (hL : 0 < L) (hLN : L ≤ N) (hN : 2 ≤ N) (g : Rng) :
    ∃ s w e : Sim R, ∃ w' : RArr R,
      mrw R N H lam L sigma "cme" (none, none) g = .ok s ∧ s.warned = false ∧ s.x.length = N ∧
      gaussianW R N L lam 1 "cme" none g = .ok w ∧ fgn R N H sigma none "cme" none w.rng = .ok e ∧
      w'.length = N ∧
      (∀ r, ∃ c, ∀ n < N, (w'.getD n fun _ => 0) r = (w.x.getD n fun _ => 0) r - c) ∧
      (∀ r, (∑ n ∈ range N, (w'.getD n fun _ => 0) r) / N = -(lam ^ 2 / 2 * Real.log L)) ∧
      (∀ r, (s.x.getD 0 fun _ => 0) r = (e.x.getD 0 fun _ => 0) r * Real.exp ((w'.getD 0 fun _ => 0) r)) ∧
      (∀ n, n + 1 < N → ∀ r, (s.x.getD (n + 1) fun _ => 0) r - (s.x.getD n fun _ => 0) r
        = (e.x.getD (n + 1) fun _ => 0) r * Real.exp ((w'.getD (n + 1) fun _ => 0) r)) := by
  have hN0 : N ≠ 0 := by omega
  have hlen : ((List.range N).map (wCov L lam 1)).length = N := by simp
  have hw := gaussianW_cme_eq (R := R) (lam := lam) hL one_pos (by simpa using hLN) none g
  have hwc := gaussianCme_eq (R := R) ((List.range N).map (wCov L lam 1)) (by omega) g
  rw [hlen] at hwc
  rw [hwc] at hw
  set w : Sim R := _ with hwdef
  change _ = Except.ok w at hw
  have hwlen : w.x.length = N := by simp [hwdef]
  have hww : w.warned = false := w_no_warning hL one_pos hN
  have hflen : ((List.range N).map (fgnCov H sigma (effStep none N))).length = N := by simp
  have hf := fgn_cme_eq (R := R) (N := N) (H := H) (sigma := sigma) (dt := none) none h0 h1 hN0 (by simp) w.rng
  have hfc := gaussianCme_eq (R := R) ((List.range N).map (fgnCov H sigma (effStep none N))) (by omega) w.rng
  rw [hflen] at hfc
  rw [hfc] at hf
  set e : Sim R := _ with hedef
  change _ = Except.ok e at hf
  have helen : e.x.length = N := by simp [hedef]
  have hew : e.warned = false := fgn_no_warning h0 h1 (fgnDt_eq (dt := none) hN0 (by simp)).2 hN
  have hne : w.x ≠ [] := by intro hc; rw [hc] at hwlen; simp at hwlen; omega
  set w' := adjustMean (1 / 2) lam L w.x with hw'
  have hw'len : w'.length = N := by rw [hw', adjustMean, List.length_map, hwlen]
  have hwalk := expWalk_eq (e := e.x) (w := w') (by rw [helen, hw'len])
  set y := List.zipWith (fun (a b : Fin R → ℝ) r => a r * Real.exp (b r)) e.x w' with hy
  have hylen : y.length = N := by rw [hy, List.length_zipWith, helen, hw'len, min_self]
  have hyget : ∀ n < N, ∀ r, (y.getD n fun _ => 0) r = (e.x.getD n fun _ => 0) r * Real.exp ((w'.getD n fun _ => 0) r) := by
    intro n hn r
    rw [List.getD_eq_getElem?_getD, hy, List.getElem?_zipWith, List.getElem?_eq_getElem (by rw [helen]; exact hn),
      List.getElem?_eq_getElem (by rw [hw'len]; exact hn), List.getD_eq_getElem?_getD, List.getD_eq_getElem?_getD,
      List.getElem?_eq_getElem (by rw [helen]; exact hn), List.getElem?_eq_getElem (by rw [hw'len]; exact hn)]
    simp
  have hxget : ∀ n < N, ∀ r, ((cumsum y).getD n fun _ => 0) r = ∑ k ∈ range (n + 1), (y.getD k fun _ => 0) r :=
    fun n hn r => cumsum_getD y n (by rw [hylen]; exact hn) r
  refine ⟨{ x := cumsum y, warned := w.warned || e.warned, rng := e.rng }, w, e, w', ?_, ?_, ?_, hw, hf, hw'len, ?_, ?_, ?_, ?_⟩
  · unfold mrw
    rw [if_neg (by simp [h0, h1]), if_neg (not_lt.mpr hLN), hw]
    simp only []
    rw [hf]
    simp only []
    rw [← hw', hwalk]
  · simp [hww, hew]
  · simp [cumsum_length, hylen]
  · intro r
    refine ⟨meanRow w.x r + 1 / 2 * lam ^ 2 * Real.log L, fun n hn => ?_⟩
    rw [hw', adjustMean, List.getD_eq_getElem?_getD, List.getElem?_map, List.getD_eq_getElem?_getD,
      List.getElem?_eq_getElem (by rw [hwlen]; exact hn)]
    simp; ring
  · intro r
    have := meanRow_adjust hne (1 / 2) lam L r
    rw [← hw', meanRow, hw'len] at this
    have hsum : (w'.map fun row => row r).sum = ∑ n ∈ range N, (w'.getD n fun _ => 0) r := by
      rw [sum_map_eq_range w' (fun _ => 0) (fun row => row r), hw'len]
    rw [← hsum, this]; ring
  · intro r
    rw [hxget 0 (by omega), sum_range_one, hyget 0 (by omega)]
  · intro n hn r
    rw [hxget (n + 1) hn, hxget n (by omega), sum_range_succ, hyget (n + 1) hn]; ring

/-- **C75**: `mrw_cumul(c1, c2)` is `mrw` with the `H`, `lam` for which `c1 = H + lam^2` and `c2 = -lam^2`. -/
theorem C75_cumulants (N : ℕ) {c1 c2 L sigma : ℝ} (hc : c2 ≤ 0) (method : String)
    (z0 : Option (CArr R) × Option (CArr R)) (g : Rng) :
    ∃ H lam, mrwCumul R N c1 c2 L sigma method z0 g = mrw R N H lam L sigma method z0 g ∧
      c1 = H + lam ^ 2 ∧ c2 = -lam ^ 2 := by
  refine ⟨c1 + c2, Real.sqrt (-c2), ?_, ?_, ?_⟩
  · unfold mrwCumul; rw [if_neg (not_lt.mpr hc)]
  · rw [Real.sq_sqrt (by linarith)]; ring
  · rw [Real.sq_sqrt (by linarith)]; ring

end

end MFA
