import Verif.Spec.PowerLaw
import Verif.Lemmas.Ergodic
import Verif.Lemmas.GaussMoments
import Verif.Props.Selfsimilar

/-!
# Laws of large numbers for the wavelet coefficients of a self-similar Gaussian signal
-/

namespace MFA

universe u

open Classical Finset MeasureTheory ProbabilityTheory

noncomputable section

variable {wt : Wavelet}

theorem log_ratio_bound {v W e m : ℝ} (hW : 0 < W) (h1 : |v - W| ≤ W * e) (hm : 0 < m) (h2 : m * W ≤ v) :
    |Real.log v - Real.log W| ≤ e * (1 + 1 / m) := by
  have he : 0 ≤ e := by
    by_contra h
    push Not at h
    have := (abs_nonneg _).trans h1
    nlinarith
  have hv : 0 < v := lt_of_lt_of_le (by positivity) h2
  have hu : 0 < v / W := by positivity
  have hmu : m ≤ v / W := by rw [le_div_iff₀ hW]; exact h2
  have h3 : |v / W - 1| ≤ e := by
    rw [show v / W - 1 = (v - W) / W by field_simp, abs_div, abs_of_pos hW, div_le_iff₀ hW]; linarith
  rw [← Real.log_div hv.ne' hW.ne']
  have a := Real.log_le_sub_one_of_pos hu
  have b := Real.log_le_sub_one_of_pos (inv_pos.2 hu)
  rw [Real.log_inv] at b
  have hd : 0 < 1 / m := by positivity
  rw [abs_le]
  obtain ⟨c1, c2⟩ := abs_le.1 h3
  constructor
  · have : (v / W)⁻¹ - 1 ≤ e * (1 / m) := by
      rw [show (v / W)⁻¹ - 1 = (1 - v / W) * (v / W)⁻¹ by field_simp]
      rcases le_total 0 (1 - v / W) with hh | hh
      · refine mul_le_mul (by linarith) ?_ (by positivity) he
        rw [one_div]; exact inv_anti₀ hm hmu
      · have : (1 - v / W) * (v / W)⁻¹ ≤ 0 := mul_nonpos_of_nonpos_of_nonneg hh (by positivity)
        have : 0 ≤ e * (1 / m) := by positivity
        linarith
    nlinarith
  · have : 0 ≤ e * (1 / m) := by positivity
    nlinarith

/-- From a power law with a lower bound to the logarithms. -/
theorem scaling_law {U : ℕ → ℝ} {V C c h β : ℝ} (hV : 0 < V) (hC : 0 ≤ C) (hc : 0 < c)
    (hA : ∀ i, |U i - V * ((2:ℝ) ^ (1 + 2 * h)) ^ i| ≤ C * ((2:ℝ) ^ (1 + 2 * h - 2 * β)) ^ i) (hL : ∀ i, c * ((2:ℝ) ^ (1 + 2 * h)) ^ i ≤ U i) :
    ∃ V B : ℝ, 0 < V ∧ 0 ≤ B ∧ ∀ i : ℕ, 0 < U i ∧
      |Real.logb 2 (U i) - (Real.logb 2 V + ((i : ℝ) + 1) * (1 + 2 * h))| ≤ B * (2:ℝ) ^ (-(2 * β * ((i : ℝ) + 1))) := by
  have two : (0:ℝ) < 2 := by norm_num
  have hl : 0 < Real.log 2 := Real.log_pos (by norm_num)
  refine ⟨V / (2:ℝ) ^ (1 + 2 * h), C / V * (1 + 1 / (c / V)) / Real.log 2 * (2:ℝ) ^ (2 * β), by positivity, by positivity, fun i => ?_⟩
  have e0 : ((2:ℝ) ^ (1 + 2 * h)) ^ i = (2:ℝ) ^ ((i : ℝ) * (1 + 2 * h)) := by
    rw [← Real.rpow_natCast, ← Real.rpow_mul two.le, mul_comm]
  have e1 : ((2:ℝ) ^ (1 + 2 * h - 2 * β)) ^ i = (2:ℝ) ^ ((i : ℝ) * (1 + 2 * h)) * (2:ℝ) ^ (-(2 * β * (i : ℝ))) := by
    rw [← Real.rpow_natCast, ← Real.rpow_mul two.le, ← Real.rpow_add two]; congr 1; ring
  have e2 : (2:ℝ) ^ (-(2 * β * (i : ℝ))) = (2:ℝ) ^ (2 * β) * (2:ℝ) ^ (-(2 * β * ((i : ℝ) + 1))) := by
    rw [← Real.rpow_add two]; congr 1; ring
  have hA := hA i
  have hL := hL i
  rw [e0] at hA hL
  rw [e1] at hA
  have hP : (0:ℝ) < (2:ℝ) ^ ((i : ℝ) * (1 + 2 * h)) := by positivity
  have hlogP : Real.log ((2:ℝ) ^ ((i : ℝ) * (1 + 2 * h))) = (i : ℝ) * (1 + 2 * h) * Real.log 2 := Real.log_rpow two _
  generalize (2:ℝ) ^ ((i : ℝ) * (1 + 2 * h)) = P at *
  have hU : 0 < U i := lt_of_lt_of_le (by positivity) hL
  refine ⟨hU, ?_⟩
  have hb := log_ratio_bound (v := U i) (W := V * P) (e := C / V * (2:ℝ) ^ (-(2 * β * (i : ℝ)))) (m := c / V) (by positivity)
    (hA.trans (le_of_eq (by field_simp))) (by positivity) (by rw [show c / V * (V * P) = c * P by field_simp]; exact hL)
  have e : Real.logb 2 (U i) - (Real.logb 2 (V / (2:ℝ) ^ (1 + 2 * h)) + ((i : ℝ) + 1) * (1 + 2 * h)) = (Real.log (U i) - Real.log (V * P)) / Real.log 2 := by
    rw [Real.log_mul hV.ne' hP.ne', hlogP]
    unfold Real.logb
    rw [Real.log_div hV.ne' (by positivity), Real.log_rpow two]
    field_simp
    ring
  rw [e, abs_div, abs_of_pos hl, div_le_iff₀ hl]
  refine hb.trans (le_of_eq ?_)
  rw [e2]
  field_simp

/-- What is needed of the function `G`: the variance of the details follows a power law of exponent `1 + 2h`, up to a relative error
`2^(-2βj)`, and their covariances decay fast enough to be square summable. -/
structure ScalingKernel (wt : Wavelet) (G : ℤ → ℝ) (h β : ℝ) : Prop where
  pos : 0 < β
  law : ∃ V B : ℝ, 0 < V ∧ 0 ≤ B ∧ ∀ i : ℕ, 0 < -dblDetail wt G i ∧
    |Real.logb 2 (-dblDetail wt G i) - (Real.logb 2 V + ((i : ℝ) + 1) * (1 + 2 * h))| ≤ B * (2:ℝ) ^ (-(2 * β * ((i : ℝ) + 1)))
  decay : ∀ j : ℕ, 1 ≤ j → ∃ (T : ℤ → ℝ) (C e : ℝ), 0 ≤ C ∧ 2 * e < -1 ∧ (∀ n : ℤ, |T n| ≤ C * (1 + |(n : ℝ)|) ^ e) ∧
    ∀ k k' : ℤ, idealDetail wt (fun s => idealDetail wt (fun t => G (s - t)) j k') j k = T (k * 2 ^ j - k' * 2 ^ j)

/-- Power laws, `0 < H < 1`. -/
theorem powerLaw_kernel {M : ℕ} (hM : VanishingMoments wt.dec_hi M) (hM1 : 1 ≤ M) (hwt : wt.Valid) (ho : OrthonormalBank wt) {H : ℝ}
    (h0 : 0 < H) (h1 : H < 1) (hH : 4 * H - 4 * M < -1) : ScalingKernel wt (fun n => |(n : ℝ)| ^ (2 * H)) H H := by
  have hlo := orthonormal_sum ho hM hM1
  have hhi := orthonormal_hi_ne ho
  have hMr : (1:ℝ) ≤ M := by exact_mod_cast hM1
  refine ⟨h0, ?_, fun j hj => ?_⟩
  · obtain ⟨V, C, hV, hC, hA⟩ := dblDetail_asymptotic hwt ho hM hM1 hlo hhi (a := 2 * H) (by linarith) (by linarith)
    obtain ⟨c, hc, hL⟩ := dblDetail_lower hM hM1 hlo hhi (a := 2 * H) (by linarith) (by linarith)
    refine scaling_law (β := H) hV hC hc (fun i => ?_) hL
    rw [show 1 + 2 * H - 2 * H = 1 by ring, Real.rpow_one]
    exact hA i
  · obtain ⟨T, ⟨C, hC, hT⟩, hd⟩ := detail_decay hM (a := 2 * H) (by linarith) hj hj
    exact ⟨T, C, _, hC, by linarith, hT, hd⟩

theorem PowerLawAnalysis.toIncrement {Ω : Type u} [MeasurableSpace Ω] {μ : Measure Ω} {H c g nm : ℝ} {R N : ℕ} {x : Ω → List (Fin R → ℝ)} {w : Ω → WT R}
    (h : PowerLawAnalysis μ wt H c g nm N x w) : IncrementAnalysis μ wt (fun n => |(n : ℝ)| ^ (2 * H)) c g nm N x w := by
  obtain ⟨A, hA⟩ := h.signal
  refine ⟨⟨A, ?_⟩, h.analysis⟩
  have e : (fun n m : ℕ => A n + A m - c * |(((n : ℤ) - m : ℤ) : ℝ)| ^ (2 * H)) = fun n m : ℕ => A n + A m - c * |(n : ℝ) - m| ^ (2 * H) := by
    funext n m; push_cast; rfl
  rw [e]; exact hA

section inst

variable {Ω : Type u} [MeasurableSpace Ω] {μ : Measure Ω} {G : ℤ → ℝ} {c g nm : ℝ} {R N : ℕ} {x : Ω → List (Fin R → ℝ)} {w : Ω → WT R}

theorem IncrementAnalysis.prob (h : IncrementAnalysis μ wt G c g nm N x w) : IsProbabilityMeasure μ := by
  obtain ⟨A, hA⟩ := h.signal
  exact hA.gaussian.isProbabilityMeasure

theorem IncrementAnalysis.sampled (h : IncrementAnalysis μ wt G c g nm N x w) : ∃ (p : PExp) (j1 : ℤ) (j2 : Option ℝ) (weighted : Bool),
    ∀ ω, waveletAnalysis (sampled N fun r t => ((x ω).getD t.toNat fun _ => 0) r) p wt j1 j2 g nm weighted = .ok (w ω) := by
  obtain ⟨A, hA⟩ := h.signal
  obtain ⟨p, j1, j2, weighted, hw⟩ := h.analysis
  exact ⟨p, j1, j2, weighted, fun ω => by rw [← asFloats_sampled (hA.length ω)]; exact hw ω⟩

theorem IncrementAnalysis.scales (h : IncrementAnalysis μ wt G c g nm N x w) (hwt : wt.Valid) (hR : R ≠ 0) (ω ω' : Ω) :
    (w ω).wt_coefs.values.length = (w ω').wt_coefs.values.length := by
  obtain ⟨p, j1, j2, weighted, h0⟩ := h.sampled
  have := (C07_data_independent hR hR hwt hwt rfl (h0 ω) (h0 ω')).2.2.1
  have h2 := congrArg List.length this
  simpa [Dict.keys] using h2

theorem IncrementAnalysis.reported (h : IncrementAnalysis μ wt G c g nm N x w) (hwt : wt.Valid) {ω : Ω} {j k : ℕ} (hj : 1 ≤ j)
    (hjl : j ≤ (w ω).wt_coefs.values.length) (hk : k ∈ interior N wt.dec_hi.length j) (r : Fin R) : (w ω).wt_coefs.Reported j k r := by
  obtain ⟨p, j1, j2, weighted, h0⟩ := h.sampled
  exact interior_reported hwt (h0 ω) hj hjl hk r

theorem IncrementAnalysis.card (h : IncrementAnalysis μ wt G c g nm N x w) (hwt : wt.Valid) (hR : R ≠ 0) {ω : Ω} {j : ℕ} (hj : 1 ≤ j)
    (hjl : j ≤ (w ω).wt_coefs.values.length) : 3 ≤ (interior N wt.dec_hi.length j).card := by
  obtain ⟨p, j1, j2, weighted, h0⟩ := h.sampled
  exact interior_card hwt hR (h0 ω) hj hjl

theorem IncrementAnalysis.pair (h : IncrementAnalysis μ wt G c g nm N x w) (hwt : wt.Valid) {ω₀ : Ω} {j i k : ℕ} {r : Fin R}
    (hi : (w ω₀).wt_coefs.Reported j i r) (hk : (w ω₀).wt_coefs.Reported j k r) :
    HasGaussianLaw (fun ω (a : Fin 2) => (![fun ω => (w ω).wt_coefs.number j i r, fun ω => (w ω).wt_coefs.number j k r] a) ω) μ := by
  obtain ⟨A, hA⟩ := h.signal
  obtain ⟨p, j1, j2, weighted, hw⟩ := h.analysis
  have := coefs_gaussian hwt hA hw (ω₀ := ω₀) (κ := Fin 2) ![(j, i, r), (j, k, r)] (by intro a; fin_cases a; exacts [hi, hk])
  have e : (fun ω (a : Fin 2) => (![fun ω => (w ω).wt_coefs.number j i r, fun ω => (w ω).wt_coefs.number j k r] a) ω) =
    fun ω a => (w ω).wt_coefs.number ((![(j, i, r), (j, k, r)] : Fin 2 → ℕ × ℕ × Fin R) a).1
      ((![(j, i, r), (j, k, r)] : Fin 2 → ℕ × ℕ × Fin R) a).2.1 ((![(j, i, r), (j, k, r)] : Fin 2 → ℕ × ℕ × Fin R) a).2.2 := by
    funext ω a; fin_cases a <;> rfl
  rw [e]; exact this

end inst

/-- Everything that is needed about the coefficients of one scale: their common variance `c τ j`, which is close to a power law, and
the law of large numbers for even functions of the normalised coefficients. -/
theorem coefs_llnG {M : ℕ} (hM : VanishingMoments wt.dec_hi M) (hM1 : 1 ≤ M) (hwt : wt.Valid) {G : ℤ → ℝ}
    {h β : ℝ} (hK : ScalingKernel wt G h β) (g nm : ℝ) : ∃ (τ : ℕ → ℝ) (V B : ℝ), 0 < V ∧ 0 ≤ B ∧
    (∀ {Ω : Type u} [MeasurableSpace Ω] {μ : Measure Ω} {c : ℝ} {R N : ℕ} {x : Ω → List (Fin R → ℝ)} {w : Ω → WT R}, 0 < c →
      IncrementAnalysis μ wt G c g nm N x w → R ≠ 0 → ∀ {ω₀ : Ω} {j : ℕ}, 1 ≤ j → j ≤ (w ω₀).wt_coefs.values.length →
      0 < τ j ∧ |Real.logb 2 (τ j) - (Real.logb 2 V + j * coefExponent h g nm)| ≤ B * (2:ℝ) ^ (-(2 * β * j)) ∧
      ∀ r, ∀ k ∈ interior N wt.dec_hi.length j, ∫ ω, (w ω).wt_coefs.number j k r ^ 2 ∂μ = c * τ j ∧
        μ {ω | (w ω).wt_coefs.number j k r = 0} = 0) ∧
    ∀ (j : ℕ) {f : ℝ → ℝ}, Measurable f → (∀ x, f (-x) = f x) → Integrable (fun x => f x ^ 2) stdG → 1 ≤ j → ∃ D, 0 ≤ D ∧
    ∀ {Ω : Type u} [MeasurableSpace Ω] {μ : Measure Ω} {c : ℝ} {R N : ℕ} {x : Ω → List (Fin R → ℝ)} {w : Ω → WT R}, 0 < c →
      IncrementAnalysis μ wt G c g nm N x w → ∀ {ω₀ : Ω}, j ≤ (w ω₀).wt_coefs.values.length → ∀ r,
      Integrable (fun ω => (∑ k ∈ interior N wt.dec_hi.length j, f ((w ω).wt_coefs.number j k r / √(c * τ j))) / (interior N wt.dec_hi.length j).card) μ ∧
      ∫ ω, (∑ k ∈ interior N wt.dec_hi.length j, f ((w ω).wt_coefs.number j k r / √(c * τ j))) / (interior N wt.dec_hi.length j).card ∂μ = ∫ x, f x ∂stdG ∧
      Integrable (fun ω => ((∑ k ∈ interior N wt.dec_hi.length j, f ((w ω).wt_coefs.number j k r / √(c * τ j))) / (interior N wt.dec_hi.length j).card -
        ∫ x, f x ∂stdG) ^ 2) μ ∧
      ∫ ω, ((∑ k ∈ interior N wt.dec_hi.length j, f ((w ω).wt_coefs.number j k r / √(c * τ j))) / (interior N wt.dec_hi.length j).card -
        ∫ x, f x ∂stdG) ^ 2 ∂μ ≤ D / (interior N wt.dec_hi.length j).card := by
  obtain ⟨V, B, hV, hB, hlaw⟩ := hK.law
  choose! T C e hC he hT hd using hK.decay
  have two : (0:ℝ) < 2 := by norm_num
  obtain ⟨τ, hτ⟩ : ∃ τ : ℕ → ℝ, τ = fun j : ℕ => (2:ℝ) ^ (2 * (j : ℝ) * (1 / 2 - 1 / nm + g)) * -dblDetail wt G (j - 1) := ⟨_, rfl⟩
  have hτp : ∀ j, 0 < τ j := fun j => by rw [hτ]; exact mul_pos (by positivity) (hlaw (j - 1)).1
  have hτl : ∀ j : ℕ, 1 ≤ j → |Real.logb 2 (τ j) - (Real.logb 2 V + j * coefExponent h g nm)| ≤ B * (2:ℝ) ^ (-(2 * β * j)) := by
    intro j hj
    obtain ⟨i, rfl⟩ : ∃ i, j = i + 1 := ⟨j - 1, by omega⟩
    obtain ⟨a1, a2⟩ := hlaw i
    rw [hτ]
    simp only [Nat.add_sub_cancel]
    rw [Real.logb_mul (by positivity) a1.ne', Real.logb_rpow two (by norm_num)]
    push_cast
    refine le_trans (le_of_eq ?_) a2
    congr 1
    unfold coefExponent
    ring
  have hcov : ∀ {Ω : Type u} [MeasurableSpace Ω] {μ : Measure Ω} {c : ℝ} {R N : ℕ} {x : Ω → List (Fin R → ℝ)} {w : Ω → WT R},
      IncrementAnalysis μ wt G c g nm N x w → ∀ {ω₀ : Ω} {j k k' : ℕ} {r : Fin R}, 1 ≤ j → (w ω₀).wt_coefs.Reported j k r →
      (w ω₀).wt_coefs.Reported j k' r → ∫ ω, (w ω).wt_coefs.number j k r * (w ω).wt_coefs.number j k' r ∂μ =
        c * -((2:ℝ) ^ (2 * (j : ℝ) * (1 / 2 - 1 / nm + g)) * T j ((k : ℤ) * 2 ^ j - (k' : ℤ) * 2 ^ j)) := by
    intro Ω _ μ c R N x w hw ω₀ j k k' r hj hr hr'
    obtain ⟨A, hA⟩ := hw.signal
    obtain ⟨p, j1, j2, weighted, hwa⟩ := hw.analysis
    rw [C89_covariance (A := A) (G := fun i => c * G i) (fun n m => rfl) hM hM1 hwt hA.toHasCovariance hwa hr hr' r,
      nested_mul wt c G, hd j hj, ← Real.rpow_add two]
    rw [show (j : ℝ) * (1 / 2 - 1 / nm + g) + (j : ℝ) * (1 / 2 - 1 / nm + g) = 2 * (j : ℝ) * (1 / 2 - 1 / nm + g) by ring]
    ring
  have hT0 : ∀ j : ℕ, 1 ≤ j → -((2:ℝ) ^ (2 * (j : ℝ) * (1 / 2 - 1 / nm + g)) * T j 0) = τ j := by
    intro j hj
    obtain ⟨i, rfl⟩ : ∃ i, j = i + 1 := ⟨j - 1, by omega⟩
    have := hd (i + 1) hj 0 0
    rw [show (0:ℤ) * 2 ^ (i + 1) - 0 * 2 ^ (i + 1) = 0 by ring] at this
    rw [hτ]
    simp only [Nat.add_sub_cancel]
    rw [dblDetail, this]
    ring
  -- the common variance
  have hvar : ∀ {Ω : Type u} [MeasurableSpace Ω] {μ : Measure Ω} {c : ℝ} {R N : ℕ} {x : Ω → List (Fin R → ℝ)} {w : Ω → WT R},
      IncrementAnalysis μ wt G c g nm N x w → ∀ {ω₀ : Ω} {j : ℕ}, 1 ≤ j → j ≤ (w ω₀).wt_coefs.values.length →
      ∀ r, ∀ k ∈ interior N wt.dec_hi.length j, ∫ ω, (w ω).wt_coefs.number j k r ^ 2 ∂μ = c * τ j := by
    intro Ω _ μ c R N x w hw ω₀ j hj hjl r k hk
    have hr := hw.reported hwt hj hjl hk r
    have := hcov hw hj hr hr
    rw [sub_self, hT0 j hj] at this
    simpa [sq] using this
  refine ⟨τ, V, B, hV, hB, ?_, ?_⟩
  · intro Ω _ μ c R N x w hc hw hR ω₀ j hj hjl
    have a1 := hτp j
    have a3 := hvar hw hj hjl
    refine ⟨a1, hτl j hj, fun r k hk => ⟨a3 r k hk, ?_⟩⟩
    have hr := hw.reported hwt hj hjl hk r
    have hg : HasGaussianLaw (fun ω => (w ω).wt_coefs.number j k r) μ := by
      have := (hw.pair hwt hr hr).map_fun (ContinuousLinearMap.proj (R := ℝ) (φ := fun _ : Fin 2 => ℝ) 0)
      exact this
    have hm : ∫ ω, (w ω).wt_coefs.number j k r ∂μ = 0 := by
      obtain ⟨A, hA⟩ := hw.signal
      obtain ⟨p, j1, j2, weighted, hwa⟩ := hw.analysis
      exact (C88_covariance hwt hA.toHasCovariance hwa hr hr r r).2.1
    have hp := hw.prob
    have hv : Var[fun ω => (w ω).wt_coefs.number j k r; μ] = c * τ j := by
      rw [variance_eq_sub hg.memLp_two, hm]
      simpa using a3 r k hk
    have hlaw := hg.map_eq_gaussianReal
    have hne : (Var[fun ω => (w ω).wt_coefs.number j k r; μ]).toNNReal ≠ 0 := by
      rw [hv]; simpa using mul_pos hc a1
    have hno : NullSingletonClass (gaussianReal (∫ ω, (w ω).wt_coefs.number j k r ∂μ) (Var[fun ω => (w ω).wt_coefs.number j k r; μ]).toNNReal) :=
      nullSingletonClass_gaussianReal hne
    have : μ.map (fun ω => (w ω).wt_coefs.number j k r) {0} = 0 := by
      rw [hlaw]; exact measure_singleton 0
    rwa [Measure.map_apply_of_aemeasurable hg.aemeasurable (measurableSet_singleton 0)] at this
  · intro j f hf hfe hfi hj
    refine ⟨8 * (∫ x, f x ^ 2 ∂stdG) * ((2 ^ (2 * (j : ℝ) * (1 / 2 - 1 / nm + g)) * C j / τ j) ^ 2 * ∑' n : ℤ, (1 + |(n : ℝ)|) ^ (2 * e j)), ?_, ?_⟩
    · have : 0 ≤ ∫ x, f x ^ 2 ∂stdG := integral_nonneg fun x => sq_nonneg _
      have : 0 ≤ ∑' n : ℤ, (1 + |(n : ℝ)|) ^ (2 * e j) := tsum_nonneg fun n => by positivity
      positivity
    intro Ω _ μ c R N x w hc hw ω₀ hjl r
    have hR : R ≠ 0 := fun h0 => by subst h0; exact r.elim0
    have t1 := hτp j
    have t3 := hvar hw hj hjl
    obtain ⟨A, hA⟩ := hw.signal
    obtain ⟨p, j1, j2, weighted, hwa⟩ := hw.analysis
    have hcard := hw.card hwt hR hj hjl
    obtain ⟨K, hKd⟩ : ∃ K, K = interior N wt.dec_hi.length j := ⟨_, rfl⟩
    have hrep : ∀ k ∈ K, (w ω₀).wt_coefs.Reported j k r := fun k hk => hw.reported hwt hj hjl (hKd ▸ hk) r
    rw [← hKd] at hcard t3 ⊢
    obtain ⟨a1, a2, a3, a4⟩ := mean_even_variance (μ := μ) K (Finset.card_pos.mp (by omega)) (X := fun k ω => (w ω).wt_coefs.number j k r)
      (V := c * τ j) (mul_pos hc t1) (fun i hi k hk => hw.pair hwt (hrep i hi) (hrep k hk))
      (fun k hk => (C88_covariance hwt hA.toHasCovariance hwa (hrep k hk) (hrep k hk) r r).2.1)
      (fun k hk => by simpa [sq] using t3 r k hk) hf hfe hfi
    refine ⟨a1, a2, a3, a4.trans ?_⟩
    have hK0 : (0:ℝ) < K.card := by exact_mod_cast (by omega : 0 < K.card)
    have hsum : ∀ i ∈ K, ∑ k ∈ K, ((∫ ω, (w ω).wt_coefs.number j i r * (w ω).wt_coefs.number j k r ∂μ) / (c * τ j)) ^ 2 ≤
        (2 ^ (2 * (j : ℝ) * (1 / 2 - 1 / nm + g)) * C j / τ j) ^ 2 * ∑' n : ℤ, (1 + |(n : ℝ)|) ^ (2 * e j) := by
      intro i hi
      have h1 : ∀ k ∈ K, ((∫ ω, (w ω).wt_coefs.number j i r * (w ω).wt_coefs.number j k r ∂μ) / (c * τ j)) ^ 2 ≤
          (2 ^ (2 * (j : ℝ) * (1 / 2 - 1 / nm + g)) * C j / τ j) ^ 2 * (1 + |(i : ℝ) * 2 ^ j - (k : ℝ) * 2 ^ j|) ^ (2 * e j) := by
        intro k hk
        rw [hcov hw hj (hrep i hi) (hrep k hk), mul_div_mul_left _ _ hc.ne', div_pow, div_pow, div_mul_eq_mul_div, neg_sq, mul_pow, mul_pow, mul_assoc (_ ^ 2) (C j ^ 2)]
        refine div_le_div_of_nonneg_right (mul_le_mul_of_nonneg_left ?_ (sq_nonneg _)) (sq_nonneg _)
        have h2 := hT j hj ((i : ℤ) * 2 ^ j - (k : ℤ) * 2 ^ j)
        have h4 := pow_le_pow_left₀ (abs_nonneg _) h2 2
        rw [sq_abs, mul_pow, ← Real.rpow_natCast (_ ^ _) 2, ← Real.rpow_mul (by positivity)] at h4
        push_cast at h4
        rw [mul_comm 2 (e j)]
        exact h4
      refine (sum_le_sum h1).trans ?_
      rw [← mul_sum]
      exact mul_le_mul_of_nonneg_left (sum_decay_le (he j hj) j i K) (sq_nonneg _)
    have h5 := sum_le_sum hsum
    rw [sum_const, nsmul_eq_mul] at h5
    have hS : 0 ≤ 8 * ∫ x, f x ^ 2 ∂stdG := mul_nonneg (by norm_num) (integral_nonneg fun x => sq_nonneg _)
    rw [div_le_div_iff₀ (by positivity) hK0]
    have h6 := mul_le_mul_of_nonneg_right (mul_le_mul_of_nonneg_left h5 hS) hK0.le
    refine h6.trans (le_of_eq ?_)
    ring

/-- Everything that is needed about the coefficients of one scale: their common variance `c τ j`, which is close to a power law, and
the law of large numbers for even functions of the normalised coefficients. -/
theorem coefs_lln {M : ℕ} (hM : VanishingMoments wt.dec_hi M) (hM1 : 1 ≤ M) (hwt : wt.Valid) (ho : OrthonormalBank wt) {H : ℝ}
    (h0 : 0 < H) (h1 : H < 1) (hH : 4 * H - 4 * M < -1) (g nm : ℝ) : ∃ (τ : ℕ → ℝ) (V B : ℝ), 0 < V ∧ 0 ≤ B ∧
    (∀ {Ω : Type u} [MeasurableSpace Ω] {μ : Measure Ω} {c : ℝ} {R N : ℕ} {x : Ω → List (Fin R → ℝ)} {w : Ω → WT R}, 0 < c →
      PowerLawAnalysis μ wt H c g nm N x w → R ≠ 0 → ∀ {ω₀ : Ω} {j : ℕ}, 1 ≤ j → j ≤ (w ω₀).wt_coefs.values.length →
      0 < τ j ∧ |Real.logb 2 (τ j) - (Real.logb 2 V + j * coefExponent H g nm)| ≤ B * (2:ℝ) ^ (-(2 * H * j)) ∧
      ∀ r, ∀ k ∈ interior N wt.dec_hi.length j, ∫ ω, (w ω).wt_coefs.number j k r ^ 2 ∂μ = c * τ j ∧
        μ {ω | (w ω).wt_coefs.number j k r = 0} = 0) ∧
    ∀ (j : ℕ) {f : ℝ → ℝ}, Measurable f → (∀ x, f (-x) = f x) → Integrable (fun x => f x ^ 2) stdG → 1 ≤ j → ∃ D, 0 ≤ D ∧
    ∀ {Ω : Type u} [MeasurableSpace Ω] {μ : Measure Ω} {c : ℝ} {R N : ℕ} {x : Ω → List (Fin R → ℝ)} {w : Ω → WT R}, 0 < c →
      PowerLawAnalysis μ wt H c g nm N x w → ∀ {ω₀ : Ω}, j ≤ (w ω₀).wt_coefs.values.length → ∀ r,
      Integrable (fun ω => (∑ k ∈ interior N wt.dec_hi.length j, f ((w ω).wt_coefs.number j k r / √(c * τ j))) / (interior N wt.dec_hi.length j).card) μ ∧
      ∫ ω, (∑ k ∈ interior N wt.dec_hi.length j, f ((w ω).wt_coefs.number j k r / √(c * τ j))) / (interior N wt.dec_hi.length j).card ∂μ = ∫ x, f x ∂stdG ∧
      Integrable (fun ω => ((∑ k ∈ interior N wt.dec_hi.length j, f ((w ω).wt_coefs.number j k r / √(c * τ j))) / (interior N wt.dec_hi.length j).card -
        ∫ x, f x ∂stdG) ^ 2) μ ∧
      ∫ ω, ((∑ k ∈ interior N wt.dec_hi.length j, f ((w ω).wt_coefs.number j k r / √(c * τ j))) / (interior N wt.dec_hi.length j).card -
        ∫ x, f x ∂stdG) ^ 2 ∂μ ≤ D / (interior N wt.dec_hi.length j).card := by
  obtain ⟨τ, V, B, hV, hB, a, b⟩ := coefs_llnG.{u} hM hM1 hwt (powerLaw_kernel hM hM1 hwt ho h0 h1 hH) g nm
  refine ⟨τ, V, B, hV, hB, fun hc hw => a hc hw.toIncrement, fun j f h2 h3 h4 h5 => ?_⟩
  obtain ⟨D, hD, hd⟩ := b j h2 h3 h4 h5
  exact ⟨D, hD, fun hc hw => hd hc hw.toIncrement⟩

/-- The number of interior positions is about `N / 2^j`. -/
theorem interior_card_ge (N F j : ℕ) (hj : 1 ≤ j) : N / 2 ^ j - 2 * F ≤ (interior N F j).card := by
  have h : Ico F (N / 2 ^ j - F) ⊆ interior N F j := by
    intro k hk
    obtain ⟨h1, h2⟩ := mem_Ico.1 hk
    have h3 : 2 * (N / 2 ^ j) ≤ N / 2 ^ (j - 1) := by
      obtain ⟨i, rfl⟩ : ∃ i, j = i + 1 := ⟨j - 1, by omega⟩
      rw [Nat.add_sub_cancel, pow_succ, ← Nat.div_div_eq_div_mul]
      omega
    rw [interior, mem_filter, mem_range]
    omega
  have := card_le_card h
  rw [Nat.card_Ico] at this
  omega

/-- What holds at one scale with high probability: no value vanishes, and the means of the test functions in the list `F`, applied to
the values divided by `σ`, are within `η` of their expectation for a standard normal variable. -/
def TypicalScale (F : List (ℝ × ℕ)) (η σ : ℝ) (xs : List ℝ) : Prop := xs ≠ [] ∧ (∀ x ∈ xs, x ≠ 0) ∧
  ∀ p ∈ F, |(xs.map fun x => testF p.1 p.2 (x / σ)).sum / xs.length - normalMoment p.1 p.2| < η

/-- The usable values of one scale, as a list. -/
theorem analysis_entries {g nm : ℝ} {R N : ℕ} {y : Fin R → ℤ → ℝ} {w : WT R} {q : PExp} {j1 : ℤ} {j2 : Option ℝ} {weighted : Bool} (hwt : wt.Valid)
    (h0 : waveletAnalysis (MFA.sampled N y) q wt j1 j2 g nm weighted = .ok w) :
    Regular w.wt_coefs w.wt_coefs.values.length ∧ w.wt_coefs.gamint = g ∧
    ∀ p ∈ w.wt_coefs.values, ∃ j : ℕ, p.1 = j ∧ 1 ≤ j ∧ j ≤ w.wt_coefs.values.length ∧ ∀ r, ∃ xs : List ℝ, Entries (col p.2 r) xs ∧
      (∀ f : ℝ → ℝ, (xs.map f).sum = ∑ k ∈ interior N wt.dec_hi.length j, f (w.wt_coefs.number j k r)) ∧
      xs.length = (interior N wt.dec_hi.length j).card ∧ ∀ y ∈ xs, ∃ k ∈ interior N wt.dec_hi.length j, y = w.wt_coefs.number j k r := by
  obtain ⟨ml, K, Kc, h1, hK, hKc, hKc', h3, hc, hgood, hj2, hl⟩ := wa_inv h0
  have hlen : w.wt_coefs.values.length = Kc := by rw [hc]; simp [scalesUpTo]
  refine ⟨by rw [hlen, hc]; exact scalesUpTo_regular _ _ _ _, by rw [hc]; rfl, ?_⟩
  intro p hp
  have hp' := hp
  rw [hc] at hp'
  obtain ⟨j, hj1, hj2', rfl⟩ := scalesUpTo_mem hp'
  refine ⟨j, rfl, hj1, by rw [hlen]; exact hj2', fun r => ?_⟩
  obtain ⟨a, ha, -, hcol⟩ := col_coefs hwt h0 hj1 (by rw [hlen]; exact hj2') r
  have hpa : a = ((j : ℤ), coefSeq (wparams wt g nm) (MFA.sampled N y) j) := by
    rw [hc] at ha
    simp only [scalesUpTo, List.getElem?_map, List.getElem?_range (show j - 1 < Kc by omega), Option.map_some, Nat.sub_add_cancel hj1] at ha
    exact (Option.some.inj ha).symm
  rw [hpa] at hcol
  let L := (List.range (N / 2 ^ j)).filter fun k => ¬ Bord N wt.dec_hi.length j k
  have hint : interior N wt.dec_hi.length j = L.toFinset := by
    rw [interior_eq _ _ _ hwt.pos]
    ext k; simp [L]
  have hnd : L.Nodup := List.nodup_range.filter _
  refine ⟨L.map fun k => w.wt_coefs.number j k r, ?_, ?_, ?_, ?_⟩
  · show dropNaN _ = _
    rw [hcol, List.map_map]
    unfold dropNaN
    rw [List.filter_map]
    have : ((List.range (N / 2 ^ j)).filter ((fun x : Fl => !x.isNaN) ∘ fun k =>
        if Bord N wt.dec_hi.length j k then Fl.nan else Fl.fin (w.wt_coefs.number j k r))) = L := by
      apply List.filter_congr
      intro k _
      by_cases hb : Bord N wt.dec_hi.length j k <;> simp [hb, Fl.isNaN]
    rw [this]
    apply List.map_congr_left
    intro k hk
    have hb : ¬ Bord N wt.dec_hi.length j k := by simpa using (List.mem_filter.1 hk).2
    simp [hb]
  · intro f
    rw [List.map_map, hint, List.sum_toFinset _ hnd]; rfl
  · rw [List.length_map, hint, List.toFinset_card_of_nodup hnd]
  · intro y hy
    obtain ⟨k, hk, rfl⟩ := List.mem_map.1 hy
    exact ⟨k, by rw [hint]; exact List.mem_toFinset.2 hk, rfl⟩

theorem IncrementAnalysis.entries {Ω : Type u} [MeasurableSpace Ω] {μ : Measure Ω} {G : ℤ → ℝ} {c g nm : ℝ} {R N : ℕ} {x : Ω → List (Fin R → ℝ)}
    {w : Ω → WT R} (h : IncrementAnalysis μ wt G c g nm N x w) (hwt : wt.Valid) (ω : Ω) :
    Regular (w ω).wt_coefs (w ω).wt_coefs.values.length ∧ (w ω).wt_coefs.gamint = g ∧
    ∀ p ∈ (w ω).wt_coefs.values, ∃ j : ℕ, p.1 = j ∧ 1 ≤ j ∧ j ≤ (w ω).wt_coefs.values.length ∧ ∀ r, ∃ xs : List ℝ, Entries (col p.2 r) xs ∧
      (∀ f : ℝ → ℝ, (xs.map f).sum = ∑ k ∈ interior N wt.dec_hi.length j, f ((w ω).wt_coefs.number j k r)) ∧
      xs.length = (interior N wt.dec_hi.length j).card ∧ ∀ y ∈ xs, ∃ k ∈ interior N wt.dec_hi.length j, y = (w ω).wt_coefs.number j k r := by
  obtain ⟨q, j1, j2, weighted, h0⟩ := h.sampled
  exact analysis_entries hwt (h0 ω)

/-- **Joint law of large numbers**: with probability at least `1 - δ`, all the scales up to `J` are typical, when the signal is long. -/
theorem joint_llnG {M : ℕ} (hM : VanishingMoments wt.dec_hi M) (hM1 : 1 ≤ M) (hwt : wt.Valid) {G : ℤ → ℝ}
    {h β : ℝ} (hK : ScalingKernel wt G h β) (g nm : ℝ) : ∃ (τ : ℕ → ℝ) (V B : ℝ), 0 < V ∧ 0 ≤ B ∧
    ∀ (F : List (ℝ × ℕ)), (∀ p ∈ F, -(1 / 2) < p.1) → ∀ (J : ℕ) (η δ : ℝ), 0 < η → 0 < δ → ∃ N₀ : ℕ,
    ∀ {Ω : Type u} [MeasurableSpace Ω] {μ : Measure Ω} {c : ℝ} {R N : ℕ} {x : Ω → List (Fin R → ℝ)} {w : Ω → WT R}, 0 < c →
      IncrementAnalysis μ wt G c g nm N x w → N₀ ≤ N → (∀ ω, J ≤ (w ω).wt_coefs.values.length) → ∀ r,
      (∀ j, 1 ≤ j → j ≤ J → 0 < τ j ∧ |Real.logb 2 (τ j) - (Real.logb 2 V + j * coefExponent h g nm)| ≤ B * (2:ℝ) ^ (-(2 * β * j))) ∧
      μ {ω | ¬ ∀ p ∈ (w ω).wt_coefs.values, p.1 ≤ J → ∃ xs, Entries (col p.2 r) xs ∧ TypicalScale F η √(c * τ p.1.toNat) xs} ≤
        ENNReal.ofReal δ := by
  obtain ⟨τ, V, B, hV, hB, hvar, hlln⟩ := coefs_llnG.{u} hM hM1 hwt hK g nm
  refine ⟨τ, V, B, hV, hB, ?_⟩
  intro F hF J η δ hη hδ
  have hex : ∀ (j : ℕ) (p : ℝ × ℕ), ∃ D, 0 ≤ D ∧ (1 ≤ j → p ∈ F → ∀ {Ω : Type u} [MeasurableSpace Ω] {μ : Measure Ω} {c : ℝ} {R N : ℕ}
      {x : Ω → List (Fin R → ℝ)} {w : Ω → WT R}, 0 < c → IncrementAnalysis μ wt G c g nm N x w → ∀ {ω₀ : Ω},
      j ≤ (w ω₀).wt_coefs.values.length → ∀ r, μ {ω | η ≤ |(∑ k ∈ interior N wt.dec_hi.length j,
        testF p.1 p.2 ((w ω).wt_coefs.number j k r / √(c * τ j))) / (interior N wt.dec_hi.length j).card - normalMoment p.1 p.2|} ≤
        ENNReal.ofReal (D / (interior N wt.dec_hi.length j).card / η ^ 2)) := by
    intro j p
    by_cases hjp : 1 ≤ j ∧ p ∈ F
    · obtain ⟨D, hD, h⟩ := hlln j (measurable_testF p.1 p.2) (testF_even _ _) (testF_sq (hF p hjp.2) _) hjp.1
      refine ⟨D, hD, fun _ _ => ?_⟩
      intro Ω _ μ c R N x w hc hw ω₀ hl r
      have hp := hw.prob
      obtain ⟨-, -, a3, a4⟩ := h hc hw hl r
      exact chebyshev a3 a4 hη
    · exact ⟨0, le_rfl, fun a b => absurd ⟨a, b⟩ hjp⟩
  choose D hD0 hD using hex
  obtain ⟨n₀, hn₀⟩ := exists_nat_gt ((∑ j ∈ Icc 1 J, ∑ p ∈ F.toFinset, D j p) / η ^ 2 / δ)
  refine ⟨2 ^ J * (n₀ + 1 + 2 * wt.dec_hi.length), ?_⟩
  intro Ω _ μ c R N x w hc hw hN hJ r
  have hR : R ≠ 0 := fun h0 => by subst h0; exact r.elim0
  have hp := hw.prob
  obtain ⟨ω₀⟩ : Nonempty Ω := nonempty_of_isProbabilityMeasure μ
  refine ⟨fun j hj1 hj2 => ?_, ?_⟩
  · obtain ⟨a1, a2, -⟩ := hvar hc hw hR hj1 (hj2.trans (hJ ω₀))
    exact ⟨a1, a2⟩
  -- the bad set
  let bad0 : ℕ → Set Ω := fun j => ⋃ k ∈ interior N wt.dec_hi.length j, {ω | (w ω).wt_coefs.number j k r = 0}
  let bad1 : ℕ → ℝ × ℕ → Set Ω := fun j p => {ω | η ≤ |(∑ k ∈ interior N wt.dec_hi.length j,
    testF p.1 p.2 ((w ω).wt_coefs.number j k r / √(c * τ j))) / (interior N wt.dec_hi.length j).card - normalMoment p.1 p.2|}
  have hsub : {ω | ¬ ∀ p ∈ (w ω).wt_coefs.values, p.1 ≤ J → ∃ xs, Entries (col p.2 r) xs ∧ TypicalScale F η √(c * τ p.1.toNat) xs} ⊆
      (⋃ j ∈ Icc 1 J, bad0 j) ∪ ⋃ j ∈ Icc 1 J, ⋃ p ∈ F.toFinset, bad1 j p := by
    intro ω hω
    by_contra hn
    apply hω
    intro p hp' hpJ
    obtain ⟨-, -, he⟩ := hw.entries hwt ω
    obtain ⟨j, hj, hj1, hj2, hr⟩ := he p hp'
    obtain ⟨xs, e1, e2, e3, e4⟩ := hr r
    have hjJ : j ≤ J := by rw [hj] at hpJ; exact_mod_cast hpJ
    have hmem : j ∈ Icc 1 J := mem_Icc.2 ⟨hj1, hjJ⟩
    have hcard := hw.card hwt hR hj1 hj2
    refine ⟨xs, e1, fun h => by rw [h, List.length_nil] at e3; omega, fun y hy h0 => ?_, fun q hq => ?_⟩
    · obtain ⟨k, hk, rfl⟩ := e4 y hy
      exact hn (Or.inl (Set.mem_biUnion hmem (Set.mem_biUnion hk h0)))
    · rw [e2 (fun y => testF q.1 q.2 (y / √(c * τ p.1.toNat))), e3, hj, Int.toNat_natCast]
      by_contra hge
      push Not at hge
      exact hn (Or.inr (Set.mem_biUnion hmem (Set.mem_biUnion (List.mem_toFinset.2 hq) hge)))
  refine (measure_mono hsub).trans ((measure_union_le _ _).trans ?_)
  have hz : μ (⋃ j ∈ Icc 1 J, bad0 j) = 0 := by
    refine (measure_biUnion_null_iff (s := fun j => bad0 j) (Finset.countable_toSet (Icc 1 J))).2 ?_
    intro j hj
    obtain ⟨hj1, hj2⟩ := mem_Icc.1 hj
    obtain ⟨-, -, a3⟩ := hvar hc hw hR hj1 (hj2.trans (hJ ω₀))
    refine (measure_biUnion_null_iff (s := fun k => {ω | (w ω).wt_coefs.number j k r = 0})
      (Finset.countable_toSet (interior N wt.dec_hi.length j))).2 ?_
    intro k hk
    exact (a3 r k hk).2
  rw [hz, zero_add]
  have hn0 : (0:ℝ) < n₀ + 1 := by positivity
  have hcard : ∀ j ∈ Icc 1 J, ((n₀ : ℝ) + 1) ≤ (interior N wt.dec_hi.length j).card := by
    intro j hj
    obtain ⟨hj1, hj2⟩ := mem_Icc.1 hj
    have h2 := interior_card_ge N wt.dec_hi.length j hj1
    have h3 : n₀ + 1 + 2 * wt.dec_hi.length ≤ N / 2 ^ j := by
      rw [Nat.le_div_iff_mul_le (by positivity), mul_comm]
      exact (Nat.mul_le_mul_right _ (Nat.pow_le_pow_right (by norm_num) hj2)).trans hN
    exact_mod_cast (by omega : n₀ + 1 ≤ (interior N wt.dec_hi.length j).card)
  calc μ (⋃ j ∈ Icc 1 J, ⋃ p ∈ F.toFinset, bad1 j p)
      ≤ ∑ j ∈ Icc 1 J, ∑ p ∈ F.toFinset, μ (bad1 j p) :=
        (measure_biUnion_finset_le _ _).trans (sum_le_sum fun j _ => measure_biUnion_finset_le _ _)
    _ ≤ ∑ j ∈ Icc 1 J, ∑ p ∈ F.toFinset, ENNReal.ofReal (D j p / (n₀ + 1) / η ^ 2) := by
        refine sum_le_sum fun j hj => sum_le_sum fun p hp' => ?_
        refine (hD j p (mem_Icc.1 hj).1 (List.mem_toFinset.1 hp') hc hw ((mem_Icc.1 hj).2.trans (hJ ω₀)) r).trans ?_
        refine ENNReal.ofReal_le_ofReal (div_le_div_of_nonneg_right ?_ (sq_nonneg _))
        exact div_le_div_of_nonneg_left (hD0 j p) hn0 (hcard j hj)
    _ = ENNReal.ofReal (∑ j ∈ Icc 1 J, ∑ p ∈ F.toFinset, D j p / (n₀ + 1) / η ^ 2) := by
        have hnn : ∀ j p, 0 ≤ D j p / ((n₀ : ℝ) + 1) / η ^ 2 := fun j p => by have := hD0 j p; positivity
        rw [ENNReal.ofReal_sum_of_nonneg fun j _ => sum_nonneg fun p _ => hnn j p]
        exact sum_congr rfl fun j _ => (ENNReal.ofReal_sum_of_nonneg fun p _ => hnn j p).symm
    _ ≤ ENNReal.ofReal δ := by
        refine ENNReal.ofReal_le_ofReal ?_
        simp only [div_div, ← sum_div]
        rw [div_le_iff₀ (by positivity)]
        rw [div_div, div_lt_iff₀ (by positivity)] at hn₀
        have : 0 < η ^ 2 * δ := by positivity
        nlinarith

/-- **Joint law of large numbers**: with probability at least `1 - δ`, all the scales up to `J` are typical, when the signal is long. -/
theorem joint_lln {M : ℕ} (hM : VanishingMoments wt.dec_hi M) (hM1 : 1 ≤ M) (hwt : wt.Valid) (ho : OrthonormalBank wt) {H : ℝ}
    (h0 : 0 < H) (h1 : H < 1) (hH : 4 * H - 4 * M < -1) (g nm : ℝ) : ∃ (τ : ℕ → ℝ) (V B : ℝ), 0 < V ∧ 0 ≤ B ∧
    ∀ (F : List (ℝ × ℕ)), (∀ p ∈ F, -(1 / 2) < p.1) → ∀ (J : ℕ) (η δ : ℝ), 0 < η → 0 < δ → ∃ N₀ : ℕ,
    ∀ {Ω : Type u} [MeasurableSpace Ω] {μ : Measure Ω} {c : ℝ} {R N : ℕ} {x : Ω → List (Fin R → ℝ)} {w : Ω → WT R}, 0 < c →
      PowerLawAnalysis μ wt H c g nm N x w → N₀ ≤ N → (∀ ω, J ≤ (w ω).wt_coefs.values.length) → ∀ r,
      (∀ j, 1 ≤ j → j ≤ J → 0 < τ j ∧ |Real.logb 2 (τ j) - (Real.logb 2 V + j * coefExponent H g nm)| ≤ B * (2:ℝ) ^ (-(2 * H * j))) ∧
      μ {ω | ¬ ∀ p ∈ (w ω).wt_coefs.values, p.1 ≤ J → ∃ xs, Entries (col p.2 r) xs ∧ TypicalScale F η √(c * τ p.1.toNat) xs} ≤
        ENNReal.ofReal δ := by
  obtain ⟨τ, V, B, hV, hB, a⟩ := joint_llnG.{u} hM hM1 hwt (powerLaw_kernel hM hM1 hwt ho h0 h1 hH) g nm
  refine ⟨τ, V, B, hV, hB, fun F hF J η δ hη hδ => ?_⟩
  obtain ⟨N₀, hN⟩ := a F hF J η δ hη hδ
  exact ⟨N₀, fun hc hw => hN hc hw.toIncrement⟩

theorem PowerLawAnalysis.entries {Ω : Type u} [MeasurableSpace Ω] {μ : Measure Ω} {H c g nm : ℝ} {R N : ℕ} {x : Ω → List (Fin R → ℝ)}
    {w : Ω → WT R} (h : PowerLawAnalysis μ wt H c g nm N x w) (hwt : wt.Valid) (ω : Ω) :
    Regular (w ω).wt_coefs (w ω).wt_coefs.values.length ∧ (w ω).wt_coefs.gamint = g ∧
    ∀ p ∈ (w ω).wt_coefs.values, ∃ j : ℕ, p.1 = j ∧ 1 ≤ j ∧ j ≤ (w ω).wt_coefs.values.length ∧ ∀ r, ∃ xs : List ℝ, Entries (col p.2 r) xs ∧
      (∀ G : ℝ → ℝ, (xs.map G).sum = ∑ k ∈ interior N wt.dec_hi.length j, G ((w ω).wt_coefs.number j k r)) ∧
      xs.length = (interior N wt.dec_hi.length j).card ∧ ∀ y ∈ xs, ∃ k ∈ interior N wt.dec_hi.length j, y = (w ω).wt_coefs.number j k r :=
  h.toIncrement.entries hwt ω

theorem PowerLawAnalysis.reported {Ω : Type u} [MeasurableSpace Ω] {μ : Measure Ω} {H c g nm : ℝ} {R N : ℕ} {x : Ω → List (Fin R → ℝ)}
    {w : Ω → WT R} (h : PowerLawAnalysis μ wt H c g nm N x w) (hwt : wt.Valid) {ω : Ω} {j k : ℕ} (hj : 1 ≤ j)
    (hjl : j ≤ (w ω).wt_coefs.values.length) (hk : k ∈ interior N wt.dec_hi.length j) (r : Fin R) : (w ω).wt_coefs.Reported j k r :=
  h.toIncrement.reported hwt hj hjl hk r

theorem PowerLawAnalysis.card {Ω : Type u} [MeasurableSpace Ω] {μ : Measure Ω} {H c g nm : ℝ} {R N : ℕ} {x : Ω → List (Fin R → ℝ)}
    {w : Ω → WT R} (h : PowerLawAnalysis μ wt H c g nm N x w) (hwt : wt.Valid) (hR : R ≠ 0) {ω : Ω} {j : ℕ} (hj : 1 ≤ j)
    (hjl : j ≤ (w ω).wt_coefs.values.length) : 3 ≤ (interior N wt.dec_hi.length j).card :=
  h.toIncrement.card hwt hR hj hjl

theorem PowerLawAnalysis.prob {Ω : Type u} [MeasurableSpace Ω] {μ : Measure Ω} {H c g nm : ℝ} {R N : ℕ} {x : Ω → List (Fin R → ℝ)}
    {w : Ω → WT R} (h : PowerLawAnalysis μ wt H c g nm N x w) : IsProbabilityMeasure μ := h.toIncrement.prob

theorem PowerLawAnalysis.sampled {Ω : Type u} [MeasurableSpace Ω] {μ : Measure Ω} {H c g nm : ℝ} {R N : ℕ} {x : Ω → List (Fin R → ℝ)}
    {w : Ω → WT R} (h : PowerLawAnalysis μ wt H c g nm N x w) : ∃ (p : PExp) (j1 : ℤ) (j2 : Option ℝ) (weighted : Bool),
    ∀ ω, waveletAnalysis (MFA.sampled N fun r t => ((x ω).getD t.toNat fun _ => 0) r) p wt j1 j2 g nm weighted = .ok (w ω) := h.toIncrement.sampled

theorem PowerLawAnalysis.scales {Ω : Type u} [MeasurableSpace Ω] {μ : Measure Ω} {H c g nm : ℝ} {R N : ℕ} {x : Ω → List (Fin R → ℝ)}
    {w : Ω → WT R} (h : PowerLawAnalysis μ wt H c g nm N x w) (hwt : wt.Valid) (hR : R ≠ 0) (ω ω' : Ω) :
    (w ω).wt_coefs.values.length = (w ω').wt_coefs.values.length := h.toIncrement.scales hwt hR ω ω'

end

end MFA
