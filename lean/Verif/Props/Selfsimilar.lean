import Verif.Lemmas.Selfsim
import Verif.Props.Consistency

/-!
# Property C97: the coefficients of a self-similar signal scale with the right exponent
-/

namespace MFA

universe u

open Classical Finset MeasureTheory ProbabilityTheory

noncomputable section

variable {Ω : Type u} [MeasurableSpace Ω] {μ : Measure Ω} {wt : Wavelet}

/-- The exponent of the variance of the coefficients: `2H` for the default normalisation 1 without fractional integration. -/
def coefExponent (H g nm : ℝ) : ℝ := 2 * H + 2 * g + 2 - 2 / nm

theorem coefExponent_default (H : ℝ) : coefExponent H 0 1 = 2 * H := by unfold coefExponent; ring

/-- **C97**.  With an orthonormal wavelet and `0 < H < 1` there are `V > 0` and `C` such that, for every signal with stationary
increments and variogram `c |n - m|^(2H)`, of any length, the variance of every coefficient reported at scale `j` is
`c V 2^(j b)` up to a relative error `C 2^(-2 H j)`, where `b = 2H` for the default normalisation (and `2H + 2 gamint + 2 - 2/nm` in
general); it is never smaller than a fixed fraction of that power law. -/
theorem C97_power_law {M : ℕ} (hM : VanishingMoments wt.dec_hi M) (hM1 : 1 ≤ M) (hwt : wt.Valid) (ho : OrthonormalBank wt) {H : ℝ}
    (h0 : 0 < H) (h1 : H < 1) (g nm : ℝ) : ∃ V V₀ C : ℝ, 0 < V ∧ 0 < V₀ ∧ 0 ≤ C ∧
    ∀ {Ω : Type u} [MeasurableSpace Ω] {μ : Measure Ω} {N R : ℕ} {x : Ω → List (Fin R → ℝ)} {A : ℕ → ℝ} {c : ℝ} {w : Ω → WT R} {p : PExp} {j1 : ℤ} {j2 : Option ℝ} {weighted : Bool},
      0 ≤ c → HasCovariance μ N x (fun n m => A n + A m - c * |(n : ℝ) - m| ^ (2 * H)) →
      (∀ ω, waveletAnalysis (asFloats (x ω)) p wt j1 j2 g nm weighted = .ok (w ω)) →
      ∀ {ω₀ : Ω} {j k : ℕ} {r₀ : Fin R}, (w ω₀).wt_coefs.Reported j k r₀ → ∀ r : Fin R,
      |∫ ω, (w ω).wt_coefs.number j k r ^ 2 ∂μ - c * V * (2:ℝ) ^ (j * coefExponent H g nm)| ≤
        c * V * (2:ℝ) ^ (j * coefExponent H g nm) * (C * (2:ℝ) ^ (-(2 * H * j))) ∧
      c * V₀ * (2:ℝ) ^ (j * coefExponent H g nm) ≤ ∫ ω, (w ω).wt_coefs.number j k r ^ 2 ∂μ := by
  have hlo := orthonormal_sum ho hM hM1
  have hhi := orthonormal_hi_ne ho
  obtain ⟨V, C, hV, hC, hA⟩ := dblDetail_asymptotic hwt ho hM hM1 hlo hhi (a := 2 * H) (by linarith) (by linarith)
  obtain ⟨V₀, hV₀, hL⟩ := dblDetail_lower hM hM1 hlo hhi (a := 2 * H) (by linarith) (by linarith)
  have two : (0:ℝ) < 2 := by norm_num
  have hlam : (0:ℝ) < (2:ℝ) ^ (1 + 2 * H) := by positivity
  refine ⟨V / (2:ℝ) ^ (1 + 2 * H), V₀ / (2:ℝ) ^ (1 + 2 * H), C / V * (2:ℝ) ^ (2 * H), by positivity, by positivity, by positivity, ?_⟩
  intro Ω _ μ N R x A c w p j1 j2 weighted hc hx hw ω₀ j k r₀ hr r
  have hj := (random_linear hwt hx.length hw hr).1
  obtain ⟨i, rfl⟩ : ∃ i, j = i + 1 := ⟨j - 1, by omega⟩
  have hcov := C89_covariance (A := A) (G := fun i => c * |(i : ℝ)| ^ (2 * H)) (fun n m => by push_cast; ring) hM hM1 hwt hx hw hr hr r
  rw [nested_mul wt c (fun i => |(i : ℝ)| ^ (2 * H))] at hcov
  obtain ⟨T, -, hT⟩ := detail_decay hM (a := 2 * H) (by have : (1:ℝ) ≤ M := by exact_mod_cast hM1
                                                        linarith) hj hj
  have hT0 : idealDetail wt (fun s => idealDetail wt (fun t => |((s - t : ℤ) : ℝ)| ^ (2 * H)) (i + 1) k) (i + 1) k =
      dblDetail wt (fun n => |(n : ℝ)| ^ (2 * H)) i := by
    rw [dblDetail, hT, hT]; simp
  rw [hT0] at hcov
  have hsq : ∫ ω, (w ω).wt_coefs.number (i + 1) k r ^ 2 ∂μ =
      (2:ℝ) ^ (2 * ((i + 1 : ℕ) : ℝ) * (1 / 2 - 1 / nm + g)) * (c * -dblDetail wt (fun n => |(n : ℝ)| ^ (2 * H)) i) := by
    simp only [sq]
    rw [hcov, ← Real.rpow_add two, show ((i + 1 : ℕ) : ℝ) * (1 / 2 - 1 / nm + g) + ((i + 1 : ℕ) : ℝ) * (1 / 2 - 1 / nm + g) =
      2 * ((i + 1 : ℕ) : ℝ) * (1 / 2 - 1 / nm + g) by ring]
    ring
  -- powers of two
  have e1 : (2:ℝ) ^ (((i + 1 : ℕ) : ℝ) * coefExponent H g nm) = (2:ℝ) ^ (2 * ((i + 1 : ℕ) : ℝ) * (1 / 2 - 1 / nm + g)) *
      ((2:ℝ) ^ (1 + 2 * H)) ^ i * (2:ℝ) ^ (1 + 2 * H) := by
    rw [mul_assoc, ← pow_succ, ← Real.rpow_natCast _ (i + 1), ← Real.rpow_mul two.le, ← Real.rpow_add two]
    congr 1
    unfold coefExponent
    ring
  have e2 : (2:ℝ) ^ (-(2 * H * ((i + 1 : ℕ) : ℝ))) * (2:ℝ) ^ (2 * H) * ((2:ℝ) ^ (1 + 2 * H)) ^ i = 2 ^ i := by
    rw [← Real.rpow_natCast _ i, ← Real.rpow_mul two.le, ← Real.rpow_add two, ← Real.rpow_add two, ← Real.rpow_natCast]
    congr 1; push_cast; ring
  generalize (2:ℝ) ^ (2 * ((i + 1 : ℕ) : ℝ) * (1 / 2 - 1 / nm + g)) = P at *
  have hP : 0 ≤ P * c := by
    refine mul_nonneg ?_ hc
    by_contra hn
    have h3 : 0 < (2:ℝ) ^ (((i + 1 : ℕ) : ℝ) * coefExponent H g nm) := by positivity
    rw [e1] at h3
    have : P * ((2:ℝ) ^ (1 + 2 * H)) ^ i * (2:ℝ) ^ (1 + 2 * H) ≤ 0 := by
      have h4 : (0:ℝ) ≤ ((2:ℝ) ^ (1 + 2 * H)) ^ i * (2:ℝ) ^ (1 + 2 * H) := by positivity
      nlinarith
    linarith
  rw [hsq, e1]
  constructor
  · have h3 := mul_le_mul_of_nonneg_left (hA i) hP
    have e3 : P * (c * -dblDetail wt (fun n => |(n : ℝ)| ^ (2 * H)) i) - c * (V / (2:ℝ) ^ (1 + 2 * H)) * (P * ((2:ℝ) ^ (1 + 2 * H)) ^ i * (2:ℝ) ^ (1 + 2 * H)) =
        P * c * (-dblDetail wt (fun n => |(n : ℝ)| ^ (2 * H)) i - V * ((2:ℝ) ^ (1 + 2 * H)) ^ i) := by field_simp
    rw [e3, abs_mul, abs_of_nonneg hP]
    refine h3.trans (le_of_eq ?_)
    rw [← e2]
    field_simp
  · have h3 := mul_le_mul_of_nonneg_left (hL i) hP
    refine le_trans (le_of_eq ?_) (h3.trans (le_of_eq (by ring)))
    field_simp

/-- **C97** for the simulator: the variance of the coefficients of the output of `fbm`, analysed with the default normalisation,
is `V sigma^2 dt^(2H) 2^(2Hj)` up to a relative error that decreases geometrically with the scale. -/
theorem C97_fbm {M : ℕ} (hM : VanishingMoments wt.dec_hi M) (hM1 : 1 ≤ M) (hwt : wt.Valid) (ho : OrthonormalBank wt) {H : ℝ}
    (h0 : 0 < H) (h1 : H < 1) : ∃ V C : ℝ, 0 < V ∧ 0 ≤ C ∧
    ∀ {Ω : Type u} [MeasurableSpace Ω] {μ : Measure Ω} {gen : Ω → ℕ → ℝ}, StdNormal μ gen →
    ∀ {N R : ℕ} {sigma : ℝ} {dt : Option ℝ} (z0 : Option (CArr R)), 2 ≤ N → (∀ d, dt = some d → 0 ≤ d) → R ≠ 0 →
      ∃ x : Ω → RArr R, Returns (fbm R N H sigma dt "cme" z0) gen x ∧
      ∀ {w : Ω → WT R} {p : PExp} {j1 : ℤ} {j2 : Option ℝ} {weighted : Bool},
      (∀ ω, waveletAnalysis (asFloats (x ω)) p wt j1 j2 0 1 weighted = .ok (w ω)) →
      ∀ {ω₀ : Ω} {j k : ℕ} {r₀ : Fin R}, (w ω₀).wt_coefs.Reported j k r₀ → ∀ r : Fin R,
      |∫ ω, (w ω).wt_coefs.number j k r ^ 2 ∂μ - V * sigma ^ 2 * effStep dt N ^ (2 * H) * (2:ℝ) ^ (2 * H * j)| ≤
        V * sigma ^ 2 * effStep dt N ^ (2 * H) * (2:ℝ) ^ (2 * H * j) * (C * (2:ℝ) ^ (-(2 * H * j))) := by
  obtain ⟨V, V₀, C, hV, -, hC, hd⟩ := C97_power_law.{u} hM hM1 hwt ho h0 h1 0 1
  refine ⟨V / 2, C, by positivity, hC, ?_⟩
  intro Ω _ μ gen hg N R sigma dt z0 hN hdt hR
  obtain ⟨x, hx, hG, -⟩ := C85_fbm (R := R) (sigma := sigma) z0 h0 h1.le hN hdt hR hg
  refine ⟨x, hx, ?_⟩
  intro w p j1 j2 weighted hw ω₀ j k r₀ hr r
  have hstep := (fgnDt_eq (by omega : N ≠ 0) hdt).2.le
  rw [fbm_powerLaw H sigma hstep] at hG
  have := (hd (by positivity) hG.toHasCovariance hw hr r).1
  rw [coefExponent_default, mul_comm (j : ℝ) (2 * H)] at this
  have e : sigma ^ 2 / 2 * effStep dt N ^ (2 * H) * V = V / 2 * sigma ^ 2 * effStep dt N ^ (2 * H) := by ring
  rw [e] at this
  exact this

/-! The hypotheses are met: `db2`, for every `H` in `(0, 1)`. -/
example (H : ℝ) (h0 : 0 < H) (h1 : H < 1) : VanishingMoments db2.dec_hi 2 ∧ db2.Valid ∧ OrthonormalBank db2 ∧
    ∃ (Ω : Type) (_ : MeasurableSpace Ω) (μ : Measure Ω) (x : Ω → RArr 2) (A : ℕ → ℝ) (w : Ω → WT 2) (ω₀ : Ω),
    HasCovariance μ 64 x (fun n m => A n + A m - 1 / 2 * |(n : ℝ) - m| ^ (2 * H)) ∧
    (∀ ω, waveletAnalysis (asFloats (x ω)) .inf db2 1 none 0 1 false = .ok (w ω)) ∧ (w ω₀).wt_coefs.Reported 2 2 0 := by
  obtain ⟨hv, ho, hm⟩ := db2_orthonormal
  refine ⟨hm, hv, ho, ?_⟩
  obtain ⟨Ω, m, μ, gen, x, w, -, -, ⟨A, hG⟩, hw, hr, ⟨ω₀⟩⟩ := fbm_db2_demo H h0 h1.le
  exact ⟨Ω, m, μ, x, A, w, ω₀, hG.toHasCovariance, hw, (hr ω₀).2.2.2⟩

end

end MFA
