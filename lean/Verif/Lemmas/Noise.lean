import Verif.Spec.Noise
import Mathlib.Probability.HasLawExists
import Mathlib.Probability.Independence.Integration

/-!
# Independent standard normal draws are white noise, and exist
-/

namespace MFA

open MeasureTheory ProbabilityTheory

noncomputable section

variable {Ω : Type*} [MeasurableSpace Ω] {μ : Measure Ω} {g : Ω → ℕ → ℝ}

theorem StdNormal.isProbabilityMeasure (h : StdNormal μ g) : IsProbabilityMeasure μ := (h.law 0).isProbabilityMeasure

theorem StdNormal.memLp (h : StdNormal μ g) (i : ℕ) : MemLp (fun ω => g ω i) 2 μ := by
  have := memLp_id_gaussianReal' (μ := 0) (v := 1) 2 (by simp)
  have h1 : MemLp id 2 (μ.map fun ω => g ω i) := by rw [(h.law i).map_eq]; exact this
  exact h1.comp_of_map (h.law i).aemeasurable

/-- Independent standard normal draws are white noise. -/
theorem StdNormal.whiteNoise (h : StdNormal μ g) : WhiteNoise μ g := by
  have hp := h.isProbabilityMeasure
  have hmean : ∀ i, ∫ ω, g ω i ∂μ = 0 := by
    intro i
    rw [(h.law i).integral_eq, integral_id_gaussianReal]
  refine ⟨fun i => (h.memLp i).integrable (by norm_num), fun i k => (h.memLp i).integrable_mul (h.memLp k), hmean, ?_⟩
  intro i k
  split
  · rename_i hik
    subst hik
    have hv := (h.law i).variance_eq
    rw [variance_id_gaussianReal, variance_eq_sub (h.memLp i), hmean i] at hv
    simp only [Pi.pow_apply, NNReal.coe_one] at hv
    have : ∫ ω, g ω i * g ω i ∂μ = ∫ ω, g ω i ^ 2 ∂μ := by congr 1; funext ω; ring
    rw [this]; linarith
  · rename_i hik
    have hind : IndepFun (fun ω => g ω i) (fun ω => g ω k) μ := h.indep.indepFun hik
    rw [hind.integral_fun_mul_eq_mul_integral (h.memLp i).aestronglyMeasurable (h.memLp k).aestronglyMeasurable,
      hmean i, zero_mul]

/-- Such a stream exists. -/
theorem exists_stdNormal : ∃ (Ω : Type) (_ : MeasurableSpace Ω) (μ : Measure Ω) (g : Ω → ℕ → ℝ), StdNormal μ g := by
  obtain ⟨Ω, m, P, X, -, hlaw, hind, -⟩ := exists_iid ℕ (gaussianReal 0 1)
  exact ⟨Ω, m, P, fun ω i => X i ω, hlaw, hind⟩

end

end MFA
