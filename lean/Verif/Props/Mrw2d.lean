import Verif.Props.Frac2d
import Verif.Props.SimulMrwLaw
import Verif.Spec.Mrw2d

/-!
# C84: the two-dimensional multifractal random field
-/

namespace MFA

open MeasureTheory ProbabilityTheory Finset

noncomputable section

variable {N R : ℕ} {Ω : Type*} [MeasurableSpace Ω] {μ : Measure Ω} {g : Ω → ℕ → ℝ}

/-- Coefficient of noise value `(k, l)` in the log-volatility at `(a, b)`. -/
def volCoef (N : ℕ) (lam L : ℝ) (a b k l : Fin N) : ℂ :=
  csqrt (spectrum2 (corr2d N lam L) k l) * (ee N ((k : ℤ) * a) * ee N ((l : ℤ) * b)) / (N : ℂ) ^ 2

def vpos (N R : ℕ) (r : Fin R) (i : (Fin N × Fin N) × Bool) : ℕ :=
  (if i.2 then N * N * R else 0) + ((i.1.1 * N + i.1.2) * R + r)

def vcoef (N : ℕ) (lam L : ℝ) (a b : Fin N) (i : (Fin N × Fin N) × Bool) : ℝ :=
  if i.2 then -(volCoef N lam L a b i.1.1 i.1.2).im else (volCoef N lam L a b i.1.1 i.1.2).re

theorem logVol_eq (lam L : ℝ) (g : Rng) (a b : Fin N) (r : Fin R) :
    logVol2d N R lam L g a b r = ∑ i, vcoef N lam L a b i * g (vpos N R r i) := by
  rw [Fintype.sum_prod_type, Fintype.sum_prod_type]
  unfold logVol2d ifft2
  simp only []
  rw [sum_div, Complex.re_sum]
  refine sum_congr rfl fun k _ => ?_
  rw [sum_div, Complex.re_sum]
  refine sum_congr rfl fun l _ => ?_
  rw [exp_pair]
  simp only [Fintype.sum_bool, vcoef, vpos, if_true, Bool.false_eq_true, if_false, zero_add]
  have hs : fft2 (fun i j (_ : Fin 1) => (corr2d N lam L i j : ℂ)) k l 0 = spectrum2 (corr2d N lam L) k l := rfl
  have : ((randn3 N R g k l r : ℂ) + Complex.I * (randn3 N R (g.skip (N * N * R)) k l r : ℂ)) *
      csqrt (fft2 (fun i j (_ : Fin 1) => (corr2d N lam L i j : ℂ)) k l 0) * (ee N ((k : ℤ) * a) * ee N ((l : ℤ) * b)) / (N : ℂ) ^ 2
      = ((randn3 N R g k l r : ℂ) + Complex.I * (randn3 N R (g.skip (N * N * R)) k l r : ℂ)) * volCoef N lam L a b k l := by
    rw [hs, volCoef]; ring
  rw [this]
  simp only [Complex.mul_re, Complex.add_re, Complex.add_im, Complex.ofReal_re, Complex.ofReal_im, Complex.I_re, Complex.I_im,
    Complex.mul_im, randn3, Rng.skip]
  ring

theorem grid_lt (k l : Fin N) : (k : ℕ) * N + l < N * N := flat_pos_lt l k.isLt

theorem vpos_inj {r r' : Fin R} {i j : (Fin N × Fin N) × Bool} : vpos N R r i = vpos N R r' j ↔ i = j ∧ r = r' := by
  obtain ⟨⟨k, l⟩, bi⟩ := i
  obtain ⟨⟨k', l'⟩, bj⟩ := j
  have h1 := flat_pos_lt r (grid_lt k l)
  have h2 := flat_pos_lt r' (grid_lt k' l')
  have h3 : ((k : ℕ) * N + l) * R + r = ((k' : ℕ) * N + l') * R + r' ↔ (k = k' ∧ l = l') ∧ r = r' := by
    rw [flat_pos_inj, flat_pos_inj, Fin.val_inj]
  unfold vpos
  cases bi <;> cases bj <;> simp only [Prod.mk.injEq, Bool.false_eq_true, if_false, if_true, and_true, and_false, zero_add,
    false_and, reduceCtorEq, Nat.add_left_cancel_iff] at h1 h2 ⊢
  · exact h3
  · exact ⟨fun h => by exfalso; omega, fun h => h.elim⟩
  · exact ⟨fun h => by exfalso; omega, fun h => h.elim⟩
  · exact h3

theorem vpos_lt (r : Fin R) (i : (Fin N × Fin N) × Bool) : vpos N R r i < 2 * (N * N * R) := by
  have h1 := flat_pos_lt r (grid_lt i.1.1 i.1.2)
  unfold vpos
  split <;> omega

/-- The covariance grid of the code is the torus covariance translated to the centre. -/
theorem corr_eq_translate [NeZero N] (hE : Even N) (lam L : ℝ) :
    corr2d N lam L = fun i j => translate ⟨N / 2, Nat.div_lt_self (NeZero.pos N) one_lt_two⟩
      ⟨N / 2, Nat.div_lt_self (NeZero.pos N) one_lt_two⟩ (torusCovariance N lam L) i j := by
  have hf : ∀ i : Fin N, (freq N (i - ⟨N / 2, Nat.div_lt_self (NeZero.pos N) one_lt_two⟩) : ℤ) = (i : ℤ) - (N / 2 : ℕ) := by
    intro i
    have := i.isLt
    have h2 : N % 2 = 0 := Nat.even_iff.1 hE
    have hv : ((i - ⟨N / 2, Nat.div_lt_self (NeZero.pos N) one_lt_two⟩ : Fin N) : ℕ) = (N - N / 2 + i) % N := Fin.val_sub _ _
    unfold freq
    rw [hv]
    by_cases hi : N / 2 ≤ i
    · rw [Nat.mod_eq_sub_mod (by omega), Nat.mod_eq_of_lt (by omega), if_pos (by omega)]; omega
    · rw [Nat.mod_eq_of_lt (by omega), if_neg (by omega)]; omega
  funext i j
  unfold corr2d translate torusCovariance
  rw [hf, hf]
  push_cast
  rfl

theorem norm_spectrum_corr [NeZero N] (hE : Even N) (lam L : ℝ) (k l : Fin N) :
    ‖spectrum2 (corr2d N lam L) k l‖ = ‖spectrum2 (torusCovariance N lam L) k l‖ := by
  rw [corr_eq_translate hE, spectrum2_translate, norm_mul, norm_mul]
  have : ∀ a, ‖ee N a‖ = 1 := by
    intro a
    have := ee_normSq N a
    rw [Complex.normSq_eq_norm_sq] at this
    nlinarith [norm_nonneg (ee N a)]
  rw [this, this, one_mul, one_mul]

theorem volCoef_inner [NeZero N] (hE : Even N) (lam L : ℝ) (a b a' b' k l : Fin N) :
    (volCoef N lam L a b k l).re * (volCoef N lam L a' b' k l).re + (volCoef N lam L a b k l).im * (volCoef N lam L a' b' k l).im =
      ‖spectrum2 (torusCovariance N lam L) k l‖ *
        Real.cos (2 * Real.pi * ((k : ℝ) * ((a : ℝ) - a') + (l : ℝ) * ((b : ℝ) - b')) / N) / (N : ℝ) ^ 4 := by
  have h1 : (volCoef N lam L a b k l).re * (volCoef N lam L a' b' k l).re + (volCoef N lam L a b k l).im * (volCoef N lam L a' b' k l).im
      = (volCoef N lam L a b k l * (starRingEnd ℂ) (volCoef N lam L a' b' k l)).re := by
    simp [Complex.mul_re]
  have h2 : volCoef N lam L a b k l * (starRingEnd ℂ) (volCoef N lam L a' b' k l) =
      ((Complex.normSq (csqrt (spectrum2 (corr2d N lam L) k l)) / (N : ℝ) ^ 4 : ℝ) : ℂ) *
        ee N ((k : ℤ) * ((a : ℤ) - a') + (l : ℤ) * ((b : ℤ) - b')) := by
    unfold volCoef
    rw [map_div₀, map_mul, map_mul, ee_conj, ee_conj, map_pow, Complex.conj_natCast]
    have e : ee N ((k : ℤ) * ((a : ℤ) - a') + (l : ℤ) * ((b : ℤ) - b')) =
        ee N ((k : ℤ) * a) * ee N ((l : ℤ) * b) * (ee N (-((k : ℤ) * a')) * ee N (-((l : ℤ) * b'))) := by
      rw [← ee_add, ← ee_add, ← ee_add]; congr 1; ring
    rw [e]
    push_cast
    rw [← Complex.mul_conj]
    ring
  rw [h1, h2, Complex.re_ofReal_mul, ee_re, csqrt_normSq, norm_spectrum_corr hE]
  rw [div_mul_eq_mul_div]
  push_cast
  rfl

theorem evenSize_even (N : ℕ) : Even (evenSize N) := ⟨(N + 1) / 2, by unfold evenSize; ring⟩

/-- The log-volatility. -/
theorem logVol_field [NeZero N] (hE : Even N) (lam L : ℝ) (hg : StdNormal μ g) :
    GaussianField μ (fun ω (p : Fin N × Fin N × Fin R) => logVol2d N R lam L (g ω) p.1 p.2.1 p.2.2)
      fun p q => if p.2.2 = q.2.2 then fieldCovariance N lam L p.1 p.2.1 q.1 q.2.1 else 0 := by
  simp_rw [logVol_eq]
  refine ⟨?_, ?_, ?_⟩
  · exact hg.gaussian (fun (p : Fin N × Fin N × Fin R) (g : ℕ → ℝ) => ∑ i, vcoef N lam L p.1 p.2.1 i * g (vpos N R p.2.2 i))
      fun p => Lin.sum _ _ fun i _ => Lin.const_mul _ (Lin.eval _)
  · intro p; exact hg.whiteNoise.mean_lin _ _ _
  · intro p q
    rw [hg.whiteNoise.cov_lin]
    by_cases hr : p.2.2 = q.2.2
    · rw [if_pos hr]
      have h1 : ∀ i : (Fin N × Fin N) × Bool, ∑ j, vcoef N lam L p.1 p.2.1 i * vcoef N lam L q.1 q.2.1 j *
          (if vpos N R p.2.2 i = vpos N R q.2.2 j then 1 else 0) = vcoef N lam L p.1 p.2.1 i * vcoef N lam L q.1 q.2.1 i := by
        intro i
        simp only [vpos_inj, hr, and_true, mul_ite, mul_one, mul_zero, sum_ite_eq, mem_univ, if_true]
      simp_rw [h1]
      rw [Fintype.sum_prod_type, Fintype.sum_prod_type, fieldCovariance, sum_div]
      refine sum_congr rfl fun k _ => ?_
      rw [sum_div]
      refine sum_congr rfl fun l _ => ?_
      rw [← volCoef_inner hE, Fintype.sum_bool]
      simp only [vcoef, if_true, Bool.false_eq_true, if_false]
      ring
    · rw [if_neg hr]
      refine sum_eq_zero fun i _ => sum_eq_zero fun j _ => ?_
      rw [if_neg, mul_zero]
      rw [vpos_inj]
      exact fun h => hr h.2

/-- **C84**.  `mrw2D` (any `H`, `lam`, `L`, `sigma`, at least one sample) returns two fields of the size rounded up to an even number:
`X` is a white Gaussian noise times the exponential of an independent Gaussian field, whose covariance is that of
`fieldCovariance`; `BX` is the fractional integral of order `H + 1` of `X` (C83). -/
theorem C84_law (hN : N ≠ 0) (H lam L sigma : ℝ) (hg : StdNormal μ g) :
    evenSize N = N + N % 2 ∧
    ∃ X BX e v : Ω → Sq (evenSize N) R ℝ,
      (∀ ω, ∃ s, mrw2D N R H lam L sigma (g ω) = .ok s ∧ s.X = X ω ∧ s.BX = BX ω) ∧
      Mrw2dLaw μ lam L X e v ∧ ∀ ω, fractInt2d (X ω) (H + 1) = .ok (BX ω) := by
  refine ⟨by unfold evenSize; omega, ?_⟩
  have hM : evenSize N ≠ 0 := by unfold evenSize; omega
  have hE := evenSize_even N
  set M := evenSize N with hMdef
  have : NeZero M := ⟨hM⟩
  let v : Ω → Sq M R ℝ := fun ω => logVol2d M R lam L (g ω)
  let e : Ω → Sq M R ℝ := fun ω => randn3 M R (Rng.skip (g ω) (2 * (M * M * R)))
  let X : Ω → Sq M R ℝ := fun ω a b r => e ω a b r * Real.exp (v ω a b r)
  have hBX := fun ω => (C83_filter hE (X ω) (H + 1)).1 hM
  choose BX hBX _ using hBX
  refine ⟨X, BX, e, v, ?_, ⟨?_, logVol_field hE lam L hg, ?_, fun ω a b r => rfl⟩, hBX⟩
  · intro ω
    refine ⟨{ BX := BX ω, X := X ω, rng := Rng.skip (g ω) (3 * (M * M * R)) }, ?_, rfl, rfl⟩
    unfold mrw2D
    simp only []
    rw [if_neg hM]
    have := hBX ω
    simp only [X, e, v] at this
    rw [this]
  · have hg' := hg.skip (2 * (M * M * R))
    refine ⟨?_, ?_, ?_⟩
    · exact hg'.gaussian (fun (p : Fin M × Fin M × Fin R) (g : ℕ → ℝ) => g ((p.1 * M + p.2.1) * R + p.2.2)) fun p => Lin.eval _
    · intro p; exact hg'.whiteNoise.mean _
    · intro p q
      refine (hg'.whiteNoise.cov _ _).trans ?_
      have : ((p.1 : ℕ) * M + p.2.1) * R + p.2.2 = ((q.1 : ℕ) * M + q.2.1) * R + q.2.2 ↔ p = q := by
        rw [flat_pos_inj, flat_pos_inj, Fin.val_inj, Prod.ext_iff, Prod.ext_iff]
        tauto
      simp only [this]
  · refine hg.independent (S := {i | 2 * (M * M * R) ≤ i}) (T := {i | i < 2 * (M * M * R)})
      (Set.disjoint_left.2 fun i (h : 2 * (M * M * R) ≤ i) (h' : i < 2 * (M * M * R)) => absurd h' (not_lt.2 h))
      (fun (p : Fin M × Fin M × Fin R) (g : Rng) => g (2 * (M * M * R) + ((p.1 * M + p.2.1) * R + p.2.2)))
      (fun (p : Fin M × Fin M × Fin R) (g : Rng) => logVol2d M R lam L g p.1 p.2.1 p.2.2) ?_ ?_
    · intro p; exact LinOn.eval (Nat.le_add_right _ _)
    · intro p
      simp_rw [logVol_eq]
      exact LinOn.sum _ _ fun i _ => LinOn.const_mul _ (LinOn.eval (vpos_lt p.2.2 i))

end

end MFA
