import Verif.Lemmas.Decay
import Verif.Props.WaveletNoise
import Mathlib.Analysis.PSeries

/-!
# Properties C95, C96: the wavelet transform decorrelates; the structure function of order 2 is a consistent estimate

The signals have stationary increments with a power law variogram: covariance `A n + A m - c |n - m|^(2H)`, like fractional
Brownian motion.  All constants depend on the wavelet, the scales, `H` and the normalisation, but neither on the length of the
signal, nor on the positions, nor on `A` and `c`.
-/

namespace MFA

universe u

open Classical Finset MeasureTheory ProbabilityTheory

noncomputable section

variable {Ω : Type u} [MeasurableSpace Ω] {μ : Measure Ω} {wt : Wavelet}

theorem nested_mul (wt : Wavelet) (c : ℝ) (G : ℤ → ℝ) (j j' : ℕ) (k k' : ℤ) :
    idealDetail wt (fun s => idealDetail wt (fun t => c * G (s - t)) j' k') j k =
      c * idealDetail wt (fun s => idealDetail wt (fun t => G (s - t)) j' k') j k := by
  have e : ∀ (y : ℤ → ℝ) (j : ℕ) (k : ℤ), idealDetail wt (fun t => c * y t) j k = c * idealDetail wt y j k := fun y j k => by
    have := idealDetail_linear wt c 0 y (fun _ => 0) j k
    simpa using this
  rw [← e]
  congr 1
  funext s
  rw [e]

/-- The covariance of two coefficients is `c` times a function of the distance of their positions, which decays. -/
theorem cov_shape {M : ℕ} (hM : VanishingMoments wt.dec_hi M) (hM1 : 1 ≤ M) (hwt : wt.Valid) {H : ℝ} (hH : H ≤ M) (j j' : ℕ)
    (g nm : ℝ) : ∃ T : ℤ → ℝ, (∃ C, 0 ≤ C ∧ ∀ n : ℤ, |T n| ≤ C * (1 + |(n : ℝ)|) ^ (2 * H - 2 * M)) ∧
    ∀ {Ω : Type u} [MeasurableSpace Ω] {μ : Measure Ω} {N R : ℕ} {x : Ω → List (Fin R → ℝ)} {A : ℕ → ℝ} {c : ℝ} {w : Ω → WT R} {p : PExp} {j1 : ℤ} {j2 : Option ℝ} {weighted : Bool},
      HasCovariance μ N x (fun n m => A n + A m - c * |(n : ℝ) - m| ^ (2 * H)) →
      (∀ ω, waveletAnalysis (asFloats (x ω)) p wt j1 j2 g nm weighted = .ok (w ω)) →
      ∀ {ω₀ : Ω} {k k' : ℕ} {r₀ : Fin R}, (w ω₀).wt_coefs.Reported j k r₀ → (w ω₀).wt_coefs.Reported j' k' r₀ → ∀ r : Fin R,
      ∫ ω, (w ω).wt_coefs.number j k r * (w ω).wt_coefs.number j' k' r ∂μ = c * T ((k : ℤ) * 2 ^ j - (k' : ℤ) * 2 ^ j') := by
  by_cases hj : 1 ≤ j ∧ 1 ≤ j'
  · obtain ⟨T, ⟨C, hC, hT⟩, hd⟩ := detail_decay hM (a := 2 * H) (by linarith) hj.1 hj.2
    refine ⟨fun n => -((2:ℝ) ^ ((j : ℝ) * (1 / 2 - 1 / nm + g)) * (2:ℝ) ^ ((j' : ℝ) * (1 / 2 - 1 / nm + g)) * T n),
      ⟨(2:ℝ) ^ ((j : ℝ) * (1 / 2 - 1 / nm + g)) * (2:ℝ) ^ ((j' : ℝ) * (1 / 2 - 1 / nm + g)) * C, by positivity, fun n => ?_⟩, ?_⟩
    · rw [abs_neg, abs_mul, abs_of_nonneg (by positivity : (0:ℝ) ≤ (2:ℝ) ^ ((j : ℝ) * (1 / 2 - 1 / nm + g)) * (2:ℝ) ^ ((j' : ℝ) * (1 / 2 - 1 / nm + g)))]
      exact (mul_le_mul_of_nonneg_left (hT n) (by positivity)).trans (le_of_eq (by ring))
    · intro Ω _ μ N R x A c w p j1 j2 weighted hx hw ω₀ k k' r₀ hr hr' r
      rw [C89_covariance (A := A) (G := fun i => c * |(i : ℝ)| ^ (2 * H)) (fun n m => by push_cast; ring) hM hM1 hwt hx hw hr hr' r,
        nested_mul wt c (fun i => |(i : ℝ)| ^ (2 * H)), hd]
      ring
  · refine ⟨fun _ => 0, ⟨0, le_rfl, by simp⟩, ?_⟩
    intro Ω _ μ N R x A c w p j1 j2 weighted hx hw ω₀ k k' r₀ hr hr' r
    exact absurd ⟨(random_linear hwt hx.length hw hr).1, (random_linear hwt hx.length hw hr').1⟩ hj

/-- **C95**.  With `M` vanishing moments the covariance of the coefficients `(j, k)` and `(j', k')` decays like the distance in time
of their positions to the power `2H - 2M`, at a rate uniform in the length of the signal. -/
theorem C95_decorrelation {M : ℕ} (hM : VanishingMoments wt.dec_hi M) (hM1 : 1 ≤ M) (hwt : wt.Valid) {H : ℝ} (hH : H ≤ M)
    (j j' : ℕ) (g nm : ℝ) : ∃ C, 0 ≤ C ∧
    ∀ {Ω : Type u} [MeasurableSpace Ω] {μ : Measure Ω} {N R : ℕ} {x : Ω → List (Fin R → ℝ)} {A : ℕ → ℝ} {c : ℝ} {w : Ω → WT R} {p : PExp} {j1 : ℤ} {j2 : Option ℝ} {weighted : Bool},
      HasCovariance μ N x (fun n m => A n + A m - c * |(n : ℝ) - m| ^ (2 * H)) →
      (∀ ω, waveletAnalysis (asFloats (x ω)) p wt j1 j2 g nm weighted = .ok (w ω)) →
      ∀ {ω₀ : Ω} {k k' : ℕ} {r₀ : Fin R}, (w ω₀).wt_coefs.Reported j k r₀ → (w ω₀).wt_coefs.Reported j' k' r₀ → ∀ r : Fin R,
      |∫ ω, (w ω).wt_coefs.number j k r * (w ω).wt_coefs.number j' k' r ∂μ| ≤
        C * |c| * (1 + |(k : ℝ) * 2 ^ j - (k' : ℝ) * 2 ^ j'|) ^ (2 * H - 2 * M) := by
  obtain ⟨T, ⟨C, hC, hT⟩, hd⟩ := cov_shape.{u} hM hM1 hwt hH j j' g nm
  refine ⟨C, hC, ?_⟩
  intro Ω _ μ N R x A c w p j1 j2 weighted hx hw ω₀ k k' r₀ hr hr' r
  rw [hd hx hw hr hr' r, abs_mul]
  have := hT ((k : ℤ) * 2 ^ j - (k' : ℤ) * 2 ^ j')
  push_cast at this
  calc |c| * |T _| ≤ |c| * _ := mul_le_mul_of_nonneg_left this (abs_nonneg _)
    _ = _ := by ring

theorem summable_decay {e : ℝ} (he : e < -1) : Summable fun n : ℤ => (1 + |(n : ℝ)|) ^ e := by
  have h1 : Summable fun n : ℤ => |(n : ℝ)| ^ (-(-e)) := Real.summable_abs_int_rpow (by linarith)
  rw [neg_neg] at h1
  refine Summable.of_norm_bounded_eventually (g := fun n : ℤ => |(n : ℝ)| ^ e) h1 ?_
  refine (Set.finite_singleton (0 : ℤ)).subset fun n hn => ?_
  by_contra hne
  apply hn
  have h0 : 0 < |(n : ℝ)| := abs_pos.2 (by exact_mod_cast hne)
  show ‖(1 + |(n : ℝ)|) ^ e‖ ≤ |(n : ℝ)| ^ e
  rw [Real.norm_of_nonneg (by positivity)]
  exact Real.rpow_le_rpow_of_nonpos h0 (by linarith) (by linarith)

/-- Sum over positions of one scale. -/
theorem sum_decay_le {e : ℝ} (he : e < -1) (j k : ℕ) (K : Finset ℕ) :
    ∑ k' ∈ K, (1 + |(k : ℝ) * 2 ^ j - (k' : ℝ) * 2 ^ j|) ^ e ≤ ∑' n : ℤ, (1 + |(n : ℝ)|) ^ e := by
  have h1 : ∑ k' ∈ K, (1 + |(k : ℝ) * 2 ^ j - (k' : ℝ) * 2 ^ j|) ^ e ≤ ∑ k' ∈ K, (1 + |(((k : ℤ) - k' : ℤ) : ℝ)|) ^ e := by
    refine sum_le_sum fun k' _ => Real.rpow_le_rpow_of_nonpos (by positivity) ?_ (by linarith)
    rw [← sub_mul, abs_mul, abs_of_nonneg (by positivity : (0:ℝ) ≤ 2 ^ j)]
    push_cast
    have : (1:ℝ) ≤ 2 ^ j := one_le_pow₀ (by norm_num)
    have := abs_nonneg ((k : ℝ) - k')
    nlinarith
  refine h1.trans ?_
  have hinj : Set.InjOn (fun k' : ℕ => (k : ℤ) - k') K := fun a _ b _ h => by simpa using h
  rw [← sum_image (f := fun n : ℤ => (1 + |(n : ℝ)|) ^ e) hinj]
  exact (summable_decay he).sum_le_tsum _ fun n _ => by positivity

/-- **C95**, short memory: if `2H - 2M < -1` (two vanishing moments are enough for every `H ≤ 1`) the covariances of one coefficient
with all the others of its scale have a sum bounded uniformly in the length of the signal, although for `H > 1/2` the increments
of the signal have a long memory. -/
theorem C95_short_memory {M : ℕ} (hM : VanishingMoments wt.dec_hi M) (hM1 : 1 ≤ M) (hwt : wt.Valid) {H : ℝ}
    (hH : 2 * H - 2 * M < -1) (j : ℕ) (g nm : ℝ) : ∃ C, 0 ≤ C ∧
    ∀ {Ω : Type u} [MeasurableSpace Ω] {μ : Measure Ω} {N R : ℕ} {x : Ω → List (Fin R → ℝ)} {A : ℕ → ℝ} {c : ℝ} {w : Ω → WT R} {p : PExp} {j1 : ℤ} {j2 : Option ℝ} {weighted : Bool},
      HasCovariance μ N x (fun n m => A n + A m - c * |(n : ℝ) - m| ^ (2 * H)) →
      (∀ ω, waveletAnalysis (asFloats (x ω)) p wt j1 j2 g nm weighted = .ok (w ω)) →
      ∀ {ω₀ : Ω} {k : ℕ} {r : Fin R} (K : Finset ℕ), (w ω₀).wt_coefs.Reported j k r →
      (∀ k' ∈ K, (w ω₀).wt_coefs.Reported j k' r) →
      ∑ k' ∈ K, |∫ ω, (w ω).wt_coefs.number j k r * (w ω).wt_coefs.number j k' r ∂μ| ≤ C * |c| := by
  obtain ⟨C, hC, hd⟩ := C95_decorrelation.{u} hM hM1 hwt (H := H) (by linarith) j j g nm
  refine ⟨C * ∑' n : ℤ, (1 + |(n : ℝ)|) ^ (2 * H - 2 * M), mul_nonneg hC (tsum_nonneg fun n => by positivity), ?_⟩
  intro Ω _ μ N R x A c w p j1 j2 weighted hx hw ω₀ k r K hr hK
  calc _ ≤ ∑ k' ∈ K, C * |c| * (1 + |(k : ℝ) * 2 ^ j - (k' : ℝ) * 2 ^ j|) ^ (2 * H - 2 * M) :=
        sum_le_sum fun k' hk' => hd hx hw hr (hK k' hk') r
    _ ≤ _ := by
        rw [← mul_sum, mul_right_comm]
        exact mul_le_mul_of_nonneg_right (mul_le_mul_of_nonneg_left (sum_decay_le hH j k K) hC) (abs_nonneg c)

/-- The covariance of the samples of fractional Brownian motion is of the kind considered. -/
theorem fbm_powerLaw (H sigma : ℝ) {d : ℝ} (hd : 0 ≤ d) : (fun n m : ℕ => fbmCovariance H sigma ((n + 1 : ℕ) * d) ((m + 1 : ℕ) * d)) =
    fun n m : ℕ => (fun n : ℕ => sigma ^ 2 / 2 * |((n + 1 : ℕ) : ℝ) * d| ^ (2 * H)) n +
      (fun n : ℕ => sigma ^ 2 / 2 * |((n + 1 : ℕ) : ℝ) * d| ^ (2 * H)) m - sigma ^ 2 / 2 * d ^ (2 * H) * |(n : ℝ) - m| ^ (2 * H) := by
  funext n m
  simp only [fbmCovariance]
  have e : ((m + 1 : ℕ) : ℝ) * d - ((n + 1 : ℕ) : ℝ) * d = -(((n : ℝ) - m) * d) := by push_cast; ring
  rw [e, abs_neg, abs_mul ((n : ℝ) - m) d, abs_of_nonneg hd, Real.mul_rpow (abs_nonneg ((n : ℝ) - m)) hd]
  ring

/-- **C95** for the simulator: `fbm` followed by `wavelet_analysis`, for signals of every length. -/
theorem C95_fbm {M : ℕ} (hM : VanishingMoments wt.dec_hi M) (hM1 : 1 ≤ M) (hwt : wt.Valid) {H : ℝ} (h0 : 0 < H) (h1 : H ≤ 1)
    (j j' : ℕ) (g nm : ℝ) {gen : Ω → ℕ → ℝ} (hg : StdNormal μ gen) : ∃ C, 0 ≤ C ∧
    ∀ {N R : ℕ} {sigma : ℝ} {dt : Option ℝ} (z0 : Option (CArr R)), 2 ≤ N → (∀ d, dt = some d → 0 ≤ d) → R ≠ 0 →
      ∃ x : Ω → RArr R, Returns (fbm R N H sigma dt "cme" z0) gen x ∧
      ∀ {w : Ω → WT R} {p : PExp} {j1 : ℤ} {j2 : Option ℝ} {weighted : Bool},
      (∀ ω, waveletAnalysis (asFloats (x ω)) p wt j1 j2 g nm weighted = .ok (w ω)) →
      ∀ {ω₀ : Ω} {k k' : ℕ} {r₀ : Fin R}, (w ω₀).wt_coefs.Reported j k r₀ → (w ω₀).wt_coefs.Reported j' k' r₀ → ∀ r : Fin R,
      |∫ ω, (w ω).wt_coefs.number j k r * (w ω).wt_coefs.number j' k' r ∂μ| ≤
        C * (sigma ^ 2 * effStep dt N ^ (2 * H)) * (1 + |(k : ℝ) * 2 ^ j - (k' : ℝ) * 2 ^ j'|) ^ (2 * H - 2 * M) := by
  obtain ⟨C, hC, hd⟩ := C95_decorrelation.{u} hM hM1 hwt (H := H) (h1.trans (by exact_mod_cast hM1)) j j' g nm
  refine ⟨C / 2, by positivity, ?_⟩
  intro N R sigma dt z0 hN hdt hR
  obtain ⟨x, hx, hG, -⟩ := C85_fbm (R := R) (sigma := sigma) z0 h0 h1 hN hdt hR hg
  refine ⟨x, hx, ?_⟩
  intro w p j1 j2 weighted hw ω₀ k k' r₀ hr hr' r
  have hs : 0 ≤ effStep dt N := by
    unfold effStep
    split
    · positivity
    · cases dt with
      | none => simp
      | some d => exact hdt d rfl
  have hc := hG.toHasCovariance
  rw [fbm_powerLaw H sigma hs] at hc
  refine (hd hc hw hr hr' r).trans (le_of_eq ?_)
  rw [abs_of_nonneg (by positivity)]
  ring

/-! The hypotheses are met: fractional Brownian motion of 64 samples analysed with `db2`, which has two vanishing moments. -/
theorem fbm_db2_demo (H : ℝ) (h0 : 0 < H) (h1 : H ≤ 1) : ∃ (Ω : Type) (_ : MeasurableSpace Ω) (μ : Measure Ω) (gen : Ω → ℕ → ℝ) (x : Ω → RArr 2) (w : Ω → WT 2), StdNormal μ gen ∧
    Returns (fbm 2 64 H 1 (some 1) "cme" none) gen x ∧
    (∃ A : ℕ → ℝ, GaussianArray μ 64 x (fun n m => A n + A m - 1 / 2 * |(n : ℝ) - m| ^ (2 * H))) ∧
    (∀ ω, waveletAnalysis (asFloats (x ω)) .inf db2 1 none 0 1 false = .ok (w ω)) ∧
    (∀ ω, (w ω).wt_coefs.values.length = 3 ∧ (w ω).wt_coefs.Reported 1 3 0 ∧ (w ω).wt_coefs.Reported 1 4 0 ∧ (w ω).wt_coefs.Reported 2 2 0) ∧
    Nonempty Ω := by
  obtain ⟨hv, ho, -⟩ := db2_orthonormal
  obtain ⟨Ω, m, μ, gen, h⟩ := exists_stdNormal
  obtain ⟨x, hx, hG, -⟩ := C85_fbm (R := 2) (sigma := 1) (N := 64) (dt := some 1) none h0 h1 (by norm_num)
    (by intro d hd; cases hd; norm_num) (by norm_num) h
  have hw : ∀ ω, ∃ w, waveletAnalysis (asFloats (x ω)) .inf db2 1 none 0 1 false = .ok w := fun ω =>
    C05_total _ .inf (Or.inr rfl) db2 1 none 0 1 false (by norm_num)
      (by intro h0; have := congrArg List.length h0; simp [asFloats, hG.length ω] at this) (by norm_num)
  choose w hw using hw
  have hlev : decompositionLevel 64 db2 = .ok ((3 : ℕ) : ℤ) := (C01_integer 64 3 _ (by norm_num)).mpr (by simp [db2])
  have hp := h.isProbabilityMeasure
  have hΩ : Nonempty Ω := by
    by_contra hne
    rw [not_nonempty_iff] at hne
    have := measure_univ (μ := μ)
    rw [Set.univ_eq_empty_iff.2 hne, measure_empty] at this
    exact zero_ne_one this
  refine ⟨Ω, m, μ, gen, x, w, h, hx, ?_, hw, ?_, hΩ⟩
  · have he : effStep (some 1) 64 = 1 := by simp [effStep]
    rw [he, fbm_powerLaw H 1 zero_le_one] at hG
    have e : (1:ℝ) ^ 2 / 2 * 1 ^ (2 * H) = 1 / 2 := by rw [Real.one_rpow]; norm_num
    rw [e] at hG
    exact ⟨fun n => 1 ^ 2 / 2 * |((n + 1 : ℕ) : ℝ) * 1| ^ (2 * H), hG⟩
  · intro ω
    have h0 := hw ω
    rw [asFloats_sampled (hG.length ω)] at h0
    have hlen : (w ω).wt_coefs.values.length = 3 := by
      obtain ⟨w0, hw0⟩ := C05_total (sampled 64 fun r t => ((x ω).getD t.toNat fun _ => 0) r) .none (Or.inl rfl) db2 1 none 0 1 false
        (by norm_num) (by simp [sampled]) (by norm_num)
      obtain ⟨l, -, -, he, -⟩ := C09_leader_scales (by norm_num) hv (by simp [db2]) h0 hw0
      rw [he, C09_scales (by norm_num) hv hw0 (by norm_num) hlev, if_pos (by simp [db2])]
    refine ⟨hlen, interior_reported hv h0 (by norm_num) (by omega) ?_ 0, interior_reported hv h0 (by norm_num) (by omega) ?_ 0,
      interior_reported hv h0 (by norm_num) (by omega) ?_ 0⟩ <;> simp [interior, db2]

end

end MFA
