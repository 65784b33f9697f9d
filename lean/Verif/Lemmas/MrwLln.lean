import Verif.Lemmas.MrwWindow
import Verif.Props.LargeNumbers
import Verif.Lemmas.Spectrum

/-! Law of large numbers for the wavelet coefficients of multifractal random walks. -/

namespace MFA

universe u

open Classical Finset MeasureTheory ProbabilityTheory

noncomputable section

variable {R : ℕ} {Ω : Type u} [MeasurableSpace Ω] {μ : Measure Ω} {N : ℕ} {x e v : Ω → List (Fin R → ℝ)} {wt : Wavelet} {lam L sigma : ℝ}

/-- The increments of the walk are proportional to modulated noise, with a random factor. -/
theorem MrwLaw.modulated (h : MrwLaw μ N (1 / 2) lam L sigma x e v) (hs : sigma ≠ 0) (hN : N ≠ 0) (r : Fin R) :
    ∃ (e' w' : ℕ → Ω → ℝ) (κ : Ω → ℝ), ModulatedNoise μ N e' w' (mrwLogCovariance lam L) ∧ (∀ ω, 0 < κ ω) ∧
      ∀ n < N, ∀ ω, increment x n r ω = κ ω * (e' n ω * Real.exp (w' n ω)) := by
  have hN0 : (0:ℝ) < N := by exact_mod_cast (by omega : 0 < N)
  have hs0 : 0 < |sigma| := abs_pos.2 hs
  obtain ⟨a, ha⟩ : ∃ a, a = √N / |sigma| := ⟨_, rfl⟩
  have ha0 : 0 < a := by rw [ha]; positivity
  have ha2 : a ^ 2 * (sigma ^ 2 * (1 / N)) = 1 := by
    rw [ha, div_pow, Real.sq_sqrt hN0.le, sq_abs]
    field_simp
  refine ⟨fun n ω => a * sample e n r ω, fun n ω => sample v n r ω,
    fun ω => a⁻¹ * Real.exp (-((∑ k ∈ range N, sample v k r ω) / N + lam ^ 2 / 2 * Real.log L)), ⟨?_, ?_, ?_, ?_, ?_, ?_, ?_⟩, fun ω => by positivity, ?_⟩
  · have := h.noise.gaussian.map_fun (ContinuousLinearMap.pi (fun n : Fin N => a • ContinuousLinearMap.proj (R := ℝ) (φ := fun _ : Fin N × Fin R => ℝ) (n, r)))
    exact this.congr (Filter.Eventually.of_forall fun ω => by funext n; rfl)
  · have := h.volatility.gaussian.map_fun (ContinuousLinearMap.pi (fun n : Fin N => ContinuousLinearMap.proj (R := ℝ) (φ := fun _ : Fin N × Fin R => ℝ) (n, r)))
    exact this.congr (Filter.Eventually.of_forall fun ω => by funext n; rfl)
  · exact h.independent.comp (φ := fun y (n : Fin N) => a * y (n, r)) (ψ := fun y (n : Fin N) => y (n, r)) (by fun_prop) (by fun_prop)
  · intro n hn
    rw [integral_const_mul]
    have := h.noise.mean n hn r
    simp only [sample]; rw [this, mul_zero]
  · intro n hn
    exact h.volatility.mean n hn r
  · intro n hn m hm
    have e1 : ∀ ω, a * sample e n r ω * (a * sample e m r ω) = a ^ 2 * (sample e n r ω * sample e m r ω) := fun ω => by ring
    simp only [e1]
    rw [integral_const_mul]
    have := h.noise.cov n hn m hm r r
    rw [if_pos rfl, ← fgnCov_spec (by positivity : (0:ℝ) < 1 / N), fgnCov_half] at this
    simp only [sample]
    rw [this]
    by_cases hnm : n = m
    · subst hnm
      rw [if_pos rfl, if_pos (by simp), ha2]
    · rw [if_neg hnm, if_neg (by omega), mul_zero]
  · intro n hn m hm
    have := h.volatility.cov n hn m hm r r
    rw [if_pos rfl] at this
    exact this
  · intro n hn ω
    rw [h.walk n hn r ω, sub_sub, sub_eq_add_neg, Real.exp_add]
    field_simp

theorem sample_increments (n : ℕ) (r : Fin R) (ω : Ω) : sample x n r ω = ∑ i ∈ range (n + 1), increment x i r ω := by
  induction n with
  | zero => simp [increment]
  | succ n ih =>
    rw [sum_range_succ, ← ih]
    simp [increment]

/-- The coefficients in terms of the increments. -/
theorem coef_increments {M : ℕ} (hM : VanishingMoments wt.dec_hi M) (hM1 : 1 ≤ M) (hwt : wt.Valid) {p : PExp} {j1 : ℤ}
    {j2 : Option ℝ} {g nm : ℝ} {weighted : Bool} {w : Ω → WT R} (hl : ∀ ω, (x ω).length = N)
    (hw : ∀ ω, waveletAnalysis (asFloats (x ω)) p wt j1 j2 g nm weighted = .ok (w ω)) {ω₀ : Ω} {j k : ℕ} {r₀ : Fin R}
    (hr : (w ω₀).wt_coefs.Reported j k r₀) : (∀ n : ℤ, n ∉ Ico (0:ℤ) N → stepWeight wt j k n = 0) ∧
    ∀ ω r, (w ω).wt_coefs.number j k r = (2:ℝ) ^ ((j : ℝ) * (1 / 2 - 1 / nm + g)) * ∑ n ∈ range N, stepWeight wt j k n * increment x n r ω := by
  obtain ⟨-, -, h1, h2⟩ := random_linear hwt hl hw hr
  have hstep : ∀ n : ℤ, stepWeight wt j k n = ∑ t ∈ range N, weight wt j k t * if n ≤ (t : ℤ) then 1 else 0 := fun n => h2 _
  refine ⟨fun n hn => ?_, fun ω r => ?_⟩
  · rw [mem_Ico, not_and_or] at hn
    rcases hn with hn | hn
    · have h0 := idealDetail_vanish wt hM (1 : Polynomial ℝ) (by simp; omega) j k
      simp only [Polynomial.eval_one] at h0
      rw [h2] at h0
      rw [hstep, ← h0]
      exact sum_congr rfl fun t _ => by rw [if_pos (by omega)]
    · rw [hstep]
      refine sum_eq_zero fun t ht => ?_
      rw [mem_range] at ht
      rw [if_neg (by omega), mul_zero]
  · rw [h1 ω r]
    congr 1
    have e1 : ∀ t ∈ range N, weight wt j k t * sample x t r ω = ∑ n ∈ range N, weight wt j k t * (if (n : ℤ) ≤ (t : ℤ) then 1 else 0) * increment x n r ω := by
      intro t ht
      rw [mem_range] at ht
      rw [sample_increments, mul_sum]
      have : range (t + 1) = (range N).filter fun n : ℕ => (n : ℤ) ≤ (t : ℤ) := by
        ext n; simp only [mem_range, mem_filter]; omega
      rw [this, sum_filter]
      refine sum_congr rfl fun n _ => ?_
      split <;> simp
    rw [sum_congr rfl e1, sum_comm]
    refine sum_congr rfl fun n _ => ?_
    rw [hstep, sum_mul]

/-- The moments of the detail coefficients at scale `j + 1`. -/
structure DetailMoments (wt : Wavelet) (lam L : ℝ) (j : ℕ) (m4 D : ℝ) (T : ℕ) : Prop where
  nonneg : 0 ≤ D
  fourth : ∀ c, 0 < c → c * ((2 * wt.dec_hi.length * 2 ^ j : ℕ) : ℝ) ^ 2 ≤ stepEnergy wt j → 4 * lam ^ 2 < 1 → ((2 * wt.dec_hi.length * 2 ^ j : ℕ) : ℝ) ≤ L →
        3 * L ^ (8 * lam ^ 2) * (stepEnergy wt j ^ 2 * ((2 * wt.dec_hi.length * 2 ^ j : ℕ) : ℝ) ^ (-(4 * lam ^ 2))) ≤ m4 ∧
        m4 ≤ 2 / (c * (1 - 4 * lam ^ 2)) * (3 * L ^ (8 * lam ^ 2) * (stepEnergy wt j ^ 2 * ((2 * wt.dec_hi.length * 2 ^ j : ℕ) : ℝ) ^ (-(4 * lam ^ 2))))
  law : ∀ {Ω : Type u} [MeasurableSpace Ω] {μ : Measure Ω} {N : ℕ} {e w : ℕ → Ω → ℝ}, ModulatedNoise μ N e w (mrwLogCovariance lam L) →
      ∀ k : ℕ, (∀ n : ℤ, n ∉ Ico (0:ℤ) N → stepWeight wt (j + 1) k n = 0) →
      (∀ q ≤ 8, Integrable (fun ω => modSum e w (range N) (fun n => stepWeight wt (j + 1) k n) ω ^ q) μ) ∧
      ∫ ω, modSum e w (range N) (fun n => stepWeight wt (j + 1) k n) ω ^ 2 ∂μ = Real.exp (2 * mrwLogCovariance lam L 0) * stepEnergy wt j ∧
      ∫ ω, modSum e w (range N) (fun n => stepWeight wt (j + 1) k n) ω ^ 4 ∂μ = m4 ∧
      ∫ ω, modSum e w (range N) (fun n => stepWeight wt (j + 1) k n) ω ^ 8 ∂μ ≤ D ∧
      ∀ l : ℕ, (∀ n : ℤ, n ∉ Ico (0:ℤ) N → stepWeight wt (j + 1) l n = 0) → T < Int.natAbs ((k : ℤ) - l) →
        IndepFun (modSum e w (range N) (fun n => stepWeight wt (j + 1) k n)) (modSum e w (range N) (fun n => stepWeight wt (j + 1) l n)) μ

theorem exists_moments (hwt : wt.Valid) (ho : OrthonormalBank wt) {M : ℕ} (hM : VanishingMoments wt.dec_hi M) (hM1 : 1 ≤ M) (lam L : ℝ) (hL : 0 < L) (j : ℕ) :
    ∃ (m4 D : ℝ) (T : ℕ), DetailMoments.{u} wt lam L j m4 D T := by
  obtain ⟨m4, D, T, h1, h2, h3⟩ := detail_moments.{u} hwt ho hM hM1 lam L hL j
  exact ⟨m4, D, T, h1, h2, h3⟩

/-- Deviation of the empirical moments at one scale. -/
theorem scale_lln {j : ℕ} {m4 D : ℝ} {T : ℕ} (hm : DetailMoments.{u} wt lam L j m4 D T) {e' w' : ℕ → Ω → ℝ} (h : ModulatedNoise μ N e' w' (mrwLogCovariance lam L))
    {K : Finset ℕ} (hK : K.Nonempty) (hz : ∀ k ∈ K, ∀ n : ℤ, n ∉ Ico (0:ℤ) N → stepWeight wt (j + 1) k n = 0) {η : ℝ} (hη : 0 < η) {q : ℕ} (hq : q = 2 ∨ q = 4) :
    μ {ω | η ≤ |(∑ k ∈ K, modSum e' w' (range N) (fun n => stepWeight wt (j + 1) k n) ω ^ q) / K.card -
      (if q = 2 then Real.exp (2 * mrwLogCovariance lam L 0) * stepEnergy wt j else m4)|} ≤
      ENNReal.ofReal ((2 * T + 1) * (1 + D) / K.card / η ^ 2) := by
  have hp := h.prob
  have hl := fun k hk => hm.law h k (hz k hk)
  have hmeas : ∀ k ∈ K, AEStronglyMeasurable (fun ω => modSum e' w' (range N) (fun n => stepWeight wt (j + 1) k n) ω ^ q) μ := fun k hk =>
    ((hl k hk).1 q (by rcases hq with rfl | rfl <;> norm_num)).aestronglyMeasurable
  have hE := mean_error (μ := μ) K hK (Z := fun k ω => modSum e' w' (range N) (fun n => stepWeight wt (j + 1) k n) ω ^ q)
    (m := if q = 2 then Real.exp (2 * mrwLogCovariance lam L 0) * stepEnergy wt j else m4) (D := 1 + D) (T := T) ?_ ?_ ?_ ?_
  · exact chebyshev hE.1 hE.2 hη
  · intro k hk
    rw [memLp_two_iff_integrable_sq (hmeas k hk)]
    have := (hl k hk).1 (q * 2) (by rcases hq with rfl | rfl <;> norm_num)
    simpa only [pow_mul] using this
  · intro k hk
    rcases hq with rfl | rfl
    · rw [if_pos rfl]; exact (hl k hk).2.1
    · rw [if_neg (by norm_num)]; exact (hl k hk).2.2.1
  · intro k hk
    have i8 := (hl k hk).1 8 le_rfl
    calc ∫ ω, (modSum e' w' (range N) (fun n => stepWeight wt (j + 1) k n) ω ^ q) ^ 2 ∂μ
        ≤ ∫ ω, 1 + modSum e' w' (range N) (fun n => stepWeight wt (j + 1) k n) ω ^ 8 ∂μ := by
          have i1 := (hl k hk).1 (q * 2) (by rcases hq with rfl | rfl <;> norm_num)
          simp only [pow_mul] at i1
          refine integral_mono i1 ((integrable_const _).add i8) fun ω => ?_
          show (modSum e' w' (range N) (fun n => stepWeight wt (j + 1) k n) ω ^ q) ^ 2 ≤ 1 + modSum e' w' (range N) (fun n => stepWeight wt (j + 1) k n) ω ^ 8
          generalize modSum e' w' (range N) (fun n => stepWeight wt (j + 1) k n) ω = z
          rcases hq with rfl | rfl
          · nlinarith [sq_nonneg (z ^ 4 - 1)]
          · nlinarith
      _ = 1 + ∫ ω, modSum e' w' (range N) (fun n => stepWeight wt (j + 1) k n) ω ^ 8 ∂μ := by
          rw [integral_add (integrable_const _) i8]; simp
      _ ≤ 1 + D := by linarith [(hl k hk).2.2.2.1]
  · intro k hk l hl' hT
    exact ((hl k hk).2.2.2.2 l (hz l hl') hT).comp (φ := fun y => y ^ q) (ψ := fun y => y ^ q) (by fun_prop) (by fun_prop)

/-- The second or fourth moment. -/
def momentOf (wt : Wavelet) (lam L : ℝ) (m4 : ℕ → ℝ) (q i : ℕ) : ℝ :=
  if q = 2 then Real.exp (2 * mrwLogCovariance lam L 0) * stepEnergy wt i else m4 i

/-- **Law of large numbers** for the second and fourth empirical moments of the coefficients, jointly over the scales. -/
theorem mrw_lln (hwt : wt.Valid) {M : ℕ} (hM : VanishingMoments wt.dec_hi M) (hM1 : 1 ≤ M) {m4 D : ℕ → ℝ} {T : ℕ → ℕ}
    (hm : ∀ i, DetailMoments.{u} wt lam L i (m4 i) (D i) (T i)) (J : ℕ) (η : ℕ → ℕ → ℝ) (hη : ∀ q i, 0 < η q i) (δ : ℝ) (hδ : 0 < δ) : ∃ N₀ : ℕ,
    ∀ {Ω : Type u} [MeasurableSpace Ω] {μ : Measure Ω} {R N : ℕ} {x e v : Ω → List (Fin R → ℝ)} {w : Ω → WT R} {sigma : ℝ} {p : PExp} {j1 : ℤ}
      {j2 : Option ℝ} {g nm : ℝ} {weighted : Bool}, MrwLaw μ N (1 / 2) lam L sigma x e v → sigma ≠ 0 → (∀ ω, (x ω).length = N) →
      (∀ ω, waveletAnalysis (asFloats (x ω)) p wt j1 j2 g nm weighted = .ok (w ω)) → N₀ ≤ N → (∀ ω, J ≤ (w ω).wt_coefs.values.length) → ∀ r,
      ∃ κ : Ω → ℝ, (∀ ω, 0 < κ ω) ∧
      μ {ω | ¬ ∀ p ∈ (w ω).wt_coefs.values, ∀ i : ℕ, p.1 = ((i + 1 : ℕ) : ℤ) → i < J → ∃ xs, Entries (col p.2 r) xs ∧ xs ≠ [] ∧ ∀ q : ℕ, q = 2 ∨ q = 4 →
        ∃ y, powSum xs q / xs.length = ((2:ℝ) ^ (((i + 1 : ℕ) : ℝ) * (1 / 2 - 1 / nm + g)) * κ ω) ^ q * y ∧ |y - momentOf wt lam L m4 q i| < η q i} ≤ ENNReal.ofReal δ := by
  obtain ⟨n₀, hn₀⟩ := exists_nat_gt ((∑ i ∈ range J, ∑ q ∈ ({2, 4} : Finset ℕ), (2 * T i + 1) * (1 + D i) / η q i ^ 2) / δ)
  refine ⟨2 ^ J * (n₀ + 1 + 2 * wt.dec_hi.length), ?_⟩
  intro Ω _ μ R N x e v w sigma p j1 j2 g nm weighted hlaw hs hl hw hN hJ r
  have hR : R ≠ 0 := fun h0 => by subst h0; exact r.elim0
  have hN0 : N ≠ 0 := by
    have : 0 < 2 ^ J * (n₀ + 1 + 2 * wt.dec_hi.length) := by positivity
    omega
  obtain ⟨e', w', κ, hmod, hκ, hinc⟩ := hlaw.modulated hs hN0 r
  have hp := hmod.prob
  obtain ⟨ω₀⟩ : Nonempty Ω := nonempty_of_isProbabilityMeasure μ
  have h0 : ∀ ω, waveletAnalysis (sampled N fun r t => ((x ω).getD t.toNat fun _ => 0) r) p wt j1 j2 g nm weighted = .ok (w ω) :=
    fun ω => by rw [← asFloats_sampled (hl ω)]; exact hw ω
  refine ⟨κ, hκ, ?_⟩
  let bad : ℕ → ℕ → Set Ω := fun i q => {ω | η q i ≤ |(∑ k ∈ interior N wt.dec_hi.length (i + 1),
    modSum e' w' (range N) (fun n => stepWeight wt (i + 1) k n) ω ^ q) / (interior N wt.dec_hi.length (i + 1)).card - momentOf wt lam L m4 q i|}
  have hrep : ∀ i < J, ∀ k ∈ interior N wt.dec_hi.length (i + 1), (w ω₀).wt_coefs.Reported (i + 1) k r := fun i hi k hk =>
    interior_reported hwt (h0 ω₀) (by omega) ((by omega : i + 1 ≤ J).trans (hJ ω₀)) hk r
  have hcoef : ∀ i < J, ∀ k ∈ interior N wt.dec_hi.length (i + 1), ∀ ω, (w ω).wt_coefs.number (i + 1) k r =
      (2:ℝ) ^ (((i + 1 : ℕ) : ℝ) * (1 / 2 - 1 / nm + g)) * κ ω * modSum e' w' (range N) (fun n => stepWeight wt (i + 1) k n) ω := by
    intro i hi k hk ω
    rw [(coef_increments hM hM1 hwt hl hw (hrep i hi k hk)).2 ω r, mul_assoc]
    congr 1
    unfold modSum
    rw [mul_sum]
    refine sum_congr rfl fun n hn => ?_
    rw [hinc n (mem_range.1 hn) ω]; ring
  have hn0 : (0:ℝ) < n₀ + 1 := by positivity
  have hcard : ∀ i ∈ range J, ((n₀ : ℝ) + 1) ≤ (interior N wt.dec_hi.length (i + 1)).card := by
    intro i hi
    have h2 := interior_card_ge N wt.dec_hi.length (i + 1) (by omega)
    have h3 : n₀ + 1 + 2 * wt.dec_hi.length ≤ N / 2 ^ (i + 1) := by
      rw [Nat.le_div_iff_mul_le (by positivity), mul_comm]
      exact (Nat.mul_le_mul_right _ (Nat.pow_le_pow_right (by norm_num) (by have := mem_range.1 hi; omega))).trans hN
    exact_mod_cast (by omega : n₀ + 1 ≤ (interior N wt.dec_hi.length (i + 1)).card)
  have hsub : {ω | ¬ ∀ p ∈ (w ω).wt_coefs.values, ∀ i : ℕ, p.1 = ((i + 1 : ℕ) : ℤ) → i < J → ∃ xs, Entries (col p.2 r) xs ∧ xs ≠ [] ∧ ∀ q : ℕ, q = 2 ∨ q = 4 →
        ∃ y, powSum xs q / xs.length = ((2:ℝ) ^ (((i + 1 : ℕ) : ℝ) * (1 / 2 - 1 / nm + g)) * κ ω) ^ q * y ∧ |y - momentOf wt lam L m4 q i| < η q i} ⊆
      ⋃ i ∈ range J, ⋃ q ∈ ({2, 4} : Finset ℕ), bad i q := by
    intro ω hω
    by_contra hn
    apply hω
    intro p' hp' i hpi hiJ
    obtain ⟨-, -, he⟩ := analysis_entries hwt (h0 ω)
    obtain ⟨j, hj, hj1, hj2, hr⟩ := he p' hp'
    have hji : j = i + 1 := by rw [hpi] at hj; exact_mod_cast hj.symm
    subst hji
    obtain ⟨xs, e1, e2, e3, -⟩ := hr r
    have hc := hcard i (mem_range.2 hiJ)
    have hc0 : (0:ℝ) < (interior N wt.dec_hi.length (i + 1)).card := hn0.trans_le hc
    refine ⟨xs, e1, fun h => by rw [← e3, h, List.length_nil] at hc0; simp at hc0, fun q hq => ?_⟩
    refine ⟨(∑ k ∈ interior N wt.dec_hi.length (i + 1),
      modSum e' w' (range N) (fun n => stepWeight wt (i + 1) k n) ω ^ q) / (interior N wt.dec_hi.length (i + 1)).card, ?_, ?_⟩
    · unfold powSum
      rw [e2 (fun y => |y| ^ (q : ℝ)), e3, mul_div_assoc', mul_sum]
      congr 1
      refine sum_congr rfl fun k hk => ?_
      rw [Real.rpow_natCast, hcoef i hiJ k hk ω, ← mul_pow, Even.pow_abs]
      rcases hq with rfl | rfl <;> decide
    · by_contra hge
      push Not at hge
      exact hn (Set.mem_biUnion (mem_range.2 hiJ) (Set.mem_biUnion (show q ∈ ({2, 4} : Finset ℕ) by simpa using hq) hge))
  have hnn : ∀ i q, 0 ≤ (2 * T i + 1) * (1 + D i) / η q i ^ 2 := fun i q => by
    have := (hm i).nonneg
    positivity
  refine (measure_mono hsub).trans ?_
  calc μ (⋃ i ∈ range J, ⋃ q ∈ ({2, 4} : Finset ℕ), bad i q)
      ≤ ∑ i ∈ range J, ∑ q ∈ ({2, 4} : Finset ℕ), μ (bad i q) :=
        (measure_biUnion_finset_le _ _).trans (sum_le_sum fun j _ => measure_biUnion_finset_le _ _)
    _ ≤ ∑ i ∈ range J, ∑ q ∈ ({2, 4} : Finset ℕ), ENNReal.ofReal ((2 * T i + 1) * (1 + D i) / η q i ^ 2 / (n₀ + 1)) := by
        refine sum_le_sum fun i hi => sum_le_sum fun q hq => ?_
        have hc := hcard i hi
        have hne : (interior N wt.dec_hi.length (i + 1)).Nonempty := by
          rw [← Finset.card_pos]
          exact_mod_cast hn0.trans_le hc
        refine (scale_lln (hm i) hmod hne (fun k hk => (coef_increments hM hM1 hwt hl hw (hrep i (mem_range.1 hi) k hk)).1) (hη q i)
          (by simpa using hq)).trans ?_
        refine ENNReal.ofReal_le_ofReal ?_
        have hD := (hm i).nonneg
        rw [div_right_comm]
        exact div_le_div_of_nonneg_left (hnn i q) hn0 hc
    _ = ENNReal.ofReal (∑ i ∈ range J, ∑ q ∈ ({2, 4} : Finset ℕ), (2 * T i + 1) * (1 + D i) / η q i ^ 2 / (n₀ + 1)) := by
        rw [ENNReal.ofReal_sum_of_nonneg fun i _ => sum_nonneg fun q _ => div_nonneg (hnn i q) hn0.le]
        refine sum_congr rfl fun i _ => ?_
        rw [ENNReal.ofReal_sum_of_nonneg fun q _ => div_nonneg (hnn i q) hn0.le]
    _ ≤ ENNReal.ofReal δ := by
        refine ENNReal.ofReal_le_ofReal ?_
        simp only [← sum_div]
        rw [div_lt_iff₀ hδ] at hn₀
        rw [div_le_iff₀ hn0]
        nlinarith

end

end MFA
