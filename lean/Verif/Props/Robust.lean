import Verif.Spec.Perturbed
import Verif.Lemmas.BankNorm
import Verif.Props.HurstEstimation

/-!
# Property C131: robustness of the estimates to corrupted samples
-/

namespace MFA

universe u

open Classical Finset MeasureTheory ProbabilityTheory

noncomputable section

variable {wt : Wavelet}

/-- The perturbation, set to 0 outside the signal. -/
def extended (N : ℕ) (e : ℕ → ℝ) (t : ℤ) : ℝ := if 0 ≤ t ∧ t < N then e t.toNat else 0

theorem perturbed_sampled {R N : ℕ} {x : List (Fin R → ℝ)} (h : x.length = N) (e : Fin R → ℕ → ℝ) :
    asFloats (perturbed x e) = sampled N fun r t => (x.getD t.toNat fun _ => 0) r + extended N (e r) t := by
  subst h
  rw [asFloats, sampled, perturbed]
  apply List.ext_getElem
  · simp
  · intro i h1 h2
    have hi : i < x.length := by simpa using h1
    simp only [List.getElem_map, List.getElem_range, List.getElem_mapIdx]
    funext r
    rw [extended, if_pos ⟨by positivity, by exact_mod_cast hi⟩, Int.toNat_natCast, List.getD_eq_getElem?_getD, List.getElem?_eq_getElem hi,
      Option.getD_some]

theorem extended_pow (N : ℕ) (e : ℕ → ℝ) (m : ℕ) : PowBound (m + 1) (extended N e) (∑ t ∈ range N, |e t| ^ (m + 1)) := by
  intro S
  have h1 : ∑ k ∈ S, |extended N e k| ^ (m + 1) = ∑ k ∈ S.filter fun k : ℤ => 0 ≤ k ∧ k < N, |extended N e k| ^ (m + 1) := by
    rw [sum_filter]
    refine sum_congr rfl fun k _ => ?_
    by_cases h : 0 ≤ k ∧ k < N
    · rw [if_pos h]
    · rw [if_neg h, extended, if_neg h, abs_zero, zero_pow (by omega)]
  have h2 : S.filter (fun k : ℤ => 0 ≤ k ∧ k < N) ⊆ (range N).map Nat.castEmbedding := by
    intro k hk
    obtain ⟨-, h0, hN⟩ := mem_filter.1 hk
    exact mem_map.2 ⟨k.toNat, mem_range.2 (by omega), by simp [h0]⟩
  rw [h1]
  refine (sum_le_sum_of_subset_of_nonneg h2 fun k _ _ => by positivity).trans (le_of_eq ?_)
  rw [sum_map]
  refine sum_congr rfl fun t ht => ?_
  rw [mem_range] at ht
  show |extended N e (t : ℤ)| ^ (m + 1) = _
  rw [extended, if_pos ⟨by positivity, by exact_mod_cast ht⟩, Int.toNat_natCast]

theorem nat_sum_pow {P : ℕ} {x : ℤ → ℝ} {E : ℝ} (h : PowBound P x E) (I : Finset ℕ) : ∑ k ∈ I, |x (k : ℤ)| ^ P ≤ E := by
  refine le_trans (le_of_eq ?_) (h (I.map Nat.castEmbedding))
  rw [sum_map]; rfl

/-- At least a quarter of the positions are interior when the signal is long. -/
theorem length_le_interior {N F j : ℕ} (hj : 1 ≤ j) (hN : 2 ^ j * (4 * F + 1) ≤ N) : N ≤ 2 ^ (j + 1) * (interior N F j).card := by
  have h1 := interior_card_ge N F j hj
  have h2 : 4 * F + 1 ≤ N / 2 ^ j := by rw [Nat.le_div_iff_mul_le (by positivity), mul_comm]; exact hN
  have h3 : N < 2 ^ j * (N / 2 ^ j + 1) := Nat.lt_mul_div_succ N (by positivity)
  generalize N / 2 ^ j = n at *
  have h4 : n + 1 ≤ 2 * (interior N F j).card := by omega
  have h5 : 2 ^ j * (n + 1) ≤ 2 ^ j * (2 * (interior N F j).card) := Nat.mul_le_mul_left _ h4
  rw [pow_succ, mul_assoc]
  omega

/-- **All the scales stay typical under a perturbation of small mean power.** -/
theorem joint_perturbed {M : ℕ} (hM : VanishingMoments wt.dec_hi M) (hM1 : 1 ≤ M) (hwt : wt.Valid) {G : ℤ → ℝ}
    {h β : ℝ} (hK : ScalingKernel wt G h β) (g nm : ℝ) : ∃ (τ : ℕ → ℝ) (V B : ℝ), 0 < V ∧ 0 ≤ B ∧
    ∀ (m : ℕ) (F : List (ℝ × ℕ)), (∀ p ∈ F, 0 < p.1 ∧ p.2 ≤ 1 ∧ p.1 + 1 ≤ m) → ∀ (J : ℕ) (η δ : ℝ), 0 < η → 0 < δ → ∃ N₀ : ℕ, ∃ ρ : ℝ, 0 < ρ ∧
    ∀ {Ω : Type u} [MeasurableSpace Ω] {μ : Measure Ω} {c : ℝ} {R N : ℕ} {x : Ω → List (Fin R → ℝ)} {w w' : Ω → WT R}, 0 < c →
      IncrementAnalysis μ wt G c g nm N x w → N₀ ≤ N → (∀ ω, J ≤ (w ω).wt_coefs.values.length) → ∀ (r : Fin R) (e : Ω → Fin R → ℕ → ℝ),
      (∀ ω, ∑ t ∈ range N, |e ω r t| ^ (m + 1) ≤ ρ * N * √c ^ (m + 1)) →
      (∀ ω, ∃ (p : PExp) (j1 : ℤ) (j2 : Option ℝ) (weighted : Bool), waveletAnalysis (asFloats (perturbed (x ω) (e ω))) p wt j1 j2 g nm weighted = .ok (w' ω)) →
      (∀ ω, J ≤ (w' ω).wt_coefs.values.length) →
      (∀ j, 1 ≤ j → j ≤ J → 0 < τ j ∧ |Real.logb 2 (τ j) - (Real.logb 2 V + j * coefExponent h g nm)| ≤ B * (2:ℝ) ^ (-(2 * β * j))) ∧
      μ {ω | ¬ ∀ p ∈ (w' ω).wt_coefs.values, p.1 ≤ J → ∃ xs, Entries (col p.2 r) xs ∧ PosTypical F η √(c * τ p.1.toNat) xs} ≤
        ENNReal.ofReal δ := by
  obtain ⟨τ, V, B, hV, hB, hl⟩ := joint_llnG.{u} hM hM1 hwt hK g nm
  refine ⟨τ, V, B, hV, hB, ?_⟩
  intro m F hF J η δ hη hδ
  obtain ⟨η₁, hη₁, θ, hθ, hmean⟩ := means_perturb F hF hη
  obtain ⟨N₀, hN₀⟩ := hl ((((m + 1 : ℕ) : ℝ), 0) :: F) (by
    intro p hp
    rcases List.mem_cons.1 hp with rfl | hp
    · have : (0:ℝ) ≤ ((m + 1 : ℕ) : ℝ) := by positivity
      show -(1 / 2) < ((m + 1 : ℕ) : ℝ)
      linarith
    · have := (hF p hp).1; linarith) J η₁ δ hη₁ hδ
  -- the gain of the filter bank at scale `j`
  obtain ⟨a, ha⟩ : ∃ a : ℕ → ℝ, a = fun j : ℕ => ((2:ℝ) ^ ((j : ℝ) * (1 / 2 - 1 / nm + g))) ^ (m + 1) *
    (tapNorm wt.dec_hi m * tapNorm wt.dec_lo m ^ (j - 1)) * (2:ℝ) ^ (j + 1) := ⟨_, rfl⟩
  have ha0 : ∀ j, 0 ≤ a j := fun j => by
    rw [ha]
    have := tapNorm_nonneg wt.dec_hi m
    have := tapNorm_nonneg wt.dec_lo m
    positivity
  obtain ⟨T, hT⟩ : ∃ T, T = ∑ j ∈ range (J + 1), a j / √(τ j) ^ (m + 1) + 1 := ⟨_, rfl⟩
  have hsn : ∀ j, 0 ≤ a j / √(τ j) ^ (m + 1) := fun j => by have := ha0 j; positivity
  have hT1 : 0 < T := by rw [hT]; have := sum_nonneg (s := range (J + 1)) fun j _ => hsn j; linarith
  have haT : ∀ j, j ≤ J → a j / √(τ j) ^ (m + 1) ≤ T := fun j hj => by
    have := single_le_sum (f := fun j => a j / √(τ j) ^ (m + 1)) (s := range (J + 1)) (fun j _ => hsn j) (mem_range.2 (by omega : j < J + 1))
    rw [hT]; linarith
  refine ⟨max N₀ (2 ^ J * (4 * wt.dec_hi.length + 1)), θ / T, div_pos hθ hT1, ?_⟩
  intro Ω _ μ c R N x w w' hc hw hN hJ r e he hw' hJ'
  have hR : R ≠ 0 := fun h0 => by subst h0; exact r.elim0
  obtain ⟨hτ, hμ⟩ := hN₀ hc hw ((le_max_left _ _).trans hN) hJ r
  refine ⟨hτ, (measure_mono ?_).trans hμ⟩
  intro ω hω
  simp only [Set.mem_ofPred_eq] at hω ⊢
  intro htyp
  apply hω
  intro p hp hpJ
  obtain ⟨A, hG⟩ := hw.signal
  obtain ⟨q, j1, j2, weighted, hw'ω⟩ := hw' ω
  rw [perturbed_sampled (hG.length ω)] at hw'ω
  obtain ⟨-, -, he'⟩ := analysis_entries hwt hw'ω
  obtain ⟨j, hj, hj1, hj2, hr⟩ := he' p hp
  obtain ⟨xs', e1, e2, e3, e4⟩ := hr r
  have hjJ : j ≤ J := by rw [hj] at hpJ; exact_mod_cast hpJ
  obtain ⟨t1, -⟩ := hτ j hj1 hjJ
  -- the same scale of the original signal
  obtain ⟨hreg, -, hent⟩ := hw.entries hwt ω
  have hjl : j ≤ (w ω).wt_coefs.values.length := hjJ.trans (hJ ω)
  obtain ⟨q0, i1, i2, wtd, hwω⟩ := hw.analysis
  have hwω := hwω ω
  rw [asFloats_sampled (hG.length ω)] at hwω
  have hcard := hw.card hwt hR hj1 hjl
  obtain ⟨I, hI⟩ : ∃ I, I = interior N wt.dec_hi.length j := ⟨_, rfl⟩
  rw [← hI] at e2 e3 e4 hcard
  have hIne : I.Nonempty := card_pos.1 (by omega)
  obtain ⟨p0, hp0, hk0, xs, x1, x2, x3⟩ : ∃ p0 ∈ (w ω).wt_coefs.values, p0.1 = (j : ℤ) ∧ ∃ xs : List ℝ, Entries (col p0.2 r) xs ∧
      (∀ f : ℝ → ℝ, (xs.map f).sum = ∑ k ∈ I, f ((w ω).wt_coefs.number j k r)) ∧ xs.length = I.card := by
    have hmem : (j : ℤ) ∈ (w ω).wt_coefs.values.map Prod.fst := by
      have := hreg.1
      rw [this]
      refine List.mem_map.2 ⟨j - 1, List.mem_range.2 (by omega), by push_cast [hj1]; ring⟩
    obtain ⟨p0, hp0, hk⟩ := List.mem_map.1 hmem
    obtain ⟨j', hj', -, -, hr'⟩ := hent p0 hp0
    have hjj : j' = j := by rw [hk] at hj'; exact_mod_cast hj'.symm
    subst hjj
    obtain ⟨xs, y1, y2, y3, -⟩ := hr' r
    rw [← hI] at y2 y3
    exact ⟨p0, hp0, hk, xs, y1, y2, y3⟩
  obtain ⟨xs0, z1, z2⟩ := htyp p0 hp0 (by rw [hk0]; exact_mod_cast hjJ)
  have hx0 := Entries.unique x1 z1
  subst hx0
  rw [hk0, Int.toNat_natCast] at z2
  obtain ⟨σ, hσ⟩ : ∃ σ, σ = √(c * τ j) := ⟨_, rfl⟩
  have hσ0 : 0 < σ := by rw [hσ]; exact Real.sqrt_pos.2 (mul_pos hc t1)
  have hσe : σ = √c * √(τ j) := by rw [hσ, Real.sqrt_mul hc.le]
  rw [← hσ] at z2
  rw [hj, Int.toNat_natCast, ← hσ]
  have hdiff : ∀ k ∈ I, (w' ω).wt_coefs.number j k r = (w ω).wt_coefs.number j k r +
      (2:ℝ) ^ ((j : ℝ) * (1 / 2 - 1 / nm + g)) * idealDetail wt (extended N (e ω r)) j k := by
    intro k hk
    rw [hI] at hk
    obtain ⟨-, b1, -⟩ := reported_linear hwt hw'ω (interior_reported hwt hw'ω hj1 hj2 hk r)
    obtain ⟨-, b2, -⟩ := reported_linear hwt hwω (interior_reported hwt hwω hj1 hjl hk r)
    have b3 := idealDetail_linear wt 1 1 (fun t => ((x ω).getD t.toNat fun _ => 0) r) (extended N (e ω r)) j k
    simp only [one_mul] at b3
    rw [b1, b2, b3]
    ring
  refine ⟨xs', e1, ?_, ?_⟩
  · intro h0
    rw [h0, List.length_nil] at e3
    omega
  · have hpow := nat_sum_pow (idealDetail_pow wt m (extended_pow N (e ω r) m) j) I
    have hlen := length_le_interior (F := wt.dec_hi.length) hj1
      ((Nat.mul_le_mul_right _ (Nat.pow_le_pow_right (by norm_num) hjJ)).trans ((le_max_right _ _).trans hN))
    rw [← hI] at hlen
    have hlenR : (N : ℝ) ≤ (2:ℝ) ^ (j + 1) * I.card := by exact_mod_cast hlen
    have hg0 : (0:ℝ) < (2:ℝ) ^ ((j : ℝ) * (1 / 2 - 1 / nm + g)) := by positivity
    obtain ⟨γ, hγ⟩ : ∃ γ, γ = (2:ℝ) ^ ((j : ℝ) * (1 / 2 - 1 / nm + g)) := ⟨_, rfl⟩
    rw [← hγ] at hdiff hg0
    have haj : a j = γ ^ (m + 1) * (tapNorm wt.dec_hi m * tapNorm wt.dec_lo m ^ (j - 1)) * (2:ℝ) ^ (j + 1) := by rw [ha, hγ]
    have hsτ : 0 < √(τ j) ^ (m + 1) := by have := Real.sqrt_pos.2 t1; positivity
    have hsc : 0 < √c ^ (m + 1) := by have := Real.sqrt_pos.2 hc; positivity
    obtain ⟨K, hKd⟩ : ∃ K, K = tapNorm wt.dec_hi m * tapNorm wt.dec_lo m ^ (j - 1) := ⟨_, rfl⟩
    have hK0 : 0 ≤ K := by
      rw [hKd]
      have := tapNorm_nonneg wt.dec_hi m
      have := tapNorm_nonneg wt.dec_lo m
      positivity
    rw [← mul_assoc, ← hKd] at hpow
    rw [← hKd] at haj
    have hsmall : ∑ k ∈ I, |(w' ω).wt_coefs.number j k r / σ - (w ω).wt_coefs.number j k r / σ| ^ (m + 1) ≤ θ * I.card := by
      have e5 : ∑ k ∈ I, |(w' ω).wt_coefs.number j k r / σ - (w ω).wt_coefs.number j k r / σ| ^ (m + 1) =
          (γ / σ) ^ (m + 1) * ∑ k ∈ I, |idealDetail wt (extended N (e ω r)) j k| ^ (m + 1) := by
        rw [mul_sum]
        refine sum_congr rfl fun k hk => ?_
        rw [hdiff k hk, ← sub_div, add_sub_cancel_left, abs_div, abs_mul, abs_of_pos hg0, abs_of_pos hσ0, mul_div_right_comm, mul_pow]
      rw [e5]
      have e6 : K * ∑ t ∈ range N, |e ω r t| ^ (m + 1) ≤ K * (θ / T * ((2:ℝ) ^ (j + 1) * I.card) * √c ^ (m + 1)) := by
        refine mul_le_mul_of_nonneg_left ((he ω).trans ?_) hK0
        exact mul_le_mul_of_nonneg_right (mul_le_mul_of_nonneg_left hlenR (div_pos hθ hT1).le) hsc.le
      have hgs : 0 ≤ (γ / σ) ^ (m + 1) := by positivity
      refine (mul_le_mul_of_nonneg_left (hpow.trans e6) hgs).trans ?_
      have e7 : (γ / σ) ^ (m + 1) * (K * (θ / T * ((2:ℝ) ^ (j + 1) * I.card) * √c ^ (m + 1))) =
          a j / √(τ j) ^ (m + 1) / T * (θ * I.card) := by
        rw [haj, hσe, div_pow, mul_pow]
        field_simp
      rw [e7]
      refine (mul_le_mul_of_nonneg_right ((div_le_one hT1).2 (haT j hjJ)) (by positivity)).trans (le_of_eq (one_mul _))
    intro p' hp'
    have hm' := hmean I (fun k => (w ω).wt_coefs.number j k r / σ) (fun k => (w' ω).wt_coefs.number j k r / σ) hIne
      (fun p'' h'' => by
        have := z2.2.2 p'' (List.mem_cons_of_mem _ h'')
        rw [x2 fun y => testF p''.1 p''.2 (y / σ), x3] at this
        exact this)
      (by
        have := z2.2.2 _ (List.mem_cons_self)
        rw [x2 fun y => testF (((m + 1 : ℕ) : ℝ)) 0 (y / σ), x3] at this
        exact this) hsmall p' hp'
    rw [e2 fun y => testF p'.1 p'.2 (y / σ), e3]
    exact hm'

theorem posTypical_mono {F : List (ℝ × ℕ)} {η η' σ : ℝ} {xs : List ℝ} (h : η ≤ η') (ht : PosTypical F η σ xs) : PosTypical F η' σ xs :=
  ⟨ht.1, fun p hp => (ht.2 p hp).trans_le h⟩

theorem slopes_perturbed {M : ℕ} (hM : VanishingMoments wt.dec_hi M) (hM1 : 1 ≤ M) (hwt : wt.Valid) {G : ℤ → ℝ}
    {h' β : ℝ} (hK : ScalingKernel wt G h' β) (g nm : ℝ) : ∃ B : ℝ, 0 ≤ B ∧
    ∀ (m : ℕ) (F : List (ℝ × ℕ)), (∀ p ∈ F, 0 < p.1 ∧ p.2 ≤ 1 ∧ p.1 + 1 ≤ m) → ∀ (Ys : List ((List Fl → Fl) × ℝ × ℝ)),
    (∀ Y ∈ Ys, PosAsymptotic F Y.1 Y.2.1 Y.2.2) →
    ∀ (j1 j2 : ℕ), 1 ≤ j1 → j1 < j2 → ∀ ε δ : ℝ, 0 < ε → 0 < δ → ∃ N₀ : ℕ, ∃ ρ : ℝ, 0 < ρ ∧
    ∀ {Ω : Type u} [MeasurableSpace Ω] {μ : Measure Ω} {c : ℝ} {R N : ℕ} {x : Ω → List (Fin R → ℝ)} {w w' : Ω → WT R}, 0 < c →
      IncrementAnalysis μ wt G c g nm N x w → N₀ ≤ N → (∀ ω, j2 ≤ (w ω).wt_coefs.values.length) → ∀ (r : Fin R) (e : Ω → Fin R → ℕ → ℝ),
      (∀ ω, ∑ t ∈ range N, |e ω r t| ^ (m + 1) ≤ ρ * N * √c ^ (m + 1)) →
      (∀ ω, ∃ (p : PExp) (j1 : ℤ) (j2 : Option ℝ) (weighted : Bool), waveletAnalysis (asFloats (perturbed (x ω) (e ω))) p wt j1 j2 g nm weighted = .ok (w' ω)) →
      (∀ ω, j2 ≤ (w' ω).wt_coefs.values.length) →
      μ {ω | ¬ ∀ Y ∈ Ys, ∀ weighted, ∃ z, slopeL (subR (w' ω).wt_coefs j1 j2) (fun p => (p.1 : ℝ)) (fun p => wtOf weighted p r)
          (fun p => Y.1 (col p.2 r)) = Fl.fin z ∧
        |z - Y.2.1 * (coefExponent h' g nm / 2)| ≤ |Y.2.1| * B * (2:ℝ) ^ (-(2 * β * j1)) + ε} ≤ ENNReal.ofReal δ := by
  obtain ⟨τ, V, B, hV, hB, hl⟩ := joint_perturbed.{u} hM hM1 hwt hK g nm
  have h0 := hK.pos
  have hρ1 : (2:ℝ) ^ (-(2 * β)) < 1 := Real.rpow_lt_one_of_one_lt_of_neg (by norm_num) (by linarith)
  have hρ : 0 < 1 - (2:ℝ) ^ (-(2 * β)) := by linarith
  refine ⟨B / 2 / (1 - (2:ℝ) ^ (-(2 * β))), by positivity, ?_⟩
  intro m F hF Ys hYs j1 j2 hj1 hj12 ε δ hε hδ
  have hnum : (0:ℝ) < (j2:ℝ) - j1 + 1 := by
    have : (j1 : ℝ) < j2 := by exact_mod_cast hj12
    linarith
  obtain ⟨ε', hε'd⟩ : ∃ ε', ε' = ε / ((j2:ℝ) - j1 + 1) := ⟨_, rfl⟩
  have hε' : 0 < ε' := by rw [hε'd]; positivity
  have hη : ∃ η > 0, ∀ Y ∈ Ys, ∀ (σ : ℝ) (c : List Fl) (xs : List ℝ), 0 < σ → Entries c xs → PosTypical F η σ xs →
      ∃ t, Y.1 c = Fl.fin t ∧ |t - (Y.2.1 * Real.logb 2 σ + Y.2.2)| < ε' := by
    clear hl
    induction Ys with
    | nil => exact ⟨1, one_pos, fun _ h => by cases h⟩
    | cons Y Ys ih =>
      obtain ⟨η1, hη1, h1⟩ := ih fun Y' hY' => hYs Y' (List.mem_cons_of_mem _ hY')
      obtain ⟨η2, hη2, h2⟩ := hYs Y (by simp) ε' hε'
      refine ⟨min η1 η2, lt_min hη1 hη2, fun Y' hY' σ c xs hσ hc ht => ?_⟩
      rcases List.mem_cons.1 hY' with h | h
      · subst h
        exact h2 σ c xs hσ hc (posTypical_mono (min_le_right _ _) ht)
      · exact h1 Y' h σ c xs hσ hc (posTypical_mono (min_le_left _ _) ht)
  obtain ⟨η, hη, hYη⟩ := hη
  obtain ⟨N₀, ρ, hρ, hN₀⟩ := hl m F hF j2 η δ hη hδ
  refine ⟨N₀, ρ, hρ, ?_⟩
  intro Ω _ μ c R N x w w' hc hw hN hJ r e he hw' hJ'
  obtain ⟨hτ, hμ⟩ := hN₀ hc hw hN hJ r e he hw' hJ'
  refine (measure_mono ?_).trans hμ
  intro ω hω
  simp only [Set.mem_ofPred_eq] at hω ⊢
  intro htyp
  apply hω
  intro Y hY weighted
  obtain ⟨A, hG⟩ := hw.signal
  obtain ⟨q0, i1, i2, wtd, hw'ω⟩ := hw' ω
  rw [perturbed_sampled (hG.length ω)] at hw'ω
  obtain ⟨hreg, -, -⟩ := analysis_entries hwt hw'ω
  have ha1 : (1:ℤ) ≤ (j1 : ℤ) := by exact_mod_cast hj1
  have ha2 : (j1 : ℤ) ≤ (j2 : ℤ) := by exact_mod_cast hj12.le
  have ha3 : (j2 : ℤ) ≤ ((w' ω).wt_coefs.values.length : ℤ) := by exact_mod_cast hJ' ω
  have hkeys := hreg.sub_keys ha1 ha2 ha3
  have hkey : ∀ p ∈ subR (w' ω).wt_coefs j1 j2, ∃ j : ℕ, p.1 = j ∧ j1 ≤ j ∧ j ≤ j2 := by
    intro p hp
    have : p.1 ∈ arange (j1 : ℤ) ((j2 : ℤ) + 1) := by rw [← hkeys]; exact List.mem_map.2 ⟨p, hp, rfl⟩
    unfold arange at this
    obtain ⟨i, hi, he⟩ := List.mem_map.1 this
    rw [List.mem_range] at hi
    exact ⟨j1 + i, by rw [← he]; push_cast; ring, by omega, by omega⟩
  have htwo := hreg.sub_two ha1 ha2 ha3 (by exact_mod_cast hj12)
  obtain ⟨z, hz, hzb⟩ := slopeL_near (subR (w' ω).wt_coefs j1 j2) (fun p => p.1) (fun p => wtOf weighted p r)
    (fun p hp => by
      obtain ⟨j, hj, hj1', hj2'⟩ := hkey p hp
      obtain ⟨xs, hxs, ht⟩ := htyp p (sub_mem hp) (by rw [hj]; exact_mod_cast hj2')
      unfold wtOf
      split
      · rw [hxs.count]
        exact_mod_cast List.length_pos_iff.2 ht.1
      · exact one_pos)
    (by
      obtain ⟨p, hp, p', hp', hne⟩ := htwo
      exact ⟨p, hp, p', hp', fun h => hne (by rw [h])⟩)
    (fun p => Y.1 (col p.2 r))
    (Y.2.1 * ((Real.logb 2 c + Real.logb 2 V) / 2) + Y.2.2) (Y.2.1 * (coefExponent h' g nm / 2))
    (fun p => ε' + |Y.2.1| * B / 2 * (2:ℝ) ^ (-(2 * β * p.1)))
    (fun p hp => by
      obtain ⟨j, hj, hj1', hj2'⟩ := hkey p hp
      obtain ⟨xs, hxs, ht⟩ := htyp p (sub_mem hp) (by rw [hj]; exact_mod_cast hj2')
      obtain ⟨t1, t2⟩ := hτ j (hj1.trans hj1') hj2'
      rw [hj, Int.toNat_natCast] at ht
      obtain ⟨t, ht1, ht2⟩ := hYη Y hY _ _ xs (Real.sqrt_pos.2 (mul_pos hc t1)) hxs ht
      refine ⟨t, ht1, ?_⟩
      rw [hj]
      have hs : Real.logb 2 √(c * τ j) = (Real.logb 2 c + Real.logb 2 (τ j)) / 2 := by
        rw [Real.sqrt_eq_rpow, Real.logb_rpow_eq_mul_logb_of_pos (mul_pos hc t1), Real.logb_mul hc.ne' t1.ne']; ring
      rw [hs] at ht2
      have e5 : t - (Y.2.1 * ((Real.logb 2 c + Real.logb 2 V) / 2) + Y.2.2 + Y.2.1 * (coefExponent h' g nm / 2) * ((j : ℤ) : ℝ)) =
          (t - (Y.2.1 * ((Real.logb 2 c + Real.logb 2 (τ j)) / 2) + Y.2.2)) +
          Y.2.1 / 2 * (Real.logb 2 (τ j) - (Real.logb 2 V + j * coefExponent h' g nm)) := by
        push_cast; ring
      rw [e5]
      refine (abs_add_le _ _).trans (add_le_add ht2.le ?_)
      rw [abs_mul, abs_div, abs_of_pos (by norm_num : (0:ℝ) < 2)]
      refine (mul_le_mul_of_nonneg_left t2 (by positivity)).trans (le_of_eq ?_)
      push_cast; ring)
  refine ⟨z, hz, hzb.trans ?_⟩
  have hsum : ((subR (w' ω).wt_coefs j1 j2).map fun p => ε' + |Y.2.1| * B / 2 * (2:ℝ) ^ (-(2 * β * p.1))) =
      (arange (j1 : ℤ) ((j2 : ℤ) + 1)).map fun j : ℤ => ε' + |Y.2.1| * B / 2 * (2:ℝ) ^ (-(2 * β * j)) := by
    rw [← hkeys, List.map_map]; rfl
  rw [hsum]
  refine (arange_sum_le hj12 h0 (by positivity)).trans (le_of_eq ?_)
  rw [hε'd]
  field_simp
  ring

/-- The test functions needed for the positive exponents of `q`. -/
def posTests (q : List ℝ) : List (ℝ × ℕ) :=
  (q.filter fun e => 0 < e).map (fun e => (e, 0)) ++ (q.filter fun e => 0 < e).map fun e => (e, 1)

/-- The statistics needed for the positive exponents of `q`. -/
def posStatList (q : List ℝ) : List ((List Fl → Fl) × ℝ × ℝ) :=
  (q.filter fun e => 0 < e).map (fun e => ((fun c => (nanmean ((c.map Fl.abs).map (fastPower (.real e)))).log2), e, Real.logb 2 (normalMoment e 0))) ++
  (q.filter fun e => 0 < e).map (fun e => ((fun c => msV c (.real e)), 1, normalMoment e 1 / normalMoment e 0 / Real.log 2)) ++
  (q.filter fun e => 0 < e).map (fun e => ((fun c => msU (countNotNaN c) c (.real e)), 0,
    e * (normalMoment e 1 / normalMoment e 0 / Real.log 2) - Real.logb 2 (normalMoment e 0)))

theorem posStatList_asymptotic (q : List ℝ) : ∀ Y ∈ posStatList q, PosAsymptotic (posTests q) Y.1 Y.2.1 Y.2.2 := by
  have m0 : ∀ e ∈ q.filter (fun e => 0 < e), (e, 0) ∈ posTests q := fun e he => List.mem_append.2 (Or.inl (List.mem_map.2 ⟨e, he, rfl⟩))
  have m1 : ∀ e ∈ q.filter (fun e => 0 < e), (e, 1) ∈ posTests q := fun e he => List.mem_append.2 (Or.inr (List.mem_map.2 ⟨e, he, rfl⟩))
  have m2 : ∀ e ∈ q.filter (fun e => 0 < e), 0 < e := fun e he => by simpa using (List.mem_filter.1 he).2
  intro Y hY
  simp only [posStatList, List.mem_append, List.mem_map] at hY
  rcases hY with (⟨e, he, rfl⟩ | ⟨e, he, rfl⟩) | ⟨e, he, rfl⟩
  · exact posAsymptotic_structure (m2 e he) (m0 e he) (m1 e he)
  · exact posAsymptotic_V (m2 e he) (m0 e he) (m1 e he)
  · exact posAsymptotic_U (m2 e he) (m0 e he) (m1 e he)

theorem posTests_gt {q : List ℝ} {m : ℕ} (hq : ∀ e ∈ q, e + 1 ≤ m) : ∀ p ∈ posTests q, 0 < p.1 ∧ p.2 ≤ 1 ∧ p.1 + 1 ≤ m := by
  intro p hp
  simp only [posTests, List.mem_append, List.mem_map, List.mem_filter, decide_eq_true_eq] at hp
  rcases hp with ⟨e, ⟨he, h0⟩, rfl⟩ | ⟨e, ⟨he, h0⟩, rfl⟩
  · exact ⟨h0, by norm_num, hq e he⟩
  · exact ⟨h0, le_rfl, hq e he⟩

/-- `mf_analysis_full` on a long Gaussian signal with stationary increments and a small perturbation. -/
theorem estimates_robust {M : ℕ} (hM : VanishingMoments wt.dec_hi M) (hM1 : 1 ≤ M) (hwt : wt.Valid) {G : ℤ → ℝ}
    {h' β : ℝ} (hK : ScalingKernel wt G h' β) (q : List ℝ) (n m : ℕ) (h2 : (2:ℝ) ∈ q) (hq : ∀ e ∈ q, e + 1 ≤ m)
    (ε δ : ℝ) (hε : 0 < ε) (hδ : 0 < δ) : ∃ j₀ : ℕ, 1 ≤ j₀ ∧ ∀ j1 j2 : ℕ, j₀ ≤ j1 → j1 < j2 → ∃ N₀ : ℕ, ∃ ρ : ℝ, 0 < ρ ∧
    ∀ {Ω : Type u} [MeasurableSpace Ω] {μ : Measure Ω} {R N : ℕ} {x : Ω → List (Fin R → ℝ)} {A : ℕ → ℝ} {c : ℝ}, 0 < c → N₀ ≤ N →
      GaussianArray μ N x (fun n m => A n + A m - c * G ((n : ℤ) - m)) →
      ∀ (p : PExp) (weighted : Bool) (r : Fin R), p = .none ∨ (p = .inf ∧ 4 ≤ wt.dec_hi.length) →
      ∀ e : Ω → Fin R → ℕ → ℝ, (∀ ω, ∑ t ∈ range N, |e ω r t| ^ (m + 1) ≤ ρ * N * √c ^ (m + 1)) →
      μ {ω | ¬ ∃ d, mfAnalysisFull (asFloats (perturbed (x ω) (e ω))) j1 (some j2) 1 0 weighted wt p (some (.ndarray q)) n = .ok d ∧
        PosMonofractalNear d.dwt q h' ε r} ≤ ENNReal.ofReal δ := by
  obtain ⟨B, hB, h⟩ := slopes_perturbed.{u} hM hM1 hwt hK 0 1
  have h0 := hK.pos
  have hb : coefExponent h' 0 1 / 2 = h' := by rw [coefExponent_default]; ring
  -- the exponents are bounded
  obtain ⟨Q, hQ1, hQ⟩ : ∃ Q : ℝ, 1 ≤ Q ∧ ∀ e ∈ q, |e| ≤ Q := by
    clear h2 hq h
    induction q with
    | nil => exact ⟨1, le_rfl, by simp⟩
    | cons a q ih =>
      obtain ⟨Q, h1, h2⟩ := ih
      refine ⟨max Q |a|, le_max_of_le_left h1, ?_⟩
      intro e he
      rcases List.mem_cons.1 he with rfl | he
      · exact le_max_right _ _
      · exact (h2 e he).trans (le_max_left _ _)
  obtain ⟨j₀, hj₀1, hj₀⟩ : ∃ j₀ : ℕ, 1 ≤ j₀ ∧ ∀ j1 : ℕ, j₀ ≤ j1 → Q * B * (2:ℝ) ^ (-(2 * β * j1)) ≤ ε / 2 := by
    have hρ0 : (0:ℝ) ≤ (2:ℝ) ^ (-(2 * β)) := by positivity
    have hρ1 : (2:ℝ) ^ (-(2 * β)) < 1 := Real.rpow_lt_one_of_one_lt_of_neg (by norm_num) (by linarith)
    have ht : Filter.Tendsto (fun j : ℕ => Q * B * ((2:ℝ) ^ (-(2 * β))) ^ j) Filter.atTop (nhds (Q * B * 0)) :=
      (tendsto_pow_atTop_nhds_zero_of_lt_one hρ0 hρ1).const_mul _
    rw [mul_zero] at ht
    obtain ⟨j₀, hj₀⟩ := Filter.eventually_atTop.1 (ht.eventually_le_const (by positivity : (0:ℝ) < ε / 2))
    refine ⟨j₀ + 1, by omega, fun j1 hj1 => ?_⟩
    have := hj₀ j1 (by omega)
    rwa [← Real.rpow_natCast, ← Real.rpow_mul (by norm_num), show -(2 * β) * (j1 : ℝ) = -(2 * β * j1) by ring] at this
  refine ⟨j₀, hj₀1, ?_⟩
  intro j1 j2 hj01 hj12
  have hj1 : 1 ≤ j1 := hj₀1.trans hj01
  obtain ⟨N₀, ρ, hρ, hN₀⟩ := h m (posTests q) (posTests_gt hq) (posStatList q) (posStatList_asymptotic q) j1 j2 hj1 hj12 (ε / 2) δ (by positivity) hδ
  refine ⟨max N₀ (2 ^ (j2 + 1) * (wt.dec_hi.length + 1)), ρ, hρ, ?_⟩
  intro Ω _ μ R N x A c hc hN hG p weighted r hp e he
  have hR : R ≠ 0 := fun h0 => by subst h0; exact r.elim0
  have hN2 := (le_max_right _ _).trans hN
  have hN0 : N ≠ 0 := by
    have : 0 < 2 ^ (j2 + 1) * (wt.dec_hi.length + 1) := by positivity
    omega
  have hne : ∀ ω, asFloats (x ω) ≠ [] := by
    intro ω h0; have := congrArg List.length h0; simp [asFloats, hG.length ω] at this; exact hN0 this
  have hne' : ∀ ω, asFloats (perturbed (x ω) (e ω)) ≠ [] := by
    intro ω h0; have := congrArg List.length h0; simp [asFloats, perturbed, hG.length ω] at this; exact hN0 this
  choose w hw using fun ω => C05_total (asFloats (x ω)) p (hp.imp id (·.1)) wt j1 (some (j2 : ℝ)) 0 1 weighted hR (hne ω) one_ne_zero
  choose w' hw' hfull using fun ω => C48_total (asFloats (perturbed (x ω) (e ω))) p (hp.imp id (·.1)) wt j1 (some (j2 : ℝ)) 0 1 weighted
    (some (.ndarray q)) n hR (hne' ω) one_ne_zero
  have hlong : ∀ ω, (w ω).j2_eff = j2 ∧ j2 ≤ (w ω).wt_coefs.values.length := by
    intro ω
    have h0 := hw ω
    rw [asFloats_sampled (hG.length ω)] at h0
    exact long_enough hR hwt (hp.imp id (·.2)) (by omega) hN2 h0
  have hlong' : ∀ ω, (w' ω).j2_eff = j2 ∧ j2 ≤ (w' ω).wt_coefs.values.length := by
    intro ω
    have h0 := hw' ω
    rw [perturbed_sampled (hG.length ω)] at h0
    exact long_enough hR hwt (hp.imp id (·.2)) (by omega) hN2 h0
  have hP : IncrementAnalysis μ wt G c 0 1 N x w := ⟨⟨A, hG⟩, p, j1, some (j2 : ℝ), weighted, hw⟩
  refine (measure_mono ?_).trans (hN₀ hc hP ((le_max_left _ _).trans hN) (fun ω => (hlong ω).2) r e he
    (fun ω => ⟨p, j1, some (j2 : ℝ), weighted, hw' ω⟩) fun ω => (hlong' ω).2)
  intro ω hω
  simp only [Set.mem_ofPred_eq] at hω ⊢
  intro hall
  apply hω
  have key : ∀ Y ∈ posStatList q, ∃ z, slopeL (subR (w' ω).wt_coefs j1 j2) (fun p => (p.1 : ℝ)) (fun p => wtOf weighted p r)
          (fun p => Y.1 (col p.2 r)) = Fl.fin z ∧
        |z - Y.2.1 * (coefExponent h' 0 1 / 2)| ≤ |Y.2.1| * B * (2:ℝ) ^ (-(2 * β * j1)) + ε / 2 := fun Y hY => hall Y hY weighted
  clear hall hω
  rw [hb] at key
  have hf : ∀ a ∈ q, 0 < a → a ∈ q.filter fun a => 0 < a := fun a ha h0 => List.mem_filter.2 ⟨ha, by simpa using h0⟩
  obtain ⟨hj2, hlen⟩ := hlong' ω
  obtain ⟨d, hd, -⟩ := hfull ω (by exact_mod_cast hj1) (by rw [hj2]; exact_mod_cast hj12.le) h2
  refine ⟨d, hd, ?_⟩
  unfold mfAnalysisFull at hd
  rw [hw' ω] at hd
  simp only at hd
  rw [C47_bundle, hj2] at hd
  obtain ⟨⟨b1, -, b3, -⟩, -⟩ := hd
  change StructFn.make _ (.ndarray q) _ _ _ = _ at b1
  change Spectrum.make _ _ _ _ (.ndarray q) = _ at b3
  obtain ⟨hreg, hg, -⟩ : Regular (w' ω).wt_coefs (w' ω).wt_coefs.values.length ∧ (w' ω).wt_coefs.gamint = 0 ∧ True := by
    have h0 := hw' ω
    rw [perturbed_sampled (hG.length ω)] at h0
    obtain ⟨a, b, -⟩ := analysis_entries hwt h0
    exact ⟨a, b, trivial⟩
  have a1 : (1:ℤ) ≤ (j1 : ℤ) := by exact_mod_cast hj1
  have a2 : (j1 : ℤ) ≤ (j2 : ℤ) := by exact_mod_cast hj12.le
  have a3 : (j2 : ℤ) ≤ ((w' ω).wt_coefs.values.length : ℤ) := by exact_mod_cast hlen
  rw [hreg.structFn a1 a2 a3 weighted q h2] at b1
  rw [hreg.spectrum a1 a2 a3 weighted (.ndarray q) (by rw [expos_ndarray]; simp; rintro rfl; cases h2)] at b3
  have hbias := hj₀ j1 hj01
  have hp2 : (0:ℝ) ≤ B * (2:ℝ) ^ (-(2 * β * j1)) := by positivity
  have hbias1 : B * (2:ℝ) ^ (-(2 * β * j1)) ≤ ε / 2 := by
    have : B * (2:ℝ) ^ (-(2 * β * j1)) ≤ Q * (B * (2:ℝ) ^ (-(2 * β * j1))) := le_mul_of_one_le_left hp2 hQ1
    linarith
  have hbq : ∀ e ∈ q, |e| * B * (2:ℝ) ^ (-(2 * β * j1)) ≤ ε / 2 := by
    intro e he
    have := mul_le_mul_of_nonneg_right (hQ e he) hp2
    linarith
  have hz : ∀ a ∈ q, 0 < a → Near (zetaF (w' ω).wt_coefs j1 j2 weighted (.real a) r) (a * h') ε := by
    intro a ha h0
    obtain ⟨z, hz, hzb⟩ := key ((fun c => (nanmean ((c.map Fl.abs).map (fastPower (.real a)))).log2), a, Real.logb 2 (normalMoment a 0))
      (List.mem_append.2 (Or.inl (List.mem_append.2 (Or.inl (List.mem_map.2 ⟨a, hf a ha h0, rfl⟩)))))
    rw [zetaF_cols]
    refine ⟨z, hz, hzb.trans ?_⟩
    have := hbq a ha
    simp only
    linarith
  unfold PosMonofractalNear
  rw [← Except.ok.inj b1, ← Except.ok.inj b3]
  refine ⟨?_, ?_⟩
  · obtain ⟨t, ht, htb⟩ := hz 2 h2 (by norm_num)
    refine ⟨t / 2 - 0, ?_, ?_⟩
    · show zetaF _ _ _ _ _ _ / Fl.fin 2 - Fl.fin (w' ω).wt_coefs.gamint = _
      rw [ht, hg, Fl.fin_div two_ne_zero, Fl.fin_sub]
    · rw [show t / 2 - 0 - h' = (t - 2 * h') / 2 by ring, abs_div, abs_two, div_le_iff₀ (by norm_num)]
      linarith
  · intro i hi h0
    have hqi : q[i]? = some q[i] := List.getElem?_eq_getElem hi
    have hm := List.getElem_mem hi
    refine ⟨⟨zetaF (w' ω).wt_coefs j1 j2 weighted (.real q[i]), by simp only [List.getElem?_map, hqi, Option.map_some], hz _ hm h0⟩, ?_⟩
    refine ⟨vF (w' ω).wt_coefs j1 j2 weighted (.real q[i]), fun r => Fl.fin 1 + uF (w' ω).wt_coefs j1 j2 weighted (.real q[i]) r,
      by simp only [expos_ndarray, List.getElem?_map, hqi, Option.map_some],
      by simp only [expos_ndarray, List.getElem?_map, hqi, Option.map_some], ?_, ?_⟩
    · obtain ⟨z, hz, hzb⟩ := key ((fun c => msV c (.real q[i])), 1, normalMoment q[i] 1 / normalMoment q[i] 0 / Real.log 2)
        (List.mem_append.2 (Or.inl (List.mem_append.2 (Or.inr (List.mem_map.2 ⟨q[i], hf _ hm h0, rfl⟩)))))
      refine ⟨z, hz, ?_⟩
      rw [one_mul, abs_one, one_mul] at hzb
      linarith
    · obtain ⟨z, hz, hzb⟩ := key ((fun c => msU (countNotNaN c) c (.real q[i])), 0,
          q[i] * (normalMoment q[i] 1 / normalMoment q[i] 0 / Real.log 2) - Real.logb 2 (normalMoment q[i] 0))
        (List.mem_append.2 (Or.inr (List.mem_map.2 ⟨q[i], hf _ hm h0, rfl⟩)))
      have hz' : uF (w' ω).wt_coefs j1 j2 weighted (.real q[i]) r = Fl.fin z := hz
      refine ⟨1 + z, by show Fl.fin 1 + uF (w' ω).wt_coefs j1 j2 weighted (.real q[i]) r = _; rw [hz', Fl.fin_add], ?_⟩
      simp only [zero_mul, abs_zero, sub_zero, zero_add] at hzb
      rw [show 1 + z - 1 = z by ring]
      linarith

/-- **C131, power law signals**.  Corrupt a long Gaussian signal with stationary increments and variogram `2c|t|^(2H)` by adding to it anything,
even chosen after seeing the signal, whose mean `P`-th power is at most `ρ c^(P/2)`, where `P` exceeds the moments `q` of the analysis by at
least 2.  If `ρ` is small enough (given the accuracy wanted and the scales), then with probability at least `1 - δ` `mf_analysis_full` still
finds `H`, `zeta(q)`, `h(q)` and `D(q)` within `ε` of the truth for the positive `q`. -/
theorem C131_power_law {M : ℕ} (hM : VanishingMoments wt.dec_hi M) (hM1 : 1 ≤ M) (hwt : wt.Valid) (ho : OrthonormalBank wt) {H : ℝ}
    (h0 : 0 < H) (h1 : H < 1) (hH : 4 * H - 4 * M < -1) (q : List ℝ) (n P : ℕ) (h2 : (2:ℝ) ∈ q) (hq : ∀ e ∈ q, e + 2 ≤ P)
    (ε δ : ℝ) (hε : 0 < ε) (hδ : 0 < δ) : ∃ j₀ : ℕ, 1 ≤ j₀ ∧ ∀ j1 j2 : ℕ, j₀ ≤ j1 → j1 < j2 → ∃ N₀ : ℕ, ∃ ρ : ℝ, 0 < ρ ∧
    ∀ {Ω : Type u} [MeasurableSpace Ω] {μ : Measure Ω} {R N : ℕ} {x : Ω → List (Fin R → ℝ)} {A : ℕ → ℝ} {c : ℝ}, 0 < c → N₀ ≤ N →
      GaussianArray μ N x (fun n m => A n + A m - c * |(n : ℝ) - m| ^ (2 * H)) →
      ∀ (p : PExp) (weighted : Bool) (r : Fin R), p = .none ∨ (p = .inf ∧ 4 ≤ wt.dec_hi.length) →
      ∀ e : Ω → Fin R → ℕ → ℝ, (∀ ω, ∑ t ∈ range N, |e ω r t| ^ P ≤ ρ * N * √c ^ P) →
      μ {ω | ¬ ∃ d, mfAnalysisFull (asFloats (perturbed (x ω) (e ω))) j1 (some j2) 1 0 weighted wt p (some (.ndarray q)) n = .ok d ∧
        PosMonofractalNear d.dwt q H ε r} ≤ ENNReal.ofReal δ := by
  obtain ⟨m, rfl⟩ : ∃ m, P = m + 1 := ⟨P - 1, by
    have h := hq 2 h2
    have : (4:ℝ) ≤ P := by linarith
    have : 4 ≤ P := by exact_mod_cast this
    omega⟩
  obtain ⟨j₀, hj₀, h⟩ := estimates_robust.{u} hM hM1 hwt (powerLaw_kernel hM hM1 hwt ho h0 h1 hH) q n m h2
    (fun e he => by have := hq e he; push_cast at this; linarith) ε δ hε hδ
  refine ⟨j₀, hj₀, fun j1 j2 h3 h4 => ?_⟩
  obtain ⟨N₀, ρ, hρ, hN₀⟩ := h j1 j2 h3 h4
  refine ⟨N₀, ρ, hρ, ?_⟩
  intro Ω _ μ R N x A c hc hN hG
  have e : (fun n m : ℕ => A n + A m - c * |(((n : ℤ) - m : ℤ) : ℝ)| ^ (2 * H)) = fun n m : ℕ => A n + A m - c * |(n : ℝ) - m| ^ (2 * H) := by
    funext n m; push_cast; rfl
  refine hN₀ hc hN (A := A) ?_
  rw [e]; exact hG

/-- **C131, artefacts**: the same when an adversary who sees the signal changes at most a fraction `ρ` of the samples (of his choice, e.g. all in one
place or spread out), each by at most `b √c`: for every size `b` there is such a fraction. -/
theorem C131_artefacts {M : ℕ} (hM : VanishingMoments wt.dec_hi M) (hM1 : 1 ≤ M) (hwt : wt.Valid) (ho : OrthonormalBank wt) {H : ℝ}
    (h0 : 0 < H) (h1 : H < 1) (hH : 4 * H - 4 * M < -1) (q : List ℝ) (n : ℕ) (h2 : (2:ℝ) ∈ q)
    (ε δ : ℝ) (hε : 0 < ε) (hδ : 0 < δ) : ∃ j₀ : ℕ, 1 ≤ j₀ ∧ ∀ j1 j2 : ℕ, j₀ ≤ j1 → j1 < j2 → ∃ N₀ : ℕ, ∀ b : ℝ, 0 < b → ∃ ρ : ℝ, 0 < ρ ∧
    ∀ {Ω : Type u} [MeasurableSpace Ω] {μ : Measure Ω} {R N : ℕ} {x : Ω → List (Fin R → ℝ)} {A : ℕ → ℝ} {c : ℝ}, 0 < c → N₀ ≤ N →
      GaussianArray μ N x (fun n m => A n + A m - c * |(n : ℝ) - m| ^ (2 * H)) →
      ∀ (p : PExp) (weighted : Bool) (r : Fin R), p = .none ∨ (p = .inf ∧ 4 ≤ wt.dec_hi.length) →
      ∀ e : Ω → Fin R → ℕ → ℝ, (∀ ω, (((range N).filter fun t => e ω r t ≠ 0).card : ℝ) ≤ ρ * N) → (∀ ω t, |e ω r t| ≤ b * √c) →
      μ {ω | ¬ ∃ d, mfAnalysisFull (asFloats (perturbed (x ω) (e ω))) j1 (some j2) 1 0 weighted wt p (some (.ndarray q)) n = .ok d ∧
        PosMonofractalNear d.dwt q H ε r} ≤ ENNReal.ofReal δ := by
  obtain ⟨Q, hQ⟩ : ∃ Q : ℝ, ∀ e ∈ q, e ≤ Q := by
    clear h2
    induction q with
    | nil => exact ⟨0, by simp⟩
    | cons a q ih =>
      obtain ⟨Q, h2⟩ := ih
      refine ⟨max Q a, ?_⟩
      intro e he
      rcases List.mem_cons.1 he with rfl | he
      · exact le_max_right _ _
      · exact (h2 e he).trans (le_max_left _ _)
  obtain ⟨P, hP⟩ := exists_nat_gt (Q + 2)
  obtain ⟨j₀, hj₀, h⟩ := C131_power_law.{u} hM hM1 hwt ho h0 h1 hH q n P h2 (fun e he => by have := hQ e he; linarith) ε δ hε hδ
  refine ⟨j₀, hj₀, fun j1 j2 h3 h4 => ?_⟩
  obtain ⟨N₀, ρ, hρ, hN₀⟩ := h j1 j2 h3 h4
  refine ⟨N₀, fun b hb => ⟨ρ / b ^ P, by positivity, ?_⟩⟩
  intro Ω _ μ R N x A c hc hN hG p weighted r hp e he1 he2
  refine hN₀ hc hN hG p weighted r hp e fun ω => ?_
  have hP0 : P ≠ 0 := by
    rintro rfl
    have := hQ 2 h2
    push_cast at hP
    linarith
  have e1 : ∑ t ∈ range N, |e ω r t| ^ P = ∑ t ∈ (range N).filter fun t => e ω r t ≠ 0, |e ω r t| ^ P := by
    rw [sum_filter]
    refine sum_congr rfl fun t _ => ?_
    by_cases h : e ω r t = 0
    · rw [if_neg (by simpa using h), h, abs_zero, zero_pow hP0]
    · rw [if_pos h]
  rw [e1]
  have hsc : 0 < √c := Real.sqrt_pos.2 hc
  refine (sum_le_card_nsmul _ _ ((b * √c) ^ P) fun t _ => pow_le_pow_left₀ (abs_nonneg _) (he2 ω t) P).trans ?_
  rw [nsmul_eq_mul]
  refine (mul_le_mul_of_nonneg_right (he1 ω) (by positivity)).trans (le_of_eq ?_)
  rw [mul_pow]
  field_simp

/-- **C131, end to end**: simulate fractional Brownian motion with `fbm`, let an adversary change at most a fraction `ρ` of the samples, each by at
most `b` times the standard deviation `|sigma| dt^H` of one increment: `mf_analysis_full` still recovers the parameter `H` (and the whole
monofractal spectrum, for `q > 0`) within `ε` with probability at least `1 - δ`. -/
theorem C131_fbm {M : ℕ} (hM : VanishingMoments wt.dec_hi M) (hM1 : 1 ≤ M) (hwt : wt.Valid) (ho : OrthonormalBank wt) {H : ℝ}
    (h0 : 0 < H) (h1 : H < 1) (hH : 4 * H - 4 * M < -1) (q : List ℝ) (n : ℕ) (h2 : (2:ℝ) ∈ q)
    (ε δ : ℝ) (hε : 0 < ε) (hδ : 0 < δ) : ∃ j₀ : ℕ, 1 ≤ j₀ ∧ ∀ j1 j2 : ℕ, j₀ ≤ j1 → j1 < j2 → ∃ N₀ : ℕ, ∀ b : ℝ, 0 < b → ∃ ρ : ℝ, 0 < ρ ∧
    ∀ {Ω : Type u} [MeasurableSpace Ω] {μ : Measure Ω} {gen : Ω → ℕ → ℝ}, StdNormal μ gen →
    ∀ {N R : ℕ} {sigma : ℝ} {dt : Option ℝ} (z0 : Option (CArr R)), N₀ ≤ N → sigma ≠ 0 → (∀ d, dt = some d → 0 ≤ d) → R ≠ 0 →
      ∃ x : Ω → RArr R, Returns (fbm R N H sigma dt "cme" z0) gen x ∧
      ∀ (p : PExp) (weighted : Bool) (r : Fin R), p = .none ∨ (p = .inf ∧ 4 ≤ wt.dec_hi.length) →
      ∀ e : Ω → Fin R → ℕ → ℝ, (∀ ω, (((range N).filter fun t => e ω r t ≠ 0).card : ℝ) ≤ ρ * N) → (∀ ω t, |e ω r t| ≤ b * (|sigma| * effStep dt N ^ H)) →
      μ {ω | ¬ ∃ d, mfAnalysisFull (asFloats (perturbed (x ω) (e ω))) j1 (some j2) 1 0 weighted wt p (some (.ndarray q)) n = .ok d ∧
        PosMonofractalNear d.dwt q H ε r} ≤ ENNReal.ofReal δ := by
  obtain ⟨j₀, hj₀, h⟩ := C131_artefacts.{u} hM hM1 hwt ho h0 h1 hH q n h2 ε δ hε hδ
  refine ⟨j₀, hj₀, ?_⟩
  intro j1 j2 hj01 hj12
  obtain ⟨N₀, hN₀⟩ := h j1 j2 hj01 hj12
  refine ⟨max N₀ 2, fun b hb => ?_⟩
  obtain ⟨ρ, hρ, hN₀⟩ := hN₀ (b * √2) (by positivity)
  refine ⟨ρ, hρ, ?_⟩
  intro Ω _ μ gen hg N R sigma dt z0 hN hs hdt hR
  have hN2 := (le_max_right _ _).trans hN
  obtain ⟨x, hx, hG, -⟩ := C85_fbm (R := R) (sigma := sigma) z0 h0 h1.le hN2 hdt hR hg
  have hstep := (fgnDt_eq (by omega : N ≠ 0) hdt).2
  rw [fbm_powerLaw H sigma hstep.le] at hG
  refine ⟨x, hx, fun p weighted r hp e he1 he2 => ?_⟩
  refine hN₀ (by positivity) ((le_max_left _ _).trans hN) hG p weighted r hp e he1 fun ω t => (he2 ω t).trans (le_of_eq ?_)
  have e1 : √(sigma ^ 2 / 2 * effStep dt N ^ (2 * H)) = |sigma| * effStep dt N ^ H / √2 := by
    rw [Real.sqrt_mul (by positivity), Real.sqrt_div (by positivity), Real.sqrt_sq_eq_abs, mul_comm 2 H, Real.rpow_mul hstep.le,
      Real.rpow_two, Real.sqrt_sq (by positivity)]
    ring
  rw [e1]
  have : (0:ℝ) < √2 := by positivity
  field_simp

/-! The hypotheses are met: for `db2` and every `0 < H < 1`, with `q = [2, 1, 3, -1]`, when the adversary adds, with sign opposite to the
signal, `100 sigma dt^H` to the first tenth of the fraction allowed. -/
example (H : ℝ) (h0 : 0 < H) (h1 : H < 1) (ε δ : ℝ) (hε : 0 < ε) (hδ : 0 < δ) : ∃ j1 j2 N K : ℕ, 1 ≤ j1 ∧ j1 < j2 ∧ 1 ≤ K ∧
    ∃ (Ω : Type) (_ : MeasurableSpace Ω) (μ : Measure Ω) (gen : Ω → ℕ → ℝ) (x : Ω → RArr 2), StdNormal μ gen ∧
    Returns (fbm 2 N H 1 (some 1) "cme" none) gen x ∧
    μ {ω | ¬ ∃ d, mfAnalysisFull (asFloats (perturbed (x ω) fun r t => if t < K then (if 0 ≤ ((x ω).getD t fun _ => 0) r then -100 else 100) else 0))
        j1 (some j2) 1 0 true db2 .inf (some (.ndarray [2, 1, 3, -1])) 3 = .ok d ∧
        PosMonofractalNear d.dwt [2, 1, 3, -1] H ε 0} ≤ ENNReal.ofReal δ := by
  obtain ⟨hv, ho, hm⟩ := db2_orthonormal
  obtain ⟨j₀, hj₀, h⟩ := C131_fbm hm (by norm_num) hv ho h0 h1 (by push_cast; linarith) [2, 1, 3, -1] 3 (by simp) ε δ hε hδ
  obtain ⟨N₀, hN₀⟩ := h j₀ (j₀ + 1) le_rfl (by omega)
  obtain ⟨ρ, hρ, hN₀⟩ := hN₀ 100 (by norm_num)
  obtain ⟨N, hN⟩ := exists_nat_gt (max (N₀ : ℝ) (1 / ρ))
  have hN1 : N₀ ≤ N := by exact_mod_cast ((le_max_left _ _).trans hN.le)
  have hN3 : 1 ≤ ρ * N := by
    have := ((le_max_right _ _).trans hN.le)
    rw [div_le_iff₀ hρ] at this
    linarith
  obtain ⟨Ω, m, μ, gen, hg⟩ := exists_stdNormal
  obtain ⟨x, hx, hb⟩ := hN₀ hg (N := N) (R := 2) (sigma := 1) (dt := some 1) none hN1 one_ne_zero (by intro d hd; cases hd; norm_num) (by norm_num)
  have he : effStep (some 1) N = 1 := by simp [effStep]
  refine ⟨j₀, j₀ + 1, N, ⌊ρ * N⌋₊, hj₀, by omega, Nat.le_floor (by exact_mod_cast hN3), Ω, m, μ, gen, x, hg, hx, ?_⟩
  refine hb .inf true 0 (Or.inr ⟨rfl, by simp [db2]⟩) _ (fun ω => ?_) fun ω t => ?_
  · refine le_trans ?_ (Nat.floor_le (by positivity : 0 ≤ ρ * (N : ℝ)))
    have : ((range N).filter fun t => (if t < ⌊ρ * (N : ℝ)⌋₊ then (if 0 ≤ ((x ω).getD t fun _ => 0) 0 then (-100 : ℝ) else 100) else 0) ≠ 0) ⊆
        range ⌊ρ * (N : ℝ)⌋₊ := by
      intro t ht
      obtain ⟨-, h⟩ := mem_filter.1 ht
      rw [mem_range]
      by_contra hn
      exact h (if_neg hn)
    have := card_le_card this
    rw [card_range] at this
    exact_mod_cast this
  · rw [he, Real.one_rpow, abs_one, mul_one, mul_one]
    split_ifs <;> norm_num

end

end MFA
