import Verif.Props.BiLeaders
import Verif.Props.BiPLeaders
import Verif.Props.PLeaderScaling

/-!
# Property C147: the bivariate analysis of the p-leaders of Gaussian signals recovers the exponents
-/

namespace MFA

universe u

open Classical Finset MeasureTheory ProbabilityTheory

noncomputable section

variable {wt : Wavelet}

/-- The p-leaders and the coefficients of one Gaussian signal are tame at all the scales, with a probability as close to 1 as desired. -/
theorem pleader_good {M : ℕ} (hM : VanishingMoments wt.dec_hi M) (hM1 : 1 ≤ M) (hwt : wt.Valid) (hF : 4 ≤ wt.dec_hi.length) {G : ℤ → ℝ}
    {h β : ℝ} (hK : ScalingKernel wt G h β) (g nm : ℝ) (hnm : nm ≠ 0) (hpos : 0 < h + g + 1 - 1 / nm) {e : Expo} (he : e.val = 2)
    (q : List ℝ) (n : ℕ) (h2 : (2:ℝ) ∈ q) {p s : ℝ} (hs0 : 0 < s) (hs1 : s < 1 / 2) (hp2 : 2 < p) :
    ∃ (τ : ℕ → ℝ) (a B K : ℝ) (W : ℕ), 0 ≤ B ∧ ∀ j1 j2 : ℕ, 1 ≤ j1 → j1 + W < j2 → ∀ δ : ℝ, 0 < δ → ∃ N₀ : ℕ,
    ∀ {Ω : Type u} [MeasurableSpace Ω] {μ : Measure Ω} {N : ℕ} {x : Ω → List (Fin 1 → ℝ)} {A : ℕ → ℝ} {c : ℝ}, 0 < c → N₀ ≤ N →
      GaussianArray μ N x (fun n m => A n + A m - c * G ((n : ℤ) - m)) →
      (∀ j, 1 ≤ j → j ≤ j2 → 0 < √(c * τ j) ∧ |Real.logb 2 √(c * τ j) - (Real.logb 2 c / 2 + a + (h + g + 1 - 1 / nm) * j)| ≤ B) ∧
      μ {ω | ¬ ∃ (w : WT 1) (l : MRQ 1) (d v : MFVar 1),
        waveletAnalysis (sampled N fun r t => ((x ω).getD t.toNat fun _ => 0) r) (.num e) wt j1 (some (j2 : ℝ)) g nm false = .ok w ∧
        (∀ eta, w.eta_p = some eta → EtaOk (eta 0)) ∧ w.j2_eff = j2 ∧ w.wt_leaders = some l ∧
        IsBundle w.wt_coefs j1 j2 false n q d ∧ IsBundle l j1 j2 false n q v ∧
        (∀ b ∈ w.wt_coefs.values, ∀ j : ℕ, b.1 = j → j1 ≤ j → j ≤ j2 → ∃ xs, Entries (col b.2 0) xs ∧ Tame p s K √(c * τ j) xs) ∧
        (∀ b ∈ l.values, ∀ j : ℕ, b.1 = j → j1 ≤ j → j ≤ j2 → ∃ xs, Entries (col b.2 0) xs ∧ Tame p s K √(c * τ j) xs)}
        ≤ ENNReal.ofReal δ := by
  obtain ⟨b, hb⟩ : ∃ b, b = h + g + 1 - 1 / nm := ⟨_, rfl⟩
  have hbc : coefExponent h g nm / 2 = b := by rw [hb]; unfold coefExponent; ring
  rw [← hb] at hpos ⊢
  obtain ⟨τ, a, B, hB, hgood⟩ := good_scales.{u} hM hM1 hwt hK g nm
  rw [hbc] at hgood
  have hp0 : 0 < p := by linarith
  obtain ⟨θ, hθ⟩ : ∃ θ : ℝ, θ = (2:ℝ) ^ (-b) := ⟨_, rfl⟩
  have hθ0 : 0 < θ := by rw [hθ]; positivity
  have hθ1 : θ < 1 := by rw [hθ]; exact Real.rpow_lt_one_of_one_lt_of_neg (by norm_num) (by linarith)
  obtain ⟨ρ, hρ⟩ : ∃ ρ : ℝ, ρ = θ ^ (1 - p / 2) / 2 := ⟨_, rfl⟩
  have hρ0 : 0 ≤ ρ := by rw [hρ]; positivity
  have hconv : ρ * (2:ℝ) ^ (1 - b * p) < 1 := by
    have e1 : ρ * (2:ℝ) ^ (1 - b * p) = (2:ℝ) ^ (-b + -(b * p / 2)) := by
      rw [hρ, hθ, ← Real.rpow_mul (by norm_num), Real.rpow_sub (by norm_num) 1, Real.rpow_one, div_mul_div_comm, mul_comm _ (2:ℝ),
        mul_div_mul_left _ _ two_ne_zero, ← Real.rpow_sub (by norm_num)]
      congr 1; ring
    rw [e1]
    apply Real.rpow_lt_one_of_one_lt_of_neg (by norm_num)
    have := mul_pos hpos hp0
    linarith
  obtain ⟨s1, hs1d⟩ : ∃ s1, s1 = (s + 1 / 2) / 2 := ⟨_, rfl⟩
  have hss1 : s < s1 := by rw [hs1d]; linarith
  obtain ⟨T, hT0, hgood⟩ := hgood [p, -s, -s1] (by
    intro e he
    simp only [List.mem_cons, List.not_mem_nil, or_false] at he
    rcases he with rfl | rfl | rfl
    · linarith
    · linarith
    · rw [hs1d]; linarith)
  obtain ⟨Cp, hCp⟩ : ∃ Cp : ℝ, Cp = (3 / (1 - θ)) ^ (p / 2 - 1) := ⟨_, rfl⟩
  have hCp0 : 0 ≤ Cp := by
    rw [hCp]; have : 0 < 1 - θ := by linarith
    positivity
  obtain ⟨K, hKd⟩ : ∃ K, K = max (2 * (3 * Cp * ((2:ℝ) ^ (2 * B)) ^ p * T / (1 - ρ * (2:ℝ) ^ (1 - b * p)))) (2 * (T + 1)) := ⟨_, rfl⟩
  have hK0 : 0 ≤ K := by rw [hKd]; exact le_max_of_le_right (by positivity)
  obtain ⟨c0, hc0⟩ : ∃ c0, c0 = √(1 - (2:ℝ) ^ (-b)) := ⟨_, rfl⟩
  have hc0p : 0 < c0 := by rw [hc0]; exact Real.sqrt_pos.2 (one_sub_pos hpos)
  obtain ⟨C1, hC1, hwide1⟩ := wide_estimates hs0 hp0 [2] 0 (by simp) (by intro e he; simp at he; subst he; exact ⟨by linarith, hp2⟩) T B hB
  obtain ⟨W, hW⟩ := exists_nat_ge (C1 / b)
  refine ⟨τ, a, B, K * max 1 (c0 ^ (-s)), W, hB, ?_⟩
  have hTK : T ≤ K * max 1 (c0 ^ (-s)) := by
    have h3 : T ≤ K := by
      have : 2 * (T + 1) ≤ K := hKd ▸ le_max_right _ _
      linarith
    exact h3.trans (le_mul_of_one_le_right hK0 (le_max_left _ _))
  intro j1 j2 hj1 hj12' δ hδ
  have hj12 : j1 < j2 := by omega
  obtain ⟨N₁, hN₁⟩ := hgood j2 δ hδ
  obtain ⟨κ, hκ⟩ : ∃ κ : ℝ, κ = √((1 / 2) ^ j2) := ⟨_, rfl⟩
  have hκ0 : 0 < κ := by rw [hκ]; positivity
  obtain ⟨N₂, hN₂⟩ := sublinear (2 * wt.dec_hi.length * ((2:ℝ) ^ (2 * B) * (2:ℝ) ^ (b * j2) / κ) ^ s) T (s / s1) hT0
    ((div_lt_one (by linarith)).2 hss1) j2
  refine ⟨max (max N₁ N₂) (max (2 ^ j2 * (4 * wt.dec_hi.length + 6)) (2 ^ (j2 + 1) * (wt.dec_hi.length + 1))), ?_⟩
  intro Ω _ μ N x A c hc hN hG
  have hNa : N₁ ≤ N := (le_max_left _ _).trans ((le_max_left _ _).trans hN)
  have hNb : N₂ ≤ N := (le_max_right _ _).trans ((le_max_left _ _).trans hN)
  have hNc : 2 ^ j2 * (4 * wt.dec_hi.length + 6) ≤ N := (le_max_left _ _).trans ((le_max_right _ _).trans hN)
  have hNd : 2 ^ (j2 + 1) * (wt.dec_hi.length + 1) ≤ N := (le_max_right _ _).trans ((le_max_right _ _).trans hN)
  have hN0 : N ≠ 0 := by
    have : 0 < 2 ^ (j2 + 1) * (wt.dec_hi.length + 1) := by positivity
    omega
  have hR : (1:ℕ) ≠ 0 := one_ne_zero
  have hne : ∀ ω, asFloats (x ω) ≠ [] := by
    intro ω h0; have := congrArg List.length h0; simp [asFloats, hG.length ω] at this; exact hN0 this
  choose w hw hfull using fun ω => C48_pleaders (asFloats (x ω)) he wt j1 (some (j2 : ℝ)) g nm false (some (.ndarray q)) n hR
    (hne ω) hnm
  have hw' : ∀ ω, waveletAnalysis (sampled N fun r t => ((x ω).getD t.toNat fun _ => 0) r) .inf wt j1 (some (j2 : ℝ)) g nm false = .ok (w ω) := by
    intro ω
    have h0 := hw ω
    rwa [asFloats_sampled (hG.length ω)] at h0
  have hlong : ∀ ω, (w ω).j2_eff = j2 ∧ j2 ≤ (w ω).wt_coefs.values.length :=
    fun ω => long_enough hR hwt (Or.inr hF) (by omega) hNd (hw' ω)
  have hP : IncrementAnalysis μ wt G c g nm N x w := ⟨⟨A, hG⟩, .inf, j1, some (j2 : ℝ), false, hw⟩
  obtain ⟨hσ, hμ⟩ := hN₁ hc hP hNa (fun ω => (hlong ω).2) 0
  refine ⟨hσ, (measure_mono ?_).trans hμ⟩
  intro ω hω
  simp only [Set.mem_ofPred_eq] at hω ⊢
  intro hgoodω
  apply hω
  have r0 : Fin 1 := 0
  obtain ⟨hj2, hlen⟩ := hlong ω
  have ha1 : (1:ℤ) ≤ (j1 : ℤ) := by exact_mod_cast hj1
  have ha2 : (j1 : ℤ) ≤ (w ω).j2_eff := by rw [hj2]; exact_mod_cast hj12.le
  obtain ⟨S, z, hS, hz, hret, -⟩ := hfull ω ha1 ha2 h2
  have hcardne : ∀ j, 1 ≤ j → j ≤ j2 → interior N wt.dec_hi.length j ≠ ∅ := by
    intro j h3 h4 h7
    have h5 := interior_card_ge N wt.dec_hi.length j h3
    have h6 : 4 * wt.dec_hi.length + 6 ≤ N / 2 ^ j := by
      rw [Nat.le_div_iff_mul_le (by positivity), mul_comm]
      exact (Nat.mul_le_mul_right _ (Nat.pow_le_pow_right (by norm_num) h4)).trans hNc
    rw [h7, card_empty] at h5
    omega
  have hct : ∀ b' ∈ (w ω).wt_coefs.values, ∀ j : ℕ, b'.1 = j → j1 ≤ j → j ≤ j2 → ∃ xs, Entries (col b'.2 0) xs ∧ Tame p s T √(c * τ j) xs := by
    intro b' hb' j hbj h3 h4
    exact coef_tame hP hwt ω hb' hbj (hgoodω j (hj1.trans h3) h4).1 (hcardne j (hj1.trans h3) h4) (fun e he =>
      (hgoodω j (hj1.trans h3) h4).2 e (by simp only [List.mem_cons, List.not_mem_nil, or_false] at he ⊢; tauto))
  -- the exponent used by the correction
  have heta : ∃ η : ℝ, z 0 = Fl.fin η ∧ b ≤ η := by
    obtain ⟨w', hw1, hf1⟩ := C48_total (asFloats (x ω)) .inf (Or.inr rfl) wt j1 (some (j2 : ℝ)) g nm false (some (.ndarray [2])) 0 hR (hne ω) hnm
    rw [hw ω] at hw1
    obtain rfl := Except.ok.inj hw1
    obtain ⟨d1, hd1, -⟩ := hf1 ha1 ha2 (by simp [normQ])
    unfold mfAnalysisFull at hd1
    rw [hw ω] at hd1
    simp only at hd1
    rw [C47_bundle, hj2] at hd1
    have hbun := hd1.1
    have hS' := hbun.1
    rw [show normQ (some (.ndarray [2])) = [2] from rfl] at hS'
    rw [hj2, hS'] at hS
    have h3 := hwide1 (σ := fun j => √(c * τ j)) (a := Real.logb 2 c / 2 + a) (h := b) (r := 0) (hP.entries hwt ω).1 hj1 hj12 hlen hbun
      (fun j h3 h4 => hσ j (hj1.trans h3) h4) hct
    obtain ⟨z', hz', hz2⟩ := h3.2.1 0 2 rfl
    rw [Except.ok.inj hS] at hz'
    rw [hz] at hz'
    obtain rfl : z = z' := by simpa using hz'
    obtain ⟨η, hη, hηb⟩ := hz2
    refine ⟨η, hη, ?_⟩
    have h4 : C1 / ((j2:ℝ) - j1) ≤ b := by
      have h5 : (j1:ℝ) + W + 1 ≤ j2 := by exact_mod_cast hj12'
      rw [div_le_iff₀ (by have : (0:ℝ) ≤ W := Nat.cast_nonneg _
                          linarith)]
      rw [div_le_iff₀ hpos] at hW
      nlinarith
    have := (abs_le.1 hηb).1
    linarith
  obtain ⟨η, hη, hηb⟩ := heta
  have hpos0 : EtaOk (z 0) := by
    rw [hη]
    refine ⟨by simp, ?_⟩
    simp only [Fl.le]
    linarith
  have hpos' : ∀ r, z r ≠ Fl.nan ∧ ¬ Fl.le (z r) (Fl.fin 0) := by
    intro r
    rw [Subsingleton.elim r 0]
    exact hpos0
  obtain ⟨d, v, hd, -, hv, -⟩ := hret hpos'
  obtain ⟨z', hz', -, hok⟩ := (C21_eta_p he (hw ω)).2 S hS
  rw [hz] at hz'
  obtain rfl : z = z' := by simpa using hz'
  obtain ⟨w2, hw2, heta2, hcoef2, hj2e, -⟩ := hok (Or.inr fun r => (hpos' r).2)
  have hw2' : waveletAnalysis (sampled N fun r t => ((x ω).getD t.toNat fun _ => 0) r) (.num e) wt j1 (some (j2 : ℝ)) g nm false = .ok w2 := by
    have h0 := hw2
    rwa [asFloats_sampled (hG.length ω)] at h0
  obtain ⟨l, eta, hl, heta', hlg, hscale⟩ := pleader_scale hwt hw2'
  rw [heta2] at heta'
  obtain rfl := Option.some.inj heta'
  unfold mfAnalysisFull at hd
  rw [hw2] at hd
  simp only at hd
  rw [C47_bundle, hj2e, hj2, hl] at hd
  obtain ⟨hbd, v', hv', hbun⟩ := hd
  refine ⟨w2, l, d.dwt, v', hw2', ?_, hj2e.trans hj2, hl, hbd, hbun, ?_, ?_⟩
  · intro eta h; rw [heta2] at h; cases h; exact hpos0
  · intro b' hb' j hbj h3 h4
    rw [hcoef2] at hb'
    obtain ⟨xs, x1, x2⟩ := hct b' hb' j hbj h3 h4
    exact ⟨xs, x1, x2.le hTK⟩
  intro b' hb' j hbj h3 h4
  obtain ⟨j', hj', hj'1, hr⟩ := hscale b' hb'
  have hjj : j' = j := by rw [hbj] at hj'; exact_mod_cast hj'.symm
  subst hjj
  rw [hcoef2] at hr
  have hnz : ∀ i k, 1 ≤ i → i ≤ j' → k ∈ interior N wt.dec_hi.length i → (w ω).wt_coefs.number i k 0 ≠ 0 :=
    fun i k hi hij hk => (hgoodω i hi (hij.trans h4)).1 k hk
  obtain ⟨xs, A', L, e1, e2, e3, e4, hLL⟩ := hr 0 η hη (hpos.trans_le hηb) hnz
  refine ⟨xs, e1, ?_⟩
  have hLL' := hLL p θ hp2.le hθ0 hθ1
  rw [← hρ, ← hCp] at hLL'
  obtain ⟨hb1, hb2⟩ := pCorrection_bounds hpos hηb hj'1
  rw [← hc0] at hb1
  have hκj : κ ≤ √((1 / 2) ^ j') := by
    rw [hκ]; apply Real.sqrt_le_sqrt
    exact pow_le_pow_of_le_one (by norm_num) (by norm_num) h4
  refine tame_scale (A := A') (L := L) (xs := A'.toList.map L) hc0p hb1 hb2 hp0.le hs0.le (hσ j' hj'1 h4).1 hK0 ?_ ?_ e2 e3 e4 hLL'.pos ?_
  · intro f; rw [List.map_map]; exact Finset.sum_map_toList A' _
  · simp
  rw [hKd]
  refine hLL'.tame hj'1 h4 ?_ ?_ ?_ (σ := fun j => √(c * τ j)) (fun i hi hij => (hσ i hi (hij.trans h4)).1) hnz hCp0 hρ0 hp0
    (by positivity) hpos.le hT0 hs0 hss1 (hκ0.trans_le hκj) hconv ?_ ?_ ?_ hNc ?_
  · intro f; rw [List.map_map]; exact Finset.sum_map_toList A' _
  · simp
  · intro y hy
    obtain ⟨k, hk, rfl⟩ := List.mem_map.1 hy
    exact ⟨k, Finset.mem_toList.1 hk, rfl⟩
  · intro i hi hij
    have := ratio_bounds hσ hi (hij.trans h4) hj'1 h4
    rwa [show b * ((i : ℝ) - j') = -(b * ((j' : ℝ) - i)) by ring] at this
  · intro i hi hij
    exact ratio_bounds hσ hj'1 h4 hi (hij.trans h4)
  · intro e he i hi hij
    exact (hgoodω i hi (hij.trans h4)).2 e he
  · refine le_trans ?_ (hN₂ N hNb)
    rw [mul_assoc (2 * (wt.dec_hi.length : ℝ))]
    apply mul_le_mul_of_nonneg_left _ (by positivity)
    apply mul_le_mul_of_nonneg_right _ (by positivity)
    apply Real.rpow_le_rpow (by positivity) _ hs0.le
    exact div_le_div_of_nonneg_left (by positivity) hκ0 hκj

/-- **The bivariate analysis of two Gaussian signals with stationary increments, with p-leaders**, for any kernels with scaling exponents and
any dependence between the two signals. -/
theorem C147_increments {M : ℕ} (hM : VanishingMoments wt.dec_hi M) (hM1 : 1 ≤ M) (hwt : wt.Valid) (hF : 4 ≤ wt.dec_hi.length) {G1 G2 : ℤ → ℝ}
    {h1 h2 β1 β2 : ℝ} (hK1 : ScalingKernel wt G1 h1 β1) (hK2 : ScalingKernel wt G2 h2 β2) (g nm : ℝ) (hnm : nm ≠ 0)
    (p1 : 0 < h1 + g + 1 - 1 / nm) (p2 : 0 < h2 + g + 1 - 1 / nm) {e : Expo} (he : e.val = 2) (q1 q2 : List ℝ) (n : ℕ)
    (hn1 : q1.Nodup) (hn2 : q2.Nodup) (hq1 : (0:ℝ) ∈ q1 ∧ (1:ℝ) ∈ q1 ∧ (2:ℝ) ∈ q1) (hq2 : (0:ℝ) ∈ q2 ∧ (1:ℝ) ∈ q2 ∧ (2:ℝ) ∈ q2)
    (hl1 : ∀ e ∈ q1, -(1 / 4) < e) (hl2 : ∀ e ∈ q2, -(1 / 4) < e) (hn : 2 ≤ n) :
    ∃ (B : ℝ) (W : ℕ), 0 ≤ B ∧ ∀ j1 j2 : ℕ, 1 ≤ j1 → j1 + W < j2 → ∀ δ : ℝ, 0 < δ → ∃ N₀ : ℕ,
    ∀ {Ω : Type u} [MeasurableSpace Ω] {μ : Measure Ω} {N : ℕ} {x y : Ω → List (Fin 1 → ℝ)} {A1 A2 : ℕ → ℝ} {c1 c2 : ℝ}, 0 < c1 → 0 < c2 → N₀ ≤ N →
      GaussianArray μ N x (fun n m => A1 n + A1 m - c1 * G1 ((n : ℤ) - m)) → GaussianArray μ N y (fun n m => A2 n + A2 m - c2 * G2 ((n : ℤ) - m)) →
      μ {ω | ¬ ∃ d l, bivariateAnalysisFull (asFloats (x ω)) (asFloats (y ω)) j1 (some (j2 : ℝ)) nm g false wt (.num e) (some (.ndarray q1))
          (some (.ndarray q2)) n = .ok (d, l) ∧
        BiExponentsNear d q1 q2 n (h1 + g + 1 - 1 / nm) (h2 + g + 1 - 1 / nm) (B / (j2 - j1)) ∧
        BiExponentsNear l q1 q2 n (h1 + g + 1 - 1 / nm) (h2 + g + 1 - 1 / nm) (B / (j2 - j1))} ≤ ENNReal.ofReal δ := by
  have hl : ∀ e ∈ (q1 ++ q2).map (2 * ·), -(1 / 2) < e := by
    intro e he
    obtain ⟨e', he', rfl⟩ := List.mem_map.1 he
    rcases List.mem_append.1 he' with h | h
    · have := hl1 _ h; linarith
    · have := hl2 _ h; linarith
  obtain ⟨s, hs0, hs1, hsq⟩ := exists_s hl
  obtain ⟨p, hp0, hpb, hpq⟩ := exists_p ((q1 ++ q2).map (2 * ·)) 2
  obtain ⟨τ1, a1, B1, K1, W1, hB1, hg1⟩ := pleader_good.{u} hM hM1 hwt hF hK1 g nm hnm p1 he q1 n hq1.2.2 hs0 hs1 hpb
  obtain ⟨τ2, a2, B2, K2, W2, hB2, hg2⟩ := pleader_good.{u} hM hM1 hwt hF hK2 g nm hnm p2 he q2 n hq2.2.2 hs0 hs1 hpb
  obtain ⟨C, hC, hwide⟩ := bi_wide hs0 hp0 q1 q2 n hn1 hn2 hq1 hq2
    (fun e he => ⟨hsq _ (List.mem_map_of_mem (List.mem_append_left _ he)), hpq _ (List.mem_map_of_mem (List.mem_append_left _ he))⟩)
    (fun e he => ⟨hsq _ (List.mem_map_of_mem (List.mem_append_right _ he)), hpq _ (List.mem_map_of_mem (List.mem_append_right _ he))⟩)
    hn (max K1 K2) (max B1 B2) (le_max_of_le_left hB1)
  refine ⟨C, max W1 W2, hC, ?_⟩
  intro j1 j2 hj1 hjW δ hδ
  have w1 := le_max_left W1 W2
  have w2 := le_max_right W1 W2
  have hj12 : j1 < j2 := by omega
  obtain ⟨Na, hNa⟩ := hg1 j1 j2 hj1 (by omega) (δ / 2) (by positivity)
  obtain ⟨Nb, hNb⟩ := hg2 j1 j2 hj1 (by omega) (δ / 2) (by positivity)
  refine ⟨max Na Nb, ?_⟩
  intro Ω _ μ N x y A1 A2 c1 c2 hc1 hc2 hN hG1 hG2
  obtain ⟨hσ1, hμ1⟩ := hNa hc1 ((le_max_left _ _).trans hN) hG1
  obtain ⟨hσ2, hμ2⟩ := hNb hc2 ((le_max_right _ _).trans hN) hG2
  refine (measure_mono (fun ω hω => ?_)).trans ((measure_union_le _ _).trans ((add_le_add hμ1 hμ2).trans (le_of_eq ?_)))
  swap
  · rw [← ENNReal.ofReal_add (by positivity) (by positivity), add_halves]
  by_contra hgood
  simp only [Set.mem_union, not_or, Set.mem_ofPred_eq, not_not] at hgood hω
  obtain ⟨⟨u1, m1, d1, v1, r1, r2, r3, r4, r5, r6, r7, r8⟩, ⟨u2, m2, d2, v2, t1, t2, t3, t4, t5, t6, t7, t8⟩⟩ := hgood
  apply hω
  obtain ⟨J, Jc, b1, b2, hee, hJ, hJc, hb1, hb2, -, hpc, hsc, hpl, hsl⟩ := wa_paired_num hwt r1 t1 r2 t2
  rw [r4] at hb1; rw [t4] at hb2
  obtain rfl := Option.some.inj hb1
  obtain rfl := Option.some.inj hb2
  have hJ' : j2 ≤ J := by rw [r3] at hJ; exact_mod_cast hJ
  have ha1 : (1:ℤ) ≤ (j1 : ℤ) := by exact_mod_cast hj1
  have ha2 : (j1 : ℤ) ≤ (j2 : ℤ) := by exact_mod_cast hj12.le
  obtain ⟨d, hd, -⟩ := biVar_marginals hpc hsc ha1 ha2 (by exact_mod_cast hJ'.trans hJc) false n hn q1 q2 hn1 hn2 hq1 hq2 r5 t5
  obtain ⟨l, hl', -⟩ := biVar_marginals hpl hsl ha1 ha2 (by exact_mod_cast hJ') false n hn q1 q2 hn1 hn2 hq1 hq2 r6 t6
  have s1 : ∀ j, j1 ≤ j → j ≤ j2 → 0 < √(c1 * τ1 j) ∧ |Real.logb 2 √(c1 * τ1 j) - (Real.logb 2 c1 / 2 + a1 + (h1 + g + 1 - 1 / nm) * j)| ≤ max B1 B2 :=
    fun j i1 i2 => ⟨(hσ1 j (hj1.trans i1) i2).1, (hσ1 j (hj1.trans i1) i2).2.trans (le_max_left _ _)⟩
  have s2 : ∀ j, j1 ≤ j → j ≤ j2 → 0 < √(c2 * τ2 j) ∧ |Real.logb 2 √(c2 * τ2 j) - (Real.logb 2 c2 / 2 + a2 + (h2 + g + 1 - 1 / nm) * j)| ≤ max B1 B2 :=
    fun j i1 i2 => ⟨(hσ2 j (hj1.trans i1) i2).1, (hσ2 j (hj1.trans i1) i2).2.trans (le_max_right _ _)⟩
  have lift : ∀ {m : MRQ 1} {σ : ℕ → ℝ} {K : ℝ}, K ≤ max K1 K2 →
      (∀ b ∈ m.values, ∀ j : ℕ, b.1 = j → j1 ≤ j → j ≤ j2 → ∃ xs, Entries (col b.2 0) xs ∧ Tame p s K (σ j) xs) →
      ∀ b ∈ m.values, ∀ j : ℕ, b.1 = j → j1 ≤ j → j ≤ j2 → ∃ xs, Entries (col b.2 0) xs ∧ Tame p s (max K1 K2) (σ j) xs := by
    intro m σ K hKK hm b hb j hbj i1 i2
    obtain ⟨xs, x1, x2⟩ := hm b hb j hbj i1 i2
    exact ⟨xs, x1, x2.le hKK⟩
  refine ⟨d, l, ?_, ?_, ?_⟩
  · rw [asFloats_sampled (hG1.length ω), asFloats_sampled (hG2.length ω)]
    unfold bivariateAnalysisFull bivariateAnalysis
    simp only [r1, t1, r4, t4, r3, t3, min_self, hd, hl']
  · exact hwide (σ1 := fun j => √(c1 * τ1 j)) (σ2 := fun j => √(c2 * τ2 j)) hpc hsc hj1 hj12 (hJ'.trans hJc) r5 t5 hd s1 s2
      (lift (σ := fun j => √(c1 * τ1 j)) (le_max_left _ _) r7) (lift (σ := fun j => √(c2 * τ2 j)) (le_max_right _ _) t7)
  · exact hwide (σ1 := fun j => √(c1 * τ1 j)) (σ2 := fun j => √(c2 * τ2 j)) hpl hsl hj1 hj12 hJ' r6 t6 hl' s1 s2
      (lift (σ := fun j => √(c1 * τ1 j)) (le_max_left _ _) r8) (lift (σ := fun j => √(c2 * τ2 j)) (le_max_right _ _) t8)

/-- **C147, motions**: two calls of `fbm`, with parameters `H1` and `H2` and random streams that may depend on each other in any way, analysed
with p-leaders by `bivariate_analysis_full(p_exp=2)`, unweighted.  For every `ε` there is a width `W` such that on every range of more than
`W` octaves, for all long enough signals, with probability at least `1 - δ` the call returns (in particular both estimates of eta are positive)
and all its exponents `zeta(e1, e2)` and log-cumulants, from the coefficients and from the p-leaders, are within `ε` of `e1 H1 + e2 H2`, of `H1`
(order `(1, 0)`), of `H2` (order `(0, 1)`) and of 0 (all other orders). -/
theorem C147_fbm {M : ℕ} (hM : VanishingMoments wt.dec_hi M) (hM1 : 1 ≤ M) (hwt : wt.Valid) (ho : OrthonormalBank wt)
    (hF : 4 ≤ wt.dec_hi.length) {H1 H2 : ℝ} (p1 : 0 < H1) (p2 : H1 < 1) (p3 : 4 * H1 - 4 * M < -1) (r1 : 0 < H2) (r2 : H2 < 1)
    (r3 : 4 * H2 - 4 * M < -1) {e : Expo} (he : e.val = 2) (q1 q2 : List ℝ) (n : ℕ)
    (hn1 : q1.Nodup) (hn2 : q2.Nodup) (hq1 : (0:ℝ) ∈ q1 ∧ (1:ℝ) ∈ q1 ∧ (2:ℝ) ∈ q1) (hq2 : (0:ℝ) ∈ q2 ∧ (1:ℝ) ∈ q2 ∧ (2:ℝ) ∈ q2)
    (hl1 : ∀ e ∈ q1, -(1 / 4) < e) (hl2 : ∀ e ∈ q2, -(1 / 4) < e) (hn : 2 ≤ n) (ε : ℝ) (hε : 0 < ε) :
    ∃ W : ℕ, ∀ j1 j2 : ℕ, 1 ≤ j1 → j1 + W < j2 → ∀ δ : ℝ, 0 < δ → ∃ N₀ : ℕ,
    ∀ {Ω : Type u} [MeasurableSpace Ω] {μ : Measure Ω} {gen1 gen2 : Ω → ℕ → ℝ}, StdNormal μ gen1 → StdNormal μ gen2 →
    ∀ {N : ℕ} {s1 s2 : ℝ} {dt1 dt2 : Option ℝ} (z1 z2 : Option (CArr 1)), N₀ ≤ N → s1 ≠ 0 → s2 ≠ 0 →
      (∀ d, dt1 = some d → 0 ≤ d) → (∀ d, dt2 = some d → 0 ≤ d) →
      ∃ x y : Ω → RArr 1, Returns (fbm 1 N H1 s1 dt1 "cme" z1) gen1 x ∧ Returns (fbm 1 N H2 s2 dt2 "cme" z2) gen2 y ∧
      μ {ω | ¬ ∃ d l, bivariateAnalysisFull (asFloats (x ω)) (asFloats (y ω)) j1 (some (j2 : ℝ)) 1 0 false wt (.num e) (some (.ndarray q1))
          (some (.ndarray q2)) n = .ok (d, l) ∧ BiExponentsNear d q1 q2 n H1 H2 ε ∧ BiExponentsNear l q1 q2 n H1 H2 ε} ≤ ENNReal.ofReal δ := by
  obtain ⟨B, W₀, hB, h⟩ := C147_increments.{u} hM hM1 hwt hF (powerLaw_kernel hM hM1 hwt ho p1 p2 p3) (powerLaw_kernel hM hM1 hwt ho r1 r2 r3)
    0 1 one_ne_zero (by linarith) (by linarith) he q1 q2 n hn1 hn2 hq1 hq2 hl1 hl2 hn
  rw [show H1 + 0 + 1 - 1 / 1 = H1 by ring, show H2 + 0 + 1 - 1 / 1 = H2 by ring] at h
  obtain ⟨W, hW⟩ := exists_nat_ge (B / ε)
  refine ⟨max W W₀, fun j1 j2 h3 h4 δ hδ => ?_⟩
  have h5 := le_max_left W W₀
  have h6 := le_max_right W W₀
  obtain ⟨N₀, hN₀⟩ := h j1 j2 h3 (by omega) δ hδ
  refine ⟨max N₀ 2, ?_⟩
  intro Ω _ μ gen1 gen2 g1 g2 N s1 s2 dt1 dt2 z1 z2 hN hs1 hs2 hd1 hd2
  have hN2 := (le_max_right _ _).trans hN
  obtain ⟨x, A1, c1, hx, hc1, hx'⟩ := fbm_array g1 p1 p2 z1 hN2 hs1 hd1 one_ne_zero
  obtain ⟨y, A2, c2, hy, hc2, hy'⟩ := fbm_array g2 r1 r2 z2 hN2 hs2 hd2 one_ne_zero
  have hj : (W:ℝ) ≤ (j2:ℝ) - j1 := by
    have : ((j1 + W : ℕ) : ℝ) ≤ j2 := by exact_mod_cast (by omega : j1 + W ≤ j2)
    push_cast at this; linarith
  have hj0 : (0:ℝ) < (j2:ℝ) - j1 := by
    have : (j1 : ℝ) < j2 := by exact_mod_cast (by omega : j1 < j2)
    linarith
  have hle : B / ((j2:ℝ) - j1) ≤ ε := by
    rw [div_le_iff₀ (by positivity : (0:ℝ) < ε)] at hW
    rw [div_le_iff₀ hj0]
    nlinarith
  refine ⟨x, y, hx, hy, (measure_mono fun ω hω => ?_).trans (hN₀ hc1 hc2 ((le_max_left _ _).trans hN) hx' hy')⟩
  simp only [Set.mem_ofPred_eq] at hω ⊢
  rintro ⟨d, l, e1, e2, e3⟩
  exact hω ⟨d, l, e1, e2.mono hle, e3.mono hle⟩

/-- **C147, correlated motions**: the two signals are linear combinations (`α`, `β`) of the columns of an array of independent fractional
Brownian motions; the width does not depend on the correlation. -/
theorem C147_correlated {M : ℕ} (hM : VanishingMoments wt.dec_hi M) (hM1 : 1 ≤ M) (hwt : wt.Valid) (ho : OrthonormalBank wt)
    (hF : 4 ≤ wt.dec_hi.length) {H : ℝ} (h0 : 0 < H) (h1 : H < 1) (hH : 4 * H - 4 * M < -1) {e : Expo} (he : e.val = 2) (q1 q2 : List ℝ) (n : ℕ)
    (hn1 : q1.Nodup) (hn2 : q2.Nodup) (hq1 : (0:ℝ) ∈ q1 ∧ (1:ℝ) ∈ q1 ∧ (2:ℝ) ∈ q1) (hq2 : (0:ℝ) ∈ q2 ∧ (1:ℝ) ∈ q2 ∧ (2:ℝ) ∈ q2)
    (hl1 : ∀ e ∈ q1, -(1 / 4) < e) (hl2 : ∀ e ∈ q2, -(1 / 4) < e) (hn : 2 ≤ n) :
    ∃ (B : ℝ) (W : ℕ), 0 ≤ B ∧ ∀ j1 j2 : ℕ, 1 ≤ j1 → j1 + W < j2 → ∀ δ : ℝ, 0 < δ → ∃ N₀ : ℕ,
    ∀ {Ω : Type u} [MeasurableSpace Ω] {μ : Measure Ω} {gen : Ω → ℕ → ℝ}, StdNormal μ gen →
    ∀ {N R : ℕ} {sigma : ℝ} {dt : Option ℝ} (z0 : Option (CArr R)), N₀ ≤ N → sigma ≠ 0 → (∀ d, dt = some d → 0 ≤ d) →
      ∀ α β : Fin R → ℝ, α ≠ 0 → β ≠ 0 → ∃ x : Ω → RArr R, Returns (fbm R N H sigma dt "cme" z0) gen x ∧
      μ {ω | ¬ ∃ d l, bivariateAnalysisFull (asFloats (mixture α (x ω))) (asFloats (mixture β (x ω))) j1 (some (j2 : ℝ)) 1 0 false wt (.num e)
          (some (.ndarray q1)) (some (.ndarray q2)) n = .ok (d, l) ∧
        BiExponentsNear d q1 q2 n H H (B / (j2 - j1)) ∧ BiExponentsNear l q1 q2 n H H (B / (j2 - j1))} ≤ ENNReal.ofReal δ := by
  obtain ⟨B, W, hB, h⟩ := C147_increments.{u} hM hM1 hwt hF (powerLaw_kernel hM hM1 hwt ho h0 h1 hH) (powerLaw_kernel hM hM1 hwt ho h0 h1 hH)
    0 1 one_ne_zero (by linarith) (by linarith) he q1 q2 n hn1 hn2 hq1 hq2 hl1 hl2 hn
  rw [show H + 0 + 1 - 1 / 1 = H by ring] at h
  refine ⟨B, W, hB, fun j1 j2 h3 h4 δ hδ => ?_⟩
  obtain ⟨N₀, hN₀⟩ := h j1 j2 h3 h4 δ hδ
  refine ⟨max N₀ 2, ?_⟩
  intro Ω _ μ gen hg N R sigma dt z0 hN hs hdt α β hα hβ
  have hN2 := (le_max_right _ _).trans hN
  have hR : R ≠ 0 := by rintro rfl; exact hα (Subsingleton.elim _ _)
  obtain ⟨x, A, c, hx, hc, hx'⟩ := fbm_array hg h0 h1 z0 hN2 hs hdt hR
  have hx1 := mixture_array (G := fun t : ℤ => |(t : ℝ)| ^ (2 * H)) hx' α
  have hx2 := mixture_array (G := fun t : ℤ => |(t : ℝ)| ^ (2 * H)) hx' β
  exact ⟨x, hx, hN₀ (mul_pos (sum_sq_pos hα) hc) (mul_pos (sum_sq_pos hβ) hc) ((le_max_left _ _).trans hN) hx1 hx2⟩

/-- **C147, noises**: two calls of `fgn`, with any dependence between the two streams and a fractional integration of order `gamint` that makes
the exponents `H - 1 + gamint` positive. -/
theorem C147_fgn {M : ℕ} (hM : VanishingMoments wt.dec_hi M) (hM1 : 1 ≤ M) (hwt : wt.Valid) (ho : OrthonormalBank wt)
    (hF : 4 ≤ wt.dec_hi.length) {H1 H2 : ℝ} (p1 : 0 < H1) (p2 : H1 < 1) (p3 : 1 / 2 ≤ H1 ∨ RegularWavelet wt) (r1 : 0 < H2) (r2 : H2 < 1)
    (r3 : 1 / 2 ≤ H2 ∨ RegularWavelet wt) {g : ℝ} (g1 : 0 < H1 - 1 + g) (g2 : 0 < H2 - 1 + g) {e : Expo} (he : e.val = 2)
    (q1 q2 : List ℝ) (n : ℕ)
    (hn1 : q1.Nodup) (hn2 : q2.Nodup) (hq1 : (0:ℝ) ∈ q1 ∧ (1:ℝ) ∈ q1 ∧ (2:ℝ) ∈ q1) (hq2 : (0:ℝ) ∈ q2 ∧ (1:ℝ) ∈ q2 ∧ (2:ℝ) ∈ q2)
    (hl1 : ∀ e ∈ q1, -(1 / 4) < e) (hl2 : ∀ e ∈ q2, -(1 / 4) < e) (hn : 2 ≤ n) :
    ∃ (B : ℝ) (W : ℕ), 0 ≤ B ∧ ∀ j1 j2 : ℕ, 1 ≤ j1 → j1 + W < j2 → ∀ δ : ℝ, 0 < δ → ∃ N₀ : ℕ,
    ∀ {Ω : Type u} [MeasurableSpace Ω] {μ : Measure Ω} {gen1 gen2 : Ω → ℕ → ℝ}, StdNormal μ gen1 → StdNormal μ gen2 →
    ∀ {N : ℕ} {s1 s2 : ℝ} {dt1 dt2 : Option ℝ} (z1 z2 : Option (CArr 1)), N₀ ≤ N → s1 ≠ 0 → s2 ≠ 0 →
      (∀ d, dt1 = some d → 0 ≤ d) → (∀ d, dt2 = some d → 0 ≤ d) →
      ∃ x y : Ω → RArr 1, Returns (fgn 1 N H1 s1 dt1 "cme" z1) gen1 x ∧ Returns (fgn 1 N H2 s2 dt2 "cme" z2) gen2 y ∧
      μ {ω | ¬ ∃ d l, bivariateAnalysisFull (asFloats (x ω)) (asFloats (y ω)) j1 (some (j2 : ℝ)) 1 g false wt (.num e) (some (.ndarray q1))
          (some (.ndarray q2)) n = .ok (d, l) ∧
        BiExponentsNear d q1 q2 n (H1 - 1 + g) (H2 - 1 + g) (B / (j2 - j1)) ∧
        BiExponentsNear l q1 q2 n (H1 - 1 + g) (H2 - 1 + g) (B / (j2 - j1))} ≤ ENNReal.ofReal δ := by
  obtain ⟨b1, hK1⟩ := noise_kernel hM hM1 hwt ho p1 p2 p3
  obtain ⟨b2, hK2⟩ := noise_kernel hM hM1 hwt ho r1 r2 r3
  obtain ⟨B, W, hB, h⟩ := C147_increments.{u} hM hM1 hwt hF hK1 hK2 g 1 one_ne_zero (by linarith) (by linarith) he q1 q2 n hn1 hn2 hq1 hq2
    hl1 hl2 hn
  rw [show H1 - 1 + g + 1 - 1 / 1 = H1 - 1 + g by ring, show H2 - 1 + g + 1 - 1 / 1 = H2 - 1 + g by ring] at h
  refine ⟨B, W, hB, fun j1 j2 h3 h4 δ hδ => ?_⟩
  obtain ⟨N₀, hN₀⟩ := h j1 j2 h3 h4 δ hδ
  refine ⟨max N₀ 2, ?_⟩
  intro Ω _ μ gen1 gen2 g1 g2 N s1 s2 dt1 dt2 z1 z2 hN hs1 hs2 hd1 hd2
  have hN2 := (le_max_right _ _).trans hN
  obtain ⟨x, A1, c1, hx, hc1, hx'⟩ := fgn_array g1 p1 p2 z1 hN2 hs1 hd1 one_ne_zero
  obtain ⟨y, A2, c2, hy, hc2, hy'⟩ := fgn_array g2 r1 r2 z2 hN2 hs2 hd2 one_ne_zero
  exact ⟨x, y, hx, hy, hN₀ hc1 hc2 ((le_max_left _ _).trans hN) hx' hy'⟩

/-! The hypotheses are met: with `db2`, for all `0 < H1, H2 < 1`, two motions made from the same random stream. -/
example (H1 H2 : ℝ) (p1 : 0 < H1) (p2 : H1 < 1) (r1 : 0 < H2) (r2 : H2 < 1) (ε δ : ℝ) (hε : 0 < ε) (hδ : 0 < δ) : ∃ j1 j2 N : ℕ, 1 ≤ j1 ∧ j1 < j2 ∧
    ∃ (Ω : Type) (_ : MeasurableSpace Ω) (μ : Measure Ω) (gen : Ω → ℕ → ℝ) (x y : Ω → RArr 1), StdNormal μ gen ∧
    Returns (fbm 1 N H1 1 none "cme" none) gen x ∧ Returns (fbm 1 N H2 1 none "cme" none) gen y ∧
    μ {ω | ¬ ∃ d l, bivariateAnalysisFull (asFloats (x ω)) (asFloats (y ω)) j1 (some (j2 : ℝ)) 1 0 false db2 (.num (.int 2))
        (some (.ndarray [0, 1, 2])) (some (.ndarray [0, 1, 2, -1 / 5])) 3 = .ok (d, l) ∧
      BiExponentsNear d [0, 1, 2] [0, 1, 2, -1 / 5] 3 H1 H2 ε ∧ BiExponentsNear l [0, 1, 2] [0, 1, 2, -1 / 5] 3 H1 H2 ε} ≤ ENNReal.ofReal δ := by
  obtain ⟨hv, ho, hm⟩ := db2_orthonormal
  obtain ⟨W, h⟩ := C147_fbm hm (by norm_num) hv ho (by simp [db2]) p1 p2 (by push_cast; linarith) r1 r2 (by push_cast; linarith)
    (e := .int 2) (by simp [Expo.val]) [0, 1, 2] [0, 1, 2, -1 / 5] 3 (by norm_num) (by norm_num) (by norm_num) (by norm_num)
    (by intro e he; simp only [List.mem_cons, List.not_mem_nil, or_false] at he; rcases he with rfl | rfl | rfl <;> norm_num)
    (by intro e he; simp only [List.mem_cons, List.not_mem_nil, or_false] at he; rcases he with rfl | rfl | rfl | rfl <;> norm_num)
    (by norm_num) ε hε
  obtain ⟨N₀, hN₀⟩ := h 1 (W + 2) le_rfl (by omega) δ hδ
  obtain ⟨Ω, m, μ, gen, hg⟩ := exists_stdNormal
  obtain ⟨x, y, hx, hy, hb⟩ := hN₀ hg hg (s1 := 1) (s2 := 1) (dt1 := none) (dt2 := none) none none le_rfl one_ne_zero one_ne_zero
    (by intro d hd; cases hd) (by intro d hd; cases hd)
  exact ⟨1, W + 2, N₀, le_rfl, by omega, Ω, m, μ, gen, x, y, hg, hx, hy, hb⟩

end

end MFA
