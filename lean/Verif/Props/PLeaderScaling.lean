import Verif.Lemmas.PLeaderMoments
import Verif.Props.FullPLeaders
import Verif.Props.LeaderScaling

/-!
# Property C120: the p-leaders of fractional Brownian motion have its exponent
-/

namespace MFA

universe u

open Classical Finset MeasureTheory ProbabilityTheory

noncomputable section

variable {wt : Wavelet}

theorem mem_nbhd_Ico {j k j' k' : ℕ} (h1 : 1 ≤ j') (h2 : j' ≤ j) : k' ∈ Ico (k * 2 ^ (j - j')) ((k + 3) * 2 ^ (j - j')) ↔ InNbhd j k j' k' := by
  have hp : 0 < 2 ^ (j - j') := by positivity
  rw [mem_Ico, ← Nat.le_div_iff_mul_le hp, ← Nat.div_lt_iff_lt_mul hp]
  unfold InNbhd
  constructor
  · rintro ⟨a, b⟩; exact ⟨h1, h2, a, by omega⟩
  · rintro ⟨-, -, a, b⟩; exact ⟨a, by omega⟩

/-- The p-leaders (`p_exp=2`) of one scale, computed from the coefficients of that scale and the finer ones. -/
theorem pleader_scale {R N : ℕ} {x : Fin R → ℤ → ℝ} (hwt : wt.Valid) {e : Expo} {j1 : ℤ} {j2 : Option ℝ} {g nm : ℝ} {weighted : Bool}
    {w : WT R} (h : waveletAnalysis (sampled N x) (.num e) wt j1 j2 g nm weighted = .ok w) :
    ∃ l eta, w.wt_leaders = some l ∧ w.eta_p = some eta ∧ l.gamint = g ∧
    ∀ a ∈ l.values, ∃ j : ℕ, a.1 = j ∧ 1 ≤ j ∧ ∀ r (η : ℝ), eta r = Fl.fin η → 0 < η →
      (∀ j' k', 1 ≤ j' → j' ≤ j → k' ∈ interior N wt.dec_hi.length j' → w.wt_coefs.number j' k' r ≠ 0) →
      ∃ xs A L, Entries (col a.2 r) xs ∧ (∀ f : ℝ → ℝ, (xs.map f).sum = ∑ k ∈ A, f (L k * pCorrection η 2 j)) ∧ xs.length = A.card ∧
        (∀ y ∈ xs, ∃ k ∈ A, y = L k * pCorrection η 2 j) ∧
        ∀ p θ : ℝ, 2 ≤ p → 0 < θ → θ < 1 → LeaderLike N wt.dec_hi.length j (fun j' k' => w.wt_coefs.number j' k' r) A L
          ((3 / (1 - θ)) ^ (p / 2 - 1)) (θ ^ (1 - p / 2) / 2) √((1 / 2) ^ j) p := by
  obtain ⟨l, eta, hl, heta, h17⟩ := C17_pleaders h
  obtain ⟨he2, ml, K, eta', h1, hK, -, -, -, hw⟩ := wa_num_inv h
  have hlS : l.values = (scalesUpTo .pleader g (corrSeq eta' e.val (leadSeq (wparams wt g nm) (.num e) (sampled N x))) K).values ∧ l.gamint = g := by
    have : l = _ := Option.some.inj (hl.symm.trans (by rw [hw]))
    rw [this]
    exact ⟨rfl, rfl⟩
  have hkc : K ≤ coefScales (wparams wt g nm) (sampled N x) ml.toNat K := by
    rcases coefScales_cases (wparams wt g nm) (sampled N x) ml.toNat K with h | h <;> omega
  have hc : w.wt_coefs = scalesUpTo .coef g (coefSeq (wparams wt g nm) (sampled N x))
      (coefScales (wparams wt g nm) (sampled N x) ml.toNat K) := by rw [hw]
  refine ⟨l, eta, hl, heta, hlS.2, ?_⟩
  intro a ha
  rw [hlS.1] at ha
  obtain ⟨j, hj1, hjK, rfl⟩ := scalesUpTo_mem ha
  refine ⟨j, rfl, hj1, fun r η hη hpos hne => ?_⟩
  obtain ⟨n, hn⟩ : ∃ n, n = N / 2 ^ j - 2 := ⟨_, rfl⟩
  obtain ⟨ls, hls⟩ : ∃ ls, ls = corrSeq eta' e.val (leadSeq (wparams wt g nm) (.num e) (sampled N x)) j := ⟨_, rfl⟩
  have hlen : ls.length = n := by rw [hls, hn]; simp [corrSeq, leadSeq_length, sampled_length]
  obtain ⟨v, hvd⟩ : ∃ v : ℕ → Fl, v = fun k => ent ls k r := ⟨_, rfl⟩
  have hcol : col ls r = (List.range n).map v := by rw [col_range, hlen, hvd]
  have hval : ∀ k, k < n → l.val? j k r = some (v k) := by
    intro k hk
    have : l.val? j k r = (scalesUpTo .pleader g (corrSeq eta' e.val (leadSeq (wparams wt g nm) (.num e) (sampled N x))) K).val? j k r := by
      unfold MRQ.val?
      rw [hlS.1]
    rw [this, scalesUpTo_val, ← hls, hlen, if_pos ⟨hj1, hjK, hk⟩, hvd]
  -- the coefficients of a neighbourhood
  obtain ⟨d, hd⟩ : ∃ d : ℕ → ℕ → ℝ, d = fun j' k' => if k' ∈ interior N wt.dec_hi.length j' then w.wt_coefs.number j' k' r else 0 := ⟨_, rfl⟩
  have hcoef : ∀ k j' k', k < n → InNbhd j k j' k' →
      (k' ∈ interior N wt.dec_hi.length j' ∧ w.wt_coefs.val? j' k' r = some (Fl.fin (w.wt_coefs.number j' k' r))) ∨
      (k' ∉ interior N wt.dec_hi.length j' ∧ w.wt_coefs.val? j' k' r = some Fl.nan) := by
    intro k j' k' hk hnb
    have hlt : k' < (sampled N x).length / 2 ^ j' := hnb.lt_length (by rw [sampled_length]; omega)
    have hin : w.wt_coefs.val? j' k' r = some (ent (coefSeq (wparams wt g nm) (sampled N x) j') k' r) := by
      rw [hc, scalesUpTo_val, coefSeq_length _ _ _ hnb.1, if_pos ⟨hnb.1, by have := hnb.2.1; omega, hlt⟩]
    rcases coef_or_nan hwt h hin with ⟨a1, a2⟩ | ⟨a1, a2⟩
    · exact Or.inl ⟨a1, by rw [hin, a2]⟩
    · exact Or.inr ⟨a1, by rw [hin, a2]⟩
  obtain ⟨I, hI⟩ : ∃ I : ℕ → ℕ → Finset ℕ, I = fun k j' => (interior N wt.dec_hi.length j').filter (fun k' => InNbhd j k j' k') := ⟨_, rfl⟩
  have hen : ∀ k, nbhdEnergy d j k = ∑ j' ∈ Icc 1 j, ∑ k' ∈ I k j', 2 ^ j' * w.wt_coefs.number j' k' r ^ 2 := by
    intro k
    unfold nbhdEnergy
    refine sum_congr rfl fun j' hj' => ?_
    obtain ⟨b1, b2⟩ := mem_Icc.1 hj'
    have e1 : I k j' = (Ico (k * 2 ^ (j - j')) ((k + 3) * 2 ^ (j - j'))).filter fun k' => k' ∈ interior N wt.dec_hi.length j' := by
      ext k'
      rw [hI, mem_filter, mem_filter, mem_nbhd_Ico b1 b2, and_comm]
    rw [e1, sum_filter]
    refine sum_congr rfl fun k' _ => ?_
    rw [hd]
    simp only
    split <;> simp
  obtain ⟨L, hLd⟩ : ∃ L : ℕ → ℝ, L = fun k => √((2:ℝ) ^ (-(j : ℝ)) * ∑ j' ∈ Icc 1 j, ∑ k' ∈ I k j', 2 ^ j' * w.wt_coefs.number j' k' r ^ 2) := ⟨_, rfl⟩
  have hvL : ∀ k, k < n → (∃ j' k', InNbhd j k j' k' ∧ k' ∈ interior N wt.dec_hi.length j') → v k = Fl.fin (L k * pCorrection η 2 j) := by
    rintro k hk ⟨j', k', hnb, hin⟩
    have h3 := (h17 j k r (v k) η (hval k hk) hη hpos).2 d (by
      intro j'' k'' hnb'
      rw [hd]
      rcases hcoef k j'' k'' hk hnb' with ⟨a1, a2⟩ | ⟨a1, a2⟩
      · left; rw [a2]; simp only [if_pos a1]
      · right; exact ⟨a2, if_neg a1⟩) ⟨j', k', hnb, by
        rcases hcoef k j' k' hk hnb with ⟨a1, a2⟩ | ⟨a1, a2⟩
        · rw [a2]; simp
        · exact absurd hin a1⟩
    rw [h3, hen, hLd]
  have hvn : ∀ k, k < n → v k ≠ Fl.nan → ∃ j' k', InNbhd j k j' k' ∧ k' ∈ interior N wt.dec_hi.length j' := by
    intro k hk hvk
    by_contra hno
    push Not at hno
    apply hvk
    refine (h17 j k r (v k) η (hval k hk) hη hpos).1 fun j' k' hnb => ?_
    rcases hcoef k j' k' hk hnb with ⟨a1, a2⟩ | ⟨a1, a2⟩
    · exact absurd a1 (hno j' k' hnb)
    · exact a2
  obtain ⟨A, hAd⟩ : ∃ A : Finset ℕ, A = (range n).filter fun k => v k ≠ Fl.nan := ⟨_, rfl⟩
  have hA : ∀ k, k ∈ A ↔ k < n ∧ v k ≠ Fl.nan := by intro k; rw [hAd, mem_filter, mem_range]
  have hAn : ∀ k ∈ A, k < n ∧ ∃ j' k', InNbhd j k j' k' ∧ k' ∈ interior N wt.dec_hi.length j' := fun k hk =>
    ⟨((hA k).1 hk).1, hvn k ((hA k).1 hk).1 ((hA k).1 hk).2⟩
  obtain ⟨xs, e1, e2, e3, e4⟩ := entries_of_col (L := fun k => L k * pCorrection η 2 j) hcol hA (fun k hk => hvL k (hAn k hk).1 (hAn k hk).2)
  have hlow : ∀ k j' k', InNbhd j k j' k' → k' ∈ interior N wt.dec_hi.length j' → √((1 / 2) ^ (j - j')) * |w.wt_coefs.number j' k' r| ≤ L k := by
    intro k j' k' hnb hin
    rw [hLd]
    exact energy_ge (I := I k) (fun j' k' => w.wt_coefs.number j' k' r) hnb.1 hnb.2.1 (by rw [hI]; exact mem_filter.2 ⟨hin, hnb⟩)
  refine ⟨xs, A, L, by rw [← hls]; exact e1, e2, e3, e4, fun p θ hp h0 h1' => ⟨?_, ?_, ?_, ?_, ?_, ?_⟩⟩
  · intro k hk
    rw [mem_range, ← hn]; exact (hAn k hk).1
  · intro k hk
    obtain ⟨-, j', k', hnb, hin⟩ := hAn k hk
    refine lt_of_lt_of_le ?_ (hlow k j' k' hnb hin)
    have := abs_pos.2 (hne j' k' hnb.1 hnb.2.1 hin)
    positivity
  · intro k hk hkn
    rw [← hn] at hkn
    rw [hA]
    refine ⟨hkn, ?_⟩
    rw [hvL k hkn ⟨j, k, ⟨hj1, le_rfl, by simp, by simp⟩, hk⟩]
    simp
  · intro k hk hkA
    have := hlow k j k ⟨hj1, le_rfl, by simp, by simp⟩ hk
    rwa [Nat.sub_self, pow_zero, Real.sqrt_one, one_mul] at this
  · intro k hk
    obtain ⟨-, j', k', hnb, hin⟩ := hAn k hk
    refine ⟨j', k', hnb.1, hnb.2.1, hin, le_trans ?_ (hlow k j' k' hnb hin)⟩
    apply mul_le_mul_of_nonneg_right _ (abs_nonneg _)
    apply Real.sqrt_le_sqrt
    exact pow_le_pow_of_le_one (by norm_num) (by norm_num) (by omega)
  · intro k hk
    have := energy_power (j := j) (k := k) (I := I k) (fun j' b1 b2 => by
      intro k' hk'
      rw [hI] at hk'
      exact (mem_nbhd_Ico b1 b2).2 (mem_filter.1 hk').2) (fun j' k' => w.wt_coefs.number j' k' r) hp h0 h1'
    rw [hLd]
    refine this.trans (le_of_eq ?_)
    rw [hI]

/-- The correction factor is bounded below, uniformly in the scale. -/
theorem pCorrection_bounds {η b : ℝ} (hb : 0 < b) (hη : b ≤ η) {j : ℕ} (hj : 1 ≤ j) :
    √(1 - (2:ℝ) ^ (-b)) ≤ pCorrection η 2 j ∧ pCorrection η 2 j ≤ 1 := by
  have hη0 : 0 < η := hb.trans_le hη
  refine ⟨?_, ?_⟩
  · unfold pCorrection
    have h1 := one_sub_pos hη0
    have h2 := one_sub_pos (mul_pos (by exact_mod_cast hj : (0:ℝ) < j) hη0)
    have h3 := one_sub_pos hb
    have hq : 0 ≤ (1 - (2:ℝ) ^ (-((j:ℝ) * η))) / (1 - (2:ℝ) ^ (-η)) := by positivity
    rw [Real.sqrt_eq_rpow, show (-1 / 2 : ℝ) = -(1 / 2) by norm_num, Real.rpow_neg hq, ← Real.inv_rpow hq, inv_div]
    apply Real.rpow_le_rpow h3.le _ (by norm_num)
    rw [le_div_iff₀ h2]
    have h4 : (2:ℝ) ^ (-η) ≤ (2:ℝ) ^ (-b) := Real.rpow_le_rpow_of_exponent_le (by norm_num) (by linarith)
    have h5 : 0 < (2:ℝ) ^ (-((j:ℝ) * η)) := by positivity
    nlinarith
  · have := C22_monotone hη0 (by norm_num : (0:ℝ) < 2) (le_refl 1) hj
    rw [C22_one hη0] at this
    linarith [this.2.1]

/-- The coefficients of one scale are tame. -/
theorem coef_tame {Ω : Type u} [MeasurableSpace Ω] {μ : Measure Ω} {G : ℤ → ℝ} {c g nm : ℝ} {R N : ℕ} {x : Ω → List (Fin R → ℝ)}
    {w : Ω → WT R} (hP : IncrementAnalysis μ wt G c g nm N x w) (hwt : wt.Valid) (ω : Ω) {r : Fin R} {b : ℤ × Arr R}
    (hb : b ∈ (w ω).wt_coefs.values) {j : ℕ} (hbj : b.1 = j) {σ p s T : ℝ}
    (hne : ∀ k ∈ interior N wt.dec_hi.length j, (w ω).wt_coefs.number j k r ≠ 0) (hcard : interior N wt.dec_hi.length j ≠ ∅)
    (hm : ∀ e ∈ [p, -s], ∑ k ∈ interior N wt.dec_hi.length j, |(w ω).wt_coefs.number j k r / σ| ^ e ≤ (interior N wt.dec_hi.length j).card * T) :
    ∃ xs, Entries (col b.2 r) xs ∧ Tame p s T σ xs := by
  obtain ⟨j', hj', -, -, hx⟩ := (hP.entries hwt ω).2.2 b hb
  have hjj : j' = j := by rw [hbj] at hj'; exact_mod_cast hj'.symm
  subst hjj
  obtain ⟨xs, e1, e2, e3, e4⟩ := hx r
  have hc : 0 < (interior N wt.dec_hi.length j').card := card_pos.2 (nonempty_iff_ne_empty.2 hcard)
  have hmean : ∀ e ∈ [p, -s], tmean e 0 (σ, xs) ≤ T := by
    intro e he
    unfold tmean
    simp only
    rw [e2, e3, div_le_iff₀ (by exact_mod_cast hc), mul_comm]
    refine le_trans (le_of_eq ?_) (hm e he)
    exact sum_congr rfl fun k _ => by rw [testF, pow_zero, mul_one]
  refine ⟨xs, e1, ?_, ?_, hmean p (by simp), hmean (-s) (by simp)⟩
  · rintro rfl; exact hcard (card_eq_zero.1 e3.symm)
  · intro y hy
    obtain ⟨k, hk, rfl⟩ := e4 y hy
    exact hne k hk

/-- **The p-leaders of Gaussian signals with stationary increments**, for any kernel with a scaling exponent. -/
theorem pleader_estimates {M : ℕ} (hM : VanishingMoments wt.dec_hi M) (hM1 : 1 ≤ M) (hwt : wt.Valid) (hF : 4 ≤ wt.dec_hi.length) {G : ℤ → ℝ}
    {h β : ℝ} (hK : ScalingKernel wt G h β) (g nm : ℝ) (hnm : nm ≠ 0) (hpos : 0 < h + g + 1 - 1 / nm) {e : Expo} (he : e.val = 2)
    (q : List ℝ) (n : ℕ) (h2 : (2:ℝ) ∈ q) (hq : ∀ t ∈ q, -(1 / 2) < t) : ∃ (B : ℝ) (W : ℕ), 0 ≤ B ∧ ∀ j1 j2 : ℕ, 1 ≤ j1 → j1 + W < j2 →
    ∀ (R : ℕ) (δ : ℝ), R ≠ 0 → 0 < δ → ∃ N₀ : ℕ,
    ∀ {Ω : Type u} [MeasurableSpace Ω] {μ : Measure Ω} {N : ℕ} {x : Ω → List (Fin R → ℝ)} {A : ℕ → ℝ} {c : ℝ}, 0 < c → N₀ ≤ N →
      GaussianArray μ N x (fun n m => A n + A m - c * G ((n : ℤ) - m)) →
      μ {ω | ¬ ∃ d v, mfAnalysisFull (asFloats (x ω)) j1 (some j2) nm g false wt (.num e) (some (.ndarray q)) n = .ok d ∧ d.lwt = some v ∧
        ∀ r, SingleExponentNear v q n (h + g + 1 - 1 / nm) g (B / (j2 - j1)) r} ≤ ENNReal.ofReal δ := by
  obtain ⟨b, hb⟩ : ∃ b, b = h + g + 1 - 1 / nm := ⟨_, rfl⟩
  have hbc : coefExponent h g nm / 2 = b := by rw [hb]; unfold coefExponent; ring
  rw [← hb] at hpos
  obtain ⟨τ, a, B, hB, hgood⟩ := good_scales.{u} hM hM1 hwt hK g nm
  rw [hbc] at hgood
  obtain ⟨s, hs0, hs1, hsq⟩ := exists_s hq
  obtain ⟨p, hp0, hp2, hpq⟩ := exists_p q 2
  obtain ⟨θ, hθ⟩ : ∃ θ : ℝ, θ = (2:ℝ) ^ (-b) := ⟨_, rfl⟩
  have hθ0 : 0 < θ := by rw [hθ]; positivity
  have hθ1 : θ < 1 := by rw [hθ]; exact Real.rpow_lt_one_of_one_lt_of_neg (by norm_num) (by linarith)
  obtain ⟨ρ, hρ⟩ : ∃ ρ : ℝ, ρ = θ ^ (1 - p / 2) / 2 := ⟨_, rfl⟩
  have hρ0 : 0 ≤ ρ := by rw [hρ]; positivity
  have hconv : ρ * (2:ℝ) ^ (1 - b * p) < 1 := by
    have e1 : ρ * (2:ℝ) ^ (1 - b * p) = (2:ℝ) ^ (-b + -(b * p / 2)) := by
      rw [hρ, hθ, ← Real.rpow_mul (by norm_num), Real.rpow_sub (by norm_num) 1, Real.rpow_one, div_mul_div_comm, mul_comm _ (2:ℝ),
        mul_div_mul_left _ _ two_ne_zero, ← Real.rpow_sub (by norm_num)]
      congr 1; ring
    rw [e1]
    apply Real.rpow_lt_one_of_one_lt_of_neg (by norm_num)
    have := mul_pos hpos hp0
    linarith
  obtain ⟨s1, hs1d⟩ : ∃ s1, s1 = (s + 1 / 2) / 2 := ⟨_, rfl⟩
  have hss1 : s < s1 := by rw [hs1d]; linarith
  obtain ⟨T, hT0, hgood⟩ := hgood [p, -s, -s1] (by
    intro e he
    simp only [List.mem_cons, List.not_mem_nil, or_false] at he
    rcases he with rfl | rfl | rfl
    · linarith
    · linarith
    · rw [hs1d]; linarith)
  obtain ⟨Cp, hCp⟩ : ∃ Cp : ℝ, Cp = (3 / (1 - θ)) ^ (p / 2 - 1) := ⟨_, rfl⟩
  have hCp0 : 0 ≤ Cp := by
    rw [hCp]; have : 0 < 1 - θ := by linarith
    positivity
  obtain ⟨K, hKd⟩ : ∃ K, K = max (2 * (3 * Cp * ((2:ℝ) ^ (2 * B)) ^ p * T / (1 - ρ * (2:ℝ) ^ (1 - b * p)))) (2 * (T + 1)) := ⟨_, rfl⟩
  have hK0 : 0 ≤ K := by rw [hKd]; exact le_max_of_le_right (by positivity)
  obtain ⟨c0, hc0⟩ : ∃ c0, c0 = √(1 - (2:ℝ) ^ (-b)) := ⟨_, rfl⟩
  have hc0p : 0 < c0 := by rw [hc0]; exact Real.sqrt_pos.2 (one_sub_pos hpos)
  obtain ⟨C, hC, hwide⟩ := wide_estimates hs0 hp0 q n h2 (fun e he => ⟨hsq e he, hpq e he⟩) (K * max 1 (c0 ^ (-s))) B hB
  obtain ⟨C1, hC1, hwide1⟩ := wide_estimates hs0 hp0 [2] 0 (by simp) (by intro e he; simp at he; subst he; exact ⟨by linarith, hp2⟩) T B hB
  obtain ⟨W, hW⟩ := exists_nat_ge (C1 / b)
  refine ⟨C, W, hC, ?_⟩
  intro j1 j2 hj1 hj12' R δ hR hδ
  have hj12 : j1 < j2 := by omega
  obtain ⟨N₁, hN₁⟩ := hgood j2 (δ / R) (by have : (0:ℝ) < R := by exact_mod_cast Nat.pos_of_ne_zero hR
                                           positivity)
  obtain ⟨κ, hκ⟩ : ∃ κ : ℝ, κ = √((1 / 2) ^ j2) := ⟨_, rfl⟩
  have hκ0 : 0 < κ := by rw [hκ]; positivity
  obtain ⟨N₂, hN₂⟩ := sublinear (2 * wt.dec_hi.length * ((2:ℝ) ^ (2 * B) * (2:ℝ) ^ (b * j2) / κ) ^ s) T (s / s1) hT0
    ((div_lt_one (by linarith)).2 hss1) j2
  refine ⟨max (max N₁ N₂) (max (2 ^ j2 * (4 * wt.dec_hi.length + 6)) (2 ^ (j2 + 1) * (wt.dec_hi.length + 1))), ?_⟩
  intro Ω _ μ N x A c hc hN hG
  have hNa : N₁ ≤ N := (le_max_left _ _).trans ((le_max_left _ _).trans hN)
  have hNb : N₂ ≤ N := (le_max_right _ _).trans ((le_max_left _ _).trans hN)
  have hNc : 2 ^ j2 * (4 * wt.dec_hi.length + 6) ≤ N := (le_max_left _ _).trans ((le_max_right _ _).trans hN)
  have hNd : 2 ^ (j2 + 1) * (wt.dec_hi.length + 1) ≤ N := (le_max_right _ _).trans ((le_max_right _ _).trans hN)
  have hN0 : N ≠ 0 := by
    have : 0 < 2 ^ (j2 + 1) * (wt.dec_hi.length + 1) := by positivity
    omega
  have hne : ∀ ω, asFloats (x ω) ≠ [] := by
    intro ω h0; have := congrArg List.length h0; simp [asFloats, hG.length ω] at this; exact hN0 this
  choose w hw hfull using fun ω => C48_pleaders (asFloats (x ω)) he wt j1 (some (j2 : ℝ)) g nm false (some (.ndarray q)) n hR
    (hne ω) hnm
  have hw' : ∀ ω, waveletAnalysis (sampled N fun r t => ((x ω).getD t.toNat fun _ => 0) r) .inf wt j1 (some (j2 : ℝ)) g nm false = .ok (w ω) := by
    intro ω
    have h0 := hw ω
    rwa [asFloats_sampled (hG.length ω)] at h0
  have hlong : ∀ ω, (w ω).j2_eff = j2 ∧ j2 ≤ (w ω).wt_coefs.values.length :=
    fun ω => long_enough hR hwt (Or.inr hF) (by omega) hNd (hw' ω)
  have hP : IncrementAnalysis μ wt G c g nm N x w := ⟨⟨A, hG⟩, .inf, j1, some (j2 : ℝ), false, hw⟩
  have hall := hN₁ hc hP hNa (fun ω => (hlong ω).2)
  obtain ⟨Good, hGood⟩ : ∃ Good : Fin R → Ω → Prop, Good = fun r ω => ∀ j, 1 ≤ j → j ≤ j2 →
    (∀ k ∈ interior N wt.dec_hi.length j, (w ω).wt_coefs.number j k r ≠ 0) ∧
    ∀ e ∈ [p, -s, -s1], ∑ k ∈ interior N wt.dec_hi.length j, |(w ω).wt_coefs.number j k r / √(c * τ j)| ^ e ≤
      (interior N wt.dec_hi.length j).card * T := ⟨_, rfl⟩
  have hμ : μ {ω | ¬ ∀ r, Good r ω} ≤ ENNReal.ofReal δ := by
    have hsub : {ω | ¬ ∀ r, Good r ω} ⊆ ⋃ r, {ω | ¬ Good r ω} := by
      intro ω hω
      simp only [Set.mem_ofPred_eq, not_forall] at hω
      obtain ⟨r, hr⟩ := hω
      exact Set.mem_iUnion.2 ⟨r, hr⟩
    refine (measure_mono hsub).trans ((measure_iUnion_le _).trans ?_)
    rw [tsum_fintype]
    refine (sum_le_sum fun r _ => ?_).trans (le_of_eq ?_) (b := ∑ _r : Fin R, ENNReal.ofReal (δ / R))
    · rw [hGood]; exact (hall r).2
    · rw [sum_const, card_univ, Fintype.card_fin, nsmul_eq_mul, ← ENNReal.ofReal_natCast, ← ENNReal.ofReal_mul (Nat.cast_nonneg _)]
      congr 1
      have : (R:ℝ) ≠ 0 := by exact_mod_cast hR
      field_simp
  refine (measure_mono ?_).trans hμ
  intro ω hω
  simp only [Set.mem_ofPred_eq] at hω ⊢
  intro hgoodω
  apply hω
  rw [hGood] at hgoodω
  simp only at hgoodω
  have r0 : Fin R := ⟨0, Nat.pos_of_ne_zero hR⟩
  have hσ := (hall r0).1
  obtain ⟨hj2, hlen⟩ := hlong ω
  have ha1 : (1:ℤ) ≤ (j1 : ℤ) := by exact_mod_cast hj1
  have ha2 : (j1 : ℤ) ≤ (w ω).j2_eff := by rw [hj2]; exact_mod_cast hj12.le
  obtain ⟨S, z, hS, hz, hret, -⟩ := hfull ω ha1 ha2 h2
  -- the exponent used by the correction
  have heta : ∀ r, ∃ η : ℝ, z r = Fl.fin η ∧ b ≤ η := by
    intro r
    obtain ⟨w', hw1, hf1⟩ := C48_total (asFloats (x ω)) .inf (Or.inr rfl) wt j1 (some (j2 : ℝ)) g nm false (some (.ndarray [2])) 0 hR (hne ω) hnm
    rw [hw ω] at hw1
    obtain rfl := Except.ok.inj hw1
    obtain ⟨d1, hd1, -⟩ := hf1 ha1 ha2 (by simp [normQ])
    unfold mfAnalysisFull at hd1
    rw [hw ω] at hd1
    simp only at hd1
    rw [C47_bundle, hj2] at hd1
    have hbun := hd1.1
    have hS' := hbun.1
    rw [show normQ (some (.ndarray [2])) = [2] from rfl] at hS'
    rw [hj2, hS'] at hS
    have h3 := hwide1 (σ := fun j => √(c * τ j)) (a := Real.logb 2 c / 2 + a) (h := b) (r := r) (hP.entries hwt ω).1 hj1 hj12 hlen hbun
      (fun j h3 h4 => hσ j (hj1.trans h3) h4) (by
        intro b' hb' j hbj h3 h4
        refine coef_tame hP hwt ω hb' hbj (hgoodω r j (hj1.trans h3) h4).1 ?_ (fun e he => (hgoodω r j (hj1.trans h3) h4).2 e (by
          simp only [List.mem_cons, List.not_mem_nil, or_false] at he ⊢; tauto))
        have h5 := interior_card_ge N wt.dec_hi.length j (hj1.trans h3)
        have h6 : 4 * wt.dec_hi.length + 6 ≤ N / 2 ^ j := by
          rw [Nat.le_div_iff_mul_le (by positivity), mul_comm]
          exact (Nat.mul_le_mul_right _ (Nat.pow_le_pow_right (by norm_num) h4)).trans hNc
        intro h7
        rw [h7, card_empty] at h5
        omega)
    obtain ⟨z', hz', hz2⟩ := h3.2.1 0 2 rfl
    rw [Except.ok.inj hS] at hz'
    rw [hz] at hz'
    obtain rfl : z = z' := by simpa using hz'
    obtain ⟨η, hη, hηb⟩ := hz2
    refine ⟨η, hη, ?_⟩
    have h4 : C1 / ((j2:ℝ) - j1) ≤ b := by
      have h5 : (j1:ℝ) + W + 1 ≤ j2 := by exact_mod_cast hj12'
      rw [div_le_iff₀ (by have : (0:ℝ) ≤ W := Nat.cast_nonneg _
                          linarith)]
      rw [div_le_iff₀ hpos] at hW
      nlinarith
    have := (abs_le.1 hηb).1
    linarith
  choose η hη hηb using heta
  have hpos' : ∀ r, z r ≠ Fl.nan ∧ ¬ Fl.le (z r) (Fl.fin 0) := by
    intro r
    rw [hη r]
    refine ⟨by simp, ?_⟩
    have := hηb r
    simp only [Fl.le]
    linarith
  obtain ⟨d, v, hd, -, hv, -⟩ := hret hpos'
  refine ⟨d, v, hd, hv, ?_⟩
  obtain ⟨z', hz', -, hok⟩ := (C21_eta_p he (hw ω)).2 S hS
  rw [hz] at hz'
  obtain rfl : z = z' := by simpa using hz'
  obtain ⟨w2, hw2, heta2, hcoef2, hj2e, -⟩ := hok (Or.inr fun r => (hpos' r).2)
  have hw2' : waveletAnalysis (sampled N fun r t => ((x ω).getD t.toNat fun _ => 0) r) (.num e) wt j1 (some (j2 : ℝ)) g nm false = .ok w2 := by
    have h0 := hw2
    rwa [asFloats_sampled (hG.length ω)] at h0
  obtain ⟨l, eta, hl, heta', hlg, hscale⟩ := pleader_scale hwt hw2'
  rw [heta2] at heta'
  obtain rfl := Option.some.inj heta'
  obtain ⟨K', hreg, hjK⟩ := pleader_regular hw2 hl (by intro eta he r; rw [heta2] at he; cases he; exact (hpos' r).1)
  rw [hj2e, hj2] at hjK
  unfold mfAnalysisFull at hd
  rw [hw2] at hd
  simp only at hd
  rw [C47_bundle, hj2e, hj2, hl] at hd
  obtain ⟨-, v', hv', hbun⟩ := hd
  rw [hv] at hv'
  obtain rfl := Option.some.inj hv'
  intro r
  rw [← hb, ← hlg]
  refine hwide (σ := fun j => √(c * τ j)) (a := Real.logb 2 c / 2 + a) hreg hj1 hj12 (by exact_mod_cast hjK) hbun
    (fun j h3 h4 => hσ j (hj1.trans h3) h4) ?_
  intro b' hb' j hbj h3 h4
  obtain ⟨j', hj', hj'1, hr⟩ := hscale b' hb'
  have hjj : j' = j := by rw [hbj] at hj'; exact_mod_cast hj'.symm
  subst hjj
  rw [hcoef2] at hr
  have hnz : ∀ i k, 1 ≤ i → i ≤ j' → k ∈ interior N wt.dec_hi.length i → (w ω).wt_coefs.number i k r ≠ 0 :=
    fun i k hi hij hk => (hgoodω r i hi (hij.trans h4)).1 k hk
  obtain ⟨xs, A', L, e1, e2, e3, e4, hLL⟩ := hr r (η r) (hη r) (hpos.trans_le (hηb r)) hnz
  refine ⟨xs, e1, ?_⟩
  have hLL' := hLL p θ hp2.le hθ0 hθ1
  rw [← hρ, ← hCp] at hLL'
  obtain ⟨hb1, hb2⟩ := pCorrection_bounds hpos (hηb r) hj'1
  rw [← hc0] at hb1
  have hκj : κ ≤ √((1 / 2) ^ j') := by
    rw [hκ]; apply Real.sqrt_le_sqrt
    exact pow_le_pow_of_le_one (by norm_num) (by norm_num) h4
  refine tame_scale (A := A') (L := L) (xs := A'.toList.map L) hc0p hb1 hb2 hp0.le hs0.le (hσ j' hj'1 h4).1 hK0 ?_ ?_ e2 e3 e4 hLL'.pos ?_
  · intro f; rw [List.map_map]; exact Finset.sum_map_toList A' _
  · simp
  rw [hKd]
  refine hLL'.tame hj'1 h4 ?_ ?_ ?_ (σ := fun j => √(c * τ j)) (fun i hi hij => (hσ i hi (hij.trans h4)).1) hnz hCp0 hρ0 hp0
    (by positivity) hpos.le hT0 hs0 hss1 (hκ0.trans_le hκj) hconv ?_ ?_ ?_ hNc ?_
  · intro f; rw [List.map_map]; exact Finset.sum_map_toList A' _
  · simp
  · intro y hy
    obtain ⟨k, hk, rfl⟩ := List.mem_map.1 hy
    exact ⟨k, Finset.mem_toList.1 hk, rfl⟩
  · intro i hi hij
    have := ratio_bounds hσ hi (hij.trans h4) hj'1 h4
    rwa [show b * ((i : ℝ) - j') = -(b * ((j' : ℝ) - i)) by ring] at this
  · intro i hi hij
    exact ratio_bounds hσ hj'1 h4 hi (hij.trans h4)
  · intro e he i hi hij
    exact (hgoodω r i hi (hij.trans h4)).2 e he
  · refine le_trans ?_ (hN₂ N hNb)
    rw [mul_assoc (2 * (wt.dec_hi.length : ℝ))]
    apply mul_le_mul_of_nonneg_left _ (by positivity)
    apply mul_le_mul_of_nonneg_right _ (by positivity)
    apply Real.rpow_le_rpow (by positivity) _ hs0.le
    exact div_le_div_of_nonneg_left (by positivity) hκ0 hκj

/-- **C120, the signals**: Gaussian signals whose increments have the variogram `2 c |t|^(2H)`, analysed with p-leaders (`p_exp=2`, the
only finite value that does not raise) by an unweighted `mf_analysis_full`.  There are a constant `B` and a width `W`, which depend on
the wavelet, `H`, the settings, `q` and the number of cumulants only, such that for every range of more than `W` octaves and every long
enough signal, with probability at least `1 - δ` the call returns (in particular `eta_p > 0` for every realisation) and all the p-leader
estimates of all the realisations are within `B / (j2 - j1)` of those of a signal of the single exponent `H + gamint` (for
`normalization=1`). -/
theorem C120_power_law {M : ℕ} (hM : VanishingMoments wt.dec_hi M) (hM1 : 1 ≤ M) (hwt : wt.Valid) (ho : OrthonormalBank wt)
    (hF : 4 ≤ wt.dec_hi.length) {H : ℝ} (h0 : 0 < H) (h1 : H < 1) (hH : 4 * H - 4 * M < -1) (g nm : ℝ) (hnm : nm ≠ 0)
    (hpos : 0 < H + g + 1 - 1 / nm) {e : Expo} (he : e.val = 2) (q : List ℝ) (n : ℕ) (h2 : (2:ℝ) ∈ q) (hq : ∀ t ∈ q, -(1 / 2) < t) :
    ∃ (B : ℝ) (W : ℕ), 0 ≤ B ∧ ∀ j1 j2 : ℕ, 1 ≤ j1 → j1 + W < j2 → ∀ (R : ℕ) (δ : ℝ), R ≠ 0 → 0 < δ → ∃ N₀ : ℕ,
    ∀ {Ω : Type u} [MeasurableSpace Ω] {μ : Measure Ω} {N : ℕ} {x : Ω → List (Fin R → ℝ)} {A : ℕ → ℝ} {c : ℝ}, 0 < c → N₀ ≤ N →
      GaussianArray μ N x (fun n m => A n + A m - c * |(n : ℝ) - m| ^ (2 * H)) →
      μ {ω | ¬ ∃ d v, mfAnalysisFull (asFloats (x ω)) j1 (some j2) nm g false wt (.num e) (some (.ndarray q)) n = .ok d ∧ d.lwt = some v ∧
        ∀ r, SingleExponentNear v q n (H + g + 1 - 1 / nm) g (B / (j2 - j1)) r} ≤ ENNReal.ofReal δ := by
  obtain ⟨B, W, hB, h⟩ := pleader_estimates.{u} hM hM1 hwt hF (powerLaw_kernel hM hM1 hwt ho h0 h1 hH) g nm hnm hpos he q n h2 hq
  refine ⟨B, W, hB, fun j1 j2 h3 h4 R δ hR hδ => ?_⟩
  obtain ⟨N₀, hN₀⟩ := h j1 j2 h3 h4 R δ hR hδ
  refine ⟨N₀, ?_⟩
  intro Ω _ μ N x A c hc hN hG
  have e : (fun n m : ℕ => A n + A m - c * |(((n : ℤ) - m : ℤ) : ℝ)| ^ (2 * H)) = fun n m : ℕ => A n + A m - c * |(n : ℝ) - m| ^ (2 * H) := by
    funext n m; push_cast; rfl
  refine hN₀ hc hN (A := A) ?_
  rw [e]; exact hG

/-- **C120, end to end**: simulate fractional Brownian motion of parameter `H` with `fbm`, analyse its p-leaders with
`mf_analysis_full(p_exp=2)`.  For every `ε` there is a width `W` such that for every range of more than `W` octaves and every long enough
signal, with probability at least `1 - δ` the call returns and for every realisation the p-leader estimates of `H`, `zeta(q)`, `c_m`,
`h(q)` and `D(q)` are all within `ε` of `H`, `qH`, `H` (0 for `m ≥ 2`), `H` and 1. -/
theorem C120_fbm {M : ℕ} (hM : VanishingMoments wt.dec_hi M) (hM1 : 1 ≤ M) (hwt : wt.Valid) (ho : OrthonormalBank wt)
    (hF : 4 ≤ wt.dec_hi.length) {H : ℝ} (h0 : 0 < H) (h1 : H < 1) (hH : 4 * H - 4 * M < -1) {e : Expo} (he : e.val = 2) (q : List ℝ) (n : ℕ)
    (h2 : (2:ℝ) ∈ q) (hq : ∀ t ∈ q, -(1 / 2) < t) (ε : ℝ) (hε : 0 < ε) :
    ∃ W : ℕ, ∀ j1 j2 : ℕ, 1 ≤ j1 → j1 + W < j2 → ∀ (R : ℕ) (δ : ℝ), R ≠ 0 → 0 < δ → ∃ N₀ : ℕ,
    ∀ {Ω : Type u} [MeasurableSpace Ω] {μ : Measure Ω} {gen : Ω → ℕ → ℝ}, StdNormal μ gen →
    ∀ {N : ℕ} {sigma : ℝ} {dt : Option ℝ} (z0 : Option (CArr R)), N₀ ≤ N → sigma ≠ 0 → (∀ d, dt = some d → 0 ≤ d) →
      ∃ x : Ω → RArr R, Returns (fbm R N H sigma dt "cme" z0) gen x ∧
      μ {ω | ¬ ∃ d v, mfAnalysisFull (asFloats (x ω)) j1 (some j2) 1 0 false wt (.num e) (some (.ndarray q)) n = .ok d ∧ d.lwt = some v ∧
        ∀ r, SingleExponentNear v q n H 0 ε r} ≤ ENNReal.ofReal δ := by
  obtain ⟨B, W₀, hB, h⟩ := C120_power_law.{u} hM hM1 hwt ho hF h0 h1 hH 0 1 one_ne_zero (by linarith) he q n h2 hq
  rw [show H + 0 + 1 - 1 / 1 = H by ring] at h
  obtain ⟨W, hW⟩ := exists_nat_ge (B / ε)
  refine ⟨max W W₀, fun j1 j2 h3 h4 R δ hR hδ => ?_⟩
  have h5 := le_max_left W W₀
  have h6 := le_max_right W W₀
  obtain ⟨N₀, hN₀⟩ := h j1 j2 h3 (by omega) R δ hR hδ
  refine ⟨max N₀ 2, ?_⟩
  intro Ω _ μ gen hg N sigma dt z0 hN hs hdt
  have hN2 := (le_max_right _ _).trans hN
  obtain ⟨x, hx, hG, -⟩ := C85_fbm (R := R) (sigma := sigma) z0 h0 h1.le hN2 hdt hR hg
  have hstep := (fgnDt_eq (by omega : N ≠ 0) hdt).2
  rw [fbm_powerLaw H sigma hstep.le] at hG
  refine ⟨x, hx, (measure_mono ?_).trans (hN₀ (by positivity) ((le_max_left _ _).trans hN) hG)⟩
  intro ω hω
  simp only [Set.mem_ofPred_eq] at hω ⊢
  rintro ⟨d, v, e1, e2, e3⟩
  refine hω ⟨d, v, e1, e2, fun r => (e3 r).mono ?_⟩
  have hj : (W:ℝ) ≤ (j2:ℝ) - j1 := by
    have : ((j1 + W : ℕ) : ℝ) ≤ j2 := by exact_mod_cast (by omega : j1 + W ≤ j2)
    push_cast at this; linarith
  have hj0 : (0:ℝ) < (j2:ℝ) - j1 := by
    have : (j1 : ℝ) < j2 := by exact_mod_cast (by omega : j1 < j2)
    linarith
  rw [div_le_iff₀ (by positivity : (0:ℝ) < ε)] at hW
  rw [div_le_iff₀ hj0]
  nlinarith

/-! The hypotheses are met: for `db2` and every `0 < H < 1`, with `q = [2, 1, -1/4]`. -/
example (H : ℝ) (h0 : 0 < H) (h1 : H < 1) (ε δ : ℝ) (hε : 0 < ε) (hδ : 0 < δ) : ∃ j1 j2 N : ℕ, 1 ≤ j1 ∧ j1 < j2 ∧
    ∃ (Ω : Type) (_ : MeasurableSpace Ω) (μ : Measure Ω) (gen : Ω → ℕ → ℝ) (x : Ω → RArr 2), StdNormal μ gen ∧
    Returns (fbm 2 N H 1 none "cme" none) gen x ∧
    μ {ω | ¬ ∃ d v, mfAnalysisFull (asFloats (x ω)) j1 (some j2) 1 0 false db2 (.num (.int 2)) (some (.ndarray [2, 1, -1 / 4])) 3 = .ok d ∧
        d.lwt = some v ∧ ∀ r, SingleExponentNear v [2, 1, -1 / 4] 3 H 0 ε r} ≤ ENNReal.ofReal δ := by
  obtain ⟨hv, ho, hm⟩ := db2_orthonormal
  obtain ⟨W, h⟩ := C120_fbm hm (by norm_num) hv ho (by simp [db2]) h0 h1 (by push_cast; linarith) (e := .int 2) (by simp [Expo.val])
    [2, 1, -1 / 4] 3 (by simp)
    (by intro e he; simp only [List.mem_cons, List.not_mem_nil, or_false] at he; rcases he with rfl | rfl | rfl <;> norm_num) ε hε
  obtain ⟨N₀, hN₀⟩ := h 1 (W + 2) le_rfl (by omega) 2 δ (by norm_num) hδ
  obtain ⟨Ω, m, μ, gen, hg⟩ := exists_stdNormal
  obtain ⟨x, hx, hb⟩ := hN₀ hg (sigma := 1) (dt := none) none le_rfl one_ne_zero (by intro d hd; cases hd)
  exact ⟨1, W + 2, N₀, le_rfl, by omega, Ω, m, μ, gen, x, hg, hx, hb⟩

end

end MFA
