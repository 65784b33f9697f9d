import Verif.Props.RoundingExact

/-! C121 for p-leaders: they depend continuously on the samples. -/

namespace MFA

open Filter Topology Classical

noncomputable section

variable {R : ℕ}

/-- The value of a p-leader (`p = 2`) as a function of the coefficients and of the exponent of the correction. -/
def pleaderVal (d : ℕ → ℕ → ℝ) (η : ℝ) (j k : ℕ) : ℝ := Real.sqrt ((2:ℝ) ^ (-(j : ℝ)) * nbhdEnergy d j k) * pCorrection η 2 j

theorem nbhdEnergy_diff (d : ℕ → ℕ → ℝ) (j k : ℕ) : ∃ C : ℝ, 0 ≤ C ∧ ∀ (δ : ℝ) (d' : ℕ → ℕ → ℝ), 0 ≤ δ → δ ≤ 1 →
    (∀ j' k', InNbhd j k j' k' → |d j' k' - d' j' k'| ≤ δ) → |nbhdEnergy d' j k - nbhdEnergy d j k| ≤ C * δ := by
  refine ⟨∑ j' ∈ Finset.Icc 1 j, ∑ k' ∈ Finset.Ico (k * 2 ^ (j - j')) ((k + 3) * 2 ^ (j - j')), 2 ^ j' * (2 * |d j' k'| + 1),
    Finset.sum_nonneg fun _ _ => Finset.sum_nonneg fun _ _ => by positivity, fun δ d' h0 h1 h => ?_⟩
  unfold nbhdEnergy
  rw [← Finset.sum_sub_distrib, Finset.sum_mul]
  refine (Finset.abs_sum_le_sum_abs _ _).trans (Finset.sum_le_sum fun j' hj' => ?_)
  rw [← Finset.sum_sub_distrib, Finset.sum_mul]
  refine (Finset.abs_sum_le_sum_abs _ _).trans (Finset.sum_le_sum fun k' hk' => ?_)
  have hn : InNbhd j k j' k' := by
    obtain ⟨a1, a2⟩ := Finset.mem_Icc.1 hj'
    obtain ⟨b1, b2⟩ := Finset.mem_Ico.1 hk'
    refine ⟨a1, a2, (Nat.le_div_iff_mul_le (by positivity)).2 b1, ?_⟩
    have := (Nat.div_lt_iff_lt_mul (by positivity : 0 < 2 ^ (j - j'))).2 b2
    omega
  have hd := h j' k' hn
  rw [← mul_sub, abs_mul, abs_of_pos (by positivity : (0:ℝ) < 2 ^ j'), mul_assoc]
  apply mul_le_mul_of_nonneg_left _ (by positivity)
  have e : d' j' k' ^ 2 - d j' k' ^ 2 = (d' j' k' - d j' k') * (d' j' k' + d j' k') := by ring
  rw [e, abs_mul, abs_sub_comm, mul_comm]
  have h2 : |d' j' k' + d j' k'| ≤ 2 * |d j' k'| + 1 := by
    have : d' j' k' + d j' k' = 2 * d j' k' - (d j' k' - d' j' k') := by ring
    rw [this]
    refine (abs_sub _ _).trans ?_
    rw [abs_mul, abs_two]
    linarith
  exact mul_le_mul h2 hd (abs_nonneg _) (by positivity)

theorem continuousAt_pCorrection {η : ℝ} (hη : 0 < η) {j : ℕ} (hj : 1 ≤ j) : ContinuousAt (fun t => pCorrection t 2 j) η := by
  unfold pCorrection
  have h1 : 0 < 1 - (2:ℝ) ^ (-η) := one_sub_pos hη
  have h2 : 0 < 1 - (2:ℝ) ^ (-((j : ℝ) * η)) := one_sub_pos (mul_pos (by exact_mod_cast hj) hη)
  apply ContinuousAt.rpow_const
  · have c1 : ContinuousAt (fun t : ℝ => 1 - (2:ℝ) ^ (-((j : ℝ) * t))) η :=
      continuousAt_const.sub ((Real.continuous_const_rpow (a := 2) (by norm_num)).continuousAt.comp (f := fun t : ℝ => -((j : ℝ) * t)) (by fun_prop))
    have c2 : ContinuousAt (fun t : ℝ => 1 - (2:ℝ) ^ (-t)) η :=
      continuousAt_const.sub ((Real.continuous_const_rpow (a := 2) (by norm_num)).continuousAt.comp (f := fun t : ℝ => -t) (by fun_prop))
    exact c1.div c2 h1.ne'
  · exact Or.inl (div_pos h2 h1).ne'

/-- The value of one p-leader is continuous in the coefficients of its neighbourhood and in the exponent. -/
theorem pleaderVal_cont (d : ℕ → ℕ → ℝ) {η : ℝ} (hη : 0 < η) {j : ℕ} (hj : 1 ≤ j) (k : ℕ) {ε : ℝ} (hε : 0 < ε) :
    ∃ δ0 : ℝ, 0 < δ0 ∧ ∀ δ, 0 ≤ δ → δ ≤ δ0 → ∀ (d' : ℕ → ℕ → ℝ) (η' : ℝ), (∀ j' k', InNbhd j k j' k' → |d j' k' - d' j' k'| ≤ δ) → |η - η'| ≤ δ →
      |pleaderVal d η j k - pleaderVal d' η' j k| ≤ ε := by
  have hc : ContinuousAt (fun p : ℝ × ℝ => Real.sqrt ((2:ℝ) ^ (-(j : ℝ)) * p.1) * pCorrection p.2 2 j) (nbhdEnergy d j k, η) := by
    apply ContinuousAt.mul
    · fun_prop
    · exact ContinuousAt.comp (f := fun p : ℝ × ℝ => p.2) (g := fun t => pCorrection t 2 j) (continuousAt_pCorrection hη hj) continuousAt_snd
  obtain ⟨δ1, hδ1, H⟩ := Metric.continuousAt_iff.1 hc ε hε
  obtain ⟨C, hC, hd⟩ := nbhdEnergy_diff d j k
  refine ⟨min 1 (δ1 / (2 * (C + 1))), by positivity, fun δ h0 hδ d' η' hdd hηη => ?_⟩
  have h1 : δ ≤ 1 := hδ.trans (min_le_left _ _)
  have h2 : δ * (2 * (C + 1)) ≤ δ1 := (le_div_iff₀ (by positivity)).1 (hδ.trans (min_le_right _ _))
  have h3 := hd δ d' h0 h1 hdd
  have h4 : dist (nbhdEnergy d' j k, η') (nbhdEnergy d j k, η) < δ1 := by
    rw [Prod.dist_eq, max_lt_iff, Real.dist_eq, Real.dist_eq]
    constructor
    · show |nbhdEnergy d' j k - nbhdEnergy d j k| < δ1
      by_cases h00 : δ = 0
      · rw [h00, mul_zero] at h3; linarith
      · have : 0 < δ := lt_of_le_of_ne h0 (Ne.symm h00)
        nlinarith
    · show |η' - η| < δ1
      rw [abs_sub_comm]
      by_cases h00 : δ = 0
      · rw [h00] at hηη; linarith
      · have : 0 < δ := lt_of_le_of_ne h0 (Ne.symm h00)
        nlinarith
  have := H h4
  rw [Real.dist_eq, abs_sub_comm] at this
  exact this.le

/-- The shape of the p-leaders. -/
theorem plead_shape {N : ℕ} {x : Fin R → ℤ → ℝ} {e : Expo} {wt : Wavelet} {j1 : ℤ} {j2 : Option ℝ} {g nm : ℝ} {weighted : Bool} {w : WT R}
    (h : waveletAnalysis (sampled N x) (.num e) wt j1 j2 g nm weighted = .ok w) {l : MRQ R} (hl : w.wt_leaders = some l) :
    ∃ K, l.values.keys = (List.range K).map (fun i : ℕ => (i : ℤ) + 1) ∧ l.gamint = g ∧ ∀ s k r,
      ((1 ≤ s ∧ s ≤ K ∧ k < N / 2 ^ s - 2) → ∃ v, l.val? s k r = some v) ∧ (¬ (1 ≤ s ∧ s ≤ K ∧ k < N / 2 ^ s - 2) → l.val? s k r = none) := by
  obtain ⟨-, ml, K, eta, a1, a2, -, -, -, a4⟩ := wa_num_inv h
  have hlv : l.values = (scalesUpTo .pleader g (corrSeq eta e.val (leadSeq (wparams wt g nm) (.num e) (sampled N x))) K).values ∧ l.gamint = g := by
    rw [a4] at hl; cases hl; exact ⟨rfl, rfl⟩
  clear a4 hl
  refine ⟨K, by rw [hlv.1]; exact (scalesUpTo_regular .pleader g (corrSeq eta e.val (leadSeq (wparams wt g nm) (.num e) (sampled N x))) K).1,
    hlv.2, fun s k r => ?_⟩
  have hva := scalesUpTo_val .pleader g (corrSeq eta e.val (leadSeq (wparams wt g nm) (.num e) (sampled N x))) K s k r
  have hlen : (corrSeq eta e.val (leadSeq (wparams wt g nm) (.num e) (sampled N x)) s).length = N / 2 ^ s - 2 := by
    rw [corrSeq, List.length_map, leadSeq_length, sampled_length]
  rw [hlen] at hva
  have hva' : l.val? s k r = (scalesUpTo .pleader g (corrSeq eta e.val (leadSeq (wparams wt g nm) (.num e) (sampled N x))) K).val? s k r := by
    unfold MRQ.val?
    rw [hlv.1]
  rw [hva', hva]
  constructor
  · intro hc; rw [if_pos hc]; exact ⟨_, rfl⟩
  · intro hc; rw [if_neg hc]

/-- The value of the p-leaders in terms of the numbers among the coefficients, NaN counting as 0. -/
theorem pleader_value {sig : Arr R} {e : Expo} {wt : Wavelet} {j1 : ℤ} {j2 : Option ℝ} {g nm : ℝ} {weighted : Bool} {w : WT R}
    (h : waveletAnalysis sig (.num e) wt j1 j2 g nm weighted = .ok w)
    (hfin : ∀ s k r v, w.wt_coefs.val? s k r = some v → v = Fl.nan ∨ ∃ t, v = Fl.fin t) {l : MRQ R} (hl : w.wt_leaders = some l)
    {eta : Row R} (heta : w.eta_p = some eta) {j k : ℕ} {r : Fin R} {v : Fl} (hv : l.val? j k r = some v) {b : ℝ} (hb : eta r = Fl.fin b) (hb0 : 0 < b) :
    ((∀ j' k', InNbhd j k j' k' → w.wt_coefs.val? j' k' r = some Fl.nan) → v = Fl.nan) ∧
      ((∃ j' k', InNbhd j k j' k' ∧ w.wt_coefs.val? j' k' r ≠ some Fl.nan) →
        v = Fl.fin (pleaderVal (fun j' k' => w.wt_coefs.number j' k' r) b j k)) := by
  obtain ⟨l', eta', e1, e2, H⟩ := C17_pleaders h
  rw [hl] at e1; cases e1
  rw [heta] at e2; cases e2
  obtain ⟨H1, H2⟩ := H j k r v b hv hb hb0
  refine ⟨H1, fun hex => H2 _ (fun j' k' hn => ?_) hex⟩
  obtain ⟨a, ha⟩ := nbhd_defined h hl hv hn
  rcases hfin _ _ _ _ ha with rfl | ⟨t, rfl⟩
  · refine Or.inr ⟨ha, ?_⟩
    simp [MRQ.number, ha]
  · refine Or.inl ?_
    rw [ha]
    simp [MRQ.number, ha]

theorem number_of_close {m m' : MRQ R} {δ : ℝ} (h0 : 0 ≤ δ) {j k : ℕ} {r : Fin R} {a b : Fl} (ha : m.val? j k r = some a) (hb : m'.val? j k r = some b)
    (h : EntryClose δ a b) : |m.number j k r - m'.number j k r| ≤ δ := by
  unfold MRQ.number
  rw [ha, hb]
  rcases h with ⟨rfl, rfl⟩ | ⟨s, t, rfl, rfl, h⟩
  · simpa using h0
  · exact h

/-- The p-leaders of two signals with close coefficients and close exponents: the same places are NaN, the other values are close. -/
theorem pleader_close {N : ℕ} {x : Fin R → ℤ → ℝ} {e : Expo} {wt : Wavelet} {j1 : ℤ} {j2 : Option ℝ} {g nm : ℝ} {weighted : Bool} {w : WT R}
    (h : waveletAnalysis (sampled N x) (.num e) wt j1 j2 g nm weighted = .ok w)
    (hfin : ∀ s k r v, w.wt_coefs.val? s k r = some v → v = Fl.nan ∨ ∃ t, v = Fl.fin t) {l : MRQ R} (hl : w.wt_leaders = some l)
    {eta : Row R} (heta : w.eta_p = some eta) {b : Fin R → ℝ} (hb : ∀ r, eta r = Fl.fin (b r)) (hb0 : ∀ r, 0 < b r) {ε : ℝ} (hε : 0 < ε) :
    ∃ δ : ℝ, 0 < δ ∧ (∀ r, δ < b r) ∧ ∀ (x' : Fin R → ℤ → ℝ) (w' : WT R), waveletAnalysis (sampled N x') (.num e) wt j1 j2 g nm weighted = .ok w' →
      (∀ s k r, (w.wt_coefs.val? s k r = none ∧ w'.wt_coefs.val? s k r = none) ∨
        ∃ a b, w.wt_coefs.val? s k r = some a ∧ w'.wt_coefs.val? s k r = some b ∧ EntryClose δ a b) →
      ∀ (l' : MRQ R) (eta' : Row R), w'.wt_leaders = some l' → w'.eta_p = some eta' → (∀ r, FlClose δ (eta r) (eta' r)) →
      ∀ s k r v v', l.val? s k r = some v → l'.val? s k r = some v' → EntryClose ε v v' := by
  obtain ⟨K, -, -, hsh⟩ := plead_shape h hl
  have hev : ∀ᶠ δ in 𝓝[>] (0:ℝ), ∀ s ∈ Finset.Icc 1 K, ∀ k ∈ Finset.range N, ∀ r : Fin R, ∀ (d' : ℕ → ℕ → ℝ) (η' : ℝ),
      (∀ j' k', InNbhd s k j' k' → |w.wt_coefs.number j' k' r - d' j' k'| ≤ δ) → |b r - η'| ≤ δ →
      |pleaderVal (fun j' k' => w.wt_coefs.number j' k' r) (b r) s k - pleaderVal d' η' s k| ≤ ε := by
    rw [eventually_all_finset]
    intro s hs
    rw [eventually_all_finset]
    intro k _
    rw [eventually_all]
    intro r
    obtain ⟨δ0, h0, H⟩ := pleaderVal_cont (fun j' k' => w.wt_coefs.number j' k' r) (hb0 r) (Finset.mem_Icc.1 hs).1 k hε
    filter_upwards [Ioc_mem_nhdsGT h0] with δ hδ
    exact H δ hδ.1.le hδ.2
  have hev2 : ∀ᶠ δ in 𝓝[>] (0:ℝ), ∀ r : Fin R, δ < b r := by
    rw [eventually_all]
    intro r
    filter_upwards [Ioo_mem_nhdsGT (hb0 r)] with δ hδ using hδ.2
  obtain ⟨δ, ⟨H, hδb⟩, hδ0⟩ := ((hev.and hev2).and self_mem_nhdsWithin).exists
  have hδ : 0 < δ := hδ0
  refine ⟨δ, hδ, hδb, fun x' w' h' hcl l' eta' hl' heta' hee s k r v v' hv hv' => ?_⟩
  have hcond : 1 ≤ s ∧ s ≤ K ∧ k < N / 2 ^ s - 2 := by
    by_contra hc
    rw [(hsh s k r).2 hc] at hv; cases hv
  have hfin' : ∀ s k r v, w'.wt_coefs.val? s k r = some v → v = Fl.nan ∨ ∃ t, v = Fl.fin t := by
    intro s k r v hv
    rcases hcl s k r with ⟨-, e1⟩ | ⟨a, c, -, e2, e3⟩
    · rw [hv] at e1; cases e1
    · rw [hv] at e2; cases e2
      rcases e3 with ⟨-, e3⟩ | ⟨-, t, -, e3, -⟩
      · exact Or.inl e3
      · exact Or.inr ⟨t, e3⟩
  obtain ⟨s1, t1, c1, c2, c3⟩ := hee r
  rw [hb r] at c1
  rw [← (Fl.fin_inj _ _).1 c1] at c3
  have ht0 : 0 < t1 := by
    have := hδb r
    have := (abs_le.1 c3).2
    linarith
  obtain ⟨p1, p2⟩ := pleader_value h hfin hl heta hv (hb r) (hb0 r)
  obtain ⟨q1, q2⟩ := pleader_value h' hfin' hl' heta' hv' c2 ht0
  have hpair : ∀ j' k', InNbhd s k j' k' → ∃ a c, w.wt_coefs.val? j' k' r = some a ∧ w'.wt_coefs.val? j' k' r = some c ∧ EntryClose δ a c := by
    intro j' k' hn
    rcases hcl j' k' r with ⟨e1, -⟩ | h1
    · obtain ⟨a, ha⟩ := nbhd_defined h hl hv hn
      rw [ha] at e1; cases e1
    · exact h1
  have hnan : ∀ j' k', InNbhd s k j' k' → (w.wt_coefs.val? j' k' r = some Fl.nan ↔ w'.wt_coefs.val? j' k' r = some Fl.nan) := by
    intro j' k' hn
    obtain ⟨a, c, e1, e2, e3⟩ := hpair j' k' hn
    rw [e1, e2, Option.some_inj, Option.some_inj]
    exact e3.nan _ _
  by_cases hall : ∀ j' k', InNbhd s k j' k' → w.wt_coefs.val? j' k' r = some Fl.nan
  · exact Or.inl ⟨p1 hall, q1 fun j' k' hn => (hnan j' k' hn).1 (hall j' k' hn)⟩
  · push Not at hall
    obtain ⟨j0, k0, hn0, hne⟩ := hall
    refine Or.inr ⟨_, _, p2 ⟨j0, k0, hn0, hne⟩, q2 ⟨j0, k0, hn0, fun hc => hne ((hnan j0 k0 hn0).2 hc)⟩, ?_⟩
    refine H s (Finset.mem_Icc.2 ⟨hcond.1, hcond.2.1⟩) k (Finset.mem_range.2 ?_) r _ t1 (fun j' k' hn => ?_) c3
    · have := Nat.div_le_self N (2 ^ s)
      have := hcond.2.2
      omega
    · obtain ⟨a, c, e1, e2, e3⟩ := hpair j' k' hn
      exact number_of_close hδ.le e1 e2 e3

/-- Rows and columns of the p-leaders, with finite positive exponents. -/
theorem pleader_data {sig : Arr R} (hR : R ≠ 0) {e : Expo} {wt : Wavelet} {j1 : ℤ} {j2 : Option ℝ} {g nm : ℝ} {weighted : Bool} {w : WT R}
    (h : waveletAnalysis sig (.num e) wt j1 j2 g nm weighted = .ok w) {l : MRQ R} (hl : w.wt_leaders = some l)
    {eta : Row R} (heta : w.eta_p = some eta) (hb : ∀ r, ∃ b : ℝ, 0 < b ∧ eta r = Fl.fin b) :
    ∃ K : ℕ, Regular l K ∧ w.j2_eff ≤ K ∧ (∀ p ∈ l.values, p.2 ≠ []) ∧ ∀ p ∈ l.values, ∀ r : Fin R, ∃ x ∈ col p.2 r, x ≠ Fl.nan := by
  obtain ⟨l0, eta0, e1, e2, -, -, hcnt⟩ := C04_pleaders h
  rw [hl] at e1; cases e1
  rw [heta] at e2; cases e2
  have hnn : ∀ r, eta r ≠ Fl.nan := by intro r hr; obtain ⟨b, -, hb⟩ := hb r; rw [hr] at hb; cases hb
  obtain ⟨K, hreg, hjK⟩ := pleader_regular h hl (by intro eta' he' r; rw [heta] at he'; cases he'; exact hnn r)
  have hcol3 : ∀ p ∈ l.values, ∀ r : Fin R, 3 ≤ countNotNaN (col p.2 r) := by
    intro p hp r
    obtain ⟨nn, a1, a2, a3⟩ := hcnt p hp
    obtain ⟨b, hb0, hb⟩ := hb r
    have := (a3 r).1 ⟨hnn r, by rw [hb]; intro hc; exact hb0.ne' ((Fl.fin_inj _ _).1 hc), by rw [hb]; intro hc; cases hc⟩
    rw [← this]; exact a2 r
  refine ⟨K, hreg, hjK, ?_, ?_⟩
  · intro p hp hnil
    have := hcol3 p hp ⟨0, Nat.pos_of_ne_zero hR⟩
    rw [hnil] at this
    simp [col, countNotNaN, dropNaN] at this
  · intro p hp r
    have := hcol3 p hp r
    unfold countNotNaN at this
    obtain ⟨x, hx⟩ := List.exists_mem_of_length_pos (show 0 < (dropNaN (col p.2 r)).length by omega)
    rw [dropNaN, List.mem_filter] at hx
    exact ⟨x, hx.1, by rintro rfl; simp at hx⟩

theorem MRQRelated.weaken {m m' : MRQ R} {a b : ℝ} (hab : a ≤ b) (h : MRQRelated (EntryClose a) m m') : MRQRelated (EntryClose b) m m' :=
  ⟨h.1, h.2.imp fun _ _ h => ⟨h.1, h.2.imp fun _ _ h r => (h r).mono hab⟩⟩

/-- **C121 for p-leaders** (`p_exp = 2`).  Let the wavelet analysis of the signal `x` return, with at least two scales to analyse, and let no wavelet
coefficient of `x` be 0.  For every `ε` there is `η` such that on every signal whose samples are within `η` of those of `x` the call returns, and all the
estimates, from coefficients and from p-leaders, are within `ε` of those of `x`. -/
theorem C121_pleaders {N : ℕ} {x : Fin R → ℤ → ℝ} (hR : R ≠ 0) {e : Expo} {wt : Wavelet} (hwt : wt.Valid) {j1 : ℕ}
    {j2 : Option ℝ} {g nm : ℝ} (hnm : nm ≠ 0) {weighted : Bool} {w : WT R} (h : waveletAnalysis (sampled N x) (.num e) wt j1 j2 g nm weighted = .ok w)
    (h1 : 1 ≤ j1) (h12 : (j1 : ℤ) < w.j2_eff) (h0 : NoZeros w.wt_coefs) {q : List ℝ} (hq : (2:ℝ) ∈ q) (n : ℕ) :
    ∃ d, mfAnalysisFull (sampled N x) j1 j2 nm g weighted wt (.num e) (some (.ndarray q)) n = .ok d ∧ ∀ ε : ℝ, 0 < ε → ∃ η : ℝ, 0 < η ∧
      ∀ x' : Fin R → ℤ → ℝ, (∀ r (i : ℕ), i < N → |x r i - x' r i| ≤ η) →
        ∃ d', mfAnalysisFull (sampled N x') j1 j2 nm g weighted wt (.num e) (some (.ndarray q)) n = .ok d' ∧
          (∀ r, EstimatesClose ε q.length n r d.dwt d'.dwt) ∧
          ∃ v v', d.lwt = some v ∧ d'.lwt = some v' ∧ ∀ r, EstimatesClose ε q.length n r v v' := by
  have he2 : e.val = 2 := (wa_num_inv h).1
  have hN : (sampled N x) ≠ [] := by
    intro he
    obtain ⟨ml, K, Kc, e, -⟩ := wa_inv h
    rw [he] at e
    simp [maxLevel] at e
  have hN0 : N ≠ 0 := by rintro rfl; exact hN rfl
  obtain ⟨wi, hwi⟩ := C05_total (sampled N x) .inf (Or.inr rfl) wt j1 j2 g nm weighted hR hN hnm
  obtain ⟨ec, ej, -⟩ := C22_untouched hwi h
  obtain ⟨J, Jc, hJc, hj2, hc, hli⟩ := C03_regular hwi
  rw [← ec] at hc
  rw [← ej] at hj2
  obtain ⟨j2', hj2'⟩ := Int.eq_ofNat_of_zero_le (show 0 ≤ w.j2_eff by omega)
  have hjj : j1 < j2' := by rw [hj2'] at h12; exact_mod_cast h12
  have hj2c : j2' ≤ Jc := by rw [hj2'] at hj2; have : j2' ≤ J := by exact_mod_cast hj2
                             rcases hJc with rfl | rfl <;> omega
  have hfinc : ∀ s k r v, w.wt_coefs.val? s k r = some v → v = Fl.nan ∨ ∃ t, v = Fl.fin t := by
    intro s k r v hv
    rcases coefs_close hR hwt h h (η := 0) (fun r i _ => by simp) s k r with ⟨e, -⟩ | ⟨a, b, e1, e2, e3⟩
    · rw [hv] at e; cases e
    · rw [hv] at e1; cases e1
      rcases e3 with ⟨e, -⟩ | ⟨s, t, e, -⟩
      · exact Or.inl e
      · exact Or.inr ⟨s, e⟩
  have hrowc := rows_ne_nil hR h _ (Or.inl rfl)
  have hcolc := cols_not_nan h _ (Or.inl rfl)
  have hnzc := nonzeroData_of hc hfinc hcolc h0
  have hself : MRQRelated (EntryClose 0) w.wt_coefs w.wt_coefs := by
    refine related_of_val hR hc hc rfl fun s k r => ?_
    rcases hv : w.wt_coefs.val? s k r with _ | a
    · exact Or.inl ⟨rfl, rfl⟩
    · refine Or.inr ⟨a, a, rfl, rfl, ?_⟩
      rcases hfinc s k r a hv with e | ⟨t, e⟩
      · exact Or.inl ⟨e, e⟩
      · exact Or.inr ⟨t, t, e, e, by simp⟩
  -- the exponent of the correction
  obtain ⟨v0, hv0, hcont0⟩ := C121_estimators hc hrowc hnzc h1 hjj hj2c weighted [2] (by simp) 0
  obtain ⟨z, hz, -, hzok⟩ := (C21_eta_p he2 hwi).2 v0.structure_ (by rw [← ec, ← ej, hj2']; exact hv0.1)
  have hzfin : ∀ r, ∃ b : ℝ, z r = Fl.fin b := by
    intro r
    obtain ⟨η, hη, hh⟩ := hcont0 1 one_pos
    obtain ⟨v1, -, hcl⟩ := hh w.wt_coefs hc (hself.weaken hη.le)
    obtain ⟨z0, -, ez, -, s, -, es, -⟩ := (hcl r).2.2.1 0 (by simp)
    rw [hz] at ez
    simp only [List.getElem?_cons_zero, Option.some_inj] at ez
    subst ez
    exact ⟨s, es⟩
  obtain ⟨l, eta, hl, heta, -⟩ := C04_pleaders h
  have hez : eta = z ∧ ∀ r, ∃ b : ℝ, 0 < b ∧ eta r = Fl.fin b := by
    have hpos : ∀ r, ¬ Fl.le (z r) (Fl.fin 0) := by
      intro r hr
      have := ((C21_eta_p he2 hwi).2 v0.structure_ (by rw [← ec, ← ej, hj2']; exact hv0.1))
      obtain ⟨z', hz', hz2, -⟩ := this
      rw [hz] at hz'; cases hz'
      have := hz2 (fun r hn => by obtain ⟨b, hb⟩ := hzfin r; rw [hn] at hb; cases hb) ⟨r, hr⟩
      rw [h] at this; cases this
    obtain ⟨w2, hw2, hw3, -⟩ := hzok (Or.inr hpos)
    rw [h] at hw2; cases hw2
    rw [heta] at hw3; cases hw3
    refine ⟨rfl, fun r => ?_⟩
    obtain ⟨b, hb⟩ := hzfin r
    refine ⟨b, ?_, hb⟩
    by_contra hb0
    exact hpos r (by rw [hb]; exact not_lt.1 hb0)
  obtain ⟨rfl, hbpos⟩ := hez
  obtain ⟨b, hb⟩ : ∃ b : Fin R → ℝ, ∀ r, 0 < b r ∧ eta r = Fl.fin (b r) := Classical.axiom_of_choice hbpos
  obtain ⟨K, hlr, hjK, hrowl, hcoll⟩ := pleader_data hR h hl heta hbpos
  have hj2K : j2' ≤ K := by rw [hj2'] at hjK; exact_mod_cast hjK
  have hl0 : NoZeros l := C123_pleaders_nonzero h h0 hfinc (fun eta' he' r => by rw [heta] at he'; cases he'; exact hbpos r) hl
  have hfinl : ∀ s k r v, l.val? s k r = some v → v = Fl.nan ∨ ∃ t, v = Fl.fin t := by
    intro s k r v hv
    obtain ⟨p1, p2⟩ := pleader_value h hfinc hl heta hv (hb r).2 (hb r).1
    by_cases hall : ∀ j' k', InNbhd s k j' k' → w.wt_coefs.val? j' k' r = some Fl.nan
    · exact Or.inl (p1 hall)
    · push Not at hall
      exact Or.inr ⟨_, p2 hall⟩
  have hnzl := nonzeroData_of hlr hfinl hcoll hl0
  obtain ⟨vc, hvc, hcontc⟩ := C121_estimators hc hrowc hnzc h1 hjj hj2c weighted q hq n
  obtain ⟨vl, hvl, hcontl⟩ := C121_estimators hlr hrowl hnzl h1 hjj hj2K weighted q hq n
  have hnq : normQ (some (.ndarray q)) = q := rfl
  refine ⟨⟨vc, some vl⟩, ?_, fun ε hε => ?_⟩
  · unfold mfAnalysisFull
    rw [h]
    simp only
    rw [C47_bundle, hl, hj2', hnq]
    exact ⟨hvc, vl, rfl, hvl⟩
  obtain ⟨η1, hη1, Hc⟩ := hcontc ε hε
  obtain ⟨η2, hη2, Hl⟩ := hcontl ε hε
  obtain ⟨δ, hδ, hδb, Hδ⟩ := pleader_close h hfinc hl heta (fun r => (hb r).2) (fun r => (hb r).1) hη2
  obtain ⟨η3, hη3, H0⟩ := hcont0 δ hδ
  obtain ⟨η4, hη4⟩ : ∃ η4, η4 = min (min η1 δ) η3 := ⟨_, rfl⟩
  have h40 : 0 < η4 := by rw [hη4]; positivity
  have h41 : η4 ≤ η1 := by rw [hη4]; exact (min_le_left _ _).trans (min_le_left _ _)
  have h4δ : η4 ≤ δ := by rw [hη4]; exact (min_le_left _ _).trans (min_le_right _ _)
  have h43 : η4 ≤ η3 := by rw [hη4]; exact min_le_right _ _
  have hL : 0 ≤ lipMax wt g nm Jc := Finset.sum_nonneg fun s _ => coefLip_nonneg wt g nm s
  refine ⟨η4 / (lipMax wt g nm Jc + 1), by positivity, fun x' hx' => ?_⟩
  have hle : lipMax wt g nm Jc * (η4 / (lipMax wt g nm Jc + 1)) ≤ η4 := by
    rw [← mul_div_assoc, div_le_iff₀ (by positivity)]
    nlinarith
  have hN' : (sampled N x') ≠ [] := by
    intro he
    have := congrArg List.length he
    rw [sampled_length] at this
    exact hN0 this
  obtain ⟨wi', hwi'⟩ := C05_total (sampled N x') .inf (Or.inr rfl) wt j1 j2 g nm weighted hR hN' hnm
  obtain ⟨hj', hc', hrel, -⟩ := wa_close hR (Or.inr rfl) hwt hwi hwi' (by rw [← ec]; exact hc) hli (by positivity) hle hx'
  rw [← ec] at hrel
  rw [← ej, hj2'] at hj'
  -- the exponent for the other signal
  obtain ⟨v0', hv0', hcl0⟩ := H0 wi'.wt_coefs hc' (hrel.weaken h43)
  obtain ⟨z', hz', -, hzok'⟩ := (C21_eta_p he2 hwi').2 v0'.structure_ (by rw [hj']; exact hv0'.1)
  have hclz : ∀ r, FlClose δ (eta r) (z' r) := by
    intro r
    obtain ⟨a, c, e1, e2, e3⟩ := (hcl0 r).2.2.1 0 (by simp)
    rw [hz] at e1
    rw [hz'] at e2
    simp only [List.getElem?_cons_zero, Option.some_inj] at e1 e2
    subst e1 e2
    exact e3
  have hz'pos : ∀ r, ∃ c : ℝ, 0 < c ∧ z' r = Fl.fin c := by
    intro r
    obtain ⟨s, t, e1, e2, e3⟩ := hclz r
    rw [(hb r).2] at e1
    rw [← (Fl.fin_inj _ _).1 e1] at e3
    have := hδb r
    have := (abs_le.1 e3).2
    exact ⟨t, by linarith, e2⟩
  obtain ⟨w', hw', heta', ec', ej', -⟩ := hzok' (Or.inr fun r => by
    obtain ⟨c, hc0, hcr⟩ := hz'pos r
    rw [hcr]
    exact not_le.2 hc0)
  obtain ⟨l', eta', hl', heta'', -⟩ := C04_pleaders hw'
  rw [heta'] at heta''; cases heta''
  obtain ⟨K', hlr', -, hrowl', -⟩ := pleader_data hR hw' hl' heta' hz'pos
  have hcv : ∀ s k r, (w.wt_coefs.val? s k r = none ∧ w'.wt_coefs.val? s k r = none) ∨
      ∃ a b, w.wt_coefs.val? s k r = some a ∧ w'.wt_coefs.val? s k r = some b ∧ EntryClose δ a b := by
    intro s k r
    rcases coefs_close hR hwt h hw' hx' s k r with e | ⟨a, c, e1, e2, e3⟩
    · exact Or.inl e
    · refine Or.inr ⟨a, c, e1, e2, e3.mono (le_trans ?_ (hle.trans h4δ))⟩
      exact mul_le_mul_of_nonneg_right (coefLip_le (val_scale hc e1)) (by positivity)
  have hvals := Hδ x' w' hw' hcv l' z' hl' heta' hclz
  -- the same shape
  obtain ⟨A, hA, hAg, hAs⟩ := plead_shape h hl
  obtain ⟨B, hB, hBg, hBs⟩ := plead_shape hw' hl'
  obtain ⟨-, -, -, -, hlk⟩ := C07_data_independent hR hR hwt hwt rfl h hw'
  obtain ⟨l'', hl'', hkk, -⟩ := hlk l hl
  rw [hl'] at hl''; cases hl''
  have hAB : A = B := by
    have := congrArg List.length (hA.symm.trans (hkk.trans hB))
    simpa using this
  have hKK : K' = K := by
    have a1 := congrArg List.length hlr.1
    have a2 := congrArg List.length hlr'.1
    have a3 := congrArg List.length hkk
    simp only [Dict.keys, List.length_map, List.length_range] at a1 a2 a3
    omega
  subst hAB
  subst hKK
  have hrelL : MRQRelated (EntryClose η2) l l' := by
    refine related_of_val hR hlr hlr' (by rw [hAg, hBg]) fun s k r => ?_
    by_cases hcond : 1 ≤ s ∧ s ≤ A ∧ k < N / 2 ^ s - 2
    · obtain ⟨v, hv⟩ := (hAs s k r).1 hcond
      obtain ⟨v', hv'⟩ := (hBs s k r).1 hcond
      exact Or.inr ⟨_, _, hv, hv', hvals s k r v v' hv hv'⟩
    · exact Or.inl ⟨(hAs s k r).2 hcond, (hBs s k r).2 hcond⟩
  obtain ⟨vc', hvc', hcc⟩ := Hc wi'.wt_coefs hc' (hrel.weaken h41)
  obtain ⟨vl', hvl', hll⟩ := Hl l' hlr' hrelL
  refine ⟨⟨vc', some vl'⟩, ?_, hcc, vl, vl', rfl, rfl, hll⟩
  unfold mfAnalysisFull
  rw [hw']
  simp only
  rw [C47_bundle, hl', ej', hj', hnq, ec']
  exact ⟨hvc', vl', rfl, hvl'⟩

/-- The hypotheses of `C121_pleaders` are met: 64 samples of `3 t + 1`, the Haar filters padded with zeros to length 4, the orders 1, 2 and -1. -/
example : ∃ d : MFData 1, mfAnalysisFull (sampled 64 fun (_ : Fin 1) t => (Polynomial.C 3 * Polynomial.X + Polynomial.C 1 : Polynomial ℝ).eval (t : ℝ)) ((1 : ℕ) : ℤ) none 1 0 true
    { dec_lo := [0, (Real.sqrt 2)⁻¹, (Real.sqrt 2)⁻¹, 0], dec_hi := [0, -(Real.sqrt 2)⁻¹, (Real.sqrt 2)⁻¹, 0] } (.num (.int 2)) (some (.ndarray [1, 2, -1])) 3 = .ok d := by
  obtain ⟨w, hw, h12, h0⟩ := linear_meets.2.2
  obtain ⟨d, hd, -⟩ := C121_pleaders (by norm_num) ⟨rfl, by simp⟩ (by norm_num) hw (by norm_num) h12 h0 (q := [1, 2, -1]) (by simp) 3
  exact ⟨d, hd⟩

end

end MFA
