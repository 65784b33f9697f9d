import Verif.Props.Leaders
import Verif.Props.Structure
import Verif.Spec.PLeader

/-! Properties C17, C20, C21, C22: p-leaders and their correction. -/

namespace MFA

open Classical Finset

variable {R : ℕ}

/-! ### The neighbourhood sum -/

theorem desc_sum (f : ℕ × ℕ → ℝ) (s : ℕ) : ∀ k, ((desc s k).map f).sum =
    ∑ j' ∈ Icc 1 s, ∑ k' ∈ Ico (k * 2 ^ (s - j')) ((k + 1) * 2 ^ (s - j')), f (j', k') := by
  induction s with
  | zero => intro k; simp [desc]
  | succ s ih =>
    intro k
    rw [desc, List.map_cons, List.sum_cons, List.map_append, List.sum_append, ih, ih,
      Finset.sum_Icc_succ_top (by omega), ← Finset.sum_add_distrib, add_comm]
    congr 1
    · apply Finset.sum_congr rfl
      intro j' hj'
      rw [Finset.mem_Icc] at hj'
      have e : 2 ^ (s + 1 - j') = 2 * 2 ^ (s - j') := by
        rw [show s + 1 - j' = (s - j') + 1 by omega, pow_succ]; ring
      rw [e, Finset.sum_Ico_consecutive]
      · congr 2 <;> ring
      · exact Nat.mul_le_mul_right _ (by omega)
      · exact Nat.mul_le_mul_right _ (by omega)
    · simp

theorem nbhd_sum (f : ℕ × ℕ → ℝ) (s k : ℕ) : ((nbhd s k).map f).sum =
    ∑ j' ∈ Icc 1 s, ∑ k' ∈ Ico (k * 2 ^ (s - j')) ((k + 3) * 2 ^ (s - j')), f (j', k') := by
  rw [nbhd, List.map_append, List.map_append, List.sum_append, List.sum_append, desc_sum, desc_sum, desc_sum,
    ← Finset.sum_add_distrib, ← Finset.sum_add_distrib]
  apply Finset.sum_congr rfl
  intro j' _
  rw [Finset.sum_Ico_consecutive _ (Nat.mul_le_mul_right _ (by omega)) (Nat.mul_le_mul_right _ (by omega)),
    Finset.sum_Ico_consecutive _ (Nat.mul_le_mul_right _ (by omega)) (Nat.mul_le_mul_right _ (by omega))]

theorem fastPower_two {e : Expo} (he : e.val = 2) (x : Fl) : fastPower e x = x * x := by
  unfold fastPower; rw [if_neg (by rw [he]; norm_num), if_pos he]

theorem fastPower_half {e : Expo} (he : e.val = 1 / 2) (x : Fl) : fastPower e x = x.sqrt := by
  unfold fastPower; rw [if_neg (by rw [he]; norm_num), if_neg (by rw [he]; norm_num), if_pos he]

/-- A sum that skips NaN, when the NaN entries carry the value 0. -/
theorem sum_dropNaN_fin {α : Type} (l : List α) (F : α → Fl) (f : α → ℝ)
    (h : ∀ a ∈ l, F a = Fl.fin (f a) ∨ (F a = Fl.nan ∧ f a = 0)) :
    (dropNaN (l.map F)).sum = Fl.fin (l.map f).sum := by
  induction l with
  | nil => rfl
  | cons a l ih =>
    have ih := ih (fun b hb => h b (by simp [hb]))
    rw [List.map_cons, List.map_cons, List.sum_cons]
    rcases h a (by simp) with e | ⟨e, e0⟩
    · rw [e, dropNaN_cons_of (by rfl), List.sum_cons, ih, Fl.fin_add]
    · rw [e, dropNaN_cons_nan, ih, e0, zero_add]

theorem mapE_length {α β : Type} {f : α → Except PyErr β} : ∀ {l : List α} {bs : List β}, mapE f l = .ok bs →
    bs.length = l.length
  | [], bs, h => by cases h; rfl
  | a :: l, bs, h => by
    rw [mapE] at h
    cases ha : f a with
    | error e => rw [ha] at h; cases h
    | ok b =>
      cases hl : mapE f l with
      | error e => simp only [ha, hl] at h; cases h
      | ok bs' =>
        simp only [ha, hl] at h
        cases h
        simp [mapE_length hl]

/-! ### C22: the factor -/

theorem one_sub_pos {t : ℝ} (ht : 0 < t) : 0 < 1 - (2:ℝ) ^ (-t) := by
  have : (2:ℝ) ^ (-t) < 1 := Real.rpow_lt_one_of_one_lt_of_neg (by norm_num) (by linarith)
  linarith

theorem zpjCorr_fin {η : ℝ} (hη : 0 < η) (p : ℝ) {j : ℕ} (hj : 1 ≤ j) :
    zpjCorr (Fl.fin η) p j = Fl.fin (pCorrection η p j) := by
  have hjη : 0 < (j : ℝ) * η := mul_pos (by exact_mod_cast hj) hη
  have h1 := one_sub_pos hη
  have h2 := one_sub_pos hjη
  have hq : 0 < (1 - (2:ℝ) ^ (-((j : ℝ) * η))) / (1 - (2:ℝ) ^ (-η)) := div_pos h2 h1
  have e1 : (Fl.fin 1 - (-(Fl.fin (j : ℝ) * Fl.fin η)).exp2) = Fl.fin (1 - (2:ℝ) ^ (-((j : ℝ) * η))) := by
    rw [Fl.fin_mul]; rfl
  have e2 : (Fl.fin 1 - (-Fl.fin η).exp2) = Fl.fin (1 - (2:ℝ) ^ (-η)) := rfl
  have e3 : Fl.fin (1 - (2:ℝ) ^ (-((j : ℝ) * η))) / Fl.fin (1 - (2:ℝ) ^ (-η))
      = Fl.fin ((1 - (2:ℝ) ^ (-((j : ℝ) * η))) / (1 - (2:ℝ) ^ (-η))) := by
    show Fl.fin _ * Fl.inv (Fl.fin _) = _
    rw [Fl.inv, if_neg h1.ne']
    rfl
  rw [zpjCorr, e1, e2, e3]
  unfold Fl.log2 Fl.logOf
  simp only
  rw [if_pos hq, Fl.fin_mul]
  simp only [Fl.exp2]
  congr 1
  rw [pCorrection, mul_comm, Real.rpow_mul (by norm_num), Real.rpow_logb (by norm_num) (by norm_num) hq]

/-- C22: the correction factor is 1 at the finest scale. -/
theorem C22_one {η : ℝ} (hη : 0 < η) (p : ℝ) : pCorrection η p 1 = 1 := by
  have h := (one_sub_pos hη).ne'
  rw [pCorrection, Nat.cast_one, one_mul, div_self h, Real.one_rpow]

/-- C22: the correction factor lies in (0, 1] and decreases with the scale. -/
theorem C22_monotone {η p : ℝ} (hη : 0 < η) (hp : 0 < p) {j j' : ℕ} (hj : 1 ≤ j) (hjj : j ≤ j') :
    0 < pCorrection η p j' ∧ pCorrection η p j' ≤ pCorrection η p j ∧ pCorrection η p j ≤ 1 := by
  have h1 := one_sub_pos hη
  have key : ∀ {a b : ℕ}, 1 ≤ a → a ≤ b → 0 < (1 - (2:ℝ) ^ (-((a : ℝ) * η))) / (1 - (2:ℝ) ^ (-η)) ∧
      (1 - (2:ℝ) ^ (-((a : ℝ) * η))) / (1 - (2:ℝ) ^ (-η)) ≤ (1 - (2:ℝ) ^ (-((b : ℝ) * η))) / (1 - (2:ℝ) ^ (-η)) := by
    intro a b ha hab
    have ha' : (0:ℝ) < a := by exact_mod_cast ha
    refine ⟨div_pos (one_sub_pos (mul_pos ha' hη)) h1, div_le_div_of_nonneg_right ?_ h1.le⟩
    have hc : (a : ℝ) ≤ b := by exact_mod_cast hab
    have : (2:ℝ) ^ (-((b : ℝ) * η)) ≤ (2:ℝ) ^ (-((a : ℝ) * η)) :=
      Real.rpow_le_rpow_of_exponent_le (by norm_num) (by nlinarith)
    linarith
  have hneg : -1 / p < 0 := div_neg_of_neg_of_pos (by norm_num) hp
  refine ⟨Real.rpow_pos_of_pos (key (by omega) le_rfl).1 _, ?_, ?_⟩
  · exact Real.rpow_le_rpow_of_nonpos (key hj hjj).1 (key hj hjj).2 hneg.le
  · rw [← C22_one hη p]
    exact Real.rpow_le_rpow_of_nonpos (key le_rfl hj).1 (key le_rfl hj).2 hneg.le

/-- For `η > 0` the factor is strictly below 1 at all coarser scales: the correction is not a no-op. -/
example : pCorrection 1 2 2 = (3 / 2 : ℝ) ^ (-(1 / 2) : ℝ) := by
  unfold pCorrection
  norm_num [Real.rpow_neg, Real.rpow_one]

/-! ### C17, C22: the values returned -/

/-- C17 and C22: with `p_exp = 2` (the only finite value for which the call returns), let `d` be the coefficients of
realisation `r` in the dyadic neighbourhood of `(j, k)`, all finite or NaN, NaN counting as 0.  Where the estimated `eta_p`
is `η > 0`, the p-leader is `sqrt (2^-j Σ 2^j' d(j',k')²)` times the correction factor. It is NaN iff all coefficients
of the neighbourhood are NaN. -/
theorem C17_pleaders {sig : Arr R} {e : Expo} {wt : Wavelet} {j1 : ℤ} {j2 : Option ℝ} {g nm : ℝ} {weighted : Bool} {w : WT R}
    (h : waveletAnalysis sig (.num e) wt j1 j2 g nm weighted = .ok w) :
    ∃ l eta, w.wt_leaders = some l ∧ w.eta_p = some eta ∧ ∀ j k r v (η : ℝ), l.val? j k r = some v →
      eta r = Fl.fin η → 0 < η →
      ((∀ j' k', InNbhd j k j' k' → w.wt_coefs.val? j' k' r = some Fl.nan) → v = Fl.nan) ∧
      ∀ d : ℕ → ℕ → ℝ,
        (∀ j' k', InNbhd j k j' k' → w.wt_coefs.val? j' k' r = some (Fl.fin (d j' k')) ∨
          (w.wt_coefs.val? j' k' r = some Fl.nan ∧ d j' k' = 0)) →
        (∃ j' k', InNbhd j k j' k' ∧ w.wt_coefs.val? j' k' r ≠ some Fl.nan) →
        v = Fl.fin (Real.sqrt ((2:ℝ) ^ (-(j : ℝ)) * nbhdEnergy d j k) * pCorrection η 2 j) := by
  obtain ⟨he2, ml, K, eta, h1, hK, -, -, -, hw⟩ := wa_num_inv h
  have hkc : K ≤ coefScales (wparams wt g nm) sig ml.toNat K := by
    rcases coefScales_cases (wparams wt g nm) sig ml.toNat K with h | h <;> omega
  have hc : w.wt_coefs = scalesUpTo .coef g (coefSeq (wparams wt g nm) sig)
      (coefScales (wparams wt g nm) sig ml.toNat K) := by rw [hw]
  refine ⟨_, eta, by rw [hw], by rw [hw], fun j k r v η hv hη hpos => ?_⟩
  have hv' : (scalesUpTo .pleader g (corrSeq eta e.val (leadSeq (wparams wt g nm) (.num e) sig)) K).val? j k r = some v := hv
  have hlen : ∀ s, (corrSeq eta e.val (leadSeq (wparams wt g nm) (.num e) sig) s).length = sig.length / 2 ^ s - 2 := by
    intro s; simp [corrSeq, leadSeq_length]
  rw [scalesUpTo_val, hlen] at hv'
  split at hv'
  · rename_i hjk
    obtain ⟨hj1, hjK, hk⟩ := hjk
    rw [Option.some.injEq] at hv'
    have hv2 : v = ent (leadSeq (wparams wt g nm) (.num e) sig j) k r * Fl.fin (pCorrection η 2 j) := by
      rw [← hv', ← zpjCorr_fin hpos 2 hj1, ← hη, ← he2]
      have : k < (leadSeq (wparams wt g nm) (.num e) sig j).length := by rw [leadSeq_length]; exact hk
      simp [ent, corrSeq, this]
    have hin : ∀ j' k', InNbhd j k j' k' →
        w.wt_coefs.val? j' k' r = some (ent (coefSeq (wparams wt g nm) sig j') k' r) := by
      intro j' k' hn
      have hlt : k' < sig.length / 2 ^ j' := hn.lt_length (by omega)
      rw [hc, scalesUpTo_val, coefSeq_length _ _ _ hn.1,
        if_pos ⟨hn.1, by have := hn.2.1; omega, hlt⟩]
    have hnan := ent_leadSeq_nan_iff (wparams wt g nm) (.num e) sig r hj1 hk
    constructor
    · intro hall
      have : ent (leadSeq (wparams wt g nm) (.num e) sig j) k r = Fl.nan := by
        rw [hnan]; intro j' k' hn
        have := hall j' k' hn
        rwa [hin j' k' hn, Option.some.injEq] at this
      rw [hv2, this]; rfl
    · intro d hd hex
      have heq := ent_leadSeq (wparams wt g nm) (.num e) sig r hj1 hk
      have hne : ent (leadSeq (wparams wt g nm) (.num e) sig j) k r ≠ Fl.nan := by
        rw [Ne, hnan]; intro hall
        obtain ⟨j', k', hn, h'⟩ := hex
        rw [hin j' k' hn, hall j' k' hn] at h'
        exact h' rfl
      have hred : ∀ l, leaderRed (checkFormalism (.num e)) l = fixedNanSum l := fun l => by
        rw [leaderRed, if_pos (by simp [checkFormalism])]
      have hdn : dropNaN (inputs (wparams wt g nm) (.num e) sig r (nbhd j k)) ≠ [] := by
        intro h0
        apply hne
        rw [heq, hred, fixedNanSum_eq, if_pos h0]
        rw [outF_eq_nan_iff _ _ (Or.inl rfl)]
      have hsum : (dropNaN (inputs (wparams wt g nm) (.num e) sig r (nbhd j k))).sum = Fl.fin (nbhdEnergy d j k) := by
        unfold inputs
        rw [sum_dropNaN_fin _ _ (fun q => 2 ^ q.1 * d q.1 q.2 ^ 2)]
        · rw [nbhd_sum]; rfl
        · rintro ⟨j', k'⟩ hq
          have hn := mem_nbhd.mp hq
          simp only
          rcases hd j' k' hn with h' | ⟨h', h0⟩
          · rw [hin j' k' hn, Option.some.injEq] at h'
            left
            rw [h', inpF, fastPower_two he2]
            show Fl.fin _ * (Fl.fin _ * Fl.fin _) = _
            rw [Fl.fin_mul, Fl.fin_mul, Fl.fin_inj, abs_mul_abs_self]; ring
          · rw [hin j' k' hn, Option.some.injEq] at h'
            right
            rw [h', inpF_eq_nan_iff, h0]
            exact ⟨rfl, by ring⟩
      rw [hv2, heq, hred, fixedNanSum_eq, if_neg hdn, hsum, outF, fastPower_half (by show 1 / e.val = _; rw [he2]), Fl.fin_mul]
      have hnn : 0 ≤ nbhdEnergy d j k := by
        unfold nbhdEnergy
        exact Finset.sum_nonneg fun _ _ => Finset.sum_nonneg fun _ _ => by positivity
      simp only [Fl.sqrt]
      rw [if_pos (by positivity), Fl.fin_mul]
  · cases hv'

/-! ### C20, C21: what the p-leader call raises -/

theorem tooFew_lead_congr (P : LoopParams) (p p' : PExp) (sig : Arr R) {s : ℕ} (hs : 1 ≤ s) :
    tooFew (leadSeq P p sig s) ↔ tooFew (leadSeq P p' sig s) := by
  have : ∀ r, countNotNaN (col (leadSeq P p sig s) r) = countNotNaN (col (leadSeq P p' sig s) r) := by
    intro r
    rw [col_range, col_range, leadSeq_length, leadSeq_length]
    apply countNotNaN_range_congr
    intro k hk
    rw [ent_leadSeq_nan_iff _ _ _ _ hs hk, ent_leadSeq_nan_iff _ _ _ _ hs hk]
  rw [tooFew_iff, tooFew_iff]
  simp only [this]

/-- A p-leader call in terms of the `p_exp = inf` call on the same signal. -/
theorem wa_num_eq {sig : Arr R} {e : Expo} (he : e.val ≠ 0) {wt : Wavelet} {j1 : ℤ} {j2 : Option ℝ} {g nm : ℝ}
    {weighted : Bool} {w : WT R} (h : waveletAnalysis sig .inf wt j1 j2 g nm weighted = .ok w) :
    ∃ K, w.wt_leaders = some (scalesUpTo .leader g (leadSeq (wparams wt g nm) .inf sig) K) ∧
    waveletAnalysis sig (.num e) wt j1 j2 g nm weighted =
      match estimateEtaP w.wt_coefs e j1 w.j2_eff weighted with
      | .error x => .error x
      | .ok eta => if (∀ r, (eta r).isNaN = false) ∧ (∃ r, Fl.le (eta r) (Fl.fin 0)) then .error .typeError
        else .ok { wt_coefs := w.wt_coefs
                   wt_leaders := some { scalesUpTo .pleader g (leadSeq (wparams wt g nm) (.num e) sig) K with
                     values := (scalesUpTo .pleader g (corrSeq eta e.val (leadSeq (wparams wt g nm) (.num e) sig)) K).values }
                   j2_eff := w.j2_eff, eta_p := some eta, warned := w.warned } := by
  obtain ⟨ml, K, h1, hK, hwd, hw⟩ := wa_inf_inv h
  refine ⟨K, by rw [hw], ?_⟩
  have hKnum : FirstBad ml.toNat (fun j => ¬ tooFew (coefSeq (wparams wt g nm) sig j) ∧
        ¬ tooFew (leadSeq (wparams wt g nm) (.num e) sig j)) 1 K :=
    hK.congr fun i _ => by rw [tooFew_lead_congr _ .inf (.num e) _ (by omega)]
  obtain ⟨wd, hd, hwd'⟩ : ∃ wd, decompositionLevelW sig.length (wt.dec_hi.map (fun t => -1 * t)).length j2 = .ok (ml, wd) ∧
      wd = w.warned := by
    rw [List.length_map]
    unfold decompositionLevelW
    rw [h1]
    refine ⟨_, rfl, ?_⟩
    rw [Bool.eq_iff_iff, hwd]
    cases j2 <;> simp
  -- the loop
  have hloop : ∃ sv, leadLoop (wparams wt g nm) (.num e) ml.toNat 1 ml sig
      { coefs := MRQ.empty .coef g, leaders := MRQ.empty (checkFormalism (.num e)) g, sans_voisin := [] }
      = .ok ({ coefs := scalesUpTo .coef g (coefSeq (wparams wt g nm) sig) (coefScales (wparams wt g nm) sig ml.toNat K)
               leaders := scalesUpTo .pleader g (leadSeq (wparams wt g nm) (.num e) sig) K
               sans_voisin := sv }, finalLevel ml K) := by
    rcases hn : ml.toNat with _ | n
    · have hK0 : K = 0 := by have := hK.1; omega
      subst hK0
      refine ⟨[], ?_⟩
      rw [leadLoop]
      congr 2
      unfold finalLevel; rw [if_pos hn.symm]
    · have hR : R ≠ 0 := by
        intro hR
        unfold waveletAnalysis at h
        dsimp only at h
        rw [hd] at h
        simp only [hn, leadLoop, if_pos hR] at h
        cases h
      have hnm : nm ≠ 0 := by
        intro hnm
        unfold waveletAnalysis at h
        dsimp only at h
        rw [hd] at h
        simp only [hn, leadLoop, if_neg hR, normalize, if_pos hnm] at h
        cases h
      obtain ⟨K', sv, hK', eq⟩ := leadLoop_spec (wparams wt g nm) (.num e) he sig hR hnm (n + 1) 1 ml
        { coefs := MRQ.empty .coef g, leaders := MRQ.empty (checkFormalism (.num e)) g, sans_voisin := [] } le_rfl (Or.inl rfl)
      rw [hn] at hKnum
      have : K' = K := hK'.unique hKnum
      subst this
      refine ⟨sv, ?_⟩
      rw [show approxSeq (wparams wt g nm) sig (1 - 1) = sig from rfl] at eq
      rw [eq]
      simp only [addMany_empty]
      congr 2
      · unfold coefScales; rw [Nat.add_comm 1 K']; rfl
      · unfold finalLevel
        rw [hn]
        by_cases hh : K' = n + 1
        · rw [if_pos hh, if_pos hh]
        · rw [if_neg hh, if_neg hh]; push_cast; ring
  obtain ⟨sv, hloop⟩ := hloop
  have hc : w.wt_coefs = scalesUpTo .coef g (coefSeq (wparams wt g nm) sig) (coefScales (wparams wt g nm) sig ml.toNat K) := by
    rw [hw]
  have hj : w.j2_eff = j2Eff (finalLevel ml K) j2 := by rw [hw]
  rw [wparams] at hloop
  unfold waveletAnalysis
  dsimp only
  rw [hd]
  simp only [hloop]
  rw [← wparams, ← hc, ← hj, correctLeaders]
  cases estimateEtaP w.wt_coefs e j1 w.j2_eff weighted with
  | error x => rfl
  | ok eta =>
    simp only
    by_cases hneg : (∀ r, (eta r).isNaN = false) ∧ (∃ r, Fl.le (eta r) (Fl.fin 0))
    · rw [if_pos hneg, if_pos hneg]
    · rw [if_neg hneg, if_neg hneg, finalLevel_toNat, applyCorr_scales, hwd']

/-- C20: with a finite `p_exp` other than 0 and 2 the exception is IndexError as soon as the regression range is available:
whenever the `p_exp = inf` call on the same signal returns scales with `1 ≤ j1 ≤ j2_eff`. -/
theorem C20_raises_index_error {sig : Arr R} {e : Expo} (he : e.val ≠ 0) (he2 : e.val ≠ 2) {wt : Wavelet} {j1 : ℤ}
    {j2 : Option ℝ} {g nm : ℝ} {weighted : Bool} {w : WT R}
    (h : waveletAnalysis sig .inf wt j1 j2 g nm weighted = .ok w) (h1 : 1 ≤ j1) (h12 : j1 ≤ w.j2_eff) :
    waveletAnalysis sig (.num e) wt j1 j2 g nm weighted = .error .indexError := by
  obtain ⟨K, -, eq⟩ := wa_num_eq he h
  obtain ⟨J, Jc, hJ, hj, hreg, -⟩ := C03_regular h
  rw [eq]
  unfold estimateEtaP
  rw [hreg.structFn_no2 h1 h12 (by rcases hJ with rfl | rfl <;> omega) weighted [e.val] (by simpa [eq_comm] using he2)]

/-- C20: without any usable scale the exception is AttributeError. -/
theorem C20_raises_attribute_error {sig : Arr R} {e : Expo} (he : e.val ≠ 0) {wt : Wavelet} {j1 : ℤ}
    {j2 : Option ℝ} {g nm : ℝ} {weighted : Bool} {w : WT R}
    (h : waveletAnalysis sig .inf wt j1 j2 g nm weighted = .ok w) (h0 : w.wt_coefs.values = []) :
    waveletAnalysis sig (.num e) wt j1 j2 g nm weighted = .error .attributeError := by
  obtain ⟨K, -, eq⟩ := wa_num_eq he h
  rw [eq]
  unfold estimateEtaP StructFn.make MRQ.checkNrep
  simp [h0]

/-- C21: with `p_exp = 2`, let `z` be the scaling exponent at `q = 2` of the coefficients (those of the `p_exp = inf` call
on the same signal) over `j1 .. j2_eff`.  If no realisation has a NaN exponent and one is `≤ 0`, the call raises TypeError;
otherwise it returns, `eta_p` is `z`, and coefficients, `j2_eff` and warning are those of the `p_exp = inf` call.  If the
exponent cannot be estimated the same exception is raised. -/
theorem C21_eta_p {sig : Arr R} {e : Expo} (he : e.val = 2) {wt : Wavelet} {j1 : ℤ}
    {j2 : Option ℝ} {g nm : ℝ} {weighted : Bool} {w : WT R}
    (h : waveletAnalysis sig .inf wt j1 j2 g nm weighted = .ok w) :
    (∀ x, StructFn.make w.wt_coefs (.ndarray [2]) j1 w.j2_eff weighted = .error x →
      waveletAnalysis sig (.num e) wt j1 j2 g nm weighted = .error x) ∧
    ∀ s, StructFn.make w.wt_coefs (.ndarray [2]) j1 w.j2_eff weighted = .ok s → ∃ z : Row R, s.zeta = [z] ∧
      ((∀ r, z r ≠ Fl.nan) → (∃ r, Fl.le (z r) (Fl.fin 0)) →
        waveletAnalysis sig (.num e) wt j1 j2 g nm weighted = .error .typeError) ∧
      (((∃ r, z r = Fl.nan) ∨ ∀ r, ¬ Fl.le (z r) (Fl.fin 0)) →
        ∃ w2, waveletAnalysis sig (.num e) wt j1 j2 g nm weighted = .ok w2 ∧ w2.eta_p = some z ∧
          w2.wt_coefs = w.wt_coefs ∧ w2.j2_eff = w.j2_eff ∧ w2.warned = w.warned) := by
  obtain ⟨K, -, eq⟩ := wa_num_eq (e := e) (by rw [he]; norm_num) h
  unfold estimateEtaP at eq
  rw [he] at eq
  constructor
  · intro x hx
    rw [hx] at eq; exact eq
  · intro s hs
    rw [hs] at eq
    simp only at eq
    have hz : ∃ z, s.zeta = [z] := by
      unfold StructFn.make at hs
      cases hc : w.wt_coefs.checkNrep with
      | error e => rw [hc] at hs; cases hs
      | ok u =>
        rw [hc] at hs
        simp only at hs
        cases hr : sfRegressions w.wt_coefs (sfLogValues w.wt_coefs (QArg.ndarray [2]).expos) j1 w.j2_eff weighted with
        | error e => rw [hr] at hs; cases hs
        | ok regs =>
          rw [hr] at hs
          simp only at hs
          have hlen : regs.length = 1 := by
            unfold sfRegressions at hr
            split at hr
            · cases hr
            · have := mapE_length hr
              simpa [sfLogValues, QArg.expos] using this
          split at hs
          · cases hs
          · cases hs
            obtain ⟨a, rfl⟩ := List.length_eq_one_iff.mp hlen
            exact ⟨_, rfl⟩
    obtain ⟨z, hz⟩ := hz
    rw [hz] at eq
    simp only at eq
    refine ⟨z, hz, ?_, ?_⟩
    · intro hn hle
      rw [eq, if_pos ⟨fun r => by rw [Fl.not_isNaN_iff]; exact hn r, hle⟩]
    · intro hh
      have hneg : ¬ ((∀ r, (z r).isNaN = false) ∧ (∃ r, Fl.le (z r) (Fl.fin 0))) := by
        rintro ⟨ha, r, hr⟩
        rcases hh with ⟨r', hr'⟩ | hh
        · have := ha r'; rw [hr'] at this; cases this
        · exact hh r hr
      rw [if_neg hneg] at eq
      exact ⟨_, eq, rfl, rfl, rfl, rfl⟩

/-- C22: when the p-leader call returns, its coefficients and their `nj` are those of the `p_exp = inf` call on the same
signal, and its leaders have the `nj` of the uncorrected ones (the same as the `nj` of the wavelet leaders). -/
theorem C22_untouched {sig : Arr R} {e : Expo} {wt : Wavelet} {j1 : ℤ}
    {j2 : Option ℝ} {g nm : ℝ} {weighted : Bool} {w w2 : WT R}
    (h : waveletAnalysis sig .inf wt j1 j2 g nm weighted = .ok w)
    (h2 : waveletAnalysis sig (.num e) wt j1 j2 g nm weighted = .ok w2) :
    w2.wt_coefs = w.wt_coefs ∧ w2.j2_eff = w.j2_eff ∧
      ∃ l l2, w.wt_leaders = some l ∧ w2.wt_leaders = some l2 ∧ l2.nj = l.nj := by
  have he2 := (wa_num_inv h2).1
  obtain ⟨K, hl, eq⟩ := wa_num_eq (e := e) (by rw [he2]; norm_num) h
  rw [h2] at eq
  cases hh : estimateEtaP w.wt_coefs e j1 w.j2_eff weighted with
  | error x => rw [hh] at eq; cases eq
  | ok eta =>
    rw [hh] at eq
    simp only at eq
    split at eq
    · cases eq
    · cases eq
      refine ⟨rfl, rfl, _, _, hl, rfl, ?_⟩
      simp only [scalesUpTo]
      apply List.map_congr_left
      intro i _
      congr 1
      funext r
      rw [col_range, col_range, leadSeq_length, leadSeq_length]
      apply countNotNaN_range_congr
      intro k hk
      rw [ent_leadSeq_nan_iff _ _ _ _ (by omega) hk, ent_leadSeq_nan_iff _ _ _ _ (by omega) hk]

/-! ### A concrete case: the ramp -/

/-- An (unnormalised) Haar filter padded to length 4. -/
noncomputable def haar4 : Wavelet := { dec_lo := [0, 1, 1, 0], dec_hi := [0, -1, 1, 0] }

theorem haar4_valid : haar4.Valid := ⟨rfl, by simp [haar4]⟩

/-- The signal `0, 1, 2, ...`. -/
def ramp : Fin 1 → ℤ → ℝ := fun _ t => (t : ℝ)

theorem ramp_approx (j : ℕ) : ∃ c : ℝ, ∀ k : ℤ, idealApprox haar4.dec_lo (ramp 0) j k = c + 4 ^ j * (k : ℝ) := by
  induction j with
  | zero => exact ⟨0, fun k => by simp [idealApprox, ramp]⟩
  | succ j ih =>
    obtain ⟨c, hc⟩ := ih
    refine ⟨2 * c + 4 ^ j, fun k => ?_⟩
    rw [idealApprox]
    unfold downFilter
    simp only [hc]
    simp [haar4, Finset.sum_range_succ]
    ring

theorem ramp_detail (j : ℕ) (k : ℤ) : idealDetail haar4 (ramp 0) j k = 4 ^ (j - 1) := by
  obtain ⟨c, hc⟩ := ramp_approx (j - 1)
  unfold idealDetail downFilter
  simp only [hc]
  simp [haar4, Finset.sum_range_succ]
  ring

/-- The p-leader call returns on the ramp, with `eta_p = 4`, and the leader at `(1, 2)` is `sqrt 3`: the hypotheses of
C17, C21 (second case) and C22 are met. -/
theorem ramp_pleaders : ∃ w w2 : WT 1, waveletAnalysis (sampled 64 ramp) .inf haar4 1 none 0 2 false = .ok w ∧
    waveletAnalysis (sampled 64 ramp) (.num (.int 2)) haar4 1 none 0 2 false = .ok w2 ∧
    w2.eta_p = some (fun _ => Fl.fin 4) ∧ w.j2_eff = 3 ∧ ∃ l, w2.wt_leaders = some l ∧
      l.val? 1 2 0 = some (Fl.fin (Real.sqrt 3)) := by
  obtain ⟨w, hw⟩ := C05_total (sampled 64 ramp) .inf (Or.inr rfl) haar4 1 none 0 2 false
    (by norm_num) (by simp [sampled]) (by norm_num)
  obtain ⟨w0, hw0⟩ := C05_total (sampled 64 ramp) .none (Or.inl rfl) haar4 1 none 0 2 false
    (by norm_num) (by simp [sampled]) (by norm_num)
  have hlev : decompositionLevel 64 haar4 = .ok ((3 : ℕ) : ℤ) :=
    (C01_integer 64 3 haar4 (by norm_num)).mpr (by simp [haar4])
  have hs0 := C09_scales (by norm_num) haar4_valid hw0 (by norm_num) hlev
  simp [haar4] at hs0
  obtain ⟨l, hl, hlen, -, -⟩ := C09_leader_scales (by norm_num) haar4_valid (by simp [haar4]) hw hw0
  rw [hs0] at hlen
  obtain ⟨L, J, hL, hJL, hkc, hkl, -, -, hj2, -⟩ := C03_contiguous_scales hw
  have hJ : J = 3 := by
    have := congrArg List.length (hkl l hl)
    simp [Dict.keys, hlen] at this
    omega
  rw [sampled_length, hlev] at hL
  cases hL
  have hj : w.j2_eff = 3 := by rw [hj2 (by norm_num), hJ]; rfl
  have hkeys : w.wt_coefs.values.keys = (List.range 3).map (fun i : ℕ => (i : ℤ) + 1) := by
    rcases hkc with h | ⟨-, h⟩
    · rw [h, hJ]
    · rw [hJ] at h; simp at h
  obtain ⟨J', Jc, hJ', hj', hreg, -⟩ := C03_regular hw
  have hJc : Jc = 3 := by
    have := hreg.length
    have e := congrArg List.length hkeys
    simp [Dict.keys] at e
    omega
  subst hJc
  obtain ⟨Kc, hval⟩ := coef_val haar4_valid hw
  have hmono : Monofractal w.wt_coefs (fun _ => 1 / 4) (fun _ => 2) := by
    intro q hq r
    obtain ⟨hcnt, h3⟩ := C04_three_values hw w.wt_coefs (Or.inl rfl) q hq
    refine ⟨?_, ?_⟩
    · by_contra hall
      push Not at hall
      have : (col q.2 r).countP (fun x => !x.isNaN) = 0 := by
        rw [List.countP_eq_zero]; intro x hx; simp [hall x hx]
      have := h3 r; omega
    · intro x hx
      have hget := hreg.getValue hq
      unfold getKey at hget
      obtain ⟨k, hk, e⟩ := List.getElem_of_mem hx
      have hq1 := hreg.key_range hq
      obtain ⟨s, hs⟩ : ∃ s : ℕ, q.1 = (s : ℤ) := ⟨q.1.toNat, by omega⟩
      have hv : w.wt_coefs.val? s k r = some x := by
        unfold MRQ.val?
        rw [← hs]
        split at hget
        · rename_i v hv
          cases hget
          rw [hv]
          have hk' : k < q.2.length := by simpa [col] using hk
          simp only [Option.bind_some]
          rw [List.getElem?_eq_getElem hk']
          simp only [Option.map_some]
          rw [← e]; simp [col]
        · cases hget
      rw [hval] at hv
      split at hv
      · rename_i hh
        rw [Option.some.injEq] at hv
        split at hv
        · left; exact hv.symm
        · right
          refine ⟨_, hv.symm, ?_⟩
          have hr0 : r = 0 := Subsingleton.elim _ _
          rw [hr0, ramp_detail, hs]
          have h2 : ((s : ℤ) : ℝ) * 2 = ((2 * s : ℕ) : ℝ) := by push_cast; ring
          rw [h2, Real.rpow_natCast, pow_mul]
          norm_num
          rw [show s = (s - 1) + 1 by omega, pow_succ]; simp; ring
      · cases hv
  have hrow : ∀ q ∈ w.wt_coefs.values, q.2 ≠ [] := by
    intro q hq h0
    obtain ⟨x, hx, -⟩ := (hmono q hq 0).1
    rw [h0] at hx; cases hx
  obtain ⟨S, -, -, -, hS, -, -, -, hz, -⟩ := C35_monofractal (j1 := 1) (j2 := 3) hreg hrow le_rfl (by norm_num) (by norm_num) false false [2]
    (by simp) 1 (fun _ => 1 / 4) (fun _ => 2) (fun _ => by norm_num) hmono
  rw [← hj] at hS
  obtain ⟨-, h21⟩ := C21_eta_p (e := .int 2) (by simp [Expo.val]) hw
  obtain ⟨z, hz1, -, hret⟩ := h21 S hS
  rw [hz] at hz1
  simp only [List.map_cons, List.map_nil, List.cons.injEq, and_true] at hz1
  subst hz1
  obtain ⟨w2, hw2, he2, hc2, -⟩ := hret (Or.inr (fun r => by simp [Fl.le]))
  obtain ⟨l2, eta, hl2, heta, h17⟩ := C17_pleaders hw2
  rw [he2] at heta
  refine ⟨w, w2, hw, hw2, by rw [he2]; norm_num, hj, l2, hl2, ?_⟩
  cases heta
  have hk2 : ∃ v, l2.val? 1 2 0 = some v := by
    have hkl2 : (1 : ℤ) ∈ l2.values.keys := by
      obtain ⟨-, -, la, lb, ha, hb, hab⟩ := C22_untouched hw hw2
      rw [hl2] at hb; cases hb
      rw [hl] at ha; cases ha
      obtain ⟨lc, etac, hlc, -, hnj, -⟩ := C04_pleaders hw2
      rw [hl2] at hlc; cases hlc
      rw [← hnj, hab]
      have : l.nj.keys = l.values.keys := by
        obtain ⟨Ja, Jb, -, -, -, hrl⟩ := C03_regular hw
        have := hrl l hl rfl
        show List.map Prod.fst _ = List.map Prod.fst _
        rw [this.2, List.map_map]; rfl
      rw [this, hkl l hl, hJ]
      simp
    have hsh := (C05_shapes hw2).2 l2 hl2
    have : ∃ a, l2.values.get? 1 = some a ∧ ((1 : ℤ), a) ∈ l2.values := by
      clear hsh
      generalize l2.values = d at hkl2
      induction d with
      | nil => simp [Dict.keys] at hkl2
      | cons p d ih =>
        obtain ⟨k, a⟩ := p
        by_cases hka : k = 1
        · subst hka; exact ⟨a, by simp [Dict.get?], by simp⟩
        · have : (1 : ℤ) ∈ Dict.keys d := by
            simp only [Dict.keys, List.map_cons, List.mem_cons] at hkl2
            rcases hkl2 with h | h
            · exact absurd h.symm hka
            · exact h
          obtain ⟨a', h1, h2⟩ := ih this
          exact ⟨a', by simp only [Dict.get?]; rw [if_neg hka, h1], by simp [h2]⟩
    obtain ⟨a, ha, hmem⟩ := this
    have hla := hsh _ hmem
    simp [sampled_length] at hla
    refine ⟨(a[2]'(by omega)) 0, ?_⟩
    unfold MRQ.val?
    rw [show ((1 : ℕ) : ℤ) = 1 from rfl, ha]
    simp only [Option.bind_some]
    rw [List.getElem?_eq_getElem (by omega)]; rfl
  obtain ⟨v, hv⟩ := hk2
  rw [hv]
  congr 1
  have hKc : 1 ≤ Kc := by
    by_contra hlt
    have h0 := hval 1 2 0
    rw [if_neg (by omega)] at h0
    obtain ⟨d, hd⟩ := (by
      obtain ⟨l', hl', h16⟩ := C16_leaders hw
      rw [hl] at hl'; cases hl'
      have hv1 : ∃ v, l.val? 1 2 0 = some v := by
        obtain ⟨ml, K, Kc', h1, hK, hKc, hle, hc, -, -, h8⟩ := wa_finite haar4_valid (by norm_num) hw
        simp only at h8
        rw [hl] at h8; cases h8
        simp [scalesUpTo] at hlen
        rw [scalesUpTo_val, leadSeq_length, sampled_length, if_pos ⟨le_rfl, by omega, by norm_num⟩]
        exact ⟨_, rfl⟩
      obtain ⟨v1, hv1⟩ := hv1
      exact (h16 1 2 0 v1 hv1).1 1 2 ⟨le_rfl, le_rfl, by simp, by simp⟩ : ∃ d, w.wt_coefs.val? 1 2 0 = some d)
    rw [h0] at hd; cases hd
  have hcoef : ∀ k', 2 ≤ k' → k' ≤ 4 → w2.wt_coefs.val? 1 k' 0 = some (Fl.fin 1) := by
    intro k' ha hb
    rw [hc2, hval, if_pos ⟨le_rfl, hKc, by norm_num; omega⟩, if_neg (by unfold Bord; simp [haar4]; omega), ramp_detail]
    simp
  obtain ⟨-, hA⟩ := h17 1 2 0 v _ hv rfl (by norm_num)
  have hnb : ∀ j' k', InNbhd 1 2 j' k' → j' = 1 ∧ 2 ≤ k' ∧ k' ≤ 4 := by
    rintro j' k' ⟨a, b, c, d⟩
    obtain rfl : j' = 1 := by omega
    simp at c d
    exact ⟨rfl, c, d⟩
  rw [hA (fun _ _ => 1) (fun j' k' hn => by
      obtain ⟨rfl, a, b⟩ := hnb _ _ hn
      exact Or.inl (hcoef k' a b)) ⟨1, 2, ⟨le_rfl, le_rfl, by simp, by simp⟩, by rw [hcoef 2 le_rfl (by norm_num)]; simp⟩]
  congr 1
  rw [C22_one (by norm_num), mul_one]
  congr 1
  have : (2:ℝ) ^ (-((1:ℕ):ℝ)) = 1 / 2 := by rw [Nat.cast_one, Real.rpow_neg (by norm_num), Real.rpow_one]; norm_num
  rw [this]
  simp [nbhdEnergy, Finset.sum_const]
  norm_num

end MFA
