import Verif.Lemmas.WaveletTop
import Verif.Lemmas.Master

/-! Properties C01 - C05 and C20: levels, scales and shapes of the output of `wavelet_analysis`. -/

namespace MFA

open Classical

variable {R : ℕ}

/-! ### C01 -/

theorem maxLevel_iff {N F : ℕ} (hN : N ≠ 0) (J : ℤ) :
    maxLevel N F = .ok J ↔
      (2:ℝ) ^ J * ((F : ℝ) + 1) ≤ (N : ℝ) ∧ (N : ℝ) < (2:ℝ) ^ (J + 1) * ((F : ℝ) + 1) := by
  have hF : (0:ℝ) < (F : ℝ) + 1 := by positivity
  have hNp : (0:ℝ) < (N : ℝ) := by exact_mod_cast Nat.pos_of_ne_zero hN
  have hx : (0:ℝ) < (N : ℝ) / ((F : ℝ) + 1) := by positivity
  have hmin : min ⌊Real.logb 2 (N : ℝ)⌋ ⌊Real.logb 2 ((N : ℝ) / ((F : ℝ) + 1))⌋
      = ⌊Real.logb 2 ((N : ℝ) / ((F : ℝ) + 1))⌋ := by
    apply min_eq_right
    apply Int.floor_le_floor
    apply Real.logb_le_logb_of_le (by norm_num) hx
    apply div_le_self hNp.le
    have : (0:ℝ) ≤ F := Nat.cast_nonneg F
    linarith
  have key : ∀ J : ℤ, ⌊Real.logb 2 ((N : ℝ) / ((F : ℝ) + 1))⌋ = J ↔
      (2:ℝ) ^ J * ((F : ℝ) + 1) ≤ (N : ℝ) ∧ (N : ℝ) < (2:ℝ) ^ (J + 1) * ((F : ℝ) + 1) := by
    intro J
    rw [Int.floor_eq_iff, Real.le_logb_iff_rpow_le (by norm_num) hx]
    have h2 : ((J : ℝ) + 1) = ((J + 1 : ℤ) : ℝ) := by push_cast; ring
    rw [h2, Real.logb_lt_iff_lt_rpow (by norm_num) hx, Real.rpow_intCast, Real.rpow_intCast, le_div_iff₀ hF,
      div_lt_iff₀ hF]
  rw [maxLevel, if_neg hN, hmin, ← key]
  constructor
  · intro h; exact Except.ok.inj h
  · intro h; rw [h]

/-- C01: for a non-empty signal, `decomposition_level` returns the integer `J` with
`2^J (F+1) ≤ length < 2^(J+1) (F+1)`, `F` being the filter length. -/
theorem C01_decomposition_level (length : ℕ) (h : length ≠ 0) (wt : Wavelet) :
    ∃ J : ℤ, decompositionLevel length wt = .ok J ∧
      (2:ℝ) ^ J * ((wt.dec_hi.length : ℝ) + 1) ≤ (length : ℝ) ∧
      (length : ℝ) < (2:ℝ) ^ (J + 1) * ((wt.dec_hi.length : ℝ) + 1) ∧
      ∀ J' : ℤ, (2:ℝ) ^ J' * ((wt.dec_hi.length : ℝ) + 1) ≤ (length : ℝ) →
        (length : ℝ) < (2:ℝ) ^ (J' + 1) * ((wt.dec_hi.length : ℝ) + 1) → J' = J := by
  obtain ⟨J, hJ⟩ : ∃ J, maxLevel length wt.dec_hi.length = .ok J := by
    rw [maxLevel, if_neg h]; exact ⟨_, rfl⟩
  have := (maxLevel_iff h J).mp hJ
  refine ⟨J, hJ, this.1, this.2, fun J' h1 h2 => ?_⟩
  have h' := (maxLevel_iff h J').mpr ⟨h1, h2⟩
  rw [hJ] at h'
  exact (Except.ok.inj h').symm

/-- C01: the empty signal raises OverflowError. -/
theorem C01_empty (wt : Wavelet) : decompositionLevel 0 wt = .error .overflowError := by
  rw [decompositionLevel, maxLevel, if_pos rfl]

/-- C01: when the level is non-negative it is given by integer arithmetic: `2^J (F+1) ≤ length < 2^(J+1) (F+1)`. -/
theorem C01_integer (length J : ℕ) (wt : Wavelet) (h : length ≠ 0) :
    decompositionLevel length wt = .ok (J : ℤ) ↔
      2 ^ J * (wt.dec_hi.length + 1) ≤ length ∧ length < 2 ^ (J + 1) * (wt.dec_hi.length + 1) := by
  rw [decompositionLevel, maxLevel_iff h]
  constructor
  · rintro ⟨h1, h2⟩
    rw [zpow_natCast] at h1
    rw [show ((J : ℤ) + 1) = ((J + 1 : ℕ) : ℤ) by push_cast; ring, zpow_natCast] at h2
    exact ⟨by exact_mod_cast h1, by exact_mod_cast h2⟩
  · rintro ⟨h1, h2⟩
    rw [zpow_natCast, show ((J : ℤ) + 1) = ((J + 1 : ℕ) : ℤ) by push_cast; ring, zpow_natCast]
    exact ⟨by exact_mod_cast h1, by exact_mod_cast h2⟩

/-- A signal of length 100 with a filter of length 6 (db3) has level 3. -/
example (wt : Wavelet) (h : wt.dec_hi.length = 6) : decompositionLevel 100 wt = .ok 3 := by
  have := (C01_integer 100 3 wt (by norm_num)).mpr (by rw [h]; norm_num)
  exact_mod_cast this

/-! ### A common description of all successful calls -/

theorem scalesUpTo_regular (fm : Formalism) (g : ℝ) (f : ℕ → Arr R) (K : ℕ) : Regular (scalesUpTo fm g f K) K := by
  constructor
  · simp only [scalesUpTo, List.map_map]
    apply List.map_congr_left; intro i _; simp
  · simp only [scalesUpTo, List.map_map]; rfl

theorem scalesUpTo_mem {fm : Formalism} {g : ℝ} {f : ℕ → Arr R} {K : ℕ} {p : ℤ × Arr R}
    (h : p ∈ (scalesUpTo fm g f K).values) : ∃ s, 1 ≤ s ∧ s ≤ K ∧ p = ((s : ℤ), f s) := by
  simp only [scalesUpTo, List.mem_map, List.mem_range] at h
  obtain ⟨i, hi, rfl⟩ := h
  exact ⟨i + 1, by omega, by omega, rfl⟩

theorem coefScales_cases (P : LoopParams) (sig : Arr R) (n K : ℕ) :
    coefScales P sig n K = K ∨ coefScales P sig n K = K + 1 := by
  unfold coefScales; split <;> simp

theorem FirstBad.coefScales_good {P : LoopParams} {p : PExp} {sig : Arr R} {n K : ℕ}
    (h : FirstBad n (fun j => ¬ tooFew (coefSeq P sig j) ∧ ¬ tooFew (leadSeq P p sig j)) 1 K) :
    ∀ s, 1 ≤ s → s ≤ coefScales P sig n K → ¬ tooFew (coefSeq P sig s) := by
  intro s hs hsK
  have hsmall : s ≤ K → ¬ tooFew (coefSeq P sig s) := fun h' => by
    have := (h.2.1 (s - 1) (by omega)).1
    rwa [show 1 + (s - 1) = s by omega] at this
  by_cases hc : K = n ∨ tooFew (coefSeq P sig (K + 1))
  · rw [coefScales, if_pos hc] at hsK; exact hsmall hsK
  · rw [coefScales, if_neg hc] at hsK
    rcases Nat.lt_or_ge s (K + 1) with hlt | hge
    · exact hsmall (by omega)
    · obtain rfl : s = K + 1 := by omega
      exact fun h' => hc (Or.inr h')

theorem tooFew_iff (a : Arr R) : tooFew a ↔ ∃ r, countNotNaN (col a r) < 3 := by
  unfold tooFew
  simp only [countNotNaN_map Fl.isNaN_abs]

/-- The loop parameters, the initial level, the number of leader (or coefficient) scales and of coefficient scales of
a successful call. -/
theorem wa_inv {sig : Arr R} {p : PExp} {wt : Wavelet} {j1 : ℤ} {j2 : Option ℝ} {g nm : ℝ} {weighted : Bool} {w : WT R}
    (h : waveletAnalysis sig p wt j1 j2 g nm weighted = .ok w) :
    ∃ ml K Kc, maxLevel sig.length wt.dec_hi.length = .ok ml ∧ K ≤ ml.toNat ∧ (Kc = K ∨ Kc = K + 1) ∧
      Kc ≤ ml.toNat ∧
      (w.warned = true ↔ ∃ j, j2 = some j ∧ (ml : ℝ) < j) ∧
      w.wt_coefs = scalesUpTo .coef g (coefSeq (wparams wt g nm) sig) Kc ∧
      (∀ s, 1 ≤ s → s ≤ Kc → ¬ tooFew (coefSeq (wparams wt g nm) sig s)) ∧
      w.j2_eff = j2Eff (finalLevel ml K) j2 ∧
      (match p with
       | .none => w.wt_leaders = none ∧ Kc = K
       | .inf => w.wt_leaders = some (scalesUpTo .leader g (leadSeq (wparams wt g nm) .inf sig) K) ∧
           ∀ s, 1 ≤ s → s ≤ K → ¬ tooFew (leadSeq (wparams wt g nm) .inf sig s)
       | .num e => (∃ eta, w.eta_p = some eta ∧ w.wt_leaders = some
              { scalesUpTo .pleader g (leadSeq (wparams wt g nm) (.num e) sig) K with
                values := (scalesUpTo .pleader g
                  (corrSeq eta e.val (leadSeq (wparams wt g nm) (.num e) sig)) K).values }) ∧
           ∀ s, 1 ≤ s → s ≤ K → ¬ tooFew (leadSeq (wparams wt g nm) (.num e) sig s)) := by
  have kc : ∀ {p : PExp} {n K : ℕ}, FirstBad n (fun j => ¬ tooFew (coefSeq (wparams wt g nm) sig j) ∧
        ¬ tooFew (leadSeq (wparams wt g nm) p sig j)) 1 K → coefScales (wparams wt g nm) sig n K ≤ n := by
    intro p n K hK
    have := hK.1
    unfold coefScales; split
    · exact this
    · rename_i hne; rw [not_or] at hne; have := hne.1; omega
  cases p with
  | none =>
    obtain ⟨ml, K, h1, h2, h3, h4⟩ := wa_none_inv h
    refine ⟨ml, K, K, h1, h2.1, Or.inl rfl, h2.1, h3, by rw [h4], fun s hs hsK => ?_, by rw [h4], by rw [h4], rfl⟩
    have := h2.2.1 (s - 1) (by omega)
    rwa [show 1 + (s - 1) = s by omega] at this
  | inf =>
    obtain ⟨ml, K, h1, h2, h3, h4⟩ := wa_inf_inv h
    refine ⟨ml, K, _, h1, h2.1, coefScales_cases _ _ _ _, kc h2, h3, by rw [h4], h2.coefScales_good, by rw [h4],
      by rw [h4], fun s hs hsK => ?_⟩
    have := (h2.2.1 (s - 1) (by omega)).2
    rwa [show 1 + (s - 1) = s by omega] at this
  | num e =>
    obtain ⟨-, ml, K, eta, h1, h2, h3, h4, h5, h6⟩ := wa_num_inv h
    refine ⟨ml, K, _, h1, h2.1, coefScales_cases _ _ _ _, kc h2, h3, by rw [h6], h2.coefScales_good, by rw [h6],
      ⟨eta, by rw [h6], by rw [h6]⟩, fun s hs hsK => ?_⟩
    have := (h2.2.1 (s - 1) (by omega)).2
    rwa [show 1 + (s - 1) = s by omega] at this

/-! ### C02 -/

theorem j2Eff_le {ml : ℤ} {K : ℕ} (hK : K ≤ ml.toNat) (j2 : Option ℝ) : j2Eff (finalLevel ml K) j2 ≤ (K : ℤ) := by
  have hf : finalLevel ml K ≤ (K : ℤ) := by
    unfold finalLevel; split
    · omega
    · exact le_rfl
  cases j2 with
  | none => exact hf
  | some j =>
    unfold j2Eff pyInt
    simp only
    split
    · rw [← Int.lt_add_one_iff, Int.floor_lt]
      refine lt_of_le_of_lt (min_le_left _ _) ?_
      push_cast
      have : ((finalLevel ml K : ℤ) : ℝ) ≤ (K : ℝ) := by exact_mod_cast hf
      linarith
    · rw [Int.ceil_le]
      refine (min_le_left _ _).trans ?_
      exact_mod_cast hf

/-- C02: the warning is emitted iff `j2` is given and exceeds the decomposition level of the signal. -/
theorem C02_warning_iff {sig : Arr R} {p : PExp} {wt : Wavelet} {j1 : ℤ} {j2 : Option ℝ} {g nm : ℝ} {weighted : Bool}
    {w : WT R} (h : waveletAnalysis sig p wt j1 j2 g nm weighted = .ok w) :
    ∃ J, decompositionLevel sig.length wt = .ok J ∧ (w.warned = true ↔ ∃ j, j2 = some j ∧ (J : ℝ) < j) := by
  obtain ⟨ml, K, Kc, h1, -, -, -, h3, -⟩ := wa_inv h
  exact ⟨ml, h1, h3⟩

/-- C02: `j2_eff` never exceeds a non-negative `j2`, nor the number of scales of the coefficients and of the leaders. -/
theorem C02_j2_eff_le {sig : Arr R} {p : PExp} {wt : Wavelet} {j1 : ℤ} {j2 : Option ℝ} {g nm : ℝ} {weighted : Bool}
    {w : WT R} (h : waveletAnalysis sig p wt j1 j2 g nm weighted = .ok w) :
    (∀ j : ℝ, j2 = some j → 0 ≤ j → (w.j2_eff : ℝ) ≤ j) ∧
    w.j2_eff ≤ (w.wt_coefs.values.length : ℤ) ∧ ∀ l, w.wt_leaders = some l → w.j2_eff ≤ (l.values.length : ℤ) := by
  obtain ⟨ml, K, Kc, h1, hK, hKc, -, h3, hc, -, hj, hl⟩ := wa_inv h
  refine ⟨?_, ?_, ?_⟩
  · rintro j rfl hj0
    rw [hj]
    unfold j2Eff pyInt
    simp only
    split
    · exact (Int.floor_le _).trans (min_le_right _ _)
    · rename_i hneg
      have : (⌈min ((finalLevel ml K : ℤ) : ℝ) j⌉ : ℤ) ≤ 0 := by
        rw [Int.ceil_le]; push_cast; push Not at hneg; exact hneg.le
      have : ((⌈min ((finalLevel ml K : ℤ) : ℝ) j⌉ : ℤ) : ℝ) ≤ 0 := by exact_mod_cast this
      linarith
  · rw [hj, hc]
    refine (j2Eff_le hK j2).trans ?_
    simp only [scalesUpTo, List.length_map, List.length_range]
    rcases hKc with h | h <;> omega
  · intro l hle
    have : l.values.length = K := by
      cases p with
      | none => simp only at hl; rw [hl.1] at hle; cases hle
      | inf => simp only at hl; rw [hl.1] at hle; cases hle; simp [scalesUpTo]
      | num e =>
        simp only at hl
        obtain ⟨⟨eta, -, h'⟩, -⟩ := hl
        rw [h'] at hle; cases hle; simp [scalesUpTo]
    rw [this, hj]
    exact j2Eff_le hK j2

/-- C02: the hypothesis `0 ≤ j2` is needed: `int` truncates towards zero, so a negative fractional `j2` is rounded up. -/
example : j2Eff 3 (some (-3/2)) = -1 := by
  unfold j2Eff pyInt
  simp only
  rw [show min (((3:ℤ) : ℝ)) (-3/2 : ℝ) = -3/2 by norm_num]
  rw [if_neg (by norm_num)]
  rw [Int.ceil_eq_iff]; norm_num

/-! ### C03 -/

/-- C03: the scales of the coefficients are `1..J` or `1..J+1` and those of the leaders `1..J`, where `J` is the number
of scales (at most the decomposition level); without leaders the coefficients have exactly `J` scales; `j2_eff` is
`int(min(J, j2))` (or `J`) as soon as the decomposition level is non-negative, and negative otherwise for `j2 = None`. -/
theorem C03_contiguous_scales {sig : Arr R} {p : PExp} {wt : Wavelet} {j1 : ℤ} {j2 : Option ℝ} {g nm : ℝ}
    {weighted : Bool} {w : WT R} (h : waveletAnalysis sig p wt j1 j2 g nm weighted = .ok w) :
    ∃ (L : ℤ) (J : ℕ), decompositionLevel sig.length wt = .ok L ∧ J ≤ L.toNat ∧
      (w.wt_coefs.values.keys = (List.range J).map (fun i : ℕ => (i : ℤ) + 1) ∨
       w.wt_coefs.values.keys = (List.range (J + 1)).map (fun i : ℕ => (i : ℤ) + 1) ∧ J < L.toNat) ∧
      (∀ l, w.wt_leaders = some l → l.values.keys = (List.range J).map (fun i : ℕ => (i : ℤ) + 1)) ∧
      (w.wt_leaders = none → w.wt_coefs.values.keys = (List.range J).map (fun i : ℕ => (i : ℤ) + 1)) ∧
      (w.wt_leaders = none ↔ p = .none) ∧
      (0 ≤ L → w.j2_eff = match j2 with | none => (J : ℤ) | some j => pyInt (min (J : ℝ) j)) ∧
      (∀ j : ℤ, 1 ≤ j → j ≤ w.j2_eff → j ∈ w.wt_coefs.values.keys ∧ ∀ l, w.wt_leaders = some l → j ∈ l.values.keys) := by
  obtain ⟨ml, K, Kc, h1, hK, hKc, hKc', h3, hc, -, hj, hl⟩ := wa_inv h
  have keys : ∀ (fm : Formalism) (f : ℕ → Arr R) (n : ℕ),
      (scalesUpTo fm g f n).values.keys = (List.range n).map (fun i : ℕ => (i : ℤ) + 1) := fun fm f n =>
    (scalesUpTo_regular fm g f n).1
  have hlk : ∀ l, w.wt_leaders = some l → l.values.keys = (List.range K).map (fun i : ℕ => (i : ℤ) + 1) := by
    intro l hle
    cases p with
    | none => simp only at hl; rw [hl.1] at hle; cases hle
    | inf => simp only at hl; rw [hl.1] at hle; cases hle; exact keys _ _ _
    | num e =>
      simp only at hl
      obtain ⟨⟨eta, -, h'⟩, -⟩ := hl
      rw [h'] at hle; cases hle; exact keys .pleader _ K
  have hnone : w.wt_leaders = none ↔ p = .none := by
    cases p with
    | none => simp only at hl; simp [hl.1]
    | inf => simp only at hl; simp [hl.1]
    | num e =>
      simp only at hl
      obtain ⟨⟨eta, -, h'⟩, -⟩ := hl
      simp [h']
  have memk : ∀ (n : ℕ) (j : ℤ), 1 ≤ j → j ≤ n → j ∈ (List.range n).map (fun i : ℕ => (i : ℤ) + 1) := by
    intro n j a b
    rw [List.mem_map]
    exact ⟨(j - 1).toNat, by rw [List.mem_range]; omega, by omega⟩
  refine ⟨ml, K, h1, hK, ?_, hlk, ?_, hnone, ?_, ?_⟩
  · rw [hc, keys]
    rcases hKc with rfl | rfl
    · exact Or.inl rfl
    · exact Or.inr ⟨rfl, by omega⟩
  · intro hn
    rw [hnone] at hn
    subst hn
    simp only at hl
    rw [hc, keys, hl.2]
  · intro hL
    rw [hj]
    have : finalLevel ml K = (K : ℤ) := by
      unfold finalLevel; split
      · omega
      · rfl
    rw [this]
    cases j2 with
    | none => rfl
    | some j => unfold j2Eff; norm_num
  · intro j a b
    have hle : j ≤ (K : ℤ) := b.trans (by rw [hj]; exact j2Eff_le hK j2)
    refine ⟨?_, fun l hle' => ?_⟩
    · rw [hc, keys]; apply memk _ _ a; rcases hKc with rfl | rfl <;> omega
    · rw [hlk l hle']; exact memk _ _ a hle

/-- C03, short signals: if the maximum level is negative then no scale is stored and `j2_eff` is `int(min(L, j2))`, which is negative. -/
theorem C03_short {sig : Arr R} {p : PExp} {wt : Wavelet} {j1 : ℤ} {j2 : Option ℝ} {g nm : ℝ}
    {weighted : Bool} {w : WT R} (h : waveletAnalysis sig p wt j1 j2 g nm weighted = .ok w) {L : ℤ} (hL : decompositionLevel sig.length wt = .ok L)
    (hneg : L < 0) : w.wt_coefs.values = [] ∧ (∀ l, w.wt_leaders = some l → l.values = []) ∧
      w.j2_eff = (match j2 with | none => L | some j => pyInt (min (L : ℝ) j)) ∧ w.j2_eff < 0 := by
  obtain ⟨ml, K, Kc, h1, hK, hKc, hKc', h3, hc, -, hj, hl⟩ := wa_inv h
  have h1' : decompositionLevel sig.length wt = .ok ml := h1
  have hml : ml = L := by rw [h1'] at hL; exact Except.ok.inj hL
  subst hml
  obtain ⟨L', J, hL', hJ, hk, hlk, -⟩ := C03_contiguous_scales h
  rw [h1'] at hL'
  have := Except.ok.inj hL'
  subst this
  have hJ0 : J = 0 := by omega
  subst hJ0
  have emp : ∀ d : Dict (Arr R), d.keys = (List.range 0).map (fun i : ℕ => (i : ℤ) + 1) → d = [] := by
    intro d hd
    have := congrArg List.length hd
    simp only [Dict.keys, List.length_map, List.length_range] at this
    exact List.eq_nil_of_length_eq_zero this
  have hf : finalLevel ml K = ml := by
    unfold finalLevel; split
    · rfl
    · omega
  rw [hf] at hj
  refine ⟨emp _ (hk.resolve_right (by omega)), fun l h' => emp _ (hlk l h'), by rw [hj]; cases j2 <;> rfl, ?_⟩
  rw [hj]
  cases j2 with
  | none => exact hneg
  | some j =>
    simp only [j2Eff]
    have : min (ml : ℝ) j ≤ -1 := (min_le_left _ _).trans (by exact_mod_cast (by omega : ml ≤ -1))
    unfold pyInt
    rw [if_neg (by linarith)]
    have : ⌈min (ml : ℝ) j⌉ ≤ -1 := Int.ceil_le.2 (by push_cast; exact this)
    omega

/-- C03, in the vocabulary used by the estimator theorems: the coefficients of a successful call form a regular
quantity with at least `j2_eff` scales, and so do the leaders for `p_exp = inf`. -/
theorem C03_regular {sig : Arr R} {p : PExp} {wt : Wavelet} {j1 : ℤ} {j2 : Option ℝ} {g nm : ℝ}
    {weighted : Bool} {w : WT R} (h : waveletAnalysis sig p wt j1 j2 g nm weighted = .ok w) :
    ∃ J Jc : ℕ, (Jc = J ∨ Jc = J + 1) ∧ w.j2_eff ≤ J ∧ Regular w.wt_coefs Jc ∧
      (∀ l, w.wt_leaders = some l → p = .inf → Regular l J) := by
  obtain ⟨ml, K, Kc, h1, hK, hKc, hKc', h3, hc, -, hj, hl⟩ := wa_inv h
  refine ⟨K, Kc, hKc, by rw [hj]; exact j2Eff_le hK j2, by rw [hc]; exact scalesUpTo_regular _ _ _ _, ?_⟩
  rintro l hle rfl
  simp only at hl
  rw [hl.1] at hle; cases hle
  exact scalesUpTo_regular _ _ _ _

/-! ### C04 -/

/-- C04: at each scale of the coefficients, and of the wavelet leaders, `nj` holds the number of non-NaN values of each
realisation, and it is at least 3. -/
theorem C04_three_values {sig : Arr R} {p : PExp} {wt : Wavelet} {j1 : ℤ} {j2 : Option ℝ} {g nm : ℝ}
    {weighted : Bool} {w : WT R} (h : waveletAnalysis sig p wt j1 j2 g nm weighted = .ok w) (m : MRQ R)
    (hm : m = w.wt_coefs ∨ w.wt_leaders = some m ∧ p = .inf) :
    ∀ q ∈ m.values, m.nj.get? q.1 = some (fun r => (col q.2 r).countP (fun x => !x.isNaN)) ∧
      ∀ r, 3 ≤ (col q.2 r).countP (fun x => !x.isNaN) := by
  obtain ⟨ml, K, Kc, h1, hK, hKc, hKc', h3, hc, hgood, hj, hl⟩ := wa_inv h
  have gen : ∀ (fm : Formalism) (f : ℕ → Arr R) (n : ℕ), (∀ s, 1 ≤ s → s ≤ n → ¬ tooFew (f s)) →
      ∀ q ∈ (scalesUpTo fm g f n).values,
        (scalesUpTo fm g f n).nj.get? q.1 = some (fun r => (col q.2 r).countP (fun x => !x.isNaN)) ∧
        ∀ r, 3 ≤ (col q.2 r).countP (fun x => !x.isNaN) := by
    intro fm f n hf q hq
    have hcnt : ∀ r, (col q.2 r).countP (fun x => !x.isNaN) = countNotNaN (col q.2 r) := by
      intro r; simp only [countNotNaN, dropNaN, List.countP_eq_length_filter]
    have hreg := scalesUpTo_regular fm g f n
    have := hreg.getNj hq
    simp only [hcnt]
    constructor
    · unfold getKey at this
      split at this
      · rename_i v hv; cases this; exact hv
      · cases this
    · intro r
      obtain ⟨s, hs1, hs2, rfl⟩ := scalesUpTo_mem hq
      have := hf s hs1 hs2
      rw [tooFew_iff] at this
      push Not at this
      exact this r
  rcases hm with rfl | ⟨hle, rfl⟩
  · rw [hc]; exact gen _ _ _ hgood
  · simp only at hl
    rw [hl.1] at hle; cases hle
    exact gen _ _ _ hl.2

theorem zpjCorr_pos {eta : Fl} (h : eta ≠ Fl.nan ∧ eta ≠ Fl.fin 0 ∧ eta ≠ Fl.ninf) (p : ℝ) {j : ℕ} (hj : 1 ≤ j) :
    ∃ c : ℝ, c ≠ 0 ∧ zpjCorr eta p j = Fl.fin c := by
  have hj' : (0:ℝ) < j := by exact_mod_cast hj
  cases eta with
  | nan => exact absurd rfl h.1
  | ninf => exact absurd rfl h.2.2
  | pinf =>
    refine ⟨1, one_ne_zero, ?_⟩
    have e1 : -(Fl.fin (j : ℝ) * Fl.pinf) = Fl.ninf := by
      show Fl.neg (Fl.sgnInf (j : ℝ)) = _
      rw [Fl.sgnInf_pos hj']; rfl
    have e2 : (Fl.fin 1 - (Fl.ninf).exp2) = Fl.fin 1 := by
      show Fl.fin 1 - Fl.fin 0 = _
      rw [Fl.fin_sub, sub_zero]
    have e3 : -Fl.pinf = Fl.ninf := rfl
    rw [zpjCorr, e1, e3, e2, Fl.fin_div one_ne_zero, div_one, Fl.log2_fin one_pos, Real.logb_one, Fl.fin_mul, mul_zero]
    show Fl.fin ((2:ℝ) ^ (0:ℝ)) = _
    rw [Real.rpow_zero]
  | fin t =>
    have ht : t ≠ 0 := fun e => h.2.1 (by rw [e])
    have hjt : (j : ℝ) * t ≠ 0 := mul_ne_zero hj'.ne' ht
    have hq : 0 < (1 - (2:ℝ) ^ (-((j : ℝ) * t))) / (1 - (2:ℝ) ^ (-t)) := by
      rcases lt_or_gt_of_ne ht with h0 | h0
      · have a : 1 < (2:ℝ) ^ (-t) := Real.one_lt_rpow (by norm_num) (by linarith)
        have b : 1 < (2:ℝ) ^ (-((j : ℝ) * t)) := Real.one_lt_rpow (by norm_num) (by nlinarith)
        exact div_pos_of_neg_of_neg (by linarith) (by linarith)
      · have a : (2:ℝ) ^ (-t) < 1 := Real.rpow_lt_one_of_one_lt_of_neg (by norm_num) (by linarith)
        have b : (2:ℝ) ^ (-((j : ℝ) * t)) < 1 := Real.rpow_lt_one_of_one_lt_of_neg (by norm_num) (by nlinarith)
        exact div_pos (by linarith) (by linarith)
    have hd : (1 - (2:ℝ) ^ (-t)) ≠ 0 := by
      intro e; rw [e, div_zero] at hq; exact lt_irrefl _ hq
    have e1 : (Fl.fin 1 - (-(Fl.fin (j : ℝ) * Fl.fin t)).exp2) = Fl.fin (1 - (2:ℝ) ^ (-((j : ℝ) * t))) := by
      rw [Fl.fin_mul]; rfl
    have e2 : (Fl.fin 1 - (-Fl.fin t).exp2) = Fl.fin (1 - (2:ℝ) ^ (-t)) := rfl
    refine ⟨_, ?_, by rw [zpjCorr, e1, e2, Fl.fin_div hd, Fl.log2_fin hq, Fl.fin_mul]; rfl⟩
    exact (Real.rpow_pos_of_pos (by norm_num) _).ne'

private theorem zpjCorr_nan {eta : Fl} (h : eta = Fl.nan ∨ eta = Fl.fin 0 ∨ eta = Fl.ninf) (p : ℝ) {j : ℕ} (hj : 1 ≤ j) :
    zpjCorr eta p j = Fl.nan := by
  have hj' : (0:ℝ) < j := by exact_mod_cast hj
  have hz : Fl.fin 0 / Fl.fin 0 = Fl.nan := by
    show Fl.fin 0 * Fl.inv (Fl.fin 0) = _
    rw [Fl.inv, if_pos rfl]
    show Fl.sgnInf 0 = _
    rw [Fl.sgnInf_zero]
  have hi : Fl.ninf / Fl.ninf = Fl.nan := by
    show Fl.sgnInf (-0) = _
    rw [neg_zero, Fl.sgnInf_zero]
  rcases h with rfl | rfl | rfl
  · simp [zpjCorr, Fl.exp2]
  · have e1 : (Fl.fin 1 - (-(Fl.fin (j : ℝ) * Fl.fin 0)).exp2) = Fl.fin 0 := by
      rw [Fl.fin_mul, mul_zero]
      show Fl.fin 1 - Fl.fin ((2:ℝ) ^ (-(0:ℝ))) = _
      rw [neg_zero, Real.rpow_zero, Fl.fin_sub, sub_self]
    have e2 : (Fl.fin 1 - (-Fl.fin 0).exp2) = Fl.fin 0 := by
      show Fl.fin 1 - Fl.fin ((2:ℝ) ^ (-(0:ℝ))) = _
      rw [neg_zero, Real.rpow_zero, Fl.fin_sub, sub_self]
    rw [zpjCorr, e1, e2, hz]
    simp [Fl.log2, Fl.logOf, Fl.exp2]
  · have e1 : -(Fl.fin (j : ℝ) * Fl.ninf) = Fl.pinf := by
      show Fl.neg (Fl.sgnInf (-(j : ℝ))) = _
      rw [Fl.sgnInf_neg (by linarith)]; rfl
    have e2 : (Fl.fin 1 - (Fl.pinf).exp2) = Fl.ninf := rfl
    have e3 : -Fl.ninf = Fl.pinf := rfl
    rw [zpjCorr, e1, e3, e2, hi]
    simp [Fl.log2, Fl.logOf, Fl.exp2]

/-- C04 for p-leaders: `nj` is at least 3 at each scale; it was counted before the correction, so `nj` is the number of values
in each realisation where the estimated eta is not NaN, 0 or -inf, and there is no value where it is (which is possible only
when some realisation has a NaN eta: otherwise the call raises, C21). -/
theorem C04_pleaders {sig : Arr R} {e : Expo} {wt : Wavelet} {j1 : ℤ} {j2 : Option ℝ} {g nm : ℝ}
    {weighted : Bool} {w : WT R} (h : waveletAnalysis sig (.num e) wt j1 j2 g nm weighted = .ok w) :
    ∃ (l : MRQ R) (eta : Row R), w.wt_leaders = some l ∧ w.eta_p = some eta ∧
    l.nj.keys = l.values.keys ∧
    ((∀ r, eta r ≠ Fl.nan) → ∀ r, eta r ≠ Fl.fin 0 ∧ eta r ≠ Fl.ninf) ∧
    ∀ q ∈ l.values, ∃ n, l.nj.get? q.1 = some n ∧ (∀ r, 3 ≤ n r) ∧
      ∀ r, (eta r ≠ Fl.nan ∧ eta r ≠ Fl.fin 0 ∧ eta r ≠ Fl.ninf → n r = countNotNaN (col q.2 r)) ∧
        (eta r = Fl.nan ∨ eta r = Fl.fin 0 ∨ eta r = Fl.ninf → ∀ x ∈ col q.2 r, x = Fl.nan) := by
  obtain ⟨ml, K, Kc, h1, hK, hKc, hKc', h3, hc, hgood, hj, hl⟩ := wa_inv h
  simp only at hl
  obtain ⟨⟨eta, he, hle⟩, hg⟩ := hl
  refine ⟨_, eta, hle, he, ?_, ?_, ?_⟩
  · have a := (scalesUpTo_regular .pleader g (corrSeq eta e.val (leadSeq (wparams wt g nm) (.num e) sig)) K).1
    have b := (scalesUpTo_regular .pleader g (leadSeq (wparams wt g nm) (.num e) sig) K)
    show List.map Prod.fst _ = List.map Prod.fst _
    rw [a, b.2, List.map_map, ← b.1]; rfl
  · intro hnan r
    obtain ⟨-, ml', K', eta', -, -, -, -, hguard, hw⟩ := wa_num_inv h
    rw [hw] at he
    simp only [Option.some.injEq] at he
    subst he
    refine ⟨fun h0 => hguard ⟨fun r' => (Fl.not_isNaN_iff _).mpr (hnan r'), r, ?_⟩,
      fun h0 => hguard ⟨fun r' => (Fl.not_isNaN_iff _).mpr (hnan r'), r, ?_⟩⟩
    · rw [h0]; simp [Fl.le]
    · rw [h0]; simp [Fl.le]
  · intro q hq
    obtain ⟨s, hs1, hs2, rfl⟩ := scalesUpTo_mem (fm := .pleader) (g := g) hq
    have hmem : ((s : ℤ), leadSeq (wparams wt g nm) (.num e) sig s) ∈
        (scalesUpTo .pleader g (leadSeq (wparams wt g nm) (.num e) sig) K).values := by
      simp only [scalesUpTo, List.mem_map, List.mem_range]
      exact ⟨s - 1, by omega, by rw [Nat.sub_add_cancel hs1]⟩
    have hn := (scalesUpTo_regular .pleader g (leadSeq (wparams wt g nm) (.num e) sig) K).getNj hmem
    have hcol : ∀ r, col (corrSeq eta e.val (leadSeq (wparams wt g nm) (.num e) sig) s) r
        = (col (leadSeq (wparams wt g nm) (.num e) sig s) r).map fun x => x * zpjCorr (eta r) e.val s := by
      intro r
      simp only [col, corrSeq, List.map_map]; rfl
    refine ⟨fun r => countNotNaN (col (leadSeq (wparams wt g nm) (.num e) sig s) r), ?_, ?_, fun r => ⟨fun hr => ?_, fun hr => ?_⟩⟩
    · unfold getKey at hn
      split at hn
      · rename_i v hv; cases hn; exact hv
      · cases hn
    · intro r
      have := hg s hs1 hs2
      rw [tooFew_iff] at this
      push Not at this
      exact this r
    · obtain ⟨c, hc0, hce⟩ := zpjCorr_pos hr e.val hs1
      show _ = countNotNaN (col (corrSeq eta e.val (leadSeq (wparams wt g nm) (.num e) sig) s) r)
      rw [hcol, hce, countNotNaN_map]
      intro x
      rw [mul_comm, Fl.fin_mul_isNaN hc0]
    · intro x hx
      change x ∈ col (corrSeq eta e.val (leadSeq (wparams wt g nm) (.num e) sig) s) r at hx
      rw [hcol, zpjCorr_nan hr e.val hs1] at hx
      obtain ⟨y, -, rfl⟩ := List.mem_map.mp hx
      simp

/-! ### C05 -/

/-- C05: at scale `j` the coefficients have `⌊N/2^j⌋` rows and the leaders or p-leaders `⌊N/2^j⌋ - 2`. -/
theorem C05_shapes {sig : Arr R} {p : PExp} {wt : Wavelet} {j1 : ℤ} {j2 : Option ℝ} {g nm : ℝ}
    {weighted : Bool} {w : WT R} (h : waveletAnalysis sig p wt j1 j2 g nm weighted = .ok w) :
    (∀ q ∈ w.wt_coefs.values, q.2.length = sig.length / 2 ^ q.1.toNat) ∧
    ∀ l, w.wt_leaders = some l → ∀ q ∈ l.values, q.2.length = sig.length / 2 ^ q.1.toNat - 2 := by
  obtain ⟨ml, K, Kc, h1, hK, hKc, hKc', h3, hc, hgood, hj, hl⟩ := wa_inv h
  constructor
  · intro q hq
    rw [hc] at hq
    obtain ⟨s, hs1, -, rfl⟩ := scalesUpTo_mem hq
    rw [coefSeq_length _ _ _ hs1]; simp
  · intro l hle q hq
    cases p with
    | none => simp only at hl; rw [hl.1] at hle; cases hle
    | inf =>
      simp only at hl; rw [hl.1] at hle; cases hle
      obtain ⟨s, hs1, -, rfl⟩ := scalesUpTo_mem hq
      simp [leadSeq]
    | num e =>
      simp only at hl
      obtain ⟨⟨eta, -, h'⟩, -⟩ := hl
      rw [h'] at hle; cases hle
      obtain ⟨s, hs1, -, rfl⟩ := scalesUpTo_mem (fm := .pleader) (g := g) hq
      simp [leadSeq, corrSeq]

/-- C05: without a finite `p_exp` the analysis never fails on a non-empty signal with at least one realisation and
`normalization ≠ 0`, whatever the sample values; in particular no stacking of arrays of different shapes occurs. -/
theorem C05_total (sig : Arr R) (p : PExp) (hp : p = .none ∨ p = .inf) (wt : Wavelet) (j1 : ℤ) (j2 : Option ℝ)
    (g nm : ℝ) (weighted : Bool) (hR : R ≠ 0) (hN : sig ≠ []) (hnm : nm ≠ 0) :
    ∃ w, waveletAnalysis sig p wt j1 j2 g nm weighted = .ok w := by
  have hlen : sig.length ≠ 0 := by simpa using hN
  obtain ⟨ml, hml⟩ : ∃ ml, maxLevel sig.length (wt.dec_hi.map (fun t => -1 * t)).length = .ok ml := by
    rw [maxLevel, if_neg hlen]; exact ⟨_, rfl⟩
  unfold waveletAnalysis
  simp only [decompositionLevelW, hml]
  rcases hp with rfl | rfl
  · obtain ⟨K, -, e⟩ := coefLoop_spec (wparams wt g nm) sig hR hnm ml.toNat 1 ml (MRQ.empty .coef g) le_rfl
    rw [show approxSeq (wparams wt g nm) sig (1 - 1) = sig from rfl, wparams] at e
    simp only [e]
    exact ⟨_, rfl⟩
  · obtain ⟨K, sv, -, e⟩ := leadLoop_spec (wparams wt g nm) .inf trivial sig hR hnm ml.toNat 1 ml
      { coefs := MRQ.empty .coef g, leaders := MRQ.empty (checkFormalism .inf) g, sans_voisin := [] } le_rfl
      (Or.inl rfl)
    rw [show approxSeq (wparams wt g nm) sig (1 - 1) = sig from rfl, wparams] at e
    simp only [e]
    exact ⟨_, rfl⟩

/-! ### C20 -/

/-- C20: with a finite `p_exp` different from 2, `wavelet_analysis` raises on every input. -/
theorem C20_only_p_two (sig : Arr R) (p : Expo) (hp : p.val ≠ 2) (wt : Wavelet) (j1 : ℤ) (j2 : Option ℝ)
    (g nm : ℝ) (weighted : Bool) : ∃ e, waveletAnalysis sig (.num p) wt j1 j2 g nm weighted = .error e := by
  cases h : waveletAnalysis sig (.num p) wt j1 j2 g nm weighted with
  | error e => exact ⟨e, rfl⟩
  | ok w => exact absurd (wa_num_inv h).1 hp

end MFA
