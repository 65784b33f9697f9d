import Verif.Lemmas.IdealBank
import Mathlib.Tactic.IntervalCases

/-! Properties C06 - C12, C14, C15: the wavelet coefficients against the ideal filter bank. -/

namespace MFA

open Classical Finset Polynomial

variable {R R' : ℕ}

/-- The coefficients of a finite signal, in terms of the ideal filter bank. -/
theorem coef_val {N : ℕ} {x : Fin R → ℤ → ℝ} {p : PExp} {wt : Wavelet} (hwt : wt.Valid) {j1 : ℤ} {j2 : Option ℝ}
    {g nm : ℝ} {weighted : Bool} {w : WT R} (h : waveletAnalysis (sampled N x) p wt j1 j2 g nm weighted = .ok w) :
    ∃ Kc, ∀ s k r, w.wt_coefs.val? s k r = if 1 ≤ s ∧ s ≤ Kc ∧ k < N / 2 ^ s then
      some (if Bord N wt.dec_hi.length s k then Fl.nan
        else Fl.fin ((2:ℝ) ^ ((s : ℝ) * (1 / 2 - 1 / nm + g)) * idealDetail wt (x r) s k)) else none := by
  obtain ⟨ml, K, Kc, h1, -, -, hKc', -, hc, -⟩ := wa_inv h
  rw [sampled_length] at h1
  refine ⟨Kc, fun s k r => ?_⟩
  rw [hc, scalesUpTo_val]
  by_cases hs : 1 ≤ s ∧ s ≤ Kc
  · rw [coefSeq_length _ _ _ hs.1, sampled_length]
    by_cases hk : k < N / 2 ^ s
    · rw [if_pos ⟨hs.1, hs.2, hk⟩, if_pos ⟨hs.1, hs.2, hk⟩,
        coef_ent wt hwt g nm x r hs.1 (fun i hi => by have := level_room h1 (i := i) (by omega); omega) hk,
        scaleFactor_eq]
      congr 1
      by_cases hb : Bord N wt.dec_hi.length s k
      · rw [if_pos hb]; exact if_pos hb
      · rw [if_neg hb]; exact if_neg hb
    · rw [if_neg (fun hh => hk hh.2.2), if_neg (fun hh => hk hh.2.2)]
  · rw [if_neg (fun hh => hs ⟨hh.1, hh.2.1⟩), if_neg (fun hh => hs ⟨hh.1, hh.2.1⟩)]

/-! ### C06 -/

/-- C06: for a signal without NaN or infinities, the coefficient `(j, k)` is NaN iff `2k+1 < F-1` or
`2k+1 > ⌊N/2^(j-1)⌋ - F`. -/
theorem C06_nan_pattern {N : ℕ} {x : Fin R → ℤ → ℝ} {p : PExp} {wt : Wavelet} (hwt : wt.Valid) {j1 : ℤ} {j2 : Option ℝ}
    {g nm : ℝ} {weighted : Bool} {w : WT R} (h : waveletAnalysis (sampled N x) p wt j1 j2 g nm weighted = .ok w)
    {j k : ℕ} {r : Fin R} {v : Fl} (hv : w.wt_coefs.val? j k r = some v) :
    v = Fl.nan ↔ (2 * k + 1 : ℤ) < (wt.dec_hi.length : ℤ) - 1 ∨
      (2 * k + 1 : ℤ) > ((N / 2 ^ (j - 1) : ℕ) : ℤ) - wt.dec_hi.length := by
  obtain ⟨Kc, hh⟩ := coef_val hwt h
  rw [hh] at hv
  have hF := hwt.pos
  have hb : Bord N wt.dec_hi.length j k ↔ ((2 * k + 1 : ℤ) < (wt.dec_hi.length : ℤ) - 1 ∨
      (2 * k + 1 : ℤ) > ((N / 2 ^ (j - 1) : ℕ) : ℤ) - wt.dec_hi.length) := by unfold Bord; omega
  rw [← hb]
  split at hv
  · cases hv
    split
    · rename_i h1; simp [h1]
    · rename_i h1; simp [h1]
  · cases hv

/-! ### C08 -/

/-- C08: every non-NaN coefficient `(j, k)` is `2^(j (1/2 - 1/normalization + gamint))` times the ideal coefficient of `x`,
where `x r` is any bi-infinite sequence that extends the samples of realisation `r`. -/
theorem C08_ideal {N : ℕ} {x : Fin R → ℤ → ℝ} {p : PExp} {wt : Wavelet} (hwt : wt.Valid) {j1 : ℤ} {j2 : Option ℝ}
    {g nm : ℝ} {weighted : Bool} {w : WT R} (h : waveletAnalysis (sampled N x) p wt j1 j2 g nm weighted = .ok w)
    {j k : ℕ} {r : Fin R} {v : Fl} (hv : w.wt_coefs.val? j k r = some v) (hn : v ≠ Fl.nan) :
    v = Fl.fin ((2:ℝ) ^ ((j : ℝ) * (1 / 2 - 1 / nm + g)) * idealDetail wt (x r) j k) := by
  obtain ⟨Kc, hh⟩ := coef_val hwt h
  rw [hh] at hv
  split at hv
  · cases hv
    split
    · rename_i h1; rw [if_pos h1] at hn; exact absurd rfl hn
    · rfl
  · cases hv

/-- C08: changing the extension outside `0..N-1` does not change the ideal coefficients at the positions reported. -/
theorem C08_any_extension {N : ℕ} {x y : Fin R → ℤ → ℝ} (hxy : ∀ r (t : ℕ), t < N → x r t = y r t) {p : PExp}
    {wt : Wavelet} (hwt : wt.Valid) {j1 : ℤ} {j2 : Option ℝ} {g nm : ℝ} {weighted : Bool} {w : WT R}
    (h : waveletAnalysis (sampled N x) p wt j1 j2 g nm weighted = .ok w) {j k : ℕ} {r : Fin R} {v : Fl}
    (hv : w.wt_coefs.val? j k r = some v) (hn : v ≠ Fl.nan) : idealDetail wt (x r) j k = idealDetail wt (y r) j k := by
  have e : sampled N y = sampled N x := by
    apply List.map_congr_left
    intro i hi
    funext r
    rw [hxy r i (List.mem_range.mp hi)]
  have h1 := C08_ideal hwt h hv hn
  rw [← e] at h
  have h2 := C08_ideal hwt h hv hn
  rw [h1, Fl.fin_inj] at h2
  exact mul_left_cancel₀ (by positivity) h2

/-- C08: no coefficient of a finite signal is infinite. -/
theorem C08_finite {N : ℕ} {x : Fin R → ℤ → ℝ} {p : PExp} {wt : Wavelet} (hwt : wt.Valid) {j1 : ℤ} {j2 : Option ℝ}
    {g nm : ℝ} {weighted : Bool} {w : WT R} (h : waveletAnalysis (sampled N x) p wt j1 j2 g nm weighted = .ok w)
    {j k : ℕ} {r : Fin R} {v : Fl} (hv : w.wt_coefs.val? j k r = some v) : v = Fl.nan ∨ ∃ t : ℝ, v = Fl.fin t := by
  by_cases hn : v = Fl.nan
  · exact Or.inl hn
  · exact Or.inr ⟨_, C08_ideal hwt h hv hn⟩

/-- The Haar wavelet, up to the common factor of its taps. -/
noncomputable def haar : Wavelet := { dec_lo := [1, 1], dec_hi := [-1, 1] }

theorem haar_valid : haar.Valid := ⟨rfl, by simp [haar]⟩

/-- The theorems C06 and C08 on a concrete signal, 24 samples of `t ↦ t²` analysed with `haar`: the first coefficient
`1² - 0² = 1` is reported. -/
example : ∃ w, waveletAnalysis (sampled 24 (fun (_ : Fin 1) (t : ℤ) => (t : ℝ) ^ 2)) .inf haar 1 none 0 2 false = .ok w ∧
    w.wt_coefs.val? 1 0 0 = some (Fl.fin 1) := by
  obtain ⟨w, hw⟩ := C05_total (sampled 24 (fun (_ : Fin 1) (t : ℤ) => (t : ℝ) ^ 2)) .inf (Or.inr rfl) haar 1 none 0 2 false
    (by norm_num) (by simp [sampled]) (by norm_num)
  refine ⟨w, hw, ?_⟩
  obtain ⟨ml, K, Kc, h1, hK, hKc, hle, hc, -, -, -⟩ := wa_finite haar_valid (by norm_num) hw
  have hml : ml = 3 := by
    have := (C01_integer 24 3 haar (by norm_num)).mpr (by simp [haar])
    rw [decompositionLevel] at this
    rw [h1] at this
    exact Except.ok.inj this
  subst hml
  have hKpos : 1 ≤ Kc := by
    have : 1 ≤ K ∨ K = 0 := by omega
    rcases this with h | rfl
    · rw [hKc]; split <;> omega
    · rw [hKc, if_neg]
      · rintro (h | h | h)
        · cases h
        · simp at h
        · simp [usable, haar] at h
  rw [hc, scalesUpTo_val, if_pos ⟨le_rfl, hKpos, by rw [coefSeq_length _ _ _ le_rfl, sampled_length]; norm_num⟩,
    coef_ent haar haar_valid 0 2 _ 0 le_rfl (fun i hi => by
      have : i = 0 := by omega
      subst this; simp [haar]) (by norm_num)]
  rw [if_neg (by simp [haar])]
  congr 2
  simp [scaleFactor, idealDetail, idealApprox, downFilter, haar, Finset.sum_range_succ]

/-! ### C07 -/

/-- C07: for finite signals of the same length, analysed with filters of the same length, the same `p_exp` and `j2`,
everything but the values is the same: warning, `j2_eff`, scales and number of usable coefficients and leaders.  The
signals may have different numbers of realisations. -/
theorem C07_data_independent {N : ℕ} (hR : R ≠ 0) (hR' : R' ≠ 0) {x : Fin R → ℤ → ℝ} {y : Fin R' → ℤ → ℝ} {p : PExp}
    {wt wt' : Wavelet} (hwt : wt.Valid) (hwt' : wt'.Valid) (hF : wt.dec_hi.length = wt'.dec_hi.length) {j1 j1' : ℤ}
    {j2 : Option ℝ} {g nm g' nm' : ℝ} {weighted weighted' : Bool} {w : WT R} {w' : WT R'}
    (h : waveletAnalysis (sampled N x) p wt j1 j2 g nm weighted = .ok w)
    (h' : waveletAnalysis (sampled N y) p wt' j1' j2 g' nm' weighted' = .ok w') :
    w.warned = w'.warned ∧ w.j2_eff = w'.j2_eff ∧
    w.wt_coefs.values.keys = w'.wt_coefs.values.keys ∧
    (∀ s r r', w.wt_coefs.nj? s r = w'.wt_coefs.nj? s r') ∧
    ∀ l, w.wt_leaders = some l → ∃ l', w'.wt_leaders = some l' ∧ l.values.keys = l'.values.keys ∧
      ∀ s r r', l.nj? s r = l'.nj? s r' := by
  obtain ⟨ml, K, Kc, h1, h2, h3, h4, h5, h6, h7, h8⟩ := wa_finite hwt hR h
  obtain ⟨ml', K', Kc', h1', h2', h3', h4', h5', h6', h7', h8'⟩ := wa_finite hwt' hR' h'
  rw [← hF] at h1' h2' h3'
  rw [h1] at h1'
  cases h1'
  have hKK : K = K' := h2.unique h2'
  subst hKK
  have hKc : Kc = Kc' := by rw [h3, h3']
  subst hKc
  have keys : ∀ {R : ℕ} (fm : Formalism) (g : ℝ) (f : ℕ → Arr R) (n : ℕ),
      (scalesUpTo fm g f n).values.keys = (List.range n).map (fun i : ℕ => (i : ℤ) + 1) := fun fm g f n =>
    (scalesUpTo_regular fm g f n).1
  have hroom : ∀ s ≤ ml.toNat, ∀ i < s, 2 * (wt.dec_hi.length + 1) ≤ N / 2 ^ i := fun s hs i hi =>
    level_room h1 (by omega)
  have hcnt : ∀ fm (p : PExp), ∀ s r r',
      (scalesUpTo fm g (leadSeq (wparams wt g nm) p (sampled N x)) K).nj? s r
      = (scalesUpTo fm g' (leadSeq (wparams wt' g' nm') p (sampled N y)) K).nj? s r' := by
    intro fm p s r r'
    rw [scalesUpTo_nj, scalesUpTo_nj]
    by_cases hs : 1 ≤ s ∧ s ≤ K
    · rw [if_pos hs, if_pos hs, lead_count wt hwt g nm p x r hs.1 (hroom s (hs.2.trans h2.1)),
        lead_count wt' hwt' g' nm' p y r' hs.1 (by rw [← hF]; exact hroom s (hs.2.trans h2.1)), hF]
    · rw [if_neg hs, if_neg hs]
  refine ⟨by rw [Bool.eq_iff_iff, h6, h6'], by rw [h7, h7'], by rw [h5, h5', keys, keys], ?_, ?_⟩
  · intro s r r'
    rw [h5, h5', scalesUpTo_nj, scalesUpTo_nj]
    by_cases hs : 1 ≤ s ∧ s ≤ Kc
    · have hm : s ≤ ml.toNat := hs.2.trans h4
      rw [if_pos hs, if_pos hs, count_coef wt hwt g nm x r hs.1 (fun i hi => by have := hroom s hm i hi; omega)
          (by have := hroom s hm (s - 1) (by omega); omega),
        count_coef wt' hwt' g' nm' y r' hs.1 (fun i hi => by have := hroom s hm i hi; omega)
          (by have := hroom s hm (s - 1) (by omega); omega), hF]
    · rw [if_neg hs, if_neg hs]
  · intro l hl
    cases p with
    | none => simp only at h8; rw [h8] at hl; cases hl
    | inf =>
      simp only at h8 h8'
      rw [h8] at hl; cases hl
      exact ⟨_, h8', by rw [keys, keys], hcnt .leader .inf⟩
    | num e =>
      simp only at h8 h8'
      obtain ⟨-, eta, -, h8⟩ := h8
      obtain ⟨-, eta', -, h8'⟩ := h8'
      rw [h8] at hl; cases hl
      exact ⟨_, h8', (keys .pleader g _ K).trans (keys .pleader g' _ K).symm, hcnt .pleader (.num e)⟩

/-- C07: closed form of `nj` for the coefficients of a finite signal (`/` is the integer division). -/
theorem C07_nj {N : ℕ} {x : Fin R → ℤ → ℝ} {p : PExp} {wt : Wavelet} (hwt : wt.Valid) {j1 : ℤ}
    {j2 : Option ℝ} {g nm : ℝ} {weighted : Bool} {w : WT R}
    (h : waveletAnalysis (sampled N x) p wt j1 j2 g nm weighted = .ok w) {j n : ℕ} {r : Fin R}
    (hn : w.wt_coefs.nj? j r = some n) :
    n = (N / 2 ^ (j - 1) - wt.dec_hi.length + 1) / 2 - (wt.dec_hi.length - 1) / 2 := by
  have hR : R ≠ 0 := fun h0 => by subst h0; exact r.elim0
  obtain ⟨ml, K, Kc, h1, h2, h3, h4, h5, h6, h7, h8⟩ := wa_finite hwt hR h
  rw [h5, scalesUpTo_nj] at hn
  split at hn
  · rename_i hs
    have hroom : ∀ i < j, 2 * (wt.dec_hi.length + 1) ≤ N / 2 ^ i := fun i hi => level_room h1 (by omega)
    rw [count_coef wt hwt g nm x r hs.1 (fun i hi => by have := hroom i hi; omega)
      (by have := hroom (j - 1) (by omega); omega)] at hn
    cases hn; rfl
  · cases hn

/-! ### C09 -/

/-- C09: without leaders, a finite signal of decomposition level `L ≥ 1` gets `L` scales if
`⌊(n - F + 1)/2⌋ - ⌊(F-1)/2⌋ ≥ 3` where `n = ⌊N/2^(L-1)⌋`, and `L - 1` otherwise. -/
theorem C09_scales {N : ℕ} (hR : R ≠ 0) {x : Fin R → ℤ → ℝ} {wt : Wavelet} (hwt : wt.Valid) {j1 : ℤ}
    {j2 : Option ℝ} {g nm : ℝ} {weighted : Bool} {w : WT R}
    (h : waveletAnalysis (sampled N x) .none wt j1 j2 g nm weighted = .ok w) {L : ℕ} (hL : 1 ≤ L)
    (hlev : decompositionLevel N wt = .ok (L : ℤ)) :
    w.wt_coefs.values.length =
      if 3 ≤ (N / 2 ^ (L - 1) - wt.dec_hi.length + 1) / 2 - (wt.dec_hi.length - 1) / 2 then L else L - 1 := by
  obtain ⟨ml, K, Kc, h1, h2, h3, h4, h5, -⟩ := wa_finite hwt hR h
  rw [decompositionLevel, h1] at hlev
  cases hlev
  rw [Int.toNat_natCast] at h2 h4
  have hKc : Kc = K := by rw [h3]; simp
  rw [h5, hKc]
  simp only [scalesUpTo, List.length_map, List.length_range]
  have hgood : ∀ i, i + 1 < L → 3 ≤ usable N wt.dec_hi.length (1 + i) := by
    intro i hi
    apply usable_before_last hwt.pos (by omega)
    have := level_room h1 (i := 1 + i) (by rw [Int.toNat_natCast]; omega)
    exact this
  have hu : ∀ L, usable N wt.dec_hi.length L
      = (N / 2 ^ (L - 1) - wt.dec_hi.length + 1) / 2 - (wt.dec_hi.length - 1) / 2 := fun _ => rfl
  rw [← hu]
  have hKL : K = L ∨ K = L - 1 := by
    by_contra hc
    have hlt : K < L := by have := h2.1; omega
    exact h2.2.2 hlt ⟨hgood K (by omega), fun h => absurd rfl h⟩
  split
  · rename_i h3
    rcases hKL with h | h
    · exact h
    · exfalso
      have hlt : K < L := by omega
      apply h2.2.2 hlt
      refine ⟨?_, fun h => absurd rfl h⟩
      rwa [show 1 + K = L by omega]
  · rename_i h3
    rcases hKL with h | h
    · exfalso
      have := (h2.2.1 (L - 1) (by omega)).1
      rw [show 1 + (L - 1) = L by omega] at this
      exact h3 this
    · exact h

/-- C09: with a filter of length at least 4 the leaders have as many scales as the coefficients, and both as many as
without leaders (finite signals). -/
theorem C09_leader_scales {N : ℕ} (hR : R ≠ 0) {x : Fin R → ℤ → ℝ} {wt : Wavelet} (hwt : wt.Valid)
    (hF : 4 ≤ wt.dec_hi.length) {j1 : ℤ} {j2 : Option ℝ} {g nm : ℝ} {weighted : Bool} {w w0 : WT R}
    (h : waveletAnalysis (sampled N x) .inf wt j1 j2 g nm weighted = .ok w)
    (h0 : waveletAnalysis (sampled N x) .none wt j1 j2 g nm weighted = .ok w0) :
    ∃ l, w.wt_leaders = some l ∧ l.values.length = w0.wt_coefs.values.length ∧ w.wt_coefs = w0.wt_coefs ∧
      w.j2_eff = w0.j2_eff := by
  obtain ⟨ml, K, Kc, h1, h2, h3, h4, h5, -, h7, h8⟩ := wa_finite hwt hR h
  obtain ⟨ml', K', Kc', h1', h2', h3', h4', h5', -, h7', -⟩ := wa_finite hwt hR h0
  rw [h1] at h1'; cases h1'
  have e : K = K' := by
    refine h2.unique (h2'.congr (fun i hi => ?_))
    constructor
    · rintro ⟨a, -⟩
      refine ⟨a, fun _ => usableLeaders_ge hF (by omega) (level_room h1 (by omega)) a⟩
    · rintro ⟨a, -⟩
      exact ⟨a, fun hh => absurd rfl hh⟩
  subst e
  have hK0 : Kc' = K := by rw [h3']; simp
  have hK1 : Kc = K := by
    rw [h3]
    split
    · rfl
    · rename_i hn
      push Not at hn
      exfalso
      have hlt : K < ml.toNat := by have := h2.1; omega
      apply h2'.2.2 hlt
      exact ⟨by rw [Nat.add_comm 1 K]; exact hn.2.2, fun hh => absurd rfl hh⟩
  refine ⟨_, h8, ?_, by rw [h5, h5', hK0, hK1], by rw [h7, h7']⟩
  rw [h5', hK0]
  simp [scalesUpTo]

/-- C09 witness: 6 samples with a filter of length 2 have level 1, but no scale is computed; with `j2 = 10` the warning
"Max level and j2 set to 1" is emitted while `j2_eff = 0`. -/
theorem C09_warning_witness (x : Fin 1 → ℤ → ℝ) (wt : Wavelet) (hwt : wt.Valid) (hF : wt.dec_hi.length = 2) :
    decompositionLevel 6 wt = .ok 1 ∧
    ∃ w, waveletAnalysis (sampled 6 x) .none wt 1 (some 10) 0 1 false = .ok w ∧ w.warned = true ∧ w.j2_eff = 0 := by
  have hlev : decompositionLevel 6 wt = .ok ((1 : ℕ) : ℤ) :=
    (C01_integer 6 1 wt (by norm_num)).mpr (by rw [hF]; norm_num)
  refine ⟨hlev, ?_⟩
  obtain ⟨w, hw⟩ := C05_total (sampled 6 x) .none (Or.inl rfl) wt 1 (some 10) 0 1 false
    (by norm_num) (by simp [sampled]) (by norm_num)
  refine ⟨w, hw, ?_, ?_⟩
  · obtain ⟨J, hJ, hiff⟩ := C02_warning_iff hw
    rw [sampled_length, hlev] at hJ
    cases hJ
    exact hiff.mpr ⟨10, rfl, by norm_num⟩
  · have hlen := C09_scales (by norm_num) hwt hw le_rfl hlev
    rw [hF] at hlen
    norm_num at hlen
    obtain ⟨L, J, hL, hJ, hk, -, hn, hiff, hj, -⟩ := C03_contiguous_scales hw
    rw [sampled_length, hlev] at hL
    cases hL
    have hkeys := hn (hiff.mpr rfl)
    have hJ0 : J = 0 := by
      have := congrArg List.length hkeys
      rw [hlen] at this
      simpa [Dict.keys] using this.symm
    subst hJ0
    rw [hj (by norm_num)]
    simp [pyInt]

/-- C09 witness: 8 samples with a filter of length 2: the coefficients have one scale and the leaders none. -/
theorem C09_leader_witness (x : Fin 1 → ℤ → ℝ) (wt : Wavelet) (hwt : wt.Valid) (hF : wt.dec_hi.length = 2) :
    ∃ w l, waveletAnalysis (sampled 8 x) .inf wt 1 none 0 1 false = .ok w ∧ w.wt_leaders = some l ∧
      w.wt_coefs.values.length = 1 ∧ l.values.length = 0 := by
  obtain ⟨w, hw⟩ := C05_total (sampled 8 x) .inf (Or.inr rfl) wt 1 none 0 1 false
    (by norm_num) (by simp [sampled]) (by norm_num)
  obtain ⟨ml, K, Kc, h1, h2, h3, h4, h5, -, h7, h8⟩ := wa_finite hwt (by norm_num) hw
  have hlev : decompositionLevel 8 wt = .ok ((1 : ℕ) : ℤ) :=
    (C01_integer 8 1 wt (by norm_num)).mpr (by rw [hF]; norm_num)
  rw [decompositionLevel, h1] at hlev
  cases hlev
  have hK : K = 0 := by
    by_contra hK
    have := (h2.2.1 0 (by omega)).2 (by simp)
    have hc : usableLeaders 8 wt.dec_hi.length (1 + 0) ≤ 2 := by
      unfold usableLeaders
      refine (Finset.card_filter_le _ _).trans ?_
      simp
    omega
  subst hK
  have hKc : Kc = 1 := by
    rw [h3, if_neg]
    rintro (h | h | h)
    · cases h
    · simp at h
    · rw [hF] at h; simp [usable] at h
  refine ⟨w, _, hw, h8, ?_, ?_⟩
  · rw [h5, hKc]; simp [scalesUpTo]
  · simp [scalesUpTo]

/-! ### C10 -/

/-- C10: the coefficients of `a x + b y` are `a` times those of `x` plus `b` times those of `y`, with the same scales,
positions and NaN, and the same `j2_eff`. -/
theorem C10_linear {N : ℕ} (hR : R ≠ 0) {x y : Fin R → ℤ → ℝ} (a b : ℝ) {p : PExp} {wt : Wavelet} (hwt : wt.Valid) {j1 : ℤ}
    {j2 : Option ℝ} {g nm : ℝ} {weighted : Bool} {wx wy wz : WT R}
    (hx : waveletAnalysis (sampled N x) p wt j1 j2 g nm weighted = .ok wx)
    (hy : waveletAnalysis (sampled N y) p wt j1 j2 g nm weighted = .ok wy)
    (hz : waveletAnalysis (sampled N fun r t => a * x r t + b * y r t) p wt j1 j2 g nm weighted = .ok wz) :
    wz.j2_eff = wx.j2_eff ∧ wz.j2_eff = wy.j2_eff ∧
    ∀ s k r, wz.wt_coefs.val? s k r
      = (wx.wt_coefs.val? s k r).bind fun u => (wy.wt_coefs.val? s k r).map fun v => Fl.fin a * u + Fl.fin b * v := by
  refine ⟨(C07_data_independent hR hR hwt hwt rfl hz hx).2.1, (C07_data_independent hR hR hwt hwt rfl hz hy).2.1, ?_⟩
  obtain ⟨ml, K, Kc, h1, h2, h3, h4, h5, -⟩ := wa_finite hwt hR hx
  obtain ⟨ml', K', Kc', h1', h2', h3', h4', h5', -⟩ := wa_finite hwt hR hy
  obtain ⟨ml'', K'', Kc'', h1'', h2'', h3'', h4'', h5'', -⟩ := wa_finite hwt hR hz
  rw [h1] at h1' h1''; cases h1'; cases h1''
  obtain rfl := h2.unique h2'
  obtain rfl := h2.unique h2''
  obtain rfl : Kc = Kc' := by rw [h3, h3']
  obtain rfl : Kc = Kc'' := by rw [h3, h3'']
  intro s k r
  rw [h5, h5', h5'', scalesUpTo_val, scalesUpTo_val, scalesUpTo_val]
  by_cases hs : 1 ≤ s ∧ s ≤ Kc
  · simp only [coefSeq_length _ _ _ hs.1, sampled_length]
    by_cases hk : k < N / 2 ^ s
    · have hc : 1 ≤ s ∧ s ≤ Kc ∧ k < N / 2 ^ s := ⟨hs.1, hs.2, hk⟩
      have hroom : ∀ i < s, wt.dec_hi.length ≤ N / 2 ^ i + 1 := fun i hi => by
        have := level_room h1 (i := i) (by omega); omega
      rw [if_pos hc, if_pos hc, if_pos hc, coef_ent wt hwt g nm x r hs.1 hroom hk, coef_ent wt hwt g nm y r hs.1 hroom hk,
        coef_ent wt hwt g nm _ r hs.1 hroom hk]
      simp only [Option.bind_some, Option.map_some, Option.some.injEq]
      by_cases hb : 2 * k + 1 < wt.dec_hi.length - 1 ∨ N / 2 ^ (s - 1) < 2 * k + 1 + wt.dec_hi.length
      · rw [if_pos hb, if_pos hb, if_pos hb]; simp
      · rw [if_neg hb, if_neg hb, if_neg hb, idealDetail_linear, Fl.fin_mul, Fl.fin_mul, Fl.fin_add]
        congr 1; ring
    · have hc : ¬ (1 ≤ s ∧ s ≤ Kc ∧ k < N / 2 ^ s) := fun hh => hk hh.2.2
      rw [if_neg hc, if_neg hc, if_neg hc]; rfl
  · have hc : ∀ q : Prop, ¬ (1 ≤ s ∧ s ≤ Kc ∧ q) := fun q hh => hs ⟨hh.1, hh.2.1⟩
    rw [if_neg (hc _), if_neg (hc _), if_neg (hc _)]; rfl

/-! ### C11 -/

/-- C11: adding polynomial trends of degree less than the number of vanishing moments of the high-pass filter does not
change the result of the analysis at all (nor whether and how it fails). -/
theorem C11_polynomial_trend {N : ℕ} (x : Fin R → ℤ → ℝ) (wt : Wavelet) (hwt : wt.Valid) {M : ℕ}
    (hM : VanishingMoments wt.dec_hi M) (q : Fin R → ℝ[X]) (hq : ∀ r, (q r).natDegree < M) (p : PExp) (j1 : ℤ)
    (j2 : Option ℝ) (g nm : ℝ) (weighted : Bool) :
    waveletAnalysis (sampled N fun r t => x r t + (q r).eval (t : ℝ)) p wt j1 j2 g nm weighted
      = waveletAnalysis (sampled N x) p wt j1 j2 g nm weighted := by
  apply waveletAnalysis_congr_ideal _ _ wt hwt
  intro r s k hs
  have e : (fun t : ℤ => x r t + (q r).eval (t : ℝ)) = fun t : ℤ => 1 * x r t + 1 * (q r).eval (t : ℝ) := by
    funext t; ring
  rw [e, idealDetail_linear, idealDetail_vanish wt hM (q r) (hq r)]; ring

/-- The hypothesis of C11 is met by Haar with one vanishing moment (constants), and by a filter of length 4 with two. -/
example : VanishingMoments haar.dec_hi 1 ∧ VanishingMoments [1, -1, -1, 1] 2 := by
  constructor
  · intro i hi
    interval_cases i
    simp [haar, Finset.sum_range_succ]
  · intro i hi
    interval_cases i <;> norm_num [Finset.sum_range_succ, List.getD]

/-! ### C12 -/

/-- C12: if `y(t) = x(t + m 2^j)` then the coefficient of `y` at `(j, k)` is that of `x` at `(j, k + m)`, whenever both
are reported (the two signals need not have the same length). -/
theorem C12_time_shift {N N' : ℕ} {x : Fin R → ℤ → ℝ} {p p' : PExp} {wt : Wavelet} (hwt : wt.Valid) {j1 j1' : ℤ}
    {j2 j2' : Option ℝ} {g nm : ℝ} {weighted weighted' : Bool} {wx wy : WT R} (m : ℤ) {j : ℕ}
    (hx : waveletAnalysis (sampled N x) p wt j1 j2 g nm weighted = .ok wx)
    (hy : waveletAnalysis (sampled N' fun r t => x r (t + m * 2 ^ j)) p' wt j1' j2' g nm weighted' = .ok wy)
    {k k' : ℕ} (hk : (k' : ℤ) = k + m) {r : Fin R} {u v : Fl} (hu : wx.wt_coefs.val? j k' r = some u)
    (hv : wy.wt_coefs.val? j k r = some v) (hun : u ≠ Fl.nan) (hvn : v ≠ Fl.nan) : u = v := by
  have hj : 1 ≤ j := by
    obtain ⟨Kc, hh⟩ := coef_val hwt hx
    rw [hh] at hu
    split at hu
    · rename_i hc; exact hc.1
    · cases hu
  rw [C08_ideal hwt hx hu hun, C08_ideal hwt hy hv hvn, hk]
  congr 2
  exact (idealDetail_shift wt (x r) hj m k).symm

/-! ### C14 -/

theorem scaled_eq (P : LoopParams) (s : ℕ) (d : Arr R) :
    scaled P s d = mapArr (fun x => x * Fl.fin (scaleFactor P.normalization P.gamint s)) d := by
  unfold scaled mapArr scaleFactor
  apply List.map_congr_left
  intro row _
  funext r
  simp only
  rw [← Fl.fin_mul, ← mul_assoc]

theorem mul_fin_eq_nan_iff {x : Fl} {c : ℝ} (hc : c ≠ 0) : x * Fl.fin c = Fl.nan ↔ x = Fl.nan := by
  rw [mul_comm, fin_mul_eq_nan_iff hc]

theorem tooFew_mapArr {f : Fl → Fl} (hf : ∀ x, f x = Fl.nan ↔ x = Fl.nan) (a : Arr R) : tooFew (mapArr f a) ↔ tooFew a := by
  rw [tooFew_iff, tooFew_iff]
  have : ∀ r, countNotNaN (col (mapArr f a) r) = countNotNaN (col a r) := by
    intro r
    rw [col_mapArr, countNotNaN_map]
    intro x
    have := hf x
    rw [← Fl.isNaN_iff, ← Fl.isNaN_iff] at this
    cases h1 : (f x).isNaN <;> cases h2 : x.isNaN <;> simp_all
  simp only [this]

theorem approxSeq_congr {P P' : LoopParams} (hh : P.high = P'.high) (hl : P.low = P'.low) (sig : Arr R) (j : ℕ) :
    approxSeq P sig j = approxSeq P' sig j := by
  induction j with
  | zero => rfl
  | succ j ih => rw [approxSeq, approxSeq, ih, hh, hl]

/-- C14: for any signal (NaN and infinities included), the coefficients at scale `j` obtained with
`(normalization, gamint)` are those of `normalization = 2, gamint = 0` (the bare filter bank) times
`2^(j (1/2 - 1/normalization + gamint))`; scales, `j2_eff` and warning are the same. -/
theorem C14_normalization {sig : Arr R} {wt : Wavelet} {j1 j1' : ℤ} {j2 : Option ℝ} {g nm : ℝ} {weighted weighted' : Bool}
    {w w0 : WT R} (h : waveletAnalysis sig .none wt j1 j2 g nm weighted = .ok w)
    (h0 : waveletAnalysis sig .none wt j1' j2 0 2 weighted' = .ok w0) :
    w.j2_eff = w0.j2_eff ∧ w.wt_coefs.values.keys = w0.wt_coefs.values.keys ∧
    ∀ s k r, w.wt_coefs.val? s k r
      = (w0.wt_coefs.val? s k r).map fun v => v * Fl.fin ((2:ℝ) ^ ((s : ℝ) * (1 / 2 - 1 / nm + g))) := by
  obtain ⟨ml, K, h1, h2, h3, h4⟩ := wa_none_inv h
  obtain ⟨ml', K', h1', h2', h3', h4'⟩ := wa_none_inv h0
  rw [h1] at h1'; cases h1'
  have hd : ∀ g nm j, detailSeq (wparams wt g nm) sig j = detailSeq (wparams wt 0 2) sig j := by
    intro g nm j
    unfold detailSeq
    rw [approxSeq_congr (P := wparams wt g nm) (P' := wparams wt 0 2) rfl rfl]; rfl
  have ht : ∀ g nm s, tooFew (coefSeq (wparams wt g nm) sig s) ↔ tooFew (detailSeq (wparams wt 0 2) sig (s - 1)) := by
    intro g nm s
    rw [coefSeq, scaled_eq, tooFew_mapArr (fun x => mul_fin_eq_nan_iff (scaleFactor_pos _ _ _).ne'), hd]
  have hK : K = K' := h2.unique (h2'.congr fun i _ => by rw [ht, ht])
  subst hK
  refine ⟨by rw [h4, h4'], by rw [h4, h4']; exact ((scalesUpTo_regular _ _ _ _).1).trans ((scalesUpTo_regular _ _ _ _).1).symm,
    fun s k r => ?_⟩
  rw [h4, h4']
  simp only
  rw [scalesUpTo_val, scalesUpTo_val]
  by_cases hs : 1 ≤ s ∧ s ≤ K
  · rw [coefSeq_length _ _ _ hs.1, coefSeq_length _ _ _ hs.1]
    by_cases hk : k < sig.length / 2 ^ s
    · have hc : 1 ≤ s ∧ s ≤ K ∧ k < sig.length / 2 ^ s := ⟨hs.1, hs.2, hk⟩
      have hk' : ∀ g nm, k < (detailSeq (wparams wt g nm) sig (s - 1)).length := by
        intro g nm; rw [detailSeq_length, Nat.sub_add_cancel hs.1]; exact hk
      rw [if_pos hc, if_pos hc, coefSeq, coefSeq, scaled_eq, scaled_eq, ent_mapArr _ _ (hk' _ _), ent_mapArr _ _ (hk' _ _), hd]
      simp only [Option.map_some, Option.some.injEq, wparams, scaleFactor_eq]
      rw [show (s : ℝ) * (1 / 2 - 1 / 2 + 0) = 0 by ring, Real.rpow_zero]
      congr 1
      exact (mul_one _).symm
    · rw [if_neg (fun hh => hk hh.2.2), if_neg (fun hh => hk hh.2.2)]; rfl
  · rw [if_neg (fun hh => hs ⟨hh.1, hh.2.1⟩), if_neg (fun hh => hs ⟨hh.1, hh.2.1⟩)]; rfl

/-- C14: `normalization = 0` raises ZeroDivisionError as soon as there is a scale to compute. -/
theorem C14_normalization_zero (sig : Arr R) (hR : R ≠ 0) (wt : Wavelet) {L : ℤ}
    (hL : decompositionLevel sig.length wt = .ok L) (hL1 : 1 ≤ L) (p : PExp) (j1 : ℤ) (j2 : Option ℝ) (g : ℝ)
    (weighted : Bool) : waveletAnalysis sig p wt j1 j2 g 0 weighted = .error .zeroDivisionError := by
  obtain ⟨n, hn⟩ : ∃ n, L.toNat = n + 1 := ⟨L.toNat - 1, by omega⟩
  rw [decompositionLevel] at hL
  unfold waveletAnalysis
  dsimp only
  rw [decompositionLevelW, List.length_map, hL]
  cases p with
  | none => simp only [hn, coefLoop, if_neg hR, normalize, if_pos]
  | inf => simp only [hn, leadLoop, if_neg hR, normalize, if_pos]
  | num e => simp only [hn, leadLoop, if_neg hR, normalize, if_pos]

/-! ### C15 -/

/-- C15: for any signal, every coefficient provided with a leader formalism is the one provided without leaders, and the
scales are among those provided without leaders. -/
theorem C15_formalism {sig : Arr R} {p : PExp} {wt : Wavelet} {j1 j1' : ℤ} {j2 j2' : Option ℝ} {g nm : ℝ}
    {weighted weighted' : Bool} {w w0 : WT R} (h : waveletAnalysis sig p wt j1 j2 g nm weighted = .ok w)
    (h0 : waveletAnalysis sig .none wt j1' j2' g nm weighted' = .ok w0) :
    w.wt_coefs.values <+: w0.wt_coefs.values ∧ w.wt_coefs.nj <+: w0.wt_coefs.nj := by
  obtain ⟨ml, K, Kc, h1, h2, h3, h4, h5, h6, h7, -⟩ := wa_inv h
  obtain ⟨ml', K', h1', h2', h3', h4'⟩ := wa_none_inv h0
  rw [h1] at h1'; cases h1'
  have hle : Kc ≤ K' := by
    by_contra hc
    have hlt : K' < ml.toNat := by omega
    exact h2'.2.2 hlt (h7 (1 + K') (by omega) (by omega))
  rw [h6, h4']
  simp only [scalesUpTo]
  have hr : (List.range Kc) <+: (List.range K') := by
    refine ⟨(List.range (K' - Kc)).map (Kc + ·), ?_⟩
    rw [← List.range_add, Nat.add_sub_cancel' hle]
  exact ⟨hr.map _, hr.map _⟩

/-- C15: two formalisms agree on the scales they share (both being prefixes of the analysis without leaders). -/
theorem C15_shared {sig : Arr R} {p p' : PExp} {wt : Wavelet} {j1 j1' : ℤ} {j2 j2' : Option ℝ} {g nm : ℝ}
    {weighted weighted' : Bool} {w w' : WT R} (h : waveletAnalysis sig p wt j1 j2 g nm weighted = .ok w)
    (h' : waveletAnalysis sig p' wt j1' j2' g nm weighted' = .ok w') {s k : ℕ} {r : Fin R} {u v : Fl}
    (hu : w.wt_coefs.val? s k r = some u) (hv : w'.wt_coefs.val? s k r = some v) : u = v := by
  obtain ⟨ml, K, Kc, h1, h2, h3, h4, h5, h6, h7, -⟩ := wa_inv h
  obtain ⟨ml', K', Kc', h1', h2', h3', h4', h5', h6', h7', -⟩ := wa_inv h'
  rw [h6, scalesUpTo_val] at hu
  rw [h6', scalesUpTo_val] at hv
  split at hu <;> split at hv <;> simp_all

end MFA
