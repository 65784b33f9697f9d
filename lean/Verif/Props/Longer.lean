import Verif.Props.Leaders
import Verif.Props.WaveletNoise

/-!
# Property C94: more samples never lose anything

The two analyses are run on the first `N` and on the first `N' ≥ N` samples of the same finite recording.
-/

namespace MFA

open Classical Finset

noncomputable section

variable {R : ℕ} {N N' : ℕ} {x : Fin R → ℤ → ℝ} {p : PExp} {wt : Wavelet} {j1 j1' : ℤ} {j2 : Option ℝ} {g nm : ℝ}
  {weighted weighted' : Bool} {w w' : WT R}

theorem maxLevel_mono {F : ℕ} (hN : N ≤ N') {ml ml' : ℤ} (h : maxLevel N F = .ok ml) (h' : maxLevel N' F = .ok ml') : ml ≤ ml' := by
  have h0 := maxLevel_nonzero h
  have h0' := maxLevel_nonzero h'
  rw [maxLevel, if_neg h0] at h
  rw [maxLevel, if_neg h0'] at h'
  rw [← Except.ok.inj h, ← Except.ok.inj h']
  have hp : (0:ℝ) < N := by exact_mod_cast Nat.pos_of_ne_zero h0
  have hle : (N:ℝ) ≤ N' := by exact_mod_cast hN
  have hF : (0:ℝ) < (F : ℝ) + 1 := by positivity
  exact min_le_min (Int.floor_le_floor (Real.logb_le_logb_of_le (by norm_num) hp hle))
    (Int.floor_le_floor (Real.logb_le_logb_of_le (by norm_num) (by positivity) (by gcongr)))

theorem usable_mono {F s : ℕ} (hN : N ≤ N') : usable N F s ≤ usable N' F s := by
  unfold usable
  have := Nat.div_le_div_right (c := 2 ^ (s - 1)) hN
  omega

theorem Bord.mono {F s k : ℕ} (hN : N ≤ N') (h : ¬ Bord N F s k) : ¬ Bord N' F s k := by
  unfold Bord at *
  have := Nat.div_le_div_right (c := 2 ^ (s - 1)) hN
  omega

theorem usableLeaders_mono {F s : ℕ} (hN : N ≤ N') : usableLeaders N F s ≤ usableLeaders N' F s := by
  unfold usableLeaders
  apply card_le_card
  intro k hk
  rw [mem_filter, mem_range] at hk ⊢
  obtain ⟨h1, j', k', h2, h3⟩ := hk
  have := Nat.div_le_div_right (c := 2 ^ s) hN
  exact ⟨by omega, j', k', h2, Bord.mono hN h3⟩

theorem FirstBad.mono {n n' : ℕ} {good good' : ℕ → Prop} {s K K' : ℕ} (h : FirstBad n good s K) (h' : FirstBad n' good' s K')
    (hn : n ≤ n') (hg : ∀ i, good i → good' i) : K ≤ K' := by
  by_contra hc
  have h1 : K' < n := by have := h.1; omega
  exact h'.2.2 (by omega) (hg _ (h.2.1 K' (by omega)))

theorem pyInt_mono {a b : ℝ} (h : a ≤ b) : pyInt a ≤ pyInt b := by
  unfold pyInt
  split <;> split
  · exact Int.floor_le_floor h
  · linarith
  · rename_i h1 h2
    have : ⌈a⌉ ≤ 0 := Int.ceil_le.mpr (by push_cast; linarith)
    exact this.trans (Int.floor_nonneg.mpr h2)
  · exact Int.ceil_le_ceil h

theorem j2Eff_mono {a b : ℤ} (h : a ≤ b) (j2 : Option ℝ) : j2Eff a j2 ≤ j2Eff b j2 := by
  unfold j2Eff
  split
  · exact h
  · exact pyInt_mono (min_le_min_right _ (by exact_mod_cast h))

/-- C94: on the first `N ≤ N'` samples of a finite recording the analysis finds at most as many scales (of coefficients, and of
leaders if any) and its `j2_eff` is at most that on the first `N'` samples; a warning on the longer one implies a warning on the
shorter one. -/
theorem C94_scales (hR : R ≠ 0) (hN : N ≤ N') (hwt : wt.Valid)
    (h : waveletAnalysis (sampled N x) p wt j1 j2 g nm weighted = .ok w)
    (h' : waveletAnalysis (sampled N' x) p wt j1' j2 g nm weighted' = .ok w') :
    w.wt_coefs.values.length ≤ w'.wt_coefs.values.length ∧ w.j2_eff ≤ w'.j2_eff ∧ (w'.warned = true → w.warned = true) ∧
    ∀ l l', w.wt_leaders = some l → w'.wt_leaders = some l' → l.values.length ≤ l'.values.length := by
  obtain ⟨ml, K, Kc, h1, h2, h3, h4, h5, h6, h7, h8⟩ := wa_finite hwt hR h
  obtain ⟨ml', K', Kc', h1', h2', h3', h4', h5', h6', h7', h8'⟩ := wa_finite hwt hR h'
  have hml := maxLevel_mono hN h1 h1'
  have hK : K ≤ K' := h2.mono h2' (by omega) fun i hi =>
    ⟨hi.1.trans (usable_mono hN), fun hp => (hi.2 hp).trans (usableLeaders_mono hN)⟩
  have hKc : Kc ≤ Kc' := by
    have hu := usable_mono (F := wt.dec_hi.length) (s := K + 1) hN
    rw [h3, h3']
    by_cases hp : p = .none
    · simp [hp, hK]
    · simp only [hp, false_or]
      rcases Nat.lt_or_ge K K' with hlt | hge
      · split <;> split <;> omega
      · have : K' = K := by omega
        subst this
        have := h2.1
        split <;> split <;> omega
  refine ⟨?_, ?_, ?_, ?_⟩
  · rw [h5, h5']
    simpa [scalesUpTo] using hKc
  · rw [h7, h7']
    apply j2Eff_mono
    have := h2.1
    have := h2'.1
    unfold finalLevel
    split <;> split <;> omega
  · rw [h6, h6']
    rintro ⟨j, hj, hlt⟩
    exact ⟨j, hj, lt_of_le_of_lt (by exact_mod_cast hml) hlt⟩
  · intro l l' hl hl'
    cases p with
    | none => simp only at h8; rw [hl] at h8; cases h8
    | inf =>
      simp only at h8 h8'
      rw [hl] at h8; cases h8
      rw [hl'] at h8'; cases h8'
      simpa [scalesUpTo] using hK
    | num e =>
      simp only at h8 h8'
      obtain ⟨-, eta, -, h8⟩ := h8
      obtain ⟨-, eta', -, h8'⟩ := h8'
      rw [hl] at h8; cases h8
      rw [hl'] at h8'; cases h8'
      simpa [scalesUpTo] using hK

/-- C94: every coefficient reported for the first `N` samples is reported, with the same value, for the first `N' ≥ N`. -/
theorem C94_coefficients_kept (hN : N ≤ N') (hwt : wt.Valid)
    (h : waveletAnalysis (sampled N x) p wt j1 j2 g nm weighted = .ok w)
    (h' : waveletAnalysis (sampled N' x) p wt j1' j2 g nm weighted' = .ok w') {j k : ℕ} {r : Fin R} {v : Fl}
    (hv : w.wt_coefs.val? j k r = some v) (hn : v ≠ Fl.nan) : w'.wt_coefs.val? j k r = some v := by
  have hR : R ≠ 0 := fun h0 => by subst h0; exact r.elim0
  obtain ⟨ml, K, Kc, h1, -, -, h4, h5, -⟩ := wa_finite hwt hR h
  obtain ⟨ml', K', Kc', h1', -, -, h4', h5', -⟩ := wa_finite hwt hR h'
  have hlen := (C94_scales hR hN hwt h h').1
  rw [h5, h5'] at hlen
  simp only [scalesUpTo, List.length_map, List.length_range] at hlen
  have hid := C08_ideal hwt h hv hn
  rw [h5, scalesUpTo_val] at hv
  split at hv
  · rename_i hc
    obtain ⟨hj, hjK, hk⟩ := hc
    rw [coefSeq_length _ _ _ hj, sampled_length] at hk
    have hk' : k < N' / 2 ^ j := hk.trans_le (Nat.div_le_div_right hN)
    have hnb : ¬ Bord N wt.dec_hi.length j k := by
      intro hb
      rw [Option.some.injEq] at hv
      exact hn (hv ▸ (coef_nan_iff wt hwt g nm x r hj (fun i hi => level_room h1 (by omega)) hk).mpr hb)
    have hv' : w'.wt_coefs.val? j k r = some (ent (coefSeq (wparams wt g nm) (sampled N' x) j) k r) := by
      rw [h5', scalesUpTo_val, coefSeq_length _ _ _ hj, sampled_length, if_pos ⟨hj, by omega, hk'⟩]
    have hn' : ent (coefSeq (wparams wt g nm) (sampled N' x) j) k r ≠ Fl.nan := fun e =>
      Bord.mono hN hnb ((coef_nan_iff wt hwt g nm x r hj (fun i hi => level_room h1' (by omega)) hk').mp e)
    rw [hv', C08_ideal hwt h' hv' hn', hid]
  · cases hv

/-- C94: `nj` of the coefficients only grows. -/
theorem C94_nj (hN : N ≤ N') (hwt : wt.Valid)
    (h : waveletAnalysis (sampled N x) p wt j1 j2 g nm weighted = .ok w)
    (h' : waveletAnalysis (sampled N' x) p wt j1' j2 g nm weighted' = .ok w') {j n : ℕ} {r : Fin R}
    (hn : w.wt_coefs.nj? j r = some n) : ∃ n', w'.wt_coefs.nj? j r = some n' ∧ n ≤ n' := by
  have hR : R ≠ 0 := fun h0 => by subst h0; exact r.elim0
  have hcl := C07_nj hwt h hn
  obtain ⟨ml, K, Kc, h1, -, -, h4, h5, -⟩ := wa_finite hwt hR h
  obtain ⟨ml', K', Kc', h1', -, -, h4', h5', -⟩ := wa_finite hwt hR h'
  have hlen := (C94_scales hR hN hwt h h').1
  rw [h5, h5'] at hlen
  simp only [scalesUpTo, List.length_map, List.length_range] at hlen
  rw [h5, scalesUpTo_nj] at hn
  split at hn
  · rename_i hc
    have hn' : w'.wt_coefs.nj? j r = some (countNotNaN (col (coefSeq (wparams wt g nm) (sampled N' x) j) r)) := by
      rw [h5', scalesUpTo_nj, if_pos ⟨hc.1, by omega⟩]
    refine ⟨_, hn', ?_⟩
    rw [hcl, C07_nj hwt h' hn']
    have := Nat.div_le_div_right (c := 2 ^ (j - 1)) hN
    omega
  · cases hn

/-- C94: every leader reported for the first `N` samples is reported for the first `N' ≥ N`; it can only grow, and it does not
change when no coefficient of its dyadic neighbourhood was masked. -/
theorem C94_leaders (hN : N ≤ N') (hwt : wt.Valid)
    (h : waveletAnalysis (sampled N x) .inf wt j1 j2 g nm weighted = .ok w)
    (h' : waveletAnalysis (sampled N' x) .inf wt j1' j2 g nm weighted' = .ok w') {l l' : MRQ R} (hl : w.wt_leaders = some l)
    (hl' : w'.wt_leaders = some l') {j k : ℕ} {r : Fin R} {v : Fl} (hv : l.val? j k r = some v) (hn : v ≠ Fl.nan) :
    ∃ v', l'.val? j k r = some v' ∧ Fl.le v v' ∧
      ((∀ j' k', InNbhd j k j' k' → w.wt_coefs.val? j' k' r ≠ some Fl.nan) → v' = v) := by
  have hR : R ≠ 0 := fun h0 => by subst h0; exact r.elim0
  obtain ⟨ml, K, Kc, h1, -, -, h4, h5, -, -, h8⟩ := wa_finite hwt hR h
  obtain ⟨ml', K', Kc', h1', -, -, h4', h5', -, -, h8'⟩ := wa_finite hwt hR h'
  have hlen := (C94_scales hR hN hwt h h').2.2.2 l l' hl hl'
  simp only at h8 h8'
  obtain ⟨l₁, e, hL⟩ := C16_leaders h
  rw [hl] at e; cases e
  obtain ⟨l₂, e, hL'⟩ := C16_leaders h'
  rw [hl'] at e; cases e
  obtain ⟨a1, a2, a3, a4⟩ := hL j k r v hv
  rw [hl] at h8
  rw [hl'] at h8'
  obtain ⟨v', hv'⟩ : ∃ v', l'.val? j k r = some v' := by
    rw [Option.some.injEq] at h8 h8'
    rw [h8, h8'] at hlen
    simp only [scalesUpTo, List.length_map, List.length_range] at hlen
    rw [h8, scalesUpTo_val, leadSeq_length, sampled_length] at hv
    split at hv
    · rename_i hc
      have := Nat.div_le_div_right (c := 2 ^ j) hN
      exact ⟨_, by rw [h8', scalesUpTo_val, leadSeq_length, sampled_length, if_pos ⟨hc.1, by omega, by omega⟩]⟩
    · cases hv
  obtain ⟨b1, b2, b3, b4⟩ := hL' j k r v' hv'
  obtain ⟨i, m, d, hin, hd, hvd⟩ := a3 hn
  have hdn : d ≠ Fl.nan := fun e => hn (by rw [hvd, e]; rfl)
  have hle : Fl.le v v' := hvd ▸ b4 i m d hin (C94_coefficients_kept hN hwt h h' hd hdn) hdn
  refine ⟨v', hv', hle, fun hall => ?_⟩
  have hn' : v' ≠ Fl.nan := fun e => by
    have := b2.mp e i m hin
    rw [C94_coefficients_kept hN hwt h h' hd hdn, Option.some.injEq] at this
    exact hdn this
  obtain ⟨i', m', d', hin', hd', hvd'⟩ := b3 hn'
  obtain ⟨d₀, hd₀⟩ := a1 i' m' hin'
  have hd₀n : d₀ ≠ Fl.nan := fun e => hall i' m' hin' (by rw [hd₀, e])
  have := C94_coefficients_kept hN hwt h h' hd₀ hd₀n
  rw [hd', Option.some.injEq] at this
  subst this
  have hle' : Fl.le v' v := hvd' ▸ a4 i' m' d' hin' hd₀ hd₀n
  exact Fl.le_antisymm' hle' hle

/-- Non-vacuity: with Daubechies' 4-tap filter the first 64 samples of any recording give 3 scales of coefficients, the first 200
give 5; the coefficient `(1, 3)` is reported in both. -/
example (x : Fin 1 → ℤ → ℝ) : ∃ w w', waveletAnalysis (sampled 64 x) .inf db2 1 none 0 1 false = .ok w ∧
    waveletAnalysis (sampled 200 x) .inf db2 1 none 0 1 false = .ok w' ∧ w.wt_coefs.values.length = 3 ∧
    w'.wt_coefs.values.length = 5 ∧ (∃ t : ℝ, w.wt_coefs.val? 1 3 0 = some (Fl.fin t) ∧ w'.wt_coefs.val? 1 3 0 = some (Fl.fin t)) := by
  obtain ⟨hv, -, -⟩ := db2_orthonormal
  have tot : ∀ n : ℕ, n ≠ 0 → ∀ p : PExp, p = .none ∨ p = .inf →
      ∃ w, waveletAnalysis (sampled n x) p db2 1 none 0 1 false = .ok w := fun n hn p hp =>
    C05_total _ p hp db2 1 none 0 1 false (by norm_num) (by simp [sampled, hn]) (by norm_num)
  have hlev : decompositionLevel 64 db2 = .ok ((3 : ℕ) : ℤ) := (C01_integer 64 3 _ (by norm_num)).mpr (by simp [db2])
  have hlev' : decompositionLevel 200 db2 = .ok ((5 : ℕ) : ℤ) := (C01_integer 200 5 _ (by norm_num)).mpr (by simp [db2])
  obtain ⟨w, hw⟩ := tot 64 (by norm_num) .inf (Or.inr rfl)
  obtain ⟨w0, hw0⟩ := tot 64 (by norm_num) .none (Or.inl rfl)
  obtain ⟨w', hw'⟩ := tot 200 (by norm_num) .inf (Or.inr rfl)
  obtain ⟨w0', hw0'⟩ := tot 200 (by norm_num) .none (Or.inl rfl)
  have l1 : w.wt_coefs.values.length = 3 := by
    obtain ⟨l, -, -, he, -⟩ := C09_leader_scales (by norm_num) hv (by simp [db2]) hw hw0
    rw [he, C09_scales (by norm_num) hv hw0 (by norm_num) hlev, if_pos (by simp [db2])]
  have l2 : w'.wt_coefs.values.length = 5 := by
    obtain ⟨l, -, -, he, -⟩ := C09_leader_scales (by norm_num) hv (by simp [db2]) hw' hw0'
    rw [he, C09_scales (by norm_num) hv hw0' (by norm_num) hlev', if_pos (by simp [db2])]
  refine ⟨w, w', hw, hw', l1, l2, ?_⟩
  obtain ⟨ml, K, Kc, -, -, -, -, h5, -⟩ := wa_finite hv (by norm_num) hw
  have hKc : Kc = 3 := by rw [h5] at l1; simpa [scalesUpTo] using l1
  have hval : w.wt_coefs.val? 1 3 0 = some (ent (coefSeq (wparams db2 0 1) (sampled 64 x) 1) 3 0) := by
    rw [h5, scalesUpTo_val, coefSeq_length _ _ _ le_rfl, sampled_length, if_pos ⟨le_rfl, by omega, by norm_num⟩]
  have hne : ent (coefSeq (wparams db2 0 1) (sampled 64 x) 1) 3 0 ≠ Fl.nan := fun e => by
    have := (C06_nan_pattern hv hw hval).mp e
    norm_num [db2] at this
  obtain ⟨t, ht⟩ := (C08_finite hv hw hval).resolve_left hne
  refine ⟨t, by rw [hval, ht], ?_⟩
  rw [← ht]
  exact C94_coefficients_kept (by norm_num) hv hw hw' hval hne

end

end MFA
