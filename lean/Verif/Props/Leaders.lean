import Verif.Props.FilterBank

/-! Properties C16 - C22: leaders and p-leaders. -/

namespace MFA

open Classical Finset

variable {R : ℕ}

/-! ### C16 -/

theorem inputs_inf (P : LoopParams) (sig : Arr R) (r : Fin R) (l : List (ℕ × ℕ)) :
    inputs P .inf sig r l = l.map fun q => (ent (coefSeq P sig q.1) q.2 r).abs := rfl

/-- C16: with `p_exp = inf`, for any signal (NaN and infinities allowed): the leader `(j, k)` is NaN iff all coefficients
of its dyadic neighbourhood are NaN; otherwise it is the absolute value of one of them and is at least the absolute value of
every non-NaN one. -/
theorem C16_leaders {sig : Arr R} {wt : Wavelet} {j1 : ℤ} {j2 : Option ℝ} {g nm : ℝ} {weighted : Bool} {w : WT R}
    (h : waveletAnalysis sig .inf wt j1 j2 g nm weighted = .ok w) :
    ∃ l, w.wt_leaders = some l ∧ ∀ j k r v, l.val? j k r = some v →
      (∀ j' k', InNbhd j k j' k' → ∃ d, w.wt_coefs.val? j' k' r = some d) ∧
      (v = Fl.nan ↔ ∀ j' k', InNbhd j k j' k' → w.wt_coefs.val? j' k' r = some Fl.nan) ∧
      (v ≠ Fl.nan → ∃ j' k' d, InNbhd j k j' k' ∧ w.wt_coefs.val? j' k' r = some d ∧ v = d.abs) ∧
      (∀ j' k' d, InNbhd j k j' k' → w.wt_coefs.val? j' k' r = some d → d ≠ Fl.nan → Fl.le d.abs v) := by
  obtain ⟨ml, K, Kc, h1, hK, hKc, hKc', -, hc, -, -, hl⟩ := wa_inv h
  simp only at hl
  refine ⟨_, hl.1, fun j k r v hv => ?_⟩
  rw [scalesUpTo_val, leadSeq_length] at hv
  split at hv
  · rename_i hjk
    obtain ⟨hj1, hjK, hk⟩ := hjk
    cases hv
    have hin : ∀ j' k', InNbhd j k j' k' →
        w.wt_coefs.val? j' k' r = some (ent (coefSeq (wparams wt g nm) sig j') k' r) := by
      intro j' k' hn
      have hlt : k' < sig.length / 2 ^ j' := hn.lt_length (by omega)
      rw [hc, scalesUpTo_val, coefSeq_length _ _ _ hn.1,
        if_pos ⟨hn.1, by have := hn.2.1; rcases hKc with h | h <;> omega, hlt⟩]
    have hnan := ent_leadSeq_nan_iff (wparams wt g nm) .inf sig r hj1 hk
    have heq := ent_leadSeq (wparams wt g nm) .inf sig r hj1 hk
    have hred : ∀ l, leaderRed (checkFormalism .inf) l = nanmax l := fun l => by
      rw [leaderRed, if_neg (by simp [checkFormalism])]; rfl
    rw [show outF .inf j (leaderRed (checkFormalism .inf) (inputs (wparams wt g nm) .inf sig r (nbhd j k)))
      = leaderRed (checkFormalism .inf) (inputs (wparams wt g nm) .inf sig r (nbhd j k)) from rfl, hred, inputs_inf] at heq
    refine ⟨fun j' k' hn => ⟨_, hin j' k' hn⟩, ?_, ?_, ?_⟩
    · rw [hnan]
      apply forall₂_congr; intro j' k'
      apply forall_congr'; intro hn
      rw [hin j' k' hn, Option.some.injEq]
    · intro hne
      have hex : ∃ x ∈ (nbhd j k).map fun q => (ent (coefSeq (wparams wt g nm) sig q.1) q.2 r).abs, x ≠ Fl.nan := by
        by_contra hall
        push Not at hall
        exact hne (heq.trans (nanmax_of_all_nan hall))
      obtain ⟨hm, -, -⟩ := nanmax_spec hex
      obtain ⟨⟨j', k'⟩, hq, e⟩ := List.mem_map.mp hm
      exact ⟨j', k', _, mem_nbhd.mp hq, hin j' k' (mem_nbhd.mp hq), heq.trans e.symm⟩
    · intro j' k' d hn hd hdn
      rw [hin j' k' hn, Option.some.injEq] at hd
      have hmem : d.abs ∈ (nbhd j k).map fun q => (ent (coefSeq (wparams wt g nm) sig q.1) q.2 r).abs :=
        List.mem_map.mpr ⟨(j', k'), mem_nbhd.mpr hn, by simp only [hd]⟩
      have hdn' : d.abs ≠ Fl.nan := fun e => hdn ((abs_eq_nan_iff d).mp e)
      rw [heq]
      exact (nanmax_spec ⟨_, hmem, hdn'⟩).2.2 _ hmem hdn'
  · cases hv

/-! ### C18 -/

/-- C18: each leader is at least `|d(j, k')|` for `k' = k, k+1, k+2`. -/
theorem C18_dominates {sig : Arr R} {wt : Wavelet} {j1 : ℤ} {j2 : Option ℝ} {g nm : ℝ} {weighted : Bool} {w : WT R}
    {l : MRQ R} (h : waveletAnalysis sig .inf wt j1 j2 g nm weighted = .ok w) (hl : w.wt_leaders = some l) {j k k' : ℕ}
    {r : Fin R} {v d : Fl} (hv : l.val? j k r = some v) (hk : k ≤ k') (hk' : k' ≤ k + 2)
    (hd : w.wt_coefs.val? j k' r = some d) (hn : d ≠ Fl.nan) : Fl.le d.abs v := by
  obtain ⟨l', hl', hh⟩ := C16_leaders h
  rw [hl] at hl'; cases hl'
  obtain ⟨-, -, -, h4⟩ := hh j k r v hv
  refine h4 j k' d ⟨?_, le_rfl, by simpa using hk, by simpa using hk'⟩ hd hn
  obtain ⟨ml, K, Kc, -, -, -, -, -, hc, -⟩ := wa_inv h
  rw [hc, scalesUpTo_val] at hd
  split at hd
  · rename_i hh; exact hh.1
  · cases hd

/-- C18: a leader at scale `j + 1` is at least every (non-NaN) leader at scale `j` whose three positions lie below its
own three positions. -/
theorem C18_grows {sig : Arr R} {wt : Wavelet} {j1 : ℤ} {j2 : Option ℝ} {g nm : ℝ} {weighted : Bool} {w : WT R}
    {l : MRQ R} (h : waveletAnalysis sig .inf wt j1 j2 g nm weighted = .ok w) (hl : w.wt_leaders = some l) {j k m : ℕ}
    {r : Fin R} {u v : Fl} (hu : l.val? j m r = some u) (hv : l.val? (j + 1) k r = some v) (hm : 2 * k ≤ m)
    (hm' : m + 2 ≤ 2 * k + 5) (hn : u ≠ Fl.nan) : Fl.le u v := by
  obtain ⟨l', hl', hh⟩ := C16_leaders h
  rw [hl] at hl'; cases hl'
  obtain ⟨-, -, h3, -⟩ := hh j m r u hu
  obtain ⟨-, -, -, h4⟩ := hh (j + 1) k r v hv
  obtain ⟨j', k', d, hnb, hd, rfl⟩ := h3 hn
  refine h4 j' k' d ⟨hnb.1, by have := hnb.2.1; omega, ?_, ?_⟩ hd (fun e => hn ((abs_eq_nan_iff d).mpr e))
  · rw [show j + 1 - j' = (j - j') + 1 by have := hnb.2.1; omega, pow_succ, ← Nat.div_div_eq_div_mul]
    have := hnb.2.2.1; omega
  · rw [show j + 1 - j' = (j - j') + 1 by have := hnb.2.1; omega, pow_succ, ← Nat.div_div_eq_div_mul]
    have := hnb.2.2.2; omega

/-! ### C19 -/

/-- C19: for every finite signal and every filter of length at least 3, as soon as one scale of leaders is computed there is
a leader at scale 1 that is reported (not NaN) although one coefficient of its neighbourhood is a masked border coefficient. -/
theorem C19_border_leaders_kept {N : ℕ} {x : Fin R → ℤ → ℝ} {wt : Wavelet} (hwt : wt.Valid) (hF : 3 ≤ wt.dec_hi.length)
    {j1 : ℤ} {j2 : Option ℝ} {g nm : ℝ} {weighted : Bool} {w : WT R} {l : MRQ R}
    (h : waveletAnalysis (sampled N x) .inf wt j1 j2 g nm weighted = .ok w) (hl : w.wt_leaders = some l)
    (h1 : (1 : ℤ) ∈ l.values.keys) (r : Fin R) :
    ∃ k v, l.val? 1 k r = some v ∧ v ≠ Fl.nan ∧ ∃ k', InNbhd 1 k 1 k' ∧ w.wt_coefs.val? 1 k' r = some Fl.nan := by
  have hR : R ≠ 0 := fun h0 => by subst h0; exact r.elim0
  obtain ⟨ml, K, Kc, hml, hK, hKc, hle, hc, -, -, h8⟩ := wa_finite hwt hR h
  simp only at h8
  rw [hl] at h8; cases h8
  have hK1 : 1 ≤ K := by
    have e := (scalesUpTo_regular .leader g (leadSeq (wparams wt g nm) .inf (sampled N x)) K).1
    rw [Dict.keys, e, List.mem_map] at h1
    obtain ⟨i, hi, -⟩ := h1
    rw [List.mem_range] at hi; omega
  have hKc1 : 1 ≤ Kc := by rw [hKc]; split <;> omega
  have hroom : ∀ i < 1, 2 * (wt.dec_hi.length + 1) ≤ N / 2 ^ i := fun i hi => level_room hml (by have := hK.1; omega)
  have hu : 3 ≤ usable N wt.dec_hi.length 1 := by simpa using (hK.2.1 0 (by omega)).1
  have hN := hroom 0 (by omega)
  simp only [usable, le_refl, Nat.sub_self, pow_zero, Nat.div_one] at hu hN
  set F := wt.dec_hi.length with hFd
  set a := (F - 1) / 2 with ha
  have ha1 : 1 ≤ a := by omega
  have hlt : a - 1 < N / 2 ^ 1 - 2 := by rw [pow_one]; omega
  have hv : (scalesUpTo .leader g (leadSeq (wparams wt g nm) .inf (sampled N x)) K).val? 1 (a - 1) r
      = some (ent (leadSeq (wparams wt g nm) .inf (sampled N x) 1) (a - 1) r) := by
    rw [scalesUpTo_val, leadSeq_length, sampled_length, if_pos ⟨le_rfl, hK1, hlt⟩]
  refine ⟨a - 1, _, hv, ?_, a - 1, ⟨le_rfl, le_rfl, by simp, by simp⟩, ?_⟩
  · rw [Ne, lead_nan_iff wt hwt g nm .inf x r le_rfl hroom hlt]
    intro hall
    have := hall 1 a ⟨le_rfl, le_rfl, by simp, by simp; omega⟩
    simp only [Bord, Nat.sub_self, pow_zero, Nat.div_one, ← hFd] at this
    omega
  · rw [hc, scalesUpTo_val, coefSeq_length _ _ _ le_rfl, sampled_length, if_pos ⟨le_rfl, hKc1, by rw [pow_one] at hlt ⊢; omega⟩,
      Option.some.injEq, coef_nan_iff wt hwt g nm x r le_rfl hroom (by rw [pow_one] at hlt ⊢; omega)]
    simp only [Bord, Nat.sub_self, pow_zero, Nat.div_one, ← hFd]
    omega

/-- The hypotheses of C19 are met by every finite signal of 20 samples with a filter of length 4. -/
example (x : Fin 1 → ℤ → ℝ) (wt : Wavelet) (hwt : wt.Valid) (hF : wt.dec_hi.length = 4) :
    ∃ w l, waveletAnalysis (sampled 20 x) .inf wt 1 none 0 1 false = .ok w ∧ w.wt_leaders = some l ∧
      (1 : ℤ) ∈ l.values.keys := by
  obtain ⟨w, hw⟩ := C05_total (sampled 20 x) .inf (Or.inr rfl) wt 1 none 0 1 false
    (by norm_num) (by simp [sampled]) (by norm_num)
  obtain ⟨w0, hw0⟩ := C05_total (sampled 20 x) .none (Or.inl rfl) wt 1 none 0 1 false
    (by norm_num) (by simp [sampled]) (by norm_num)
  obtain ⟨l, hl, hlen, -, -⟩ := C09_leader_scales (by norm_num) hwt (by omega) hw hw0
  have hlev : decompositionLevel 20 wt = .ok ((2 : ℕ) : ℤ) :=
    (C01_integer 20 2 wt (by norm_num)).mpr (by rw [hF]; norm_num)
  have := C09_scales (by norm_num) hwt hw0 (by norm_num) hlev
  rw [hF] at this
  norm_num at this
  refine ⟨w, l, hw, hl, ?_⟩
  obtain ⟨L, J, -, -, -, hk, -⟩ := C03_contiguous_scales hw
  have e := hk l hl
  have hJ : J = l.values.length := by
    have := congrArg List.length e
    simpa [Dict.keys] using this.symm
  rw [e, List.mem_map]
  refine ⟨0, ?_, by norm_num⟩
  rw [List.mem_range, hJ, hlen, this]
  norm_num

end MFA
