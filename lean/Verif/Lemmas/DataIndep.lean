import Verif.Lemmas.Leaders

/-! For finite signals the NaN pattern and the number of scales depend only on lengths. -/

namespace MFA

open Classical Finset

variable {R R' : ℕ}

theorem countNotNaN_range_congr (n : ℕ) (f g : ℕ → Fl) (h : ∀ k < n, (f k = Fl.nan ↔ g k = Fl.nan)) :
    countNotNaN ((List.range n).map f) = countNotNaN ((List.range n).map g) := by
  rw [countNotNaN_countP, countNotNaN_countP, List.countP_map, List.countP_map]
  apply List.countP_congr
  intro k hk
  rw [List.mem_range] at hk
  simp only [Function.comp]
  have := h k hk
  rw [← Fl.isNaN_iff, ← Fl.isNaN_iff] at this
  rw [Bool.not_eq_true', Bool.not_eq_true']
  cases hf : (f k).isNaN <;> cases hg : (g k).isNaN <;> simp_all

/-- Border condition at scale `s`. -/
def Bord (N F s k : ℕ) : Prop := 2 * k + 1 < F - 1 ∨ N / 2 ^ (s - 1) < 2 * k + 1 + F

theorem coef_nan_iff (wt : Wavelet) (hwt : wt.Valid) (g nm : ℝ) {N : ℕ} (x : Fin R → ℤ → ℝ) (r : Fin R) {s k : ℕ}
    (hs : 1 ≤ s) (hN : ∀ i < s, 2 * (wt.dec_hi.length + 1) ≤ N / 2 ^ i) (hk : k < N / 2 ^ s) :
    ent (coefSeq (wparams wt g nm) (sampled N x) s) k r = Fl.nan ↔ Bord N wt.dec_hi.length s k := by
  rw [coef_ent wt hwt g nm x r hs (fun i hi => by have := hN i hi; omega) hk]
  unfold Bord
  split
  · simp_all
  · simp_all

theorem lead_nan_iff (wt : Wavelet) (hwt : wt.Valid) (g nm : ℝ) (p : PExp) {N : ℕ} (x : Fin R → ℤ → ℝ) (r : Fin R)
    {s k : ℕ} (hs : 1 ≤ s) (hN : ∀ i < s, 2 * (wt.dec_hi.length + 1) ≤ N / 2 ^ i) (hk : k < N / 2 ^ s - 2) :
    ent (leadSeq (wparams wt g nm) p (sampled N x) s) k r = Fl.nan ↔
      ∀ j' k', InNbhd s k j' k' → Bord N wt.dec_hi.length j' k' := by
  rw [ent_leadSeq_nan_iff _ _ _ _ hs (by rw [sampled_length]; exact hk)]
  apply forall₂_congr; intro j' k'
  apply forall_congr'; intro hn
  rw [coef_nan_iff wt hwt g nm x r hn.1 (fun i hi => hN i (by have := hn.2.1; omega)) (hn.lt_length (by omega))]

/-- The number of non-NaN leaders at scale `s`. -/
noncomputable def usableLeaders (N F s : ℕ) : ℕ :=
  ((Finset.range (N / 2 ^ s - 2)).filter fun k => ∃ j' k', InNbhd s k j' k' ∧ ¬ Bord N F j' k').card

theorem countP_range_card (n : ℕ) (q : ℕ → Bool) : (List.range n).countP q = ((Finset.range n).filter fun k => q k = true).card := by
  induction n with
  | zero => simp
  | succ n ih =>
    rw [List.range_succ, List.countP_append, ih, Finset.range_add_one, Finset.filter_insert]
    cases h : q n
    · simp [h]
    · rw [if_pos rfl, Finset.card_insert_of_notMem (by simp)]
      simp [h]

theorem lead_count (wt : Wavelet) (hwt : wt.Valid) (g nm : ℝ) (p : PExp) {N : ℕ} (x : Fin R → ℤ → ℝ) (r : Fin R)
    {s : ℕ} (hs : 1 ≤ s) (hN : ∀ i < s, 2 * (wt.dec_hi.length + 1) ≤ N / 2 ^ i) :
    countNotNaN (col (leadSeq (wparams wt g nm) p (sampled N x) s) r) = usableLeaders N wt.dec_hi.length s := by
  rw [col_range, leadSeq_length, sampled_length, countNotNaN_countP, List.countP_map, countP_range_card, usableLeaders]
  congr 1
  apply Finset.filter_congr
  intro k hk
  rw [Finset.mem_range] at hk
  have := lead_nan_iff wt hwt g nm p x r hs hN hk
  simp only [Function.comp, Bool.not_eq_true', Fl.not_isNaN_iff, ne_eq, this]
  push Not
  rfl

theorem tooFew_lead_iff (wt : Wavelet) (hwt : wt.Valid) (g nm : ℝ) (p : PExp) {N : ℕ} (x : Fin R → ℤ → ℝ)
    {s : ℕ} (hs : 1 ≤ s) (hN : ∀ i < s, 2 * (wt.dec_hi.length + 1) ≤ N / 2 ^ i) (hR : R ≠ 0) :
    tooFew (leadSeq (wparams wt g nm) p (sampled N x) s) ↔ usableLeaders N wt.dec_hi.length s < 3 := by
  rw [tooFew_iff]
  simp only [lead_count wt hwt g nm p x _ hs hN]
  exact ⟨fun ⟨_, h⟩ => h, fun h => ⟨⟨0, Nat.pos_of_ne_zero hR⟩, h⟩⟩

/-- With a filter of length at least 4, three usable coefficients give three usable leaders. -/
theorem usableLeaders_ge {N F s : ℕ} (hF : 4 ≤ F) (hs : 1 ≤ s) (hN : 2 * (F + 1) ≤ N / 2 ^ (s - 1))
    (h : 3 ≤ usable N F s) : 3 ≤ usableLeaders N F s := by
  have hdiv : N / 2 ^ s = N / 2 ^ (s - 1) / 2 := by
    rw [Nat.div_div_eq_div_mul, ← pow_succ, Nat.sub_add_cancel hs]
  unfold usable at h
  unfold usableLeaders
  set n := N / 2 ^ (s - 1) with hn
  set m := N / 2 ^ s with hm
  -- three explicit positions
  have hin : ∀ k i, i ≤ 2 → InNbhd s k s (k + i) := by
    intro k i hi
    refine ⟨hs, le_rfl, ?_, ?_⟩ <;> simp <;> omega
  have key : ∀ k, k < m - 2 → (F - 1) / 2 ≤ k + 2 → k < (n - F + 1) / 2 →
      k ∈ (Finset.range (m - 2)).filter fun k => ∃ j' k', InNbhd s k j' k' ∧ ¬ Bord N F j' k' := by
    intro k h1 h2 h3
    rw [Finset.mem_filter, Finset.mem_range]
    refine ⟨h1, s, ?_⟩
    by_cases h4 : (F - 1) / 2 ≤ k
    · exact ⟨k + 0, hin k 0 (by omega), by unfold Bord; rw [← hn]; omega⟩
    · by_cases h5 : (F - 1) / 2 ≤ k + 1
      · exact ⟨k + 1, hin k 1 (by omega), by unfold Bord; rw [← hn]; omega⟩
      · exact ⟨k + 2, hin k 2 (by omega), by unfold Bord; rw [← hn]; omega⟩
  -- starting point
  obtain ⟨a, ha1, ha2, ha3⟩ : ∃ a, a + 2 < m - 2 ∧ (F - 1) / 2 ≤ a + 2 ∧ a + 2 < (n - F + 1) / 2 := by
    by_cases hb : (F - 1) / 2 ≤ 2
    · exact ⟨0, by omega, by omega, by omega⟩
    · exact ⟨(F - 1) / 2 - 2, by omega, by omega, by omega⟩
  have hsub : ({a, a + 1, a + 2} : Finset ℕ) ⊆
      (Finset.range (m - 2)).filter fun k => ∃ j' k', InNbhd s k j' k' ∧ ¬ Bord N F j' k' := by
    intro k hk
    simp only [Finset.mem_insert, Finset.mem_singleton] at hk
    rcases hk with rfl | rfl | rfl
    · exact key _ (by omega) (by omega) (by omega)
    · exact key _ (by omega) (by omega) (by omega)
    · exact key _ (by omega) (by omega) (by omega)
  have hc : ({a, a + 1, a + 2} : Finset ℕ).card = 3 := by
    rw [Finset.card_insert_of_notMem, Finset.card_insert_of_notMem, Finset.card_singleton] <;> simp
  rw [← hc]
  exact Finset.card_le_card hsub

theorem FirstBad.congr {n : ℕ} {good good' : ℕ → Prop} {s K : ℕ} (h : FirstBad n good s K)
    (hg : ∀ i < n, (good (s + i) ↔ good' (s + i))) : FirstBad n good' s K :=
  ⟨h.1, fun i hi => (hg i (lt_of_lt_of_le hi h.1)).mp (h.2.1 i hi), fun hn => fun h' => h.2.2 hn ((hg K hn).mpr h')⟩

/-- Everything about the shape of the result of a call on a finite signal. -/
theorem wa_finite {N : ℕ} {x : Fin R → ℤ → ℝ} {p : PExp} {wt : Wavelet} (hwt : wt.Valid) {j1 : ℤ} {j2 : Option ℝ} {g nm : ℝ}
    {weighted : Bool} {w : WT R} (hR : R ≠ 0) (h : waveletAnalysis (sampled N x) p wt j1 j2 g nm weighted = .ok w) :
    ∃ ml K Kc, maxLevel N wt.dec_hi.length = .ok ml ∧
      FirstBad ml.toNat (fun s => 3 ≤ usable N wt.dec_hi.length s ∧
        (p ≠ .none → 3 ≤ usableLeaders N wt.dec_hi.length s)) 1 K ∧
      Kc = (if p = .none ∨ K = ml.toNat ∨ usable N wt.dec_hi.length (K + 1) < 3 then K else K + 1) ∧
      Kc ≤ ml.toNat ∧
      w.wt_coefs = scalesUpTo .coef g (coefSeq (wparams wt g nm) (sampled N x)) Kc ∧
      (w.warned = true ↔ ∃ j, j2 = some j ∧ (ml : ℝ) < j) ∧
      w.j2_eff = j2Eff (finalLevel ml K) j2 ∧
      (match (generalizing := false) p with
       | .none => w.wt_leaders = none
       | .inf => w.wt_leaders = some (scalesUpTo .leader g (leadSeq (wparams wt g nm) .inf (sampled N x)) K)
       | .num e => e.val = 2 ∧ ∃ eta, w.eta_p = some eta ∧ w.wt_leaders = some
              { scalesUpTo .pleader g (leadSeq (wparams wt g nm) (.num e) (sampled N x)) K with
                values := (scalesUpTo .pleader g
                  (corrSeq eta e.val (leadSeq (wparams wt g nm) (.num e) (sampled N x))) K).values }) := by
  have hgc : ∀ ml, maxLevel N wt.dec_hi.length = .ok ml → ∀ i < ml.toNat,
      (¬ tooFew (coefSeq (wparams wt g nm) (sampled N x) (1 + i)) ↔ 3 ≤ usable N wt.dec_hi.length (1 + i)) := by
    intro ml hml i hi
    rw [tooFew_coef_iff wt hwt g nm x (by omega) (fun i' hi' => level_room hml (by omega)) hR, not_lt]
  have hgl : ∀ p ml, maxLevel N wt.dec_hi.length = .ok ml → ∀ i < ml.toNat,
      (¬ tooFew (leadSeq (wparams wt g nm) p (sampled N x) (1 + i)) ↔ 3 ≤ usableLeaders N wt.dec_hi.length (1 + i)) := by
    intro p ml hml i hi
    rw [tooFew_lead_iff wt hwt g nm p x (by omega) (fun i' hi' => level_room hml (by omega)) hR, not_lt]
  have hKc : ∀ p ml K, p ≠ PExp.none → maxLevel N wt.dec_hi.length = .ok ml → K ≤ ml.toNat →
      coefScales (wparams wt g nm) (sampled N x) ml.toNat K
        = (if p = .none ∨ K = ml.toNat ∨ usable N wt.dec_hi.length (K + 1) < 3 then K else K + 1) ∧
      coefScales (wparams wt g nm) (sampled N x) ml.toNat K ≤ ml.toNat := by
    intro p ml K hp hml hK
    unfold coefScales
    by_cases hK' : K = ml.toNat
    · simp [hK']
    · have := hgc ml hml K (by omega)
      rw [Nat.add_comm 1 K] at this
      by_cases ht : tooFew (coefSeq (wparams wt g nm) (sampled N x) (K + 1))
      · have h3 : usable N wt.dec_hi.length (K + 1) < 3 := by
          by_contra h3; exact this.mpr (not_lt.mp h3) ht
        rw [if_pos (Or.inr ht), if_pos (Or.inr (Or.inr h3))]
        exact ⟨rfl, hK⟩
      · have h3 := this.mp ht
        rw [if_neg (by rintro (h | h); exacts [hK' h, ht h]), if_neg (by rintro (h | h | h); exacts [hp h, hK' h, by omega])]
        exact ⟨rfl, by omega⟩
  cases p with
  | none =>
    obtain ⟨ml, K, h1, h2, h3, h4⟩ := wa_none_inv h
    rw [sampled_length] at h1
    refine ⟨ml, K, K, h1, h2.congr (fun i hi => ?_), by simp, h2.1, by rw [h4], h3, by rw [h4], by rw [h4]⟩
    rw [hgc ml h1 i hi]; simp
  | inf =>
    obtain ⟨ml, K, h1, h2, h3, h4⟩ := wa_inf_inv h
    rw [sampled_length] at h1
    refine ⟨ml, K, _, h1, h2.congr (fun i hi => ?_), (hKc .inf ml K (by simp) h1 h2.1).1,
      (hKc .inf ml K (by simp) h1 h2.1).2, by rw [h4], h3, by rw [h4], by rw [h4]⟩
    rw [hgc ml h1 i hi, hgl .inf ml h1 i hi]; simp
  | num e =>
    obtain ⟨h0, ml, K, eta, h1, h2, h3, h4, h5, h6⟩ := wa_num_inv h
    rw [sampled_length] at h1
    refine ⟨ml, K, _, h1, h2.congr (fun i hi => ?_), (hKc (.num e) ml K (by simp) h1 h2.1).1,
      (hKc (.num e) ml K (by simp) h1 h2.1).2, by rw [h6], h3, by rw [h6], h0, eta, by rw [h6], by rw [h6]⟩
    rw [hgc ml h1 i hi, hgl (.num e) ml h1 i hi]; simp

end MFA
