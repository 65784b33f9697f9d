import Verif.Lemmas.Bank
import Verif.Props.Wavelet

/-! NaN patterns and counts of the coefficients of finite signals. -/

namespace MFA

open Classical Finset

variable {R : ℕ}

theorem scalesUpTo_get (fm : Formalism) (g : ℝ) (f : ℕ → Arr R) (K s : ℕ) :
    Dict.get? (scalesUpTo fm g f K).values (s : ℤ) = if 1 ≤ s ∧ s ≤ K then some (f s) else none := by
  simp only [scalesUpTo]
  by_cases h : 1 ≤ s ∧ s ≤ K
  · rw [if_pos h]
    have := dictGet_of_nodup (fun p : ℤ × Arr R => p.2) (scalesUpTo fm g f K).values
      (scalesUpTo_regular fm g f K).nodup ((s : ℤ), f s) (by
        simp only [scalesUpTo, List.mem_map, List.mem_range]
        exact ⟨s - 1, by omega, by rw [Nat.sub_add_cancel h.1]⟩)
    have e : ((scalesUpTo fm g f K).values.map fun p => (p.1, p.2)) = (scalesUpTo fm g f K).values := by simp
    rw [e] at this
    exact this
  · rw [if_neg h]
    have : ∀ d : Dict (Arr R), (s : ℤ) ∉ d.map Prod.fst → Dict.get? d (s : ℤ) = none := by
      intro d
      induction d with
      | nil => intro _; rfl
      | cons p d ih =>
        obtain ⟨k, v⟩ := p
        intro hn
        rw [List.map_cons, List.mem_cons, not_or] at hn
        rw [Dict.get?, if_neg (fun e => hn.1 e.symm), ih hn.2]
    apply this
    intro hm
    simp only [List.map_map, List.mem_map, List.mem_range, Function.comp] at hm
    obtain ⟨i, hi, e⟩ := hm
    have : i + 1 = s := by exact_mod_cast e
    omega

theorem getElem?_ent (a : Arr R) {k : ℕ} (hk : k < a.length) (r : Fin R) :
    (a[k]?).map (fun row => row r) = some (ent a k r) := by
  simp [ent, hk]

theorem scalesUpTo_val (fm : Formalism) (g : ℝ) (f : ℕ → Arr R) (K s k : ℕ) (r : Fin R) :
    (scalesUpTo fm g f K).val? s k r
      = if 1 ≤ s ∧ s ≤ K ∧ k < (f s).length then some (ent (f s) k r) else none := by
  unfold MRQ.val?
  rw [scalesUpTo_get]
  by_cases h : 1 ≤ s ∧ s ≤ K
  · rw [if_pos h, Option.bind_some]
    by_cases hk : k < (f s).length
    · rw [if_pos ⟨h.1, h.2, hk⟩, getElem?_ent _ hk]
    · rw [if_neg (fun hh => hk hh.2.2), List.getElem?_eq_none (by omega)]; rfl
  · rw [if_neg h, if_neg (fun hh => h ⟨hh.1, hh.2.1⟩)]; rfl

theorem scalesUpTo_nj (fm : Formalism) (g : ℝ) (f : ℕ → Arr R) (K s : ℕ) (r : Fin R) :
    (scalesUpTo fm g f K).nj? s r = if 1 ≤ s ∧ s ≤ K then some (countNotNaN (col (f s) r)) else none := by
  unfold MRQ.nj?
  have hh : (scalesUpTo fm g f K).nj = (scalesUpTo fm g f K).values.map (fun p => (p.1, fun r => countNotNaN (col p.2 r))) :=
    (scalesUpTo_regular fm g f K).2
  have gen : ∀ d : List (ℤ × Arr R), Dict.get? (d.map (fun p => (p.1, fun r => countNotNaN (col p.2 r)))) (s : ℤ)
      = (Dict.get? d (s : ℤ)).map (fun a r => countNotNaN (col a r)) := by
    intro d
    induction d with
    | nil => rfl
    | cons p d ih =>
      obtain ⟨k, v⟩ := p
      rw [List.map_cons, Dict.get?, Dict.get?]
      split
      · rfl
      · exact ih
  rw [hh, gen, scalesUpTo_get]
  by_cases h : 1 ≤ s ∧ s ≤ K
  · rw [if_pos h, if_pos h]; rfl
  · rw [if_neg h, if_neg h]; rfl

/-! ### Counting -/

theorem countP_range_interval (a b m : ℕ) :
    (List.range m).countP (fun k => decide (a ≤ k ∧ k < b)) = min m b - a := by
  induction m with
  | zero => simp
  | succ m ih =>
    rw [List.range_succ, List.countP_append, ih]
    by_cases h : a ≤ m ∧ m < b
    · simp [h]; omega
    · simp [h]; omega

theorem countNotNaN_countP (l : List Fl) : countNotNaN l = l.countP (fun x => !x.isNaN) := by
  simp only [countNotNaN, dropNaN, List.countP_eq_length_filter]

/-- The number of usable coefficients at scale `s` of a signal of length `N`, for a filter of length `F`. -/
def usable (N F s : ℕ) : ℕ := (N / 2 ^ (s - 1) - F + 1) / 2 - (F - 1) / 2

theorem count_coef (wt : Wavelet) (hwt : wt.Valid) (g nm : ℝ) {N : ℕ} (x : Fin R → ℤ → ℝ) (r : Fin R) {s : ℕ}
    (hs : 1 ≤ s) (hN : ∀ i < s, wt.dec_hi.length ≤ N / 2 ^ i + 1) (hN' : wt.dec_hi.length ≤ N / 2 ^ (s - 1)) :
    countNotNaN (col (coefSeq (wparams wt g nm) (sampled N x) s) r) = usable N wt.dec_hi.length s := by
  have hlen : (coefSeq (wparams wt g nm) (sampled N x) s).length = N / 2 ^ s := by
    rw [coefSeq_length _ _ _ hs, sampled_length]
  have hdiv : N / 2 ^ s = N / 2 ^ (s - 1) / 2 := by
    rw [Nat.div_div_eq_div_mul, ← pow_succ, Nat.sub_add_cancel hs]
  have hF := hwt.pos
  rw [col_range, hlen, countNotNaN_countP, List.countP_map]
  rw [List.countP_congr (q := fun k => decide ((wt.dec_hi.length - 1) / 2 ≤ k ∧
    k < (N / 2 ^ (s - 1) - wt.dec_hi.length + 1) / 2)), countP_range_interval, usable]
  · omega
  · intro k hk
    rw [List.mem_range] at hk
    simp only [Function.comp, decide_eq_true_eq]
    rw [coef_ent wt hwt g nm x r hs hN hk]
    split
    · rename_i hb; simp; omega
    · rename_i hb; simp; omega

theorem tooFew_coef_iff (wt : Wavelet) (hwt : wt.Valid) (g nm : ℝ) {N : ℕ} (x : Fin R → ℤ → ℝ) {s : ℕ}
    (hs : 1 ≤ s) (hN : ∀ i < s, 2 * (wt.dec_hi.length + 1) ≤ N / 2 ^ i) (hR : R ≠ 0) :
    tooFew (coefSeq (wparams wt g nm) (sampled N x) s) ↔ usable N wt.dec_hi.length s < 3 := by
  rw [tooFew_iff]
  have : ∀ r, countNotNaN (col (coefSeq (wparams wt g nm) (sampled N x) s) r) = usable N wt.dec_hi.length s := fun r =>
    count_coef wt hwt g nm x r hs (fun i hi => by have := hN i hi; omega) (by have := hN (s - 1) (by omega); omega)
  simp only [this]
  exact ⟨fun ⟨_, h⟩ => h, fun h => ⟨⟨0, Nat.pos_of_ne_zero hR⟩, h⟩⟩

/-- The three-coefficient rule can only fail at the last scale. -/
theorem usable_before_last {N F s : ℕ} (hF : 1 ≤ F) (hs : 1 ≤ s) (hN : 2 * (F + 1) ≤ N / 2 ^ s) : 3 ≤ usable N F s := by
  unfold usable
  have hdiv : N / 2 ^ s = N / 2 ^ (s - 1) / 2 := by
    rw [Nat.div_div_eq_div_mul, ← pow_succ, Nat.sub_add_cancel hs]
  omega

end MFA
