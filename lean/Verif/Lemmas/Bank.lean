import Verif.Spec.FilterBank
import Verif.Lemmas.WaveletTop

/-! The modelled transform agrees with the ideal filter bank. -/

namespace MFA

open Classical Finset

variable {R : ℕ}

theorem sampled_length (N : ℕ) (x : Fin R → ℤ → ℝ) : (sampled N x).length = N := by simp [sampled]

theorem list_sum_range (n : ℕ) (f : ℕ → ℝ) : ((List.range n).map f).sum = ∑ i ∈ range n, f i := by
  induction n with
  | zero => simp
  | succ n ih => rw [List.range_succ, List.map_append, List.sum_append, ih, Finset.sum_range_succ]; simp

theorem padGet_ent {a : Arr R} {t : ℤ} (h0 : 0 ≤ t) (h1 : t < a.length) (r : Fin R) :
    padGet a t r = ent a t.toNat r := by
  have : t.toNat < a.length := by omega
  simp [padGet, h0, ent, this]

/-- A convolution window that only meets finite entries. -/
theorem convAt_fin {a : Arr R} {f : List ℝ} {i : ℕ} {r : Fin R} {y : ℤ → ℝ}
    (h : ∀ m < f.length, padGet a ((i : ℤ) + ((f.length - 1) / 2 : ℕ) - m) r
      = Fl.fin (y ((i : ℤ) + ((f.length - 1) / 2 : ℕ) - m))) :
    convAt a f i r = Fl.fin (∑ m ∈ range f.length, f.getD m 0 * y ((i : ℤ) + ((f.length - 1) / 2 : ℕ) - m)) := by
  rw [convAt, ← list_sum_range, ← Fl.sum_map_fin, List.map_map]
  congr 1
  apply List.map_congr_left
  intro m hm
  rw [h m (List.mem_range.mp hm), Fl.fin_mul]; rfl

/-- Where the entries of `a` are the finite values `y`: positions `k` with `lo ≤ k < hi`. -/
def AgreesOn (a : Arr R) (r : Fin R) (y : ℤ → ℝ) (good : ℕ → Prop) : Prop :=
  ∀ k < a.length, good k → ent a k r = Fl.fin (y k)

theorem filt_ent (F : ℕ) (a : Arr R) (f : List ℝ) {k : ℕ} (hk : k < a.length / 2) (r : Fin R) :
    ent (filt F a f) k r = if Masked F a.length (2 * k + 1) then Fl.nan else convAt a f (2 * k + 1) r := by
  rw [filt, ent_map_range _ hk]

/-- One filtering step: if `a` agrees with `y` where `2i+1 ≥ F-1` and `2i+1 + F ≤ 2n+1`, the output agrees with the
ideal output off the border mask and is NaN on it. -/
theorem filt_step {F : ℕ} {a : Arr R} {f : List ℝ} (hf : f.length = F) (hF : 1 ≤ F) (hn : F ≤ a.length + 1) {r : Fin R}
    {y : ℤ → ℝ} {good : ℕ → Prop} (hg : AgreesOn a r y good)
    (hgood : ∀ i < a.length, F ≤ 2 * i + 2 → 2 * i + 1 + F ≤ 2 * a.length → good i) {k : ℕ} (hk : k < a.length / 2) :
    ent (filt F a f) k r
      = if 2 * k + 1 < F - 1 ∨ a.length < 2 * k + 1 + F then Fl.nan else Fl.fin (downFilter f y k) := by
  rw [filt_ent _ _ _ hk]
  have hi : 2 * k + 1 < a.length := by omega
  have hm := masked_iff hF hn hi
  by_cases hb : 2 * k + 1 < F - 1 ∨ a.length < 2 * k + 1 + F
  · have hM : Masked F a.length (2 * k + 1) := hm.mpr (by omega)
    rw [if_pos hM, if_pos hb]
  · have hM : ¬ Masked F a.length (2 * k + 1) := fun h => hb (by have := hm.mp h; omega)
    rw [if_neg hM, if_neg hb, convAt_fin (y := y)]
    · rw [downFilter]; push_cast; rfl
    · intro m hm'
      rw [hf] at hm'
      have e : ((((2 * k + 1 : ℕ) : ℤ)) + ((f.length - 1) / 2 : ℕ) - m)
          = ((2 * k + 1 + (f.length - 1) / 2 - m : ℕ) : ℤ) := by rw [hf]; omega
      rw [e, padGet_ent (by omega) (by rw [hf]; omega), Int.toNat_natCast]
      apply hg _ (by rw [hf]; omega)
      apply hgood _ (by rw [hf]; omega) <;> (rw [hf]; omega)

theorem ent_sampled {N : ℕ} (x : Fin R → ℤ → ℝ) {k : ℕ} (hk : k < N) (r : Fin R) :
    ent (sampled N x) k r = Fl.fin (x r k) := by
  rw [sampled, ent_map_range _ hk]

/-- Which positions of the approximation at level `j` are finite. -/
def goodAt (N F : ℕ) : ℕ → ℕ → Prop
  | 0, _ => True
  | j + 1, k => ¬ (2 * k + 1 < F - 1 ∨ N / 2 ^ j < 2 * k + 1 + F)

theorem goodAt_of_window {N F j i : ℕ} (h2 : F ≤ 2 * i + 2)
    (h3 : 2 * i + 1 + F ≤ 2 * (N / 2 ^ j)) : goodAt N F j i := by
  cases j with
  | zero => trivial
  | succ j =>
    have : 2 * (N / 2 ^ (j + 1)) ≤ N / 2 ^ j := by rw [pow_succ, ← Nat.div_div_eq_div_mul]; omega
    show ¬ _
    omega

theorem filt_bank {F N j : ℕ} {a : Arr R} {f : List ℝ} (hlen : a.length = N / 2 ^ j) (hf : f.length = F) (hF : 1 ≤ F)
    (hN : F ≤ N / 2 ^ j + 1) {r : Fin R} {y : ℤ → ℝ} (hg : AgreesOn a r y (goodAt N F j)) {k : ℕ}
    (hk : k < N / 2 ^ (j + 1)) :
    ent (filt F a f) k r
      = if 2 * k + 1 < F - 1 ∨ N / 2 ^ j < 2 * k + 1 + F then Fl.nan else Fl.fin (downFilter f y k) := by
  have := filt_step (k := k) hf hF (by rw [hlen]; exact hN) hg (fun i hi h2 h3 => by
    rw [hlen] at h3; exact goodAt_of_window h2 h3) (by rw [hlen, Nat.div_div_eq_div_mul, ← pow_succ]; exact hk)
  rwa [hlen] at this

theorem approx_agrees (P : LoopParams) {F N : ℕ} (hl : P.low.length = F) (hh : P.high.length = F) (hF : 1 ≤ F)
    (x : Fin R → ℤ → ℝ) (r : Fin R) : ∀ j, (∀ i < j, F ≤ N / 2 ^ i + 1) →
    AgreesOn (approxSeq P (sampled N x) j) r (idealApprox P.low (x r) j) (goodAt N F j) := by
  intro j
  induction j with
  | zero =>
    intro _ k hk _
    rw [approxSeq, sampled_length] at hk
    exact ent_sampled x hk r
  | succ j ih =>
    intro hN k hk hgk
    rw [approxSeq_length, sampled_length] at hk
    rw [approxSeq, filtering_eq, hh]
    have := filt_bank (f := P.low) (by rw [approxSeq_length, sampled_length]) hl hF (hN j (by omega))
      (ih (fun i hi => hN i (by omega))) hk
    simp only at this ⊢
    rw [this, if_neg hgk]; rfl

theorem downFilter_neg (f : List ℝ) (x : ℤ → ℝ) (k : ℤ) :
    downFilter (f.map fun t => -1 * t) x k = - downFilter f x k := by
  rw [downFilter, downFilter, List.length_map, ← Finset.sum_neg_distrib]
  apply Finset.sum_congr rfl
  intro m hm
  have hm' : m < f.length := by simpa using hm
  simp [List.getD, hm']

/-- The factor of scale `s`. -/
noncomputable def scaleFactor (nm g : ℝ) (s : ℕ) : ℝ :=
  (2:ℝ) ^ ((s : ℝ) * (1 / 2 - 1 / nm)) * (2:ℝ) ^ (g * (s : ℝ))

theorem scaleFactor_eq (nm g : ℝ) (s : ℕ) : scaleFactor nm g s = (2:ℝ) ^ ((s : ℝ) * (1 / 2 - 1 / nm + g)) := by
  rw [scaleFactor, ← Real.rpow_add (by norm_num)]; congr 1; ring

theorem scaleFactor_pos (nm g : ℝ) (s : ℕ) : 0 < scaleFactor nm g s := by unfold scaleFactor; positivity

theorem coef_ent (wt : Wavelet) (hwt : wt.Valid) (g nm : ℝ) {N : ℕ} (x : Fin R → ℤ → ℝ) (r : Fin R) {s k : ℕ}
    (hs : 1 ≤ s) (hN : ∀ i < s, wt.dec_hi.length ≤ N / 2 ^ i + 1) (hk : k < N / 2 ^ s) :
    ent (coefSeq (wparams wt g nm) (sampled N x) s) k r
      = if 2 * k + 1 < wt.dec_hi.length - 1 ∨ N / 2 ^ (s - 1) < 2 * k + 1 + wt.dec_hi.length then Fl.nan
        else Fl.fin (scaleFactor nm g s * idealDetail wt (x r) s k) := by
  obtain ⟨j, rfl⟩ : ∃ j, s = j + 1 := ⟨s - 1, by omega⟩
  have hdl : (detailSeq (wparams wt g nm) (sampled N x) j).length = N / 2 ^ (j + 1) := by
    rw [detailSeq_length, sampled_length]
  rw [coefSeq, scaled, ent_mapArr _ _ (by rw [Nat.add_sub_cancel, hdl]; exact hk), Nat.add_sub_cancel,
    detailSeq, filtering_eq]
  have hh : (wparams wt g nm).high.length = wt.dec_hi.length := by simp [wparams]
  have hl : (wparams wt g nm).low.length = wt.dec_hi.length := hwt.same
  have := filt_bank (f := (wparams wt g nm).high) (by rw [approxSeq_length, sampled_length]) hh hwt.pos (hN j (by omega))
    (approx_agrees (wparams wt g nm) hl hh hwt.pos x r j (fun i hi => hN i (by omega))) hk
  simp only [hh]
  rw [this]
  by_cases hb : 2 * k + 1 < wt.dec_hi.length - 1 ∨ N / 2 ^ j < 2 * k + 1 + wt.dec_hi.length
  · rw [if_pos hb, if_pos hb]; simp
  · rw [if_neg hb, if_neg hb]
    have e : downFilter (wparams wt g nm).high (idealApprox (wparams wt g nm).low (x r) j) k
        = idealDetail wt (x r) (j + 1) k := by
      rw [idealDetail, Nat.add_sub_cancel]; exact downFilter_neg _ _ _
    rw [e]
    simp only [Fl.fin_mul, scaleFactor, wparams]
    congr 1; ring

/-- Scales within the decomposition level leave room for the filter. -/
theorem level_room {N F : ℕ} {ml : ℤ} (h : maxLevel N F = .ok ml) {i : ℕ} (hi : i < ml.toNat) :
    2 * (F + 1) ≤ N / 2 ^ i := by
  have hN := maxLevel_nonzero h
  have hml : ((ml.toNat : ℕ) : ℤ) = ml := by omega
  rw [maxLevel, if_neg hN] at h
  have h2 : ml ≤ ⌊Real.logb 2 ((N : ℝ) / ((F : ℝ) + 1))⌋ := by rw [← Except.ok.inj h]; exact min_le_right _ _
  have hF : (0:ℝ) < (F : ℝ) + 1 := by positivity
  have hNp : (0:ℝ) < (N : ℝ) := by exact_mod_cast Nat.pos_of_ne_zero hN
  rw [Int.le_floor, Real.le_logb_iff_rpow_le (by norm_num) (by positivity), le_div_iff₀ hF, Real.rpow_intCast, ← hml,
    zpow_natCast] at h2
  have h3 : 2 ^ ml.toNat * (F + 1) ≤ N := by exact_mod_cast h2
  rw [Nat.le_div_iff_mul_le (by positivity)]
  calc 2 * (F + 1) * 2 ^ i = 2 ^ (i + 1) * (F + 1) := by ring
    _ ≤ 2 ^ ml.toNat * (F + 1) := Nat.mul_le_mul_right _ (Nat.pow_le_pow_right (by norm_num) hi)
    _ ≤ N := h3

end MFA
