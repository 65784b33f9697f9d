import Verif.Spec.Missing
import Verif.Lemmas.Pattern
import Verif.Lemmas.IdealBank

/-! The samples behind a wavelet coefficient. -/

namespace MFA

open Classical Finset

variable {R : ℕ}

theorem uses_zero (F : ℕ) (k t : ℤ) : Uses F 0 k t ↔ t = k := by
  unfold Uses firstSample lastSample
  simp
  omega

theorem firstSample_succ (F j : ℕ) (k : ℤ) :
    firstSample F (j + 1) k = firstSample F j (2 * k + 1 + ((F - 1) / 2 : ℕ) - (F - 1)) := by
  unfold firstSample; ring

theorem lastSample_succ (F j : ℕ) (k : ℤ) : lastSample F (j + 1) k = lastSample F j (2 * k + 1 + ((F - 1) / 2 : ℕ)) := by
  unfold lastSample; ring

theorem firstSample_add (F j : ℕ) (k m : ℤ) : firstSample F j (k + m) = firstSample F j k + 2 ^ j * m := by
  unfold firstSample; ring

theorem lastSample_add (F j : ℕ) (k m : ℤ) : lastSample F j (k + m) = lastSample F j k + 2 ^ j * m := by
  unfold lastSample; ring

theorem last_eq (F j : ℕ) (k : ℤ) : lastSample F j k = firstSample F j k + (2 ^ j - 1) * (F - 1) := by
  unfold lastSample firstSample; ring

theorem two_pow_ge (j : ℕ) : (1:ℤ) ≤ 2 ^ j := one_le_pow₀ (by norm_num)

/-- The window at scale `j + 1` is the union of the windows it is computed from. -/
theorem uses_succ {F : ℕ} (hF : 1 ≤ F) (j : ℕ) (k t : ℤ) :
    Uses F (j + 1) k t ↔ ∃ m < F, Uses F j (2 * k + 1 + ((F - 1) / 2 : ℕ) - (m : ℕ)) t := by
  have h2 := two_pow_ge j
  have key : ∀ (K : ℤ) (n : ℕ), n < F → firstSample F j (K - n) ≤ t → t ≤ lastSample F j K → ∃ m < F, Uses F j (K - (m : ℕ)) t := by
    intro K n
    induction n with
    | zero => intro hn h1 h3; exact ⟨0, hn, h1, by simpa using h3⟩
    | succ n ih =>
      intro hn h1 h3
      by_cases hc : firstSample F j (K - n) ≤ t
      · exact ih (by omega) hc h3
      · refine ⟨n + 1, hn, h1, ?_⟩
        have e : firstSample F j (K - n) = firstSample F j (K - (n + 1 : ℕ)) + 2 ^ j := by
          rw [show (K - n : ℤ) = (K - (n + 1 : ℕ)) + 1 by push_cast; ring, firstSample_add]; ring
        rw [last_eq]
        have hF2 : (1:ℤ) ≤ F - 1 := by omega
        have : (2 ^ j - 1) * 1 ≤ ((2:ℤ) ^ j - 1) * (F - 1) := mul_le_mul_of_nonneg_left hF2 (by omega)
        omega
  constructor
  · rintro ⟨h1, h3⟩
    rw [firstSample_succ] at h1
    rw [lastSample_succ] at h3
    exact key _ (F - 1) (by omega) (by rw [Nat.cast_sub hF]; exact_mod_cast h1) h3
  · rintro ⟨m, hm, h1, h3⟩
    constructor
    · rw [firstSample_succ]
      refine le_trans ?_ h1
      rw [show (2 * k + 1 + ((F - 1) / 2 : ℕ) - (m : ℕ) : ℤ) = (2 * k + 1 + ((F - 1) / 2 : ℕ) - (F - 1)) + (F - 1 - m) by ring, firstSample_add]
      have : (0:ℤ) ≤ 2 ^ j * (F - 1 - m) := mul_nonneg (by omega) (by omega)
      omega
    · rw [lastSample_succ]
      refine h3.trans ?_
      rw [show (2 * k + 1 + ((F - 1) / 2 : ℕ) - (m : ℕ) : ℤ) = (2 * k + 1 + ((F - 1) / 2 : ℕ)) + (-m) by ring, lastSample_add]
      have : (0:ℤ) ≤ 2 ^ j * m := mul_nonneg (by omega) (by omega)
      rw [mul_neg]
      omega

theorem Fl.IsNumber.of_add {a b : Fl} (h : (a + b).IsNumber) : a.IsNumber ∧ b.IsNumber := by
  obtain ⟨x, hx⟩ := h
  cases a <;> cases b <;> first
    | exact ⟨⟨_, rfl⟩, ⟨_, rfl⟩⟩
    | (exfalso; change Fl.add _ _ = _ at hx; simp [Fl.add] at hx)

theorem Fl.IsNumber.of_fin_mul {a : ℝ} {b : Fl} (h : (Fl.fin a * b).IsNumber) : b.IsNumber := by
  obtain ⟨x, hx⟩ := h
  change Fl.mul _ _ = _ at hx
  cases b with
  | fin y => exact ⟨y, rfl⟩
  | nan => simp [Fl.mul] at hx
  | pinf => simp only [Fl.mul, Fl.sgnInf] at hx; split at hx; cases hx; split at hx <;> cases hx
  | ninf => simp only [Fl.mul, Fl.sgnInf] at hx; split at hx; cases hx; split at hx <;> cases hx

theorem isNumber_of_sum {l : List Fl} (h : l.sum.IsNumber) : ∀ x ∈ l, x.IsNumber := by
  induction l with
  | nil => simp
  | cons a l ih =>
    rw [List.sum_cons] at h
    obtain ⟨h1, h2⟩ := h.of_add
    intro x hx
    rcases List.mem_cons.1 hx with rfl | hx
    · exact h1
    · exact ih h2 x hx

/-- One filtering step at a position off the border mask. -/
theorem filt_at {F : ℕ} {a : Arr R} {f : List ℝ} (hf : f.length = F) (hF : 1 ≤ F) (hn : F ≤ a.length + 1) (r : Fin R) {k : ℕ} (hk : k < a.length / 2)
    (hb : ¬ (2 * k + 1 < F - 1 ∨ a.length < 2 * k + 1 + F)) :
    ent (filt F a f) k r = ((List.range F).map fun m => Fl.fin (f.getD m 0) * ent a (2 * k + 1 + (F - 1) / 2 - m) r).sum := by
  rw [filt_ent _ _ _ hk]
  have hi : 2 * k + 1 < a.length := by omega
  have hm := masked_iff hF hn hi
  have hM : ¬ Masked F a.length (2 * k + 1) := fun h => hb (by have := hm.mp h; omega)
  rw [if_neg hM, convAt, hf]
  congr 1
  apply List.map_congr_left
  intro m hm'
  rw [List.mem_range] at hm'
  have e : ((((2 * k + 1 : ℕ) : ℤ)) + ((F - 1) / 2 : ℕ) - m) = ((2 * k + 1 + (F - 1) / 2 - m : ℕ) : ℤ) := by omega
  rw [e, padGet_ent (by omega) (by omega), Int.toNat_natCast]

/-- Entry `k` of an array computed from a recording of `N` samples: it is `y x` when the samples of its window are the numbers `x`, and no number when one of
them is not. -/
structure From (sig : Arr R) (r : Fin R) (N F j k : ℕ) (e : Fl) (y : (ℤ → ℝ) → ℝ) : Prop where
  inside : ∀ t, Uses F j k t → 0 ≤ t ∧ t < N
  value : ∀ x : ℤ → ℝ, (∀ t, Uses F j k t → ent sig t.toNat r = Fl.fin (x t)) → e = Fl.fin (y x)
  lost : ∀ t, Uses F j k t → ¬ (ent sig t.toNat r).IsNumber → ¬ e.IsNumber

theorem from_step {F N j : ℕ} {sig a : Arr R} {f : List ℝ} (hlen : a.length = N / 2 ^ j) (hf : f.length = F) (hF : 1 ≤ F) (hN : F ≤ N / 2 ^ j + 1)
    {r : Fin R} {y : (ℤ → ℝ) → ℤ → ℝ} (hg : ∀ k < N / 2 ^ j, goodAt N F j k → From sig r N F j k (ent a k r) fun x => y x k) {k : ℕ}
    (hk : k < N / 2 ^ (j + 1)) (hb : ¬ (2 * k + 1 < F - 1 ∨ N / 2 ^ j < 2 * k + 1 + F)) :
    From sig r N F (j + 1) k (ent (filt F a f) k r) fun x => downFilter f (y x) k := by
  have hk' : k < a.length / 2 := by rw [hlen, Nat.div_div_eq_div_mul, ← pow_succ]; exact hk
  have hw : ∀ m < F, From sig r N F j (2 * k + 1 + (F - 1) / 2 - m) (ent a (2 * k + 1 + (F - 1) / 2 - m) r)
      fun x => y x ((2 * k + 1 + (F - 1) / 2 - m : ℕ) : ℤ) := by
    intro m hm
    exact hg _ (by omega) (goodAt_of_window (by omega) (by omega))
  have ec : ∀ m < F, ((2 * k + 1 + (F - 1) / 2 - m : ℕ) : ℤ) = 2 * (k : ℤ) + 1 + ((F - 1) / 2 : ℕ) - (m : ℕ) := fun m hm => by omega
  have hat := filt_at hf hF (by rw [hlen]; exact hN) r hk' (by rw [hlen]; exact hb)
  have hu : ∀ t, Uses F (j + 1) k t ↔ ∃ m < F, Uses F j ((2 * k + 1 + (F - 1) / 2 - m : ℕ) : ℤ) t := by
    intro t
    rw [uses_succ hF]
    exact exists_congr fun m => and_congr_right fun hm => by rw [ec m hm]
  refine ⟨fun t ht => ?_, fun x hx => ?_, fun t ht hne => ?_⟩
  · obtain ⟨m, hm, h⟩ := (hu t).1 ht
    exact (hw m hm).inside t h
  · rw [hat]
    have : ((List.range F).map fun m => Fl.fin (f.getD m 0) * ent a (2 * k + 1 + (F - 1) / 2 - m) r)
        = ((List.range F).map fun (m : ℕ) => f.getD m 0 * y x (2 * (k : ℤ) + 1 + ((F - 1) / 2 : ℕ) - m)).map Fl.fin := by
      rw [List.map_map]
      apply List.map_congr_left
      intro m hm
      rw [List.mem_range] at hm
      rw [(hw m hm).value x fun t ht => hx t ((hu t).2 ⟨m, hm, ht⟩), Fl.fin_mul, ec m hm]; rfl
    rw [this, Fl.sum_map_fin, list_sum_range, downFilter, hf]
  · obtain ⟨m, hm, h⟩ := (hu t).1 ht
    rw [hat]
    intro hc
    exact (hw m hm).lost t h hne (isNumber_of_sum hc _ (List.mem_map.2 ⟨m, List.mem_range.2 hm, rfl⟩)).of_fin_mul

theorem approx_from (P : LoopParams) {F : ℕ} (hl : P.low.length = F) (hh : P.high.length = F) (hF : 1 ≤ F) (sig : Arr R) (r : Fin R) :
    ∀ j, (∀ i < j, F ≤ sig.length / 2 ^ i + 1) → ∀ k < sig.length / 2 ^ j, goodAt sig.length F j k →
      From sig r sig.length F j k (ent (approxSeq P sig j) k r) fun x => idealApprox P.low x j k := by
  intro j
  induction j with
  | zero =>
    intro _ k hk _
    rw [pow_zero, Nat.div_one] at hk
    refine ⟨fun t ht => ?_, fun x hx => ?_, fun t ht hne => ?_⟩
    · rw [uses_zero] at ht; omega
    · have := hx k ((uses_zero _ _ _).2 rfl)
      rwa [Int.toNat_natCast] at this
    · rw [uses_zero] at ht; subst ht; exact hne
  | succ j ih =>
    intro hN k hk hgk
    rw [approxSeq, filtering_eq, hh]
    exact from_step (f := P.low) (approxSeq_length _ _ _) hl hF (hN j (by omega)) (ih fun i hi => hN i (by omega)) hk hgk

theorem coef_from (wt : Wavelet) (hwt : wt.Valid) (g nm : ℝ) (sig : Arr R) (r : Fin R) {s k : ℕ} (hs : 1 ≤ s)
    (hN : ∀ i < s, wt.dec_hi.length ≤ sig.length / 2 ^ i + 1) (hk : k < sig.length / 2 ^ s)
    (hb : ¬ (2 * k + 1 < wt.dec_hi.length - 1 ∨ sig.length / 2 ^ (s - 1) < 2 * k + 1 + wt.dec_hi.length)) :
    From sig r sig.length wt.dec_hi.length s k (ent (coefSeq (wparams wt g nm) sig s) k r) fun x => scaleFactor nm g s * idealDetail wt x s k := by
  obtain ⟨j, rfl⟩ : ∃ j, s = j + 1 := ⟨s - 1, by omega⟩
  rw [coefSeq, scaled, ent_mapArr _ _ (by rw [Nat.add_sub_cancel, detailSeq_length]; exact hk), Nat.add_sub_cancel, detailSeq, filtering_eq]
  have hh : (wparams wt g nm).high.length = wt.dec_hi.length := by simp [wparams]
  have hl : (wparams wt g nm).low.length = wt.dec_hi.length := hwt.same
  have := from_step (f := (wparams wt g nm).high) (approxSeq_length (wparams wt g nm) sig j) hh hwt.pos (hN j (by omega))
    (approx_from (wparams wt g nm) hl hh hwt.pos sig r j (fun i hi => hN i (by omega))) hk (by rwa [Nat.add_sub_cancel] at hb)
  rw [hh]
  refine ⟨this.inside, fun x hx => ?_, fun t ht hne hc => this.lost t ht hne ?_⟩
  · rw [this.value x hx]
    have e : downFilter (wparams wt g nm).high (idealApprox (wparams wt g nm).low x j) k = idealDetail wt x (j + 1) k := by
      rw [idealDetail, Nat.add_sub_cancel]; exact downFilter_neg _ _ _
    rw [e]
    simp only [Fl.fin_mul, scaleFactor, wparams]
    congr 1; ring
  · rw [mul_comm, mul_comm (ent _ _ _)] at hc
    exact hc.of_fin_mul.of_fin_mul

/-- The window of a border position needs no comment: the entry is NaN. -/
theorem coef_border (wt : Wavelet) (hwt : wt.Valid) (g nm : ℝ) (sig : Arr R) (r : Fin R) {s k : ℕ} (hs : 1 ≤ s)
    (hN : ∀ i < s, wt.dec_hi.length ≤ sig.length / 2 ^ i + 1) (hk : k < sig.length / 2 ^ s)
    (hb : 2 * k + 1 < wt.dec_hi.length - 1 ∨ sig.length / 2 ^ (s - 1) < 2 * k + 1 + wt.dec_hi.length) :
    ent (coefSeq (wparams wt g nm) sig s) k r = Fl.nan := by
  obtain ⟨j, rfl⟩ : ∃ j, s = j + 1 := ⟨s - 1, by omega⟩
  rw [coefSeq, scaled, ent_mapArr _ _ (by rw [Nat.add_sub_cancel, detailSeq_length]; exact hk), Nat.add_sub_cancel, detailSeq, filtering_eq]
  have hh : (wparams wt g nm).high.length = wt.dec_hi.length := by simp [wparams]
  have hk' : k < (approxSeq (wparams wt g nm) sig j).length / 2 := by rw [approxSeq_length, Nat.div_div_eq_div_mul, ← pow_succ]; exact hk
  simp only
  rw [hh, filt_ent _ _ _ hk', if_pos]
  · simp
  · rw [masked_iff hwt.pos (by rw [approxSeq_length]; exact hN j (by omega)) (by omega), approxSeq_length]
    rw [Nat.add_sub_cancel] at hb
    omega

end MFA

namespace MFA

open Classical Finset

variable {R : ℕ}

/-- NaN or a number. -/
def NoInfCol (v : Fl) : Prop := v = Fl.nan ∨ v.IsNumber

theorem NoInfCol.add {a b : Fl} (ha : NoInfCol a) (hb : NoInfCol b) : NoInfCol (a + b) := by
  rcases ha with rfl | ⟨x, rfl⟩
  · exact Or.inl (by simp)
  · rcases hb with rfl | ⟨y, rfl⟩
    · exact Or.inl (by simp)
    · exact Or.inr ⟨x + y, Fl.fin_add x y⟩

theorem NoInfCol.mul {a b : Fl} (ha : NoInfCol a) (hb : NoInfCol b) : NoInfCol (a * b) := by
  rcases ha with rfl | ⟨x, rfl⟩
  · exact Or.inl (by simp)
  · rcases hb with rfl | ⟨y, rfl⟩
    · exact Or.inl (by simp)
    · exact Or.inr ⟨x * y, Fl.fin_mul x y⟩

theorem NoInfCol.sum {l : List Fl} (h : ∀ x ∈ l, NoInfCol x) : NoInfCol l.sum := by
  induction l with
  | nil => exact Or.inr ⟨0, rfl⟩
  | cons a l ih => rw [List.sum_cons]; exact (h a (by simp)).add (ih fun x hx => h x (by simp [hx]))

theorem noInf_padGet {a : Arr R} {r : Fin R} (h : ∀ k, NoInfCol (ent a k r)) (t : ℤ) : NoInfCol (padGet a t r) := by
  unfold padGet
  split
  · cases ha : a[t.toNat]? with
    | none => exact Or.inr ⟨0, rfl⟩
    | some row =>
      have := h t.toNat
      unfold ent at this
      rwa [ha] at this
  · exact Or.inr ⟨0, rfl⟩

theorem ent_oob {a : Arr R} {k : ℕ} (hk : a.length ≤ k) (r : Fin R) : ent a k r = Fl.nan := by
  unfold ent
  rw [List.getElem?_eq_none hk]

theorem noInf_filt {F : ℕ} {a : Arr R} {f : List ℝ} {r : Fin R} (h : ∀ k, NoInfCol (ent a k r)) (k : ℕ) : NoInfCol (ent (filt F a f) k r) := by
  by_cases hk : k < a.length / 2
  · rw [filt_ent _ _ _ hk]
    split
    · exact Or.inl rfl
    · rw [convAt]
      refine NoInfCol.sum fun x hx => ?_
      obtain ⟨m, -, rfl⟩ := List.mem_map.1 hx
      exact NoInfCol.mul (Or.inr ⟨_, rfl⟩) (noInf_padGet h _)
  · rw [ent_oob (by rw [filt_length]; omega)]; exact Or.inl rfl

theorem noInf_approx (P : LoopParams) {sig : Arr R} {r : Fin R} (h : ∀ k, NoInfCol (ent sig k r)) : ∀ j k, NoInfCol (ent (approxSeq P sig j) k r)
  | 0, k => h k
  | j + 1, k => by
    rw [approxSeq, filtering_eq]
    exact noInf_filt (noInf_approx P h j) k

theorem noInf_coef (P : LoopParams) {sig : Arr R} {r : Fin R} (h : ∀ k, NoInfCol (ent sig k r)) (s k : ℕ) : NoInfCol (ent (coefSeq P sig s) k r) := by
  rw [coefSeq, scaled]
  by_cases hk : k < (detailSeq P sig (s - 1)).length
  · rw [ent_mapArr _ _ hk, detailSeq, filtering_eq]
    exact ((noInf_filt (noInf_approx P h _) k).mul (Or.inr ⟨_, rfl⟩)).mul (Or.inr ⟨_, rfl⟩)
  · rw [ent_oob (by rw [mapArr_length]; omega)]; exact Or.inl rfl

theorem gappy_length (N : ℕ) (x : Fin R → ℤ → ℝ) (missing : Fin R → Finset ℤ) : (gappy N x missing).length = N := by simp [gappy]

theorem ent_gappy {N : ℕ} (x : Fin R → ℤ → ℝ) (missing : Fin R → Finset ℤ) {k : ℕ} (hk : k < N) (r : Fin R) :
    ent (gappy N x missing) k r = if (k : ℤ) ∈ missing r then Fl.nan else Fl.fin (x r k) := by
  rw [gappy, ent_map_range _ hk]

theorem noInf_gappy (N : ℕ) (x : Fin R → ℤ → ℝ) (missing : Fin R → Finset ℤ) (r : Fin R) (k : ℕ) : NoInfCol (ent (gappy N x missing) k r) := by
  by_cases hk : k < N
  · rw [ent_gappy x missing hk]
    split
    · exact Or.inl rfl
    · exact Or.inr ⟨_, rfl⟩
  · rw [ent_oob (by rw [gappy_length]; omega)]; exact Or.inl rfl

theorem sampleAt_ent (sig : Arr R) (r : Fin R) {t : ℤ} (ht : 0 ≤ t) : sampleAt sig r t = ent sig t.toNat r := by
  rw [sampleAt, if_pos ht]; rfl

end MFA
