import Verif.Props.BiAnalysis
import Verif.Props.SignalLaws
import Verif.Props.EndToEnd

/-! Property C111: scaling laws of the bivariate estimators (amplitudes and `gamint`). -/

namespace MFA

open Classical

variable {m1 m2 : MRQ 1} {J : ℕ} {j1 j2 : ℤ}

/-! ### One scale -/

/-- The pairs of values, the first ones multiplied by `a`, the second ones by `b`. -/
noncomputable def scalePairs (a b : ℝ) (ps : List (Fl × Fl)) : List (Fl × Fl) :=
  ps.map fun p => (Fl.fin a * p.1, Fl.fin b * p.2)

theorem biPairs_scale (a1 a2 : ℤ → ℝ) (q : (ℤ × Arr 1) × (ℤ × Arr 1)) :
    biPairs (scaleEntry a1 q.1, scaleEntry a2 q.2) = scalePairs (a1 q.1.1) (a2 q.2.1) (biPairs q) := by
  unfold biPairs scaleEntry scalePairs
  simp only [col_mapArr]
  rw [List.zip_map]
  rfl

theorem bsAbsMean_scale {a b : ℝ} (ha : a ≠ 0) (hb : b ≠ 0) (ps : List (Fl × Fl)) (e1 e2 : ℝ) :
    bsAbsMean (scalePairs a b ps) (.real e1) (.real e2) = Fl.fin (|a| ^ e1 * |b| ^ e2) * bsAbsMean ps (.real e1) (.real e2) := by
  have h1 := abs_pos.2 ha
  have h2 := abs_pos.2 hb
  unfold bsAbsMean scalePairs
  rw [← nanmean_fin_mul (by positivity), List.map_map, List.map_map]
  congr 1
  apply List.map_congr_left
  intro p _
  simp only [Function.comp_apply, Fl.abs_fin_mul, fastPower_fin_mul_abs h1, fastPower_fin_mul_abs h2, Expo.val]
  rw [← Fl.fin_mul]
  ac_rfl

theorem bsLog_scale {a1 a2 : ℤ → ℝ} {q : (ℤ × Arr 1) × (ℤ × Arr 1)} (h1 : a1 q.1.1 ≠ 0) (h2 : a2 q.2.1 ≠ 0) (e1 e2 : ℝ) :
    bsLog e1 e2 (scaleEntry a1 q.1, scaleEntry a2 q.2) =
      bsLog e1 e2 q + Fl.fin (e1 * Real.logb 2 |a1 q.1.1| + e2 * Real.logb 2 |a2 q.2.1|) := by
  have h1' := abs_pos.2 h1
  have h2' := abs_pos.2 h2
  unfold bsLog
  rw [biPairs_scale, bsAbsMean_scale h1 h2, Fl.log2_fin_mul (by positivity),
    Real.logb_mul (by positivity) (by positivity), Real.logb_rpow_eq_mul_logb_of_pos h1', Real.logb_rpow_eq_mul_logb_of_pos h2']

/-! ### Coherence -/

theorem bsMean_11 {a b : ℝ} (ha : a ≠ 0) (hb : b ≠ 0) (ps : List (Fl × Fl)) :
    bsMean (scalePairs a b ps) (.real 1) (.real 1) = Fl.fin (a * b) * bsMean ps (.real 1) (.real 1) := by
  unfold bsMean scalePairs
  rw [← nanmean_fin_mul (mul_ne_zero ha hb), List.map_map, List.map_map]
  congr 1
  apply List.map_congr_left
  intro p _
  simp only [Function.comp_apply, fastPower.eq_def, Expo.val, if_true]
  rw [← Fl.fin_mul]
  ac_rfl

theorem fin_mul_nan_iff {a : ℝ} (ha : a ≠ 0) (x : Fl) : Fl.fin a * x = Fl.nan ↔ x = Fl.nan := by
  rw [← Fl.isNaN_iff, ← Fl.isNaN_iff, Fl.fin_mul_isNaN ha]

theorem fastPower_zero_fin_mul {a : ℝ} (ha : a ≠ 0) (x : Fl) :
    fastPower (.real 0) (Fl.fin a * x) = fastPower (.real 0) x := by
  by_cases hx : x = Fl.nan
  · rw [hx]; simp
  · rw [fastPower_zero_of hx, fastPower_zero_of (fun h => hx ((fin_mul_nan_iff ha x).1 h))]

theorem fastPower_two_fin_mul (a : ℝ) (x : Fl) : fastPower (.real 2) (Fl.fin a * x) = Fl.fin (a ^ 2) * fastPower (.real 2) x := by
  have h : ∀ y : Fl, fastPower (.real 2) y = y * y := by
    intro y
    rw [fastPower.eq_def]
    simp only [Expo.val]
    simp
  rw [h, h, sq, ← Fl.fin_mul]
  ac_rfl

theorem bsMean_20 {a b : ℝ} (ha : a ≠ 0) (hb : b ≠ 0) (ps : List (Fl × Fl)) :
    bsMean (scalePairs a b ps) (.real 2) (.real 0) = Fl.fin (a ^ 2) * bsMean ps (.real 2) (.real 0) := by
  unfold bsMean scalePairs
  rw [← nanmean_fin_mul (pow_ne_zero 2 ha), List.map_map, List.map_map]
  congr 1
  apply List.map_congr_left
  intro p _
  simp only [Function.comp_apply, fastPower_zero_fin_mul hb, fastPower_two_fin_mul]
  ac_rfl

theorem bsMean_02 {a b : ℝ} (ha : a ≠ 0) (hb : b ≠ 0) (ps : List (Fl × Fl)) :
    bsMean (scalePairs a b ps) (.real 0) (.real 2) = Fl.fin (b ^ 2) * bsMean ps (.real 0) (.real 2) := by
  unfold bsMean scalePairs
  rw [← nanmean_fin_mul (pow_ne_zero 2 hb), List.map_map, List.map_map]
  congr 1
  apply List.map_congr_left
  intro p _
  simp only [Function.comp_apply, fastPower_zero_fin_mul ha, fastPower_two_fin_mul]
  ac_rfl

theorem sqrt_fin_mul {k : ℝ} (hk : 0 < k) (x : Fl) : (Fl.fin k * x).sqrt = Fl.fin (√k) * x.sqrt := by
  have hs := Real.sqrt_pos.2 hk
  cases x with
  | nan => simp [Fl.sqrt]
  | pinf =>
    rw [Fl.fin_mul_pinf, Fl.sgnInf_pos hk]
    show Fl.pinf = Fl.fin _ * Fl.pinf
    rw [Fl.fin_mul_pinf, Fl.sgnInf_pos hs]
  | ninf =>
    rw [Fl.fin_mul_ninf, Fl.sgnInf_neg (by linarith)]
    show Fl.nan = Fl.fin _ * Fl.nan
    simp
  | fin t =>
    rw [Fl.fin_mul]
    unfold Fl.sqrt
    simp only
    by_cases ht : 0 ≤ t
    · rw [if_pos ht, if_pos (by positivity), Fl.fin_mul, Real.sqrt_mul hk.le]
    · rw [if_neg ht, if_neg (by push Not at ht ⊢; exact mul_neg_of_pos_of_neg hk ht)]
      simp

/-- The coherence after multiplying the two quantities by `a` and `b`. -/
theorem cohOf_scale {a b : ℝ} (ha : a ≠ 0) (hb : b ≠ 0) (ps : List (Fl × Fl)) :
    cohOf (scalePairs a b ps) = if 0 < a * b then cohOf ps else -cohOf ps := by
  have h1 := abs_pos.2 ha
  have h2 := abs_pos.2 hb
  have h3 : 0 < |a| * |b| := mul_pos h1 h2
  have hsq : √(a ^ 2 * b ^ 2) = |a| * |b| := by
    rw [Real.sqrt_mul (sq_nonneg _), Real.sqrt_sq_eq_abs, Real.sqrt_sq_eq_abs]
  unfold cohOf
  rw [bsMean_11 ha hb, bsMean_20 ha hb, bsMean_02 ha hb]
  have e : Fl.fin (a ^ 2) * bsMean ps (.real 2) (.real 0) * (Fl.fin (b ^ 2) * bsMean ps (.real 0) (.real 2)) =
      Fl.fin (a ^ 2 * b ^ 2) * (bsMean ps (.real 2) (.real 0) * bsMean ps (.real 0) (.real 2)) := by
    rw [← Fl.fin_mul]; ac_rfl
  rw [e, sqrt_fin_mul (by positivity), hsq]
  by_cases h : 0 < a * b
  · rw [if_pos h, ← abs_mul, abs_of_pos h, Fl.fin_mul_div_fin_mul h]
  · have hn : a * b < 0 := lt_of_le_of_ne (not_lt.1 h) (mul_ne_zero ha hb)
    rw [if_neg h, ← abs_mul, abs_of_neg hn]
    have : Fl.fin (a * b) = Fl.fin (-(a * b)) * Fl.fin (-1) := by rw [Fl.fin_mul]; congr 1; ring
    rw [this, mul_assoc, Fl.fin_mul_div_fin_mul (by linarith)]
    have hneg : ∀ x : Fl, Fl.fin (-1) * x = -x := by
      intro x
      cases x with
      | nan => rfl
      | pinf => rw [Fl.fin_mul_pinf, Fl.sgnInf_neg (by norm_num)]; rfl
      | ninf => rw [Fl.fin_mul_ninf, neg_neg, Fl.sgnInf_pos (by norm_num)]; rfl
      | fin t => rw [Fl.fin_mul, Fl.neg_fin]; congr 1; ring
    rw [Fl.div_def, mul_assoc, hneg, Fl.div_def]

/-! ### Cumulants -/

/-- The first values, at the places where the second ones are available. -/
noncomputable def maskFst (ls : List (Fl × Fl)) : List Fl := ls.map fun p => if p.2 = Fl.nan then Fl.nan else p.1

theorem bcMoment_mask (ls : List (Fl × Fl)) (m : ℕ) : bcMoment ls m 0 = cmMoment (maskFst ls) m := by
  unfold bcMoment cmMoment maskFst
  rw [List.map_map]
  congr 1
  apply List.map_congr_left
  intro p _
  simp only [Function.comp_apply, Nat.cast_zero]
  by_cases hy : p.2 = Fl.nan
  · rw [if_pos hy, hy, fastPower_nan, fastPower_nan]; simp
  · rw [if_neg hy, fastPower_zero_of hy, Fl.mul_comm]
    exact Fl.one_mul _

theorem bcTable_mask (ls : List (Fl × Fl)) {n m : ℕ} (h1 : 1 ≤ m) (h2 : m ≤ n) :
    (bcTable ls n).values m 0 = (cmColumn (maskFst ls) n).getD (m - 1) Fl.nan :=
  IsCum.unique (bcTable_left ls n) (cmColumn_isCum (maskFst ls) n) (fun m _ _ => bcMoment_mask ls m) m h1 h2

theorem logPairs_scale {a b : ℝ} (ha : a ≠ 0) (hb : b ≠ 0) (ps : List (Fl × Fl)) :
    logPairs (scalePairs a b ps) = (logPairs ps).map fun p => (p.1 + Fl.fin (Real.log |a|), p.2 + Fl.fin (Real.log |b|)) := by
  unfold logPairs scalePairs
  rw [List.map_map, List.map_map]
  apply List.map_congr_left
  intro p _
  simp only [Function.comp_apply]
  rw [Fl.abs_fin_mul, Fl.abs_fin_mul, Fl.ln_fin_mul (abs_pos.2 ha), Fl.ln_fin_mul (abs_pos.2 hb)]

theorem add_fin_nan (x : Fl) (t : ℝ) : x + Fl.fin t = Fl.nan ↔ x = Fl.nan := by
  cases x <;> simp [Fl.fin_add]

theorem maskFst_shift (ls : List (Fl × Fl)) (s t : ℝ) :
    maskFst (ls.map fun p => (p.1 + Fl.fin s, p.2 + Fl.fin t)) = (maskFst ls).map fun x => x + Fl.fin s := by
  unfold maskFst
  rw [List.map_map, List.map_map]
  apply List.map_congr_left
  intro p _
  simp only [Function.comp_apply, add_fin_nan]
  split
  · simp
  · rfl

theorem bcTable_left_shift (ls : List (Fl × Fl)) (s t : ℝ) {n m : ℕ} (h1 : 1 ≤ m) (h2 : m ≤ n) :
    (bcTable (ls.map fun p => (p.1 + Fl.fin s, p.2 + Fl.fin t)) n).values m 0 =
      (bcTable ls n).values m 0 + Fl.fin (if m = 1 then s else 0) := by
  rw [bcTable_mask _ h1 h2, bcTable_mask _ h1 h2, maskFst_shift, cmColumn_shift _ _ (by omega)]
  have : (m - 1 = 0) = (m = 1) := by apply propext; omega
  simp only [this]

theorem bcTable_right_shift (ls : List (Fl × Fl)) (s t : ℝ) {n m : ℕ} (h1 : 1 ≤ m) (h2 : m ≤ n) :
    (bcTable (ls.map fun p => (p.1 + Fl.fin s, p.2 + Fl.fin t)) n).values 0 m =
      (bcTable ls n).values 0 m + Fl.fin (if m = 1 then t else 0) := by
  have := bcTable_left_shift (ls.map Prod.swap) t s h1 h2
  rw [bcTable_swap, List.map_map] at this
  rw [← this, ← bcTable_swap, List.map_map]
  rfl

theorem log_eq_logb (x : ℝ) : Real.log x = Real.log 2 * Real.logb 2 x := by
  rw [Real.logb, mul_div_cancel₀]
  exact (Real.log_pos (by norm_num)).ne'

theorem bcAt_left_scale {a1 a2 : ℤ → ℝ} {q : (ℤ × Arr 1) × (ℤ × Arr 1)} (h1 : a1 q.1.1 ≠ 0) (h2 : a2 q.2.1 ≠ 0) {n m : ℕ}
    (hm : 1 ≤ m) (hmn : m ≤ n) : bcAt n m 0 (scaleEntry a1 q.1, scaleEntry a2 q.2) =
      bcAt n m 0 q + Fl.fin (if m = 1 then Real.log 2 * Real.logb 2 |a1 q.1.1| else 0) := by
  unfold bcAt
  rw [biPairs_scale, logPairs_scale h1 h2, bcTable_left_shift _ _ _ hm hmn, log_eq_logb |a1 q.1.1|]

theorem bcAt_right_scale {a1 a2 : ℤ → ℝ} {q : (ℤ × Arr 1) × (ℤ × Arr 1)} (h1 : a1 q.1.1 ≠ 0) (h2 : a2 q.2.1 ≠ 0) {n m : ℕ}
    (hm : 1 ≤ m) (hmn : m ≤ n) : bcAt n 0 m (scaleEntry a1 q.1, scaleEntry a2 q.2) =
      bcAt n 0 m q + Fl.fin (if m = 1 then Real.log 2 * Real.logb 2 |a2 q.2.1| else 0) := by
  unfold bcAt
  rw [biPairs_scale, logPairs_scale h1 h2, bcTable_right_shift _ _ _ hm hmn, log_eq_logb |a2 q.2.1|]

theorem mean_shift {zs : List (ℝ × ℝ)} (hz : zs ≠ []) (f : ℝ × ℝ → ℝ) (s : ℝ) :
    mean (zs.map fun z => f z + s) = mean (zs.map f) + s := by
  have hl : (zs.length : ℝ) ≠ 0 := by
    have := List.length_pos_iff.mpr hz
    exact_mod_cast this.ne'
  unfold mean
  rw [List.sum_map_add, List.map_const', List.sum_replicate, List.length_map, List.length_map, nsmul_eq_mul]
  field_simp

theorem cov_shift (zs : List (ℝ × ℝ)) (s t : ℝ) : cov (zs.map fun z => (z.1 + s, z.2 + t)) = cov zs := by
  by_cases hz : zs = []
  · subst hz; rfl
  unfold cov
  rw [List.map_map, List.map_map, List.map_map, List.length_map]
  have e1 : mean (zs.map (Prod.fst ∘ fun z : ℝ × ℝ => (z.1 + s, z.2 + t))) = mean (zs.map Prod.fst) + s := mean_shift hz Prod.fst s
  have e2 : mean (zs.map (Prod.snd ∘ fun z : ℝ × ℝ => (z.1 + s, z.2 + t))) = mean (zs.map Prod.snd) + t := mean_shift hz Prod.snd t
  rw [e1, e2]
  congr 2
  apply List.map_congr_left
  intro z _
  simp only [Function.comp_apply]
  ring

theorem JointIs.shift {ls : List (Fl × Fl)} {zs : List (ℝ × ℝ)} (h : JointIs ls zs) (s t : ℝ) :
    JointIs (ls.map fun p => (p.1 + Fl.fin s, p.2 + Fl.fin t)) (zs.map fun z => (z.1 + s, z.2 + t)) := by
  unfold JointIs at *
  rw [List.filter_map, List.map_map]
  have : ((fun p : Fl × Fl => !p.1.isNaN && !p.2.isNaN) ∘ fun p => (p.1 + Fl.fin s, p.2 + Fl.fin t)) =
      fun p : Fl × Fl => !p.1.isNaN && !p.2.isNaN := by
    funext p
    obtain ⟨x, y⟩ := p
    cases x <;> cases y <;> rfl
  rw [this, h, List.map_map]
  apply List.map_congr_left
  intro z _
  simp only [Function.comp_apply, Fl.fin_add]

theorem bcAt_one_one_scale {a1 a2 : ℤ → ℝ} (hp : Paired m1 m2 J) (hd : JointFinite m1 m2) (hz1 : NoZero m1) (hz2 : NoZero m2)
    {q : (ℤ × Arr 1) × (ℤ × Arr 1)} (hq : q ∈ biList m1 m2) (h1 : a1 q.1.1 ≠ 0) (h2 : a2 q.2.1 ≠ 0) {n : ℕ} (hn : 1 ≤ n) :
    bcAt n 1 1 (scaleEntry a1 q.1, scaleEntry a2 q.2) = bcAt n 1 1 q := by
  obtain ⟨hJ, hne⟩ := hd.at hp hz1 hz2 hq
  unfold bcAt
  rw [biPairs_scale, logPairs_scale h1 h2, hJ.one_one hne hn, (hJ.shift _ _).one_one (by simpa using hne) hn, cov_shift]

/-! ### Pairs of quantities -/

/-- What the factors at scale `j` have to satisfy: `log2 |a j| = α + β j` on `1 .. J`. -/
def PowerFactor (a : ℤ → ℝ) (α β : ℝ) (J : ℕ) : Prop :=
  ∀ j : ℤ, 1 ≤ j → j ≤ J → a j ≠ 0 ∧ Real.logb 2 |a j| = α + β * (j : ℝ)

theorem Paired.rescale (hp : Paired m1 m2 J) {a1 a2 : ℤ → ℝ} {α1 α2 β1 β2 : ℝ} (h1 : PowerFactor a1 α1 β1 J)
    (h2 : PowerFactor a2 α2 β2 J) (g : ℝ) : Paired (MFA.rescale a1 g m1) (MFA.rescale a2 g m2) J := by
  have r1 : Regular (MFA.scaleBy a1 m1) J := hp.reg1.scaleBy fun p hpm => by
    have := hp.reg1.key_range hpm; exact (h1 _ this.1 this.2).1
  have r2 : Regular (MFA.scaleBy a2 m2) J := hp.reg2.scaleBy fun p hpm => by
    have := hp.reg2.key_range hpm; exact (h2 _ this.1 this.2).1
  refine ⟨r1, r2, hp.formalism, rfl, hp.nj, ?_⟩
  show List.Forall₂ _ (m1.values.map _) (m2.values.map _)
  rw [List.forall₂_map_left_iff, List.forall₂_map_right_iff]
  exact hp.rows.imp fun p p' h => by simpa [mapArr] using h

theorem biList_rescale (a1 a2 : ℤ → ℝ) (g : ℝ) : biList (MFA.rescale a1 g m1) (MFA.rescale a2 g m2) =
    (biList m1 m2).map fun q => (scaleEntry a1 q.1, scaleEntry a2 q.2) := by
  unfold biList
  show (m1.values.map (scaleEntry a1)).zip (m2.values.map (scaleEntry a2)) = _
  rw [List.zip_map]; rfl

theorem biSub_rescale (a1 a2 : ℤ → ℝ) (g : ℝ) : biSub (MFA.rescale a1 g m1) (MFA.rescale a2 g m2) j1 j2 =
    (biSub m1 m2 j1 j2).map fun q => (scaleEntry a1 q.1, scaleEntry a2 q.2) := by
  unfold biSub
  rw [biList_rescale, pySlice_map]

theorem Paired.range (hp : Paired m1 m2 J) {q : (ℤ × Arr 1) × (ℤ × Arr 1)} (hq : q ∈ biList m1 m2) :
    1 ≤ q.1.1 ∧ q.1.1 ≤ J := hp.reg1.key_range (hp.mem1 hq)

/-- Regression of a curve that the multiplication shifts by an affine function of the scale. -/
theorem biSlope_rescale (hp : Paired m1 m2 J) (h1 : 1 ≤ j1) (h12 : j1 ≤ j2) (h2 : j2 ≤ J) {a1 a2 : ℤ → ℝ} {α1 β1 : ℝ}
    (ha1 : PowerFactor a1 α1 β1 J) (g : ℝ) (weighted : Bool) (f : (ℤ × Arr 1) × (ℤ × Arr 1) → Fl) (c d : ℝ)
    (hf : ∀ q ∈ biList m1 m2, f (scaleEntry a1 q.1, scaleEntry a2 q.2) = f q + Fl.fin (c + d * (q.1.1 : ℝ))) :
    biSlope (MFA.rescale a1 g m1) (MFA.rescale a2 g m2) j1 j2 weighted f = biSlope m1 m2 j1 j2 weighted f + Fl.fin d ∧
    biInter (MFA.rescale a1 g m1) (MFA.rescale a2 g m2) j1 j2 weighted f = biInter m1 m2 j1 j2 weighted f + Fl.fin c := by
  have hne : biSub m1 m2 j1 j2 ≠ [] := by
    intro h0
    have := hp.reg1.sub_ne_nil h1 h12 h2
    rw [hp.sub_fst, h0] at this
    exact this rfl
  have hw : ∀ q ∈ biSub m1 m2 j1 j2, wtOf weighted (scaleEntry a1 q.1) 0 = wtOf weighted q.1 0 := fun q hq => by
    have := hp.range (biSub_mem hq)
    exact wtOf_scaleEntry (ha1 _ this.1 this.2).1 weighted 0
  unfold biSlope biInter
  rw [biSub_rescale, slopeL_map, interL_map,
    slopeL_congr (x := (fun q => (q.1.1 : ℝ)) ∘ fun q => (scaleEntry a1 q.1, scaleEntry a2 q.2))
      (w := (fun q => wtOf weighted q.1 0) ∘ fun q => (scaleEntry a1 q.1, scaleEntry a2 q.2))
      (y := f ∘ fun q => (scaleEntry a1 q.1, scaleEntry a2 q.2)) (x' := fun q => (q.1.1 : ℝ)) (w' := fun q => wtOf weighted q.1 0) (y' := fun q => f q + Fl.fin (c + d * (q.1.1 : ℝ)))
      (fun q _ => rfl) hw (fun q hq => hf q (biSub_mem hq)),
    interL_congr (x := (fun q => (q.1.1 : ℝ)) ∘ fun q => (scaleEntry a1 q.1, scaleEntry a2 q.2))
      (w := (fun q => wtOf weighted q.1 0) ∘ fun q => (scaleEntry a1 q.1, scaleEntry a2 q.2))
      (y := f ∘ fun q => (scaleEntry a1 q.1, scaleEntry a2 q.2)) (x' := fun q => (q.1.1 : ℝ)) (w' := fun q => wtOf weighted q.1 0) (y' := fun q => f q + Fl.fin (c + d * (q.1.1 : ℝ)))
      (fun q _ => rfl) hw (fun q hq => hf q (biSub_mem hq))]
  exact slopeL_shift _ hne (fun q => (q.1.1 : ℝ)) _ (fun q _ => wtOf_nonneg _ _ _) f c d

/-- **C111, structure functions**: multiply the values of the two quantities at scale `j` by `a1 j` and `a2 j`, with
`log2 |a1 j| = α1 + β1 j`, `log2 |a2 j| = α2 + β2 j`.  Then `zeta(q1, q2)` increases by `q1 β1 + q2 β2`, the intercepts by
`q1 α1 + q2 α2`, and the coherence at scale `j` keeps its value, with the sign of `a1 j * a2 j`.  No hypothesis on the data. -/
theorem C111_structure (hp : Paired m1 m2 J) (h1 : 1 ≤ j1) (h12 : j1 ≤ j2) (h2 : j2 ≤ J) (weighted same : Bool) (q1 q2 : List ℝ)
    (hn1 : q1.Nodup) (hn2 : q2.Nodup) (hq1 : (0:ℝ) ∈ q1 ∧ (1:ℝ) ∈ q1 ∧ (2:ℝ) ∈ q1) (hq2 : (0:ℝ) ∈ q2 ∧ (1:ℝ) ∈ q2 ∧ (2:ℝ) ∈ q2)
    {a1 a2 : ℤ → ℝ} {α1 α2 β1 β2 : ℝ} (ha1 : PowerFactor a1 α1 β1 J) (ha2 : PowerFactor a2 α2 β2 J) (g : ℝ) :
    ∃ s s', BiStructFn.make same m1 m2 j1 j2 (.ndarray q1) (.ndarray q2) weighted = .ok s ∧
      BiStructFn.make same (rescale a1 g m1) (rescale a2 g m2) j1 j2 (.ndarray q1) (.ndarray q2) weighted = .ok s' ∧
      (∀ (i k : ℕ) (e1 e2 : ℝ), q1[i]? = some e1 → q2[k]? = some e2 → ∃ z c : Fl,
        (s.zeta[i]?.bind fun l => l[k]?) = some z ∧
        (s'.zeta[i]?.bind fun l => l[k]?) = some (z + Fl.fin (e1 * β1 + e2 * β2)) ∧
        (s.intercept[i]?.bind fun l => l[k]?) = some c ∧
        (s'.intercept[i]?.bind fun l => l[k]?) = some (c + Fl.fin (e1 * α1 + e2 * α2))) ∧
      s.coherence.length = J ∧ s'.coherence.length = J ∧
      ∀ (k : ℕ) (z : Fl), s.coherence[k]? = some z →
        s'.coherence[k]? = some (if 0 < a1 ((k : ℤ) + 1) * a2 ((k : ℤ) + 1) then z else -z) := by
  have hp' := hp.rescale ha1 ha2 g
  have ne1 : q1 ≠ [] := by rintro rfl; exact absurd hq1.1 (by simp)
  have ne2 : q2 ≠ [] := by rintro rfl; exact absurd hq2.1 (by simp)
  have hc := bsCoherence_ok hn1 hn2 hq1.1 hq1.2.1 hq1.2.2 hq2.1 hq2.2.1 hq2.2.2
  have hf : ∀ (e1 e2 : ℝ), ∀ q ∈ biList m1 m2, bsLog e1 e2 (scaleEntry a1 q.1, scaleEntry a2 q.2) =
      bsLog e1 e2 q + Fl.fin ((e1 * α1 + e2 * α2) + (e1 * β1 + e2 * β2) * (q.1.1 : ℝ)) := by
    intro e1 e2 q hq
    have hr := hp.range hq
    obtain ⟨b1, c1⟩ := ha1 _ hr.1 hr.2
    obtain ⟨b2, c2⟩ := ha2 _ hr.1 hr.2
    have hk := hp.keys hq
    rw [bsLog_scale b1 (by rw [← hk]; exact b2), ← hk, c1, c2]
    congr 2; ring
  have hlen : (biList m1 m2).length = J := by
    have := congrArg List.length hp.reg1.1
    rw [← hp.fst] at this
    simpa using this
  refine ⟨_, _, hp.biStructFn h1 h12 h2 weighted same (hc _) ne1 ne2, hp'.biStructFn h1 h12 h2 weighted same (hc _) ne1 ne2, ?_, ?_, ?_, ?_⟩
  · intro i k e1 e2 hi hk
    obtain ⟨x1, x2⟩ := biSlope_rescale hp h1 h12 h2 ha1 g weighted (bsLog e1 e2) _ _ (hf e1 e2)
    refine ⟨biSlope m1 m2 j1 j2 weighted (bsLog e1 e2), biInter m1 m2 j1 j2 weighted (bsLog e1 e2), ?_, ?_, ?_, ?_⟩
    · simp [hi, hk]
    · simp [hi, hk, x1]
    · simp [hi, hk]
    · simp [hi, hk, x2]
  · simp [hlen]
  · simp [biList_rescale, hlen]
  · intro k z hz
    simp only [List.getElem?_map, Option.map_map, Option.map_eq_some_iff, Function.comp_apply] at hz
    obtain ⟨q, hq, rfl⟩ := hz
    have hmem := List.mem_of_getElem? hq
    have hkey : q.1.1 = (k : ℤ) + 1 := by
      have h3 := congrArg (fun l => l[k]?) hp.reg1.1
      rw [← hp.fst, List.map_map, List.getElem?_map, hq] at h3
      have hkJ : k < J := by rw [← hlen]; exact (List.getElem?_eq_some_iff.1 hq).1
      rw [List.getElem?_map, List.getElem?_range hkJ] at h3
      simpa using h3
    have hr := hp.range hmem
    have hk := hp.keys hmem
    rw [List.map_map, List.getElem?_map, biList_rescale, List.getElem?_map, hq]
    simp only [Option.map_some, Function.comp_apply]
    rw [biPairs_scale, cohOf_scale (ha1 _ hr.1 hr.2).1 (by rw [← hk]; exact (ha2 _ hr.1 hr.2).1), ← hk, hkey]

/-- **C111, cumulants**: under the same multiplications `c_{10}` increases by `β1`, `c_{01}` by `β2`, all other `c_{m0}`, `c_{0m}` keep
their values whatever the data; `C_{11}` at every scale, `c_{11}`, `RHO_MF` and `rho_mf` keep their values when the data are finite and
without zeros. -/
theorem C111_cumulants (hp : Paired m1 m2 J) (h1 : 1 ≤ j1) (h12 : j1 ≤ j2) (h2 : j2 ≤ J) (weighted same : Bool) {n : ℕ} (hn : 2 ≤ n)
    {a1 a2 : ℤ → ℝ} {α1 α2 β1 β2 : ℝ} (ha1 : PowerFactor a1 α1 β1 J) (ha2 : PowerFactor a2 α2 β2 J) (g : ℝ) :
    ∃ b b', BiCumulants.make same m1 m2 n j1 j2 weighted = .ok b ∧
      BiCumulants.make same (rescale a1 g m1) (rescale a2 g m2) n j1 j2 weighted = .ok b' ∧
      b'.log_cumulants 1 0 = b.log_cumulants 1 0 + Fl.fin β1 ∧
      b'.log_cumulants 0 1 = b.log_cumulants 0 1 + Fl.fin β2 ∧
      (∀ m, 2 ≤ m → m ≤ n → b'.log_cumulants m 0 = b.log_cumulants m 0 ∧ b'.log_cumulants 0 m = b.log_cumulants 0 m ∧
        b'.values m 0 = b.values m 0 ∧ b'.values 0 m = b.values 0 m) ∧
      (JointFinite m1 m2 → NoZero m1 → NoZero m2 → b'.values 1 1 = b.values 1 1 ∧ b'.log_cumulants 1 1 = b.log_cumulants 1 1 ∧
        b'.RHO_MF = b.RHO_MF ∧ b'.rho_mf = b.rho_mf) := by
  have hp' := hp.rescale ha1 ha2 g
  obtain ⟨b, e1, -, -, -, v1, -, -, l1, r1, r1'⟩ := hp.biCumulants h1 h12 h2 weighted same (Or.inr hn)
  obtain ⟨b', e2, -, -, -, v2, -, -, l2, r2, r2'⟩ := hp'.biCumulants h1 h12 h2 weighted same (Or.inr hn)
  have hne : ∀ q ∈ biList m1 m2, a1 q.1.1 ≠ 0 ∧ a2 q.2.1 ≠ 0 := by
    intro q hq
    have hr := hp.range hq
    exact ⟨(ha1 _ hr.1 hr.2).1, by rw [← hp.keys hq]; exact (ha2 _ hr.1 hr.2).1⟩
  -- curves that do not move
  have same0 : ∀ a b0, (∀ q ∈ biList m1 m2, bcAt n a b0 (scaleEntry a1 q.1, scaleEntry a2 q.2) = bcAt n a b0 q) →
      b'.values a b0 = b.values a b0 ∧ b'.log_cumulants a b0 = b.log_cumulants a b0 := by
    intro a b0 h
    refine ⟨?_, ?_⟩
    · rw [v1, v2, biList_rescale, List.map_map]
      exact List.map_congr_left h
    · have := (biSlope_rescale hp h1 h12 h2 ha1 g weighted (bcAt n a b0) 0 0 (fun q hq => by
        rw [h q hq, zero_mul, add_zero, Fl.fin_zero, add_zero])).1
      rw [l1, l2, this, Fl.fin_zero, add_zero]
  have hlog2 : Real.log 2 ≠ 0 := (Real.log_pos (by norm_num)).ne'
  have hlin : ∀ (x : Fl) (β : ℝ), (x + Fl.fin (Real.log 2 * β)) * Fl.fin log2e = x * Fl.fin log2e + Fl.fin β := by
    intro x β
    have h0 : (0:ℝ) < log2e := by unfold log2e; exact Real.logb_pos (by norm_num) (by have := Real.add_one_lt_exp (x := 1) one_ne_zero; linarith)
    have h3 : Real.log 2 * log2e = 1 := by
      unfold log2e
      rw [Real.logb, Real.log_exp]; field_simp
    cases x with
    | nan => simp
    | pinf =>
      show Fl.pinf * Fl.fin log2e = Fl.pinf * Fl.fin log2e + Fl.fin β
      rw [Fl.mul_comm, Fl.fin_mul_pinf, Fl.sgnInf_pos h0]; rfl
    | ninf =>
      show Fl.ninf * Fl.fin log2e = Fl.ninf * Fl.fin log2e + Fl.fin β
      rw [Fl.mul_comm, Fl.fin_mul_ninf, Fl.sgnInf_neg (by linarith : -log2e < 0)]; rfl
    | fin t =>
      rw [Fl.fin_add, Fl.fin_mul, Fl.fin_mul, Fl.fin_add]
      congr 1
      linear_combination β * h3
  have hm0 : ∀ m, 2 ≤ m → m ≤ n → (∀ q ∈ biList m1 m2, bcAt n m 0 (scaleEntry a1 q.1, scaleEntry a2 q.2) = bcAt n m 0 q) ∧
      (∀ q ∈ biList m1 m2, bcAt n 0 m (scaleEntry a1 q.1, scaleEntry a2 q.2) = bcAt n 0 m q) := by
    intro m hm hmn
    refine ⟨fun q hq => ?_, fun q hq => ?_⟩
    · rw [bcAt_left_scale (hne q hq).1 (hne q hq).2 (by omega) hmn, if_neg (by omega), Fl.fin_zero, add_zero]
    · rw [bcAt_right_scale (hne q hq).1 (hne q hq).2 (by omega) hmn, if_neg (by omega), Fl.fin_zero, add_zero]
  refine ⟨b, b', e1, e2, ?_, ?_, ?_, ?_⟩
  · rw [l1, l2, (biSlope_rescale hp h1 h12 h2 ha1 g weighted (bcAt n 1 0) (Real.log 2 * α1) (Real.log 2 * β1) (fun q hq => by
      have hr := hp.range hq
      rw [bcAt_left_scale (hne q hq).1 (hne q hq).2 le_rfl (by omega), if_pos rfl, (ha1 _ hr.1 hr.2).2]
      congr 2; ring)).1, hlin]
  · rw [l1, l2, (biSlope_rescale hp h1 h12 h2 ha1 g weighted (bcAt n 0 1) (Real.log 2 * α2) (Real.log 2 * β2) (fun q hq => by
      have hr := hp.range hq
      rw [bcAt_right_scale (hne q hq).1 (hne q hq).2 le_rfl (by omega), if_pos rfl, ← hp.keys hq, (ha2 _ hr.1 hr.2).2]
      congr 2; ring)).1, hlin]
  · intro m hm hmn
    obtain ⟨x1, x2⟩ := same0 m 0 (hm0 m hm hmn).1
    obtain ⟨y1, y2⟩ := same0 0 m (hm0 m hm hmn).2
    exact ⟨x2, y2, x1, y1⟩
  · intro hd hz1 hz2
    have h11 : ∀ q ∈ biList m1 m2, bcAt n 1 1 (scaleEntry a1 q.1, scaleEntry a2 q.2) = bcAt n 1 1 q := fun q hq =>
      bcAt_one_one_scale hp hd hz1 hz2 hq (hne q hq).1 (hne q hq).2 (by omega)
    obtain ⟨x1, x2⟩ := same0 1 1 h11
    refine ⟨x1, x2, ?_⟩
    by_cases hf : m1.formalism = .coef
    · have hf' : (rescale a1 g m1).formalism = .coef := hf
      rw [(r1 hf).1, (r1 hf).2, (r2 hf').1, (r2 hf').2]; exact ⟨rfl, rfl⟩
    · have hf' : (rescale a1 g m1).formalism ≠ .coef := hf
      rw [(r1' hf).1, (r1' hf).2, (r2' hf').1, (r2' hf').2, x2, (same0 2 0 (hm0 2 le_rfl hn).1).2, (same0 0 2 (hm0 2 le_rfl hn).2).2]
      refine ⟨?_, rfl⟩
      rw [biList_rescale, List.map_map]
      congr 1
      apply List.map_congr_left
      intro q hq
      simp only [Function.comp_apply]
      rw [h11 q hq, (hm0 2 le_rfl hn).1 q hq, (hm0 2 le_rfl hn).2 q hq]

/-! ### Signals -/

/-- How the result `v'` of a bivariate analysis differs from `v`: the exponents `zeta(q1, q2)` are moved by `q1 β1 + q2 β2`, `c_{10}` by
`β1`, `c_{01}` by `β2`, the higher marginal log-cumulants are the same, and the coherence is the same (`pos`) or of opposite sign. -/
structure BiShift (n : ℕ) (q1 q2 : List ℝ) (β1 β2 : ℝ) (pos : Prop) (v v' : MFBiVar 1) : Prop where
  zeta : ∀ (i k : ℕ) (e1 e2 : ℝ), q1[i]? = some e1 → q2[k]? = some e2 → ∃ z : Fl, (v.structure_.zeta[i]?.bind fun l => l[k]?) = some z ∧
    (v'.structure_.zeta[i]?.bind fun l => l[k]?) = some (z + Fl.fin (e1 * β1 + e2 * β2))
  c10 : v'.cumulants.log_cumulants 1 0 = v.cumulants.log_cumulants 1 0 + Fl.fin β1
  c01 : v'.cumulants.log_cumulants 0 1 = v.cumulants.log_cumulants 0 1 + Fl.fin β2
  higher : ∀ m, 2 ≤ m → m ≤ n → v'.cumulants.log_cumulants m 0 = v.cumulants.log_cumulants m 0 ∧
    v'.cumulants.log_cumulants 0 m = v.cumulants.log_cumulants 0 m
  coherence : v'.structure_.coherence = v.structure_.coherence.map fun z => if pos then z else -z

/-- The cross-cumulant and both multifractal correlations are the same. -/
def SameCross (v v' : MFBiVar 1) : Prop :=
  v'.cumulants.log_cumulants 1 1 = v.cumulants.log_cumulants 1 1 ∧ v'.cumulants.RHO_MF = v.cumulants.RHO_MF ∧
  v'.cumulants.rho_mf = v.cumulants.rho_mf

theorem biVar_rescale (hp : Paired m1 m2 J) (h1 : 1 ≤ j1) (h12 : j1 ≤ j2) (h2 : j2 ≤ J) (weighted : Bool) (q1 q2 : List ℝ)
    (hn1 : q1.Nodup) (hn2 : q2.Nodup) (hq1 : (0:ℝ) ∈ q1 ∧ (1:ℝ) ∈ q1 ∧ (2:ℝ) ∈ q1) (hq2 : (0:ℝ) ∈ q2 ∧ (1:ℝ) ∈ q2 ∧ (2:ℝ) ∈ q2)
    {n : ℕ} (hn : 2 ≤ n) {a1 a2 : ℤ → ℝ} {α1 α2 β1 β2 : ℝ} (ha1 : PowerFactor a1 α1 β1 J) (ha2 : PowerFactor a2 α2 β2 J) (g : ℝ)
    {pos : Prop} (hpos : ∀ j : ℤ, 1 ≤ j → j ≤ J → (0 < a1 j * a2 j ↔ pos)) :
    ∃ v v', biVar false m1 m2 j1 j2 weighted n (some (.ndarray q1)) (some (.ndarray q2)) = .ok v ∧
      biVar false (rescale a1 g m1) (rescale a2 g m2) j1 j2 weighted n (some (.ndarray q1)) (some (.ndarray q2)) = .ok v' ∧
      BiShift n q1 q2 β1 β2 pos v v' ∧ (JointFinite m1 m2 → NoZero m1 → NoZero m2 → SameCross v v') := by
  obtain ⟨s, s', e1, e2, hz, hl, hl', hc⟩ := C111_structure hp h1 h12 h2 weighted false q1 q2 hn1 hn2 hq1 hq2 ha1 ha2 g
  obtain ⟨b, b', e3, e4, c1, c2, c3, c4⟩ := C111_cumulants hp h1 h12 h2 weighted false hn ha1 ha2 g
  refine ⟨⟨s, b⟩, ⟨s', b'⟩, ?_, ?_, ⟨?_, c1, c2, fun m hm hmn => ⟨(c3 m hm hmn).1, (c3 m hm hmn).2.1⟩, ?_⟩, ?_⟩
  · unfold biVar; simp only [e3, e1]
  · unfold biVar; simp only [e4, e2]
  · intro i k x y hi hk
    obtain ⟨z, c, hz1, hz2, -, -⟩ := hz i k x y hi hk
    exact ⟨z, hz1, hz2⟩
  · apply List.ext_getElem?
    intro k
    rw [List.getElem?_map]
    by_cases hk : k < J
    · have hk1 : k < s.coherence.length := by rw [hl]; exact hk
      have := hc k _ (List.getElem?_eq_getElem hk1)
      rw [this, List.getElem?_eq_getElem hk1]
      simp only [Option.map_some, hpos ((k : ℤ) + 1) (by omega) (by omega)]
    · rw [List.getElem?_eq_none (by show s'.coherence.length ≤ k; omega), List.getElem?_eq_none (by show s.coherence.length ≤ k; omega)]; rfl
  · intro hd z1 z2
    obtain ⟨-, y1, y2, y3⟩ := c4 hd z1 z2
    exact ⟨y1, y2, y3⟩

theorem smulArr_sampled (N : ℕ) (x : Fin 1 → ℤ → ℝ) (c : ℝ) : smulArr c (sampled N x) = sampled N fun r t => c * x r t := by
  unfold smulArr sampled mapArr
  rw [List.map_map]
  apply List.map_congr_left
  intro k _
  funext r
  simp only [Function.comp_apply, Fl.fin_mul]

/-- **C111, signals**: analyse two NaN-free signals `x`, `y` with `gamint = g`, and then `c1 x`, `c2 y` with `gamint = g'`.  The results for
the coefficients differ by the laws of `BiShift` with `β1 = β2 = g' - g` and the sign of `c1 c2`.  When `g' = g` the results for the
leaders do not change at all (whatever the signs). -/
theorem C111_signals {N : ℕ} (x y : Fin 1 → ℤ → ℝ) (wt : Wavelet) (hwt : wt.Valid) (hF : 4 ≤ wt.dec_hi.length) (j1 : ℤ)
    (j2 : Option ℝ) (g g' nm : ℝ) (hnm : nm ≠ 0) (weighted : Bool) (q1 q2 : List ℝ) (hn1 : q1.Nodup) (hn2 : q2.Nodup)
    (hq1 : (0:ℝ) ∈ q1 ∧ (1:ℝ) ∈ q1 ∧ (2:ℝ) ∈ q1) (hq2 : (0:ℝ) ∈ q2 ∧ (1:ℝ) ∈ q2 ∧ (2:ℝ) ∈ q2) (n : ℕ) (hn : 2 ≤ n) {L : ℤ}
    (hL : decompositionLevel N wt = .ok L) (h1 : 1 ≤ j1) (h1L : j1 < L) (h12 : ∀ b, j2 = some b → (j1 : ℝ) ≤ b) {c1 c2 : ℝ}
    (hc1 : c1 ≠ 0) (hc2 : c2 ≠ 0) :
    ∃ d l d' l' w1 w2 m1 m2,
      bivariateAnalysisFull (sampled N x) (sampled N y) j1 j2 nm g weighted wt .inf (some (.ndarray q1)) (some (.ndarray q2)) n
        = .ok (d, l) ∧
      bivariateAnalysisFull (smulArr c1 (sampled N x)) (smulArr c2 (sampled N y)) j1 j2 nm g' weighted wt .inf (some (.ndarray q1))
        (some (.ndarray q2)) n = .ok (d', l') ∧
      waveletAnalysis (sampled N x) .inf wt j1 j2 g nm weighted = .ok w1 ∧ waveletAnalysis (sampled N y) .inf wt j1 j2 g nm weighted = .ok w2 ∧
      w1.wt_leaders = some m1 ∧ w2.wt_leaders = some m2 ∧
      BiShift n q1 q2 (g' - g) (g' - g) (0 < c1 * c2) d d' ∧
      (JointFinite w1.wt_coefs w2.wt_coefs → NoZero w1.wt_coefs → NoZero w2.wt_coefs → SameCross d d') ∧
      (g' = g → BiShift n q1 q2 0 0 True l l' ∧ (JointFinite m1 m2 → NoZero m1 → NoZero m2 → SameCross l l')) := by
  have ex : ∀ (s : Arr 1) (γ : ℝ), s.length = N → ∃ w, waveletAnalysis s .inf wt j1 j2 γ nm weighted = .ok w := by
    intro s γ hs
    refine C05_total _ .inf (Or.inr rfl) wt _ _ γ nm weighted one_ne_zero ?_ hnm
    have h0 := sampled_ne_nil_of_level x hL
    intro h; rw [h] at hs
    apply h0
    apply List.length_eq_zero_iff.1
    rw [sampled_length]; exact hs.symm
  obtain ⟨w1, hw1⟩ := ex (sampled N x) g (sampled_length _ _)
  obtain ⟨w2, hw2⟩ := ex (sampled N y) g (sampled_length _ _)
  obtain ⟨w1', hw1'⟩ := ex (smulArr c1 (sampled N x)) g' (by rw [smulArr_length, sampled_length])
  obtain ⟨w2', hw2'⟩ := ex (smulArr c2 (sampled N y)) g' (by rw [smulArr_length, sampled_length])
  have hj := admissible_j2 (by norm_num) hwt (Or.inr hF) hL h1 h1L h12 hw1
  obtain ⟨J, Jc, m1, m2, he, hJ, hJc, hm1, hm2, -, -, hpc, -, hpl, -⟩ := wa_paired hwt hw1 hw2
  have hw1s := hw1'
  have hw2s := hw2'
  rw [smulArr_sampled] at hw1s hw2s
  obtain ⟨J', Jc', m1', m2', he', hJ', hJc', hm1', hm2', -, -, hpc', -, hpl', -⟩ := wa_paired hwt hw1s hw2s
  obtain ⟨x1, x2, -, x4⟩ := wa_scaled hc1 hw1 hw1'
  obtain ⟨y1, y2, -, y4⟩ := wa_scaled hc2 hw2 hw2'
  have hfac : ∀ {c : ℝ}, c ≠ 0 → PowerFactor (ampFactor c g g') (Real.logb 2 |c|) (g' - g) Jc := by
    intro c hc j _ _
    refine ⟨ampFactor_ne_zero hc _, ?_⟩
    have h2 : (0:ℝ) < 2 ^ ((g' - g) * (j : ℝ)) := Real.rpow_pos_of_pos (by norm_num) _
    rw [ampFactor, abs_mul, Real.logb_mul (abs_pos.2 hc).ne' (abs_pos.2 h2.ne').ne', abs_of_pos h2,
      Real.logb_rpow (by norm_num) (by norm_num)]
  have hsgn : ∀ j : ℤ, 1 ≤ j → j ≤ Jc → (0 < ampFactor c1 g g' j * ampFactor c2 g g' j ↔ 0 < c1 * c2) := by
    intro j _ _
    have h2 : (0:ℝ) < 2 ^ ((g' - g) * (j : ℝ)) := Real.rpow_pos_of_pos (by norm_num) _
    have : ampFactor c1 g g' j * ampFactor c2 g g' j = (c1 * c2) * ((2:ℝ) ^ ((g' - g) * (j : ℝ)) * 2 ^ ((g' - g) * (j : ℝ))) := by
      unfold ampFactor; ring
    rw [this]
    exact mul_pos_iff_of_pos_right (by positivity)
  obtain ⟨d, d', hd, hd', hs, hcr⟩ := biVar_rescale hpc h1 hj (by omega) weighted q1 q2 hn1 hn2 hq1 hq2 hn (hfac hc1) (hfac hc2) g' hsgn
  have hone : PowerFactor (fun _ => (1:ℝ)) 0 0 J := fun j _ _ => ⟨one_ne_zero, by simp⟩
  have hone' : PowerFactor (fun _ => (1:ℝ)) 0 0 J' := fun j _ _ => ⟨one_ne_zero, by simp⟩
  obtain ⟨l, -, hl, -⟩ := biVar_rescale hpl h1 hj hJ weighted q1 q2 hn1 hn2 hq1 hq2 hn hone hone 0 (pos := True) (by simp)
  obtain ⟨l', -, hl', -⟩ := biVar_rescale hpl' h1 (by rw [x2]; exact hj) hJ' weighted q1 q2 hn1 hn2 hq1 hq2 hn hone' hone' 0
    (pos := True) (by simp)
  refine ⟨d, l, d', l', w1, w2, m1, m2, ?_, ?_, hw1, hw2, hm1, hm2, hs, hcr, ?_⟩
  · unfold bivariateAnalysisFull bivariateAnalysis
    simp only [hw1, hw2, hm1, hm2, ← he, min_self, hd, hl]
  · unfold bivariateAnalysisFull bivariateAnalysis
    rw [x2] at hl'
    simp only [hw1', hw2', hm1', hm2', x1, y1, x2, y2, ← he, min_self, hd', hl']
  · intro hg
    have z1 := x4 hg rfl
    have z2 := y4 hg rfl
    rw [hm1, hm1'] at z1
    rw [hm2, hm2'] at z2
    simp only [Option.map_some, Option.some.injEq] at z1 z2
    have habs : ∀ {c : ℝ}, c ≠ 0 → PowerFactor (fun _ => |c|) (Real.logb 2 |c|) 0 J := by
      intro c hc j _ _
      exact ⟨(abs_pos.2 hc).ne', by simp⟩
    obtain ⟨v, v', hv, hv', k1, k2⟩ := biVar_rescale hpl h1 hj hJ weighted q1 q2 hn1 hn2 hq1 hq2 hn (habs hc1) (habs hc2) m1.gamint
      (pos := True) (fun j _ _ => iff_of_true (mul_pos (abs_pos.2 hc1) (abs_pos.2 hc2)) trivial)
    have g1 : rescale (fun _ => |c1|) m1.gamint m1 = m1' := z1.symm
    have g2 : rescale (fun _ => |c2|) m1.gamint m2 = m2' := by rw [hpl.gamint]; exact z2.symm
    rw [g1, g2] at hv'
    rw [x2] at hl'
    rw [hl] at hv; rw [hl'] at hv'
    cases hv; cases hv'
    exact ⟨k1, k2⟩

/-! The hypotheses are met: 100 samples of `t²` and `sin t`, a filter of length 4; change the units by `-3` and `2` and `gamint` from 0 to
1/2. -/
example : ∃ d l d' l', bivariateAnalysisFull (sampled 100 (fun (_ : Fin 1) (t : ℤ) => (t : ℝ) ^ 2))
      (sampled 100 (fun (_ : Fin 1) (t : ℤ) => Real.sin t)) 2 none 1 0 true
      { dec_lo := [1, 1, 1, 1], dec_hi := [1, -1, -1, 1] } .inf (some (.ndarray [0, 1, 2, 3])) (some (.ndarray [2, 1, 0])) 3
      = .ok (d, l) ∧
    bivariateAnalysisFull (smulArr (-3) (sampled 100 (fun (_ : Fin 1) (t : ℤ) => (t : ℝ) ^ 2)))
      (smulArr 2 (sampled 100 (fun (_ : Fin 1) (t : ℤ) => Real.sin t))) 2 none 1 (1 / 2) true
      { dec_lo := [1, 1, 1, 1], dec_hi := [1, -1, -1, 1] } .inf (some (.ndarray [0, 1, 2, 3])) (some (.ndarray [2, 1, 0])) 3
      = .ok (d', l') ∧
    d'.structure_.coherence = d.structure_.coherence.map fun z => -z := by
  have hlev : decompositionLevel 100 { dec_lo := [1, 1, 1, 1], dec_hi := [1, -1, -1, 1] } = .ok ((4 : ℕ) : ℤ) :=
    (C01_integer 100 4 _ (by norm_num)).mpr (by norm_num)
  obtain ⟨d, l, d', l', -, -, -, -, h, h', -, -, -, -, hs, -⟩ := C111_signals (fun (_ : Fin 1) (t : ℤ) => (t : ℝ) ^ 2)
    (fun (_ : Fin 1) (t : ℤ) => Real.sin t) { dec_lo := [1, 1, 1, 1], dec_hi := [1, -1, -1, 1] } ⟨rfl, by simp⟩ (by simp) 2 none 0 (1 / 2) 1
    one_ne_zero true [0, 1, 2, 3] [2, 1, 0] (by norm_num) (by norm_num) (by norm_num) (by norm_num) 3 (by norm_num) hlev
    (by norm_num) (by norm_num) (by simp) (c1 := -3) (c2 := 2) (by norm_num) (by norm_num)
  refine ⟨d, l, d', l', h, h', ?_⟩
  rw [hs.coherence]
  have h0 : ¬ (0:ℝ) < -3 * 2 := by norm_num
  simp only [h0, if_false]

end MFA
