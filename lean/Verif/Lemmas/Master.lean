import Verif.Lemmas.Spectrum
import Verif.Lemmas.CumShift

/-! Effect on every estimator of multiplying the values at scale `j` by `a j`, with `log2 |a j|` affine in `j`. -/

namespace MFA

open Classical Finset

variable {R : ℕ}

theorem FiniteData.entries {m : MRQ R} (h : FiniteData m) {p : ℤ × Arr R} (hp : p ∈ m.values) (r : Fin R) :
    ∃ xs, xs ≠ [] ∧ Entries (col p.2 r) xs := by
  obtain ⟨⟨x, hx, hxn⟩, hf⟩ := h p hp r
  obtain ⟨xs, hxs⟩ := dropNaN_eq_map_fin (l := col p.2 r) (fun y hy hyn => (hf y hy).resolve_left hyn)
  refine ⟨xs, ?_, hxs⟩
  rintro rfl
  have : x ∈ dropNaN (col p.2 r) := mem_dropNaN.mpr ⟨hx, (Fl.not_isNaN_iff x).mpr hxn⟩
  rw [hxs] at this; cases this

theorem Entries.mem' {c : List Fl} {xs : List ℝ} (h : Entries c xs) {t : ℝ} (ht : t ∈ xs) : Fl.fin t ∈ c := by
  have : Fl.fin t ∈ dropNaN c := by rw [h]; exact List.mem_map.mpr ⟨t, ht, rfl⟩
  exact (mem_dropNaN.mp this).1

theorem NonzeroData.finite {m : MRQ R} (h : NonzeroData m) : FiniteData m := by
  intro p hp r
  refine ⟨(h p hp r).1, fun x hx => ?_⟩
  rcases (h p hp r).2 x hx with h | ⟨t, _, e⟩
  · exact Or.inl h
  · exact Or.inr ⟨t, e⟩

theorem NonzeroData.entries {m : MRQ R} (h : NonzeroData m) {p : ℤ × Arr R} (hp : p ∈ m.values) (r : Fin R) :
    ∃ xs, xs ≠ [] ∧ (∀ x ∈ xs, x ≠ 0) ∧ Entries (col p.2 r) xs := by
  obtain ⟨xs, hne, he⟩ := h.finite.entries hp r
  refine ⟨xs, hne, fun x hx => ?_, he⟩
  rcases (h p hp r).2 _ (he.mem' hx) with h | ⟨t, ht, e⟩
  · exact absurd h (by simp)
  · rw [Fl.fin_inj] at e; rwa [e]

theorem NonzeroData.nonvanishing {m : MRQ R} (h : NonzeroData m) : NonvanishingData m := by
  refine ⟨h.finite, fun p hp r => ?_⟩
  obtain ⟨xs, hne, h0, he⟩ := h.entries hp r
  obtain ⟨x, hx⟩ := List.exists_mem_of_ne_nil xs hne
  exact ⟨x, h0 x hx, he.mem' hx⟩

/-- What the spectrum needs for the exponent `q`: finite data, and no zeros (or `q > 0` and some non-zero). -/
def SpectrumData (m : MRQ R) (q : ℝ) : Prop := NonzeroData m ∨ (0 < q ∧ NonvanishingData m)

theorem SpectrumData.entries {m : MRQ R} {q : ℝ} (h : SpectrumData m q) {p : ℤ × Arr R} (hp : p ∈ m.values)
    (r : Fin R) : ∃ xs, xs ≠ [] ∧ (0 < q ∨ ∀ x ∈ xs, x ≠ 0) ∧ (∃ x ∈ xs, x ≠ 0) ∧ Entries (col p.2 r) xs := by
  rcases h with h | ⟨hq, h⟩
  · obtain ⟨xs, hne, h0, he⟩ := h.entries hp r
    obtain ⟨x, hx⟩ := List.exists_mem_of_ne_nil xs hne
    exact ⟨xs, hne, Or.inr h0, ⟨x, hx, h0 x hx⟩, he⟩
  · obtain ⟨xs, hne, he⟩ := h.1.entries hp r
    obtain ⟨t, ht0, ht⟩ := h.2 p hp r
    refine ⟨xs, hne, Or.inl hq, ?_, he⟩
    obtain ⟨s, hs, e⟩ := he.mem ht (by simp)
    rw [Fl.fin_inj] at e
    exact ⟨s, hs, e ▸ ht0⟩

/-! ### Scaled quantities -/

/-- The transformation of one dictionary entry. -/
noncomputable def scaleEntry (a : ℤ → ℝ) (p : ℤ × Arr R) : ℤ × Arr R :=
  (p.1, mapArr (fun x => Fl.fin (a p.1) * x) p.2)

theorem Regular.key_range {m : MRQ R} {J : ℕ} (hm : Regular m J) {p : ℤ × Arr R} (hp : p ∈ m.values) :
    1 ≤ p.1 ∧ p.1 ≤ J := by
  have : p.1 ∈ m.values.map Prod.fst := List.mem_map.mpr ⟨p, hp, rfl⟩
  rw [hm.1, List.mem_map] at this
  obtain ⟨i, hi, e⟩ := this
  rw [List.mem_range] at hi
  omega

theorem Regular.scaleBy {m : MRQ R} {J : ℕ} (hm : Regular m J) {a : ℤ → ℝ} (ha : ∀ p ∈ m.values, a p.1 ≠ 0) :
    Regular (MFA.scaleBy a m) J := by
  constructor
  · rw [← hm.1]; simp [MFA.scaleBy, Function.comp_def]
  · show m.nj = _
    rw [hm.2]
    simp only [MFA.scaleBy, List.map_map]
    apply List.map_congr_left
    intro p hp
    simp only [Function.comp_apply]
    congr 1; funext r
    rw [col_mapArr, countNotNaN_map (Fl.fin_mul_isNaN (ha p hp))]

theorem subR_scaleBy (m : MRQ R) (a : ℤ → ℝ) (j1 j2 : ℤ) :
    subR (scaleBy a m) j1 j2 = (subR m j1 j2).map (scaleEntry a) := by
  unfold subR
  rw [← pySlice_map]; rfl

theorem wtOf_scaleEntry {a : ℤ → ℝ} {p : ℤ × Arr R} (ha : a p.1 ≠ 0) (weighted : Bool) (r : Fin R) :
    wtOf weighted (scaleEntry a p) r = wtOf weighted p r := by
  unfold wtOf scaleEntry
  simp only [col_mapArr, countNotNaN_map (Fl.fin_mul_isNaN ha)]

section
variable {m : MRQ R} {J : ℕ} (hm : Regular m J) {j1 j2 : ℤ} (h1 : 1 ≤ j1) (h12 : j1 ≤ j2) (h2 : j2 ≤ J)
  {a : ℤ → ℝ} {α β : ℝ} (ha : ∀ p ∈ m.values, a p.1 ≠ 0 ∧ Real.logb 2 |a p.1| = α + β * (p.1 : ℝ))

/-- Regression of a per-scale statistic that is shifted by an affine function of the scale. -/
theorem slope_scaled (hl : subR m j1 j2 ≠ []) (ha : ∀ p ∈ m.values, a p.1 ≠ 0) (weighted : Bool) (r : Fin R)
    (f : ℤ × Arr R → Fl) (c d : ℝ)
    (hf : ∀ p ∈ subR m j1 j2, f (scaleEntry a p) = f p + Fl.fin (c + d * (p.1 : ℝ))) :
    slopeL (subR (scaleBy a m) j1 j2) (fun p => (p.1 : ℝ)) (fun p => wtOf weighted p r) f
      = slopeL (subR m j1 j2) (fun p => (p.1 : ℝ)) (fun p => wtOf weighted p r) f + Fl.fin d ∧
    interL (subR (scaleBy a m) j1 j2) (fun p => (p.1 : ℝ)) (fun p => wtOf weighted p r) f
      = interL (subR m j1 j2) (fun p => (p.1 : ℝ)) (fun p => wtOf weighted p r) f + Fl.fin c := by
  rw [subR_scaleBy, slopeL_map, interL_map,
    slopeL_congr (x := (fun p => (p.1 : ℝ)) ∘ scaleEntry a) (w := (fun p => wtOf weighted p r) ∘ scaleEntry a)
      (y := f ∘ scaleEntry a) (x' := fun p => (p.1 : ℝ)) (w' := fun p => wtOf weighted p r)
      (y' := fun p => f p + Fl.fin (c + d * (p.1 : ℝ))) (fun p _ => rfl)
      (fun p hp => wtOf_scaleEntry (ha p (sub_mem hp)) weighted r) hf,
    interL_congr (x := (fun p => (p.1 : ℝ)) ∘ scaleEntry a) (w := (fun p => wtOf weighted p r) ∘ scaleEntry a)
      (y := f ∘ scaleEntry a) (x' := fun p => (p.1 : ℝ)) (w' := fun p => wtOf weighted p r)
      (y' := fun p => f p + Fl.fin (c + d * (p.1 : ℝ))) (fun p _ => rfl)
      (fun p hp => wtOf_scaleEntry (ha p (sub_mem hp)) weighted r) hf]
  exact slopeL_shift _ hl (fun p => (p.1 : ℝ)) _ (fun p _ => wtOf_nonneg _ _ _) f c d

include hm h1 h12 h2 ha

theorem zetaF_scaled (weighted : Bool) (e : Expo) (r : Fin R) :
    zetaF (scaleBy a m) j1 j2 weighted e r = zetaF m j1 j2 weighted e r + Fl.fin (e.val * β) ∧
    zetaIF (scaleBy a m) j1 j2 weighted e r = zetaIF m j1 j2 weighted e r + Fl.fin (e.val * α) := by
  refine slope_scaled (hm.sub_ne_nil h1 h12 h2) (fun p hp => (ha p hp).1) weighted r
    (fun p => (sfMean p.2 e r).log2) (e.val * α) (e.val * β) (fun p hp => ?_)
  have := ha p (sub_mem hp)
  show (sfMean (mapArr _ p.2) e r).log2 = _
  rw [sfMean_scale this.1, this.2]
  congr 2; ring

theorem hminF_scaled (weighted : Bool) (r : Fin R) :
    hminF (scaleBy a m) j1 j2 weighted r = hminF m j1 j2 weighted r + Fl.fin β ∧
    hminIF (scaleBy a m) j1 j2 weighted r = hminIF m j1 j2 weighted r + Fl.fin α := by
  refine slope_scaled (hm.sub_ne_nil h1 h12 h2) (fun p hp => (ha p hp).1) weighted r
    (fun p => (nanmax ((col p.2 r).map Fl.abs)).log2) α β (fun p hp => ?_)
  have := ha p (sub_mem hp)
  show (nanmax ((col (mapArr _ p.2) r).map Fl.abs)).log2 = _
  rw [col_mapArr, hminCol_scale this.1, this.2]

theorem cumF_scaled (weighted : Bool) {n i : ℕ} (hi : i < n) (r : Fin R) :
    cumF (scaleBy a m) j1 j2 weighted n i r
      = cumF m j1 j2 weighted n i r + Fl.fin (if i = 0 then Real.log 2 * β else 0) := by
  refine (slope_scaled (hm.sub_ne_nil h1 h12 h2) (fun p hp => (ha p hp).1) weighted r
    (fun p => (cmColumn (logAbsCol p.2 r) n).getD i Fl.nan) (if i = 0 then Real.log 2 * α else 0) _
    (fun p hp => ?_)).1
  obtain ⟨h0, hl⟩ := ha p (sub_mem hp)
  show (cmColumn ((col (mapArr _ p.2) r).map fun x => x.abs.ln) n).getD i Fl.nan
    = (cmColumn ((col p.2 r).map fun x => x.abs.ln) n).getD i Fl.nan + _
  have e : (col (mapArr (fun x => Fl.fin (a p.1) * x) p.2) r).map (fun x => x.abs.ln)
      = ((col p.2 r).map fun x => x.abs.ln).map fun x => x + Fl.fin (Real.log |a p.1|) := by
    rw [col_mapArr, List.map_map, List.map_map]
    apply List.map_congr_left
    intro x _
    simp only [Function.comp_apply]
    rw [Fl.abs_fin_mul, Fl.ln_fin_mul (abs_pos.mpr h0)]
  rw [e, cmColumn_shift _ _ hi]
  congr 2
  have hlog : Real.log |a p.1| = Real.log 2 * (α + β * (p.1 : ℝ)) := by
    rw [← hl, Real.logb]; field_simp
  split
  · rw [hlog]; ring
  · ring

end

/-! ### Spectrum -/

theorem Fl.fin_mul_div_fin_mul {k : ℝ} (hk : 0 < k) (x y : Fl) :
    (Fl.fin k * x) / (Fl.fin k * y) = x / y := by
  have hinv : (Fl.fin k * y)⁻¹ = Fl.fin k⁻¹ * y⁻¹ := by
    have hk' : 0 < k⁻¹ := inv_pos.mpr hk
    cases y with
    | nan => simp
    | pinf => rw [Fl.fin_mul_pinf, Fl.sgnInf_pos hk]; show Fl.fin 0 = Fl.fin k⁻¹ * Fl.fin 0; rw [Fl.fin_mul, mul_zero]
    | ninf =>
      rw [Fl.fin_mul_ninf, Fl.sgnInf_neg (by linarith)]; show Fl.fin 0 = Fl.fin k⁻¹ * Fl.fin 0
      rw [Fl.fin_mul, mul_zero]
    | fin b =>
      rw [Fl.fin_mul]
      by_cases hb : b = 0
      · subst hb
        rw [mul_zero]
        have : (Fl.fin 0)⁻¹ = Fl.pinf := by
          show (if (0:ℝ) = 0 then Fl.pinf else _) = _
          rw [if_pos rfl]
        rw [this, Fl.fin_mul_pinf, Fl.sgnInf_pos hk']
      · rw [Fl.inv_fin hb, Fl.inv_fin (mul_ne_zero hk.ne' hb), Fl.fin_mul, mul_inv]
  rw [Fl.div_def, Fl.div_def, hinv, mul_comm (Fl.fin k) x, mul_assoc, ← mul_assoc (Fl.fin k), Fl.fin_mul,
    mul_inv_cancel₀ hk.ne']
  rw [show Fl.fin 1 = (1 : Fl) from rfl, one_mul]

theorem msR_scale {a : ℝ} (ha : a ≠ 0) (c : List Fl) (e : Expo) :
    msR (c.map fun x => Fl.fin a * x) e = msR c e := by
  have h0 : 0 < |a| := abs_pos.mpr ha
  have hp : 0 < |a| ^ e.val := Real.rpow_pos_of_pos h0 _
  have ht : ((c.map fun x => Fl.fin a * x).map Fl.abs).map (fastPower e)
      = (((c.map Fl.abs).map (fastPower e)).map fun x => Fl.fin (|a| ^ e.val) * x) := by
    simp only [List.map_map, Function.comp_def, Fl.abs_fin_mul, fastPower_fin_mul_abs h0]
  unfold msR
  simp only [ht, nansum_fin_mul hp.ne']
  rw [List.map_map]
  simp only [Function.comp_def, Fl.fin_mul_div_fin_mul hp]

theorem msU_scale {a : ℝ} (ha : a ≠ 0) (n : ℕ) (c : List Fl) (e : Expo) :
    msU n (c.map fun x => Fl.fin a * x) e = msU n c e := by
  unfold msU; rw [msR_scale ha]

theorem msV_scale {a : ℝ} (ha : a ≠ 0) {c : List Fl} {xs : List ℝ} {e : Expo} (h : Entries c xs)
    (hq : 0 < e.val ∨ ∀ x ∈ xs, x ≠ 0) (hex : ∃ x ∈ xs, x ≠ 0) :
    msV (c.map fun x => Fl.fin a * x) e = msV c e + Fl.fin (Real.logb 2 |a|) := by
  have h0 : 0 < |a| := abs_pos.mpr ha
  have hp : 0 < |a| ^ e.val := Real.rpow_pos_of_pos h0 _
  rw [msV_eq h hq hex, msV_eq (h.scale ha)]
  · rw [Fl.fin_add]
    congr 1
    have hS : powSum (xs.map (a * ·)) e.val = |a| ^ e.val * powSum xs e.val := by
      unfold powSum
      rw [← List.sum_map_mul_left, List.map_map]
      congr 1
      apply List.map_congr_left; intro x _
      simp only [Function.comp_apply, abs_mul]
      rw [Real.mul_rpow h0.le (abs_nonneg _)]
    have hterm : ((xs.map (a * ·)).map fun x => |x| ^ e.val / powSum (xs.map (a * ·)) e.val * Real.logb 2 |x|)
        = xs.map fun x => |x| ^ e.val / powSum xs e.val * Real.logb 2 |x|
            + Real.logb 2 |a| * (|x| ^ e.val / powSum xs e.val) := by
      rw [List.map_map]
      apply List.map_congr_left
      intro x hx
      simp only [Function.comp_apply]
      rw [hS, abs_mul, Real.mul_rpow h0.le (abs_nonneg _), mul_div_mul_left _ _ hp.ne']
      by_cases hx0 : x = 0
      · subst hx0
        have he : 0 < e.val := hq.resolve_right (fun h => h 0 hx rfl)
        simp [Real.zero_rpow he.ne']
      · rw [Real.logb_mul h0.ne' (abs_ne_zero.mpr hx0)]; ring
    rw [hterm, List.sum_map_add, List.sum_map_mul_left, probSum hex, mul_one]
  · rcases hq with hq | hq
    · exact Or.inl hq
    · right
      intro y hy
      obtain ⟨x, hx, rfl⟩ := List.mem_map.mp hy
      exact mul_ne_zero ha (hq x hx)
  · obtain ⟨x, hx, hx0⟩ := hex
    exact ⟨a * x, List.mem_map.mpr ⟨x, hx, rfl⟩, mul_ne_zero ha hx0⟩

section
variable {m : MRQ R} {J : ℕ} (hm : Regular m J) {j1 j2 : ℤ} (h1 : 1 ≤ j1) (h12 : j1 ≤ j2) (h2 : j2 ≤ J)
  {a : ℤ → ℝ} {α β : ℝ}
include hm h1 h12 h2

theorem uF_scaled (ha : ∀ p ∈ m.values, a p.1 ≠ 0) (weighted : Bool) (e : Expo) (r : Fin R) :
    uF (scaleBy a m) j1 j2 weighted e r = uF m j1 j2 weighted e r := by
  have := (slope_scaled (hm.sub_ne_nil h1 h12 h2) ha weighted r
    (fun p => msU (countNotNaN (col p.2 r)) (col p.2 r) e) 0 0 (fun p hp => ?_)).1
  · rw [show Fl.fin 0 = (0 : Fl) from rfl, add_zero] at this
    exact this
  · show msU (countNotNaN (col (mapArr _ p.2) r)) (col (mapArr _ p.2) r) e = _
    rw [col_mapArr, countNotNaN_map (Fl.fin_mul_isNaN (ha p (sub_mem hp))), msU_scale (ha p (sub_mem hp))]
    rw [zero_mul, add_zero, show Fl.fin 0 = (0 : Fl) from rfl, add_zero]

theorem vF_scaled (ha : ∀ p ∈ m.values, a p.1 ≠ 0 ∧ Real.logb 2 |a p.1| = α + β * (p.1 : ℝ))
    (weighted : Bool) (e : Expo) (hd : SpectrumData m e.val) (r : Fin R) :
    vF (scaleBy a m) j1 j2 weighted e r = vF m j1 j2 weighted e r + Fl.fin β := by
  refine (slope_scaled (hm.sub_ne_nil h1 h12 h2) (fun p hp => (ha p hp).1) weighted r
    (fun p => msV (col p.2 r) e) α β (fun p hp => ?_)).1
  obtain ⟨h0, hl⟩ := ha p (sub_mem hp)
  obtain ⟨xs, hne, hq, hex, he⟩ := hd.entries (sub_mem hp) r
  show msV (col (mapArr _ p.2) r) e = _
  rw [col_mapArr, msV_scale h0 he hq hex, hl]

end

end MFA
