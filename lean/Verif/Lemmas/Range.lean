import Verif.Lemmas.Regression
import Verif.Lemmas.Reductions
import Verif.Spec.Regular
import Verif.Model.MRQ

/-! Regressions over the scale range of a regular multiresolution quantity. -/

namespace MFA

open Classical Finset

section slopeL

variable {ι κ : Type}

/-- Slope of the regression of `y` on `x` with weights `w` over the list `l`. -/
noncomputable def slopeL (l : List ι) (x w : ι → ℝ) (y : ι → Fl) : Fl :=
  dotB (lrWSlope (l.map fun p => Fl.fin (x p)) (l.map fun p => Fl.fin (w p))) (l.map y)

/-- Intercept of the regression. -/
noncomputable def interL (l : List ι) (x w : ι → ℝ) (y : ι → Fl) : Fl :=
  dotB (lrWInter (l.map fun p => Fl.fin (x p)) (l.map fun p => Fl.fin (w p))) (l.map y)

theorem map_eq_ofFn {α : Type} (l : List ι) (f : ι → α) : l.map f = List.ofFn (fun i : Fin l.length => f l[i]) := by
  apply List.ext_getElem
  · simp
  · intro i h1 h2; simp

theorem slopeL_map (g : κ → ι) (l : List κ) (x w : ι → ℝ) (y : ι → Fl) :
    slopeL (l.map g) x w y = slopeL l (x ∘ g) (w ∘ g) (y ∘ g) := by
  simp [slopeL, List.map_map, Function.comp_def]

theorem interL_map (g : κ → ι) (l : List κ) (x w : ι → ℝ) (y : ι → Fl) :
    interL (l.map g) x w y = interL l (x ∘ g) (w ∘ g) (y ∘ g) := by
  simp [interL, List.map_map, Function.comp_def]

theorem slopeL_congr {l : List ι} {x w x' w' : ι → ℝ} {y y' : ι → Fl} (hx : ∀ p ∈ l, x p = x' p)
    (hw : ∀ p ∈ l, w p = w' p) (hy : ∀ p ∈ l, y p = y' p) : slopeL l x w y = slopeL l x' w' y' := by
  unfold slopeL
  rw [List.map_congr_left (f := y) (g := y') hy,
    List.map_congr_left (f := fun p => Fl.fin (x p)) (g := fun p => Fl.fin (x' p)) (fun p hp => by rw [hx p hp]),
    List.map_congr_left (f := fun p => Fl.fin (w p)) (g := fun p => Fl.fin (w' p)) (fun p hp => by rw [hw p hp])]

theorem interL_congr {l : List ι} {x w x' w' : ι → ℝ} {y y' : ι → Fl} (hx : ∀ p ∈ l, x p = x' p)
    (hw : ∀ p ∈ l, w p = w' p) (hy : ∀ p ∈ l, y p = y' p) : interL l x w y = interL l x' w' y' := by
  unfold interL
  rw [List.map_congr_left (f := y) (g := y') hy,
    List.map_congr_left (f := fun p => Fl.fin (x p)) (g := fun p => Fl.fin (x' p)) (fun p hp => by rw [hx p hp]),
    List.map_congr_left (f := fun p => Fl.fin (w p)) (g := fun p => Fl.fin (w' p)) (fun p hp => by rw [hw p hp])]

/-- With a vanishing determinant and non-negative weights all regression weights are NaN. -/
theorem weights_nan {n : ℕ} (x nj : Fin n → ℝ) (hn : ∀ i, 0 ≤ nj i) (hD : rD x nj = 0) :
    lrWSlope (finCol x) (finCol nj) = List.ofFn (fun _ : Fin n => Fl.nan) ∧
    lrWInter (finCol x) (finCol nj) = List.ofFn (fun _ : Fin n => Fl.nan) := by
  have z : Fl.fin 0 * (Fl.fin 0)⁻¹ = Fl.nan := by
    show Fl.fin 0 * (if (0:ℝ) = 0 then Fl.pinf else _) = _
    rw [if_pos rfl, Fl.fin_mul_pinf, Fl.sgnInf_zero]
  -- each weighted deviation vanishes
  have hdev : ∀ i, nj i = 0 ∨ rV0 nj * x i - rV1 x nj = 0 := by
    intro i
    by_cases h0 : rV0 nj = 0
    · left
      have := (Finset.sum_eq_zero_iff_of_nonneg (fun i _ => hn i)).mp h0
      exact this i (Finset.mem_univ _)
    · have := rD_eq x nj h0
      rw [hD] at this
      have hs : ∑ i, nj i * (x i - rV1 x nj / rV0 nj) ^ 2 = 0 := by
        rcases mul_eq_zero.mp this.symm with h | h
        · exact absurd h h0
        · exact h
      have := (Finset.sum_eq_zero_iff_of_nonneg
        (fun i _ => mul_nonneg (hn i) (sq_nonneg _))).mp hs i (Finset.mem_univ _)
      rcases mul_eq_zero.mp this with h | h
      · exact Or.inl h
      · right
        have h2 : x i - rV1 x nj / rV0 nj = 0 := pow_eq_zero_iff (two_ne_zero) |>.mp h
        have h3 : x i = rV1 x nj / rV0 nj := by linarith
        rw [h3]; field_simp; ring
  have hdev2 : ∀ i, nj i * (rV2 x nj - rV1 x nj * x i) = 0 := by
    intro i
    rcases hdev i with h | h
    · rw [h, zero_mul]
    · by_cases h0 : rV0 nj = 0
      · have := (Finset.sum_eq_zero_iff_of_nonneg (fun i _ => hn i)).mp h0 i (Finset.mem_univ _)
        rw [this, zero_mul]
      · have h1 : rV1 x nj = rV0 nj * x i := by linarith
        have h2 : rV0 nj * (rV2 x nj - rV1 x nj * x i) = 0 := by
          have : rD x nj = rV0 nj * (rV2 x nj - rV1 x nj * x i) := by rw [rD]; rw [h1]; ring
          rw [← this, hD]
        rcases mul_eq_zero.mp h2 with h | h
        · exact absurd h h0
        · rw [h, mul_zero]
  constructor
  · rw [lrWSlope, lrV0_fin, lrV1_fin, lrV2_fin, finCol, finCol, zipWith_ofFn]
    congr 1; funext i
    simp only [Fl.fin_mul, Fl.fin_sub]
    have hD' : rV0 nj * rV2 x nj - rV1 x nj * rV1 x nj = 0 := hD
    have : nj i * (rV0 nj * x i - rV1 x nj) = 0 := by
      rcases hdev i with h | h <;> rw [h] <;> ring
    rw [hD', this, Fl.div_def, z]
  · rw [lrWInter, lrV0_fin, lrV1_fin, lrV2_fin, finCol, finCol, zipWith_ofFn]
    congr 1; funext i
    simp only [Fl.fin_mul, Fl.fin_sub]
    have hD' : rV0 nj * rV2 x nj - rV1 x nj * rV1 x nj = 0 := hD
    rw [hD', hdev2 i, Fl.div_def, z]

theorem sum_nan_mul {n : ℕ} (h : 0 < n) (y : Fin n → Fl) : ∑ i, Fl.nan * y i = Fl.nan := by
  obtain ⟨m, rfl⟩ := Nat.exists_eq_succ_of_ne_zero h.ne'
  rw [Fin.sum_univ_succ]; simp

/-- Either the slope and intercept are given by finite weights with the usual identities, or they are NaN. -/
theorem slopeL_cases (l : List ι) (hl : l ≠ []) (x w : ι → ℝ) (hw : ∀ p ∈ l, 0 ≤ w p) :
    (∀ y, slopeL l x w y = Fl.nan ∧ interL l x w y = Fl.nan) ∨
    (rD (fun i : Fin l.length => x l[i]) (fun i => w l[i]) ≠ 0 ∧
      ∀ y, slopeL l x w y = ∑ i : Fin l.length,
          Fl.fin (rWS (fun i : Fin l.length => x l[i]) (fun i => w l[i]) i) * y l[i] ∧
        interL l x w y = ∑ i : Fin l.length,
          Fl.fin (rWI (fun i : Fin l.length => x l[i]) (fun i => w l[i]) i) * y l[i]) := by
  have hlen : 0 < l.length := List.length_pos_iff.mpr hl
  have e : ∀ f : ι → ℝ, (l.map fun p => Fl.fin (f p)) = finCol (fun i : Fin l.length => f l[i]) := by
    intro f; rw [map_eq_ofFn]; rfl
  by_cases hD : rD (fun i : Fin l.length => x l[i]) (fun i => w l[i]) = 0
  · left
    obtain ⟨h1, h2⟩ := weights_nan _ _ (fun i : Fin l.length => hw l[i] (List.getElem_mem _)) hD
    intro y
    constructor
    · rw [slopeL, e, e, h1, map_eq_ofFn, dotB_ofFn, sum_nan_mul hlen]
    · rw [interL, e, e, h2, map_eq_ofFn, dotB_ofFn, sum_nan_mul hlen]
  · right
    refine ⟨hD, fun y => ⟨?_, ?_⟩⟩
    · rw [slopeL, e, e, map_eq_ofFn, slope_col _ _ _ hD]
    · rw [interL, e, e, map_eq_ofFn, inter_col _ _ _ hD]

theorem slopeL_shift (l : List ι) (hl : l ≠ []) (x w : ι → ℝ) (hw : ∀ p ∈ l, 0 ≤ w p) (y : ι → Fl) (c d : ℝ) :
    slopeL l x w (fun p => y p + Fl.fin (c + d * x p)) = slopeL l x w y + Fl.fin d ∧
    interL l x w (fun p => y p + Fl.fin (c + d * x p)) = interL l x w y + Fl.fin c := by
  rcases slopeL_cases l hl x w hw with h | ⟨hD, h⟩
  · rw [(h _).1, (h _).2, (h y).1, (h y).2]; simp
  · rw [(h _).1, (h _).2, (h y).1, (h y).2]
    exact ⟨slope_shift _ _ (fun i : Fin l.length => y l[i]) c d hD,
      inter_shift _ _ (fun i : Fin l.length => y l[i]) c d hD⟩

theorem slopeL_add (l : List ι) (hl : l ≠ []) (x w : ι → ℝ) (hw : ∀ p ∈ l, 0 ≤ w p) (y y' : ι → Fl) :
    slopeL l x w (fun p => y p + y' p) = slopeL l x w y + slopeL l x w y' := by
  rcases slopeL_cases l hl x w hw with h | ⟨hD, h⟩
  · simp only [(h _).1, Fl.nan_add]
  · simp only [(h _).1, Fl.fin_mul_add, Finset.sum_add_distrib]

theorem Fl.fin_mul_finset_sum {n : ℕ} (k : ℝ) (f : Fin n → Fl) : Fl.fin k * ∑ i, f i = ∑ i, Fl.fin k * f i := by
  rw [← List.sum_ofFn, Fl.fin_mul_sum, List.map_ofFn, List.sum_ofFn]; rfl

theorem slopeL_smul (l : List ι) (hl : l ≠ []) (x w : ι → ℝ) (hw : ∀ p ∈ l, 0 ≤ w p) (y : ι → Fl) (k : ℝ) :
    slopeL l x w (fun p => Fl.fin k * y p) = Fl.fin k * slopeL l x w y := by
  rcases slopeL_cases l hl x w hw with h | ⟨hD, h⟩
  · simp only [(h _).1, Fl.mul_nan]
  · simp only [(h _).1, Fl.fin_mul_finset_sum]
    apply Finset.sum_congr rfl; intro i _
    rw [mul_left_comm]

theorem slopeL_affine (l : List ι) (x w : ι → ℝ) (hw : ∀ p ∈ l, 0 < w p)
    (hx : ∃ p ∈ l, ∃ p' ∈ l, x p ≠ x p') (c d : ℝ) :
    slopeL l x w (fun p => Fl.fin (c + d * x p)) = Fl.fin d ∧
    interL l x w (fun p => Fl.fin (c + d * x p)) = Fl.fin c := by
  obtain ⟨p, hp, p', hp', hne⟩ := hx
  have hl : l ≠ [] := fun h => by rw [h] at hp; cases hp
  have hD : rD (fun i : Fin l.length => x l[i]) (fun i => w l[i]) ≠ 0 := by
    apply (rD_pos _ _ (fun i => hw _ (List.getElem_mem _)) ?_).ne'
    obtain ⟨i, hi, rfl⟩ := List.getElem_of_mem hp
    obtain ⟨i', hi', rfl⟩ := List.getElem_of_mem hp'
    exact ⟨⟨i, hi⟩, ⟨i', hi'⟩, hne⟩
  have e : ∀ f : ι → ℝ, (l.map fun p => Fl.fin (f p)) = finCol (fun i : Fin l.length => f l[i]) := by
    intro f; rw [map_eq_ofFn]; rfl
  have hz : ∀ t : ℝ, Fl.fin t * 0 = 0 := fun t => by rw [Fl.zero_def, Fl.fin_mul, mul_zero]
  constructor
  · have := slope_shift (fun i : Fin l.length => x l[i]) (fun i => w l[i]) (fun _ => 0) c d hD
    rw [slopeL, e, e, map_eq_ofFn, slope_col _ _ _ hD]
    simpa [hz] using this
  · have := inter_shift (fun i : Fin l.length => x l[i]) (fun i => w l[i]) (fun _ => 0) c d hD
    rw [interL, e, e, map_eq_ofFn, inter_col _ _ _ hD]
    simpa [hz] using this

end slopeL

/-- `linear_regression` when all arguments are maps over a common list. -/
theorem linearRegression_map {ι : Type} {R : ℕ} (l : List ι) (x : ι → ℝ) (w : ι → Fin R → ℝ) (y : ι → Row R) :
    linearRegression (l.map fun p _ => Fl.fin (x p)) (l.map y) (.mat (l.map fun p r => Fl.fin (w p r))) = .ok {
      slope := fun r => slopeL l x (fun p => w p r) (fun p => y p r)
      intercept := fun r => interL l x (fun p => w p r) (fun p => y p r)
      var := fun r => lrVar (l.map fun p => Fl.fin (x p)) (l.map fun p => Fl.fin (w p r)) } := by
  simp only [linearRegression, List.length_map, ne_eq, not_true_eq_false, if_false, true_or, if_true, col,
    List.map_map, Function.comp_def, slopeL, interL]

/-! ### Slices of a regular quantity -/

theorem mapE_ok {α β : Type} (f : α → Except PyErr β) (g : α → β) (l : List α) (h : ∀ a ∈ l, f a = .ok (g a)) :
    mapE f l = .ok (l.map g) := by
  induction l with
  | nil => rfl
  | cons a l ih =>
    rw [mapE, h a (by simp), ih (fun b hb => h b (by simp [hb]))]; rfl

theorem sliceBound_nat (n s : ℕ) : sliceBound n (s : ℤ) = min s n := by
  unfold sliceBound
  rw [if_neg (by omega)]; simp

theorem pySlice_map {α β : Type} (f : α → β) (l : List α) (a b : ℤ) :
    pySlice (l.map f) a b = (pySlice l a b).map f := by
  simp [pySlice, List.map_take, List.map_drop]

/-- Weight of a scale in the regressions: the number of non-NaN entries or 1. -/
noncomputable def wtOf {R : ℕ} (weighted : Bool) (p : ℤ × Arr R) (r : Fin R) : ℝ :=
  if weighted then (countNotNaN (col p.2 r) : ℝ) else 1

theorem wtOf_nonneg {R : ℕ} (weighted : Bool) (p : ℤ × Arr R) (r : Fin R) : 0 ≤ wtOf weighted p r := by
  unfold wtOf; split
  · exact Nat.cast_nonneg _
  · exact zero_le_one

/-- The dictionary entries of the scales `j1 .. j2`. -/
noncomputable def subR {R : ℕ} (m : MRQ R) (j1 j2 : ℤ) : List (ℤ × Arr R) := pySlice m.values (j1 - 1) j2

theorem dictGet_of_nodup {α β : Type} (f : ℤ × α → β) : ∀ (d : List (ℤ × α)), (d.map Prod.fst).Nodup →
    ∀ p ∈ d, Dict.get? (d.map fun p => (p.1, f p)) p.1 = some (f p)
  | [], _, p, hp => by cases hp
  | q :: d, hnd, p, hp => by
    rw [List.map_cons, List.nodup_cons] at hnd
    rw [List.map_cons, Dict.get?]
    rcases List.mem_cons.mp hp with h | h
    · rw [h, if_pos rfl]
    · have : q.1 ≠ p.1 := fun e => hnd.1 (e ▸ List.mem_map.mpr ⟨p, h, rfl⟩)
      rw [if_neg this]; exact dictGet_of_nodup f d hnd.2 p h

section regular
variable {R : ℕ} {m : MRQ R} {J : ℕ} (hm : Regular m J) {j1 j2 : ℤ} (h1 : 1 ≤ j1) (h12 : j1 ≤ j2) (h2 : j2 ≤ J)
include hm h1 h2

omit h1 h2 in
theorem Regular.length : m.values.length = J := by
  have := congrArg List.length hm.1
  simpa using this

include h12

theorem Regular.sub_keys : (subR m j1 j2).map Prod.fst = arange j1 (j2 + 1) := by
  unfold subR
  rw [← pySlice_map, hm.1]
  obtain ⟨a, rfl⟩ : ∃ a : ℕ, j1 = a + 1 := ⟨(j1 - 1).toNat, by omega⟩
  obtain ⟨b, rfl⟩ : ∃ b : ℕ, j2 = b := ⟨j2.toNat, by omega⟩
  have hb : b ≤ J := by exact_mod_cast h2
  have hab : a + 1 ≤ b := by exact_mod_cast h12
  unfold pySlice arange
  rw [show (a : ℤ) + 1 - 1 = (a : ℤ) by ring, sliceBound_nat, sliceBound_nat]
  apply List.ext_getElem
  · simp; omega
  · intro i h1 h2
    simp
    omega

theorem Regular.sub_ne_nil : subR m j1 j2 ≠ [] := by
  intro h
  have := hm.sub_keys h1 h12 h2
  rw [h] at this
  have hl := congrArg List.length this
  simp [arange] at hl
  omega

omit hm h1 h12 h2 in
theorem sub_mem {p : ℤ × Arr R} (hp : p ∈ subR m j1 j2) : p ∈ m.values := by
  unfold subR pySlice at hp
  exact List.mem_of_mem_take (List.mem_of_mem_drop hp)

theorem Regular.tile : tileScales R j1 j2 = (subR m j1 j2).map fun p _ => Fl.fin (p.1 : ℝ) := by
  rw [tileScales, ← hm.sub_keys h1 h12 h2, List.map_map]; rfl

omit h1 h2 h12 in
theorem Regular.nodup : (m.values.map Prod.fst).Nodup := by
  rw [hm.1]
  refine List.Nodup.map (fun a b h => ?_) List.nodup_range
  have h' : (a : ℤ) + 1 = (b : ℤ) + 1 := h
  omega

omit h1 h2 h12 in
theorem Regular.getNj {p : ℤ × Arr R} (hp : p ∈ m.values) :
    getKey m.nj p.1 = .ok (fun r => countNotNaN (col p.2 r)) := by
  have := dictGet_of_nodup (fun p : ℤ × Arr R => fun r => countNotNaN (col p.2 r)) m.values hm.nodup p hp
  rw [getKey, hm.2, this]

omit h1 h2 h12 in
theorem Regular.getValue {p : ℤ × Arr R} (hp : p ∈ m.values) : getKey m.values p.1 = .ok p.2 := by
  have := dictGet_of_nodup (fun p : ℤ × Arr R => p.2) m.values hm.nodup p hp
  have e : (m.values.map fun p => (p.1, p.2)) = m.values := by simp
  rw [e] at this
  rw [getKey, this]

theorem Regular.weights (weighted : Bool) :
    regWeights m.nj j1 j2 weighted = .ok (.mat ((subR m j1 j2).map fun p r => Fl.fin (wtOf weighted p r))) := by
  have hk := hm.sub_keys h1 h12 h2
  have hne := hm.sub_ne_nil h1 h12 h2
  unfold regWeights
  cases weighted with
  | false =>
    rw [if_neg (by simp), ← hk, List.map_map]; simp [wtOf, Function.comp_def]
  | true =>
    rw [if_pos rfl, getNjInterv, getNjRows, ← hk]
    have : mapE (fun j => getKey m.nj j) ((subR m j1 j2).map Prod.fst)
        = .ok ((subR m j1 j2).map fun p => fun r => countNotNaN (col p.2 r)) := by
      have : ∀ l : List (ℤ × Arr R), (∀ p ∈ l, p ∈ m.values) →
          mapE (fun j => getKey m.nj j) (l.map Prod.fst) = .ok (l.map fun p => fun r => countNotNaN (col p.2 r)) := by
        intro l
        induction l with
        | nil => intro _; rfl
        | cons p l ih =>
          intro h
          rw [List.map_cons, mapE, hm.getNj (h p (by simp)), ih (fun q hq => h q (by simp [hq]))]; rfl
      exact this _ (fun p hp => sub_mem hp)
    rw [this]
    cases hs : subR m j1 j2 with
    | nil => exact absurd hs hne
    | cons p l => simp [wtOf, Function.comp_def]

omit hm h1 h12 h2 in
theorem slice_sub {β : Type} (f : ℤ × Arr R → β) :
    pySlice (m.values.map f) (j1 - 1) j2 = (subR m j1 j2).map f := by
  rw [pySlice_map]; rfl

/-- The regressions performed by all the estimators. -/
theorem Regular.regression (weighted : Bool) (f : ℤ × Arr R → Row R) :
    linearRegression (tileScales R j1 j2) (pySlice (m.values.map f) (j1 - 1) j2)
      (.mat ((subR m j1 j2).map fun p r => Fl.fin (wtOf weighted p r))) = .ok {
      slope := fun r => slopeL (subR m j1 j2) (fun p => (p.1 : ℝ)) (fun p => wtOf weighted p r) (fun p => f p r)
      intercept := fun r => interL (subR m j1 j2) (fun p => (p.1 : ℝ)) (fun p => wtOf weighted p r)
        (fun p => f p r)
      var := fun r => lrVar ((subR m j1 j2).map fun p => Fl.fin (p.1 : ℝ))
        ((subR m j1 j2).map fun p => Fl.fin (wtOf weighted p r)) } := by
  rw [hm.tile h1 h12 h2, slice_sub]
  exact linearRegression_map _ _ _ _

theorem Regular.sub_two (hlt : j1 < j2) :
    ∃ p ∈ subR m j1 j2, ∃ p' ∈ subR m j1 j2, (p.1 : ℝ) ≠ (p'.1 : ℝ) := by
  have hk := hm.sub_keys h1 h12 h2
  have a1 : j1 ∈ (subR m j1 j2).map Prod.fst := by
    rw [hk, arange, List.mem_map]; exact ⟨0, by rw [List.mem_range]; omega, by simp⟩
  have a2 : j2 ∈ (subR m j1 j2).map Prod.fst := by
    rw [hk, arange, List.mem_map]
    exact ⟨(j2 - j1).toNat, by rw [List.mem_range]; omega, by omega⟩
  obtain ⟨p, hp, e⟩ := List.mem_map.mp a1
  obtain ⟨p', hp', e'⟩ := List.mem_map.mp a2
  refine ⟨p, hp, p', hp', ?_⟩
  rw [e, e']
  exact_mod_cast hlt.ne

end regular

end MFA
