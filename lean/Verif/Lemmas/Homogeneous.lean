import Verif.Lemmas.WaveletTop
import Verif.Lemmas.Master
import Verif.Lemmas.Leaders

/-! Multiplying a signal by a non-zero constant: effect on the filter bank, the leaders and the loops. -/

namespace MFA

open Classical

variable {R : ℕ}

theorem smulArr_length (c : ℝ) (a : Arr R) : (smulArr c a).length = a.length := by simp [smulArr, mapArr]

theorem padGet_smul (c : ℝ) (a : Arr R) (t : ℤ) (r : Fin R) : padGet (smulArr c a) t r = Fl.fin c * padGet a t r := by
  unfold padGet
  split
  · simp only [smulArr, mapArr, List.getElem?_map]
    cases a[t.toNat]? with
    | none => simp only [Option.map_none]; rw [Fl.fin_mul, mul_zero]
    | some row => rfl
  · rw [Fl.fin_mul, mul_zero]

theorem convSame_smul {c : ℝ} (a : Arr R) (f : List ℝ) : convSame (smulArr c a) f = smulArr c (convSame a f) := by
  unfold convSame
  rw [smulArr_length]
  conv_rhs => rw [smulArr, mapArr, List.map_map]
  apply List.map_congr_left
  intro i _
  funext r
  simp only [Function.comp_apply]
  rw [Fl.fin_mul_sum, List.map_map]
  congr 1
  apply List.map_congr_left
  intro k _
  simp only [Function.comp_apply]
  rw [padGet_smul, ← mul_assoc, ← mul_assoc, mul_comm (Fl.fin c)]

theorem setNaN_smul (c : ℝ) (a : Arr R) (i j : ℕ) : setNaN (smulArr c a) i j = smulArr c (setNaN a i j) := by
  unfold setNaN smulArr mapArr
  apply List.ext_getElem?
  intro k
  simp only [List.getElem?_mapIdx, List.getElem?_map, Option.map_map]
  cases a[k]? with
  | none => rfl
  | some row =>
    simp only [Option.map_some, Function.comp_apply, Option.some.injEq]
    split
    · funext r; simp
    · rfl

theorem maskBorders_smul (c : ℝ) (F : ℕ) (a : Arr R) : maskBorders F (smulArr c a) = smulArr c (maskBorders F a) := by
  unfold maskBorders
  simp only [smulArr_length, setNaN_smul]

theorem subsample_smul (c : ℝ) (a : Arr R) : subsample (smulArr c a) = smulArr c (subsample a) := by
  unfold subsample
  rw [smulArr_length]
  conv_rhs => rw [smulArr, mapArr, List.map_filterMap]
  apply List.filterMap_congr
  intro k _
  simp [smulArr, mapArr]

theorem filtering_smul (c : ℝ) (a : Arr R) (hi lo : List ℝ) :
    filtering (smulArr c a) hi lo = (smulArr c (filtering a hi lo).1, smulArr c (filtering a hi lo).2) := by
  unfold filtering
  simp only [convSame_smul, maskBorders_smul, subsample_smul]

theorem normalize_smul (c : ℝ) (d : Arr R) (s : ℕ) (nm g : ℝ) :
    normalize (smulArr c d) s nm g = (normalize d s nm g).map (smulArr c) := by
  unfold normalize
  split
  · rfl
  · simp only [Except.map, Except.ok.injEq, smulArr, mapArr, List.map_map]
    apply List.map_congr_left
    intro row _
    funext r
    simp only [Function.comp_apply]
    rw [mul_assoc, mul_assoc, mul_assoc]

theorem tooFew_smul {c : ℝ} (hc : c ≠ 0) (a : Arr R) : tooFew (smulArr c a) ↔ tooFew a := by
  unfold tooFew smulArr
  apply exists_congr
  intro r
  rw [col_mapArr, List.map_map, ← countNotNaN_map (f := Fl.abs) (fun x => by cases x <;> rfl), List.map_map]
  rw [show ((fun x : Fl => x.abs) ∘ (Fl.abs ∘ fun x => Fl.fin c * x)) = fun x => Fl.fin |c| * x.abs by
    funext x
    simp only [Function.comp_apply]
    rw [Fl.abs_fin_mul]
    cases x with
    | fin a => rw [Fl.abs_fin, Fl.fin_mul]; simp [Fl.abs, abs_mul]
    | nan => simp [Fl.abs]
    | pinf => simp [Fl.abs, Fl.fin_mul_pinf, Fl.sgnInf_pos (abs_pos.mpr hc)]
    | ninf => simp [Fl.abs, Fl.fin_mul_pinf, Fl.sgnInf_pos (abs_pos.mpr hc)]]
  rw [show (fun x : Fl => Fl.fin |c| * x.abs) = (fun x => Fl.fin |c| * x) ∘ Fl.abs from rfl, ← List.map_map,
    countNotNaN_map (Fl.fin_mul_isNaN (abs_ne_zero.mpr hc))]

/-! ### Closed forms -/

theorem smulArr_smulArr (c d : ℝ) (a : Arr R) : smulArr c (smulArr d a) = smulArr (c * d) a := by
  simp only [smulArr, mapArr, List.map_map]
  apply List.map_congr_left
  intro row _
  funext r
  simp only [Function.comp_apply]
  rw [← mul_assoc, Fl.fin_mul]

theorem ent_smulArr (c : ℝ) (a : Arr R) {k : ℕ} (hk : k < a.length) (r : Fin R) :
    ent (smulArr c a) k r = Fl.fin c * ent a k r := ent_mapArr _ _ hk r

theorem approxSeq_smul (wt : Wavelet) (g g' nm c : ℝ) (sig : Arr R) (j : ℕ) :
    approxSeq (wparams wt g' nm) (smulArr c sig) j = smulArr c (approxSeq (wparams wt g nm) sig j) := by
  induction j with
  | zero => rfl
  | succ j ih => rw [approxSeq, ih, approxSeq, filtering_smul]; rfl

/-- What the coefficients at scale `s` are multiplied by. -/
noncomputable def ampFactor (c g g' : ℝ) (s : ℤ) : ℝ := c * (2:ℝ) ^ ((g' - g) * (s : ℝ))

theorem ampFactor_ne_zero {c g g' : ℝ} (hc : c ≠ 0) (s : ℤ) : ampFactor c g g' s ≠ 0 :=
  mul_ne_zero hc (Real.rpow_pos_of_pos (by norm_num) _).ne'

theorem ampFactor_same (c g : ℝ) (s : ℤ) : ampFactor c g g s = c := by simp [ampFactor]

theorem coefSeq_smul (wt : Wavelet) (g g' nm c : ℝ) (sig : Arr R) (s : ℕ) :
    coefSeq (wparams wt g' nm) (smulArr c sig) s = smulArr (ampFactor c g g' s) (coefSeq (wparams wt g nm) sig s) := by
  unfold coefSeq detailSeq
  rw [approxSeq_smul wt g g' nm c, filtering_smul]
  simp only [scaled, smulArr, mapArr, List.map_map]
  apply List.map_congr_left
  intro row _
  funext r
  simp only [Function.comp_apply, wparams]
  have h2 : (2:ℝ) ^ (g' * (s : ℝ)) = (2:ℝ) ^ ((g' - g) * (s : ℝ)) * (2:ℝ) ^ (g * (s : ℝ)) := by
    rw [← Real.rpow_add (by norm_num)]; congr 1; ring
  rw [ampFactor, h2, ← Fl.fin_mul, ← Fl.fin_mul]
  push_cast
  generalize Fl.fin ((2:ℝ) ^ ((g' - g) * (s : ℝ))) = A
  generalize Fl.fin ((2:ℝ) ^ (g * (s : ℝ))) = B
  generalize Fl.fin ((2:ℝ) ^ ((s : ℝ) * (1 / 2 - 1 / nm))) = C
  rw [mul_assoc, mul_assoc, mul_assoc, mul_assoc]
  congr 1
  rw [mul_left_comm A, mul_left_comm C A]

theorem coefSeq_nan_iff (wt : Wavelet) (g g' nm : ℝ) {c : ℝ} (hc : c ≠ 0) (sig : Arr R) {s k : ℕ} (hs : 1 ≤ s)
    (hk : k < sig.length / 2 ^ s) (r : Fin R) :
    ent (coefSeq (wparams wt g' nm) (smulArr c sig) s) k r = Fl.nan ↔ ent (coefSeq (wparams wt g nm) sig s) k r = Fl.nan := by
  rw [coefSeq_smul wt g, ent_smulArr _ _ (by rw [coefSeq_length _ _ _ hs]; exact hk),
    fin_mul_eq_nan_iff (ampFactor_ne_zero hc _)]

theorem tooFew_coefSeq (wt : Wavelet) (g g' nm : ℝ) {c : ℝ} (hc : c ≠ 0) (sig : Arr R) (s : ℕ) :
    tooFew (coefSeq (wparams wt g' nm) (smulArr c sig) s) ↔ tooFew (coefSeq (wparams wt g nm) sig s) := by
  rw [coefSeq_smul wt g, tooFew_smul (ampFactor_ne_zero hc _)]

theorem countNotNaN_congr_range (n : ℕ) (f f' : ℕ → Fl) (h : ∀ k < n, (f k = Fl.nan ↔ f' k = Fl.nan)) :
    countNotNaN ((List.range n).map f) = countNotNaN ((List.range n).map f') := by
  induction n with
  | zero => rfl
  | succ n ih =>
    rw [List.range_succ, List.map_append, List.map_append, countNotNaN, countNotNaN, dropNaN, dropNaN,
      List.filter_append, List.filter_append, List.length_append, List.length_append]
    have := ih (fun k hk => h k (by omega))
    rw [countNotNaN, countNotNaN, dropNaN, dropNaN] at this
    rw [this]
    congr 1
    have := h n (by omega)
    rw [← Fl.isNaN_iff, ← Fl.isNaN_iff] at this
    cases h1 : (f n).isNaN <;> cases h2 : (f' n).isNaN <;> simp_all

theorem tooFew_leadSeq (wt : Wavelet) (g g' nm : ℝ) {c : ℝ} (hc : c ≠ 0) (p : PExp) (sig : Arr R) {s : ℕ} (hs : 1 ≤ s) :
    tooFew (leadSeq (wparams wt g' nm) p (smulArr c sig) s) ↔ tooFew (leadSeq (wparams wt g nm) p sig s) := by
  rw [tooFew_iff, tooFew_iff]
  apply exists_congr
  intro r
  rw [col_range, col_range, leadSeq_length, leadSeq_length, smulArr_length]
  rw [countNotNaN_congr_range]
  intro k hk
  rw [ent_leadSeq_nan_iff _ _ _ _ hs (by rw [smulArr_length]; exact hk), ent_leadSeq_nan_iff _ _ _ _ hs hk]
  apply forall_congr'; intro j'
  apply forall_congr'; intro k'
  apply imp_congr_right
  intro hn
  exact coefSeq_nan_iff wt g g' nm hc sig (by unfold InNbhd at hn; omega) (hn.lt_length (by omega)) r

/-! ### Leaders, same gamint -/

theorem leaderRed_fin_mul (f : Formalism) {κ : ℝ} (hκ : 0 < κ) (l : List Fl) :
    leaderRed f (l.map fun x => Fl.fin κ * x) = Fl.fin κ * leaderRed f l := by
  unfold leaderRed
  split
  · rw [fixedNanSum_eq, fixedNanSum_eq, dropNaN_map (Fl.fin_mul_isNaN hκ.ne')]
    by_cases h : dropNaN l = []
    · simp [h]
    · rw [if_neg (by simpa using h), if_neg h, Fl.fin_mul_sum]
  · exact nanmax_fin_mul hκ l

/-- What the inputs of the leader computation are multiplied by. -/
noncomputable def inFactor (p : PExp) (c : ℝ) : ℝ :=
  match p with
  | .num e => |c| ^ e.val
  | _ => |c|

theorem inFactor_pos (p : PExp) {c : ℝ} (hc : c ≠ 0) : 0 < inFactor p c := by
  have := abs_pos.mpr hc
  cases p with
  | num e => exact Real.rpow_pos_of_pos this _
  | none => exact this
  | inf => exact this

theorem inpF_smul (p : PExp) {c : ℝ} (hc : c ≠ 0) (s : ℕ) (x : Fl) :
    inpF p s (Fl.fin c * x) = Fl.fin (inFactor p c) * inpF p s x := by
  cases p with
  | none => exact Fl.abs_fin_mul c x
  | inf => exact Fl.abs_fin_mul c x
  | num e =>
    simp only [inpF, inFactor]
    rw [Fl.abs_fin_mul, fastPower_fin_mul_abs (abs_pos.mpr hc), mul_left_comm]

theorem NN.abs_eq {x : Fl} (h : NN x) : x.abs = x := by
  rcases h.cases with rfl | rfl | ⟨a, ha, rfl⟩
  · rfl
  · rfl
  · rw [Fl.abs_fin, abs_of_nonneg ha]

theorem outF_smul (p : PExp) (hp : p.NonZero) {c : ℝ} (hc : c ≠ 0) (s : ℕ) {x : Fl} (hx : NN x) :
    outF p s (Fl.fin (inFactor p c) * x) = Fl.fin |c| * outF p s x := by
  cases p with
  | none => rfl
  | inf => rfl
  | num e =>
    have hp' : e.val ≠ 0 := hp
    simp only [outF, inFactor]
    rw [mul_left_comm]
    have hn : NN (Fl.fin ((2:ℝ) ^ (-(s : ℝ))) * x) := hx.fin_mul (by positivity)
    rw [← hn.abs_eq, fastPower_fin_mul_abs (Real.rpow_pos_of_pos (abs_pos.mpr hc) _), ← Real.rpow_mul (abs_nonneg c),
      hn.abs_eq]
    simp only [Expo.val]
    have : e.val * (1 / e.val) = 1 := by field_simp
    simp only [Expo.val] at this
    rw [this, Real.rpow_one]

theorem leadSeq_smul (wt : Wavelet) (g nm : ℝ) {c : ℝ} (hc : c ≠ 0) (p : PExp) (hp : p.NonZero) (sig : Arr R) {s : ℕ}
    (hs : 1 ≤ s) :
    leadSeq (wparams wt g nm) p (smulArr c sig) s = smulArr |c| (leadSeq (wparams wt g nm) p sig s) := by
  rw [arr_eq_range (leadSeq (wparams wt g nm) p (smulArr c sig) s),
    arr_eq_range (smulArr |c| (leadSeq (wparams wt g nm) p sig s)), smulArr_length, leadSeq_length, leadSeq_length,
    smulArr_length]
  apply List.map_congr_left
  intro k hk
  rw [List.mem_range] at hk
  funext r
  rw [ent_smulArr _ _ (by rw [leadSeq_length]; exact hk), ent_leadSeq _ _ _ _ hs (by rw [smulArr_length]; exact hk),
    ent_leadSeq _ _ _ _ hs hk, ← outF_smul p hp hc s (NN.leaderRed _ (NN.inputs _ _ _ _ _)),
    ← leaderRed_fin_mul _ (inFactor_pos p hc)]
  congr 2
  simp only [inputs, List.map_map]
  apply List.map_congr_left
  rintro ⟨j', k'⟩ hq
  have hn := mem_nbhd.mp hq
  simp only [Function.comp_apply]
  rw [← inpF_smul p hc, coefSeq_smul wt g g, ampFactor_same, ent_smulArr]
  rw [coefSeq_length _ _ _ (by unfold InNbhd at hn; omega)]
  exact hn.lt_length (by omega)

end MFA
