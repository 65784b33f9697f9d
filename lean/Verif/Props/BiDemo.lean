import Verif.Props.BiAnalysis

/-! A concrete pair of quantities showing that the hypotheses of C64 - C69 can be met. -/

namespace MFA

open Classical

/-- Leaders at two scales, one realisation; a NaN in the first row of scale 1. -/
noncomputable def bi1 : MRQ 1 :=
  ((MRQ.empty .leader 0).addValues [fun _ => Fl.nan, fun _ => Fl.fin 1, fun _ => Fl.fin 2, fun _ => Fl.fin 1] 1).addValues
    [fun _ => Fl.fin 1, fun _ => Fl.fin 1] 2

/-- The second quantity. -/
noncomputable def bi2 : MRQ 1 :=
  ((MRQ.empty .leader 0).addValues [fun _ => Fl.nan, fun _ => Fl.fin 1, fun _ => Fl.fin 1, fun _ => Fl.fin 2] 1).addValues
    [fun _ => Fl.fin 1, fun _ => Fl.fin 1] 2

theorem bi1_values : bi1.values =
    [(1, [fun _ => Fl.nan, fun _ => Fl.fin 1, fun _ => Fl.fin 2, fun _ => Fl.fin 1]),
     (2, [fun _ => Fl.fin 1, fun _ => Fl.fin 1])] := by
  simp [bi1, MRQ.addValues, MRQ.empty, Dict.set]

theorem bi2_values : bi2.values =
    [(1, [fun _ => Fl.nan, fun _ => Fl.fin 1, fun _ => Fl.fin 1, fun _ => Fl.fin 2]),
     (2, [fun _ => Fl.fin 1, fun _ => Fl.fin 1])] := by
  simp [bi2, MRQ.addValues, MRQ.empty, Dict.set]

theorem bi_paired : Paired bi1 bi2 2 := by
  refine ⟨⟨?_, ?_⟩, ⟨?_, ?_⟩, rfl, rfl, ?_, ?_⟩
  · rw [bi1_values]; simp [List.range_succ]
  · rw [bi1_values]; simp [bi1, MRQ.addValues, MRQ.empty, Dict.set]
  · rw [bi2_values]; simp [List.range_succ]
  · rw [bi2_values]; simp [bi2, MRQ.addValues, MRQ.empty, Dict.set]
  · simp [bi1, bi2, MRQ.addValues, MRQ.empty, Dict.set, col, countNotNaN_countP]
  · rw [bi1_values, bi2_values]; simp

theorem bi_sameNaN : SameNaN bi1 bi2 := by
  intro k p p' hp hp' i x y hx hy
  rw [bi1_values] at hp
  rw [bi2_values] at hp'
  match k with
  | 0 =>
    simp only [List.getElem?_cons_zero, Option.some.injEq] at hp hp'
    subst hp; subst hp'
    match i with
    | 0 | 1 | 2 | 3 =>
      simp only [List.getElem?_cons_zero, List.getElem?_cons_succ, Option.some.injEq] at hx hy
      subst hx; subst hy; simp
    | i + 4 => simp at hx
  | 1 =>
    simp only [List.getElem?_cons_zero, List.getElem?_cons_succ, Option.some.injEq] at hp hp'
    subst hp; subst hp'
    match i with
    | 0 | 1 =>
      simp only [List.getElem?_cons_zero, List.getElem?_cons_succ, Option.some.injEq] at hx hy
      subst hx; subst hy; simp
    | i + 2 => simp at hx
  | k + 2 => simp at hp

theorem bi_noZero1 : NoZero bi1 := by
  intro p hp x hx
  rw [bi1_values] at hp
  simp only [List.mem_cons, List.not_mem_nil, or_false] at hp
  rcases hp with rfl | rfl <;> simp only [List.mem_cons, List.not_mem_nil, or_false] at hx <;>
    rcases hx with rfl | rfl | rfl | rfl <;> simp only [ne_eq, Fl.fin_inj, reduceCtorEq, not_false_eq_true] <;> norm_num

theorem bi_noZero2 : NoZero bi2 := by
  intro p hp x hx
  rw [bi2_values] at hp
  simp only [List.mem_cons, List.not_mem_nil, or_false] at hp
  rcases hp with rfl | rfl <;> simp only [List.mem_cons, List.not_mem_nil, or_false] at hx <;>
    rcases hx with rfl | rfl | rfl | rfl <;> simp only [ne_eq, Fl.fin_inj, reduceCtorEq, not_false_eq_true] <;> norm_num

theorem bi_jointFinite : JointFinite bi1 bi2 := by
  refine ⟨?_, ?_, ?_⟩
  · intro p hp x hx
    rw [bi1_values] at hp
    simp only [List.mem_cons, List.not_mem_nil, or_false] at hp
    rcases hp with rfl | rfl <;> simp only [List.mem_cons, List.not_mem_nil, or_false] at hx <;>
      rcases hx with rfl | rfl | rfl | rfl <;> first | exact Or.inl rfl | exact Or.inr ⟨_, rfl⟩
  · intro p hp x hx
    rw [bi2_values] at hp
    simp only [List.mem_cons, List.not_mem_nil, or_false] at hp
    rcases hp with rfl | rfl <;> simp only [List.mem_cons, List.not_mem_nil, or_false] at hx <;>
      rcases hx with rfl | rfl | rfl | rfl <;> first | exact Or.inl rfl | exact Or.inr ⟨_, rfl⟩
  · intro k p p' hp hp'
    rw [bi1_values] at hp
    rw [bi2_values] at hp'
    match k with
    | 0 =>
      simp only [List.getElem?_cons_zero, Option.some.injEq] at hp hp'
      subst hp; subst hp'
      simp [jointVals, col]
    | 1 =>
      simp only [List.getElem?_cons_zero, List.getElem?_cons_succ, Option.some.injEq] at hp hp'
      subst hp; subst hp'
      simp [jointVals, col]
    | k + 2 => simp at hp

/-- C64: the hypotheses are met. -/
example : ∃ b c1 c2, BiCumulants.make false bi1 bi2 3 1 2 true = .ok b ∧ Cumulants.make bi1 3 1 2 true = .ok c1 ∧
    Cumulants.make bi2 3 1 2 true = .ok c2 := by
  obtain ⟨b, c1, c2, h, h1, h2, -⟩ := C64_marginals bi_paired bi_sameNaN (j1 := 1) (j2 := 2) (by norm_num) (by norm_num)
    (by norm_num) true 3 (Or.inr (by norm_num))
  exact ⟨b, c1, c2, h, h1, h2⟩

/-- C66, C69: the hypotheses are met. -/
example : ∃ b, BiStructFn.make false bi1 bi2 1 2 (.ndarray [0, 1, 2, -1]) (.ndarray [2, 1, 0]) true = .ok b := by
  obtain ⟨b, -, -, h, -⟩ := C69_marginals bi_paired bi_sameNaN (j1 := 1) (j2 := 2) (by norm_num) (by norm_num)
    (by norm_num) true [0, 1, 2, -1] [2, 1, 0] (by norm_num) (by norm_num) (by norm_num) (by norm_num)
  exact ⟨b, h⟩

theorem bi_logs1 : jointLogs (col [fun _ => Fl.nan, fun _ => Fl.fin 1, fun _ => Fl.fin 2, fun _ => Fl.fin 1] (0 : Fin 1))
    (col [fun _ => Fl.nan, fun _ => Fl.fin 1, fun _ => Fl.fin 1, fun _ => Fl.fin 2] (0 : Fin 1)) =
    [(0, 0), (Real.log 2, 0), (0, Real.log 2)] := by
  simp [jointLogs, jointVals, col]

theorem bi_logs2 : jointLogs (col [fun _ => Fl.fin 1, fun _ => Fl.fin 1] (0 : Fin 1))
    (col [fun _ => Fl.fin 1, fun _ => Fl.fin 1] (0 : Fin 1)) = [(0, 0), (0, 0)] := by
  simp [jointLogs, jointVals, col]

theorem bi_cov1 : cov [(0, 0), (Real.log 2, 0), (0, Real.log 2)] = - (Real.log 2) ^ 2 / 9 := by
  simp [cov, mean]; ring

theorem bi_var1 : variance [0, Real.log 2, 0] = 2 * (Real.log 2) ^ 2 / 9 ∧ variance [0, 0, Real.log 2] = 2 * (Real.log 2) ^ 2 / 9 := by
  constructor <;> simp [variance, centralMoment, mean] <;> ring

/-- C65: the hypotheses are met; the correlation at scale 1 is -1/2. -/
example : ∃ b rho, BiCumulants.make false bi1 bi2 2 1 2 true = .ok b ∧ b.RHO_MF = some rho ∧
    rho[0]? = some (Fl.fin (-1/2)) ∧ rho[1]? = some Fl.nan := by
  obtain ⟨b, hb, -, h⟩ := C65_rho_bounded bi_paired bi_jointFinite bi_noZero1 bi_noZero2 (j1 := 1) (j2 := 2) (by norm_num)
    (by norm_num) (by norm_num) true 2 (by norm_num)
  obtain ⟨rho, hr, -, hk⟩ := h (by simp [bi1, MRQ.addValues, MRQ.empty])
  have hl : 0 < Real.log 2 := Real.log_pos (by norm_num)
  refine ⟨b, rho, hb, hr, ?_, ?_⟩
  · have := (hk 0 _ _ (by rw [bi1_values]; rfl) (by rw [bi2_values]; rfl)).1
    simp only [bi_logs1, List.map_cons, List.map_nil, bi_cov1, bi_var1.1, bi_var1.2] at this
    obtain ⟨r, hr, -, he⟩ := this (by positivity) (by positivity)
    rw [hr, he, Real.mul_self_sqrt (by positivity)]
    congr 2
    field_simp
  · apply (hk 1 _ _ (by rw [bi1_values]; rfl) (by rw [bi2_values]; rfl)).2
    left
    simp only [bi_logs2, List.map_cons, List.map_nil]
    simp [variance, centralMoment, mean]

theorem bi_list : biSub bi1 bi2 1 2 = biList bi1 bi2 := by
  unfold biSub biList
  rw [bi1_values, bi2_values]
  simp [pySlice, sliceBound]

theorem bi_slope {f : (ℤ × Arr 1) × (ℤ × Arr 1) → Fl} {u v : ℝ} (h1 : ((biList bi1 bi2)[0]?.map f) = some (Fl.fin u))
    (h2 : ((biList bi1 bi2)[1]?.map f) = some (Fl.fin v)) : biSlope bi1 bi2 1 2 false f = Fl.fin (v - u) := by
  have hl : biList bi1 bi2 = [((1, [fun _ => Fl.nan, fun _ => Fl.fin 1, fun _ => Fl.fin 2, fun _ => Fl.fin 1]),
      (1, [fun _ => Fl.nan, fun _ => Fl.fin 1, fun _ => Fl.fin 1, fun _ => Fl.fin 2])),
      ((2, [fun _ => Fl.fin 1, fun _ => Fl.fin 1]), (2, [fun _ => Fl.fin 1, fun _ => Fl.fin 1]))] := by
    unfold biList; rw [bi1_values, bi2_values]; rfl
  unfold biSlope
  rw [bi_list]
  rw [slopeL_congr (fun _ _ => rfl) (w' := fun _ => 1) (y' := fun q => Fl.fin ((2 * u - v) + (v - u) * (q.1.1 : ℝ)))]
  · refine (slopeL_affine _ _ _ (fun _ _ => one_pos) ?_ _ _).1
    rw [hl]
    exact ⟨_, List.mem_cons_self, _, List.mem_cons_of_mem _ List.mem_cons_self, by norm_num⟩
  · intro q _; simp [wtOf]
  · intro q hq
    rw [hl] at h1 h2 hq
    simp only [List.getElem?_cons_zero, List.getElem?_cons_succ, Option.map_some, Option.some.injEq] at h1 h2
    simp only [List.mem_cons, List.not_mem_nil, or_false] at hq
    rcases hq with rfl | rfl
    · rw [h1]; congr 1; push_cast; ring
    · rw [h2]; congr 1; push_cast; ring

/-- C68: the hypotheses are met by the cumulants of the two quantities. -/
example : ∃ b : BiCumulants 1, BiCumulants.make false bi1 bi2 2 1 2 false = .ok b ∧
    ∀ support n i k x y, (linspace support.1 support.2 n)[i]? = some x → (linspace support.1 support.2 n)[k]? = some y →
      ∃ L : ℝ, (b.computeLegendre support n).2 i k = Fl.fin L ∧ L ≤ 1 := by
  obtain ⟨b, hb, hall⟩ := C65_covariance bi_paired bi_jointFinite bi_noZero1 bi_noZero2 (j1 := 1) (j2 := 2) (by norm_num)
    (by norm_num) (by norm_num) false 2 (Or.inr le_rfl)
  obtain ⟨b', hb', -, -, -, hv, -, -, hlc, -⟩ := bi_paired.biCumulants (j1 := 1) (j2 := 2) (by norm_num) (by norm_num)
    (by norm_num) false false (n := 2) (Or.inr le_rfl)
  obtain rfl : b = b' := Except.ok.inj (hb.symm.trans hb')
  have s1 := hall 0 _ _ (by rw [bi1_values]; rfl) (by rw [bi2_values]; rfl)
  have s2 := hall 1 _ _ (by rw [bi1_values]; rfl) (by rw [bi2_values]; rfl)
  simp only [bi_logs1] at s1
  simp only [bi_logs2] at s2
  have key : ∀ a c (u v : ℝ), (b.values a c)[0]? = some (Fl.fin u) → (b.values a c)[1]? = some (Fl.fin v) →
      b.log_cumulants a c = Fl.fin ((v - u) * log2e) := by
    intro a c u v hu hw
    rw [hv, List.getElem?_map] at hu hw
    rw [hlc, bi_slope hu hw, Fl.fin_mul]
  have e11 := key 1 1 _ _ s1.1 s2.1
  have e10 := key 1 0 _ _ (s1.2.1 1 le_rfl (by norm_num)).1 (s2.2.1 1 le_rfl (by norm_num)).1
  have e01 := key 0 1 _ _ (s1.2.1 1 le_rfl (by norm_num)).2 (s2.2.1 1 le_rfl (by norm_num)).2
  have e20 := key 2 0 _ _ (s1.2.1 2 (by norm_num) le_rfl).1 (s2.2.1 2 (by norm_num) le_rfl).1
  have e02 := key 0 2 _ _ (s1.2.1 2 (by norm_num) le_rfl).2 (s2.2.1 2 (by norm_num) le_rfl).2
  simp only [List.map_cons, List.map_nil] at e20 e02
  have hk : ∀ l : List ℝ, l ≠ [] → iteratedDeriv 2 (empCGF l) 0 = centralMoment l 2 := fun l hl => (sum_central hl).1
  rw [hk _ (by simp), hk _ (by simp)] at e20 e02
  have v0 : centralMoment [0, 0] 2 = 0 := by simp [centralMoment, mean]
  have c0 : cov [(0, 0), (0, 0)] = 0 := by simp [cov, mean]
  have hl : 0 < Real.log 2 := Real.log_pos (by norm_num)
  have he : 0 < log2e := by
    unfold log2e
    apply Real.logb_pos (by norm_num)
    exact Real.one_lt_exp_iff.2 one_pos
  rw [show centralMoment [0, Real.log 2, 0] 2 = _ from bi_var1.1, v0] at e20
  rw [show centralMoment [0, 0, Real.log 2] 2 = _ from bi_var1.2, v0] at e02
  rw [bi_cov1, c0] at e11
  refine ⟨b, hb, fun support n i k x y hx hy => ?_⟩
  have hneg : (0 - 2 * Real.log 2 ^ 2 / 9) * log2e < 0 := by
    have : 0 < 2 * Real.log 2 ^ 2 / 9 * log2e := by positivity
    linarith
  obtain ⟨L, h1, h2, -⟩ := (C68_peak b e10 e01 e20 e02 e11 hneg hneg (by
    have : 0 < (Real.log 2 ^ 2 * log2e) ^ 2 := by positivity
    nlinarith) support n).2 i k x y hx hy
  exact ⟨L, h1, h2⟩

theorem bi_swap_rows : Paired bi1 bi1 2 :=
  ⟨bi_paired.reg1, bi_paired.reg1, rfl, rfl, rfl, by rw [bi1_values]; simp⟩

/-- C66: the hypotheses are met with proportional data (`a = 1`): coherence 1. -/
example : ∃ s, BiStructFn.make false bi1 bi1 1 2 (.ndarray [0, 1, 2]) (.ndarray [2, 1, 0]) true = .ok s ∧
    s.coherence[0]? = some (Fl.fin 1) := by
  have hd : JointFinite bi1 bi1 := by
    refine ⟨bi_jointFinite.1, bi_jointFinite.1, fun k p p' hp hp' => ?_⟩
    obtain rfl : p = p' := Option.some.inj (hp.symm.trans hp')
    rw [bi1_values] at hp
    match k with
    | 0 => simp only [List.getElem?_cons_zero, Option.some.injEq] at hp; subst hp; simp [jointVals, col]
    | 1 =>
      simp only [List.getElem?_cons_zero, List.getElem?_cons_succ, Option.some.injEq] at hp; subst hp; simp [jointVals, col]
    | k + 2 => simp at hp
  obtain ⟨s, hs, h⟩ := C66_proportional bi_swap_rows hd (j1 := 1) (j2 := 2) (by norm_num) (by norm_num)
    (by norm_num) true [0, 1, 2] [2, 1, 0] (by norm_num) (by norm_num) (by norm_num) (by norm_num)
  refine ⟨s, hs, ?_⟩
  have := h 0 _ _ 1 (by rw [bi1_values]; rfl) (by rw [bi1_values]; rfl) one_ne_zero
  simp only [zero_lt_one, if_true] at this
  apply this
  · exact ⟨(1, 1), by simp [jointVals, col], by norm_num⟩
  · intro z hz
    simp only [jointVals, col, List.map_cons, List.map_nil, List.zip_cons_cons, List.zip_nil_left, List.filterMap_cons,
      List.filterMap_nil, List.mem_cons, List.not_mem_nil, or_false] at hz
    rcases hz with rfl | rfl | rfl <;> norm_num

end MFA
