import Verif.Props.BiPlot

/-! Property C81 for proportional signals: their Legendre spectrum has no surface. -/

namespace MFA

open Classical

noncomputable section

/-- The slope of a finite curve is a number or NaN. -/
theorem biSlope_fin_or_nan {m1 m2 : MRQ 1} {J : ℕ} (hp : Paired m1 m2 J) {j1 j2 : ℤ} (h1 : 1 ≤ j1) (h12 : j1 ≤ j2) (h2 : j2 ≤ J) (weighted : Bool)
    {f : (ℤ × Arr 1) × (ℤ × Arr 1) → Fl} (hf : ∀ q ∈ biList m1 m2, ∃ t : ℝ, f q = Fl.fin t) :
    biSlope m1 m2 j1 j2 weighted f = Fl.nan ∨ ∃ t : ℝ, biSlope m1 m2 j1 j2 weighted f = Fl.fin t := by
  have hne : biSub m1 m2 j1 j2 ≠ [] := by
    intro h
    have hkeys := hp.reg1.sub_keys h1 h12 h2
    rw [hp.sub_fst, h] at hkeys
    have := congrArg List.length hkeys
    simp only [List.map_nil, List.length_nil, arange, List.length_map, List.length_range] at this
    omega
  unfold biSlope
  rcases slopeL_cases (biSub m1 m2 j1 j2) hne (fun q => (q.1.1 : ℝ)) (fun q => wtOf weighted q.1 0) (fun q _ => wtOf_nonneg _ _ _) with h | ⟨-, h⟩
  · exact Or.inl (h f).1
  · refine Or.inr ?_
    rw [(h f).1]
    refine Finset.sum_induction _ (fun x => ∃ t : ℝ, x = Fl.fin t) ?_ ⟨0, rfl⟩ fun i _ => ?_
    · rintro _ _ ⟨s, rfl⟩ ⟨t, rfl⟩
      exact ⟨s + t, rfl⟩
    · obtain ⟨t, e⟩ := hf _ (biSub_mem (List.getElem_mem i.2))
      exact ⟨_ * t, by rw [show f (biSub m1 m2 j1 j2)[i] = Fl.fin t from e]; rfl⟩

/-- For proportional pairs the covariance of the logarithms and the two variances are equal. -/
theorem proportional_logs {zs : List (ℝ × ℝ)} {a : ℝ} (ha : a ≠ 0) (hne : zs ≠ []) (h0 : ∀ z ∈ zs, z.1 ≠ 0) (h : ∀ z ∈ zs, z.2 = a * z.1) :
    cov (zs.map fun z => (Real.log |z.1|, Real.log |z.2|)) = centralMoment ((zs.map fun z => (Real.log |z.1|, Real.log |z.2|)).map Prod.fst) 2 ∧
    cov (zs.map fun z => (Real.log |z.1|, Real.log |z.2|)) = centralMoment ((zs.map fun z => (Real.log |z.1|, Real.log |z.2|)).map Prod.snd) 2 := by
  have e : (zs.map fun z => (Real.log |z.1|, Real.log |z.2|)) = zs.map fun z => (Real.log |z.1|, Real.log |a| + Real.log |z.1|) := by
    refine List.map_congr_left fun z hz => ?_
    rw [h z hz, abs_mul, Real.log_mul (abs_ne_zero.2 ha) (abs_ne_zero.2 (h0 z hz))]
  have hlen : (zs.length : ℝ) ≠ 0 := by
    have := List.length_pos_iff.2 hne
    positivity
  obtain ⟨ls, hls⟩ : ∃ ls : List ℝ, ls = zs.map fun z => Real.log |z.1| := ⟨_, rfl⟩
  have hlen' : (ls.length : ℝ) ≠ 0 := by rw [hls, List.length_map]; exact hlen
  have e2 : (zs.map fun z => (Real.log |z.1|, Real.log |a| + Real.log |z.1|)) = ls.map fun l => (l, Real.log |a| + l) := by
    rw [hls, List.map_map]; rfl
  have hmean : mean (ls.map fun l => Real.log |a| + l) = Real.log |a| + mean ls := by
    unfold mean
    rw [List.sum_map_add, List.length_map]
    simp only [List.map_const', List.sum_replicate, nsmul_eq_mul, List.map_id']
    field_simp
  have f1 : (ls.map fun l => (l, Real.log |a| + l)).map Prod.fst = ls := by rw [List.map_map]; exact List.map_id' _
  have f2 : (ls.map fun l => (l, Real.log |a| + l)).map Prod.snd = ls.map fun l => Real.log |a| + l := by rw [List.map_map]; rfl
  rw [e, e2]
  unfold cov centralMoment
  rw [f1, f2, hmean]
  simp only [List.map_map, List.length_map]
  constructor
  · congr 2
    refine List.map_congr_left fun l _ => ?_
    simp only [Function.comp_apply]; ring
  · congr 2
    refine List.map_congr_left fun l _ => ?_
    simp only [Function.comp_apply]; ring

/-- **C81, proportional signals.**  When at every scale one quantity is a nonzero multiple of the other (the multiple may depend on the scale), `BiCumulants` returns,
the three log-cumulants of order 2 are equal, every height of the Legendre surface is NaN, and `plot_legendre` raises ValueError. -/
theorem C81_proportional {m1 m2 : MRQ 1} {J : ℕ} (hp : Paired m1 m2 J) (hd : JointFinite m1 m2) (hz1 : NoZero m1) (hz2 : NoZero m2) {j1 j2 : ℤ}
    (h1 : 1 ≤ j1) (h12 : j1 ≤ j2) (h2 : j2 ≤ J) (weighted : Bool) (n : ℕ) (hn : 2 ≤ n)
    (hprop : ∀ (k : ℕ) p p', m1.values[k]? = some p → m2.values[k]? = some p' → ∃ a : ℝ, a ≠ 0 ∧ ∀ z ∈ jointVals (col p.2 0) (col p'.2 0), z.2 = a * z.1) :
    ∃ c, BiCumulants.make false m1 m2 n j1 j2 weighted = .ok c ∧
      c.log_cumulants 1 1 = c.log_cumulants 2 0 ∧ c.log_cumulants 1 1 = c.log_cumulants 0 2 ∧
      (∀ support n i k, (c.computeLegendre support n).2 i k = Fl.nan) ∧ ∀ resolution, c.plotLegendre resolution = .error .valueError := by
  obtain ⟨c, hc, hall⟩ := C65_covariance hp hd hz1 hz2 h1 h12 h2 weighted n (Or.inr hn)
  obtain ⟨c', hc', -, -, -, hv, -, -, hlc, -⟩ := hp.biCumulants h1 h12 h2 weighted false (n := n) (Or.inr hn)
  obtain rfl : c = c' := Except.ok.inj (hc.symm.trans hc')
  have at_ : ∀ q ∈ biList m1 m2, ∃ v10 v01 v : ℝ, bcAt n 1 0 q = Fl.fin v10 ∧ bcAt n 0 1 q = Fl.fin v01 ∧ bcAt n 1 1 q = Fl.fin v ∧ bcAt n 2 0 q = Fl.fin v ∧
      bcAt n 0 2 q = Fl.fin v := by
    intro q hq
    obtain ⟨k, hk⟩ := List.mem_iff_getElem?.1 hq
    obtain ⟨hk1, hk2⟩ := List.getElem?_zip_eq_some.1 hk
    obtain ⟨e11, ei, -, -⟩ := hall k q.1 q.2 hk1 hk2
    have e1 := ei 1 le_rfl (by omega)
    have e2 := ei 2 (by omega) hn
    simp only [hv, List.getElem?_map, hk, Option.map_some, Option.some.injEq] at e11 e1 e2
    obtain ⟨a, ha, haz⟩ := hprop k _ _ hk1 hk2
    have hne : jointVals (col q.1.2 0) (col q.2.2 0) ≠ [] := hd.2.2 k _ _ hk1 hk2
    have h0 : ∀ z ∈ jointVals (col q.1.2 0) (col q.2.2 0), z.1 ≠ 0 := by
      intro z hz h0
      obtain ⟨x, hx, hxz⟩ := List.mem_filterMap.1 hz
      have hx1 := (List.of_mem_zip hx).1
      obtain ⟨row, hrow, hr⟩ := List.mem_map.1 hx1
      refine hz1 _ (List.mem_of_getElem? hk1) row hrow ?_
      rcases x with ⟨x1, x2⟩
      dsimp only at hr hxz
      rw [hr]
      split at hxz
      · rename_i s t he
        cases he
        cases hxz
        dsimp only at h0
        rw [h0]
      · cases hxz
    obtain ⟨p1, p2⟩ := proportional_logs ha hne h0 haz
    have hk2 : ∀ l : List ℝ, l ≠ [] → iteratedDeriv 2 (empCGF l) 0 = centralMoment l 2 := fun l hl => (sum_central hl).1
    rw [hk2 _ (by simpa [jointLogs] using hne), hk2 _ (by simpa [jointLogs] using hne)] at e2
    refine ⟨_, _, _, e1.1, e1.2, e11, ?_, ?_⟩
    · rw [e2.1]; unfold jointLogs; rw [p1]
    · rw [e2.2]; unfold jointLogs; rw [p2]
  have hcongr : ∀ {f g : (ℤ × Arr 1) × (ℤ × Arr 1) → Fl}, (∀ q ∈ biList m1 m2, f q = g q) →
      biSlope m1 m2 j1 j2 weighted f = biSlope m1 m2 j1 j2 weighted g := by
    intro f g h
    exact slopeL_congr (fun _ _ => rfl) (fun _ _ => rfl) fun q hq => h q (biSub_mem hq)
  have e20 : c.log_cumulants 1 1 = c.log_cumulants 2 0 := by
    rw [hlc, hlc]
    congr 1
    refine hcongr fun q hq => ?_
    obtain ⟨_, _, v, -, -, a, b, -⟩ := at_ q hq
    rw [a, b]
  have e02 : c.log_cumulants 1 1 = c.log_cumulants 0 2 := by
    rw [hlc, hlc]
    congr 1
    refine hcongr fun q hq => ?_
    obtain ⟨_, _, v, -, -, a, -, b⟩ := at_ q hq
    rw [a, b]
  have fin_or : ∀ a b, (∀ q ∈ biList m1 m2, ∃ t : ℝ, bcAt n a b q = Fl.fin t) → c.log_cumulants a b = Fl.nan ∨ ∃ t : ℝ, c.log_cumulants a b = Fl.fin t := by
    intro a b h
    rw [hlc]
    rcases biSlope_fin_or_nan hp h1 h12 h2 weighted h with e | ⟨t, e⟩
    · rw [e]; exact Or.inl (Fl.nan_mul _)
    · rw [e]; exact Or.inr ⟨_, Fl.fin_mul _ _⟩
  refine ⟨c, hc, e20, e02, C81_degenerate ?_⟩
  rcases fin_or 1 0 fun q hq => by obtain ⟨v, _, _, h, -⟩ := at_ q hq; exact ⟨v, h⟩ with e | ⟨c10, e10⟩
  · exact Or.inl ⟨(1, 0), by simp, e⟩
  rcases fin_or 0 1 fun q hq => by obtain ⟨_, v, _, -, h, -⟩ := at_ q hq; exact ⟨v, h⟩ with e | ⟨c01, e01⟩
  · exact Or.inl ⟨(0, 1), by simp, e⟩
  rcases fin_or 1 1 fun q hq => by obtain ⟨_, _, v, -, -, h, -⟩ := at_ q hq; exact ⟨v, h⟩ with e | ⟨s, e11⟩
  · exact Or.inl ⟨(1, 1), by simp, e⟩
  exact Or.inr ⟨c10, c01, s, s, s, e10, e01, by rw [← e20, e11], by rw [← e02, e11], e11, by ring⟩

/-- The hypotheses of `C81_proportional` are met: the leaders `bi1` of `Props/BiDemo` and themselves. -/
example : ∃ c, BiCumulants.make false bi1 bi1 2 1 2 true = .ok c ∧ c.plotLegendre 30 = .error .valueError := by
  have hd : JointFinite bi1 bi1 := by
    refine ⟨bi_jointFinite.1, bi_jointFinite.1, fun k p p' hp hp' => ?_⟩
    obtain rfl : p = p' := Option.some.inj (hp.symm.trans hp')
    rw [bi1_values] at hp
    match k with
    | 0 => simp only [List.getElem?_cons_zero, Option.some.injEq] at hp; subst hp; simp [jointVals, col]
    | 1 =>
      simp only [List.getElem?_cons_zero, List.getElem?_cons_succ, Option.some.injEq] at hp; subst hp; simp [jointVals, col]
    | k + 2 => simp at hp
  obtain ⟨c, hc, -, -, -, h⟩ := C81_proportional bi_swap_rows hd bi_noZero1 bi_noZero1 (j1 := 1) (j2 := 2) (by norm_num) (by norm_num) (by norm_num) true 2 le_rfl
    fun k p p' hp hp' => by
      obtain rfl : p = p' := Option.some.inj (hp.symm.trans hp')
      refine ⟨1, one_ne_zero, fun z hz => ?_⟩
      obtain ⟨x, hx, hxz⟩ := List.mem_filterMap.1 hz
      obtain ⟨i, hi⟩ := List.mem_iff_getElem?.1 hx
      obtain ⟨a, b⟩ := List.getElem?_zip_eq_some.1 hi
      have hab : x.1 = x.2 := Option.some.inj (a.symm.trans b)
      split at hxz
      · cases hxz
        simp only [Fl.fin_inj] at hab
        rw [hab, one_mul]
      · cases hxz
  exact ⟨c, hc, h 30⟩

end

end MFA
