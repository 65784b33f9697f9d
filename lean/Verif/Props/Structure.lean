import Verif.Lemmas.Stats
import Verif.Props.Demo

/-! Properties C33-C37, C43-C45, C50 on the estimators applied to a multiresolution quantity. -/

namespace MFA

open Classical Finset

variable {R : ℕ} {m : MRQ R} {J : ℕ} {j1 j2 : ℤ}

/-- The quantity `m` with its values at each scale `j` multiplied by `a j` and its attribute `gamint` set to `g`. -/
noncomputable def rescale (a : ℤ → ℝ) (g : ℝ) (m : MRQ R) : MRQ R := { scaleBy a m with gamint := g }

private theorem rescale_eq (a : ℤ → ℝ) (m : MRQ R) : rescale a m.gamint m = scaleBy a m := rfl

/-- The estimators other than H do not look at the attribute `gamint`. -/
private theorem Regular.setGamint (hm : Regular m J) (g : ℝ) : Regular { m with gamint := g } J := hm

/-! ### General law: values at scale j multiplied by `c * 2^(β j)` -/

/-- Scaling law of zeta and H (C32, C34): if the values at scale `j` are multiplied by `±2^(α + β j)`, then zeta(q)
becomes zeta(q) + q β and, if the attribute `gamint` is changed by β at the same time, H does not change.  No
hypothesis on the data. -/
theorem C32_structure_scaling (hm : Regular m J) (h1 : 1 ≤ j1) (h12 : j1 ≤ j2) (h2 : j2 ≤ J) (weighted : Bool)
    (q : List ℝ) (hq : (2:ℝ) ∈ q) (a : ℤ → ℝ) (α β : ℝ)
    (ha : ∀ j : ℤ, 1 ≤ j → j ≤ J → a j ≠ 0 ∧ Real.logb 2 |a j| = α + β * (j : ℝ)) :
    ∃ s s', StructFn.make m (.ndarray q) j1 j2 weighted = .ok s ∧
      StructFn.make (rescale a (m.gamint + β) m) (.ndarray q) j1 j2 weighted = .ok s' ∧
      s.zeta.length = q.length ∧ s'.zeta.length = q.length ∧
      (∀ (i : ℕ) (hi : i < q.length) (z z' : Row R), s.zeta[i]? = some z → s'.zeta[i]? = some z' →
        ∀ r, z' r = z r + Fl.fin (q[i] * β)) ∧
      (∀ r, s'.H r = s.H r) := by
  have ha' : ∀ p ∈ m.values, a p.1 ≠ 0 ∧ Real.logb 2 |a p.1| = α + β * (p.1 : ℝ) :=
    fun p hp => ha p.1 (hm.key_range hp).1 (hm.key_range hp).2
  have hm' : Regular (rescale a (m.gamint + β) m) J := hm.scaleBy (fun p hp => (ha' p hp).1)
  have hz : ∀ e r, zetaF (rescale a (m.gamint + β) m) j1 j2 weighted e r
      = zetaF m j1 j2 weighted e r + Fl.fin (e.val * β) :=
    fun e r => (zetaF_scaled hm h1 h12 h2 ha' weighted e r).1
  refine ⟨_, _, hm.structFn h1 h12 h2 weighted q hq, hm'.structFn h1 h12 h2 weighted q hq,
    by simp, by simp, ?_, ?_⟩
  · intro i hi z z' e e' r
    simp only [List.getElem?_map, List.getElem?_eq_getElem hi, Option.map_some, Option.some.injEq] at e e'
    rw [← e, ← e']
    exact hz _ r
  · intro r
    show zetaF _ j1 j2 weighted (.real 2) r / Fl.fin 2 - Fl.fin (m.gamint + β) = _
    rw [hz]
    show _ = zetaF m j1 j2 weighted (.real 2) r / Fl.fin 2 - Fl.fin m.gamint
    cases zetaF m j1 j2 weighted (.real 2) r with
    | nan => simp
    | pinf => simp [Fl.div_def, Fl.inv_fin, Fl.pinf_mul_fin, Fl.sgnInf, Fl.sub_def, Fl.neg_fin]
    | ninf => simp [Fl.div_def, Fl.inv_fin, Fl.ninf_mul_fin, Fl.sgnInf, Fl.sub_def, Fl.neg_fin,
        show ¬ (2:ℝ) < 0 by norm_num]
    | fin z =>
      rw [Fl.fin_add, Fl.fin_div two_ne_zero, Fl.fin_div two_ne_zero, Fl.fin_sub, Fl.fin_sub]
      congr 1; simp only [Expo.val]; ring

/-- Scaling law of hmin (C50): hmin becomes hmin + β. -/
theorem C50_hmin_scaling (hm : Regular m J) (hrow : ∀ p ∈ m.values, p.2 ≠ []) (h1 : 1 ≤ j1) (h12 : j1 ≤ j2)
    (h2 : j2 ≤ J) (weighted warn : Bool) (a : ℤ → ℝ) (α β : ℝ)
    (ha : ∀ j : ℤ, 1 ≤ j → j ≤ J → a j ≠ 0 ∧ Real.logb 2 |a j| = α + β * (j : ℝ)) (g : ℝ) :
    ∃ h h', estimateHmin m j1 j2 weighted warn = .ok h ∧
      estimateHmin (rescale a g m) j1 j2 weighted warn = .ok h' ∧
      ∀ r, h'.hmin r = h.hmin r + Fl.fin β ∧ h'.intercept r = h.intercept r + Fl.fin α := by
  have ha' : ∀ p ∈ m.values, a p.1 ≠ 0 ∧ Real.logb 2 |a p.1| = α + β * (p.1 : ℝ) :=
    fun p hp => ha p.1 (hm.key_range hp).1 (hm.key_range hp).2
  have hm' : Regular (rescale a g m) J := hm.scaleBy (fun p hp => (ha' p hp).1)
  have hrow' : ∀ p ∈ (rescale a g m).values, p.2 ≠ [] := by
    intro p hp
    obtain ⟨p0, hp0, rfl⟩ := List.mem_map.mp (show p ∈ m.values.map _ from hp)
    simp [mapArr, hrow p0 hp0]
  refine ⟨_, _, hm.hmin h1 h12 h2 weighted warn hrow, hm'.hmin h1 h12 h2 weighted warn hrow', fun r => ?_⟩
  exact hminF_scaled hm h1 h12 h2 ha' weighted r

/-- Scaling law of the log-cumulants: c_1 becomes c_1 + β, the others do not change (C41).  No hypothesis on the data. -/
theorem C41_cumulants_scaling (hm : Regular m J) (h1 : 1 ≤ j1) (h12 : j1 ≤ j2) (h2 : j2 ≤ J)
    (weighted : Bool) (n : ℕ) (a : ℤ → ℝ) (α β : ℝ)
    (ha : ∀ j : ℤ, 1 ≤ j → j ≤ J → a j ≠ 0 ∧ Real.logb 2 |a j| = α + β * (j : ℝ)) (g : ℝ) :
    ∃ c c', Cumulants.make m n j1 j2 weighted = .ok c ∧
      Cumulants.make (rescale a g m) n j1 j2 weighted = .ok c' ∧
      c.log_cumulants.length = n ∧ c'.log_cumulants.length = n ∧
      ∀ i (z z' : Row R), c.log_cumulants[i]? = some z → c'.log_cumulants[i]? = some z' →
        ∀ r, z' r = if i = 0 then z r + Fl.fin β else z r := by
  have ha' : ∀ p ∈ m.values, a p.1 ≠ 0 ∧ Real.logb 2 |a p.1| = α + β * (p.1 : ℝ) :=
    fun p hp => ha p.1 (hm.key_range hp).1 (hm.key_range hp).2
  have hm' : Regular (rescale a g m) J := hm.scaleBy (fun p hp => (ha' p hp).1)
  refine ⟨_, _, hm.cumulants h1 h12 h2 weighted n, hm'.cumulants h1 h12 h2 weighted n, by simp, by simp, ?_⟩
  intro i z z' e e' r
  simp only [List.getElem?_map] at e e'
  have hi : i < n := by
    by_contra hc
    rw [List.getElem?_eq_none (by simp; omega)] at e; cases e
  rw [List.getElem?_range hi] at e e'
  simp only [Option.map_some, Option.some.injEq] at e e'
  rw [← e, ← e']
  show cumF (scaleBy a m) j1 j2 weighted n i r * _ = _
  rw [cumF_scaled hm h1 h12 h2 ha' weighted hi r]
  have hl2 : Real.log 2 ≠ 0 := (Real.log_pos (by norm_num)).ne'
  by_cases h0 : i = 0
  · rw [if_pos h0, if_pos h0, mul_comm, Fl.fin_mul_add, Fl.fin_mul, mul_comm (Fl.fin log2e)]
    congr 2
    unfold log2e
    rw [Real.logb, Real.log_exp]; field_simp
  · rw [if_neg h0, if_neg h0, show Fl.fin 0 = (0 : Fl) from rfl, add_zero]

/-- Scaling law of the spectrum: D(q) does not change, h(q) becomes h(q) + β.  D(q) needs no hypothesis on the data. -/
theorem C34_spectrum_scaling (hm : Regular m J) (h1 : 1 ≤ j1) (h12 : j1 ≤ j2) (h2 : j2 ≤ J)
    (weighted : Bool) (q : List ℝ) (hq : q ≠ []) (a : ℤ → ℝ) (α β : ℝ)
    (ha : ∀ j : ℤ, 1 ≤ j → j ≤ J → a j ≠ 0 ∧ Real.logb 2 |a j| = α + β * (j : ℝ)) (g : ℝ) :
    ∃ s s', Spectrum.make m j1 j2 weighted (.ndarray q) = .ok s ∧
      Spectrum.make (rescale a g m) j1 j2 weighted (.ndarray q) = .ok s' ∧
      s.Dq.length = q.length ∧ s.hq.length = q.length ∧ s'.hq.length = q.length ∧
      s'.Dq = s.Dq ∧
      ∀ (i : ℕ) (hi : i < q.length) (z z' : Row R), s.hq[i]? = some z → s'.hq[i]? = some z' →
        NonzeroData m ∨ (0 < q[i] ∧ NonvanishingData m) → ∀ r, z' r = z r + Fl.fin β := by
  have ha' : ∀ p ∈ m.values, a p.1 ≠ 0 ∧ Real.logb 2 |a p.1| = α + β * (p.1 : ℝ) :=
    fun p hp => ha p.1 (hm.key_range hp).1 (hm.key_range hp).2
  have hm' : Regular (rescale a g m) J := hm.scaleBy (fun p hp => (ha' p hp).1)
  have hq' : (QArg.ndarray q).expos ≠ [] := by simpa [QArg.expos] using hq
  refine ⟨_, _, hm.spectrum h1 h12 h2 weighted _ hq', hm'.spectrum h1 h12 h2 weighted _ hq',
    by simp [QArg.expos], by simp [QArg.expos], by simp [QArg.expos], ?_, ?_⟩
  · apply List.map_congr_left
    intro e _
    funext r
    show Fl.fin 1 + uF (scaleBy a m) j1 j2 weighted e r = _
    rw [uF_scaled hm h1 h12 h2 (fun p hp => (ha' p hp).1)]
  · intro i hi z z' e e' hd r
    simp only [QArg.expos, List.getElem?_map, List.getElem?_eq_getElem hi, Option.map_some,
      Option.some.injEq] at e e'
    rw [← e, ← e']
    exact vF_scaled hm h1 h12 h2 ha' weighted (.real q[i]) hd r

/-- The hypotheses of the scaling laws are met, e.g. by the factor `-3 * 2^(j/2)`. -/
example : ∃ (a : ℤ → ℝ) (α β : ℝ), Regular demo 2 ∧ (∀ p ∈ demo.values, p.2 ≠ []) ∧ NonzeroData demo ∧
    (∀ j : ℤ, 1 ≤ j → j ≤ 2 → a j ≠ 0 ∧ Real.logb 2 |a j| = α + β * (j : ℝ)) ∧ β ≠ 0 :=
  ⟨fun j => -3 * (2:ℝ) ^ ((1/2 : ℝ) * (j : ℝ)), Real.logb 2 3, 1/2, demo_regular, demo_rows, demo_nonzero,
    fun j _ _ => by
      have hp : (0:ℝ) < 2 ^ ((1/2 : ℝ) * (j : ℝ)) := by positivity
      refine ⟨mul_ne_zero (by norm_num) hp.ne', ?_⟩
      rw [abs_mul, abs_of_pos hp, abs_neg, abs_of_pos (by norm_num : (0:ℝ) < 3),
        Real.logb_mul (by norm_num) hp.ne', Real.logb_rpow (by norm_num) (by norm_num)],
    by norm_num⟩

/-- C34: multiplying all values by a non-zero constant changes none of zeta, H, log-cumulants, h(q), D(q), hmin.  Only
h(q) needs a hypothesis on the data: no zeros (or, for `q > 0`, not only zeros at a scale) and no infinities. -/
theorem C34_amplitude_invariance (hm : Regular m J) (hrow : ∀ p ∈ m.values, p.2 ≠ [])
    (h1 : 1 ≤ j1) (h12 : j1 ≤ j2) (h2 : j2 ≤ J) (weighted warn : Bool) (q : List ℝ) (hq : (2:ℝ) ∈ q) (n : ℕ)
    (c : ℝ) (hc : c ≠ 0) :
    ∃ s s' k k' p p' h h',
      StructFn.make m (.ndarray q) j1 j2 weighted = .ok s ∧
      StructFn.make (scaleBy (fun _ => c) m) (.ndarray q) j1 j2 weighted = .ok s' ∧
      Cumulants.make m n j1 j2 weighted = .ok k ∧
      Cumulants.make (scaleBy (fun _ => c) m) n j1 j2 weighted = .ok k' ∧
      Spectrum.make m j1 j2 weighted (.ndarray q) = .ok p ∧
      Spectrum.make (scaleBy (fun _ => c) m) j1 j2 weighted (.ndarray q) = .ok p' ∧
      estimateHmin m j1 j2 weighted warn = .ok h ∧
      estimateHmin (scaleBy (fun _ => c) m) j1 j2 weighted warn = .ok h' ∧
      s'.zeta = s.zeta ∧ s'.H = s.H ∧ k'.log_cumulants = k.log_cumulants ∧
      p'.Dq = p.Dq ∧ h'.hmin = h.hmin ∧
      ∀ (i : ℕ) (hi : i < q.length), NonzeroData m ∨ (0 < q[i] ∧ NonvanishingData m) → p'.hq[i]? = p.hq[i]? := by
  have ha : ∀ j : ℤ, 1 ≤ j → j ≤ J → (fun _ : ℤ => c) j ≠ 0 ∧
      Real.logb 2 |(fun _ : ℤ => c) j| = Real.logb 2 |c| + 0 * (j : ℝ) := fun j _ _ => ⟨hc, by simp⟩
  have hqn : q ≠ [] := by rintro rfl; cases hq
  obtain ⟨s, s', e1, e2, l1, l2, z1, z2⟩ :=
    C32_structure_scaling hm h1 h12 h2 weighted q hq _ _ _ ha
  rw [add_zero, rescale_eq] at e2
  obtain ⟨k, k', e3, e4, l3, l4, z3⟩ := C41_cumulants_scaling hm h1 h12 h2 weighted n _ _ _ ha m.gamint
  rw [rescale_eq] at e4
  obtain ⟨p, p', e5, e6, l5, l6, l7, z4, z5⟩ :=
    C34_spectrum_scaling hm h1 h12 h2 weighted q hqn _ _ _ ha m.gamint
  rw [rescale_eq] at e6
  obtain ⟨h, h', e7, e8, z6⟩ := C50_hmin_scaling hm hrow h1 h12 h2 weighted warn _ _ _ ha m.gamint
  rw [rescale_eq] at e8
  have add0 : ∀ x : Fl, x + Fl.fin 0 = x := fun x => by rw [show Fl.fin 0 = (0 : Fl) from rfl, add_zero]
  refine ⟨s, s', k, k', p, p', h, h', e1, e2, e3, e4, e5, e6, e7, e8, ?_, funext z2, ?_, z4,
    by funext r; rw [(z6 r).1, add0], ?_⟩
  · apply List.ext_getElem (l2.trans l1.symm)
    intro i hi hi'
    funext r
    have := z1 i (by omega) _ _ (List.getElem?_eq_getElem hi') (List.getElem?_eq_getElem hi) r
    rw [this, mul_zero, add0]
  · apply List.ext_getElem (l4.trans l3.symm)
    intro i hi hi'
    funext r
    have := z3 i _ _ (List.getElem?_eq_getElem hi') (List.getElem?_eq_getElem hi) r
    rw [this, add0, ite_self]
  · intro i hi hd
    have hi' : i < p.hq.length := by omega
    have hi'' : i < p'.hq.length := by omega
    rw [List.getElem?_eq_getElem hi', List.getElem?_eq_getElem hi'', Option.some.injEq]
    funext r
    have := z5 i hi _ _ (List.getElem?_eq_getElem hi') (List.getElem?_eq_getElem hi'') hd r
    rw [this, add0]

/-! ### C33 -/

/-- C33: zeta(0) = 0. -/
theorem C33_zeta_zero (hm : Regular m J) (h1 : 1 ≤ j1) (h12 : j1 < j2) (h2 : j2 ≤ J) (weighted : Bool)
    (hd : ∀ p ∈ m.values, ∀ r, ∃ x ∈ col p.2 r, x ≠ Fl.nan)
    (q : List ℝ) (hq : (2:ℝ) ∈ q) :
    ∃ s, StructFn.make m (.ndarray q) j1 j2 weighted = .ok s ∧
      ∀ i : ℕ, q[i]? = some 0 → s.zeta[i]? = some (fun _ => Fl.fin 0) := by
  refine ⟨_, hm.structFn h1 h12.le h2 weighted q hq, fun i hi => ?_⟩
  simp only [List.getElem?_map, hi, Option.map_some, Option.some.injEq]
  funext r
  have hpos : ∀ p ∈ subR m j1 j2, 0 < wtOf weighted p r := by
    intro p hp
    unfold wtOf; split
    · exact_mod_cast countNotNaN_pos (hd p (sub_mem hp) r)
    · exact one_pos
  have := (slopeL_affine (subR m j1 j2) (fun p => (p.1 : ℝ)) (fun p => wtOf weighted p r) hpos
    (hm.sub_two h1 h12.le h2 h12) 0 0).1
  rw [← this]
  apply slopeL_congr (fun _ _ => rfl) (fun _ _ => rfl)
  intro p hp
  show (nanmean (col (mapArr _ (mapArr Fl.abs p.2)) r)).log2 = _
  rw [col_mapArr, col_mapArr, sfMean_zero (hd p (sub_mem hp) r), Fl.log2_fin one_pos]
  simp

example : ∀ p ∈ demo.values, ∀ r, ∃ x ∈ col p.2 r, x ≠ Fl.nan := fun p hp r => (demo_nonzero p hp r).1

/-! ### C35 -/

/-- All values at scale `j` have modulus `K_r 2^(j H_r)` in realisation `r` (or are NaN), and there is one at each scale. -/
def Monofractal (m : MRQ R) (K H : Fin R → ℝ) : Prop :=
  ∀ p ∈ m.values, ∀ r : Fin R, (∃ x ∈ col p.2 r, x ≠ Fl.nan) ∧
    ∀ x ∈ col p.2 r, x = Fl.nan ∨ ∃ t : ℝ, x = Fl.fin t ∧ |t| = K r * (2:ℝ) ^ ((p.1 : ℝ) * H r)

private theorem Monofractal.entries {K H : Fin R → ℝ} (h : Monofractal m K H) {p : ℤ × Arr R} (hp : p ∈ m.values)
    (r : Fin R) : ∃ xs, xs ≠ [] ∧ (∀ x ∈ xs, |x| = K r * (2:ℝ) ^ ((p.1 : ℝ) * H r)) ∧ Entries (col p.2 r) xs := by
  have hf : FiniteData m := fun p hp r => ⟨(h p hp r).1, fun x hx => ((h p hp r).2 x hx).imp_right
    (fun ⟨t, e, _⟩ => ⟨t, e⟩)⟩
  obtain ⟨xs, hne, he⟩ := hf.entries hp r
  refine ⟨xs, hne, fun x hx => ?_, he⟩
  rcases (h p hp r).2 _ (he.mem' hx) with h | ⟨t, e, ht⟩
  · exact absurd h (by simp)
  · rw [Fl.fin_inj] at e; rwa [e]

/-- C35: on ideal monofractal data all estimates are exact: zeta(q) = qH, c_1 = H, c_m = 0 (m ≥ 2), h(q) = H,
D(q) = 1, hmin = H, for each realisation (`H` and the amplitude may differ from one realisation to the next). -/
theorem C35_monofractal (hm : Regular m J) (hrow : ∀ p ∈ m.values, p.2 ≠ []) (h1 : 1 ≤ j1) (h12 : j1 < j2)
    (h2 : j2 ≤ J) (weighted warn : Bool) (q : List ℝ) (hq : (2:ℝ) ∈ q) (n : ℕ) (K H : Fin R → ℝ) (hK : ∀ r, 0 < K r)
    (hd : Monofractal m K H) :
    ∃ s k p h,
      StructFn.make m (.ndarray q) j1 j2 weighted = .ok s ∧
      Cumulants.make m n j1 j2 weighted = .ok k ∧
      Spectrum.make m j1 j2 weighted (.ndarray q) = .ok p ∧
      estimateHmin m j1 j2 weighted warn = .ok h ∧
      s.zeta = q.map (fun e r => Fl.fin (e * H r)) ∧
      s.H = (fun r => Fl.fin (H r - m.gamint)) ∧
      k.log_cumulants = (List.range n).map (fun i r => Fl.fin (if i = 0 then H r else 0)) ∧
      p.hq = q.map (fun _ r => Fl.fin (H r)) ∧ p.Dq = q.map (fun _ _ => Fl.fin 1) ∧
      h.hmin = (fun r => Fl.fin (H r)) := by
  have hqn : (QArg.ndarray q).expos ≠ [] := by
    simp only [QArg.expos, ne_eq, List.map_eq_nil_iff]; rintro rfl; cases hq
  have hpos : ∀ r, ∀ p ∈ subR m j1 j2, 0 < wtOf weighted p r := by
    intro r p hp
    unfold wtOf; split
    · exact_mod_cast countNotNaN_pos ((hd p (sub_mem hp) r).1)
    · exact one_pos
  have hKp : ∀ (r : Fin R) (p : ℤ × Arr R), 0 < K r * (2:ℝ) ^ ((p.1 : ℝ) * H r) := fun r p =>
    mul_pos (hK r) (by positivity)
  have hlog : ∀ (r : Fin R) (p : ℤ × Arr R), Real.logb 2 (K r * (2:ℝ) ^ ((p.1 : ℝ) * H r))
      = Real.logb 2 (K r) + H r * (p.1 : ℝ) := by
    intro r p
    rw [Real.logb_mul (hK r).ne' (by positivity), Real.logb_rpow (by norm_num) (by norm_num), mul_comm]
  have key : ∀ (r : Fin R) (f : ℤ × Arr R → Fl) (c d : ℝ),
      (∀ p ∈ subR m j1 j2, f p = Fl.fin (c + d * (p.1 : ℝ))) →
      slopeL (subR m j1 j2) (fun p => (p.1 : ℝ)) (fun p => wtOf weighted p r) f = Fl.fin d := by
    intro r f c d hf
    rw [← (slopeL_affine (subR m j1 j2) (fun p => (p.1 : ℝ)) (fun p => wtOf weighted p r) (hpos r)
      (hm.sub_two h1 h12.le h2 h12) c d).1]
    exact slopeL_congr (fun _ _ => rfl) (fun _ _ => rfl) hf
  have hz : ∀ e r, zetaF m j1 j2 weighted e r = Fl.fin (e.val * H r) := by
    intro e r
    apply key r _ (e.val * Real.logb 2 (K r))
    intro p hp
    obtain ⟨xs, hne, hx, he⟩ := hd.entries (sub_mem hp) r
    show (nanmean (col (mapArr _ (mapArr Fl.abs p.2)) r)).log2 = _
    rw [col_mapArr, col_mapArr, const_sf he hne (hKp r p) hx, hlog]
    congr 1; ring
  refine ⟨_, _, _, _, hm.structFn h1 h12.le h2 weighted q hq, hm.cumulants h1 h12.le h2 weighted n,
    hm.spectrum h1 h12.le h2 weighted _ hqn, hm.hmin h1 h12.le h2 weighted warn hrow, ?_, ?_, ?_, ?_, ?_, ?_⟩
  · apply List.map_congr_left; intro e _; funext r; exact hz _ r
  · funext r
    show zetaF m j1 j2 weighted (.real 2) r / Fl.fin 2 - Fl.fin m.gamint = _
    rw [hz, Fl.fin_div two_ne_zero, Fl.fin_sub]
    congr 1; simp only [Expo.val]; ring
  · apply List.map_congr_left
    intro i hi
    rw [List.mem_range] at hi
    funext r
    have : cumF m j1 j2 weighted n i r = Fl.fin (if i = 0 then Real.log 2 * H r else 0) := by
      apply key r _ (if i = 0 then Real.log (K r) else 0)
      intro p hp
      obtain ⟨xs, hne, hx, he⟩ := hd.entries (sub_mem hp) r
      show (cmColumn ((col p.2 r).map fun x => x.abs.ln) n).getD i Fl.nan = _
      rw [const_cum he hne (hKp r p) hx hi]
      congr 1
      split
      · rw [Real.log_mul (hK r).ne' (by positivity), Real.log_rpow (by norm_num)]; ring
      · ring
    rw [this, Fl.fin_mul]
    congr 1
    have hl2 : Real.log 2 ≠ 0 := (Real.log_pos (by norm_num)).ne'
    split
    · unfold log2e; rw [Real.logb, Real.log_exp]; field_simp
    · ring
  · simp only [QArg.expos, List.map_map]
    apply List.map_congr_left
    intro e _
    funext r
    apply key r _ (Real.logb 2 (K r))
    intro p hp
    obtain ⟨xs, hne, hx, he⟩ := hd.entries (sub_mem hp) r
    rw [const_V he hne (hKp r p) hx, hlog]
  · simp only [QArg.expos, List.map_map]
    apply List.map_congr_left
    intro e _
    funext r
    show Fl.fin 1 + uF m j1 j2 weighted (.real e) r = _
    have : uF m j1 j2 weighted (.real e) r = Fl.fin 0 := by
      apply key r _ 0 0
      intro p hp
      obtain ⟨xs, hne, hx, he⟩ := hd.entries (sub_mem hp) r
      rw [const_U he hne (hKp r p) hx]; congr 1; ring
    rw [this, Fl.fin_add, add_zero]
  · funext r
    apply key r _ (Real.logb 2 (K r))
    intro p hp
    obtain ⟨xs, hne, hx, he⟩ := hd.entries (sub_mem hp) r
    rw [const_hmin he hne (hKp r p) hx, hlog]

/-- C51, what `estimate_hmin` returns: a pair, to which `return_y=True` appends the ordinates; on ideal data of
amplitude `K_r` and minimal regularity `H_r` the first component is `H`, the second is `log2 K` and the third holds
`log2 K_r + j H_r` in the row of the scale `j`. -/
theorem C51_returned_tuple (hm : Regular m J) (hrow : ∀ p ∈ m.values, p.2 ≠ []) (h1 : 1 ≤ j1) (h12 : j1 < j2)
    (h2 : j2 ≤ J) (weighted warn : Bool) (K H : Fin R → ℝ) (hK : ∀ r, 0 < K r) (hd : Monofractal m K H) :
    ∃ h, estimateHmin m j1 j2 weighted warn = .ok h ∧
      hminTuple h false = [[fun r => Fl.fin (H r)], [fun r => Fl.fin (Real.logb 2 (K r))]] ∧
      ∃ y : Arr R, hminTuple h true = [[fun r => Fl.fin (H r)], [fun r => Fl.fin (Real.logb 2 (K r))], y] ∧
        (y.length : ℤ) = j2 - j1 + 1 ∧
        ∀ (i : ℕ) (row : Row R), y[i]? = some row →
          ∀ r, row r = Fl.fin (Real.logb 2 (K r) + H r * ((j1 : ℝ) + (i : ℝ))) := by
  have hpos : ∀ r, ∀ p ∈ subR m j1 j2, 0 < wtOf weighted p r := by
    intro r p hp
    unfold wtOf; split
    · exact_mod_cast countNotNaN_pos ((hd p (sub_mem hp) r).1)
    · exact one_pos
  have hval : ∀ (r : Fin R), ∀ p ∈ subR m j1 j2, (nanmax ((col p.2 r).map Fl.abs)).log2 =
      Fl.fin (Real.logb 2 (K r) + H r * (p.1 : ℝ)) := by
    intro r p hp
    obtain ⟨xs, hne, hx, he⟩ := hd.entries (sub_mem hp) r
    rw [const_hmin he hne (mul_pos (hK r) (by positivity)) hx,
      Real.logb_mul (hK r).ne' (by positivity), Real.logb_rpow (by norm_num) (by norm_num), mul_comm (H r)]
  have hfit : ∀ r, hminF m j1 j2 weighted r = Fl.fin (H r) ∧ hminIF m j1 j2 weighted r = Fl.fin (Real.logb 2 (K r)) := by
    intro r
    obtain ⟨a, b⟩ := slopeL_affine (subR m j1 j2) (fun p => (p.1 : ℝ)) (fun p => wtOf weighted p r) (hpos r)
      (hm.sub_two h1 h12.le h2 h12) (Real.logb 2 (K r)) (H r)
    exact ⟨(slopeL_congr (fun _ _ => rfl) (fun _ _ => rfl) (hval r)).trans a,
      (interL_congr (fun _ _ => rfl) (fun _ _ => rfl) (hval r)).trans b⟩
  have hs : hminF m j1 j2 weighted = fun r => Fl.fin (H r) := funext fun r => (hfit r).1
  have hi : hminIF m j1 j2 weighted = fun r => Fl.fin (Real.logb 2 (K r)) := funext fun r => (hfit r).2
  refine ⟨_, hm.hmin h1 h12.le h2 weighted warn hrow, ?_,
    (subR m j1 j2).map fun p r => (nanmax ((col p.2 r).map Fl.abs)).log2, ?_, ?_, ?_⟩
  · simp only [hminTuple, Bool.false_eq_true, if_false, hs, hi]
  · simp only [hminTuple, if_true, hs, hi]
  · have hk := congrArg List.length (hm.sub_keys h1 h12.le h2)
    simp only [List.length_map] at hk ⊢
    rw [hk, arange, List.length_map, List.length_range]
    omega
  · intro i row hrow' r
    rw [List.getElem?_map, Option.map_eq_some_iff] at hrow'
    obtain ⟨p, hp, rfl⟩ := hrow'
    have hmem := List.mem_of_getElem? hp
    have hk : (arange j1 (j2 + 1))[i]? = some p.1 := by
      rw [← hm.sub_keys h1 h12.le h2, List.getElem?_map, hp]; rfl
    have : p.1 = j1 + i := by
      unfold arange at hk
      rw [List.getElem?_map, Option.map_eq_some_iff] at hk
      obtain ⟨a, ha, e⟩ := hk
      obtain ⟨hi', e'⟩ := List.getElem?_eq_some_iff.1 ha
      rw [List.getElem_range] at e'
      omega
    show (nanmax ((col p.2 r).map Fl.abs)).log2 = _
    rw [hval r p hmem, this]
    push_cast
    rfl

/-- Monofractal data with `K = 2`, `H = 1`: values 4, -4 at scale 1 and 8 (and a NaN) at scale 2. -/
noncomputable def monoDemo : MRQ 1 :=
  ((MRQ.empty .leader 0).addValues [fun _ => Fl.fin 4, fun _ => Fl.fin (-4)] 1).addValues
    [fun _ => Fl.fin 8, fun _ => Fl.nan] 2

example : Regular monoDemo 2 ∧ (∀ p ∈ monoDemo.values, p.2 ≠ []) ∧ Monofractal monoDemo (fun _ => 2) (fun _ => 1) := by
  have hv : monoDemo.values = [(1, [fun _ => Fl.fin 4, fun _ => Fl.fin (-4)]), (2, [fun _ => Fl.fin 8, fun _ => Fl.nan])] := by
    simp [monoDemo, MRQ.addValues, MRQ.empty, Dict.set]
  refine ⟨⟨by rw [hv]; simp [List.range_succ], by rw [hv]; simp [monoDemo, MRQ.addValues, MRQ.empty, Dict.set]⟩, ?_, ?_⟩
  · intro p hp
    rw [hv] at hp
    simp only [List.mem_cons, List.not_mem_nil, or_false] at hp
    rcases hp with rfl | rfl <;> simp
  · intro p hp r
    rw [hv] at hp
    simp only [List.mem_cons, List.not_mem_nil, or_false] at hp
    rcases hp with rfl | rfl
    · simp only [col, List.map_cons, List.map_nil]
      refine ⟨⟨Fl.fin 4, by simp, by simp⟩, fun x hx => ?_⟩
      simp only [List.mem_cons, List.not_mem_nil, or_false] at hx
      rcases hx with rfl | rfl
      · exact Or.inr ⟨4, rfl, by norm_num⟩
      · exact Or.inr ⟨-4, rfl, by norm_num⟩
    · simp only [col, List.map_cons, List.map_nil]
      refine ⟨⟨Fl.fin 8, by simp, by simp⟩, fun x hx => ?_⟩
      simp only [List.mem_cons, List.not_mem_nil, or_false] at hx
      rcases hx with rfl | rfl
      · exact Or.inr ⟨8, rfl, by norm_num⟩
      · exact Or.inl rfl

/-! ### C36 -/

/-- C36: a `q` given as a python list always raises; an array `q` without 2 raises IndexError; with 2 in `q`, H is
zeta(2)/2 - gamint. -/
theorem C36_H_requires_two (hm : Regular m J) (h1 : 1 ≤ j1) (h12 : j1 ≤ j2) (h2 : j2 ≤ J) (weighted : Bool) :
    (∀ q : List ℝ, (2:ℝ) ∉ q → StructFn.make m (.ndarray q) j1 j2 weighted = .error .indexError) ∧
    (∀ q : List Expo, StructFn.make m (.pylist q) j1 j2 weighted = .error .indexError) ∧
    (∀ q : List ℝ, (2:ℝ) ∈ q → ∃ s, StructFn.make m (.ndarray q) j1 j2 weighted = .ok s ∧
      ∃ (i : ℕ) (z : Row R), q[i]? = some 2 ∧ s.zeta[i]? = some z ∧ ∀ r, s.H r = z r / Fl.fin 2 - Fl.fin m.gamint) := by
  refine ⟨fun q hq => hm.structFn_no2 h1 h12 h2 weighted q hq, fun q => ?_, fun q hq => ?_⟩
  · unfold StructFn.make
    rw [hm.checkNrep h1 h12 h2]
    simp only
    rw [hm.sfRegressions h1 h12 h2]
    rfl
  · refine ⟨_, hm.structFn h1 h12 h2 weighted q hq, ?_⟩
    obtain ⟨i, hi, e⟩ := List.getElem_of_mem hq
    refine ⟨i, zetaF m j1 j2 weighted (.real 2), by rw [List.getElem?_eq_getElem hi, e], ?_, fun r => rfl⟩
    simp only [List.getElem?_map, List.getElem?_eq_getElem hi, e, Option.map_some]

example : Regular demo 2 ∧ (1:ℤ) ≤ 2 := ⟨demo_regular, by norm_num⟩

/-! ### C37 -/

/-- C37: at each scale and realisation log2 S(j,q) is a convex function of q. -/
theorem C37_log_structure_convex (hm : Regular m J) (hd : NonzeroData m) (h1 : 1 ≤ j1) (h12 : j1 ≤ j2)
    (h2 : j2 ≤ J) (weighted : Bool) :
    ∀ k < J, ∀ r : Fin R, ∃ f : ℝ → ℝ, ConvexOn ℝ Set.univ f ∧
      ∀ q : List ℝ, (2:ℝ) ∈ q → ∃ s, StructFn.make m (.ndarray q) j1 j2 weighted = .ok s ∧
        ∀ (i : ℕ) (hi : i < q.length), ∃ (lv : Arr R) (row : Row R),
          s.logvalues[i]? = some lv ∧ lv[k]? = some row ∧ row r = Fl.fin (f q[i]) := by
  intro k hk r
  have hk' : k < m.values.length := by rw [hm.length]; exact hk
  obtain ⟨xs, hne, h0, he⟩ := hd.entries (List.getElem_mem hk') r
  refine ⟨_, powSum_logconvex hne h0, fun q hq => ⟨_, hm.structFn h1 h12 h2 weighted q hq, fun i hi => ?_⟩⟩
  refine ⟨m.values.map fun p r => (sfMean p.2 (.real q[i]) r).log2, fun r => (sfMean m.values[k].2 (.real q[i]) r).log2,
    by simp [sfLogValues, List.getElem?_eq_getElem hi], by
    rw [List.getElem?_map, List.getElem?_eq_getElem hk']; rfl, ?_⟩
  obtain ⟨x0, hx0⟩ := List.exists_mem_of_ne_nil xs hne
  have hlen : (0:ℝ) < xs.length := by exact_mod_cast List.length_pos_iff.mpr hne
  show (nanmean (col (mapArr _ (mapArr Fl.abs _)) r)).log2 = _
  rw [col_mapArr, col_mapArr, sfMean_col he (Or.inr h0) hne,
    Fl.log2_fin (div_pos (powSum_pos _ ⟨x0, hx0, h0 x0 hx0⟩) hlen)]
  rfl

/-! ### C43, C44, C45 -/

/-- C43: D(0) = 1, and U(j,0) = 0 at each scale, provided each scale has a non-NaN value. -/
theorem C43_D_zero (hm : Regular m J) (h1 : 1 ≤ j1) (h12 : j1 < j2) (h2 : j2 ≤ J) (weighted : Bool)
    (hd : ∀ p ∈ m.values, ∀ r, ∃ x ∈ col p.2 r, x ≠ Fl.nan) (q : List ℝ) (hq : (0:ℝ) ∈ q) :
    ∃ s, Spectrum.make m j1 j2 weighted (.ndarray q) = .ok s ∧
      ∀ i : ℕ, q[i]? = some 0 → s.Dq[i]? = some (fun _ => Fl.fin 1) ∧
        s.U[i]? = some (List.replicate J (fun _ => Fl.fin 0)) := by
  have hqn : (QArg.ndarray q).expos ≠ [] := by
    simp only [QArg.expos, ne_eq, List.map_eq_nil_iff]; rintro rfl; cases hq
  refine ⟨_, hm.spectrum h1 h12.le h2 weighted _ hqn, fun i hi => ⟨?_, ?_⟩⟩
  · simp only [QArg.expos, List.getElem?_map, hi, Option.map_some, Option.some.injEq]
    funext r
    have hpos : ∀ p ∈ subR m j1 j2, 0 < wtOf weighted p r := by
      intro p hp
      unfold wtOf; split
      · exact_mod_cast countNotNaN_pos (hd p (sub_mem hp) r)
      · exact one_pos
    have := (slopeL_affine (subR m j1 j2) (fun p => (p.1 : ℝ)) (fun p => wtOf weighted p r) hpos
      (hm.sub_two h1 h12.le h2 h12) 0 0).1
    have hu : uF m j1 j2 weighted (.real 0) r = Fl.fin 0 := by
      rw [← this]
      apply slopeL_congr (fun _ _ => rfl) (fun _ _ => rfl)
      intro p hp
      rw [msU_zero (hd p (sub_mem hp) r)]; simp
    rw [hu, Fl.fin_add, add_zero]
  · simp only [QArg.expos, List.getElem?_map, hi, Option.map_some, Option.some.injEq]
    rw [List.eq_replicate_iff]
    refine ⟨by simp [hm.length], fun b hb => ?_⟩
    obtain ⟨p, hp, rfl⟩ := List.mem_map.mp hb
    funext r
    exact msU_zero (hd p hp r)

/-- C44: D(q) = 1 + q h(q) - zeta(q). -/
theorem C44_legendre (hm : Regular m J) (h1 : 1 ≤ j1) (h12 : j1 ≤ j2) (h2 : j2 ≤ J) (weighted : Bool)
    (q : List ℝ) (hq : (2:ℝ) ∈ q) :
    ∃ s p, StructFn.make m (.ndarray q) j1 j2 weighted = .ok s ∧
      Spectrum.make m j1 j2 weighted (.ndarray q) = .ok p ∧
      ∀ (i : ℕ) (hi : i < q.length), (NonzeroData m ∨ (0 < q[i] ∧ NonvanishingData m)) →
        ∃ D h z : Row R, p.Dq[i]? = some D ∧ p.hq[i]? = some h ∧ s.zeta[i]? = some z ∧
          ∀ r, D r = Fl.fin 1 + Fl.fin q[i] * h r - z r := by
  have hqn : (QArg.ndarray q).expos ≠ [] := by
    simp only [QArg.expos, ne_eq, List.map_eq_nil_iff]; rintro rfl; cases hq
  refine ⟨_, _, hm.structFn h1 h12 h2 weighted q hq, hm.spectrum h1 h12 h2 weighted _ hqn, fun i hi hd => ?_⟩
  simp only [QArg.expos, List.getElem?_map, List.getElem?_eq_getElem hi, Option.map_some, Option.some.injEq,
    exists_and_left, exists_eq_left']
  intro r
  have hne := hm.sub_ne_nil h1 h12 h2
  have hw : ∀ p ∈ subR m j1 j2, 0 ≤ wtOf weighted p r := fun p _ => wtOf_nonneg _ _ _
  have hneg : ∀ x : Fl, Fl.fin (-1) * x = -x := by
    intro x; cases x <;> simp [Fl.fin_mul_pinf, Fl.fin_mul_ninf, Fl.fin_mul, Fl.sgnInf, Fl.neg_fin]
  have hu : uF m j1 j2 weighted (.real q[i]) r
      = Fl.fin q[i] * vF m j1 j2 weighted (.real q[i]) r - zetaF m j1 j2 weighted (.real q[i]) r := by
    unfold uF vF zetaF
    rw [Fl.sub_def, ← hneg, ← slopeL_smul _ hne _ _ hw, ← slopeL_smul _ hne _ _ hw, ← slopeL_add _ hne _ _ hw]
    apply slopeL_congr (fun _ _ => rfl) (fun _ _ => rfl)
    intro p hp
    obtain ⟨xs, hxs, hq0, hex, he⟩ := SpectrumData.entries (q := q[i]) hd (sub_mem hp) r
    rw [he.count, msU_eq_msV (e := .real q[i]) he hq0 hex hxs]
    show _ = _ + _ * (nanmean (col (mapArr _ (mapArr Fl.abs p.2)) r)).log2
    rw [col_mapArr, col_mapArr, sfMean_col (e := .real q[i]) he hq0 hxs]
    rfl
  rw [hu, Fl.sub_def, Fl.sub_def, add_assoc]

example : NonzeroData demo := demo_nonzero

/-- C45: V(j,q) lies between the extreme values of log2|T| over the non-zero data, and 0 ≤ U(j,q) ≤ log2 nj. -/
theorem C45_bounds (hm : Regular m J) (h1 : 1 ≤ j1) (h12 : j1 ≤ j2) (h2 : j2 ≤ J) (weighted : Bool)
    (q : List ℝ) (hqn : q ≠ []) :
    ∃ s, Spectrum.make m j1 j2 weighted (.ndarray q) = .ok s ∧
      ∀ (i : ℕ) (hi : i < q.length), (NonzeroData m ∨ (0 < q[i] ∧ NonvanishingData m)) →
      ∀ (k : ℕ) (p : ℤ × Arr R), m.values[k]? = some p → ∃ (Ui Vi : Arr R) (U V : Row R), s.U[i]? = some Ui ∧ s.V[i]? = some Vi ∧
        Ui[k]? = some U ∧ Vi[k]? = some V ∧ ∀ r, ∃ u v : ℝ, U r = Fl.fin u ∧ V r = Fl.fin v ∧
          0 ≤ u ∧ u ≤ Real.logb 2 (countNotNaN (col p.2 r)) ∧
          (∀ lo, (∀ t : ℝ, t ≠ 0 → Fl.fin t ∈ col p.2 r → lo ≤ Real.logb 2 |t|) → lo ≤ v) ∧
          (∀ up, (∀ t : ℝ, t ≠ 0 → Fl.fin t ∈ col p.2 r → Real.logb 2 |t| ≤ up) → v ≤ up) := by
  have hqn' : (QArg.ndarray q).expos ≠ [] := by simpa [QArg.expos] using hqn
  refine ⟨_, hm.spectrum h1 h12 h2 weighted _ hqn', fun i hi hd k p hk => ?_⟩
  have hp : p ∈ m.values := List.mem_of_getElem? hk
  refine ⟨m.values.map fun p r => msU (countNotNaN (col p.2 r)) (col p.2 r) (.real q[i]),
    m.values.map fun p r => msV (col p.2 r) (.real q[i]), fun r => msU (countNotNaN (col p.2 r)) (col p.2 r) (.real q[i]),
    fun r => msV (col p.2 r) (.real q[i]), by simp [QArg.expos, List.getElem?_eq_getElem hi],
    by simp [QArg.expos, List.getElem?_eq_getElem hi], by simp [hk], by simp [hk], fun r => ?_⟩
  obtain ⟨xs, hxs, hq0, hex, he⟩ := SpectrumData.entries (q := q[i]) hd hp r
  obtain ⟨u, hu, hu0, hu1⟩ := msU_bounds (e := .real q[i]) he hq0 hex
  have hv := msV_eq (e := .real q[i]) he hq0 hex
  refine ⟨u, _, hu, hv, hu0, hu1, fun lo hlo => ?_, fun hi' hhi => ?_⟩
  · -- use the maximum over the list as upper bound
    obtain ⟨B, hB⟩ : ∃ B, ∀ x ∈ xs, Real.logb 2 |x| ≤ B := by
      refine ⟨(xs.map fun x => abs (Real.logb 2 (|x|))).sum, fun x hx => le_trans (le_abs_self _) ?_⟩
      apply List.single_le_sum
      · intro y hy; obtain ⟨z, _, rfl⟩ := List.mem_map.mp hy; exact abs_nonneg _
      · exact List.mem_map.mpr ⟨x, hx, rfl⟩
    obtain ⟨v, hv', h1, _⟩ := msV_bounds (e := .real q[i]) he hq0 hex (lo := lo) (hi := B)
      (fun x hx h0 => hlo x h0 (he.mem' hx)) (fun x hx _ => hB x hx)
    rw [hv, Fl.fin_inj] at hv'
    rw [hv']; exact h1
  · obtain ⟨B, hB⟩ : ∃ B, ∀ x ∈ xs, B ≤ Real.logb 2 |x| := by
      refine ⟨-(xs.map fun x => abs (Real.logb 2 (|x|))).sum, fun x hx => le_trans (neg_le_neg ?_) (neg_abs_le _)⟩
      apply List.single_le_sum
      · intro y hy; obtain ⟨z, _, rfl⟩ := List.mem_map.mp hy; exact abs_nonneg _
      · exact List.mem_map.mpr ⟨x, hx, rfl⟩
    obtain ⟨v, hv', _, h2⟩ := msV_bounds (e := .real q[i]) he hq0 hex (lo := B) (hi := hi')
      (fun x hx _ => hB x hx) (fun x hx h0 => hhi x h0 (he.mem' hx))
    rw [hv, Fl.fin_inj] at hv'
    rw [hv']; exact h2

end MFA
