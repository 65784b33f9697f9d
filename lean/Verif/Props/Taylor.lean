import Verif.Props.Cumulants
import Verif.Props.Structure
import Verif.Props.Demo
import Mathlib.Analysis.Convex.Deriv

/-! C91: structure functions, log-cumulants and multifractal spectrum are three views of one scaling function. -/

namespace MFA

open Classical Finset

noncomputable section

section column

variable {c : List Fl} {xs : List ℝ} (hE : Entries c xs) (hne : xs ≠ []) (h0 : ∀ x ∈ xs, x ≠ 0)

/-- Logs of the moduli. -/
private def lgs (xs : List ℝ) : List ℝ := xs.map fun x => Real.log |x|

include hne in
private theorem lgs_ne : lgs xs ≠ [] := by simpa [lgs] using hne

include h0 in
private theorem powSum_mgf (q : ℝ) : powSum xs q / xs.length = empMGF (lgs xs) q := by
  unfold powSum empMGF lgs
  rw [List.length_map, List.map_map]
  congr 2
  apply List.map_congr_left
  intro x hx
  simp only [Function.comp_apply]
  rw [Real.rpow_def_of_pos (abs_pos.mpr (h0 x hx))]

include hE hne h0 in
private theorem col_log2S (q : ℝ) :
    (nanmean ((c.map Fl.abs).map (fastPower (.real q)))).log2 = Fl.fin (empCGF (lgs xs) q / Real.log 2) := by
  rw [sfMean_col (e := .real q) hE (Or.inr h0) hne]
  show (Fl.fin (powSum xs q / xs.length)).log2 = _
  rw [powSum_mgf h0, Fl.log2_fin (empMGF_pos _ (lgs_ne hne) q)]
  rfl

include hne h0 in
private theorem deriv_cgf (q : ℝ) : deriv (empCGF (lgs xs)) q / Real.log 2
    = (xs.map fun x => |x| ^ q / powSum xs q * Real.logb 2 |x|).sum := by
  have hpos := empMGF_pos _ (lgs_ne hne) q
  have hlen : (0:ℝ) < xs.length := by exact_mod_cast List.length_pos_iff.mpr hne
  have hS : 0 < powSum xs q := by
    obtain ⟨x, hx⟩ := List.exists_mem_of_ne_nil xs hne
    exact powSum_pos q ⟨x, hx, h0 x hx⟩
  have hd : HasDerivAt (empMGF (lgs xs))
      ((xs.map fun x => Real.log |x| * |x| ^ q).sum / xs.length) q := by
    have : ∀ l : List ℝ, (∀ x ∈ l, x ≠ 0) → HasDerivAt (fun t => ((lgs l).map fun a => Real.exp (a * t)).sum)
        ((l.map fun x => Real.log |x| * |x| ^ q).sum) q := by
      intro l hl
      induction l with
      | nil => simpa [lgs] using hasDerivAt_const q (0:ℝ)
      | cons a l ih =>
        have ha : HasDerivAt (fun t => Real.exp (Real.log |a| * t)) (Real.log |a| * |a| ^ q) q := by
          have := ((hasDerivAt_id q).const_mul (Real.log |a|)).exp
          simp only [mul_one, id] at this
          rw [Real.rpow_def_of_pos (abs_pos.mpr (hl a (by simp))), mul_comm (Real.log |a|)]
          exact this
        exact (ha.fun_add (ih (fun x hx => hl x (by simp [hx]))))
    have := (this xs h0).div_const (xs.length : ℝ)
    have e : empMGF (lgs xs) = fun t => ((lgs xs).map fun a => Real.exp (a * t)).sum / (xs.length : ℝ) := by
      funext t; unfold empMGF; congr 1; simp [lgs]
    rw [e]; exact this
  have hd2 : HasDerivAt (empCGF (lgs xs)) _ q := hd.log hpos.ne'
  rw [hd2.deriv, ← powSum_mgf h0]
  have : (xs.map fun x => |x| ^ q / powSum xs q * Real.logb 2 |x|)
      = xs.map fun x => (powSum xs q)⁻¹ * (Real.log 2)⁻¹ * (Real.log |x| * |x| ^ q) := by
    apply List.map_congr_left; intro x _
    rw [Real.logb]; field_simp
  rw [this, List.sum_map_mul_left]
  field_simp

include hE hne h0 in
private theorem col_V (q : ℝ) : msV c (.real q) = Fl.fin (deriv (empCGF (lgs xs)) q / Real.log 2) := by
  obtain ⟨x, hx⟩ := List.exists_mem_of_ne_nil xs hne
  rw [msV_eq (e := .real q) hE (Or.inr h0) ⟨x, hx, h0 x hx⟩, deriv_cgf hne h0]
  rfl

include hE hne h0 in
private theorem col_cum {n i : ℕ} (hi : i < n) : (cmColumn (c.map fun x => x.abs.ln) n).getD i Fl.nan
    = Fl.fin (iteratedDeriv (i + 1) (empCGF (lgs xs)) 0) := by
  rw [cmColumn_getD (hE.logs h0) (lgs_ne hne) hi]; rfl

end column

variable {R J : ℕ} {m : MRQ R} {j1 j2 : ℤ}

private theorem log2e_eq : log2e = (Real.log 2)⁻¹ := by
  unfold log2e Real.logb; rw [Real.log_exp, one_div]

private theorem iteratedDeriv_div (f : ℝ → ℝ) (k : ℕ) (a t : ℝ) :
    iteratedDeriv k (fun x => f x / a) t = iteratedDeriv k f t / a := by
  have : (fun x => f x / a) = fun x => a⁻¹ * f x := by funext x; rw [div_eq_inv_mul]
  rw [this, iteratedDeriv_const_mul_field, div_eq_inv_mul]

/-- C91, scale by scale: at each scale and realisation there is one smooth function `f` such that log2 S(j,q) = f(q) for
every q, V(j,q) = f'(q), U(j,q) = q f'(q) - f(q), and log2(e) C_i(j) is the i-th derivative of `f` at 0. -/
theorem C91_per_scale (hm : Regular m J) (hd : NonzeroData m) (h1 : 1 ≤ j1) (h12 : j1 ≤ j2) (h2 : j2 ≤ J)
    (weighted : Bool) : ∀ k < J, ∀ r : Fin R, ∃ f : ℝ → ℝ, ContDiff ℝ ⊤ f ∧
      (∀ q : List ℝ, (2:ℝ) ∈ q → ∃ s p, StructFn.make m (.ndarray q) j1 j2 weighted = .ok s ∧
        Spectrum.make m j1 j2 weighted (.ndarray q) = .ok p ∧
        ∀ (i : ℕ) (hi : i < q.length), ∃ (lv Ui Vi : Arr R) (L U V : Row R),
          s.logvalues[i]? = some lv ∧ lv[k]? = some L ∧ p.U[i]? = some Ui ∧ Ui[k]? = some U ∧
          p.V[i]? = some Vi ∧ Vi[k]? = some V ∧
          L r = Fl.fin (f q[i]) ∧ V r = Fl.fin (deriv f q[i]) ∧ U r = Fl.fin (q[i] * deriv f q[i] - f q[i])) ∧
      (∀ n : ℕ, ∃ c, Cumulants.make m n j1 j2 weighted = .ok c ∧ ∀ i < n, ∃ (Ci : Arr R) (C : Row R),
        c.values[i]? = some Ci ∧ Ci[k]? = some C ∧
        C r * Fl.fin (Real.logb 2 (Real.exp 1)) = Fl.fin (iteratedDeriv (i + 1) f 0)) := by
  intro k hk r
  have hk' : k < m.values.length := by rw [hm.length]; exact hk
  have hmem := List.getElem_mem hk'
  obtain ⟨xs, hne, h0, he⟩ := hd.entries hmem r
  obtain ⟨x, hx⟩ := List.exists_mem_of_ne_nil xs hne
  have hsm := empCGF_contDiff (lgs xs) (lgs_ne hne)
  have hdf : ∀ q, deriv (fun q => empCGF (lgs xs) q / Real.log 2) q = deriv (empCGF (lgs xs)) q / Real.log 2 :=
    fun q => deriv_div_const ..
  refine ⟨fun q => empCGF (lgs xs) q / Real.log 2, hsm.div_const _, fun q hq => ?_, fun n => ?_⟩
  · have hqn : (QArg.ndarray q).expos ≠ [] := by
      simp only [QArg.expos, ne_eq, List.map_eq_nil_iff]; rintro rfl; cases hq
    refine ⟨_, _, hm.structFn h1 h12 h2 weighted q hq, hm.spectrum h1 h12 h2 weighted _ hqn, fun i hi => ?_⟩
    refine ⟨m.values.map fun p r => (sfMean p.2 (.real q[i]) r).log2,
      m.values.map fun p r => msU (countNotNaN (col p.2 r)) (col p.2 r) (.real q[i]),
      m.values.map fun p r => msV (col p.2 r) (.real q[i]),
      fun r => (sfMean m.values[k].2 (.real q[i]) r).log2,
      fun r => msU (countNotNaN (col m.values[k].2 r)) (col m.values[k].2 r) (.real q[i]),
      fun r => msV (col m.values[k].2 r) (.real q[i]),
      by simp [sfLogValues, List.getElem?_eq_getElem hi], by simp [List.getElem?_eq_getElem hk'],
      by simp [QArg.expos, List.getElem?_eq_getElem hi], by simp [List.getElem?_eq_getElem hk'],
      by simp [QArg.expos, List.getElem?_eq_getElem hi], by simp [List.getElem?_eq_getElem hk'], ?_, ?_, ?_⟩
    · show (nanmean (col (mapArr _ (mapArr Fl.abs _)) r)).log2 = _
      rw [col_mapArr, col_mapArr, col_log2S he hne h0]
    · rw [hdf]; exact col_V he hne h0 _
    · show msU (countNotNaN (col m.values[k].2 r)) _ _ = _
      rw [he.count, msU_eq_msV (e := .real q[i]) he (Or.inr h0) ⟨x, hx, h0 x hx⟩ hne, col_V he hne h0,
        ← sfMean_col (e := .real q[i]) he (Or.inr h0) hne, col_log2S he hne h0, hdf, Fl.fin_mul, Fl.fin_mul,
        Fl.fin_add]
      congr 1
      show q[i] * _ + _ = _
      ring
  · refine ⟨_, hm.cumulants h1 h12 h2 weighted n, fun i hi => ?_⟩
    refine ⟨m.values.map fun p r => (cmColumn (logAbsCol p.2 r) n).getD i Fl.nan,
      fun r => (cmColumn (logAbsCol m.values[k].2 r) n).getD i Fl.nan,
      by simp [cmValues, hi], by simp [List.getElem?_eq_getElem hk'], ?_⟩
    show (cmColumn ((col _ r).map fun x => x.abs.ln) n).getD i Fl.nan * Fl.fin log2e = _
    rw [col_cum he hne h0 hi, log2e_eq, Fl.fin_mul, iteratedDeriv_div]
    rfl

/-- Slopes of real data over the fitted range are a fixed linear combination. -/
private theorem slope_linear (hm : Regular m J) (h1 : 1 ≤ j1) (h12 : j1 < j2) (h2 : j2 ≤ J) (hd : NonzeroData m)
    (weighted : Bool) (r : Fin R) : ∃ v : Fin (subR m j1 j2).length → ℝ, ∀ y : ℤ × Arr R → ℝ,
      slopeL (subR m j1 j2) (fun p => (p.1 : ℝ)) (fun p => wtOf weighted p r) (fun p => Fl.fin (y p))
        = Fl.fin (∑ i, v i * y (subR m j1 j2)[i]) := by
  have hpos : ∀ p ∈ subR m j1 j2, 0 < wtOf weighted p r := by
    intro p hp
    unfold wtOf; split
    · exact_mod_cast countNotNaN_pos (hd p (sub_mem hp) r).1
    · exact one_pos
  rcases slopeL_cases (subR m j1 j2) (hm.sub_ne_nil h1 h12.le h2) (fun p => (p.1 : ℝ)) (fun p => wtOf weighted p r)
    (fun p hp => (hpos p hp).le) with h | ⟨_, h⟩
  · have := (slopeL_affine (subR m j1 j2) (fun p => (p.1 : ℝ)) (fun p => wtOf weighted p r) hpos
      (hm.sub_two h1 h12.le h2 h12) 0 0).1
    rw [(h _).1] at this
    cases this
  · refine ⟨rWS (fun i : Fin (subR m j1 j2).length => ((subR m j1 j2)[i].1 : ℝ))
      (fun i => wtOf weighted (subR m j1 j2)[i] r), fun y => ?_⟩
    rw [(h _).1]
    simp only [Fl.fin_mul]
    rw [Fl.sum_fin]

/-- C91: for each realisation there is one smooth function ζ such that `StructureFunction` returns ζ(q) for every q,
`MultifractalSpectrum` returns h(q) = ζ'(q) and D(q) = 1 + q ζ'(q) - ζ(q), and `Cumulants` returns as log-cumulant of order
`i` the i-th derivative of ζ at 0: the log-cumulants are the Taylor coefficients of the scaling function at 0. -/
theorem C91_one_scaling_function (hm : Regular m J) (hd : NonzeroData m) (h1 : 1 ≤ j1) (h12 : j1 < j2) (h2 : j2 ≤ J)
    (weighted : Bool) : ∀ r : Fin R, ∃ ζ : ℝ → ℝ, ContDiff ℝ ⊤ ζ ∧
      (∀ q : List ℝ, (2:ℝ) ∈ q → ∃ s p, StructFn.make m (.ndarray q) j1 j2 weighted = .ok s ∧
        Spectrum.make m j1 j2 weighted (.ndarray q) = .ok p ∧
        ∀ (i : ℕ) (hi : i < q.length), ∃ z h D : Row R,
          s.zeta[i]? = some z ∧ p.hq[i]? = some h ∧ p.Dq[i]? = some D ∧
          z r = Fl.fin (ζ q[i]) ∧ h r = Fl.fin (deriv ζ q[i]) ∧ D r = Fl.fin (1 + q[i] * deriv ζ q[i] - ζ q[i])) ∧
      (∀ n : ℕ, ∃ c, Cumulants.make m n j1 j2 weighted = .ok c ∧ ∀ i < n, ∃ C : Row R,
        c.log_cumulants[i]? = some C ∧ C r = Fl.fin (iteratedDeriv (i + 1) ζ 0)) := by
  intro r
  obtain ⟨v, hv⟩ := slope_linear hm h1 h12 h2 hd weighted r
  choose! X hXne hX0 hXE using fun (p : ℤ × Arr R) (hp : p ∈ m.values) => hd.entries hp r
  let L := subR m j1 j2
  have hmem : ∀ i : Fin L.length, L[i] ∈ m.values := fun i => sub_mem (List.getElem_mem _)
  let g : Fin L.length → ℝ → ℝ := fun i q => empCGF (lgs (X L[i])) q / Real.log 2
  have hgs : ∀ i, ContDiff ℝ ⊤ (g i) := fun i =>
    (empCGF_contDiff (lgs (X L[i])) (lgs_ne (hXne _ (hmem i)))).div_const _
  have hder : ∀ q, deriv (fun q => ∑ i, v i * g i q) q = ∑ i, v i * deriv (g i) q := by
    intro q
    rw [deriv_fun_sum (fun i _ => ((hgs i).differentiable (by simp)).differentiableAt.const_mul _)]
    apply Finset.sum_congr rfl; intro i _
    rw [deriv_const_mul _ ((hgs i).differentiable (by simp)).differentiableAt]
  refine ⟨fun q => ∑ i, v i * g i q, ?_, fun q hq => ?_, fun n => ?_⟩
  · exact ContDiff.sum fun i _ => (hgs i).const_smul (v i)
  · have hqn : (QArg.ndarray q).expos ≠ [] := by
      simp only [QArg.expos, ne_eq, List.map_eq_nil_iff]; rintro rfl; cases hq
    obtain ⟨s, p, hs, hp, hleg⟩ := C44_legendre hm h1 h12.le h2 weighted q hq
    have hs' := hm.structFn h1 h12.le h2 weighted q hq
    have hp' := hm.spectrum h1 h12.le h2 weighted _ hqn
    refine ⟨s, p, hs, hp, fun i hi => ?_⟩
    obtain ⟨D, h, z, hD, hh, hz, he⟩ := hleg i hi (Or.inl hd)
    refine ⟨z, h, D, hz, hh, hD, ?_⟩
    have hz1 : z r = Fl.fin (∑ k, v k * g k q[i]) := by
      have e : s.zeta[i]? = some (zetaF m j1 j2 weighted (.real q[i])) := by
        rw [hs'] at hs; injection hs with hs; rw [← hs]; simp [List.getElem?_eq_getElem hi]
      rw [hz, Option.some.injEq] at e
      rw [e, ← hv fun p => empCGF (lgs (X p)) q[i] / Real.log 2]
      apply slopeL_congr (fun _ _ => rfl) (fun _ _ => rfl)
      intro p hp
      have hpm := sub_mem hp
      show (nanmean (col (mapArr _ (mapArr Fl.abs _)) r)).log2 = _
      rw [col_mapArr, col_mapArr, col_log2S (hXE p hpm) (hXne p hpm) (hX0 p hpm)]
    have hh1 : h r = Fl.fin (deriv (fun q => ∑ i, v i * g i q) q[i]) := by
      have e : p.hq[i]? = some (vF m j1 j2 weighted (.real q[i])) := by
        rw [hp'] at hp; injection hp with hp; rw [← hp]
        simp [QArg.expos, List.getElem?_eq_getElem hi]
      rw [hh, Option.some.injEq] at e
      rw [e, hder]
      have : ∀ k, deriv (g k) q[i] = deriv (empCGF (lgs (X L[k]))) q[i] / Real.log 2 := fun k => deriv_div_const ..
      simp only [this]
      rw [← hv fun p => deriv (empCGF (lgs (X p))) q[i] / Real.log 2]
      apply slopeL_congr (fun _ _ => rfl) (fun _ _ => rfl)
      intro p hp
      have hpm := sub_mem hp
      exact col_V (hXE p hpm) (hXne p hpm) (hX0 p hpm) _
    refine ⟨hz1, hh1, ?_⟩
    rw [he r, hh1, hz1, Fl.fin_mul, Fl.fin_add, Fl.sub_def, Fl.neg_fin, Fl.fin_add]
    rfl
  · refine ⟨_, hm.cumulants h1 h12.le h2 weighted n, fun i hi => ?_⟩
    refine ⟨fun r => cumF m j1 j2 weighted n i r * Fl.fin log2e, by simp [hi], ?_⟩
    have : cumF m j1 j2 weighted n i r = Fl.fin (∑ k, v k * iteratedDeriv (i + 1) (empCGF (lgs (X L[k]))) 0) := by
      rw [← hv fun p => iteratedDeriv (i + 1) (empCGF (lgs (X p))) 0]
      apply slopeL_congr (fun _ _ => rfl) (fun _ _ => rfl)
      intro p hp
      have hpm := sub_mem hp
      exact col_cum (hXE p hpm) (hXne p hpm) (hX0 p hpm) hi
    simp only [this, log2e_eq, Fl.fin_mul]
    congr 1
    rw [iteratedDeriv_fun_sum (fun k _ => by
      exact (((hgs k).const_smul (v k)).of_le le_top).contDiffAt)]
    rw [Finset.sum_mul]
    apply Finset.sum_congr rfl; intro k _
    rw [iteratedDeriv_const_mul_field]
    show _ = v k * iteratedDeriv (i + 1) (fun q => empCGF (lgs (X L[k])) q / Real.log 2) 0
    rw [iteratedDeriv_div, div_eq_mul_inv, mul_assoc]

/-! ### C92 -/

section column

variable {c : List Fl} {xs : List ℝ} (hE : Entries c xs) (hne : xs ≠ []) (h0 : ∀ x ∈ xs, x ≠ 0)

include hne in
private theorem cgf_zero : empCGF (lgs xs) 0 = 0 := by
  have hlen : (xs.length : ℝ) ≠ 0 := by exact_mod_cast (List.length_pos_iff.mpr hne).ne'
  unfold empCGF empMGF
  simp [lgs, Function.comp_def, hlen]

include hne h0 in
private theorem cgf_convex : ConvexOn ℝ Set.univ (fun q => empCGF (lgs xs) q / Real.log 2) := by
  have := powSum_logconvex hne h0
  have e : (fun q => Real.logb 2 (powSum xs q / xs.length)) = fun q => empCGF (lgs xs) q / Real.log 2 := by
    funext q; rw [powSum_mgf h0]; rfl
  rwa [e] at this

include hne h0 in
/-- The quotient log2 S / q lies within log2(n)/q of log2 of the largest modulus. -/
private theorem cgf_bounds {M : ℝ} (hM : M ∈ xs.map fun x => |x|) (hle : ∀ x ∈ xs, |x| ≤ M) {q : ℝ} (hq : 0 < q) :
    Real.logb 2 M - Real.logb 2 xs.length / q ≤ empCGF (lgs xs) q / Real.log 2 / q ∧
    empCGF (lgs xs) q / Real.log 2 / q ≤ Real.logb 2 M := by
  have hlen : (0:ℝ) < xs.length := by exact_mod_cast List.length_pos_iff.mpr hne
  obtain ⟨x, hx, rfl⟩ := List.mem_map.mp hM
  have hx0 : 0 < |x| := abs_pos.mpr (h0 x hx)
  have hS := powSum_pos q ⟨x, hx, h0 x hx⟩
  have e : empCGF (lgs xs) q / Real.log 2 = Real.logb 2 (powSum xs q / xs.length) := by
    rw [powSum_mgf h0]; rfl
  have lo : |x| ^ q ≤ powSum xs q := by
    apply List.single_le_sum
    · intro y hy
      obtain ⟨z, _, rfl⟩ := List.mem_map.mp hy
      exact Real.rpow_nonneg (abs_nonneg z) q
    · exact List.mem_map.mpr ⟨x, hx, rfl⟩
  have up : powSum xs q ≤ xs.length * |x| ^ q := by
    have := List.sum_le_card_nsmul (xs.map fun y => |y| ^ q) (|x| ^ q) (by
      intro y hy
      obtain ⟨z, hz, rfl⟩ := List.mem_map.mp hy
      exact Real.rpow_le_rpow (abs_nonneg z) (hle z hz) hq.le)
    simpa [powSum] using this
  have hb : (1:ℝ) < 2 := one_lt_two
  have hl : Real.logb 2 (|x| ^ q) = q * Real.logb 2 |x| := Real.logb_rpow_eq_mul_logb_of_pos hx0
  rw [e, Real.logb_div hS.ne' hlen.ne']
  have h1 := Real.logb_le_logb_of_le hb (Real.rpow_pos_of_pos hx0 q) lo
  have h2 := Real.logb_le_logb_of_le hb hS up
  rw [Real.logb_mul hlen.ne' (Real.rpow_pos_of_pos hx0 q).ne', hl] at h2
  rw [hl] at h1
  constructor
  · rw [le_div_iff₀ hq, sub_mul, div_mul_cancel₀ _ hq.ne']; linarith
  · rw [div_le_iff₀ hq]; linarith

include hE hne h0 in
/-- The supremum used by `estimate_hmin` on one column. -/
private theorem col_sup : ∃ M : ℝ, (nanmax (c.map Fl.abs)).log2 = Fl.fin (Real.logb 2 M) ∧
    M ∈ (xs.map fun x => |x|) ∧ ∀ x ∈ xs, |x| ≤ M := by
  obtain ⟨x, hx⟩ := List.exists_mem_of_ne_nil xs hne
  have hA : ∃ y ∈ c.map Fl.abs, y ≠ Fl.nan :=
    ⟨_, List.mem_map.mpr ⟨Fl.fin x, hE.mem' hx, rfl⟩, by simp⟩
  obtain ⟨hm, hn, hub⟩ := nanmax_spec hA
  obtain ⟨y, hy, hye⟩ := List.mem_map.mp hm
  have hyn : y ≠ Fl.nan := by rintro rfl; exact hn hye.symm
  obtain ⟨t, ht, rfl⟩ := hE.mem hy hyn
  rw [Fl.abs_fin] at hye
  rw [← hye]
  refine ⟨|t|, Fl.log2_fin (abs_pos.mpr (h0 t ht)), List.mem_map.mpr ⟨t, ht, rfl⟩, fun z hz => ?_⟩
  have := hub _ (List.mem_map.mpr ⟨Fl.fin z, hE.mem' hz, rfl⟩) (by simp)
  rw [← hye] at this
  exact this

end column

/-- C92, scale by scale: with f(q) = log2 S(j,q), the quotient f(q)/q (q ≠ 0) is nondecreasing in q; it lies below
log2(e) C_1(j) for q < 0 and above it for q > 0, and everything lies between the extreme values of log2|T(j,k)|. -/
theorem C92_power_means (hm : Regular m J) (hd : NonzeroData m) (h1 : 1 ≤ j1) (h12 : j1 ≤ j2) (h2 : j2 ≤ J)
    (weighted : Bool) (n : ℕ) (hn : 1 ≤ n) : ∀ (k : ℕ) (p : ℤ × Arr R), m.values[k]? = some p → ∀ r : Fin R,
      ∃ (f : ℝ → ℝ) (C : ℝ),
        (∀ q : List ℝ, (2:ℝ) ∈ q → ∃ s, StructFn.make m (.ndarray q) j1 j2 weighted = .ok s ∧
          ∀ (i : ℕ) (hi : i < q.length), ∃ (lv : Arr R) (L : Row R),
            s.logvalues[i]? = some lv ∧ lv[k]? = some L ∧ L r = Fl.fin (f q[i])) ∧
        (∃ c, Cumulants.make m n j1 j2 weighted = .ok c ∧ ∃ (C1 : Arr R) (row : Row R),
          c.values[0]? = some C1 ∧ C1[k]? = some row ∧ row r = Fl.fin C) ∧
        (∀ q q', q ≤ q' → q ≠ 0 → q' ≠ 0 → f q / q ≤ f q' / q') ∧
        (∀ q, 0 < q → Real.logb 2 (Real.exp 1) * C ≤ f q / q) ∧
        (∀ q, q < 0 → f q / q ≤ Real.logb 2 (Real.exp 1) * C) ∧
        (∀ q, q ≠ 0 → ∀ up, (∀ t : ℝ, Fl.fin t ∈ col p.2 r → Real.logb 2 |t| ≤ up) → f q / q ≤ up) ∧
        (∀ q, q ≠ 0 → ∀ lo, (∀ t : ℝ, Fl.fin t ∈ col p.2 r → lo ≤ Real.logb 2 |t|) → lo ≤ f q / q) := by
  intro k p hkp r
  have hmem := List.mem_of_getElem? hkp
  obtain ⟨xs, hne, h0, he⟩ := hd.entries hmem r
  set f : ℝ → ℝ := fun q => empCGF (lgs xs) q / Real.log 2 with hf
  have hcv : ConvexOn ℝ Set.univ f := cgf_convex hne h0
  have hf0 : f 0 = 0 := by rw [hf]; simp [cgf_zero hne]
  have hmono : ∀ q q', q ≤ q' → q ≠ 0 → q' ≠ 0 → f q / q ≤ f q' / q' := by
    intro q q' hqq hq hq'
    have := hcv.secant_mono (Set.mem_univ 0) (Set.mem_univ q) (Set.mem_univ q') hq hq' hqq
    simpa [hf0] using this
  have hlog2 : 0 < Real.log 2 := Real.log_pos one_lt_two
  have hC : Real.logb 2 (Real.exp 1) * deriv (empCGF (lgs xs)) 0 = deriv f 0 := by
    have e : Real.logb 2 (Real.exp 1) = (Real.log 2)⁻¹ := log2e_eq
    have e2 : deriv f 0 = deriv (empCGF (lgs xs)) 0 / Real.log 2 := deriv_div_const ..
    rw [e, e2, div_eq_inv_mul]
  have hdiff : DifferentiableAt ℝ f 0 :=
    (((empCGF_contDiff (lgs xs) (lgs_ne hne)).div_const _).differentiable (by simp)).differentiableAt
  have hpos : ∀ q, 0 < q → Real.logb 2 (Real.exp 1) * deriv (empCGF (lgs xs)) 0 ≤ f q / q := by
    intro q hq
    rw [hC]
    have := hcv.deriv_le_slope (Set.mem_univ 0) (Set.mem_univ q) hq hdiff
    simpa [slope_def_field, hf0] using this
  have hneg : ∀ q, q < 0 → f q / q ≤ Real.logb 2 (Real.exp 1) * deriv (empCGF (lgs xs)) 0 := by
    intro q hq
    rw [hC]
    have := hcv.slope_le_deriv (Set.mem_univ q) (Set.mem_univ 0) hq hdiff
    have e : slope f q 0 = f q / q := by
      rw [slope_def_field, hf0, zero_sub, zero_sub, neg_div_neg_eq]
    rwa [e] at this
  -- extreme values for one sign of q, the other sign by monotonicity
  have hpw : ∀ q a : ℝ, 0 < a → ∀ x ∈ xs, |x| ^ q = 2 ^ (q * Real.logb 2 |x|) := by
    intro q a _ x hx
    rw [mul_comm, Real.rpow_mul (by norm_num), Real.rpow_logb (by norm_num) (by norm_num) (abs_pos.mpr (h0 x hx))]
  have hlen : (0:ℝ) < xs.length := by exact_mod_cast List.length_pos_iff.mpr hne
  have hex : ∃ x ∈ xs, x ≠ 0 := by
    obtain ⟨x, hx⟩ := List.exists_mem_of_ne_nil xs hne
    exact ⟨x, hx, h0 x hx⟩
  have hfe : ∀ q, f q = Real.logb 2 (powSum xs q / xs.length) := by
    intro q; rw [powSum_mgf h0]; rfl
  have hup : ∀ q a, (∀ x ∈ xs, q * Real.logb 2 |x| ≤ a) → f q ≤ a := by
    intro q a h
    have : powSum xs q ≤ xs.length * 2 ^ a := by
      have := List.sum_le_card_nsmul (xs.map fun y => |y| ^ q) ((2:ℝ) ^ a) (by
        intro y hy
        obtain ⟨z, hz, rfl⟩ := List.mem_map.mp hy
        rw [hpw q 1 one_pos z hz]
        exact Real.rpow_le_rpow_of_exponent_le one_le_two (h z hz))
      simpa [powSum] using this
    rw [hfe, Real.logb_le_iff_le_rpow one_lt_two (div_pos (powSum_pos q hex) hlen), div_le_iff₀ hlen]
    linarith
  have hlo : ∀ q a, (∀ x ∈ xs, a ≤ q * Real.logb 2 |x|) → a ≤ f q := by
    intro q a h
    have : xs.length * 2 ^ a ≤ powSum xs q := by
      have := List.card_nsmul_le_sum (xs.map fun y => |y| ^ q) ((2:ℝ) ^ a) (by
        intro y hy
        obtain ⟨z, hz, rfl⟩ := List.mem_map.mp hy
        rw [hpw q 1 one_pos z hz]
        exact Real.rpow_le_rpow_of_exponent_le one_le_two (h z hz))
      simpa [powSum] using this
    rw [hfe, Real.le_logb_iff_rpow_le one_lt_two (div_pos (powSum_pos q hex) hlen), le_div_iff₀ hlen]
    linarith
  refine ⟨f, deriv (empCGF (lgs xs)) 0, fun q hq => ?_, ?_, hmono, hpos, hneg, ?_, ?_⟩
  · refine ⟨_, hm.structFn h1 h12 h2 weighted q hq, fun i hi => ?_⟩
    refine ⟨m.values.map fun p r => (sfMean p.2 (.real q[i]) r).log2, fun r => (sfMean p.2 (.real q[i]) r).log2,
      by simp [sfLogValues, List.getElem?_eq_getElem hi], by simp [hkp], ?_⟩
    show (nanmean (col (mapArr _ (mapArr Fl.abs _)) r)).log2 = _
    rw [col_mapArr, col_mapArr, col_log2S he hne h0]
  · refine ⟨_, hm.cumulants h1 h12 h2 weighted n, ?_⟩
    refine ⟨m.values.map fun p r => (cmColumn (logAbsCol p.2 r) n).getD 0 Fl.nan,
      fun r => (cmColumn (logAbsCol p.2 r) n).getD 0 Fl.nan, by
        have : 0 < n := hn
        simp [cmValues, this], by simp [hkp], ?_⟩
    have := col_cum he hne h0 (show 0 < n from hn)
    rw [zero_add, iteratedDeriv_one] at this
    exact this
  · intro q hq up h
    have hx : ∀ x ∈ xs, Real.logb 2 |x| ≤ up := fun x hx => h x (he.mem' hx)
    rcases lt_or_gt_of_ne hq with hq | hq
    · rw [div_le_iff_of_neg hq]
      exact hlo q _ fun x h => by rw [mul_comm up]; exact mul_le_mul_of_nonpos_left (hx x h) hq.le
    · rw [div_le_iff₀ hq]
      exact hup q _ fun x h => by rw [mul_comm up]; exact mul_le_mul_of_nonneg_left (hx x h) hq.le
  · intro q hq lo h
    have hx : ∀ x ∈ xs, lo ≤ Real.logb 2 |x| := fun x hx => h x (he.mem' hx)
    rcases lt_or_gt_of_ne hq with hq | hq
    · rw [le_div_iff_of_neg hq]
      exact hup q _ fun x h => by rw [mul_comm lo]; exact mul_le_mul_of_nonpos_left (hx x h) hq.le
    · rw [le_div_iff₀ hq]
      exact hlo q _ fun x h => by rw [mul_comm lo]; exact mul_le_mul_of_nonneg_left (hx x h) hq.le

open Filter Topology in
/-- C92: the minimal regularity returned by `estimate_hmin` is the limit of zeta(q)/q and of h(q) as q goes to +∞, for the
same data, scale range and weights, in each realisation. -/
theorem C92_hmin_is_limit (hm : Regular m J) (hd : NonzeroData m) (h1 : 1 ≤ j1) (h12 : j1 < j2) (h2 : j2 ≤ J)
    (weighted warn : Bool) : ∀ r : Fin R, ∃ (ζ h : ℝ → ℝ) (hmin : ℝ),
      (∀ q : List ℝ, (2:ℝ) ∈ q → ∃ s p, StructFn.make m (.ndarray q) j1 j2 weighted = .ok s ∧
        Spectrum.make m j1 j2 weighted (.ndarray q) = .ok p ∧
        ∀ (i : ℕ) (hi : i < q.length), ∃ z hq : Row R, s.zeta[i]? = some z ∧ p.hq[i]? = some hq ∧
          z r = Fl.fin (ζ q[i]) ∧ hq r = Fl.fin (h q[i])) ∧
      (∃ e, estimateHmin m j1 j2 weighted warn = .ok e ∧ e.hmin r = Fl.fin hmin) ∧
      Tendsto (fun q => ζ q / q) atTop (𝓝 hmin) ∧ Tendsto h atTop (𝓝 hmin) := by
  intro r
  obtain ⟨v, hv⟩ := slope_linear hm h1 h12 h2 hd weighted r
  choose! X hXne hX0 hXE using fun (p : ℤ × Arr R) (hp : p ∈ m.values) => hd.entries hp r
  choose! M hMe hMm hMle using fun (p : ℤ × Arr R) (hp : p ∈ m.values) =>
    col_sup (hXE p hp) (hXne p hp) (hX0 p hp)
  have hmem : ∀ i : Fin (subR m j1 j2).length, (subR m j1 j2)[i] ∈ m.values := fun i => sub_mem (List.getElem_mem _)
  have hrow : ∀ p ∈ m.values, p.2 ≠ [] := by
    intro p hp hnil
    obtain ⟨x, hx, _⟩ := (hd p hp r).1
    rw [hnil] at hx; cases hx
  have htop : ∀ a : ℝ, Tendsto (fun q : ℝ => a / q) atTop (𝓝 0) := fun a => tendsto_const_nhds.div_atTop tendsto_id
  have hlim : ∀ p ∈ m.values, Tendsto (fun q => empCGF (lgs (X p)) q / Real.log 2 / q) atTop
      (𝓝 (Real.logb 2 (M p))) := by
    intro p hp
    have hA : Tendsto (fun q : ℝ => Real.logb 2 (M p) - Real.logb 2 (X p).length / q) atTop
        (𝓝 (Real.logb 2 (M p))) := by
      simpa using (tendsto_const_nhds (x := Real.logb 2 (M p))).sub (htop (Real.logb 2 (X p).length))
    refine tendsto_of_tendsto_of_tendsto_of_le_of_le' hA tendsto_const_nhds ?_ ?_
    · filter_upwards [eventually_gt_atTop 0] with q hq
      exact (cgf_bounds (hXne p hp) (hX0 p hp) (hMm p hp) (hMle p hp) hq).1
    · filter_upwards [eventually_gt_atTop 0] with q hq
      exact (cgf_bounds (hXne p hp) (hX0 p hp) (hMm p hp) (hMle p hp) hq).2
  have hlim' : ∀ p ∈ m.values, Tendsto (fun q => deriv (empCGF (lgs (X p))) q / Real.log 2) atTop
      (𝓝 (Real.logb 2 (M p))) := by
    intro p hp
    have hcv := cgf_convex (hXne p hp) (hX0 p hp)
    have hsm := (empCGF_contDiff (lgs (X p)) (lgs_ne (hXne p hp))).div_const (Real.log 2)
    refine tendsto_of_tendsto_of_tendsto_of_le_of_le' (hlim p hp) tendsto_const_nhds ?_ ?_
    · filter_upwards [eventually_gt_atTop 0] with q hq
      have := hcv.slope_le_deriv (Set.mem_univ 0) (Set.mem_univ q) hq
        (hsm.differentiable (by simp)).differentiableAt
      rw [slope_def_field] at this
      have e : deriv (fun q => empCGF (lgs (X p)) q / Real.log 2) q = deriv (empCGF (lgs (X p))) q / Real.log 2 :=
        deriv_div_const ..
      rw [e] at this
      simpa [cgf_zero (hXne p hp)] using this
    · filter_upwards with q
      rw [deriv_cgf (hXne p hp) (hX0 p hp)]
      obtain ⟨x0, hx0⟩ := List.exists_mem_of_ne_nil _ (hXne p hp)
      have hex : ∃ x ∈ X p, x ≠ 0 := ⟨x0, hx0, hX0 p hp x0 hx0⟩
      have hS := powSum_pos q hex
      have : ((X p).map fun x => |x| ^ q / powSum (X p) q * Real.logb 2 |x|).sum
          ≤ ((X p).map fun x => |x| ^ q / powSum (X p) q * Real.logb 2 (M p)).sum := by
        apply List.sum_le_sum
        intro x hx
        apply mul_le_mul_of_nonneg_left _ (div_nonneg (Real.rpow_nonneg (abs_nonneg x) _) hS.le)
        exact Real.logb_le_logb_of_le one_lt_two (abs_pos.mpr (hX0 p hp x hx)) (hMle p hp x hx)
      refine this.trans ?_
      have hp1 : ((X p).map fun x => |x| ^ q / powSum (X p) q).sum = 1 := probSum (e := .real q) hex
      rw [List.sum_map_mul_right, hp1, one_mul]
  refine ⟨fun q => ∑ i, v i * (empCGF (lgs (X (subR m j1 j2)[i])) q / Real.log 2),
    fun q => ∑ i, v i * (deriv (empCGF (lgs (X (subR m j1 j2)[i]))) q / Real.log 2),
    ∑ i, v i * Real.logb 2 (M (subR m j1 j2)[i]), fun q hq => ?_, ?_, ?_, ?_⟩
  · have hqn : (QArg.ndarray q).expos ≠ [] := by
      simp only [QArg.expos, ne_eq, List.map_eq_nil_iff]; rintro rfl; cases hq
    refine ⟨_, _, hm.structFn h1 h12.le h2 weighted q hq, hm.spectrum h1 h12.le h2 weighted _ hqn, fun i hi => ?_⟩
    refine ⟨zetaF m j1 j2 weighted (.real q[i]), vF m j1 j2 weighted (.real q[i]),
      by simp [List.getElem?_eq_getElem hi], by simp [QArg.expos, List.getElem?_eq_getElem hi], ?_, ?_⟩
    · rw [← hv fun p => empCGF (lgs (X p)) q[i] / Real.log 2]
      apply slopeL_congr (fun _ _ => rfl) (fun _ _ => rfl)
      intro p hp
      have hpm := sub_mem hp
      show (nanmean (col (mapArr _ (mapArr Fl.abs _)) r)).log2 = _
      rw [col_mapArr, col_mapArr, col_log2S (hXE p hpm) (hXne p hpm) (hX0 p hpm)]
    · rw [← hv fun p => deriv (empCGF (lgs (X p))) q[i] / Real.log 2]
      apply slopeL_congr (fun _ _ => rfl) (fun _ _ => rfl)
      intro p hp
      have hpm := sub_mem hp
      exact col_V (hXE p hpm) (hXne p hpm) (hX0 p hpm) _
  · refine ⟨_, hm.hmin h1 h12.le h2 weighted warn hrow, ?_⟩
    show hminF m j1 j2 weighted r = _
    rw [← hv fun p => Real.logb 2 (M p)]
    apply slopeL_congr (fun _ _ => rfl) (fun _ _ => rfl)
    intro p hp
    exact hMe p (sub_mem hp)
  · have : (fun q : ℝ => (∑ i, v i * (empCGF (lgs (X (subR m j1 j2)[i])) q / Real.log 2)) / q)
        = fun q => ∑ i, v i * (empCGF (lgs (X (subR m j1 j2)[i])) q / Real.log 2 / q) := by
      funext q; rw [Finset.sum_div]
      apply Finset.sum_congr rfl; intro i _; rw [mul_div_assoc]
    rw [this]
    exact tendsto_finsetSum _ fun i _ => (hlim _ (hmem i)).const_mul _
  · exact tendsto_finsetSum _ fun i _ => (hlim' _ (hmem i)).const_mul _

example : Regular demo 2 ∧ NonzeroData demo := ⟨demo_regular, demo_nonzero⟩

end

end MFA
