import Verif.Props.RoundingPLeaders
import Verif.Props.EndToEnd

/-! C123: machines without errors, estimators on a given quantity, and instances. -/

namespace MFA

open Filter Topology Classical

noncomputable section

variable {R : ℕ}

theorem Rounds.eq_of_zero {a b : Fl} (h : Rounds 0 a b) : b = a := by
  rcases h with ⟨x, y, rfl, rfl, hxy⟩ | ⟨-, h⟩
  · rw [zero_mul] at hxy
    rw [sub_eq_zero.1 (abs_nonpos_iff.1 hxy)]
  · exact h

theorem IsSum.eq_sum {l : List Fl} {s : Fl} (h : IsSum (· + ·) l s) : s = l.sum := by
  induction h with
  | nil => rfl
  | one x => simp
  | append _ _ _ _ h1 h2 => rw [h1, h2, List.sum_append]
  | perm p _ h => rw [h, p.sum_eq]

theorem Machine.eq_exact (M : Machine) (hu : M.u = 0) : M = Machine.exact := by
  obtain ⟨u, u0, add, sub, mul, div, pow, sqrt, log2, ln, exp, exp2, sum, a1, a2, a3, a4, a5, a6, a7, a8, a9, a10, a11⟩ := M
  dsimp only at hu
  subst hu
  obtain rfl : add = (· + ·) := by funext a b; exact (a1 a b).eq_of_zero
  obtain rfl : sub = (· - ·) := by funext a b; exact (a2 a b).eq_of_zero
  obtain rfl : mul = (· * ·) := by funext a b; exact (a3 a b).eq_of_zero
  obtain rfl : div = (· / ·) := by funext a b; exact (a4 a b).eq_of_zero
  obtain rfl : pow = Fl.pow := by funext a b; exact (a5 a b).eq_of_zero
  obtain rfl : sqrt = Fl.sqrt := by funext a; exact (a6 a).eq_of_zero
  obtain rfl : log2 = Fl.log2 := by funext a; exact (a7 a).eq_of_zero
  obtain rfl : ln = Fl.ln := by funext a; exact (a8 a).eq_of_zero
  obtain rfl : exp = Fl.exp := by funext a; exact (a9 a).eq_of_zero
  obtain rfl : exp2 = Fl.exp2 := by funext a; exact (a10 a).eq_of_zero
  obtain rfl : sum = List.sum := by funext l; exact (a11 l).eq_sum
  rfl

/-- C123: on a machine without rounding errors, whatever the order in which it adds numbers up, `mf_analysis_full` is the function that the other properties
are about, for all arguments (including those for which an exception is raised). -/
theorem C123_exact (M : Machine) (hu : M.u = 0) (sig : Arr R) (j1 : ℤ) (j2 : Option ℝ) (nm g : ℝ) (weighted : Bool) (wt : Wavelet) (p : PExp)
    (q : Option QArg) (n : ℕ) : M.mfAnalysisFull sig j1 j2 nm g weighted wt p q n = mfAnalysisFull sig j1 j2 nm g weighted wt p q n := by
  rw [M.eq_exact hu, Machine.exact_mfAnalysisFull]

/-- A given quantity, the same on all machines. -/
def FMrq.const (m : MRQ R) : FMrq R where
  formalism := m.formalism
  gamint := m.gamint
  base := m.values.map fun p => (p.1, p.2.map fun row r _ => row r)

theorem FMrq.const_at {m : MRQ R} {J : ℕ} (hm : Regular m J) (M : Machine) : (FMrq.const m).at M = m := by
  have e : ∀ a : Arr R, FArr.at (a.map fun row r (_ : Machine) => row r) M = a := by
    intro a
    unfold FArr.at
    rw [List.map_map]
    exact List.map_id _
  obtain ⟨f, g, v, nj⟩ := m
  obtain ⟨-, h⟩ := hm
  dsimp only at h
  subst h
  simp only [FMrq.const, FMrq.at, List.map_map, Function.comp_def, e]
  simp

/-- **C123 for a given multiresolution quantity**: the four estimators on a regular quantity whose entries are NaN or non-zero numbers (at least one number at
every scale in every realisation), over at least two scales.  For every `ε` there is `u0 > 0` such that on every machine with relative errors of at most `u0`
the estimators return, and all the estimates are within `ε` of the exact ones. -/
theorem C123_estimators {m : MRQ R} {J : ℕ} (hm : Regular m J) (hrow : ∀ p ∈ m.values, p.2 ≠ []) (h0 : NonzeroData m) {j1 j2 : ℕ} (h1 : 1 ≤ j1) (h12 : j1 < j2)
    (h2 : j2 ≤ J) (weighted : Bool) {q : List ℝ} (hq : (2:ℝ) ∈ q) (n : ℕ) :
    ∃ v, mfVar m j1 j2 weighted n q = .ok v ∧ ∀ ε : ℝ, 0 < ε → ∃ u0 : ℝ, 0 < u0 ∧ ∀ M : Machine, M.u ≤ u0 →
      ∃ v', M.mfVar m j1 j2 weighted n q = .ok v' ∧ ∀ r, EstimatesClose ε q.length n r v v' := by
  have hg : (FMrq.const m).Good J := by
    refine ⟨?_, ?_, ?_, ?_⟩
    · rw [← hm.1]
      simp [FMrq.const, Function.comp_def]
    · intro p hp row hrow r
      obtain ⟨p0, hp0, rfl⟩ := List.mem_map.1 hp
      obtain ⟨row0, hr0, rfl⟩ := List.mem_map.1 hrow
      rcases (h0 p0 hp0 r).2 (row0 r) (List.mem_map.2 ⟨row0, hr0, rfl⟩) with e | ⟨t, -, e⟩
      · exact Or.inl fun _ => e
      · refine Or.inr ⟨fun _ => ⟨t, e⟩, t, (CvTo.const t).congr (Eventually.of_forall fun _ => e)⟩
    · intro p hp he
      obtain ⟨p0, hp0, rfl⟩ := List.mem_map.1 hp
      exact hrow p0 hp0 (List.map_eq_nil_iff.1 he)
    · rw [FMrq.const_at hm]; exact h0
  obtain ⟨v, hv, hc⟩ := hg.estimates h1 h12 h2 weighted hq n
  simp only [FMrq.const_at hm] at hv hc
  exact ⟨v, (mfVar_ok_iff _ _ _ _ _ _ _).2 hv, fun ε hε => eventually_machine (hc ε hε)⟩

/-! ### Instances -/

/-- Every finite result is too large by a factor `1 + u`. -/
def inflate (u : ℝ) : Fl → Fl := fun a => if ∃ x, a = Fl.fin x then a * Fl.fin (1 + u) else a

theorem inflate_ok {u : ℝ} (hu : 0 ≤ u) (a : Fl) : Rounds u a (inflate u a) := by
  unfold inflate
  split_ifs with h
  · obtain ⟨x, rfl⟩ := h
    refine Or.inl ⟨x, x * (1 + u), rfl, by rw [Fl.fin_mul], ?_⟩
    rw [show x * (1 + u) - x = u * x by ring, abs_mul, abs_of_nonneg hu]
  · exact Or.inr ⟨fun x hx => h ⟨x, hx⟩, rfl⟩

/-- The sum computed from the right, with an operation `add`. -/
def sumRight (add : Fl → Fl → Fl) : List Fl → Fl
  | [] => Fl.fin 0
  | [x] => x
  | x :: y :: l => add x (sumRight add (y :: l))

theorem sumRight_ok (add : Fl → Fl → Fl) : ∀ l, IsSum add l (sumRight add l)
  | [] => IsSum.nil
  | [x] => IsSum.one x
  | x :: y :: l => IsSum.append (l := [x]) (by simp) (by simp) (IsSum.one x) (sumRight_ok add (y :: l))

/-- There are machines with rounding errors, of every precision: here all finite results are too large by a factor `1 + u`. -/
def Machine.inflating (u : ℝ) (hu : 0 ≤ u) : Machine where
  u := u
  u_nonneg := hu
  add a b := inflate u (a + b)
  sub a b := inflate u (a - b)
  mul a b := inflate u (a * b)
  div a b := inflate u (a / b)
  pow a e := inflate u (Fl.pow a e)
  sqrt a := inflate u (Fl.sqrt a)
  log2 a := inflate u (Fl.log2 a)
  ln a := inflate u (Fl.ln a)
  exp a := inflate u (Fl.exp a)
  exp2 a := inflate u (Fl.exp2 a)
  sum := sumRight fun a b => inflate u (a + b)
  add_ok _ _ := inflate_ok hu _
  sub_ok _ _ := inflate_ok hu _
  mul_ok _ _ := inflate_ok hu _
  div_ok _ _ := inflate_ok hu _
  pow_ok _ _ := inflate_ok hu _
  sqrt_ok _ := inflate_ok hu _
  log2_ok _ := inflate_ok hu _
  ln_ok _ := inflate_ok hu _
  exp_ok _ := inflate_ok hu _
  exp2_ok _ := inflate_ok hu _
  sum_ok := sumRight_ok _

/-- This machine does make errors: `1 + 1` is not 2 when `u > 0`. -/
example (u : ℝ) (hu : 0 < u) : (Machine.inflating u hu.le).add (Fl.fin 1) (Fl.fin 1) ≠ Fl.fin 2 := by
  show inflate u (Fl.fin 1 + Fl.fin 1) ≠ Fl.fin 2
  rw [Fl.fin_add, inflate, if_pos ⟨_, rfl⟩, Fl.fin_mul]
  intro h
  have := (Fl.fin_inj _ _).1 h
  nlinarith

/-- A finite signal has no infinities. -/
theorem noInf_sampled {N : ℕ} (x : Fin R → ℤ → ℝ) : NoInf (sampled N x) := by
  intro row hrow r
  unfold sampled at hrow
  obtain ⟨i, -, rfl⟩ := List.mem_map.1 hrow
  exact Or.inr ⟨_, rfl⟩

/-- The hypotheses of `C123_signal` and `C123_pleaders` are met: 64 samples of `3 t + 1`, the Haar filters padded with zeros to length 4, with wavelet leaders
and with p-leaders; no coefficient, no leader and no p-leader is 0. -/
theorem linear_meets : NoInf (sampled 64 fun (_ : Fin 1) t => (Polynomial.C 3 * Polynomial.X + Polynomial.C 1 : Polynomial ℝ).eval (t : ℝ)) ∧
    (∃ w : WT 1, waveletAnalysis (sampled 64 fun (_ : Fin 1) t => (Polynomial.C 3 * Polynomial.X + Polynomial.C 1 : Polynomial ℝ).eval (t : ℝ)) .inf
      { dec_lo := [0, (Real.sqrt 2)⁻¹, (Real.sqrt 2)⁻¹, 0], dec_hi := [0, -(Real.sqrt 2)⁻¹, (Real.sqrt 2)⁻¹, 0] } (1 : ℕ) none 0 1 true = .ok w ∧
      ((1 : ℕ) : ℤ) < w.j2_eff ∧ NoZeros w.wt_coefs ∧ ∃ l, w.wt_leaders = some l ∧ NoZeros l) ∧
    ∃ w : WT 1, waveletAnalysis (sampled 64 fun (_ : Fin 1) t => (Polynomial.C 3 * Polynomial.X + Polynomial.C 1 : Polynomial ℝ).eval (t : ℝ)) (.num (.int 2))
      { dec_lo := [0, (Real.sqrt 2)⁻¹, (Real.sqrt 2)⁻¹, 0], dec_hi := [0, -(Real.sqrt 2)⁻¹, (Real.sqrt 2)⁻¹, 0] } (1 : ℕ) none 0 1 true = .ok w ∧
      ((1 : ℕ) : ℤ) < w.j2_eff ∧ NoZeros w.wt_coefs := by
  obtain ⟨wt, hwt⟩ : ∃ wt : Wavelet, wt = { dec_lo := [0, (Real.sqrt 2)⁻¹, (Real.sqrt 2)⁻¹, 0], dec_hi := [0, -(Real.sqrt 2)⁻¹, (Real.sqrt 2)⁻¹, 0] } :=
    ⟨_, rfl⟩
  rw [← hwt]
  have h : (Real.sqrt 2) ≠ 0 := (Real.sqrt_pos.mpr (by norm_num)).ne'
  have hv : wt.Valid := ⟨by rw [hwt]; rfl, by simp [hwt]⟩
  have hM : ExactMoments wt.dec_hi 1 := by
    constructor
    · intro i hi
      interval_cases i
      simp [hwt, Finset.sum_range_succ]
    · simp [hwt, Finset.sum_range_succ, List.getD]
      rw [show -(Real.sqrt 2)⁻¹ + (Real.sqrt 2)⁻¹ * 2 = (Real.sqrt 2)⁻¹ by ring]
      exact inv_ne_zero h
  have hlo : wt.dec_lo.sum = Real.sqrt 2 := by
    simp only [hwt, List.sum_cons, List.sum_nil, add_zero, zero_add]
    field_simp
    rw [Real.sq_sqrt (by norm_num)]; norm_num
  have hlev : decompositionLevel 64 wt = .ok ((3 : ℕ) : ℤ) :=
    (C01_integer 64 3 _ (by norm_num)).mpr (by simp [hwt])
  have hdeg : ∀ r : Fin 1, (Polynomial.C 3 * Polynomial.X + Polynomial.C 1 : Polynomial ℝ).degree = (1 : ℕ) := fun _ => Polynomial.degree_linear (by norm_num)
  obtain ⟨w, hw⟩ := C05_total (sampled 64 fun (_ : Fin 1) t => (Polynomial.C 3 * Polynomial.X + Polynomial.C 1 : Polynomial ℝ).eval (t : ℝ)) .inf (Or.inr rfl) wt
    (1 : ℕ) none 0 1 true (by norm_num) (by simp [sampled]) (by norm_num)
  have hj : 2 ≤ w.j2_eff := admissible_j2 (j1 := 2) (by norm_num) hv (Or.inr (by simp [hwt])) hlev (by norm_num)
      (by norm_num) (by simp) hw
  obtain ⟨J, Jc, hJc, hj2, hc, -⟩ := C03_regular hw
  obtain ⟨K, hK, hmono⟩ := poly_monofractal hv hM (Real.sqrt_pos.mpr (by norm_num)) hlo hdeg hw
  have h0 := noZeros_of_mono hc hK hmono
  obtain ⟨l, hl, -⟩ := C16_leaders hw
  refine ⟨noInf_sampled _, ⟨w, hw, by push_cast; omega, h0, l, hl, C121_leaders_nonzero hw h0 hl⟩, ?_⟩
  obtain ⟨d, v, hd, -⟩ := ((C77_pleaders hv hM hlo hdeg (q := some (.ndarray [2])) (n := 0) (by simp [normQ]) (by norm_num) (by norm_num) (e := .int 2) (by simp [Expo.val]) hw
    (by norm_num) (by push_cast; omega)).1 (by norm_num)).2
  have hs := hc.structFn (j1 := ((1 : ℕ) : ℤ)) (j2 := w.j2_eff) (by norm_num) (by push_cast; omega) (by rcases hJc with rfl | rfl <;> push_cast <;> omega) true [2] (by simp)
  obtain ⟨z, hz, herr, hok⟩ := (C21_eta_p (e := .int 2) (by simp [Expo.val]) hw).2 _ hs
  by_cases hcase : (∃ r, z r = Fl.nan) ∨ ∀ r, ¬ Fl.le (z r) (Fl.fin 0)
  · obtain ⟨w2, hw2, -, hcoef, hj2e, -⟩ := hok hcase
    exact ⟨w2, hw2, by rw [hj2e]; push_cast; omega, by rw [hcoef]; exact h0⟩
  · push Not at hcase
    exfalso
    have := herr hcase.1 hcase.2
    unfold mfAnalysisFull at hd
    rw [this] at hd
    cases hd

/-- The hypotheses of `C123_estimators` are met by `demo`. -/
example : Regular demo 2 ∧ (∀ p ∈ demo.values, p.2 ≠ []) ∧ NonzeroData demo := ⟨demo_regular, demo_rows, demo_nonzero⟩

end

end MFA
