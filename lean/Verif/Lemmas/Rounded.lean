import Verif.Model.Rounded
import Verif.Lemmas.Closed
import Verif.Model.Psd
import Mathlib.Analysis.SpecialFunctions.Pow.Continuity
import Mathlib.Topology.Algebra.Order.Field

/-! Convergence of rounded computations to the exact ones when the unit roundoff tends to 0. -/

namespace MFA

open Filter Topology

noncomputable section

/-- Machines of vanishing relative error. -/
def Lmach : Filter Machine := comap Machine.u (𝓝 0)

theorem tendsto_u : Tendsto Machine.u Lmach (𝓝 0) := tendsto_comap

/-- The computed value is a number that tends to `a`. -/
def CvTo (f : Machine → Fl) (a : ℝ) : Prop := ∃ g : Machine → ℝ, (∀ᶠ M in Lmach, f M = Fl.fin (g M)) ∧ Tendsto g Lmach (𝓝 a)

theorem CvTo.const (a : ℝ) : CvTo (fun _ => Fl.fin a) a := ⟨fun _ => a, Eventually.of_forall fun _ => rfl, tendsto_const_nhds⟩

theorem CvTo.congr {f f' : Machine → Fl} {a : ℝ} (h : CvTo f a) (e : ∀ᶠ M in Lmach, f' M = f M) : CvTo f' a := by
  obtain ⟨g, h1, h2⟩ := h
  refine ⟨g, ?_, h2⟩
  filter_upwards [h1, e] with M a b
  rw [b, a]

theorem CvTo.round {f h : Machine → Fl} {a : ℝ} (hf : CvTo f a) (hr : ∀ᶠ M in Lmach, Rounds M.u (f M) (h M)) : CvTo h a := by
  obtain ⟨g, h1, h2⟩ := hf
  have key : ∀ᶠ M in Lmach, ∃ y, h M = Fl.fin y ∧ |y - g M| ≤ M.u * |g M| := by
    filter_upwards [h1, hr] with M e r
    rcases r with ⟨x, y, e1, e2, e3⟩ | ⟨e1, -⟩
    · rw [e] at e1
      rw [(Fl.fin_inj _ _).1 e1]
      exact ⟨y, e2, e3⟩
    · exact absurd e (e1 _)
  classical
  refine ⟨fun M => if hy : ∃ y, h M = Fl.fin y ∧ |y - g M| ≤ M.u * |g M| then hy.choose else 0, ?_, ?_⟩
  · filter_upwards [key] with M hM
    rw [dif_pos hM]
    exact hM.choose_spec.1
  · have hd : Tendsto (fun M => (if hy : ∃ y, h M = Fl.fin y ∧ |y - g M| ≤ M.u * |g M| then hy.choose else 0) - g M) Lmach (𝓝 0) := by
      refine squeeze_zero_norm' (a := fun M => M.u * |g M|) ?_ ?_
      · filter_upwards [key] with M hM
        rw [dif_pos hM]
        exact hM.choose_spec.2
      · have := tendsto_u.mul h2.abs
        rwa [zero_mul] at this
    have := hd.add h2
    simpa using this

theorem CvTo.map2 {f f' : Machine → Fl} {a b : ℝ} (hf : CvTo f a) (hf' : CvTo f' b) {op : Fl → Fl → Fl} {φ : ℝ × ℝ → ℝ}
    (hop : ∀ᶠ z in 𝓝 (a, b), op (Fl.fin z.1) (Fl.fin z.2) = Fl.fin (φ z)) (hc : ContinuousAt φ (a, b)) :
    CvTo (fun M => op (f M) (f' M)) (φ (a, b)) := by
  obtain ⟨g, h1, h2⟩ := hf
  obtain ⟨g', h1', h2'⟩ := hf'
  have ht : Tendsto (fun M => (g M, g' M)) Lmach (𝓝 (a, b)) := h2.prodMk_nhds h2'
  refine ⟨fun M => φ (g M, g' M), ?_, hc.tendsto.comp ht⟩
  filter_upwards [h1, h1', ht.eventually hop] with M e1 e2 e3
  rw [e1, e2, e3]

theorem CvTo.map1 {f : Machine → Fl} {a : ℝ} (hf : CvTo f a) {op : Fl → Fl} {φ : ℝ → ℝ}
    (hop : ∀ᶠ z in 𝓝 a, op (Fl.fin z) = Fl.fin (φ z)) (hc : ContinuousAt φ a) :
    CvTo (fun M => op (f M)) (φ a) := by
  obtain ⟨g, h1, h2⟩ := hf
  refine ⟨fun M => φ (g M), ?_, hc.tendsto.comp h2⟩
  filter_upwards [h1, h2.eventually hop] with M e1 e3
  rw [e1, e3]

variable {f f' : Machine → Fl} {a b : ℝ}

theorem CvTo.addE (hf : CvTo f a) (hf' : CvTo f' b) : CvTo (fun M => f M + f' M) (a + b) :=
  hf.map2 hf' (op := (· + ·)) (φ := fun z => z.1 + z.2) (Eventually.of_forall fun _ => rfl) (by fun_prop)

theorem CvTo.add (hf : CvTo f a) (hf' : CvTo f' b) : CvTo (fun M => M.add (f M) (f' M)) (a + b) :=
  (hf.addE hf').round (Eventually.of_forall fun M => M.add_ok _ _)

theorem CvTo.sub (hf : CvTo f a) (hf' : CvTo f' b) : CvTo (fun M => M.sub (f M) (f' M)) (a - b) :=
  (hf.map2 hf' (op := (· - ·)) (φ := fun z => z.1 - z.2) (Eventually.of_forall fun _ => Fl.fin_sub _ _)
    (by fun_prop)).round (Eventually.of_forall fun M => M.sub_ok _ _)

theorem CvTo.mul (hf : CvTo f a) (hf' : CvTo f' b) : CvTo (fun M => M.mul (f M) (f' M)) (a * b) :=
  (hf.map2 hf' (op := (· * ·)) (φ := fun z => z.1 * z.2) (Eventually.of_forall fun _ => Fl.fin_mul _ _)
    (by fun_prop)).round (Eventually.of_forall fun M => M.mul_ok _ _)

theorem CvTo.div (hf : CvTo f a) (hf' : CvTo f' b) (hb : b ≠ 0) : CvTo (fun M => M.div (f M) (f' M)) (a / b) := by
  refine (hf.map2 hf' (op := (· / ·)) (φ := fun z => z.1 / z.2) ?_ ?_).round (Eventually.of_forall fun M => M.div_ok _ _)
  · have : ∀ᶠ z : ℝ × ℝ in 𝓝 (a, b), z.2 ≠ 0 := continuous_snd.continuousAt.eventually_ne hb
    filter_upwards [this] with z hz
    exact Fl.fin_div hz
  · exact ContinuousAt.div continuousAt_fst continuousAt_snd hb

theorem CvTo.log2 (hf : CvTo f a) (ha : 0 < a) : CvTo (fun M => M.log2 (f M)) (Real.logb 2 a) := by
  refine (hf.map1 (op := Fl.log2) (φ := Real.logb 2) ?_ ?_).round (Eventually.of_forall fun M => M.log2_ok _)
  · filter_upwards [lt_mem_nhds ha] with z hz
    simp only [Fl.log2, Fl.logOf, if_pos hz]
  · exact (Real.continuousAt_log ha.ne').div_const _

theorem CvTo.ln (hf : CvTo f a) (ha : 0 < a) : CvTo (fun M => M.ln (f M)) (Real.log a) := by
  refine (hf.map1 (op := Fl.ln) (φ := Real.log) ?_ ?_).round (Eventually.of_forall fun M => M.ln_ok _)
  · filter_upwards [lt_mem_nhds ha] with z hz
    simp only [Fl.ln, Fl.logOf, if_pos hz]
  · exact Real.continuousAt_log ha.ne'

theorem CvTo.exp (hf : CvTo f a) : CvTo (fun M => M.exp (f M)) (Real.exp a) :=
  (hf.map1 (op := Fl.exp) (φ := Real.exp) (Eventually.of_forall fun _ => rfl) Real.continuous_exp.continuousAt).round
    (Eventually.of_forall fun M => M.exp_ok _)

theorem CvTo.exp2 (hf : CvTo f a) : CvTo (fun M => M.exp2 (f M)) ((2:ℝ) ^ a) :=
  (hf.map1 (op := Fl.exp2) (φ := fun x => (2:ℝ) ^ x) (Eventually.of_forall fun _ => rfl)
    (Real.continuousAt_const_rpow two_ne_zero)).round (Eventually.of_forall fun M => M.exp2_ok _)

theorem CvTo.sqrt (hf : CvTo f a) (ha : 0 < a) : CvTo (fun M => M.sqrt (f M)) (Real.sqrt a) := by
  refine (hf.map1 (op := Fl.sqrt) (φ := Real.sqrt) ?_ Real.continuous_sqrt.continuousAt).round (Eventually.of_forall fun M => M.sqrt_ok _)
  filter_upwards [lt_mem_nhds ha] with z hz
  simp only [Fl.sqrt, if_pos hz.le]

theorem CvTo.pow (hf : CvTo f a) (ha : 0 < a) (e : ℝ) : CvTo (fun M => M.pow (f M) e) (a ^ e) := by
  refine (hf.map1 (op := fun x => Fl.pow x e) (φ := fun x => x ^ e) ?_ ?_).round (Eventually.of_forall fun M => M.pow_ok _ _)
  · filter_upwards [lt_mem_nhds ha] with z hz
    by_cases he : e = 0
    · simp [Fl.pow, he]
    · simp only [Fl.pow, if_neg he, if_neg hz.ne', if_pos (Or.inl hz : 0 < z ∨ ∃ n : ℤ, e = n)]
  · exact Real.continuousAt_rpow_const _ _ (Or.inl ha.ne')

theorem pow_natCast (x : ℝ) (k : ℕ) : Fl.pow (Fl.fin x) (k : ℝ) = Fl.fin (x ^ k) := by
  rcases Nat.eq_zero_or_pos k with rfl | hk
  · simp [Fl.pow]
  · have hk' : ((k : ℕ) : ℝ) ≠ 0 := by exact_mod_cast hk.ne'
    simp only [Fl.pow, if_neg hk']
    by_cases hx : x = 0
    · rw [if_pos hx, if_pos (by exact_mod_cast hk), hx, zero_pow hk.ne']
    · rw [if_neg hx, if_pos (Or.inr ⟨(k : ℤ), by simp⟩), Real.rpow_natCast]

theorem CvTo.powNat (hf : CvTo f a) (k : ℕ) : CvTo (fun M => M.pow (f M) (k : ℝ)) (a ^ k) :=
  (hf.map1 (op := fun x => Fl.pow x (k : ℝ)) (φ := fun x => x ^ k) (Eventually.of_forall fun z => pow_natCast z k)
    (by fun_prop)).round (Eventually.of_forall fun M => M.pow_ok _ _)

theorem CvTo.abs (hf : CvTo f a) : CvTo (fun M => (f M).abs) |a| :=
  hf.map1 (op := Fl.abs) (φ := fun x => |x|) (Eventually.of_forall fun _ => rfl) (by fun_prop)

theorem CvTo.max (hf : CvTo f a) (hf' : CvTo f' b) : CvTo (fun M => Fl.max (f M) (f' M)) (max a b) :=
  hf.map2 hf' (op := Fl.max) (φ := fun z => Max.max z.1 z.2) (Eventually.of_forall fun _ => rfl) (by fun_prop)

/-! ### Sums -/

theorem Rounds.nan {u : ℝ} {b : Fl} (h : Rounds u Fl.nan b) : b = Fl.nan := by
  rcases h with ⟨x, y, e, -⟩ | ⟨-, e⟩
  · exact absurd e (by simp)
  · exact e

theorem abs_sum_le_map (xs : List ℝ) : |xs.sum| ≤ (xs.map fun x => |x|).sum := by
  induction xs with
  | nil => simp
  | cons a l ih =>
    rw [List.sum_cons, List.map_cons, List.sum_cons]
    exact (abs_add_le _ _).trans (by linarith)

/-- Error of a sum in any order. -/
theorem IsSum.bound {M : Machine} {l : List Fl} {s : Fl} (h : IsSum M.add l s) :
    ∀ xs : List ℝ, l = xs.map Fl.fin → ∃ t : ℝ, s = Fl.fin t ∧
      |t - xs.sum| ≤ ((1 + M.u) ^ l.length - 1) * (xs.map fun x => |x|).sum := by
  induction h with
  | nil =>
    intro xs hx
    have : xs = [] := by simpa using hx.symm
    subst this
    exact ⟨0, rfl, by simp⟩
  | one x =>
    intro xs hx
    match xs, hx with
    | [y], hx =>
      simp only [List.map_cons, List.map_nil, List.cons.injEq, and_true] at hx
      refine ⟨y, hx, ?_⟩
      have := mul_nonneg M.u_nonneg (abs_nonneg y)
      simpa using this
  | @append l l' s s' hl hl' _ _ ih ih' =>
    intro xs hx
    obtain ⟨xs1, xs2, rfl, h1, h2⟩ : ∃ xs1 xs2, xs = xs1 ++ xs2 ∧ l = xs1.map Fl.fin ∧ l' = xs2.map Fl.fin := by
      obtain ⟨a, b, e1, e2, e3⟩ := List.map_eq_append_iff.1 hx.symm
      exact ⟨a, b, e1, e2.symm, e3.symm⟩
    obtain ⟨t, ht, hb⟩ := ih xs1 h1
    obtain ⟨t', ht', hb'⟩ := ih' xs2 h2
    have ex : s + s' = Fl.fin (t + t') := by rw [ht, ht', Fl.fin_add]
    have hu := M.u_nonneg
    rcases M.add_ok s s' with ⟨x, y, e1, e2, e3⟩ | ⟨e1, -⟩
    · rw [ex] at e1
      have e1 := (Fl.fin_inj _ _).1 e1
      refine ⟨y, e2, ?_⟩
      have p1 : 0 < l.length := List.length_pos_of_ne_nil hl
      have p2 : 0 < l'.length := List.length_pos_of_ne_nil hl'
      obtain ⟨K, hK⟩ : ∃ K, K = (1 + M.u) ^ (l.length + l'.length - 1) := ⟨_, rfl⟩
      have k1 : (1 + M.u) ^ l.length ≤ K := by rw [hK]; exact pow_le_pow_right₀ (by linarith) (by omega)
      have k2 : (1 + M.u) ^ l'.length ≤ K := by rw [hK]; exact pow_le_pow_right₀ (by linarith) (by omega)
      have k3 : (1 + M.u) ^ (l ++ l').length = (1 + M.u) * K := by
        rw [hK, ← pow_succ', List.length_append]; congr 1; omega
      have kk : 1 ≤ K := by rw [hK]; exact one_le_pow₀ (by linarith)
      have A1 : 0 ≤ (xs1.map fun x => |x|).sum := List.sum_nonneg (by simp)
      have A2 : 0 ≤ (xs2.map fun x => |x|).sum := List.sum_nonneg (by simp)
      have s1 := abs_sum_le_map xs1
      have s2 := abs_sum_le_map xs2
      rw [k3, List.sum_append, List.map_append, List.sum_append]
      rw [← e1] at e3
      have b1 : |t - xs1.sum| ≤ (K - 1) * (xs1.map fun x => |x|).sum := hb.trans (mul_le_mul_of_nonneg_right (by linarith) A1)
      have b2 : |t' - xs2.sum| ≤ (K - 1) * (xs2.map fun x => |x|).sum := hb'.trans (mul_le_mul_of_nonneg_right (by linarith) A2)
      have c1 : |t| ≤ K * (xs1.map fun x => |x|).sum := by
        have := abs_sub_abs_le_abs_sub t xs1.sum
        linarith
      have c2 : |t'| ≤ K * (xs2.map fun x => |x|).sum := by
        have := abs_sub_abs_le_abs_sub t' xs2.sum
        linarith
      have d : |y - (xs1.sum + xs2.sum)| ≤ |y - (t + t')| + |t - xs1.sum| + |t' - xs2.sum| := by
        rw [show y - (xs1.sum + xs2.sum) = (y - (t + t')) + (t - xs1.sum) + (t' - xs2.sum) by ring]
        exact abs_add_three _ _ _
      have e4 : M.u * |t + t'| ≤ M.u * (K * (xs1.map fun x => |x|).sum + K * (xs2.map fun x => |x|).sum) :=
        mul_le_mul_of_nonneg_left ((abs_add_le _ _).trans (add_le_add c1 c2)) hu
      nlinarith
    · exact absurd ex (e1 _)
  | @perm l l' s hp _ ih =>
    intro xs hx
    have hmem : ∀ a ∈ l, ∃ x : ℝ, a = Fl.fin x := by
      intro a ha
      have := hp.subset ha
      rw [hx] at this
      obtain ⟨x, -, e⟩ := List.mem_map.1 this
      exact ⟨x, e.symm⟩
    have hl : l = (l.map Fl.toReal).map Fl.fin := by
      rw [List.map_map]
      conv_lhs => rw [← List.map_id l]
      refine List.map_congr_left fun a ha => ?_
      obtain ⟨x, rfl⟩ := hmem a ha
      rfl
    have hp' : (l.map Fl.toReal).Perm xs := by
      have := hp.map Fl.toReal
      rw [hx, List.map_map, show Fl.toReal ∘ Fl.fin = id from rfl, List.map_id] at this
      exact this
    obtain ⟨t, e1, e2⟩ := ih _ hl
    refine ⟨t, e1, ?_⟩
    rwa [hp'.sum_eq, (hp'.map _).sum_eq, hp.length_eq] at e2

theorem CvTo.spec (hf : CvTo f a) : (∀ᶠ M in Lmach, f M = Fl.fin (f M).toReal) ∧ Tendsto (fun M => (f M).toReal) Lmach (𝓝 a) := by
  obtain ⟨g, h1, h2⟩ := hf
  have e : ∀ᶠ M in Lmach, (f M).toReal = g M := by
    filter_upwards [h1] with M h
    rw [h]; rfl
  refine ⟨?_, h2.congr' (e.mono fun M h => h.symm)⟩
  filter_upwards [h1] with M h
  rw [h]; rfl

variable {ι : Type}

theorem tendsto_listSum (l : List ι) (G : ι → Machine → ℝ) (A : ι → ℝ) (h : ∀ i ∈ l, Tendsto (G i) Lmach (𝓝 (A i))) :
    Tendsto (fun M => (l.map fun i => G i M).sum) Lmach (𝓝 (l.map A).sum) := by
  induction l with
  | nil => simpa using tendsto_const_nhds
  | cons i l ih =>
    simp only [List.map_cons, List.sum_cons]
    exact (h i (by simp)).add (ih fun k hk => h k (by simp [hk]))

theorem CvTo.sum (l : List ι) (F : ι → Machine → Fl) (A : ι → ℝ) (h : ∀ i ∈ l, CvTo (F i) (A i)) :
    CvTo (fun M => M.sum (l.map fun i => F i M)) (l.map A).sum := by
  have e1 : ∀ᶠ M in Lmach, ∀ i ∈ {i | i ∈ l}, F i M = Fl.fin (F i M).toReal := by
    rw [eventually_all_finite (List.finite_toSet _)]
    exact fun i hi => (h i hi).spec.1
  have e2 : ∀ᶠ M in Lmach, ∃ t : ℝ, M.sum (l.map fun i => F i M) = Fl.fin t ∧
      |t - (l.map fun i => (F i M).toReal).sum| ≤ ((1 + M.u) ^ l.length - 1) * (l.map fun i => |(F i M).toReal|).sum := by
    filter_upwards [e1] with M hM
    have := (M.sum_ok (l.map fun i => F i M)).bound (l.map fun i => (F i M).toReal) (by
      rw [List.map_map]
      exact List.map_congr_left fun i hi => hM i hi)
    rwa [List.length_map, List.map_map] at this
  have e3 := tendsto_listSum l (fun i M => (F i M).toReal) A fun i hi => (h i hi).spec.2
  have e4 := tendsto_listSum l (fun i M => |(F i M).toReal|) (fun i => |A i|) fun i hi => (h i hi).spec.2.abs
  have e5 : Tendsto (fun M : Machine => ((1 + M.u) ^ l.length - 1) * (l.map fun i => |(F i M).toReal|).sum) Lmach (𝓝 0) := by
    have : Tendsto (fun M : Machine => (1 + M.u) ^ l.length - 1) Lmach (𝓝 ((1 + 0) ^ l.length - 1)) :=
      ((tendsto_const_nhds.add tendsto_u).pow _).sub_const 1
    have := this.mul e4
    simpa using this
  classical
  refine ⟨fun M => (M.sum (l.map fun i => F i M)).toReal, ?_, ?_⟩
  · filter_upwards [e2] with M hM
    obtain ⟨t, ht, -⟩ := hM
    rw [ht]; rfl
  · have hd : Tendsto (fun M => (M.sum (l.map fun i => F i M)).toReal - (l.map fun i => (F i M).toReal).sum) Lmach (𝓝 0) := by
      refine squeeze_zero_norm' ?_ e5
      filter_upwards [e2] with M hM
      obtain ⟨t, ht, hb⟩ := hM
      rw [ht]
      exact hb
    have := hd.add e3
    simpa using this

/-! ### The exact machine -/

theorem Rounds.refl (a : Fl) : Rounds 0 a a := by
  by_cases h : ∃ x, a = Fl.fin x
  · obtain ⟨x, rfl⟩ := h
    exact Or.inl ⟨x, x, rfl, rfl, by simp⟩
  · exact Or.inr ⟨fun x hx => h ⟨x, hx⟩, rfl⟩

theorem isSum_sum : ∀ l : List Fl, IsSum (· + ·) l l.sum
  | [] => IsSum.nil
  | [x] => by
    have : ([x] : List Fl).sum = x := by
      show x + 0 = x
      rw [Fl.add_comm, Fl.zero_add]
    rw [this]
    exact IsSum.one x
  | x :: y :: l => by
    have : (x :: y :: l).sum = x + (y :: l).sum := rfl
    rw [this]
    exact IsSum.append (l := [x]) (by simp) (by simp) (IsSum.one x) (isSum_sum (y :: l))

/-- The machine that computes exactly. -/
def Machine.exact : Machine where
  u := 0
  u_nonneg := le_rfl
  add := (· + ·)
  sub := (· - ·)
  mul := (· * ·)
  div := (· / ·)
  pow := Fl.pow
  sqrt := Fl.sqrt
  log2 := Fl.log2
  ln := Fl.ln
  exp := Fl.exp
  exp2 := Fl.exp2
  sum := List.sum
  add_ok _ _ := Rounds.refl _
  sub_ok _ _ := Rounds.refl _
  mul_ok _ _ := Rounds.refl _
  div_ok _ _ := Rounds.refl _
  pow_ok _ _ := Rounds.refl _
  sqrt_ok _ := Rounds.refl _
  log2_ok _ := Rounds.refl _
  ln_ok _ := Rounds.refl _
  exp_ok _ := Rounds.refl _
  exp2_ok _ := Rounds.refl _
  sum_ok := isSum_sum

theorem pure_le_Lmach : pure Machine.exact ≤ Lmach := by
  unfold Lmach
  rw [← map_le_iff_le_comap, map_pure]
  exact pure_le_nhds (0:ℝ)

theorem CvTo.exact (hf : CvTo f a) : f Machine.exact = Fl.fin a := by
  obtain ⟨g, h1, h2⟩ := hf
  have e1 : f Machine.exact = Fl.fin (g Machine.exact) := by
    have := pure_le_Lmach h1
    exact this
  have e2 : g Machine.exact = a := tendsto_nhds_unique (tendsto_pure_nhds g Machine.exact) (h2.mono_left pure_le_Lmach)
  rw [e1, e2]

namespace Machine

theorem exact_fastPower : exact.fastPower = MFA.fastPower := rfl

theorem sum_nan0 : ∀ l : List Fl, (l.map fun x => if x.isNaN then Fl.fin 0 else x).sum = (dropNaN l).sum
  | [] => rfl
  | x :: l => by
    rw [List.map_cons, List.sum_cons, sum_nan0 l]
    cases hx : x.isNaN with
    | true =>
      have : dropNaN (x :: l) = dropNaN l := by simp [dropNaN, hx]
      rw [this]
      exact Fl.zero_add _
    | false =>
      have : dropNaN (x :: l) = x :: dropNaN l := by simp [dropNaN, hx]
      rw [this, List.sum_cons]
      rfl

theorem exact_nansum : exact.nansum = MFA.nansum := by
  funext l
  exact sum_nan0 l

theorem exact_nanmean : exact.nanmean = MFA.nanmean := by
  funext l
  show exact.nansum l / _ = _
  rw [exact_nansum]
  rfl

theorem exact_fixedNanSum : exact.fixedNanSum = MFA.fixedNanSum := by
  funext l
  simp only [fixedNanSum, MFA.fixedNanSum, exact_nansum]

theorem exact_dotB : exact.dotB = MFA.dotB := by
  funext w y
  rcases w with _ | ⟨a, _ | ⟨b, w⟩⟩ <;> rcases y with _ | ⟨c, _ | ⟨d, y⟩⟩ <;> rfl

theorem exact_linearRegression {R : ℕ} : @linearRegression exact R = @MFA.linearRegression R := by
  funext x y nj
  unfold linearRegression MFA.linearRegression
  rw [exact_dotB]
  rfl

theorem exact_structFn {R : ℕ} : @structFn exact R = @StructFn.make R := by
  funext m q j1 j2 weighted
  unfold structFn StructFn.make sfRegressions MFA.sfRegressions sfLogValues MFA.sfLogValues sfMean MFA.sfMean
  rw [exact_linearRegression, exact_nanmean]
  rfl

theorem exact_cumulants {R : ℕ} : @cumulants exact R = @Cumulants.make R := by
  funext m n j1 j2 weighted
  unfold cumulants Cumulants.make
  have e : exact.cmValues m n = MFA.cmValues m n := by
    unfold cmValues MFA.cmValues cmColumn MFA.cmColumn cmStep MFA.cmStep cmMoment MFA.cmMoment
    rw [exact_nanmean]
    rfl
  rw [exact_linearRegression, e]
  have e1 : exact.log2e = Fl.fin MFA.log2e := by
    show Fl.log2 (Fl.fin (Real.exp 1)) = _
    simp only [Fl.log2, Fl.logOf, if_pos (Real.exp_pos 1)]
    rfl
  have e2 : exact.pow (Fl.fin MFA.log2e) 2 = Fl.fin (MFA.log2e ^ 2) := by
    have := pow_natCast MFA.log2e 2
    rwa [Nat.cast_ofNat] at this
  rw [e1, e2]
  rfl

theorem exact_spectrum {R : ℕ} : @spectrum exact R = @Spectrum.make R := by
  funext m j1 j2 weighted q
  unfold spectrum Spectrum.make msUV MFA.msUV msU MFA.msU msV MFA.msV msR MFA.msR
  rw [exact_linearRegression, exact_nansum, exact_fixedNanSum]
  rfl

theorem exact_estimateHmin {R : ℕ} : @estimateHmin exact R = @MFA.estimateHmin R := by
  funext m j1 j2 weighted warn
  unfold estimateHmin MFA.estimateHmin
  rw [exact_linearRegression]
  rfl

/-- On the machine that computes exactly, the rounded model is the model. -/
theorem exact_mfVar {R : ℕ} : @mfVar exact R = @MFA.mfVar R := by
  funext m j1 j2 weighted n q
  unfold mfVar MFA.mfVar
  rw [exact_structFn, exact_cumulants, exact_spectrum, exact_estimateHmin]
  rfl

end Machine

end

end MFA
