import Verif.Lemmas.RoundedFamily

/-! Explicit bounds on rounding errors. -/

namespace MFA

open Classical

noncomputable section

variable {ι : Type} {M : Machine}

/-- `(1 + u)^k - 1`, the relative error that `k` roundings can accumulate. -/
def Machine.gam (M : Machine) (k : ℕ) : ℝ := (1 + M.u) ^ k - 1

theorem Machine.gam_nonneg (M : Machine) (k : ℕ) : 0 ≤ M.gam k := by
  have := one_le_pow₀ (n := k) (show (1:ℝ) ≤ 1 + M.u by linarith [M.u_nonneg])
  unfold Machine.gam
  linarith

theorem Machine.gam_mono (M : Machine) {k l : ℕ} (h : k ≤ l) : M.gam k ≤ M.gam l := by
  have := pow_le_pow_right₀ (show (1:ℝ) ≤ 1 + M.u by linarith [M.u_nonneg]) h
  unfold Machine.gam
  linarith

theorem Machine.u_le_gam (M : Machine) {k : ℕ} (h : 1 ≤ k) : M.u ≤ M.gam k := by
  refine le_trans (le_of_eq ?_) (M.gam_mono h)
  unfold Machine.gam
  ring

/-- `(1 + u)^k - 1 ≤ 2 k u` as long as `k u ≤ 1`. -/
theorem Machine.gam_le (M : Machine) {k : ℕ} (h : (k : ℝ) * M.u ≤ 1) : M.gam k ≤ 2 * ((k : ℝ) * M.u) := by
  have h0 : 0 ≤ (k : ℝ) * M.u := mul_nonneg (Nat.cast_nonneg _) M.u_nonneg
  have h1 : (1 + M.u) ^ k ≤ Real.exp ((k : ℝ) * M.u) := by
    rw [Real.exp_nat_mul]
    exact pow_le_pow_left₀ (by linarith [M.u_nonneg]) (by linarith [Real.add_one_le_exp M.u]) k
  have h2 := Real.abs_exp_sub_one_le (show |(k : ℝ) * M.u| ≤ 1 by rw [abs_of_nonneg h0]; exact h)
  rw [abs_of_nonneg h0] at h2
  have := le_abs_self (Real.exp ((k : ℝ) * M.u) - 1)
  unfold Machine.gam
  linarith

/-- `f` is a number computed from quantities of size `A` with `k` roundings, whose exact value is `x`. -/
def Ap (M : Machine) (k : ℕ) (A : ℝ) (f : Fl) (x : ℝ) : Prop := ∃ z : ℝ, f = Fl.fin z ∧ |z - x| ≤ M.gam k * A ∧ |x| ≤ A

theorem Ap.nonneg {k : ℕ} {A : ℝ} {f : Fl} {x : ℝ} (h : Ap M k A f x) : 0 ≤ A := by
  obtain ⟨z, -, -, h⟩ := h
  exact (abs_nonneg _).trans h

theorem Ap.exact (M : Machine) (k : ℕ) {A x : ℝ} (h : |x| ≤ A) : Ap M k A (Fl.fin x) x :=
  ⟨x, rfl, by rw [sub_self, abs_zero]; exact mul_nonneg (M.gam_nonneg _) ((abs_nonneg _).trans h), h⟩

theorem Ap.mono {k l : ℕ} {A B : ℝ} {f : Fl} {x : ℝ} (h : Ap M k A f x) (hk : k ≤ l) (hA : A ≤ B) : Ap M l B f x := by
  have h0 := h.nonneg
  obtain ⟨z, h1, h2, h3⟩ := h
  exact ⟨z, h1, h2.trans (mul_le_mul (M.gam_mono hk) hA h0 (M.gam_nonneg _)), h3.trans hA⟩

/-- One more rounding. -/
theorem Ap.round {k : ℕ} {A : ℝ} {f h : Fl} {x : ℝ} (hf : Ap M k A f x) (hr : Rounds M.u f h) : Ap M (k + 1) A h x := by
  obtain ⟨z, rfl, h2, h3⟩ := hf
  rcases hr with ⟨a, b, e1, e2, e3⟩ | ⟨e, -⟩
  · rw [Fl.fin_inj] at e1
    subst e1
    refine ⟨b, e2, ?_, h3⟩
    have hz : |z| ≤ (1 + M.gam k) * A := by
      have := abs_sub_abs_le_abs_sub z x
      linarith
    have ht : |b - x| ≤ |b - z| + |z - x| := abs_sub_le _ _ _
    have hu := mul_le_mul_of_nonneg_left hz M.u_nonneg
    have hg : M.gam (k + 1) = M.gam k + M.u * (1 + M.gam k) := by unfold Machine.gam; ring
    rw [hg]
    linarith
  · exact absurd rfl (e z)

theorem Ap.mul {k l : ℕ} {A B : ℝ} {f g : Fl} {x y : ℝ} (hf : Ap M k A f x) (hg : Ap M l B g y) :
    Ap M (k + l + 1) (A * B) (M.mul f g) (x * y) := by
  have hA := hf.nonneg
  have hB := hg.nonneg
  refine Ap.round (k := k + l) (f := f * g) ?_ (M.mul_ok f g)
  obtain ⟨z, rfl, h2, h3⟩ := hf
  obtain ⟨t, rfl, g2, g3⟩ := hg
  refine ⟨z * t, by rw [Fl.fin_mul], ?_, by rw [abs_mul]; exact mul_le_mul h3 g3 (abs_nonneg _) hA⟩
  have hz : |z| ≤ (1 + M.gam k) * A := by
    have := abs_sub_abs_le_abs_sub z x
    linarith
  have e : z * t - x * y = z * (t - y) + y * (z - x) := by ring
  have b1 : |z * (t - y)| ≤ (1 + M.gam k) * A * (M.gam l * B) := by
    rw [abs_mul]
    exact mul_le_mul hz g2 (abs_nonneg _) (mul_nonneg (by linarith [M.gam_nonneg k]) hA)
  have b2 : |y * (z - x)| ≤ B * (M.gam k * A) := by
    rw [abs_mul]
    exact mul_le_mul g3 h2 (abs_nonneg _) hB
  have hgm : M.gam (k + l) = M.gam l * (1 + M.gam k) + M.gam k := by unfold Machine.gam; ring
  rw [e, hgm]
  refine (abs_add_le _ _).trans ((add_le_add b1 b2).trans (le_of_eq (by ring)))

theorem Ap.sub {k : ℕ} {A B : ℝ} {f g : Fl} {x y : ℝ} (hf : Ap M k A f x) (hg : Ap M k B g y) :
    Ap M (k + 1) (A + B) (M.sub f g) (x - y) := by
  refine Ap.round (k := k) (f := f - g) ?_ (M.sub_ok f g)
  obtain ⟨z, rfl, h2, h3⟩ := hf
  obtain ⟨t, rfl, g2, g3⟩ := hg
  refine ⟨z - t, by rw [Fl.fin_sub], ?_, (abs_sub _ _).trans (add_le_add h3 g3)⟩
  rw [show z - t - (x - y) = (z - x) - (t - y) by ring]
  refine (abs_sub _ _).trans ((add_le_add h2 g2).trans (le_of_eq (by ring)))

theorem Ap.add {k : ℕ} {A B : ℝ} {f g : Fl} {x y : ℝ} (hf : Ap M k A f x) (hg : Ap M k B g y) :
    Ap M (k + 1) (A + B) (M.add f g) (x + y) := by
  refine Ap.round (k := k) (f := f + g) ?_ (M.add_ok f g)
  obtain ⟨z, rfl, h2, h3⟩ := hf
  obtain ⟨t, rfl, g2, g3⟩ := hg
  refine ⟨z + t, by rw [Fl.fin_add], ?_, (abs_add_le _ _).trans (add_le_add h3 g3)⟩
  rw [show z + t - (x + y) = (z - x) + (t - y) by ring]
  refine (abs_add_le _ _).trans ((add_le_add h2 g2).trans (le_of_eq (by ring)))

theorem listSum_abs_le (l : List ι) (f g : ι → ℝ) (h : ∀ i ∈ l, |f i| ≤ g i) : |(l.map f).sum| ≤ (l.map g).sum := by
  induction l with
  | nil => simp
  | cons a l ih =>
    simp only [List.map_cons, List.sum_cons]
    exact (abs_add_le _ _).trans (add_le_add (h a (by simp)) (ih fun i hi => h i (by simp [hi])))

theorem listSum_le (l : List ι) (f g : ι → ℝ) (h : ∀ i ∈ l, f i ≤ g i) : (l.map f).sum ≤ (l.map g).sum := by
  induction l with
  | nil => simp
  | cons a l ih =>
    simp only [List.map_cons, List.sum_cons]
    exact add_le_add (h a (by simp)) (ih fun i hi => h i (by simp [hi]))

theorem listSum_mul (l : List ι) (c : ℝ) (f : ι → ℝ) : (l.map fun i => c * f i).sum = c * (l.map f).sum := by
  induction l with
  | nil => simp
  | cons a l ih => simp only [List.map_cons, List.sum_cons, ih]; ring

theorem listSum_sub (l : List ι) (f g : ι → ℝ) : (l.map f).sum - (l.map g).sum = (l.map fun i => f i - g i).sum := by
  induction l with
  | nil => simp
  | cons a l ih => simp only [List.map_cons, List.sum_cons, ← ih]; ring

theorem listSum_add (l : List ι) (f g : ι → ℝ) : (l.map f).sum + (l.map g).sum = (l.map fun i => f i + g i).sum := by
  induction l with
  | nil => simp
  | cons a l ih => simp only [List.map_cons, List.sum_cons, ← ih]; ring

/-- The sum, in any order, of computed values. -/
theorem Ap.sum {k : ℕ} {l : List ι} {F : ι → Fl} {A X : ι → ℝ} (h : ∀ i ∈ l, Ap M k (A i) (F i) (X i)) :
    Ap M (k + l.length) (l.map A).sum (M.sum (l.map F)) (l.map X).sum := by
  have hz : ∀ i, ∃ z, i ∈ l → F i = Fl.fin z ∧ |z - X i| ≤ M.gam k * A i ∧ |X i| ≤ A i := by
    intro i
    by_cases hi : i ∈ l
    · obtain ⟨z, hz⟩ := h i hi
      exact ⟨z, fun _ => hz⟩
    · exact ⟨0, fun h' => absurd h' hi⟩
  choose Z hZ using hz
  have hF : l.map F = (l.map Z).map Fl.fin := by
    rw [List.map_map]
    exact List.map_congr_left fun i hi => (hZ i hi).1
  obtain ⟨t, e1, e2⟩ := (M.sum_ok (l.map F)).bound (l.map Z) hF
  refine ⟨t, e1, ?_, listSum_abs_le _ _ _ fun i hi => (hZ i hi).2.2⟩
  rw [List.length_map, List.map_map] at e2
  have hA : 0 ≤ (l.map A).sum := List.sum_nonneg (by
    intro x hx
    obtain ⟨i, hi, rfl⟩ := List.mem_map.1 hx
    exact (h i hi).nonneg)
  have b1 : (l.map ((fun x => |x|) ∘ Z)).sum ≤ (1 + M.gam k) * (l.map A).sum := by
    rw [← listSum_mul]
    refine listSum_le _ _ _ fun i hi => ?_
    obtain ⟨-, c2, c3⟩ := hZ i hi
    have := abs_sub_abs_le_abs_sub (Z i) (X i)
    show |Z i| ≤ _
    linarith
  have b2 : |(l.map Z).sum - (l.map X).sum| ≤ M.gam k * (l.map A).sum := by
    rw [listSum_sub, ← listSum_mul]
    exact listSum_abs_le _ _ _ fun i hi => (hZ i hi).2.1
  have b3 : M.gam l.length * (l.map ((fun x => |x|) ∘ Z)).sum ≤ M.gam l.length * ((1 + M.gam k) * (l.map A).sum) :=
    mul_le_mul_of_nonneg_left b1 (M.gam_nonneg _)
  have hgm : M.gam (k + l.length) = M.gam l.length * (1 + M.gam k) + M.gam k := by unfold Machine.gam; ring
  have e2' : |t - (l.map Z).sum| ≤ M.gam l.length * (l.map ((fun x => |x|) ∘ Z)).sum := e2
  have := abs_sub_le t (l.map Z).sum (l.map X).sum
  rw [hgm]
  nlinarith

/-! ### Regression -/

/-- A quotient by a number known with a relative error `ε ≤ 1/2`. -/
theorem Ap.div {k : ℕ} {A D ε : ℝ} {f g : Fl} {x : ℝ} (hf : Ap M k A f x) (hk : M.gam k ≤ ε) (hu : M.u ≤ ε) (hε : ε ≤ 1 / 2) (hD : 0 < D)
    (hg : ∃ d, g = Fl.fin d ∧ |d - D| ≤ ε * D) : ∃ z, M.div f g = Fl.fin z ∧ |z - x / D| ≤ 7 * ε * (A / D) := by
  have hA := hf.nonneg
  obtain ⟨z, rfl, h2, h3⟩ := hf
  obtain ⟨d, rfl, hd⟩ := hg
  have hd' := abs_le.1 hd
  have hdp : D / 2 ≤ d := by nlinarith
  have hd0 : 0 < d := by linarith
  have hε0 : 0 ≤ ε := le_trans M.u_nonneg hu
  have hq : |z / d - x / D| ≤ 4 * ε * (A / D) := by
    have e : z / d - x / D = ((z - x) * D - x * (d - D)) / (d * D) := by field_simp; ring
    rw [e, abs_div, abs_of_pos (mul_pos hd0 hD), div_le_iff₀ (mul_pos hd0 hD)]
    have a1 : |(z - x) * D| ≤ ε * A * D := by
      rw [abs_mul, abs_of_pos hD]
      exact mul_le_mul_of_nonneg_right (h2.trans (mul_le_mul_of_nonneg_right hk hA)) hD.le
    have a2 : |x * (d - D)| ≤ A * (ε * D) := by
      rw [abs_mul]
      exact mul_le_mul h3 hd (abs_nonneg _) hA
    have a3 : 4 * ε * (A / D) * (d * D) = 4 * ε * A * d := by field_simp
    rw [a3]
    have a4 := abs_sub ((z - x) * D) (x * (d - D))
    have a5 : ε * A * D ≤ ε * A * (2 * d) := mul_le_mul_of_nonneg_left (by linarith) (mul_nonneg hε0 hA)
    linarith
  rcases M.div_ok (Fl.fin z) (Fl.fin d) with ⟨a, b, e1, e2, e3⟩ | ⟨e, -⟩
  · rw [Fl.fin_div hd0.ne', Fl.fin_inj] at e1
    subst e1
    refine ⟨b, e2, ?_⟩
    have hAD : 0 ≤ A / D := div_nonneg hA hD.le
    have hx : |x / D| ≤ A / D := by rw [abs_div, abs_of_pos hD]; exact div_le_div_of_nonneg_right h3 hD.le
    have hzd : |z / d| ≤ (1 + 4 * ε) * (A / D) := by
      have := abs_sub_abs_le_abs_sub (z / d) (x / D)
      linarith
    have h6 : M.u * |z / d| ≤ ε * ((1 + 4 * ε) * (A / D)) := mul_le_mul hu hzd (abs_nonneg _) hε0
    have h7 : ε * (4 * ε) ≤ ε * 2 := mul_le_mul_of_nonneg_left (by linarith) hε0
    have h8 : ε * (4 * ε) * (A / D) ≤ ε * 2 * (A / D) := mul_le_mul_of_nonneg_right h7 hAD
    have := abs_sub_le b (z / d) (x / D)
    nlinarith
  · exact absurd (Fl.fin_div hd0.ne') (e _)

/-- Error of the slope of a rounded regression with non-negative abscissas. -/
theorem slope_bound {l : List ι} {x w : ι → ℝ} (hw : ∀ p ∈ l, 0 ≤ w p) (hx : ∀ p ∈ l, 0 ≤ x p) {V0 V1 V2 D ε : ℝ} (e0 : V0 = (l.map w).sum)
    (e1 : V1 = (l.map fun p => w p * x p).sum) (e2 : V2 = (l.map fun p => w p * (x p * x p)).sum) (eD : D = V0 * V2 - V1 * V1) (hD : 0 < D)
    (hε : (V0 * V2 + V1 * V1) / D * M.gam (2 * l.length + 4) ≤ ε) (hε2 : ε ≤ 1 / 2)
    {y : ι → Fl} {Y : ι → ℝ} {η B : ℝ} (hη : 0 ≤ η) (hy : ∀ p ∈ l, |Y p| ≤ B ∧ ∃ z, y p = Fl.fin z ∧ |z - Y p| ≤ η) :
    ∃ z, M.slopeL l x w y = Fl.fin z ∧
      |z - (l.map fun p => w p * (V0 * x p - V1) / D * Y p).sum| ≤ 2 * V0 * V1 / D * (12 * ε * B + 7 * η) := by
  have hu0 := M.u_nonneg
  have p0 : 0 ≤ V0 := by rw [e0]; exact List.sum_nonneg (by intro a ha; obtain ⟨p, hp, rfl⟩ := List.mem_map.1 ha; exact hw p hp)
  have p1 : 0 ≤ V1 := by
    rw [e1]; exact List.sum_nonneg (by intro a ha; obtain ⟨p, hp, rfl⟩ := List.mem_map.1 ha; exact mul_nonneg (hw p hp) (hx p hp))
  have p2 : 0 ≤ V2 := by
    rw [e2]
    exact List.sum_nonneg (by
      intro a ha; obtain ⟨p, hp, rfl⟩ := List.mem_map.1 ha; exact mul_nonneg (hw p hp) (mul_nonneg (hx p hp) (hx p hp)))
  have v0 : Ap M l.length V0 (M.lrV0 (l.map fun p => Fl.fin (w p))) V0 := by
    have := Ap.sum (M := M) (k := 0) (l := l) (F := fun p => Fl.fin (w p)) (A := w) (X := w)
      fun p hp => Ap.exact M 0 (by rw [abs_of_nonneg (hw p hp)])
    rw [← e0, zero_add] at this
    exact this
  have v1 : Ap M (1 + l.length) V1 (M.lrV1 (l.map fun p => Fl.fin (x p)) (l.map fun p => Fl.fin (w p))) V1 := by
    have := Ap.sum (M := M) (k := 1) (l := l) (F := fun p => M.mul (Fl.fin (w p)) (Fl.fin (x p))) (A := fun p => w p * x p) (X := fun p => w p * x p)
      fun p hp => (Ap.exact M 0 (by rw [abs_of_nonneg (hw p hp)])).mul (Ap.exact M 0 (by rw [abs_of_nonneg (hx p hp)]))
    rw [← e1] at this
    simpa only [Machine.lrV1, List.zipWith_map, List.zipWith_self] using this
  have v2 : Ap M (2 + l.length) V2 (M.lrV2 (l.map fun p => Fl.fin (x p)) (l.map fun p => Fl.fin (w p))) V2 := by
    have := Ap.sum (M := M) (k := 2) (l := l) (F := fun p => M.mul (Fl.fin (w p)) (M.mul (Fl.fin (x p)) (Fl.fin (x p))))
      (A := fun p => w p * (x p * x p)) (X := fun p => w p * (x p * x p))
      fun p hp => (Ap.exact M 0 (by rw [abs_of_nonneg (hw p hp)])).mul
        ((Ap.exact M 0 (by rw [abs_of_nonneg (hx p hp)])).mul (Ap.exact M 0 (by rw [abs_of_nonneg (hx p hp)])))
    rw [← e2] at this
    simpa only [Machine.lrV2, List.zipWith_map, List.zipWith_self] using this
  have vd : Ap M (2 * l.length + 4) (V0 * V2 + V1 * V1) (M.lrDet (l.map fun p => Fl.fin (x p)) (l.map fun p => Fl.fin (w p))) D := by
    have a := (v0.mul v2).mono (l := 2 * l.length + 3) (by omega) le_rfl
    have b := (v1.mul v1).mono (l := 2 * l.length + 3) (by omega) le_rfl
    have := a.sub b
    rw [← eD] at this
    exact this
  have hE : 1 ≤ (V0 * V2 + V1 * V1) / D := by
    rw [le_div_iff₀ hD, eD]
    nlinarith [mul_self_nonneg V1]
  have hg : M.gam (2 * l.length + 4) ≤ ε := by
    refine le_trans ?_ hε
    exact le_mul_of_one_le_left (M.gam_nonneg _) hE
  have hu : M.u ≤ ε := (M.u_le_gam (by omega)).trans hg
  have hε0 : 0 ≤ ε := hu0.trans hu
  obtain ⟨d, hd, hd2, -⟩ := vd
  have hd3 : |d - D| ≤ ε * D := by
    refine hd2.trans ?_
    have := mul_le_mul_of_nonneg_right hε hD.le
    refine le_trans (le_of_eq ?_) this
    field_simp
  have hW : ∀ p ∈ l, ∃ z, M.div (M.mul (Fl.fin (w p)) (M.sub (M.mul (M.lrV0 (l.map fun p => Fl.fin (w p))) (Fl.fin (x p)))
      (M.lrV1 (l.map fun p => Fl.fin (x p)) (l.map fun p => Fl.fin (w p)))))
      (M.lrDet (l.map fun p => Fl.fin (x p)) (l.map fun p => Fl.fin (w p))) = Fl.fin z ∧
      |z - w p * (V0 * x p - V1) / D| ≤ 7 * ε * (w p * (V0 * x p + V1) / D) := by
    intro p hp
    have n1 : Ap M (1 + l.length) (V0 * x p) (M.mul (M.lrV0 (l.map fun p => Fl.fin (w p))) (Fl.fin (x p))) (V0 * x p) :=
      (v0.mul (Ap.exact M 0 (by rw [abs_of_nonneg (hx p hp)]))).mono (by omega) le_rfl
    have n2 := (Ap.exact M 0 (x := w p) (by rw [abs_of_nonneg (hw p hp)])).mul (n1.sub v1)
    exact n2.div ((M.gam_mono (by omega)).trans hg) hu hε2 hD ⟨d, hd, hd3⟩
  obtain ⟨Wf, hWf⟩ : ∃ Wf : ι → Fl, ∀ p, Wf p = M.div (M.mul (Fl.fin (w p)) (M.sub (M.mul (M.lrV0 (l.map fun p => Fl.fin (w p))) (Fl.fin (x p)))
      (M.lrV1 (l.map fun p => Fl.fin (x p)) (l.map fun p => Fl.fin (w p)))))
      (M.lrDet (l.map fun p => Fl.fin (x p)) (l.map fun p => Fl.fin (w p))) := ⟨_, fun _ => rfl⟩
  have hT : ∀ p, ∃ W Z : ℝ, p ∈ l → Wf p = Fl.fin W ∧ |W - w p * (V0 * x p - V1) / D| ≤ 7 * ε * (w p * (V0 * x p + V1) / D) ∧
      y p = Fl.fin Z ∧ |Z - Y p| ≤ η := by
    intro p
    by_cases hp : p ∈ l
    · obtain ⟨W, c1, c2⟩ := hW p hp
      obtain ⟨-, Z, d1, d2⟩ := hy p hp
      exact ⟨W, Z, fun _ => ⟨by rw [hWf]; exact c1, c2, d1, d2⟩⟩
    · exact ⟨0, 0, fun h => absurd h hp⟩
  choose W Z hWZ using hT
  have hslope : M.slopeL l x w y = M.sum (l.map fun p => M.mul (Wf p) (y p)) := by
    unfold Machine.slopeL Machine.lrWSlope
    rw [List.zipWith_map, List.zipWith_self, M.dotB_map]
    simp only [hWf]
  have hAp := Ap.sum (M := M) (k := 1) (l := l) (F := fun p => M.mul (Wf p) (y p)) (A := fun p => |W p * Z p|) (X := fun p => W p * Z p) (by
    intro p hp
    obtain ⟨c1, -, c3, -⟩ := hWZ p hp
    refine Ap.round (k := 0) (f := Wf p * y p) ?_ (M.mul_ok _ _)
    rw [c1, c3, Fl.fin_mul]
    exact Ap.exact M 0 le_rfl)
  rw [← hslope] at hAp
  obtain ⟨s, s1, s2, -⟩ := hAp
  refine ⟨s, s1, ?_⟩
  have hB : ∀ p ∈ l, 0 ≤ w p * (V0 * x p + V1) / D := fun p hp =>
    div_nonneg (mul_nonneg (hw p hp) (add_nonneg (mul_nonneg p0 (hx p hp)) p1)) hD.le
  have hsB : (l.map fun p => w p * (V0 * x p + V1) / D).sum = 2 * V0 * V1 / D := by
    have : (l.map fun p => w p * (V0 * x p + V1) / D) = l.map fun p => (1 / D) * (V0 * (w p * x p) + V1 * w p) :=
      List.map_congr_left fun p _ => by ring
    rw [this, listSum_mul, ← listSum_add, listSum_mul, listSum_mul, ← e0, ← e1]
    ring
  have hb : ∀ p ∈ l, |W p| ≤ 9 / 2 * (w p * (V0 * x p + V1) / D) ∧ |Z p| ≤ B + η ∧
      |W p * Z p - w p * (V0 * x p - V1) / D * Y p| ≤ w p * (V0 * x p + V1) / D * (7 * ε * B + 9 / 2 * η) := by
    intro p hp
    obtain ⟨-, c2, -, c4⟩ := hWZ p hp
    obtain ⟨hYB, -⟩ := hy p hp
    have hb0 := hB p hp
    have hwB : |w p * (V0 * x p - V1) / D| ≤ w p * (V0 * x p + V1) / D := by
      rw [abs_div, abs_mul, abs_of_nonneg (hw p hp), abs_of_pos hD]
      refine div_le_div_of_nonneg_right (mul_le_mul_of_nonneg_left ?_ (hw p hp)) hD.le
      have := mul_nonneg p0 (hx p hp)
      rw [abs_le]; constructor <;> linarith
    have k1 : |W p| ≤ 9 / 2 * (w p * (V0 * x p + V1) / D) := by
      have := abs_sub_abs_le_abs_sub (W p) (w p * (V0 * x p - V1) / D)
      have h7 : 7 * ε * (w p * (V0 * x p + V1) / D) ≤ 7 / 2 * (w p * (V0 * x p + V1) / D) := mul_le_mul_of_nonneg_right (by linarith) hb0
      linarith
    have k2 : |Z p| ≤ B + η := by
      have := abs_sub_abs_le_abs_sub (Z p) (Y p)
      linarith
    refine ⟨k1, k2, ?_⟩
    rw [show W p * Z p - w p * (V0 * x p - V1) / D * Y p = W p * (Z p - Y p) + (W p - w p * (V0 * x p - V1) / D) * Y p by ring]
    have m1 : |W p * (Z p - Y p)| ≤ 9 / 2 * (w p * (V0 * x p + V1) / D) * η := by
      rw [abs_mul]; exact mul_le_mul k1 c4 (abs_nonneg _) (by positivity)
    have m2 : |(W p - w p * (V0 * x p - V1) / D) * Y p| ≤ 7 * ε * (w p * (V0 * x p + V1) / D) * B := by
      rw [abs_mul]; exact mul_le_mul c2 hYB (abs_nonneg _) (by positivity)
    exact (abs_add_le _ _).trans ((add_le_add m1 m2).trans (le_of_eq (by ring)))
  have t1 : |(l.map fun p => W p * Z p).sum - (l.map fun p => w p * (V0 * x p - V1) / D * Y p).sum| ≤ 2 * V0 * V1 / D * (7 * ε * B + 9 / 2 * η) := by
    rw [listSum_sub, ← hsB, mul_comm, ← listSum_mul]
    refine listSum_abs_le _ _ _ fun p hp => ((hb p hp).2.2).trans (le_of_eq (by ring))
  have t2 : (l.map fun p => |W p * Z p|).sum ≤ 2 * V0 * V1 / D * (9 / 2 * (B + η)) := by
    rw [← hsB, mul_comm, ← listSum_mul]
    refine listSum_le _ _ _ fun p hp => ?_
    obtain ⟨k1, k2, -⟩ := hb p hp
    rw [abs_mul]
    exact (mul_le_mul k1 k2 (abs_nonneg _) (by have := hB p hp; positivity)).trans (le_of_eq (by ring))
  have hgL : M.gam (1 + l.length) ≤ ε := (M.gam_mono (by omega)).trans hg
  have hS : 0 ≤ 2 * V0 * V1 / D := by positivity
  have hsum0 : 0 ≤ (l.map fun p => |W p * Z p|).sum := List.sum_nonneg (by
    intro a ha; obtain ⟨p, -, rfl⟩ := List.mem_map.1 ha; exact abs_nonneg _)
  have hBη : 0 ≤ B + η ∨ l = [] := by
    rcases l with _ | ⟨p, l'⟩
    · exact Or.inr rfl
    · exact Or.inl ((abs_nonneg _).trans (hb p (by simp)).2.1)
  have hB0 : 0 ≤ B := by
    rcases hl : l with _ | ⟨p, l'⟩
    · rw [hl] at e0 e1
      simp at e0 e1
      rw [eD, e0, e1] at hD
      simp at hD
    · exact (abs_nonneg _).trans (hy p (by rw [hl]; simp)).1
  have t3 : |s - (l.map fun p => W p * Z p).sum| ≤ ε * (2 * V0 * V1 / D * (9 / 2 * (B + η))) :=
    s2.trans (mul_le_mul hgL t2 hsum0 hε0)
  have t4 := abs_sub_le s (l.map fun p => W p * Z p).sum (l.map fun p => w p * (V0 * x p - V1) / D * Y p).sum
  have t5 : ε * (2 * V0 * V1 / D * (9 / 2 * (B + η))) + 2 * V0 * V1 / D * (7 * ε * B + 9 / 2 * η) ≤ 2 * V0 * V1 / D * (12 * ε * B + 7 * η) := by
    have : 9 / 2 * ε * (B + η) + (7 * ε * B + 9 / 2 * η) ≤ 12 * ε * B + 7 * η := by
      have q1 : ε * η ≤ 1 / 2 * η := mul_le_mul_of_nonneg_right hε2 hη
      have q2 : 0 ≤ ε * B := mul_nonneg hε0 hB0
      nlinarith
    have := mul_le_mul_of_nonneg_left this hS
    linarith
  linarith

end

end MFA
