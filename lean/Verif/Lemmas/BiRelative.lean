import Verif.Spec.Close
import Verif.Lemmas.BiContinuity
import Verif.Props.StabilityAll

/-! Statistics of pairs of columns under relative errors (for C139). -/

namespace MFA

noncomputable section

/-- Both members are multiplied by factors between `e^(-δ)` and `e^δ`. -/
def PairRel (δ : ℝ) (p p' : Fl × Fl) : Prop := EntryRelClose δ p.1 p'.1 ∧ EntryRelClose δ p.2 p'.2

def RealRel (δ : ℝ) (z z' : ℝ × ℝ) : Prop :=
  ∃ θ φ : ℝ, z'.1 = z.1 * Real.exp θ ∧ z'.2 = z.2 * Real.exp φ ∧ |θ| ≤ δ ∧ |φ| ≤ δ

theorem joint_rel {δ : ℝ} {ls ls' : List (Fl × Fl)} (h : List.Forall₂ (PairRel δ) ls ls') : ∀ {zs : List (ℝ × ℝ)}, JointIs ls zs →
    ∃ zs', JointIs ls' zs' ∧ List.Forall₂ (RealRel δ) zs zs' := by
  unfold JointIs
  induction h with
  | nil =>
    intro zs hz
    have : zs = [] := by simpa using hz.symm
    subst this
    exact ⟨[], rfl, List.Forall₂.nil⟩
  | @cons p p' ls ls' hp hl ih =>
    intro zs hz
    obtain ⟨a, b⟩ := p
    obtain ⟨a', b'⟩ := p'
    obtain ⟨h1, h2⟩ := hp
    simp only at h1 h2
    rcases h1 with ⟨rfl, rfl⟩ | ⟨s, θ, rfl, rfl, e1⟩
    · rw [List.filter_cons_of_neg (by simp)] at hz
      obtain ⟨zs', c1, c2⟩ := ih hz
      exact ⟨zs', by rw [List.filter_cons_of_neg (by simp)]; exact c1, c2⟩
    · rcases h2 with ⟨rfl, rfl⟩ | ⟨t, φ, rfl, rfl, e2⟩
      · rw [List.filter_cons_of_neg (by simp)] at hz
        obtain ⟨zs', c1, c2⟩ := ih hz
        exact ⟨zs', by rw [List.filter_cons_of_neg (by simp)]; exact c1, c2⟩
      · rw [List.filter_cons_of_pos (by simp)] at hz
        cases zs with
        | nil => simp at hz
        | cons z zs =>
          rw [List.map_cons, List.cons.injEq, Prod.mk.injEq, Fl.fin_inj, Fl.fin_inj] at hz
          obtain ⟨⟨g1, g2⟩, hz⟩ := hz
          obtain ⟨zs', c1, c2⟩ := ih hz
          refine ⟨(s * Real.exp θ, t * Real.exp φ) :: zs', by rw [List.filter_cons_of_pos (by simp), c1]; rfl,
            List.Forall₂.cons ⟨θ, φ, ?_, ?_, e1, e2⟩ c2⟩
          · rw [← g1]
          · rw [← g2]

theorem rel_nonzero {δ : ℝ} {zs zs' : List (ℝ × ℝ)} (h : List.Forall₂ (RealRel δ) zs zs') (h0 : ∀ z ∈ zs, z.1 ≠ 0 ∧ z.2 ≠ 0) :
    ∀ z ∈ zs', z.1 ≠ 0 ∧ z.2 ≠ 0 := by
  intro z hz
  obtain ⟨y, hy, θ, φ, e1, e2, -, -⟩ := forall₂_mem' h hz
  rw [e1, e2]
  exact ⟨mul_ne_zero (h0 y hy).1 (Real.exp_pos _).ne', mul_ne_zero (h0 y hy).2 (Real.exp_pos _).ne'⟩

theorem rel_ne_nil {δ : ℝ} {zs zs' : List (ℝ × ℝ)} (h : List.Forall₂ (RealRel δ) zs zs') (h0 : zs ≠ []) : zs' ≠ [] := by
  rintro rfl
  exact h0 (List.length_eq_zero_iff.1 (by rw [h.length_eq]; rfl))

theorem log_mul_exp {s θ : ℝ} (hs : s ≠ 0) : Real.log |s * Real.exp θ| = Real.log |s| + θ := by
  rw [abs_mul, abs_of_pos (Real.exp_pos _), Real.log_mul (abs_ne_zero.2 hs) (Real.exp_pos _).ne', Real.log_exp]

/-- Sums of positive numbers multiplied by factors between `e^(-K)` and `e^K`. -/
theorem sum_exp_close {α : Type} {P : α → α → Prop} {zs zs' : List α} (h : List.Forall₂ P zs zs') (f : α → ℝ) {K : ℝ}
    (hP : ∀ z z', P z z' → f z' ≤ Real.exp K * f z ∧ f z ≤ Real.exp K * f z') :
    (zs'.map f).sum ≤ Real.exp K * (zs.map f).sum ∧ (zs.map f).sum ≤ Real.exp K * (zs'.map f).sum := by
  induction h with
  | nil => simp
  | cons hab _ ih =>
    obtain ⟨a, b⟩ := hP _ _ hab
    simp only [List.map_cons, List.sum_cons, mul_add]
    exact ⟨add_le_add a ih.1, add_le_add b ih.2⟩

theorem logb_close_of {u v K : ℝ} (hu : 0 < u) (hv : 0 < v) (h1 : v ≤ Real.exp K * u) (h2 : u ≤ Real.exp K * v) :
    |Real.logb 2 u - Real.logb 2 v| ≤ K / Real.log 2 := by
  have hl : 0 < Real.log 2 := Real.log_pos (by norm_num)
  unfold Real.logb
  rw [← sub_div, abs_div, abs_of_pos hl]
  refine div_le_div_of_nonneg_right ?_ hl.le
  have g1 := Real.log_le_log hv h1
  have g2 := Real.log_le_log hu h2
  rw [Real.log_mul (Real.exp_pos _).ne' hu.ne', Real.log_exp] at g1
  rw [Real.log_mul (Real.exp_pos _).ne' hv.ne', Real.log_exp] at g2
  rw [abs_sub_le_iff]; constructor <;> linarith

theorem testF_exp (e : ℝ) {s : ℝ} (hs : s ≠ 0) (θ : ℝ) : testF e 0 (s * Real.exp θ) = testF e 0 s * Real.exp (e * θ) := by
  unfold testF
  rw [pow_zero, pow_zero, mul_one, mul_one, abs_mul, Real.mul_rpow (abs_nonneg _) (abs_nonneg _), abs_of_pos (Real.exp_pos _),
    ← Real.exp_mul, mul_comm θ]

theorem testF_pos (e : ℝ) {s : ℝ} (hs : s ≠ 0) : 0 < testF e 0 s := by
  unfold testF
  rw [pow_zero, mul_one]
  exact Real.rpow_pos_of_pos (abs_pos.2 hs) _

theorem bsLog_rel {δ : ℝ} {q q' : (ℤ × Arr 1) × (ℤ × Arr 1)} {zs : List (ℝ × ℝ)} (hJ : JointIs (biPairs q) zs) (hne : zs ≠ [])
    (h0 : ∀ z ∈ zs, z.1 ≠ 0 ∧ z.2 ≠ 0) (h : List.Forall₂ (PairRel δ) (biPairs q) (biPairs q')) (e1 e2 : ℝ) :
    FlClose ((|e1| + |e2|) * δ / Real.log 2) (bsLog e1 e2 q) (bsLog e1 e2 q') := by
  obtain ⟨zs', hJ', hz⟩ := joint_rel h hJ
  have h0' := rel_nonzero hz h0
  have hne' := rel_ne_nil hz hne
  obtain ⟨p1, b1⟩ := bsLog_value hJ hne h0 one_pos one_pos e1 e2
  obtain ⟨p2, b2⟩ := bsLog_value hJ' hne' h0' one_pos one_pos e1 e2
  refine ⟨_, _, b1, b2, ?_⟩
  rw [add_sub_add_left_eq_sub]
  have hz' : List.Forall₂ (fun z z' => (z.1 ≠ 0 ∧ z.2 ≠ 0) ∧ RealRel δ z z') zs zs' := by
    rw [List.forall₂_iff_zip] at hz ⊢
    exact ⟨hz.1, fun {a b} hab => ⟨h0 a (List.of_mem_zip hab).1, hz.2 hab⟩⟩
  have hs := sum_exp_close hz' (fun z => testF e1 0 (z.1 / 1) * testF e2 0 (z.2 / 1)) (K := (|e1| + |e2|) * δ) (by
    rintro z z' ⟨⟨z1, z2⟩, θ, φ, g1, g2, hθ, hφ⟩
    simp only [div_one]
    rw [g1, g2, testF_exp _ z1, testF_exp _ z2]
    have k : |e1 * θ + e2 * φ| ≤ (|e1| + |e2|) * δ := by
      refine (abs_add_le _ _).trans ?_
      rw [abs_mul, abs_mul, add_mul]
      exact add_le_add (mul_le_mul_of_nonneg_left hθ (abs_nonneg _)) (mul_le_mul_of_nonneg_left hφ (abs_nonneg _))
    have hp : 0 < testF e1 0 z.1 * testF e2 0 z.2 := mul_pos (testF_pos _ z1) (testF_pos _ z2)
    have e : testF e1 0 z.1 * Real.exp (e1 * θ) * (testF e2 0 z.2 * Real.exp (e2 * φ)) =
        Real.exp (e1 * θ + e2 * φ) * (testF e1 0 z.1 * testF e2 0 z.2) := by rw [Real.exp_add]; ring
    rw [e]
    constructor
    · exact mul_le_mul_of_nonneg_right (Real.exp_le_exp.2 ((le_abs_self _).trans k)) hp.le
    · rw [← mul_assoc, ← Real.exp_add]
      refine le_mul_of_one_le_left hp.le (Real.one_le_exp ?_)
      have := neg_abs_le (e1 * θ + e2 * φ)
      linarith)
  refine logb_close_of p1 p2 ?_ ?_ <;> unfold pmean mean <;> simp only [List.length_map, ← hz.length_eq]
  · rw [← mul_div_assoc]; exact div_le_div_of_nonneg_right hs.1 (by positivity)
  · rw [← mul_div_assoc]; exact div_le_div_of_nonneg_right hs.2 (by positivity)

/-- Covariance of the pairs of a list. -/
def lcov {α : Type} (u v : α → ℝ) (l : List α) : ℝ := mean (l.map fun a => u a * v a) - mean (l.map u) * mean (l.map v)

theorem mean_ofFn {α : Type} (f : α → ℝ) (l : List α) : mean (l.map f) = (∑ i : Fin l.length, f (l.get i)) / l.length := by
  unfold mean
  rw [List.length_map]
  congr 1
  conv_lhs => rw [← List.ofFn_get l, List.map_ofFn, List.sum_ofFn]
  rfl

/-- A covariance is at most the product of the maxima. -/
theorem abs_lcov_le {α : Type} (u v : α → ℝ) (l : List α) {A B : ℝ} (hA : ∀ a ∈ l, |u a| ≤ A) (hB : ∀ a ∈ l, |v a| ≤ B) (hA0 : 0 ≤ A) (hB0 : 0 ≤ B) :
    |lcov u v l| ≤ A * B := by
  unfold lcov
  by_cases hl : l = []
  · subst hl; simp [mean]; positivity
  have hn : (0:ℝ) < l.length := by exact_mod_cast List.length_pos_iff.2 hl
  rw [mean_ofFn, mean_ofFn, mean_ofFn]
  obtain ⟨n, hn'⟩ : ∃ n : ℝ, n = l.length := ⟨_, rfl⟩
  rw [← hn'] at hn ⊢
  obtain ⟨f, hf⟩ : ∃ f : Fin l.length → ℝ, f = fun i => u (l.get i) := ⟨_, rfl⟩
  obtain ⟨g, hg⟩ : ∃ g : Fin l.length → ℝ, g = fun i => v (l.get i) := ⟨_, rfl⟩
  have hfA : ∀ i, |f i| ≤ A := fun i => by rw [hf]; exact hA _ (List.get_mem _ _)
  have hgB : ∀ i, |g i| ≤ B := fun i => by rw [hg]; exact hB _ (List.get_mem _ _)
  have ef : (∑ i : Fin l.length, u (l.get i)) = ∑ i, f i := by rw [hf]
  have eg : (∑ i : Fin l.length, v (l.get i)) = ∑ i, g i := by rw [hg]
  have efg : (∑ i : Fin l.length, u (l.get i) * v (l.get i)) = ∑ i, f i * g i := by rw [hf, hg]
  rw [ef, eg, efg]
  obtain ⟨F, hF⟩ : ∃ F, F = ∑ i, f i := ⟨_, rfl⟩
  have hsum1 : ∑ _i : Fin l.length, (1:ℝ) = n := by simp [hn']
  have e1 : (∑ i, (f i - F / n) * g i) = (∑ i, f i * g i) - F / n * ∑ i, g i := by
    rw [Finset.mul_sum, ← Finset.sum_sub_distrib]
    exact Finset.sum_congr rfl fun i _ => by ring
  have e2 : (∑ i, f i * g i) / n - F / n * ((∑ i, g i) / n) = (∑ i, (f i - F / n) * g i) / n := by rw [e1]; ring
  rw [← hF, e2]
  have cs := Finset.sum_mul_sq_le_sq_mul_sq Finset.univ (fun i => f i - F / n) g
  have s1 : ∑ i, (f i - F / n) ^ 2 ≤ n * A ^ 2 := by
    have : ∑ i, (f i - F / n) ^ 2 = (∑ i, f i ^ 2) - F ^ 2 / n := by
      have : ∀ i, (f i - F / n) ^ 2 = f i ^ 2 - 2 * (F / n) * f i + (F / n) ^ 2 * 1 := fun i => by ring
      simp only [this]
      rw [Finset.sum_add_distrib, Finset.sum_sub_distrib, ← Finset.mul_sum, ← Finset.mul_sum, ← hF, hsum1]
      field_simp
      ring
    rw [this]
    have h1 : ∑ i, f i ^ 2 ≤ ∑ _i : Fin l.length, A ^ 2 * 1 := Finset.sum_le_sum fun i _ => by
      rw [mul_one, ← sq_abs (f i)]
      exact pow_le_pow_left₀ (abs_nonneg _) (hfA i) 2
    rw [← Finset.mul_sum, hsum1] at h1
    have : 0 ≤ F ^ 2 / n := by positivity
    linarith
  have s2 : ∑ i, g i ^ 2 ≤ n * B ^ 2 := by
    have h1 : ∑ i, g i ^ 2 ≤ ∑ _i : Fin l.length, B ^ 2 * 1 := Finset.sum_le_sum fun i _ => by
      rw [mul_one, ← sq_abs (g i)]
      exact pow_le_pow_left₀ (abs_nonneg _) (hgB i) 2
    rw [← Finset.mul_sum, hsum1] at h1
    linarith
  have : (∑ i, (f i - F / n) * g i) ^ 2 ≤ (n * (A * B)) ^ 2 := by
    refine cs.trans ((mul_le_mul s1 s2 (Finset.sum_nonneg fun i _ => sq_nonneg _) (by positivity)).trans (le_of_eq (by ring)))
  have := abs_le_of_sq_le_sq this (by positivity)
  rw [abs_div, abs_of_pos hn, div_le_iff₀ hn]
  linarith

theorem lcov_add_right {α : Type} (u v w : α → ℝ) (l : List α) : lcov u (fun a => v a + w a) l = lcov u v l + lcov u w l := by
  unfold lcov
  simp only [mean_ofFn, mul_add, Finset.sum_add_distrib]
  ring

theorem lcov_add_left {α : Type} (u v w : α → ℝ) (l : List α) : lcov (fun a => v a + w a) u l = lcov v u l + lcov w u l := by
  unfold lcov
  simp only [mean_ofFn, add_mul, Finset.sum_add_distrib]
  ring

theorem lcov_congr {α : Type} {u v u' v' : α → ℝ} {l : List α} (h : ∀ a ∈ l, u a = u' a ∧ v a = v' a) : lcov u v l = lcov u' v' l := by
  unfold lcov
  rw [List.map_congr_left (fun a ha => (h a ha).1), List.map_congr_left (fun a ha => (h a ha).2),
    List.map_congr_left (fun a ha => by rw [(h a ha).1, (h a ha).2])]

theorem lcov_map {α β : Type} (u v : α → ℝ) (g : β → α) (l : List β) : lcov u v (l.map g) = lcov (u ∘ g) (v ∘ g) l := by
  unfold lcov
  simp only [List.map_map]; rfl

theorem bc11_lcov {q : (ℤ × Arr 1) × (ℤ × Arr 1)} {zs : List (ℝ × ℝ)} (h : JointIs (biPairs q) zs) (hz : zs ≠ [])
    (hn : ∀ z ∈ zs, z.1 ≠ 0 ∧ z.2 ≠ 0) {n : ℕ} (h1n : 1 ≤ n) :
    bcAt n 1 1 q = Fl.fin (lcov (fun z => Real.log |z.1|) (fun z => Real.log |z.2|) zs) := by
  rw [bc11_value h hz hn one_pos one_pos h1n]
  unfold lcov pmean
  simp [testF]

theorem bc11_rel {δ L : ℝ} {q q' : (ℤ × Arr 1) × (ℤ × Arr 1)} {zs : List (ℝ × ℝ)} (hJ : JointIs (biPairs q) zs) (hne : zs ≠ [])
    (h0 : ∀ z ∈ zs, z.1 ≠ 0 ∧ z.2 ≠ 0) (hL : ∀ z ∈ zs, |Real.log (|z.1|)| ≤ L ∧ |Real.log (|z.2|)| ≤ L)
    (h : List.Forall₂ (PairRel δ) (biPairs q) (biPairs q')) {n : ℕ} (hn : 1 ≤ n) :
    FlClose (δ * (2 * L + δ)) (bcAt n 1 1 q) (bcAt n 1 1 q') := by
  obtain ⟨zs', hJ', hz⟩ := joint_rel h hJ
  have h0' := rel_nonzero hz h0
  have hne' := rel_ne_nil hz hne
  refine ⟨_, _, bc11_lcov hJ hne h0 hn, bc11_lcov hJ' hne' h0' hn, ?_⟩
  obtain ⟨e1, e2, e3⟩ := zip_fst hz
  obtain ⟨Z, hZ⟩ : ∃ Z, Z = zs.zip zs' := ⟨_, rfl⟩
  rw [← hZ] at e1 e2 e3
  obtain ⟨z, hzm⟩ := List.exists_mem_of_ne_nil _ hne
  have hL0 : 0 ≤ L := (abs_nonneg _).trans (hL z hzm).1
  have hδ : 0 ≤ δ := by
    rw [e1] at hzm
    obtain ⟨p, hp, -⟩ := List.mem_map.1 hzm
    obtain ⟨θ, φ, -, -, hθ, -⟩ := e3 p hp
    exact (abs_nonneg _).trans hθ
  rw [e1, e2, lcov_map, lcov_map]
  have hm : ∀ p ∈ Z, p.1 ∈ zs := fun p hp => by rw [e1]; exact List.mem_map_of_mem hp
  obtain ⟨d1, hd1⟩ : ∃ d : (ℝ × ℝ) × (ℝ × ℝ) → ℝ, d = fun p => Real.log |p.2.1| - Real.log |p.1.1| := ⟨_, rfl⟩
  obtain ⟨d2, hd2⟩ : ∃ d : (ℝ × ℝ) × (ℝ × ℝ) → ℝ, d = fun p => Real.log |p.2.2| - Real.log |p.1.2| := ⟨_, rfl⟩
  have hd : ∀ p ∈ Z, |d1 p| ≤ δ ∧ |d2 p| ≤ δ := by
    intro p hp
    obtain ⟨θ, φ, g1, g2, hθ, hφ⟩ := e3 p hp
    obtain ⟨z1, z2⟩ := h0 _ (hm p hp)
    rw [hd1, hd2]
    simp only
    rw [g1, g2, log_mul_exp z1, log_mul_exp z2, add_sub_cancel_left, add_sub_cancel_left]
    exact ⟨hθ, hφ⟩
  have r : lcov ((fun z => Real.log |z.1|) ∘ Prod.snd) ((fun z => Real.log |z.2|) ∘ Prod.snd) Z =
      lcov (fun p => Real.log |p.1.1| + d1 p) (fun p => Real.log |p.1.2| + d2 p) Z := by
    refine lcov_congr fun p _ => ?_
    rw [hd1, hd2]
    simp only [Function.comp_apply]
    constructor <;> ring
  rw [r, lcov_add_right, lcov_add_left]
  have k1 := abs_lcov_le d1 (fun p => Real.log |p.1.2|) Z (fun p hp => (hd p hp).1) (fun p hp => (hL _ (hm p hp)).2) hδ hL0
  have k2 := abs_lcov_le (fun p => Real.log |p.1.1| + d1 p) d2 Z (A := L + δ) (fun p hp => (abs_add_le _ _).trans (add_le_add (hL _ (hm p hp)).1 (hd p hp).1))
    (fun p hp => (hd p hp).2) (by positivity) hδ
  have e : lcov ((fun z => Real.log |z.1|) ∘ Prod.fst) ((fun z => Real.log |z.2|) ∘ Prod.fst) Z =
    lcov (fun p : (ℝ × ℝ) × (ℝ × ℝ) => Real.log |p.1.1|) (fun p => Real.log |p.1.2|) Z := rfl
  rw [e]
  rw [show ∀ a b c : ℝ, a - (a + b + c) = -(b + c) from fun a b c => by ring, abs_neg]
  refine (abs_add_le _ _).trans ((add_le_add k1 k2).trans (le_of_eq (by ring)))

theorem abs_exp_sub_one_le {θ K : ℝ} (h : |θ| ≤ K) : |Real.exp θ - 1| ≤ Real.exp K - 1 := by
  obtain ⟨h1, h2⟩ := abs_le.1 h
  have e1 := Real.exp_le_exp.2 h2
  have e2 := Real.exp_le_exp.2 h1
  have e3 : Real.exp K * Real.exp (-K) = 1 := by rw [← Real.exp_add]; simp
  have e4 := Real.exp_pos K
  have e5 := Real.exp_pos (-K)
  rw [abs_le]; constructor
  · nlinarith [sq_nonneg (Real.exp K - 1)]
  · linarith

theorem coh_rel {δ : ℝ} {ls ls' : List (Fl × Fl)} {zs : List (ℝ × ℝ)} (hJ : JointIs ls zs) (hne : zs ≠ [])
    (h0 : ∀ z ∈ zs, z.1 ≠ 0 ∧ z.2 ≠ 0) (h : List.Forall₂ (PairRel δ) ls ls') : FlClose (Real.exp (4 * δ) - 1) (cohOf ls) (cohOf ls') := by
  obtain ⟨zs', hJ', hz⟩ := joint_rel h hJ
  have h0' := rel_nonzero hz h0
  have hne' := rel_ne_nil hz hne
  have ex : ∀ {l : List (ℝ × ℝ)}, l ≠ [] → (∀ z ∈ l, z.1 ≠ 0 ∧ z.2 ≠ 0) → (∃ z ∈ l, z.1 ≠ 0) ∧ ∃ z ∈ l, z.2 ≠ 0 := by
    intro l hl h0
    obtain ⟨z, hz⟩ := List.exists_mem_of_ne_nil _ hl
    exact ⟨⟨z, hz, (h0 z hz).1⟩, z, hz, (h0 z hz).2⟩
  obtain ⟨c1, b1⟩ := (cohOf_joint hJ).1 (ex hne h0)
  obtain ⟨c2, -⟩ := (cohOf_joint hJ').1 (ex hne' h0')
  refine ⟨_, _, c1, c2, ?_⟩
  have hp : ∀ {l : List (ℝ × ℝ)}, l ≠ [] → ∀ f : ℝ × ℝ → ℝ, (∀ z ∈ l, f z ≠ 0) → 0 < (l.map fun z => f z ^ 2).sum := by
    intro l hl f hf
    refine List.sum_pos _ ?_ (by simpa using hl)
    intro t ht
    obtain ⟨z, hz, rfl⟩ := List.mem_map.1 ht
    have := hf z hz
    positivity
  have p1 := hp hne Prod.fst fun z hz => (h0 z hz).1
  have p2 := hp hne Prod.snd fun z hz => (h0 z hz).2
  have p1' := hp hne' Prod.fst fun z hz => (h0' z hz).1
  have p2' := hp hne' Prod.snd fun z hz => (h0' z hz).2
  have hδ : 0 ≤ δ := by
    obtain ⟨z, hz'⟩ := List.exists_mem_of_ne_nil _ hne'
    obtain ⟨y, -, θ, φ, -, -, hθ, -⟩ := forall₂_mem' hz hz'
    exact (abs_nonneg _).trans hθ
  -- the squares
  have sq : ∀ (x θ : ℝ), |θ| ≤ δ → (x * Real.exp θ) ^ 2 ≤ Real.exp (2 * δ) * x ^ 2 ∧ x ^ 2 ≤ Real.exp (2 * δ) * (x * Real.exp θ) ^ 2 := by
    intro x θ hθ
    obtain ⟨t1, t2⟩ := abs_le.1 hθ
    have e : (x * Real.exp θ) ^ 2 = Real.exp (2 * θ) * x ^ 2 := by
      rw [mul_pow, ← Real.exp_nat_mul]; push_cast; ring
    rw [e]
    constructor
    · exact mul_le_mul_of_nonneg_right (Real.exp_le_exp.2 (by linarith)) (sq_nonneg _)
    · rw [← mul_assoc, ← Real.exp_add]
      exact le_mul_of_one_le_left (sq_nonneg _) (Real.one_le_exp (by linarith))
  obtain ⟨s1, -⟩ := sum_exp_close hz (fun z => z.1 ^ 2) (K := 2 * δ) (by
    rintro z z' ⟨θ, φ, g1, g2, hθ, hφ⟩
    rw [g1]; exact sq _ _ hθ)
  obtain ⟨-, s1'⟩ := sum_exp_close hz (fun z => z.1 ^ 2) (K := 2 * δ) (by
    rintro z z' ⟨θ, φ, g1, g2, hθ, hφ⟩
    rw [g1]; exact sq _ _ hθ)
  obtain ⟨s2, s2'⟩ := sum_exp_close hz (fun z => z.2 ^ 2) (K := 2 * δ) (by
    rintro z z' ⟨θ, φ, g1, g2, hθ, hφ⟩
    rw [g2]; exact sq _ _ hφ)
  obtain ⟨X, hX⟩ : ∃ X, X = (zs.map fun z => z.1 ^ 2).sum := ⟨_, rfl⟩
  obtain ⟨Y, hY⟩ : ∃ Y, Y = (zs.map fun z => z.2 ^ 2).sum := ⟨_, rfl⟩
  obtain ⟨X', hX'⟩ : ∃ X, X = (zs'.map fun z => z.1 ^ 2).sum := ⟨_, rfl⟩
  obtain ⟨Y', hY'⟩ : ∃ Y, Y = (zs'.map fun z => z.2 ^ 2).sum := ⟨_, rfl⟩
  have cs : (zs.map fun z => |z.1 * z.2|).sum ≤ √(X * Y) := by
    have e : ∀ f : ℝ × ℝ → ℝ, (zs.map f).sum = ∑ i : Fin zs.length, f (zs.get i) := by
      intro f
      conv_lhs => rw [← List.ofFn_get zs, List.map_ofFn, List.sum_ofFn]
      rfl
    rw [hX, hY, e, e, e]
    apply Real.le_sqrt_of_sq_le
    have := Finset.sum_mul_sq_le_sq_mul_sq Finset.univ (fun i : Fin zs.length => |(zs.get i).1|) (fun i => |(zs.get i).2|)
    simpa only [abs_mul, sq_abs] using this
  have hE : |(zs'.map fun z => z.1 * z.2).sum - (zs.map fun z => z.1 * z.2).sum| ≤ (Real.exp (2 * δ) - 1) * (zs.map fun z => |z.1 * z.2|).sum := by
    clear * - hz
    induction hz with
    | nil => simp
    | @cons z z' zs zs' hzz _ ih =>
      obtain ⟨θ, φ, g1, g2, hθ, hφ⟩ := hzz
      simp only [List.map_cons, List.sum_cons]
      have e : z'.1 * z'.2 - z.1 * z.2 = z.1 * z.2 * (Real.exp (θ + φ) - 1) := by rw [g1, g2, Real.exp_add]; ring
      rw [show ∀ a b c d : ℝ, a + b - (c + d) = (a - c) + (b - d) from fun a b c d => by ring, e, mul_add]
      refine (abs_add_le _ _).trans (add_le_add ?_ ih)
      rw [abs_mul, mul_comm]
      refine mul_le_mul_of_nonneg_right (abs_exp_sub_one_le ?_) (abs_nonneg _)
      exact (abs_add_le _ _).trans (by linarith)
  rw [← hX, ← hY] at b1 ⊢
  rw [← hX', ← hY']
  rw [← hX] at p1; rw [← hY] at p2; rw [← hX'] at p1'; rw [← hY'] at p2'
  simp only [← hX, ← hX'] at s1 s1'
  simp only [← hY, ← hY'] at s2 s2'
  obtain ⟨D, hD⟩ : ∃ D, D = √(X * Y) := ⟨_, rfl⟩
  obtain ⟨D', hD'⟩ : ∃ D, D = √(X' * Y') := ⟨_, rfl⟩
  obtain ⟨S, hS⟩ : ∃ S, S = (zs.map fun z => z.1 * z.2).sum := ⟨_, rfl⟩
  obtain ⟨S', hS'⟩ : ∃ S, S = (zs'.map fun z => z.1 * z.2).sum := ⟨_, rfl⟩
  obtain ⟨E, hEe⟩ : ∃ E, E = Real.exp (2 * δ) := ⟨_, rfl⟩
  have hD0 : 0 < D := by rw [hD]; exact Real.sqrt_pos.2 (mul_pos p1 p2)
  have hD0' : 0 < D' := by rw [hD']; exact Real.sqrt_pos.2 (mul_pos p1' p2')
  have hE1 : 1 ≤ E := by rw [hEe]; exact Real.one_le_exp (by linarith)
  have hE4 : Real.exp (4 * δ) = E * E := by rw [hEe, ← Real.exp_add]; congr 1; ring
  have d1 : D' ≤ E * D := by
    rw [hD, hD', hEe]
    have : X' * Y' ≤ Real.exp (2 * δ) ^ 2 * (X * Y) := (mul_le_mul s1 s2 p2'.le (by positivity)).trans (le_of_eq (by ring))
    refine (Real.sqrt_le_sqrt this).trans ?_
    rw [Real.sqrt_mul (by positivity), Real.sqrt_sq (Real.exp_pos _).le]
  have d2 : D ≤ E * D' := by
    rw [hD, hD', hEe]
    have : X * Y ≤ Real.exp (2 * δ) ^ 2 * (X' * Y') := (mul_le_mul s1' s2' p2.le (by positivity)).trans (le_of_eq (by ring))
    refine (Real.sqrt_le_sqrt this).trans ?_
    rw [Real.sqrt_mul (by positivity), Real.sqrt_sq (Real.exp_pos _).le]
  rw [← hS, ← hD] at b1 ⊢
  rw [← hS', ← hD', hE4]
  rw [← hD] at cs
  rw [← hS, ← hS', ← hEe] at hE
  have hE' : |S' - S| ≤ (E - 1) * D := hE.trans (mul_le_mul_of_nonneg_left cs (by linarith))
  have t1 : |(S' - S) / D'| ≤ (E - 1) * E := by
    rw [abs_div, abs_of_pos hD0', div_le_iff₀ hD0']
    refine hE'.trans ?_
    rw [mul_assoc]
    exact mul_le_mul_of_nonneg_left d2 (by linarith)
  have t2 : |S / D * (D / D' - 1)| ≤ E - 1 := by
    rw [abs_mul]
    have : |D / D' - 1| ≤ E - 1 := by
      rw [div_sub_one hD0'.ne', abs_div, abs_of_pos hD0', div_le_iff₀ hD0', abs_le]
      constructor
      · nlinarith
      · linarith
    calc _ ≤ 1 * (E - 1) := mul_le_mul b1 this (abs_nonneg _) zero_le_one
      _ = _ := one_mul _
  have e : S / D - S' / D' = -((S' - S) / D' + S / D * (D / D' - 1)) := by field_simp; ring
  rw [e, abs_neg]
  refine (abs_add_le _ _).trans ((add_le_add t1 t2).trans (le_of_eq (by ring)))

end

end MFA
