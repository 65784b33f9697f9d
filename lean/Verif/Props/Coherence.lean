import Verif.Spec.Mixture
import Verif.Props.HurstEstimation
import Verif.Props.BiAnalysis
import Verif.Lemmas.Rate

/-!
# Property C107: the bivariate coherence is a consistent estimate of the correlation of the two signals
-/

namespace MFA

universe u

open Classical Finset MeasureTheory ProbabilityTheory

noncomputable section

variable {wt : Wavelet}

/-! ### Mixtures of independent Gaussian signals -/

theorem mixture_getD {R : ℕ} (α : Fin R → ℝ) (x : List (Fin R → ℝ)) (n : ℕ) (r : Fin 1) :
    ((mixture α x).getD n fun _ => 0) r = ∑ s, α s * (x.getD n fun _ => 0) s := by
  unfold mixture
  rw [List.getD_eq_getElem?_getD, List.getD_eq_getElem?_getD, List.getElem?_map]
  cases x[n]? <;> simp

theorem mixture_length {R : ℕ} (α : Fin R → ℝ) (x : List (Fin R → ℝ)) : (mixture α x).length = x.length := by simp [mixture]

theorem mixture_gaussian {Ω : Type u} [MeasurableSpace Ω] {μ : Measure Ω} {R N : ℕ} {x : Ω → List (Fin R → ℝ)} {Γ : ℕ → ℕ → ℝ}
    (h : GaussianArray μ N x Γ) (α : Fin R → ℝ) :
    GaussianArray μ N (fun ω => mixture α (x ω)) fun n m => (∑ r, α r ^ 2) * Γ n m := by
  refine ⟨⟨fun ω => by rw [mixture_length, h.length], ?_, ?_, ?_, ?_⟩, ?_⟩
  · intro n hn r
    simp only [mixture_getD]
    exact integrable_finsetSum _ fun s _ => (h.integrable1 n hn s).const_mul _
  · intro n hn r
    simp only [mixture_getD]
    rw [integral_finsetSum _ fun s _ => (h.integrable1 n hn s).const_mul _]
    exact sum_eq_zero fun s _ => by rw [integral_const_mul, h.mean n hn s, mul_zero]
  · intro n hn m hm r r'
    simp only [mixture_getD, sum_mul_sum]
    refine integrable_finsetSum _ fun s _ => integrable_finsetSum _ fun s' _ => ?_
    refine ((h.integrable n hn m hm s s').const_mul (α s * α s')).congr (Filter.Eventually.of_forall fun ω => ?_)
    simp only; ring
  · intro n hn m hm r r'
    have hI : ∀ s s', Integrable (fun ω => α s * ((x ω).getD n fun _ => 0) s * (α s' * ((x ω).getD m fun _ => 0) s')) μ := by
      intro s s'
      refine ((h.integrable n hn m hm s s').const_mul (α s * α s')).congr (Filter.Eventually.of_forall fun ω => ?_)
      simp only; ring
    simp only [mixture_getD, sum_mul_sum]
    rw [integral_finsetSum _ fun s _ => integrable_finsetSum _ fun s' _ => hI s s', if_pos (Subsingleton.elim r r'), sum_mul]
    refine sum_congr rfl fun s _ => ?_
    rw [integral_finsetSum _ fun s' _ => hI s s', sum_eq_single s]
    · have e : ∀ ω, α s * ((x ω).getD n fun _ => 0) s * (α s * ((x ω).getD m fun _ => 0) s) =
          α s ^ 2 * (((x ω).getD n fun _ => 0) s * ((x ω).getD m fun _ => 0) s) := fun ω => by ring
      simp only [e]
      rw [integral_const_mul, h.cov n hn m hm s s, if_pos rfl]
    · intro s' _ hne
      have e : ∀ ω, α s * ((x ω).getD n fun _ => 0) s * (α s' * ((x ω).getD m fun _ => 0) s') =
          (α s * α s') * (((x ω).getD n fun _ => 0) s * ((x ω).getD m fun _ => 0) s') := fun ω => by ring
      simp only [e]
      rw [integral_const_mul, h.cov n hn m hm s s', if_neg hne.symm, mul_zero]
    · intro h0; exact absurd (mem_univ s) h0
  · let L : (Fin N × Fin R → ℝ) →L[ℝ] (Fin N × Fin 1 → ℝ) := ContinuousLinearMap.pi fun p =>
      ∑ s, α s • ContinuousLinearMap.proj (R := ℝ) (φ := fun _ : Fin N × Fin R => ℝ) (p.1, s)
    have := h.gaussian.map_fun L
    have e : (fun ω (p : Fin N × Fin 1) => sample (fun ω => mixture α (x ω)) p.1 p.2 ω) =
        fun ω => L fun p : Fin N × Fin R => sample x p.1 p.2 ω := by
      funext ω p
      simp only [sample, mixture_getD, L, ContinuousLinearMap.coe_pi', ContinuousLinearMap.coe_sum', Finset.sum_apply,
        ContinuousLinearMap.coe_smul', Pi.smul_apply, ContinuousLinearMap.proj_apply, smul_eq_mul]
    rw [e]; exact this

/-! ### The coherence of one realisation -/

theorem filterMap_ite {P : ℕ → Prop} (f g : ℕ → ℝ) (l : List ℕ) :
    jointVals (l.map fun k => if P k then Fl.nan else Fl.fin (f k)) (l.map fun k => if P k then Fl.nan else Fl.fin (g k)) =
      (l.filter fun k => ¬ P k).map fun k => (f k, g k) := by
  unfold jointVals
  induction l with
  | nil => rfl
  | cons a l ih =>
    rw [List.map_cons, List.map_cons, List.zip_cons_cons, List.filterMap_cons, ih]
    by_cases h : P a <;> simp [h]

/-- The coherence of two transformed signals, in terms of the reported coefficients. -/
theorem coherence_value {N : ℕ} {x y : Fin 1 → ℤ → ℝ} (hwt : wt.Valid) {j1 : ℤ} {j2 : Option ℝ} {g nm : ℝ}
    {weighted : Bool} {w1 w2 : WT 1} (h1 : waveletAnalysis (sampled N x) .inf wt j1 j2 g nm weighted = .ok w1)
    (h2 : waveletAnalysis (sampled N y) .inf wt j1 j2 g nm weighted = .ok w2) {same wd : Bool} {k1 k2 : ℤ} {q1 q2 : QArg} {s : BiStructFn}
    (hs : BiStructFn.make same w1.wt_coefs w2.wt_coefs k1 k2 q1 q2 wd = .ok s) {j : ℕ} (hj : 1 ≤ j) (hjl : j ≤ w1.wt_coefs.values.length)
    (hp1 : 0 < ∑ k ∈ interior N wt.dec_hi.length j, w1.wt_coefs.number j k 0 ^ 2)
    (hp2 : 0 < ∑ k ∈ interior N wt.dec_hi.length j, w2.wt_coefs.number j k 0 ^ 2) :
    s.coherence[j - 1]? = some (Fl.fin ((∑ k ∈ interior N wt.dec_hi.length j, w1.wt_coefs.number j k 0 * w2.wt_coefs.number j k 0) /
      √((∑ k ∈ interior N wt.dec_hi.length j, w1.wt_coefs.number j k 0 ^ 2) *
        ∑ k ∈ interior N wt.dec_hi.length j, w2.wt_coefs.number j k 0 ^ 2))) := by
  obtain ⟨J, Jc, l1, l2, -, -, -, -, -, -, -, hp, -⟩ := wa_paired hwt h1 h2
  have hcoh : s.coherence = (biList w1.wt_coefs w2.wt_coefs).map fun q => cohOf (biPairs q) := by
    unfold BiStructFn.make at hs
    rw [if_neg (by simp [hp.formalism]), if_neg (by simp [hp.gamint]), hp.njEq same] at hs
    simp only [hp.pairScales] at hs
    split at hs
    · cases hs
    · split at hs
      · cases hs
      · rename_i coh hc
        have := bsCoherence_eq hc
        split at hs
        · cases hs
        · split at hs
          · cases hs
          · cases hs
            simp only [this, List.map_map]; rfl
  have hlen : w2.wt_coefs.values.length = w1.wt_coefs.values.length := hp.rows.length_eq.symm
  obtain ⟨a, ha, -, hca⟩ := col_coefs hwt h1 hj hjl 0
  obtain ⟨b, hb, -, hcb⟩ := col_coefs hwt h2 hj (by rw [hlen]; exact hjl) 0
  have hbl : (biList w1.wt_coefs w2.wt_coefs)[j - 1]? = some (a, b) := List.getElem?_zip_eq_some.2 ⟨ha, hb⟩
  rw [hcoh, List.getElem?_map, hbl, Option.map_some]
  have hfin : ∀ (c : List Fl) (f : ℕ → ℝ), c = ((List.range (N / 2 ^ j)).map fun k => if Bord N wt.dec_hi.length j k then Fl.nan else Fl.fin (f k)) →
      ∀ x ∈ c, x = Fl.nan ∨ ∃ t : ℝ, x = Fl.fin t := by
    intro c f hc x hx
    rw [hc] at hx
    obtain ⟨k, -, rfl⟩ := List.mem_map.1 hx
    split
    · exact Or.inl rfl
    · exact Or.inr ⟨_, rfl⟩
  have hJ : JointIs (biPairs (a, b)) (jointVals (col a.2 0) (col b.2 0)) := jointVals_is (hfin _ _ hca) (hfin _ _ hcb)
  rw [hca, hcb, filterMap_ite] at hJ
  have hsum : ∀ G : ℝ × ℝ → ℝ, ((((List.range (N / 2 ^ j)).filter fun k => ¬ Bord N wt.dec_hi.length j k).map fun k =>
      (w1.wt_coefs.number j k 0, w2.wt_coefs.number j k 0)).map G).sum =
      ∑ k ∈ interior N wt.dec_hi.length j, G (w1.wt_coefs.number j k 0, w2.wt_coefs.number j k 0) := by
    intro G
    have hint : interior N wt.dec_hi.length j = ((List.range (N / 2 ^ j)).filter fun k => ¬ Bord N wt.dec_hi.length j k).toFinset := by
      rw [interior_eq _ _ _ hwt.pos]
      ext k; simp
    rw [List.map_map, hint, List.sum_toFinset _ (List.nodup_range.filter _)]; rfl
  have hex : ∀ f : ℝ × ℝ → ℝ, 0 < ∑ k ∈ interior N wt.dec_hi.length j, f (w1.wt_coefs.number j k 0, w2.wt_coefs.number j k 0) ^ 2 →
      ∃ z ∈ ((List.range (N / 2 ^ j)).filter fun k => ¬ Bord N wt.dec_hi.length j k).map fun k =>
        (w1.wt_coefs.number j k 0, w2.wt_coefs.number j k 0), f z ≠ 0 := by
    intro f hf
    by_contra hn
    push Not at hn
    rw [← hsum (fun z => f z ^ 2)] at hf
    have : ∀ t ∈ ((((List.range (N / 2 ^ j)).filter fun k => ¬ Bord N wt.dec_hi.length j k).map fun k =>
      (w1.wt_coefs.number j k 0, w2.wt_coefs.number j k 0)).map fun z => f z ^ 2), t = 0 := by
      intro t ht
      obtain ⟨z, hz, rfl⟩ := List.mem_map.1 ht
      rw [hn z hz]; norm_num
    rw [List.sum_eq_zero this] at hf
    exact lt_irrefl _ hf
  have := ((cohOf_joint hJ).1 ⟨hex Prod.fst hp1, hex Prod.snd hp2⟩).1
  rw [hsum (fun z => z.1 * z.2), hsum (fun z => z.1 ^ 2), hsum (fun z => z.2 ^ 2)] at this
  rw [this]

/-- The coefficients of a linear combination of two signals. -/
theorem number_linear {N : ℕ} {x y : Fin 1 → ℤ → ℝ} (t : ℝ) (hwt : wt.Valid) {p : PExp} {j1 : ℤ} {j2 : Option ℝ} {g nm : ℝ}
    {weighted : Bool} {w1 w2 w3 : WT 1} (h1 : waveletAnalysis (sampled N x) p wt j1 j2 g nm weighted = .ok w1)
    (h2 : waveletAnalysis (sampled N y) p wt j1 j2 g nm weighted = .ok w2)
    (h3 : waveletAnalysis (sampled N fun r s => 1 * x r s + t * y r s) p wt j1 j2 g nm weighted = .ok w3) {j k : ℕ} (hj : 1 ≤ j)
    (hjl : j ≤ w1.wt_coefs.values.length) (hk : k ∈ interior N wt.dec_hi.length j) :
    w3.wt_coefs.number j k 0 = w1.wt_coefs.number j k 0 + t * w2.wt_coefs.number j k 0 := by
  have hlen : w2.wt_coefs.values.length = w1.wt_coefs.values.length := by
    have := (C07_data_independent one_ne_zero one_ne_zero hwt hwt rfl h2 h1).2.2.1
    have h2 := congrArg List.length this
    simpa [Dict.keys] using h2
  obtain ⟨u, hu⟩ := interior_reported hwt h1 hj hjl hk 0
  obtain ⟨v, hv⟩ := interior_reported hwt h2 hj (by rw [hlen]; exact hjl) hk 0
  have := (C10_linear one_ne_zero 1 t hwt h1 h2 h3).2.2 j k 0
  rw [hu, hv] at this
  simp only [Option.bind_some, Option.map_some, Fl.fin_mul, Fl.fin_add] at this
  simp only [MRQ.number, hu, hv, this, one_mul]

/-- A typical realisation: the sum of squares at each scale. -/
theorem typical_sum {Ω : Type u} [MeasurableSpace Ω] {μ : Measure Ω} {G : ℤ → ℝ} {c g nm : ℝ} {R N : ℕ} {x : Ω → List (Fin R → ℝ)}
    {w : Ω → WT R} (h : IncrementAnalysis μ wt G c g nm N x w) (hwt : wt.Valid) {ω : Ω} {r : Fin R} {J : ℕ} {η : ℝ} {τ : ℕ → ℝ}
    (ht : ∀ p ∈ (w ω).wt_coefs.values, p.1 ≤ J → ∃ xs, Entries (col p.2 r) xs ∧ TypicalScale [(2, 0)] η √(c * τ p.1.toNat) xs)
    {j : ℕ} (hj : 1 ≤ j) (hjJ : j ≤ J) (hjl : j ≤ (w ω).wt_coefs.values.length) (hpos : 0 < c * τ j) :
    ∃ m : ℝ, |m - normalMoment 2 0| < η ∧ ∑ k ∈ interior N wt.dec_hi.length j, (w ω).wt_coefs.number j k r ^ 2 =
      c * (τ j * (interior N wt.dec_hi.length j).card) * m := by
  obtain ⟨hreg, -, he⟩ := h.entries hwt ω
  obtain ⟨q, j1, j2, weighted, h0⟩ := h.sampled
  obtain ⟨a, ha, -, -⟩ := col_coefs hwt (h0 ω) hj hjl r
  have hmem := List.mem_of_getElem? ha
  have haj : a.1 = (j : ℤ) := by
    have h2 := hreg.1
    have h3 : ((w ω).wt_coefs.values.map Prod.fst)[j - 1]? = some a.1 := by rw [List.getElem?_map, ha]; rfl
    rw [h2] at h3
    simp only [List.getElem?_map, List.getElem?_range (show j - 1 < (w ω).wt_coefs.values.length by omega), Option.map_some] at h3
    have := Option.some.inj h3
    omega
  obtain ⟨j', hj', -, -, hr⟩ := he a hmem
  have : j' = j := by rw [haj] at hj'; exact_mod_cast hj'.symm
  subst this
  obtain ⟨ys, e1, e2, e3, -⟩ := hr r
  obtain ⟨xs, f1, f2, -, f4⟩ := ht a hmem (by rw [haj]; exact_mod_cast hjJ)
  obtain rfl := f1.unique e1
  have hb := f4 (2, 0) (by simp)
  rw [haj, Int.toNat_natCast] at hb
  have hl : (0:ℝ) < (interior N wt.dec_hi.length j').card := by
    rw [← e3]; exact_mod_cast List.length_pos_iff.2 f2
  refine ⟨_, hb, ?_⟩
  rw [e2 (fun y => testF 2 0 (y / √(c * τ j'))), e3]
  have e : ∀ y : ℝ, testF 2 0 (y / √(c * τ j')) = y ^ 2 / (c * τ j') := by
    intro y
    rw [testF, pow_zero, mul_one, Real.rpow_two, sq_abs, div_pow, Real.sq_sqrt hpos.le]
  simp only [e]
  rw [← sum_div]
  have h1 := hpos.ne'
  have h2 := hl.ne'
  have h3 : c ≠ 0 := fun h => by simp [h] at h1
  have h4 : τ j' ≠ 0 := fun h => by simp [h] at h1
  field_simp

/-! ### Consistency -/

/-- Bilinearity. -/
theorem mixture_sum {R : ℕ} (α β : Fin R → ℝ) (t : ℝ) : ∑ r, (α r + t * β r) ^ 2 = ∑ r, α r ^ 2 + 2 * t * ∑ r, α r * β r + t ^ 2 * ∑ r, β r ^ 2 := by
  rw [mul_sum, mul_sum, ← sum_add_distrib, ← sum_add_distrib]
  exact sum_congr rfl fun r _ => by ring

theorem sum_sq_pos {R : ℕ} {α : Fin R → ℝ} (h : α ≠ 0) : 0 < ∑ r, α r ^ 2 := by
  obtain ⟨r, hr⟩ := Function.ne_iff.1 h
  exact sum_pos' (fun r _ => sq_nonneg _) ⟨r, mem_univ r, by have : α r ≠ 0 := hr; positivity⟩

/-- The coherence is a continuous function of the three normalised mean squares. -/
theorem coherence_continuous {a b s t m : ℝ} (ha : 0 < a) (hb : 0 < b) (ht : t ≠ 0) (hm : 0 < m) {ε : ℝ} (hε : 0 < ε) : ∃ η, 0 < η ∧ η ≤ m / 2 ∧
    ∀ u v z : ℝ, |u - m| < η → |v - m| < η → |z - m| < η →
      |((a + 2 * t * s + t ^ 2 * b) * z - a * u - t ^ 2 * (b * v)) / (2 * t) / √(a * u * (b * v)) - s / (√a * √b)| ≤ ε := by
  have hc : ContinuousAt (fun p : ℝ × ℝ × ℝ => ((a + 2 * t * s + t ^ 2 * b) * p.2.2 - a * p.1 - t ^ 2 * (b * p.2.1)) / (2 * t) /
      √(a * p.1 * (b * p.2.1))) (m, m, m) := by
    refine ContinuousAt.div ?_ ?_ ?_
    · fun_prop
    · exact (Real.continuous_sqrt.comp (by fun_prop)).continuousAt
    · have : 0 < a * m * (b * m) := by positivity
      exact (Real.sqrt_pos.2 this).ne'
  have hv : ((a + 2 * t * s + t ^ 2 * b) * m - a * m - t ^ 2 * (b * m)) / (2 * t) / √(a * m * (b * m)) = s / (√a * √b) := by
    have e : a * m * (b * m) = a * b * m ^ 2 := by ring
    rw [e, Real.sqrt_mul (by positivity), Real.sqrt_sq hm.le, Real.sqrt_mul ha.le]
    have h1 : √a ≠ 0 := (Real.sqrt_pos.2 ha).ne'
    have h2 : √b ≠ 0 := (Real.sqrt_pos.2 hb).ne'
    have h3 := hm.ne'
    field_simp
    ring
  rw [Metric.continuousAt_iff] at hc
  obtain ⟨η, hη, h⟩ := hc ε hε
  refine ⟨min η (m / 2), by positivity, min_le_right _ _, ?_⟩
  intro u v z hu hv' hz
  have := h (x := (u, v, z)) (by
    simp only [Prod.dist_eq, Real.dist_eq, max_lt_iff]
    exact ⟨hu.trans_le (min_le_left _ _), hv'.trans_le (min_le_left _ _), hz.trans_le (min_le_left _ _)⟩)
  simp only [Real.dist_eq] at this
  rw [hv] at this
  exact this.le

/-- A combination of `α` and `β` that is not zero. -/
theorem exists_combination {R : ℕ} {α β : Fin R → ℝ} (hβ : β ≠ 0) : ∃ t : ℝ, t ≠ 0 ∧ (fun r => α r + t * β r) ≠ 0 := by
  by_cases h : (fun r => α r + 1 * β r) = 0
  · refine ⟨2, by norm_num, fun h2 => hβ ?_⟩
    funext r
    have a1 := congrFun h r
    have a2 := congrFun h2 r
    simp only [Pi.zero_apply] at a1 a2 ⊢
    linarith
  · exact ⟨1, one_ne_zero, h⟩

/-- The coherence is near the correlation for every outcome for which the mean squares of the coefficients of the two signals, and of a combination
of them, are typical. -/
theorem coherence_at (hwt : wt.Valid) (hF : 4 ≤ wt.dec_hi.length) {G : ℤ → ℝ} {R : ℕ} {α β : Fin R → ℝ} (hα : α ≠ 0)
    (hβ : β ≠ 0) {t : ℝ} (ht : t ≠ 0) (hγ : (fun r => α r + t * β r) ≠ 0) (g nm : ℝ) (hnm : nm ≠ 0) (j2 : ℕ) (ε : ℝ) (hε : 0 < ε) :
    ∃ η : ℝ, 0 < η ∧
    ∀ {Ω : Type u} [MeasurableSpace Ω] {μ : Measure Ω} {N : ℕ} {x : Ω → List (Fin R → ℝ)} {A : ℕ → ℝ} {c : ℝ} {τ : ℕ → ℝ}, 0 < c →
      (∀ j, 1 ≤ j → j ≤ j2 → 0 < τ j) → 2 ^ (j2 + 1) * (wt.dec_hi.length + 1) ≤ N →
      GaussianArray μ N x (fun n m => A n + A m - c * G ((n : ℤ) - m)) →
      ∀ (j1 : ℕ) (weighted : Bool) (q1 q2 : List ℝ) (n : ℕ), 1 ≤ j1 → j1 ≤ j2 → q1.Nodup → q2.Nodup →
      ((0:ℝ) ∈ q1 ∧ (1:ℝ) ∈ q1 ∧ (2:ℝ) ∈ q1) → ((0:ℝ) ∈ q2 ∧ (1:ℝ) ∈ q2 ∧ (2:ℝ) ∈ q2) → 2 ≤ n → ∀ {W : (Fin R → ℝ) → Ω → WT 1},
      (∀ γ ω, waveletAnalysis (asFloats (mixture γ (x ω))) .inf wt j1 (some (j2 : ℝ)) g nm weighted = .ok (W γ ω)) → ∀ ω : Ω,
      (∀ p ∈ (W α ω).wt_coefs.values, p.1 ≤ j2 → ∃ xs, Entries (col p.2 (0 : Fin 1)) xs ∧
        TypicalScale [(2, 0)] η √((∑ r, α r ^ 2) * c * τ p.1.toNat) xs) →
      (∀ p ∈ (W β ω).wt_coefs.values, p.1 ≤ j2 → ∃ xs, Entries (col p.2 (0 : Fin 1)) xs ∧
        TypicalScale [(2, 0)] η √((∑ r, β r ^ 2) * c * τ p.1.toNat) xs) →
      (∀ p ∈ (W (fun r => α r + t * β r) ω).wt_coefs.values, p.1 ≤ j2 → ∃ xs, Entries (col p.2 (0 : Fin 1)) xs ∧
        TypicalScale [(2, 0)] η √((∑ r, (α r + t * β r) ^ 2) * c * τ p.1.toNat) xs) →
      ∃ d l, bivariateAnalysisFull (asFloats (mixture α (x ω))) (asFloats (mixture β (x ω))) j1 (some (j2 : ℝ)) nm g weighted wt
          .inf (some (.ndarray q1)) (some (.ndarray q2)) n = .ok (d, l) ∧
        ∀ j : ℕ, 1 ≤ j → j ≤ j2 → ∃ z, d.structure_.coherence[j - 1]? = some z ∧ Near z (correlation α β) ε := by
  have hm : 0 < normalMoment 2 0 := normalMoment_pos (by norm_num)
  have ha := sum_sq_pos hα
  have hb := sum_sq_pos hβ
  have hc' := sum_sq_pos hγ
  obtain ⟨η, hη, hηm, hcont⟩ := coherence_continuous (s := ∑ r, α r * β r) ha hb ht hm hε
  refine ⟨η, hη, ?_⟩
  intro Ω _ μ N x A c τ hc hτ hN2 hG j1 weighted q1 q2 n hj1 hj12 hn1 hn2 hq1 hq2 hn W hW ω g1 g2 g3
  have hN0 : N ≠ 0 := by
    have : 0 < 2 ^ (j2 + 1) * (wt.dec_hi.length + 1) := by positivity
    omega
  have hx := hG.length
  have hWs : ∀ γ ω, waveletAnalysis (sampled N fun r s => ((mixture γ (x ω)).getD s.toNat fun _ => 0) r) .inf wt j1 (some (j2 : ℝ)) g nm weighted = .ok (W γ ω) := by
    intro γ ω
    rw [← asFloats_sampled (by rw [mixture_length, hx])]; exact hW γ ω
  have hP : ∀ γ, IncrementAnalysis μ wt G ((∑ r, γ r ^ 2) * c) g nm N (fun ω => mixture γ (x ω)) (W γ) := by
    intro γ
    refine ⟨⟨fun n => (∑ r, γ r ^ 2) * A n, ?_⟩, _, _, _, _, hW γ⟩
    have := mixture_gaussian hG γ
    have e : (fun n m : ℕ => (∑ r, γ r ^ 2) * (A n + A m - c * G ((n : ℤ) - m))) =
        fun n m : ℕ => (∑ r, γ r ^ 2) * A n + (∑ r, γ r ^ 2) * A m - (∑ r, γ r ^ 2) * c * G ((n : ℤ) - m) := by
      funext n m; ring
    rwa [e] at this
  have hlong : ∀ γ ω, (W γ ω).j2_eff = j2 ∧ j2 ≤ (W γ ω).wt_coefs.values.length :=
    fun γ ω => long_enough one_ne_zero hwt (Or.inr hF) (hj1.trans hj12) hN2 (hWs γ ω)
  -- the call returns
  obtain ⟨L, hL⟩ : ∃ L, decompositionLevel N wt = .ok L := by
    rw [decompositionLevel, maxLevel, if_neg hN0]; exact ⟨_, rfl⟩
  have hjL : (j2 : ℤ) < L := by
    have h := ((maxLevel_iff hN0 L).1 hL).2
    have h2 : ((2:ℝ) ^ ((j2 : ℤ) + 1)) * ((wt.dec_hi.length : ℝ) + 1) ≤ N := by
      rw [show ((j2 : ℤ) + 1) = ((j2 + 1 : ℕ) : ℤ) by push_cast; ring, zpow_natCast]
      exact_mod_cast hN2
    have h3 : (2:ℝ) ^ ((j2 : ℤ) + 1) < (2:ℝ) ^ (L + 1) :=
      lt_of_mul_lt_mul_right (h2.trans_lt h) (by positivity)
    have := (zpow_lt_zpow_iff_right₀ (by norm_num : (1:ℝ) < 2)).1 h3
    omega
  obtain ⟨d, l, d1, l1, d2, l2, hd, -⟩ := C67_full_marginals (fun r s => ((mixture α (x ω)).getD s.toNat fun _ => 0) r)
    (fun r s => ((mixture β (x ω)).getD s.toNat fun _ => 0) r) wt hwt hF j1 (some (j2 : ℝ)) g nm hnm weighted q1 q2 hn1 hn2 hq1 hq2 n hn hL
    (by exact_mod_cast hj1) (by omega) (by rintro b hb; cases hb; exact_mod_cast hj12)
  refine ⟨d, l, ?_, ?_⟩
  · rw [asFloats_sampled (N := N) (by rw [mixture_length, hx]), asFloats_sampled (N := N) (by rw [mixture_length, hx])]; exact hd
  -- its coherence
  have hmake : BiStructFn.make false (W α ω).wt_coefs (W β ω).wt_coefs j1 (min (W α ω).j2_eff (W β ω).j2_eff) (.ndarray q1) (.ndarray q2) weighted =
      .ok d.structure_ := by
    unfold bivariateAnalysisFull at hd
    rw [hWs α ω] at hd
    simp only at hd
    rw [hWs β ω] at hd
    simp only at hd
    unfold bivariateAnalysis at hd
    simp only at hd
    split at hd
    · cases hd
    · rename_i dd hdd
      have : dd = d := by
        split at hd
        · split at hd
          · cases hd
          · cases hd; rfl
        · cases hd
      subst this
      unfold biVar at hdd
      split at hdd
      · cases hdd
      · simp only at hdd
        split at hdd
        · cases hdd
        · rename_i s hs
          cases hdd; exact hs
  intro j hj hjj
  have hjl := hjj.trans (hlong α ω).2
  have t1 := hτ j hj hjj
  obtain ⟨u, hu, eu⟩ := typical_sum (hP α) hwt g1 hj hjj hjl (by positivity)
  obtain ⟨v, hv, ev⟩ := typical_sum (hP β) hwt g2 hj hjj (hjj.trans (hlong β ω).2) (by positivity)
  obtain ⟨z, hz, ez⟩ := typical_sum (hP _) hwt g3 hj hjj (hjj.trans (hlong _ ω).2) (by positivity)
  have hcard : 0 < (interior N wt.dec_hi.length j).card := by
    have := (hP α).card hwt one_ne_zero hj hjl; omega
  have hu0 : 0 < u := by have := (abs_lt.1 hu).1; linarith
  have hv0 : 0 < v := by have := (abs_lt.1 hv).1; linarith
  obtain ⟨D, hGd⟩ : ∃ D, D = c * (τ j * (interior N wt.dec_hi.length j).card) := ⟨_, rfl⟩
  have hG0 : 0 < D := by rw [hGd]; positivity
  have eu' : ∑ k ∈ interior N wt.dec_hi.length j, (W α ω).wt_coefs.number j k 0 ^ 2 = D * ((∑ r, α r ^ 2) * u) := by rw [eu, hGd]; ring
  have ev' : ∑ k ∈ interior N wt.dec_hi.length j, (W β ω).wt_coefs.number j k 0 ^ 2 = D * ((∑ r, β r ^ 2) * v) := by rw [ev, hGd]; ring
  have hcoh := coherence_value hwt (hWs α ω) (hWs β ω) hmake hj hjl (by rw [eu']; positivity) (by rw [ev']; positivity)
  refine ⟨_, hcoh, _, rfl, ?_⟩
  -- the mixed sum
  have hW3 := hWs (fun r => α r + t * β r) ω
  have e3 : (fun (r : Fin 1) (s : ℤ) => ((mixture (fun r => α r + t * β r) (x ω)).getD s.toNat fun _ => 0) r) =
      fun r s => 1 * ((mixture α (x ω)).getD s.toNat fun _ => 0) r + t * ((mixture β (x ω)).getD s.toNat fun _ => 0) r := by
    funext r s
    simp only [mixture_getD]
    rw [one_mul, mul_sum, ← sum_add_distrib]
    exact sum_congr rfl fun r _ => by ring
  rw [e3] at hW3
  have hlin := fun k hk => number_linear (k := k) t hwt (hWs α ω) (hWs β ω) hW3 hj hjl hk
  have hmix : ∑ k ∈ interior N wt.dec_hi.length j, (W α ω).wt_coefs.number j k 0 * (W β ω).wt_coefs.number j k 0 =
      D * (((∑ r, (α r + t * β r) ^ 2) * z - (∑ r, α r ^ 2) * u - t ^ 2 * ((∑ r, β r ^ 2) * v)) / (2 * t)) := by
    have e1 : ∑ k ∈ interior N wt.dec_hi.length j, (W (fun r => α r + t * β r) ω).wt_coefs.number j k 0 ^ 2 =
        ∑ k ∈ interior N wt.dec_hi.length j, (W α ω).wt_coefs.number j k 0 ^ 2 +
        2 * t * ∑ k ∈ interior N wt.dec_hi.length j, (W α ω).wt_coefs.number j k 0 * (W β ω).wt_coefs.number j k 0 +
        t ^ 2 * ∑ k ∈ interior N wt.dec_hi.length j, (W β ω).wt_coefs.number j k 0 ^ 2 := by
      rw [mul_sum, mul_sum, ← sum_add_distrib, ← sum_add_distrib]
      exact sum_congr rfl fun k hk => by rw [hlin k hk]; ring
    rw [ez, eu', ev'] at e1
    rw [eq_comm, ← mul_div_assoc, div_eq_iff (by positivity), hGd]
    rw [hGd] at e1
    linarith
  rw [hmix, eu', ev']
  have hfin := hcont u v z hu hv hz
  rw [mixture_sum]
  refine le_trans (le_of_eq ?_) hfin
  rw [show D * ((∑ r, α r ^ 2) * u) * (D * ((∑ r, β r ^ 2) * v)) = (∑ r, α r ^ 2) * u * ((∑ r, β r ^ 2) * v) * D ^ 2 by ring,
    Real.sqrt_mul (by positivity), Real.sqrt_sq hG0.le, mul_comm _ D, mul_div_mul_left _ _ hG0.ne']
  rfl

/-- The rate of C107: except with probability at most `C / N`, the coherence is within `ε` of the correlation of the signals at all scales up to `j2`. -/
theorem coherence_rate {M : ℕ} (hM : VanishingMoments wt.dec_hi M) (hM1 : 1 ≤ M) (hwt : wt.Valid)
    (hF : 4 ≤ wt.dec_hi.length) {G : ℤ → ℝ} {h b : ℝ} (hK : ScalingKernel wt G h b) {R : ℕ} {α β : Fin R → ℝ} (hα : α ≠ 0)
    (hβ : β ≠ 0) (g nm : ℝ) (hnm : nm ≠ 0) (j2 : ℕ) (ε : ℝ) (hε : 0 < ε) : ∃ C : ℝ,
    ∀ {Ω : Type u} [MeasurableSpace Ω] {μ : Measure Ω} {N : ℕ} {x : Ω → List (Fin R → ℝ)} {A : ℕ → ℝ} {c : ℝ}, 0 < c → 1 ≤ N →
      GaussianArray μ N x (fun n m => A n + A m - c * G ((n : ℤ) - m)) →
      ∀ (j1 : ℕ) (weighted : Bool) (q1 q2 : List ℝ) (n : ℕ), 1 ≤ j1 → j1 ≤ j2 → q1.Nodup → q2.Nodup →
      ((0:ℝ) ∈ q1 ∧ (1:ℝ) ∈ q1 ∧ (2:ℝ) ∈ q1) → ((0:ℝ) ∈ q2 ∧ (1:ℝ) ∈ q2 ∧ (2:ℝ) ∈ q2) → 2 ≤ n →
      μ {ω | ¬ ∃ d l, bivariateAnalysisFull (asFloats (mixture α (x ω))) (asFloats (mixture β (x ω))) j1 (some (j2 : ℝ)) nm g weighted wt
          .inf (some (.ndarray q1)) (some (.ndarray q2)) n = .ok (d, l) ∧
        ∀ j : ℕ, 1 ≤ j → j ≤ j2 → ∃ z, d.structure_.coherence[j - 1]? = some z ∧ Near z (correlation α β) ε} ≤ ENNReal.ofReal (C / N) := by
  obtain ⟨t, ht, hγ⟩ := exists_combination (α := α) hβ
  obtain ⟨τ, V, B, hV, hB, hlln⟩ := joint_rateG.{u} hM hM1 hwt hK g nm
  have ha := sum_sq_pos hα
  have hb := sum_sq_pos hβ
  have hc' := sum_sq_pos hγ
  obtain ⟨η, hη, hcore⟩ := coherence_at.{u} (G := G) hwt hF hα hβ ht hγ g nm hnm j2 ε hε
  obtain ⟨C, hC, hlln⟩ := hlln [(2, 0)] (by simp; norm_num) j2 η hη
  obtain ⟨N₀, hN₀⟩ : ∃ N₀, N₀ = 2 ^ (j2 + 1) * (2 * wt.dec_hi.length + 1) := ⟨_, rfl⟩
  refine ⟨3 * C + N₀, ?_⟩
  intro Ω _ μ N x A c hc hN1 hG j1 weighted q1 q2 n hj1 hj12 hn1 hn2 hq1 hq2 hn
  have hμ : IsProbabilityMeasure μ := hG.gaussian.isProbabilityMeasure
  have hNr : (0:ℝ) < N := by exact_mod_cast hN1
  by_cases hN : N₀ ≤ N
  swap
  · refine prob_le_one.trans ?_
    rw [← ENNReal.ofReal_one]
    refine ENNReal.ofReal_le_ofReal ?_
    rw [le_div_iff₀ hNr, one_mul]
    have : (N : ℝ) ≤ N₀ := by exact_mod_cast (not_le.1 hN).le
    linarith
  have hN3 : 2 ^ j2 * (4 * wt.dec_hi.length + 2) ≤ N := by
    refine le_trans (le_of_eq ?_) (hN₀ ▸ hN)
    rw [pow_succ]; ring
  have hN2 : 2 ^ (j2 + 1) * (wt.dec_hi.length + 1) ≤ N := by
    refine le_trans (Nat.mul_le_mul_left _ ?_) (hN₀ ▸ hN)
    omega
  have hN0 : N ≠ 0 := by
    have : 0 < 2 ^ (j2 + 1) * (wt.dec_hi.length + 1) := by positivity
    omega
  have hx := hG.length
  -- the transforms
  have htot : ∀ (γ : Fin R → ℝ) (ω : Ω), ∃ w, waveletAnalysis (asFloats (mixture γ (x ω))) .inf wt j1 (some (j2 : ℝ)) g nm weighted = .ok w := by
    intro γ ω
    refine C05_total _ .inf (Or.inr rfl) wt _ _ g nm weighted one_ne_zero ?_ hnm
    intro h0; have := congrArg List.length h0; simp [asFloats, mixture_length, hx ω] at this; exact hN0 this
  choose W hW using htot
  have hWs : ∀ γ ω, waveletAnalysis (sampled N fun r s => ((mixture γ (x ω)).getD s.toNat fun _ => 0) r) .inf wt j1 (some (j2 : ℝ)) g nm weighted = .ok (W γ ω) := by
    intro γ ω
    rw [← asFloats_sampled (by rw [mixture_length, hx])]; exact hW γ ω
  have hP : ∀ γ, IncrementAnalysis μ wt G ((∑ r, γ r ^ 2) * c) g nm N (fun ω => mixture γ (x ω)) (W γ) := by
    intro γ
    refine ⟨⟨fun n => (∑ r, γ r ^ 2) * A n, ?_⟩, _, _, _, _, hW γ⟩
    have := mixture_gaussian hG γ
    have e : (fun n m : ℕ => (∑ r, γ r ^ 2) * (A n + A m - c * G ((n : ℤ) - m))) =
        fun n m : ℕ => (∑ r, γ r ^ 2) * A n + (∑ r, γ r ^ 2) * A m - (∑ r, γ r ^ 2) * c * G ((n : ℤ) - m) := by
      funext n m; ring
    rwa [e] at this
  have hlong : ∀ γ ω, (W γ ω).j2_eff = j2 ∧ j2 ≤ (W γ ω).wt_coefs.values.length :=
    fun γ ω => long_enough one_ne_zero hwt (Or.inr hF) (hj1.trans hj12) hN2 (hWs γ ω)
  have hbad := fun (γ : Fin R → ℝ) (hγ : 0 < ∑ r, γ r ^ 2) => hlln (mul_pos hγ hc) (hP γ) hN3 (fun ω => (hlong γ ω).2) 0
  let bad : (Fin R → ℝ) → Set Ω := fun γ => {ω | ¬ ∀ p ∈ (W γ ω).wt_coefs.values, p.1 ≤ j2 → ∃ xs, Entries (col p.2 (0 : Fin 1)) xs ∧
    TypicalScale [(2, 0)] η √((∑ r, γ r ^ 2) * c * τ p.1.toNat) xs}
  have hτ : ∀ j, 1 ≤ j → j ≤ j2 → 0 < τ j := fun j h1 h2 => ((hbad α ha).1 j h1 h2).1
  refine (measure_mono (t := bad α ∪ bad β ∪ bad fun r => α r + t * β r) ?_).trans ?_
  swap
  · refine (measure_union_le _ _).trans ((add_le_add_left (measure_union_le _ _) _).trans ?_)
    refine (add_le_add (add_le_add (hbad α ha).2 (hbad β hb).2) (hbad _ hc').2).trans ?_
    rw [← ENNReal.ofReal_add (by positivity) (by positivity), ← ENNReal.ofReal_add (by positivity) (by positivity)]
    refine ENNReal.ofReal_le_ofReal ?_
    rw [← add_div, ← add_div]
    refine div_le_div_of_nonneg_right ?_ hNr.le
    have : (0:ℝ) ≤ N₀ := by positivity
    linarith
  intro ω hω
  by_contra hgood
  simp only [Set.mem_union, not_or] at hgood
  obtain ⟨⟨g1, g2⟩, g3⟩ := hgood
  apply hω
  simp only [bad, Set.mem_ofPred_eq, not_not] at g1 g2 g3
  exact hcore hc hτ hN2 hG j1 weighted q1 q2 n hj1 hj12 hn1 hn2 hq1 hq2 hn hW ω g1 g2 g3

/-- **C107, Gaussian signals with scaling increments**: two signals are linear combinations, with coefficients `α` and `β`, of the columns of an array of
independent Gaussian signals with stationary increments and variogram `2c (G t - G 0)`, where `G` scales with the exponent `h`.  When the signals are long enough,
`bivariate_analysis_full` returns, with probability at least `1 - δ`, a coherence that at every scale up to `j2` is within `ε` of the
correlation coefficient of the two combinations. -/
theorem C107_increments {M : ℕ} (hM : VanishingMoments wt.dec_hi M) (hM1 : 1 ≤ M) (hwt : wt.Valid)
    (hF : 4 ≤ wt.dec_hi.length) {G : ℤ → ℝ} {h b : ℝ} (hK : ScalingKernel wt G h b) {R : ℕ} {α β : Fin R → ℝ} (hα : α ≠ 0)
    (hβ : β ≠ 0) (g nm : ℝ) (hnm : nm ≠ 0) (j2 : ℕ) (ε δ : ℝ) (hε : 0 < ε) (hδ : 0 < δ) : ∃ N₀ : ℕ,
    ∀ {Ω : Type u} [MeasurableSpace Ω] {μ : Measure Ω} {N : ℕ} {x : Ω → List (Fin R → ℝ)} {A : ℕ → ℝ} {c : ℝ}, 0 < c → N₀ ≤ N →
      GaussianArray μ N x (fun n m => A n + A m - c * G ((n : ℤ) - m)) →
      ∀ (j1 : ℕ) (weighted : Bool) (q1 q2 : List ℝ) (n : ℕ), 1 ≤ j1 → j1 ≤ j2 → q1.Nodup → q2.Nodup →
      ((0:ℝ) ∈ q1 ∧ (1:ℝ) ∈ q1 ∧ (2:ℝ) ∈ q1) → ((0:ℝ) ∈ q2 ∧ (1:ℝ) ∈ q2 ∧ (2:ℝ) ∈ q2) → 2 ≤ n →
      μ {ω | ¬ ∃ d l, bivariateAnalysisFull (asFloats (mixture α (x ω))) (asFloats (mixture β (x ω))) j1 (some (j2 : ℝ)) nm g weighted wt
          .inf (some (.ndarray q1)) (some (.ndarray q2)) n = .ok (d, l) ∧
        ∀ j : ℕ, 1 ≤ j → j ≤ j2 → ∃ z, d.structure_.coherence[j - 1]? = some z ∧ Near z (correlation α β) ε} ≤ ENNReal.ofReal δ := by
  obtain ⟨C, hC⟩ := coherence_rate.{u} hM hM1 hwt hF hK hα hβ g nm hnm j2 ε hε
  obtain ⟨n₀, hn₀⟩ := exists_nat_gt (C / δ)
  refine ⟨n₀ + 1, ?_⟩
  intro Ω _ μ N x A c hc hN hG j1 weighted q1 q2 n a1 a2 a3 a4 a5 a6 a7
  refine (hC hc (by omega) hG j1 weighted q1 q2 n a1 a2 a3 a4 a5 a6 a7).trans (ENNReal.ofReal_le_ofReal ?_)
  have hN1 : (n₀ : ℝ) + 1 ≤ N := by exact_mod_cast hN
  have hn0 : (0:ℝ) ≤ n₀ := by positivity
  rw [div_le_iff₀ (by linarith)]
  rw [div_lt_iff₀ hδ] at hn₀
  nlinarith

/-- **C107, power law signals**: two signals are linear combinations, with coefficients `α` and `β`, of the columns of an array of
independent Gaussian signals with stationary increments and variogram `2c|t|^(2H)`.  When the signals are long enough,
`bivariate_analysis_full` returns, with probability at least `1 - δ`, a coherence that at every scale up to `j2` is within `ε` of the
correlation coefficient of the two combinations. -/
theorem C107_coherence {M : ℕ} (hM : VanishingMoments wt.dec_hi M) (hM1 : 1 ≤ M) (hwt : wt.Valid) (ho : OrthonormalBank wt)
    (hF : 4 ≤ wt.dec_hi.length) {H : ℝ} (h0 : 0 < H) (h1 : H < 1) (hH : 4 * H - 4 * M < -1) {R : ℕ} {α β : Fin R → ℝ} (hα : α ≠ 0)
    (hβ : β ≠ 0) (g nm : ℝ) (hnm : nm ≠ 0) (j2 : ℕ) (ε δ : ℝ) (hε : 0 < ε) (hδ : 0 < δ) : ∃ N₀ : ℕ,
    ∀ {Ω : Type u} [MeasurableSpace Ω] {μ : Measure Ω} {N : ℕ} {x : Ω → List (Fin R → ℝ)} {A : ℕ → ℝ} {c : ℝ}, 0 < c → N₀ ≤ N →
      GaussianArray μ N x (fun n m => A n + A m - c * |(n : ℝ) - m| ^ (2 * H)) →
      ∀ (j1 : ℕ) (weighted : Bool) (q1 q2 : List ℝ) (n : ℕ), 1 ≤ j1 → j1 ≤ j2 → q1.Nodup → q2.Nodup →
      ((0:ℝ) ∈ q1 ∧ (1:ℝ) ∈ q1 ∧ (2:ℝ) ∈ q1) → ((0:ℝ) ∈ q2 ∧ (1:ℝ) ∈ q2 ∧ (2:ℝ) ∈ q2) → 2 ≤ n →
      μ {ω | ¬ ∃ d l, bivariateAnalysisFull (asFloats (mixture α (x ω))) (asFloats (mixture β (x ω))) j1 (some (j2 : ℝ)) nm g weighted wt
          .inf (some (.ndarray q1)) (some (.ndarray q2)) n = .ok (d, l) ∧
        ∀ j : ℕ, 1 ≤ j → j ≤ j2 → ∃ z, d.structure_.coherence[j - 1]? = some z ∧ Near z (correlation α β) ε} ≤ ENNReal.ofReal δ := by
  obtain ⟨N₀, h⟩ := C107_increments.{u} hM hM1 hwt hF (powerLaw_kernel hM hM1 hwt ho h0 h1 hH) hα hβ g nm hnm j2 ε δ hε hδ
  refine ⟨N₀, ?_⟩
  intro Ω _ μ N x A c hc hN hG
  refine h (A := A) hc hN ?_
  convert hG using 7
  push_cast; rfl

/-- **C107, end to end**: simulate `R` independent fractional Brownian motions with `fbm`, form two signals by combining the columns with
the coefficients `α` and `β`, and pass them to `bivariate_analysis_full`: for long signals the coherence is, at all scales up to `j2`,
within `ε` of the correlation of the two signals, with probability at least `1 - δ`. -/
theorem C107_fbm {M : ℕ} (hM : VanishingMoments wt.dec_hi M) (hM1 : 1 ≤ M) (hwt : wt.Valid) (ho : OrthonormalBank wt)
    (hF : 4 ≤ wt.dec_hi.length) {H : ℝ} (h0 : 0 < H) (h1 : H < 1) (hH : 4 * H - 4 * M < -1) {R : ℕ} {α β : Fin R → ℝ} (hα : α ≠ 0)
    (hβ : β ≠ 0) (g nm : ℝ) (hnm : nm ≠ 0) (j2 : ℕ) (ε δ : ℝ) (hε : 0 < ε) (hδ : 0 < δ) : ∃ N₀ : ℕ,
    ∀ {Ω : Type u} [MeasurableSpace Ω] {μ : Measure Ω} {gen : Ω → ℕ → ℝ}, StdNormal μ gen →
    ∀ {N : ℕ} {sigma : ℝ} {dt : Option ℝ} (z0 : Option (CArr R)), N₀ ≤ N → sigma ≠ 0 → (∀ d, dt = some d → 0 ≤ d) →
      ∃ x : Ω → RArr R, Returns (fbm R N H sigma dt "cme" z0) gen x ∧
      ∀ (j1 : ℕ) (weighted : Bool) (q1 q2 : List ℝ) (n : ℕ), 1 ≤ j1 → j1 ≤ j2 → q1.Nodup → q2.Nodup →
      ((0:ℝ) ∈ q1 ∧ (1:ℝ) ∈ q1 ∧ (2:ℝ) ∈ q1) → ((0:ℝ) ∈ q2 ∧ (1:ℝ) ∈ q2 ∧ (2:ℝ) ∈ q2) → 2 ≤ n →
      μ {ω | ¬ ∃ d l, bivariateAnalysisFull (asFloats (mixture α (x ω))) (asFloats (mixture β (x ω))) j1 (some (j2 : ℝ)) nm g weighted wt
          .inf (some (.ndarray q1)) (some (.ndarray q2)) n = .ok (d, l) ∧
        ∀ j : ℕ, 1 ≤ j → j ≤ j2 → ∃ z, d.structure_.coherence[j - 1]? = some z ∧ Near z (correlation α β) ε} ≤ ENNReal.ofReal δ := by
  obtain ⟨N₀, h⟩ := C107_coherence.{u} hM hM1 hwt ho hF h0 h1 hH hα hβ g nm hnm j2 ε δ hε hδ
  refine ⟨max N₀ 2, ?_⟩
  intro Ω _ μ gen hg N sigma dt z0 hN hs hdt
  have hR : R ≠ 0 := by
    rintro rfl; exact hα (Subsingleton.elim _ _)
  have hN2 := (le_max_right _ _).trans hN
  obtain ⟨x, hx, hG, -⟩ := C85_fbm (R := R) (sigma := sigma) z0 h0 h1.le hN2 hdt hR hg
  have hstep := (fgnDt_eq (by omega : N ≠ 0) hdt).2
  rw [fbm_powerLaw H sigma hstep.le] at hG
  refine ⟨x, hx, fun j1 weighted q1 q2 n a1 a2 a3 a4 a5 a6 a7 => ?_⟩
  exact h (by positivity) ((le_max_left _ _).trans hN) hG j1 weighted q1 q2 n a1 a2 a3 a4 a5 a6 a7

/-- Correlated signals: `X` and `ρ X + √(1 - ρ²) Y` have correlation `ρ`. -/
theorem correlation_pair {ρ : ℝ} (h : |ρ| ≤ 1) : correlation ![1, 0] ![ρ, √(1 - ρ ^ 2)] = ρ := by
  have h2 : 0 ≤ 1 - ρ ^ 2 := by have := (sq_le_one_iff_abs_le_one ρ).2 h; linarith
  simp [correlation, Fin.sum_univ_two, Real.sq_sqrt h2]

/-! The hypotheses are met: with `db2`, two columns, every `0 < H < 1`; the coherence approaches any prescribed `ρ`. -/
example (H : ℝ) (h0 : 0 < H) (h1 : H < 1) (ρ : ℝ) (hρ : |ρ| ≤ 1) (j2 : ℕ) (hj2 : 1 ≤ j2) (ε δ : ℝ) (hε : 0 < ε) (hδ : 0 < δ) : ∃ N : ℕ,
    ∃ (Ω : Type) (_ : MeasurableSpace Ω) (μ : Measure Ω) (gen : Ω → ℕ → ℝ) (x : Ω → RArr 2), StdNormal μ gen ∧
    Returns (fbm 2 N H 1 none "cme" none) gen x ∧
    μ {ω | ¬ ∃ d l, bivariateAnalysisFull (asFloats (mixture ![1, 0] (x ω))) (asFloats (mixture ![ρ, √(1 - ρ ^ 2)] (x ω))) (1 : ℕ)
        (some (j2 : ℝ)) 1 0 true db2 .inf (some (.ndarray [0, 1, 2])) (some (.ndarray [0, 1, 2])) 2 = .ok (d, l) ∧
      ∀ j : ℕ, 1 ≤ j → j ≤ j2 → ∃ z, d.structure_.coherence[j - 1]? = some z ∧ Near z ρ ε} ≤ ENNReal.ofReal δ := by
  obtain ⟨hv, ho, hm⟩ := db2_orthonormal
  have hβ : (![ρ, √(1 - ρ ^ 2)] : Fin 2 → ℝ) ≠ 0 := by
    intro h
    have a1 := congrFun h 0
    have a2 := congrFun h 1
    simp only [Matrix.cons_val_zero, Matrix.cons_val_one, Pi.zero_apply] at a1 a2
    rw [a1] at a2
    norm_num at a2
  obtain ⟨N₀, hN₀⟩ := C107_fbm hm (by norm_num) hv ho (by simp [db2]) h0 h1 (by push_cast; linarith) (α := ![1, 0])
    (fun h => by have := congrFun h 0; simp at this) hβ 0 1 one_ne_zero j2 ε δ hε hδ
  obtain ⟨Ω, m, μ, gen, hg⟩ := exists_stdNormal
  obtain ⟨x, hx, hb⟩ := hN₀ hg (N := N₀) (sigma := 1) (dt := none) none le_rfl one_ne_zero (by intro d hd; cases hd)
  have := hb 1 true [0, 1, 2] [0, 1, 2] 2 le_rfl hj2 (by norm_num) (by norm_num) (by norm_num) (by norm_num) le_rfl
  rw [correlation_pair hρ] at this
  exact ⟨N₀, Ω, m, μ, gen, x, hg, hx, this⟩

end

end MFA
