import Verif.Lemmas.BiTame
import Verif.Props.BiConsistency

/-!
# Property C141: the bivariate analysis of the wavelet leaders of correlated fractional Brownian motions recovers the exponents
-/

namespace MFA

universe u

open Classical Finset MeasureTheory ProbabilityTheory

noncomputable section

variable {wt : Wavelet}

theorem list_bound {ι : Type} {l : List ι} {P : ι → ℝ → Prop} (hm : ∀ i a b, a ≤ b → P i a → P i b) (h : ∀ i ∈ l, ∃ C : ℝ, P i C) :
    ∃ C : ℝ, 0 ≤ C ∧ ∀ i ∈ l, P i C := by
  induction l with
  | nil => exact ⟨0, le_rfl, by simp⟩
  | cons i l ih =>
    obtain ⟨C1, h1, h2⟩ := ih fun k hk => h k (List.mem_cons_of_mem _ hk)
    obtain ⟨C2, h3⟩ := h i (by simp)
    refine ⟨max C1 C2, le_max_of_le_left h1, fun k hk => ?_⟩
    rcases List.mem_cons.1 hk with rfl | hk
    · exact hm _ _ _ (le_max_right _ _) h3
    · exact hm _ _ _ (le_max_left _ _) (h2 k hk)

/-- All the estimates of a bivariate analysis are within `ε` of those of two monofractal signals of the exponents `h1` and `h2`:
`zeta(e1, e2) = e1 h1 + e2 h2`, `c_{10} = h1`, `c_{01} = h2`, and all the other log-cumulants are zero, among them the joint `c_{11}`. -/
def BiExponentsNear (v : MFBiVar 1) (q1 q2 : List ℝ) (n : ℕ) (h1 h2 ε : ℝ) : Prop :=
  (∀ (i k : ℕ) (e1 e2 : ℝ), q1[i]? = some e1 → q2[k]? = some e2 →
    ∃ z, (v.structure_.zeta[i]?.bind fun l => l[k]?) = some z ∧ Near z (e1 * h1 + e2 * h2) ε) ∧
  ∀ a b : ℕ, a ≤ n → b ≤ n → Near (v.cumulants.log_cumulants a b) (if a = 1 ∧ b = 0 then h1 else if a = 0 ∧ b = 1 then h2 else 0) ε

/-- **The unweighted bivariate analysis of two quantities whose scales are all tame.** -/
theorem bi_wide {p s : ℝ} (hs : 0 < s) (hp : 0 < p) (q1 q2 : List ℝ) (n : ℕ) (hn1 : q1.Nodup) (hn2 : q2.Nodup)
    (hq1 : (0:ℝ) ∈ q1 ∧ (1:ℝ) ∈ q1 ∧ (2:ℝ) ∈ q1) (hq2 : (0:ℝ) ∈ q2 ∧ (1:ℝ) ∈ q2 ∧ (2:ℝ) ∈ q2)
    (hl1 : ∀ e ∈ q1, -s < 2 * e ∧ 2 * e < p) (hl2 : ∀ e ∈ q2, -s < 2 * e ∧ 2 * e < p) (hn : 2 ≤ n) (K B : ℝ) (hB : 0 ≤ B) :
    ∃ C : ℝ, 0 ≤ C ∧ ∀ {J : ℕ} {m1 m2 : MRQ 1} {j1 j2 : ℕ} {σ1 σ2 : ℕ → ℝ} {a1 a2 h1 h2 : ℝ} {v : MFBiVar 1} {v1 v2 : MFVar 1},
      Paired m1 m2 J → SameNaN m1 m2 → 1 ≤ j1 → j1 < j2 → j2 ≤ J → IsBundle m1 j1 j2 false n q1 v1 → IsBundle m2 j1 j2 false n q2 v2 →
      biVar false m1 m2 j1 j2 false n (some (.ndarray q1)) (some (.ndarray q2)) = .ok v →
      (∀ j, j1 ≤ j → j ≤ j2 → 0 < σ1 j ∧ |Real.logb 2 (σ1 j) - (a1 + h1 * j)| ≤ B) →
      (∀ j, j1 ≤ j → j ≤ j2 → 0 < σ2 j ∧ |Real.logb 2 (σ2 j) - (a2 + h2 * j)| ≤ B) →
      (∀ b ∈ m1.values, ∀ j : ℕ, b.1 = j → j1 ≤ j → j ≤ j2 → ∃ xs, Entries (col b.2 0) xs ∧ Tame p s K (σ1 j) xs) →
      (∀ b ∈ m2.values, ∀ j : ℕ, b.1 = j → j1 ≤ j → j ≤ j2 → ∃ xs, Entries (col b.2 0) xs ∧ Tame p s K (σ2 j) xs) →
      BiExponentsNear v q1 q2 n h1 h2 (C / (j2 - j1)) := by
  have hr : ∀ e : ℝ, -s < 2 * e ∧ 2 * e < p → -s < e ∧ e < p := by
    rintro e ⟨h1, h2⟩
    constructor <;> linarith
  obtain ⟨Ca, hCa, ha⟩ := wide_estimates hs hp q1 n hq1.2.2 (fun e he => hr e (hl1 e he)) K B hB
  obtain ⟨Cb, hCb, hb⟩ := wide_estimates hs hp q2 n hq2.2.2 (fun e he => hr e (hl2 e he)) K B hB
  obtain ⟨Cc, hCc, hc⟩ := cov_pmean_le hs hp K
  obtain ⟨Cz, hCz, hz⟩ := list_bound (l := q1.flatMap fun e1 => q2.map fun e2 => (e1, e2))
    (P := fun e C => |e.1| + |e.2| ≤ C ∧ ∀ (σ1 σ2 : ℝ) (zs : List (ℝ × ℝ)), 0 < σ1 → 0 < σ2 → Tame p s K σ1 (zs.map Prod.fst) →
      Tame p s K σ2 (zs.map Prod.snd) → |Real.logb 2 (pmean ((e.1, 0), (e.2, 0)) σ1 σ2 zs)| ≤ C)
    (fun e a b hab h => ⟨h.1.trans hab, fun σ1 σ2 zs x1 x2 x3 x4 => (h.2 σ1 σ2 zs x1 x2 x3 x4).trans hab⟩) (by
      intro e he
      simp only [List.mem_flatMap, List.mem_map] at he
      obtain ⟨e1, h1, e2, h2, rfl⟩ := he
      obtain ⟨C, -, h⟩ := logb_pmean_le hs hp (hl1 e1 h1).1 (hl1 e1 h1).2 (hl2 e2 h2).1 (hl2 e2 h2).2 K
      exact ⟨max (|e1| + |e2|) C, le_max_left _ _, fun σ1 σ2 zs x1 x2 x3 x4 => (h σ1 σ2 zs x1 x2 x3 x4).trans (le_max_right _ _)⟩)
  have hle : 0 < log2e := by
    unfold log2e; exact Real.logb_pos (by norm_num) (by have := Real.add_one_lt_exp (x := 1) one_ne_zero; linarith)
  refine ⟨max (max Ca Cb) (max (6 * Cc * log2e) (6 * (Cz + Cz * B))), by positivity, ?_⟩
  intro J m1 m2 j1 j2 σ1 σ2 a1 a2 h1 h2 v v1 v2 hpr hsn hj1 hj12 hJ hv1 hv2 hv hσ1 hσ2 ht1 ht2
  have ha1 : (1:ℤ) ≤ (j1 : ℤ) := by exact_mod_cast hj1
  have ha2 : (j1 : ℤ) ≤ (j2 : ℤ) := by exact_mod_cast hj12.le
  have ha3 : (j2 : ℤ) ≤ (J : ℤ) := by exact_mod_cast hJ
  have hj : (0:ℝ) < (j2:ℝ) - j1 := by
    have : (j1:ℝ) < j2 := by exact_mod_cast hj12
    linarith
  obtain ⟨C, hC⟩ : ∃ C, C = max (max Ca Cb) (max (6 * Cc * log2e) (6 * (Cz + Cz * B))) := ⟨_, rfl⟩
  have c1 : Ca ≤ C := hC ▸ (le_max_left _ _).trans (le_max_left _ _)
  have c2 : Cb ≤ C := hC ▸ (le_max_right _ _).trans (le_max_left _ _)
  have c3 : 6 * Cc * log2e ≤ C := hC ▸ (le_max_left _ _).trans (le_max_right _ _)
  have c4 : 6 * (Cz + Cz * B) ≤ C := hC ▸ (le_max_right _ _).trans (le_max_right _ _)
  rw [← hC]
  have hma := (ha hpr.reg1 hj1 hj12 hJ hv1 hσ1 ht1).mono (div_le_div_of_nonneg_right c1 hj.le)
  have hmb := (hb hpr.reg2 hj1 hj12 hJ hv2 hσ2 ht2).mono (div_le_div_of_nonneg_right c2 hj.le)
  obtain ⟨v', hv', hmarg⟩ := biVar_marginals hpr hsn ha1 ha2 ha3 false n hn q1 q2 hn1 hn2 hq1 hq2 hv1 hv2
  rw [hv] at hv'
  obtain rfl := Except.ok.inj hv'
  have hmake : BiCumulants.make false m1 m2 n j1 j2 false = .ok v.cumulants ∧
      BiStructFn.make false m1 m2 j1 j2 (.ndarray q1) (.ndarray q2) false = .ok v.structure_ := by
    unfold biVar at hv
    split at hv
    · cases hv
    · rename_i cc hcc
      simp only at hv
      split at hv
      · cases hv
      · rename_i s hs
        cases hv; exact ⟨hcc, hs⟩
  obtain ⟨hmc, hms⟩ := hmake
  have hscale : ∀ q ∈ biList m1 m2, ∀ j : ℕ, q.1.1 = j → j1 ≤ j → j ≤ j2 → ∃ zs, JointIs (biPairs q) zs ∧
      Tame p s K (σ1 j) (zs.map Prod.fst) ∧ Tame p s K (σ2 j) (zs.map Prod.snd) := by
    intro q hq j hqj g1 g2
    obtain ⟨xs, x1, x2⟩ := ht1 q.1 (hpr.mem1 hq) j hqj g1 g2
    obtain ⟨ys, y1, y2⟩ := ht2 q.2 (hpr.mem2 hq) j (by rw [← hpr.keys hq]; exact hqj) g1 g2
    exact tame_pairs hpr hsn hq x1 y1 x2 y2
  refine ⟨?_, ?_⟩
  · intro i k e1 e2 hi hk
    have m1' := List.mem_of_getElem? hi
    have m2' := List.mem_of_getElem? hk
    obtain ⟨z1, z2⟩ := hz (e1, e2) (by
      simp only [List.mem_flatMap, List.mem_map]; exact ⟨e1, m1', e2, m2', rfl⟩)
    simp only at z1 z2
    obtain ⟨z, hz, hzb⟩ := biSlope_wide hpr hj1 hj12 hJ (bsLog e1 e2) (c := e1 * a1 + e2 * a2) (d := e1 * h1 + e2 * h2) (E := Cz + Cz * B) (by
      intro q hq j hqj h1' h2'
      obtain ⟨zs, w1, w2, w3⟩ := hscale q hq j hqj h1' h2'
      obtain ⟨s1, s1'⟩ := hσ1 j h1' h2'
      obtain ⟨s2, s2'⟩ := hσ2 j h1' h2'
      obtain ⟨hne, hnz⟩ := w2.pairs_ne w3
      refine ⟨_, (bsLog_value w1 hne hnz s1 s2 e1 e2).2, ?_⟩
      have e : e1 * Real.logb 2 (σ1 j) + e2 * Real.logb 2 (σ2 j) + Real.logb 2 (pmean ((e1, 0), (e2, 0)) (σ1 j) (σ2 j) zs) -
          (e1 * a1 + e2 * a2 + (e1 * h1 + e2 * h2) * j) = Real.logb 2 (pmean ((e1, 0), (e2, 0)) (σ1 j) (σ2 j) zs) +
          (e1 * (Real.logb 2 (σ1 j) - (a1 + h1 * j)) + e2 * (Real.logb 2 (σ2 j) - (a2 + h2 * j))) := by ring
      rw [e]
      refine (abs_add_le _ _).trans (add_le_add (z2 _ _ zs s1 s2 w2 w3) ?_)
      refine (abs_add_le _ _).trans ?_
      rw [abs_mul, abs_mul]
      have u1 := mul_le_mul_of_nonneg_left s1' (abs_nonneg e1)
      have u2 := mul_le_mul_of_nonneg_left s2' (abs_nonneg e2)
      have u3 := mul_le_mul_of_nonneg_right z1 hB
      linarith)
    have hzeta : (v.structure_.zeta[i]?.bind fun l => l[k]?) = some (biSlope m1 m2 j1 j2 false (bsLog e1 e2)) := by
      have hcoh := bsCoherence_ok (scales := (biList m1 m2).map biPairs) hn1 hn2 hq1.1 hq1.2.1 hq1.2.2 hq2.1 hq2.2.1 hq2.2.2
      have hfn := hpr.biStructFn ha1 ha2 ha3 false false hcoh (by rintro rfl; cases m1') (by rintro rfl; cases m2')
      rw [hms] at hfn
      rw [Except.ok.inj hfn]
      simp only [List.getElem?_map, hi, Option.map_some, Option.bind_some, hk]
    exact ⟨_, hzeta, z, hz, hzb.trans (div_le_div_of_nonneg_right c4 hj.le)⟩
  · intro a b' han hbn
    obtain ⟨cc, hcc, -, -, -, -, -, -, hlc, -⟩ := hpr.biCumulants ha1 ha2 ha3 false false (n := n) (Or.inr hn)
    rw [hmc] at hcc
    obtain rfl := Except.ok.inj hcc
    by_cases hab : (a = 0 ∧ b' = 0) ∨ (1 ≤ a ∧ 1 ≤ b' ∧ ¬ (a = 1 ∧ b' = 1))
    · obtain ⟨z, hz, hzb⟩ := biSlope_wide hpr hj1 hj12 hJ (bcAt n a b') (c := 0) (d := 0) (E := 0) (by
        intro q hq j hqj h1' h2'
        refine ⟨0, bcTable_zero _ _ a b' (by omega), ?_⟩
        simp)
      have : z = 0 := by simpa using hzb
      rw [hlc, hz, this, Fl.fin_mul, zero_mul, if_neg (by omega), if_neg (by omega)]
      have hC0 : 0 ≤ C := hCa.trans c1
      exact ⟨0, rfl, by simpa using div_nonneg hC0 hj.le⟩
    · by_cases h11 : a = 1 ∧ b' = 1
      · obtain ⟨rfl, rfl⟩ := h11
        obtain ⟨z, hz, hzb⟩ := biSlope_wide hpr hj1 hj12 hJ (bcAt n 1 1) (c := 0) (d := 0) (E := Cc) (by
          intro q hq j hqj h1' h2'
          obtain ⟨zs, w1, w2, w3⟩ := hscale q hq j hqj h1' h2'
          obtain ⟨hne, hnz⟩ := w2.pairs_ne w3
          have s1 := (hσ1 j h1' h2').1
          have s2 := (hσ2 j h1' h2').1
          refine ⟨_, bc11_value w1 hne hnz s1 s2 (by omega), ?_⟩
          rw [zero_mul, add_zero, sub_zero]
          exact hc _ _ zs s1 s2 w2 w3)
        rw [hlc, hz, Fl.fin_mul, if_neg (by omega), if_neg (by omega)]
        refine ⟨_, rfl, ?_⟩
        rw [sub_zero, abs_mul, abs_of_pos hle]
        rw [sub_zero] at hzb
        refine (mul_le_mul_of_nonneg_right hzb hle.le).trans ?_
        rw [div_mul_eq_mul_div]
        exact div_le_div_of_nonneg_right c3 hj.le
      · rcases Nat.eq_zero_or_pos b' with rfl | hb'
        · obtain ⟨i, rfl⟩ : ∃ i, a = i + 1 := ⟨a - 1, by omega⟩
          have m := (hmarg.1 i (by omega)).1
          obtain ⟨row, hrow, hnear⟩ := hma.2.2.1 i (by omega)
          rw [hrow, Option.map_some] at m
          rw [← Option.some.inj m]
          rw [if_neg (show ¬ (i + 1 = 0 ∧ (0:ℕ) = 1) by omega)]
          simpa using hnear
        · obtain ⟨i, rfl⟩ : ∃ i, b' = i + 1 := ⟨b' - 1, by omega⟩
          have ha0 : a = 0 := by omega
          subst ha0
          have m := (hmarg.1 i (by omega)).2
          obtain ⟨row, hrow, hnear⟩ := hmb.2.2.1 i (by omega)
          rw [hrow, Option.map_some] at m
          rw [← Option.some.inj m]
          rw [if_neg (show ¬ ((0:ℕ) = 1 ∧ i + 1 = 0) by omega)]
          simpa using hnear

/-- The wavelet leaders of a signal whose coefficients are not zero and have bounded moments. -/
theorem bi_leader_tame {R N : ℕ} {x : Fin R → ℤ → ℝ} (hwt : wt.Valid) {i1 : ℤ} {i2 : Option ℝ} {g nm : ℝ} {weighted : Bool} {w : WT R}
    (hw : waveletAnalysis (sampled N x) .inf wt i1 i2 g nm weighted = .ok w) {l : MRQ R} (hl : w.wt_leaders = some l) {σ : ℕ → ℝ}
    {a b B T p s s1 : ℝ} {J : ℕ} {r : Fin R} (hσ : ∀ j, 1 ≤ j → j ≤ J → 0 < σ j ∧ |Real.logb 2 (σ j) - (a + b * j)| ≤ B) (hpos : 0 < b)
    (hT0 : 0 ≤ T) (hs0 : 0 < s) (hss1 : s < s1) (hp0 : 0 < p) (hconv : (1:ℝ) * (2:ℝ) ^ (1 - b * p) < 1)
    (hall : ∀ j, 1 ≤ j → j ≤ J → (∀ k ∈ interior N wt.dec_hi.length j, w.wt_coefs.number j k r ≠ 0) ∧
      ∀ e ∈ [p, -s, -s1], ∑ k ∈ interior N wt.dec_hi.length j, |w.wt_coefs.number j k r / σ j| ^ e ≤ (interior N wt.dec_hi.length j).card * T)
    (hN1 : 2 ^ J * (4 * wt.dec_hi.length + 6) ≤ N)
    (hN2 : 2 * wt.dec_hi.length * ((2:ℝ) ^ (2 * B) * (2:ℝ) ^ (b * J) / 1) ^ s * (N * T) ^ (s / s1) ≤ N / 2 ^ J) :
    ∀ b' ∈ l.values, ∀ j : ℕ, b'.1 = j → j ≤ J → ∃ xs, Entries (col b'.2 r) xs ∧
      Tame p s (max (2 * (3 * 1 * ((2:ℝ) ^ (2 * B)) ^ p * T / (1 - 1 * (2:ℝ) ^ (1 - b * p)))) (2 * (T + 1))) (σ j) xs := by
  obtain ⟨l', hl', -, -, -, hscale⟩ := leader_scale hwt hw
  rw [hl] at hl'
  obtain rfl := Option.some.inj hl'
  intro b' hb' j hbj h4
  obtain ⟨j', hj', hj'1, -, hr⟩ := hscale b' hb'
  have hjj : j' = j := by rw [hbj] at hj'; exact_mod_cast hj'.symm
  subst hjj
  have hnz : ∀ i k, 1 ≤ i → i ≤ j' → k ∈ interior N wt.dec_hi.length i → w.wt_coefs.number i k r ≠ 0 :=
    fun i k hi hij hk => (hall i hi (hij.trans h4)).1 k hk
  obtain ⟨xs, A', L, e1, e2, e3, e4, hLL⟩ := hr r hnz
  refine ⟨xs, e1, ?_⟩
  refine (hLL p).tame hj'1 h4 e2 e3 e4 (σ := σ) (fun i hi hij => (hσ i hi (hij.trans h4)).1) hnz zero_le_one zero_le_one hp0
    (by positivity) hpos.le hT0 hs0 hss1 one_pos hconv ?_ ?_ ?_ hN1 ?_
  · intro i hi hij
    have := ratio_bounds hσ hi (hij.trans h4) hj'1 h4
    rwa [show b * ((i : ℝ) - j') = -(b * ((j' : ℝ) - i)) by ring] at this
  · intro i hi hij
    exact ratio_bounds hσ hj'1 h4 hi (hij.trans h4)
  · intro e he i hi hij
    exact (hall i hi (hij.trans h4)).2 e he
  · rwa [mul_assoc] at hN2

/-- The wavelet coefficients of the same signal. -/
theorem bi_coef_tame {R N : ℕ} {x : Fin R → ℤ → ℝ} (hwt : wt.Valid) {i1 : ℤ} {i2 : Option ℝ} {g nm : ℝ} {weighted : Bool} {w : WT R}
    {q : PExp} (hw : waveletAnalysis (sampled N x) q wt i1 i2 g nm weighted = .ok w) {σ : ℕ → ℝ} {T p s s1 : ℝ} {J : ℕ} {r : Fin R}
    (hσ : ∀ j, 1 ≤ j → j ≤ J → 0 < σ j)
    (hcard : ∀ j, 1 ≤ j → j ≤ J → (interior N wt.dec_hi.length j).card ≠ 0)
    (hall : ∀ j, 1 ≤ j → j ≤ J → (∀ k ∈ interior N wt.dec_hi.length j, w.wt_coefs.number j k r ≠ 0) ∧
      ∀ e ∈ [p, -s, -s1], ∑ k ∈ interior N wt.dec_hi.length j, |w.wt_coefs.number j k r / σ j| ^ e ≤ (interior N wt.dec_hi.length j).card * T) :
    ∀ b' ∈ w.wt_coefs.values, ∀ j : ℕ, b'.1 = j → j ≤ J → ∃ xs, Entries (col b'.2 r) xs ∧ Tame p s T (σ j) xs := by
  obtain ⟨-, -, hent⟩ := analysis_entries hwt hw
  intro b' hb' j hbj h4
  obtain ⟨j', hj', hj1, -, hx⟩ := hent b' hb'
  have hjj : j' = j := by rw [hbj] at hj'; exact_mod_cast hj'.symm
  subst hjj
  obtain ⟨xs, e1, e2, e3, e4⟩ := hx r
  obtain ⟨g1, g2⟩ := hall j' hj1 h4
  have hc := hcard j' hj1 h4
  refine ⟨xs, e1, ?_, ?_, ?_, ?_⟩
  · rintro rfl; simp only [List.length_nil] at e3; exact hc e3.symm
  · intro y hy
    obtain ⟨k, hk, rfl⟩ := e4 y hy
    exact g1 k hk
  · have hc' : (0:ℝ) < xs.length := by rw [e3]; exact_mod_cast Nat.pos_of_ne_zero hc
    unfold tmean
    rw [e2, div_le_iff₀ hc', e3]
    simp only [testF, pow_zero, mul_one]
    rw [mul_comm]; exact g2 p (by simp)
  · have hc' : (0:ℝ) < xs.length := by rw [e3]; exact_mod_cast Nat.pos_of_ne_zero hc
    unfold tmean
    rw [e2, div_le_iff₀ hc', e3]
    simp only [testF, pow_zero, mul_one]
    rw [mul_comm]; exact g2 (-s) (by simp)

theorem Tame.le {p s K K' σ : ℝ} {xs : List ℝ} (h : Tame p s K σ xs) (hK : K ≤ K') : Tame p s K' σ xs :=
  ⟨h.1, h.2.1, h.2.2.1.trans hK, h.2.2.2.trans hK⟩

/-- The two bundles that the bivariate analysis returns, and the univariate ones. -/
theorem bi_bundles {N : ℕ} {x y : Fin 1 → ℤ → ℝ} (hwt : wt.Valid) {j1 j2 : ℕ} {g nm : ℝ} (hnm : nm ≠ 0) (hN0 : N ≠ 0) {weighted : Bool}
    {w1 w2 : WT 1} (hw1 : waveletAnalysis (sampled N x) .inf wt j1 (some (j2 : ℝ)) g nm weighted = .ok w1)
    (hw2 : waveletAnalysis (sampled N y) .inf wt j1 (some (j2 : ℝ)) g nm weighted = .ok w2) (hj1 : 1 ≤ j1) (hj12 : j1 < j2)
    (e1 : w1.j2_eff = j2) (e2 : w2.j2_eff = j2) (q1 q2 : List ℝ) (n : ℕ) (hn1 : q1.Nodup) (hn2 : q2.Nodup)
    (hq1 : (0:ℝ) ∈ q1 ∧ (1:ℝ) ∈ q1 ∧ (2:ℝ) ∈ q1) (hq2 : (0:ℝ) ∈ q2 ∧ (1:ℝ) ∈ q2 ∧ (2:ℝ) ∈ q2) (hn : 2 ≤ n) :
    ∃ (d l : MFBiVar 1) (d1 d2 v1 v2 : MFVar 1) (l1 l2 : MRQ 1) (J Jc : ℕ),
      bivariateAnalysisFull (sampled N x) (sampled N y) j1 (some (j2 : ℝ)) nm g weighted wt .inf (some (.ndarray q1)) (some (.ndarray q2)) n =
        .ok (d, l) ∧ w1.wt_leaders = some l1 ∧ w2.wt_leaders = some l2 ∧
      Paired w1.wt_coefs w2.wt_coefs Jc ∧ SameNaN w1.wt_coefs w2.wt_coefs ∧ Paired l1 l2 J ∧ SameNaN l1 l2 ∧ j2 ≤ J ∧ j2 ≤ Jc ∧
      IsBundle w1.wt_coefs j1 j2 weighted n q1 d1 ∧ IsBundle w2.wt_coefs j1 j2 weighted n q2 d2 ∧
      IsBundle l1 j1 j2 weighted n q1 v1 ∧ IsBundle l2 j1 j2 weighted n q2 v2 ∧
      biVar false w1.wt_coefs w2.wt_coefs j1 j2 weighted n (some (.ndarray q1)) (some (.ndarray q2)) = .ok d ∧
      biVar false l1 l2 j1 j2 weighted n (some (.ndarray q1)) (some (.ndarray q2)) = .ok l := by
  obtain ⟨J, Jc, l1, l2, f1, f2, f3, f4, f5, -, -, f6, f7, f8, f9⟩ := wa_paired hwt hw1 hw2
  have hJ : j2 ≤ J := by rw [e1] at f2; exact_mod_cast f2
  have ex : ∀ (z : Fin 1 → ℤ → ℝ) (w : WT 1) (l : MRQ 1) (q : List ℝ), (2:ℝ) ∈ q → waveletAnalysis (sampled N z) .inf wt j1 (some (j2 : ℝ)) g nm weighted = .ok w →
      w.j2_eff = j2 → w.wt_leaders = some l → ∃ d v, IsBundle w.wt_coefs j1 j2 weighted n q d ∧ IsBundle l j1 j2 weighted n q v := by
    intro z w l q hq hw hj hl
    obtain ⟨w', hw', hfull⟩ := C48_total (sampled N z) .inf (Or.inr rfl) wt j1 (some (j2 : ℝ)) g nm weighted (some (.ndarray q)) n (by norm_num)
      (by intro h; have := congrArg List.length h; rw [sampled_length] at this; exact hN0 this) hnm
    rw [hw] at hw'
    obtain rfl := Except.ok.inj hw'
    obtain ⟨d, hd, -⟩ := hfull (by exact_mod_cast hj1) (by rw [hj]; exact_mod_cast hj12.le) hq
    unfold mfAnalysisFull at hd
    rw [hw] at hd
    simp only at hd
    rw [C47_bundle, hj, hl] at hd
    obtain ⟨hb, v, -, hv⟩ := hd
    exact ⟨d.dwt, v, hb, hv⟩
  obtain ⟨d1, v1, b1, b2⟩ := ex x w1 l1 q1 hq1.2.2 hw1 e1 f4
  obtain ⟨d2, v2, b3, b4⟩ := ex y w2 l2 q2 hq2.2.2 hw2 e2 f5
  have ha1 : (1:ℤ) ≤ (j1 : ℤ) := by exact_mod_cast hj1
  have ha2 : (j1 : ℤ) ≤ (j2 : ℤ) := by exact_mod_cast hj12.le
  obtain ⟨d, hd, -⟩ := biVar_marginals f6 f7 ha1 ha2 (by exact_mod_cast hJ.trans f3) weighted n hn q1 q2 hn1 hn2 hq1 hq2 b1 b3
  obtain ⟨l, hl, -⟩ := biVar_marginals f8 f9 ha1 ha2 (by exact_mod_cast hJ) weighted n hn q1 q2 hn1 hn2 hq1 hq2 b2 b4
  refine ⟨d, l, d1, d2, v1, v2, l1, l2, J, Jc, ?_, f4, f5, f6, f7, f8, f9, hJ, hJ.trans f3, b1, b3, b2, b4, hd, hl⟩
  unfold bivariateAnalysisFull
  rw [hw1]
  simp only
  rw [hw2]
  simp only
  unfold bivariateAnalysis
  simp only [e1, e2, min_self, hd, f4, f5, hl]

/-- **C141, two Gaussian signals with stationary increments**, of possibly different scaling exponents and with any dependence between them
(the same noise, independent noises or anything else). -/
theorem C141_increments {M : ℕ} (hM : VanishingMoments wt.dec_hi M) (hM1 : 1 ≤ M) (hwt : wt.Valid) (hF : 4 ≤ wt.dec_hi.length) {G1 G2 : ℤ → ℝ}
    {h1 h2 β1 β2 : ℝ} (hK1 : ScalingKernel wt G1 h1 β1) (hK2 : ScalingKernel wt G2 h2 β2) (g nm : ℝ) (hnm : nm ≠ 0) (q1 q2 : List ℝ) (n : ℕ)
    (hn1 : q1.Nodup) (hn2 : q2.Nodup) (hq1 : (0:ℝ) ∈ q1 ∧ (1:ℝ) ∈ q1 ∧ (2:ℝ) ∈ q1) (hq2 : (0:ℝ) ∈ q2 ∧ (1:ℝ) ∈ q2 ∧ (2:ℝ) ∈ q2)
    (hl1 : ∀ e ∈ q1, -(1 / 4) < e) (hl2 : ∀ e ∈ q2, -(1 / 4) < e) (hn : 2 ≤ n) :
    ∃ B : ℝ, 0 ≤ B ∧ ∀ j1 j2 : ℕ, 1 ≤ j1 → j1 < j2 → ∀ δ : ℝ, 0 < δ → ∃ N₀ : ℕ,
    ∀ {Ω : Type u} [MeasurableSpace Ω] {μ : Measure Ω} {N : ℕ} {x y : Ω → List (Fin 1 → ℝ)} {A1 A2 : ℕ → ℝ} {c1 c2 : ℝ}, 0 < c1 → 0 < c2 → N₀ ≤ N →
      GaussianArray μ N x (fun n m => A1 n + A1 m - c1 * G1 ((n : ℤ) - m)) → GaussianArray μ N y (fun n m => A2 n + A2 m - c2 * G2 ((n : ℤ) - m)) →
      μ {ω | ¬ ∃ d l, bivariateAnalysisFull (asFloats (x ω)) (asFloats (y ω)) j1 (some (j2 : ℝ)) nm g false wt .inf (some (.ndarray q1))
          (some (.ndarray q2)) n = .ok (d, l) ∧
        BiExponentsNear d q1 q2 n (h1 + g + 1 - 1 / nm) (h2 + g + 1 - 1 / nm) (B / (j2 - j1)) ∧
        (0 < h1 + g + 1 - 1 / nm → 0 < h2 + g + 1 - 1 / nm →
          BiExponentsNear l q1 q2 n (h1 + g + 1 - 1 / nm) (h2 + g + 1 - 1 / nm) (B / (j2 - j1)))} ≤ ENNReal.ofReal δ := by
  obtain ⟨b1, hb1⟩ : ∃ b, b = h1 + g + 1 - 1 / nm := ⟨_, rfl⟩
  obtain ⟨b2, hb2⟩ : ∃ b, b = h2 + g + 1 - 1 / nm := ⟨_, rfl⟩
  have hbc1 : coefExponent h1 g nm / 2 = b1 := by rw [hb1]; unfold coefExponent; ring
  have hbc2 : coefExponent h2 g nm / 2 = b2 := by rw [hb2]; unfold coefExponent; ring
  rw [← hb1, ← hb2]
  obtain ⟨τ1, a1, B1, hB1, hg1⟩ := good_scales.{u} hM hM1 hwt hK1 g nm
  obtain ⟨τ2, a2, B2, hB2, hg2⟩ := good_scales.{u} hM hM1 hwt hK2 g nm
  rw [hbc1] at hg1
  rw [hbc2] at hg2
  have hl : ∀ e ∈ (q1 ++ q2).map (2 * ·), -(1 / 2) < e := by
    intro e he
    obtain ⟨e', he', rfl⟩ := List.mem_map.1 he
    rcases List.mem_append.1 he' with h | h
    · have := hl1 _ h; linarith
    · have := hl2 _ h; linarith
  obtain ⟨s, hs0, hs1, hsq⟩ := exists_s hl
  obtain ⟨p, hp0, hpb, hpq⟩ := exists_p ((q1 ++ q2).map (2 * ·)) (max (2 / b1) (2 / b2))
  have hconv : ∀ b : ℝ, 0 < b → 2 / b < p → (1:ℝ) * (2:ℝ) ^ (1 - b * p) < 1 := by
    intro b hb hp
    rw [one_mul]
    apply Real.rpow_lt_one_of_one_lt_of_neg (by norm_num)
    have := (div_lt_iff₀ hb).1 hp
    linarith
  obtain ⟨s1, hs1d⟩ : ∃ s1, s1 = (s + 1 / 2) / 2 := ⟨_, rfl⟩
  have hss1 : s < s1 := by rw [hs1d]; linarith
  have hes : ∀ e ∈ [p, -s, -s1], -(1 / 2) < e := by
    intro e he
    simp only [List.mem_cons, List.not_mem_nil, or_false] at he
    rcases he with rfl | rfl | rfl
    · linarith
    · linarith
    · rw [hs1d]; linarith
  obtain ⟨T1, hT1, hg1⟩ := hg1 [p, -s, -s1] hes
  obtain ⟨T2, hT2, hg2⟩ := hg2 [p, -s, -s1] hes
  obtain ⟨K1, hK1d⟩ : ∃ K, K = max (2 * (3 * 1 * ((2:ℝ) ^ (2 * B1)) ^ p * T1 / (1 - 1 * (2:ℝ) ^ (1 - b1 * p)))) (2 * (T1 + 1)) := ⟨_, rfl⟩
  obtain ⟨K2, hK2d⟩ : ∃ K, K = max (2 * (3 * 1 * ((2:ℝ) ^ (2 * B2)) ^ p * T2 / (1 - 1 * (2:ℝ) ^ (1 - b2 * p)))) (2 * (T2 + 1)) := ⟨_, rfl⟩
  obtain ⟨K, hK⟩ : ∃ K, K = max K1 K2 := ⟨_, rfl⟩
  have k1 : K1 ≤ K := hK ▸ le_max_left _ _
  have k2 : K2 ≤ K := hK ▸ le_max_right _ _
  have t1 : T1 ≤ K := by
    have : 2 * (T1 + 1) ≤ K1 := hK1d ▸ le_max_right _ _
    linarith
  have t2 : T2 ≤ K := by
    have : 2 * (T2 + 1) ≤ K2 := hK2d ▸ le_max_right _ _
    linarith
  obtain ⟨C, hC, hwide⟩ := bi_wide hs0 hp0 q1 q2 n hn1 hn2 hq1 hq2
    (fun e he => ⟨hsq _ (List.mem_map_of_mem (List.mem_append_left _ he)), hpq _ (List.mem_map_of_mem (List.mem_append_left _ he))⟩)
    (fun e he => ⟨hsq _ (List.mem_map_of_mem (List.mem_append_right _ he)), hpq _ (List.mem_map_of_mem (List.mem_append_right _ he))⟩)
    hn K (max B1 B2) (le_max_of_le_left hB1)
  refine ⟨C, hC, ?_⟩
  intro j1 j2 hj1 hj12 δ hδ
  obtain ⟨Na, hNa⟩ := hg1 j2 (δ / 2) (by positivity)
  obtain ⟨Nb, hNb⟩ := hg2 j2 (δ / 2) (by positivity)
  obtain ⟨Nc, hNc⟩ := sublinear (2 * wt.dec_hi.length * ((2:ℝ) ^ (2 * B1) * (2:ℝ) ^ (b1 * j2) / 1) ^ s) T1 (s / s1) hT1
    ((div_lt_one (by linarith)).2 hss1) j2
  obtain ⟨Nd, hNd⟩ := sublinear (2 * wt.dec_hi.length * ((2:ℝ) ^ (2 * B2) * (2:ℝ) ^ (b2 * j2) / 1) ^ s) T2 (s / s1) hT2
    ((div_lt_one (by linarith)).2 hss1) j2
  refine ⟨max (max (max Na Nb) (max Nc Nd)) (max (2 ^ j2 * (4 * wt.dec_hi.length + 6)) (2 ^ (j2 + 1) * (wt.dec_hi.length + 1))), ?_⟩
  intro Ω _ μ N x y A1 A2 c1 c2 hc1 hc2 hN hG1 hG2
  simp only [max_le_iff] at hN
  obtain ⟨⟨⟨n1, n2⟩, n3, n4⟩, n5, n6⟩ := hN
  have hN0 : N ≠ 0 := by
    have : 0 < 2 ^ (j2 + 1) * (wt.dec_hi.length + 1) := by positivity
    omega
  have htot : ∀ (z : Ω → List (Fin 1 → ℝ)), (∀ ω, (z ω).length = N) → ∃ w : Ω → WT 1,
      (∀ ω, waveletAnalysis (asFloats (z ω)) .inf wt j1 (some (j2 : ℝ)) g nm false = .ok (w ω)) ∧
      (∀ ω, waveletAnalysis (sampled N fun r t => ((z ω).getD t.toNat fun _ => 0) r) .inf wt j1 (some (j2 : ℝ)) g nm false = .ok (w ω)) ∧
      ∀ ω, (w ω).j2_eff = j2 ∧ j2 ≤ (w ω).wt_coefs.values.length := by
    intro z hz
    have : ∀ ω, ∃ w, waveletAnalysis (asFloats (z ω)) .inf wt j1 (some (j2 : ℝ)) g nm false = .ok w := by
      intro ω
      refine C05_total _ .inf (Or.inr rfl) wt _ _ g nm false one_ne_zero ?_ hnm
      intro h0; have := congrArg List.length h0; simp [asFloats, hz ω] at this; exact hN0 this
    choose w hw using this
    have hw' : ∀ ω, waveletAnalysis (sampled N fun r t => ((z ω).getD t.toNat fun _ => 0) r) .inf wt j1 (some (j2 : ℝ)) g nm false = .ok (w ω) := by
      intro ω
      rw [← asFloats_sampled (hz ω)]; exact hw ω
    exact ⟨w, hw, hw', fun ω => long_enough one_ne_zero hwt (Or.inr hF) (by omega) n6 (hw' ω)⟩
  obtain ⟨w1, hw1, hs1', hlong1⟩ := htot x hG1.length
  obtain ⟨w2, hw2, hs2', hlong2⟩ := htot y hG2.length
  have hP1 : IncrementAnalysis μ wt G1 c1 g nm N x w1 := ⟨⟨A1, hG1⟩, .inf, j1, some (j2 : ℝ), false, hw1⟩
  have hP2 : IncrementAnalysis μ wt G2 c2 g nm N y w2 := ⟨⟨A2, hG2⟩, .inf, j1, some (j2 : ℝ), false, hw2⟩
  obtain ⟨hσ1, hμ1⟩ := hNa hc1 hP1 n1 (fun ω => (hlong1 ω).2) 0
  obtain ⟨hσ2, hμ2⟩ := hNb hc2 hP2 n2 (fun ω => (hlong2 ω).2) 0
  refine (measure_mono (fun ω hω => ?_)).trans ((measure_union_le _ _).trans ((add_le_add hμ1 hμ2).trans (le_of_eq ?_)))
  swap
  · rw [← ENNReal.ofReal_add (by positivity) (by positivity), add_halves]
  by_contra hgood
  simp only [Set.mem_union, not_or, Set.mem_ofPred_eq, not_not] at hgood hω
  obtain ⟨ha1, ha2⟩ := hgood
  apply hω
  obtain ⟨d, l, d1, d2, v1, v2, l1, l2, J, Jc, r1, r2, r3, r4, r5, r6, r7, r8, r9, r10, r11, r12, r13, r14, r15⟩ :=
    bi_bundles hwt hnm hN0 (hs1' ω) (hs2' ω) hj1 hj12 (hlong1 ω).1 (hlong2 ω).1 q1 q2 n hn1 hn2 hq1 hq2 hn
  rw [← asFloats_sampled (hG1.length ω), ← asFloats_sampled (hG2.length ω)] at r1
  have u1 : ∀ j, j1 ≤ j → j ≤ j2 → 0 < √(c1 * τ1 j) ∧ |Real.logb 2 √(c1 * τ1 j) - (Real.logb 2 c1 / 2 + a1 + b1 * j)| ≤ max B1 B2 := by
    intro j i1 i2
    obtain ⟨z1, z2⟩ := hσ1 j (hj1.trans i1) i2
    exact ⟨z1, z2.trans (le_max_left _ _)⟩
  have u2 : ∀ j, j1 ≤ j → j ≤ j2 → 0 < √(c2 * τ2 j) ∧ |Real.logb 2 √(c2 * τ2 j) - (Real.logb 2 c2 / 2 + a2 + b2 * j)| ≤ max B1 B2 := by
    intro j i1 i2
    obtain ⟨z1, z2⟩ := hσ2 j (hj1.trans i1) i2
    exact ⟨z1, z2.trans (le_max_right _ _)⟩
  have hcard : ∀ j, 1 ≤ j → j ≤ j2 → (interior N wt.dec_hi.length j).card ≠ 0 := by
    intro j i1 i2
    have := hP1.card hwt one_ne_zero (ω := ω) i1 (i2.trans (hlong1 ω).2)
    omega
  refine ⟨d, l, r1, ?_, fun p1 p2 => ?_⟩
  · refine hwide (σ1 := fun j => √(c1 * τ1 j)) (σ2 := fun j => √(c2 * τ2 j)) r4 r5 hj1 hj12 r9 r10 r11 r14 u1 u2 ?_ ?_
    · intro b hb j hbj i1 i2
      obtain ⟨xs, x1, x2⟩ := bi_coef_tame hwt (hs1' ω) (fun j i1 i2 => (hσ1 j i1 i2).1) hcard ha1 b hb j hbj i2
      exact ⟨xs, x1, x2.le t1⟩
    · intro b hb j hbj i1 i2
      obtain ⟨xs, x1, x2⟩ := bi_coef_tame hwt (hs2' ω) (fun j i1 i2 => (hσ2 j i1 i2).1) hcard ha2 b hb j hbj i2
      exact ⟨xs, x1, x2.le t2⟩
  · refine hwide (σ1 := fun j => √(c1 * τ1 j)) (σ2 := fun j => √(c2 * τ2 j)) r6 r7 hj1 hj12 r8 r12 r13 r15 u1 u2 ?_ ?_
    · intro b hb j hbj i1 i2
      obtain ⟨xs, x1, x2⟩ := bi_leader_tame hwt (hs1' ω) r2 hσ1 p1 hT1 hs0 hss1 hp0 (hconv b1 p1 ((le_max_left _ _).trans_lt hpb)) ha1 n5
        (hNc N n3) b hb j hbj i2
      exact ⟨xs, x1, x2.le (hK1d ▸ k1)⟩
    · intro b hb j hbj i1 i2
      obtain ⟨xs, x1, x2⟩ := bi_leader_tame hwt (hs2' ω) r3 hσ2 p2 hT2 hs0 hss1 hp0 (hconv b2 p2 ((le_max_right _ _).trans_lt hpb)) ha2 n5
        (hNd N n4) b hb j hbj i2
      exact ⟨xs, x1, x2.le (hK2d ▸ k2)⟩

/-- The covariance of simulated fractional Brownian motion, as that of a signal with stationary increments. -/
theorem fbm_array {Ω : Type u} [MeasurableSpace Ω] {μ : Measure Ω} {gen : Ω → ℕ → ℝ} (hg : StdNormal μ gen) {H : ℝ} (h0 : 0 < H) (h1 : H < 1)
    {N R : ℕ} {sigma : ℝ} {dt : Option ℝ} (z0 : Option (CArr R)) (hN : 2 ≤ N) (hs : sigma ≠ 0) (hdt : ∀ d, dt = some d → 0 ≤ d) (hR : R ≠ 0) :
    ∃ (x : Ω → RArr R) (A : ℕ → ℝ) (c : ℝ), Returns (fbm R N H sigma dt "cme" z0) gen x ∧ 0 < c ∧
      GaussianArray μ N x (fun n m => A n + A m - c * |(((n : ℤ) - m : ℤ) : ℝ)| ^ (2 * H)) := by
  obtain ⟨x, hx, hG, -⟩ := C85_fbm (R := R) (sigma := sigma) z0 h0 h1.le hN hdt hR hg
  have hstep := (fgnDt_eq (by omega : N ≠ 0) hdt).2
  rw [fbm_powerLaw H sigma hstep.le] at hG
  refine ⟨x, fun n : ℕ => sigma ^ 2 / 2 * |((n + 1 : ℕ) : ℝ) * effStep dt N| ^ (2 * H), sigma ^ 2 / 2 * effStep dt N ^ (2 * H), hx,
    by positivity, ?_⟩
  convert hG using 7
  push_cast; rfl

/-- The same for fractional Gaussian noise. -/
theorem fgn_array {Ω : Type u} [MeasurableSpace Ω] {μ : Measure Ω} {gen : Ω → ℕ → ℝ} (hg : StdNormal μ gen) {H : ℝ} (h0 : 0 < H) (h1 : H < 1)
    {N R : ℕ} {sigma : ℝ} {dt : Option ℝ} (z0 : Option (CArr R)) (hN : 2 ≤ N) (hs : sigma ≠ 0) (hdt : ∀ d, dt = some d → 0 ≤ d) (hR : R ≠ 0) :
    ∃ (x : Ω → RArr R) (A : ℕ → ℝ) (c : ℝ), Returns (fgn R N H sigma dt "cme" z0) gen x ∧ 0 < c ∧
      GaussianArray μ N x (fun n m => A n + A m - c * -noiseKernel (2 * H) ((n : ℤ) - m)) := by
  obtain ⟨x, hx, hG, -⟩ := C85_fgn (R := R) (sigma := sigma) z0 h0 h1.le hN hdt hR hg
  have hstep := (fgnDt_eq (by omega : N ≠ 0) hdt).2
  refine ⟨x, fun _ => 0, sigma ^ 2 * effStep dt N ^ (2 * H), hx, by positivity, ?_⟩
  have e : (fun n m : ℕ => fgnCovariance H sigma (effStep dt N) (n * effStep dt N) (m * effStep dt N)) =
      fun n m : ℕ => (0:ℝ) + 0 - sigma ^ 2 * effStep dt N ^ (2 * H) * -noiseKernel (2 * H) ((n : ℤ) - m) := by
    funext n m
    rw [fgn_noiseKernel H sigma hstep.le]
    ring
  rw [e] at hG
  exact hG

/-- A combination of the columns has the same form. -/
theorem mixture_array {Ω : Type u} [MeasurableSpace Ω] {μ : Measure Ω} {R N : ℕ} {x : Ω → List (Fin R → ℝ)} {A : ℕ → ℝ} {c : ℝ} {G : ℤ → ℝ}
    (h : GaussianArray μ N x (fun n m => A n + A m - c * G ((n : ℤ) - m))) (γ : Fin R → ℝ) :
    GaussianArray μ N (fun ω => mixture γ (x ω)) (fun n m => (∑ r, γ r ^ 2) * A n + (∑ r, γ r ^ 2) * A m - (∑ r, γ r ^ 2) * c * G ((n : ℤ) - m)) := by
  have := mixture_gaussian h γ
  have e : (fun n m : ℕ => (∑ r, γ r ^ 2) * (A n + A m - c * G ((n : ℤ) - m))) =
      fun n m : ℕ => (∑ r, γ r ^ 2) * A n + (∑ r, γ r ^ 2) * A m - (∑ r, γ r ^ 2) * c * G ((n : ℤ) - m) := by
    funext n m; ring
  rwa [e] at this

/-- **C141, two motions of different exponents**: two calls of `fbm`, with parameters `H1` and `H2` and random streams `gen1` and `gen2` that
may depend on each other in any way (the same stream, independent streams, ...).  There is a constant `B` such that for every range of scales
`1 ≤ j1 < j2` and all long enough signals, with probability at least `1 - δ` the unweighted call `bivariate_analysis_full` returns and all
its exponents `zeta(e1, e2)` and log-cumulants, computed from the coefficients as well as from the wavelet leaders, are within
`B / (j2 - j1)` of `e1 H1 + e2 H2`, of `H1` (order `(1, 0)`), of `H2` (order `(0, 1)`) and of 0 (all other orders). -/
theorem C141_fbm {M : ℕ} (hM : VanishingMoments wt.dec_hi M) (hM1 : 1 ≤ M) (hwt : wt.Valid) (ho : OrthonormalBank wt)
    (hF : 4 ≤ wt.dec_hi.length) {H1 H2 : ℝ} (p1 : 0 < H1) (p2 : H1 < 1) (p3 : 4 * H1 - 4 * M < -1) (r1 : 0 < H2) (r2 : H2 < 1)
    (r3 : 4 * H2 - 4 * M < -1) (q1 q2 : List ℝ) (n : ℕ)
    (hn1 : q1.Nodup) (hn2 : q2.Nodup) (hq1 : (0:ℝ) ∈ q1 ∧ (1:ℝ) ∈ q1 ∧ (2:ℝ) ∈ q1) (hq2 : (0:ℝ) ∈ q2 ∧ (1:ℝ) ∈ q2 ∧ (2:ℝ) ∈ q2)
    (hl1 : ∀ e ∈ q1, -(1 / 4) < e) (hl2 : ∀ e ∈ q2, -(1 / 4) < e) (hn : 2 ≤ n) :
    ∃ B : ℝ, 0 ≤ B ∧ ∀ j1 j2 : ℕ, 1 ≤ j1 → j1 < j2 → ∀ δ : ℝ, 0 < δ → ∃ N₀ : ℕ,
    ∀ {Ω : Type u} [MeasurableSpace Ω] {μ : Measure Ω} {gen1 gen2 : Ω → ℕ → ℝ}, StdNormal μ gen1 → StdNormal μ gen2 →
    ∀ {N : ℕ} {s1 s2 : ℝ} {dt1 dt2 : Option ℝ} (z1 z2 : Option (CArr 1)), N₀ ≤ N → s1 ≠ 0 → s2 ≠ 0 →
      (∀ d, dt1 = some d → 0 ≤ d) → (∀ d, dt2 = some d → 0 ≤ d) →
      ∃ x y : Ω → RArr 1, Returns (fbm 1 N H1 s1 dt1 "cme" z1) gen1 x ∧ Returns (fbm 1 N H2 s2 dt2 "cme" z2) gen2 y ∧
      μ {ω | ¬ ∃ d l, bivariateAnalysisFull (asFloats (x ω)) (asFloats (y ω)) j1 (some (j2 : ℝ)) 1 0 false wt .inf (some (.ndarray q1))
          (some (.ndarray q2)) n = .ok (d, l) ∧
        BiExponentsNear d q1 q2 n H1 H2 (B / (j2 - j1)) ∧ BiExponentsNear l q1 q2 n H1 H2 (B / (j2 - j1))} ≤ ENNReal.ofReal δ := by
  obtain ⟨B, hB, h⟩ := C141_increments.{u} hM hM1 hwt hF (powerLaw_kernel hM hM1 hwt ho p1 p2 p3) (powerLaw_kernel hM hM1 hwt ho r1 r2 r3)
    0 1 one_ne_zero q1 q2 n hn1 hn2 hq1 hq2 hl1 hl2 hn
  rw [show H1 + 0 + 1 - 1 / 1 = H1 by ring, show H2 + 0 + 1 - 1 / 1 = H2 by ring] at h
  refine ⟨B, hB, fun j1 j2 h3 h4 δ hδ => ?_⟩
  obtain ⟨N₀, hN₀⟩ := h j1 j2 h3 h4 δ hδ
  refine ⟨max N₀ 2, ?_⟩
  intro Ω _ μ gen1 gen2 g1 g2 N s1 s2 dt1 dt2 z1 z2 hN hs1 hs2 hd1 hd2
  have hN2 := (le_max_right _ _).trans hN
  obtain ⟨x, A1, c1, hx, hc1, hx'⟩ := fbm_array g1 p1 p2 z1 hN2 hs1 hd1 one_ne_zero
  obtain ⟨y, A2, c2, hy, hc2, hy'⟩ := fbm_array g2 r1 r2 z2 hN2 hs2 hd2 one_ne_zero
  refine ⟨x, y, hx, hy, (measure_mono fun ω hω => ?_).trans (hN₀ hc1 hc2 ((le_max_left _ _).trans hN) hx' hy')⟩
  simp only [Set.mem_ofPred_eq] at hω ⊢
  rintro ⟨d, l, e1, e2, e3⟩
  exact hω ⟨d, l, e1, e2, e3 p1 r1⟩

/-- **C141, correlated motions**: the two signals are linear combinations (`α`, `β`) of the columns of an array of independent fractional
Brownian motions; the constant does not depend on the correlation. -/
theorem C141_correlated {M : ℕ} (hM : VanishingMoments wt.dec_hi M) (hM1 : 1 ≤ M) (hwt : wt.Valid) (ho : OrthonormalBank wt)
    (hF : 4 ≤ wt.dec_hi.length) {H : ℝ} (h0 : 0 < H) (h1 : H < 1) (hH : 4 * H - 4 * M < -1) (q1 q2 : List ℝ) (n : ℕ)
    (hn1 : q1.Nodup) (hn2 : q2.Nodup) (hq1 : (0:ℝ) ∈ q1 ∧ (1:ℝ) ∈ q1 ∧ (2:ℝ) ∈ q1) (hq2 : (0:ℝ) ∈ q2 ∧ (1:ℝ) ∈ q2 ∧ (2:ℝ) ∈ q2)
    (hl1 : ∀ e ∈ q1, -(1 / 4) < e) (hl2 : ∀ e ∈ q2, -(1 / 4) < e) (hn : 2 ≤ n) :
    ∃ B : ℝ, 0 ≤ B ∧ ∀ j1 j2 : ℕ, 1 ≤ j1 → j1 < j2 → ∀ δ : ℝ, 0 < δ → ∃ N₀ : ℕ,
    ∀ {Ω : Type u} [MeasurableSpace Ω] {μ : Measure Ω} {gen : Ω → ℕ → ℝ}, StdNormal μ gen →
    ∀ {N R : ℕ} {sigma : ℝ} {dt : Option ℝ} (z0 : Option (CArr R)), N₀ ≤ N → sigma ≠ 0 → (∀ d, dt = some d → 0 ≤ d) →
      ∀ α β : Fin R → ℝ, α ≠ 0 → β ≠ 0 → ∃ x : Ω → RArr R, Returns (fbm R N H sigma dt "cme" z0) gen x ∧
      μ {ω | ¬ ∃ d l, bivariateAnalysisFull (asFloats (mixture α (x ω))) (asFloats (mixture β (x ω))) j1 (some (j2 : ℝ)) 1 0 false wt .inf
          (some (.ndarray q1)) (some (.ndarray q2)) n = .ok (d, l) ∧
        BiExponentsNear d q1 q2 n H H (B / (j2 - j1)) ∧ BiExponentsNear l q1 q2 n H H (B / (j2 - j1))} ≤ ENNReal.ofReal δ := by
  obtain ⟨B, hB, h⟩ := C141_increments.{u} hM hM1 hwt hF (powerLaw_kernel hM hM1 hwt ho h0 h1 hH) (powerLaw_kernel hM hM1 hwt ho h0 h1 hH)
    0 1 one_ne_zero q1 q2 n hn1 hn2 hq1 hq2 hl1 hl2 hn
  rw [show H + 0 + 1 - 1 / 1 = H by ring] at h
  refine ⟨B, hB, fun j1 j2 h3 h4 δ hδ => ?_⟩
  obtain ⟨N₀, hN₀⟩ := h j1 j2 h3 h4 δ hδ
  refine ⟨max N₀ 2, ?_⟩
  intro Ω _ μ gen hg N R sigma dt z0 hN hs hdt α β hα hβ
  have hN2 := (le_max_right _ _).trans hN
  have hR : R ≠ 0 := by rintro rfl; exact hα (Subsingleton.elim _ _)
  obtain ⟨x, A, c, hx, hc, hx'⟩ := fbm_array hg h0 h1 z0 hN2 hs hdt hR
  have hx1 := mixture_array (G := fun t : ℤ => |(t : ℝ)| ^ (2 * H)) hx' α
  have hx2 := mixture_array (G := fun t : ℤ => |(t : ℝ)| ^ (2 * H)) hx' β
  refine ⟨x, hx, (measure_mono fun ω hω => ?_).trans
    (hN₀ (mul_pos (sum_sq_pos hα) hc) (mul_pos (sum_sq_pos hβ) hc) ((le_max_left _ _).trans hN) hx1 hx2)⟩
  simp only [Set.mem_ofPred_eq] at hω ⊢
  rintro ⟨d, l, e1, e2, e3⟩
  exact hω ⟨d, l, e1, e2, e3 h0 h0⟩

/-- **C141, noises**: two calls of `fgn`, again with any dependence between the two streams and with a fractional integration of order
`gamint`.  The estimates from the coefficients are those of the exponents `H - 1 + gamint` in all cases, and so are those from the leaders
when the two exponents are positive. -/
theorem C141_fgn {M : ℕ} (hM : VanishingMoments wt.dec_hi M) (hM1 : 1 ≤ M) (hwt : wt.Valid) (ho : OrthonormalBank wt)
    (hF : 4 ≤ wt.dec_hi.length) {H1 H2 : ℝ} (p1 : 0 < H1) (p2 : H1 < 1) (p3 : 1 / 2 ≤ H1 ∨ RegularWavelet wt) (r1 : 0 < H2) (r2 : H2 < 1)
    (r3 : 1 / 2 ≤ H2 ∨ RegularWavelet wt) (g : ℝ) (q1 q2 : List ℝ) (n : ℕ)
    (hn1 : q1.Nodup) (hn2 : q2.Nodup) (hq1 : (0:ℝ) ∈ q1 ∧ (1:ℝ) ∈ q1 ∧ (2:ℝ) ∈ q1) (hq2 : (0:ℝ) ∈ q2 ∧ (1:ℝ) ∈ q2 ∧ (2:ℝ) ∈ q2)
    (hl1 : ∀ e ∈ q1, -(1 / 4) < e) (hl2 : ∀ e ∈ q2, -(1 / 4) < e) (hn : 2 ≤ n) :
    ∃ B : ℝ, 0 ≤ B ∧ ∀ j1 j2 : ℕ, 1 ≤ j1 → j1 < j2 → ∀ δ : ℝ, 0 < δ → ∃ N₀ : ℕ,
    ∀ {Ω : Type u} [MeasurableSpace Ω] {μ : Measure Ω} {gen1 gen2 : Ω → ℕ → ℝ}, StdNormal μ gen1 → StdNormal μ gen2 →
    ∀ {N : ℕ} {s1 s2 : ℝ} {dt1 dt2 : Option ℝ} (z1 z2 : Option (CArr 1)), N₀ ≤ N → s1 ≠ 0 → s2 ≠ 0 →
      (∀ d, dt1 = some d → 0 ≤ d) → (∀ d, dt2 = some d → 0 ≤ d) →
      ∃ x y : Ω → RArr 1, Returns (fgn 1 N H1 s1 dt1 "cme" z1) gen1 x ∧ Returns (fgn 1 N H2 s2 dt2 "cme" z2) gen2 y ∧
      μ {ω | ¬ ∃ d l, bivariateAnalysisFull (asFloats (x ω)) (asFloats (y ω)) j1 (some (j2 : ℝ)) 1 g false wt .inf (some (.ndarray q1))
          (some (.ndarray q2)) n = .ok (d, l) ∧
        BiExponentsNear d q1 q2 n (H1 - 1 + g) (H2 - 1 + g) (B / (j2 - j1)) ∧
        (0 < H1 - 1 + g → 0 < H2 - 1 + g → BiExponentsNear l q1 q2 n (H1 - 1 + g) (H2 - 1 + g) (B / (j2 - j1)))} ≤ ENNReal.ofReal δ := by
  obtain ⟨b1, hK1⟩ := noise_kernel hM hM1 hwt ho p1 p2 p3
  obtain ⟨b2, hK2⟩ := noise_kernel hM hM1 hwt ho r1 r2 r3
  obtain ⟨B, hB, h⟩ := C141_increments.{u} hM hM1 hwt hF hK1 hK2 g 1 one_ne_zero q1 q2 n hn1 hn2 hq1 hq2 hl1 hl2 hn
  rw [show H1 - 1 + g + 1 - 1 / 1 = H1 - 1 + g by ring, show H2 - 1 + g + 1 - 1 / 1 = H2 - 1 + g by ring] at h
  refine ⟨B, hB, fun j1 j2 h3 h4 δ hδ => ?_⟩
  obtain ⟨N₀, hN₀⟩ := h j1 j2 h3 h4 δ hδ
  refine ⟨max N₀ 2, ?_⟩
  intro Ω _ μ gen1 gen2 g1 g2 N s1 s2 dt1 dt2 z1 z2 hN hs1 hs2 hd1 hd2
  have hN2 := (le_max_right _ _).trans hN
  obtain ⟨x, A1, c1, hx, hc1, hx'⟩ := fgn_array g1 p1 p2 z1 hN2 hs1 hd1 one_ne_zero
  obtain ⟨y, A2, c2, hy, hc2, hy'⟩ := fgn_array g2 r1 r2 z2 hN2 hs2 hd2 one_ne_zero
  exact ⟨x, y, hx, hy, hN₀ hc1 hc2 ((le_max_left _ _).trans hN) hx' hy'⟩

theorem BiExponentsNear.mono {v : MFBiVar 1} {q1 q2 : List ℝ} {n : ℕ} {h1 h2 ε ε' : ℝ} (h : BiExponentsNear v q1 q2 n h1 h2 ε) (he : ε ≤ ε') :
    BiExponentsNear v q1 q2 n h1 h2 ε' := by
  have mono : ∀ {f : Fl} {y : ℝ}, Near f y ε → Near f y ε' := by
    rintro f y ⟨t, e1, e2⟩
    exact ⟨t, e1, e2.trans he⟩
  refine ⟨fun i k e1 e2 hi hk => ?_, fun a b ha hb => mono (h.2 a b ha hb)⟩
  obtain ⟨z, hz, hz'⟩ := h.1 i k e1 e2 hi hk
  exact ⟨z, hz, mono hz'⟩

/-- **C141, consistency**: for every `ε` there is a width `W` such that all the bivariate estimates of two fractional Brownian motions, from
the coefficients and from the leaders, on any range of at least `W` octaves are within `ε` of the truth, with probability as close to one as
desired when the signals are long enough. -/
theorem C141_consistent {M : ℕ} (hM : VanishingMoments wt.dec_hi M) (hM1 : 1 ≤ M) (hwt : wt.Valid) (ho : OrthonormalBank wt)
    (hF : 4 ≤ wt.dec_hi.length) {H1 H2 : ℝ} (p1 : 0 < H1) (p2 : H1 < 1) (p3 : 4 * H1 - 4 * M < -1) (r1 : 0 < H2) (r2 : H2 < 1)
    (r3 : 4 * H2 - 4 * M < -1) (q1 q2 : List ℝ) (n : ℕ)
    (hn1 : q1.Nodup) (hn2 : q2.Nodup) (hq1 : (0:ℝ) ∈ q1 ∧ (1:ℝ) ∈ q1 ∧ (2:ℝ) ∈ q1) (hq2 : (0:ℝ) ∈ q2 ∧ (1:ℝ) ∈ q2 ∧ (2:ℝ) ∈ q2)
    (hl1 : ∀ e ∈ q1, -(1 / 4) < e) (hl2 : ∀ e ∈ q2, -(1 / 4) < e) (hn : 2 ≤ n) (ε : ℝ) (hε : 0 < ε) :
    ∃ W : ℕ, ∀ j1 j2 : ℕ, 1 ≤ j1 → j1 + W ≤ j2 → ∀ δ : ℝ, 0 < δ → ∃ N₀ : ℕ,
    ∀ {Ω : Type u} [MeasurableSpace Ω] {μ : Measure Ω} {gen1 gen2 : Ω → ℕ → ℝ}, StdNormal μ gen1 → StdNormal μ gen2 →
    ∀ {N : ℕ} {s1 s2 : ℝ} {dt1 dt2 : Option ℝ} (z1 z2 : Option (CArr 1)), N₀ ≤ N → s1 ≠ 0 → s2 ≠ 0 →
      (∀ d, dt1 = some d → 0 ≤ d) → (∀ d, dt2 = some d → 0 ≤ d) →
      ∃ x y : Ω → RArr 1, Returns (fbm 1 N H1 s1 dt1 "cme" z1) gen1 x ∧ Returns (fbm 1 N H2 s2 dt2 "cme" z2) gen2 y ∧
      μ {ω | ¬ ∃ d l, bivariateAnalysisFull (asFloats (x ω)) (asFloats (y ω)) j1 (some (j2 : ℝ)) 1 0 false wt .inf (some (.ndarray q1))
          (some (.ndarray q2)) n = .ok (d, l) ∧ BiExponentsNear d q1 q2 n H1 H2 ε ∧ BiExponentsNear l q1 q2 n H1 H2 ε} ≤ ENNReal.ofReal δ := by
  obtain ⟨B, hB, h⟩ := C141_fbm.{u} hM hM1 hwt ho hF p1 p2 p3 r1 r2 r3 q1 q2 n hn1 hn2 hq1 hq2 hl1 hl2 hn
  obtain ⟨W, hW⟩ := exists_nat_ge (B / ε)
  refine ⟨W + 1, fun j1 j2 h3 h4 δ hδ => ?_⟩
  obtain ⟨N₀, hN₀⟩ := h j1 j2 h3 (by omega) δ hδ
  refine ⟨N₀, ?_⟩
  intro Ω _ μ gen1 gen2 g1 g2 N s1 s2 dt1 dt2 z1 z2 hN hs1 hs2 hd1 hd2
  obtain ⟨x, y, hx, hy, hb⟩ := hN₀ g1 g2 z1 z2 hN hs1 hs2 hd1 hd2
  refine ⟨x, y, hx, hy, (measure_mono fun ω hω => ?_).trans hb⟩
  have hj : (W:ℝ) + 1 ≤ (j2:ℝ) - j1 := by
    have : ((j1 + (W + 1) : ℕ) : ℝ) ≤ j2 := by exact_mod_cast h4
    push_cast at this; linarith
  have hle : B / ((j2:ℝ) - j1) ≤ ε := by
    rw [div_le_iff₀ (by positivity : (0:ℝ) < ε)] at hW
    rw [div_le_iff₀ (by have : (0:ℝ) ≤ W := by positivity
                        linarith)]
    nlinarith
  simp only [Set.mem_ofPred_eq] at hω ⊢
  rintro ⟨d, l, e1, e2, e3⟩
  exact hω ⟨d, l, e1, e2.mono hle, e3.mono hle⟩

/-! The hypotheses are met: with `db2`, for all `0 < H1, H2 < 1`, two motions made from the same random stream. -/
example (H1 H2 : ℝ) (p1 : 0 < H1) (p2 : H1 < 1) (r1 : 0 < H2) (r2 : H2 < 1) (ε δ : ℝ) (hε : 0 < ε) (hδ : 0 < δ) : ∃ j1 j2 N : ℕ, 1 ≤ j1 ∧ j1 < j2 ∧
    ∃ (Ω : Type) (_ : MeasurableSpace Ω) (μ : Measure Ω) (gen : Ω → ℕ → ℝ) (x y : Ω → RArr 1), StdNormal μ gen ∧
    Returns (fbm 1 N H1 1 none "cme" none) gen x ∧ Returns (fbm 1 N H2 1 none "cme" none) gen y ∧
    μ {ω | ¬ ∃ d l, bivariateAnalysisFull (asFloats (x ω)) (asFloats (y ω)) j1 (some (j2 : ℝ)) 1 0 false db2 .inf (some (.ndarray [0, 1, 2]))
        (some (.ndarray [0, 1, 2, -1 / 5])) 3 = .ok (d, l) ∧
      BiExponentsNear d [0, 1, 2] [0, 1, 2, -1 / 5] 3 H1 H2 ε ∧ BiExponentsNear l [0, 1, 2] [0, 1, 2, -1 / 5] 3 H1 H2 ε} ≤ ENNReal.ofReal δ := by
  obtain ⟨hv, ho, hm⟩ := db2_orthonormal
  obtain ⟨W, h⟩ := C141_consistent hm (by norm_num) hv ho (by simp [db2]) p1 p2 (by push_cast; linarith) r1 r2 (by push_cast; linarith)
    [0, 1, 2] [0, 1, 2, -1 / 5] 3 (by norm_num) (by norm_num) (by norm_num) (by norm_num)
    (by intro e he; simp only [List.mem_cons, List.not_mem_nil, or_false] at he; rcases he with rfl | rfl | rfl <;> norm_num)
    (by intro e he; simp only [List.mem_cons, List.not_mem_nil, or_false] at he; rcases he with rfl | rfl | rfl | rfl <;> norm_num)
    (by norm_num) ε hε
  obtain ⟨N₀, hN₀⟩ := h 1 (W + 2) le_rfl (by omega) δ hδ
  obtain ⟨Ω, m, μ, gen, hg⟩ := exists_stdNormal
  obtain ⟨x, y, hx, hy, hb⟩ := hN₀ hg hg (s1 := 1) (s2 := 1) (dt1 := none) (dt2 := none) none none le_rfl one_ne_zero one_ne_zero
    (by intro d hd; cases hd) (by intro d hd; cases hd)
  exact ⟨1, W + 2, N₀, le_rfl, by omega, Ω, m, μ, gen, x, y, hg, hx, hy, hb⟩

end

end MFA
