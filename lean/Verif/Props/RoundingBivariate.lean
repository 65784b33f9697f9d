import Verif.Lemmas.RoundedPairs
import Verif.Lemmas.RoundedPLeaders
import Verif.Props.Rounding
import Verif.Props.RoundingExact
import Verif.Props.BiContinuity

/-! C140: rounding errors of the bivariate analysis. -/

namespace MFA

open Filter Topology Classical

noncomputable section

variable {f1 f2 : FMrq 1} {J : ℕ}

/-- The rounded multifractal correlation is close to the exact one, where the product under the root is positive. -/
def RhoClose (ε : ℝ) (v v' : MFBiVar 1) : Prop :=
  ∀ a b : ℝ, v.cumulants.log_cumulants 0 2 = Fl.fin a → v.cumulants.log_cumulants 2 0 = Fl.fin b → 0 < a * b →
    ∃ ρ ρ' : ℝ, v.cumulants.rho_mf = some (Fl.fin ρ) ∧ v'.cumulants.rho_mf = some (Fl.fin ρ') ∧ |ρ - ρ'| ≤ ε

theorem pair_estimates (g1 : f1.Good J) (g2 : f2.Good J) (hp : Paired (f1.at Machine.exact) (f2.at Machine.exact) J)
    (hs : SameNaN (f1.at Machine.exact) (f2.at Machine.exact)) {j1 j2 : ℕ} (h1 : 1 ≤ j1) (h12 : j1 < j2) (h2 : j2 ≤ J) (weighted : Bool)
    {q1 q2 : List ℝ} (hn1 : q1.Nodup) (hn2 : q2.Nodup)
    (hq1 : (0:ℝ) ∈ q1 ∧ (1:ℝ) ∈ q1 ∧ (2:ℝ) ∈ q1) (hq2 : (0:ℝ) ∈ q2 ∧ (1:ℝ) ∈ q2 ∧ (2:ℝ) ∈ q2) {n : ℕ} (hn : 2 ≤ n) :
    ∃ v, biVar false (f1.at Machine.exact) (f2.at Machine.exact) j1 j2 weighted n (some (.ndarray q1)) (some (.ndarray q2)) = .ok v ∧
      ∀ ε : ℝ, 0 < ε → ∀ᶠ M in Lmach, ∃ v', M.biVar false (f1.at M) (f2.at M) j1 j2 weighted n (some (.ndarray q1)) (some (.ndarray q2)) = .ok v' ∧
        BiEstimatesClose ε q1.length q2.length n v v' ∧ (f1.formalism ≠ .coef → RhoClose ε v v') := by
  have a1 : (1:ℤ) ≤ (j1 : ℤ) := by exact_mod_cast h1
  have a2 : (j1 : ℤ) ≤ (j2 : ℤ) := by exact_mod_cast h12.le
  have a3 : (j2 : ℤ) ≤ (J : ℤ) := by exact_mod_cast h2
  choose V hV ez ecoh elc erho using fun M => (g1.paired g2 hp M).biVarM M a1 a2 a3 weighted hn1 hn2 hq1 hq2 hn
  refine ⟨V Machine.exact, ?_, fun ε hε => ?_⟩
  · have := hV Machine.exact
    rwa [Machine.exact_biVar] at this
  have kz : ∀ e1 e2 : ℝ, ∃ c, CvTo (fun M => M.biSlope (f1.at M) (f2.at M) j1 j2 weighted (M.bsLog e1 e2)) c := fun e1 e2 =>
    pair_slope g1 hp h1 h12 h2 weighted fun b hb => pair_bsLog g1 g2 hp hs e1 e2 hb
  have hl2 : CvTo (fun M => M.log2e) (Real.logb 2 (Real.exp 1)) := (CvTo.const 1).exp.log2 (Real.exp_pos 1)
  have kc : ∀ a b : ℕ, ∃ c, CvTo (fun M => (V M).cumulants.log_cumulants a b) c := by
    intro a b
    obtain ⟨c, hc⟩ := pair_slope g1 hp h1 h12 h2 weighted (Y := fun M => M.bcAt n a b) fun x hx => pair_bcAt g1 g2 hp hs n a b hx
    exact ⟨_, (hc.mul hl2).congr (Eventually.of_forall fun M => elc M a b)⟩
  have B1 : ∀ᶠ M in Lmach, ∀ e1 ∈ {e | e ∈ q1}, ∀ e2 ∈ {e | e ∈ q2}, FlClose ε
      (Machine.exact.biSlope (f1.at Machine.exact) (f2.at Machine.exact) j1 j2 weighted (Machine.exact.bsLog e1 e2))
      (M.biSlope (f1.at M) (f2.at M) j1 j2 weighted (M.bsLog e1 e2)) := by
    rw [eventually_all_finite (List.finite_toSet _)]
    intro e1 _
    rw [eventually_all_finite (List.finite_toSet _)]
    intro e2 _
    obtain ⟨c, hc⟩ := kz e1 e2
    exact hc.close hε
  have B2 : ∀ᶠ M in Lmach, ∀ a ∈ {a | a ∈ List.range (n + 1)}, ∀ b ∈ {b | b ∈ List.range (n + 1)},
      FlClose ε ((V Machine.exact).cumulants.log_cumulants a b) ((V M).cumulants.log_cumulants a b) := by
    rw [eventually_all_finite (List.finite_toSet _)]
    intro a _
    rw [eventually_all_finite (List.finite_toSet _)]
    intro b _
    obtain ⟨c, hc⟩ := kc a b
    exact hc.close hε
  have B3 : ∀ᶠ M in Lmach, ∀ x ∈ {x | x ∈ fList f1 f2},
      FlClose ε (Machine.exact.cohOf (biPairs (fAt Machine.exact x))) (M.cohOf (biPairs (fAt M x))) := by
    rw [eventually_all_finite (List.finite_toSet _)]
    intro x hx
    obtain ⟨c, hc⟩ := pair_coh g1 g2 hp hs hx
    exact hc.close hε
  have B4 : ∀ᶠ M in Lmach, f1.formalism ≠ .coef → RhoClose ε (V Machine.exact) (V M) := by
    by_cases hf : f1.formalism = .coef
    · exact Eventually.of_forall fun M h => absurd hf h
    obtain ⟨c, hc⟩ := kc 1 1
    obtain ⟨a, ha⟩ := kc 0 2
    obtain ⟨b, hb⟩ := kc 2 0
    by_cases hab : 0 < a * b
    · have hq := hc.neg.div ((ha.mul hb).sqrt hab).abs (abs_pos.2 (Real.sqrt_pos.2 hab).ne').ne'
      filter_upwards [hq.close hε] with M ⟨x, y, hx, hy, hxy⟩ _ a' b' _ _ _
      refine ⟨x, y, ?_, ?_, hxy⟩
      · rw [erho _ hf, ← hx]
      · rw [erho _ hf, ← hy]
    · refine Eventually.of_forall fun M _ a' b' ha' hb' hab' => absurd ?_ hab
      have e1 := ha.exact
      have e2 := hb.exact
      rw [ha', Fl.fin_inj] at e1
      rw [hb', Fl.fin_inj] at e2
      rwa [← e1, ← e2]
  filter_upwards [B1, B2, B3, B4] with M b1 b2 b3 b4
  refine ⟨V M, hV M, ⟨?_, ?_, ?_⟩, b4⟩
  · intro i k hi hk
    have e1 : q1[i]? = some q1[i] := List.getElem?_eq_getElem hi
    have e2 : q2[k]? = some q2[k] := List.getElem?_eq_getElem hk
    exact ⟨_, _, ez _ i k _ _ e1 e2, ez _ i k _ _ e1 e2, b1 _ (List.getElem_mem hi) _ (List.getElem_mem hk)⟩
  · intro a b ha hb
    exact b2 a (List.mem_range.2 (by omega)) b (List.mem_range.2 (by omega))
  · rw [ecoh, ecoh, biList_at, biList_at, List.map_map, List.map_map, List.forall₂_map_left_iff, List.forall₂_map_right_iff]
    exact List.forall₂_same.2 b3

theorem FMrq.const_good {m : MRQ 1} (hm : Regular m J) (hrow : ∀ p ∈ m.values, p.2 ≠ []) (h0 : NonzeroData m) : (FMrq.const m).Good J := by
  refine ⟨?_, ?_, ?_, ?_⟩
  · rw [← hm.1]
    simp [FMrq.const, Function.comp_def]
  · intro p hp row hrow r
    obtain ⟨p0, hp0, rfl⟩ := List.mem_map.1 hp
    obtain ⟨row0, hr0, rfl⟩ := List.mem_map.1 hrow
    rcases (h0 p0 hp0 r).2 (row0 r) (List.mem_map.2 ⟨row0, hr0, rfl⟩) with e | ⟨t, -, e⟩
    · exact Or.inl fun _ => e
    · refine Or.inr ⟨fun _ => ⟨t, e⟩, t, (CvTo.const t).congr (Eventually.of_forall fun _ => e)⟩
  · intro p hp he
    obtain ⟨p0, hp0, rfl⟩ := List.mem_map.1 hp
    exact hrow p0 hp0 (List.map_eq_nil_iff.1 he)
  · rw [FMrq.const_at hm]; exact h0

/-- **C140 for two given multiresolution quantities**: on paired quantities with NaN at the same places whose other entries are non-zero numbers (at least one
at every scale), over at least two scales.  For every `ε` there is `u0 > 0` such that on every machine whose operations have a relative error of at most
`u0`, whatever the order of its sums, the bivariate analysis returns, and its exponents, log-cumulants and coherences are within `ε` of the exact ones; so is
the multifractal correlation, for leaders, where the product of the two log-cumulants under its root is positive. -/
theorem C140_estimators {m1 m2 : MRQ 1} {J : ℕ} (hp : Paired m1 m2 J) (hs : SameNaN m1 m2) (hrow1 : ∀ p ∈ m1.values, p.2 ≠ [])
    (hrow2 : ∀ p ∈ m2.values, p.2 ≠ []) (hd1 : NonzeroData m1) (hd2 : NonzeroData m2) {j1 j2 : ℕ} (h1 : 1 ≤ j1)
    (h12 : j1 < j2) (h2 : j2 ≤ J) (weighted : Bool) {q1 q2 : List ℝ} (hn1 : q1.Nodup) (hn2 : q2.Nodup)
    (hq1 : (0:ℝ) ∈ q1 ∧ (1:ℝ) ∈ q1 ∧ (2:ℝ) ∈ q1) (hq2 : (0:ℝ) ∈ q2 ∧ (1:ℝ) ∈ q2 ∧ (2:ℝ) ∈ q2) {n : ℕ} (hn : 2 ≤ n) :
    ∃ v, biVar false m1 m2 j1 j2 weighted n (some (.ndarray q1)) (some (.ndarray q2)) = .ok v ∧
      ∀ ε : ℝ, 0 < ε → ∃ u0 : ℝ, 0 < u0 ∧ ∀ M : Machine, M.u ≤ u0 →
        ∃ v', M.biVar false m1 m2 j1 j2 weighted n (some (.ndarray q1)) (some (.ndarray q2)) = .ok v' ∧
          BiEstimatesClose ε q1.length q2.length n v v' ∧
          (m1.formalism ≠ .coef → ∀ a b : ℝ, v.cumulants.log_cumulants 0 2 = Fl.fin a → v.cumulants.log_cumulants 2 0 = Fl.fin b → 0 < a * b →
            ∃ ρ ρ' : ℝ, v.cumulants.rho_mf = some (Fl.fin ρ) ∧ v'.cumulants.rho_mf = some (Fl.fin ρ') ∧ |ρ - ρ'| ≤ ε) := by
  have c1 := FMrq.const_at hp.reg1
  have c2 := FMrq.const_at hp.reg2
  obtain ⟨v, hv, hc⟩ := pair_estimates (FMrq.const_good hp.reg1 hrow1 hd1) (FMrq.const_good hp.reg2 hrow2 hd2) (by rw [c1, c2]; exact hp)
    (by rw [c1, c2]; exact hs) h1 h12 h2 weighted hn1 hn2 hq1 hq2 hn
  simp only [c1, c2] at hv hc
  exact ⟨v, hv, fun ε hε => eventually_machine (hc ε hε)⟩

/-- **C140**, on the machine without rounding errors: the bivariate analysis is the exact one. -/
theorem C140_exact (M : Machine) (hu : M.u = 0) {R : ℕ} (signal1 signal2 : Arr R) (j1 : ℤ) (j2 : Option ℝ) (nm g : ℝ) (weighted : Bool) (wt : Wavelet) (p : PExp)
    (q1 q2 : Option QArg) (n : ℕ) :
    M.bivariateAnalysisFull signal1 signal2 j1 j2 nm g weighted wt p q1 q2 n = bivariateAnalysisFull signal1 signal2 j1 j2 nm g weighted wt p q1 q2 n := by
  rw [M.eq_exact hu, Machine.exact_bivariateAnalysisFull]

theorem FMrq.keys_of {f : FMrq 1} (h : Regular (f.at Machine.exact) J) : f.base.map Prod.fst = (List.range J).map fun i : ℕ => (i : ℤ) + 1 := by
  have := h.1
  rw [FMrq.at, List.map_map] at this
  exact this

theorem FMrq.rows_of {f : FMrq 1} (h : ∀ p ∈ (f.at Machine.exact).values, p.2 ≠ []) : ∀ p ∈ f.base, p.2 ≠ [] := by
  intro p hp he
  exact h (p.1, p.2.at Machine.exact) (List.mem_map.2 ⟨p, hp, rfl⟩) (by rw [he]; rfl)

/-- **C140, rounding errors of the bivariate analysis vanish with the precision.**  Let `bivariate_analysis_full` be called on two signals of the same length,
with at least two scales analysed, moments that contain 0, 1 and 2, and at least two cumulants, and suppose that no wavelet coefficient of either signal (in exact
arithmetic) is 0.  For every `ε` there is `u0 > 0` such that on every machine whose operations have a relative error of at most `u0`, whatever the order of
its sums, the call returns, and all the exponents, log-cumulants and coherences are within `ε` of the exact ones, for coefficients and for leaders; so is the
multifractal correlation of the leaders, where the product of the two log-cumulants under its root is positive. -/
theorem C140_signal {N : ℕ} {x y : Fin 1 → ℤ → ℝ} {wt : Wavelet} (hwt : wt.Valid) {j1 : ℕ}
    {j2 : Option ℝ} {g nm : ℝ} (hnm : nm ≠ 0) {weighted : Bool} {w1 w2 : WT 1} (hw1 : waveletAnalysis (sampled N x) .inf wt j1 j2 g nm weighted = .ok w1)
    (hw2 : waveletAnalysis (sampled N y) .inf wt j1 j2 g nm weighted = .ok w2)
    (h1 : 1 ≤ j1) (h12 : (j1 : ℤ) < w1.j2_eff) (n1 : NoZeros w1.wt_coefs) (n2 : NoZeros w2.wt_coefs) {q1 q2 : List ℝ} (hn1 : q1.Nodup) (hn2 : q2.Nodup)
    (hq1 : (0:ℝ) ∈ q1 ∧ (1:ℝ) ∈ q1 ∧ (2:ℝ) ∈ q1) (hq2 : (0:ℝ) ∈ q2 ∧ (1:ℝ) ∈ q2 ∧ (2:ℝ) ∈ q2) {n : ℕ} (hn : 2 ≤ n) :
    ∃ d l, bivariateAnalysisFull (sampled N x) (sampled N y) j1 j2 nm g weighted wt .inf (some (.ndarray q1)) (some (.ndarray q2)) n = .ok (d, l) ∧
    ∀ ε : ℝ, 0 < ε → ∃ u0 : ℝ, 0 < u0 ∧ ∀ M : Machine, M.u ≤ u0 →
      ∃ d' l', M.bivariateAnalysisFull (sampled N x) (sampled N y) j1 j2 nm g weighted wt .inf (some (.ndarray q1)) (some (.ndarray q2)) n = .ok (d', l') ∧
        BiEstimatesClose ε q1.length q2.length n d d' ∧ BiEstimatesClose ε q1.length q2.length n l l' ∧
        ∀ a b : ℝ, l.cumulants.log_cumulants 0 2 = Fl.fin a → l.cumulants.log_cumulants 2 0 = Fl.fin b → 0 < a * b →
          ∃ ρ ρ' : ℝ, l.cumulants.rho_mf = some (Fl.fin ρ) ∧ l'.cumulants.rho_mf = some (Fl.fin ρ') ∧ |ρ - ρ'| ≤ ε := by
  obtain ⟨J, Jc, l1, l2, he, hJ, hJc, hl1, hl2, -, hform, hpc, hsc, hpl, hsl⟩ := wa_paired hwt hw1 hw2
  obtain ⟨k2, hk2⟩ := Int.eq_ofNat_of_zero_le (show 0 ≤ w1.j2_eff by omega)
  have hjj : j1 < k2 := by rw [hk2] at h12; exact_mod_cast h12
  have hkJ : k2 ≤ J := by rw [hk2] at hJ; exact_mod_cast hJ
  obtain ⟨d1, dl1⟩ := signal_nonzero (by norm_num) hwt hw1 n1
  obtain ⟨d2, dl2⟩ := signal_nonzero (by norm_num) hwt hw2 n2
  have hr := fun {z : Fin 1 → ℤ → ℝ} {w : WT 1} (h : waveletAnalysis (sampled N z) .inf wt j1 j2 g nm weighted = .ok w) =>
    rows_ne_nil (by norm_num) h
  obtain ⟨fc1, cc1, ec1, L1, hM1, hL1⟩ := ev_wa (noInf_sampled _) (by norm_num) (Or.inr rfl) hnm hw1
  obtain ⟨fc2, cc2, ec2, L2, hM2, hL2⟩ := ev_wa (noInf_sampled _) (by norm_num) (Or.inr rfl) hnm hw2
  rcases hL1 with ⟨h, -⟩ | ⟨-, fl1, cl1, el1, eL1⟩
  · rw [hl1] at h; cases h
  rcases hL2 with ⟨h, -⟩ | ⟨-, fl2, cl2, el2, eL2⟩
  · rw [hl2] at h; cases h
  rw [hl1] at el1; injection el1 with el1
  rw [hl2] at el2; injection el2 with el2
  have r1 := hr hw1 _ (Or.inl rfl)
  have r2 := hr hw2 _ (Or.inl rfl)
  have s1 := hr hw1 _ (Or.inr ⟨hl1, rfl⟩)
  have s2 := hr hw2 _ (Or.inr ⟨hl2, rfl⟩)
  have dl1 := dl1 _ hl1
  have dl2 := dl2 _ hl2
  rw [← ec1] at hpc hsc r1 d1
  rw [← ec2] at hpc hsc r2 d2
  rw [el1] at hpl hsl s1 dl1 hform
  rw [el2] at hpl hsl s2 dl2
  have gc1 : fc1.Good Jc := ⟨FMrq.keys_of hpc.reg1, cc1, FMrq.rows_of r1, d1⟩
  have gc2 : fc2.Good Jc := ⟨FMrq.keys_of hpc.reg2, cc2, FMrq.rows_of r2, d2⟩
  have gl1 : fl1.Good J := ⟨FMrq.keys_of hpl.reg1, cl1, FMrq.rows_of s1, dl1⟩
  have gl2 : fl2.Good J := ⟨FMrq.keys_of hpl.reg2, cl2, FMrq.rows_of s2, dl2⟩
  obtain ⟨d, hd, hdc⟩ := pair_estimates gc1 gc2 hpc hsc h1 hjj (hkJ.trans hJc) weighted hn1 hn2 hq1 hq2 hn
  obtain ⟨l, hl, hlc⟩ := pair_estimates gl1 gl2 hpl hsl h1 hjj hkJ weighted hn1 hn2 hq1 hq2 hn
  refine ⟨d, l, ?_, fun ε hε => eventually_machine ?_⟩
  · unfold bivariateAnalysisFull bivariateAnalysis
    simp only [hw1, hw2, hl1, hl2, ← he, min_self, hk2, ← ec1, ← ec2, el1, el2, hd, hl]
  filter_upwards [hM1, hM2, hdc ε hε, hlc ε hε] with M m1 m2 hdM hlM
  obtain ⟨d', hd', hdcl, -⟩ := hdM
  obtain ⟨l', hl', hlcl, hrho⟩ := hlM
  refine ⟨d', l', ?_, hdcl, hlcl, hrho (by rw [show fl1.formalism = _ from hform]; simp)⟩
  unfold Machine.bivariateAnalysisFull Machine.bivariateAnalysis
  simp only [m1, m2, eL1, eL2, ← he, min_self, hk2, hd', hl']

/-- The hypotheses of `C140_estimators` are met by the leaders `bi1`, `bi2` of `Props/BiDemo` (those of `C140_signal` are the hypotheses of `C138_signal`,
met by the example there). -/
example (weighted : Bool) : ∃ v, biVar false bi1 bi2 (1 : ℕ) (2 : ℕ) weighted 2 (some (.ndarray [0, 1, 2])) (some (.ndarray [0, 1, 2])) = .ok v ∧
    ∃ u0 : ℝ, 0 < u0 ∧ ∀ M : Machine, M.u ≤ u0 → ∃ v', M.biVar false bi1 bi2 (1 : ℕ) (2 : ℕ) weighted 2 (some (.ndarray [0, 1, 2])) (some (.ndarray [0, 1, 2])) = .ok v' ∧
      BiEstimatesClose (1 / 1000) 3 3 2 v v' := by
  obtain ⟨v, hv, hc⟩ := C140_estimators bi_paired bi_sameNaN (bi_data _ (Or.inl rfl)).1 (bi_data _ (Or.inr rfl)).1 (bi_data _ (Or.inl rfl)).2
    (bi_data _ (Or.inr rfl)).2 le_rfl one_lt_two le_rfl weighted (q1 := [0, 1, 2]) (q2 := [0, 1, 2]) (by norm_num) (by norm_num) (by norm_num) (by norm_num) le_rfl
  obtain ⟨u0, hu0, h⟩ := hc (1 / 1000) (by norm_num)
  refine ⟨v, hv, u0, hu0, fun M hM => ?_⟩
  obtain ⟨v', hv', hcl, -⟩ := h M hM
  exact ⟨v', hv', hcl⟩

/-- There are machines with any relative error, whose operations are not exact (`Machine.inflating`). -/
example (u : ℝ) (hu : 0 < u) : ∃ M : Machine, M.u = u ∧ M.add (Fl.fin 1) (Fl.fin 1) ≠ Fl.fin 2 := by
  refine ⟨Machine.inflating u hu.le, rfl, ?_⟩
  show inflate u (Fl.fin 1 + Fl.fin 1) ≠ _
  rw [inflate, if_pos ⟨1 + 1, Fl.fin_add _ _⟩, Fl.fin_add, Fl.fin_mul, Ne, Fl.fin_inj]
  intro h
  linarith

end

end MFA
