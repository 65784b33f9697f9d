import Verif.Props.SuppliedNoise
import Verif.Props.SimulMrwLaw

/-!
# C117: histories of simulator calls

A program calls the simulators one after the other, with one global random generator.
-/

namespace MFA

open Classical Finset MeasureTheory ProbabilityTheory

noncomputable section

/-- A call of a simulator (the supplied noise `z0` is left at its default). -/
inductive SimCall where
  | fgn (R N : ℕ) (H sigma : ℝ) (dt : Option ℝ) (method : String)
  | fbm (R N : ℕ) (H sigma : ℝ) (dt : Option ℝ) (method : String)
  | mrw (R N : ℕ) (H lam L sigma : ℝ) (method : String)

/-- Number of realisations. -/
def SimCall.R : SimCall → ℕ
  | .fgn R .. => R
  | .fbm R .. => R
  | .mrw R .. => R

/-- Number of samples. -/
def SimCall.N : SimCall → ℕ
  | .fgn _ N .. => N
  | .fbm _ N .. => N
  | .mrw _ N .. => N

/-- What the call does on a random stream. -/
def SimCall.run : (c : SimCall) → Rng → Except PyErr (Sim c.R)
  | .fgn R N H sigma dt method => MFA.fgn R N H sigma dt method none
  | .fbm R N H sigma dt method => MFA.fbm R N H sigma dt method none
  | .mrw R N H lam L sigma method => MFA.mrw R N H lam L sigma method (none, none)

/-- The arguments are admissible for the chosen method. -/
def SimCall.Valid : SimCall → Prop
  | .fgn _ N H sigma dt method => 2 ≤ N ∧ (∀ d, dt = some d → 0 ≤ d) ∧
      (method = "cme" ∧ 0 ≤ H ∧ H ≤ 1 ∨ method = "chol" ∧ 0 < H ∧ H < 1 ∧ sigma ≠ 0)
  | .fbm _ N H sigma dt method => 2 ≤ N ∧ (∀ d, dt = some d → 0 ≤ d) ∧
      (method = "cme" ∧ 0 ≤ H ∧ H ≤ 1 ∨ method = "chol" ∧ 0 < H ∧ H < 1 ∧ sigma ≠ 0)
  | .mrw _ N H lam L sigma method => 2 ≤ N ∧ 0 < L ∧ L ≤ N ∧
      (method = "cme" ∧ 0 ≤ H ∧ H ≤ 1 ∨ method = "chol" ∧ 0 < H ∧ H < 1 ∧ sigma ≠ 0 ∧ lam ≠ 0 ∧ 1 < L)

/-- The random stream that the `k`-th call of the history `c` finds. -/
def rngBefore (c : ℕ → SimCall) (g : Rng) : ℕ → Rng
  | 0 => g
  | k + 1 => match (c k).run (rngBefore c g k) with
    | .ok s => s.rng
    | .error _ => rngBefore c g k

/-- The simulator never raises, returns `N` rows, takes exactly the first `A` values of the stream, and its samples are measurable
functions of them. -/
def Draws {R : ℕ} (A N : ℕ) (f : Rng → Except PyErr (Sim R)) : Prop :=
  ∃ x : Rng → RArr R, (∀ g, ∃ s, f g = .ok s ∧ s.x = x g ∧ s.rng = g.skip A ∧ s.x.length = N) ∧
    (∀ n r, Measurable fun g : ℕ → ℝ => ((x g).getD n fun _ => 0) r) ∧
    ∀ n r (g g' : Rng), (∀ i < A, g i = g' i) → ((x g).getD n fun _ => 0) r = ((x g').getD n fun _ => 0) r

theorem LinOn.measurable {S : Set ℕ} {f : (ℕ → ℝ) → ℝ} (hf : f ∈ LinOn S) : Measurable f := by
  refine Submodule.span_induction (p := fun f _ => Measurable f) ?_ ?_ ?_ ?_ hf
  · rintro _ ⟨i, -, rfl⟩; exact measurable_pi_apply i
  · exact measurable_const
  · intro x y _ _ hx hy; exact hx.add hy
  · intro a x _ hx; exact hx.const_smul a

theorem LinOn.depends {S : Set ℕ} {f : (ℕ → ℝ) → ℝ} (hf : f ∈ LinOn S) {g g' : ℕ → ℝ} (h : ∀ i ∈ S, g i = g' i) : f g = f g' := by
  refine Submodule.span_induction (p := fun f _ => f g = f g') ?_ ?_ ?_ ?_ hf
  · rintro _ ⟨i, hi, rfl⟩; exact h i hi
  · rfl
  · intro x y _ _ hx hy; simp [hx, hy]
  · intro a x _ hx; simp [hx]

theorem LinSim.draws {R A N : ℕ} {f : Rng → Except PyErr (Sim R)} (hf : LinSim A f)
    (hlen : ∀ g s, f g = .ok s → s.x.length = N) : Draws A N f := by
  obtain ⟨x, hx, hl⟩ := hf
  refine ⟨x, fun g => ?_, fun n r => LinOn.measurable (hl n r), fun n r g g' h => LinOn.depends (hl n r) fun i hi => h i hi⟩
  obtain ⟨s, h1, h2, h3⟩ := hx g
  exact ⟨s, h1, h2, h3, hlen g s h1⟩

theorem fgn_draws {R N : ℕ} {H sigma : ℝ} {dt : Option ℝ} {method : String} (hN : 2 ≤ N) (hdt : ∀ d, dt = some d → 0 ≤ d)
    (h : method = "cme" ∧ 0 ≤ H ∧ H ≤ 1 ∨ method = "chol" ∧ 0 < H ∧ H < 1 ∧ sigma ≠ 0) :
    ∃ A, LinSim A (fgn R N H sigma dt method none) ∧ ∀ g s, fgn R N H sigma dt method none g = .ok s → s.x.length = N := by
  rcases h with ⟨rfl, h0, h1⟩ | ⟨rfl, h0, h1, hs⟩
  · refine ⟨_, linSim_fgn none h0 h1 hN hdt, fun g s hs => ?_⟩
    obtain ⟨t, ht, hl, -⟩ := fgn_cme_ok (R := R) (sigma := sigma) none h0 h1 hN hdt g
    rw [hs] at ht; cases ht; exact hl
  · have hN0 : N ≠ 0 := by omega
    have hA := fgn_posDef h0 h1 hs (fgnDt_eq (dt := dt) hN0 hdt).2 hN
    obtain ⟨cov, hcov⟩ : ∃ cov, cov = (List.range N).map (fgnCov H sigma (effStep dt N)) := ⟨_, rfl⟩
    have hlen : cov.length = N := by simp [hcov]
    have hne : cov ≠ [] := by intro hc; rw [hc] at hlen; simp at hlen; omega
    have heq : fgn R N H sigma dt "chol" none = gaussianChol cov cov.length none := by
      funext g; rw [fgn_chol_eq none h0.le h1.le hN0 hdt g, hcov, ← hcov, hlen]
    rw [← hcov] at hA
    rw [heq]
    refine ⟨_, linSim_chol hne hA, fun g s hs => ?_⟩
    obtain ⟨U, -, hU⟩ := gaussianChol_ok (R := R) hne hA
    rw [hU g] at hs; cases hs; simp [hlen]

theorem gaussianW_draws {R N : ℕ} {lam L : ℝ} {method : String} (hN : 2 ≤ N) (hL : 0 < L) (hLN : L ≤ N)
    (h : method = "cme" ∨ method = "chol" ∧ lam ≠ 0 ∧ 1 < L) :
    ∃ A, LinSim A (gaussianW R N L lam 1 method none) ∧ ∀ g s, gaussianW R N L lam 1 method none g = .ok s → s.x.length = N := by
  have hLN' : L / 1 ≤ N := by simpa using hLN
  obtain ⟨cov, hcov⟩ : ∃ cov, cov = (List.range N).map (wCov L lam 1) := ⟨_, rfl⟩
  have hlen : cov.length = N := by simp [hcov]
  have hne : cov ≠ [] := by intro hc; rw [hc] at hlen; simp at hlen; omega
  rcases h with rfl | ⟨rfl, hlam, hL1⟩
  · refine ⟨_, linSim_w hL hLN hN, fun g s hs => ?_⟩
    rw [gaussianW_cme_eq hL one_pos hLN' none g, ← hcov,
      show gaussianCme (R := R) cov N none g = gaussianCme cov cov.length none g by rw [hlen], gaussianCme_eq cov (by omega) g] at hs
    cases hs; simp [hlen]
  · have hA := w_posDef (dt := 1) hL one_pos (by simpa using hL1) hlam hN
    rw [← hcov] at hA
    have heq : gaussianW R N L lam 1 "chol" none = gaussianChol cov cov.length none := by
      funext g; rw [gaussianW_chol_eq hL one_pos hLN' none g, hlen, hcov]
    rw [heq]
    refine ⟨_, linSim_chol hne hA, fun g s hs => ?_⟩
    obtain ⟨U, -, hU⟩ := gaussianChol_ok (R := R) hne hA
    rw [hU g] at hs; cases hs; simp [hlen]

theorem mrw_draws {R N : ℕ} {H lam L sigma : ℝ} {method : String} {A B : ℕ} (h0 : 0 ≤ H) (h1 : H ≤ 1) (hLN : L ≤ N)
    (hw : LinSim A (gaussianW R N L lam 1 method none)) (hwl : ∀ g s, gaussianW R N L lam 1 method none g = .ok s → s.x.length = N)
    (he : LinSim B (fgn R N H sigma none method none)) (hel : ∀ g s, fgn R N H sigma none method none g = .ok s → s.x.length = N) :
    Draws (A + B) N (mrw R N H lam L sigma method (none, none)) := by
  obtain ⟨w, hw, hwlin⟩ := hw
  obtain ⟨e, he, helin⟩ := he
  have key : ∀ g : Rng, ∃ s, mrw R N H lam L sigma method (none, none) g = .ok s ∧ s.rng = g.skip (A + B) ∧ s.x.length = N ∧
      ∀ n < N, ∀ r, (s.x.getD n fun _ => 0) r = ∑ k ∈ range (n + 1), ((e (g.skip A)).getD k fun _ => 0) r *
        Real.exp (((w g).getD k fun _ => 0) r - (∑ i ∈ range N, ((w g).getD i fun _ => 0) r) / N - lam ^ 2 / 2 * Real.log L) := by
    intro g
    obtain ⟨sw, hsw, hswx, hswr⟩ := hw g
    obtain ⟨se, hse, hsex, hser⟩ := he sw.rng
    obtain ⟨s, hs, hr, hl, hx⟩ := mrw_compose (za := none) h0 h1 hLN hsw hse (hwl _ _ hsw) (hel _ _ hse)
    refine ⟨s, hs, ?_, hl, fun n hn r => ?_⟩
    · rw [hr, hser, hswr]
      funext i
      simp only [Rng.skip]
      congr 1; ring
    · rw [hx n hn r, hswx, hsex, hswr]
  choose s hs hr hl hx using key
  refine ⟨fun g => (s g).x, fun g => ⟨s g, hs g, rfl, hr g, hl g⟩, fun n r => ?_, fun n r g g' h => ?_⟩
  · by_cases hn : n < N
    · have : (fun g : ℕ → ℝ => (((s g).x).getD n fun _ => 0) r) = fun g : ℕ → ℝ => ∑ k ∈ range (n + 1),
          ((e (Rng.skip g A)).getD k fun _ => 0) r *
          Real.exp (((w g).getD k fun _ => 0) r - (∑ i ∈ range N, ((w g).getD i fun _ => 0) r) / N - lam ^ 2 / 2 * Real.log L) := by
        funext g; exact hx g n hn r
      rw [this]
      refine Finset.measurable_sum _ fun k _ => ?_
      refine Measurable.mul ?_ ?_
      · refine (LinOn.measurable (helin k r)).comp (g := fun g : ℕ → ℝ => ((e g).getD k fun _ => 0) r) (f := fun g : ℕ → ℝ => Rng.skip g A) ?_
        exact measurable_pi_lambda _ fun i => measurable_pi_apply (A + i)
      · refine Real.measurable_exp.comp ?_
        refine (((LinOn.measurable (hwlin k r)).sub ?_)).sub_const _
        exact (Finset.measurable_sum _ fun i _ => LinOn.measurable (hwlin i r)).div_const _
    · have : (fun g : ℕ → ℝ => (((s g).x).getD n fun _ => 0) r) = fun _ => 0 := by
        funext g; exact getD_oob (hl g) hn r
      rw [this]; exact measurable_const
  · by_cases hn : n < N
    · simp only []
      rw [hx g n hn r, hx g' n hn r]
      have hwd : ∀ k, ((w g).getD k fun _ => 0) r = ((w g').getD k fun _ => 0) r := fun k =>
        LinOn.depends (hwlin k r) fun i hi => h i (Nat.lt_add_right B hi)
      have hed : ∀ k, ((e (g.skip A)).getD k fun _ => 0) r = ((e (g'.skip A)).getD k fun _ => 0) r := fun k =>
        LinOn.depends (helin k r) fun i hi => h (A + i) (Nat.add_lt_add_left hi A)
      simp only [hwd, hed]
    · simp only []
      rw [getD_oob (hl g) hn r, getD_oob (hl g') hn r]

/-- Every admissible call takes a fixed number of draws. -/
theorem SimCall.Valid.draws {c : SimCall} (h : c.Valid) : ∃ A, Draws A c.N c.run := by
  cases c with
  | fgn R N H sigma dt method =>
    obtain ⟨hN, hdt, hm⟩ := h
    obtain ⟨A, hA, hl⟩ := fgn_draws (R := R) hN hdt hm
    exact ⟨A, hA.draws hl⟩
  | fbm R N H sigma dt method =>
    obtain ⟨hN, hdt, hm⟩ := h
    obtain ⟨A, hA, hl⟩ := fgn_draws (R := R) hN hdt hm
    refine ⟨A, (linSim_fbm none hA hl).draws fun g s hs => ?_⟩
    unfold MFA.fbm at hs
    cases hf : MFA.fgn R N H sigma dt method none g with
    | error e => rw [hf] at hs; cases hs
    | ok t => rw [hf] at hs; cases hs; simp [cumsum_length, hl g t hf, SimCall.N]
  | mrw R N H lam L sigma method =>
    obtain ⟨hN, hL, hLN, hm⟩ := h
    have h01 : 0 ≤ H ∧ H ≤ 1 := by
      rcases hm with ⟨-, h⟩ | ⟨-, h0, h1, -⟩
      · exact h
      · exact ⟨h0.le, h1.le⟩
    obtain ⟨A, hA, hl⟩ := gaussianW_draws (R := R) (lam := lam) (method := method) hN hL hLN (by
      rcases hm with ⟨h, -⟩ | ⟨h, -, -, -, h1, h2⟩
      · exact Or.inl h
      · exact Or.inr ⟨h, h1, h2⟩)
    obtain ⟨B, hB, hl'⟩ := fgn_draws (R := R) (H := H) (sigma := sigma) (dt := none) (method := method) hN (by simp) (by
      rcases hm with ⟨h, h'⟩ | ⟨h, h1, h2, h3, -⟩
      · exact Or.inl ⟨h, h'⟩
      · exact Or.inr ⟨h, h1, h2, h3⟩)
    exact ⟨A + B, mrw_draws h01.1 h01.2 hLN hA hl hB hl'⟩

variable {Ω : Type*} [MeasurableSpace Ω] {μ : Measure Ω} {g : Ω → ℕ → ℝ}

/-- Disjoint finite blocks of a stream of standard normal draws are independent. -/
theorem StdNormal.blocks (hg : StdNormal μ g) {ι : Type*} {A : ι → ℕ} (pos : (k : ι) → Fin (A k) → ℕ)
    (hinj : ∀ k l i j, pos k i = pos l j → k = l) (hinj' : ∀ k, Function.Injective (pos k)) :
    iIndepFun (fun (k : ι) ω (i : Fin (A k)) => g ω (pos k i)) μ := by
  have hp := hg.isProbabilityMeasure
  rw [iIndepFun_iff_finset]
  intro s
  refine HasGaussianLaw.iIndepFun_of_covariance_eval (ι := s) (κ := fun k => Fin (A k)) (X := fun k i ω => g ω (pos k i)) ?_ ?_
  · have h1 := hg.gaussian (κ := (k : s) × Fin (A k)) (fun p g => g (pos p.1 p.2)) fun p => Lin.eval _
    have h2 := h1.map_fun (ContinuousLinearMap.pi fun k : s => ContinuousLinearMap.pi fun i : Fin (A k) =>
      ContinuousLinearMap.proj (R := ℝ) (φ := fun _ : (k : s) × Fin (A k) => ℝ) ⟨k, i⟩)
    exact h2
  · intro k l hkl i j
    have hne : pos k i ≠ pos l j := fun h => hkl (Subtype.ext (hinj _ _ _ _ h))
    exact (hg.indep.indepFun hne).covariance_eq_zero (hg.memLp _) (hg.memLp _)

/-- A block of standard normal draws has the same law wherever it is. -/
theorem StdNormal.block_law (hg : StdNormal μ g) (A s : ℕ) :
    μ.map (fun ω (i : Fin A) => g ω (s + i)) = μ.map (fun ω (i : Fin A) => g ω i) := by
  have hp := hg.isProbabilityMeasure
  have h1 : iIndepFun (fun (i : Fin A) ω => g ω (s + i)) μ :=
    hg.indep.precomp (g := fun i : Fin A => s + (i : ℕ)) fun a b h => Fin.ext (by simpa using h)
  have h2 : iIndepFun (fun (i : Fin A) ω => g ω i) μ := hg.indep.precomp (g := fun i : Fin A => (i : ℕ)) Fin.val_injective
  rw [(iIndepFun_iff_map_fun_eq_pi_map fun i => (hg.law _).aemeasurable).1 h1,
    (iIndepFun_iff_map_fun_eq_pi_map fun i => (hg.law _).aemeasurable).1 h2]
  congr 1
  funext i
  rw [(hg.law _).map_eq, (hg.law _).map_eq]

/-- **C117**: in any history of admissible calls of `fgn`, `fbm` and `mrw` (any shapes, parameters and methods) with one generator of
independent standard normal draws, every call returns; the arrays returned by different calls are mutually independent; and the array
of each call has the law it has as the first call of a program. -/
theorem C117_history (c : ℕ → SimCall) (hc : ∀ k, (c k).Valid) (hg : StdNormal μ g) :
    ∃ x : (k : ℕ) → Ω → RArr (c k).R,
      (∀ k ω, ∃ s, (c k).run (rngBefore c (g ω) k) = .ok s ∧ s.x = x k ω ∧ s.x.length = (c k).N) ∧
      iIndepFun (fun (k : ℕ) ω (p : Fin (c k).N × Fin (c k).R) => sample (x k) p.1 p.2 ω) μ ∧
      ∀ k (y : Ω → RArr (c k).R), Returns (c k).run g y →
        μ.map (fun ω (p : Fin (c k).N × Fin (c k).R) => sample (x k) p.1 p.2 ω)
          = μ.map (fun ω (p : Fin (c k).N × Fin (c k).R) => sample y p.1 p.2 ω) := by
  choose A f hf hm hd using fun k => (hc k).draws
  obtain ⟨S, hS⟩ : ∃ S : ℕ → ℕ, S = fun k => ∑ i ∈ range k, A i := ⟨_, rfl⟩
  have hrng : ∀ (g : Rng) k, rngBefore c g k = g.skip (S k) := by
    intro g k
    induction k with
    | zero => funext i; simp [rngBefore, Rng.skip, hS]
    | succ k ih =>
      obtain ⟨s, h1, -, h3, -⟩ := hf k (rngBefore c g k)
      rw [rngBefore, h1]
      simp only []
      rw [h3, ih]
      funext i
      simp only [Rng.skip, hS, sum_range_succ]
      congr 1; ring
  have hmono : ∀ k l, k < l → S k + A k ≤ S l := by
    intro k l hkl
    rw [hS]
    simp only []
    rw [← sum_range_succ]
    exact sum_le_sum_of_subset (range_mono hkl)
  -- the samples as functions of the block of draws
  obtain ⟨F, hF⟩ : ∃ F : (k : ℕ) → (Fin (A k) → ℝ) → (Fin (c k).N × Fin (c k).R → ℝ), F = fun k b p =>
    ((f k (fun i => if h : i < A k then b ⟨i, h⟩ else 0)).getD p.1 fun _ => 0) p.2 := ⟨_, rfl⟩
  have hFm : ∀ k, Measurable (F k) := by
    intro k
    rw [hF]
    refine measurable_pi_lambda _ fun p => ?_
    refine (hm k p.1 p.2).comp (f := fun (b : Fin (A k) → ℝ) (i : ℕ) => if h : i < A k then b ⟨i, h⟩ else 0) ?_
    refine measurable_pi_lambda _ fun i => ?_
    by_cases h : i < A k
    · simp only [h, dif_pos]; exact measurable_pi_apply _
    · simp only [h, dif_neg, not_false_eq_true]; exact measurable_const
  have hFx : ∀ k (u : Rng) (p : Fin (c k).N × Fin (c k).R), ((f k u).getD p.1 fun _ => 0) p.2 = F k (fun i => u i) p := by
    intro k u p
    rw [hF]
    exact hd k p.1 p.2 _ _ fun i hi => by simp [hi]
  refine ⟨fun k ω => f k (rngBefore c (g ω) k), fun k ω => ?_, ?_, fun k y hy => ?_⟩
  · obtain ⟨s, h1, h2, -, h4⟩ := hf k (rngBefore c (g ω) k)
    exact ⟨s, h1, h2, h4⟩
  · have hb := hg.blocks (A := A) (fun k i => S k + i) (by
      intro k l i j hij
      by_contra hne
      rcases Nat.lt_or_gt_of_ne hne with h | h
      · have := hmono k l h; omega
      · have := hmono l k h; omega) (by
      intro k i j hij; exact Fin.ext (by simpa using hij))
    have := hb.comp F hFm
    convert this using 2 with k
    funext ω p
    simp only [Function.comp]
    rw [sample, hFx k, hrng]
    rfl
  · have hy' : y = fun ω => f k (g ω) := by
      funext ω
      obtain ⟨s, h1, h2⟩ := hy ω
      obtain ⟨t, h3, h4, -⟩ := hf k (g ω)
      rw [h1] at h3; cases h3
      rw [← h2, h4]
    subst hy'
    have e1 : (fun ω (p : Fin (c k).N × Fin (c k).R) => sample (fun ω => f k (rngBefore c (g ω) k)) p.1 p.2 ω)
        = F k ∘ fun ω (i : Fin (A k)) => g ω (S k + i) := by
      funext ω p
      simp only [Function.comp]
      rw [sample, hFx k, hrng]
      rfl
    have e2 : (fun ω (p : Fin (c k).N × Fin (c k).R) => sample (fun ω => f k (g ω)) p.1 p.2 ω)
        = F k ∘ fun ω (i : Fin (A k)) => g ω i := by
      funext ω p
      simp only [Function.comp]
      rw [sample, hFx k]
    have m1 : AEMeasurable (fun ω (i : Fin (A k)) => g ω (S k + i)) μ := aemeasurable_pi_lambda _ fun i => (hg.law _).aemeasurable
    have m2 : AEMeasurable (fun ω (i : Fin (A k)) => g ω i) μ := aemeasurable_pi_lambda _ fun i => (hg.law _).aemeasurable
    rw [e1, e2, ← AEMeasurable.map_map_of_aemeasurable (hFm k).aemeasurable m1,
      ← AEMeasurable.map_map_of_aemeasurable (hFm k).aemeasurable m2, hg.block_law]

/-- **C117**, Monte-Carlo: repeating one admissible call gives independent, identically distributed arrays. -/
theorem C117_iid (c : SimCall) (hc : c.Valid) (hg : StdNormal μ g) :
    ∃ x : ℕ → Ω → RArr c.R, (∀ k ω, ∃ s, c.run (rngBefore (fun _ => c) (g ω) k) = .ok s ∧ s.x = x k ω) ∧
      iIndepFun (fun (k : ℕ) ω (p : Fin c.N × Fin c.R) => sample (x k) p.1 p.2 ω) μ ∧
      ∀ k, μ.map (fun ω (p : Fin c.N × Fin c.R) => sample (x k) p.1 p.2 ω)
        = μ.map (fun ω (p : Fin c.N × Fin c.R) => sample (x 0) p.1 p.2 ω) := by
  obtain ⟨x, h1, h2, h3⟩ := C117_history (fun _ => c) (fun _ => hc) hg
  refine ⟨x, fun k ω => ?_, h2, fun k => h3 k (x 0) fun ω => ?_⟩
  · obtain ⟨s, a, b, -⟩ := h1 k ω
    exact ⟨s, a, b⟩
  · obtain ⟨s, a, b, -⟩ := h1 0 ω
    exact ⟨s, a, b⟩

/-- A history that mixes the three simulators, both methods and several shapes. -/
example : ∀ k : ℕ, (match k % 3 with
    | 0 => SimCall.fgn 2 64 (7 / 10) 1 none "cme"
    | 1 => SimCall.mrw 1 1024 (4 / 5) (1 / 5) 256 1 "cme"
    | _ => SimCall.fbm 1 16 (1 / 2) 2 (some 1) "chol").Valid := by
  intro k
  split
  · exact ⟨by norm_num, by simp, Or.inl (by norm_num)⟩
  · exact ⟨by norm_num, by norm_num, by norm_num, Or.inl (by norm_num)⟩
  · exact ⟨by norm_num, by norm_num, Or.inr (by norm_num)⟩

end

end MFA
