import Verif.Props.Estimators

/-!
# Property C102: the structure functions of every order above -1/2 are consistent
-/

namespace MFA

universe u

open Classical Finset MeasureTheory ProbabilityTheory

noncomputable section

variable {wt : Wavelet}

/-- **C102**.  Gaussian signal with stationary increments and variogram `2c|t|^(2H)`, orthonormal wavelet, any order `q > -1/2`
(negative orders included) and any scale: the structure function `S(j,q)`, whose base 2 logarithm is stored by `StructureFunction`
(almost surely: for negative orders a coefficient equal to 0, which has probability 0, would make it infinite), has mean
`v c^(q/2)` and mean square error at most `D c^q / nj`, where `v > 0` and `D` do not depend on the length of the signal. -/
theorem C102_moments {M : ℕ} (hM : VanishingMoments wt.dec_hi M) (hM1 : 1 ≤ M) (hwt : wt.Valid) (ho : OrthonormalBank wt) {H : ℝ}
    (h0 : 0 < H) (h1 : H < 1) (hH : 4 * H - 4 * M < -1) (g nm : ℝ) (q : ℝ) (hq : -(1 / 2) < q) (j : ℕ) (hj : 1 ≤ j) : ∃ v D : ℝ, 0 ≤ D ∧
    ∀ {Ω : Type u} [MeasurableSpace Ω] {μ : Measure Ω} {c : ℝ} {R N : ℕ} {x : Ω → List (Fin R → ℝ)} {w : Ω → WT R}, 0 < c →
      PowerLawAnalysis μ wt H c g nm N x w → ∀ {ω₀ : Ω}, j ≤ (w ω₀).wt_coefs.values.length → ∀ r : Fin R, ∃ (n : ℕ) (S : Ω → ℝ),
      0 < v ∧ (∀ ω, (w ω).wt_coefs.nj? j r = some n) ∧
      (∀ᵐ ω ∂μ, 0 < S ω ∧ ∀ (Q : QArg) (k1 k2 : ℤ) (wd : Bool) (s : StructFn R), StructFn.make (w ω).wt_coefs Q k1 k2 wd = .ok s →
        ∀ (i : ℕ) (e : Expo), Q.expos[i]? = some e → e.val = q → ∃ (lv : Arr R) (L : Row R),
          s.logvalues[i]? = some lv ∧ lv[j - 1]? = some L ∧ L r = Fl.fin (Real.logb 2 (S ω))) ∧
      Integrable S μ ∧ ∫ ω, S ω ∂μ = v * c ^ (q / 2) ∧
      Integrable (fun ω => (S ω - v * c ^ (q / 2)) ^ 2) μ ∧ ∫ ω, (S ω - v * c ^ (q / 2)) ^ 2 ∂μ ≤ D * c ^ q / n := by
  obtain ⟨τ, V, B, hV, hB, hvar, hlln⟩ := coefs_lln.{u} hM hM1 hwt ho h0 h1 hH g nm
  obtain ⟨D, hD, hl⟩ := hlln j (measurable_testF q 0) (testF_even _ _) (testF_sq hq 0) hj
  refine ⟨|τ j| ^ (q / 2) * normalMoment q 0, |τ j| ^ q * D, by positivity, ?_⟩
  intro Ω _ μ c R N x w hc hw ω₀ hjl r
  have hR : R ≠ 0 := fun h0 => by subst h0; exact r.elim0
  have hprob := hw.prob
  obtain ⟨t1, -, t3⟩ := hvar hc hw hR hj hjl
  obtain ⟨a1, a2, a3, a4⟩ := hl hc hw hjl r
  have hlen : ∀ ω, j ≤ (w ω).wt_coefs.values.length := fun ω => by rw [hw.scales hwt hR ω ω₀]; exact hjl
  have hcard := hw.card hwt hR hj hjl
  obtain ⟨K, hK⟩ : ∃ K, K = interior N wt.dec_hi.length j := ⟨_, rfl⟩
  have hpos : 0 < c * τ j := mul_pos hc t1
  have hσ : 0 < √(c * τ j) := Real.sqrt_pos.2 hpos
  have hs1 : √(c * τ j) ^ q = |τ j| ^ (q / 2) * c ^ (q / 2) := by
    rw [Real.sqrt_eq_rpow, ← Real.rpow_mul hpos.le, abs_of_pos t1, mul_comm c, Real.mul_rpow t1.le hc.le]
    ring_nf
  obtain ⟨G, hG⟩ : ∃ G : Ω → ℝ, G = fun ω => (∑ k ∈ interior N wt.dec_hi.length j, testF q 0 ((w ω).wt_coefs.number j k r / √(c * τ j))) /
    (interior N wt.dec_hi.length j).card := ⟨_, rfl⟩
  rw [← hG] at a1
  have a1' : ∀ ω, (∑ k ∈ interior N wt.dec_hi.length j, testF q 0 ((w ω).wt_coefs.number j k r / √(c * τ j))) /
    (interior N wt.dec_hi.length j).card = G ω := fun ω => by rw [hG]
  simp only [a1'] at a2 a3 a4
  have hv : 0 < |τ j| ^ (q / 2) * normalMoment q 0 :=
    mul_pos (Real.rpow_pos_of_pos (abs_pos.2 t1.ne') _) (normalMoment_pos (by linarith))
  refine ⟨(interior N wt.dec_hi.length j).card, fun ω => √(c * τ j) ^ q * G ω, hv, fun ω => ?_, ?_, a1.const_mul _, ?_, ?_, ?_⟩
  · obtain ⟨p, j1, j2, weighted, hs⟩ := hw.sampled
    exact nj_interior hwt (hs ω) hj (hlen ω) r
  · have hz : ∀ᵐ ω ∂μ, ∀ k ∈ interior N wt.dec_hi.length j, (w ω).wt_coefs.number j k r ≠ 0 := by
      rw [Finset.eventually_all]
      intro k hk
      rw [ae_iff]
      simpa using (t3 r k hk).2
    filter_upwards [hz] with ω hω
    obtain ⟨p, j1, j2, weighted, hs⟩ := hw.sampled
    obtain ⟨hreg, -, he⟩ := hw.entries hwt ω
    obtain ⟨p', hp', hpj⟩ : ∃ p', (w ω).wt_coefs.values[j - 1]? = some p' ∧ p'.1 = (j : ℤ) := by
      have hlt : j - 1 < (w ω).wt_coefs.values.length := by have := hlen ω; omega
      refine ⟨_, List.getElem?_eq_getElem hlt, ?_⟩
      have h3 := hreg.1
      have h4 : ((w ω).wt_coefs.values.map Prod.fst)[j - 1]? = some ((j : ℤ)) := by
        rw [h3, List.getElem?_map, List.getElem?_range hlt, Option.map_some]
        congr 1; omega
      rw [List.getElem?_map, List.getElem?_eq_getElem hlt, Option.map_some] at h4
      exact Option.some.inj h4
    obtain ⟨j', hj', hj1', hj2', hr⟩ := he p' (List.mem_of_getElem? hp')
    obtain rfl : j' = j := by rw [hpj] at hj'; exact_mod_cast hj'.symm
    obtain ⟨xs, e1, e2, e3, e4⟩ := hr r
    have hx0 : ∀ y ∈ xs, y ≠ 0 := by
      intro y hy
      obtain ⟨k, hk, rfl⟩ := e4 y hy
      exact hω k hk
    have hxne : xs ≠ [] := fun h => by rw [h, List.length_nil] at e3; omega
    have hS : powSum xs q / xs.length = √(c * τ j') ^ q * G ω := by
      rw [powSum_div (s := (√(c * τ j'), xs)) hσ q, hG]
      show _ * ((xs.map fun x => testF q 0 (x / √(c * τ j'))).sum / xs.length) = _
      rw [e2 (fun x => testF q 0 (x / √(c * τ j'))), e3]
    have hSpos : 0 < powSum xs q / xs.length := by
      have : (0:ℝ) < xs.length := by exact_mod_cast List.length_pos_iff.2 hxne
      exact div_pos (powSum_pos _ (exists_nonzero hxne hx0)) this
    refine ⟨by rw [← hS]; exact hSpos, ?_⟩
    intro Q k1 k2 wd s hsf i e hi hev
    refine ⟨(w ω).wt_coefs.values.map fun p r => (sfMean p.2 e r).log2, fun r => (sfMean p'.2 e r).log2, ?_, ?_, ?_⟩
    · rw [StructFn.make_logvalues hsf, sfLogValues, List.getElem?_map, hi]; rfl
    · rw [List.getElem?_map, hp']; rfl
    · simp only
      rw [sfMean, red, col_mapArr, col_mapArr, sfMean_col e1 (Or.inr hx0) hxne, hev, Fl.log2_fin hSpos, hS]
  · rw [integral_const_mul, a2, hs1]
    show _ * normalMoment q 0 = _
    ring
  · have e : ∀ ω, (√(c * τ j) ^ q * G ω - |τ j| ^ (q / 2) * normalMoment q 0 * c ^ (q / 2)) ^ 2 =
        (√(c * τ j) ^ q) ^ 2 * (G ω - ∫ x, testF q 0 x ∂stdG) ^ 2 := by
      intro ω
      rw [hs1]
      show _ = _ * (G ω - normalMoment q 0) ^ 2
      ring
    simp only [e]
    exact a3.const_mul _
  · have e : ∀ ω, (√(c * τ j) ^ q * G ω - |τ j| ^ (q / 2) * normalMoment q 0 * c ^ (q / 2)) ^ 2 =
        (√(c * τ j) ^ q) ^ 2 * (G ω - ∫ x, testF q 0 x ∂stdG) ^ 2 := by
      intro ω
      rw [hs1]
      show _ = _ * (G ω - normalMoment q 0) ^ 2
      ring
    simp only [e]
    rw [integral_const_mul]
    refine (mul_le_mul_of_nonneg_left a4 (sq_nonneg _)).trans (le_of_eq ?_)
    have e3 : (√(c * τ j) ^ q) ^ 2 = |τ j| ^ q * c ^ q := by
      rw [hs1, mul_pow, ← Real.rpow_natCast, ← Real.rpow_mul (abs_nonneg _), ← Real.rpow_natCast, ← Real.rpow_mul hc.le]
      norm_num
    rw [e3]
    ring

/-! The hypotheses are met: fractional Brownian motion analysed with `db2`, order `-1/4`, scale 2. -/
example (H : ℝ) (h0 : 0 < H) (h1 : H < 1) : VanishingMoments db2.dec_hi 2 ∧ db2.Valid ∧ OrthonormalBank db2 ∧
    4 * H - 4 * ((2 : ℕ) : ℝ) < -1 ∧ ∃ (Ω : Type) (_ : MeasurableSpace Ω) (μ : Measure Ω) (x : Ω → RArr 2) (w : Ω → WT 2) (ω₀ : Ω),
    PowerLawAnalysis μ db2 H (1 / 2) 0 1 64 x w ∧ 2 ≤ (w ω₀).wt_coefs.values.length := by
  obtain ⟨hv, ho, hm⟩ := db2_orthonormal
  obtain ⟨Ω, m, μ, gen, x, w, -, -, ⟨A, hG⟩, hw, hr, ⟨ω₀⟩⟩ := fbm_db2_demo H h0 h1.le
  exact ⟨hm, hv, ho, by push_cast; linarith, Ω, m, μ, x, w, ω₀, ⟨⟨A, hG⟩, _, _, _, _, hw⟩, by have := (hr ω₀).1; omega⟩

end

end MFA
