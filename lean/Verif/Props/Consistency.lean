import Verif.Lemmas.Wick
import Verif.Props.Decorrelation

/-!
# Property C96: the structure function of order 2 and the wavelet PSD are consistent estimates

For Gaussian signals with stationary increments and a power law variogram (fractional Brownian motion in particular).
-/

namespace MFA

universe u

open Classical Finset MeasureTheory ProbabilityTheory

noncomputable section

variable {Ω : Type u} [MeasurableSpace Ω] {μ : Measure Ω} {wt : Wavelet}

theorem StructFn.make_logvalues {R : ℕ} {m : MRQ R} {q : QArg} {j1 j2 : ℤ} {weighted : Bool} {s : StructFn R}
    (h : StructFn.make m q j1 j2 weighted = .ok s) : s.logvalues = sfLogValues m q.expos := by
  unfold StructFn.make at h
  split at h
  · cases h
  · simp only at h
    split at h
    · cases h
    · split at h
      · cases h
      · cases h; rfl

theorem fastPower_sq_abs {e : Expo} (he : e.val = 2) (t : ℝ) : fastPower e (Fl.fin t).abs = Fl.fin (t ^ 2) := by
  rw [fastPower.eq_def, if_neg (by rw [he]; norm_num), if_pos he]
  show Fl.fin |t| * Fl.fin |t| = _
  rw [Fl.fin_mul, ← sq, sq_abs]

/-- The coefficients of one scale and realisation in terms of the interior positions. -/
theorem col_coefs {R N : ℕ} {x : Fin R → ℤ → ℝ} {p : PExp} (hwt : wt.Valid) {j1 : ℤ} {j2 : Option ℝ} {g nm : ℝ} {weighted : Bool}
    {w : WT R} (h : waveletAnalysis (sampled N x) p wt j1 j2 g nm weighted = .ok w) {j : ℕ} (hj : 1 ≤ j)
    (hjl : j ≤ w.wt_coefs.values.length) (r : Fin R) : ∃ a : ℤ × Arr R, w.wt_coefs.values[j - 1]? = some a ∧
      w.wt_coefs.nj? j r = some (countNotNaN (col a.2 r)) ∧
      col a.2 r = (List.range (N / 2 ^ j)).map fun k => if Bord N wt.dec_hi.length j k then Fl.nan else Fl.fin (w.wt_coefs.number j k r) := by
  obtain ⟨ml, K, Kc, h1, hK, hKc, hKc', h3, hc, hgood, hj2, hl⟩ := wa_inv h
  rw [sampled_length] at h1
  have hlen : w.wt_coefs.values.length = Kc := by rw [hc]; simp [scalesUpTo]
  rw [hlen] at hjl
  refine ⟨((j : ℤ), coefSeq (wparams wt g nm) (sampled N x) j), ?_, ?_, ?_⟩
  · rw [hc]
    simp only [scalesUpTo, List.getElem?_map, List.getElem?_range (show j - 1 < Kc by omega), Option.map_some, Nat.sub_add_cancel hj]
  · rw [hc, scalesUpTo_nj, if_pos ⟨hj, hjl⟩]
  · rw [col_range, coefSeq_length _ _ _ hj, sampled_length]
    apply List.map_congr_left
    intro k hk
    have hk := List.mem_range.mp hk
    have hv : w.wt_coefs.val? j k r = some (ent (coefSeq (wparams wt g nm) (sampled N x) j) k r) := by
      rw [hc, scalesUpTo_val, coefSeq_length _ _ _ hj, sampled_length, if_pos ⟨hj, hjl, hk⟩]
    have hent := coef_nan_iff wt hwt g nm x r hj (fun i hi => level_room h1 (i := i) (by omega)) hk
    by_cases hb : Bord N wt.dec_hi.length j k
    · rw [if_pos hb, hent.mpr hb]
    · rw [if_neg hb]
      obtain ⟨t, ht⟩ := (C08_finite hwt h hv).resolve_left fun e => hb (hent.mp e)
      rw [MRQ.number, hv, ht]

/-- `nj` is the number of interior positions. -/
theorem nj_interior {R N : ℕ} {x : Fin R → ℤ → ℝ} {p : PExp} (hwt : wt.Valid) {j1 : ℤ} {j2 : Option ℝ} {g nm : ℝ} {weighted : Bool}
    {w : WT R} (h : waveletAnalysis (sampled N x) p wt j1 j2 g nm weighted = .ok w) {j : ℕ} (hj : 1 ≤ j)
    (hjl : j ≤ w.wt_coefs.values.length) (r : Fin R) :
    w.wt_coefs.nj? j r = some (interior N wt.dec_hi.length j).card := by
  obtain ⟨a, -, h2, h3⟩ := col_coefs hwt h hj hjl r
  rw [h2, h3, countNotNaN_countP, List.countP_map, countP_range_card, interior_eq _ _ _ hwt.pos]
  congr 2
  refine Finset.filter_congr fun k _ => ?_
  simp only [Function.comp]
  by_cases hb : Bord N wt.dec_hi.length j k <;> simp [hb]

/-- The structure function of order 2 is the mean square of the reported coefficients. -/
theorem sf_two {R N : ℕ} {x : Fin R → ℤ → ℝ} {p : PExp} (hwt : wt.Valid) {j1 : ℤ} {j2 : Option ℝ} {g nm : ℝ} {weighted : Bool}
    {w : WT R} (h : waveletAnalysis (sampled N x) p wt j1 j2 g nm weighted = .ok w) {j : ℕ} (hj : 1 ≤ j)
    (hjl : j ≤ w.wt_coefs.values.length) (r : Fin R) {q : QArg} {k1 k2 : ℤ} {wd : Bool} {s : StructFn R}
    (hs : StructFn.make w.wt_coefs q k1 k2 wd = .ok s) {i : ℕ} {e : Expo} (hi : q.expos[i]? = some e) (he : e.val = 2) :
    ∃ (lv : Arr R) (L : Row R), s.logvalues[i]? = some lv ∧ lv[j - 1]? = some L ∧
      L r = (Fl.fin ((∑ k ∈ interior N wt.dec_hi.length j, w.wt_coefs.number j k r ^ 2) / (interior N wt.dec_hi.length j).card)).log2 := by
  have hR : R ≠ 0 := fun h0 => by subst h0; exact r.elim0
  obtain ⟨a, h1, -, h3⟩ := col_coefs hwt h hj hjl r
  refine ⟨w.wt_coefs.values.map fun p r => (sfMean p.2 e r).log2, fun r => (sfMean a.2 e r).log2, ?_, ?_, ?_⟩
  · rw [StructFn.make_logvalues hs, sfLogValues, List.getElem?_map, hi]; rfl
  · rw [List.getElem?_map, h1]; rfl
  · simp only
    congr 1
    rw [sfMean, red, col_mapArr, col_mapArr, h3, List.map_map, List.map_map]
    have e2 : (List.range (N / 2 ^ j)).map ((fastPower e ∘ Fl.abs) ∘ fun k => if Bord N wt.dec_hi.length j k then Fl.nan
        else Fl.fin (w.wt_coefs.number j k r)) =
        (List.range (N / 2 ^ j)).map fun k => if Bord N wt.dec_hi.length j k then Fl.nan else Fl.fin (w.wt_coefs.number j k r ^ 2) := by
      apply List.map_congr_left
      intro k _
      simp only [Function.comp]
      by_cases hb : Bord N wt.dec_hi.length j k
      · rw [if_pos hb, if_pos hb]
        show fastPower e Fl.nan = Fl.nan
        rw [fastPower.eq_def, if_neg (by rw [he]; norm_num), if_pos he]; rfl
      · rw [if_neg hb, if_neg hb, fastPower_sq_abs he]
    have hne := interior_card hwt hR h hj hjl
    rw [interior_eq _ _ _ hwt.pos] at hne
    rw [e2, nanmean_ite _ (Finset.card_pos.mp (by omega)), interior_eq _ _ _ hwt.pos]

/-- **C96**.  Let the signal be Gaussian with stationary increments and a power law variogram, `4H - 4M < -1` (any `H ≤ 1` with two
vanishing moments, `H < 3/4` with one).  At every scale there are `v` and `C`, that do not depend on the length of the signal, such
that the structure function `S(j,2)` whose logarithm `StructureFunction` stores has mean `c v` and mean square error at most
`C c^2 / nj`: it converges to `c v` at the rate of independent observations. -/
theorem C96_consistent {M : ℕ} (hM : VanishingMoments wt.dec_hi M) (hM1 : 1 ≤ M) (hwt : wt.Valid) {H : ℝ} (hH : 4 * H - 4 * M < -1)
    (j : ℕ) (hj : 1 ≤ j) (g nm : ℝ) : ∃ v C : ℝ, 0 ≤ C ∧
    ∀ {Ω : Type u} [MeasurableSpace Ω] {μ : Measure Ω} {N R : ℕ} {x : Ω → List (Fin R → ℝ)} {A : ℕ → ℝ} {c : ℝ} {w : Ω → WT R} {p : PExp} {j1 : ℤ} {j2 : Option ℝ} {weighted : Bool},
      GaussianArray μ N x (fun n m => A n + A m - c * |(n : ℝ) - m| ^ (2 * H)) →
      (∀ ω, waveletAnalysis (asFloats (x ω)) p wt j1 j2 g nm weighted = .ok (w ω)) →
      ∀ {ω₀ : Ω} {n : ℕ} {r : Fin R}, (w ω₀).wt_coefs.nj? j r = some n → ∃ S : Ω → ℝ,
      (∀ ω (q : QArg) (k1 k2 : ℤ) (wd : Bool) (s : StructFn R), StructFn.make (w ω).wt_coefs q k1 k2 wd = .ok s →
        ∀ (i : ℕ) (e : Expo), q.expos[i]? = some e → e.val = 2 → ∃ (lv : Arr R) (L : Row R),
          s.logvalues[i]? = some lv ∧ lv[j - 1]? = some L ∧ L r = (Fl.fin (S ω)).log2) ∧
      Integrable S μ ∧ ∫ ω, S ω ∂μ = c * v ∧
      Integrable (fun ω => (S ω - c * v) ^ 2) μ ∧ ∫ ω, (S ω - c * v) ^ 2 ∂μ ≤ C * c ^ 2 / n := by
  have hH' : H ≤ M := by linarith
  obtain ⟨T, ⟨C, hC, hT⟩, hd⟩ := cov_shape.{u} hM hM1 hwt hH' j j g nm
  have he : 2 * (2 * H - 2 * M) < -1 := by linarith
  refine ⟨T 0, 2 * (C ^ 2 * ∑' n : ℤ, (1 + |(n : ℝ)|) ^ (2 * (2 * H - 2 * M))), ?_, ?_⟩
  · exact mul_nonneg (by norm_num) (mul_nonneg (sq_nonneg _) (tsum_nonneg fun n => by positivity))
  intro Ω _ μ N R x A c w p j1 j2 weighted hx hw ω₀ n r hn
  have hR : R ≠ 0 := fun h0 => by subst h0; exact r.elim0
  have h0 : ∀ ω, waveletAnalysis (sampled N fun r t => ((x ω).getD t.toNat fun _ => 0) r) p wt j1 j2 g nm weighted = .ok (w ω) :=
    fun ω => by rw [← asFloats_sampled (hx.length ω)]; exact hw ω
  have hlen : ∀ ω, (w ω).wt_coefs.values.length = (w ω₀).wt_coefs.values.length := by
    intro ω
    have := (C07_data_independent hR hR hwt hwt rfl (h0 ω) (h0 ω₀)).2.2.1
    have h2 := congrArg List.length this
    simpa [Dict.keys] using h2
  have hjl : j ≤ (w ω₀).wt_coefs.values.length := by
    obtain ⟨ml, K, Kc, h1, hK, hKc, hKc', h3, hc, hgood, hj2, hl⟩ := wa_inv (h0 ω₀)
    rw [hc, scalesUpTo_nj] at hn
    split at hn
    · rename_i hh; rw [hc]; simp [scalesUpTo, hh.2]
    · cases hn
  have hcard := nj_interior hwt (h0 ω₀) hj hjl r
  rw [hn, Option.some.injEq] at hcard
  let K := interior N wt.dec_hi.length j
  have h3 : 3 ≤ K.card := interior_card hwt hR (h0 ω₀) hj hjl
  have hrep : ∀ k ∈ K, (w ω₀).wt_coefs.Reported j k r := fun k hk => interior_reported hwt (h0 ω₀) hj hjl hk r
  obtain ⟨a1, a2, a3, a4⟩ := mean_square_variance (μ := μ) K (Finset.card_pos.mp (by omega)) (X := fun k ω => (w ω).wt_coefs.number j k r)
    (V := c * T 0) (by
      intro i hi k hk
      have := coefs_gaussian hwt hx hw (ω₀ := ω₀) (κ := Fin 2) ![(j, i, r), (j, k, r)]
        (by intro a; fin_cases a; exacts [hrep i hi, hrep k hk])
      have e : (fun ω (a : Fin 2) => (![fun ω => (w ω).wt_coefs.number j i r, fun ω => (w ω).wt_coefs.number j k r] a) ω) =
        fun ω a => (w ω).wt_coefs.number ((![(j, i, r), (j, k, r)] : Fin 2 → ℕ × ℕ × Fin R) a).1
          ((![(j, i, r), (j, k, r)] : Fin 2 → ℕ × ℕ × Fin R) a).2.1 ((![(j, i, r), (j, k, r)] : Fin 2 → ℕ × ℕ × Fin R) a).2.2 := by
        funext ω a; fin_cases a <;> rfl
      rw [e]; exact this)
    (fun k hk => (C88_covariance hwt hx.toHasCovariance hw (hrep k hk) (hrep k hk) r r).2.1)
    (fun k hk => by
      have := hd hx.toHasCovariance hw (hrep k hk) (hrep k hk) r
      simpa using this)
  refine ⟨fun ω => (∑ k ∈ K, (w ω).wt_coefs.number j k r ^ 2) / K.card, ?_, a1, a2, a3, ?_⟩
  · intro ω q k1 k2 wd s hs i e hi he
    exact sf_two hwt (h0 ω) hj (by rw [hlen]; exact hjl) r hs hi he
  · rw [a4, hcard]
    have hK0 : (0:ℝ) < K.card := by exact_mod_cast (by omega : 0 < K.card)
    have hsum : ∀ i ∈ K, ∑ k ∈ K, (∫ ω, (w ω).wt_coefs.number j i r * (w ω).wt_coefs.number j k r ∂μ) ^ 2 ≤
        c ^ 2 * (C ^ 2 * ∑' n : ℤ, (1 + |(n : ℝ)|) ^ (2 * (2 * H - 2 * M))) := by
      intro i hi
      have h1 : ∀ k ∈ K, (∫ ω, (w ω).wt_coefs.number j i r * (w ω).wt_coefs.number j k r ∂μ) ^ 2 ≤
          c ^ 2 * (C ^ 2 * (1 + |(i : ℝ) * 2 ^ j - (k : ℝ) * 2 ^ j|) ^ (2 * (2 * H - 2 * M))) := by
        intro k hk
        rw [hd hx.toHasCovariance hw (hrep i hi) (hrep k hk) r, mul_pow]
        refine mul_le_mul_of_nonneg_left ?_ (sq_nonneg c)
        have h2 := hT ((i : ℤ) * 2 ^ j - (k : ℤ) * 2 ^ j)
        have h4 := pow_le_pow_left₀ (abs_nonneg _) h2 2
        rw [sq_abs, mul_pow, ← Real.rpow_natCast (_ ^ _) 2, ← Real.rpow_mul (by positivity)] at h4
        push_cast at h4
        rw [mul_comm 2 (2 * H - 2 * (M:ℝ))]
        exact h4
      refine (sum_le_sum h1).trans ?_
      rw [← mul_sum, ← mul_sum]
      exact mul_le_mul_of_nonneg_left (mul_le_mul_of_nonneg_left (sum_decay_le he j i K) (sq_nonneg C)) (sq_nonneg c)
    have := sum_le_sum hsum
    rw [sum_const, nsmul_eq_mul] at this
    rw [div_le_div_iff₀ (by positivity) hK0]
    have e : ∀ z : ℝ, 2 * z * c ^ 2 * (K.card : ℝ) ^ 2 = 2 * (K.card * (c ^ 2 * z)) * K.card := fun z => by ring
    show 2 * _ * (K.card : ℝ) ≤ 2 * _ * c ^ 2 * (K.card : ℝ) ^ 2
    rw [e]
    exact mul_le_mul_of_nonneg_right (mul_le_mul_of_nonneg_left this (by norm_num)) hK0.le

/-- **C96** for the simulator: `fbm`, `wavelet_analysis`, `StructureFunction` at `q = 2`, for signals of every length. -/
theorem C96_fbm {M : ℕ} (hM : VanishingMoments wt.dec_hi M) (hM1 : 1 ≤ M) (hwt : wt.Valid) {H : ℝ} (h0 : 0 < H) (h1 : H ≤ 1)
    (hH : 4 * H - 4 * M < -1) (j : ℕ) (hj : 1 ≤ j) (g nm : ℝ) {gen : Ω → ℕ → ℝ} (hg : StdNormal μ gen) : ∃ v C : ℝ, 0 ≤ C ∧
    ∀ {N R : ℕ} {sigma : ℝ} {dt : Option ℝ} (z0 : Option (CArr R)), 2 ≤ N → (∀ d, dt = some d → 0 ≤ d) → R ≠ 0 →
      ∃ x : Ω → RArr R, Returns (fbm R N H sigma dt "cme" z0) gen x ∧
      ∀ {w : Ω → WT R} {p : PExp} {j1 : ℤ} {j2 : Option ℝ} {weighted : Bool},
      (∀ ω, waveletAnalysis (asFloats (x ω)) p wt j1 j2 g nm weighted = .ok (w ω)) →
      ∀ {ω₀ : Ω} {n : ℕ} {r : Fin R}, (w ω₀).wt_coefs.nj? j r = some n → ∃ S : Ω → ℝ,
      (∀ ω (q : QArg) (k1 k2 : ℤ) (wd : Bool) (s : StructFn R), StructFn.make (w ω).wt_coefs q k1 k2 wd = .ok s →
        ∀ (i : ℕ) (e : Expo), q.expos[i]? = some e → e.val = 2 → ∃ (lv : Arr R) (L : Row R),
          s.logvalues[i]? = some lv ∧ lv[j - 1]? = some L ∧ L r = (Fl.fin (S ω)).log2) ∧
      Integrable S μ ∧ ∫ ω, S ω ∂μ = sigma ^ 2 * effStep dt N ^ (2 * H) * v ∧
      Integrable (fun ω => (S ω - sigma ^ 2 * effStep dt N ^ (2 * H) * v) ^ 2) μ ∧
      ∫ ω, (S ω - sigma ^ 2 * effStep dt N ^ (2 * H) * v) ^ 2 ∂μ ≤ C * (sigma ^ 2 * effStep dt N ^ (2 * H)) ^ 2 / n := by
  obtain ⟨v, C, hC, hd⟩ := C96_consistent.{u} hM hM1 hwt hH j hj g nm
  refine ⟨v / 2, C / 4, by positivity, ?_⟩
  intro N R sigma dt z0 hN hdt hR
  obtain ⟨x, hx, hG, -⟩ := C85_fbm (R := R) (sigma := sigma) z0 h0 h1 hN hdt hR hg
  refine ⟨x, hx, ?_⟩
  intro w p j1 j2 weighted hw ω₀ n r hn
  rw [fbm_powerLaw H sigma (fgnDt_eq (by omega : N ≠ 0) hdt).2.le] at hG
  obtain ⟨S, a1, a2, a3, a4, a5⟩ := hd hG hw hn
  have e : sigma ^ 2 / 2 * effStep dt N ^ (2 * H) * v = sigma ^ 2 * effStep dt N ^ (2 * H) * (v / 2) := by ring
  rw [e] at a3 a4 a5
  exact ⟨S, a1, a2, a3, a4, a5.trans (le_of_eq (by ring))⟩

/-! The hypotheses are met by fractional Brownian motion with `db2`, for every `H` in `(0, 1]`. -/
example (H : ℝ) (h0 : 0 < H) (h1 : H ≤ 1) : VanishingMoments db2.dec_hi 2 ∧ db2.Valid ∧ 4 * H - 4 * ((2 : ℕ) : ℝ) < -1 ∧
    ∃ (Ω : Type) (_ : MeasurableSpace Ω) (μ : Measure Ω) (x : Ω → RArr 2) (A : ℕ → ℝ) (w : Ω → WT 2),
    GaussianArray μ 64 x (fun n m => A n + A m - 1 / 2 * |(n : ℝ) - m| ^ (2 * H)) ∧
    (∀ ω, waveletAnalysis (asFloats (x ω)) .inf db2 1 none 0 1 false = .ok (w ω)) ∧
    ∃ (ω₀ : Ω) (n : ℕ), 3 ≤ n ∧ (w ω₀).wt_coefs.nj? 2 0 = some n := by
  obtain ⟨hv, -, hm⟩ := db2_orthonormal
  refine ⟨hm, hv, by push_cast; linarith, ?_⟩
  obtain ⟨Ω, m, μ, gen, x, w, -, -, ⟨A, hG⟩, hw, hr, ⟨ω₀⟩⟩ := fbm_db2_demo H h0 h1
  have hw0 := hw ω₀
  rw [asFloats_sampled (hG.length ω₀)] at hw0
  have hl : 2 ≤ (w ω₀).wt_coefs.values.length := by have := (hr ω₀).1; omega
  exact ⟨Ω, m, μ, x, A, w, hG, hw, ω₀, _, interior_card hv (by norm_num) hw0 (by norm_num) hl, nj_interior hv hw0 (by norm_num) hl 0⟩

end

end MFA
