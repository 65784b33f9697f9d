import Verif.Props.Data
import Verif.Props.Robust
import Verif.Spec.Spoiled

/-!
# Property C133: the log-cumulants and the estimates of negative order are destroyed by a small change of one sample
-/

namespace MFA

universe u

open Classical Finset MeasureTheory ProbabilityTheory

noncomputable section

variable {wt : Wavelet}

theorem Fl.mul_isFin {x y : Fl} (h : (x * y).IsFin) : y.IsFin := by
  obtain ⟨t, ht⟩ := h
  cases y with
  | fin b => exact ⟨b, rfl⟩
  | nan => cases x <;> cases ht
  | pinf =>
    cases x with
    | fin a =>
      rw [Fl.fin_mul_pinf] at ht
      unfold Fl.sgnInf at ht
      split_ifs at ht
    | nan => cases ht
    | pinf => cases ht
    | ninf => cases ht
  | ninf =>
    cases x with
    | fin a =>
      change Fl.sgnInf (-a) = _ at ht
      unfold Fl.sgnInf at ht
      split_ifs at ht
    | nan => cases ht
    | pinf => cases ht
    | ninf => cases ht

theorem Fl.mul_isFin_left {x y : Fl} (h : (x * y).IsFin) : x.IsFin := by
  have e : x * y = y * x := by
    cases x <;> cases y <;> first | rfl | (rw [Fl.fin_mul, Fl.fin_mul, mul_comm])
  rw [e] at h
  exact Fl.mul_isFin h

theorem zipWith_isFin : ∀ {ws ys : List Fl}, ws.length = ys.length → (List.zipWith (· * ·) ws ys).sum.IsFin → ∀ y ∈ ys, y.IsFin
  | [], [], _, _, y, hy => by cases hy
  | [], _ :: _, h, _, _, _ => by simp at h
  | _ :: _, [], h, _, _, _ => by simp at h
  | w :: ws, y :: ys, h, hf, z, hz => by
    rw [List.zipWith_cons_cons] at hf
    have h1 := Fl.sum_isFin hf
    rcases List.mem_cons.1 hz with rfl | hz
    · exact Fl.mul_isFin (h1 (w * z) (by simp))
    · refine zipWith_isFin (by simpa using h) ?_ z hz
      have : (w * y + (List.zipWith (· * ·) ws ys).sum).IsFin := by simpa using hf
      exact (Fl.add_isFin this).2

theorem dotB_isFin {ws ys : List Fl} (hl : ws.length = ys.length) (h : (dotB ws ys).IsFin) : ∀ y ∈ ys, y.IsFin := by
  unfold dotB at h
  split at h
  · intro y hy
    exact Fl.mul_isFin (Fl.sum_isFin h _ (List.mem_map.2 ⟨y, hy, rfl⟩))
  · rename_i hne
    simp only [List.length_cons, List.length_nil, zero_add] at hl
    obtain ⟨a, rfl⟩ := List.length_eq_one_iff.1 hl
    intro y hy
    rw [List.mem_singleton] at hy; subst hy
    exact Fl.mul_isFin (Fl.sum_isFin h _ (List.mem_map.2 ⟨a, by simp, rfl⟩))
  · exact zipWith_isFin hl h

/-- The slope of a regression is a finite number only if all the values are. -/
theorem slopeL_isFin {ι : Type} {l : List ι} {x w : ι → ℝ} {y : ι → Fl} (h : (slopeL l x w y).IsFin) : ∀ p ∈ l, (y p).IsFin := by
  intro p hp
  exact dotB_isFin (by simp [lrWSlope]) h _ (List.mem_map.2 ⟨p, hp, rfl⟩)

theorem ninf_not_fin : ¬ (Fl.ninf).IsFin := by rintro ⟨t, ht⟩; cases ht
theorem pinf_not_fin : ¬ (Fl.pinf).IsFin := by rintro ⟨t, ht⟩; cases ht
theorem nan_not_fin : ¬ (Fl.nan).IsFin := by rintro ⟨t, ht⟩; cases ht

/-- The column of a scale with a zero. -/
theorem zero_mem {R L : ℕ} {m : MRQ R} (hreg : Regular m L) {j1 j2 j : ℕ} (h1 : 1 ≤ j1) (hj1 : j1 ≤ j) (hj2 : j ≤ j2) (hL : j2 ≤ L) {k : ℕ} {r : Fin R}
    (h0 : m.val? j k r = some (Fl.fin 0)) : ∃ p ∈ subR m j1 j2, Fl.fin 0 ∈ col p.2 r := by
  have a1 : (1:ℤ) ≤ (j1 : ℤ) := by exact_mod_cast h1
  have a2 : (j1 : ℤ) ≤ (j2 : ℤ) := by exact_mod_cast hj1.trans hj2
  have a3 : (j2 : ℤ) ≤ (L : ℤ) := by exact_mod_cast hL
  have hkeys := hreg.sub_keys a1 a2 a3
  have hj : (j : ℤ) ∈ (subR m j1 j2).map Prod.fst := by
    rw [hkeys]
    simp only [arange, List.mem_map, List.mem_range]
    exact ⟨j - j1, by omega, by omega⟩
  obtain ⟨p, hp, hpj⟩ := List.mem_map.1 hj
  refine ⟨p, hp, ?_⟩
  have hnd : (m.values.map Prod.fst).Nodup := by
    rw [hreg.1]
    exact List.Nodup.map (fun a b h => by simpa using h) List.nodup_range
  have hget := dictGet_of_nodup Prod.snd m.values hnd p (sub_mem hp)
  have e : (m.values.map fun p => (p.1, p.2)) = m.values := by simp
  rw [e, hpj] at hget
  unfold MRQ.val? at h0
  rw [hget] at h0
  simp only [Option.bind_some] at h0
  obtain ⟨row, hrow, hv⟩ := Option.map_eq_some_iff.1 h0
  exact List.mem_map.2 ⟨row, List.mem_of_getElem? hrow, hv⟩

theorem moment_of_zero {c : List Fl} (h0 : Fl.fin 0 ∈ c) : ¬ (nanmean (c.map fun x => x.abs.ln)).IsFin := by
  intro h
  refine ninf_not_fin ((nanmean_isFin h).2 _ ?_)
  unfold dropNaN
  rw [List.mem_filter]
  refine ⟨List.mem_map.2 ⟨_, h0, ?_⟩, rfl⟩
  show Fl.ln (Fl.fin |0|) = _
  rw [abs_zero]
  simp [Fl.ln, Fl.logOf, -Fl.fin_zero]

theorem cumulants_of_zero {c : List Fl} (h0 : Fl.fin 0 ∈ c) {n i : ℕ} (hi : i < n) :
    ¬ ((cmColumn (c.map fun x => x.abs.ln) n).getD i Fl.nan).IsFin := by
  rw [cmColumn_bad (fun hh => ninf_not_fin (hh.2 _ ?_)) hi]
  · split
    · exact moment_of_zero h0
    · exact nan_not_fin
  · unfold dropNaN
    rw [List.mem_filter]
    refine ⟨List.mem_map.2 ⟨_, h0, ?_⟩, rfl⟩
    show Fl.ln (Fl.fin |0|) = _
    rw [abs_zero]
    simp [Fl.ln, Fl.logOf, -Fl.fin_zero]

theorem logOf_isFin {L : ℝ → ℝ} {x : Fl} (h : (Fl.logOf L x).IsFin) : x.IsFin := by
  cases x with
  | fin a => exact ⟨a, rfl⟩
  | nan => exact absurd h nan_not_fin
  | pinf => exact absurd h pinf_not_fin
  | ninf => exact absurd h nan_not_fin

theorem power_of_zero {c : List Fl} (h0 : Fl.fin 0 ∈ c) {q : ℝ} (hq : q < 0) :
    ¬ (nanmean ((c.map Fl.abs).map (fastPower (.real q)))).log2.IsFin := by
  intro h
  refine pinf_not_fin ((nanmean_isFin (logOf_isFin h)).2 _ ?_)
  unfold dropNaN
  rw [List.mem_filter]
  refine ⟨List.mem_map.2 ⟨_, List.mem_map.2 ⟨_, h0, rfl⟩, ?_⟩, rfl⟩
  rw [fastPower_eq, if_neg (by simp [-Fl.fin_zero]), if_neg (by simp [-Fl.fin_zero])]
  simp [Fl.pow, Expo.val, hq.ne, not_lt.mpr hq.le, -Fl.fin_zero]

/-- **C133**: one coefficient equal to zero, at one of the scales of the regression, spoils the log-cumulants and the estimates of negative order (and
`h(0)`) of its realisation. -/
theorem C133_zero {R N : ℕ} {y : Fin R → ℤ → ℝ} {p : PExp} (hwt : wt.Valid) {j1 : ℕ} {j2 : Option ℝ} {g nm : ℝ} {weighted : Bool} {q : List ℝ} {n : ℕ} (h2 : (2:ℝ) ∈ q)
    {w : WT R} (hw : waveletAnalysis (sampled N y) p wt j1 j2 g nm weighted = .ok w) {d : MFData R}
    (hd : mfAnalysisFull (sampled N y) j1 j2 nm g weighted wt p (some (.ndarray q)) n = .ok d) (hj1 : 1 ≤ j1) {j k : ℕ} {r : Fin R} (hj : j1 ≤ j)
    (hj2 : (j : ℤ) ≤ w.j2_eff) (h0 : w.wt_coefs.val? j k r = some (Fl.fin 0)) : Spoiled d.dwt q n r := by
  obtain ⟨hreg, -, hent⟩ := analysis_entries hwt hw
  have hlen := (C02_j2_eff_le hw).2.1
  obtain ⟨b, hb⟩ : ∃ b : ℕ, w.j2_eff = b := ⟨w.j2_eff.toNat, by omega⟩
  rw [hb] at hj2 hlen
  have hj2' : j ≤ b := by exact_mod_cast hj2
  have hL : b ≤ w.wt_coefs.values.length := by exact_mod_cast hlen
  obtain ⟨P, hP, hz⟩ := zero_mem hreg hj1 hj hj2' hL h0
  have hf : ∀ x ∈ col P.2 r, x = Fl.nan ∨ ∃ t : ℝ, x = Fl.fin t := by
    obtain ⟨_, _, _, _, hr⟩ := hent P (sub_mem hP)
    obtain ⟨xs, hxs, -⟩ := hr r
    intro x hx
    by_cases hn : x = Fl.nan
    · exact Or.inl hn
    · right
      have : x ∈ dropNaN (col P.2 r) := by
        unfold dropNaN
        rw [List.mem_filter]
        refine ⟨hx, ?_⟩
        cases x <;> first | rfl | exact absurd rfl hn
      rw [hxs] at this
      obtain ⟨t, -, ht⟩ := List.mem_map.1 this
      exact ⟨t, ht.symm⟩
  unfold mfAnalysisFull at hd
  rw [hw] at hd
  simp only at hd
  rw [C47_bundle, hb] at hd
  obtain ⟨⟨b1, b2, b3, -⟩, -⟩ := hd
  change StructFn.make _ (.ndarray q) _ _ _ = _ at b1
  change Spectrum.make _ _ _ _ (.ndarray q) = _ at b3
  have a1 : (1:ℤ) ≤ (j1 : ℤ) := by exact_mod_cast hj1
  have a2 : (j1 : ℤ) ≤ (b : ℤ) := by exact_mod_cast hj.trans hj2'
  have a3 : (b : ℤ) ≤ (w.wt_coefs.values.length : ℤ) := by exact_mod_cast hL
  rw [hreg.structFn a1 a2 a3 weighted q h2] at b1
  rw [hreg.cumulants a1 a2 a3 weighted n] at b2
  rw [hreg.spectrum a1 a2 a3 weighted (.ndarray q) (by rw [expos_ndarray]; simp; rintro rfl; cases h2)] at b3
  obtain ⟨m, hm'⟩ : ∃ m, m = w.wt_coefs := ⟨_, rfl⟩
  rw [← hm'] at b1 b2 b3 hP
  unfold Spoiled
  rw [← Except.ok.inj b1, ← Except.ok.inj b2, ← Except.ok.inj b3]
  refine ⟨?_, ?_⟩
  · intro i hi
    refine ⟨fun r => cumF m j1 b weighted n i r * Fl.fin log2e,
      by simp only [List.getElem?_map, List.getElem?_range hi, Option.map_some], ?_⟩
    intro hfin
    exact cumulants_of_zero hz hi (slopeL_isFin (Fl.mul_isFin_left hfin) P hP)
  · intro i hi
    have hqi : q[i]? = some q[i] := List.getElem?_eq_getElem hi
    refine ⟨fun hneg => ⟨?_, ?_⟩, fun hzero => ?_⟩
    · refine ⟨zetaF m j1 b weighted (.real q[i]), by simp only [List.getElem?_map, hqi, Option.map_some], ?_⟩
      intro hfin
      rw [zetaF_cols] at hfin
      exact power_of_zero hz hneg (slopeL_isFin hfin P hP)
    · refine ⟨fun r => Fl.fin 1 + uF m j1 b weighted (.real q[i]) r,
        by simp only [expos_ndarray, List.getElem?_map, hqi, Option.map_some], ?_⟩
      intro hfin
      have := slopeL_isFin (Fl.add_isFin hfin).2 P hP
      rw [(ms_zero_negative_q _ _ _ hneg hf hz).1] at this
      exact nan_not_fin this
    · refine ⟨vF m j1 b weighted (.real q[i]), by simp only [expos_ndarray, List.getElem?_map, hqi, Option.map_some], ?_⟩
      intro hfin
      have := slopeL_isFin hfin P hP
      rw [hzero, ms_zero_q_zero _ hf hz] at this
      exact ninf_not_fin this

/-- Some sample has a weight in the coefficients of an orthonormal wavelet. -/
theorem exists_weight (hwt : wt.Valid) (ho : OrthonormalBank wt) {j : ℕ} (hj : 1 ≤ j) : ∃ t : ℤ, weight wt j 0 t ≠ 0 := by
  by_contra hcon
  push Not at hcon
  have h1 := detail_weight hwt ho hj hj 0 0
  have h2 := idealDetail_linear wt 0 0 (fun _ => 0) (fun _ => 0) j 0
  rw [if_pos ⟨rfl, rfl⟩, show weight wt j 0 = fun t => 0 * (fun _ : ℤ => (0:ℝ)) t + 0 * (fun _ : ℤ => (0:ℝ)) t from funext fun t => by rw [hcon t]; ring, h2] at h1
  simp at h1

/-- A coefficient can be annihilated by changing one sample, by an amount proportional to the coefficient. -/
theorem annihilate (hwt : wt.Valid) (ho : OrthonormalBank wt) (g nm : ℝ) {j : ℕ} (hj : 1 ≤ j) : ∃ K : ℝ, 0 < K ∧
    ∀ {R N : ℕ} {y : Fin R → ℤ → ℝ} {p : PExp} {j1 : ℤ} {j2 : Option ℝ} {weighted : Bool} {w : WT R},
      waveletAnalysis (sampled N y) p wt j1 j2 g nm weighted = .ok w → ∀ {k : ℕ} {r : Fin R} {v : ℝ}, w.wt_coefs.val? j k r = some (Fl.fin v) →
      ∃ t0 : ℕ, t0 < N ∧ ∃ A : ℝ, |A| ≤ K * |v| ∧ idealDetail wt (y r) j k + A * weight wt j k t0 = 0 := by
  obtain ⟨τ, hτ⟩ := exists_weight hwt ho hj
  obtain ⟨f, hf⟩ : ∃ f : ℝ, f = (2:ℝ) ^ ((j : ℝ) * (1 / 2 - 1 / nm + g)) := ⟨_, rfl⟩
  have hf0 : 0 < f := by rw [hf]; positivity
  have hτ0 : 0 < |weight wt j 0 τ| := abs_pos.2 hτ
  refine ⟨1 / (f * |weight wt j 0 τ|), by positivity, ?_⟩
  intro R N y p j1 j2 weighted w hw k r v hv
  obtain ⟨-, h2, h3⟩ := reported_linear hwt hw ⟨v, hv⟩
  rw [MRQ.number, hv] at h2
  change v = _ at h2
  rw [← hf] at h2
  have hwk : weight wt j k (τ + k * 2 ^ j) = weight wt j 0 τ := by
    have := weight_shift wt hj 0 k τ
    rwa [zero_add] at this
  obtain ⟨t0, ht0, hte⟩ : ∃ t0 : ℕ, t0 < N ∧ (t0 : ℤ) = τ + k * 2 ^ j := by
    by_contra hcon
    push Not at hcon
    apply hτ
    rw [← hwk]
    have := h3 fun s => if s = τ + k * 2 ^ j then 1 else 0
    rw [weight, this]
    refine sum_eq_zero fun t ht => ?_
    rw [if_neg (hcon t (mem_range.1 ht)), mul_zero]
  refine ⟨t0, ht0, -(idealDetail wt (y r) j k / weight wt j 0 τ), ?_, ?_⟩
  · rw [abs_neg, abs_div, h2, abs_mul, abs_of_pos hf0]
    apply le_of_eq
    field_simp
  · rw [hte, hwk]
    field_simp
    ring

/-- **C133, one sample is enough**: for an orthonormal wavelet, any coefficient of any of the scales of the regression can be annihilated by changing a
single sample, by at most `K` times the coefficient (`K` depends on the wavelet, the scale and the settings only).  `mf_analysis_full` still returns, and
no log-cumulant, no `zeta(q)` or `D(q)` with `q < 0` and no `h(0)` of that realisation is a finite number any more. -/
theorem C133_one_sample (hwt : wt.Valid) (ho : OrthonormalBank wt) (g : ℝ) {nm : ℝ} (hnm : nm ≠ 0) {j : ℕ} (hj : 1 ≤ j) : ∃ K : ℝ, 0 < K ∧
    ∀ {R : ℕ} (x : List (Fin R → ℝ)) {p : PExp}, p = .none ∨ p = .inf → ∀ {j1 : ℕ} {j2 : Option ℝ} {weighted : Bool} {q : List ℝ}, (2:ℝ) ∈ q →
      ∀ (n : ℕ) {w : WT R}, waveletAnalysis (asFloats x) p wt j1 j2 g nm weighted = .ok w → 1 ≤ j1 → j1 ≤ j → (j : ℤ) ≤ w.j2_eff →
      ∀ {k : ℕ} {r : Fin R} {v : ℝ}, w.wt_coefs.val? j k r = some (Fl.fin v) →
      ∃ t0 : ℕ, t0 < x.length ∧ ∃ A : ℝ, |A| ≤ K * |v| ∧
        ∃ d, mfAnalysisFull (asFloats (perturbed x (singleChange r t0 A))) j1 j2 nm g weighted wt p (some (.ndarray q)) n = .ok d ∧
          Spoiled d.dwt q n r := by
  obtain ⟨K, hK, h⟩ := annihilate hwt ho g nm hj
  refine ⟨K, hK, ?_⟩
  intro R x p hp j1 j2 weighted q h2 n w hw hj1 hjj hj2 k r v hv
  have hR : R ≠ 0 := fun h0 => by subst h0; exact r.elim0
  obtain ⟨N, hN⟩ : ∃ N, x.length = N := ⟨_, rfl⟩
  rw [asFloats_sampled hN] at hw
  obtain ⟨t0, ht0, A, hA, hz⟩ := h hw hv
  refine ⟨t0, by omega, A, hA, ?_⟩
  have hne : asFloats (perturbed x (singleChange r t0 A)) ≠ [] := by
    intro h0; have := congrArg List.length h0; simp [asFloats, perturbed, hN] at this; omega
  obtain ⟨w', hw', hfull⟩ := C48_total (asFloats (perturbed x (singleChange r t0 A))) p hp wt j1 j2 g nm weighted (some (.ndarray q)) n hR hne hnm
  rw [perturbed_sampled hN] at hw'
  have hj2' : w.j2_eff = w'.j2_eff := (C07_data_independent hR hR hwt hwt rfl hw hw').2.1
  obtain ⟨d, hd, -⟩ := hfull (by exact_mod_cast hj1) (by rw [← hj2']; exact le_trans (by exact_mod_cast hjj) hj2) h2
  refine ⟨d, hd, ?_⟩
  rw [perturbed_sampled hN] at hd
  have hrep := reported_iff hwt hw hw' r ⟨v, hv⟩
  obtain ⟨v', hv'⟩ := hrep
  refine C133_zero hwt h2 hw' hd hj1 hjj (by rw [← hj2']; exact hj2) (k := k) ?_
  rw [hv']
  have hid := C08_ideal hwt hw' hv' (by simp)
  rw [hid]
  have e : (fun t : ℤ => (x.getD t.toNat fun _ => 0) r + extended N (singleChange r t0 A r) t) =
      fun t : ℤ => 1 * (x.getD t.toNat fun _ => 0) r + A * (if t = (t0 : ℤ) then 1 else 0) := by
    funext t
    rw [one_mul]
    congr 1
    unfold extended singleChange
    by_cases ht : t = t0
    · rw [if_pos ht, if_pos (by subst ht; exact ⟨by positivity, by exact_mod_cast ht0⟩), if_pos (by subst ht; simp), mul_one]
    · rw [if_neg ht, mul_zero]
      split
      · rename_i hh
        rw [if_neg]
        rintro ⟨-, h5⟩
        omega
      · rfl
  rw [e, idealDetail_linear, one_mul]
  change _ + A * weight wt j k t0 = 0 at hz
  rw [show idealDetail wt (fun s : ℤ => if s = (t0 : ℤ) then 1 else 0) j k = weight wt j k t0 from rfl, hz, mul_zero]

theorem exists_le_mean {xs : List ℝ} {f : ℝ → ℝ} {m : ℝ} (hne : xs ≠ []) (h : (xs.map f).sum / xs.length < m) : ∃ x ∈ xs, f x < m := by
  by_contra hcon
  push Not at hcon
  have hpos : (0:ℝ) < xs.length := by exact_mod_cast List.length_pos_of_ne_nil hne
  have h1 : (xs.map f).length • m ≤ (xs.map f).sum := List.card_nsmul_le_sum _ _ fun y hy => by
    obtain ⟨x, hx, rfl⟩ := List.mem_map.1 hy
    exact hcon x hx
  rw [List.length_map, nsmul_eq_mul] at h1
  rw [div_lt_iff₀ hpos] at h
  linarith

/-- Changes of one sample, as small in mean as one likes, that spoil the estimates of a long Gaussian signal with stationary increments. -/
theorem spoiled_likely {M : ℕ} (hM : VanishingMoments wt.dec_hi M) (hM1 : 1 ≤ M) (hwt : wt.Valid) (ho : OrthonormalBank wt) {G : ℤ → ℝ}
    {h' β : ℝ} (hK : ScalingKernel wt G h' β) (P j1 j2 : ℕ) (hj1 : 1 ≤ j1) (hj12 : j1 < j2) (ρ δ : ℝ) (hρ : 0 < ρ) (hδ : 0 < δ) : ∃ N₀ : ℕ,
    ∀ {Ω : Type u} [MeasurableSpace Ω] {μ : Measure Ω} {R N : ℕ} {x : Ω → List (Fin R → ℝ)} {A : ℕ → ℝ} {c : ℝ}, 0 < c → N₀ ≤ N →
      GaussianArray μ N x (fun n m => A n + A m - c * G ((n : ℤ) - m)) →
      ∀ (p : PExp) (weighted : Bool) (r : Fin R), p = .none ∨ (p = .inf ∧ 4 ≤ wt.dec_hi.length) → ∀ (q : List ℝ) (n : ℕ), (2:ℝ) ∈ q →
      μ {ω | ¬ ∃ t0 : ℕ, t0 < N ∧ ∃ a : ℝ, |a| ^ P ≤ ρ * N * √c ^ P ∧
        ∃ d, mfAnalysisFull (asFloats (perturbed (x ω) (singleChange r t0 a))) j1 (some j2) 1 0 weighted wt p (some (.ndarray q)) n = .ok d ∧
          Spoiled d.dwt q n r} ≤ ENNReal.ofReal δ := by
  obtain ⟨τ, V, B, hV, hB, hl⟩ := joint_llnG.{u} hM hM1 hwt hK 0 1
  obtain ⟨K, hK0, hone⟩ := C133_one_sample hwt ho 0 one_ne_zero hj1
  obtain ⟨N₁, hN₁⟩ := hl [(2, 0)] (by simp; norm_num) j1 1 δ one_pos hδ
  obtain ⟨m, hm⟩ : ∃ m, m = normalMoment 2 0 + 1 := ⟨_, rfl⟩
  obtain ⟨C, hC⟩ : ∃ C, C = K * (√m * √(τ j1)) := ⟨_, rfl⟩
  obtain ⟨N₂, hN₂⟩ := exists_nat_ge (C ^ P / ρ)
  refine ⟨max (max N₁ N₂) (2 ^ (j2 + 1) * (wt.dec_hi.length + 1)), ?_⟩
  intro Ω _ μ R N x A c hc hN hG p weighted r hp q n h2
  have hR : R ≠ 0 := fun h0 => by subst h0; exact r.elim0
  have hN2 := (le_max_right _ _).trans hN
  have hN1 := (le_max_left N₁ N₂).trans ((le_max_left _ _).trans hN)
  have hN3 := (le_max_right N₁ N₂).trans ((le_max_left _ _).trans hN)
  have hN0 : N ≠ 0 := by
    have : 0 < 2 ^ (j2 + 1) * (wt.dec_hi.length + 1) := by positivity
    omega
  have hne : ∀ ω, asFloats (x ω) ≠ [] := by
    intro ω h0; have := congrArg List.length h0; simp [asFloats, hG.length ω] at this; exact hN0 this
  choose w hw using fun ω => C05_total (asFloats (x ω)) p (hp.imp id (·.1)) wt j1 (some (j2 : ℝ)) 0 1 weighted hR (hne ω) one_ne_zero
  have hlong : ∀ ω, (w ω).j2_eff = j2 ∧ j2 ≤ (w ω).wt_coefs.values.length := by
    intro ω
    have h0 := hw ω
    rw [asFloats_sampled (hG.length ω)] at h0
    exact long_enough hR hwt (hp.imp id (·.2)) (by omega) hN2 h0
  have hP : IncrementAnalysis μ wt G c 0 1 N x w := ⟨⟨A, hG⟩, p, j1, some (j2 : ℝ), weighted, hw⟩
  obtain ⟨hτ, hb⟩ := hN₁ hc hP hN1 (fun ω => hj12.le.trans (hlong ω).2) r
  have hτ1 := (hτ j1 hj1 le_rfl).1
  refine (measure_mono ?_).trans hb
  intro ω hω
  simp only [Set.mem_ofPred_eq] at hω ⊢
  intro hall
  apply hω
  have hw0 := hw ω
  rw [asFloats_sampled (hG.length ω)] at hw0
  obtain ⟨hreg, -, hent⟩ := analysis_entries hwt hw0
  obtain ⟨hj2, hlen⟩ := hlong ω
  -- the values of scale `j1`
  obtain ⟨Q, hQ, hQj⟩ : ∃ Q ∈ (w ω).wt_coefs.values, Q.1 = (j1 : ℤ) := by
    have : (j1 : ℤ) ∈ (w ω).wt_coefs.values.map Prod.fst := by
      have e := hreg.1
      change List.map Prod.fst (w ω).wt_coefs.values = _ at e
      rw [e]
      simp only [List.mem_map, List.mem_range]
      exact ⟨j1 - 1, by omega, by omega⟩
    obtain ⟨Q, hQ, hQj⟩ := List.mem_map.1 this
    exact ⟨Q, hQ, hQj⟩
  obtain ⟨xs, hxs, hne', -, htyp⟩ := hall Q hQ (by rw [hQj])
  have h3 := htyp (2, 0) (by simp)
  rw [hQj, Int.toNat_natCast] at h3
  have h4 : (xs.map fun y => testF 2 0 (y / √(c * τ j1))).sum / xs.length < m := by
    have := (abs_lt.1 h3).2
    simp only at this
    rw [hm]; linarith
  obtain ⟨y, hy, hym⟩ := exists_le_mean hne' h4
  have hσ : 0 < √(c * τ j1) := Real.sqrt_pos.2 (by positivity)
  have hy2 : y ^ 2 < m * (c * τ j1) := by
    have e : testF 2 0 (y / √(c * τ j1)) = y ^ 2 / (c * τ j1) := by
      rw [testF, pow_zero, mul_one, show (2:ℝ) = ((2:ℕ) : ℝ) by norm_num, Real.rpow_natCast, sq_abs, div_pow, Real.sq_sqrt (by positivity)]
    rw [e, div_lt_iff₀ (by positivity)] at hym
    exact hym
  have hyb : |y| ≤ √m * √(τ j1) * √c := by
    have hm0 : 0 ≤ m := by
      by_contra hneg
      push Not at hneg
      have := mul_neg_of_neg_of_pos hneg (show 0 < c * τ j1 by positivity)
      nlinarith [sq_nonneg y]
    rw [← Real.sqrt_mul hm0, ← Real.sqrt_mul (by positivity)]
    refine Real.abs_le_sqrt ?_
    nlinarith
  -- where it is
  obtain ⟨jj, hjj, -, -, hr⟩ := hent Q hQ
  have hjj' : jj = j1 := by rw [hQj] at hjj; exact_mod_cast hjj.symm
  subst hjj'
  obtain ⟨xs', hxs', -, -, hmem⟩ := hr r
  have hxx : xs = xs' := by
    unfold Entries at hxs hxs'
    rw [hxs] at hxs'
    exact List.map_injective_iff.2 (fun a b h => (Fl.fin_inj _ _).1 h) hxs'
  rw [hxx] at hy
  obtain ⟨k, hk, hky⟩ := hmem y hy
  obtain ⟨v, hv⟩ := interior_reported hwt hw0 hj1 (hj12.le.trans hlen) hk r
  have hvy : v = y := by rw [hky, MRQ.number, hv]
  subst hvy
  obtain ⟨t0, ht0, a, ha, hd⟩ := hone (x ω) (hp.imp id (·.1)) h2 n (hw ω) hj1 le_rfl (by rw [hj2]; exact_mod_cast hj12.le) hv
  refine ⟨t0, by rw [← hG.length ω]; exact ht0, a, ?_, hd⟩
  have hC0 : 0 ≤ C := by rw [hC]; positivity
  have ha' : |a| ≤ C * √c := by
    refine ha.trans ((mul_le_mul_of_nonneg_left hyb hK0.le).trans (le_of_eq ?_))
    rw [hC]; ring
  refine (pow_le_pow_left₀ (abs_nonneg _) ha' P).trans ?_
  rw [mul_pow]
  refine mul_le_mul_of_nonneg_right ?_ (by positivity)
  rw [div_le_iff₀ hρ] at hN₂
  have : (N₂ : ℝ) ≤ N := by exact_mod_cast hN3
  nlinarith

/-- **C133, power law signals**: the log-cumulants and the estimates of negative order are not robust in the sense of C131.  For all `P`, `ρ` and `δ` and every
long enough Gaussian signal with stationary increments and variogram `2c|t|^(2H)`, with probability at least `1 - δ` it is enough to change one sample, by an amount
`a` with `|a|^P ≤ ρ N c^(P/2)` (a perturbation whose mean `P`-th power is at most `ρ` times that of the increments, as in C131), to lose all of them. -/
theorem C133_power_law {M : ℕ} (hM : VanishingMoments wt.dec_hi M) (hM1 : 1 ≤ M) (hwt : wt.Valid) (ho : OrthonormalBank wt) {H : ℝ}
    (h0 : 0 < H) (h1 : H < 1) (hH : 4 * H - 4 * M < -1) (P j1 j2 : ℕ) (hj1 : 1 ≤ j1) (hj12 : j1 < j2) (ρ δ : ℝ) (hρ : 0 < ρ) (hδ : 0 < δ) : ∃ N₀ : ℕ,
    ∀ {Ω : Type u} [MeasurableSpace Ω] {μ : Measure Ω} {R N : ℕ} {x : Ω → List (Fin R → ℝ)} {A : ℕ → ℝ} {c : ℝ}, 0 < c → N₀ ≤ N →
      GaussianArray μ N x (fun n m => A n + A m - c * |(n : ℝ) - m| ^ (2 * H)) →
      ∀ (p : PExp) (weighted : Bool) (r : Fin R), p = .none ∨ (p = .inf ∧ 4 ≤ wt.dec_hi.length) → ∀ (q : List ℝ) (n : ℕ), (2:ℝ) ∈ q →
      μ {ω | ¬ ∃ t0 : ℕ, t0 < N ∧ ∃ a : ℝ, |a| ^ P ≤ ρ * N * √c ^ P ∧
        ∃ d, mfAnalysisFull (asFloats (perturbed (x ω) (singleChange r t0 a))) j1 (some j2) 1 0 weighted wt p (some (.ndarray q)) n = .ok d ∧
          Spoiled d.dwt q n r} ≤ ENNReal.ofReal δ := by
  obtain ⟨N₀, hN₀⟩ := spoiled_likely.{u} hM hM1 hwt ho (powerLaw_kernel hM hM1 hwt ho h0 h1 hH) P j1 j2 hj1 hj12 ρ δ hρ hδ
  refine ⟨N₀, ?_⟩
  intro Ω _ μ R N x A c hc hN hG
  have e : (fun n m : ℕ => A n + A m - c * |(((n : ℤ) - m : ℤ) : ℝ)| ^ (2 * H)) = fun n m : ℕ => A n + A m - c * |(n : ℝ) - m| ^ (2 * H) := by
    funext n m; push_cast; rfl
  refine hN₀ hc hN (A := A) ?_
  rw [e]; exact hG

/-- **C133, end to end**: fractional Brownian motion returned by `fbm`; `b` standard deviations of an increment are enough as soon as `b^P` is a small
part of the length. -/
theorem C133_fbm {M : ℕ} (hM : VanishingMoments wt.dec_hi M) (hM1 : 1 ≤ M) (hwt : wt.Valid) (ho : OrthonormalBank wt) {H : ℝ}
    (h0 : 0 < H) (h1 : H < 1) (hH : 4 * H - 4 * M < -1) (P j1 j2 : ℕ) (hj1 : 1 ≤ j1) (hj12 : j1 < j2) (ρ δ : ℝ) (hρ : 0 < ρ) (hδ : 0 < δ) : ∃ N₀ : ℕ,
    ∀ {Ω : Type u} [MeasurableSpace Ω] {μ : Measure Ω} {gen : Ω → ℕ → ℝ}, StdNormal μ gen →
    ∀ {N R : ℕ} {sigma : ℝ} {dt : Option ℝ} (z0 : Option (CArr R)), N₀ ≤ N → sigma ≠ 0 → (∀ d, dt = some d → 0 ≤ d) → R ≠ 0 →
      ∃ x : Ω → RArr R, Returns (fbm R N H sigma dt "cme" z0) gen x ∧
      ∀ (p : PExp) (weighted : Bool) (r : Fin R), p = .none ∨ (p = .inf ∧ 4 ≤ wt.dec_hi.length) → ∀ (q : List ℝ) (n : ℕ), (2:ℝ) ∈ q →
      μ {ω | ¬ ∃ t0 : ℕ, t0 < N ∧ ∃ a : ℝ, |a| ^ P ≤ ρ * N * (|sigma| * effStep dt N ^ H) ^ P ∧
        ∃ d, mfAnalysisFull (asFloats (perturbed (x ω) (singleChange r t0 a))) j1 (some j2) 1 0 weighted wt p (some (.ndarray q)) n = .ok d ∧
          Spoiled d.dwt q n r} ≤ ENNReal.ofReal δ := by
  obtain ⟨N₀, hN₀⟩ := C133_power_law.{u} hM hM1 hwt ho h0 h1 hH P j1 j2 hj1 hj12 (ρ * √2 ^ P) δ (by positivity) hδ
  refine ⟨max N₀ 2, ?_⟩
  intro Ω _ μ gen hg N R sigma dt z0 hN hs hdt hR
  have hN2 := (le_max_right _ _).trans hN
  obtain ⟨x, hx, hG, -⟩ := C85_fbm (R := R) (sigma := sigma) z0 h0 h1.le hN2 hdt hR hg
  have hstep := (fgnDt_eq (by omega : N ≠ 0) hdt).2
  rw [fbm_powerLaw H sigma hstep.le] at hG
  refine ⟨x, hx, fun p weighted r hp q n h2 => ?_⟩
  have h3 := hN₀ (by positivity) ((le_max_left _ _).trans hN) hG p weighted r hp q n h2
  have e1 : √(sigma ^ 2 / 2 * effStep dt N ^ (2 * H)) = |sigma| * effStep dt N ^ H / √2 := by
    rw [Real.sqrt_mul (by positivity), Real.sqrt_div (by positivity), Real.sqrt_sq_eq_abs, mul_comm 2 H, Real.rpow_mul hstep.le,
      Real.rpow_two, Real.sqrt_sq (by positivity)]
    ring
  have e2 : ρ * √2 ^ P * N * √(sigma ^ 2 / 2 * effStep dt N ^ (2 * H)) ^ P = ρ * N * (|sigma| * effStep dt N ^ H) ^ P := by
    rw [e1, div_pow]
    have : (0:ℝ) < √2 ^ P := by positivity
    field_simp
  rw [e2] at h3
  exact h3

/-! The hypotheses are met: for `db2` and every `0 < H < 1`, with `q = [2, 1, 0, -1/5]`: one sample changed by at most a millionth of `N` in mean square. -/
example (H : ℝ) (h0 : 0 < H) (h1 : H < 1) (δ : ℝ) (hδ : 0 < δ) : ∃ N : ℕ, ∃ (Ω : Type) (_ : MeasurableSpace Ω) (μ : Measure Ω) (gen : Ω → ℕ → ℝ)
    (x : Ω → RArr 2), StdNormal μ gen ∧ Returns (fbm 2 N H 1 (some 1) "cme" none) gen x ∧
    μ {ω | ¬ ∃ t0 : ℕ, t0 < N ∧ ∃ a : ℝ, |a| ^ 2 ≤ 1 / 10 ^ 6 * N ∧
      ∃ d, mfAnalysisFull (asFloats (perturbed (x ω) (singleChange 0 t0 a))) (2:ℕ) (some (4:ℕ)) 1 0 true db2 .inf (some (.ndarray [2, 1, 0, -1/5])) 3 = .ok d ∧
        Spoiled d.dwt [2, 1, 0, -1/5] 3 0} ≤ ENNReal.ofReal δ := by
  obtain ⟨hv, ho, hm⟩ := db2_orthonormal
  obtain ⟨N₀, h⟩ := C133_fbm hm (by norm_num) hv ho h0 h1 (by push_cast; linarith) 2 2 4 (by norm_num) (by norm_num) (1 / 10 ^ 6) δ (by norm_num) hδ
  obtain ⟨Ω, m, μ, gen, hg⟩ := exists_stdNormal
  obtain ⟨x, hx, hb⟩ := h hg (N := N₀) (R := 2) (sigma := 1) (dt := some 1) none le_rfl one_ne_zero (by intro d hd; cases hd; norm_num) (by norm_num)
  refine ⟨N₀, Ω, m, μ, gen, x, hg, hx, ?_⟩
  have he : effStep (some 1) N₀ = 1 := by simp [effStep]
  have h3 := hb .inf true 0 (Or.inr ⟨rfl, by simp [db2]⟩) [2, 1, 0, -1/5] 3 (by simp)
  rw [he, Real.one_rpow, abs_one, mul_one, one_pow, mul_one] at h3
  exact h3

end

end MFA
