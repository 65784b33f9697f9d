import Verif.Props.BiRelative
import Verif.Props.RoundingDouble
import Verif.Props.BiScaling

/-!
# Property C122, continued: an explicit modulus of continuity of the analysis in the samples
-/

namespace MFA

noncomputable section

variable {R : ℕ}

theorem related_within {m m' : MRQ R} {J : ℕ} (hm : Regular m J) (hm' : Regular m' J) {Y : ℝ} {k : ℕ} (hd : LogData Y k m) {δ : ℝ}
    (hrel : MRQRelated (EntryRelClose δ) m m') {j1 j2 : ℕ} (h1 : 1 ≤ j1) (h12 : j1 < j2) (h2 : j2 ≤ J) {weighted : Bool} {q : List ℝ} (hq : (2:ℝ) ∈ q) {n : ℕ}
    {v v' : MFVar R} (hv : IsBundle m j1 j2 weighted n q v) (hv' : IsBundle m' j1 j2 weighted n q v') :
    ∀ r, EstimatesWithin (dataErr weighted j1 j2 Y δ) q n r v v' := by
  obtain ⟨a, a', b, b', hA⟩ := C122_relative hm hm' (fun p hp => (hd p hp).1) (logData_nonzero hd) hrel h1 h12 h2 weighted q hq n
  obtain ⟨x, x', c, c', hB⟩ := C122_relative_all hm hm' hd hrel h1 h12 h2 weighted q hq n
  have u := (mfVar_ok_iff _ _ _ _ _ _ _).2 hv
  have u' := (mfVar_ok_iff _ _ _ _ _ _ _).2 hv'
  have b := (mfVar_ok_iff _ _ _ _ _ _ _).2 b
  have b' := (mfVar_ok_iff _ _ _ _ _ _ _).2 b'
  have c := (mfVar_ok_iff _ _ _ _ _ _ _).2 c
  have c' := (mfVar_ok_iff _ _ _ _ _ _ _).2 c'
  rw [u] at b c; cases b; cases c
  rw [u'] at b' c'; cases b'; cases c'
  intro r
  obtain ⟨p1, p2, p3, -⟩ := hA r
  obtain ⟨p4, p5, p6⟩ := hB r
  exact ⟨p1, p2, p3, p4, p5, p6⟩

/-- **C122, the analysis with an explicit modulus of continuity.**  Let `mf_analysis_full` be called, with coefficients only or with wavelet leaders, on a signal
whose wavelet coefficients and leaders are between `2^(-Y)` and `2^Y`, and on another signal whose samples differ from its samples by at most `η`.  With `L` the
sum over the scales of the largest factor by which a change of the samples is amplified in a coefficient, and `δ = 2 L η 2^Y` at most 1/2, all the estimates of
the two calls differ at most by the bounds of C122 for relative errors of `δ`. -/
theorem C122_signal {N : ℕ} {x x' : Fin R → ℤ → ℝ} (hR : R ≠ 0) {p : PExp} (hp : p = .none ∨ p = .inf) {wt : Wavelet} (hwt : wt.Valid) {j1 : ℕ}
    {j2 : Option ℝ} {g nm : ℝ} (hnm : nm ≠ 0) {weighted : Bool} {w : WT R} (h : waveletAnalysis (sampled N x) p wt j1 j2 g nm weighted = .ok w)
    (h1 : 1 ≤ j1) (h12 : (j1 : ℤ) < w.j2_eff) {q : List ℝ} (hq : (2:ℝ) ∈ q) (n : ℕ) {Y : ℝ} {k : ℕ} (hdc : LogData Y k w.wt_coefs)
    (hdl : ∀ l, w.wt_leaders = some l → LogData Y k l) {Jc : ℕ} (hJc : Regular w.wt_coefs Jc) {η : ℝ} (hη0 : 0 ≤ η)
    (hη : 4 * (lipMax wt g nm Jc * η) * 2 ^ Y ≤ 1) (hx : ∀ r (i : ℕ), i < N → |x r i - x' r i| ≤ η) :
    ∃ d d', mfAnalysisFull (sampled N x) j1 j2 nm g weighted wt p (some (.ndarray q)) n = .ok d ∧
      mfAnalysisFull (sampled N x') j1 j2 nm g weighted wt p (some (.ndarray q)) n = .ok d' ∧
      (∀ r, EstimatesWithin (dataErr weighted j1 w.j2_eff.toNat Y (2 * (lipMax wt g nm Jc * η) * 2 ^ Y)) q n r d.dwt d'.dwt) ∧
      ((d.lwt = none ∧ d'.lwt = none) ∨ ∃ v v', d.lwt = some v ∧ d'.lwt = some v' ∧
        ∀ r, EstimatesWithin (dataErr weighted j1 w.j2_eff.toNat Y (2 * (lipMax wt g nm Jc * η) * 2 ^ Y)) q n r v v') := by
  obtain ⟨J, Jc0, hJJ, hj2, hc, hl⟩ := C03_regular h
  obtain rfl := hJc.unique hc
  obtain ⟨j2', hj2'⟩ := Int.eq_ofNat_of_zero_le (show 0 ≤ w.j2_eff by omega)
  have hjj : j1 < j2' := by rw [hj2'] at h12; exact_mod_cast h12
  have hj2J : j2' ≤ J := by rw [hj2'] at hj2; exact_mod_cast hj2
  have hj2c : j2' ≤ Jc := by rcases hJJ with rfl | rfl <;> omega
  have hN : (sampled N x) ≠ [] := by
    intro he
    obtain ⟨ml, K, Kc, e, -⟩ := wa_inv h
    rw [he] at e
    simp [maxLevel] at e
  have hN' : (sampled N x') ≠ [] := by
    intro he
    have := congrArg List.length he
    rw [sampled_length] at this
    exact hN (by have : N = 0 := this; subst this; rfl)
  obtain ⟨w0, hw0, htot⟩ := C48_total (sampled N x) p hp wt j1 j2 g nm weighted (some (.ndarray q)) n hR hN hnm
  rw [h] at hw0; cases hw0
  obtain ⟨d, hd, -⟩ := htot (by exact_mod_cast h1) h12.le hq
  obtain ⟨w', hw', htot'⟩ := C48_total (sampled N x') p hp wt j1 j2 g nm weighted (some (.ndarray q)) n hR hN' hnm
  obtain ⟨hj', hc', hrel, hlead⟩ := wa_close hR hp hwt h hw' hc hl hη0 le_rfl hx
  obtain ⟨d', hd', -⟩ := htot' (by exact_mod_cast h1) (by rw [hj']; exact h12.le) hq
  refine ⟨d, d', hd, hd', ?_⟩
  unfold mfAnalysisFull at hd hd'
  rw [h] at hd
  rw [hw'] at hd'
  simp only at hd hd'
  rw [C47_bundle] at hd hd'
  obtain ⟨hbc, hbl⟩ := hd
  obtain ⟨hbc', hbl'⟩ := hd'
  have hnq : normQ (some (.ndarray q)) = q := rfl
  rw [hnq, hj2'] at hbc hbl
  rw [hnq, hj', hj2'] at hbc' hbl'
  have e2 : w.j2_eff.toNat = j2' := by rw [hj2']; rfl
  rw [e2]
  refine ⟨related_within hc hc' hdc (related_rel hrel hdc hη) h1 hjj hj2c hq hbc hbc', ?_⟩
  cases hle : w.wt_leaders with
  | none =>
    have hpi : p = .none := by
      rcases hp with rfl | rfl
      · rfl
      · obtain ⟨_, _, _, -, -, -, -, -, -, -, -, e⟩ := wa_inv h
        rw [e.1] at hle; cases hle
    have hle' : w'.wt_leaders = none := by
      subst hpi
      obtain ⟨_, _, _, -, -, -, -, -, -, -, -, e⟩ := wa_inv hw'
      exact e.1
    rw [hle] at hbl
    rw [hle'] at hbl'
    exact Or.inl ⟨hbl, hbl'⟩
  | some l =>
    have hpi : p = .inf := by
      rcases hp with rfl | rfl
      · obtain ⟨_, _, _, -, -, -, -, -, -, -, -, e⟩ := wa_inv h
        rw [e.1] at hle; cases hle
      · rfl
    obtain ⟨l', hll', hreg', hrel'⟩ := hlead l hle
    rw [hle] at hbl
    rw [hll'] at hbl'
    obtain ⟨v, hdv, hv⟩ := hbl
    obtain ⟨v', hdv', hv'⟩ := hbl'
    exact Or.inr ⟨v, v', hdv, hdv', related_within (hl l hle hpi) hreg' (hdl l hle) (related_rel hrel' (hdl l hle) hη) h1 hjj hj2J hq hv hv'⟩

theorem LogData.mono {Y Y' : ℝ} {k k' : ℕ} {m : MRQ R} (h : LogData Y k m) (hY : Y ≤ Y') (hk : k ≤ k') : LogData Y' k' m := by
  intro p hp
  obtain ⟨a, b, c⟩ := h p hp
  refine ⟨a, b.trans hk, fun r => ⟨(c r).1, fun x hx => ?_⟩⟩
  rcases (c r).2 x hx with e | ⟨t, h0, e, hb⟩
  · exact Or.inl e
  · exact Or.inr ⟨t, h0, e, hb.trans hY⟩

/-- The hypotheses of `C122_signal` and `C139_signal` are met by any two signals whose wavelet coefficients are not 0 (for instance those of the example at the
end of `Props/BiContinuity`), for some `Y` and all small enough `η`. -/
theorem C139_hypotheses {N : ℕ} {x y : Fin 1 → ℤ → ℝ} {wt : Wavelet} (hwt : wt.Valid) {j1 : ℕ}
    {j2 : Option ℝ} {g nm : ℝ} {weighted : Bool} {w1 w2 : WT 1} (hw1 : waveletAnalysis (sampled N x) .inf wt j1 j2 g nm weighted = .ok w1)
    (hw2 : waveletAnalysis (sampled N y) .inf wt j1 j2 g nm weighted = .ok w2) (n1 : NoZeros w1.wt_coefs) (n2 : NoZeros w2.wt_coefs) :
    ∃ (Y : ℝ) (k Jc : ℕ), Regular w1.wt_coefs Jc ∧ LogData Y k w1.wt_coefs ∧ LogData Y k w2.wt_coefs ∧ (∀ l, w1.wt_leaders = some l → LogData Y k l) ∧
      (∀ l, w2.wt_leaders = some l → LogData Y k l) ∧ ∃ η0 : ℝ, 0 < η0 ∧ ∀ η : ℝ, 0 ≤ η → η ≤ η0 → 4 * (lipMax wt g nm Jc * η) * 2 ^ Y ≤ 1 := by
  obtain ⟨J, Jc, a1, a2, he, hJ, hJJ, hl1, hl2, -, -, hpc, hsc, hpl, hsl⟩ := wa_paired hwt hw1 hw2
  obtain ⟨d1, dl1⟩ := signal_nonzero (by norm_num) hwt hw1 n1
  obtain ⟨d2, dl2⟩ := signal_nonzero (by norm_num) hwt hw2 n2
  have hr := fun {z : Fin 1 → ℤ → ℝ} {w : WT 1} (h : waveletAnalysis (sampled N z) .inf wt j1 j2 g nm weighted = .ok w) =>
    rows_ne_nil (by norm_num) h
  obtain ⟨Y1, k1, b1⟩ := C124_sizes (hr hw1 _ (Or.inl rfl)) d1
  obtain ⟨Y2, k2, b2⟩ := C124_sizes (hr hw2 _ (Or.inl rfl)) d2
  obtain ⟨Y3, k3, b3⟩ := C124_sizes (hr hw1 _ (Or.inr ⟨hl1, rfl⟩)) (dl1 _ hl1)
  obtain ⟨Y4, k4, b4⟩ := C124_sizes (hr hw2 _ (Or.inr ⟨hl2, rfl⟩)) (dl2 _ hl2)
  obtain ⟨Y, hY⟩ : ∃ Y, Y = max (max Y1 Y2) (max Y3 Y4) := ⟨_, rfl⟩
  obtain ⟨k, hk⟩ : ∃ k, k = max (max k1 k2) (max k3 k4) := ⟨_, rfl⟩
  have hL : 0 ≤ lipMax wt g nm Jc := Finset.sum_nonneg fun s _ => coefLip_nonneg wt g nm s
  have h2 : (0:ℝ) < 2 ^ Y := Real.rpow_pos_of_pos (by norm_num) _
  refine ⟨Y, k, Jc, hpc.reg1, b1.mono (by simp [hY]) (by simp [hk]), b2.mono (by simp [hY]) (by simp [hk]), ?_, ?_, 1 / (4 * (lipMax wt g nm Jc + 1) * 2 ^ Y),
    by positivity, fun η h0 h1 => ?_⟩
  · intro l e
    rw [hl1] at e; cases e
    exact b3.mono (by simp [hY]) (by simp [hk])
  · intro l e
    rw [hl2] at e; cases e
    exact b4.mono (by simp [hY]) (by simp [hk])
  · rw [le_div_iff₀ (by positivity)] at h1
    have : 0 ≤ 4 * η * 2 ^ Y := by positivity
    nlinarith

theorem Paired.scaled {m1 m2 : MRQ 1} {J : ℕ} (hp : Paired m1 m2 J) {a b : ℤ → ℝ} (ha : ∀ j, a j ≠ 0) (hb : ∀ j, b j ≠ 0) :
    Paired (scaleBy a m1) (scaleBy b m2) J := by
  refine ⟨hp.reg1.scaleBy fun p _ => ha _, hp.reg2.scaleBy fun p _ => hb _, hp.formalism, hp.gamint, hp.nj, ?_⟩
  unfold scaleBy
  rw [List.forall₂_map_left_iff, List.forall₂_map_right_iff]
  refine hp.rows.imp fun p q h => ?_
  simpa [mapArr] using h

theorem SameNaN.scaled {m1 m2 : MRQ 1} (hs : SameNaN m1 m2) {a b : ℤ → ℝ} (ha : ∀ j, a j ≠ 0) (hb : ∀ j, b j ≠ 0) :
    SameNaN (scaleBy a m1) (scaleBy b m2) := by
  intro k p p' hp hp' i x y hx hy
  unfold scaleBy at hp hp'
  simp only [List.getElem?_map] at hp hp'
  obtain ⟨u, hu, rfl⟩ := Option.map_eq_some_iff.1 hp
  obtain ⟨u', hu', rfl⟩ := Option.map_eq_some_iff.1 hp'
  simp only [mapArr, List.getElem?_map] at hx hy
  obtain ⟨z, hz, rfl⟩ := Option.map_eq_some_iff.1 hx
  obtain ⟨z', hz', rfl⟩ := Option.map_eq_some_iff.1 hy
  have := hs k u u' hu hu' i z z' hz hz'
  show Fl.fin _ * _ = _ ↔ Fl.fin _ * _ = _
  rw [fin_mul_nan_iff (ha _), fin_mul_nan_iff (hb _)]
  exact hs k u u' hu hu' i z z' hz hz'

theorem related_scaled {m : MRQ R} (hd : NonzeroData m) {θ : ℤ → ℝ} {δ : ℝ} (hθ : ∀ p ∈ m.values, |θ p.1| ≤ δ) :
    MRQRelated (EntryRelClose δ) m (scaleBy (fun j => Real.exp (θ j)) m) := by
  refine ⟨rfl, ?_⟩
  unfold scaleBy
  rw [List.forall₂_map_right_iff, List.forall₂_same]
  refine fun p hp => ⟨rfl, ?_⟩
  unfold mapArr
  rw [List.forall₂_map_right_iff, List.forall₂_same]
  intro u hu r
  rcases (hd p hp r).2 (u r) (List.mem_map.2 ⟨u, hu, rfl⟩) with e | ⟨t, -, e⟩
  · refine Or.inl ⟨e, ?_⟩
    show Fl.fin _ * u r = _
    rw [e]; rfl
  · refine Or.inr ⟨t, θ p.1, e, ?_, hθ p hp⟩
    show Fl.fin _ * u r = _
    rw [e, Fl.fin_mul, mul_comm]

/-- The hypotheses of `C139_relative` are met, by the leaders `bi1`, `bi2` of `Props/BiDemo` and the same leaders multiplied at scale `j` by `e^(j/100)` and
`e^(-j/50)`. -/
example : ∃ (Y : ℝ) (k : ℕ), Paired bi1 bi2 2 ∧ SameNaN bi1 bi2 ∧ LogData Y k bi1 ∧ LogData Y k bi2 ∧
    Paired (scaleBy (fun j => Real.exp (j / 100)) bi1) (scaleBy (fun j => Real.exp (-j / 50)) bi2) 2 ∧
    SameNaN (scaleBy (fun j => Real.exp (j / 100)) bi1) (scaleBy (fun j => Real.exp (-j / 50)) bi2) ∧
    MRQRelated (EntryRelClose (1 / 25)) bi1 (scaleBy (fun j => Real.exp (j / 100)) bi1) ∧
    MRQRelated (EntryRelClose (1 / 25)) bi2 (scaleBy (fun j => Real.exp (-j / 50)) bi2) := by
  obtain ⟨r1, d1⟩ := bi_data bi1 (Or.inl rfl)
  obtain ⟨r2, d2⟩ := bi_data bi2 (Or.inr rfl)
  obtain ⟨Y1, k1, b1⟩ := C124_sizes r1 d1
  obtain ⟨Y2, k2, b2⟩ := C124_sizes r2 d2
  refine ⟨max Y1 Y2, max k1 k2, bi_paired, bi_sameNaN, b1.mono (by simp) (by simp), b2.mono (by simp) (by simp),
    bi_paired.scaled (fun j => (Real.exp_pos _).ne') (fun j => (Real.exp_pos _).ne'),
    bi_sameNaN.scaled (fun j => (Real.exp_pos _).ne') (fun j => (Real.exp_pos _).ne'), related_scaled (θ := fun j => j / 100) d1 ?_,
    related_scaled (θ := fun j => -j / 50) d2 ?_⟩
  · intro p hp
    rw [bi1_values] at hp
    simp only [List.mem_cons, List.not_mem_nil, or_false] at hp
    rcases hp with rfl | rfl <;> norm_num [abs_le]
  · intro p hp
    rw [bi2_values] at hp
    simp only [List.mem_cons, List.not_mem_nil, or_false] at hp
    rcases hp with rfl | rfl <;> norm_num [abs_le]

end

end MFA
