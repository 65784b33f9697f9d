import Verif.Lemmas.RoundedWavelet
import Verif.Props.Continuity

/-! C123: rounding errors. -/

namespace MFA

open Filter Topology Classical

noncomputable section

variable {R : ℕ}

theorem eventually_machine {P : Machine → Prop} (h : ∀ᶠ M in Lmach, P M) : ∃ u0 : ℝ, 0 < u0 ∧ ∀ M : Machine, M.u ≤ u0 → P M := by
  unfold Lmach at h
  rw [eventually_comap] at h
  obtain ⟨δ, hδ, hP⟩ := Metric.eventually_nhds_iff.1 h
  refine ⟨δ / 2, by positivity, fun M hM => hP (y := M.u) ?_ M rfl⟩
  rw [Real.dist_eq, sub_zero, abs_of_nonneg M.u_nonneg]
  linarith

theorem Regular.mfVarM {m : MRQ R} {J : ℕ} (hm : Regular m J) (M : Machine) {j1 j2 : ℤ} (h1 : 1 ≤ j1) (h12 : j1 ≤ j2) (h2 : j2 ≤ J)
    (hrow : ∀ p ∈ m.values, p.2 ≠ []) (weighted : Bool) (n : ℕ) {q : List ℝ} (hq : (2:ℝ) ∈ q) :
    ∃ v : MFVar R, M.mfVar m j1 j2 weighted n q = .ok v := by
  have hqe : (QArg.ndarray q).expos ≠ [] := by rw [expos_ndarray]; simp; rintro rfl; cases hq
  unfold Machine.mfVar
  rw [hm.structFnM M h1 h12 h2 weighted q hq]
  simp only
  rw [hm.cumulantsM M h1 h12 h2 weighted n]
  simp only
  rw [hm.spectrumM M h1 h12 h2 weighted (.ndarray q) hqe]
  simp only
  rw [hm.hminM M h1 h12 h2 weighted true hrow]
  exact ⟨_, rfl⟩

/-- A computed quantity is eventually the exact one with other entries. -/
theorem EvM.atExact {m : Machine → MRQ R} (h : EvM m) : ∃ fm : FMrq R, (∀ p ∈ fm.base, CvArr p.2) ∧ (∀ᶠ M in Lmach, m M = fm.at M) ∧
    fm.at Machine.exact = m Machine.exact := by
  obtain ⟨fm, h1, h2⟩ := h
  exact ⟨fm, h1, h2, (pure_le_Lmach h2 : _).symm⟩

/-- The array holds NaN or numbers, but no infinities. -/
def NoInf (a : Arr R) : Prop := ∀ row ∈ a, ∀ r : Fin R, row r = Fl.nan ∨ ∃ x : ℝ, row r = Fl.fin x

theorem ev_wa {sig : Arr R} (hs : NoInf sig) (hR : R ≠ 0) {p : PExp} (hp : p = .none ∨ p = .inf) {wt : Wavelet} {j1 : ℤ} {j2 : Option ℝ}
    {g nm : ℝ} (hnm : nm ≠ 0) {weighted : Bool} {w : WT R} (h : waveletAnalysis sig p wt j1 j2 g nm weighted = .ok w) :
    ∃ fc : FMrq R, (∀ a ∈ fc.base, CvArr a.2) ∧ fc.at Machine.exact = w.wt_coefs ∧ ∃ L : Machine → Option (MRQ R),
      (∀ᶠ M in Lmach, M.waveletAnalysis sig p wt j1 j2 g nm weighted = .ok { w with wt_coefs := fc.at M, wt_leaders := L M }) ∧
      ((w.wt_leaders = none ∧ ∀ M, L M = none) ∨ p = .inf ∧ ∃ fl : FMrq R, (∀ a ∈ fl.base, CvArr a.2) ∧
        w.wt_leaders = some (fl.at Machine.exact) ∧ ∀ M, L M = some (fl.at M)) := by
  have hexact := h
  rw [← Machine.exact_waveletAnalysis] at hexact
  cases hd : decompositionLevelW sig.length (wt.dec_hi.map (fun t => -1 * t)).length j2 with
  | error e =>
    unfold waveletAnalysis at h
    simp only [hd] at h
    cases h
  | ok lw =>
    obtain ⟨ml, warned⟩ := lw
    rcases hp with rfl | rfl
    · obtain ⟨acc, ml', hacc, he⟩ := EvM.coefLoop (R := R) { high := wt.dec_hi.map (fun t => -1 * t), low := wt.dec_lo, normalization := nm, gamint := g }
        hR hnm ml.toNat 1 ml (fun _ => sig) (fun _ => MRQ.empty .coef g) (EvA.const hs) (EvM.empty _ _)
      obtain ⟨fc, hfc, hfe, -⟩ := hacc.atExact
      have hw : ∀ᶠ M in Lmach, M.waveletAnalysis sig .none wt j1 j2 g nm weighted =
          .ok { wt_coefs := fc.at M, wt_leaders := none, j2_eff := j2Eff ml' j2, eta_p := none, warned := warned } := by
        filter_upwards [he, hfe] with M h1 h2
        unfold Machine.waveletAnalysis
        simp only [hd, h1, h2]
      have hw0 : Machine.exact.waveletAnalysis sig .none wt j1 j2 g nm weighted =
          .ok { wt_coefs := fc.at Machine.exact, wt_leaders := none, j2_eff := j2Eff ml' j2, eta_p := none, warned := warned } := pure_le_Lmach hw
      rw [hexact] at hw0
      cases hw0
      exact ⟨fc, hfc, rfl, fun _ => none, hw, Or.inl ⟨rfl, fun _ => rfl⟩⟩
    · rcases EvSt.leadLoop (R := R) { high := wt.dec_hi.map (fun t => -1 * t), low := wt.dec_lo, normalization := nm, gamint := g } (p := .inf) (Or.inl rfl)
        hR hnm ml.toNat 1 ml (fun _ => sig) (fun _ => { coefs := MRQ.empty .coef g, leaders := MRQ.empty (checkFormalism .inf) g, sans_voisin := [] })
        (EvA.const hs) ⟨EvM.empty _ _, EvM.empty _ _, ⟨0, fun _ _ _ => Fl.fin 0, Eventually.of_forall fun _ => rfl, fun _ _ =>
          ⟨EvE.const 0, Eventually.of_forall fun _ => Or.inr ⟨0, le_rfl, rfl⟩⟩⟩⟩ with ⟨e, he⟩ | ⟨st, ml', ⟨hc, hl, -⟩, he⟩
      · have hw0 : Machine.exact.waveletAnalysis sig .inf wt j1 j2 g nm weighted = .error e := by
          have := pure_le_Lmach he
          unfold Machine.waveletAnalysis
          simp only [hd]
          rw [show Machine.exact.leadLoop _ _ _ _ _ _ _ = _ from this]
        rw [hexact] at hw0
        cases hw0
      · obtain ⟨fc, hfc, hfe, -⟩ := hc.atExact
        obtain ⟨fl, hfl, hfle, -⟩ := hl.atExact
        have hw : ∀ᶠ M in Lmach, M.waveletAnalysis sig .inf wt j1 j2 g nm weighted =
            .ok { wt_coefs := fc.at M, wt_leaders := some (fl.at M), j2_eff := j2Eff ml' j2, eta_p := none, warned := warned } := by
          filter_upwards [he, hfe, hfle] with M h1 h2 h3
          unfold Machine.waveletAnalysis
          simp only [hd, h1, h2, h3]
        have hw0 : Machine.exact.waveletAnalysis sig .inf wt j1 j2 g nm weighted =
            .ok { wt_coefs := fc.at Machine.exact, wt_leaders := some (fl.at Machine.exact), j2_eff := j2Eff ml' j2, eta_p := none
                  warned := warned } := pure_le_Lmach hw
        rw [hexact] at hw0
        cases hw0
        exact ⟨fc, hfc, rfl, fun M => some (fl.at M), hw, Or.inr ⟨rfl, fl, hfl, rfl, fun _ => rfl⟩⟩

theorem cvArr_noInf {a : FArr R} (h : CvArr a) (M : Machine) (r : Fin R) : ∀ x ∈ col (a.at M) r, x = Fl.nan ∨ ∃ t, x = Fl.fin t := by
  intro x hx
  rw [col_at] at hx
  obtain ⟨row, hrow, rfl⟩ := List.mem_map.1 hx
  rcases h row hrow r with h | ⟨h, -⟩
  · exact Or.inl (h M)
  · exact Or.inr (h M)

/-- A computed quantity meets the conditions of the estimates. -/
theorem FMrq.good {fm : FMrq R} (hcv : ∀ a ∈ fm.base, CvArr a.2) {J : ℕ} (hreg : Regular (fm.at Machine.exact) J)
    (hrow : ∀ p ∈ (fm.at Machine.exact).values, p.2 ≠ []) (hcol : ∀ p ∈ (fm.at Machine.exact).values, ∀ r : Fin R, ∃ x ∈ col p.2 r, x ≠ Fl.nan)
    (h0 : NoZeros (fm.at Machine.exact)) : fm.Good J := by
  refine ⟨?_, hcv, ?_, ?_⟩
  · have := hreg.1
    rw [FMrq.at, List.map_map] at this
    exact this
  · intro p hp he
    exact hrow (p.1, p.2.at Machine.exact) (List.mem_map.2 ⟨p, hp, rfl⟩) (by rw [he]; rfl)
  · intro p hp r
    refine ⟨hcol p hp r, fun x hx => ?_⟩
    obtain ⟨p0, hp0, e⟩ := List.mem_map.1 hp
    have hx' : x ∈ col (p0.2.at Machine.exact) r := by rw [← e] at hx; exact hx
    rcases cvArr_noInf (hcv p0 hp0) Machine.exact r x hx' with h | ⟨t, rfl⟩
    · exact Or.inl h
    · obtain ⟨s, k, hv⟩ := mem_col_val hreg hp hx
      exact Or.inr ⟨t, fun ht => h0 s k r (by rw [hv, ht]), rfl⟩

theorem FMrq.regularAt {fm : FMrq R} {J : ℕ} (hreg : Regular (fm.at Machine.exact) J) (M : Machine) : Regular (fm.at M) J := by
  refine fm.regular ?_ M
  have := hreg.1
  rw [FMrq.at, List.map_map] at this
  exact this

theorem FMrq.rowsAt {fm : FMrq R} (hrow : ∀ p ∈ (fm.at Machine.exact).values, p.2 ≠ []) (M : Machine) : ∀ p ∈ (fm.at M).values, p.2 ≠ [] := by
  intro p hp he
  obtain ⟨p0, hp0, rfl⟩ := List.mem_map.1 hp
  refine hrow (p0.1, p0.2.at Machine.exact) (List.mem_map.2 ⟨p0, hp0, rfl⟩) ?_
  have : p0.2 = [] := List.map_eq_nil_iff.1 he
  rw [this]; rfl

/-- The estimates on one quantity: always returned, and close to the exact ones if no value is zero. -/
theorem FMrq.estimates {fm : FMrq R} (hcv : ∀ a ∈ fm.base, CvArr a.2) {J : ℕ} (hreg : Regular (fm.at Machine.exact) J)
    (hrow : ∀ p ∈ (fm.at Machine.exact).values, p.2 ≠ []) (hcol : ∀ p ∈ (fm.at Machine.exact).values, ∀ r : Fin R, ∃ x ∈ col p.2 r, x ≠ Fl.nan)
    {j1 j2 : ℕ} (h1 : 1 ≤ j1) (h12 : j1 < j2) (h2 : j2 ≤ J) (weighted : Bool) {q : List ℝ} (hq : (2:ℝ) ∈ q) (n : ℕ)
    {v : MFVar R} (hv : IsBundle (fm.at Machine.exact) j1 j2 weighted n q v) {ε : ℝ} (hε : 0 < ε) :
    ∀ᶠ M in Lmach, ∃ v', M.mfVar (fm.at M) j1 j2 weighted n q = .ok v' ∧
      (NoZeros (fm.at Machine.exact) → ∀ r, EstimatesClose ε q.length n r v v') := by
  by_cases h0 : NoZeros (fm.at Machine.exact)
  · obtain ⟨v0, hv0, hc⟩ := (FMrq.good hcv hreg hrow hcol h0).estimates h1 h12 h2 weighted hq n
    have e0 := (mfVar_ok_iff _ _ _ _ _ _ _).2 hv0
    have e1 := (mfVar_ok_iff _ _ _ _ _ _ _).2 hv
    rw [e0] at e1; cases e1
    filter_upwards [hc ε hε] with M hM
    obtain ⟨v', hv', hcl⟩ := hM
    exact ⟨v', hv', fun _ => hcl⟩
  · refine Eventually.of_forall fun M => ?_
    obtain ⟨v', hv'⟩ := (FMrq.regularAt hreg M).mfVarM M (j1 := (j1 : ℤ)) (j2 := (j2 : ℤ)) (by exact_mod_cast h1) (by exact_mod_cast h12.le) (by exact_mod_cast h2)
      (FMrq.rowsAt hrow M) weighted n hq
    exact ⟨v', hv', fun h => absurd h h0⟩

/-- **C123, rounding errors do not matter when they are small enough.**  Let `mf_analysis_full` be called with coefficients only or with wavelet leaders, on
a signal without infinities for which at least two scales are analysed.  For every `ε` there is `u0 > 0` such that on every machine whose operations have a
relative error of at most `u0`, whatever the order of its sums, the call returns, and: if no wavelet coefficient (in exact arithmetic) is 0, all the
estimates from coefficients are within `ε` of the exact ones; if no leader is 0, so are all the estimates from leaders. -/
theorem C123_signal {sig : Arr R} (hs : NoInf sig) (hR : R ≠ 0) {p : PExp} (hp : p = .none ∨ p = .inf) {wt : Wavelet} {j1 : ℕ}
    {j2 : Option ℝ} {g nm : ℝ} (hnm : nm ≠ 0) {weighted : Bool} {w : WT R} (h : waveletAnalysis sig p wt j1 j2 g nm weighted = .ok w)
    (h1 : 1 ≤ j1) (h12 : (j1 : ℤ) < w.j2_eff) {q : List ℝ} (hq : (2:ℝ) ∈ q) (n : ℕ) :
    ∃ d, mfAnalysisFull sig j1 j2 nm g weighted wt p (some (.ndarray q)) n = .ok d ∧ ∀ ε : ℝ, 0 < ε → ∃ u0 : ℝ, 0 < u0 ∧
      ∀ M : Machine, M.u ≤ u0 →
        ∃ d', M.mfAnalysisFull sig j1 j2 nm g weighted wt p (some (.ndarray q)) n = .ok d' ∧
          (NoZeros w.wt_coefs → ∀ r, EstimatesClose ε q.length n r d.dwt d'.dwt) ∧
          ∀ l v, w.wt_leaders = some l → d.lwt = some v → NoZeros l →
            ∃ v', d'.lwt = some v' ∧ ∀ r, EstimatesClose ε q.length n r v v' := by
  obtain ⟨J, Jc, hJc, hj2, hc, hl⟩ := C03_regular h
  obtain ⟨j2', hj2'⟩ := Int.eq_ofNat_of_zero_le (show 0 ≤ w.j2_eff by omega)
  have hjj : j1 < j2' := by rw [hj2'] at h12; exact_mod_cast h12
  have hj2J : j2' ≤ J := by rw [hj2'] at hj2; exact_mod_cast hj2
  have hj2c : j2' ≤ Jc := by rcases hJc with rfl | rfl <;> omega
  have hN : sig ≠ [] := by
    intro he
    obtain ⟨ml, K, Kc, e, -⟩ := wa_inv h
    rw [he] at e
    simp [maxLevel] at e
  obtain ⟨w0, hw0, htot⟩ := C48_total sig p hp wt j1 j2 g nm weighted (some (.ndarray q)) n hR hN hnm
  rw [h] at hw0; cases hw0
  obtain ⟨d, hd, -⟩ := htot (by exact_mod_cast h1) h12.le hq
  refine ⟨d, hd, fun ε hε => eventually_machine ?_⟩
  unfold mfAnalysisFull at hd
  rw [h] at hd
  simp only at hd
  rw [C47_bundle] at hd
  obtain ⟨hbc, hbl⟩ := hd
  have hnq : normQ (some (.ndarray q)) = q := rfl
  rw [hj2', hnq] at hbc hbl
  obtain ⟨fc, hfc, efc, L, hwa, hL⟩ := ev_wa hs hR hp hnm h
  rw [← efc] at hbc hc
  have hrc := rows_ne_nil hR h _ (Or.inl rfl)
  have hcc := cols_not_nan h _ (Or.inl rfl)
  rw [← efc] at hrc hcc
  have Ec := FMrq.estimates hfc hc hrc hcc h1 hjj hj2c weighted hq n hbc hε
  rcases hL with ⟨hL0, hLn⟩ | ⟨rfl, fl, hfl, hL0, hLs⟩
  · filter_upwards [hwa, Ec] with M hM ⟨v', hv', hcl⟩
    refine ⟨{ dwt := v', lwt := none }, ?_, ?_, ?_⟩
    · unfold Machine.mfAnalysisFull Machine.mfAnalysis
      rw [hM]
      simp only [hnq, hLn]
      rw [hj2', hv']
    · rw [← efc]; exact hcl
    · intro l v hle
      rw [hL0] at hle; cases hle
  · have hreg := hl _ hL0 rfl
    obtain ⟨vl, hdl, hvl⟩ : ∃ v, d.lwt = some v ∧ IsBundle (fl.at Machine.exact) j1 j2' weighted n q v := by rw [hL0] at hbl; exact hbl
    have El := FMrq.estimates hfl hreg (rows_ne_nil hR h _ (Or.inr ⟨hL0, rfl⟩)) (cols_not_nan h _ (Or.inr ⟨hL0, rfl⟩)) h1 hjj hj2J weighted hq n hvl hε
    filter_upwards [hwa, Ec, El] with M hM ⟨v', hv', hcl⟩ ⟨v'', hv'', hcl'⟩
    refine ⟨{ dwt := v', lwt := some v'' }, ?_, ?_, ?_⟩
    · unfold Machine.mfAnalysisFull Machine.mfAnalysis
      rw [hM]
      simp only [hnq, hLs]
      rw [hj2', hv']
      simp only
      rw [hv'']
    · rw [← efc]; exact hcl
    · intro l v hle hdv hz
      rw [hL0] at hle; cases hle
      rw [hdl] at hdv; cases hdv
      exact ⟨v'', rfl, hcl' hz⟩

end

end MFA
