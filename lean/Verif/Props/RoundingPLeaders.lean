import Verif.Lemmas.RoundedPLeaders
import Verif.Props.Rounding
import Verif.Props.FullPLeaders

/-! C123 for p-leaders. -/

namespace MFA

open Filter Topology Classical

noncomputable section

variable {R : ℕ}

theorem FMrq.Good.zeta {m : FMrq R} {J : ℕ} (hm : m.Good J) {j1 j2 : ℕ} (h1 : 1 ≤ j1) (h12 : j1 < j2) (h2 : j2 ≤ J) (weighted : Bool) (e : ℝ) (r : Fin R) :
    ∃ b, CvTo (fun M => M.zetaF (m.at M) j1 j2 weighted (.real e) r) b := by
  obtain ⟨b, hb⟩ := hm.slope h1 h12 h2 weighted (q := [e]) (n := 0)
    (Y := fun M c => M.log2 (M.nanmean ((c.map Fl.abs).map (M.fastPower (.real e))))) (by simp [mStats]) r
  refine ⟨b, hb.congr (Eventually.of_forall fun M => ?_)⟩
  unfold Machine.zetaF Machine.sfMean red mapArr col
  simp only [List.map_map]
  rfl

/-- The p-leader correction of computed quantities. -/
theorem ev_correct {fc fl : FMrq R} {J : ℕ} (hfc : fc.Good J) (hfl : ∀ a ∈ fl.base, CvArr a.2) {e : Expo} (he : e.val = 2) {j1 j2 : ℕ} (h1 : 1 ≤ j1)
    (h12 : j1 < j2) (h2 : j2 ≤ J) (weighted : Bool) (ml : ℤ) {l : MRQ R} {eta : Row R}
    (h : Machine.exact.correctLeaders (fc.at Machine.exact) (fl.at Machine.exact) e j1 j2 weighted ml = .ok (l, eta)) :
    ∃ (fl' : FMrq R) (η : Fin R → Machine → Fl), (∀ a ∈ fl'.base, CvArr a.2) ∧ fl'.at Machine.exact = l ∧ (∀ r, ∃ b, 0 < b ∧ CvTo (η r) b ∧ eta r = Fl.fin b) ∧
      ∀ᶠ M in Lmach, M.correctLeaders (fc.at M) (fl.at M) e j1 j2 weighted ml = .ok (fl'.at M, fun r => η r M) := by
  have heta : ∀ M : Machine, M.estimateEtaP (fc.at M) e j1 j2 weighted = .ok fun r => M.zetaF (fc.at M) j1 j2 weighted (.real 2) r := by
    intro M
    unfold Machine.estimateEtaP
    rw [he, (fc.regular hfc.keys M).structFnM M (j1 := (j1 : ℤ)) (j2 := (j2 : ℤ)) (by exact_mod_cast h1) (by exact_mod_cast h12.le) (by exact_mod_cast h2)
      weighted [2] (by simp)]
    rfl
  have hz := fun r : Fin R => hfc.zeta h1 h12 h2 weighted 2 r
  choose b hb using hz
  have hcond : ∀ r, 0 < b r := by
    intro r
    unfold Machine.correctLeaders at h
    rw [heta] at h
    simp only at h
    split_ifs at h with hif
    by_contra hneg
    refine hif ⟨fun r => ?_, r, ?_⟩
    · rw [(hb r).exact]; rfl
    · rw [(hb r).exact]
      exact not_lt.1 hneg
  have hpos : ∀ᶠ M in Lmach, ¬ ((∀ r, ((M.zetaF (fc.at M) j1 j2 weighted (.real 2) r)).isNaN = false) ∧
      ∃ r, Fl.le (M.zetaF (fc.at M) j1 j2 weighted (.real 2) r) (Fl.fin 0)) := by
    have : ∀ᶠ M in Lmach, ∀ r, ∃ x, 0 < x ∧ M.zetaF (fc.at M) j1 j2 weighted (.real 2) r = Fl.fin x := by
      rw [eventually_all]
      intro r
      obtain ⟨g, g1, g2⟩ := hb r
      filter_upwards [g1, g2.eventually (lt_mem_nhds (hcond r))] with M m1 m2
      exact ⟨_, m2, m1⟩
    filter_upwards [this] with M hM
    rintro ⟨-, r, hr⟩
    obtain ⟨x, hx, ex⟩ := hM r
    rw [ex] at hr
    exact absurd hx (not_lt.2 hr)
  have hcorr : ∀ᶠ M in Lmach, M.correctLeaders (fc.at M) (fl.at M) e j1 j2 weighted ml =
      match M.applyCorr (fun r => M.zetaF (fc.at M) j1 j2 weighted (.real 2) r) e.val ((List.range ml.toNat).map (· + 1)) (fl.at M).values with
      | .error e => .error e
      | .ok vals => .ok ({ fl.at M with values := vals }, fun r => M.zetaF (fc.at M) j1 j2 weighted (.real 2) r) := by
    filter_upwards [hpos] with M hM
    unfold Machine.correctLeaders
    rw [heta]
    simp only
    rw [if_neg hM]
    rfl
  rcases FMrq.applyCorr (η := fun r M => M.zetaF (fc.at M) j1 j2 weighted (.real 2) r) hb hcond e.val ((List.range ml.toNat).map (· + 1))
    (by intro j hj; obtain ⟨i, -, rfl⟩ := List.mem_map.1 hj; omega) fl.base hfl with ⟨er, her⟩ | ⟨base', g1, g2, g3⟩
  · exfalso
    have e0 := pure_le_Lmach (hcorr.and her)
    obtain ⟨e1, e2⟩ := e0
    rw [h] at e1
    rw [show (fl.at Machine.exact).values = fl.base.map fun a => (a.1, a.2.at Machine.exact) from rfl, e2] at e1
    cases e1
  · have hfin : ∀ᶠ M in Lmach, M.correctLeaders (fc.at M) (fl.at M) e j1 j2 weighted ml =
        .ok (({ fl with base := base' } : FMrq R).at M, fun r => M.zetaF (fc.at M) j1 j2 weighted (.real 2) r) := by
      filter_upwards [hcorr, g2] with M m1 m2
      rw [m1, show (fl.at M).values = fl.base.map fun a => (a.1, a.2.at M) from rfl, m2]
      simp only [FMrq.at]
      rw [g3 M]
    have e0 := pure_le_Lmach hfin
    have e0' : Machine.exact.correctLeaders (fc.at Machine.exact) (fl.at Machine.exact) e j1 j2 weighted ml = _ := e0
    rw [h] at e0'
    cases e0'
    exact ⟨_, fun r M => M.zetaF (fc.at M) j1 j2 weighted (.real 2) r, g1, rfl, fun r => ⟨b r, hcond r, hb r, (hb r).exact⟩, hfin⟩

theorem ev_wa_num {sig : Arr R} (hs : NoInf sig) (hR : R ≠ 0) {e : Expo} (he : e.val = 2) {wt : Wavelet} {j1 : ℕ} {j2 : Option ℝ}
    {g nm : ℝ} (hnm : nm ≠ 0) {weighted : Bool} {w : WT R} (h : waveletAnalysis sig (.num e) wt j1 j2 g nm weighted = .ok w)
    (h1 : 1 ≤ j1) (h12 : (j1 : ℤ) < w.j2_eff) (h0 : NoZeros w.wt_coefs) :
    ∃ (fc fl : FMrq R) (η : Fin R → Machine → Fl), (∀ a ∈ fc.base, CvArr a.2) ∧ (∀ a ∈ fl.base, CvArr a.2) ∧ fc.at Machine.exact = w.wt_coefs ∧
      w.wt_leaders = some (fl.at Machine.exact) ∧ (∀ eta, w.eta_p = some eta → ∀ r, ∃ b, 0 < b ∧ CvTo (η r) b ∧ eta r = Fl.fin b) ∧
      ∀ᶠ M in Lmach, M.waveletAnalysis sig (.num e) wt j1 j2 g nm weighted =
        .ok { w with wt_coefs := fc.at M, wt_leaders := some (fl.at M), eta_p := some fun r => η r M } := by
  have hexact := h
  rw [← Machine.exact_waveletAnalysis] at hexact
  cases hd : decompositionLevelW sig.length (wt.dec_hi.map (fun t => -1 * t)).length j2 with
  | error e =>
    unfold waveletAnalysis at h
    simp only [hd] at h
    cases h
  | ok lw =>
    obtain ⟨ml, warned⟩ := lw
    rcases EvSt.leadLoop (R := R) { high := wt.dec_hi.map (fun t => -1 * t), low := wt.dec_lo, normalization := nm, gamint := g } (p := .num e) (Or.inr ⟨e, rfl, he⟩)
      hR hnm ml.toNat 1 ml (fun _ => sig) (fun _ => { coefs := MRQ.empty .coef g, leaders := MRQ.empty (checkFormalism (.num e)) g, sans_voisin := [] })
      (EvA.const hs) ⟨EvM.empty _ _, EvM.empty _ _, ⟨0, fun _ _ _ => Fl.fin 0, Eventually.of_forall fun _ => rfl, fun _ _ =>
        ⟨EvE.const 0, Eventually.of_forall fun _ => Or.inr ⟨0, le_rfl, rfl⟩⟩⟩⟩ with ⟨er, her⟩ | ⟨st, ml', ⟨hc, hl, -⟩, hev⟩
    · have hw0 : Machine.exact.waveletAnalysis sig (.num e) wt j1 j2 g nm weighted = .error er := by
        have := pure_le_Lmach her
        unfold Machine.waveletAnalysis
        simp only [hd]
        rw [show Machine.exact.leadLoop _ _ _ _ _ _ _ = _ from this]
      rw [hexact] at hw0
      cases hw0
    · obtain ⟨fc, hfc, hfe, -⟩ := hc.atExact
      obtain ⟨fl, hfl, hfle, -⟩ := hl.atExact
      have hw : ∀ᶠ M in Lmach, M.waveletAnalysis sig (.num e) wt j1 j2 g nm weighted =
          match M.correctLeaders (fc.at M) (fl.at M) e j1 (j2Eff ml' j2) weighted ml' with
          | .error e => .error e
          | .ok (leaders, eta) => .ok { wt_coefs := fc.at M, wt_leaders := some leaders, j2_eff := j2Eff ml' j2, eta_p := some eta, warned := warned } := by
        filter_upwards [hev, hfe, hfle] with M m1 m2 m3
        unfold Machine.waveletAnalysis
        simp only [hd, m1, m2, m3]
        rfl
      have hw0 : Machine.exact.waveletAnalysis sig (.num e) wt j1 j2 g nm weighted = _ := pure_le_Lmach hw
      rw [hexact] at hw0
      cases hcl : Machine.exact.correctLeaders (fc.at Machine.exact) (fl.at Machine.exact) e j1 (j2Eff ml' j2) weighted ml' with
      | error er => rw [hcl] at hw0; cases hw0
      | ok x =>
        obtain ⟨l, eta⟩ := x
        rw [hcl] at hw0
        obtain ⟨wc, wl, wj, we, ww⟩ := w
        cases hw0
        obtain ⟨J, Jc, hJc, hj2, hreg, -⟩ := C03_regular h
        dsimp only at h12 hj2 hreg h0 ⊢
        obtain ⟨j2', hj2'⟩ := Int.eq_ofNat_of_zero_le (show 0 ≤ j2Eff ml' j2 by omega)
        have hjj : j1 < j2' := by rw [hj2'] at h12; exact_mod_cast h12
        have hj2J : j2' ≤ J := by rw [hj2'] at hj2; exact_mod_cast hj2
        have hj2c : j2' ≤ Jc := by rcases hJc with rfl | rfl <;> omega
        have hgood : fc.Good Jc := FMrq.good hfc hreg (rows_ne_nil hR h _ (Or.inl rfl)) (cols_not_nan h _ (Or.inl rfl)) h0
        rw [hj2'] at hcl hw
        obtain ⟨fl', η, k1, k2, k3, k4⟩ := ev_correct hgood hfl he h1 hjj hj2c weighted ml' hcl
        refine ⟨fc, fl', η, hfc, k1, rfl, by rw [k2], ?_, ?_⟩
        · intro eta' heta'; cases heta'; exact k3
        · filter_upwards [hw, k4] with M m1 m2
          rw [m1, m2, hj2']

/-- The coefficients under a p-leader exist. -/
theorem nbhd_defined {sig : Arr R} {e : Expo} {wt : Wavelet} {j1 : ℤ} {j2 : Option ℝ} {g nm : ℝ} {weighted : Bool} {w : WT R}
    (h : waveletAnalysis sig (.num e) wt j1 j2 g nm weighted = .ok w) {l : MRQ R} (hl : w.wt_leaders = some l) {j k : ℕ} {r : Fin R} {v : Fl}
    (hv : l.val? j k r = some v) {j' k' : ℕ} (hn : InNbhd j k j' k') : ∃ x, w.wt_coefs.val? j' k' r = some x := by
  obtain ⟨he2, ml, K, eta, h1, hK, -, -, -, hw⟩ := wa_num_inv h
  have hkc : K ≤ coefScales (wparams wt g nm) sig ml.toNat K := by
    rcases coefScales_cases (wparams wt g nm) sig ml.toNat K with h | h <;> omega
  have hc : w.wt_coefs = scalesUpTo .coef g (coefSeq (wparams wt g nm) sig)
      (coefScales (wparams wt g nm) sig ml.toNat K) := by rw [hw]
  have hv' : (scalesUpTo .pleader g (corrSeq eta e.val (leadSeq (wparams wt g nm) (.num e) sig)) K).val? j k r = some v := by
    rw [hw] at hl
    cases hl
    exact hv
  have hlen : ∀ s, (corrSeq eta e.val (leadSeq (wparams wt g nm) (.num e) sig) s).length = sig.length / 2 ^ s - 2 := by
    intro s; simp [corrSeq, leadSeq_length]
  rw [scalesUpTo_val, hlen] at hv'
  split at hv'
  · rename_i hjk
    obtain ⟨hj1, hjK, hk⟩ := hjk
    have hlt : k' < sig.length / 2 ^ j' := hn.lt_length (by omega)
    refine ⟨ent (coefSeq (wparams wt g nm) sig j') k' r, ?_⟩
    rw [hc, scalesUpTo_val, coefSeq_length _ _ _ hn.1, if_pos ⟨hn.1, by have := hn.2.1; omega, hlt⟩]
  · cases hv'

/-- C123: with `p_exp = 2` and positive eta estimates, if all coefficients are NaN or non-zero numbers, so are the p-leaders. -/
theorem C123_pleaders_nonzero {sig : Arr R} {e : Expo} {wt : Wavelet} {j1 : ℤ} {j2 : Option ℝ} {g nm : ℝ} {weighted : Bool} {w : WT R}
    (h : waveletAnalysis sig (.num e) wt j1 j2 g nm weighted = .ok w) (h0 : NoZeros w.wt_coefs)
    (hfin : ∀ s k r x, w.wt_coefs.val? s k r = some x → x = Fl.nan ∨ ∃ t : ℝ, x = Fl.fin t)
    (heta : ∀ eta, w.eta_p = some eta → ∀ r, ∃ b : ℝ, 0 < b ∧ eta r = Fl.fin b) {l : MRQ R} (hl : w.wt_leaders = some l) : NoZeros l := by
  obtain ⟨l', eta, hl', he, hv⟩ := C17_pleaders h
  rw [hl] at hl'; cases hl'
  intro j k r hval
  obtain ⟨b, hb, hbe⟩ := heta eta he r
  obtain ⟨hnan, hval2⟩ := hv j k r _ b hval hbe hb
  have hj : 1 ≤ j := by
    by_contra hj0
    obtain rfl : j = 0 := by omega
    unfold MRQ.val? at hval
    obtain ⟨a, ha, -⟩ := Option.bind_eq_some_iff.1 hval
    obtain ⟨K, hreg, -⟩ := pleader_regular h hl (by
      intro eta' he' r'; obtain ⟨b', -, hb'⟩ := heta eta' he' r'; rw [hb']; intro hc; cases hc)
    have := List.mem_map_of_mem (f := Prod.fst) (mem_of_get? ha)
    rw [hreg.1] at this
    obtain ⟨i, -, hi⟩ := List.mem_map.1 this
    push_cast at hi
    omega
  by_cases hall : ∀ j' k', InNbhd j k j' k' → w.wt_coefs.val? j' k' r = some Fl.nan
  · have := hnan hall
    cases this
  · push Not at hall
    obtain ⟨j0, k0, hn0, hne0⟩ := hall
    have hd : ∀ j' k', ∃ d : ℝ, InNbhd j k j' k' → w.wt_coefs.val? j' k' r = some (Fl.fin d) ∧ d ≠ 0 ∨ w.wt_coefs.val? j' k' r = some Fl.nan ∧ d = 0 := by
      intro j' k'
      by_cases hn : InNbhd j k j' k'
      · obtain ⟨x, hx⟩ := nbhd_defined h hl hval hn
        rcases hfin _ _ _ _ hx with rfl | ⟨t, rfl⟩
        · exact ⟨0, fun _ => Or.inr ⟨hx, rfl⟩⟩
        · exact ⟨t, fun _ => Or.inl ⟨hx, by rintro rfl; exact h0 _ _ _ hx⟩⟩
      · exact ⟨0, fun hn' => absurd hn' hn⟩
    choose d hd using hd
    have hv0 := hval2 d (fun j' k' hn => by
      rcases hd j' k' hn with h | h
      · exact Or.inl h.1
      · exact Or.inr h) ⟨j0, k0, hn0, hne0⟩
    rw [Fl.fin_inj] at hv0
    have hpos : 0 < nbhdEnergy d j k := by
      have h00 : d j0 k0 ≠ 0 := by
        rcases hd j0 k0 hn0 with h | h
        · exact h.2
        · exact absurd h.1 hne0
      obtain ⟨m1, m2, m3, m4⟩ := hn0
      unfold nbhdEnergy
      refine Finset.sum_pos' (fun _ _ => Finset.sum_nonneg fun _ _ => by positivity) ⟨j0, Finset.mem_Icc.2 ⟨m1, m2⟩,
        Finset.sum_pos' (fun _ _ => by positivity) ⟨k0, Finset.mem_Ico.2 ⟨?_, ?_⟩, by positivity⟩⟩
      · exact (Nat.le_div_iff_mul_le (by positivity)).1 m3
      · exact (Nat.div_lt_iff_lt_mul (by positivity)).1 (by omega)
    have hc : 0 < pCorrection b 2 j := by
      unfold pCorrection
      have a1 : 0 < 1 - (2:ℝ) ^ (-b) := one_sub_pos hb
      have a2 : 0 < 1 - (2:ℝ) ^ (-((j : ℝ) * b)) := one_sub_pos (mul_pos (by exact_mod_cast hj) hb)
      positivity
    have : 0 < Real.sqrt ((2:ℝ) ^ (-(j : ℝ)) * nbhdEnergy d j k) * pCorrection b 2 j := by
      have : 0 < (2:ℝ) ^ (-(j : ℝ)) * nbhdEnergy d j k := by positivity
      positivity
    linarith

/-- **C123 for p-leaders** (`p_exp = 2`).  Let `mf_analysis_full` be called on a signal without infinities, let the wavelet analysis return in exact
arithmetic, with at least two scales to analyse, and let no wavelet coefficient be 0.  For every `ε` there is `u0 > 0` such that on every machine whose
operations have a relative error of at most `u0`, the call returns, and all the estimates, from coefficients and from p-leaders, are within `ε` of the exact
ones. -/
theorem C123_pleaders {sig : Arr R} (hs : NoInf sig) (hR : R ≠ 0) {e : Expo} (he : e.val = 2) {wt : Wavelet} {j1 : ℕ}
    {j2 : Option ℝ} {g nm : ℝ} (hnm : nm ≠ 0) {weighted : Bool} {w : WT R} (h : waveletAnalysis sig (.num e) wt j1 j2 g nm weighted = .ok w)
    (h1 : 1 ≤ j1) (h12 : (j1 : ℤ) < w.j2_eff) (h0 : NoZeros w.wt_coefs) {q : List ℝ} (hq : (2:ℝ) ∈ q) (n : ℕ) :
    ∃ d, mfAnalysisFull sig j1 j2 nm g weighted wt (.num e) (some (.ndarray q)) n = .ok d ∧ ∀ ε : ℝ, 0 < ε → ∃ u0 : ℝ, 0 < u0 ∧
      ∀ M : Machine, M.u ≤ u0 →
        ∃ d', M.mfAnalysisFull sig j1 j2 nm g weighted wt (.num e) (some (.ndarray q)) n = .ok d' ∧
          (∀ r, EstimatesClose ε q.length n r d.dwt d'.dwt) ∧
          ∃ v v', d.lwt = some v ∧ d'.lwt = some v' ∧ ∀ r, EstimatesClose ε q.length n r v v' := by
  obtain ⟨J, Jc, hJc, hj2, hc, -⟩ := C03_regular h
  obtain ⟨fc, fl, η, hfc, hfl, efc, hL0, heta, hwa⟩ := ev_wa_num hs hR he hnm h h1 h12 h0
  obtain ⟨l, eta, hl, he2, -, -, hcnt⟩ := C04_pleaders h
  have hbb := heta eta he2
  have hl0 : NoZeros l := by
    refine C123_pleaders_nonzero h h0 ?_ (fun eta' he' r => by obtain ⟨b, c1, -, c2⟩ := heta eta' he' r; exact ⟨b, c1, c2⟩) hl
    intro s k r x hx
    rw [← efc] at hx
    unfold MRQ.val? at hx
    obtain ⟨a, ha, ha2⟩ := Option.bind_eq_some_iff.1 hx
    obtain ⟨row, hrow, hr⟩ := Option.map_eq_some_iff.1 ha2
    obtain ⟨p0, hp0, e0⟩ := List.mem_map.1 (mem_of_get? ha)
    refine cvArr_noInf (hfc p0 hp0) Machine.exact r x ?_
    have e1 : p0.2.at Machine.exact = a := (Prod.mk.inj e0).2
    rw [e1]
    exact List.mem_map.2 ⟨row, List.mem_of_getElem? hrow, hr⟩
  have hnn : ∀ r, eta r ≠ Fl.nan := by intro r hr; obtain ⟨b, -, -, hb⟩ := hbb r; rw [hr] at hb; cases hb
  obtain ⟨K, hreg, hjK⟩ := pleader_regular h hl (by intro eta' he' r; rw [he2] at he'; cases he'; exact hnn r)
  have hcol3 : ∀ p ∈ l.values, ∀ r : Fin R, 3 ≤ countNotNaN (col p.2 r) := by
    intro p hp r
    obtain ⟨nn, a1, a2, a3⟩ := hcnt p hp
    obtain ⟨b, hb0, -, hb⟩ := hbb r
    have := (a3 r).1 ⟨hnn r, by rw [hb]; intro hc; exact hb0.ne' ((Fl.fin_inj _ _).1 hc), by rw [hb]; intro hc; cases hc⟩
    rw [← this]; exact a2 r
  have hrow : ∀ p ∈ l.values, p.2 ≠ [] := by
    intro p hp hnil
    have := hcol3 p hp ⟨0, Nat.pos_of_ne_zero hR⟩
    rw [hnil] at this
    simp [col, countNotNaN, dropNaN] at this
  have hcol : ∀ p ∈ l.values, ∀ r : Fin R, ∃ x ∈ col p.2 r, x ≠ Fl.nan := by
    intro p hp r
    have := hcol3 p hp r
    unfold countNotNaN at this
    obtain ⟨x, hx⟩ := List.exists_mem_of_length_pos (show 0 < (dropNaN (col p.2 r)).length by omega)
    rw [dropNaN, List.mem_filter] at hx
    exact ⟨x, hx.1, by rintro rfl; simp at hx⟩
  obtain ⟨j2', hj2'⟩ := Int.eq_ofNat_of_zero_le (show 0 ≤ w.j2_eff by omega)
  have hjj : j1 < j2' := by rw [hj2'] at h12; exact_mod_cast h12
  have hj2J : j2' ≤ J := by rw [hj2'] at hj2; exact_mod_cast hj2
  have hj2c : j2' ≤ Jc := by rcases hJc with rfl | rfl <;> omega
  have hj2K : j2' ≤ K := by rw [hj2'] at hjK; exact_mod_cast hjK
  have hnq : normQ (some (.ndarray q)) = q := rfl
  have hrc := rows_ne_nil hR h _ (Or.inl rfl)
  have hcc := cols_not_nan h _ (Or.inl rfl)
  obtain ⟨vc, hvc, -⟩ := bundle_total hc (j1 := (j1 : ℤ)) (j2 := (j2' : ℤ)) (by exact_mod_cast h1) (by exact_mod_cast hjj.le) (by exact_mod_cast hj2c) hrc weighted n q hq
  obtain ⟨vl, hvl, -⟩ := bundle_total hreg (j1 := (j1 : ℤ)) (j2 := (j2' : ℤ)) (by exact_mod_cast h1) (by exact_mod_cast hjj.le) (by exact_mod_cast hj2K) hrow weighted n q hq
  refine ⟨⟨vc, some vl⟩, ?_, fun ε hε => eventually_machine ?_⟩
  · unfold mfAnalysisFull
    rw [h]
    simp only
    rw [C47_bundle, hl, hj2', hnq]
    exact ⟨hvc, vl, rfl, hvl⟩
  · rw [hL0] at hl
    cases hl
    rw [← efc] at hvc hc hrc hcc
    have Ec := FMrq.estimates hfc hc hrc hcc h1 hjj hj2c weighted hq n hvc hε
    have El := FMrq.estimates hfl hreg hrow hcol h1 hjj hj2K weighted hq n hvl hε
    filter_upwards [hwa, Ec, El] with M hM ⟨v', hv', hcl⟩ ⟨v'', hv'', hcl'⟩
    refine ⟨{ dwt := v', lwt := some v'' }, ?_, ?_, _, _, rfl, rfl, hcl' hl0⟩
    · unfold Machine.mfAnalysisFull Machine.mfAnalysis
      rw [hM]
      simp only [hnq]
      rw [hj2', hv']
      simp only
      rw [hv'']
    · exact hcl (by rw [efc]; exact h0)

end

end MFA
