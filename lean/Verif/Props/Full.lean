import Verif.Props.FilterBank
import Verif.Props.Mfa

/-! Property C48: `mf_analysis_full` returns on every admissible input. -/

namespace MFA

open Classical

variable {R : ℕ}

/-- The four estimates of one quantity have one entry per exponent / per order (shape of the output). -/
def MFVar.Shape (v : MFVar R) (nq n : ℕ) : Prop :=
  v.structure_.zeta.length = nq ∧ v.structure_.intercept.length = nq ∧
  v.cumulants.log_cumulants.length = n ∧ v.cumulants.var_log_cumulants.length = n ∧
  v.spectrum.Dq.length = nq ∧ v.spectrum.hq.length = nq

theorem bundle_total {m : MRQ R} {J : ℕ} (hm : Regular m J) {j1 j2 : ℤ} (h1 : 1 ≤ j1) (h12 : j1 ≤ j2) (h2 : j2 ≤ J)
    (hrow : ∀ p ∈ m.values, p.2 ≠ []) (weighted : Bool) (n : ℕ) (q : List ℝ) (hq : (2:ℝ) ∈ q) :
    ∃ v, IsBundle m j1 j2 weighted n q v ∧ v.Shape q.length n := by
  refine ⟨⟨_, _, _, _⟩, ⟨hm.structFn h1 h12 h2 weighted q hq, hm.cumulants h1 h12 h2 weighted n,
    hm.spectrum h1 h12 h2 weighted (.ndarray q) ?_, _, hm.hmin h1 h12 h2 weighted true hrow, rfl⟩, ?_⟩
  · intro h
    simp only [expos_ndarray, List.map_eq_nil_iff] at h
    rw [h] at hq; cases hq
  · simp [MFVar.Shape, expos_ndarray]

theorem rows_ne_nil {sig : Arr R} {p : PExp} {wt : Wavelet} {j1 : ℤ} {j2 : Option ℝ} {g nm : ℝ} {weighted : Bool} {w : WT R}
    (hR : R ≠ 0) (h : waveletAnalysis sig p wt j1 j2 g nm weighted = .ok w) (m : MRQ R)
    (hm : m = w.wt_coefs ∨ w.wt_leaders = some m ∧ p = .inf) : ∀ q ∈ m.values, q.2 ≠ [] := by
  intro q hq hnil
  have := (C04_three_values h m hm q hq).2 ⟨0, Nat.pos_of_ne_zero hR⟩
  rw [hnil] at this
  simp [col] at this

/-- C48: without a finite `p_exp`, for a non-empty signal with at least one realisation (whatever its values) and
`normalization ≠ 0`, the wavelet transform returns; and if `1 ≤ j1 ≤ j2_eff` and 2 is among the exponents,
`mf_analysis_full` returns a result with one entry per exponent, per cumulant order and per realisation; the leader part
is present exactly when `p_exp` is infinite. -/
theorem C48_total (sig : Arr R) (p : PExp) (hp : p = .none ∨ p = .inf) (wt : Wavelet) (j1 : ℤ) (j2 : Option ℝ)
    (g nm : ℝ) (weighted : Bool) (q : Option QArg) (n : ℕ) (hR : R ≠ 0) (hN : sig ≠ []) (hnm : nm ≠ 0) :
    ∃ w, waveletAnalysis sig p wt j1 j2 g nm weighted = .ok w ∧
      (1 ≤ j1 → j1 ≤ w.j2_eff → (2:ℝ) ∈ normQ q →
        ∃ d, mfAnalysisFull sig j1 j2 nm g weighted wt p q n = .ok d ∧
          d.dwt.Shape (normQ q).length n ∧ (d.lwt.isSome ↔ p = .inf) ∧
          ∀ v, d.lwt = some v → v.Shape (normQ q).length n) := by
  obtain ⟨w, hw⟩ := C05_total sig p hp wt j1 j2 g nm weighted hR hN hnm
  refine ⟨w, hw, fun h1 h12 hq => ?_⟩
  obtain ⟨J, Jc, hJc, hj2, hc, hl⟩ := C03_regular hw
  obtain ⟨v, hv, hvs⟩ := bundle_total hc h1 h12 (by rcases hJc with rfl | rfl <;> push_cast <;> omega)
    (rows_ne_nil hR hw _ (Or.inl rfl)) weighted n (normQ q) hq
  have hcase : w.wt_leaders = none ∧ p = .none ∨ ∃ l, w.wt_leaders = some l ∧ p = .inf := by
    obtain ⟨_, _, _, -, -, -, -, -, -, -, -, hle⟩ := wa_inv hw
    rcases hp with rfl | rfl
    · exact Or.inl ⟨hle.1, rfl⟩
    · exact Or.inr ⟨_, hle.1, rfl⟩
  unfold mfAnalysisFull
  simp only [hw]
  rcases hcase with ⟨hn, rfl⟩ | ⟨l, hle, rfl⟩
  · refine ⟨⟨v, none⟩, ?_, hvs, by simp, by simp⟩
    rw [C47_bundle, hn]
    exact ⟨hv, rfl⟩
  · obtain ⟨v', hv', hvs'⟩ := bundle_total (hl l hle rfl) h1 h12 hj2
      (rows_ne_nil hR hw _ (Or.inr ⟨hle, rfl⟩)) weighted n (normQ q) hq
    refine ⟨⟨v, some v'⟩, ?_, hvs, by simp, by simpa using hvs'⟩
    rw [C47_bundle, hle]
    exact ⟨hv, v', rfl, hv'⟩

/-- C48: `2 ∈ q` is needed: otherwise `mf_analysis_full` raises IndexError (same other hypotheses). -/
theorem C48_needs_two (sig : Arr R) (p : PExp) (wt : Wavelet) (j1 : ℤ) (j2 : Option ℝ)
    (g nm : ℝ) (weighted : Bool) (q : Option QArg) (n : ℕ) (w : WT R)
    (hw : waveletAnalysis sig p wt j1 j2 g nm weighted = .ok w) (h1 : 1 ≤ j1) (h12 : j1 ≤ w.j2_eff)
    (hq : (2:ℝ) ∉ normQ q) : mfAnalysisFull sig j1 j2 nm g weighted wt p q n = .error .indexError := by
  obtain ⟨J, Jc, hJc, hj2, hc, hl⟩ := C03_regular hw
  unfold mfAnalysisFull
  simp only [hw]
  unfold mfAnalysis mfVar
  rw [hc.structFn_no2 h1 h12 (by rcases hJc with rfl | rfl <;> push_cast <;> omega) weighted _ hq]

theorem le_pyInt {k : ℤ} (hk : 0 ≤ k) {y : ℝ} (h : (k : ℝ) ≤ y) : k ≤ pyInt y := by
  have : (0:ℝ) ≤ k := by exact_mod_cast hk
  rw [pyInt, if_pos (le_trans this h), Int.le_floor]
  exact h

/-- For a finite signal and `1 ≤ j1 < L`, `j1 ≤ j2`, the scale `j1` is within the usable range. -/
theorem admissible_j2 {N : ℕ} {x : Fin R → ℤ → ℝ} (hR : R ≠ 0) {p : PExp} {wt : Wavelet} (hwt : wt.Valid)
    (hp : p = .none ∨ 4 ≤ wt.dec_hi.length) {j1 j0 : ℤ} {j2 : Option ℝ} {g nm : ℝ} {weighted : Bool} {L : ℤ}
    (hL : decompositionLevel N wt = .ok L) (h1 : 1 ≤ j1) (h1L : j1 < L) (h12 : ∀ b, j2 = some b → (j1 : ℝ) ≤ b) {w : WT R}
    (hw : waveletAnalysis (sampled N x) p wt j0 j2 g nm weighted = .ok w) : j1 ≤ w.j2_eff := by
  obtain ⟨ml, K, Kc, e1, e2, -, -, -, -, e7, -⟩ := wa_finite hwt hR hw
  rw [decompositionLevel, e1] at hL
  obtain rfl : ml = L := Except.ok.inj hL
  have hgood : ∀ i : ℕ, (i : ℤ) + 1 < ml → 3 ≤ usable N wt.dec_hi.length (1 + i) := by
    intro i hi
    apply usable_before_last hwt.pos (by omega)
    exact level_room e1 (i := 1 + i) (by omega)
  have hK : ml - 1 ≤ (K : ℤ) := by
    by_contra hc
    have hlt : K < ml.toNat := by omega
    have hg := hgood K (by omega)
    refine e2.2.2 hlt ⟨hg, fun hpn => ?_⟩
    rcases hp with rfl | hF
    · exact absurd rfl hpn
    · exact usableLeaders_ge hF (by omega) (level_room e1 (by omega)) hg
  have hfl : j1 ≤ finalLevel ml K := by
    unfold finalLevel; split <;> omega
  rw [e7]
  cases j2 with
  | none => exact hfl
  | some b =>
    apply le_pyInt (by omega)
    exact le_min (by exact_mod_cast hfl) (h12 b rfl)

theorem sampled_ne_nil_of_level {N : ℕ} (x : Fin R → ℤ → ℝ) {wt : Wavelet} {L : ℤ} (hL : decompositionLevel N wt = .ok L) :
    sampled N x ≠ [] := by
  intro h
  have h0 : N = 0 := by simpa [sampled] using h
  rw [h0, C01_empty] at hL; cases hL

/-- C48 in terms of the inputs only: for a finite signal (NaN-free, as `sampled`), a valid wavelet (of length at least 4
if leaders are wanted), `1 ≤ j1 < L` with `L` the decomposition level, `j1 ≤ j2` (or `j2 = None`), `normalization ≠ 0` and
2 among the exponents, `mf_analysis_full` returns. -/
theorem C48_admissible {N : ℕ} (x : Fin R → ℤ → ℝ) (hR : R ≠ 0) (p : PExp) (wt : Wavelet) (hwt : wt.Valid)
    (hp : p = .none ∨ p = .inf ∧ 4 ≤ wt.dec_hi.length) (j1 : ℤ) (j2 : Option ℝ) (g nm : ℝ) (hnm : nm ≠ 0)
    (weighted : Bool) (q : Option QArg) (hq : (2:ℝ) ∈ normQ q) (n : ℕ) {L : ℤ}
    (hL : decompositionLevel N wt = .ok L) (h1 : 1 ≤ j1) (h1L : j1 < L) (h12 : ∀ b, j2 = some b → (j1 : ℝ) ≤ b) :
    ∃ d, mfAnalysisFull (sampled N x) j1 j2 nm g weighted wt p q n = .ok d := by
  obtain ⟨w, hw, hfull⟩ := C48_total (sampled N x) p (hp.imp id (·.1)) wt j1 j2 g nm weighted q n hR
    (sampled_ne_nil_of_level x hL) hnm
  obtain ⟨d, hd, -⟩ := hfull h1 (admissible_j2 hR hwt (hp.imp id (·.2)) hL h1 h1L h12 hw) hq
  exact ⟨d, hd⟩

/-- The hypotheses are met: 100 samples of `t²`, a filter of length 4, leaders, `j1 = 2`, `j2 = 5/2`. -/
example : ∃ d, mfAnalysisFull (sampled 100 (fun (_ : Fin 2) (t : ℤ) => (t : ℝ) ^ 2)) 2 (some (5/2)) 1 0 true
    { dec_lo := [1, 1, 1, 1], dec_hi := [1, -1, -1, 1] } .inf (some (.pylist [.int 2, .real (-1)])) 3 = .ok d := by
  have hlev : decompositionLevel 100 { dec_lo := [1, 1, 1, 1], dec_hi := [1, -1, -1, 1] } = .ok ((4 : ℕ) : ℤ) :=
    (C01_integer 100 4 _ (by norm_num)).mpr (by norm_num)
  refine C48_admissible _ (by norm_num) _ _ ⟨rfl, by simp⟩ (Or.inr ⟨rfl, by simp⟩) _ _ _ _ (by norm_num) _ _
    (by simp [normQ, Expo.val]) _ hlev (by norm_num) (by norm_num) ?_
  rintro b hb
  cases hb; norm_num

end MFA
