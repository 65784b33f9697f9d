import Verif.Props.SignalLaws
import Verif.Props.PLeaders

/-! Property C48 for p-leaders. -/

namespace MFA

open Classical

variable {R : ℕ}

/-- C48 for p-leaders (`p_exp = 2`): on a range `1 ≤ j1 ≤ j2_eff` the eta estimate is always computed; when it is positive
(and not NaN) in every realisation, `mf_analysis_full` returns, with both a coefficient and a p-leader part of the right
shape; when it is not NaN and not positive in some realisation, `mf_analysis_full` raises TypeError. -/
theorem C48_pleaders (sig : Arr R) {e : Expo} (he : e.val = 2) (wt : Wavelet) (j1 : ℤ) (j2 : Option ℝ)
    (g nm : ℝ) (weighted : Bool) (q : Option QArg) (n : ℕ) (hR : R ≠ 0) (hN : sig ≠ []) (hnm : nm ≠ 0) :
    ∃ w, waveletAnalysis sig .inf wt j1 j2 g nm weighted = .ok w ∧
      (1 ≤ j1 → j1 ≤ w.j2_eff → (2:ℝ) ∈ normQ q →
        ∃ s z, StructFn.make w.wt_coefs (.ndarray [2]) j1 w.j2_eff weighted = .ok s ∧ s.zeta = [z] ∧
          ((∀ r, z r ≠ Fl.nan ∧ ¬ Fl.le (z r) (Fl.fin 0)) →
            ∃ d v, mfAnalysisFull sig j1 j2 nm g weighted wt (.num e) q n = .ok d ∧
              d.dwt.Shape (normQ q).length n ∧ d.lwt = some v ∧ v.Shape (normQ q).length n) ∧
          ((∀ r, z r ≠ Fl.nan) → (∃ r, Fl.le (z r) (Fl.fin 0)) →
            mfAnalysisFull sig j1 j2 nm g weighted wt (.num e) q n = .error .typeError)) := by
  obtain ⟨w, hw⟩ := C05_total sig .inf (Or.inr rfl) wt j1 j2 g nm weighted hR hN hnm
  refine ⟨w, hw, fun h1 h12 hq => ?_⟩
  obtain ⟨J, Jc, hJc, hj2, hc, -⟩ := C03_regular hw
  have hj2' : w.j2_eff ≤ Jc := by rcases hJc with rfl | rfl <;> push_cast <;> omega
  have hs := hc.structFn h1 h12 hj2' weighted [2] (by simp)
  obtain ⟨z, hz, herr, hok⟩ := (C21_eta_p he hw).2 _ hs
  refine ⟨_, z, hs, hz, fun hpos => ?_, fun hnn hle => ?_⟩
  · obtain ⟨w2, hw2, heta, hcoef, hj2e, -⟩ := hok (Or.inr fun r => (hpos r).2)
    obtain ⟨l, eta, hl, he2, hkeys, -, hcnt⟩ := C04_pleaders hw2
    rw [heta] at he2; cases he2
    obtain ⟨K, hreg, hjK⟩ := pleader_regular hw2 hl (by intro eta he r; rw [heta] at he; cases he; exact (hpos r).1)
    have hrow : ∀ p ∈ l.values, p.2 ≠ [] := by
      intro p hp hnil
      obtain ⟨nn, h1, h2, h3⟩ := hcnt p hp
      have r0 : Fin R := ⟨0, Nat.pos_of_ne_zero hR⟩
      have hnn := hreg.getNj hp
      have e1 : nn = fun r => countNotNaN (col p.2 r) := by
        have : getKey l.nj p.1 = .ok nn := by rw [getKey, h1]
        rw [hnn] at this; cases this; rfl
      have := h2 r0
      rw [e1, hnil] at this
      simp [col, countNotNaN] at this
    obtain ⟨v, hv, hvs⟩ := bundle_total hc h1 h12 hj2' (rows_ne_nil hR hw _ (Or.inl rfl)) weighted n (normQ q) hq
    obtain ⟨v', hv', hvs'⟩ := bundle_total hreg h1 (by rw [← hj2e] at h12; exact h12) hjK hrow weighted n (normQ q) hq
    refine ⟨⟨v, some v'⟩, v', ?_, hvs, rfl, hvs'⟩
    unfold mfAnalysisFull
    simp only [hw2]
    rw [C47_bundle, hl, hcoef, hj2e]
    rw [hj2e] at hv'
    exact ⟨hv, v', rfl, hv'⟩
  · unfold mfAnalysisFull
    rw [herr hnn hle]

end MFA
