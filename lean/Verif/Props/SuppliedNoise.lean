import Verif.Props.MrwChol
import Verif.Props.SimulArgs
import Verif.Props.SimulSkew

/-!
# C116: the noise the user supplies to the simulators

`mrw(..., z0=(a, b))`: `a` is the noise of the increments, `b` that of the log-volatility.
-/

namespace MFA

open Finset

noncomputable section

variable {R : ℕ}

/-- `mrw` composes `gaussian_w` (first) with `fgn` (on the stream left over). -/
theorem mrw_compose {N : ℕ} {H lam L sigma : ℝ} {method : String} {za zb : Option (CArr R)} {g : Rng} {w e : Sim R}
    (h0 : 0 ≤ H) (h1 : H ≤ 1) (hLN : L ≤ N) (hw : gaussianW R N L lam 1 method zb g = .ok w)
    (he : fgn R N H sigma none method za w.rng = .ok e) (hwlen : w.x.length = N) (helen : e.x.length = N) :
    ∃ s : Sim R, mrw R N H lam L sigma method (za, zb) g = .ok s ∧ s.rng = e.rng ∧ s.x.length = N ∧
      ∀ n < N, ∀ r, (s.x.getD n fun _ => 0) r = ∑ k ∈ range (n + 1), (e.x.getD k fun _ => 0) r *
        Real.exp ((w.x.getD k fun _ => 0) r - (∑ i ∈ range N, (w.x.getD i fun _ => 0) r) / N - lam ^ 2 / 2 * Real.log L) := by
  obtain ⟨w', hw'⟩ : ∃ w', w' = adjustMean (1 / 2) lam L w.x := ⟨_, rfl⟩
  have hw'len : w'.length = N := by rw [hw', adjustMean, List.length_map, hwlen]
  have hwalk := expWalk_eq (e := e.x) (w := w') (by rw [helen, hw'len])
  refine ⟨{ x := cumsum (List.zipWith (fun (a b : Fin R → ℝ) r => a r * Real.exp (b r)) e.x w'), warned := w.warned || e.warned, rng := e.rng }, ?_, rfl, ?_, ?_⟩
  · unfold mrw
    rw [if_neg (by simp [h0, h1]), if_neg (not_lt.mpr hLN), hw]
    simp only []
    rw [he]
    simp only []
    rw [← hw', hwalk]
  · simp [cumsum_length, helen, hw'len]
  · intro n hn r
    rw [cumsum_getD _ _ (by rw [List.length_zipWith, helen, hw'len, min_self]; exact hn)]
    refine sum_congr rfl fun k hk => ?_
    have hkN : k < N := by have : k < n + 1 := mem_range.1 hk
                           omega
    have hmean : meanRow w.x r = (∑ i ∈ range N, (w.x.getD i fun _ => 0) r) / N := by
      rw [meanRow, sum_map_eq_range w.x (fun _ => 0), hwlen]
    have he : e.x[k]? = some (e.x[k]'(by rw [helen]; exact hkN)) := List.getElem?_eq_getElem _
    have hwk : w.x[k]? = some (w.x[k]'(by rw [hwlen]; exact hkN)) := List.getElem?_eq_getElem _
    rw [← hmean]
    simp only [List.getD_eq_getElem?_getD, List.getElem?_zipWith, hw', adjustMean, List.getElem?_map, he, hwk, Option.map_some,
      Option.getD_some]
    ring_nf

/-- `gaussian_w(method='chol', z0=b)`. -/
theorem gaussianW_chol_some {N : ℕ} {L lam : ℝ} (hL : 1 < L) (hLN : L ≤ N) (hN : 2 ≤ N) (hlam : lam ≠ 0) :
    ∃ U : Matrix (Fin N) (Fin N) ℝ, ∀ (b : RArr R) (g : Rng), b.length = N → gaussianW R N L lam 1 "chol" (some (toComplex b)) g
      = .ok { x := List.ofFn fun (i : Fin N) (r : Fin R) => ∑ j : Fin N, U i j * (b.getD j fun _ => 0) r
              warned := false, rng := g } := by
  have hL0 : 0 < L := by linarith
  obtain ⟨cov, hcov⟩ : ∃ cov, cov = (List.range N).map (wCov L lam 1) := ⟨_, rfl⟩
  have hlen : cov.length = N := by simp [hcov]
  have hne : cov ≠ [] := by intro hc; rw [hc] at hlen; simp at hlen; omega
  have hA := w_posDef (dt := 1) hL0 one_pos (by simpa using hL) hlam hN
  rw [← hcov] at hA
  have heq : ∀ z g, gaussianW R N L lam 1 "chol" z g = gaussianChol cov N z g := by
    intro z g; rw [gaussianW_chol_eq hL0 one_pos (by simpa using hLN) z g, hcov]
  obtain ⟨U, -, hU⟩ := gaussianChol_some (R := R) hne hA
  clear hcov
  subst hlen
  exact ⟨U, fun b g hb => by rw [heq, hU g b hb]⟩

/-- `fgn(method='chol', z0=a)`. -/
theorem fgn_chol_some {N : ℕ} {H sigma : ℝ} (h0 : 0 < H) (h1 : H < 1) (hs : sigma ≠ 0) (hN : 2 ≤ N) {dt : Option ℝ}
    (hdt : ∀ d, dt = some d → 0 ≤ d) :
    ∃ U : Matrix (Fin N) (Fin N) ℝ, ∀ (a : RArr R) (g : Rng), a.length = N → fgn R N H sigma dt "chol" (some (toComplex a)) g
      = .ok { x := List.ofFn fun (i : Fin N) (r : Fin R) => ∑ j : Fin N, U i j * (a.getD j fun _ => 0) r
              warned := false, rng := g } := by
  have hN0 : N ≠ 0 := by omega
  have hA := fgn_posDef h0 h1 hs (fgnDt_eq (dt := dt) hN0 hdt).2 hN
  obtain ⟨cov, hcov⟩ : ∃ cov, cov = (List.range N).map (fgnCov H sigma (effStep dt N)) := ⟨_, rfl⟩
  have hlen : cov.length = N := by simp [hcov]
  have hne : cov ≠ [] := by intro hc; rw [hc] at hlen; simp at hlen; omega
  have heq : ∀ z g, fgn R N H sigma dt "chol" z g = gaussianChol cov N z g := by
    intro z g; rw [fgn_chol_eq z h0.le h1.le hN0 hdt g, hcov]
  rw [← hcov] at hA
  obtain ⟨U, -, hU⟩ := gaussianChol_some (R := R) hne hA
  clear hcov
  subst hlen
  exact ⟨U, fun b g hb => by rw [heq, hU g b hb]⟩

/-- **C116**, the roles of the two noises with `method='chol'`: `z0[0]` drives the increments exactly as in `fgn`, `z0[1]` the
log-volatility exactly as in `gaussian_w`; with both supplied the result does not depend on the random generator, which is left as
it was. -/
theorem C116_chol_roles {N : ℕ} {H lam L sigma : ℝ} (h0 : 0 < H) (h1 : H < 1) (hs : sigma ≠ 0) (hlam : lam ≠ 0) (hL : 1 < L)
    (hLN : L ≤ N) (hN : 2 ≤ N) (a b : RArr R) (ha : a.length = N) (hb : b.length = N) :
    ∃ x e w : RArr R, ∀ g : Rng,
      (∃ s, mrw R N H lam L sigma "chol" (some (toComplex a), some (toComplex b)) g = .ok s ∧ s.x = x ∧ s.rng = g) ∧
      (∃ s, fgn R N H sigma none "chol" (some (toComplex a)) g = .ok s ∧ s.x = e ∧ s.rng = g) ∧
      (∃ s, gaussianW R N L lam 1 "chol" (some (toComplex b)) g = .ok s ∧ s.x = w ∧ s.rng = g) ∧
      ∀ n < N, ∀ r, (x.getD n fun _ => 0) r = ∑ k ∈ range (n + 1), (e.getD k fun _ => 0) r *
        Real.exp ((w.getD k fun _ => 0) r - (∑ i ∈ range N, (w.getD i fun _ => 0) r) / N - lam ^ 2 / 2 * Real.log L) := by
  obtain ⟨U, hU⟩ := gaussianW_chol_some (R := R) hL hLN hN hlam
  obtain ⟨V, hV⟩ := fgn_chol_some (R := R) h0 h1 hs hN (dt := none) (by simp)
  have key := fun g => mrw_compose (za := some (toComplex a)) h0.le h1.le hLN (hU b g hb) (hV a g ha) (by simp) (by simp)
  obtain ⟨s0, hs0, -, hlen0, hx0⟩ := key fun _ => 0
  refine ⟨s0.x, _, _, fun g => ⟨?_, ⟨_, hV a g ha, rfl, rfl⟩, ⟨_, hU b g hb, rfl, rfl⟩, hx0⟩⟩
  obtain ⟨s, hs, hr, hlen, hx⟩ := key g
  refine ⟨s, hs, ?_, hr⟩
  apply List.ext_getElem (by rw [hlen, hlen0])
  intro n hn hn'
  funext r
  have e1 := hx n (by rw [← hlen]; exact hn) r
  have e2 := hx0 n (by rw [← hlen]; exact hn) r
  have g1 : s.x[n]? = some (s.x[n]'hn) := List.getElem?_eq_getElem _
  have g2 : s0.x[n]? = some (s0.x[n]'hn') := List.getElem?_eq_getElem _
  simp only [List.getD_eq_getElem?_getD, g1, g2, Option.getD_some] at e1 e2
  rw [e1, e2]

/-- `gaussian_w(method='cme', z0=b)` for a noise of the right shape. -/
theorem gaussianW_cme_some {N : ℕ} {L lam : ℝ} (hL : 0 < L) (hLN : L ≤ N) (hN : 2 ≤ N) (b : CArr R) (hb : b.length = 2 * N - 2)
    (g : Rng) : gaussianW R N L lam 1 "cme" (some b) g = .ok
      { x := (List.range N).map fun (n : ℕ) (r : Fin R) => ∑ k ∈ range (2 * N - 2),
          ((b.getD k fun _ => 0) r * cmeCoef ((List.range N).map (wCov L lam 1)) n k).re
        warned := cmeWarns ((List.range N).map (wCov L lam 1)), rng := g } := by
  obtain ⟨cov, hcov⟩ : ∃ cov, cov = (List.range N).map (wCov L lam 1) := ⟨_, rfl⟩
  have hlen : cov.length = N := by simp [hcov]
  have hne : cov ≠ [] := by intro hc; rw [hc] at hlen; simp at hlen; omega
  rw [gaussianW_cme_eq hL one_pos (by simpa using hLN) _ g, ← hcov]
  clear hcov
  subst hlen
  unfold gaussianCme
  rw [if_neg hne, if_neg (by omega)]
  simp only []
  rw [cmeFrom_eq cov hN b hb]

/-- **C116**, the default method: a supplied `z0[1]` of the right shape `(2N-2, R)` replaces the draws of the log-volatility, which
then does not depend on the random generator, and the increments are the noise that `fgn` draws from the untouched generator
(whatever `z0[0]`). -/
theorem C116_cme_roles {N : ℕ} {H lam L sigma : ℝ} (h0 : 0 ≤ H) (h1 : H ≤ 1) (hL : 0 < L) (hLN : L ≤ N) (hN : 2 ≤ N)
    (za : Option (CArr R)) (b : CArr R) (hb : b.length = 2 * N - 2) :
    ∃ w : RArr R, ∀ g : Rng, ∃ s e : Sim R,
      mrw R N H lam L sigma "cme" (za, some b) g = .ok s ∧ fgn R N H sigma none "cme" none g = .ok e ∧ s.rng = e.rng ∧
      (∃ t, gaussianW R N L lam 1 "cme" (some b) g = .ok t ∧ t.x = w ∧ t.rng = g) ∧ s.x.length = N ∧
      ∀ n < N, ∀ r, (s.x.getD n fun _ => 0) r = ∑ k ∈ range (n + 1), (e.x.getD k fun _ => 0) r *
        Real.exp ((w.getD k fun _ => 0) r - (∑ i ∈ range N, (w.getD i fun _ => 0) r) / N - lam ^ 2 / 2 * Real.log L) := by
  refine ⟨(List.range N).map fun (n : ℕ) (r : Fin R) => ∑ k ∈ range (2 * N - 2),
    ((b.getD k fun _ => 0) r * cmeCoef ((List.range N).map (wCov L lam 1)) n k).re, fun g => ?_⟩
  have hw := gaussianW_cme_some (R := R) (lam := lam) hL hLN hN b hb g
  obtain ⟨e, he, helen, -⟩ := fgn_cme_ok (R := R) (sigma := sigma) (dt := none) none h0 h1 hN (by simp) g
  have he' : fgn R N H sigma none "cme" za g = .ok e := by
    rw [← he]; exact (C74_cme_ignores_z0 N H lam L sigma none za none none g).1
  obtain ⟨s, hs, hr, hlen, hx⟩ := mrw_compose h0 h1 hLN hw he' (by simp) helen
  exact ⟨s, e, hs, he, hr, ⟨_, hw, rfl, rfl⟩, hlen, hx⟩

/-- **C116**: without log-volatility noise (`z0[1]` all zero) `mrw` is `L ** (-lam**2/2)` times the fractional Brownian motion that
`fbm` returns with the same generator. -/
theorem C116_no_volatility {N : ℕ} {H lam L sigma : ℝ} (h0 : 0 ≤ H) (h1 : H ≤ 1) (hL : 0 < L) (hLN : L ≤ N) (hN : 2 ≤ N)
    (za : Option (CArr R)) (g : Rng) :
    ∃ s f : Sim R, mrw R N H lam L sigma "cme" (za, some (List.replicate (2 * N - 2) fun _ => 0)) g = .ok s ∧
      fbm R N H sigma none "cme" none g = .ok f ∧
      ∀ n < N, ∀ r, (s.x.getD n fun _ => 0) r = L ^ (-lam ^ 2 / 2) * (f.x.getD n fun _ => 0) r := by
  have hw := gaussianW_cme_some (R := R) (lam := lam) hL hLN hN (List.replicate (2 * N - 2) fun _ => 0) (by simp) g
  obtain ⟨e, he, helen, -⟩ := fgn_cme_ok (R := R) (sigma := sigma) (dt := none) none h0 h1 hN (by simp) g
  have he' : fgn R N H sigma none "cme" za g = .ok e := by
    rw [← he]; exact (C74_cme_ignores_z0 N H lam L sigma none za none none g).1
  obtain ⟨s, hs, -, -, hx⟩ := mrw_compose h0 h1 hLN hw he' (by simp) helen
  refine ⟨s, { e with x := cumsum e.x }, hs, by unfold fbm; rw [he], fun n hn r => ?_⟩
  rw [hx n hn r, cumsum_getD _ _ (by rw [helen]; exact hn), mul_sum]
  have hz : ∀ k : ℕ, ((((List.range N).map fun (n : ℕ) (r : Fin R) => ∑ k ∈ range (2 * N - 2),
      (((List.replicate (2 * N - 2) fun _ => (0:ℂ)).getD k fun _ => 0) r * cmeCoef ((List.range N).map (wCov L lam 1)) n k).re).getD k
        fun _ => 0) r) = 0 := by
    intro k
    have hr : ∀ i : ℕ, (List.replicate (2 * N - 2) fun (_ : Fin R) => (0:ℂ)).getD i (fun _ => 0) = fun _ => 0 := by
      intro i
      by_cases hi : i < 2 * N - 2
      · simp [List.getD_eq_getElem?_getD, List.getElem?_replicate, hi]
      · simp [List.getD_eq_getElem?_getD, List.getElem?_replicate, hi]
    by_cases hk : k < N
    · rw [range_map_getD _ _ _ _ hk]
      refine sum_eq_zero fun i _ => ?_
      rw [hr]; simp
    · simp [List.getD_eq_getElem?_getD, hk]
  refine sum_congr rfl fun k _ => ?_
  simp only [hz]
  rw [Real.rpow_def_of_pos hL, mul_comm]
  congr 2
  simp
  ring

/-- **C116**, replay: supplying as `z0` the very values that the call would draw changes nothing but the state of the generator
(for `fgn(method='chol')` and for `gaussian_w` with both methods). -/
theorem C116_replay (N : ℕ) (H sigma L lam d : ℝ) (dt : Option ℝ) (g : Rng) :
    (∀ s, fgn R N H sigma dt "chol" none g = .ok s →
      ∃ s', fgn R N H sigma dt "chol" (some (toComplex (randn R N g))) g = .ok s' ∧ s'.x = s.x ∧ s'.rng = g) ∧
    (∀ s, gaussianW R N L lam d "chol" none g = .ok s →
      ∃ s', gaussianW R N L lam d "chol" (some (toComplex (randn R N g))) g = .ok s' ∧ s'.x = s.x ∧ s'.rng = g) ∧
    (∀ s, gaussianW R N L lam d "cme" none g = .ok s →
      ∃ s', gaussianW R N L lam d "cme" (some (complexNoise R N g)) g = .ok s' ∧ s'.x = s.x ∧ s'.rng = g) := by
  have hre : ∀ z : RArr R, ((toComplex z).map fun row r => (row r).re) = z := by
    intro z
    rw [toComplex, List.map_map]
    conv_rhs => rw [← List.map_id z]
    refine List.map_congr_left fun row _ => ?_
    funext r; simp
  have hch : ∀ (cov : List ℝ) (s : Sim R), gaussianChol cov N none g = .ok s →
      ∃ s', gaussianChol cov N (some (toComplex (randn R N g))) g = .ok s' ∧ s'.x = s.x ∧ s'.rng = g := by
    intro cov s hs
    unfold gaussianChol at hs ⊢
    by_cases hc : cov = []
    · rw [if_pos (Or.inl hc)] at hs; cases hs
    · rw [if_neg (by simp [hc])] at hs
      rw [if_neg]
      · cases hsp : spCholesky (toeplitz cov) with
        | error e => rw [hsp] at hs; cases hs
        | ok U =>
          rw [hsp] at hs
          simp only [hre] at hs ⊢
          by_cases hl : (randn R N g).length ≠ cov.length
          · rw [if_pos hl] at hs; cases hs
          · rw [if_neg hl] at hs
            rw [if_neg hl]
            cases hs
            exact ⟨_, rfl, rfl, rfl⟩
      · rintro (h | ⟨z', h, row, hrow, r, hr⟩)
        · exact hc h
        · cases h
          simp only [toComplex, List.mem_map] at hrow
          obtain ⟨row', -, rfl⟩ := hrow
          simp at hr
  refine ⟨fun s hs => ?_, fun s hs => ?_, fun s hs => ?_⟩
  · unfold fgn at hs ⊢
    split at hs
    · cases hs
    · rename_i hH
      rw [if_neg hH]
      revert hs
      rcases fgnDt dt N with e | t
      · intro hs; cases hs
      · intro hs
        simp only [reduceCtorEq, if_false, if_true, String.reduceEq] at hs ⊢
        exact hch _ s hs
  · unfold gaussianW at hs ⊢
    split at hs
    · cases hs
    · rename_i h1
      rw [if_neg h1]
      split at hs
      · cases hs
      · rename_i h2
        rw [if_neg h2]
        simp only [String.reduceEq, if_false, if_true] at hs ⊢
        exact hch _ s hs
  · unfold gaussianW at hs ⊢
    split at hs
    · cases hs
    · rename_i h1
      rw [if_neg h1]
      split at hs
      · cases hs
      · rename_i h2
        rw [if_neg h2]
        simp only [if_true] at hs ⊢
        unfold gaussianCme at hs ⊢
        split at hs
        · cases hs
        · rename_i h3
          rw [if_neg h3]
          split at hs
          · cases hs
          · rename_i h4
            rw [if_neg h4]
            simp only [] at hs ⊢
            revert hs
            rcases cmeFrom (List.map (wCov L lam d) (List.range N)) N (complexNoise R N g) with e | x
            · intro hs; cases hs
            · intro hs; cases hs; exact ⟨_, rfl, rfl, rfl⟩

/-- **C116**, shapes: a real noise with a number of rows other than `N` (`method='chol'`), or a noise for `gaussian_w` with neither
`2N-2` rows nor one (`method='cme'`), raises ValueError. -/
theorem C116_shapes {N : ℕ} {H lam L sigma : ℝ} (h0 : 0 < H) (h1 : H < 1) (hs : sigma ≠ 0) (hlam : lam ≠ 0) (hL : 1 < L)
    (hLN : L ≤ N) (hN : 2 ≤ N) (g : Rng) :
    (∀ a : RArr R, a.length ≠ N → fgn R N H sigma none "chol" (some (toComplex a)) g = .error .valueError) ∧
    (∀ (b : RArr R) (za : Option (CArr R)), b.length ≠ N →
      mrw R N H lam L sigma "chol" (za, some (toComplex b)) g = .error .valueError) ∧
    (∀ (a b : RArr R), a.length ≠ N → b.length = N →
      mrw R N H lam L sigma "chol" (some (toComplex a), some (toComplex b)) g = .error .valueError) ∧
    (∀ (b : CArr R) (za : Option (CArr R)), b.length ≠ 2 * N - 2 → b.length ≠ 1 → 
      mrw R N H lam L sigma "cme" (za, some b) g = .error .valueError) := by
  have hN0 : N ≠ 0 := by omega
  have hL0 : 0 < L := by linarith
  have hch : ∀ (cov : List ℝ) (z : RArr R) (g : Rng), cov.length = N → (toeplitz cov).PosDef → z.length ≠ N →
      gaussianChol cov N (some (toComplex z)) g = .error .valueError := by
    intro cov z g hlen hA hz
    have hne : cov ≠ [] := by intro hc; rw [hc] at hlen; simp at hlen; omega
    obtain ⟨U, hU, -⟩ := spCholesky_ok hA
    unfold gaussianChol
    rw [if_neg, hU]
    · simp only []
      rw [if_pos (by rw [List.length_map, toComplex, List.length_map, hlen]; exact hz)]
    · rintro (h | ⟨z', h, row, hrow, r, hr⟩)
      · exact hne h
      · cases h
        simp only [toComplex, List.mem_map] at hrow
        obtain ⟨row', -, rfl⟩ := hrow
        simp at hr
  have hf : ∀ (g : Rng) (a : RArr R), a.length ≠ N → fgn R N H sigma none "chol" (some (toComplex a)) g = .error .valueError := by
    intro g a ha
    rw [fgn_chol_eq _ h0.le h1.le hN0 (by simp) g]
    exact hch _ a g (by simp) (fgn_posDef h0 h1 hs (fgnDt_eq hN0 (by simp)).2 hN) ha
  refine ⟨hf g, fun b za hb => ?_, fun a b ha hb => ?_, fun b za hb hb1 => ?_⟩
  · unfold mrw
    rw [if_neg (by simp [h0.le, h1.le]), if_neg (not_lt.mpr hLN)]
    simp only []
    rw [gaussianW_chol_eq hL0 one_pos (by simpa using hLN), hch _ b g (by simp) (w_posDef hL0 one_pos (by simpa using hL) hlam hN) hb]
  · obtain ⟨U, hU⟩ := gaussianW_chol_some (R := R) hL hLN hN hlam
    unfold mrw
    rw [if_neg (by simp [h0.le, h1.le]), if_neg (not_lt.mpr hLN)]
    simp only []
    rw [hU b g hb]
    simp only []
    rw [hf g a ha]
  · obtain ⟨cov, hcov⟩ : ∃ cov, cov = (List.range N).map (wCov L lam 1) := ⟨_, rfl⟩
    have hlen : cov.length = N := by simp [hcov]
    have hne : cov ≠ [] := by intro hc; rw [hc] at hlen; simp at hlen; omega
    unfold mrw
    rw [if_neg (by simp [h0.le, h1.le]), if_neg (not_lt.mpr hLN)]
    simp only []
    rw [gaussianW_cme_eq hL0 one_pos (by simpa using hLN) _ g, ← hcov]
    have : gaussianCme cov N (some b) g = .error .valueError := by
      unfold gaussianCme
      rw [if_neg hne, if_neg (by omega)]
      simp only []
      have : cmeFrom cov N b = .error .valueError := by
        have hl := embedSpectrum_length cov (by omega)
        unfold cmeFrom
        by_cases h1 : (embedSpectrum cov).length = 1
        · omega
        · rw [bcast_error _ _ (by rw [hl, hlen]; exact hb) hb1 h1]
      rw [this]
    rw [this]

/-- Concrete calls meeting the hypotheses of C116. -/
example (g : Rng) : (∃ s, mrw 1 3 (1 / 2) (1 / 5) 2 1 "chol"
      (some (toComplex [fun _ => 1, fun _ => -2, fun _ => 3]), some (toComplex [fun _ => 4, fun _ => 0, fun _ => 1])) g = .ok s ∧
        s.rng = g) ∧
    mrw 1 3 (1 / 2) (1 / 5) 2 1 "cme" (none, some [fun _ => 1, fun _ => 2]) g = .error .valueError := by
  constructor
  · obtain ⟨x, e, w, h⟩ := C116_chol_roles (R := 1) (N := 3) (H := 1 / 2) (lam := 1 / 5) (L := 2) (sigma := 1) (by norm_num)
      (by norm_num) (by norm_num) (by norm_num) (by norm_num) (by norm_num) (by norm_num) [fun _ => 1, fun _ => -2, fun _ => 3]
      [fun _ => 4, fun _ => 0, fun _ => 1] rfl rfl
    obtain ⟨s, hs, -, hr⟩ := (h g).1
    exact ⟨s, hs, hr⟩
  · exact (C116_shapes (R := 1) (N := 3) (H := 1 / 2) (lam := 1 / 5) (L := 2) (sigma := 1) (by norm_num)
      (by norm_num) (by norm_num) (by norm_num) (by norm_num) (by norm_num) (by norm_num) g).2.2.2 _ none (by simp) (by simp)

end

end MFA
