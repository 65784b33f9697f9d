import Verif.Lemmas.Bivariate
import Verif.Props.Cumulants

/-! Properties C64, C65: `BiCumulants`. -/

namespace MFA

open Classical

variable {m1 m2 : MRQ 1} {J : ℕ} {j1 j2 : ℤ}

theorem SameNaN.pairs (h : SameNaN m1 m2) {q : (ℤ × Arr 1) × (ℤ × Arr 1)}
    (hq : q ∈ biList m1 m2) : ∀ z ∈ biPairs q, (z.1 = Fl.nan ↔ z.2 = Fl.nan) := by
  obtain ⟨k, hk⟩ := List.mem_iff_getElem?.1 hq
  have hz := List.getElem?_zip_eq_some.1 (show (m1.values.zip m2.values)[k]? = some (q.1, q.2) from hk)
  intro z hzm
  obtain ⟨i, hi⟩ := List.mem_iff_getElem?.1 hzm
  have hi' := List.getElem?_zip_eq_some.1 (show ((col q.1.2 0).zip (col q.2.2 0))[i]? = some (z.1, z.2) from hi)
  unfold col at hi'
  rw [List.getElem?_map, List.getElem?_map] at hi'
  obtain ⟨hx, hy⟩ := hi'
  rw [Option.map_eq_some_iff] at hx hy
  obtain ⟨x, hx, hx'⟩ := hx
  obtain ⟨y, hy, hy'⟩ := hy
  rw [← hx', ← hy']
  exact h k q.1 q.2 hz.1 hz.2 i x y hx hy

theorem abs_ln_nan (x : Fl) : x.abs.ln = Fl.nan ↔ x = Fl.nan := by
  cases x with
  | nan => simp
  | pinf => simp [Fl.ln, Fl.logOf]
  | ninf => simp [Fl.ln, Fl.logOf]
  | fin a =>
    simp only [Fl.abs_fin, Fl.fin_ne_nan, iff_false]
    unfold Fl.ln Fl.logOf
    simp only
    split
    · simp
    · rename_i h
      have : |a| = 0 := le_antisymm (not_lt.1 h) (abs_nonneg a)
      rw [if_pos this]; simp

theorem SameNaN.logPairs (h : SameNaN m1 m2) {q : (ℤ × Arr 1) × (ℤ × Arr 1)}
    (hq : q ∈ biList m1 m2) : ∀ z ∈ MFA.logPairs (biPairs q), (z.1 = Fl.nan ↔ z.2 = Fl.nan) := by
  intro z hz
  obtain ⟨y, hy, rfl⟩ := List.mem_map.1 hz
  rw [abs_ln_nan, abs_ln_nan]
  exact h.pairs hq y hy

theorem logPairs_fst (hp : Paired m1 m2 J) {q : (ℤ × Arr 1) × (ℤ × Arr 1)} (hq : q ∈ biList m1 m2) :
    (logPairs (biPairs q)).map Prod.fst = logAbsCol q.1.2 0 := by
  unfold logPairs biPairs logAbsCol
  have hl : (col q.1.2 0).length ≤ (col q.2.2 0).length := by rw [col_length, col_length, hp.len hq]
  conv_rhs => rw [← List.map_fst_zip hl]
  rw [List.map_map, List.map_map]; rfl

theorem logPairs_snd (hp : Paired m1 m2 J) {q : (ℤ × Arr 1) × (ℤ × Arr 1)} (hq : q ∈ biList m1 m2) :
    (logPairs (biPairs q)).map Prod.snd = logAbsCol q.2.2 0 := by
  unfold logPairs biPairs logAbsCol
  have hl : (col q.2.2 0).length ≤ (col q.1.2 0).length := by rw [col_length, col_length, hp.len hq]
  conv_rhs => rw [← List.map_snd_zip hl]
  rw [List.map_map, List.map_map]; rfl

/-- C64: when the two quantities are NaN at the same places, `C_{m0}`, `C_{0m}`, `c_{m0}`, `c_{0m}` and the slopes and intercepts of
`BiCumulants` are those of `Cumulants` on each quantity, for every order `m = i+1`. -/
theorem C64_marginals (hp : Paired m1 m2 J) (hs : SameNaN m1 m2) (h1 : 1 ≤ j1) (h12 : j1 ≤ j2) (h2 : j2 ≤ J)
    (weighted : Bool) (n : ℕ) (hn : m1.formalism = .coef ∨ 2 ≤ n) :
    ∃ b c1 c2, BiCumulants.make false m1 m2 n j1 j2 weighted = .ok b ∧
      Cumulants.make m1 n j1 j2 weighted = .ok c1 ∧ Cumulants.make m2 n j1 j2 weighted = .ok c2 ∧
      ∀ i < n,
        (c1.values[i]?.map fun a => a.map fun row => row 0) = some (b.values (i + 1) 0) ∧
        (c2.values[i]?.map fun a => a.map fun row => row 0) = some (b.values 0 (i + 1)) ∧
        (c1.log_cumulants[i]?.map fun row => row 0) = some (b.log_cumulants (i + 1) 0) ∧
        (c2.log_cumulants[i]?.map fun row => row 0) = some (b.log_cumulants 0 (i + 1)) ∧
        (c1.slope[i]?.map fun row => row 0) = some (b.slope (i + 1) 0) ∧
        (c2.slope[i]?.map fun row => row 0) = some (b.slope 0 (i + 1)) ∧
        (c1.intercept[i]?.map fun row => row 0) = some (b.intercept (i + 1) 0) ∧
        (c2.intercept[i]?.map fun row => row 0) = some (b.intercept 0 (i + 1)) := by
  obtain ⟨b, hb, -, -, -, hv, hsl, hin, hlc, -, -⟩ := hp.biCumulants h1 h12 h2 weighted false hn
  refine ⟨b, _, _, hb, hp.reg1.cumulants h1 h12 h2 weighted n, hp.reg2.cumulants h1 h12 h2 weighted n, fun i hi => ?_⟩
  have e1 : ∀ q ∈ biList m1 m2, bcAt n (i + 1) 0 q = (cmColumn (logAbsCol q.1.2 0) n).getD i Fl.nan := by
    intro q hq
    unfold bcAt
    rw [bcTable_left_eq _ _ (hs.logPairs hq) (by omega) (by omega), logPairs_fst hp hq]; rfl
  have e2 : ∀ q ∈ biList m1 m2, bcAt n 0 (i + 1) q = (cmColumn (logAbsCol q.2.2 0) n).getD i Fl.nan := by
    intro q hq
    unfold bcAt
    rw [bcTable_right_eq _ _ (hs.logPairs hq) (by omega) (by omega), logPairs_snd hp hq]; rfl
  have s1 : biSlope m1 m2 j1 j2 weighted (bcAt n (i + 1) 0) = cumF m1 j1 j2 weighted n i 0 := by
    unfold cumF
    rw [hp.slope_left]
    exact slopeL_congr (fun _ _ => rfl) (fun _ _ => rfl) (fun q hq => e1 q (biSub_mem hq))
  have s2 : biSlope m1 m2 j1 j2 weighted (bcAt n 0 (i + 1)) = cumF m2 j1 j2 weighted n i 0 := by
    unfold cumF
    rw [hp.slope_right]
    exact slopeL_congr (fun _ _ => rfl) (fun _ _ => rfl) (fun q hq => e2 q (biSub_mem hq))
  have t1 : biInter m1 m2 j1 j2 weighted (bcAt n (i + 1) 0) = cumIF m1 j1 j2 weighted n i 0 := by
    unfold cumIF
    rw [hp.inter_left]
    exact interL_congr (fun _ _ => rfl) (fun _ _ => rfl) (fun q hq => e1 q (biSub_mem hq))
  have t2 : biInter m1 m2 j1 j2 weighted (bcAt n 0 (i + 1)) = cumIF m2 j1 j2 weighted n i 0 := by
    unfold cumIF
    rw [hp.inter_right]
    exact interL_congr (fun _ _ => rfl) (fun _ _ => rfl) (fun q hq => e2 q (biSub_mem hq))
  have v1 : (biList m1 m2).map (bcAt n (i + 1) 0) =
      m1.values.map fun p => (cmColumn (logAbsCol p.2 0) n).getD i Fl.nan := by
    rw [← hp.fst, List.map_map]
    exact List.map_congr_left e1
  have v2 : (biList m1 m2).map (bcAt n 0 (i + 1)) =
      m2.values.map fun p => (cmColumn (logAbsCol p.2 0) n).getD i Fl.nan := by
    rw [← hp.snd, List.map_map]
    exact List.map_congr_left e2
  simp only [hv, hsl, hin, hlc, s1, s2, t1, t2, v1, v2, cmValues, List.getElem?_map, List.getElem?_range hi,
    Option.map_some, List.map_map, Function.comp_def, and_self]

/-- C64: exchanging the two quantities transposes every array and leaves the correlations unchanged. -/
theorem C64_transpose (hp : Paired m1 m2 J) (h1 : 1 ≤ j1) (h12 : j1 ≤ j2) (h2 : j2 ≤ J)
    (weighted : Bool) (n : ℕ) (hn : m1.formalism = .coef ∨ 2 ≤ n) :
    ∃ b b', BiCumulants.make false m1 m2 n j1 j2 weighted = .ok b ∧ BiCumulants.make false m2 m1 n j1 j2 weighted = .ok b' ∧
      (∀ i k, b'.values i k = b.values k i ∧ b'.log_cumulants i k = b.log_cumulants k i ∧ b'.slope i k = b.slope k i ∧
        b'.intercept i k = b.intercept k i) ∧
      b'.RHO_MF = b.RHO_MF ∧ b'.rho_mf = b.rho_mf := by
  obtain ⟨b, hb, -, -, -, hv, hsl, hin, hlc, hr, hr'⟩ := hp.biCumulants h1 h12 h2 weighted false hn
  obtain ⟨b', hb', -, -, -, hv', hsl', hin', hlc', hs, hs'⟩ := hp.swap.biCumulants h1 h12 h2 weighted false
    (hp.formalism ▸ hn)
  have hlist : biList m2 m1 = (biList m1 m2).map Prod.swap := by
    unfold biList; rw [List.zip_swap]
  have hat : ∀ i k q, bcAt n i k (Prod.swap q) = bcAt n k i q := by
    intro i k q
    unfold bcAt
    rw [← bcTable_swap]
    congr 2
    unfold logPairs biPairs
    rw [List.map_map, ← List.zip_swap, List.map_map]
    rfl
  have hsub : biSub m2 m1 j1 j2 = (biSub m1 m2 j1 j2).map Prod.swap := by
    unfold biSub; rw [hlist, pySlice_map]
  have hS : ∀ i k, biSlope m2 m1 j1 j2 weighted (bcAt n i k) = biSlope m1 m2 j1 j2 weighted (bcAt n k i) := by
    intro i k
    unfold biSlope
    rw [hsub, slopeL_map]
    apply slopeL_congr
    · intro q hq
      simp only [Function.comp_apply, Prod.fst_swap, hp.keys (biSub_mem hq)]
    · intro q hq
      simp only [Function.comp_apply, Prod.fst_swap, wtOf, hp.counts (biSub_mem hq)]
    · intro q _
      exact hat i k q
  have hI : ∀ i k, biInter m2 m1 j1 j2 weighted (bcAt n i k) = biInter m1 m2 j1 j2 weighted (bcAt n k i) := by
    intro i k
    unfold biInter
    rw [hsub, interL_map]
    apply interL_congr
    · intro q hq
      simp only [Function.comp_apply, Prod.fst_swap, hp.keys (biSub_mem hq)]
    · intro q hq
      simp only [Function.comp_apply, Prod.fst_swap, wtOf, hp.counts (biSub_mem hq)]
    · intro q _
      exact hat i k q
  refine ⟨b, b', hb, hb', fun i k => ⟨?_, ?_, ?_, ?_⟩, ?_⟩
  · rw [hv', hv, hlist, List.map_map]
    apply List.map_congr_left
    intro q _
    exact hat i k q
  · rw [hlc', hlc, hS]
  · rw [hsl', hsl, hS]
  · rw [hin', hin, hI]
  · by_cases hc : m1.formalism = .coef
    · rw [(hr hc).1, (hr hc).2, (hs (hp.formalism ▸ hc)).1, (hs (hp.formalism ▸ hc)).2]
      exact ⟨rfl, rfl⟩
    · have hc' : m2.formalism ≠ .coef := hp.formalism ▸ hc
      rw [(hr' hc).1, (hr' hc).2, (hs' hc').1, (hs' hc').2]
      constructor
      · rw [hlist, List.map_map]
        congr 1
        apply List.map_congr_left
        intro q _
        simp only [Function.comp_apply, hat]
        unfold rhoOf
        rw [Fl.mul_comm]
      · rw [hlc', hlc', hlc', hlc, hlc, hlc, hS, hS, hS, Fl.mul_comm (_ * _)]

/-! ### C65 -/

theorem jointLogs_is {c1 c2 : List Fl} (h1 : ∀ x ∈ c1, x = Fl.nan ∨ ∃ t : ℝ, x = Fl.fin t)
    (h2 : ∀ x ∈ c2, x = Fl.nan ∨ ∃ t : ℝ, x = Fl.fin t) (z1 : Fl.fin 0 ∉ c1) (z2 : Fl.fin 0 ∉ c2) :
    JointIs (logPairs (c1.zip c2)) (jointLogs c1 c2) := by
  unfold JointIs logPairs jointLogs jointVals
  induction c1 generalizing c2 with
  | nil => rfl
  | cons x c1 ih =>
    cases c2 with
    | nil => rfl
    | cons y c2 =>
      have ih' := ih (c2 := c2) (fun x hx => h1 x (by simp [hx])) (fun x hx => h2 x (by simp [hx]))
        (fun h => z1 (List.mem_cons_of_mem _ h)) (fun h => z2 (List.mem_cons_of_mem _ h))
      rcases h1 x (by simp) with rfl | ⟨s, rfl⟩
      · simpa using ih'
      · rcases h2 y (by simp) with rfl | ⟨t, rfl⟩
        · simpa using ih'
        · have hs : s ≠ 0 := fun h => z1 (by rw [h]; exact List.mem_cons_self)
          have ht : t ≠ 0 := fun h => z2 (by rw [h]; exact List.mem_cons_self)
          simp only [List.zip_cons_cons, List.map_cons, Fl.abs_fin, Fl.ln_fin (abs_pos.2 hs), Fl.ln_fin (abs_pos.2 ht),
            List.filterMap_cons]
          rw [List.filter_cons_of_pos (by simp), ih']

theorem JointFinite.at (hp : Paired m1 m2 J) (hd : JointFinite m1 m2) (hz1 : NoZero m1) (hz2 : NoZero m2)
    {q : (ℤ × Arr 1) × (ℤ × Arr 1)} (hq : q ∈ biList m1 m2) :
    JointIs (logPairs (biPairs q)) (jointLogs (col q.1.2 0) (col q.2.2 0)) ∧ jointLogs (col q.1.2 0) (col q.2.2 0) ≠ [] := by
  refine ⟨jointLogs_is ?_ ?_ ?_ ?_, ?_⟩
  · intro x hx
    obtain ⟨r, hr, rfl⟩ := List.mem_map.1 hx
    exact hd.1 q.1 (hp.mem1 hq) r hr
  · intro x hx
    obtain ⟨r, hr, rfl⟩ := List.mem_map.1 hx
    exact hd.2.1 q.2 (hp.mem2 hq) r hr
  · intro hx
    obtain ⟨r, hr, he⟩ := List.mem_map.1 hx
    exact hz1 q.1 (hp.mem1 hq) r hr he
  · intro hx
    obtain ⟨r, hr, he⟩ := List.mem_map.1 hx
    exact hz2 q.2 (hp.mem2 hq) r hr he
  · obtain ⟨k, hk⟩ := List.mem_iff_getElem?.1 hq
    have hz := List.getElem?_zip_eq_some.1 (show (m1.values.zip m2.values)[k]? = some (q.1, q.2) from hk)
    have := hd.2.2 k q.1 q.2 hz.1 hz.2
    simpa [jointLogs] using this

theorem cauchy_list {ι : Type} (l : List ι) (f g : ι → ℝ) :
    ((l.map fun i => f i * g i).sum) ^ 2 ≤ (l.map fun i => f i ^ 2).sum * (l.map fun i => g i ^ 2).sum := by
  rw [list_sum_eq, list_sum_eq, list_sum_eq]
  exact Finset.sum_mul_sq_le_sq_mul_sq _ _ _

/-- The Cauchy-Schwarz inequality for the empirical covariance. -/
theorem cov_sq_le (zs : List (ℝ × ℝ)) : cov zs ^ 2 ≤ variance (zs.map Prod.fst) * variance (zs.map Prod.snd) := by
  unfold cov variance centralMoment
  rw [List.map_map, List.map_map, List.length_map, List.length_map, div_pow, div_mul_div_comm, ← sq]
  apply div_le_div_of_nonneg_right _ (by positivity)
  exact cauchy_list zs (fun z => z.1 - mean (zs.map Prod.fst)) (fun z => z.2 - mean (zs.map Prod.snd))

theorem variance_nonneg (l : List ℝ) : 0 ≤ variance l := by
  unfold variance centralMoment
  apply div_nonneg _ (Nat.cast_nonneg _)
  apply List.sum_nonneg
  intro x hx
  obtain ⟨y, _, rfl⟩ := List.mem_map.mp hx
  positivity

theorem ratio_le_one {c a b : ℝ} (ha : 0 < a) (hb : 0 < b) (h : c ^ 2 ≤ a * b) : |c / Real.sqrt (b * a)| ≤ 1 := by
  have hpos : 0 < Real.sqrt (b * a) := Real.sqrt_pos.2 (mul_pos hb ha)
  rw [abs_div, abs_of_pos hpos, div_le_one hpos]
  apply Real.abs_le_sqrt
  rw [mul_comm]; exact h

/-- C65: the entries of `BiCumulants.values` at every scale: `C_{m0}` and `C_{0m}` are the cumulants (derivatives of the log of the
moment generating function) of the jointly available logs, `C_{11}` is their covariance, all other entries are zero. -/
theorem C65_covariance (hp : Paired m1 m2 J) (hd : JointFinite m1 m2) (hz1 : NoZero m1) (hz2 : NoZero m2)
    (h1 : 1 ≤ j1) (h12 : j1 ≤ j2) (h2 : j2 ≤ J) (weighted : Bool) (n : ℕ) (hn : m1.formalism = .coef ∧ 1 ≤ n ∨ 2 ≤ n) :
    ∃ b, BiCumulants.make false m1 m2 n j1 j2 weighted = .ok b ∧
      ∀ (k : ℕ) p p', m1.values[k]? = some p → m2.values[k]? = some p' →
        (b.values 1 1)[k]? = some (Fl.fin (cov (jointLogs (col p.2 0) (col p'.2 0)))) ∧
        (∀ i, 1 ≤ i → i ≤ n →
          (b.values i 0)[k]? = some (Fl.fin (iteratedDeriv i (empCGF ((jointLogs (col p.2 0) (col p'.2 0)).map Prod.fst)) 0)) ∧
          (b.values 0 i)[k]? = some (Fl.fin (iteratedDeriv i (empCGF ((jointLogs (col p.2 0) (col p'.2 0)).map Prod.snd)) 0))) ∧
        (b.values 0 0)[k]? = some (Fl.fin 0) ∧
        ∀ i i', 1 ≤ i → 1 ≤ i' → ¬ (i = 1 ∧ i' = 1) → (b.values i i')[k]? = some (Fl.fin 0) := by
  obtain ⟨b, hb, -, -, -, hv, -⟩ := hp.biCumulants h1 h12 h2 weighted false
    (hn.imp (fun h => h.1) id)
  refine ⟨b, hb, fun k p p' hk hk' => ?_⟩
  have hbl : (biList m1 m2)[k]? = some (p, p') := List.getElem?_zip_eq_some.2 ⟨hk, hk'⟩
  obtain ⟨hJ, hne⟩ := hd.at hp hz1 hz2 (List.mem_of_getElem? hbl)
  have hnn : 1 ≤ n := by rcases hn with h | h <;> omega
  simp only [hv, List.getElem?_map, hbl, Option.map_some, Option.some.injEq, bcAt]
  refine ⟨hJ.one_one hne hnn, fun i hi hi' => ⟨hJ.left hne hi hi', hJ.right hne hi hi'⟩, ?_, fun i i' hi hi' hii => ?_⟩
  · exact bcTable_zero _ _ _ _ (Or.inl ⟨rfl, rfl⟩)
  · exact bcTable_zero _ _ _ _ (Or.inr (Or.inl ⟨hi, hi', hii⟩))

/-- C65: whatever the data, `C_00` and all `C_{ab}` with `a, b ≥ 1` other than `C_11` are zero. -/
theorem C65_zero_entries {R : ℕ} {same : Bool} {m1 m2 : MRQ R} {n : ℕ} {weighted : Bool} {b : BiCumulants R}
    (h : BiCumulants.make same m1 m2 n j1 j2 weighted = .ok b) (i k : ℕ)
    (hik : (i = 0 ∧ k = 0) ∨ (1 ≤ i ∧ 1 ≤ k ∧ ¬ (i = 1 ∧ k = 1))) : ∀ x ∈ b.values i k, x = Fl.fin 0 := by
  have key : ∃ scales : List (List (Fl × Fl)), b.values =
      fun a c => scales.map fun ps => (bcTable (logPairs ps) n).values a c := by
    unfold BiCumulants.make at h
    split at h
    · cases h
    · split at h
      · cases h
      · cases h
      · split at h
        · cases h
        · rename_i scales hs
          refine ⟨scales, ?_⟩
          simp only at h
          split at h
          · cases h
          · split at h
            · cases h
            · split at h
              · cases h; rfl
              · split at h
                · cases h
                · cases h; rfl
  obtain ⟨scales, hsc⟩ := key
  rw [hsc]
  intro x hx
  obtain ⟨ps, _, rfl⟩ := List.mem_map.1 hx
  exact bcTable_zero _ _ _ _ (hik.imp id Or.inl)

/-- C65: for leaders, `|RHO_MF| ≤ 1` at each scale where the two variances are positive; where one of them vanishes the value is
NaN.  For wavelet coefficients there is no correlation. -/
theorem C65_rho_bounded (hp : Paired m1 m2 J) (hd : JointFinite m1 m2) (hz1 : NoZero m1) (hz2 : NoZero m2)
    (h1 : 1 ≤ j1) (h12 : j1 ≤ j2) (h2 : j2 ≤ J) (weighted : Bool) (n : ℕ) (hn : 2 ≤ n) :
    ∃ b, BiCumulants.make false m1 m2 n j1 j2 weighted = .ok b ∧
      (m1.formalism = .coef → b.RHO_MF = none ∧ b.rho_mf = none) ∧
      (m1.formalism ≠ .coef → ∃ rho, b.RHO_MF = some rho ∧ rho.length = J ∧
        ∀ (k : ℕ) p p', m1.values[k]? = some p → m2.values[k]? = some p' →
          (0 < variance ((jointLogs (col p.2 0) (col p'.2 0)).map Prod.fst) →
           0 < variance ((jointLogs (col p.2 0) (col p'.2 0)).map Prod.snd) →
            ∃ ρ : ℝ, rho[k]? = some (Fl.fin ρ) ∧ |ρ| ≤ 1 ∧
              ρ = cov (jointLogs (col p.2 0) (col p'.2 0)) /
                (Real.sqrt (variance ((jointLogs (col p.2 0) (col p'.2 0)).map Prod.fst)) *
                 Real.sqrt (variance ((jointLogs (col p.2 0) (col p'.2 0)).map Prod.snd)))) ∧
          ((variance ((jointLogs (col p.2 0) (col p'.2 0)).map Prod.fst) = 0 ∨
            variance ((jointLogs (col p.2 0) (col p'.2 0)).map Prod.snd) = 0) → rho[k]? = some Fl.nan)) := by
  obtain ⟨b, hb, -, -, -, -, -, -, -, hr, hr'⟩ := hp.biCumulants h1 h12 h2 weighted false (Or.inr hn)
  refine ⟨b, hb, hr, fun hc => ⟨_, (hr' hc).1, ?_, ?_⟩⟩
  · have := congrArg List.length hp.reg1.1
    rw [← hp.fst] at this
    simpa using this
  intro k p p' hk hk'
  have hbl : (biList m1 m2)[k]? = some (p, p') := List.getElem?_zip_eq_some.2 ⟨hk, hk'⟩
  obtain ⟨hJ, hne⟩ := hd.at hp hz1 hz2 (List.mem_of_getElem? hbl)
  set zs := jointLogs (col p.2 0) (col p'.2 0) with hzs
  have hne1 : zs.map Prod.fst ≠ [] := by simpa using hne
  have hne2 : zs.map Prod.snd ≠ [] := by simpa using hne
  have e11 : bcAt n 1 1 (p, p') = Fl.fin (cov zs) := hJ.one_one hne (by omega)
  have e20 : bcAt n 2 0 (p, p') = Fl.fin (variance (zs.map Prod.fst)) := by
    rw [variance, ← (sum_central hne1).1]; exact hJ.left hne (by omega) hn
  have e02 : bcAt n 0 2 (p, p') = Fl.fin (variance (zs.map Prod.snd)) := by
    rw [variance, ← (sum_central hne2).1]; exact hJ.right hne (by omega) hn
  have hv1 := variance_nonneg (zs.map Prod.fst)
  have hv2 := variance_nonneg (zs.map Prod.snd)
  have hrow : ((biList m1 m2).map fun q => rhoOf (bcAt n 1 1 q) (bcAt n 0 2 q) (bcAt n 2 0 q))[k]? =
      some (Fl.fin (cov zs) / Fl.fin (Real.sqrt (variance (zs.map Prod.snd) * variance (zs.map Prod.fst)))) := by
    rw [List.getElem?_map, hbl, Option.map_some]
    simp only [rhoOf, e11, e20, e02]
    rw [Fl.fin_mul]
    have : (Fl.fin (variance (zs.map Prod.snd) * variance (zs.map Prod.fst))).sqrt =
        Fl.fin (Real.sqrt (variance (zs.map Prod.snd) * variance (zs.map Prod.fst))) := by
      show (if 0 ≤ _ then _ else _) = _
      rw [if_pos (mul_nonneg hv2 hv1)]
    rw [this, Fl.abs_fin, abs_of_nonneg (Real.sqrt_nonneg _)]
  rw [hrow]
  constructor
  · intro p1 p2
    have hpos : 0 < Real.sqrt (variance (zs.map Prod.snd) * variance (zs.map Prod.fst)) := Real.sqrt_pos.2 (mul_pos p2 p1)
    refine ⟨_, by rw [Fl.fin_div hpos.ne'], ratio_le_one p1 p2 (cov_sq_le zs), ?_⟩
    rw [mul_comm (variance _), Real.sqrt_mul hv1]
  · intro h0
    have hc0 : cov zs = 0 := by
      have := cov_sq_le zs
      have h' : variance (zs.map Prod.fst) * variance (zs.map Prod.snd) = 0 := by
        rcases h0 with h | h <;> rw [h] <;> simp
      rw [h'] at this
      exact pow_eq_zero_iff (two_ne_zero) |>.1 (le_antisymm this (sq_nonneg _))
    have h' : variance (zs.map Prod.snd) * variance (zs.map Prod.fst) = 0 := by
      rcases h0 with h | h <;> rw [h] <;> simp
    rw [hc0, h', Real.sqrt_zero, Fl.div_def]
    congr 1
    show Fl.fin 0 * (if (0:ℝ) = 0 then Fl.pinf else _) = _
    rw [if_pos rfl, Fl.fin_mul_pinf, Fl.sgnInf_zero]

/-- C65: with fewer than two cumulants `BiCumulants` on leaders raises IndexError. -/
theorem C65_needs_two_cumulants (hp : Paired m1 m2 J) (h1 : 1 ≤ j1) (h12 : j1 ≤ j2) (h2 : j2 ≤ J) (weighted same : Bool)
    (n : ℕ) (hn : n < 2) (hf : m1.formalism ≠ .coef) :
    BiCumulants.make same m1 m2 n j1 j2 weighted = .error .indexError := by
  have hval : ∀ a b, ((biList m1 m2).map biPairs).map (fun ps => (bcTable (logPairs ps) n).values a b) =
      (biList m1 m2).map (bcAt n a b) := by
    intro a b; rw [List.map_map]; rfl
  have hm : ∃ regs, mapE (fun p : ℕ × ℕ => biRegression ((biList m1 m2).map (bcAt n p.1 p.2)) j1 j2
      (biW m1 m2 j1 j2 weighted)) (bcOrder n) = .ok regs := by
    choose var hvar using fun a b => hp.regression h1 h12 h2 weighted (bcAt n a b)
    exact ⟨_, mapE_ok _ _ _ (fun p _ => hvar p.1 p.2)⟩
  obtain ⟨regs, hregs⟩ := hm
  unfold BiCumulants.make
  rw [if_neg (by simp [hp.formalism]), hp.njEq same]
  simp only [hp.pairScales, hval, hp.weights h1 h12 h2 weighted, hregs]
  rw [if_neg hf, if_pos hn]

end MFA
