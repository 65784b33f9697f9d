import Verif.Model.Plot
import Verif.Props.Mfa
import Verif.Props.Structure
import Verif.Props.BiDemo

/-! Properties C78, C79: what `StructureFunction.plot` and `Cumulants.plot` draw, and when they raise. -/

namespace MFA

open Classical

theorem mapE_ok_mem {α β : Type} {f : α → Except PyErr β} : ∀ {l : List α} {bs : List β}, mapE f l = .ok bs →
    ∀ {a : α}, a ∈ l → ∃ b, f a = .ok b
  | [], _, _, a, ha => absurd ha (by simp)
  | x :: l, bs, h, a, ha => by
    unfold mapE at h
    split at h
    · exact absurd h (by simp)
    rename_i b hb
    split at h
    · exact absurd h (by simp)
    rename_i bs' hbs
    rcases List.mem_cons.1 ha with rfl | ha
    · exact ⟨b, hb⟩
    · exact mapE_ok_mem hbs ha

theorem getD_of_lt {α : Type} {l : List α} {i : ℕ} {d : α} (h : i < l.length) : l.getD i d = l[i] := by
  simp [List.getD, h]

/-! ### The grid of panels -/

/-- A layout of a figure with `n` plots: plot `i` has its own panel inside the grid, that panel is not removed, and every panel
that belongs to no plot is removed. -/
structure Layout {R : ℕ} (fig : Figure R) (n : ℕ) (panel : ℕ → ℕ × ℕ) : Prop where
  inside : ∀ i < n, (panel i).1 < fig.rows ∧ (panel i).2 < fig.cols
  own : ∀ i < n, ∀ k < n, panel i = panel k → i = k
  kept : ∀ i < n, panel i ∉ fig.removed
  full : ∀ p : ℕ × ℕ, p.1 < fig.rows → p.2 < fig.cols → (p ∉ fig.removed ↔ ∃ i < n, p = panel i)

theorem panelDims_full {n k : ℕ} (hk : 1 ≤ k) (hkn : k ≤ n) : panelDims n k = .ok (k, (n + k - 1) / k) := by
  unfold panelDims
  by_cases h : 1 < n
  · rw [if_pos h, if_neg (by omega)]
  · have : n = 1 := by omega
    have : k = 1 := by omega
    subst_vars
    rfl

theorem panel_lt {n k i : ℕ} (hk : 1 ≤ k) (hi : i < n) : i / k < (n + k - 1) / k := by
  rw [Nat.lt_iff_add_one_le, Nat.le_div_iff_mul_le (by omega), Nat.succ_mul]
  have := Nat.div_mul_le_self i k
  omega

theorem panelAt_full {n k i : ℕ} (hk : 1 ≤ k) (hi : i < (n + k - 1) / k * k) :
    panelAt (k, (n + k - 1) / k) k i = .ok (i % k, i / k) := by
  have h1 : i % k < k ∧ i / k < (n + k - 1) / k :=
    ⟨Nat.mod_lt _ (by omega), Nat.div_lt_of_lt_mul (by rw [Nat.mul_comm]; exact hi)⟩
  unfold panelAt
  rw [if_neg (by omega), if_pos h1]

theorem le_cells {n k : ℕ} (hk : 1 ≤ k) : n ≤ (n + k - 1) / k * k := by
  have := Nat.div_add_mod (n + k - 1) k
  have h2 := Nat.mod_lt (n + k - 1) (show 0 < k by omega)
  rw [Nat.mul_comm] at this
  omega

theorem cols_min {n k : ℕ} (hk : 1 ≤ k) (hn : 1 ≤ n) : ((n + k - 1) / k - 1) * k < n := by
  have := Nat.div_mul_le_self (n + k - 1) k
  rw [Nat.sub_mul, Nat.one_mul]
  omega

theorem panelAt_used {n k i : ℕ} (hk : 1 ≤ k) (hi : i < n) : panelAt (k, (n + k - 1) / k) k i = .ok (i % k, i / k) :=
  panelAt_full hk (lt_of_lt_of_le hi (le_cells hk))

theorem removedPanels_full {n k : ℕ} (hk : 1 ≤ k) (hn : 1 ≤ n) :
    removedPanels (k, (n + k - 1) / k) k n =
      .ok ((List.range (k * ((n + k - 1) / k) - n)).map fun i => ((n + i) % k, (n + i) / k)) := by
  unfold removedPanels
  rw [if_neg (by omega)]
  apply mapE_ok
  intro i hi
  rw [List.mem_range] at hi
  simp only at hi
  apply panelAt_full hk
  rw [Nat.mul_comm]
  omega

theorem panel_inj {k i i' : ℕ} (h : ((i % k, i / k) : ℕ × ℕ) = (i' % k, i' / k)) : i = i' := by
  rw [Prod.mk.injEq] at h
  rw [← Nat.div_add_mod i k, ← Nat.div_add_mod i' k, h.1, h.2]

theorem layout_full {R n k : ℕ} (hk : 1 ≤ k) (curves : List (Curve R)) :
    Layout (R := R) ⟨k, (n + k - 1) / k, (List.range (k * ((n + k - 1) / k) - n)).map fun i => ((n + i) % k, (n + i) / k), curves⟩ n
      (fun i => (i % k, i / k)) := by
  have kept : ∀ i < n, ((i % k, i / k) : ℕ × ℕ) ∉
      (List.range (k * ((n + k - 1) / k) - n)).map fun i => (((n + i) % k, (n + i) / k) : ℕ × ℕ) := by
    intro i hi hm
    rw [List.mem_map] at hm
    obtain ⟨t, -, ht⟩ := hm
    have := panel_inj ht
    omega
  refine ⟨fun i hi => ⟨Nat.mod_lt _ (by omega), panel_lt hk hi⟩, fun i _ i' _ h => panel_inj h, kept, ?_⟩
  rintro ⟨a, b⟩ ha hb
  simp only at ha hb
  constructor
  · intro hnot
    refine ⟨k * b + a, ?_, ?_⟩
    · by_contra hlt
      apply hnot
      rw [List.mem_map]
      refine ⟨k * b + a - n, ?_, ?_⟩
      · rw [List.mem_range]
        have : k * b + a < k * ((n + k - 1) / k) := by
          calc k * b + a < k * b + k := by omega
            _ = k * (b + 1) := by ring
            _ ≤ _ := Nat.mul_le_mul_left _ hb
        omega
      · have : n + (k * b + a - n) = k * b + a := by omega
        rw [this, Nat.mul_add_mod, Nat.mod_eq_of_lt ha, Nat.mul_add_div (by omega), Nat.div_eq_of_lt ha, Nat.add_zero]
    · rw [Nat.mul_add_mod, Nat.mod_eq_of_lt ha, Nat.mul_add_div (by omega), Nat.div_eq_of_lt ha, Nat.add_zero]
  · rintro ⟨i, hi, hp⟩
    rw [hp]
    exact kept i hi

/-! ### C78 -/

theorem StructFn.make_fields {R : ℕ} {m : MRQ R} {q : QArg} {j1 j2 : ℤ} {w : Bool} {s : StructFn R}
    (h : StructFn.make m q j1 j2 w = .ok s) : s.q = q ∧ s.j1 = j1 ∧ s.j2 = j2 := by
  unfold StructFn.make at h
  split at h
  · exact absurd h (by simp)
  simp only at h
  split at h
  · exact absurd h (by simp)
  split at h
  · exact absurd h (by simp)
  rw [Except.ok.injEq] at h
  subst h
  exact ⟨rfl, rfl, rfl⟩

theorem StructFn.make_has_two {R : ℕ} {m : MRQ R} {q : QArg} {j1 j2 : ℤ} {w : Bool} {s : StructFn R}
    (h : StructFn.make m q j1 j2 w = .ok s) : ∃ l, q = .ndarray l ∧ (2 : ℝ) ∈ l := by
  unfold StructFn.make at h
  split at h
  · exact absurd h (by simp)
  simp only at h
  split at h
  · exact absurd h (by simp)
  split at h
  · exact absurd h (by simp)
  rename_i H hH
  rcases q with l | l
  swap
  · exact absurd hH (by simp [sfGetH])
  refine ⟨l, rfl, ?_⟩
  simp only [sfGetH] at hH
  split at hH
  · exact absurd hH (by simp)
  rename_i z t hz
  unfold maskEq at hz
  have this : z ∈ z :: t := List.mem_cons_self
  rw [← hz, List.mem_map] at this
  obtain ⟨p, hp, -⟩ := this
  rw [List.mem_filter] at hp
  have h2 : p.1 = 2 := by simpa using hp.2
  rw [← h2]
  exact (List.of_mem_zip hp.1).1

theorem expos_val (q : List ℝ) : (QArg.ndarray q).expos.map Expo.val = q := by
  simp only [QArg.expos, List.map_map]
  rw [show (Expo.val ∘ Expo.real) = id from rfl, List.map_id]

/-- The two curves that belong to the exponent (or order) number `i`: the estimates at all scales `js`, and the straight line
`slope * j + intercept` from `j1` to `j2` with the printed value `legend`. -/
noncomputable def estimateCurves (panel : ℕ × ℕ) (js : List ℤ) (values : Arr 1) (j1 j2 : ℤ) (slope intercept legend : Fl) : List (Curve 1) :=
  [{ panel := panel, x := js, y := values, legend := none },
   { panel := panel, x := [j1, j2]
     y := [fun _ => slope * Fl.fin (j1 : ℝ) + intercept, fun _ => slope * Fl.fin (j2 : ℝ) + intercept]
     legend := some legend }]

theorem fittedLine_one (panel : ℕ × ℕ) (j1 j2 : ℤ) (a b : Row 1) (l : Fl) :
    fittedLine panel j1 j2 a b l =
      { panel := panel, x := [j1, j2]
        y := [fun _ => a 0 * Fl.fin (j1 : ℝ) + b 0, fun _ => a 0 * Fl.fin (j2 : ℝ) + b 0], legend := some l } := by
  unfold fittedLine
  congr 1
  have : ∀ r : Fin 1, r = 0 := fun r => Subsingleton.elim _ _
  congr 1
  · funext r
    rw [this r]
  · congr 1
    funext r
    rw [this r]

theorem sfPlotStep_draw {s : StructFn 1} {ig : Bool} {dims : ℕ × ℕ} {k i : ℕ} {q : ℝ} {p : ℕ × ℕ}
    (h0 : ¬ (q = 0 ∧ ig = true)) (hp : panelAt dims k i = .ok p) :
    sfPlotStep s ig dims k i q = .ok (estimateCurves p s.j (s.logvalues.getD i []) s.j1 s.j2
      ((s.zeta.getD i fun _ => Fl.nan) 0) ((s.intercept.getD i fun _ => Fl.nan) 0) ((s.zeta.getD i fun _ => Fl.nan) 0)) := by
  unfold sfPlotStep
  rw [if_neg h0, hp]
  simp only [fmtRow, dite_true, fittedLine_one]
  rfl

/-- C78: when no exponent is skipped (`ignore_q0=False`, or 0 is not among the exponents), plotting the structure functions of one
realisation succeeds for every number of exponents and every `nrow >= 1`: exponent number `i` has its own panel with the
estimates `log2 S(j, q_i)` at all scales and the fitted line of slope `zeta(q_i)` between `j1` and `j2`, labelled with `zeta(q_i)`;
the panels that belong to no exponent, and only those, are removed. -/
theorem C78_structure_plot {m : MRQ 1} {q : List ℝ} {j1 j2 : ℤ} {w : Bool} {s : StructFn 1}
    (h : StructFn.make m (.ndarray q) j1 j2 w = .ok s) {nrow : ℕ} (hn : 1 ≤ nrow) {ignore_q0 : Bool}
    (h0 : ignore_q0 = false ∨ (0 : ℝ) ∉ q) :
    ∃ fig panel, s.plot nrow ignore_q0 = .ok fig ∧ Layout fig q.length panel ∧
      fig.rows = min nrow q.length ∧ (fig.cols - 1) * fig.rows < q.length ∧
      fig.curves = (List.range q.length).flatMap fun i =>
        estimateCurves (panel i) s.j (s.logvalues.getD i []) j1 j2 ((s.zeta.getD i fun _ => Fl.nan) 0)
          ((s.intercept.getD i fun _ => Fl.nan) 0) ((s.zeta.getD i fun _ => Fl.nan) 0) := by
  obtain ⟨hq, hj1, hj2⟩ := StructFn.make_fields h
  obtain ⟨l, hl, h2⟩ := StructFn.make_has_two h
  rw [QArg.ndarray.injEq] at hl
  subst hl
  have hlen : 1 ≤ q.length := List.length_pos_of_mem h2
  have hk : 1 ≤ min nrow q.length := by omega
  have hkn : min nrow q.length ≤ q.length := min_le_right _ _
  have hnz : ¬ ((0 : ℝ) ∈ q ∧ ignore_q0 = true) := by
    rintro ⟨ha, hb⟩
    rcases h0 with h0 | h0
    · rw [h0] at hb; exact absurd hb (by simp)
    · exact h0 ha
  refine ⟨_, _, ?_, layout_full (n := q.length) hk _, rfl, cols_min hk hlen, rfl⟩
  unfold StructFn.plot
  rw [hq, expos_val]
  simp only [if_neg hnz, Nat.sub_zero]
  rw [panelDims_full hk hkn]
  simp only
  rw [mapE_ok _ (fun i => estimateCurves (i % min nrow q.length, i / min nrow q.length) s.j (s.logvalues.getD i []) s.j1 s.j2
      ((s.zeta.getD i fun _ => Fl.nan) 0) ((s.intercept.getD i fun _ => Fl.nan) 0) ((s.zeta.getD i fun _ => Fl.nan) 0))]
  · simp only
    rw [removedPanels_full hk hlen, hj1, hj2]
  · intro i hi
    rw [List.mem_range] at hi
    apply sfPlotStep_draw _ (panelAt_used hk hi)
    rintro ⟨ha, hb⟩
    apply hnz
    refine ⟨?_, hb⟩
    rw [← ha, getD_of_lt hi]
    exact List.getElem_mem hi

/-- C78: when 0 is among the exponents and is skipped (`ignore_q0=True`, the default), the grid is computed for one plot less but
the panels are still numbered with all exponents: `plot` raises IndexError exactly when the last exponent is not the skipped one
and the number of exponents minus one is a multiple of the number of rows (or there are two exponents).  Otherwise it
draws the other exponents, each in its own panel. -/
theorem C78_skipped_zero {m : MRQ 1} {q : List ℝ} {j1 j2 : ℤ} {w : Bool} {s : StructFn 1}
    (h : StructFn.make m (.ndarray q) j1 j2 w = .ok s) {nrow : ℕ} (hn : 1 ≤ nrow) (h0 : (0 : ℝ) ∈ q) :
    (s.plot nrow true = .error .indexError ↔
      (q.length = 2 ∨ min nrow q.length ∣ q.length - 1) ∧ q.getD (q.length - 1) 0 ≠ 0) ∧
    (s.plot nrow true ≠ .error .indexError →
      ∃ fig, ∃ panel : ℕ → ℕ × ℕ, s.plot nrow true = .ok fig ∧
        (∀ i < q.length, q.getD i 0 ≠ 0 → (panel i).1 < fig.rows ∧ (panel i).2 < fig.cols ∧ panel i ∉ fig.removed) ∧
        (∀ i < q.length, ∀ k < q.length, panel i = panel k → i = k) ∧
        fig.curves = ((List.range q.length).filter fun i => q.getD i 0 ≠ 0).flatMap fun i =>
          estimateCurves (panel i) s.j (s.logvalues.getD i []) j1 j2 ((s.zeta.getD i fun _ => Fl.nan) 0)
            ((s.intercept.getD i fun _ => Fl.nan) 0) ((s.zeta.getD i fun _ => Fl.nan) 0)) := by
  obtain ⟨hq, hj1, hj2⟩ := StructFn.make_fields h
  obtain ⟨l, hl, h2⟩ := StructFn.make_has_two h
  rw [QArg.ndarray.injEq] at hl
  subst hl
  have hlen : 2 ≤ q.length := by
    rcases q with - | ⟨a, - | ⟨b, t⟩⟩
    · simp at h0
    · simp at h0 h2
      rw [← h0] at h2
      norm_num at h2
    · simp
  have hk : 1 ≤ min nrow q.length := by omega
  have hkn : min nrow q.length ≤ q.length := min_le_right _ _
  obtain ⟨n, hndef⟩ : ∃ n, n = q.length := ⟨_, rfl⟩
  rw [← hndef] at hlen hk hkn ⊢
  obtain ⟨k, hkdef⟩ : ∃ k, k = min nrow n := ⟨_, rfl⟩
  rw [← hkdef] at hk hkn ⊢
  -- the grid
  obtain ⟨dims, hdims, hd1, hfit, hrem⟩ : ∃ dims, panelDims (n - 1) k = .ok dims ∧
      (∀ i < n - 1, i < n → (n = 2 → i = 0) → i % k < dims.1 ∧ i / k < dims.2) ∧
      (((n - 1) % k < dims.1 ∧ (n - 1) / k < dims.2) ↔ ¬ (n = 2 ∨ k ∣ n - 1)) ∧
      (∃ rem, removedPanels dims k n = .ok rem ∧ ∀ p ∈ rem, ∃ i, n ≤ i ∧ p = (i % k, i / k)) := by
    by_cases hn2 : n = 2
    · refine ⟨(1, 1), ?_, ?_, ?_, ?_⟩
      · unfold panelDims
        rw [if_neg (by omega)]
      · intro i hi _ h0
        rw [h0 hn2]
        simp
      · have : ¬ ((n - 1) % k < 1 ∧ (n - 1) / k < 1) := by
          rintro ⟨ha, hb⟩
          have := Nat.div_add_mod (n - 1) k
          have hb' : (n - 1) / k = 0 := Nat.lt_one_iff.1 hb
          have ha' : (n - 1) % k = 0 := by omega
          rw [ha', hb'] at this
          omega
        simp only [hn2, true_or, not_true_eq_false, iff_false]
        rw [hn2] at this
        exact this
      · refine ⟨[], ?_, by simp⟩
        unfold removedPanels
        rw [if_neg (by omega)]
        have : 1 * 1 - n = 0 := by omega
        simp only [this]
        rfl
    · refine ⟨(k, (n - 1 + k - 1) / k), ?_, ?_, ?_, ?_⟩
      · unfold panelDims
        rw [if_pos (by omega), if_neg (by omega)]
      · intro i hi _ _
        exact ⟨Nat.mod_lt _ (by omega), panel_lt hk hi⟩
      · have hm : (n - 1) % k < k := Nat.mod_lt _ (by omega)
        simp only [hm, true_and, hn2, false_or]
        constructor
        · rintro hlt ⟨c, hc⟩
          rw [hc] at hlt
          have h1 : k * c / k = c := Nat.mul_div_cancel_left _ (by omega)
          have h2 : (k * c + k - 1) / k = c := by
            have : k * c + k - 1 = k * c + (k - 1) := by omega
            rw [this, Nat.mul_add_div (by omega), Nat.div_eq_of_lt (by omega), Nat.add_zero]
          omega
        · intro hnd
          have hmod : (n - 1) % k ≠ 0 := fun h => hnd (Nat.dvd_of_mod_eq_zero h)
          have e := Nat.div_add_mod (n - 1) k
          have : n - 1 + k - 1 = k * ((n - 1) / k + 1) + ((n - 1) % k - 1) := by
            rw [Nat.mul_add]
            omega
          rw [this, Nat.mul_add_div (by omega)]
          exact lt_of_lt_of_le (Nat.lt_succ_self _) (Nat.le_add_right _ _)
      · refine ⟨(List.range (k * ((n - 1 + k - 1) / k) - n)).map fun i => ((n + i) % k, (n + i) / k), ?_, ?_⟩
        · unfold removedPanels
          rw [if_neg (by omega)]
          apply mapE_ok
          intro i hi
          rw [List.mem_range] at hi
          simp only at hi
          apply panelAt_full hk
          rw [Nat.mul_comm]
          omega
        · intro p hp
          rw [List.mem_map] at hp
          obtain ⟨i, -, hi⟩ := hp
          exact ⟨n + i, by omega, hi.symm⟩
  have hstep : ∀ i < n, sfPlotStep s true dims k i (q.getD i 0) =
      if q.getD i 0 = 0 then .ok []
      else if i % k < dims.1 ∧ i / k < dims.2 then
        .ok (estimateCurves (i % k, i / k) s.j (s.logvalues.getD i []) j1 j2 ((s.zeta.getD i fun _ => Fl.nan) 0)
          ((s.intercept.getD i fun _ => Fl.nan) 0) ((s.zeta.getD i fun _ => Fl.nan) 0))
      else .error .indexError := by
    intro i hi
    by_cases hz : q.getD i 0 = 0
    · rw [if_pos hz]
      unfold sfPlotStep
      rw [if_pos ⟨hz, rfl⟩]
    · rw [if_neg hz]
      by_cases hin : i % k < dims.1 ∧ i / k < dims.2
      · rw [if_pos hin, ← hj1, ← hj2]
        apply sfPlotStep_draw (fun h => hz h.1)
        unfold panelAt
        rw [if_neg (by omega), if_pos hin]
      · rw [if_neg hin]
        unfold sfPlotStep
        rw [if_neg (fun h => hz h.1)]
        unfold panelAt
        rw [if_neg (by omega), if_neg hin]
  have hplot : s.plot nrow true = match mapE (fun i => sfPlotStep s true dims k i (q.getD i 0)) (List.range n) with
      | .error e => .error e
      | .ok curves => match removedPanels dims k n with
        | .error e => .error e
        | .ok removed => .ok ⟨dims.1, dims.2, removed, curves.flatten⟩ := by
    unfold StructFn.plot
    rw [hq, expos_val]
    simp only [h0, and_self, if_true, ← hndef, ← hkdef]
    simp only [hdims]
    cases mapE (fun i => sfPlotStep s true dims k i (q.getD i 0)) (List.range n) with
    | error e => rfl
    | ok c => cases removedPanels dims k n <;> rfl
  obtain ⟨rem, hrem, hremp⟩ := hrem
  have hinside : ∀ i < n, q.getD i 0 ≠ 0 → ¬ (i = n - 1 ∧ (n = 2 ∨ k ∣ n - 1)) → i % k < dims.1 ∧ i / k < dims.2 := by
    intro i hi hz hnot
    by_cases hlast : i = n - 1
    · rw [hlast]
      exact hfit.2 fun h => hnot ⟨hlast, h⟩
    · exact hd1 i (by omega) hi (by omega)
  by_cases hbad : (n = 2 ∨ k ∣ n - 1) ∧ q.getD (n - 1) 0 ≠ 0
  · have herr : s.plot nrow true = .error .indexError := by
      have hout : ¬ ((n - 1) % k < dims.1 ∧ (n - 1) / k < dims.2) := fun hin => hfit.1 hin hbad.1
      rw [hplot, mapE_error (e := .indexError)]
      · refine ⟨n - 1, List.mem_range.2 (by omega), ?_⟩
        rw [hstep _ (by omega), if_neg hbad.2, if_neg hout]
      · intro i hi e' he
        rw [List.mem_range] at hi
        rw [hstep i hi] at he
        split at he
        · exact absurd he (by simp)
        · split at he
          · exact absurd he (by simp)
          · rw [Except.error.injEq] at he
            exact he.symm
    exact ⟨⟨fun _ => hbad, fun _ => herr⟩, fun h => absurd herr h⟩
  · have hok : ∀ i ∈ List.range n, sfPlotStep s true dims k i (q.getD i 0) =
        .ok (if q.getD i 0 ≠ 0 then
          estimateCurves (i % k, i / k) s.j (s.logvalues.getD i []) j1 j2 ((s.zeta.getD i fun _ => Fl.nan) 0)
          ((s.intercept.getD i fun _ => Fl.nan) 0) ((s.zeta.getD i fun _ => Fl.nan) 0) else []) := by
      intro i hi
      rw [List.mem_range] at hi
      rw [hstep i hi]
      by_cases hz : q.getD i 0 = 0
      · rw [if_pos hz, if_neg (not_not.2 hz)]
      · rw [if_neg hz, if_pos hz, if_pos]
        apply hinside i hi hz
        rintro ⟨rfl, hd⟩
        exact hbad ⟨hd, hz⟩
    have hfig := hplot
    rw [mapE_ok _ _ _ hok] at hfig
    simp only [hrem] at hfig
    refine ⟨⟨fun h => ?_, fun h => absurd h hbad⟩, fun _ => ⟨_, fun i => (i % k, i / k), hfig, ?_, fun i _ i' _ h => panel_inj h, ?_⟩⟩
    · rw [hfig] at h
      exact absurd h (by simp)
    · intro i hi hz
      have hin : i % k < dims.1 ∧ i / k < dims.2 := by
        apply hinside i hi hz
        rintro ⟨rfl, hd⟩
        exact hbad ⟨hd, hz⟩
      refine ⟨hin.1, hin.2, fun hm => ?_⟩
      obtain ⟨t, ht, hp⟩ := hremp _ hm
      have := panel_inj hp
      omega
    · simp only
      generalize List.range n = l
      induction l with
      | nil => rfl
      | cons a l ih =>
        rw [List.map_cons, List.flatten_cons, ih, List.filter_cons]
        by_cases hz : q.getD a 0 = 0
        · rw [if_neg (not_not.2 hz), if_neg (by simpa using hz), List.nil_append]
        · rw [if_pos hz, if_pos (by simpa using hz), List.flatMap_cons]

/-- C78: for several realisations (or none) `plot` never returns: the legend is formatted for one number. -/
theorem C78_several {R : ℕ} (hR : R ≠ 1) {m : MRQ R} {q : QArg} {j1 j2 : ℤ} {w : Bool} {s : StructFn R}
    (h : StructFn.make m q j1 j2 w = .ok s) (nrow : ℕ) (ignore_q0 : Bool) : ∃ e, s.plot nrow ignore_q0 = .error e := by
  obtain ⟨hq, -, -⟩ := StructFn.make_fields h
  obtain ⟨l, hl, h2⟩ := StructFn.make_has_two h
  unfold StructFn.plot
  rw [hq, hl, expos_val]
  simp only
  split
  · exact ⟨_, rfl⟩
  rename_i dims _
  cases hm : mapE (fun i => sfPlotStep s ignore_q0 dims (min nrow l.length) i (l.getD i 0)) (List.range l.length) with
  | error e => exact ⟨e, rfl⟩
  | ok curves =>
    exfalso
    obtain ⟨i, hi, hi2⟩ := List.mem_iff_getElem.1 h2
    obtain ⟨c, hc⟩ := mapE_ok_mem hm (List.mem_range.2 hi)
    unfold sfPlotStep at hc
    rw [getD_of_lt hi, hi2, if_neg (by rintro ⟨h, -⟩; norm_num at h)] at hc
    simp only [fmtRow, dif_neg hR] at hc
    split at hc <;> exact absurd hc (by simp)

/-- The exponents -2, -1, 0, 1, 2: with the default arguments `plot` raises IndexError; with `ignore_q0=False`, or with the
exponents listed in another order (0 last), it succeeds. -/
example : (∃ s, StructFn.make (R := 1) bi1 (.ndarray [-2, -1, 0, 1, 2]) 1 2 true = .ok s ∧ s.plot 4 true = .error .indexError ∧
      ∃ fig, s.plot 4 false = .ok fig) ∧
    ∃ s, StructFn.make (R := 1) bi1 (.ndarray [-2, -1, 1, 2, 0]) 1 2 true = .ok s ∧ ∃ fig, s.plot 4 true = .ok fig := by
  have mk : ∀ q : List ℝ, (2 : ℝ) ∈ q → ∃ s, StructFn.make (R := 1) bi1 (.ndarray q) 1 2 true = .ok s := fun q h2 =>
    ⟨_, bi_paired.reg1.structFn (j1 := 1) (j2 := 2) (by norm_num) (by norm_num) (by norm_num) true q h2⟩
  constructor
  · obtain ⟨s, hs⟩ := mk [-2, -1, 0, 1, 2] (by simp)
    refine ⟨s, hs, ((C78_skipped_zero hs (by norm_num) (by simp)).1.2 ⟨.inr ?_, by simp⟩), ?_⟩
    · simp
    · obtain ⟨fig, _, hf, _⟩ := C78_structure_plot hs (nrow := 4) (by norm_num) (.inl rfl)
      exact ⟨fig, hf⟩
  · obtain ⟨s, hs⟩ := mk [-2, -1, 1, 2, 0] (by simp)
    have h := C78_skipped_zero hs (nrow := 4) (by norm_num) (by simp)
    obtain ⟨fig, _, hf, _⟩ := h.2 fun he => (h.1.1 he).2 (by simp)
    exact ⟨s, hs, fig, hf⟩

/-! ### C79 -/

theorem Cumulants.make_fields {R : ℕ} {m : MRQ R} {n : ℕ} {j1 j2 : ℤ} {w : Bool} {c : Cumulants R}
    (h : Cumulants.make m n j1 j2 w = .ok c) : c.n_cumul = n ∧ c.j1 = j1 ∧ c.j2 = j2 := by
  unfold Cumulants.make at h
  split at h
  · exact absurd h (by simp)
  simp only at h
  split at h
  · exact absurd h (by simp)
  split at h
  · exact absurd h (by simp)
  rw [Except.ok.injEq] at h
  subst h
  exact ⟨rfl, rfl, rfl⟩

/-- C79: plotting the cumulants of one realisation succeeds for every number of orders `n_cumul >= 1` and every `nrow >= 1`: order
`m` has its own panel with `C_m(j)` at all scales and the line fitted to it (whose slope is `slope`, not the log-cumulant) between
`j1` and `j2`, labelled with the log-cumulant `c_m`; the panels that belong to no order, and only those, are removed. -/
theorem C79_cumulants_plot {m : MRQ 1} {n : ℕ} {j1 j2 : ℤ} {w : Bool} {c : Cumulants 1}
    (h : Cumulants.make m n j1 j2 w = .ok c) (h1 : 1 ≤ n) {nrow : ℕ} (hn : 1 ≤ nrow) :
    ∃ fig panel, c.plot nrow = .ok fig ∧ Layout fig n panel ∧
      fig.rows = min nrow n ∧ (fig.cols - 1) * fig.rows < n ∧
      fig.curves = (List.range n).flatMap fun i =>
        estimateCurves (panel i) c.j (c.values.getD i []) j1 j2 ((c.slope.getD i fun _ => Fl.nan) 0)
          ((c.intercept.getD i fun _ => Fl.nan) 0) ((c.log_cumulants.getD i fun _ => Fl.nan) 0) := by
  obtain ⟨hc, hj1, hj2⟩ := Cumulants.make_fields h
  have hk : 1 ≤ min nrow n := by omega
  have hkn : min nrow n ≤ n := min_le_right _ _
  refine ⟨_, _, ?_, layout_full (n := n) hk _, rfl, cols_min hk h1, rfl⟩
  unfold Cumulants.plot
  rw [hc]
  simp only
  rw [panelDims_full hk hkn]
  simp only
  rw [mapE_ok _ (fun i => estimateCurves (i % min nrow n, i / min nrow n) c.j (c.values.getD i []) c.j1 c.j2
      ((c.slope.getD i fun _ => Fl.nan) 0) ((c.intercept.getD i fun _ => Fl.nan) 0)
      ((c.log_cumulants.getD i fun _ => Fl.nan) 0))]
  · simp only
    rw [removedPanels_full hk h1, hj1, hj2]
  · intro i hi
    rw [List.mem_range] at hi
    unfold cmPlotStep
    rw [panelAt_used hk hi]
    simp only [fmtRow, dite_true, fittedLine_one, ne_eq, not_true_eq_false, if_false]
    rfl

/-- C79: for several realisations the panels are laid out but nothing is drawn in them, without an exception. -/
theorem C79_several {R : ℕ} (hR : R ≠ 1) {m : MRQ R} {n : ℕ} {j1 j2 : ℤ} {w : Bool} {c : Cumulants R}
    (h : Cumulants.make m n j1 j2 w = .ok c) (h1 : 1 ≤ n) {nrow : ℕ} (hn : 1 ≤ nrow) :
    ∃ fig panel, c.plot nrow = .ok fig ∧ Layout fig n panel ∧ fig.curves = [] := by
  obtain ⟨hc, hj1, hj2⟩ := Cumulants.make_fields h
  have hk : 1 ≤ min nrow n := by omega
  have hkn : min nrow n ≤ n := min_le_right _ _
  refine ⟨_, _, ?_, layout_full (n := n) hk _, rfl⟩
  unfold Cumulants.plot
  rw [hc]
  simp only
  rw [panelDims_full hk hkn]
  simp only
  rw [mapE_ok _ (fun _ => [])]
  · simp only
    rw [removedPanels_full hk h1]
    simp
  · intro i hi
    rw [List.mem_range] at hi
    unfold cmPlotStep
    rw [panelAt_used hk hi]
    simp only [ne_eq, hR, not_false_eq_true, if_true]

/-- C79: a `Cumulants` object of order 0 can be built but not plotted. -/
theorem C79_order_zero {R : ℕ} {m : MRQ R} {j1 j2 : ℤ} {w : Bool} {c : Cumulants R}
    (h : Cumulants.make m 0 j1 j2 w = .ok c) (nrow : ℕ) : c.plot nrow = .error .unboundLocalError := by
  obtain ⟨hc, -, -⟩ := Cumulants.make_fields h
  unfold Cumulants.plot
  rw [hc]
  rfl

/-- Five orders in a grid with three rows: two columns, and the sixth panel is removed. -/
example : ∃ c, Cumulants.make (R := 1) bi1 5 1 2 true = .ok c ∧ ∃ fig, c.plot 3 = .ok fig ∧ fig.rows = 3 ∧ fig.cols = 2 ∧
    fig.removed = [(2, 1)] ∧ fig.curves.length = 10 := by
  have hc := bi_paired.reg1.cumulants (j1 := 1) (j2 := 2) (by norm_num) (by norm_num) (by norm_num) true 5
  refine ⟨_, hc, _, rfl, rfl, rfl, rfl, rfl⟩

end MFA
