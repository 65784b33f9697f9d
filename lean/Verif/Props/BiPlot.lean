import Verif.Props.Plot
import Verif.Spec.BiSpectrum

/-! Properties C80, C81: what the bivariate plotting methods draw, and when they raise. -/

namespace MFA

open Classical

/-! ### C80 -/

/-- The two curves of one panel of a bivariate figure: the estimates at all scales `js`, and the points of the straight line
`slope * j + intercept` at the scales `j1 .. j2`, with the printed value `legend`. -/
noncomputable def biEstimateCurves (panel : ℕ × ℕ) (js : List ℤ) (values : List Fl) (j1 j2 : ℤ) (slope intercept legend : Fl) :
    List (Curve 1) :=
  [{ panel := panel, x := js, y := values.map fun v _ => v, legend := none },
   { panel := panel, x := arange j1 (j2 + 1), y := (arange j1 (j2 + 1)).map fun (t : ℤ) _ => slope * Fl.fin (t : ℝ) + intercept
     legend := some legend }]

theorem biCurves_eq (panel : ℕ × ℕ) (js : List ℤ) (values : List Fl) (j1 j2 : ℤ) (a b l : Fl) :
    biCurves panel js values j1 j2 a b l = biEstimateCurves panel js values j1 j2 a b l := by
  unfold biCurves biEstimateCurves
  simp only [Fl.mul_comm a]

theorem bcast_ok_ne {α β γ : Type} {err : PyErr} {f : α → β → γ} {a : List α} {b : List β} {l : List γ}
    (h : bcast err f a b = .ok l) (hl : l ≠ []) : a ≠ [] ∧ b ≠ [] := by
  constructor
  · rintro rfl
    unfold bcast at h
    split at h
    · rw [List.zipWith_nil_left, Except.ok.injEq] at h; exact hl h.symm
    · split at h
      · rename_i heq _; exact absurd heq (by simp)
      · simp only [List.map_nil, Except.ok.injEq] at h; exact hl h.symm
      · exact absurd h (by simp)
  · rintro rfl
    unfold bcast at h
    split at h
    · rw [List.zipWith_nil_right, Except.ok.injEq] at h; exact hl h.symm
    · split at h
      · simp only [List.map_nil, Except.ok.injEq] at h; exact hl h.symm
      · rename_i heq _; exact absurd heq (by simp)
      · exact absurd h (by simp)

theorem positions_mem {q : List ℝ} {v : ℝ} (h : positions q v ≠ []) : v ∈ q := by
  obtain ⟨i, hi⟩ := List.exists_mem_of_ne_nil _ h
  unfold positions at hi
  rw [List.mem_filter] at hi
  have : q[i]? = some v := by simpa using hi.2
  exact List.mem_of_getElem? this

theorem first_ne {α : Type} {l : List α} {x : α} (h : first l = .ok x) : l ≠ [] := by
  rintro rfl
  exact absurd h (by simp [first])

theorem bsCoherence_exponents {scales : List (List (Fl × Fl))} {q1 q2 : QArg} {l : List Fl}
    (h : bsCoherence scales q1 q2 = .ok l) :
    ∃ a b, q1 = .ndarray a ∧ q2 = .ndarray b ∧ ((1 : ℝ) ∈ a ∧ (2 : ℝ) ∈ a ∧ (0 : ℝ) ∈ a) ∧ (1 : ℝ) ∈ b ∧ (2 : ℝ) ∈ b ∧ (0 : ℝ) ∈ b := by
  rcases q1 with a | a <;> rcases q2 with b | b
  · refine ⟨a, b, rfl, rfl, ?_⟩
    simp only [bsCoherence] at h
    split at h
    · exact absurd h (by simp)
    rename_i l11 h11
    split at h
    · exact absurd h (by simp)
    rename_i v11 hv11
    split at h
    · exact absurd h (by simp)
    rename_i l20 h20
    split at h
    · exact absurd h (by simp)
    rename_i l02 h02
    split at h
    · exact absurd h (by simp)
    rename_i den hden
    split at h
    · exact absurd h (by simp)
    rename_i d hd
    have n := bcast_ok_ne hden (first_ne hd)
    have p11 := bcast_ok_ne h11 (first_ne hv11)
    have p20 := bcast_ok_ne h20 n.1
    have p02 := bcast_ok_ne h02 n.2
    exact ⟨⟨positions_mem p11.1, positions_mem p20.1, positions_mem p02.1⟩, positions_mem p11.2, positions_mem p02.2,
      positions_mem p20.2⟩
  all_goals exact absurd h (by simp [bsCoherence])

theorem two_of_mem {q : List ℝ} (h1 : (1 : ℝ) ∈ q) (h2 : (2 : ℝ) ∈ q) : 2 ≤ q.length := by
  rcases q with - | ⟨a, - | ⟨b, t⟩⟩
  · simp at h1
  · simp at h1 h2
    rw [← h1] at h2
    norm_num at h2
  · simp

/-- C80: every `BiStructureFunction` that could be built can be plotted (its coherence needs the exponents 0, 1 and 2 of both
signals, so the grid of panels has at least two rows and columns): the panel in row `i` and column `k` shows the estimates and the
line of slope `zeta(q1_i, q2_k)` at the scales `j1 .. j2`, labelled with that slope. -/
theorem C80_structure_plot {R : ℕ} {same : Bool} {m1 m2 : MRQ R} {j1 j2 : ℤ} {q1 q2 : QArg} {w : Bool} {s : BiStructFn}
    (h : BiStructFn.make same m1 m2 j1 j2 q1 q2 w = .ok s) :
    ∃ fig, s.plot = .ok fig ∧ fig.rows = q1.expos.length ∧ fig.cols = q2.expos.length ∧ 2 ≤ fig.rows ∧ 2 ≤ fig.cols ∧
      fig.removed = [] ∧
      fig.curves = (List.range q1.expos.length).flatMap fun i => (List.range q2.expos.length).flatMap fun k =>
        biEstimateCurves (i, k) s.j ((s.logvalues.getD i []).getD k []) j1 j2 ((s.zeta.getD i []).getD k Fl.nan)
          ((s.intercept.getD i []).getD k Fl.nan) ((s.zeta.getD i []).getD k Fl.nan) := by
  unfold BiStructFn.make at h
  split at h
  · exact absurd h (by simp)
  split at h
  · exact absurd h (by simp)
  split at h
  · exact absurd h (by simp)
  · exact absurd h (by simp)
  split at h
  · exact absurd h (by simp)
  split at h
  · exact absurd h (by simp)
  split at h
  · exact absurd h (by simp)
  rename_i coh hcoh
  simp only at h
  split at h
  · exact absurd h (by simp)
  split at h
  · exact absurd h (by simp)
  obtain ⟨a, b, rfl, rfl, ⟨ha1, ha2, -⟩, hb1, hb2, -⟩ := bsCoherence_exponents hcoh
  rw [Except.ok.injEq] at h
  subst h
  have la : 2 ≤ (QArg.ndarray a).expos.length := by simpa [QArg.expos] using two_of_mem ha1 ha2
  have lb : 2 ≤ (QArg.ndarray b).expos.length := by simpa [QArg.expos] using two_of_mem hb1 hb2
  have hg : squeezedGrid (QArg.ndarray a).expos.length (QArg.ndarray b).expos.length = .ok () := by
    unfold squeezedGrid
    rw [if_neg (by omega), if_neg (by omega), if_neg (by omega)]
  refine ⟨_, by unfold BiStructFn.plot; simp only [hg]; rfl, rfl, rfl, la, lb, rfl, ?_⟩
  simp only [biCurves_eq]

theorem BiCumulants.make_fields {R : ℕ} {same : Bool} {m1 m2 : MRQ R} {n : ℕ} {j1 j2 : ℤ} {w : Bool} {c : BiCumulants R}
    (h : BiCumulants.make same m1 m2 n j1 j2 w = .ok c) :
    c.n_cumul = n ∧ c.j1 = j1 ∧ c.j2 = j2 ∧ (∀ a b, c.log_cumulants a b = c.slope a b * Fl.fin log2e) ∧
      (m1.formalism ≠ .coef → 2 ≤ n) := by
  unfold BiCumulants.make at h
  split at h
  · exact absurd h (by simp)
  split at h
  · exact absurd h (by simp)
  · exact absurd h (by simp)
  split at h
  · exact absurd h (by simp)
  simp only at h
  split at h
  · exact absurd h (by simp)
  split at h
  · exact absurd h (by simp)
  split at h
  · rename_i hf
    rw [Except.ok.injEq] at h
    subst h
    exact ⟨rfl, rfl, rfl, fun _ _ => rfl, fun hne => absurd hf hne⟩
  · split at h
    · exact absurd h (by simp)
    · rw [Except.ok.injEq] at h
      subst h
      exact ⟨rfl, rfl, rfl, fun _ _ => rfl, fun _ => by omega⟩

/-- C80: for `n_cumul >= 2` (always the case for leaders) the marginal cumulants of order `1 .. n_cumul` are drawn in a grid with one
row per order and one column per signal, each with the line fitted to it, labelled with the log-cumulant; the second figure
shows `C11` with the line fitted to it, labelled with its slope. -/
theorem C80_cumulants_plot {R : ℕ} {same : Bool} {m1 m2 : MRQ R} {n : ℕ} {j1 j2 : ℤ} {w : Bool} {c : BiCumulants R}
    (h : BiCumulants.make same m1 m2 n j1 j2 w = .ok c) (hn : m1.formalism ≠ .coef ∨ 2 ≤ n) :
    ∃ fig figC, c.plot = .ok (fig, figC) ∧ fig.rows = n ∧ fig.cols = 2 ∧ fig.removed = [] ∧
      fig.curves = (List.range n).flatMap (fun i =>
        biEstimateCurves (i, 0) c.j (c.values (i + 1) 0) j1 j2 (c.slope (i + 1) 0) (c.intercept (i + 1) 0)
            (c.log_cumulants (i + 1) 0) ++
          biEstimateCurves (i, 1) c.j (c.values 0 (i + 1)) j1 j2 (c.slope 0 (i + 1)) (c.intercept 0 (i + 1))
            (c.log_cumulants 0 (i + 1))) ∧
      figC.rows = 1 ∧ figC.cols = 1 ∧ figC.removed = [] ∧
      figC.curves = biEstimateCurves (0, 0) c.j (c.values 1 1) j1 j2 (c.slope 1 1) (c.intercept 1 1) (c.slope 1 1) := by
  obtain ⟨hc, hj1, hj2, -, hf⟩ := BiCumulants.make_fields h
  have h2 : 2 ≤ n := hn.elim hf id
  have hg : squeezedGrid n 2 = .ok () := by
    unfold squeezedGrid
    rw [if_neg (by omega), if_neg (by omega), if_neg (by omega)]
  refine ⟨_, _, by unfold BiCumulants.plot; simp only [hc, hg, hj1, hj2]; rfl, rfl, rfl, rfl, ?_, rfl, rfl, rfl, ?_⟩ <;>
  simp only [biCurves_eq]

/-- C80: with one or no order (possible for wavelet coefficients only) `plot` raises: a grid with one row is not indexed with
two indices. -/
theorem C80_needs_two_orders {R : ℕ} {same : Bool} {m1 m2 : MRQ R} {n : ℕ} {j1 j2 : ℤ} {w : Bool} {c : BiCumulants R}
    (h : BiCumulants.make same m1 m2 n j1 j2 w = .ok c) :
    (n = 1 → c.plot = .error .indexError) ∧ (n = 0 → c.plot = .error .valueError) := by
  obtain ⟨hc, -⟩ := BiCumulants.make_fields h
  constructor
  · rintro rfl
    unfold BiCumulants.plot squeezedGrid
    rw [hc]
    rfl
  · rintro rfl
    unfold BiCumulants.plot squeezedGrid
    rw [hc]
    rfl

/-- C80: the number printed next to `c11` is not the log-cumulant `c11` (as for the other cumulants) but `c11` divided by `log2 e`:
the two differ whenever `c11` is finite and not zero. -/
theorem C80_c11_label {R : ℕ} {same : Bool} {m1 m2 : MRQ R} {n : ℕ} {j1 j2 : ℤ} {w : Bool} {c : BiCumulants R}
    (h : BiCumulants.make same m1 m2 n j1 j2 w = .ok c) {fig figC : Figure 1} (hp : c.plot = .ok (fig, figC)) :
    ∃ label, (figC.curves.filterMap Curve.legend) = [label] ∧ c.log_cumulants 1 1 = label * Fl.fin (Real.logb 2 (Real.exp 1)) ∧
      ∀ v : ℝ, c.log_cumulants 1 1 = Fl.fin v → v ≠ 0 → label ≠ Fl.fin v := by
  obtain ⟨hc, hj1, hj2, hl, hf⟩ := BiCumulants.make_fields h
  unfold BiCumulants.plot at hp
  split at hp
  · exact absurd hp (by simp)
  rw [Except.ok.injEq, Prod.mk.injEq] at hp
  obtain ⟨-, rfl⟩ := hp
  refine ⟨c.slope 1 1, rfl, hl 1 1, fun v hv hv0 he => ?_⟩
  rw [hl, he, Fl.fin_mul, Fl.fin_inj] at hv
  have : log2e = 1 := mul_left_cancel₀ hv0 (by rw [hv, mul_one])
  unfold log2e at this
  rw [Real.logb, div_eq_one_iff_eq (Real.log_pos (by norm_num)).ne', Real.log_exp] at this
  have := Real.log_lt_sub_one_of_pos (show (0:ℝ) < 2 by norm_num) (by norm_num)
  linarith

/-! ### C81 -/

theorem npMax_fin (a : ℝ) (t : List ℝ) : npMax ((a :: t).map Fl.fin) = .ok (Fl.fin (t.foldl max a)) := by
  simp only [List.map_cons, npMax, Except.ok.injEq]
  induction t generalizing a with
  | nil => rfl
  | cons b t ih =>
    rw [List.map_cons, List.foldl_cons, List.foldl_cons]
    rw [← ih (max a b)]
    rfl

theorem foldl_max_nonneg (t : List ℝ) : ∀ a : ℝ, 0 ≤ t.foldl max a ↔ 0 ≤ a ∨ ∃ x ∈ t, 0 ≤ x := by
  induction t with
  | nil => simp
  | cons b t ih =>
    intro a
    rw [List.foldl_cons, ih, le_max_iff]
    simp only [List.mem_cons, exists_eq_or_imp]
    tauto

theorem colMask_fin {L : ℕ → ℕ → Fl} {D : ℕ → ℕ → ℝ} {n k : ℕ} (hn : n ≠ 0) (h : ∀ i < n, ∀ c < k, L i c = Fl.fin (D i c)) :
    colMask L n k = .ok ((List.range k).map fun c => decide (∃ i < n, 0 ≤ D i c)) := by
  unfold colMask
  apply mapE_ok
  intro c hc
  rw [List.mem_range] at hc
  have : ((List.range n).map fun i => L i c) = ((List.range n).map fun i => D i c).map Fl.fin := by
    rw [List.map_map]
    apply List.map_congr_left
    intro i hi
    rw [List.mem_range] at hi
    exact h i hi c hc
  rw [this]
  have hex : (∃ i < n, 0 ≤ D i c) ↔ ∃ x ∈ (List.range n).map fun i => D i c, 0 ≤ x := by
    simp [List.mem_map, List.mem_range]
  simp only [hex]
  rcases hl : (List.range n).map fun i => D i c with - | ⟨a, t⟩
  · have := congrArg List.length hl
    simp at this
    exact absurd this hn
  · rw [npMax_fin]
    simp only [flNonneg, foldl_max_nonneg, List.mem_cons, exists_eq_or_imp]

theorem selectMask_map {α : Type} (g : ℕ → α) (p : ℕ → Bool) (l : List ℕ) :
    selectMask (l.map g) (l.map p) = (l.filter p).map g := by
  unfold selectMask
  induction l with
  | nil => rfl
  | cons a l ih =>
    rw [List.map_cons, List.map_cons, List.zip_cons_cons, List.filter_cons, List.filter_cons]
    by_cases h : p a = true
    · rw [if_pos h, if_pos h, List.map_cons, List.map_cons, ih]
    · rw [if_neg h, if_neg h, ih]

theorem selectMask_id (p : ℕ → Bool) (l : List ℕ) : selectMask l (l.map p) = l.filter p := by
  have := selectMask_map (fun i => i) p l
  rwa [List.map_id', List.map_id'] at this

/-- The grid points that `plot_legendre` looks at. -/
noncomputable def legendreGrid (a b : ℝ) (n i : ℕ) : ℝ := (linspace a b n).getD i 0

section

variable {R : ℕ} {c : BiCumulants R} {c10 c01 c20 c02 c11 : ℝ}

theorem computeLegendre_fin (e10 : c.log_cumulants 1 0 = Fl.fin c10)
    (e01 : c.log_cumulants 0 1 = Fl.fin c01) (e20 : c.log_cumulants 2 0 = Fl.fin c20)
    (e02 : c.log_cumulants 0 2 = Fl.fin c02) (e11 : c.log_cumulants 1 1 = Fl.fin c11) (hdet : c20 * c02 - c11 ^ 2 ≠ 0)
    (a b : ℝ) (n i k : ℕ) :
    (c.computeLegendre (a, b) n).2 i k =
      Fl.fin (biSpectrum c10 c01 c20 c02 c11 (legendreGrid a b n i) (legendreGrid a b n k)) := by
  have hb : c20 * c02 - c11 * c11 ≠ 0 := by rwa [← sq]
  unfold BiCumulants.computeLegendre
  simp only [e10, e01, e20, e02, e11]
  simp only [Fl.fin_mul, Fl.fin_sub, Fl.fin_div hb, Fl.fin_div (two_ne_zero (α := ℝ)), Fl.fin_add]
  rw [Fl.fin_inj]
  unfold biSpectrum legendreGrid
  field_simp
  ring

theorem linspace_eq_map (a b : ℝ) (n : ℕ) : linspace a b n = (List.range n).map (legendreGrid a b n) := by
  apply List.ext_getElem
  · simp [linspace]
  · intro i h1 h2
    rw [List.getElem_map, List.getElem_range]
    unfold legendreGrid
    rw [getD_of_lt h1]

end

/-- C81: the surface that `plot_legendre` and `plot_legendre_pv` hand to the plotting library.  Its height over the point
`(X, Y)` is the joint spectrum at the exponent `Y` of the FIRST signal and `X` of the SECOND (the label `h1` of the first axis of
`plot_legendre_pv` is wrong); the exponents are those points of a regular grid for which the spectrum is not negative for
some exponent, in the grid, of the other signal. -/
theorem C81_surface {R : ℕ} {c : BiCumulants R} {c10 c01 c20 c02 c11 : ℝ} (e10 : c.log_cumulants 1 0 = Fl.fin c10)
    (e01 : c.log_cumulants 0 1 = Fl.fin c01) (e20 : c.log_cumulants 2 0 = Fl.fin c20)
    (e02 : c.log_cumulants 0 2 = Fl.fin c02) (e11 : c.log_cumulants 1 1 = Fl.fin c11) (hdet : c20 * c02 - c11 ^ 2 ≠ 0)
    {resolution : ℕ} {S : Surface} (h : c.plotLegendre resolution = .ok S) :
    S.hx ≠ [] ∧ S.hy ≠ [] ∧
    S.z = S.hy.map (fun y => S.hx.map fun x => Fl.fin (biSpectrum c10 c01 c20 c02 c11 y x)) ∧
    ∃ a b, c.legendreRange = .ok (a, b) ∧
      S.hx = (linspace a b resolution).filter (fun x => ∃ y ∈ linspace a b resolution, 0 ≤ biSpectrum c10 c01 c20 c02 c11 y x) ∧
      S.hy = (linspace a b resolution).filter (fun y => ∃ x ∈ linspace a b resolution, 0 ≤ biSpectrum c10 c01 c20 c02 c11 y x) := by
  unfold BiCumulants.plotLegendre at h
  split at h
  · exact absurd h (by simp)
  rename_i range hr
  obtain ⟨a, b⟩ := range
  simp only at h
  split at h
  · exact absurd h (by simp)
  rename_i hres
  have hL := computeLegendre_fin e10 e01 e20 e02 e11 hdet a b resolution
  have hgrid : (c.computeLegendre (a, b) resolution).1 = (List.range resolution).map (legendreGrid a b resolution) :=
    linspace_eq_map a b resolution
  unfold rowMask at h
  rw [colMask_fin hres (fun i _ k _ => hL i k), colMask_fin hres (fun i _ k _ => hL k i), hgrid] at h
  simp only [selectMask_map, selectMask_id] at h
  split at h
  · exact absurd h (by simp)
  rename_i my' hmy
  set g := legendreGrid a b resolution with hg
  set D := fun i k => biSpectrum c10 c01 c20 c02 c11 (g i) (g k) with hD
  set cols := (List.range resolution).filter fun k => decide (∃ i < resolution, 0 ≤ D i k) with hcols
  have hne : cols.length ≠ 0 := by
    intro h0
    rw [h0] at hmy
    obtain ⟨t, ht⟩ := mapE_ok_mem hmy (List.mem_range.2 (Nat.pos_of_ne_zero hres))
    simp [npMax] at ht
  have hcolmem : ∀ k, k ∈ cols ↔ k < resolution ∧ ∃ i < resolution, 0 ≤ D i k := by
    intro k
    rw [hcols, List.mem_filter, List.mem_range]
    simp
  rw [colMask_fin (D := fun k i => D i (cols.getD k 0)) hne (fun k _ i _ => hL i _)] at hmy
  rw [Except.ok.injEq] at hmy h
  subst hmy
  subst h
  have hrows : ∀ i < resolution, (∃ k < cols.length, 0 ≤ D i (cols.getD k 0)) ↔ ∃ k < resolution, 0 ≤ D i k := by
    intro i hi
    constructor
    · rintro ⟨k, hk, h0⟩
      rw [getD_of_lt hk] at h0
      exact ⟨_, ((hcolmem _).1 (List.getElem_mem hk)).1, h0⟩
    · rintro ⟨k, hk, h0⟩
      obtain ⟨t, ht, he⟩ := List.mem_iff_getElem.1 ((hcolmem k).2 ⟨hk, i, hi, h0⟩)
      exact ⟨t, ht, by rw [getD_of_lt ht, he]; exact h0⟩
  have hfil : ((List.range resolution).filter fun i => decide (∃ k < cols.length, 0 ≤ D i (cols.getD k 0))) =
      (List.range resolution).filter fun i => decide (∃ k < resolution, 0 ≤ D i k) := by
    apply List.filter_congr
    intro i hi
    rw [List.mem_range] at hi
    simp only [hrows i hi]
  have hlin : linspace a b resolution = (List.range resolution).map g := linspace_eq_map a b resolution
  refine ⟨?_, ?_, ?_, a, b, hr, ?_, ?_⟩
  · simp only [ne_eq, List.map_eq_nil_iff]
    intro h0
    exact hne (by rw [h0]; rfl)
  · simp only [ne_eq, List.map_eq_nil_iff]
    intro h0
    obtain ⟨k, hk⟩ := List.exists_mem_of_length_pos (Nat.pos_of_ne_zero hne)
    obtain ⟨hk1, i, hi, hik⟩ := (hcolmem k).1 hk
    have : i ∈ (List.range resolution).filter fun i => decide (∃ k < resolution, 0 ≤ D i k) := by
      rw [List.mem_filter, List.mem_range]
      exact ⟨hi, by simpa using ⟨k, hk1, hik⟩⟩
    rw [h0] at this
    simp at this
  · simp only [List.map_map]
    rw [selectMask_id, hfil]
    apply List.map_congr_left
    intro i _
    simp only [Function.comp_apply]
    apply List.map_congr_left
    intro k _
    exact hL i k
  · simp only
    rw [hlin, List.filter_map]
    refine congrArg (List.map g) (List.filter_congr fun k _ => ?_)
    rw [Function.comp_apply, decide_eq_decide]
    constructor
    · rintro ⟨i, hi, h0⟩
      exact ⟨g i, List.mem_map_of_mem (List.mem_range.2 hi), h0⟩
    · rintro ⟨y, hy, h0⟩
      obtain ⟨i, hi, rfl⟩ := List.mem_map.1 hy
      exact ⟨i, List.mem_range.1 hi, h0⟩
  · simp only
    rw [hlin, List.filter_map]
    refine congrArg (List.map g) (List.filter_congr fun k _ => ?_)
    rw [Function.comp_apply, decide_eq_decide]
    constructor
    · rintro ⟨i, hi, h0⟩
      exact ⟨g i, List.mem_map_of_mem (List.mem_range.2 hi), h0⟩
    · rintro ⟨y, hy, h0⟩
      obtain ⟨i, hi, rfl⟩ := List.mem_map.1 hy
      exact ⟨i, List.mem_range.1 hi, h0⟩

theorem foldl_min_spec (t : List ℝ) : ∀ a : ℝ, t.foldl min a ∈ a :: t ∧ ∀ x ∈ a :: t, t.foldl min a ≤ x := by
  induction t with
  | nil => intro a; simp
  | cons b t ih =>
    intro a
    rw [List.foldl_cons]
    obtain ⟨h1, h2⟩ := ih (min a b)
    constructor
    · rcases List.mem_cons.1 h1 with h | h
      · rw [h]
        rcases min_choice a b with h | h <;> rw [h] <;> simp
      · simp [h]
    · intro x hx
      have h3 := h2 _ List.mem_cons_self
      rcases List.mem_cons.1 hx with rfl | hx
      · exact h3.trans (min_le_left _ _)
      rcases List.mem_cons.1 hx with rfl | hx
      · exact h3.trans (min_le_right _ _)
      · exact h2 _ (List.mem_cons_of_mem _ hx)

theorem foldl_max_spec (t : List ℝ) : ∀ a : ℝ, t.foldl max a ∈ a :: t ∧ ∀ x ∈ a :: t, x ≤ t.foldl max a := by
  induction t with
  | nil => intro a; simp
  | cons b t ih =>
    intro a
    rw [List.foldl_cons]
    obtain ⟨h1, h2⟩ := ih (max a b)
    constructor
    · rcases List.mem_cons.1 h1 with h | h
      · rw [h]
        rcases max_choice a b with h | h <;> rw [h] <;> simp
      · simp [h]
    · intro x hx
      have h3 := h2 _ List.mem_cons_self
      rcases List.mem_cons.1 hx with rfl | hx
      · exact (le_max_left _ _).trans h3
      rcases List.mem_cons.1 hx with rfl | hx
      · exact (le_max_right _ _).trans h3
      · exact h2 _ (List.mem_cons_of_mem _ hx)

/-- Point `x` of the grid `G` is an exponent, of either signal, of a pair in `G x G` where the spectrum is not negative. -/
def Supported (D : ℝ → ℝ → ℝ) (G : List ℝ) (x : ℝ) : Prop := x ∈ G ∧ ∃ y ∈ G, 0 ≤ D x y ∨ 0 ≤ D y x

theorem legendreRangeOn_spec {R : ℕ} {c : BiCumulants R} {c10 c01 c20 c02 c11 : ℝ} (e10 : c.log_cumulants 1 0 = Fl.fin c10)
    (e01 : c.log_cumulants 0 1 = Fl.fin c01) (e20 : c.log_cumulants 2 0 = Fl.fin c20)
    (e02 : c.log_cumulants 0 2 = Fl.fin c02) (e11 : c.log_cumulants 1 1 = Fl.fin c11) (hdet : c20 * c02 - c11 ^ 2 ≠ 0)
    {n : ℕ} (hn0 : n ≠ 0) :
    (∃ a b, c.legendreRangeOn n = .ok (a, b) ∧ Supported (biSpectrum c10 c01 c20 c02 c11) (linspace 0 (3 / 2) n) a ∧
      Supported (biSpectrum c10 c01 c20 c02 c11) (linspace 0 (3 / 2) n) b ∧
      ∀ x, Supported (biSpectrum c10 c01 c20 c02 c11) (linspace 0 (3 / 2) n) x → a ≤ x ∧ x ≤ b) ∨
    (c.legendreRangeOn n = .error .valueError ∧
      ∀ x, ¬ Supported (biSpectrum c10 c01 c20 c02 c11) (linspace 0 (3 / 2) n) x) := by
  have hL := computeLegendre_fin e10 e01 e20 e02 e11 hdet 0 (3 / 2) n
  have hgrid : (c.computeLegendre (0, 3 / 2) n).1 = (List.range n).map (legendreGrid 0 (3 / 2) n) := linspace_eq_map _ _ _
  have hG := linspace_eq_map 0 (3 / 2) n
  generalize legendreGrid 0 (3 / 2) n = g at hL hgrid hG
  rw [hG]
  unfold BiCumulants.legendreRangeOn rowMask
  simp only
  rw [colMask_fin hn0 (fun i _ k _ => hL i k), colMask_fin hn0 (fun i _ k _ => hL k i), hgrid]
  simp only [selectMask_map]
  obtain ⟨l, hl⟩ : ∃ l, l = ((List.range n).filter fun k => decide (∃ i < n, 0 ≤ biSpectrum c10 c01 c20 c02 c11 (g i) (g k))).map g ++
      ((List.range n).filter fun k => decide (∃ i < n, 0 ≤ biSpectrum c10 c01 c20 c02 c11 (g k) (g i))).map g := ⟨_, rfl⟩
  rw [← hl]
  have hmem : ∀ x, x ∈ l ↔ Supported (biSpectrum c10 c01 c20 c02 c11) ((List.range n).map g) x := by
    intro x
    rw [hl, List.mem_append, List.mem_map, List.mem_map]
    unfold Supported
    simp only [List.mem_filter, List.mem_range, List.mem_map, decide_eq_true_eq]
    constructor
    · rintro (⟨k, ⟨hk, i, hi, h0⟩, rfl⟩ | ⟨k, ⟨hk, i, hi, h0⟩, rfl⟩)
      · exact ⟨⟨k, hk, rfl⟩, g i, ⟨i, hi, rfl⟩, .inr h0⟩
      · exact ⟨⟨k, hk, rfl⟩, g i, ⟨i, hi, rfl⟩, .inl h0⟩
    · rintro ⟨⟨k, hk, rfl⟩, y, ⟨i, hi, rfl⟩, h0 | h0⟩
      · exact .inr ⟨k, ⟨hk, i, hi, h0⟩, rfl⟩
      · exact .inl ⟨k, ⟨hk, i, hi, h0⟩, rfl⟩
  rcases l with - | ⟨x, t⟩
  · refine .inr ⟨rfl, fun x hx => ?_⟩
    exact absurd ((hmem x).2 hx) (by simp)
  · obtain ⟨m1, m2⟩ := foldl_min_spec t x
    obtain ⟨M1, M2⟩ := foldl_max_spec t x
    exact .inl ⟨_, _, rfl, (hmem _).1 m1, (hmem _).1 M1, fun y hy => ⟨m2 _ ((hmem _).2 hy), M2 _ ((hmem _).2 hy)⟩⟩

/-- C81: the range of exponents of the surface: with `G` the regular grid of 200 points of `[0, 1.5]` (whatever `h_support` the caller
asks for), the least and the greatest point of `G` that is an exponent, of either signal, of a pair in `G x G` where the spectrum
is not negative.  When the spectrum is negative on all of `G x G`, `plot_legendre` raises ValueError. -/
theorem C81_range {R : ℕ} {c : BiCumulants R} {c10 c01 c20 c02 c11 : ℝ} (e10 : c.log_cumulants 1 0 = Fl.fin c10)
    (e01 : c.log_cumulants 0 1 = Fl.fin c01) (e20 : c.log_cumulants 2 0 = Fl.fin c20)
    (e02 : c.log_cumulants 0 2 = Fl.fin c02) (e11 : c.log_cumulants 1 1 = Fl.fin c11) (hdet : c20 * c02 - c11 ^ 2 ≠ 0) :
    let G := linspace 0 (3 / 2) 200
    let P := fun x => x ∈ G ∧ ∃ y ∈ G, 0 ≤ biSpectrum c10 c01 c20 c02 c11 x y ∨ 0 ≤ biSpectrum c10 c01 c20 c02 c11 y x
    (∀ a b, c.legendreRange = .ok (a, b) → P a ∧ P b ∧ ∀ x, P x → a ≤ x ∧ x ≤ b) ∧
    ((∃ x, P x) → ∃ a b, c.legendreRange = .ok (a, b)) ∧
    ((∀ x, ¬ P x) → ∀ resolution, c.plotLegendre resolution = .error .valueError) := by
  intro G P
  have key := legendreRangeOn_spec e10 e01 e20 e02 e11 hdet (n := 200) (by norm_num)
  rcases key with ⟨a, b, h, ha, hb, hall⟩ | ⟨h, hnone⟩
  · refine ⟨fun a' b' h' => ?_, fun _ => ⟨a, b, h⟩, fun hn => absurd ha (hn a)⟩
    have : c.legendreRangeOn 200 = .ok (a', b') := h'
    rw [h, Except.ok.injEq, Prod.mk.injEq] at this
    obtain ⟨rfl, rfl⟩ := this
    exact ⟨ha, hb, hall⟩
  · refine ⟨fun a' b' h' => ?_, fun ⟨x, hx⟩ => absurd hx (hnone x), fun _ resolution => ?_⟩
    · have : c.legendreRangeOn 200 = .ok (a', b') := h'
      rw [h] at this
      exact absurd this (by simp)
    · unfold BiCumulants.plotLegendre BiCumulants.legendreRange
      rw [h]

/-- C81: `plot_legendre` returns as soon as the spectrum is not negative somewhere on the grid of 200 points, and somewhere on the
grid with `resolution >= 1` points of the range found there. -/
theorem C81_returns {R : ℕ} {c : BiCumulants R} {c10 c01 c20 c02 c11 : ℝ} (e10 : c.log_cumulants 1 0 = Fl.fin c10)
    (e01 : c.log_cumulants 0 1 = Fl.fin c01) (e20 : c.log_cumulants 2 0 = Fl.fin c20)
    (e02 : c.log_cumulants 0 2 = Fl.fin c02) (e11 : c.log_cumulants 1 1 = Fl.fin c11) (hdet : c20 * c02 - c11 ^ 2 ≠ 0)
    {a b : ℝ} (hr : c.legendreRange = .ok (a, b)) {resolution : ℕ} {x y : ℝ} (hx : x ∈ linspace a b resolution)
    (hy : y ∈ linspace a b resolution) (h0 : 0 ≤ biSpectrum c10 c01 c20 c02 c11 x y) :
    ∃ S, c.plotLegendre resolution = .ok S := by
  have hL := computeLegendre_fin e10 e01 e20 e02 e11 hdet a b resolution
  have hgrid : (c.computeLegendre (a, b) resolution).1 = (List.range resolution).map (legendreGrid a b resolution) :=
    linspace_eq_map a b resolution
  rw [linspace_eq_map a b resolution, List.mem_map] at hx hy
  obtain ⟨i, hi, rfl⟩ := hx
  obtain ⟨k, hk, rfl⟩ := hy
  rw [List.mem_range] at hi hk
  have hres : resolution ≠ 0 := by omega
  have hne : ((List.range resolution).filter fun c => decide (∃ i < resolution,
      0 ≤ biSpectrum c10 c01 c20 c02 c11 (legendreGrid a b resolution i) (legendreGrid a b resolution c))).length ≠ 0 := by
    intro h
    have hm : k ∈ ((List.range resolution).filter fun c => decide (∃ i < resolution,
      0 ≤ biSpectrum c10 c01 c20 c02 c11 (legendreGrid a b resolution i) (legendreGrid a b resolution c))) := by
      rw [List.mem_filter, List.mem_range]
      exact ⟨hk, decide_eq_true ⟨i, hi, h0⟩⟩
    rw [List.length_eq_zero_iff.1 h] at hm
    simp at hm
  unfold BiCumulants.plotLegendre
  rw [hr]
  simp only
  rw [if_neg hres]
  unfold rowMask
  rw [colMask_fin hres (fun i _ k _ => hL i k), colMask_fin hres (fun i _ k _ => hL k i), hgrid]
  simp only [selectMask_map, selectMask_id]
  rw [colMask_fin (D := fun k i => biSpectrum c10 c01 c20 c02 c11 (legendreGrid a b resolution i)
    (legendreGrid a b resolution (List.getD _ k 0))) hne (fun k _ i _ => hL i _)]
  exact ⟨_, rfl⟩

/-! ### Degenerate spectra -/

theorem foldl_npMax_nan (t : List Fl) : ∀ a : Fl, Fl.nan ∈ a :: t →
    t.foldl (fun m x => if m.isNaN then m else if x.isNaN then x else Fl.max m x) a = Fl.nan := by
  induction t with
  | nil => intro a h; exact (List.mem_singleton.1 h).symm
  | cons b t ih =>
    intro a h
    rw [List.foldl_cons]
    apply ih
    rcases List.mem_cons.1 h with h | h
    · subst h; simp [Fl.isNaN]
    rcases List.mem_cons.1 h with h | h
    · subst h
      by_cases ha : a.isNaN = true
      · rw [if_pos ha]
        cases a <;> simp [Fl.isNaN] at ha ⊢
      · rw [if_neg ha]; simp [Fl.isNaN]
    · exact List.mem_cons_of_mem _ h

/-- A column with a NaN is masked, whatever its other entries. -/
theorem npMax_nan {l : List Fl} (h : Fl.nan ∈ l) : npMax l = .ok Fl.nan := by
  match l with
  | [] => simp at h
  | a :: t => simp only [npMax, foldl_npMax_nan t a h]

theorem colMask_nan {L : ℕ → ℕ → Fl} {n k : ℕ} (h : ∀ c < k, ∃ i < n, L i c = Fl.nan) :
    colMask L n k = .ok ((List.range k).map fun _ => false) := by
  unfold colMask
  apply mapE_ok
  intro c hc
  obtain ⟨i, hi, e⟩ := h c (List.mem_range.1 hc)
  rw [npMax_nan (List.mem_map.2 ⟨i, List.mem_range.2 hi, e⟩)]
  rfl

theorem mul_self_div_zero (c d x y : ℝ) : Fl.fin (c * 0) / Fl.fin 2 * ((Fl.fin x - Fl.fin y) / Fl.fin 0 * ((Fl.fin x - Fl.fin y) / Fl.fin 0)) = Fl.nan := by
  rw [Fl.fin_sub, Fl.div_def (Fl.fin (x - y)), show (Fl.fin 0)⁻¹ = Fl.pinf by show Fl.inv _ = _; simp [Fl.inv], Fl.fin_mul_pinf, Fl.fin_div two_ne_zero]
  rcases lt_trichotomy (x - y) 0 with h | h | h
  · rw [Fl.sgnInf_neg h]; simp [-Fl.fin_zero, Fl.fin_mul_pinf]
  · rw [h]; simp [-Fl.fin_zero]
  · rw [Fl.sgnInf_pos h]; simp [-Fl.fin_zero, Fl.fin_mul_pinf]

/-- **C81**: when one of the five log-cumulants is NaN, or when the determinant `c20 c02 - c11²` is 0 (two proportional signals, for instance, whose three
second-order log-cumulants are equal), every height of the surface is NaN and `plot_legendre` raises ValueError. -/
theorem C81_degenerate {R : ℕ} {c : BiCumulants R}
    (h : (∃ p ∈ [(1, 0), (0, 1), (2, 0), (0, 2), (1, 1)], c.log_cumulants p.1 p.2 = Fl.nan) ∨
      ∃ c10 c01 c20 c02 c11 : ℝ, c.log_cumulants 1 0 = Fl.fin c10 ∧ c.log_cumulants 0 1 = Fl.fin c01 ∧ c.log_cumulants 2 0 = Fl.fin c20 ∧
        c.log_cumulants 0 2 = Fl.fin c02 ∧ c.log_cumulants 1 1 = Fl.fin c11 ∧ c20 * c02 = c11 ^ 2) :
    (∀ support n i k, (c.computeLegendre support n).2 i k = Fl.nan) ∧ ∀ resolution, c.plotLegendre resolution = .error .valueError := by
  have hL : ∀ support n i k, (c.computeLegendre support n).2 i k = Fl.nan := by
    intro support n i k
    unfold BiCumulants.computeLegendre
    rcases h with ⟨p, hp, hn⟩ | ⟨c10, c01, c20, c02, c11, e10, e01, e20, e02, e11, hdet⟩
    · simp only [List.mem_cons, List.not_mem_nil, or_false] at hp
      rcases hp with rfl | rfl | rfl | rfl | rfl <;> simp only at hn <;> simp [hn]
    · dsimp only
      rw [e10, e01, e20, e02, e11, Fl.fin_mul, Fl.fin_mul, Fl.fin_sub, show c20 * c02 - c11 * c11 = 0 by rw [hdet]; ring, Fl.fin_mul c02 0, mul_self_div_zero c02 0]
      simp
  have hr : c.legendreRange = .error .valueError := by
    unfold BiCumulants.legendreRange BiCumulants.legendreRangeOn
    have h1 : colMask (c.computeLegendre (0, 3 / 2) 200).2 200 200 = .ok ((List.range 200).map fun _ => false) :=
      colMask_nan fun _ _ => ⟨0, by norm_num, hL _ _ _ _⟩
    have h2 : rowMask (c.computeLegendre (0, 3 / 2) 200).2 200 200 = .ok ((List.range 200).map fun _ => false) :=
      colMask_nan fun _ _ => ⟨0, by norm_num, hL _ _ _ _⟩
    have h3 : (c.computeLegendre (0, 3 / 2) 200).1 = (List.range 200).map (legendreGrid 0 (3 / 2) 200) := linspace_eq_map 0 (3 / 2) 200
    simp only [h1, h2, h3, selectMask_map, List.filter_false, List.map_nil, List.append_nil, pyMin]
  refine ⟨hL, fun resolution => ?_⟩
  unfold BiCumulants.plotLegendre
  rw [hr]

/-- C81: cumulants `c10 = c01 = 0`, `c20 = c02 = -1`, `c11 = 0` (standing for any object with these log-cumulants): the
surface exists for every resolution. -/
example (c : BiCumulants 1) (e10 : c.log_cumulants 1 0 = Fl.fin 0) (e01 : c.log_cumulants 0 1 = Fl.fin 0)
    (e20 : c.log_cumulants 2 0 = Fl.fin (-1)) (e02 : c.log_cumulants 0 2 = Fl.fin (-1))
    (e11 : c.log_cumulants 1 1 = Fl.fin 0) (n : ℕ) : ∃ S, c.plotLegendre (n + 1) = .ok S := by
  have hdet : (-1 : ℝ) * (-1) - 0 ^ 2 ≠ 0 := by norm_num
  have zero_mem : ∀ (b : ℝ) (n : ℕ), (0 : ℝ) ∈ linspace 0 b (n + 1) := by
    intro b n
    unfold linspace
    rw [List.mem_map]
    exact ⟨0, List.mem_range.2 (by omega), by simp⟩
  have hpos : 0 ≤ biSpectrum 0 0 (-1) (-1) 0 0 0 := by norm_num [biSpectrum]
  obtain ⟨h1, h2, -⟩ := C81_range e10 e01 e20 e02 e11 hdet
  have hP : (0 : ℝ) ∈ linspace 0 (3 / 2) 200 := zero_mem _ 199
  obtain ⟨a, b, hr⟩ := h2 ⟨0, hP, 0, hP, .inl hpos⟩
  obtain ⟨⟨ha, -⟩, -, hall⟩ := h1 a b hr
  have ha0 : a = 0 := by
    apply le_antisymm (hall 0 ⟨hP, 0, hP, .inl hpos⟩).1
    unfold linspace at ha
    rw [List.mem_map] at ha
    obtain ⟨i, -, rfl⟩ := ha
    rw [if_neg (by norm_num)]
    have : (0:ℝ) ≤ i := Nat.cast_nonneg i
    norm_num
  rw [ha0] at hr
  exact C81_returns e10 e01 e20 e02 e11 hdet hr (zero_mem b n) (zero_mem b n) hpos

/-- C80: the two quantities of `BiDemo` can be plotted. -/
example : (∃ s, BiStructFn.make false bi1 bi2 1 2 (.ndarray [0, 1, 2]) (.ndarray [2, 1, 0]) true = .ok s ∧ ∃ fig, s.plot = .ok fig) ∧
    ∃ c, BiCumulants.make false bi1 bi2 2 1 2 false = .ok c ∧ ∃ figs, c.plot = .ok figs := by
  constructor
  · obtain ⟨s, -, -, h, -⟩ := C69_marginals bi_paired bi_sameNaN (j1 := 1) (j2 := 2) (by norm_num) (by norm_num)
      (by norm_num) true [0, 1, 2] [2, 1, 0] (by norm_num) (by norm_num) (by norm_num) (by norm_num)
    obtain ⟨f, hf, -⟩ := C80_structure_plot h
    exact ⟨s, h, f, hf⟩
  · obtain ⟨c, hc, -⟩ := bi_paired.biCumulants (j1 := 1) (j2 := 2) (by norm_num) (by norm_num)
      (by norm_num) false false (n := 2) (Or.inr le_rfl)
    obtain ⟨f, g, h, -⟩ := C80_cumulants_plot hc (.inr le_rfl)
    exact ⟨c, hc, _, h⟩

end MFA
