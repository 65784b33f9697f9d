import Verif.Props.Plot
import Verif.Props.Structure
import Verif.Model.Mfa

/-! Property C106: the plots of the scaling function and of the multifractal spectrum. -/

namespace MFA

open Classical

variable {R : ℕ} {m : MRQ R} {J : ℕ} {j1 j2 : ℤ}

/-- The point number `i` of the polyline drawn for realisation `r`. -/
def XYFigure.point (f : XYFigure R) (i : ℕ) (r : Fin R) : Option (Fl × Fl) :=
  match f.x[i]?, f.y[i]? with
  | some a, some b => some (a r, b r)
  | _, _ => none

/-- The point `(x, y)` lies inside the limits of the axes. -/
def XYFigure.Shows (f : XYFigure R) (x y : ℝ) : Prop :=
  ∀ w, f.window = some w → (w.1.1 ≤ x ∧ x ≤ w.1.2) ∧ (w.2.1 ≤ y ∧ y ≤ w.2.2)

theorem length_le_one_iff {q : List ℝ} (hq : (2:ℝ) ∈ q) : q.length ≤ 1 ↔ q = [2] := by
  constructor
  · intro h
    match q, hq, h with
    | [a], hq, _ => rw [List.mem_singleton.1 hq]
  · rintro rfl; simp

/-- C106: `plot_scaling` raises AssertionError exactly when 2 is the only exponent; otherwise it draws for each realisation the
points (q, zeta(q)) in the order of the exponents.  The points at `q = 2` are at the height `2 (H + gamint)`, i.e. H + gamint is the slope
of the chord that joins the origin to them. -/
theorem C106_scaling (hm : Regular m J) (h1 : 1 ≤ j1) (h12 : j1 ≤ j2) (h2 : j2 ≤ J) (weighted : Bool) (q : List ℝ)
    (hq : (2:ℝ) ∈ q) :
    ∃ s, StructFn.make m (.ndarray q) j1 j2 weighted = .ok s ∧
      (s.plotScaling = .error .assertionError ↔ q = [2]) ∧
      (q ≠ [2] → ∃ f, s.plotScaling = .ok f ∧ f.window = none ∧ f.x.length = q.length ∧ f.y.length = q.length ∧
        ∀ (i : ℕ) (hi : i < q.length) (r : Fin R), ∃ z, s.zeta[i]? = some z ∧ f.point i r = some (Fl.fin q[i], z r) ∧
          (q[i] = 2 → s.H r = z r / Fl.fin 2 - Fl.fin m.gamint)) := by
  refine ⟨_, hm.structFn h1 h12 h2 weighted q hq, ?_, ?_⟩
  · simp only [StructFn.plotScaling, QArg.expos, List.length_map, length_le_one_iff hq]
    by_cases h : q = [2]
    · rw [if_pos h]; simp [h]
    · rw [if_neg h]; simp [h]
  · intro h
    have hl : ¬ q.length ≤ 1 := fun h' => h ((length_le_one_iff hq).1 h')
    refine ⟨{ x := q.map fun e _ => Fl.fin e, y := q.map fun e => zetaF m j1 j2 weighted (.real e), window := none }, ?_, rfl,
      by simp, by simp, fun i hi r => ⟨zetaF m j1 j2 weighted (.real q[i]), ?_, ?_, ?_⟩⟩
    · simp only [StructFn.plotScaling, QArg.expos, List.length_map, if_neg hl, List.map_map, Function.comp_def, Expo.val]
    · simp [List.getElem?_eq_getElem hi]
    · simp [XYFigure.point, List.getElem?_eq_getElem hi]
    · intro e; rw [e]

/-- C106: the scaling function that is drawn goes through the origin. -/
theorem C106_origin (hm : Regular m J) (h1 : 1 ≤ j1) (h12 : j1 < j2) (h2 : j2 ≤ J) (weighted : Bool)
    (hd : ∀ p ∈ m.values, ∀ r, ∃ x ∈ col p.2 r, x ≠ Fl.nan) (q : List ℝ) (hq : (2:ℝ) ∈ q) :
    ∃ s f, StructFn.make m (.ndarray (0 :: q)) j1 j2 weighted = .ok s ∧ s.plotScaling = .ok f ∧
      ∀ r, f.point 0 r = some (Fl.fin 0, Fl.fin 0) := by
  have hq' : (2:ℝ) ∈ (0 :: q) := List.mem_cons_of_mem _ hq
  obtain ⟨s, hs, -, hp⟩ := C106_scaling hm h1 h12.le h2 weighted (0 :: q) hq'
  have hne : (0 :: q) ≠ [2] := by intro h; simp at h
  obtain ⟨f, hf, -, -, -, hpt⟩ := hp hne
  refine ⟨s, f, hs, hf, fun r => ?_⟩
  obtain ⟨s', hs', hz⟩ := C33_zeta_zero hm h1 h12 h2 weighted hd (0 :: q) hq'
  have e : s' = s := by rw [hs] at hs'; exact (Except.ok.inj hs').symm
  subst e
  obtain ⟨z, hz0, hp0, -⟩ := hpt 0 (by simp) r
  rw [hz 0 (by simp)] at hz0
  rw [hp0, ← Option.some.inj hz0]
  simp

/-- C106: with the default `q=None` of `mf_analysis` the scaling functions it returns cannot be plotted. -/
theorem C106_default {coefs : MRQ R} {leaders : Option (MRQ R)} {weighted : Bool} {n : ℕ} {d : MFData R}
    (h : mfAnalysis coefs leaders j2 j1 weighted n none = .ok d) :
    d.dwt.structure_.plotScaling = .error .assertionError ∧
    ∀ l, d.lwt = some l → l.structure_.plotScaling = .error .assertionError := by
  have key : ∀ {m : MRQ R} {v : MFVar R}, mfVar m j1 j2 weighted n (normQ none) = .ok v →
      v.structure_.plotScaling = .error .assertionError := by
    intro m v hv
    unfold mfVar at hv
    split at hv
    · exact absurd hv (by simp)
    rename_i s hs
    split at hv
    · exact absurd hv (by simp)
    split at hv
    · exact absurd hv (by simp)
    split at hv
    · exact absurd hv (by simp)
    rw [Except.ok.injEq] at hv
    subst hv
    have := (StructFn.make_fields hs).1
    simp [StructFn.plotScaling, this, normQ, QArg.expos]
  unfold mfAnalysis at h
  split at h
  · exact absurd h (by simp)
  rename_i dwt hd
  split at h
  · rw [Except.ok.injEq] at h
    subst h
    exact ⟨key hd, fun l hl => absurd hl (by simp)⟩
  split at h
  · exact absurd h (by simp)
  rename_i lwt hl
  rw [Except.ok.injEq] at h
  subst h
  refine ⟨key hd, fun l hl' => ?_⟩
  rw [← Option.some.inj hl']
  exact key hl

/-- C106: `MultifractalSpectrum.plot` draws for each realisation the points (h(q), D(q)) in the order of the exponents, and on
data without zeros (for `q > 0`: not only zeros) these lie on the Legendre line `D = 1 + q h - zeta(q)` of the scaling function. -/
theorem C106_spectrum (hm : Regular m J) (h1 : 1 ≤ j1) (h12 : j1 ≤ j2) (h2 : j2 ≤ J) (weighted : Bool) (q : List ℝ)
    (hq : (2:ℝ) ∈ q) :
    ∃ s p, StructFn.make m (.ndarray q) j1 j2 weighted = .ok s ∧ Spectrum.make m j1 j2 weighted (.ndarray q) = .ok p ∧
      p.plot.x.length = q.length ∧ p.plot.y.length = q.length ∧
      (∀ i < q.length, ∀ r, ∃ h D : Row R, p.hq[i]? = some h ∧ p.Dq[i]? = some D ∧ p.plot.point i r = some (h r, D r)) ∧
      ∀ (i : ℕ) (hi : i < q.length), (NonzeroData m ∨ (0 < q[i] ∧ NonvanishingData m)) → ∀ r, ∃ (z : Row R) (h D : Fl),
        s.zeta[i]? = some z ∧ p.plot.point i r = some (h, D) ∧ D = Fl.fin 1 + Fl.fin q[i] * h - z r := by
  obtain ⟨s, p, hs, hp, hL⟩ := C44_legendre hm h1 h12 h2 weighted q hq
  have hqn : (QArg.ndarray q).expos ≠ [] := by
    simp only [QArg.expos, ne_eq, List.map_eq_nil_iff]; rintro rfl; simp at hq
  have hp' := hp
  rw [hm.spectrum h1 h12 h2 weighted _ hqn, Except.ok.injEq] at hp'
  refine ⟨s, p, hs, hp, ?_, ?_, ?_, ?_⟩
  · rw [← hp']; simp [Spectrum.plot, QArg.expos]
  · rw [← hp']; simp [Spectrum.plot, QArg.expos]
  · intro i hi r
    rw [← hp']
    simp [Spectrum.plot, QArg.expos, XYFigure.point, List.getElem?_eq_getElem hi]
  · intro i hi hd r
    obtain ⟨D, h, z, hD, hh, hz, e⟩ := hL i hi hd
    refine ⟨z, h r, D r, hz, ?_, e r⟩
    simp [XYFigure.point, Spectrum.plot, hD, hh]

/-- C106: the window of the plot.  The point of `q = 0` is always at the height 1, so it is visible if and only if
its abscissa is in [0, 3/2]: the top of the spectrum of a signal with h(0) < 0 or h(0) > 3/2 is not shown. -/
theorem C106_apex (hm : Regular m J) (h1 : 1 ≤ j1) (h12 : j1 < j2) (h2 : j2 ≤ J) (weighted : Bool)
    (hd : ∀ p ∈ m.values, ∀ r, ∃ x ∈ col p.2 r, x ≠ Fl.nan) (q : List ℝ) (hq : (0:ℝ) ∈ q) :
    ∃ p, Spectrum.make m j1 j2 weighted (.ndarray q) = .ok p ∧
      ∀ (i : ℕ) (r : Fin R) (h D : Fl), q[i]? = some 0 → p.plot.point i r = some (h, D) →
        D = Fl.fin 1 ∧ ∀ t : ℝ, h = Fl.fin t → (p.plot.Shows t 1 ↔ 0 ≤ t ∧ t ≤ 3 / 2) := by
  obtain ⟨p, hp, hD⟩ := C43_D_zero hm h1 h12 h2 weighted hd q hq
  refine ⟨p, hp, fun i r h D hi hpt => ⟨?_, fun t _ => ?_⟩⟩
  · have hD' := (hD i hi).1
    simp only [XYFigure.point, Spectrum.plot, hD'] at hpt
    cases hx : p.hq[i]? with
    | none => rw [hx] at hpt; simp at hpt
    | some a => rw [hx] at hpt; simp at hpt; exact hpt.2.symm
  · simp only [XYFigure.Shows, Spectrum.plot, Option.some.injEq, forall_eq']
    constructor
    · intro h; exact h.1
    · intro h; exact ⟨h, by norm_num, by norm_num⟩

/-- C106: on ideal monofractal data of exponent `H_r` the whole polyline is the point (H_r, 1), and it is visible if and only if
0 ≤ H_r ≤ 3/2. -/
theorem C106_monofractal (hm : Regular m J) (hrow : ∀ p ∈ m.values, p.2 ≠ []) (h1 : 1 ≤ j1) (h12 : j1 < j2) (h2 : j2 ≤ J)
    (weighted : Bool) (q : List ℝ) (hq : (2:ℝ) ∈ q) (K H : Fin R → ℝ) (hK : ∀ r, 0 < K r) (hd : Monofractal m K H) :
    ∃ p, Spectrum.make m j1 j2 weighted (.ndarray q) = .ok p ∧ ∀ r,
      (∀ i < q.length, p.plot.point i r = some (Fl.fin (H r), Fl.fin 1)) ∧
      (p.plot.Shows (H r) 1 ↔ 0 ≤ H r ∧ H r ≤ 3 / 2) := by
  obtain ⟨s, k, p, h, -, -, hp, -, -, -, -, hh, hD, -⟩ :=
    C35_monofractal hm hrow h1 h12 h2 weighted true q hq 0 K H hK hd
  refine ⟨p, hp, fun r => ⟨fun i hi => ?_, ?_⟩⟩
  · simp only [XYFigure.point, Spectrum.plot, hh, hD, List.getElem?_map, List.getElem?_eq_getElem hi, Option.map_some]
  · simp only [XYFigure.Shows, Spectrum.plot, Option.some.injEq, forall_eq']
    constructor
    · intro h; exact h.1
    · intro h; exact ⟨h, by norm_num, by norm_num⟩

/-- The hypotheses of C106 are met by the two-scale demonstration data, with the exponents 0, 1, 2. -/
example : Regular demo 2 ∧ NonzeroData demo ∧ (∀ p ∈ demo.values, ∀ r, ∃ x ∈ col p.2 r, x ≠ Fl.nan) ∧
    (2:ℝ) ∈ [(0:ℝ), 1, 2] ∧ (0:ℝ) ∈ [(0:ℝ), 1, 2] ∧ [(0:ℝ), 1, 2] ≠ [2] :=
  ⟨demo_regular, demo_nonzero, fun p hp r => (demo_nonzero p hp r).1, by simp, by simp, by simp⟩

end MFA
