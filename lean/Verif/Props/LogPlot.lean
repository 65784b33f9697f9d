import Verif.Model.LogPlot
import Verif.Props.PsdPlot

/-!
# Property C110: `log_plot` as a whole
-/

namespace MFA

open Classical

noncomputable section

variable {R : ℕ}

/-- The results of a successful loop, turn by turn. -/
theorem mapE_turn {α β : Type} {f : α → Except PyErr β} : ∀ {l : List α} {bs : List β}, mapE f l = .ok bs →
    bs.length = l.length ∧ ∀ (i : ℕ) (a : α), l[i]? = some a → ∃ b, f a = .ok b ∧ bs[i]? = some b
  | [], bs, h => by cases h; simp
  | x :: l, bs, h => by
    unfold mapE at h
    cases hx : f x with
    | error e => rw [hx] at h; cases h
    | ok b =>
      rw [hx] at h
      cases hl : mapE f l with
      | error e => rw [hl] at h; cases h
      | ok bs' =>
        rw [hl] at h
        cases h
        obtain ⟨h1, h2⟩ := mapE_turn hl
        refine ⟨by simp [h1], fun i a ha => ?_⟩
        cases i with
        | zero => simp only [List.getElem?_cons_zero, Option.some.injEq] at ha ⊢; subst ha; exact ⟨b, hx, rfl⟩
        | succ i => simpa using h2 i a (by simpa using ha)

theorem logZip_length (freqs : List (List ℝ)) (psds : List (Arr R)) (fmt : List String) (color : List PlotColor) (lw : List ℝ) :
    (logZip freqs psds fmt color lw).length = min freqs.length (min psds.length (min fmt.length (min color.length lw.length))) := by
  simp [logZip]

theorem logZip_get {freqs : List (List ℝ)} {psds : List (Arr R)} {fmt : List String} {color : List PlotColor} {lw : List ℝ} {i : ℕ}
    {f : List ℝ} {p : Arr R} {s : String} {c : PlotColor} {w : ℝ} (hf : freqs[i]? = some f) (hp : psds[i]? = some p) (hs : fmt[i]? = some s)
    (hc : color[i]? = some c) (hw : lw[i]? = some w) : (logZip freqs psds fmt color lw)[i]? = some (⟨f, p⟩, s, c, w) := by
  simp [logZip, hf, hp, hs, hc, hw, List.zip, List.getElem?_zipWith]

/-- The formats, colours and widths that are used. -/
theorem logPlot_lists (fmt : Option (List String)) (color : Option (List PlotColor)) (linewidth : Option (List ℝ)) (n : ℕ) :
    logDefault "-" fmt n = fmt.getD (List.replicate n "-") ∧ logDefault (3 / 2 : ℝ) linewidth n = linewidth.getD (List.replicate n (3 / 2)) ∧
      logColors color n = color.getD ((List.range n).map fun i => .tab10 (i % 10)) := by
  refine ⟨?_, ?_, ?_⟩
  · cases fmt <;> rfl
  · cases linewidth <;> rfl
  · cases color <;> rfl

/-- **C110**: what `log_plot` draws.  `fm`, `cs`, `lw`: the formats, colours and widths of the caller, or the default ones.  The
spectra that are drawn are the first `n`, `n` being the length of the SHORTEST of the five lists: the others are dropped without an
exception.  The `i`-th curve is the `i`-th spectrum with the `i`-th format, colour and width.  The `i`-th dashed line has the colour of
the `i`-th spectrum; lines beyond the number of colours (by default, the number of spectra) are dropped. -/
theorem C110_curves {freqs : List (List ℝ)} {psds : List (Arr R)} {fmt : Option (List String)} {color : Option (List PlotColor)}
    {slope : List (List Fl × List Fl)} {log : String} {lowpass : Option ℝ} {xticks : Bool} {linewidth : Option (List ℝ)} {fig : LogFigure R}
    (h : logPlot freqs psds fmt color slope log lowpass xticks linewidth = .ok fig) {fm : List String} {cs : List PlotColor} {lw : List ℝ}
    (hfm : fm = fmt.getD (List.replicate freqs.length "-"))
    (hcs : cs = color.getD ((List.range freqs.length).map fun i => .tab10 (i % 10)))
    (hlw : lw = linewidth.getD (List.replicate freqs.length (3 / 2))) :
    fig.curves.length = min freqs.length (min psds.length (min fm.length (min cs.length lw.length))) ∧
    (∀ i : ℕ, i < fig.curves.length → ∃ f p s c w xy, freqs[i]? = some f ∧ psds[i]? = some p ∧ fm[i]? = some s ∧ cs[i]? = some c ∧ lw[i]? = some w ∧
      logPlotCurve lowpass log ⟨f, p⟩ = .ok xy ∧ fig.curves[i]? = some { x := xy.1, y := xy.2, fmt := s, color := c, lw := w }) ∧
    fig.slopes.length = min slope.length cs.length ∧
    ∀ i : ℕ, i < fig.slopes.length → ∃ l c, slope[i]? = some l ∧ cs[i]? = some c ∧ fig.slopes[i]? = some (l, c) := by
  obtain ⟨e1, e2, e3⟩ := logPlot_lists fmt color linewidth freqs.length
  unfold logPlot at h
  simp only [e1, e2, e3] at h
  rw [← hfm, ← hcs, ← hlw] at h
  cases hm : mapE (logCurve lowpass log) (logZip freqs psds fm cs lw) with
  | error e => simp only [hm] at h; cases h
  | ok curves =>
    simp only [hm] at h
    have hfig : fig.curves = curves ∧ fig.slopes = slope.zip cs := by
      split at h
      · cases h; exact ⟨rfl, rfl⟩
      · split at h
        · cases h
        · cases h; exact ⟨rfl, rfl⟩
    obtain ⟨hl, ht⟩ := mapE_turn hm
    rw [hfig.1, hfig.2, hl, logZip_length]
    refine ⟨rfl, fun i hi => ?_, by simp, fun i hi => ?_⟩
    · obtain ⟨hf, hp, hs, hc, hw⟩ : i < freqs.length ∧ i < psds.length ∧ i < fm.length ∧ i < cs.length ∧ i < lw.length := by omega
      have hg := logZip_get (List.getElem?_eq_getElem hf) (List.getElem?_eq_getElem hp) (List.getElem?_eq_getElem hs) (List.getElem?_eq_getElem hc)
        (List.getElem?_eq_getElem hw)
      obtain ⟨b, hb, hbi⟩ := ht i _ hg
      unfold logCurve at hb
      cases hcurve : logPlotCurve lowpass log ⟨freqs[i], psds[i]⟩ with
      | error e => simp only [hcurve] at hb; cases hb
      | ok xy =>
        simp only [hcurve, Except.ok.injEq] at hb
        exact ⟨freqs[i], psds[i], fm[i], cs[i], lw[i], xy, List.getElem?_eq_getElem hf, List.getElem?_eq_getElem hp, List.getElem?_eq_getElem hs,
          List.getElem?_eq_getElem hc, List.getElem?_eq_getElem hw, hcurve, by rw [hbi, ← hb]⟩
    · rw [List.length_zip] at hi
      obtain ⟨hs, hc⟩ : i < slope.length ∧ i < cs.length := by omega
      exact ⟨slope[i], cs[i], List.getElem?_eq_getElem hs, List.getElem?_eq_getElem hc,
        List.getElem?_zip_eq_some.2 ⟨List.getElem?_eq_getElem hs, List.getElem?_eq_getElem hc⟩⟩

/-- **C110**: the ticks.  They are set when `xticks` is given and no list is shorter than the non-empty `freq_list`: at the logarithms
of the frequencies of the LAST spectrum, below the cut-off, each labelled with its frequency (two decimals below 1, one above);
but when these include the frequency 0 (as for a spectrum of `welch_estimation`), the numbers of labels and ticks differ
and `log_plot` raises ValueError. -/
theorem C110_ticks {freqs : List (List ℝ)} {psds : List (Arr R)} {fmt : Option (List String)} {color : Option (List PlotColor)}
    {slope : List (List Fl × List Fl)} {log : String} {L : ℝ → ℝ} (hlog : IsLog log L) {lowpass : Option ℝ} {linewidth : Option (List ℝ)}
    (hn : freqs ≠ []) (hp : psds.length = freqs.length) (hlen : ∀ (i : ℕ) (f : List ℝ) (p : Arr R), freqs[i]? = some f → psds[i]? = some p → f.length = p.length)
    (hfm : ∀ l, fmt = some l → freqs.length ≤ l.length) (hcs : ∀ l, color = some l → freqs.length ≤ l.length)
    (hlw : ∀ l, linewidth = some l → freqs.length ≤ l.length) {last below : List ℝ} (hlast : freqs.getLast? = some last)
    (hbelow : below = last.filter fun f => decide (∀ b, lowpass = some b → f < b)) :
    (∃ fig, logPlot freqs psds fmt color slope log lowpass false linewidth = .ok fig ∧ fig.ticks = none) ∧
    (0 ∉ below → ∃ fig, logPlot freqs psds fmt color slope log lowpass true linewidth = .ok fig ∧
      fig.ticks = some { positions := below.map fun f => Fl.logOf L (Fl.fin f), labels := below.map fun f => (f, if f < 1 then 2 else 1) }) ∧
    (0 ∈ below → logPlot freqs psds fmt color slope log lowpass true linewidth = .error .valueError) := by
  obtain ⟨e1, e2, e3⟩ := logPlot_lists fmt color linewidth freqs.length
  obtain ⟨fm, hfm'⟩ : ∃ l, l = fmt.getD (List.replicate freqs.length "-") := ⟨_, rfl⟩
  obtain ⟨cs, hcs'⟩ : ∃ l, l = color.getD ((List.range freqs.length).map fun i => .tab10 (i % 10)) := ⟨_, rfl⟩
  obtain ⟨lw, hlw'⟩ : ∃ l, l = linewidth.getD (List.replicate freqs.length (3 / 2 : ℝ)) := ⟨_, rfl⟩
  have l1 : freqs.length ≤ fm.length := by
    rw [hfm']; cases hx : fmt with
    | none => simp
    | some l => exact hfm l hx
  have l2 : freqs.length ≤ cs.length := by
    rw [hcs']; cases hx : color with
    | none => simp
    | some l => exact hcs l hx
  have l3 : freqs.length ≤ lw.length := by
    rw [hlw']; cases hx : linewidth with
    | none => simp
    | some l => exact hlw l hx
  have hn0 : 0 < freqs.length := List.length_pos_iff.2 hn
  have hi : freqs.length - 1 < freqs.length := by omega
  have hlf : freqs[freqs.length - 1]? = some last := by rw [← List.getLast?_eq_getElem?, hlast]
  have hg := logZip_get (R := R) hlf (List.getElem?_eq_getElem (show freqs.length - 1 < psds.length by omega))
    (List.getElem?_eq_getElem (show freqs.length - 1 < fm.length by omega))
    (List.getElem?_eq_getElem (show freqs.length - 1 < cs.length by omega)) (List.getElem?_eq_getElem (show freqs.length - 1 < lw.length by omega))
  have hturns : ∀ t ∈ logZip freqs psds fm cs lw, ∃ c, logCurve lowpass log t = .ok c := by
    intro t ht
    obtain ⟨i, hil, rfl⟩ := List.mem_iff_getElem.1 ht
    rw [logZip_length] at hil
    have hg' := logZip_get (R := R) (i := i) (List.getElem?_eq_getElem (show i < freqs.length by omega)) (List.getElem?_eq_getElem (show i < psds.length by omega))
      (List.getElem?_eq_getElem (show i < fm.length by omega)) (List.getElem?_eq_getElem (show i < cs.length by omega)) (List.getElem?_eq_getElem (show i < lw.length by omega))
    have hi' : i < (logZip freqs psds fm cs lw).length := by rw [logZip_length]; exact hil
    rw [List.getElem?_eq_getElem hi', Option.some.injEq] at hg'
    rw [hg']
    obtain ⟨lf, lp, hc, -⟩ := C82_log_plot hlog lowpass ⟨freqs[i], psds[i]⟩ (hlen i _ _ (List.getElem?_eq_getElem _) (List.getElem?_eq_getElem _))
    refine ⟨{ x := lf, y := lp, fmt := fm[i], color := cs[i], lw := lw[i] }, ?_⟩
    unfold logCurve; simp only [hc]
  obtain ⟨curves, hcurves⟩ : ∃ bs, mapE (logCurve lowpass log) (logZip freqs psds fm cs lw) = .ok bs := by
    have : Nonempty (LogCurve R) := ⟨⟨[], [], "", .tab10 0, 0⟩⟩
    choose! g hgc using hturns
    exact ⟨_, mapE_ok _ g _ hgc⟩
  obtain ⟨lastp, hlp⟩ : ∃ p, psds[freqs.length - 1]? = some p := ⟨_, List.getElem?_eq_getElem (show freqs.length - 1 < psds.length by omega)⟩
  have hlen' := hlen _ _ _ hlf hlp
  rw [List.getElem?_eq_getElem (show freqs.length - 1 < psds.length by omega), Option.some.injEq] at hlp
  rw [hlp] at hg
  obtain ⟨lf, lp, hc, hll, hz⟩ := C82_log_plot hlog lowpass ⟨last, lastp⟩ hlen'
  have hlf' : lf = (below.filter fun f => decide (f ≠ 0)).map fun f => Fl.logOf L (Fl.fin f) := by
    have := congrArg (List.map Prod.fst) hz
    rw [List.map_fst_zip (le_of_eq hll)] at this
    rw [this, hbelow, List.map_map]
    have hfst : ∀ (a : List ℝ) (b : Arr R), a.length = b.length → ((a.zip b).filter fun p => decide (p.1 ≠ 0 ∧ ∀ f, lowpass = some f → p.1 < f)).map
        (Prod.fst ∘ fun p => (Fl.logOf L (Fl.fin p.1), fun r => Fl.logOf L (p.2 r)))
        = ((a.filter fun f => decide (∀ b, lowpass = some b → f < b)).filter fun f => decide (f ≠ 0)).map fun f => Fl.logOf L (Fl.fin f) := by
      intro a b hab
      rw [List.filter_filter]
      conv_rhs => rw [← List.map_fst_zip (l₁ := a) (l₂ := b) (le_of_eq hab), List.filter_map, List.map_map]
      congr 1
      apply List.filter_congr
      intro p _
      simp
    exact hfst last lastp hlen'
  have hbel : last.filter (belowCut lowpass) = below := by
    rw [hbelow]
    apply List.filter_congr
    intro f _
    cases lowpass <;> simp [belowCut]
  have hpos : 0 ∉ below → (below.filter fun f => decide (f ≠ 0)) = below := by
    intro h0
    rw [List.filter_eq_self]
    intro f hf
    have : f ≠ 0 := fun e => h0 (e ▸ hf)
    simpa using this
  have hlt : 0 ∈ below → (below.filter fun f => decide (f ≠ 0)).length < below.length := by
    intro h0
    rw [List.length_filter_lt_length_iff_exists]
    exact ⟨0, h0, by simp⟩
  unfold logPlot
  simp only [e1, e2, e3]
  rw [← hfm', ← hcs', ← hlw']
  simp only [hcurves, hg]
  refine ⟨⟨_, rfl, rfl⟩, fun h0 => ?_, fun h0 => ?_⟩
  · refine ⟨{ curves := curves, ticks := _, slopes := slope.zip cs }, ?_, rfl⟩
    simp only [if_true, logTicks, hc, hbel, hlf', hpos h0, List.length_map, ne_eq, not_true_eq_false, if_false]
  · have := hlt h0
    simp only [if_true, logTicks, hc, hbel, hlf', List.length_map]
    rw [if_pos (by omega)]

/-- **C110**: the frequencies of `welch_estimation` include 0: with `xticks`, a plot whose last spectrum is a Welch spectrum raises
ValueError (for every positive cut-off). -/
theorem C110_welch {welch : WelchFn R} {sig : Arr R} {fs : ℝ} {n_fft : ℤ} {seg : Option ℤ} {s : PSD R} (h2 : 2 ≤ n_fft)
    (h : welchEstimation welch sig fs n_fft seg = .ok s) (hlen : s.freq.length = s.psd.length) {log : String} {L : ℝ → ℝ} (hlog : IsLog log L)
    {lowpass : Option ℝ} (hlow : ∀ b, lowpass = some b → 0 < b) :
    logPlot [s.freq] [s.psd] none none [] log lowpass true none = .error .valueError := by
  have h0 : (0:ℝ) ∈ s.freq := by
    have hn : 2 ≤ (welchSizes n_fft seg).1 := by unfold welchSizes; simp only; split <;> omega
    obtain ⟨freq, hf, hl, hk⟩ := C56_grid_points fs _ hn
    have hz := hk 0 (by simp; omega)
    unfold welchEstimation at h
    simp only [hf] at h
    split at h
    · cases h
    · cases h
      have := List.mem_of_getElem? hz
      simpa using this
  refine (C110_ticks (fmt := none) (color := none) (slope := []) (linewidth := none) (freqs := [s.freq]) (psds := [s.psd]) hlog (by simp) (by simp)
    (fun i f p hf hp => ?_) (by simp) (by simp) (by simp) (last := s.freq) (by simp) rfl).2.2 ?_
  · match i with
    | 0 => simp at hf hp; subst hf; subst hp; exact hlen
    | i + 1 => simp at hf
  · exact List.mem_filter.2 ⟨h0, by simpa using hlow⟩

/-! Non-trivial instances: three spectra and two colours: the third spectrum and the third dashed line are lost without an exception;
two spectra, the second containing the frequency 0. -/
example (s1 s2 s3 : PSD 1) (a b c : List Fl × List Fl) (fig : LogFigure 1)
    (h : logPlot [s1.freq, s2.freq, s3.freq] [s1.psd, s2.psd, s3.psd] none (some [.user "r", .user "b"]) [a, b, c] "log2" none false none = .ok fig) :
    fig.curves.length = 2 ∧ fig.slopes.length = 2 := by
  obtain ⟨h1, -, h2, -⟩ := C110_curves h rfl rfl rfl
  exact ⟨by rw [h1]; simp, by rw [h2]; simp⟩

example : ∃ fig, logPlot (R := 1) [[1, 2], [1 / 2, 1, 60]] [[fun _ => 1, fun _ => 1], [fun _ => 1, fun _ => 1, fun _ => 1]] none none [] "log2" (some 50)
    true none = .ok fig ∧ fig.ticks = some { positions := [Fl.fin (-1), Fl.fin 0], labels := [(1 / 2, 2), (1, 1)] } := by
  obtain ⟨-, h, -⟩ := C110_ticks (R := 1) (fmt := none) (color := none) (slope := []) (linewidth := none) (lowpass := some 50)
    (freqs := [[1, 2], [1 / 2, 1, 60]]) (psds := [[fun _ => 1, fun _ => 1], [fun _ => 1, fun _ => 1, fun _ => 1]])
    (log := "log2") (L := Real.logb 2) (Or.inl ⟨rfl, rfl⟩) (by simp) (by simp) (by
      intro i f p hf hp
      match i with
      | 0 => simp at hf hp; subst hf; subst hp; simp
      | 1 => simp at hf hp; subst hf; subst hp; simp
      | i + 2 => simp at hf) (by simp) (by simp) (by simp) (last := [1 / 2, 1, 60]) (below := [1 / 2, 1]) (by simp) (by
      norm_num [List.filter_cons])
  obtain ⟨fig, h1, h2⟩ := h (by simp)
  refine ⟨fig, h1, ?_⟩
  rw [h2]
  have : Real.logb 2 (1 / 2) = -1 := by rw [one_div, Real.logb_inv, Real.logb_self_eq_one (by norm_num)]
  norm_num [Fl.logOf, this]

end

end MFA
