import Verif.Model.Psd

/-!
# Model of `log_plot` (`pymultifracs/psd.py:99-173`) as a whole
-/

namespace MFA

open Classical

noncomputable section

/-- Colours given to matplotlib: an entry of the map `tab10`, or a value of the caller. -/
inductive PlotColor where
  | tab10 (i : ℕ)
  | user (s : String)

/-- One call of `ax.plot` for a spectrum (psd.py:153). -/
structure LogCurve (R : ℕ) where
  x : List Fl
  y : Arr R
  fmt : String
  color : PlotColor
  lw : ℝ

/-- psd.py:155-158: the positions of the ticks and, for each label, the frequency printed and its number of decimals. -/
structure LogTicks where
  positions : List Fl
  labels : List (ℝ × ℕ)

/-- What `log_plot` draws: the spectra, the ticks when they are set, and the dashed lines. -/
structure LogFigure (R : ℕ) where
  curves : List (LogCurve R)
  ticks : Option LogTicks
  slopes : List ((List Fl × List Fl) × PlotColor)

/-- psd.py:133-135. -/
def logColors (color : Option (List PlotColor)) (n : ℕ) : List PlotColor :=
  match color with
  | some l => l
  | none => (List.range n).map fun i => .tab10 (i % 10)

/-- psd.py:137-141: `linewidth` and `fmt`. -/
def logDefault {α : Type} (x : α) (l : Option (List α)) (n : ℕ) : List α :=
  match l with
  | some l => l
  | none => List.replicate n x

/-- psd.py:143-144: `zip(freq_list, psd_list, fmt, color, linewidth)`. -/
def logZip {R : ℕ} (freqs : List (List ℝ)) (psds : List (Arr R)) (fmt : List String) (color : List PlotColor) (lw : List ℝ) :
    List (PSD R × String × PlotColor × ℝ) :=
  (freqs.zip (psds.zip (fmt.zip (color.zip lw)))).map fun p => (⟨p.1, p.2.1⟩, p.2.2.1, p.2.2.2.1, p.2.2.2.2)

/-- psd.py:146-153: one turn of the loop. -/
def logCurve {R : ℕ} (lowpass : Option ℝ) (log : String) (p : PSD R × String × PlotColor × ℝ) : Except PyErr (LogCurve R) :=
  match logPlotCurve lowpass log p.1 with
  | .error e => .error e
  | .ok c => .ok { x := c.1, y := c.2, fmt := p.2.1, color := p.2.2.1, lw := p.2.2.2 }

/-- psd.py:146 `freq < lowpass_freq` (`none`: infinite). -/
def belowCut (lowpass : Option ℝ) (f : ℝ) : Bool :=
  match lowpass with
  | none => true
  | some b => decide (f < b)

/-- psd.py:146-147, 155-158: the ticks set for a spectrum (matplotlib refuses, with ValueError, a number of labels that differs from the
number of ticks): the labels are made from the frequencies before the removal of the frequency 0. -/
def logTicks {R : ℕ} (lowpass : Option ℝ) (log : String) (s : PSD R) : Except PyErr LogTicks :=
  match logPlotCurve lowpass log s with
  | .error e => .error e
  | .ok c =>
    let freq := s.freq.filter (belowCut lowpass)
    if freq.length ≠ c.1.length then .error .valueError
    else .ok { positions := c.1, labels := freq.map fun f => (f, if f < 1 then 2 else 1) }

/-- psd.py:99-173 `log_plot`.  The loop sets the ticks in its turn number `len(freq_list) - 1`, if it gets there (line 155).  The legend
and `plot_kwargs` are handed to matplotlib unchanged and are left out.  Lines 161-164: `color` is no longer None. -/
def logPlot {R : ℕ} (freqs : List (List ℝ)) (psds : List (Arr R)) (fmt : Option (List String)) (color : Option (List PlotColor))
    (slope : List (List Fl × List Fl)) (log : String) (lowpass : Option ℝ) (xticks : Bool) (linewidth : Option (List ℝ)) :
    Except PyErr (LogFigure R) :=
  let n := freqs.length
  let cs := logColors color n
  let turns := logZip freqs psds (logDefault "-" fmt n) cs (logDefault (3 / 2) linewidth n)
  match mapE (logCurve lowpass log) turns with
  | .error e => .error e
  | .ok curves =>
    match (if xticks = true then turns[n - 1]? else none) with
    | none => .ok { curves := curves, ticks := none, slopes := slope.zip cs }              -- psd.py:166-167
    | some t => match logTicks lowpass log t.1 with
      | .error e => .error e
      | .ok ticks => .ok { curves := curves, ticks := some ticks, slopes := slope.zip cs }

end

end MFA
