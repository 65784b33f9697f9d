import Verif.Model.StructureFunction

/-!
# Model of `pymultifracs/wavelet.py`
-/

namespace MFA

open Classical

noncomputable section

/-- The decomposition filters of `pywt.Wavelet(wt_name)` (external library): two tap vectors, which pywt
guarantees to have the same length. -/
structure Wavelet where
  dec_lo : List ℝ
  dec_hi : List ℝ

/-- The argument `p_exp`: `None`, an infinity, or a finite python number. -/
inductive PExp where
  | none
  | inf
  | num (p : Expo)

/-- wavelet.py:18-27 `_check_formalism`. -/
def checkFormalism : PExp → Formalism
  | .none => .coef
  | .inf => .leader
  | .num _ => .pleader

/-- wavelet.py:98-99 and 110-111: `int(np.floor(np.log2(length / (filter_len + 1))))`, then `min` with
`int(np.floor(np.log2(length)))`.  `int(-inf)` raises OverflowError for `length = 0`. -/
def maxLevel (length filter_len : ℕ) : Except PyErr ℤ :=
  if length = 0 then .error .overflowError
  else .ok (min ⌊Real.logb 2 (length : ℝ)⌋ ⌊Real.logb 2 ((length : ℝ) / ((filter_len : ℝ) + 1))⌋)

/-- wavelet.py:77-101 `decomposition_level`. -/
def decompositionLevel (length : ℕ) (wt : Wavelet) : Except PyErr ℤ :=
  maxLevel length wt.dec_hi.length

/-- wavelet.py:104-120 `_decomposition_level` (with `warn=True`): the level and whether a UserWarning was
emitted.  `j2` may be an int, a float or None. -/
def decompositionLevelW (length filter_len : ℕ) (j2 : Option ℝ) : Except PyErr (ℤ × Bool) :=
  match maxLevel length filter_len with
  | .error e => .error e
  | .ok lvl => .ok (lvl, match j2 with
    | none => false
    | some j => decide ((lvl : ℝ) < j))

/-- Element `t` of a zero-padded array (scipy pads with zeros in `mode='same'`). -/
def padGet {R : ℕ} (a : Arr R) (t : ℤ) (r : Fin R) : Fl :=
  if 0 ≤ t then (match a[t.toNat]? with | some row => row r | none => Fl.fin 0) else Fl.fin 0

/-- `scipy.signal.convolve(a, f[:, None], mode='same', method='direct')` (wavelet.py:132-133): output `i` is
`full[i + (len(f)-1)//2]`, computed term by term so that NaN/inf propagate even through zero taps. -/
def convSame {R : ℕ} (a : Arr R) (f : List ℝ) : Arr R :=
  (List.range a.length).map fun (i : ℕ) r =>
    ((List.range f.length).map fun (k : ℕ) =>
      Fl.fin (f.getD k 0) * padGet a ((i : ℤ) + ((f.length - 1) / 2 : ℕ) - k) r).sum

/-- `a[start:stop] = np.nan` with the slice bounds already normalised. -/
def setNaN {R : ℕ} (a : Arr R) (start stop : ℕ) : Arr R :=
  a.mapIdx fun i row => if start ≤ i ∧ i < stop then (fun _ => Fl.nan) else row

/-- wavelet.py:138-147: NaN on both borders, `a[0:fp] = nan; a[lp+1:] = nan` with `fp = F-1`, `lp = n-F`
(python slices: a negative `lp+1` counts from the end). -/
def maskBorders {R : ℕ} (F : ℕ) (a : Arr R) : Arr R :=
  let n := a.length
  let a := setNaN a 0 (sliceBound n ((F : ℤ) - 1))
  setNaN a (sliceBound n ((n : ℤ) - F + 1)) n

/-- `a[np.arange(1, len(a), 2)]` (wavelet.py:152-156). -/
def subsample {R : ℕ} (a : Arr R) : Arr R :=
  (List.range (a.length / 2)).filterMap fun k => a[2 * k + 1]?

/-- wavelet.py:123-158 `filtering`: detail and approximation. -/
def filtering {R : ℕ} (approx : Arr R) (high low : List ℝ) : Arr R × Arr R :=
  (subsample (maskBorders high.length (convSame approx high)),
   subsample (maskBorders high.length (convSame approx low)))

/-- Stack three arrays and reduce over the new axis; `np.stack` raises ValueError on different shapes. -/
def stack3 {R : ℕ} (f : List Fl → Fl) (a b c : Arr R) : Except PyErr (Arr R) :=
  if a.length = b.length ∧ b.length = c.length then
    .ok ((List.zip a (List.zip b c)).map fun p r => f [p.1 r, p.2.1 r, p.2.2 r])
  else .error .valueError

/-- `a[start:stop:2]` for `0 <= start` and `stop <= len(a)`. -/
def everySecond {R : ℕ} (a : Arr R) (start stop : ℕ) : Arr R :=
  (List.range ((stop - start + 1) / 2)).filterMap fun k => a[start + 2 * k]?

/-- The reduction used by a formalism: sums for p-leaders, maxima otherwise (wavelet.py:176-179, 202-206). -/
def leaderRed (f : Formalism) : List Fl → Fl :=
  if f = .pleader then fixedNanSum else fixedNanMax

/-- wavelet.py:161-181 `_find_sans_voisin`.  At the first scale `sans_voisin` is `None` in python and not
used; it is the empty list here. -/
def findSansVoisin {R : ℕ} (scale : ℕ) (detail sans_voisin : Arr R) (f : Formalism) : Except PyErr (Arr R) :=
  if scale = 1 then .ok detail
  else
    let max_index := sans_voisin.length / 2
    stack3 (leaderRed f) (detail.take max_index)
      (everySecond sans_voisin 0 (2 * max_index))
      (everySecond sans_voisin 1 (2 * max_index))

/-- wavelet.py:189-192: `np.abs(detail)` and, for p-leaders, `2.**scale * fast_power(|detail|, p_exp)`. -/
def leaderInput {R : ℕ} (detail : Arr R) (scale : ℕ) : PExp → Arr R
  | .num p => mapArr (fun x => Fl.fin ((2:ℝ) ^ scale) * fastPower p x.abs) detail
  | _ => mapArr Fl.abs detail

/-- wavelet.py:202-206, final step: for p-leaders `fast_power(2.**-scale * leaders, 1/p_exp)` (python
`1/p_exp` raises ZeroDivisionError for `p_exp = 0`). -/
def leaderOutput {R : ℕ} (leaders : Arr R) (scale : ℕ) : PExp → Except PyErr (Arr R)
  | .num p => if p.val = 0 then .error .zeroDivisionError
    else .ok (mapArr (fun x => fastPower (.real (1 / p.val)) (Fl.fin ((2:ℝ) ^ (-(scale : ℝ))) * x)) leaders)
  | _ => .ok leaders

/-- wavelet.py:184-208 `_compute_leaders`: leaders and the new `sans_voisin`. -/
def computeLeaders {R : ℕ} (detail sans_voisin : Arr R) (scale : ℕ) (p : PExp) :
    Except PyErr (Arr R × Arr R) :=
  let f := checkFormalism p
  match findSansVoisin scale (leaderInput detail scale p) sans_voisin f with
  | .error e => .error e
  | .ok sv =>
    let n : ℤ := sv.length
    match stack3 (leaderRed f) (pySlice sv 0 (n - 2)) (pySlice sv 1 (n - 1)) (pySlice sv 2 n) with
    | .error e => .error e
    | .ok l => match leaderOutput l scale p with
      | .error e => .error e
      | .ok leaders => .ok (leaders, sv)

/-- wavelet.py:241-244 / 368-371: `detail * 2**(scale*(0.5-1/normalization)) * 2.0**(gamint*scale)`; python
`1/normalization` raises ZeroDivisionError for 0. -/
def normalize {R : ℕ} (detail : Arr R) (scale : ℕ) (normalization gamint : ℝ) : Except PyErr (Arr R) :=
  if normalization = 0 then .error .zeroDivisionError
  else .ok (mapArr (fun x => x * Fl.fin ((2:ℝ) ^ ((scale : ℝ) * (1 / 2 - 1 / normalization)))
      * Fl.fin ((2:ℝ) ^ (gamint * (scale : ℝ)))) detail)

/-- wavelet.py:248-252 / 374-376 / 393-396: `np.sum(~np.isnan(np.abs(a)), axis=0).min() < 3`. -/
def tooFew {R : ℕ} (a : Arr R) : Prop := ∃ r : Fin R, countNotNaN ((col a r).map Fl.abs) < 3

/-- Parameters that stay constant during the loops. -/
structure LoopParams where
  high : List ℝ
  low : List ℝ
  normalization : ℝ
  gamint : ℝ

/-- wavelet.py:236-259: the loop of `_wavelet_coef_analysis`, `remaining` iterations to go, the next one at
`scale`.  Returns the coefficients and the final value of `max_level`.  Arrays without realisations (R = 0)
are refused (`other`): numpy/scipy raise at this point. -/
def coefLoop {R : ℕ} (P : LoopParams) : (remaining scale : ℕ) → (max_level : ℤ) → Arr R → MRQ R →
    Except PyErr (MRQ R × ℤ)
  | 0, _, ml, _, acc => .ok (acc, ml)
  | n + 1, scale, ml, approx, acc =>
    if R = 0 then .error .other else
    let da := filtering approx P.high P.low
    match normalize da.1 scale P.normalization P.gamint with
    | .error e => .error e
    | .ok detail =>
      if tooFew detail then .ok (acc, (scale : ℤ) - 1)
      else coefLoop P n (scale + 1) ml da.2 (acc.addValues detail scale)

/-- State of the loop of `wavelet_analysis`. -/
structure LeadState (R : ℕ) where
  coefs : MRQ R
  leaders : MRQ R
  sans_voisin : Arr R

/-- wavelet.py:363-400: the loop of `wavelet_analysis` for the leader formalisms. -/
def leadLoop {R : ℕ} (P : LoopParams) (p : PExp) : (remaining scale : ℕ) → (max_level : ℤ) → Arr R →
    LeadState R → Except PyErr (LeadState R × ℤ)
  | 0, _, ml, _, st => .ok (st, ml)
  | n + 1, scale, ml, approx, st =>
    if R = 0 then .error .other else
    let da := filtering approx P.high P.low
    match normalize da.1 scale P.normalization P.gamint with
    | .error e => .error e
    | .ok detail =>
      if tooFew detail then .ok (st, (scale : ℤ) - 1)                        -- wavelet.py:376-378
      else match computeLeaders detail st.sans_voisin scale p with
      | .error e => .error e
      | .ok (leaders, sv) =>
        let coefs := st.coefs.addValues detail scale                        -- wavelet.py:389
        if tooFew leaders then
          .ok ({ coefs := coefs, leaders := st.leaders, sans_voisin := sv }, (scale : ℤ) - 1)
        else leadLoop P p n (scale + 1) ml da.2
          { coefs := coefs, leaders := st.leaders.addValues leaders scale, sans_voisin := sv }

/-- Python `int(x)` of a float: truncation towards zero. -/
def pyInt (x : ℝ) : ℤ := if 0 ≤ x then ⌊x⌋ else ⌈x⌉

/-- wavelet.py:262 / 403: `int(min(max_level, j2) if j2 is not None else max_level)`. -/
def j2Eff (max_level : ℤ) (j2 : Option ℝ) : ℤ :=
  match j2 with
  | none => max_level
  | some j => pyInt (min (max_level : ℝ) j)

/-- wavelet.py:211-227 `WaveletTransform` (plus whether the j2 warning was emitted). -/
structure WT (R : ℕ) where
  wt_coefs : MRQ R
  wt_leaders : Option (MRQ R)
  j2_eff : ℤ
  eta_p : Option (Row R)
  warned : Bool

/-- wavelet.py:30-40 `_estimate_eta_p`: `StructureFunction(wt_coefs, np.array([p_exp]), ...).zeta[0]`. -/
def estimateEtaP {R : ℕ} (coefs : MRQ R) (p : Expo) (j1 j2_eff : ℤ) (weighted : Bool) :
    Except PyErr (Row R) :=
  match StructFn.make coefs (.ndarray [p.val]) j1 j2_eff weighted with
  | .error e => .error e
  | .ok s => match s.zeta with
    | [] => .error .indexError
    | z :: _ => .ok z

/-- wavelet.py:64-66: the correction factor `2 ** ((-1/p) * log2((1 - 2**(-j*eta)) / (1 - 2**-eta)))`. -/
def zpjCorr (eta : Fl) (p : ℝ) (j : ℕ) : Fl :=
  (Fl.fin (-1 / p) * ((Fl.fin 1 - (-(Fl.fin (j : ℝ) * eta)).exp2) / (Fl.fin 1 - (-eta).exp2)).log2).exp2

/-- wavelet.py:70-72: in-place multiplication of the leaders at scales `j = start ..`. -/
def applyCorr {R : ℕ} (eta : Row R) (p : ℝ) : List ℕ → Dict (Arr R) → Except PyErr (Dict (Arr R))
  | [], d => .ok d
  | j :: js, d => match getKey d j with
    | .error e => .error e
    | .ok v => applyCorr eta p js (d.set j (v.map fun row r => row r * zpjCorr (eta r) p j))

/-- wavelet.py:43-74 `_correct_leaders` followed by the tuple unpacking at wavelet.py:406.  When
`eta_p.min() <= 0` the function returns a single object, and unpacking it raises TypeError.  `min` propagates
NaN, and `NaN <= 0` is false. -/
def correctLeaders {R : ℕ} (coefs leaders : MRQ R) (p : Expo) (j1 j2_eff : ℤ) (weighted : Bool)
    (max_level : ℤ) : Except PyErr (MRQ R × Row R) :=
  match estimateEtaP coefs p j1 j2_eff weighted with
  | .error e => .error e
  | .ok eta =>
    if (∀ r, (eta r).isNaN = false) ∧ (∃ r, Fl.le (eta r) (Fl.fin 0)) then .error .typeError
    else match applyCorr eta p.val ((List.range max_level.toNat).map (· + 1)) leaders.values with
      | .error e => .error e
      | .ok vals => .ok ({ leaders with values := vals }, eta)

/-- wavelet.py:270-414 `wavelet_analysis` on an array of shape (n, R) (a 1-D signal is given one column,
wavelet.py:339-340), including `_wavelet_coef_analysis` (wavelet.py:230-267).  `wt` is
`pywt.Wavelet(wt_name)`. -/
def waveletAnalysis {R : ℕ} (signal : Arr R) (p_exp : PExp) (wt : Wavelet) (j1 : ℤ) (j2 : Option ℝ)
    (gamint normalization : ℝ) (weighted : Bool) : Except PyErr (WT R) :=
  let P : LoopParams :=
    { high := wt.dec_hi.map (fun t => -1 * t), low := wt.dec_lo     -- wavelet.py:345-346
      normalization := normalization, gamint := gamint }
  match decompositionLevelW signal.length P.high.length j2 with     -- wavelet.py:350
  | .error e => .error e
  | .ok (max_level, warned) =>
    match p_exp with
    | .none =>                                                      -- wavelet.py:353-355
      match coefLoop P max_level.toNat 1 max_level signal (MRQ.empty .coef gamint) with
      | .error e => .error e
      | .ok (coefs, ml) => .ok
          { wt_coefs := coefs, wt_leaders := none, j2_eff := j2Eff ml j2, eta_p := none, warned := warned }
    | p =>
      match leadLoop P p max_level.toNat 1 max_level signal
          { coefs := MRQ.empty .coef gamint, leaders := MRQ.empty (checkFormalism p) gamint
            sans_voisin := [] } with
      | .error e => .error e
      | .ok (st, ml) =>
        let j2_eff := j2Eff ml j2
        match p with
        | .num e =>                                                 -- wavelet.py:405-407
          match correctLeaders st.coefs st.leaders e j1 j2_eff weighted ml with
          | .error e => .error e
          | .ok (leaders, eta) => .ok
              { wt_coefs := st.coefs, wt_leaders := some leaders, j2_eff := j2_eff, eta_p := some eta
                warned := warned }
        | _ => .ok
            { wt_coefs := st.coefs, wt_leaders := some st.leaders, j2_eff := j2_eff, eta_p := none
              warned := warned }

end

end MFA
