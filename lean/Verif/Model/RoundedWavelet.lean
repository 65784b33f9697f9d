import Verif.Model.Rounded

/-!
# The wavelet analysis and `mf_analysis_full` in rounded arithmetic

The functions of `Model/Wavelet.lean` and `Model/Mfa.lean` that compute with floating-point numbers, on a machine of
`Model/Rounded.lean`.  Taking borders, subsampling, slicing and stacking arrays, absolute values, changes of sign and maxima are
exact.  The number of scales (an integer computed from the length of the signal) and `1/p_exp` are taken exact.
-/

namespace MFA

open Classical

noncomputable section

namespace Machine

variable (M : Machine) {R : ℕ}

/-- wavelet.py:132-133: the direct convolution, as `convSame`, the products being added up in any order. -/
def convSame (a : Arr R) (f : List ℝ) : Arr R :=
  (List.range a.length).map fun (i : ℕ) r =>
    M.sum ((List.range f.length).map fun (k : ℕ) =>
      M.mul (Fl.fin (f.getD k 0)) (padGet a ((i : ℤ) + ((f.length - 1) / 2 : ℕ) - k) r))

/-- wavelet.py:123-158 `filtering`. -/
def filtering (approx : Arr R) (high low : List ℝ) : Arr R × Arr R :=
  (subsample (maskBorders high.length (M.convSame approx high)),
   subsample (maskBorders high.length (M.convSame approx low)))

/-- wavelet.py:241-244 / 368-371: `detail * 2**(scale*(0.5-1/normalization)) * 2.0**(gamint*scale)`. -/
def normalize (detail : Arr R) (scale : ℕ) (normalization gamint : ℝ) : Except PyErr (Arr R) :=
  if normalization = 0 then .error .zeroDivisionError
  else .ok (mapArr (fun x => M.mul (M.mul x
      (M.exp2 (M.mul (Fl.fin scale) (M.sub (Fl.fin (1 / 2)) (M.div (Fl.fin 1) (Fl.fin normalization))))))
      (M.exp2 (M.mul (Fl.fin gamint) (Fl.fin scale)))) detail)

/-- The reduction used by a formalism (wavelet.py:176-179, 202-206). -/
def leaderRed (f : Formalism) : List Fl → Fl :=
  if f = .pleader then M.fixedNanSum else fixedNanMax

/-- wavelet.py:161-181 `_find_sans_voisin`. -/
def findSansVoisin (scale : ℕ) (detail sans_voisin : Arr R) (f : Formalism) : Except PyErr (Arr R) :=
  if scale = 1 then .ok detail
  else
    let max_index := sans_voisin.length / 2
    stack3 (M.leaderRed f) (detail.take max_index)
      (everySecond sans_voisin 0 (2 * max_index))
      (everySecond sans_voisin 1 (2 * max_index))

/-- wavelet.py:189-192. -/
def leaderInput (detail : Arr R) (scale : ℕ) : PExp → Arr R
  | .num p => mapArr (fun x => M.mul (M.exp2 (Fl.fin scale)) (M.fastPower p x.abs)) detail
  | _ => mapArr Fl.abs detail

/-- wavelet.py:202-206, final step. -/
def leaderOutput (leaders : Arr R) (scale : ℕ) : PExp → Except PyErr (Arr R)
  | .num p => if p.val = 0 then .error .zeroDivisionError
    else .ok (mapArr (fun x => M.fastPower (.real (1 / p.val)) (M.mul (M.exp2 (Fl.fin (-(scale : ℝ)))) x)) leaders)
  | _ => .ok leaders

/-- wavelet.py:184-208 `_compute_leaders`. -/
def computeLeaders (detail sans_voisin : Arr R) (scale : ℕ) (p : PExp) : Except PyErr (Arr R × Arr R) :=
  let f := checkFormalism p
  match M.findSansVoisin scale (M.leaderInput detail scale p) sans_voisin f with
  | .error e => .error e
  | .ok sv =>
    let n : ℤ := sv.length
    match stack3 (M.leaderRed f) (pySlice sv 0 (n - 2)) (pySlice sv 1 (n - 1)) (pySlice sv 2 n) with
    | .error e => .error e
    | .ok l => match M.leaderOutput l scale p with
      | .error e => .error e
      | .ok leaders => .ok (leaders, sv)

/-- wavelet.py:236-259: the loop of `_wavelet_coef_analysis`. -/
def coefLoop (P : LoopParams) : (remaining scale : ℕ) → (max_level : ℤ) → Arr R → MRQ R → Except PyErr (MRQ R × ℤ)
  | 0, _, ml, _, acc => .ok (acc, ml)
  | n + 1, scale, ml, approx, acc =>
    if R = 0 then .error .other else
    let da := M.filtering approx P.high P.low
    match M.normalize da.1 scale P.normalization P.gamint with
    | .error e => .error e
    | .ok detail =>
      if tooFew detail then .ok (acc, (scale : ℤ) - 1)
      else coefLoop P n (scale + 1) ml da.2 (acc.addValues detail scale)

/-- wavelet.py:363-400: the loop of `wavelet_analysis` for the leader formalisms. -/
def leadLoop (P : LoopParams) (p : PExp) : (remaining scale : ℕ) → (max_level : ℤ) → Arr R →
    LeadState R → Except PyErr (LeadState R × ℤ)
  | 0, _, ml, _, st => .ok (st, ml)
  | n + 1, scale, ml, approx, st =>
    if R = 0 then .error .other else
    let da := M.filtering approx P.high P.low
    match M.normalize da.1 scale P.normalization P.gamint with
    | .error e => .error e
    | .ok detail =>
      if tooFew detail then .ok (st, (scale : ℤ) - 1)
      else match M.computeLeaders detail st.sans_voisin scale p with
      | .error e => .error e
      | .ok (leaders, sv) =>
        let coefs := st.coefs.addValues detail scale
        if tooFew leaders then
          .ok ({ coefs := coefs, leaders := st.leaders, sans_voisin := sv }, (scale : ℤ) - 1)
        else leadLoop P p n (scale + 1) ml da.2
          { coefs := coefs, leaders := st.leaders.addValues leaders scale, sans_voisin := sv }

/-- wavelet.py:30-40 `_estimate_eta_p`. -/
def estimateEtaP (coefs : MRQ R) (p : Expo) (j1 j2_eff : ℤ) (weighted : Bool) : Except PyErr (Row R) :=
  match M.structFn coefs (.ndarray [p.val]) j1 j2_eff weighted with
  | .error e => .error e
  | .ok s => match s.zeta with
    | [] => .error .indexError
    | z :: _ => .ok z

/-- wavelet.py:64-66. -/
def zpjCorr (eta : Fl) (p : ℝ) (j : ℕ) : Fl :=
  M.exp2 (M.mul (Fl.fin (-1 / p)) (M.log2 (M.div (M.sub (Fl.fin 1) (M.exp2 (-(M.mul (Fl.fin (j : ℝ)) eta))))
    (M.sub (Fl.fin 1) (M.exp2 (-eta))))))

/-- wavelet.py:70-72. -/
def applyCorr (eta : Row R) (p : ℝ) : List ℕ → Dict (Arr R) → Except PyErr (Dict (Arr R))
  | [], d => .ok d
  | j :: js, d => match getKey d j with
    | .error e => .error e
    | .ok v => applyCorr eta p js (d.set j (v.map fun row r => M.mul (row r) (M.zpjCorr (eta r) p j)))

/-- wavelet.py:43-74 `_correct_leaders` and the unpacking at wavelet.py:406. -/
def correctLeaders (coefs leaders : MRQ R) (p : Expo) (j1 j2_eff : ℤ) (weighted : Bool) (max_level : ℤ) :
    Except PyErr (MRQ R × Row R) :=
  match M.estimateEtaP coefs p j1 j2_eff weighted with
  | .error e => .error e
  | .ok eta =>
    if (∀ r, (eta r).isNaN = false) ∧ (∃ r, Fl.le (eta r) (Fl.fin 0)) then .error .typeError
    else match M.applyCorr eta p.val ((List.range max_level.toNat).map (· + 1)) leaders.values with
      | .error e => .error e
      | .ok vals => .ok ({ leaders with values := vals }, eta)

/-- wavelet.py:270-414 `wavelet_analysis`. -/
def waveletAnalysis (signal : Arr R) (p_exp : PExp) (wt : Wavelet) (j1 : ℤ) (j2 : Option ℝ)
    (gamint normalization : ℝ) (weighted : Bool) : Except PyErr (WT R) :=
  let P : LoopParams :=
    { high := wt.dec_hi.map (fun t => -1 * t), low := wt.dec_lo
      normalization := normalization, gamint := gamint }
  match decompositionLevelW signal.length P.high.length j2 with
  | .error e => .error e
  | .ok (max_level, warned) =>
    match p_exp with
    | .none =>
      match M.coefLoop P max_level.toNat 1 max_level signal (MRQ.empty .coef gamint) with
      | .error e => .error e
      | .ok (coefs, ml) => .ok
          { wt_coefs := coefs, wt_leaders := none, j2_eff := j2Eff ml j2, eta_p := none, warned := warned }
    | p =>
      match M.leadLoop P p max_level.toNat 1 max_level signal
          { coefs := MRQ.empty .coef gamint, leaders := MRQ.empty (checkFormalism p) gamint
            sans_voisin := [] } with
      | .error e => .error e
      | .ok (st, ml) =>
        let j2_eff := j2Eff ml j2
        match p with
        | .num e =>
          match M.correctLeaders st.coefs st.leaders e j1 j2_eff weighted ml with
          | .error e => .error e
          | .ok (leaders, eta) => .ok
              { wt_coefs := st.coefs, wt_leaders := some leaders, j2_eff := j2_eff, eta_p := some eta
                warned := warned }
        | _ => .ok
            { wt_coefs := st.coefs, wt_leaders := some st.leaders, j2_eff := j2_eff, eta_p := none
              warned := warned }

/-- mfa.py:41-119 `mf_analysis`. -/
def mfAnalysis (coefs : MRQ R) (leaders : Option (MRQ R)) (j2_eff j1 : ℤ) (weighted : Bool)
    (n_cumul : ℕ) (q : Option QArg) : Except PyErr (MFData R) :=
  match M.mfVar coefs j1 j2_eff weighted n_cumul (normQ q) with
  | .error e => .error e
  | .ok dwt => match leaders with
    | none => .ok { dwt := dwt, lwt := none }
    | some l => match M.mfVar l j1 j2_eff weighted n_cumul (normQ q) with
      | .error e => .error e
      | .ok lwt => .ok { dwt := dwt, lwt := some lwt }

/-- mfa.py:174-237 `mf_analysis_full` with `minimal=False`. -/
def mfAnalysisFull (signal : Arr R) (j1 : ℤ) (j2 : Option ℝ) (normalization gamint : ℝ)
    (weighted : Bool) (wt : Wavelet) (p_exp : PExp) (q : Option QArg) (n_cumul : ℕ) : Except PyErr (MFData R) :=
  match M.waveletAnalysis signal p_exp wt j1 j2 gamint normalization weighted with
  | .error e => .error e
  | .ok w => M.mfAnalysis w.wt_coefs w.wt_leaders w.j2_eff j1 weighted n_cumul q

end Machine

end

end MFA
