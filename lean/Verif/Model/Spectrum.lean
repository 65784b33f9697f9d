import Verif.Model.StructureFunction

/-!
# Model of `pymultifracs/mfspectrum.py`
-/

namespace MFA

open Classical

noncomputable section

/-- mfspectrum.py:105-112 on one column: `R_j = |c|^q / nansum(|c|^q)`. -/
def msR (c : List Fl) (q : Expo) : List Fl :=
  let temp := (c.map Fl.abs).map (fastPower q)
  temp.map (fun t => t / nansum temp)

/-- mfspectrum.py:113 on one column: `fixednansum(R_j * log2|c|)`. -/
def msV (c : List Fl) (q : Expo) : Fl :=
  fixedNanSum (List.zipWith (fun R x => R * x.abs.log2) (msR c q) c)

/-- mfspectrum.py:114-115 on one column: `log2(nj) + fixednansum(R_j * log2(R_j))`. -/
def msU (nj : ℕ) (c : List Fl) (q : Expo) : Fl :=
  (Fl.fin (nj : ℝ)).log2 + fixedNanSum ((msR c q).map (fun R => R * R.log2))

/-- mfspectrum.py:16-83 `MultifractalSpectrum`.  `U`, `V` are stored q-major (the python arrays are
scale-major, shape (n_scales, n_q, nrep)). -/
structure Spectrum (R : ℕ) where
  formalism : Formalism
  nj : Dict (Fin R → ℕ)
  j : List ℤ
  j1 : ℤ
  j2 : ℤ
  weighted : Bool
  q : QArg
  U : List (Arr R)
  V : List (Arr R)
  Dq : Arr R
  hq : Arr R

/-- mfspectrum.py:103-115: the pairs (U row, V row) at each scale for one q; `mrq.nj[j]` may raise KeyError. -/
def msUV {R : ℕ} (m : MRQ R) (q : Expo) : Except PyErr (List (Row R × Row R)) :=
  mapE (fun p => match getKey m.nj p.1 with
    | .error e => .error e
    | .ok n => .ok ((fun r => msU (n r) (col p.2 r) q), (fun r => msV (col p.2 r) q))) m.values

/-- mfspectrum.py:85-144: constructor `MultifractalSpectrum(mrq, j1, j2, weighted, q)`.  `np.stack` of an empty
list of q raises ValueError. -/
def Spectrum.make {R : ℕ} (m : MRQ R) (j1 j2 : ℤ) (weighted : Bool) (q : QArg) :
    Except PyErr (Spectrum R) :=
  match m.checkNrep with
  | .error e => .error e
  | .ok () =>
    if q.expos = [] then .error .valueError                            -- mfspectrum.py:108
    else match mapE (msUV m) q.expos with
    | .error e => .error e
    | .ok uv =>
      let U : List (Arr R) := uv.map (fun l => l.map Prod.fst)
      let V : List (Arr R) := uv.map (fun l => l.map Prod.snd)
      match regWeights m.nj j1 j2 weighted with                        -- mfspectrum.py:128-131
      | .error e => .error e
      | .ok w =>
        let x := tileScales R j1 j2
        match mapE (fun u => linearRegression x (pySlice u (j1 - 1) j2) w) U with
        | .error e => .error e
        | .ok r1 =>
          match mapE (fun v => linearRegression x (pySlice v (j1 - 1) j2) w) V with
          | .error e => .error e
          | .ok r2 => .ok {
              formalism := m.formalism, nj := m.nj, j := m.values.keys, j1 := j1, j2 := j2
              weighted := weighted, q := q, U := U, V := V
              Dq := r1.map fun g r => Fl.fin 1 + g.slope r             -- mfspectrum.py:140
              hq := r2.map LinReg.slope }                              -- mfspectrum.py:141

end

end MFA
