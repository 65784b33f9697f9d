import Verif.Model.Utils

/-!
# Model of `pymultifracs/multiresquantity.py`
-/

namespace MFA

open Classical

noncomputable section

/-- The three accepted formalisms (multiresquantity.py:103-104). -/
inductive Formalism where
  | coef | leader | pleader
  deriving DecidableEq

/-- multiresquantity.py:101-106 `__post_init__`: any other string raises ValueError. -/
def Formalism.ofString (s : String) : Except PyErr Formalism :=
  if s = "wavelet coef" then .ok .coef
  else if s = "wavelet leader" then .ok .leader
  else if s = "wavelet p-leader" then .ok .pleader
  else .error .valueError

/-- multiresquantity.py:66-99 `MultiResolutionQuantity` with `R` realisations. -/
structure MRQ (R : ℕ) where
  formalism : Formalism
  gamint : ℝ
  values : Dict (Arr R)
  nj : Dict (Fin R → ℕ)

/-- Constructor `MultiResolutionQuantity(formalism, gamint)`: empty dictionaries. -/
def MRQ.empty {R : ℕ} (f : Formalism) (gamint : ℝ) : MRQ R := ⟨f, gamint, [], []⟩

/-- multiresquantity.py:108-111 `add_values`. -/
def MRQ.addValues {R : ℕ} (m : MRQ R) (coeffs : Arr R) (j : ℤ) : MRQ R :=
  { m with
    values := m.values.set j coeffs
    nj := m.nj.set j (fun r => countNotNaN (col coeffs r)) }

/-- multiresquantity.py:19-23 `get_nj`. -/
def MRQ.getNj {R : ℕ} (m : MRQ R) : List (Fin R → ℕ) := m.nj.map Prod.snd

/-- Dictionary access that raises `KeyError`. -/
def getKey {α : Type} (d : Dict α) (j : ℤ) : Except PyErr α :=
  match d.get? j with
  | some v => .ok v
  | none => .error .keyError

/-- multiresquantity.py:25-33 `get_nj_interv` (as a list of rows). -/
def getNjRows {R : ℕ} (nj : Dict (Fin R → ℕ)) (j1 j2 : ℤ) : Except PyErr (List (Fin R → ℕ)) :=
  mapE (fun j => getKey nj j) (arange j1 (j2 + 1))

/-- multiresquantity.py:25-33 `get_nj_interv`, as regression weights. -/
def getNjInterv {R : ℕ} (nj : Dict (Fin R → ℕ)) (j1 j2 : ℤ) : Except PyErr (Weights R) :=
  match getNjRows nj j1 j2 with
  | .error e => .error e
  | .ok [] => .ok .flat0
  | .ok l => .ok (.mat (l.map fun (row : Fin R → ℕ) r => Fl.fin (row r : ℝ)))

/-- The weights used by all estimators: `get_nj_interv` or `np.ones((len(x), nrep))`
(structurefunction.py:112-115, cumulants.py:135-138, mfspectrum.py:128-131, estimation.py:34-38). -/
def regWeights {R : ℕ} (nj : Dict (Fin R → ℕ)) (j1 j2 : ℤ) (weighted : Bool) : Except PyErr (Weights R) :=
  if weighted then getNjInterv nj j1 j2
  else .ok (.mat ((arange j1 (j2 + 1)).map fun _ _ => Fl.fin 1))

/-- multiresquantity.py:113-118 `nrep` through `__getattr__`: AttributeError when no scale was added. -/
def MRQ.checkNrep {R : ℕ} (m : MRQ R) : Except PyErr Unit :=
  if m.values.isEmpty then .error .attributeError else .ok ()

end

end MFA
