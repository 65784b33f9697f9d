import Verif.Model.Mfa

/-! Selecting realisations (columns).  For `σ : Fin R' → Fin R`, `x.sel σ` keeps column `σ r` of the object `x` as its
column `r`: one column (`R' = 1`), a subset, a permutation, a repetition.  No repository code is modelled here. -/

namespace MFA

variable {R R' : ℕ}

/-- Columns of a vector of shape `(nrep,)`. -/
def Row.sel (σ : Fin R' → Fin R) (v : Row R) : Row R' := fun r => v (σ r)

/-- Columns of an array of shape `(n, nrep)`. -/
def Arr.sel (σ : Fin R' → Fin R) (a : Arr R) : Arr R' := a.map (Row.sel σ)

/-- Columns of the counts `nj`. -/
def njSel (σ : Fin R' → Fin R) (d : Dict (Fin R → ℕ)) : Dict (Fin R' → ℕ) := d.map fun p => (p.1, fun r => p.2 (σ r))

/-- Columns of a multiresolution quantity. -/
def MRQ.sel (σ : Fin R' → Fin R) (m : MRQ R) : MRQ R' :=
  { formalism := m.formalism, gamint := m.gamint
    values := m.values.map fun p => (p.1, Arr.sel σ p.2), nj := njSel σ m.nj }

/-- Columns of the result of the wavelet transform. -/
def WT.sel (σ : Fin R' → Fin R) (w : WT R) : WT R' :=
  { wt_coefs := w.wt_coefs.sel σ, wt_leaders := w.wt_leaders.map (MRQ.sel σ), j2_eff := w.j2_eff
    eta_p := w.eta_p.map (Row.sel σ), warned := w.warned }

/-- Columns of structure functions. -/
def StructFn.sel (σ : Fin R' → Fin R) (s : StructFn R) : StructFn R' :=
  { formalism := s.formalism, gamint := s.gamint, j := s.j, q := s.q, j1 := s.j1, j2 := s.j2, weighted := s.weighted
    logvalues := s.logvalues.map (Arr.sel σ), zeta := Arr.sel σ s.zeta, intercept := Arr.sel σ s.intercept
    H := Row.sel σ s.H }

/-- Columns of cumulants. -/
def Cumulants.sel (σ : Fin R' → Fin R) (c : Cumulants R) : Cumulants R' :=
  { formalism := c.formalism, nj := njSel σ c.nj, j := c.j, n_cumul := c.n_cumul, j1 := c.j1, j2 := c.j2
    weighted := c.weighted, values := c.values.map (Arr.sel σ), log_cumulants := Arr.sel σ c.log_cumulants
    var_log_cumulants := Arr.sel σ c.var_log_cumulants, slope := Arr.sel σ c.slope, intercept := Arr.sel σ c.intercept }

/-- Columns of a multifractal spectrum. -/
def Spectrum.sel (σ : Fin R' → Fin R) (s : Spectrum R) : Spectrum R' :=
  { formalism := s.formalism, nj := njSel σ s.nj, j := s.j, j1 := s.j1, j2 := s.j2, weighted := s.weighted, q := s.q
    U := s.U.map (Arr.sel σ), V := s.V.map (Arr.sel σ), Dq := Arr.sel σ s.Dq, hq := Arr.sel σ s.hq }

/-- Columns of the four estimates. -/
def MFVar.sel (σ : Fin R' → Fin R) (v : MFVar R) : MFVar R' :=
  { structure_ := v.structure_.sel σ, cumulants := v.cumulants.sel σ, spectrum := v.spectrum.sel σ
    hmin := Row.sel σ v.hmin }

/-- Columns of the result of `mf_analysis`. -/
def MFData.sel (σ : Fin R' → Fin R) (d : MFData R) : MFData R' :=
  { dwt := d.dwt.sel σ, lwt := d.lwt.map (MFVar.sel σ) }

end MFA
