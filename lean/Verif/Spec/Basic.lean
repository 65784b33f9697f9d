import Verif.Model.Utils
import Mathlib.Algebra.BigOperators.Fin

/-! Small vocabulary used by the statements of the property theorems (no repository code is modelled here). -/

namespace MFA

open Finset

/-- The array of shape `(n, R)` with real entries `f`. -/
noncomputable def realArr {n R : ℕ} (f : Fin n → Fin R → ℝ) : Arr R := List.ofFn (fun i r => Fl.fin (f i r))

/-- The array of shape `(n, R)` with arbitrary float entries `f`. -/
def flArr {n R : ℕ} (f : Fin n → Fin R → Fl) : Arr R := List.ofFn f

/-- Weighted squared error of the line `t ↦ a t + b` on the data `(x, y)` with weights `w`. -/
noncomputable def sqErr {n : ℕ} (x y w : Fin n → ℝ) (a b : ℝ) : ℝ := ∑ i, w i * (y i - (a * x i + b)) ^ 2

end MFA
