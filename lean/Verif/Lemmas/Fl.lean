import Verif.Model.NumPy
import Mathlib.Tactic.Ring
import Mathlib.Tactic.Linarith
import Mathlib.Algebra.BigOperators.Group.List.Basic

/-! Helper lemmas about the idealised floats. -/

namespace MFA

open Classical

namespace Fl

@[simp] theorem isNaN_nan : isNaN nan = true := rfl
@[simp] theorem isNaN_pinf : isNaN pinf = false := rfl
@[simp] theorem isNaN_ninf : isNaN ninf = false := rfl
@[simp] theorem isNaN_fin (a : ℝ) : isNaN (fin a) = false := rfl

theorem isNaN_iff (x : Fl) : x.isNaN = true ↔ x = nan := by cases x <;> simp
theorem not_isNaN_iff (x : Fl) : x.isNaN = false ↔ x ≠ nan := by cases x <;> simp

theorem zero_def : (0 : Fl) = fin 0 := rfl
theorem one_def : (1 : Fl) = fin 1 := rfl
@[simp] theorem fin_zero : fin 0 = (0 : Fl) := rfl
theorem sub_def (a b : Fl) : a - b = a + -b := rfl
theorem div_def (a b : Fl) : a / b = a * b⁻¹ := rfl

@[simp] theorem fin_inj (a b : ℝ) : fin a = fin b ↔ a = b := by
  constructor
  · intro h; cases h; rfl
  · rintro rfl; rfl

@[simp] theorem fin_ne_nan (a : ℝ) : fin a ≠ nan := by intro h; cases h
@[simp] theorem nan_ne_fin (a : ℝ) : nan ≠ fin a := by intro h; cases h
@[simp] theorem fin_ne_pinf (a : ℝ) : fin a ≠ pinf := by intro h; cases h
@[simp] theorem fin_ne_ninf (a : ℝ) : fin a ≠ ninf := by intro h; cases h
@[simp] theorem pinf_ne_fin (a : ℝ) : pinf ≠ fin a := by intro h; cases h
@[simp] theorem ninf_ne_fin (a : ℝ) : ninf ≠ fin a := by intro h; cases h
@[simp] theorem pinf_ne_nan : pinf ≠ nan := by intro h; cases h
@[simp] theorem ninf_ne_nan : ninf ≠ nan := by intro h; cases h

theorem fin_add (a b : ℝ) : fin a + fin b = fin (a + b) := rfl
theorem fin_mul (a b : ℝ) : fin a * fin b = fin (a * b) := rfl
theorem neg_fin (a : ℝ) : -(fin a) = fin (-a) := rfl
theorem fin_sub (a b : ℝ) : fin a - fin b = fin (a - b) := by
  rw [sub_def, neg_fin, fin_add, sub_eq_add_neg]
theorem inv_fin {a : ℝ} (h : a ≠ 0) : (fin a)⁻¹ = fin a⁻¹ := by
  show Fl.inv (fin a) = _
  simp [Fl.inv, h]
theorem fin_div {a b : ℝ} (h : b ≠ 0) : fin a / fin b = fin (a / b) := by
  rw [div_def, inv_fin h, fin_mul, div_eq_mul_inv]

@[simp] theorem nan_add (x : Fl) : nan + x = nan := by cases x <;> rfl
@[simp] theorem add_nan (x : Fl) : x + nan = nan := by cases x <;> rfl
@[simp] theorem nan_mul (x : Fl) : nan * x = nan := by cases x <;> rfl
@[simp] theorem mul_nan (x : Fl) : x * nan = nan := by cases x <;> rfl
@[simp] theorem neg_nan : -nan = nan := rfl
@[simp] theorem neg_pinf : -pinf = ninf := rfl
@[simp] theorem neg_ninf : -ninf = pinf := rfl
@[simp] theorem nan_sub (x : Fl) : nan - x = nan := nan_add _
@[simp] theorem sub_nan (x : Fl) : x - nan = nan := add_nan _
@[simp] theorem nan_inv : nan⁻¹ = nan := rfl
@[simp] theorem nan_div (x : Fl) : nan / x = nan := nan_mul _
@[simp] theorem div_nan (x : Fl) : x / nan = nan := mul_nan _
@[simp] theorem pinf_add_fin (a : ℝ) : pinf + fin a = pinf := rfl
@[simp] theorem fin_add_pinf (a : ℝ) : fin a + pinf = pinf := rfl
@[simp] theorem ninf_add_fin (a : ℝ) : ninf + fin a = ninf := rfl
@[simp] theorem fin_add_ninf (a : ℝ) : fin a + ninf = ninf := rfl
@[simp] theorem pinf_add_pinf : pinf + pinf = pinf := rfl
@[simp] theorem ninf_add_ninf : ninf + ninf = ninf := rfl
@[simp] theorem pinf_add_ninf : pinf + ninf = nan := rfl
@[simp] theorem ninf_add_pinf : ninf + pinf = nan := rfl
@[simp] theorem pinf_mul_pinf : pinf * pinf = pinf := rfl
@[simp] theorem ninf_mul_ninf : ninf * ninf = pinf := rfl
@[simp] theorem pinf_mul_ninf : pinf * ninf = ninf := rfl
@[simp] theorem ninf_mul_pinf : ninf * pinf = ninf := rfl
theorem pinf_mul_fin (b : ℝ) : pinf * fin b = sgnInf b := rfl
theorem fin_mul_pinf (b : ℝ) : fin b * pinf = sgnInf b := rfl
theorem ninf_mul_fin (b : ℝ) : ninf * fin b = sgnInf (-b) := rfl
theorem fin_mul_ninf (b : ℝ) : fin b * ninf = sgnInf (-b) := rfl

theorem sgnInf_pos {b : ℝ} (h : 0 < b) : sgnInf b = pinf := by simp [sgnInf, h]
theorem sgnInf_neg {b : ℝ} (h : b < 0) : sgnInf b = ninf := by simp [sgnInf, h, not_lt.mpr h.le]
@[simp] theorem sgnInf_zero : sgnInf 0 = nan := by simp [sgnInf]

protected theorem add_comm (a b : Fl) : a + b = b + a := by
  cases a <;> cases b <;> try rfl
  simp only [fin_add, _root_.add_comm]

protected theorem add_assoc (a b c : Fl) : a + b + c = a + (b + c) := by
  cases a <;> cases b <;> cases c <;> try rfl
  simp only [fin_add, _root_.add_assoc]

protected theorem zero_add (a : Fl) : 0 + a = a := by
  cases a <;> try rfl
  show fin (0 + _) = _
  rw [_root_.zero_add]

noncomputable instance : AddCommMonoid Fl where
  add_assoc := Fl.add_assoc
  zero_add := Fl.zero_add
  add_zero a := by rw [Fl.add_comm, Fl.zero_add]
  add_comm := Fl.add_comm
  nsmul := nsmulRec

protected theorem mul_comm (a b : Fl) : a * b = b * a := by
  cases a <;> cases b <;> try rfl
  simp only [fin_mul, _root_.mul_comm]

theorem sgnInf_trichotomy (b : ℝ) :
    (0 < b ∧ sgnInf b = pinf ∧ sgnInf (-b) = ninf) ∨ (b < 0 ∧ sgnInf b = ninf ∧ sgnInf (-b) = pinf)
      ∨ (b = 0 ∧ sgnInf b = nan ∧ sgnInf (-b) = nan) := by
  rcases lt_trichotomy b 0 with h | h | h
  · right; left; exact ⟨h, sgnInf_neg h, sgnInf_pos (by linarith)⟩
  · right; right; subst h; simp
  · left; exact ⟨h, sgnInf_pos h, sgnInf_neg (by linarith)⟩

private theorem sgnInf_mul_fin (b c : ℝ) : sgnInf b * fin c = sgnInf (b * c) := by
  rcases sgnInf_trichotomy b with ⟨hb, h1, h2⟩ | ⟨hb, h1, h2⟩ | ⟨hb, h1, h2⟩
  · rw [h1, pinf_mul_fin]
    rcases lt_trichotomy c 0 with h | h | h
    · rw [sgnInf_neg h, sgnInf_neg (mul_neg_of_pos_of_neg hb h)]
    · subst h; simp
    · rw [sgnInf_pos h, sgnInf_pos (mul_pos hb h)]
  · rw [h1, ninf_mul_fin]
    rcases lt_trichotomy c 0 with h | h | h
    · rw [sgnInf_pos (by linarith), sgnInf_pos (mul_pos_of_neg_of_neg hb h)]
    · subst h; simp
    · rw [sgnInf_neg (by linarith), sgnInf_neg (mul_neg_of_neg_of_pos hb h)]
  · subst hb; simp

private theorem sgnInf_mul_pinf (b : ℝ) : sgnInf b * pinf = sgnInf b := by
  rcases sgnInf_trichotomy b with ⟨_, h1, _⟩ | ⟨_, h1, _⟩ | ⟨_, h1, _⟩ <;> rw [h1] <;> simp

private theorem sgnInf_mul_ninf (b : ℝ) : sgnInf b * ninf = sgnInf (-b) := by
  rcases sgnInf_trichotomy b with ⟨_, h1, h2⟩ | ⟨_, h1, h2⟩ | ⟨_, h1, h2⟩ <;> rw [h1, h2] <;> simp

protected theorem mul_assoc (a b c : Fl) : a * b * c = a * (b * c) := by
  cases a <;> cases b <;> cases c <;>
    simp only [nan_mul, mul_nan, pinf_mul_fin, fin_mul_pinf, ninf_mul_fin, fin_mul_ninf, fin_mul,
      pinf_mul_pinf, pinf_mul_ninf, ninf_mul_pinf, ninf_mul_ninf, sgnInf_mul_fin, sgnInf_mul_pinf,
      sgnInf_mul_ninf, Fl.mul_comm pinf (sgnInf _), Fl.mul_comm ninf (sgnInf _),
      Fl.mul_comm (fin _) (sgnInf _), _root_.mul_comm, neg_neg, _root_.mul_neg, mul_left_comm]

protected theorem one_mul (a : Fl) : 1 * a = a := by
  cases a
  · rfl
  · show sgnInf 1 = _; exact sgnInf_pos one_pos
  · show sgnInf (-1) = _; exact sgnInf_neg (by norm_num)
  · show fin (1 * _) = _; rw [_root_.one_mul]

noncomputable instance : CommMonoid Fl where
  mul_assoc := Fl.mul_assoc
  one_mul := Fl.one_mul
  mul_one a := by rw [Fl.mul_comm, Fl.one_mul]
  mul_comm := Fl.mul_comm

/-- Multiplication by a finite number distributes over addition, whatever the summands. -/
theorem fin_mul_add (k : ℝ) (x y : Fl) : fin k * (x + y) = fin k * x + fin k * y := by
  rcases sgnInf_trichotomy k with ⟨_, h1, h2⟩ | ⟨_, h1, h2⟩ | ⟨hk, h1, h2⟩ <;>
  cases x <;> cases y <;>
    simp only [nan_add, add_nan, mul_nan, fin_add, fin_mul, fin_mul_pinf, fin_mul_ninf, h1, h2,
      pinf_add_fin, fin_add_pinf, ninf_add_fin, fin_add_ninf, pinf_add_pinf, ninf_add_ninf, pinf_add_ninf,
      ninf_add_pinf, mul_add]

theorem sum_map_fin (l : List ℝ) : (l.map fin).sum = fin l.sum := by
  induction l with
  | nil => rfl
  | cons a l ih => rw [List.map_cons, List.sum_cons, ih, List.sum_cons, fin_add]

theorem fin_mul_sum (k : ℝ) (l : List Fl) : fin k * l.sum = (l.map (fun x => fin k * x)).sum := by
  induction l with
  | nil => simp only [List.sum_nil, List.map_nil, zero_def, fin_mul, mul_zero]
  | cons a l ih => rw [List.map_cons, List.sum_cons, List.sum_cons, fin_mul_add, ih]

theorem sum_eq_nan_of_mem {l : List Fl} (h : nan ∈ l) : l.sum = nan := by
  induction l with
  | nil => cases h
  | cons a l ih =>
    rw [List.sum_cons]
    rcases List.mem_cons.mp h with h | h
    · rw [← h]; simp
    · rw [ih h]; simp

@[simp] theorem abs_nan : abs nan = nan := rfl
@[simp] theorem abs_pinf : abs pinf = pinf := rfl
@[simp] theorem abs_ninf : abs ninf = pinf := rfl
@[simp] theorem abs_fin (a : ℝ) : abs (fin a) = fin |a| := rfl
@[simp] theorem isNaN_abs (x : Fl) : (abs x).isNaN = x.isNaN := by cases x <;> rfl
@[simp] theorem log2_nan : log2 nan = nan := rfl
@[simp] theorem ln_nan : ln nan = nan := rfl

theorem log2_fin {a : ℝ} (h : 0 < a) : log2 (fin a) = fin (Real.logb 2 a) := by
  simp [log2, logOf, h]
theorem ln_fin {a : ℝ} (h : 0 < a) : ln (fin a) = fin (Real.log a) := by
  simp [ln, logOf, h]

end Fl

/-! ### Reductions -/

@[simp] theorem dropNaN_nil : dropNaN [] = [] := rfl
theorem dropNaN_cons_nan (l : List Fl) : dropNaN (Fl.nan :: l) = dropNaN l := rfl
theorem dropNaN_cons_of {x : Fl} (h : x.isNaN = false) (l : List Fl) : dropNaN (x :: l) = x :: dropNaN l := by
  simp [dropNaN, h]
theorem dropNaN_append (l m : List Fl) : dropNaN (l ++ m) = dropNaN l ++ dropNaN m := by
  simp [dropNaN]

theorem dropNaN_map_fin (l : List ℝ) : dropNaN (l.map Fl.fin) = l.map Fl.fin := by
  simp [dropNaN, List.filter_eq_self]

theorem mem_dropNaN {l : List Fl} {x : Fl} : x ∈ dropNaN l ↔ x ∈ l ∧ x.isNaN = false := by
  simp [dropNaN]

theorem nan_not_mem_dropNaN (l : List Fl) : Fl.nan ∉ dropNaN l := by
  rw [mem_dropNaN]; simp

/-- Mapping a function that preserves and reflects NaN commutes with dropping NaNs. -/
theorem dropNaN_map {f : Fl → Fl} (hf : ∀ x, (f x).isNaN = x.isNaN) (l : List Fl) :
    dropNaN (l.map f) = (dropNaN l).map f := by
  induction l with
  | nil => rfl
  | cons a l ih =>
    rw [List.map_cons]
    unfold dropNaN at *
    rw [List.filter_cons, List.filter_cons, hf]
    cases a.isNaN <;> simp [ih]

theorem countNotNaN_map {f : Fl → Fl} (hf : ∀ x, (f x).isNaN = x.isNaN) (l : List Fl) :
    countNotNaN (l.map f) = countNotNaN l := by
  simp [countNotNaN, dropNaN_map hf]

@[simp] theorem countNotNaN_map_fin (l : List ℝ) : countNotNaN (l.map Fl.fin) = l.length := by
  simp [countNotNaN, dropNaN_map_fin]

theorem nansum_map_fin (l : List ℝ) : nansum (l.map Fl.fin) = Fl.fin l.sum := by
  rw [nansum, dropNaN_map_fin, Fl.sum_map_fin]

theorem nanmean_map_fin {l : List ℝ} (h : l ≠ []) :
    nanmean (l.map Fl.fin) = Fl.fin (l.sum / l.length) := by
  rw [nanmean, nansum_map_fin, countNotNaN_map_fin, Fl.fin_div]
  simp [h]

/-! ### Columns -/

theorem col_length {R : ℕ} (a : Arr R) (r : Fin R) : (col a r).length = a.length := by simp [col]

theorem col_mapArr {R : ℕ} (f : Fl → Fl) (a : Arr R) (r : Fin R) : col (mapArr f a) r = (col a r).map f := by
  simp [col, mapArr, Function.comp_def]

theorem mapArr_length {R : ℕ} (f : Fl → Fl) (a : Arr R) : (mapArr f a).length = a.length := by simp [mapArr]

theorem mapArr_mapArr {R : ℕ} (f g : Fl → Fl) (a : Arr R) : mapArr f (mapArr g a) = mapArr (f ∘ g) a := by
  simp [mapArr, Function.comp_def]

end MFA
