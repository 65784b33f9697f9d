import Verif.Lemmas.RoundedBounds
import Verif.Lemmas.RoundedArrays
import Verif.Lemmas.SlopeDiff
import Mathlib.Analysis.Convex.SpecificFunctions.Basic

/-! Entries and arrays computed with rounding errors, compared with the exact ones. -/

namespace MFA

open Classical

noncomputable section

variable {R : ℕ} {M : Machine}

/-- `b` is what the machine computes instead of `a`: both are NaN, or `a` is a number of size at most `A` and `b` is the result of `k` roundings. -/
def ApE (M : Machine) (k : ℕ) (A : ℝ) (a b : Fl) : Prop := (a = Fl.nan ∧ b = Fl.nan) ∨ ∃ x : ℝ, a = Fl.fin x ∧ Ap M k A b x

theorem ApE.nan (k : ℕ) (A : ℝ) : ApE M k A Fl.nan Fl.nan := Or.inl ⟨rfl, rfl⟩

theorem ApE.mono {k l : ℕ} {A B : ℝ} {a b : Fl} (h : ApE M k A a b) (hk : k ≤ l) (hA : A ≤ B) : ApE M l B a b := by
  rcases h with h | ⟨x, h1, h2⟩
  · exact Or.inl h
  · exact Or.inr ⟨x, h1, h2.mono hk hA⟩

theorem ApE.nan_iff {k : ℕ} {A : ℝ} {a b : Fl} (h : ApE M k A a b) : a = Fl.nan ↔ b = Fl.nan := by
  rcases h with ⟨rfl, rfl⟩ | ⟨x, rfl, z, rfl, -⟩ <;> simp

theorem ApE.mul {k l : ℕ} {A B y : ℝ} {a b g : Fl} (h : ApE M k A a b) (hg : Ap M l B g y) : ApE M (k + l + 1) (A * B) (a * Fl.fin y) (M.mul b g) := by
  rcases h with ⟨rfl, rfl⟩ | ⟨x, rfl, h2⟩
  · exact Or.inl ⟨rfl, M.nan_mul _⟩
  · exact Or.inr ⟨x * y, Fl.fin_mul _ _, h2.mul hg⟩

theorem ApE.mul_left {k l : ℕ} {A B y : ℝ} {a b g : Fl} (h : ApE M k A a b) (hg : Ap M l B g y) : ApE M (k + l + 1) (B * A) (Fl.fin y * a) (M.mul g b) := by
  rcases h with ⟨rfl, rfl⟩ | ⟨x, rfl, h2⟩
  · exact Or.inl ⟨rfl, M.mul_nan _⟩
  · exact Or.inr ⟨y * x, Fl.fin_mul _ _, by have := hg.mul h2; rwa [add_comm l k] at this⟩

theorem ApE.abs {k : ℕ} {A : ℝ} {a b : Fl} (h : ApE M k A a b) : ApE M k A a.abs b.abs := by
  rcases h with ⟨rfl, rfl⟩ | ⟨x, rfl, z, rfl, h2, h3⟩
  · exact Or.inl ⟨rfl, rfl⟩
  · exact Or.inr ⟨|x|, rfl, |z|, rfl, (abs_abs_sub_abs_le z x).trans h2, by rwa [abs_abs]⟩

theorem ApE.sum {ι : Type} {k : ℕ} {l : List ι} {F G : ι → Fl} {A : ι → ℝ} (h : ∀ i ∈ l, ApE M k (A i) (F i) (G i)) :
    ApE M (k + l.length) (l.map A).sum (l.map F).sum (M.sum (l.map G)) := by
  by_cases hn : ∃ i ∈ l, F i = Fl.nan
  · obtain ⟨i, hi, he⟩ := hn
    refine Or.inl ⟨?_, (M.sum_ok _).nan (List.mem_map.2 ⟨i, hi, (h i hi).nan_iff.1 he⟩)⟩
    exact (Machine.exact.sum_ok (l.map F)).nan (List.mem_map.2 ⟨i, hi, he⟩)
  · push Not at hn
    have hx : ∀ i, ∃ x : ℝ, i ∈ l → F i = Fl.fin x ∧ Ap M k (A i) (G i) x := by
      intro i
      by_cases hi : i ∈ l
      · rcases h i hi with ⟨e, -⟩ | ⟨x, h1, h2⟩
        · exact absurd e (hn i hi)
        · exact ⟨x, fun _ => ⟨h1, h2⟩⟩
      · exact ⟨0, fun hc => absurd hc hi⟩
    choose X hX using hx
    refine Or.inr ⟨(l.map X).sum, ?_, Ap.sum fun i hi => (hX i hi).2⟩
    have : l.map F = (l.map X).map Fl.fin := by
      rw [List.map_map]
      exact List.map_congr_left fun i hi => (hX i hi).1
    rw [this, Fl.sum_map_fin]

/-! ### Powers of 2 -/

theorem two_rpow_le {u : ℝ} (h0 : 0 ≤ u) (h1 : u ≤ 1) : (2:ℝ) ^ u ≤ 1 + u := by
  have := rpow_one_add_le_one_add_mul_self (s := 1) (by norm_num) h0 h1
  norm_num at this
  linarith

theorem abs_two_rpow_sub_one (t : ℝ) : |(2:ℝ) ^ t - 1| ≤ (2:ℝ) ^ |t| - 1 := by
  rcases le_total 0 t with h | h
  · have : (1:ℝ) ≤ (2:ℝ) ^ t := Real.one_le_rpow (by norm_num) h
    rw [abs_of_nonneg h, abs_of_nonneg (by linarith)]
  · have hp : (0:ℝ) < (2:ℝ) ^ t := Real.rpow_pos_of_pos (by norm_num) _
    have h1 : (2:ℝ) ^ t ≤ 1 := Real.rpow_le_one_of_one_le_of_nonpos (by norm_num) h
    rw [abs_of_nonpos h, abs_of_nonpos (by linarith), Real.rpow_neg (by norm_num)]
    have : (2:ℝ) ^ t + ((2:ℝ) ^ t)⁻¹ ≥ 2 := by
      have h2 : ((2:ℝ) ^ t) * ((2:ℝ) ^ t)⁻¹ = 1 := mul_inv_cancel₀ hp.ne'
      nlinarith [sq_nonneg ((2:ℝ) ^ t - ((2:ℝ) ^ t)⁻¹), inv_pos.2 hp]
    linarith

theorem Ap.exp2 {l : ℕ} {B y : ℝ} {f : Fl} (hf : Ap M l B f y) (hl : 1 ≤ l) (hu : (l : ℝ) * M.u ≤ 1) {K : ℕ} (hK : 2 * l * B ≤ K) :
    Ap M (K + 1) ((2:ℝ) ^ y) (M.exp2 f) ((2:ℝ) ^ y) := by
  have hB := hf.nonneg
  have hu0 := M.u_nonneg
  have hu1 : M.u ≤ 1 := by
    have : (1:ℝ) ≤ l := by exact_mod_cast hl
    nlinarith
  have hg := M.gam_le hu
  obtain ⟨z, rfl, h2, h3⟩ := hf
  have hp : (0:ℝ) < (2:ℝ) ^ y := Real.rpow_pos_of_pos (by norm_num) _
  refine Ap.round (f := Fl.exp2 (Fl.fin z)) ⟨(2:ℝ) ^ z, rfl, ?_, (abs_of_pos hp).le⟩ (M.exp2_ok _)
  have e : (2:ℝ) ^ z - (2:ℝ) ^ y = (2:ℝ) ^ y * ((2:ℝ) ^ (z - y) - 1) := by
    rw [mul_sub, ← Real.rpow_add (by norm_num)]; ring_nf
  rw [e, abs_mul, abs_of_pos hp, mul_comm]
  refine mul_le_mul_of_nonneg_right ((abs_two_rpow_sub_one _).trans ?_) hp.le
  unfold Machine.gam
  have h4 : |z - y| ≤ M.u * K := by
    have a1 : M.gam l * B ≤ 2 * ((l : ℝ) * M.u) * B := mul_le_mul_of_nonneg_right hg hB
    have a2 := mul_le_mul_of_nonneg_left hK hu0
    nlinarith
  have h5 : (2:ℝ) ^ |z - y| ≤ (2:ℝ) ^ (M.u * K) := Real.rpow_le_rpow_of_exponent_le (by norm_num) h4
  have h6 : (2:ℝ) ^ (M.u * K) = ((2:ℝ) ^ M.u) ^ K := by rw [Real.rpow_mul (by norm_num), Real.rpow_natCast]
  have h7 : ((2:ℝ) ^ M.u) ^ K ≤ (1 + M.u) ^ K := pow_le_pow_left₀ (Real.rpow_nonneg (by norm_num) _) (two_rpow_le hu0 hu1) _
  linarith

/-- `1 / x` of an exact number. -/
theorem Ap.inv (M : Machine) {x : ℝ} (hx : x ≠ 0) : Ap M 1 (1 / |x|) (M.div (Fl.fin 1) (Fl.fin x)) (1 / x) := by
  refine Ap.round (k := 0) (f := Fl.fin 1 / Fl.fin x) ?_ (M.div_ok _ _)
  rw [Fl.fin_div hx]
  exact Ap.exact M 0 (by rw [abs_div, abs_one])

/-! ### Arrays -/

/-- Arrays of the same length whose entries are related by `P`. -/
def RelA (P : Fl → Fl → Prop) (a b : Arr R) : Prop := List.Forall₂ (fun u v : Row R => ∀ r, P (u r) (v r)) a b

theorem RelA.mono {P Q : Fl → Fl → Prop} (hPQ : ∀ x y, P x y → Q x y) {a b : Arr R} (h : RelA P a b) : RelA Q a b :=
  List.Forall₂.imp (fun _ _ h r => hPQ _ _ (h r)) h

theorem RelA.length {P : Fl → Fl → Prop} {a b : Arr R} (h : RelA P a b) : a.length = b.length := List.Forall₂.length_eq h

theorem RelA.get {P : Fl → Fl → Prop} {a b : Arr R} (h : RelA P a b) (k : ℕ) :
    (a[k]? = none ∧ b[k]? = none) ∨ ∃ u v, a[k]? = some u ∧ b[k]? = some v ∧ ∀ r, P (u r) (v r) := by
  unfold RelA at h
  induction h generalizing k with
  | nil => exact Or.inl ⟨rfl, rfl⟩
  | @cons u v a b huv _ ih =>
    cases k with
    | zero => exact Or.inr ⟨u, v, rfl, rfl, huv⟩
    | succ k => simpa using ih k

theorem relA_range {P : Fl → Fl → Prop} {n : ℕ} {f g : ℕ → Row R} (h : ∀ k < n, ∀ r, P (f k r) (g k r)) :
    RelA P ((List.range n).map f) ((List.range n).map g) := by
  unfold RelA
  rw [List.forall₂_map_left_iff, List.forall₂_map_right_iff, List.forall₂_same]
  exact fun k hk => h k (List.mem_range.1 hk)

theorem RelA.map {P Q : Fl → Fl → Prop} {f g : Fl → Fl} (hfg : ∀ x y, P x y → Q (f x) (g y)) {a b : Arr R} (h : RelA P a b) :
    RelA Q (mapArr f a) (mapArr g b) := by
  unfold RelA mapArr
  rw [List.forall₂_map_left_iff, List.forall₂_map_right_iff]
  exact List.Forall₂.imp (fun _ _ h r => hfg _ _ (h r)) h

theorem RelA.count {P : Fl → Fl → Prop} (hP : ∀ a b, P a b → (a = Fl.nan ↔ b = Fl.nan)) {a b : Arr R} (h : RelA P a b) (r : Fin R) :
    countNotNaN (col a r) = countNotNaN (col b r) := count_forall₂ hP (col_forall₂ h r)

theorem RelA.tooFew {P : Fl → Fl → Prop} (hP : ∀ a b, P a b → (a = Fl.nan ↔ b = Fl.nan)) {a b : Arr R} (h : RelA P a b) :
    MFA.tooFew a ↔ MFA.tooFew b := by
  have : ∀ r, countNotNaN ((col a r).map Fl.abs) = countNotNaN ((col b r).map Fl.abs) := by
    intro r
    refine count_forall₂ (P := fun x y => (x = Fl.nan ↔ y = Fl.nan)) (fun _ _ h => h) ?_
    rw [List.forall₂_map_left_iff, List.forall₂_map_right_iff]
    exact (col_forall₂ h r).imp fun x y hxy => by rw [abs_eq_nan_iff, abs_eq_nan_iff]; exact hP _ _ hxy
  unfold MFA.tooFew
  simp only [this]

theorem RelA.padGet {P : Fl → Fl → Prop} (h0 : P (Fl.fin 0) (Fl.fin 0)) {a b : Arr R} (h : RelA P a b) (t : ℤ) (r : Fin R) :
    P (MFA.padGet a t r) (MFA.padGet b t r) := by
  unfold MFA.padGet
  by_cases ht : 0 ≤ t
  · rw [if_pos ht, if_pos ht]
    rcases h.get t.toNat with ⟨e1, e2⟩ | ⟨u, v, e1, e2, e3⟩
    · rw [e1, e2]; exact h0
    · rw [e1, e2]; exact e3 r
  · rw [if_neg ht, if_neg ht]; exact h0

/-- One step of the filter bank: `F + 1` more roundings. -/
theorem RelA.conv {k : ℕ} {A : ℝ} (hA : 0 ≤ A) {a b : Arr R} (h : RelA (ApE M k A) a b) (F : ℕ) (f : List ℝ) :
    RelA (ApE M (k + (f.length + 1)) ((f.map fun t => |t|).sum * A)) (subsample (maskBorders F (MFA.convSame a f)))
      (subsample (maskBorders F (M.convSame b f))) := by
  have e := subsample_mask_convM Machine.exact F a f
  rw [show Machine.exact.convSame a f = MFA.convSame a f from rfl] at e
  rw [e, subsample_mask_convM M, ← h.length]
  refine relA_range fun i _ r => ?_
  by_cases hm : Masked F a.length (2 * i + 1)
  · rw [if_pos hm, if_pos hm]; exact ApE.nan _ _
  · rw [if_neg hm, if_neg hm]
    have key := ApE.sum (M := M) (k := k + 1) (l := List.range f.length)
      (F := fun n : ℕ => Fl.fin (f.getD n 0) * MFA.padGet a (((2 * i + 1 : ℕ) : ℤ) + ((f.length - 1) / 2 : ℕ) - n) r)
      (G := fun n : ℕ => M.mul (Fl.fin (f.getD n 0)) (MFA.padGet b (((2 * i + 1 : ℕ) : ℤ) + ((f.length - 1) / 2 : ℕ) - n) r))
      (A := fun n : ℕ => |f.getD n 0| * A) fun n _ => by
        have hz : ApE M k A (Fl.fin 0) (Fl.fin 0) := Or.inr ⟨0, rfl, Ap.exact M k (by simpa using hA)⟩
        have := (h.padGet hz (((2 * i + 1 : ℕ) : ℤ) + ((f.length - 1) / 2 : ℕ) - n) r).mul_left (Ap.exact M 0 (le_refl |f.getD n 0|))
        simpa using this
    have es : ((List.range f.length).map fun n : ℕ => |f.getD n 0| * A).sum = (f.map fun t => |t|).sum * A := by
      have e1 : (f.map fun t => |t|) = (List.range f.length).map fun n : ℕ => |f.getD n 0| := by
        apply List.ext_getElem
        · simp
        · intro n h1 h2
          have hn : n < f.length := by simpa using h1
          simp [List.getD, hn]
      rw [e1, mul_comm, ← listSum_mul]
      congr 1
      exact List.map_congr_left fun n _ => mul_comm _ _
    rw [es, List.length_range, add_assoc, add_comm 1] at key
    exact key

end

end MFA
