import Verif.Lemmas.Closed
import Verif.Spec.Cumulants
import Mathlib.Analysis.Calculus.IteratedDeriv.Lemmas
import Mathlib.Analysis.SpecialFunctions.ExpDeriv
import Mathlib.Analysis.SpecialFunctions.Log.Deriv

/-! The recursion of `cumulants.py` computes the derivatives of the cumulant generating function. -/

namespace MFA

open Classical Finset

theorem list_sum_eq {ι : Type} (l : List ι) (f : ι → ℝ) : (l.map f).sum = ∑ i : Fin l.length, f l[i] := by
  rw [map_eq_ofFn, List.sum_ofFn]

/-- Raw moment. -/
noncomputable def mom (ls : List ℝ) (k : ℕ) : ℝ := (ls.map fun l => l ^ k).sum / ls.length

/-- Derivatives of the CGF at 0. -/
noncomputable def kap (ls : List ℝ) (k : ℕ) : ℝ := iteratedDeriv k (empCGF ls) 0

section
variable (ls : List ℝ)

theorem empMGF_eq : empMGF ls = fun t => (∑ i : Fin ls.length, Real.exp (ls[i] * t)) / ls.length := by
  funext t; rw [empMGF, list_sum_eq]

theorem empMGF_contDiff : ContDiff ℝ ⊤ (empMGF ls) := by
  rw [empMGF_eq]
  apply ContDiff.div_const
  apply ContDiff.sum
  intro i _
  exact Real.contDiff_exp.comp (contDiff_const.mul contDiff_id)

theorem empMGF_pos (hl : ls ≠ []) (t : ℝ) : 0 < empMGF ls t := by
  rw [empMGF_eq]
  have hlen : 0 < ls.length := List.length_pos_iff.mpr hl
  apply div_pos
  · exact Finset.sum_pos (fun i _ => Real.exp_pos _) ⟨⟨0, hlen⟩, Finset.mem_univ _⟩
  · exact_mod_cast hlen

theorem empCGF_contDiff (hl : ls ≠ []) : ContDiff ℝ ⊤ (empCGF ls) := by
  unfold empCGF
  exact (empMGF_contDiff ls).log (fun t => (empMGF_pos ls hl t).ne')

theorem iteratedDeriv_empMGF (k : ℕ) : iteratedDeriv k (empMGF ls) 0 = mom ls k := by
  rw [empMGF_eq, mom, list_sum_eq]
  rw [iteratedDeriv_div_const]
  congr 1
  rw [iteratedDeriv_fun_sum]
  · apply Finset.sum_congr rfl
    intro i _
    rw [iteratedDeriv_exp_const_mul]; simp
  · intro i _
    exact (Real.contDiff_exp.comp (contDiff_const.mul contDiff_id)).contDiffAt

theorem deriv_empMGF (hl : ls ≠ []) : deriv (empMGF ls) = deriv (empCGF ls) * empMGF ls := by
  funext t
  have hd : DifferentiableAt ℝ (empMGF ls) t := (empMGF_contDiff ls).differentiable (by simp) t
  have : deriv (empCGF ls) t = deriv (empMGF ls) t / empMGF ls t := by
    unfold empCGF; rw [deriv.log hd (empMGF_pos ls hl t).ne']
  rw [Pi.mul_apply, this, div_mul_cancel₀ _ (empMGF_pos ls hl t).ne']

/-- The moment-cumulant recursion. -/
theorem mom_rec (hl : ls ≠ []) (k : ℕ) :
    mom ls (k + 1) = ∑ i ∈ Finset.range (k + 1), (k.choose i : ℝ) * kap ls (i + 1) * mom ls (k - i) := by
  rw [← iteratedDeriv_empMGF, iteratedDeriv_succ', deriv_empMGF ls hl, iteratedDeriv_mul]
  · apply Finset.sum_congr rfl
    intro i _
    rw [iteratedDeriv_empMGF, kap, iteratedDeriv_succ']
  · have : ContDiff ℝ (k : ℕ∞) (deriv (empCGF ls)) := by
      have h := (empCGF_contDiff ls hl).of_le (m := (k : ℕ∞) + 1) le_top
      exact (contDiff_succ_iff_deriv.mp h).2.2
    exact this.contDiffAt
  · exact ((empMGF_contDiff ls).of_le le_top).contDiffAt

theorem mom_zero (hl : ls ≠ []) : mom ls 0 = 1 := by
  have hlen : (ls.length : ℝ) ≠ 0 := by
    have : 0 < ls.length := List.length_pos_iff.mpr hl
    exact_mod_cast this.ne'
  simp [mom, hlen]

theorem kap_rec (hl : ls ≠ []) (k : ℕ) :
    kap ls (k + 1) = mom ls (k + 1)
      - ∑ i ∈ Finset.range k, (k.choose i : ℝ) * kap ls (i + 1) * mom ls (k - i) := by
  rw [mom_rec ls hl k, Finset.sum_range_succ]
  simp [mom_zero ls hl]

theorem kap_zero (hl : ls ≠ []) : kap ls 0 = 0 := by
  have hlen : (ls.length : ℝ) ≠ 0 := by
    have : 0 < ls.length := List.length_pos_iff.mpr hl
    exact_mod_cast this.ne'
  simp [kap, empCGF, empMGF, hlen]

end

/-! ### The program computes `kap` -/

theorem fastPower_nat (m : ℕ) (a : ℝ) : fastPower (.real m) (Fl.fin a) = Fl.fin (a ^ m) := by
  have hpow : (Fl.fin a).pow (m : ℝ) = Fl.fin (a ^ m) := by
    rcases Nat.eq_zero_or_pos m with h | h
    · subst h; simp [Fl.pow_zero]
    · have h0 : (m : ℝ) ≠ 0 := by exact_mod_cast h.ne'
      have h1 : (0:ℝ) < m := by exact_mod_cast h
      have h2 : ∃ n : ℤ, (m : ℝ) = n := ⟨m, by simp⟩
      simp only [Fl.pow, h0, h1, h2, or_true, if_true, if_false]
      by_cases ha : a = 0
      · rw [if_pos ha, ha, zero_pow h.ne']
      · rw [if_neg ha, Real.rpow_natCast]
  rw [fastPower_eq, if_neg (by simp), if_neg (by simp)]
  exact hpow

theorem fastPower_nan (e : Expo) : fastPower e Fl.nan = Fl.nan := by
  rw [fastPower_eq]
  by_cases h : e.val = 0
  · rw [if_pos ⟨h, rfl⟩]
  · rw [if_neg (fun h' => h h'.1), if_neg (by simp)]
    simp [Fl.pow, h]

/-- Dropping NaNs commutes with a function that keeps NaN and sends the finite entries to non-NaN. -/
theorem dropNaN_map_of {f : Fl → Fl} (hnan : f Fl.nan = Fl.nan) {l : List Fl}
    (hf : ∀ x ∈ l, x ≠ Fl.nan → f x ≠ Fl.nan) : dropNaN (l.map f) = (dropNaN l).map f := by
  induction l with
  | nil => rfl
  | cons a l ih =>
    have ih' := ih (fun x hx => hf x (by simp [hx]))
    rw [List.map_cons]
    by_cases ha : a = Fl.nan
    · subst ha; rw [hnan, dropNaN_cons_nan, dropNaN_cons_nan, ih']
    · rw [dropNaN_cons_of ((Fl.not_isNaN_iff _).mpr (hf a (by simp) ha)),
        dropNaN_cons_of ((Fl.not_isNaN_iff _).mpr ha), List.map_cons, ih']

theorem cmMoment_fin {logs : List Fl} {ls : List ℝ} (h : dropNaN logs = ls.map Fl.fin) (hl : ls ≠ []) (m : ℕ) :
    cmMoment logs m = Fl.fin (mom ls m) := by
  have hfin : ∀ x ∈ logs, x ≠ Fl.nan → x.IsFin := by
    intro x hx hxn
    have : x ∈ dropNaN logs := mem_dropNaN.mpr ⟨hx, (Fl.not_isNaN_iff x).mpr hxn⟩
    rw [h, List.mem_map] at this
    obtain ⟨r, _, hr⟩ := this
    exact ⟨r, hr.symm⟩
  have hd : dropNaN (logs.map (fastPower (.real m))) = (ls.map fun l => l ^ m).map Fl.fin := by
    rw [dropNaN_map_of (fastPower_nan _), h, List.map_map, List.map_map]
    · apply List.map_congr_left; intro l _; simp [fastPower_nat]
    · intro x hx hxn
      obtain ⟨r, rfl⟩ := hfin x hx hxn
      rw [fastPower_nat]; simp
  rw [cmMoment, ← nanmean_dropNaN, hd, nanmean_map_fin (by simp [hl])]
  simp [mom]

theorem cmAux_fin (k : ℕ) (κ μ : ℕ → ℝ) :
    cmAux (k + 1) ((List.range k).map fun i => Fl.fin (κ (i + 1)))
      ((List.range (k + 1)).map fun i => Fl.fin (μ (i + 1)))
    = Fl.fin (∑ i ∈ Finset.range k, (k.choose i : ℝ) * κ (i + 1) * μ (k - i)) := by
  unfold cmAux
  rw [Nat.add_sub_cancel]
  have key : ∀ n, n ≤ k → (List.range n).foldl (fun aux ind_n =>
      aux + Fl.fin ((k.choose ind_n : ℕ) : ℝ)
        * ((List.range k).map fun i => Fl.fin (κ (i + 1))).getD ind_n Fl.nan
        * ((List.range (k + 1)).map fun i => Fl.fin (μ (i + 1))).getD (k - ind_n - 1) Fl.nan) (Fl.fin 0)
      = Fl.fin (∑ i ∈ Finset.range n, (k.choose i : ℝ) * κ (i + 1) * μ (k - i)) := by
    intro n
    induction n with
    | zero => intro _; simp
    | succ n ih =>
      intro hn
      rw [List.range_succ (n := n), List.foldl_append, List.foldl_cons, List.foldl_nil, ih (by omega),
        Finset.sum_range_succ]
      have e1 : ((List.range k).map fun i => Fl.fin (κ (i + 1))).getD n Fl.nan = Fl.fin (κ (n + 1)) := by
        rw [List.getD_eq_getElem?_getD, List.getElem?_map, List.getElem?_range (by omega)]; rfl
      have e2 : ((List.range (k + 1)).map fun i => Fl.fin (μ (i + 1))).getD (k - n - 1) Fl.nan
          = Fl.fin (μ (k - n)) := by
        rw [List.getD_eq_getElem?_getD, List.getElem?_map, List.getElem?_range (by omega)]
        simp only [Option.map_some, Option.getD_some]
        congr 2; omega
      rw [e1, e2, Fl.fin_mul, Fl.fin_mul, Fl.fin_add]
  exact key k le_rfl

theorem cmFold_fin {logs : List Fl} {ls : List ℝ} (h : dropNaN logs = ls.map Fl.fin) (hl : ls ≠ []) (n : ℕ) :
    (List.range n).foldl (fun st i => cmStep logs st (i + 1)) ([], [])
      = ((List.range n).map (fun i => Fl.fin (kap ls (i + 1))),
         (List.range n).map (fun i => Fl.fin (mom ls (i + 1)))) := by
  induction n with
  | zero => rfl
  | succ k ih =>
    rw [List.range_succ, List.foldl_append, List.foldl_cons, List.foldl_nil, ih]
    unfold cmStep
    rw [cmMoment_fin h hl]
    simp only
    have em : (List.range k).map (fun i => Fl.fin (mom ls (i + 1))) ++ [Fl.fin (mom ls (k + 1))]
        = (List.range (k + 1)).map (fun i => Fl.fin (mom ls (i + 1))) := by
      rw [List.range_succ, List.map_append]; rfl
    by_cases hk : k + 1 = 1
    · rw [if_pos hk]
      have : k = 0 := by omega
      subst this
      have : kap ls 1 = mom ls 1 := by rw [kap_rec ls hl 0]; simp
      simp [this]
    · rw [if_neg hk, em, cmAux_fin k (kap ls) (mom ls), Fl.fin_sub, ← kap_rec ls hl k, List.range_succ,
        List.map_append, List.map_append]
      rfl

/-- The cumulants computed for a column of logs are the derivatives of the cumulant generating function. -/
theorem cmColumn_fin {logs : List Fl} {ls : List ℝ} (h : dropNaN logs = ls.map Fl.fin) (hl : ls ≠ []) (n : ℕ) :
    cmColumn logs n = (List.range n).map (fun i => Fl.fin (kap ls (i + 1))) := by
  rw [cmColumn, cmFold_fin h hl]

theorem cmColumn_getD {logs : List Fl} {ls : List ℝ} (h : dropNaN logs = ls.map Fl.fin) (hl : ls ≠ [])
    {n i : ℕ} (hi : i < n) : (cmColumn logs n).getD i Fl.nan = Fl.fin (kap ls (i + 1)) := by
  rw [cmColumn_fin h hl, List.getD_eq_getElem?_getD, List.getElem?_map, List.getElem?_range hi]; rfl

/-! Consequences for `kap`. -/

theorem kap_shift {ls : List ℝ} (hl : ls ≠ []) (c : ℝ) (k : ℕ) :
    kap (ls.map (· + c)) (k + 1) = kap ls (k + 1) + if k = 0 then c else 0 := by
  have hE : empCGF (ls.map (· + c)) = fun t => c * t + empCGF ls t := by
    funext t
    unfold empCGF
    have : empMGF (ls.map (· + c)) t = Real.exp (c * t) * empMGF ls t := by
      unfold empMGF
      rw [List.map_map, List.length_map, mul_div_assoc', ← List.sum_map_mul_left]
      congr 2
      apply List.map_congr_left
      intro l _
      simp only [Function.comp]
      rw [← Real.exp_add]; ring_nf
    rw [this, Real.log_mul (Real.exp_pos _).ne' (empMGF_pos ls hl t).ne', Real.log_exp]
  unfold kap
  rw [hE, iteratedDeriv_fun_add (f := fun t => c * t) (contDiff_const.mul contDiff_id).contDiffAt
    ((empCGF_contDiff ls hl).of_le le_top).contDiffAt, add_comm]
  congr 1
  rw [iteratedDeriv_const_mul_field, iteratedDeriv_fun_id_zero]
  rcases Nat.eq_zero_or_pos k with h | h
  · subst h; simp
  · rw [if_neg (by omega), if_neg (by omega)]; simp

theorem kap_scale {ls : List ℝ} (hl : ls ≠ []) (s : ℝ) (k : ℕ) :
    kap (ls.map (s * ·)) k = s ^ k * kap ls k := by
  have hE : empCGF (ls.map (s * ·)) = fun t => empCGF ls (s * t) := by
    funext t
    unfold empCGF empMGF
    rw [List.map_map, List.length_map]
    congr 3
    apply List.map_congr_left
    intro l _
    simp only [Function.comp]; ring_nf
  unfold kap
  rw [hE, iteratedDeriv_comp_const_mul ((empCGF_contDiff ls hl).of_le le_top)]
  simp

theorem mom_one (ls : List ℝ) : mom ls 1 = mean ls := by simp [mom, mean]

theorem kap_one {ls : List ℝ} (hl : ls ≠ []) : kap ls 1 = mean ls := by
  rw [kap_rec ls hl 0]; simp [mom_one]

/-- Constant samples have vanishing higher cumulants. -/
theorem kap_const {ls : List ℝ} (hl : ls ≠ []) {a : ℝ} (h : ∀ l ∈ ls, l = a) (k : ℕ) :
    kap ls (k + 1) = if k = 0 then a else 0 := by
  have hE : empCGF ls = fun t => a * t := by
    funext t
    unfold empCGF empMGF
    have e : ls.map (fun l => Real.exp (l * t)) = ls.map (fun _ => Real.exp (a * t)) :=
      List.map_congr_left (fun l hl' => by rw [h l hl'])
    have hlen : (ls.length : ℝ) ≠ 0 := by
      have : 0 < ls.length := List.length_pos_iff.mpr hl
      exact_mod_cast this.ne'
    rw [e, List.map_const', List.sum_replicate, nsmul_eq_mul, mul_div_assoc, mul_div_cancel₀ _ hlen, Real.log_exp]
  unfold kap
  rw [hE, iteratedDeriv_const_mul_field, iteratedDeriv_fun_id_zero]
  rcases Nat.eq_zero_or_pos k with h | h
  · subst h; simp
  · rw [if_neg (by omega), if_neg (by omega)]; simp

end MFA
