import Verif.Lemmas.Cumulants
import Verif.Lemmas.Scaling
import Verif.Lemmas.NonNeg

/-! Cumulants of a column of logs to which a constant is added, without any hypothesis on the column. -/

namespace MFA

open Classical

theorem Fl.add_isFin {x y : Fl} (h : (x + y).IsFin) : x.IsFin ∧ y.IsFin := by
  obtain ⟨r, hr⟩ := h
  cases x <;> cases y <;> first
    | exact ⟨⟨_, rfl⟩, ⟨_, rfl⟩⟩
    | (exfalso; revert hr; show Fl.add _ _ = _ → False; simp [Fl.add])

theorem Fl.sum_isFin {l : List Fl} (h : l.sum.IsFin) : ∀ x ∈ l, x.IsFin := by
  induction l with
  | nil => simp
  | cons a l ih =>
    rw [List.sum_cons] at h
    obtain ⟨h1, h2⟩ := Fl.add_isFin h
    intro x hx
    rcases List.mem_cons.mp hx with rfl | hx
    · exact h1
    · exact ih h2 x hx

theorem cmMoment_one (logs : List Fl) : cmMoment logs 1 = nanmean logs := by
  unfold cmMoment
  congr 1
  conv_rhs => rw [← List.map_id logs]
  apply List.map_congr_left
  intro x _
  rw [fastPower_eq, if_neg (by simp [Expo.val]), if_neg (fun h => by have := h.1; simp [Expo.val] at this)]
  simp only [Expo.val, Nat.cast_one, id]
  exact Fl.pow_one x

theorem cmMoment_two (logs : List Fl) : cmMoment logs 2 = nanmean (logs.map fun x => x * x) := by
  unfold cmMoment
  congr 1
  apply List.map_congr_left
  intro x _
  unfold fastPower
  rw [if_neg (by simp [Expo.val]), if_pos (by simp [Expo.val])]

/-- The moments are not finite unless the column has finite entries only, and at least one. -/
theorem nanmean_isFin {l : List Fl} (h : (nanmean l).IsFin) : dropNaN l ≠ [] ∧ ∀ x ∈ dropNaN l, x.IsFin := by
  have hne : dropNaN l ≠ [] := by
    intro h0
    obtain ⟨r, hr⟩ := h
    rw [nanmean, nansum, countNotNaN, h0] at hr
    simp only [List.sum_nil, List.length_nil, Nat.cast_zero] at hr
    rw [show (0 : Fl) = Fl.fin 0 from rfl] at hr
    revert hr
    show Fl.fin 0 * Fl.inv (Fl.fin 0) = _ → False
    rw [Fl.inv, if_pos rfl, Fl.fin_mul_pinf]; simp [Fl.sgnInf]
  refine ⟨hne, ?_⟩
  have hn : (0:ℝ) < (dropNaN l).length := by exact_mod_cast List.length_pos_iff.mpr hne
  apply Fl.sum_isFin
  obtain ⟨r, hr⟩ := h
  rw [nanmean, nansum, countNotNaN, Fl.div_def] at hr
  have hi : (Fl.fin ((dropNaN l).length : ℝ))⁻¹ = Fl.fin ((dropNaN l).length : ℝ)⁻¹ := by
    show Fl.inv _ = _; rw [Fl.inv, if_neg hn.ne']
  rw [hi, mul_comm] at hr
  have h1 := Fl.sgnInf_pos (inv_pos.mpr hn)
  have h2 : Fl.sgnInf (-((dropNaN l).length : ℝ)⁻¹) = Fl.ninf := Fl.sgnInf_neg (by linarith [inv_pos.mpr hn])
  cases hs : (dropNaN l).sum with
  | fin a => exact ⟨a, rfl⟩
  | nan => rw [hs] at hr; simp at hr
  | pinf => rw [hs, Fl.fin_mul_pinf, h1] at hr; cases hr
  | ninf => rw [hs, Fl.fin_mul_ninf, h2] at hr; cases hr

theorem nanmean_add_const (l : List Fl) (c : ℝ) :
    nanmean (l.map fun x => x + Fl.fin c) = nanmean l + Fl.fin c := by
  have hN : ∀ x : Fl, (x + Fl.fin c).isNaN = x.isNaN := by
    intro x
    cases x <;> rfl
  have hsum : ∀ k : List Fl, (k.map fun x => x + Fl.fin c).sum = k.sum + Fl.fin (k.length * c) := by
    intro k
    induction k with
    | nil => simp
    | cons a k ih =>
      rw [List.map_cons, List.sum_cons, ih, List.sum_cons, List.length_cons]
      push_cast
      rw [show ((k.length : ℝ) + 1) * c = c + k.length * c by ring, ← Fl.fin_add]
      exact add_add_add_comm _ _ _ _
  rw [nanmean, nanmean, nansum, nansum, dropNaN_map hN, countNotNaN_map hN, hsum, countNotNaN]
  by_cases h0 : dropNaN l = []
  · rw [h0]
    simp only [List.sum_nil, List.length_nil, Nat.cast_zero, zero_mul]
    rw [show (0 : Fl) = Fl.fin 0 from rfl, Fl.fin_add, Fl.div_def]
    show Fl.fin _ * Fl.inv (Fl.fin 0) = Fl.fin 0 * Fl.inv (Fl.fin 0) + _
    rw [Fl.inv, if_pos rfl, Fl.fin_mul_pinf, Fl.fin_mul_pinf]; simp [Fl.sgnInf]
  · have hn : (0:ℝ) < (dropNaN l).length := by exact_mod_cast List.length_pos_iff.mpr h0
    rw [Fl.div_def, Fl.div_def]
    have hi : (Fl.fin ((dropNaN l).length : ℝ))⁻¹ = Fl.fin ((dropNaN l).length : ℝ)⁻¹ := by
      show Fl.inv _ = _; rw [Fl.inv, if_neg hn.ne']
    rw [hi, mul_comm, Fl.fin_mul_add, Fl.fin_mul, mul_comm (dropNaN l).sum]
    congr 2
    field_simp

theorem cmFold_snd (logs : List Fl) (n : ℕ) :
    ((List.range n).foldl (fun st i => cmStep logs st (i + 1)) ([], [])).2
      = (List.range n).map fun i => cmMoment logs (i + 1) := by
  induction n with
  | zero => rfl
  | succ k ih =>
    rw [List.range_succ, List.foldl_append, List.foldl_cons, List.foldl_nil, List.map_append, ← ih]
    unfold cmStep
    simp only
    split <;> rfl

theorem Fl.sub_nan' (x : Fl) : x - Fl.nan = Fl.nan := by cases x <;> rfl

theorem foldl_add_nan {ι : Type} (l : List ι) (f : ι → Fl) : l.foldl (fun a i => a + f i) Fl.nan = Fl.nan := by
  induction l with
  | nil => rfl
  | cons a l ih => rw [List.foldl_cons]; simp [ih]

theorem foldl_add_nan_of_mem {ι : Type} (l : List ι) (f : ι → Fl) {i : ι} (hi : i ∈ l) (h : f i = Fl.nan) :
    ∀ a, l.foldl (fun a i => a + f i) a = Fl.nan := by
  induction l with
  | nil => cases hi
  | cons b l ih =>
    intro a
    rw [List.foldl_cons]
    rcases List.mem_cons.mp hi with rfl | hi
    · rw [h]; simp [foldl_add_nan]
    · exact ih hi _

/-- A column with an infinite log, or with NaN only: all cumulants of order at least 2 are NaN. -/
theorem cmColumn_bad {logs : List Fl} (hb : ¬ (dropNaN logs ≠ [] ∧ ∀ x ∈ dropNaN logs, x.IsFin)) {n i : ℕ} (hi : i < n) :
    (cmColumn logs n).getD i Fl.nan = if i = 0 then nanmean logs else Fl.nan := by
  have hbad : ¬ (nanmean logs).IsFin := fun h => hb (nanmean_isFin h)
  -- the second cumulant
  have h2 : cmMoment logs 2 - cmMoment logs 1 * cmMoment logs 1 = Fl.nan := by
    have hM2 : cmMoment logs 2 = Fl.nan ∨ cmMoment logs 2 = Fl.pinf := by
      rw [cmMoment_two]
      have hNN : NN (nanmean (logs.map fun x => x * x)) := by
        rw [nanmean, nansum]
        by_cases h0 : dropNaN (logs.map fun x => x * x) = []
        · left
          rw [h0, countNotNaN, h0]
          simp only [List.sum_nil, List.length_nil, Nat.cast_zero]
          rw [show (0 : Fl) = Fl.fin 0 from rfl]
          show Fl.fin 0 * Fl.inv (Fl.fin 0) = _
          rw [Fl.inv, if_pos rfl, Fl.fin_mul_pinf]; simp [Fl.sgnInf]
        · have hn : (0:ℝ) < (dropNaN (logs.map fun x => x * x)).length := by
            exact_mod_cast List.length_pos_iff.mpr h0
          have hs : Fl.le (Fl.fin 0) (dropNaN (logs.map fun x => x * x)).sum := by
            apply nonneg_sum
            apply nonneg_dropNaN
            intro x hx
            obtain ⟨y, -, rfl⟩ := List.mem_map.mp hx
            cases y with
            | nan => left; rfl
            | pinf => right; trivial
            | ninf => right; trivial
            | fin a => right; rw [Fl.fin_mul]; exact mul_self_nonneg a
          rw [Fl.div_def, countNotNaN]
          have hi : (Fl.fin ((dropNaN (logs.map fun x => x * x)).length : ℝ))⁻¹
              = Fl.fin ((dropNaN (logs.map fun x => x * x)).length : ℝ)⁻¹ := by
            show Fl.inv _ = _; rw [Fl.inv, if_neg hn.ne']
          rw [hi, mul_comm]
          exact NN.fin_mul (Or.inr hs) (inv_pos.mpr hn)
      rcases hNN.cases with h | h | ⟨a, -, h⟩
      · exact Or.inl h
      · exact Or.inr h
      · exfalso
        have hsq : ∀ x : Fl, (x * x).isNaN = x.isNaN := by intro x; cases x <;> rfl
        have := nanmean_isFin ⟨a, h⟩
        rw [dropNaN_map hsq] at this
        refine hb ⟨by simpa using this.1, fun x hx => ?_⟩
        have hx' := this.2 (x * x) (List.mem_map.mpr ⟨x, hx, rfl⟩)
        cases x with
        | fin r => exact ⟨r, rfl⟩
        | nan => obtain ⟨r, hr⟩ := hx'; cases hr
        | pinf => obtain ⟨r, hr⟩ := hx'; cases hr
        | ninf => obtain ⟨r, hr⟩ := hx'; cases hr
    rcases hM2 with h | h
    · rw [h]; rfl
    · rw [h, cmMoment_one]
      cases hm : nanmean logs with
      | nan => rfl
      | pinf => rfl
      | ninf => rfl
      | fin a => exact absurd ⟨a, hm⟩ hbad
  -- the loop
  have key : ∀ k, ((List.range k).foldl (fun st i => cmStep logs st (i + 1)) ([], [])).1
      = (List.range k).map fun i => if i = 0 then nanmean logs else Fl.nan := by
    intro k
    induction k with
    | zero => rfl
    | succ k ih =>
      have hsnd := cmFold_snd logs k
      rw [List.range_succ, List.foldl_append, List.foldl_cons, List.foldl_nil, List.map_append]
      generalize (List.range k).foldl (fun st i => cmStep logs st (i + 1)) ([], []) = st at ih hsnd
      unfold cmStep
      rw [ih, hsnd]
      simp only
      by_cases hk : k + 1 = 1
      · obtain rfl : k = 0 := by omega
        rw [if_pos rfl, cmMoment_one]; rfl
      · rw [if_neg hk]
        simp only [List.map_cons, List.map_nil, List.append_cancel_left_eq, List.cons.injEq, and_true]
        rw [if_neg (by omega)]
        by_cases hk1 : k = 1
        · subst hk1
          have : cmAux 2 ((List.range 1).map fun i => if i = 0 then nanmean logs else Fl.nan)
              ((List.range 1).map (fun i => cmMoment logs (i + 1)) ++ [cmMoment logs 2])
              = cmMoment logs 1 * cmMoment logs 1 := by
            rw [cmMoment_one]
            unfold cmAux
            simp only [List.range_one, List.map_cons, List.map_nil, Nat.reduceSub]
            simp only [List.foldl_cons, List.foldl_nil, List.getD_cons_zero, Nat.choose_zero_right, Nat.cast_one,
              List.cons_append, List.nil_append, Nat.sub_zero, Nat.sub_self, if_true]
            rw [show Fl.fin 0 = (0 : Fl) from rfl, zero_add, show Fl.fin 1 = (1 : Fl) from rfl, one_mul, zero_add,
              cmMoment_one]
          show cmMoment logs 2 - _ = _
          rw [this, h2]
        · have : ∀ moms, cmAux (k + 1) ((List.range k).map fun i => if i = 0 then nanmean logs else Fl.nan) moms = Fl.nan := by
            intro moms
            unfold cmAux
            rw [Nat.add_sub_cancel]
            refine foldl_add_nan_of_mem (List.range k) _ (i := 1) (by rw [List.mem_range]; omega) ?_ _
            have : ((List.range k).map fun i => if i = 0 then nanmean logs else Fl.nan).getD 1 Fl.nan = Fl.nan := by
              rw [List.getD_eq_getElem?_getD, List.getElem?_map, List.getElem?_range (by omega)]; rfl
            rw [this]; simp
          rw [this, Fl.sub_nan']
  rw [cmColumn, key, List.getD_eq_getElem?_getD, List.getElem?_map, List.getElem?_range hi]; rfl

/-- Adding a constant to all logs shifts the first cumulant and nothing else. -/
theorem cmColumn_shift (logs : List Fl) (c : ℝ) {n i : ℕ} (hi : i < n) :
    (cmColumn (logs.map fun x => x + Fl.fin c) n).getD i Fl.nan
      = (cmColumn logs n).getD i Fl.nan + Fl.fin (if i = 0 then c else 0) := by
  have hN : ∀ x : Fl, (x + Fl.fin c).isNaN = x.isNaN := by
    intro x
    cases x <;> rfl
  have hd : dropNaN (logs.map fun x => x + Fl.fin c) = (dropNaN logs).map fun x => x + Fl.fin c := dropNaN_map hN _
  by_cases hg : dropNaN logs ≠ [] ∧ ∀ x ∈ dropNaN logs, x.IsFin
  · obtain ⟨ls, hls⟩ := dropNaN_eq_map_fin (l := logs)
      (fun x hx hxn => hg.2 x (mem_dropNaN.mpr ⟨hx, (Fl.not_isNaN_iff x).mpr hxn⟩))
    have hne : ls ≠ [] := by rintro rfl; exact hg.1 (by rw [hls]; rfl)
    have hls' : dropNaN (logs.map fun x => x + Fl.fin c) = (ls.map (· + c)).map Fl.fin := by
      rw [hd, hls, List.map_map, List.map_map]
      apply List.map_congr_left
      intro l _
      simp only [Function.comp_apply]
      rw [Fl.fin_add]
    rw [cmColumn_getD hls' (by simp [hne]) hi, cmColumn_getD hls hne hi, kap_shift hne, Fl.fin_add]
  · have hg' : ¬ (dropNaN (logs.map fun x => x + Fl.fin c) ≠ [] ∧
        ∀ x ∈ dropNaN (logs.map fun x => x + Fl.fin c), x.IsFin) := by
      rintro ⟨h1, h2⟩
      refine hg ⟨?_, fun x hx => ?_⟩
      · intro h; rw [hd, h] at h1; exact h1 rfl
      · rw [hd] at h2
        exact (Fl.add_isFin (h2 _ (List.mem_map.mpr ⟨x, hx, rfl⟩))).1
    rw [cmColumn_bad hg' hi, cmColumn_bad hg hi]
    by_cases h0 : i = 0
    · rw [if_pos h0, if_pos h0, if_pos h0, nanmean_add_const]
    · rw [if_neg h0, if_neg h0]; rfl

end MFA
