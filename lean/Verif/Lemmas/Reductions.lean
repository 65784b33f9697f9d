import Verif.Lemmas.Fl
import Verif.Model.Utils

/-! Helper lemmas about `np.nanmax`, sums, means and `fast_power`. -/

namespace MFA

open Classical

namespace Fl

protected theorem max_comm (a b : Fl) : max a b = max b a := by
  cases a <;> cases b <;> simp [max, _root_.max_comm]

protected theorem max_assoc (a b c : Fl) : max (max a b) c = max a (max b c) := by
  cases a <;> cases b <;> cases c <;> simp [max, _root_.max_assoc]

theorem le_refl' {a : Fl} (h : a ≠ nan) : le a a := by cases a <;> simp_all [le]

theorem le_trans' {a b c : Fl} (h1 : le a b) (h2 : le b c) : le a c := by
  cases a <;> cases b <;> cases c <;> simp_all [le]
  exact h1.trans h2

theorem le_max_left' {a b : Fl} (ha : a ≠ nan) (hb : b ≠ nan) : le a (max a b) := by
  cases a <;> cases b <;> simp_all [le, max]

theorem le_max_right' {a b : Fl} (ha : a ≠ nan) (hb : b ≠ nan) : le b (max a b) := by
  rw [Fl.max_comm]; exact le_max_left' hb ha

theorem max_eq_or (a b : Fl) : max a b = a ∨ max a b = b := by
  cases a <;> cases b <;> simp [max]
  exact _root_.le_total _ _

theorem max_ne_nan {a b : Fl} (ha : a ≠ nan) (hb : b ≠ nan) : max a b ≠ nan := by
  rcases max_eq_or a b with h | h <;> rw [h] <;> assumption

theorem le_antisymm' {a b : Fl} (h1 : le a b) (h2 : le b a) : a = b := by
  cases a <;> cases b <;> simp_all [le]
  exact _root_.le_antisymm h1 h2

theorem not_nan_of_le_left {a b : Fl} (h : le a b) : a ≠ nan := by
  rintro rfl; cases b <;> simp [le] at h
theorem not_nan_of_le_right {a b : Fl} (h : le a b) : b ≠ nan := by
  rintro rfl; cases a <;> simp [le] at h

theorem foldl_max_mem (l : List Fl) : ∀ a, l.foldl max a ∈ a :: l := by
  induction l with
  | nil => intro a; simp
  | cons b l ih =>
    intro a
    rw [List.foldl_cons]
    have := ih (max a b)
    rcases List.mem_cons.mp this with h | h
    · rw [h]; rcases max_eq_or a b with h | h <;> rw [h] <;> simp
    · exact List.mem_cons_of_mem _ (List.mem_cons_of_mem _ h)

theorem le_foldl_max (l : List Fl) : ∀ a, (∀ x ∈ a :: l, x ≠ nan) → ∀ x ∈ a :: l, le x (l.foldl max a) := by
  induction l with
  | nil => intro a h x hx; rw [List.mem_singleton] at hx; subst hx; exact le_refl' (h _ (by simp))
  | cons b l ih =>
    intro a h x hx
    rw [List.foldl_cons]
    have ha := h a (by simp)
    have hb := h b (by simp)
    have hl : ∀ x ∈ max a b :: l, x ≠ nan := by
      intro y hy
      rcases List.mem_cons.mp hy with hy | hy
      · rw [hy]; exact max_ne_nan ha hb
      · exact h y (by simp [hy])
    have hm := ih (max a b) hl
    rcases List.mem_cons.mp hx with hx | hx
    · rw [hx]; exact le_trans' (le_max_left' ha hb) (hm _ (by simp))
    · rcases List.mem_cons.mp hx with hx | hx
      · rw [hx]; exact le_trans' (le_max_right' ha hb) (hm _ (by simp))
      · exact hm _ (by simp [hx])

end Fl

/-! ### nanmax -/

theorem nanmax_dropNaN (l : List Fl) : nanmax (dropNaN l) = nanmax l := by
  have : dropNaN (dropNaN l) = dropNaN l := by simp [dropNaN]
  simp [nanmax, this]

theorem nanmax_spec {l : List Fl} (h : ∃ x ∈ l, x ≠ Fl.nan) :
    nanmax l ∈ l ∧ nanmax l ≠ Fl.nan ∧ ∀ x ∈ l, x ≠ Fl.nan → Fl.le x (nanmax l) := by
  obtain ⟨x, hx, hxn⟩ := h
  have hx' : x ∈ dropNaN l := mem_dropNaN.mpr ⟨hx, (Fl.not_isNaN_iff x).mpr hxn⟩
  unfold nanmax
  cases hd : dropNaN l with
  | nil => rw [hd] at hx'; cases hx'
  | cons a t =>
    have hall : ∀ y ∈ a :: t, y ≠ Fl.nan := by
      intro y hy; rw [← hd, mem_dropNaN] at hy; exact (Fl.not_isNaN_iff y).mp hy.2
    have hmem := Fl.foldl_max_mem t a
    refine ⟨?_, hall _ hmem, ?_⟩
    · have := hmem; rw [← hd, mem_dropNaN] at this; exact this.1
    · intro y hy hyn
      apply Fl.le_foldl_max t a hall
      rw [← hd, mem_dropNaN]; exact ⟨hy, (Fl.not_isNaN_iff y).mpr hyn⟩

theorem nanmax_of_all_nan {l : List Fl} (h : ∀ x ∈ l, x = Fl.nan) : nanmax l = Fl.nan := by
  have : dropNaN l = [] := by
    simp only [dropNaN, List.filter_eq_nil_iff]
    intro x hx; rw [h x hx]; simp
  simp [nanmax, this]

theorem nanmax_eq_nan_iff (l : List Fl) : nanmax l = Fl.nan ↔ ∀ x ∈ l, x = Fl.nan := by
  constructor
  · intro h x hx
    by_contra hne
    exact (nanmax_spec ⟨x, hx, hne⟩).2.1 h
  · exact nanmax_of_all_nan

/-- `nanmax` is characterised by being the largest non-NaN entry. -/
theorem nanmax_unique {l : List Fl} {m : Fl} (hm : m ∈ l) (hn : m ≠ Fl.nan)
    (hle : ∀ x ∈ l, x ≠ Fl.nan → Fl.le x m) : nanmax l = m := by
  obtain ⟨h1, h2, h3⟩ := nanmax_spec ⟨m, hm, hn⟩
  exact Fl.le_antisymm' (hle _ h1 h2) (h3 _ hm hn)

theorem nanmax_perm {l l' : List Fl} (h : l.Perm l') : nanmax l = nanmax l' := by
  by_cases hex : ∃ x ∈ l, x ≠ Fl.nan
  · obtain ⟨h1, h2, h3⟩ := nanmax_spec hex
    exact (nanmax_unique (h.mem_iff.mp h1) h2 (fun x hx hxn => h3 x (h.mem_iff.mpr hx) hxn)).symm
  · push Not at hex
    rw [nanmax_of_all_nan hex, nanmax_of_all_nan (fun x hx => hex x (h.mem_iff.mpr hx))]

theorem dropNaN_perm {l l' : List Fl} (h : l.Perm l') : (dropNaN l).Perm (dropNaN l') := h.filter _

theorem nansum_perm {l l' : List Fl} (h : l.Perm l') : nansum l = nansum l' :=
  (dropNaN_perm h).sum_eq

theorem countNotNaN_perm {l l' : List Fl} (h : l.Perm l') : countNotNaN l = countNotNaN l' :=
  (dropNaN_perm h).length_eq

theorem nanmean_perm {l l' : List Fl} (h : l.Perm l') : nanmean l = nanmean l' := by
  rw [nanmean, nanmean, nansum_perm h, countNotNaN_perm h]

theorem all_isNaN_iff (l : List Fl) : l.all Fl.isNaN = true ↔ ∀ x ∈ l, x = Fl.nan := by
  rw [List.all_eq_true]
  exact forall₂_congr (fun x _ => Fl.isNaN_iff x)

theorem fixedNanSum_perm {l l' : List Fl} (h : l.Perm l') : fixedNanSum l = fixedNanSum l' := by
  have : l.all Fl.isNaN = l'.all Fl.isNaN := by
    rw [Bool.eq_iff_iff, all_isNaN_iff, all_isNaN_iff]
    exact ⟨fun H x hx => H x (h.mem_iff.mpr hx), fun H x hx => H x (h.mem_iff.mp hx)⟩
  rw [fixedNanSum, fixedNanSum, this, nansum_perm h]

/-- Every list of floats without infinities is NaNs interleaved with reals. -/
theorem dropNaN_eq_map_fin {l : List Fl} (h : ∀ x ∈ l, x ≠ Fl.nan → x.IsFin) :
    ∃ rs : List ℝ, dropNaN l = rs.map Fl.fin := by
  induction l with
  | nil => exact ⟨[], rfl⟩
  | cons a l ih =>
    obtain ⟨rs, hrs⟩ := ih (fun x hx => h x (List.mem_cons_of_mem _ hx))
    by_cases ha : a = Fl.nan
    · subst ha; exact ⟨rs, by rw [dropNaN_cons_nan, hrs]⟩
    · obtain ⟨r, hr⟩ := h a (by simp) ha
      exact ⟨r :: rs, by rw [dropNaN_cons_of ((Fl.not_isNaN_iff a).mpr ha), hrs, hr]; rfl⟩

theorem dropNaN_eq_nil_iff (l : List Fl) : dropNaN l = [] ↔ ∀ x ∈ l, x = Fl.nan := by
  rw [dropNaN, List.filter_eq_nil_iff]
  apply forall₂_congr; intro x _; cases x <;> simp

@[simp] theorem dropNaN_dropNaN (l : List Fl) : dropNaN (dropNaN l) = dropNaN l := by simp [dropNaN]

theorem nansum_dropNaN (l : List Fl) : nansum (dropNaN l) = nansum l := by simp [nansum]
theorem countNotNaN_dropNaN (l : List Fl) : countNotNaN (dropNaN l) = countNotNaN l := by simp [countNotNaN]
theorem nanmean_dropNaN (l : List Fl) : nanmean (dropNaN l) = nanmean l := by
  simp [nanmean, nansum_dropNaN, countNotNaN_dropNaN]

theorem fixedNanSum_eq (l : List Fl) : fixedNanSum l = if dropNaN l = [] then Fl.nan else (dropNaN l).sum := by
  rw [fixedNanSum]
  by_cases h : l.all Fl.isNaN = true
  · rw [if_pos h, if_pos ((dropNaN_eq_nil_iff l).mpr ((all_isNaN_iff l).mp h))]
  · rw [if_neg h, if_neg (fun h' => h ((all_isNaN_iff l).mpr ((dropNaN_eq_nil_iff l).mp h')))]; rfl

/-! ### fast_power -/

theorem Fl.pow_zero (x : Fl) : x.pow 0 = Fl.fin 1 := by simp [Fl.pow]

theorem Fl.pow_one (x : Fl) : x.pow 1 = x := by
  have h : ∃ n : ℤ, (1:ℝ) = 2 * n + 1 := ⟨0, by simp⟩
  have h' : ∃ n : ℤ, (1:ℝ) = n := ⟨1, by simp⟩
  cases x with
  | nan => simp [Fl.pow]
  | pinf => simp [Fl.pow]
  | ninf => simp only [Fl.pow, one_ne_zero, if_false, not_lt.mpr zero_le_one, h, if_true]
  | fin a =>
    simp only [Fl.pow, one_ne_zero, if_false, zero_lt_one, h', or_true, if_true, Real.rpow_one]
    split
    · next h => rw [h]
    · rfl

/-- `x^n * x = x^(n+1)` for natural exponents. -/
theorem Fl.pow_nat_succ (x : Fl) (n : ℕ) (hn : 0 < n) : x.pow n * x = x.pow (n + 1 : ℕ) := by
  have hn0 : (n : ℝ) ≠ 0 := by exact_mod_cast hn.ne'
  have hn1 : ((n + 1 : ℕ) : ℝ) ≠ 0 := by exact_mod_cast (Nat.succ_ne_zero n)
  have p0 : (0:ℝ) < n := by exact_mod_cast hn
  have p1 : (0:ℝ) < ((n + 1 : ℕ) : ℝ) := by exact_mod_cast Nat.succ_pos n
  have i0 : ∃ m : ℤ, (n : ℝ) = m := ⟨n, by simp⟩
  have i1 : ∃ m : ℤ, ((n + 1 : ℕ) : ℝ) = m := ⟨(n + 1 : ℕ), by simp⟩
  have odd_iff : ∀ k : ℕ, (∃ m : ℤ, (k : ℝ) = 2 * m + 1) ↔ k % 2 = 1 := by
    intro k
    constructor
    · rintro ⟨m, hm⟩
      have : (k : ℤ) = 2 * m + 1 := by exact_mod_cast hm
      omega
    · intro h
      refine ⟨(k / 2 : ℕ), ?_⟩
      have h2 : k = 2 * (k / 2) + 1 := by omega
      have : (k : ℤ) = 2 * ((k / 2 : ℕ) : ℤ) + 1 := by omega
      exact_mod_cast this
  cases x with
  | nan => simp only [Fl.pow, hn1, if_false, Fl.mul_nan]
  | pinf => simp only [Fl.pow, hn0, hn1, p0, p1, if_true, if_false]; rfl
  | ninf =>
    simp only [Fl.pow, hn0, hn1, not_lt.mpr p0.le, not_lt.mpr p1.le, if_false, odd_iff]
    by_cases h : n % 2 = 1
    · rw [if_pos h, if_neg (by omega)]; rfl
    · rw [if_neg h, if_pos (by omega)]; rfl
  | fin a =>
    simp only [Fl.pow, hn0, hn1, p0, p1, i0, i1, or_true, if_true, if_false]
    by_cases h : a = 0
    · rw [if_pos h, if_pos h, h, Fl.fin_mul, zero_mul]
    · rw [if_neg h, if_neg h, Fl.fin_mul, Real.rpow_natCast, Real.rpow_natCast, _root_.pow_succ]

theorem foldl_mul_eq_pow (x : Fl) (n : ℕ) (hn : 0 < n) :
    (List.range n).foldl (fun acc _ => acc * x) (Fl.fin 1) = x.pow n := by
  induction n with
  | zero => omega
  | succ n ih =>
    rw [List.range_succ, List.foldl_append, List.foldl_cons, List.foldl_nil]
    rcases Nat.eq_zero_or_pos n with h | h
    · subst h
      simp only [List.range_zero, List.foldl_nil]
      rw [show Fl.fin 1 * x = x from Fl.one_mul x]
      rw [show ((0 + 1 : ℕ) : ℝ) = 1 by norm_num, Fl.pow_one]
    · rw [ih h, Fl.pow_nat_succ x n h]

theorem Fl.mul_self_eq_pow (x : Fl) : x * x = x.pow 2 := by
  have := foldl_mul_eq_pow x 2 (by norm_num)
  rw [show ((2:ℕ):ℝ) = 2 by norm_num] at this
  rw [← this]
  simp only [List.range_succ, List.range_zero, List.nil_append, List.cons_append, List.foldl_cons,
    List.foldl_nil]
  rw [show Fl.fin 1 * x = x from Fl.one_mul x]

theorem Fl.sqrt_eq_pow {x : Fl} (hx : x ≠ Fl.ninf) : x.sqrt = x.pow (1 / 2) := by
  have h2 : ((1:ℝ) / 2) ≠ 0 := by norm_num
  have hp : (0:ℝ) < 1 / 2 := by norm_num
  have hni : ¬ ∃ n : ℤ, (1:ℝ) / 2 = n := by
    rintro ⟨n, hn⟩
    have : (1:ℝ) = 2 * n := by linarith
    have : (1:ℤ) = 2 * n := by exact_mod_cast this
    omega
  cases x with
  | nan => simp [Fl.pow, Fl.sqrt]
  | pinf => simp [Fl.pow, Fl.sqrt]
  | ninf => exact absurd rfl hx
  | fin a =>
    simp only [Fl.pow, Fl.sqrt, h2, hp, hni, or_false, if_true, if_false]
    rcases lt_trichotomy a 0 with h | h | h
    · rw [if_neg (not_le.mpr h), if_neg h.ne, if_neg (not_lt.mpr h.le)]
    · rw [if_pos h.ge, if_pos h, h, Real.sqrt_zero]
    · rw [if_pos h.le, if_neg h.ne', if_pos h, Real.sqrt_eq_rpow]

/-- `fast_power` is `np.power` up to two exceptional entries. -/
theorem fastPower_eq (e : Expo) (x : Fl) :
    fastPower e x = if e.val = 0 ∧ x = Fl.nan then Fl.nan
      else if e.val = 1 / 2 ∧ x = Fl.ninf then Fl.nan
      else x.pow e.val := by
  unfold fastPower
  by_cases h1 : e.val = 1
  · rw [if_pos h1, if_neg (by rw [h1]; norm_num), if_neg (by rw [h1]; norm_num), h1, Fl.pow_one]
  rw [if_neg h1]
  by_cases h2 : e.val = 2
  · rw [if_pos h2, if_neg (by rw [h2]; norm_num), if_neg (by rw [h2]; norm_num), h2, Fl.mul_self_eq_pow]
  rw [if_neg h2]
  by_cases h3 : e.val = 1 / 2
  · rw [if_pos h3, if_neg (by rw [h3]; norm_num)]
    by_cases hx : x = Fl.ninf
    · rw [if_pos ⟨h3, hx⟩, hx]; rfl
    · rw [if_neg (fun h => hx h.2), h3, Fl.sqrt_eq_pow hx]
  rw [if_neg h3]
  have n3 : ¬ (e.val = 1 / 2 ∧ x = Fl.ninf) := fun h => h3 h.1
  by_cases h4 : e.val = 0
  · rw [if_pos h4, if_neg n3]
    by_cases hx : x = Fl.nan
    · rw [if_pos (show e.val = 0 ∧ x = Fl.nan from ⟨h4, hx⟩), hx]; rfl
    · rw [if_neg (show ¬ (e.val = 0 ∧ x = Fl.nan) from fun h => hx h.2),
        if_neg (show ¬ (x.isNaN = true) by rw [Fl.isNaN_iff]; exact hx), h4]
  have n4 : ¬ (e.val = 0 ∧ x = Fl.nan) := fun h => h4 h.1
  rw [if_neg h4, if_neg n4, if_neg n3]
  by_cases h5 : e.val = -1
  · rw [if_pos h5, h5]
  rw [if_neg h5]
  cases e with
  | real r => rfl
  | int n =>
    simp only
    split
    · next h =>
      rw [foldl_mul_eq_pow x n.toNat (by omega)]
      congr 1
      have : ((n.toNat : ℤ)) = n := Int.toNat_of_nonneg h.1.le
      show ((n.toNat : ℕ) : ℝ) = ((n : ℤ) : ℝ)
      exact_mod_cast this
    · rfl

end MFA
