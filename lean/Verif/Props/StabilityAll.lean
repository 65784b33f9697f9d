import Verif.Props.Stability
import Verif.Props.RoundingBounds

/-! Property C122, continued: relative errors and the log-cumulants of every order, `h(q)` and `D(q)`. -/

namespace MFA

open Classical

noncomputable section

variable {R : ℕ} {m : MRQ R} {J : ℕ}

/-! ### Cumulants -/

theorem pow_diff {s t B δ : ℝ} (hs : |s| ≤ B) (ht : |t| ≤ B) (h : |s - t| ≤ δ) (k : ℕ) : |s ^ (k + 1) - t ^ (k + 1)| ≤ (k + 1) * δ * B ^ k := by
  have hB : 0 ≤ B := (abs_nonneg _).trans hs
  have hδ : 0 ≤ δ := (abs_nonneg _).trans h
  induction k with
  | zero => simpa using h
  | succ k ih =>
    have e : s ^ (k + 1 + 1) - t ^ (k + 1 + 1) = (s ^ (k + 1) - t ^ (k + 1)) * s + t ^ (k + 1) * (s - t) := by ring
    rw [e]
    refine (abs_add_le _ _).trans ?_
    rw [abs_mul, abs_mul, abs_pow]
    have h1 := mul_le_mul ih hs (abs_nonneg _) (by positivity)
    have h2 := mul_le_mul (pow_le_pow_left₀ (abs_nonneg _) ht (k + 1)) h (abs_nonneg _) (by positivity)
    refine (add_le_add h1 h2).trans (le_of_eq ?_)
    push_cast
    ring

theorem mom_bound {ls : List ℝ} {B : ℝ} (h : ∀ s ∈ ls, |s| ≤ B) (hne : ls ≠ []) (k : ℕ) : |mom ls k| ≤ B ^ k := by
  have hl : (0:ℝ) < ls.length := by exact_mod_cast List.length_pos_iff.2 hne
  unfold mom
  rw [abs_div, abs_of_pos hl, div_le_iff₀ hl]
  refine (listSum_abs_le ls (fun s => s ^ k) (fun _ => B ^ k) fun s hs => ?_).trans (le_of_eq ?_)
  · rw [abs_pow]; exact pow_le_pow_left₀ (abs_nonneg _) (h s hs) _
  · simp [mul_comm]

theorem mom_diff {ls ls' : List ℝ} {B δ : ℝ} (h : List.Forall₂ (fun s t : ℝ => |s - t| ≤ δ) ls ls') (hB : ∀ s ∈ ls, |s| ≤ B) (hB' : ∀ s ∈ ls', |s| ≤ B)
    (hne : ls ≠ []) (k : ℕ) : |mom ls (k + 1) - mom ls' (k + 1)| ≤ (k + 1) * δ * B ^ k := by
  have hl : (0:ℝ) < ls.length := by exact_mod_cast List.length_pos_iff.2 hne
  unfold mom
  rw [← h.length_eq, ← sub_div, abs_div, abs_of_pos hl, div_le_iff₀ hl]
  clear hne hl
  induction h with
  | nil => simp
  | @cons s t ls ls' hst _ ih =>
    have i := ih (fun x hx => hB x (by simp [hx])) (fun x hx => hB' x (by simp [hx]))
    have p := pow_diff (hB s (by simp)) (hB' t (by simp)) hst k
    simp only [List.map_cons, List.sum_cons, List.length_cons, Nat.cast_add, Nat.cast_one]
    rw [show ∀ a b c d : ℝ, a + b - (c + d) = (a - c) + (b - d) from fun a b c d => by ring]
    refine (abs_add_le _ _).trans ?_
    linarith

/-- Cumulants of two samples that differ by at most `δ`. -/
theorem kap_diff {ls ls' : List ℝ} {B δ : ℝ} (h : List.Forall₂ (fun s t : ℝ => |s - t| ≤ δ) ls ls') (hB : ∀ s ∈ ls, |s| ≤ B) (hB' : ∀ s ∈ ls', |s| ≤ B)
    (hne : ls ≠ []) (k : ℕ) : |kap ls (k + 1)| ≤ (k + 1).factorial * 2 ^ k * B ^ (k + 1) ∧
      |kap ls (k + 1) - kap ls' (k + 1)| ≤ (k + 1).factorial * 2 ^ k * ((k + 1) * δ * B ^ k) := by
  have hne' : ls' ≠ [] := fun he => hne (by rw [he] at h; cases h; rfl)
  obtain ⟨s0, hs0⟩ := List.exists_mem_of_ne_nil _ hne
  have hB0 : 0 ≤ B := (abs_nonneg _).trans (hB s0 hs0)
  obtain ⟨t0, -, ht0⟩ := forall₂_mem h hs0
  have hδ : 0 ≤ δ := (abs_nonneg _).trans ht0
  induction k using Nat.strong_induction_on with
  | _ k ih =>
    have hsz : 1 + ((List.range k).map fun i => ((Nat.choose k i : ℕ) : ℝ) * (((i + 1).factorial : ℝ) * 2 ^ i)).sum ≤ ((k + 1).factorial : ℝ) * 2 ^ k := by
      rcases Nat.eq_zero_or_pos k with rfl | hk
      · simp
      · exact cum_size hk
    rw [show ((List.range k).map fun i => ((Nat.choose k i : ℕ) : ℝ) * (((i + 1).factorial : ℝ) * 2 ^ i)).sum =
      ∑ i ∈ Finset.range k, ((Nat.choose k i : ℕ) : ℝ) * (((i + 1).factorial : ℝ) * 2 ^ i) from rfl] at hsz
    rw [kap_rec _ hne, kap_rec _ hne']
    constructor
    · have h1 := mom_bound hB hne (k + 1)
      have h2 : |∑ i ∈ Finset.range k, (k.choose i : ℝ) * kap ls (i + 1) * mom ls (k - i)| ≤
          (∑ i ∈ Finset.range k, ((Nat.choose k i : ℕ) : ℝ) * (((i + 1).factorial : ℝ) * 2 ^ i)) * B ^ (k + 1) := by
        rw [Finset.sum_mul]
        refine (Finset.abs_sum_le_sum_abs _ _).trans (Finset.sum_le_sum fun i hi => ?_)
        have hi' := Finset.mem_range.1 hi
        have a1 := (ih i hi').1
        have a2 := mom_bound hB hne (k - i)
        rw [abs_mul, abs_mul, abs_of_nonneg (Nat.cast_nonneg (α := ℝ) _), mul_assoc]
        have := mul_le_mul a1 a2 (abs_nonneg _) (by positivity)
        refine (mul_le_mul_of_nonneg_left this (Nat.cast_nonneg _)).trans (le_of_eq ?_)
        rw [show k + 1 = (i + 1) + (k - i) by omega, pow_add]
        ring
      have h3 := mul_le_mul_of_nonneg_right hsz (pow_nonneg hB0 (k + 1))
      refine (abs_sub _ _).trans ?_
      linarith
    · have h1 := mom_diff h hB hB' hne k
      have h2 : |∑ i ∈ Finset.range k, ((k.choose i : ℝ) * kap ls (i + 1) * mom ls (k - i) - (k.choose i : ℝ) * kap ls' (i + 1) * mom ls' (k - i))| ≤
          (∑ i ∈ Finset.range k, ((Nat.choose k i : ℕ) : ℝ) * (((i + 1).factorial : ℝ) * 2 ^ i)) * ((k + 1) * δ * B ^ k) := by
        rw [Finset.sum_mul]
        refine (Finset.abs_sum_le_sum_abs _ _).trans (Finset.sum_le_sum fun i hi => ?_)
        have hi' := Finset.mem_range.1 hi
        obtain ⟨a1, a2⟩ := ih i hi'
        obtain ⟨j, hj⟩ : ∃ j, k - i = j + 1 := ⟨k - i - 1, by omega⟩
        have a3 := mom_bound hB' hne' (k - i)
        have a4 := mom_diff h hB hB' hne j
        rw [← hj] at a4
        have e : (k.choose i : ℝ) * kap ls (i + 1) * mom ls (k - i) - (k.choose i : ℝ) * kap ls' (i + 1) * mom ls' (k - i) =
            (k.choose i : ℝ) * (kap ls (i + 1) * (mom ls (k - i) - mom ls' (k - i)) + (kap ls (i + 1) - kap ls' (i + 1)) * mom ls' (k - i)) := by ring
        rw [e, abs_mul, abs_of_nonneg (Nat.cast_nonneg (α := ℝ) _), mul_assoc]
        refine mul_le_mul_of_nonneg_left ?_ (Nat.cast_nonneg _)
        refine (abs_add_le _ _).trans ?_
        rw [abs_mul, abs_mul]
        have p1 := mul_le_mul a1 a4 (abs_nonneg _) (by positivity)
        have p2 := mul_le_mul a2 a3 (abs_nonneg _) (by positivity)
        refine (add_le_add p1 p2).trans (le_of_eq ?_)
        have ek : (k : ℝ) = i + j + 1 := by exact_mod_cast (by omega : k = i + j + 1)
        have e1 : B ^ k = B ^ (i + 1) * B ^ j := by rw [← pow_add]; congr 1; omega
        have e2 : B ^ i * B ^ (k - i) = B ^ k := by rw [← pow_add]; congr 1; omega
        rw [ek]
        have e3 : ((i + 1).factorial : ℝ) * 2 ^ i * (((i : ℝ) + 1) * δ * B ^ i) * B ^ (k - i) = ((i + 1).factorial : ℝ) * 2 ^ i * (((i : ℝ) + 1) * δ * B ^ k) := by
          rw [← e2]; ring
        rw [e3, e1]
        ring
      have h3 := mul_le_mul_of_nonneg_right hsz (show 0 ≤ (k + 1 : ℝ) * δ * B ^ k by positivity)
      rw [show ∀ a b c d : ℝ, a - b - (c - d) = (a - c) - (b - d) from fun a b c d => by ring, ← Finset.sum_sub_distrib]
      refine (abs_sub _ _).trans ?_
      linarith

theorem log_rel {s θ : ℝ} (hs : s ≠ 0) : Real.log |s * Real.exp θ| = Real.log |s| + θ := by
  rw [abs_mul, abs_of_pos (Real.exp_pos _), Real.log_mul (abs_ne_zero.2 hs) (Real.exp_pos _).ne', Real.log_exp]

theorem rel_cumulant {δ L : ℝ} {n i : ℕ} (hi : i < n) {c c' : List Fl} {xs : List ℝ} (hc : Entries c xs) (hne : xs ≠ []) (h0 : ∀ x ∈ xs, x ≠ 0)
    (hL : ∀ x ∈ xs, |Real.log (|x|)| ≤ L) (h : List.Forall₂ (EntryRelClose δ) c c') :
    FlClose ((i + 1).factorial * 2 ^ i * ((i + 1) * δ * (L + δ) ^ i)) ((cumStat n i).1 c) ((cumStat n i).1 c') := by
  obtain ⟨xs', hc', hxx⟩ := hc.relClose h
  have h0' := relClose_nonzero hxx h0
  have hne' : xs' ≠ [] := fun he => hne (by rw [he] at hxx; cases hxx; rfl)
  refine ⟨_, _, stat_cumulant hi (1, xs) c hc one_pos hne h0, stat_cumulant hi (1, xs') c' hc' one_pos hne' h0', ?_⟩
  simp only [Real.logb_one, mul_zero, zero_add, div_one]
  have hf : List.Forall₂ (fun s t : ℝ => |s - t| ≤ δ) (xs.map fun x => Real.log |x|) (xs'.map fun x => Real.log |x|) := by
    rw [List.forall₂_map_left_iff, List.forall₂_map_right_iff]
    have hz : List.Forall₂ (fun s t : ℝ => (∃ θ, t = s * Real.exp θ ∧ |θ| ≤ δ) ∧ s ≠ 0) xs xs' := by
      clear hc' hne' h0' hc hne hL
      induction hxx with
      | nil => exact List.Forall₂.nil
      | cons hst _ ih => exact List.Forall₂.cons ⟨hst, h0 _ (by simp)⟩ (ih fun x hx => h0 x (by simp [hx]))
    refine hz.imp fun s t hst => ?_
    obtain ⟨⟨θ, rfl, hθ⟩, hs⟩ := hst
    rw [log_rel hs, show ∀ a b : ℝ, a - (a + b) = -b from fun a b => by ring, abs_neg]
    exact hθ
  obtain ⟨x0, hx0⟩ := List.exists_mem_of_ne_nil _ hne
  obtain ⟨t0, -, θ0, -, hθ0⟩ := forall₂_mem hxx hx0
  have hδ : 0 ≤ δ := (abs_nonneg _).trans hθ0
  refine (kap_diff hf (B := L + δ) ?_ ?_ (by simpa using hne) i).2
  · intro s hs
    obtain ⟨x, hx, rfl⟩ := List.mem_map.1 hs
    have := hL x hx
    linarith
  · intro s hs
    obtain ⟨x, hx, rfl⟩ := List.mem_map.1 hs
    obtain ⟨y, hy, θ, rfl, hθ⟩ := forall₂_mem' hxx hx
    rw [log_rel (h0 y hy)]
    exact (abs_add_le _ _).trans (add_le_add (hL y hy) hθ)

/-! ### Weighted means -/

theorem wmean_diff {ι : Type} {l : List ι} (hne : l ≠ []) {w w' a a' : ι → ℝ} {E L δ : ℝ} (hE : 1 ≤ E) (hw : ∀ i ∈ l, 0 < w i) (hw' : ∀ i ∈ l, 0 < w' i)
    (h1 : ∀ i ∈ l, w' i ≤ E * w i) (h2 : ∀ i ∈ l, w i ≤ E * w' i) (ha : ∀ i ∈ l, |a i| ≤ L) (hd : ∀ i ∈ l, |a i - a' i| ≤ δ) :
    |(l.map fun i => w i * a i).sum / (l.map w).sum - (l.map fun i => w' i * a' i).sum / (l.map w').sum| ≤ δ + (E * E - 1) * L := by
  obtain ⟨i0, hi0⟩ := List.exists_mem_of_ne_nil _ hne
  have hpos : ∀ v : ι → ℝ, (∀ i ∈ l, 0 < v i) → 0 < (l.map v).sum := by
    intro v hv
    refine lt_of_lt_of_le (hv i0 hi0) (List.single_le_sum ?_ _ (List.mem_map.2 ⟨i0, hi0, rfl⟩))
    intro x hx
    obtain ⟨i, hi, rfl⟩ := List.mem_map.1 hx
    exact (hv i hi).le
  have hW := hpos w hw
  have hW' := hpos w' hw'
  have hL : 0 ≤ L := (abs_nonneg _).trans (ha i0 hi0)
  have s1 : (l.map w').sum ≤ E * (l.map w).sum := by rw [← listSum_mul]; exact listSum_le _ _ _ h1
  have s2 : (l.map w).sum ≤ E * (l.map w').sum := by rw [← listSum_mul]; exact listSum_le _ _ _ h2
  obtain ⟨W, eW⟩ : ∃ W, W = (l.map w).sum := ⟨_, rfl⟩
  obtain ⟨W', eW'⟩ : ∃ W', W' = (l.map w').sum := ⟨_, rfl⟩
  rw [← eW, ← eW'] at s1 s2
  rw [← eW] at hW ⊢
  rw [← eW'] at hW' ⊢
  have e : (l.map fun i => w i * a i).sum / W - (l.map fun i => w' i * a' i).sum / W' = (l.map fun i => w i * a i / W - w' i * a' i / W').sum := by
    clear * - 
    induction l with
    | nil => simp
    | cons x l ih => simp only [List.map_cons, List.sum_cons]; rw [← ih]; ring
  have e2 : δ + (E * E - 1) * L = (l.map fun i => w' i / W' * δ + (E * E - 1) * L * (w i / W)).sum := by
    have key : (l.map fun i => w' i / W' * δ + (E * E - 1) * L * (w i / W)).sum = (l.map w').sum / W' * δ + (E * E - 1) * L * ((l.map w).sum / W) := by
      clear * -
      induction l with
      | nil => simp
      | cons x l ih => simp only [List.map_cons, List.sum_cons]; rw [ih]; ring
    rw [key, ← eW, ← eW', div_self hW.ne', div_self hW'.ne']
    ring
  rw [e, e2]
  refine listSum_abs_le _ _ _ fun i hi => ?_
  have d1 : w' i / W' ≤ E * E * (w i / W) := by
    rw [div_le_iff₀ hW', mul_assoc, mul_assoc, div_mul_eq_mul_div, ]
    have : w i ≤ w i * (E * W') / W := by
      rw [le_div_iff₀ hW]; exact mul_le_mul_of_nonneg_left s2 (hw i hi).le
    refine (h1 i hi).trans (mul_le_mul_of_nonneg_left (this.trans (le_of_eq ?_)) (by linarith))
    ring
  have d2 : w i / W ≤ E * E * (w' i / W') := by
    rw [div_le_iff₀ hW, mul_assoc, mul_assoc, div_mul_eq_mul_div, ]
    have : w' i ≤ w' i * (E * W) / W' := by
      rw [le_div_iff₀ hW']; exact mul_le_mul_of_nonneg_left s1 (hw' i hi).le
    refine (h2 i hi).trans (mul_le_mul_of_nonneg_left (this.trans (le_of_eq ?_)) (by linarith))
    ring
  have p1 : 0 < w i / W := div_pos (hw i hi) hW
  have p2 : 0 < w' i / W' := div_pos (hw' i hi) hW'
  have ee : w i * a i / W - w' i * a' i / W' = w' i / W' * (a i - a' i) + (w i / W - w' i / W') * a i := by ring
  rw [ee]
  generalize w i / W = p at *
  generalize w' i / W' = p' at *
  have hd3 : |p - p'| ≤ (E * E - 1) * p := by
    rw [abs_le]
    constructor
    · linarith
    · have hEE : 1 ≤ E * E := by nlinarith
      have : p ≤ E * E * p' := d2
      have h5 : p / (E * E) ≤ p' := by rw [div_le_iff₀ (by linarith)]; linarith
      have h6 : (1 - (E * E - 1)) * p ≤ p / (E * E) := by
        rw [le_div_iff₀ (by linarith)]
        have : (1 - (E * E - 1)) * (E * E) ≤ 1 := by nlinarith [sq_nonneg (E * E - 1)]
        nlinarith
      linarith
  refine (abs_add_le _ _).trans ?_
  rw [abs_mul, abs_mul, abs_of_pos p2]
  refine add_le_add (mul_le_mul_of_nonneg_left (hd i hi) p2.le) ?_
  refine (mul_le_mul hd3 (ha i hi) (abs_nonneg _) ((abs_nonneg _).trans hd3)).trans (le_of_eq ?_)
  ring

/-- The ordinate of `h(q)`. -/
theorem rel_V {δ L : ℝ} (e : Expo) {c c' : List Fl} {xs : List ℝ} (hc : Entries c xs) (hne : xs ≠ []) (h0 : ∀ x ∈ xs, x ≠ 0)
    (hL : ∀ x ∈ xs, |Real.log (|x|)| ≤ L) (h : List.Forall₂ (EntryRelClose δ) c c') :
    FlClose ((δ + (Real.exp (2 * |e.val| * δ) - 1) * L) / Real.log 2) (msV c e) (msV c' e) := by
  have hlog : 0 < Real.log 2 := Real.log_pos (by norm_num)
  obtain ⟨xs', hc', hxx⟩ := hc.relClose h
  have h0' := relClose_nonzero hxx h0
  have hne' : xs' ≠ [] := fun he => hne (by rw [he] at hxx; cases hxx; rfl)
  have hl : (0:ℝ) < xs.length := by exact_mod_cast List.length_pos_iff.2 hne
  have hl' : (0:ℝ) < xs'.length := by exact_mod_cast List.length_pos_iff.2 hne'
  refine ⟨_, _, stat_V e (1, xs) c hc one_pos hne h0, stat_V e (1, xs') c' hc' one_pos hne' h0', ?_⟩
  simp only [Real.logb_one, mul_zero, zero_add, tmean, testF, div_one, pow_zero, mul_one, pow_one]
  rw [div_div_div_cancel_right₀ hl.ne', div_div_div_cancel_right₀ hl'.ne', ← sub_div, abs_div, abs_of_pos hlog]
  refine div_le_div_of_nonneg_right ?_ hlog.le
  obtain ⟨hlen, hz⟩ := List.forall₂_iff_zip.1 hxx
  obtain ⟨x0, hx0⟩ := List.exists_mem_of_ne_nil _ hne
  obtain ⟨t0, -, θ0, -, hθ0⟩ := forall₂_mem hxx hx0
  have hδ : 0 ≤ δ := (abs_nonneg _).trans hθ0
  have e1 : ∀ f : ℝ → ℝ, xs.map f = (xs.zip xs').map fun p => f p.1 := by
    intro f
    conv_lhs => rw [← List.map_fst_zip (l₁ := xs) (l₂ := xs') hlen.le]
    rw [List.map_map]; rfl
  have e2 : ∀ f : ℝ → ℝ, xs'.map f = (xs.zip xs').map fun p => f p.2 := by
    intro f
    conv_lhs => rw [← List.map_snd_zip (l₁ := xs) (l₂ := xs') hlen.ge]
    rw [List.map_map]; rfl
  rw [e1, e1, e2, e2]
  have hp : ∀ s θ : ℝ, |s * Real.exp θ| ^ e.val = Real.exp (e.val * θ) * |s| ^ e.val := by
    intro s θ
    rw [abs_mul, abs_of_pos (Real.exp_pos θ), Real.mul_rpow (abs_nonneg _) (Real.exp_pos _).le, ← Real.exp_mul, mul_comm θ e.val, mul_comm]
  have hEE : Real.exp (2 * |e.val| * δ) = Real.exp (|e.val| * δ) * Real.exp (|e.val| * δ) := by rw [← Real.exp_add]; congr 1; ring
  rw [hEE]
  have hmem : ∀ p ∈ xs.zip xs', p.1 ∈ xs ∧ p.2 ∈ xs' ∧ ∃ θ, p.2 = p.1 * Real.exp θ ∧ |θ| ≤ δ := by
    rintro ⟨s, t⟩ hst
    exact ⟨(List.of_mem_zip hst).1, (List.of_mem_zip hst).2, hz hst⟩
  have hb : ∀ θ : ℝ, |θ| ≤ δ → |e.val * θ| ≤ |e.val| * δ := by
    intro θ hθ; rw [abs_mul]; exact mul_le_mul_of_nonneg_left hθ (abs_nonneg _)
  have hne2 : xs.zip xs' ≠ [] := by
    intro hz0
    have := congrArg List.length hz0
    rw [List.length_zip, hlen, min_self] at this
    exact hne' (List.length_eq_zero_iff.1 this)
  refine wmean_diff (l := xs.zip xs') hne2 (w := fun p => |p.1| ^ e.val) (w' := fun p => |p.2| ^ e.val) (a := fun p => Real.log |p.1|)
    (a' := fun p => Real.log |p.2|) (Real.one_le_exp (by positivity)) ?_ ?_ ?_ ?_ ?_ ?_
  · intro p hp'; exact Real.rpow_pos_of_pos (abs_pos.2 (h0 _ (hmem p hp').1)) _
  · intro p hp'; exact Real.rpow_pos_of_pos (abs_pos.2 (h0' _ (hmem p hp').2.1)) _
  · intro p hp'
    obtain ⟨h1, -, θ, hθ, hθ2⟩ := hmem p hp'
    show |p.2| ^ e.val ≤ _ * |p.1| ^ e.val
    rw [hθ, hp]
    exact mul_le_mul_of_nonneg_right (Real.exp_le_exp.2 (abs_le.1 (hb θ hθ2)).2) (Real.rpow_nonneg (abs_nonneg _) _)
  · intro p hp'
    obtain ⟨h1, -, θ, hθ, hθ2⟩ := hmem p hp'
    show |p.1| ^ e.val ≤ _ * |p.2| ^ e.val
    rw [hθ, hp, ← mul_assoc, ← Real.exp_add]
    exact le_mul_of_one_le_left (Real.rpow_nonneg (abs_nonneg _) _) (Real.one_le_exp (by linarith [(abs_le.1 (hb θ hθ2)).1]))
  · intro p hp'; exact hL _ (hmem p hp').1
  · intro p hp'
    obtain ⟨h1, -, θ, hθ, hθ2⟩ := hmem p hp'
    show |Real.log (|p.1|) - Real.log (|p.2|)| ≤ δ
    rw [hθ, log_rel (h0 _ h1), show ∀ a b : ℝ, a - (a + b) = -b from fun a b => by ring, abs_neg]
    exact hθ2

/-- The ordinate of `D(q)`. -/
theorem rel_U {δ L : ℝ} (e : Expo) {c c' : List Fl} {xs : List ℝ} (hc : Entries c xs) (hne : xs ≠ []) (h0 : ∀ x ∈ xs, x ≠ 0)
    (hL : ∀ x ∈ xs, |Real.log (|x|)| ≤ L) (h : List.Forall₂ (EntryRelClose δ) c c') :
    FlClose (|e.val| * (2 * δ + (Real.exp (2 * |e.val| * δ) - 1) * L) / Real.log 2) (msU (countNotNaN c) c e) (msU (countNotNaN c') c' e) := by
  obtain ⟨xs', hc', hxx⟩ := hc.relClose h
  have h0' := relClose_nonzero hxx h0
  have hne' : xs' ≠ [] := fun he => hne (by rw [he] at hxx; cases hxx; rfl)
  obtain ⟨s, t, s1, t1, st1⟩ := rel_V e hc hne h0 hL h
  obtain ⟨s', t', s2, t2, st2⟩ := rel_structure e hc hne h0 h
  have s1 := (Fl.fin_inj _ _).1 ((stat_V e (1, xs) c hc one_pos hne h0).symm.trans s1)
  have t1 := (Fl.fin_inj _ _).1 ((stat_V e (1, xs') c' hc' one_pos hne' h0').symm.trans t1)
  have s2 := (Fl.fin_inj _ _).1 ((stat_structure e (1, xs) c hc one_pos hne h0).symm.trans s2)
  have t2 := (Fl.fin_inj _ _).1 ((stat_structure e (1, xs') c' hc' one_pos hne' h0').symm.trans t2)
  refine ⟨_, _, stat_U e (1, xs) c hc one_pos hne h0, stat_U e (1, xs') c' hc' one_pos hne' h0', ?_⟩
  simp only [Real.logb_one, mul_zero, zero_add] at s1 t1 s2 t2 ⊢
  rw [s1, t1, s2, t2, show e.val * s - s' - (e.val * t - t') = e.val * (s - t) - (s' - t') by ring]
  refine (abs_sub _ _).trans ?_
  rw [abs_mul]
  refine (add_le_add (mul_le_mul_of_nonneg_left st1 (abs_nonneg _)) st2).trans (le_of_eq ?_)
  ring

theorem LogData.logs {Y : ℝ} {k : ℕ} (hl : LogData Y k m) {p : ℤ × Arr R} (hp : p ∈ m.values) (r : Fin R) :
    ∃ xs : List ℝ, xs ≠ [] ∧ (∀ x ∈ xs, x ≠ 0) ∧ (∀ x ∈ xs, |Real.log (|x|)| ≤ Y * Real.log 2) ∧ Entries (col p.2 r) xs := by
  have hlog : 0 < Real.log 2 := Real.log_pos (by norm_num)
  obtain ⟨-, -, h⟩ := hl p hp
  obtain ⟨⟨x0, hx0, hxn⟩, h2⟩ := h r
  generalize col p.2 r = c at *
  have : ∃ xs : List ℝ, Entries c xs ∧ (∀ x ∈ xs, x ≠ 0) ∧ (∀ x ∈ xs, |Real.log (|x|)| ≤ Y * Real.log 2) := by
    clear hx0 hxn
    induction c with
    | nil => exact ⟨[], rfl, by simp, by simp⟩
    | cons a c ih =>
      obtain ⟨xs, i1, i2, i3⟩ := ih fun x hx => h2 x (by simp [hx])
      rcases h2 a (by simp) with rfl | ⟨t, ht, rfl, hb⟩
      · exact ⟨xs, by simpa [Entries, dropNaN] using i1, i2, i3⟩
      · refine ⟨t :: xs, ?_, ?_, ?_⟩
        · have i1' : dropNaN c = xs.map Fl.fin := i1
          simp [Entries, dropNaN] at i1' ⊢
          exact i1'
        · intro x hx
          rcases List.mem_cons.1 hx with rfl | hx
          exacts [ht, i2 x hx]
        · intro x hx
          rcases List.mem_cons.1 hx with rfl | hx
          · rw [Real.logb, abs_div, abs_of_pos hlog, div_le_iff₀ hlog] at hb
            exact hb
          · exact i3 x hx
  obtain ⟨xs, i1, i2, i3⟩ := this
  refine ⟨xs, ?_, i2, i3, i1⟩
  rintro rfl
  have : x0 ∈ dropNaN c := mem_dropNaN.2 ⟨hx0, by rcases x0 with _ | _ | _ | x0 <;> simp_all [Fl.isNaN]⟩
  rw [show dropNaN c = [] from i1] at this
  cases this

/-- **C122, relative errors, all estimates.**  If the values of `m` are between `2^(-Y)` and `2^Y` and every one of them is multiplied by a factor between
`e^(-δ)` and `e^δ`, then the log-cumulants of every order, `h(q)` and `D(q)` change at most by the stated amounts. -/
theorem C122_relative_all {m' : MRQ R} (hm : Regular m J) (hm' : Regular m' J) {Y : ℝ} {k : ℕ} (hd : LogData Y k m)
    {δ : ℝ} (hrel : MRQRelated (EntryRelClose δ) m m') {j1 j2 : ℕ} (h1 : 1 ≤ j1)
    (h12 : j1 < j2) (h2 : j2 ≤ J) (weighted : Bool) (q : List ℝ) (hq : (2:ℝ) ∈ q) (n : ℕ) :
    ∃ v v', IsBundle m j1 j2 weighted n q v ∧ IsBundle m' j1 j2 weighted n q v' ∧ ∀ r,
      (∀ i, i < n → ∃ c c', v.cumulants.log_cumulants[i]? = some c ∧ v'.cumulants.log_cumulants[i]? = some c' ∧
        FlClose (slopeFactor weighted j1 j2 * ((i + 1).factorial * 2 ^ i * ((i + 1) * δ * (Y * Real.log 2 + δ) ^ i) / Real.log 2)) (c r) (c' r)) ∧
      (∀ (i : ℕ) (e : ℝ), q[i]? = some e → ∃ h h', v.spectrum.hq[i]? = some h ∧ v'.spectrum.hq[i]? = some h' ∧
        FlClose (slopeFactor weighted j1 j2 * (δ / Real.log 2 + (Real.exp (2 * |e| * δ) - 1) * Y)) (h r) (h' r)) ∧
      ∀ (i : ℕ) (e : ℝ), q[i]? = some e → ∃ D D', v.spectrum.Dq[i]? = some D ∧ v'.spectrum.Dq[i]? = some D' ∧
        FlClose (slopeFactor weighted j1 j2 * (|e| * (2 * δ / Real.log 2 + (Real.exp (2 * |e| * δ) - 1) * Y))) (D r) (D' r) := by
  have hlog : 0 < Real.log 2 := Real.log_pos (by norm_num)
  have a1 : (1:ℤ) ≤ (j1 : ℤ) := by exact_mod_cast h1
  have a2 : (j1 : ℤ) ≤ (j2 : ℤ) := by exact_mod_cast h12.le
  have a3 : (j2 : ℤ) ≤ (J : ℤ) := by exact_mod_cast h2
  have hnz := logData_nonzero hd
  have hrow : ∀ p ∈ m.values, p.2 ≠ [] := fun p hp => (hd p hp).1
  have hrow' := related_rows hrel hrow
  have hqe : (QArg.ndarray q).expos ≠ [] := by rw [expos_ndarray]; simp; rintro rfl; cases hq
  refine ⟨⟨_, _, _, _⟩, ⟨_, _, _, _⟩, ⟨hm.structFn a1 a2 a3 weighted q hq, hm.cumulants a1 a2 a3 weighted n,
    hm.spectrum a1 a2 a3 weighted (.ndarray q) hqe, _, hm.hmin a1 a2 a3 weighted true hrow, rfl⟩,
    ⟨hm'.structFn a1 a2 a3 weighted q hq, hm'.cumulants a1 a2 a3 weighted n,
    hm'.spectrum a1 a2 a3 weighted (.ndarray q) hqe, _, hm'.hmin a1 a2 a3 weighted true hrow', rfl⟩, fun r => ?_⟩
  have key := fun (Y : List Fl → Fl) (E : ℝ) => slope_related EntryRelClose.nan hm hrel h1 h12 h2 weighted r
    (fun p hp => (hnz p hp r).1) Y E
  refine ⟨?_, ?_, ?_⟩
  · intro i hi
    refine ⟨fun r => cumF m j1 j2 weighted n i r * Fl.fin log2e, fun r => cumF m' j1 j2 weighted n i r * Fl.fin log2e,
      by simp only [List.getElem?_map, List.getElem?_range hi, Option.map_some],
      by simp only [List.getElem?_map, List.getElem?_range hi, Option.map_some], ?_⟩
    obtain ⟨s, t, e1, e2, e3⟩ := key (cumStat n i).1 ((i + 1).factorial * 2 ^ i * ((i + 1) * δ * (Y * Real.log 2 + δ) ^ i)) fun p hp c' hc' => by
      obtain ⟨xs, hne, h0, hL, hE⟩ := hd.logs hp r
      exact rel_cumulant hi hE hne h0 hL hc'
    have e1' : cumF m j1 j2 weighted n i r = Fl.fin s := e1
    have e2' : cumF m' j1 j2 weighted n i r = Fl.fin t := e2
    refine ⟨s * log2e, t * log2e, by show cumF m j1 j2 weighted n i r * Fl.fin log2e = _; rw [e1', Fl.fin_mul],
      by show cumF m' j1 j2 weighted n i r * Fl.fin log2e = _; rw [e2', Fl.fin_mul], ?_⟩
    rw [log2e_eq, ← sub_mul, abs_mul, abs_of_pos (inv_pos.2 hlog), ← div_eq_mul_inv, ← mul_div_assoc]
    exact div_le_div_of_nonneg_right e3 hlog.le
  · intro i e he
    refine ⟨vF m j1 j2 weighted (.real e), vF m' j1 j2 weighted (.real e),
      by simp only [expos_ndarray, List.getElem?_map, he, Option.map_some],
      by simp only [expos_ndarray, List.getElem?_map, he, Option.map_some], ?_⟩
    refine key (fun c => msV c (.real e)) _ fun p hp c' hc' => ?_
    obtain ⟨xs, hne, h0, hL, hE⟩ := hd.logs hp r
    have := rel_V (.real e) hE hne h0 hL hc'
    rw [add_div, ← mul_assoc, mul_div_cancel_right₀ _ hlog.ne'] at this
    exact this
  · intro i e he
    refine ⟨fun r => Fl.fin 1 + uF m j1 j2 weighted (.real e) r, fun r => Fl.fin 1 + uF m' j1 j2 weighted (.real e) r,
      by simp only [expos_ndarray, List.getElem?_map, he, Option.map_some],
      by simp only [expos_ndarray, List.getElem?_map, he, Option.map_some], ?_⟩
    obtain ⟨s, t, e1, e2, e3⟩ := key (fun c => msU (countNotNaN c) c (.real e)) (|e| * (2 * δ / Real.log 2 + (Real.exp (2 * |e| * δ) - 1) * Y))
      fun p hp c' hc' => by
        obtain ⟨xs, hne, h0, hL, hE⟩ := hd.logs hp r
        have := rel_U (.real e) hE hne h0 hL hc'
        rw [mul_div_assoc, add_div, ← mul_assoc, mul_div_cancel_right₀ _ hlog.ne'] at this
        exact this
    have e1' : uF m j1 j2 weighted (.real e) r = Fl.fin s := e1
    have e2' : uF m' j1 j2 weighted (.real e) r = Fl.fin t := e2
    refine ⟨1 + s, 1 + t, by show Fl.fin 1 + uF m j1 j2 weighted (.real e) r = _; rw [e1', Fl.fin_add],
      by show Fl.fin 1 + uF m' j1 j2 weighted (.real e) r = _; rw [e2', Fl.fin_add], ?_⟩
    rw [add_sub_add_left_eq_sub]
    exact e3

end

end MFA
