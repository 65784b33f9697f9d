import Verif.Lemmas.Rounded
import Verif.Lemmas.Spectrum

/-! Convergence of the rounded statistics of one column. -/

namespace MFA

open Filter Topology Classical

noncomputable section

variable {ι : Type}

/-- A column of computed values: the entries `N` are NaN, the others are numbers that tend to `A`. -/
def CvCol (l : List ι) (F : ι → Machine → Fl) (N : ι → Prop) (A : ι → ℝ) : Prop :=
  ∀ i ∈ l, (N i → ∀ M, F i M = Fl.nan) ∧ (¬ N i → CvTo (F i) (A i))

variable {l : List ι} {F : ι → Machine → Fl} {N : ι → Prop} {A : ι → ℝ}

theorem CvTo.not_nan {f : Machine → Fl} {a : ℝ} (h : CvTo f a) : ∀ᶠ M in Lmach, (f M).isNaN = false := by
  filter_upwards [h.spec.1] with M hM
  rw [hM]; rfl

theorem CvCol.isNaN (h : CvCol l F N A) : ∀ᶠ M in Lmach, ∀ i ∈ {i | i ∈ l}, (F i M).isNaN = decide (N i) := by
  rw [eventually_all_finite (List.finite_toSet _)]
  intro i hi
  by_cases hN : N i
  · refine Eventually.of_forall fun M => ?_
    rw [(h i hi).1 hN M]
    simp [hN]
  · filter_upwards [((h i hi).2 hN).not_nan] with M hM
    rw [hM]
    simp [hN]

theorem CvCol.dropNaN (h : CvCol l F N A) : ∀ᶠ M in Lmach,
    dropNaN (l.map fun i => F i M) = (l.filter fun i => !decide (N i)).map fun i => F i M := by
  filter_upwards [h.isNaN] with M hM
  unfold MFA.dropNaN
  rw [List.filter_map]
  congr 1
  refine List.filter_congr fun i hi => ?_
  show (!(F i M).isNaN) = _
  rw [hM i hi]

theorem CvCol.count (h : CvCol l F N A) : ∀ᶠ M in Lmach,
    countNotNaN (l.map fun i => F i M) = (l.filter fun i => !decide (N i)).length := by
  filter_upwards [h.dropNaN] with M hM
  rw [countNotNaN, hM, List.length_map]

theorem CvCol.nansum (h : CvCol l F N A) :
    CvTo (fun M => M.nansum (l.map fun i => F i M)) (l.map fun i => if N i then 0 else A i).sum := by
  have : CvTo (fun M => M.sum (l.map fun i => if (F i M).isNaN then Fl.fin 0 else F i M)) (l.map fun i => if N i then 0 else A i).sum := by
    refine CvTo.sum l (fun i M => if (F i M).isNaN then Fl.fin 0 else F i M) _ fun i hi => ?_
    by_cases hN : N i
    · rw [if_pos hN]
      refine (CvTo.const 0).congr (Eventually.of_forall fun M => ?_)
      rw [(h i hi).1 hN M]
      simp
    · rw [if_neg hN]
      refine ((h i hi).2 hN).congr ?_
      filter_upwards [((h i hi).2 hN).not_nan] with M hM
      rw [hM]
      simp
  refine this.congr (Eventually.of_forall fun M => ?_)
  unfold Machine.nansum
  rw [List.map_map]
  rfl

/-- Number of entries that are not NaN. -/
def cnt (l : List ι) (N : ι → Prop) : ℕ := (l.filter fun i => !decide (N i)).length

theorem cnt_pos (hne : ∃ i ∈ l, ¬ N i) : 0 < cnt l N := by
  obtain ⟨i, hi, hN⟩ := hne
  refine List.length_pos_of_mem (a := i) ?_
  rw [List.mem_filter]
  exact ⟨hi, by simp [hN]⟩

theorem CvCol.nanmean (h : CvCol l F N A) (hne : ∃ i ∈ l, ¬ N i) :
    CvTo (fun M => M.nanmean (l.map fun i => F i M)) ((l.map fun i => if N i then 0 else A i).sum / (cnt l N : ℝ)) := by
  refine (h.nansum.div (CvTo.const (cnt l N : ℝ)) (by exact_mod_cast (cnt_pos hne).ne')).congr ?_
  filter_upwards [h.count] with M hM
  rw [Machine.nanmean, hM]
  rfl

theorem CvCol.fixedNanSum (h : CvCol l F N A) (hne : ∃ i ∈ l, ¬ N i) :
    CvTo (fun M => M.fixedNanSum (l.map fun i => F i M)) (l.map fun i => if N i then 0 else A i).sum := by
  refine h.nansum.congr ?_
  filter_upwards [h.isNaN] with M hM
  unfold Machine.fixedNanSum
  rw [if_neg]
  obtain ⟨i, hi, hN⟩ := hne
  intro hall
  rw [List.all_eq_true] at hall
  have := hall (F i M) (List.mem_map.2 ⟨i, hi, rfl⟩)
  rw [hM i hi] at this
  exact hN (of_decide_eq_true this)

theorem CvCol.map {op : Machine → Fl → Fl} {φ : ℝ → ℝ} (h : CvCol l F N A) (hn : ∀ M, op M Fl.nan = Fl.nan)
    (hop : ∀ i ∈ l, ¬ N i → CvTo (F i) (A i) → CvTo (fun M => op M (F i M)) (φ (A i))) :
    CvCol l (fun i M => op M (F i M)) N (fun i => φ (A i)) := by
  intro i hi
  refine ⟨fun hN M => ?_, fun hN => hop i hi hN ((h i hi).2 hN)⟩
  show op M (F i M) = _
  rw [(h i hi).1 hN M, hn]

namespace Machine

variable (M : Machine)

theorem pow_nan {e : ℝ} (he : e ≠ 0) : M.pow Fl.nan e = Fl.nan := by
  have := M.pow_ok Fl.nan e
  rw [show Fl.pow Fl.nan e = Fl.nan by simp [Fl.pow, he]] at this
  exact this.nan

theorem mul_nan (x : Fl) : M.mul x Fl.nan = Fl.nan := by
  have := M.mul_ok x Fl.nan
  rw [Fl.mul_nan] at this
  exact this.nan

theorem nan_mul (x : Fl) : M.mul Fl.nan x = Fl.nan := by
  have := M.mul_ok Fl.nan x
  rw [Fl.nan_mul] at this
  exact this.nan

theorem nan_div (x : Fl) : M.div Fl.nan x = Fl.nan := by
  have := M.div_ok Fl.nan x
  rw [Fl.nan_div] at this
  exact this.nan

theorem ln_nan : M.ln Fl.nan = Fl.nan := (M.ln_ok Fl.nan).nan

theorem log2_nan : M.log2 Fl.nan = Fl.nan := (M.log2_ok Fl.nan).nan

theorem fastPower_nan (e : Expo) : M.fastPower e Fl.nan = Fl.nan := by
  unfold fastPower
  split_ifs with h1 h2 h3 h4 h5
  · rfl
  · exact M.mul_nan _
  · exact (M.sqrt_ok Fl.nan).nan
  · rfl
  · exact absurd rfl h5
  · exact M.pow_nan (by norm_num)
  · cases e with
    | int n =>
      simp only
      split_ifs with h
      · obtain ⟨k, hk⟩ : ∃ k, n.toNat = k + 1 := ⟨n.toNat - 1, by omega⟩
        rw [hk, List.range_succ, List.foldl_append]
        exact M.mul_nan _
      · exact M.pow_nan (by rintro e; exact h4 e)
    | real r => exact M.pow_nan (by rintro e; exact h4 e)

end Machine

theorem CvTo.fastPower {f : Machine → Fl} {a : ℝ} (hf : CvTo f a) (ha : 0 < a) (e : Expo) :
    CvTo (fun M => M.fastPower e (f M)) (a ^ e.val) := by
  suffices h : ∃ b, CvTo (fun M => M.fastPower e (f M)) b by
    obtain ⟨b, hb⟩ := h
    have h1 := hb.exact
    rw [hf.exact, Machine.exact_fastPower] at h1
    have h2 := fastPower_abs_fin (e := e) (x := a) (Or.inr ha.ne')
    rw [show (Fl.fin a).abs = Fl.fin |a| from rfl, abs_of_pos ha] at h2
    rw [h2] at h1
    rwa [(Fl.fin_inj _ _).1 h1]
  unfold Machine.fastPower
  split_ifs with h1 h2 h3 h4 h5
  · exact ⟨_, hf⟩
  · exact ⟨_, hf.mul hf⟩
  · exact ⟨_, hf.sqrt ha⟩
  · refine ⟨_, (hf.pow ha 0).congr ?_⟩
    filter_upwards [hf.not_nan] with M hM
    rw [hM]
    simp
  · exact ⟨_, hf.pow ha _⟩
  · cases e with
    | int n =>
      simp only
      split_ifs with h
      · generalize n.toNat = k
        refine ⟨a ^ k, ?_⟩
        induction k with
        | zero => simpa using CvTo.const 1
        | succ k ih =>
          simp only [List.range_succ, List.foldl_append, pow_succ]
          exact ih.mul hf
      · exact ⟨_, hf.pow ha _⟩
    | real r => exact ⟨_, hf.pow ha _⟩

theorem CvTo.fastPowerNat {f : Machine → Fl} {a : ℝ} (hf : CvTo f a) {k : ℕ} (hk : 1 ≤ k) :
    CvTo (fun M => M.fastPower (.real k) (f M)) (a ^ k) := by
  have hk' : (1:ℝ) ≤ k := by exact_mod_cast hk
  unfold Machine.fastPower
  split_ifs with h1 h2 h3 h4 h5
  · have : k = 1 := by exact_mod_cast (show (k:ℝ) = 1 from h1)
    subst this
    simpa using hf
  · have : k = 2 := by exact_mod_cast (show (k:ℝ) = 2 from h2)
    subst this
    rw [pow_two]
    exact hf.mul hf
  · exact absurd (show (k:ℝ) = 1 / 2 from h3) (by intro h; linarith)
  · exact absurd (show (k:ℝ) = 0 from h4) (by intro h; linarith)
  · exact absurd (show (k:ℝ) = -1 from h5) (by intro h; linarith)
  · exact hf.powNat k

/-! ### The statistics -/

variable (hA : ∀ i ∈ l, ¬ N i → A i ≠ 0)

theorem sum_pos_of (hne : ∃ i ∈ l, ¬ N i) {B : ι → ℝ} (hB : ∀ i ∈ l, ¬ N i → 0 < B i) :
    0 < (l.map fun i => if N i then 0 else B i).sum := by
  obtain ⟨i, hi, hN⟩ := hne
  have h0 : ∀ x ∈ (l.map fun i => if N i then 0 else B i), 0 ≤ x := by
    intro x hx
    obtain ⟨k, hk, rfl⟩ := List.mem_map.1 hx
    split_ifs with h
    · exact le_rfl
    · exact (hB k hk h).le
  refine lt_of_lt_of_le (hB i hi hN) ?_
  have := List.single_le_sum h0 (if N i then 0 else B i) (List.mem_map.2 ⟨i, hi, rfl⟩)
  rwa [if_neg hN] at this

include hA

theorem CvCol.absPower (h : CvCol l F N A) (e : Expo) :
    CvCol l (fun i M => M.fastPower e (F i M).abs) N (fun i => |A i| ^ e.val) :=
  CvCol.map (op := fun M x => M.fastPower e x.abs) (φ := fun x => |x| ^ e.val) h (fun M => M.fastPower_nan e)
    fun i hi hN hc => hc.abs.fastPower (abs_pos.2 (hA i hi hN)) e

theorem CvCol.structure (h : CvCol l F N A) (hne : ∃ i ∈ l, ¬ N i) (e : Expo) :
    ∃ b, CvTo (fun M => M.log2 (M.nanmean (((l.map fun i => F i M).map Fl.abs).map (M.fastPower e)))) b := by
  have h1 := (h.absPower hA e).nanmean hne
  have hpos := sum_pos_of hne (B := fun i => |A i| ^ e.val) fun i hi hN => Real.rpow_pos_of_pos (abs_pos.2 (hA i hi hN)) _
  refine ⟨_, (h1.log2 (div_pos hpos (by exact_mod_cast cnt_pos hne))).congr (Eventually.of_forall fun M => ?_)⟩
  rw [List.map_map, List.map_map]
  rfl

theorem CvCol.msR (h : CvCol l F N A) (hne : ∃ i ∈ l, ¬ N i) (e : Expo) :
    ∃ B : ι → ℝ, (∀ i ∈ l, ¬ N i → 0 < B i) ∧ ∃ G : ι → Machine → Fl, CvCol l G N B ∧
      ∀ M, M.msR (l.map fun i => F i M) e = l.map fun i => G i M := by
  have h1 := h.absPower hA e
  have h2 := h1.nansum
  have hpos := sum_pos_of hne (B := fun i => |A i| ^ e.val) fun i hi hN => Real.rpow_pos_of_pos (abs_pos.2 (hA i hi hN)) _
  refine ⟨fun i => |A i| ^ e.val / (l.map fun i => if N i then 0 else |A i| ^ e.val).sum,
    fun i hi hN => div_pos (Real.rpow_pos_of_pos (abs_pos.2 (hA i hi hN)) _) hpos,
    fun i M => M.div (M.fastPower e (F i M).abs) (M.nansum (l.map fun i => M.fastPower e (F i M).abs)), ?_, ?_⟩
  · intro i hi
    refine ⟨fun hN M => ?_, fun hN => ((h1 i hi).2 hN).div h2 hpos.ne'⟩
    have := (h1 i hi).1 hN M
    dsimp only at this ⊢
    rw [this, M.nan_div]
  · intro M
    unfold Machine.msR
    simp only [List.map_map]
    rfl

theorem CvCol.msV (h : CvCol l F N A) (hne : ∃ i ∈ l, ¬ N i) (e : Expo) :
    ∃ b, CvTo (fun M => M.msV (l.map fun i => F i M) e) b := by
  obtain ⟨B, hB, G, hG, eG⟩ := h.msR hA hne e
  have h1 : CvCol l (fun i M => M.mul (G i M) (M.log2 (F i M).abs)) N (fun i => B i * Real.logb 2 |A i|) := by
    intro i hi
    refine ⟨fun hN M => ?_, fun hN => ((hG i hi).2 hN).mul (((h i hi).2 hN).abs.log2 (abs_pos.2 (hA i hi hN)))⟩
    dsimp only
    rw [(hG i hi).1 hN M, M.nan_mul]
  refine ⟨_, (h1.fixedNanSum hne).congr (Eventually.of_forall fun M => ?_)⟩
  unfold Machine.msV
  rw [eG M, List.zipWith_map, List.zipWith_self]

theorem CvCol.msU (h : CvCol l F N A) (hne : ∃ i ∈ l, ¬ N i) (e : Expo) :
    ∃ b, CvTo (fun M => M.msU (countNotNaN (l.map fun i => F i M)) (l.map fun i => F i M) e) b := by
  obtain ⟨B, hB, G, hG, eG⟩ := h.msR hA hne e
  have h1 : CvCol l (fun i M => M.mul (G i M) (M.log2 (G i M))) N (fun i => B i * Real.logb 2 (B i)) :=
    CvCol.map (op := fun M x => M.mul x (M.log2 x)) (φ := fun x => x * Real.logb 2 x) hG (fun M => M.nan_mul _)
      fun i hi hN hc => hc.mul (hc.log2 (hB i hi hN))
  have hc : (0:ℝ) < cnt l N := by exact_mod_cast cnt_pos hne
  refine ⟨_, (((CvTo.const (cnt l N : ℝ)).log2 hc).add (h1.fixedNanSum hne)).congr ?_⟩
  filter_upwards [h.count] with M hM
  unfold Machine.msU
  rw [eG M, hM, List.map_map]
  rfl

theorem CvCol.hmin (h : CvCol l F N A) (hne : ∃ i ∈ l, ¬ N i) :
    ∃ b, CvTo (fun M => M.log2 (nanmax ((l.map fun i => F i M).map Fl.abs))) b := by
  have h1 : CvCol l (fun i M => (F i M).abs) N (fun i => |A i|) :=
    CvCol.map (op := fun _ x => x.abs) (φ := fun x => |x|) h (fun _ => rfl) fun i hi hN hc => hc.abs
  have key : ∀ (t : List ι) (f : Machine → Fl) (a : ℝ), 0 < a → CvTo f a → (∀ i ∈ t, CvTo (fun M => (F i M).abs) |A i|) →
      ∃ b, 0 < b ∧ CvTo (fun M => (t.map fun i => (F i M).abs).foldl Fl.max (f M)) b := by
    intro t
    induction t with
    | nil => intro f a ha hf _; exact ⟨a, ha, hf⟩
    | cons i t ih =>
      intro f a ha hf ht
      exact ih _ _ (lt_max_of_lt_left ha) (hf.max (ht i (by simp))) fun k hk => ht k (by simp [hk])
  have hmem : ∀ i ∈ (l.filter fun i => !decide (N i)), i ∈ l ∧ ¬ N i := by
    intro i hi
    rw [List.mem_filter] at hi
    exact ⟨hi.1, by simpa using hi.2⟩
  cases hl : (l.filter fun i => !decide (N i)) with
  | nil =>
    have := cnt_pos hne
    rw [cnt, hl] at this
    simp at this
  | cons i t =>
    rw [hl] at hmem
    have hi := hmem i (by simp)
    obtain ⟨b, hb, hc⟩ := key t (fun M => (F i M).abs) |A i| (abs_pos.2 (hA i hi.1 hi.2)) (((h i hi.1).2 hi.2).abs)
      fun k hk => (((h k (hmem k (by simp [hk])).1).2 (hmem k (by simp [hk])).2).abs)
    refine ⟨_, (hc.log2 hb).congr ?_⟩
    filter_upwards [h1.dropNaN] with M hM
    rw [List.map_map]
    unfold nanmax
    rw [show (l.map (Fl.abs ∘ fun i => F i M)) = l.map fun i => (F i M).abs from rfl, hM, hl]
    rfl

theorem CvCol.moment (h : CvCol l F N A) (hne : ∃ i ∈ l, ¬ N i) {k : ℕ} (hk : 1 ≤ k) :
    ∃ b, CvTo (fun M => M.cmMoment ((l.map fun i => F i M).map fun x => M.ln x.abs) k) b := by
  have h1 : CvCol l (fun i M => M.ln (F i M).abs) N (fun i => Real.log |A i|) :=
    CvCol.map (op := fun M x => M.ln x.abs) (φ := fun x => Real.log |x|) h (fun M => M.ln_nan)
      fun i hi hN hc => hc.abs.ln (abs_pos.2 (hA i hi hN))
  have h2 : CvCol l (fun i M => M.fastPower (.real k) (M.ln (F i M).abs)) N (fun i => Real.log |A i| ^ k) :=
    CvCol.map (op := fun M x => M.fastPower (.real k) x) (φ := fun x => x ^ k) h1 (fun M => M.fastPower_nan _)
      fun i hi hN hc => hc.fastPowerNat hk
  refine ⟨_, (h2.nanmean hne).congr (Eventually.of_forall fun M => ?_)⟩
  unfold Machine.cmMoment
  rw [List.map_map, List.map_map]
  rfl

omit hA in
theorem CvTo.aux {m : ℕ} {vs ms : List (Machine → Fl)} (hv : ∀ f ∈ vs, ∃ b, CvTo f b) (hm : ∀ f ∈ ms, ∃ b, CvTo f b)
    (lv : m - 1 ≤ vs.length) (lm : m - 1 ≤ ms.length) :
    ∃ b, CvTo (fun M => M.cmAux m (vs.map fun f => f M) (ms.map fun f => f M)) b := by
  unfold Machine.cmAux
  have key : ∀ k, k ≤ m - 1 → ∃ b, CvTo (fun M : Machine => (List.range k).foldl (fun aux ind_n =>
    M.add aux (M.mul (M.mul (Fl.fin ((Nat.choose (m - 1) ind_n : ℕ) : ℝ)) ((vs.map fun f => f M).getD ind_n Fl.nan))
      ((ms.map fun f => f M).getD (m - 1 - ind_n - 1) Fl.nan))) (Fl.fin 0)) b := by
    intro k
    induction k with
    | zero => exact fun _ => ⟨0, CvTo.const 0⟩
    | succ k ih =>
      intro hk
      obtain ⟨b, hb⟩ := ih (by omega)
      have k1 : k < vs.length := by omega
      have k2 : m - 1 - k - 1 < ms.length := by omega
      obtain ⟨c, hc⟩ := hv vs[k] (List.getElem_mem _)
      obtain ⟨d, hd⟩ := hm ms[m - 1 - k - 1] (List.getElem_mem _)
      refine ⟨_, (hb.add (((CvTo.const ((Nat.choose (m - 1) k : ℕ) : ℝ)).mul hc).mul hd)).congr (Eventually.of_forall fun M => ?_)⟩
      simp only [List.range_succ, List.foldl_append, List.foldl_cons, List.foldl_nil]
      congr 2
      · congr 1
        simp [List.getD, k1]
      · simp [List.getD, k2]
  exact key _ le_rfl

theorem CvCol.cumulant (h : CvCol l F N A) (hne : ∃ i ∈ l, ¬ N i) {n i : ℕ} (hi : i < n) :
    ∃ b, CvTo (fun M => (M.cmColumn ((l.map fun i => F i M).map fun x => M.ln x.abs) n).getD i Fl.nan) b := by
  have key : ∀ k, ∃ vs ms : List (Machine → Fl), vs.length = k ∧ ms.length = k ∧ (∀ f ∈ vs, ∃ b, CvTo f b) ∧
      (∀ f ∈ ms, ∃ b, CvTo f b) ∧ ∀ M : Machine, (List.range k).foldl (fun st i =>
        M.cmStep ((l.map fun i => F i M).map fun x => M.ln x.abs) st (i + 1)) ([], []) =
          (vs.map fun f => f M, ms.map fun f => f M) := by
    intro k
    induction k with
    | zero => exact ⟨[], [], rfl, rfl, by simp, by simp, fun M => rfl⟩
    | succ k ih =>
      obtain ⟨vs, ms, l1, l2, hv, hm, e⟩ := ih
      obtain ⟨b, hb⟩ := h.moment hA hne (k := k + 1) (by omega)
      have hm' : ∀ f ∈ ms ++ [fun M : Machine => M.cmMoment ((l.map fun i => F i M).map fun x => M.ln x.abs) (k + 1)], ∃ b, CvTo f b := by
        intro f hf
        rcases List.mem_append.1 hf with hf | hf
        · exact hm f hf
        · rw [List.mem_singleton.1 hf]; exact ⟨b, hb⟩
      by_cases hk : k = 0
      · refine ⟨vs ++ [fun M : Machine => M.cmMoment ((l.map fun i => F i M).map fun x => M.ln x.abs) (k + 1)],
          ms ++ [fun M : Machine => M.cmMoment ((l.map fun i => F i M).map fun x => M.ln x.abs) (k + 1)], by simp [l1],
          by simp [l2], ?_, hm', fun M => ?_⟩
        · intro f hf
          rcases List.mem_append.1 hf with hf | hf
          · exact hv f hf
          · rw [List.mem_singleton.1 hf]; exact ⟨b, hb⟩
        · rw [List.range_succ, List.foldl_append, e M]
          simp only [List.foldl_cons, List.foldl_nil, Machine.cmStep, hk, zero_add, if_true, List.map_append, List.map_cons,
            List.map_nil]
      · obtain ⟨c, hc⟩ := CvTo.aux (m := k + 1) hv hm' (by omega) (by simp [l2])
        refine ⟨vs ++ [fun M : Machine => M.sub (M.cmMoment ((l.map fun i => F i M).map fun x => M.ln x.abs) (k + 1))
            (M.cmAux (k + 1) (vs.map fun f => f M) ((ms ++ [fun M : Machine => M.cmMoment ((l.map fun i => F i M).map
              fun x => M.ln x.abs) (k + 1)]).map fun f => f M))],
          ms ++ [fun M : Machine => M.cmMoment ((l.map fun i => F i M).map fun x => M.ln x.abs) (k + 1)], by simp [l1],
          by simp [l2], ?_, hm', fun M => ?_⟩
        · intro f hf
          rcases List.mem_append.1 hf with hf | hf
          · exact hv f hf
          · rw [List.mem_singleton.1 hf]; exact ⟨_, hb.sub hc⟩
        · rw [List.range_succ, List.foldl_append, e M]
          have hk1 : ¬ (k + 1 = 1) := by omega
          simp only [List.foldl_cons, List.foldl_nil, Machine.cmStep, if_neg hk1, List.map_append, List.map_cons, List.map_nil]
  obtain ⟨vs, ms, l1, -, hv, -, e⟩ := key n
  have hi' : i < vs.length := by omega
  obtain ⟨b, hb⟩ := hv vs[i] (List.getElem_mem _)
  refine ⟨b, hb.congr (Eventually.of_forall fun M => ?_)⟩
  unfold Machine.cmColumn
  rw [e M]
  simp [List.getD, hi']

end

end MFA
