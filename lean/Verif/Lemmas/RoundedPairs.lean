import Verif.Lemmas.RoundedBivariate
import Verif.Lemmas.BiContinuity
import Verif.Props.BiContinuity
import Verif.Props.Rounding

/-! Convergence of the rounded bivariate statistics. -/

namespace MFA

open Classical Filter Topology

noncomputable section

variable {ι : Type}

/-- An operation on two columns. -/
theorem CvCol.pair {l : List ι} {F1 F2 : ι → Machine → Fl} {N1 N2 : ι → Prop} {A1 A2 : ι → ℝ} (h1 : CvCol l F1 N1 A1) (h2 : CvCol l F2 N2 A2)
    {op : Machine → Fl → Fl → Fl} {φ : ℝ → ℝ → ℝ} (hn : ∀ M x, op M Fl.nan x = Fl.nan) (hn' : ∀ M x, op M x Fl.nan = Fl.nan)
    (hop : ∀ i ∈ l, ¬ N1 i → ¬ N2 i → CvTo (F1 i) (A1 i) → CvTo (F2 i) (A2 i) → CvTo (fun M => op M (F1 i M) (F2 i M)) (φ (A1 i) (A2 i))) :
    CvCol l (fun i M => op M (F1 i M) (F2 i M)) (fun i => N1 i ∨ N2 i) (fun i => φ (A1 i) (A2 i)) := by
  intro i hi
  refine ⟨?_, fun hN => ?_⟩
  · rintro (hN | hN) M
    · show op M (F1 i M) (F2 i M) = Fl.nan
      rw [(h1 i hi).1 hN, hn]
    · show op M (F1 i M) (F2 i M) = Fl.nan
      rw [(h2 i hi).1 hN, hn']
  · rw [not_or] at hN
    exact hop i hi hN.1 hN.2 ((h1 i hi).2 hN.1) ((h2 i hi).2 hN.2)

theorem CvTo.fastPowerAny {f : Machine → Fl} {a : ℝ} (hf : CvTo f a) (k : ℕ) : CvTo (fun M => M.fastPower (.real k) (f M)) (a ^ k) := by
  rcases Nat.eq_zero_or_pos k with rfl | hk
  · refine (hf.powNat 0).congr ?_
    filter_upwards [hf.not_nan] with M hM
    unfold Machine.fastPower
    simp only [Expo.val, Nat.cast_zero, zero_ne_one, if_false, hM]
    norm_num
  · exact hf.fastPowerNat hk

section
variable {l : List ι} {F1 F2 : ι → Machine → Fl} {N1 N2 : ι → Prop} {A1 A2 : ι → ℝ} (h1 : CvCol l F1 N1 A1) (h2 : CvCol l F2 N2 A2)
  (z1 : ∀ i ∈ l, ¬ N1 i → A1 i ≠ 0) (z2 : ∀ i ∈ l, ¬ N2 i → A2 i ≠ 0) (hne : ∃ i ∈ l, ¬ (N1 i ∨ N2 i))
include h1 h2 z1 z2 hne

theorem CvCol.bsLog (e1 e2 : ℝ) : ∃ b, CvTo (fun M => M.log2 (M.bsAbsMean (l.map fun i => (F1 i M, F2 i M)) (.real e1) (.real e2))) b := by
  have h := h1.pair h2 (op := fun M x y => M.mul (M.fastPower (.real e1) x.abs) (M.fastPower (.real e2) y.abs))
    (φ := fun a b => |a| ^ e1 * |b| ^ e2) (fun M x => by
      show M.mul (M.fastPower _ Fl.nan) _ = _
      rw [M.fastPower_nan, M.nan_mul]) (fun M x => by
      show M.mul _ (M.fastPower _ Fl.nan) = _
      rw [M.fastPower_nan, M.mul_nan])
    (fun i hi n1 n2 c1 c2 => (c1.abs.fastPower (abs_pos.2 (z1 i hi n1)) (.real e1)).mul (c2.abs.fastPower (abs_pos.2 (z2 i hi n2)) (.real e2)))
  have hpos := sum_pos_of hne (B := fun i => |A1 i| ^ e1 * |A2 i| ^ e2) fun i hi hN => by
    rw [not_or] at hN
    exact mul_pos (Real.rpow_pos_of_pos (abs_pos.2 (z1 i hi hN.1)) _) (Real.rpow_pos_of_pos (abs_pos.2 (z2 i hi hN.2)) _)
  refine ⟨_, ((h.nanmean hne).log2 (div_pos hpos (by exact_mod_cast cnt_pos hne))).congr (Eventually.of_forall fun M => ?_)⟩
  unfold Machine.bsAbsMean
  rw [List.map_map]
  rfl

omit z1 z2 in
theorem CvCol.bsMean (a b : ℕ) : CvTo (fun M => M.bsMean (l.map fun i => (F1 i M, F2 i M)) (.real a) (.real b))
    ((l.map fun i => @ite ℝ (N1 i ∨ N2 i) (propDecidable (N1 i ∨ N2 i)) 0 (A1 i ^ a * A2 i ^ b)).sum / (cnt l fun i => N1 i ∨ N2 i)) := by
  have h := h1.pair h2 (op := fun M x y => M.mul (M.fastPower (.real a) x) (M.fastPower (.real b) y))
    (φ := fun x y => x ^ a * y ^ b) (fun M x => by
      show M.mul (M.fastPower _ Fl.nan) _ = _
      rw [M.fastPower_nan, M.nan_mul]) (fun M x => by
      show M.mul _ (M.fastPower _ Fl.nan) = _
      rw [M.fastPower_nan, M.mul_nan])
    (fun i hi n1 n2 c1 c2 => (c1.fastPowerAny a).mul (c2.fastPowerAny b))
  refine (h.nanmean hne).congr (Eventually.of_forall fun M => ?_)
  unfold Machine.bsMean
  rw [List.map_map]
  rfl

theorem CvCol.coh : ∃ b, CvTo (fun M => M.cohOf (l.map fun i => (F1 i M, F2 i M))) b := by
  have c11 := h1.bsMean h2 hne 1 1
  have c20 := h1.bsMean h2 hne 2 0
  have c02 := h1.bsMean h2 hne 0 2
  have p20 := sum_pos_of hne (B := fun i => A1 i ^ 2 * A2 i ^ 0) fun i hi hN => by
    rw [not_or] at hN
    have := z1 i hi hN.1
    positivity
  have p02 := sum_pos_of hne (B := fun i => A1 i ^ 0 * A2 i ^ 2) fun i hi hN => by
    rw [not_or] at hN
    have := z2 i hi hN.2
    positivity
  have hc : (0:ℝ) < cnt l fun i => N1 i ∨ N2 i := by exact_mod_cast cnt_pos hne
  have hp := mul_pos (div_pos p20 hc) (div_pos p02 hc)
  refine ⟨_, (c11.div ((c20.mul c02).sqrt hp) (Real.sqrt_pos.2 hp).ne').congr (Eventually.of_forall fun M => ?_)⟩
  unfold Machine.cohOf
  norm_num

theorem CvCol.bcMoment (a b : ℕ) : ∃ c, CvTo (fun M => M.bcMoment (M.logPairs (l.map fun i => (F1 i M, F2 i M))) a b) c := by
  have h := h1.pair h2 (op := fun M x y => M.mul (M.fastPower (.real a) (M.ln x.abs)) (M.fastPower (.real b) (M.ln y.abs)))
    (φ := fun x y => Real.log |x| ^ a * Real.log |y| ^ b) (fun M x => by
      show M.mul (M.fastPower _ (M.ln Fl.nan)) _ = _
      rw [M.ln_nan, M.fastPower_nan, M.nan_mul]) (fun M x => by
      show M.mul _ (M.fastPower _ (M.ln Fl.nan)) = _
      rw [M.ln_nan, M.fastPower_nan, M.mul_nan])
    (fun i hi n1 n2 c1 c2 => ((c1.abs.ln (abs_pos.2 (z1 i hi n1))).fastPowerAny a).mul ((c2.abs.ln (abs_pos.2 (z2 i hi n2))).fastPowerAny b))
  refine ⟨_, (h.nanmean hne).congr (Eventually.of_forall fun M => ?_)⟩
  unfold Machine.bcMoment Machine.logPairs
  rw [List.map_map, List.map_map]
  rfl

/-- All entries of a table of computed values converge. -/
def CvTable (T : Machine → BiTable) : Prop :=
  (∀ a b, ∃ c, CvTo (fun M => (T M).moments a b) c) ∧ ∀ a b, ∃ c, CvTo (fun M => (T M).values a b) c

omit h1 h2 z1 z2 hne in
theorem CvTo.upd2 {f : Machine → ℕ → ℕ → Fl} (hf : ∀ a b, ∃ c, CvTo (fun M => f M a b) c) {x : Machine → Fl} (hx : ∃ c, CvTo x c) (a b i k : ℕ) :
    ∃ c, CvTo (fun M => MFA.upd2 (f M) a b (x M) i k) c := by
  unfold MFA.upd2
  by_cases h : i = a ∧ k = b
  · simp only [if_pos h]; exact hx
  · simp only [if_neg h]; exact hf i k

omit h1 h2 z1 z2 hne in
theorem CvTo.bcAux {v w : Machine → ℕ → Fl} (hv : ∀ n, ∃ c, CvTo (fun M => v M n) c) (hw : ∀ n, ∃ c, CvTo (fun M => w M n) c) (m : ℕ) :
    ∃ c, CvTo (fun M => M.bcAux m (v M) (w M)) c := by
  unfold Machine.bcAux
  have key : ∀ k, ∃ b, CvTo (fun M : Machine => (List.range k).foldl (fun aux ind_n =>
      M.add aux (M.mul (M.mul (Fl.fin ((Nat.choose (m - 1) ind_n : ℕ) : ℝ)) (v M (ind_n + 1))) (w M (m - ind_n - 1)))) (Fl.fin 0)) b := by
    intro k
    induction k with
    | zero => exact ⟨0, CvTo.const 0⟩
    | succ k ih =>
      obtain ⟨b, hb⟩ := ih
      obtain ⟨c, hc⟩ := hv (k + 1)
      obtain ⟨d, hd⟩ := hw (m - k - 1)
      simp only [List.range_succ, List.foldl_append, List.foldl_cons, List.foldl_nil]
      exact ⟨_, hb.add (((CvTo.const _).mul hc).mul hd)⟩
  exact key _

theorem CvCol.bcTable (n : ℕ) : CvTable fun M => M.bcTable (M.logPairs (l.map fun i => (F1 i M, F2 i M))) n := by
  have step : ∀ (T : Machine → BiTable) (m : ℕ × ℕ), CvTable T →
      CvTable fun M => M.bcStep (M.logPairs (l.map fun i => (F1 i M, F2 i M))) (T M) m := by
    intro T m hT
    have hmom := h1.bcMoment h2 z1 z2 hne m.1 m.2
    have hM := fun a b => CvTo.upd2 hT.1 hmom m.1 m.2 a b
    unfold Machine.bcStep
    by_cases c1 : m.1 = 1 ∧ m.2 = 1
    · simp only [if_pos c1]
      refine ⟨hM, fun a b => CvTo.upd2 hT.2 ?_ _ _ a b⟩
      obtain ⟨x, hx⟩ := hmom
      obtain ⟨y, hy⟩ := hT.2 m.1 0
      obtain ⟨z, hz⟩ := hT.2 0 m.2
      exact ⟨_, hx.sub (hy.mul hz)⟩
    simp only [if_neg c1]
    by_cases c2 : m.1 + m.2 = 1
    · simp only [if_pos c2]
      exact ⟨hM, fun a b => CvTo.upd2 hT.2 (hM _ _) _ _ a b⟩
    simp only [if_neg c2]
    by_cases c3 : Xor (m.1 = 0) (m.2 = 0)
    · simp only [if_pos c3]
      refine ⟨hM, fun a b => CvTo.upd2 hT.2 ?_ _ _ a b⟩
      obtain ⟨x, hx⟩ := hM m.1 m.2
      by_cases c4 : m.1 = 0
      · simp only [if_pos c4]
        obtain ⟨y, hy⟩ := CvTo.bcAux (fun n => hT.2 m.1 n) (fun n => hM m.1 n) m.2
        exact ⟨_, hx.sub hy⟩
      · simp only [if_neg c4]
        obtain ⟨y, hy⟩ := CvTo.bcAux (fun n => hT.2 n m.2) (fun n => hM n m.2) m.1
        exact ⟨_, hx.sub hy⟩
    · simp only [if_neg c3]
      exact ⟨hM, hT.2⟩
  have fold : ∀ (o : List (ℕ × ℕ)) (T : Machine → BiTable), CvTable T →
      CvTable fun M => o.foldl (M.bcStep (M.logPairs (l.map fun i => (F1 i M, F2 i M)))) (T M) := by
    intro o
    induction o with
    | nil => intro T hT; exact hT
    | cons m o ih => intro T hT; exact ih _ (step T m hT)
  exact fold _ (fun _ => { moments := fun _ _ => Fl.fin 0, values := fun _ _ => Fl.fin 0 }) ⟨fun _ _ => ⟨0, CvTo.const 0⟩, fun _ _ => ⟨0, CvTo.const 0⟩⟩

end

/-! ### Pairs of quantities -/

section
variable {f1 f2 : FMrq 1} {J : ℕ}

/-- The scales of two computed quantities, side by side. -/
def fList (f1 f2 : FMrq 1) : List ((ℤ × FArr 1) × (ℤ × FArr 1)) := f1.base.zip f2.base

/-- One scale of two computed quantities, on a machine. -/
def fAt (M : Machine) (b : (ℤ × FArr 1) × (ℤ × FArr 1)) : (ℤ × Arr 1) × (ℤ × Arr 1) := ((b.1.1, b.1.2.at M), (b.2.1, b.2.2.at M))

theorem biList_at (M : Machine) : biList (f1.at M) (f2.at M) = (fList f1 f2).map (fAt M) := by
  unfold biList fList FMrq.at
  simp only [List.zip_map]
  rfl

theorem biPairs_fAt (M : Machine) (b : (ℤ × FArr 1) × (ℤ × FArr 1)) :
    biPairs (fAt M b) = (b.1.2.zip b.2.2).map fun i => (i.1 0 M, i.2 0 M) := by
  unfold biPairs fAt
  simp only [col_at, List.zip_map]
  rfl

theorem FMrq.Good.paired (g1 : f1.Good J) (g2 : f2.Good J) (hp : Paired (f1.at Machine.exact) (f2.at Machine.exact) J) (M : Machine) :
    Paired (f1.at M) (f2.at M) J := by
  have hn : ∀ {f : FMrq 1}, f.Good J → (f.at M).nj = (f.at Machine.exact).nj := by
    intro f g
    refine List.map_congr_left fun p hp => ?_
    rw [Prod.mk.injEq]
    exact ⟨rfl, funext fun r => (g.cv p hp).count M Machine.exact r⟩
  refine ⟨f1.regular g1.keys M, f2.regular g2.keys M, hp.formalism, hp.gamint, by rw [hn g1, hn g2, hp.nj], ?_⟩
  have := hp.rows
  unfold FMrq.at at this ⊢
  simp only [List.forall₂_map_left_iff, List.forall₂_map_right_iff, FArr.at, List.length_map] at this ⊢
  exact this

theorem cvCol_map {κ : Type} {l : List κ} {g : κ → ι} {l' : List ι} {F : ι → Machine → Fl} {N : ι → Prop} {A : ι → ℝ} (h : CvCol l' F N A)
    (hg : ∀ i ∈ l, g i ∈ l') : CvCol l (fun i => F (g i)) (fun i => N (g i)) (fun i => A (g i)) := fun i hi => h _ (hg i hi)

section
variable (g1 : f1.Good J) (g2 : f2.Good J) (hp : Paired (f1.at Machine.exact) (f2.at Machine.exact) J)
  (hs : SameNaN (f1.at Machine.exact) (f2.at Machine.exact))
include g1 g2 hp hs

/-- The two columns at one scale. -/
theorem pair_cols {b : (ℤ × FArr 1) × (ℤ × FArr 1)} (hb : b ∈ fList f1 f2) :
    ∃ (F1 F2 : (Fin 1 → Machine → Fl) × (Fin 1 → Machine → Fl) → Machine → Fl) (N1 N2 : (Fin 1 → Machine → Fl) × (Fin 1 → Machine → Fl) → Prop)
      (A1 A2 : (Fin 1 → Machine → Fl) × (Fin 1 → Machine → Fl) → ℝ),
      CvCol (b.1.2.zip b.2.2) F1 N1 A1 ∧ CvCol (b.1.2.zip b.2.2) F2 N2 A2 ∧ (∀ i ∈ b.1.2.zip b.2.2, ¬ N1 i → A1 i ≠ 0) ∧
      (∀ i ∈ b.1.2.zip b.2.2, ¬ N2 i → A2 i ≠ 0) ∧ (∃ i ∈ b.1.2.zip b.2.2, ¬ (N1 i ∨ N2 i)) ∧
      ∀ M, biPairs (fAt M b) = (b.1.2.zip b.2.2).map fun i => (F1 i M, F2 i M) := by
  obtain ⟨b1, b2⟩ := List.of_mem_zip (show (b.1, b.2) ∈ f1.base.zip f2.base from hb)
  have m1 : ∀ i ∈ b.1.2.zip b.2.2, i.1 ∈ b.1.2 := fun i hi => (List.of_mem_zip (show (i.1, i.2) ∈ _ from hi)).1
  have m2 : ∀ i ∈ b.1.2.zip b.2.2, i.2 ∈ b.2.2 := fun i hi => (List.of_mem_zip (show (i.1, i.2) ∈ _ from hi)).2
  have hq : fAt Machine.exact b ∈ biList (f1.at Machine.exact) (f2.at Machine.exact) := by
    rw [biList_at]; exact List.mem_map_of_mem hb
  obtain ⟨zs, hJ, hzne, -⟩ := scale_pairs hp hs g1.nonzero g2.nonzero hq
  refine ⟨fun i => i.1 0, fun i => i.2 0, fun i => ∀ M, i.1 0 M = Fl.nan, fun i => ∀ M, i.2 0 M = Fl.nan, fun i => limE (i.1 0), fun i => limE (i.2 0),
    cvCol_map ((g1.cv _ b1).cvCol 0) m1, cvCol_map ((g2.cv _ b2).cvCol 0) m2, fun i hi hN => (g1.some b1 0).2 _ (m1 i hi) hN,
    fun i hi hN => (g2.some b2 0).2 _ (m2 i hi) hN, ?_, fun M => biPairs_fAt M b⟩
  have hne : (biPairs (fAt Machine.exact b)).filter (fun p => !p.1.isNaN && !p.2.isNaN) ≠ [] := by
    rw [hJ]; simpa using hzne
  obtain ⟨p, hpm⟩ := List.exists_mem_of_ne_nil _ hne
  obtain ⟨hpm, hpn⟩ := List.mem_filter.1 hpm
  rw [biPairs_fAt] at hpm
  obtain ⟨i, hi, rfl⟩ := List.mem_map.1 hpm
  refine ⟨i, hi, ?_⟩
  rintro (h | h)
  · rw [h] at hpn; simp at hpn
  · rw [h] at hpn; simp at hpn

theorem pair_bsLog (e1 e2 : ℝ) {b : (ℤ × FArr 1) × (ℤ × FArr 1)} (hb : b ∈ fList f1 f2) : ∃ c, CvTo (fun M => M.bsLog e1 e2 (fAt M b)) c := by
  obtain ⟨F1, F2, N1, N2, A1, A2, c1, c2, z1, z2, hne, e⟩ := pair_cols g1 g2 hp hs hb
  obtain ⟨c, hc⟩ := c1.bsLog c2 z1 z2 hne e1 e2
  exact ⟨c, hc.congr (Eventually.of_forall fun M => by unfold Machine.bsLog; rw [e])⟩

theorem pair_coh {b : (ℤ × FArr 1) × (ℤ × FArr 1)} (hb : b ∈ fList f1 f2) : ∃ c, CvTo (fun M => M.cohOf (biPairs (fAt M b))) c := by
  obtain ⟨F1, F2, N1, N2, A1, A2, c1, c2, z1, z2, hne, e⟩ := pair_cols g1 g2 hp hs hb
  obtain ⟨c, hc⟩ := c1.coh c2 z1 z2 hne
  exact ⟨c, hc.congr (Eventually.of_forall fun M => by rw [e])⟩

theorem pair_bcAt (n a k : ℕ) {b : (ℤ × FArr 1) × (ℤ × FArr 1)} (hb : b ∈ fList f1 f2) : ∃ c, CvTo (fun M => M.bcAt n a k (fAt M b)) c := by
  obtain ⟨F1, F2, N1, N2, A1, A2, c1, c2, z1, z2, hne, e⟩ := pair_cols g1 g2 hp hs hb
  obtain ⟨c, hc⟩ := (c1.bcTable c2 z1 z2 hne n).2 a k
  exact ⟨c, hc.congr (Eventually.of_forall fun M => by unfold Machine.bcAt; rw [e])⟩

omit g2 hs in
theorem pair_slope {j1 j2 : ℕ} (h1 : 1 ≤ j1) (h12 : j1 < j2) (h2 : j2 ≤ J) (weighted : Bool)
    {Y : Machine → (ℤ × Arr 1) × (ℤ × Arr 1) → Fl} (hY : ∀ b ∈ fList f1 f2, ∃ c, CvTo (fun M => Y M (fAt M b)) c) :
    ∃ c, CvTo (fun M => M.biSlope (f1.at M) (f2.at M) j1 j2 weighted (Y M)) c := by
  have a1 : (1:ℤ) ≤ (j1 : ℤ) := by exact_mod_cast h1
  have a2 : (j1 : ℤ) < (j2 : ℤ) := by exact_mod_cast h12
  have a3 : (j2 : ℤ) ≤ (J : ℤ) := by exact_mod_cast h2
  have hsub : ∀ M, biSub (f1.at M) (f2.at M) j1 j2 = (pySlice (fList f1 f2) ((j1 : ℤ) - 1) j2).map (fAt M) := by
    intro M
    rw [biSub, biList_at, pySlice_map]
  have hmem : ∀ b ∈ pySlice (fList f1 f2) ((j1 : ℤ) - 1) j2, b ∈ fList f1 f2 := by
    intro b hb
    exact List.mem_of_mem_take (List.mem_of_mem_drop hb)
  have hbase : ∀ b ∈ pySlice (fList f1 f2) ((j1 : ℤ) - 1) j2, b.1 ∈ f1.base := fun b hb =>
    (List.of_mem_zip (show (b.1, b.2) ∈ f1.base.zip f2.base from hmem b hb)).1
  have := CvTo.slope (l := pySlice (fList f1 f2) ((j1 : ℤ) - 1) j2) (x := fun b => (b.1.1 : ℝ))
    (w := fun b => wtOf weighted (b.1.1, b.1.2.at Machine.exact) 0) (y := fun b M => Y M (fAt M b)) ?_ ?_ ?_
  · obtain ⟨c, hc⟩ := this
    refine ⟨c, hc.congr (Eventually.of_forall fun M => ?_)⟩
    rw [Machine.biSlope, hsub M]
    unfold Machine.slopeL
    simp only [List.map_map]
    congr 2
    refine List.map_congr_left fun b hb => ?_
    show Fl.fin (wtOf weighted (b.1.1, b.1.2.at M) 0) = _
    unfold wtOf
    dsimp only
    rw [(g1.cv b.1 (hbase b hb)).count M Machine.exact 0]
  · intro b hb
    unfold wtOf
    split_ifs
    · obtain ⟨⟨x, hx, hne⟩, -⟩ := g1.nonzero (b.1.1, b.1.2.at Machine.exact) (List.mem_map.2 ⟨b.1, hbase b hb, rfl⟩) 0
      exact_mod_cast countNotNaN_pos ⟨x, hx, hne⟩
    · exact one_pos
  · obtain ⟨p, hpm, p', hpm', hne⟩ := (f1.regular g1.keys Machine.exact).sub_two a1 a2.le a3 a2
    rw [hp.sub_fst, hsub, List.map_map] at hpm hpm'
    obtain ⟨p0, hp0, rfl⟩ := List.mem_map.1 hpm
    obtain ⟨p1, hp1, rfl⟩ := List.mem_map.1 hpm'
    exact ⟨p0, hp0, p1, hp1, hne⟩
  · intro b hb
    exact hY b (hmem b hb)

end

end

end

end MFA
