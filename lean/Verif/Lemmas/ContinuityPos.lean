import Verif.Lemmas.Continuity
import Verif.Lemmas.Spectrum

/-! The statistics of positive order, and the largest modulus, are continuous in the values of a scale, zeros included. -/

namespace MFA

open Filter Topology

noncomputable section

/-- A statistic of a column that depends continuously on its entries as long as one of them is not zero. -/
def ContPos (Y : List Fl → Fl) : Prop :=
  ∀ (c : List Fl) (xs : List ℝ), Entries c xs → (∃ x ∈ xs, x ≠ 0) → ∀ ε : ℝ, 0 < ε →
    ∃ η : ℝ, 0 < η ∧ ∀ c', List.Forall₂ (EntryClose η) c c' → FlClose ε (Y c) (Y c')

theorem contPos_of {Y : List Fl → Fl} {G : List ℝ → ℝ}
    (hY : ∀ c xs, Entries c xs → (∃ x ∈ xs, x ≠ 0) → Y c = Fl.fin (G xs))
    (hG : ∀ (n : ℕ) (v : Fin n → ℝ), (∃ i, v i ≠ 0) → ContinuousAt (fun v : Fin n → ℝ => G (List.ofFn v)) v) : ContPos Y := by
  intro c xs hc h0 ε hε
  obtain ⟨v, hv⟩ := exists_ofFn xs
  generalize xs.length = n at v hv
  subst hv
  obtain ⟨i, hi⟩ : ∃ i, v i ≠ 0 := by
    obtain ⟨x, hx, hx0⟩ := h0
    obtain ⟨i, rfl⟩ := (List.mem_ofFn' _ _).1 hx
    exact ⟨i, hx0⟩
  have e1 : ∀ᶠ v' in 𝓝 v, |G (List.ofFn v) - G (List.ofFn v')| < ε := by
    have := (hG n v ⟨i, hi⟩).eventually (Metric.ball_mem_nhds _ hε)
    filter_upwards [this] with v' h
    rwa [dist_comm, Real.dist_eq] at h
  have e2 : ∀ᶠ v' in 𝓝 v, v' i ≠ 0 := (continuous_apply i).continuousAt.eventually_ne hi
  obtain ⟨δ, hδ, hball⟩ := Metric.eventually_nhds_iff.1 (e1.and e2)
  refine ⟨δ / 2, by positivity, ?_⟩
  intro c' hcc
  obtain ⟨xs', hc', hx⟩ := hc.close hcc
  obtain ⟨v', rfl, hv'⟩ := forall₂_ofFn hx
  have hd : dist v' v < δ := by
    refine lt_of_le_of_lt ((dist_pi_le_iff (by positivity)).2 fun i => ?_) (half_lt_self hδ)
    rw [dist_comm, Real.dist_eq]; exact hv' i
  obtain ⟨h1, h2⟩ := hball hd
  exact ⟨_, _, hY c _ hc h0, hY c' _ hc' ⟨v' i, by simp [List.mem_ofFn], h2⟩, h1.le⟩

theorem powSum_ofFn (e : ℝ) {n : ℕ} (v : Fin n → ℝ) : powSum (List.ofFn v) e = ∑ i, |v i| ^ e := by
  simp [powSum, List.map_ofFn, List.sum_ofFn]

theorem continuous_absPow {e : ℝ} (he : 0 < e) {n : ℕ} (i : Fin n) : Continuous fun v : Fin n → ℝ => |v i| ^ e :=
  (continuous_abs.comp (continuous_apply i)).rpow_const fun _ => Or.inr he.le

theorem continuous_powSum {e : ℝ} (he : 0 < e) (n : ℕ) : Continuous fun v : Fin n → ℝ => powSum (List.ofFn v) e := by
  simp only [powSum_ofFn]
  exact continuous_finsetSum _ fun i _ => continuous_absPow he i

theorem powSum_ofFn_pos {e : ℝ} {n : ℕ} {v : Fin n → ℝ} (h : ∃ i, v i ≠ 0) : 0 < powSum (List.ofFn v) e := by
  obtain ⟨i, hi⟩ := h
  exact powSum_pos e ⟨v i, by simp [List.mem_ofFn], hi⟩

theorem contPos_structure {e : Expo} (he : 0 < e.val) : ContPos (fun c => (nanmean ((c.map Fl.abs).map (fastPower e))).log2) := by
  refine contPos_of (G := fun xs => Real.logb 2 (powSum xs e.val / xs.length)) (fun c xs hc hx => ?_) fun n v hv => ?_
  · have hne : xs ≠ [] := by rintro rfl; simp at hx
    have hl : (0:ℝ) < xs.length := by exact_mod_cast List.length_pos_iff.2 hne
    rw [sfMean_col hc (Or.inl he) hne, Fl.log2_fin (div_pos (powSum_pos _ hx) hl)]
  · simp only [List.length_ofFn]
    have hn : (0:ℝ) < n := by obtain ⟨i, -⟩ := hv; exact_mod_cast Fin.pos i
    exact ((continuous_powSum he n).continuousAt.div_const _).logb (div_pos (powSum_ofFn_pos hv) hn).ne'

/-- `t log t` with `t = |x|^e`. -/
theorem continuousAt_share {e : ℝ} (he : 0 < e) {n : ℕ} {v : Fin n → ℝ} (hv : ∃ i, v i ≠ 0) (i : Fin n) :
    ContinuousAt (fun v : Fin n → ℝ => |v i| ^ e / powSum (List.ofFn v) e) v :=
  (continuous_absPow he i).continuousAt.div (continuous_powSum he n).continuousAt (powSum_ofFn_pos hv).ne'

theorem contPos_U {e : Expo} (he : 0 < e.val) : ContPos (fun c => msU (countNotNaN c) c e) := by
  refine contPos_of (G := fun xs => Real.logb 2 (xs.length : ℕ) +
    (xs.map fun x => |x| ^ e.val / powSum xs e.val * Real.logb 2 (|x| ^ e.val / powSum xs e.val)).sum) (fun c xs hc hx => ?_) fun n v hv => ?_
  · have hne : xs ≠ [] := by rintro rfl; simp at hx
    have hcount : countNotNaN c = xs.length := by
      have := congrArg List.length hc
      simpa [countNotNaN, dropNaN, List.countP_eq_length_filter] using this
    rw [hcount, msU_eq hc (Or.inl he) hx (List.length_pos_iff.2 hne)]
  · simp only [List.length_ofFn, List.map_ofFn, List.sum_ofFn, Function.comp_apply]
    refine continuousAt_const.add (tendsto_finsetSum _ fun i _ => ?_)
    have h1 : ContinuousAt (fun v : Fin n → ℝ => |v i| ^ e.val / powSum (List.ofFn v) e.val * Real.log (|v i| ^ e.val / powSum (List.ofFn v) e.val)) v :=
      ContinuousAt.comp (g := fun t : ℝ => t * Real.log t) Real.continuous_mul_log.continuousAt (continuousAt_share he hv i)
    have h2 := h1.div_const (Real.log 2)
    simp only [mul_div_assoc] at h2
    exact h2

theorem contPos_V {e : Expo} (he : 0 < e.val) : ContPos (fun c => msV c e) := by
  refine contPos_of (G := fun xs => (xs.map fun x => |x| ^ e.val / powSum xs e.val * Real.logb 2 |x|).sum)
    (fun c xs hc hx => msV_eq hc (Or.inl he) hx) fun n v hv => ?_
  simp only [List.map_ofFn, List.sum_ofFn, Function.comp_apply]
  refine tendsto_finsetSum _ fun i _ => ?_
  have h1 : ContinuousAt (fun v : Fin n → ℝ => |v i| ^ e.val * Real.log (|v i| ^ e.val)) v :=
    (Real.continuous_mul_log.comp (continuous_absPow he i)).continuousAt
  have h2 := ((h1.div (continuous_powSum he n).continuousAt (powSum_ofFn_pos hv).ne').div_const (e.val * Real.log 2))
  have e3 : (fun v : Fin n → ℝ => |v i| ^ e.val / powSum (List.ofFn v) e.val * Real.logb 2 |v i|) =
      fun v : Fin n → ℝ => |v i| ^ e.val * Real.log (|v i| ^ e.val) / powSum (List.ofFn v) e.val / (e.val * Real.log 2) := by
    funext v
    by_cases h0 : v i = 0
    · rw [h0, abs_zero, Real.zero_rpow he.ne']; simp
    · rw [Real.log_rpow (abs_pos.2 h0), Real.logb]
      have := he.ne'
      field_simp
  show ContinuousAt (fun v : Fin n → ℝ => |v i| ^ e.val / powSum (List.ofFn v) e.val * Real.logb 2 |v i|) v
  rw [e3]
  exact h2

theorem contPos_hmin : ContPos (fun c => (nanmax (c.map Fl.abs)).log2) := by
  intro c xs hc hex ε hε
  obtain ⟨x0, hx0, hne0⟩ := hex
  obtain ⟨M, hM, ⟨x, hx, hxM⟩, hle⟩ := nanmax_abs hc (List.ne_nil_of_mem hx0)
  have hM0 : 0 < M := lt_of_lt_of_le (abs_pos.2 hne0) (hle x0 hx0)
  have hcont : ContinuousAt (Real.logb 2) M := Real.continuousAt_logb hM0.ne'
  obtain ⟨δ, hδ, hd⟩ := Metric.continuousAt_iff.1 hcont ε hε
  refine ⟨min (δ / 2) (M / 2), by positivity, fun c' hcc => ?_⟩
  obtain ⟨xs', hc', hxx⟩ := hc.close hcc
  obtain ⟨x', hx', hxx'⟩ := forall₂_mem hxx hx
  obtain ⟨M', hM', ⟨y', hy', hyM⟩, hle'⟩ := nanmax_abs hc' (List.ne_nil_of_mem hx')
  obtain ⟨y, hy, hyy⟩ := forall₂_mem' hxx hy'
  have b1 : M - M' ≤ min (δ / 2) (M / 2) := by
    have := hle' x' hx'
    have := abs_sub_abs_le_abs_sub x x'
    linarith
  have b2 : M' - M ≤ min (δ / 2) (M / 2) := by
    have := hle y hy
    have := abs_sub_abs_le_abs_sub y' y
    rw [abs_sub_comm] at this
    linarith
  have hM'0 : 0 < M' := by have := min_le_right (δ / 2) (M / 2); linarith
  refine ⟨_, _, (congrArg Fl.log2 hM).trans (Fl.log2_fin hM0), (congrArg Fl.log2 hM').trans (Fl.log2_fin hM'0), ?_⟩
  have hdist : dist M' M < δ := by
    rw [Real.dist_eq, abs_lt]
    have := min_le_left (δ / 2) (M / 2)
    constructor <;> linarith
  have := hd hdist
  rw [Real.dist_eq, abs_sub_comm] at this
  exact this.le

end

end MFA
