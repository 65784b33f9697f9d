import Verif.Spec.Close
import Verif.Lemmas.Typical
import Verif.Lemmas.RegBound
import Verif.Lemmas.Reductions

/-! The statistics of a scale are continuous in its values, and the slope of a regression in its ordinates. -/

namespace MFA

open Filter Topology

noncomputable section

/-- The entries of a column that is close to a column with entries `xs`. -/
theorem Entries.close {η : ℝ} {c c' : List Fl} (h : List.Forall₂ (EntryClose η) c c') : ∀ {xs : List ℝ}, Entries c xs →
    ∃ xs', Entries c' xs' ∧ List.Forall₂ (fun s t : ℝ => |s - t| ≤ η) xs xs' := by
  induction h with
  | nil => intro xs hx; exact ⟨[], rfl, by have : xs = [] := by simpa [Entries, dropNaN] using hx.symm
                                           rw [this]; exact .nil⟩
  | @cons a b c c' hab hcc ih =>
    intro xs hx
    rcases hab with ⟨rfl, rfl⟩ | ⟨s, t, rfl, rfl, hst⟩
    · obtain ⟨xs', h1, h2⟩ := ih (xs := xs) (by simpa [Entries, dropNaN] using hx)
      exact ⟨xs', by simpa [Entries, dropNaN] using h1, h2⟩
    · cases xs with
      | nil => simp [Entries, dropNaN] at hx
      | cons x xs =>
        have hx' : Fl.fin s = Fl.fin x ∧ dropNaN c = xs.map Fl.fin := by simpa [Entries, dropNaN] using hx
        obtain ⟨xs', h1, h2⟩ := ih (xs := xs) hx'.2
        have hs : s = x := (Fl.fin_inj _ _).1 hx'.1
        refine ⟨t :: xs', ?_, .cons (hs ▸ hst) h2⟩
        have h1' : dropNaN c' = xs'.map Fl.fin := h1
        simp [Entries, dropNaN] at h1' ⊢
        exact h1'

theorem exists_ofFn (xs : List ℝ) : ∃ v : Fin xs.length → ℝ, xs = List.ofFn v :=
  ⟨fun i => xs[i], by simp⟩

theorem forall₂_ofFn {η : ℝ} {n : ℕ} {v : Fin n → ℝ} {xs' : List ℝ}
    (h : List.Forall₂ (fun s t : ℝ => |s - t| ≤ η) (List.ofFn v) xs') : ∃ v' : Fin n → ℝ, xs' = List.ofFn v' ∧ ∀ i, |v i - v' i| ≤ η := by
  have hl := h.length_eq
  rw [List.length_ofFn] at hl
  refine ⟨fun i => xs'[i], ?_, fun i => ?_⟩
  · subst hl; simp
  · have := (List.forall₂_iff_get.1 h).2 i (by simp) (by omega)
    simpa using this

/-- A statistic of a column that depends continuously on its entries as long as none is zero. -/
def ContStat (Y : List Fl → Fl) : Prop :=
  ∀ (c : List Fl) (xs : List ℝ), Entries c xs → xs ≠ [] → (∀ x ∈ xs, x ≠ 0) → ∀ ε : ℝ, 0 < ε →
    ∃ η : ℝ, 0 < η ∧ ∀ c', List.Forall₂ (EntryClose η) c c' → FlClose ε (Y c) (Y c')

theorem contStat_of {Y : List Fl → Fl} {G : List ℝ → ℝ}
    (hY : ∀ c xs, Entries c xs → xs ≠ [] → (∀ x ∈ xs, x ≠ 0) → Y c = Fl.fin (G xs))
    (hG : ∀ (n : ℕ) (v : Fin n → ℝ), 0 < n → (∀ i, v i ≠ 0) → ContinuousAt (fun v : Fin n → ℝ => G (List.ofFn v)) v) : ContStat Y := by
  intro c xs hc hne h0 ε hε
  obtain ⟨v, hv⟩ := exists_ofFn xs
  have hn : 0 < xs.length := List.length_pos_iff.2 hne
  generalize xs.length = n at v hv hn
  subst hv
  have hv0 : ∀ i, v i ≠ 0 := fun i => h0 _ (by simp [List.mem_ofFn])
  have e1 : ∀ᶠ v' in 𝓝 v, |G (List.ofFn v) - G (List.ofFn v')| < ε := by
    have := (hG n v hn hv0).eventually (Metric.ball_mem_nhds _ hε)
    filter_upwards [this] with v' h
    rwa [dist_comm, Real.dist_eq] at h
  have e2 : ∀ᶠ v' in 𝓝 v, ∀ i, v' i ≠ 0 :=
    eventually_all.2 fun i => (continuous_apply i).continuousAt.eventually_ne (hv0 i)
  obtain ⟨δ, hδ, hball⟩ := Metric.eventually_nhds_iff.1 (e1.and e2)
  refine ⟨δ / 2, by positivity, ?_⟩
  intro c' hcc
  obtain ⟨xs', hc', hx⟩ := hc.close hcc
  obtain ⟨v', rfl, hv'⟩ := forall₂_ofFn hx
  have hd : dist v' v < δ := by
    refine lt_of_le_of_lt ((dist_pi_le_iff (by positivity)).2 fun i => ?_) (half_lt_self hδ)
    rw [dist_comm, Real.dist_eq]; exact hv' i
  obtain ⟨h1, h2⟩ := hball hd
  refine ⟨_, _, hY c _ hc hne h0, hY c' _ hc' ?_ ?_, h1.le⟩
  · rw [← List.length_pos_iff, List.length_ofFn]; exact hn
  · intro x hx
    obtain ⟨i, rfl⟩ := (List.mem_ofFn' _ _).1 hx
    exact h2 i

theorem continuousAt_tmean (q : ℝ) (k : ℕ) {n : ℕ} {v : Fin n → ℝ} (hv : ∀ i, v i ≠ 0) :
    ContinuousAt (fun v : Fin n → ℝ => tmean q k (1, List.ofFn v)) v := by
  unfold tmean testF
  simp only [div_one, List.map_ofFn, List.sum_ofFn, List.length_ofFn, Function.comp_apply]
  refine ContinuousAt.div_const ?_ _
  refine tendsto_finsetSum _ fun i _ => ?_
  have hc : ContinuousAt (fun v : Fin n → ℝ => |v i|) v := (continuous_abs.comp (continuous_apply i)).continuousAt
  have h0 : |v i| ≠ 0 := abs_ne_zero.2 (hv i)
  exact (hc.rpow_const (Or.inl h0)).mul ((hc.log h0).pow k)

theorem tmean_ofFn_pos (q : ℝ) {n : ℕ} (hn : 0 < n) {v : Fin n → ℝ} (hv : ∀ i, v i ≠ 0) : 0 < tmean q 0 (1, List.ofFn v) := by
  unfold tmean testF
  simp only [div_one, List.map_ofFn, List.sum_ofFn, List.length_ofFn, Function.comp_apply, pow_zero, mul_one]
  refine div_pos (Finset.sum_pos (fun i _ => Real.rpow_pos_of_pos (abs_pos.2 (hv i)) _) ⟨⟨0, hn⟩, Finset.mem_univ _⟩) (by exact_mod_cast hn)

theorem Statistic.cont {Y : List Fl → Fl} {α : ℝ} {G : ℝ × List ℝ → ℝ} (h : Statistic Y α G)
    (hG : ∀ (n : ℕ) (v : Fin n → ℝ), 0 < n → (∀ i, v i ≠ 0) → ContinuousAt (fun v : Fin n → ℝ => G (1, List.ofFn v)) v) : ContStat Y := by
  refine contStat_of (G := fun xs => G (1, xs)) (fun c xs hc hne h0 => ?_) hG
  rw [h (1, xs) c hc one_pos hne h0]
  simp

theorem cont_structure (e : Expo) : ContStat (fun c => (nanmean ((c.map Fl.abs).map (fastPower e))).log2) := by
  refine (stat_structure e).cont fun n v hn hv => ?_
  exact (continuousAt_tmean _ _ hv).logb (tmean_ofFn_pos _ hn hv).ne'

theorem cont_V (e : Expo) : ContStat (fun c => msV c e) := by
  refine (stat_V e).cont fun n v hn hv => ?_
  exact ((continuousAt_tmean _ _ hv).div (continuousAt_tmean _ _ hv) (tmean_ofFn_pos _ hn hv).ne').div_const _

theorem cont_U (e : Expo) : ContStat (fun c => msU (countNotNaN c) c e) := by
  refine (stat_U e).cont fun n v hn hv => ?_
  exact (((((continuousAt_tmean _ _ hv).div (continuousAt_tmean _ _ hv) (tmean_ofFn_pos _ hn hv).ne').div_const _)).const_mul _).sub
    ((continuousAt_tmean _ _ hv).logb (tmean_ofFn_pos _ hn hv).ne')

theorem continuousAt_kap {n : ℕ} {v : Fin n → ℝ} (hn : 0 < n) (hv : ∀ i, v i ≠ 0) : ∀ k : ℕ,
    ContinuousAt (fun v : Fin n → ℝ => kap ((List.ofFn v).map fun x => Real.log |x / 1|) (k + 1)) v := by
  intro k
  induction k using Nat.strong_induction_on with
  | _ k ih =>
    have e : (fun v : Fin n → ℝ => kap ((List.ofFn v).map fun x => Real.log |x / 1|) (k + 1)) = fun v : Fin n → ℝ =>
        tmean 0 (k + 1) (1, List.ofFn v) - ∑ i : Fin k, (k.choose i : ℝ) * kap ((List.ofFn v).map fun x => Real.log |x / 1|) (i + 1) *
          tmean 0 (k - i) (1, List.ofFn v) := by
      funext v
      have hne : (List.ofFn v).map (fun x => Real.log |x / 1|) ≠ [] := by
        rw [← List.length_pos_iff, List.length_map, List.length_ofFn]; exact hn
      rw [kap_rec _ hne, Finset.sum_range]
      have hm : ∀ i, mom ((List.ofFn v).map fun x => Real.log |x / 1|) i = tmean 0 i (1, List.ofFn v) := fun i => mom_logs (1, List.ofFn v) i
      simp only [hm]
    rw [e]
    refine (continuousAt_tmean _ _ hv).sub (tendsto_finsetSum _ fun i _ => ?_)
    exact ((ih i i.2).const_mul _).mul (continuousAt_tmean _ _ hv)

theorem cont_cumulant {n i : ℕ} (hi : i < n) : ContStat (fun c => (cmColumn (c.map fun x => x.abs.ln) n).getD i Fl.nan) :=
  (stat_cumulant hi).cont fun _ _ hn hv => continuousAt_kap hn hv i

/-- The largest modulus of close columns. -/
theorem nanmax_abs {c : List Fl} {xs : List ℝ} (hc : Entries c xs) (hne : xs ≠ []) :
    ∃ M : ℝ, nanmax (c.map Fl.abs) = Fl.fin M ∧ (∃ x ∈ xs, |x| = M) ∧ ∀ x ∈ xs, |x| ≤ M := by
  obtain ⟨x, hx⟩ := List.exists_mem_of_ne_nil xs hne
  have hA : ∃ y ∈ c.map Fl.abs, y ≠ Fl.nan := ⟨_, List.mem_map.mpr ⟨Fl.fin x, hc.mem' hx, rfl⟩, by simp⟩
  obtain ⟨hm, hn, hub⟩ := nanmax_spec hA
  obtain ⟨y, hy, hye⟩ := List.mem_map.mp hm
  have hyn : y ≠ Fl.nan := by rintro rfl; exact hn (by rw [← hye]; rfl)
  obtain ⟨t, ht, rfl⟩ := hc.mem hy hyn
  refine ⟨|t|, by rw [← hye, Fl.abs_fin], ⟨t, ht, rfl⟩, fun x' hx' => ?_⟩
  have := hub (Fl.fin |x'|) (List.mem_map.mpr ⟨Fl.fin x', hc.mem' hx', by rw [Fl.abs_fin]⟩) (by simp)
  rw [← hye, Fl.abs_fin] at this
  exact this

theorem forall₂_mem {α β : Type} {P : α → β → Prop} {l : List α} {l' : List β} (h : List.Forall₂ P l l') {a : α} (ha : a ∈ l) :
    ∃ b ∈ l', P a b := by
  induction h with
  | nil => cases ha
  | cons hab _ ih =>
    rcases List.mem_cons.1 ha with rfl | ha
    · exact ⟨_, by simp, hab⟩
    · obtain ⟨b, hb, hp⟩ := ih ha; exact ⟨b, by simp [hb], hp⟩

theorem forall₂_mem' {α β : Type} {P : α → β → Prop} {l : List α} {l' : List β} (h : List.Forall₂ P l l') {b : β} (hb : b ∈ l') :
    ∃ a ∈ l, P a b := forall₂_mem h.flip hb

theorem cont_hmin : ContStat (fun c => (nanmax (c.map Fl.abs)).log2) := by
  intro c xs hc hne h0 ε hε
  obtain ⟨M, hM, ⟨x, hx, hxM⟩, hle⟩ := nanmax_abs hc hne
  have hM0 : 0 < M := hxM ▸ abs_pos.2 (h0 x hx)
  have hcont : ContinuousAt (Real.logb 2) M := Real.continuousAt_logb hM0.ne'
  obtain ⟨δ, hδ, hd⟩ := Metric.continuousAt_iff.1 hcont ε hε
  refine ⟨min (δ / 2) (M / 2), by positivity, fun c' hcc => ?_⟩
  obtain ⟨xs', hc', hxx⟩ := hc.close hcc
  obtain ⟨x', hx', hxx'⟩ := forall₂_mem hxx hx
  obtain ⟨M', hM', ⟨y', hy', hyM⟩, hle'⟩ := nanmax_abs hc' (fun h => by rw [h] at hx'; cases hx')
  obtain ⟨y, hy, hyy⟩ := forall₂_mem' hxx hy'
  have b1 : M - M' ≤ min (δ / 2) (M / 2) := by
    have := hle' x' hx'
    have := abs_sub_abs_le_abs_sub x x'
    linarith
  have b2 : M' - M ≤ min (δ / 2) (M / 2) := by
    have := hle y hy
    have := abs_sub_abs_le_abs_sub y' y
    rw [abs_sub_comm] at this
    linarith
  have hM'0 : 0 < M' := by have := min_le_right (δ / 2) (M / 2); linarith
  refine ⟨_, _, (congrArg Fl.log2 hM).trans (Fl.log2_fin hM0), (congrArg Fl.log2 hM').trans (Fl.log2_fin hM'0), ?_⟩
  have : dist M' M < δ := by
    rw [Real.dist_eq, abs_lt]
    have := min_le_left (δ / 2) (M / 2)
    constructor <;> linarith
  have := hd this
  rw [dist_comm, Real.dist_eq] at this
  exact this.le

end

end MFA
