import Verif.Spec.BiClose
import Verif.Lemmas.BiTypical
import Verif.Props.Continuity

/-! Statistics of pairs of columns that are continuous in the data (for C138). -/

namespace MFA

open Filter Topology

noncomputable section

/-- Both members are close. -/
def PairClose (η : ℝ) (p p' : Fl × Fl) : Prop := EntryClose η p.1 p'.1 ∧ EntryClose η p.2 p'.2

theorem joint_close {η : ℝ} {ls ls' : List (Fl × Fl)} (h : List.Forall₂ (PairClose η) ls ls') : ∀ {zs : List (ℝ × ℝ)}, JointIs ls zs →
    ∃ zs', JointIs ls' zs' ∧ List.Forall₂ (fun z z' : ℝ × ℝ => |z.1 - z'.1| ≤ η ∧ |z.2 - z'.2| ≤ η) zs zs' := by
  unfold JointIs
  induction h with
  | nil =>
    intro zs hz
    have : zs = [] := by simpa using hz.symm
    subst this
    exact ⟨[], rfl, List.Forall₂.nil⟩
  | @cons p p' ls ls' hp hl ih =>
    intro zs hz
    obtain ⟨a, b⟩ := p
    obtain ⟨a', b'⟩ := p'
    obtain ⟨h1, h2⟩ := hp
    simp only at h1 h2
    rcases h1 with ⟨rfl, rfl⟩ | ⟨s, s', rfl, rfl, e1⟩
    · rw [List.filter_cons_of_neg (by simp)] at hz
      obtain ⟨zs', c1, c2⟩ := ih hz
      exact ⟨zs', by rw [List.filter_cons_of_neg (by simp)]; exact c1, c2⟩
    · rcases h2 with ⟨rfl, rfl⟩ | ⟨t, t', rfl, rfl, e2⟩
      · rw [List.filter_cons_of_neg (by simp)] at hz
        obtain ⟨zs', c1, c2⟩ := ih hz
        exact ⟨zs', by rw [List.filter_cons_of_neg (by simp)]; exact c1, c2⟩
      · rw [List.filter_cons_of_pos (by simp)] at hz
        cases zs with
        | nil => simp at hz
        | cons z zs =>
          rw [List.map_cons, List.cons.injEq, Prod.mk.injEq, Fl.fin_inj, Fl.fin_inj] at hz
          obtain ⟨⟨g1, g2⟩, hz⟩ := hz
          obtain ⟨zs', c1, c2⟩ := ih hz
          refine ⟨(s', t') :: zs', by rw [List.filter_cons_of_pos (by simp), c1]; rfl, List.Forall₂.cons ⟨?_, ?_⟩ c2⟩
          · rw [← g1]; exact e1
          · rw [← g2]; exact e2

/-- A function of a list of pairs, continuous in the entries. -/
theorem list_continuous {F : List (ℝ × ℝ) → ℝ} {zs : List (ℝ × ℝ)}
    (h : ContinuousAt (fun v : Fin zs.length → ℝ × ℝ => F (List.ofFn v)) zs.get) {ε : ℝ} (hε : 0 < ε) : ∃ η : ℝ, 0 < η ∧
    ∀ zs', List.Forall₂ (fun z z' : ℝ × ℝ => |z.1 - z'.1| ≤ η ∧ |z.2 - z'.2| ≤ η) zs zs' → |F zs - F zs'| ≤ ε := by
  obtain ⟨η, hη, hh⟩ := Metric.continuousAt_iff.1 h ε hε
  refine ⟨η / 2, by positivity, fun zs' hz => ?_⟩
  have hl := hz.length_eq
  have hv := hh (x := fun i => zs'.get (i.cast hl)) (by
    rw [dist_pi_lt_iff hη]
    intro i
    have := (List.forall₂_iff_get.1 hz).2 i.1 i.2 (by rw [← hl]; exact i.2)
    rw [Prod.dist_eq, Real.dist_eq, Real.dist_eq, max_lt_iff]
    have e : (i.cast hl) = ⟨i.1, by rw [← hl]; exact i.2⟩ := rfl
    rw [e]
    constructor
    · rw [abs_sub_comm]; exact lt_of_le_of_lt this.1 (by linarith)
    · rw [abs_sub_comm]; exact lt_of_le_of_lt this.2 (by linarith))
  have e1 : List.ofFn zs.get = zs := List.ofFn_get zs
  have e2 : List.ofFn (fun i : Fin zs.length => zs'.get (i.cast hl)) = zs' := by
    apply List.ext_getElem
    · rw [List.length_ofFn]; exact hl
    · intro i h1 h2
      rw [List.getElem_ofFn]; rfl
  simp only [e1, e2] at hv
  rw [abs_sub_comm]
  rw [Real.dist_eq] at hv
  exact hv.le

/-- A statistic of the pairs at one scale that is continuous at data without zeros. -/
def ContPair (Y : (ℤ × Arr 1) × (ℤ × Arr 1) → Fl) : Prop :=
  ∀ q zs, JointIs (biPairs q) zs → zs ≠ [] → (∀ z ∈ zs, z.1 ≠ 0 ∧ z.2 ≠ 0) → ∀ ε : ℝ, 0 < ε → ∃ η : ℝ, 0 < η ∧
    ∀ q', List.Forall₂ (PairClose η) (biPairs q) (biPairs q') → FlClose ε (Y q) (Y q')

theorem exists_floor (zs : List (ℝ × ℝ)) (h : ∀ z ∈ zs, z.1 ≠ 0 ∧ z.2 ≠ 0) : ∃ ρ : ℝ, 0 < ρ ∧ ∀ z ∈ zs, ρ ≤ |z.1| ∧ ρ ≤ |z.2| := by
  induction zs with
  | nil => exact ⟨1, one_pos, by simp⟩
  | cons z zs ih =>
    obtain ⟨ρ, hρ, hz⟩ := ih fun z hz => h z (List.mem_cons_of_mem _ hz)
    obtain ⟨h1, h2⟩ := h z List.mem_cons_self
    refine ⟨min ρ (min |z.1| |z.2|), lt_min hρ (lt_min (abs_pos.2 h1) (abs_pos.2 h2)), ?_⟩
    intro y hy
    rcases List.mem_cons.1 hy with rfl | hy
    · exact ⟨(min_le_right _ _).trans (min_le_left _ _), (min_le_right _ _).trans (min_le_right _ _)⟩
    · exact ⟨(min_le_left _ _).trans (hz y hy).1, (min_le_left _ _).trans (hz y hy).2⟩

theorem contPair_of {Y : (ℤ × Arr 1) × (ℤ × Arr 1) → Fl} (F : List (ℝ × ℝ) → ℝ)
    (hY : ∀ q zs, JointIs (biPairs q) zs → zs ≠ [] → (∀ z ∈ zs, z.1 ≠ 0 ∧ z.2 ≠ 0) → Y q = Fl.fin (F zs))
    (hF : ∀ zs : List (ℝ × ℝ), zs ≠ [] → (∀ z ∈ zs, z.1 ≠ 0 ∧ z.2 ≠ 0) →
      ContinuousAt (fun v : Fin zs.length → ℝ × ℝ => F (List.ofFn v)) zs.get) : ContPair Y := by
  intro q zs hJ hne h0 ε hε
  obtain ⟨η, hη, hc⟩ := list_continuous (hF zs hne h0) hε
  obtain ⟨ρ, hρ, hfl⟩ := exists_floor zs h0
  refine ⟨min η (ρ / 2), by positivity, fun q' hq' => ?_⟩
  obtain ⟨zs', hJ', hz'⟩ := joint_close hq' hJ
  have hne' : zs' ≠ [] := by
    rintro rfl
    exact hne (List.length_eq_zero_iff.1 (by rw [hz'.length_eq]; rfl))
  have h0' : ∀ z ∈ zs', z.1 ≠ 0 ∧ z.2 ≠ 0 := by
    intro z' hz
    obtain ⟨i, hi, rfl⟩ := List.mem_iff_getElem.1 hz
    have hi' : i < zs.length := by rw [hz'.length_eq]; exact hi
    have hb := (List.forall₂_iff_get.1 hz').2 i hi' hi
    have hg := hfl _ (List.getElem_mem hi')
    simp only [List.get_eq_getElem] at hb
    have key : ∀ a b : ℝ, |a - b| ≤ min η (ρ / 2) → ρ ≤ |a| → b ≠ 0 := by
      rintro a b h1 h2 rfl
      rw [sub_zero] at h1
      have := h1.trans (min_le_right _ _)
      linarith
    exact ⟨key _ _ hb.1 hg.1, key _ _ hb.2 hg.2⟩
  refine ⟨_, _, hY q zs hJ hne h0, hY q' zs' hJ' hne' h0', hc zs' (hz'.imp fun a b h => ⟨h.1.trans (min_le_left _ _), h.2.trans (min_le_left _ _)⟩)⟩

theorem testF_continuousAt (e : ℝ) (n : ℕ) {x : ℝ} (hx : x ≠ 0) : ContinuousAt (testF e n) x := by
  unfold testF
  have h := abs_ne_zero.2 hx
  exact (continuous_abs.continuousAt.rpow_const (Or.inl h)).mul ((continuous_abs.continuousAt.log h).pow n)

theorem sum_ofFn_continuousAt {zs : List (ℝ × ℝ)} {g : ℝ × ℝ → ℝ} (hg : ∀ z ∈ zs, ContinuousAt g z) :
    ContinuousAt (fun v : Fin zs.length → ℝ × ℝ => ((List.ofFn v).map g).sum) zs.get := by
  have e : (fun v : Fin zs.length → ℝ × ℝ => ((List.ofFn v).map g).sum) = fun v => ∑ i, g (v i) := by
    funext v
    rw [List.map_ofFn, List.sum_ofFn]; rfl
  rw [e]
  refine tendsto_finsetSum _ fun i _ => ?_
  have h1 : ContinuousAt (fun v : Fin zs.length → ℝ × ℝ => v i) zs.get := (continuous_apply i).continuousAt
  have h2 : ContinuousAt g (zs.get i) := hg _ (List.get_mem _ _)
  exact ContinuousAt.comp (f := fun v : Fin zs.length → ℝ × ℝ => v i) h2 h1

theorem pmean_continuousAt (p : (ℝ × ℕ) × (ℝ × ℕ)) {zs : List (ℝ × ℝ)} (h0 : ∀ z ∈ zs, z.1 ≠ 0 ∧ z.2 ≠ 0) :
    ContinuousAt (fun v : Fin zs.length → ℝ × ℝ => pmean p 1 1 (List.ofFn v)) zs.get := by
  unfold pmean mean
  simp only [List.length_map, List.length_ofFn]
  refine ContinuousAt.div_const (sum_ofFn_continuousAt fun z hz => ?_) _
  obtain ⟨a, b⟩ := h0 z hz
  simp only [div_one]
  exact ((testF_continuousAt p.1.1 p.1.2 a).comp continuousAt_fst).mul ((testF_continuousAt p.2.1 p.2.2 b).comp continuousAt_snd)

theorem contPair_bsLog (e1 e2 : ℝ) : ContPair (bsLog e1 e2) := by
  refine contPair_of (fun zs => Real.logb 2 (pmean ((e1, 0), (e2, 0)) 1 1 zs)) ?_ ?_
  · intro q zs hJ hne h0
    rw [(bsLog_value hJ hne h0 one_pos one_pos e1 e2).2]
    simp
  · intro zs hne h0
    have hpos : 0 < pmean ((e1, 0), (e2, 0)) 1 1 zs := by
      apply mean_pos (by simpa using hne)
      intro t ht
      obtain ⟨z, hz', rfl⟩ := List.mem_map.1 ht
      obtain ⟨a1, a2⟩ := h0 z hz'
      simp only [testF, pow_zero, mul_one, div_one]
      exact mul_pos (Real.rpow_pos_of_pos (abs_pos.2 a1) _) (Real.rpow_pos_of_pos (abs_pos.2 a2) _)
    unfold Real.logb
    refine ContinuousAt.div_const (ContinuousAt.log (pmean_continuousAt _ h0) ?_) _
    rw [List.ofFn_get]; exact hpos.ne'

theorem contPair_bc11 {n : ℕ} (hn : 1 ≤ n) : ContPair (bcAt n 1 1) := by
  refine contPair_of (fun zs => pmean ((0, 1), (0, 1)) 1 1 zs - pmean ((0, 1), (0, 0)) 1 1 zs * pmean ((0, 0), (0, 1)) 1 1 zs) ?_ ?_
  · intro q zs hJ hne h0
    exact bc11_value hJ hne h0 one_pos one_pos hn
  · intro zs hne h0
    exact (pmean_continuousAt _ h0).sub ((pmean_continuousAt _ h0).mul (pmean_continuousAt _ h0))

theorem contPair_zero {n a b : ℕ} (h : (a = 0 ∧ b = 0) ∨ (1 ≤ a ∧ 1 ≤ b ∧ ¬ (a = 1 ∧ b = 1))) : ContPair (bcAt n a b) := by
  refine contPair_of (fun _ => 0) ?_ ?_
  · intro q zs _ _ _
    exact bcTable_zero _ _ _ _ (by omega)
  · intro zs _ _
    exact continuousAt_const

theorem contPair_coh : ContPair fun q => cohOf (biPairs q) := by
  refine contPair_of (fun zs => (zs.map fun z => z.1 * z.2).sum / √((zs.map fun z => z.1 ^ 2).sum * (zs.map fun z => z.2 ^ 2).sum)) ?_ ?_
  · intro q zs hJ hne h0
    obtain ⟨z, hz⟩ := List.exists_mem_of_ne_nil _ hne
    exact ((cohOf_joint hJ).1 ⟨⟨z, hz, (h0 z hz).1⟩, ⟨z, hz, (h0 z hz).2⟩⟩).1
  · intro zs hne h0
    have hp : ∀ f : ℝ × ℝ → ℝ, (∀ z ∈ zs, f z ≠ 0) → 0 < (zs.map fun z => f z ^ 2).sum := by
      intro f hf
      refine List.sum_pos _ ?_ (by simpa using hne)
      intro t ht
      obtain ⟨z, hz, rfl⟩ := List.mem_map.1 ht
      have := hf z hz
      positivity
    have p1 := hp Prod.fst fun z hz => (h0 z hz).1
    have p2 := hp Prod.snd fun z hz => (h0 z hz).2
    refine ContinuousAt.div (sum_ofFn_continuousAt fun z _ => by fun_prop)
      ((sum_ofFn_continuousAt fun z _ => by fun_prop).mul (sum_ofFn_continuousAt fun z _ => by fun_prop)).sqrt ?_
    rw [List.ofFn_get]
    exact (Real.sqrt_pos.2 (mul_pos p1 p2)).ne'

end

end MFA
