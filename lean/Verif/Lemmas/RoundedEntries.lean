import Verif.Lemmas.RoundedFamily
import Verif.Model.RoundedWavelet

/-! Entries of computed arrays: NaN, or numbers that converge when the relative error of the machine tends to 0. -/

namespace MFA

open Filter Topology Classical

noncomputable section

/-- On all machines accurate enough: NaN, or a number that converges. -/
def EvE (f : Machine → Fl) : Prop := (∀ᶠ M in Lmach, f M = Fl.nan) ∨ ∃ a, CvTo f a

/-- Besides, the numbers are not negative. -/
def EvN (f : Machine → Fl) : Prop := EvE f ∧ ∀ᶠ M in Lmach, f M = Fl.nan ∨ ∃ x : ℝ, 0 ≤ x ∧ f M = Fl.fin x

theorem EvE.congr {f g : Machine → Fl} (h : EvE f) (e : ∀ᶠ M in Lmach, g M = f M) : EvE g := by
  rcases h with h | ⟨a, h⟩
  · refine Or.inl ?_
    filter_upwards [h, e] with M h1 h2
    rw [h2, h1]
  · exact Or.inr ⟨a, h.congr e⟩

theorem EvN.congr {f g : Machine → Fl} (h : EvN f) (e : ∀ᶠ M in Lmach, g M = f M) : EvN g := by
  refine ⟨h.1.congr e, ?_⟩
  filter_upwards [h.2, e] with M h1 h2
  rw [h2]
  exact h1

theorem EvE.const (a : ℝ) : EvE (fun _ => Fl.fin a) := Or.inr ⟨a, CvTo.const a⟩

theorem EvE.nan : EvE (fun _ => Fl.nan) := Or.inl (Eventually.of_forall fun _ => rfl)

theorem EvE.strict {f : Machine → Fl} (h : EvE f) : ∃ f', CvE f' ∧ ∀ᶠ M in Lmach, f M = f' M := by
  rcases h with h | ⟨a, h⟩
  · exact ⟨fun _ => Fl.nan, Or.inl fun _ => rfl, h⟩
  · refine ⟨fun M => Fl.fin (f M).toReal, Or.inr ⟨fun M => ⟨_, rfl⟩, a, ⟨_, Eventually.of_forall fun M => rfl, h.spec.2⟩⟩, h.spec.1⟩

theorem EvE.mul {f g : Machine → Fl} (hf : EvE f) (hg : EvE g) : EvE (fun M => M.mul (f M) (g M)) := by
  rcases hf with hf | ⟨a, hf⟩
  · refine Or.inl ?_
    filter_upwards [hf] with M h
    rw [h, M.nan_mul]
  · rcases hg with hg | ⟨b, hg⟩
    · refine Or.inl ?_
      filter_upwards [hg] with M h
      rw [h, M.mul_nan]
    · exact Or.inr ⟨_, hf.mul hg⟩

theorem EvE.abs {f : Machine → Fl} (hf : EvE f) : EvN (fun M => (f M).abs) := by
  rcases hf with hf | ⟨a, hf⟩
  · have : ∀ᶠ M in Lmach, (f M).abs = Fl.nan := by
      filter_upwards [hf] with M h
      rw [h]; rfl
    exact ⟨Or.inl this, this.mono fun M h => Or.inl h⟩
  · refine ⟨Or.inr ⟨_, hf.abs⟩, ?_⟩
    filter_upwards [hf.spec.1] with M h
    rw [h]
    exact Or.inr ⟨_, abs_nonneg _, rfl⟩

theorem Machine.add_nan (M : Machine) (x : Fl) : M.add x Fl.nan = Fl.nan := by
  have := M.add_ok x Fl.nan
  rw [show x + Fl.nan = Fl.nan by cases x <;> rfl] at this
  exact this.nan

theorem Machine.nan_add (M : Machine) (x : Fl) : M.add Fl.nan x = Fl.nan := by
  have := M.add_ok Fl.nan x
  rw [show Fl.nan + x = Fl.nan by cases x <;> rfl] at this
  exact this.nan

theorem IsSum.nan {M : Machine} {l : List Fl} {s : Fl} (h : IsSum M.add l s) : Fl.nan ∈ l → s = Fl.nan := by
  induction h with
  | nil => intro h; cases h
  | one x => intro h; exact (List.mem_singleton.1 h).symm
  | @append l l' s s' hl hl' _ _ ih ih' =>
    intro h
    rcases List.mem_append.1 h with h | h
    · rw [ih h, M.nan_add]
    · rw [ih' h, M.add_nan]
  | perm hp _ ih => intro h; exact ih (hp.mem_iff.2 h)

theorem EvE.sum {ι : Type} (l : List ι) (F : ι → Machine → Fl) (h : ∀ i ∈ l, EvE (F i)) :
    EvE (fun M => M.sum (l.map fun i => F i M)) := by
  by_cases hn : ∃ i ∈ l, ∀ᶠ M in Lmach, F i M = Fl.nan
  · obtain ⟨i, hi, he⟩ := hn
    refine Or.inl ?_
    filter_upwards [he] with M hM
    exact (M.sum_ok _).nan (List.mem_map.2 ⟨i, hi, hM⟩)
  · refine Or.inr ⟨_, CvTo.sum l F (fun i => limE (F i)) fun i hi => limE_spec ?_⟩
    rcases h i hi with h | h
    · exact absurd ⟨i, hi, h⟩ hn
    · exact h

/-! ### Reductions of a few entries -/

theorem evE_col {l : List (Machine → Fl)} (h : ∀ f ∈ l, EvE f) :
    ∃ l' : List (Machine → Fl), (∀ᶠ M in Lmach, l.map (fun f => f M) = l'.map fun f => f M) ∧
      CvCol l' (fun f => f) (fun f => ∀ M, f M = Fl.nan) limE := by
  induction l with
  | nil => exact ⟨[], Eventually.of_forall fun _ => rfl, fun i hi => by cases hi⟩
  | cons f l ih =>
    obtain ⟨l', e, hc⟩ := ih fun g hg => h g (by simp [hg])
    obtain ⟨f', hf', ef⟩ := (h f (by simp)).strict
    refine ⟨f' :: l', ?_, ?_⟩
    · filter_upwards [e, ef] with M e1 e2
      rw [List.map_cons, List.map_cons, e1, e2]
    · intro g hg
      rcases List.mem_cons.1 hg with rfl | hg
      · refine ⟨fun hN => hN, fun hN => ?_⟩
        rcases hf' with h | ⟨-, h⟩
        · exact absurd h hN
        · exact limE_spec h
      · exact hc g hg

theorem CvCol.nanmax {ι : Type} {l : List ι} {F : ι → Machine → Fl} {N : ι → Prop} {A : ι → ℝ} (h : CvCol l F N A)
    (hne : ∃ i ∈ l, ¬ N i) : ∃ b, CvTo (fun M => MFA.nanmax (l.map fun i => F i M)) b := by
  have key : ∀ (t : List ι) (f : Machine → Fl), (∃ a, CvTo f a) → (∀ i ∈ t, CvTo (F i) (A i)) →
      ∃ b, CvTo (fun M => (t.map fun i => F i M).foldl Fl.max (f M)) b := by
    intro t
    induction t with
    | nil => intro f hf _; exact hf
    | cons i t ih =>
      rintro f ⟨a, hf⟩ ht
      exact ih _ ⟨_, hf.max (ht i (by simp))⟩ fun k hk => ht k (by simp [hk])
  have hmem : ∀ i ∈ (l.filter fun i => !decide (N i)), i ∈ l ∧ ¬ N i := by
    intro i hi
    rw [List.mem_filter] at hi
    exact ⟨hi.1, by simpa using hi.2⟩
  cases hl : (l.filter fun i => !decide (N i)) with
  | nil =>
    have := cnt_pos hne
    rw [cnt, hl] at this
    simp at this
  | cons i t =>
    rw [hl] at hmem
    have hi := hmem i (by simp)
    obtain ⟨b, hc⟩ := key t (F i) ⟨_, (h i hi.1).2 hi.2⟩ fun k hk => (h k (hmem k (by simp [hk])).1).2 (hmem k (by simp [hk])).2
    refine ⟨b, hc.congr ?_⟩
    filter_upwards [h.dropNaN] with M hM
    unfold MFA.nanmax
    rw [hM, hl]
    rfl

/-- Neither NaN nor infinite, and not negative; or NaN. -/
def NonNegF (x : Fl) : Prop := x = Fl.nan ∨ ∃ t : ℝ, 0 ≤ t ∧ x = Fl.fin t

theorem nanmax_nonNegF {l : List Fl} (h : ∀ x ∈ l, NonNegF x) : NonNegF (nanmax l) := by
  have hd : ∀ x ∈ dropNaN l, ∃ t : ℝ, 0 ≤ t ∧ x = Fl.fin t := by
    intro x hx
    rw [dropNaN, List.mem_filter] at hx
    rcases h x hx.1 with rfl | h
    · simp at hx
    · exact h
  have key : ∀ (t : List Fl) (x : Fl), (∃ a : ℝ, 0 ≤ a ∧ x = Fl.fin a) → (∀ y ∈ t, ∃ a : ℝ, 0 ≤ a ∧ y = Fl.fin a) →
      ∃ a : ℝ, 0 ≤ a ∧ t.foldl Fl.max x = Fl.fin a := by
    intro t
    induction t with
    | nil => intro x hx _; exact hx
    | cons y t ih =>
      rintro x ⟨a, ha, rfl⟩ ht
      obtain ⟨b, hb, rfl⟩ := ht y (by simp)
      exact ih _ ⟨max a b, le_max_of_le_left ha, rfl⟩ fun z hz => ht z (by simp [hz])
  unfold nanmax
  cases hl : dropNaN l with
  | nil => exact Or.inl rfl
  | cons x t =>
    rw [hl] at hd
    exact Or.inr (key t x (hd x (by simp)) fun y hy => hd y (by simp [hy]))

theorem Rounds.nonneg {u x : ℝ} {b : Fl} (hu : u ≤ 1) (hx : 0 ≤ x) (h : Rounds u (Fl.fin x) b) : ∃ y : ℝ, 0 ≤ y ∧ b = Fl.fin y := by
  rcases h with ⟨x', y, e1, e2, e3⟩ | ⟨e, -⟩
  · have := (Fl.fin_inj _ _).1 e1
    subst this
    refine ⟨y, ?_, e2⟩
    rw [abs_of_nonneg hx] at e3
    have := (abs_le.1 e3).1
    nlinarith
  · exact absurd rfl (e x)

theorem IsSum.nonneg {M : Machine} (hu : M.u ≤ 1) {l : List Fl} {s : Fl} (h : IsSum M.add l s) :
    (∀ x ∈ l, ∃ t : ℝ, 0 ≤ t ∧ x = Fl.fin t) → ∃ t : ℝ, 0 ≤ t ∧ s = Fl.fin t := by
  induction h with
  | nil => intro _; exact ⟨0, le_rfl, rfl⟩
  | one x => intro h; exact h x (by simp)
  | @append l l' s s' hl hl' _ _ ih ih' =>
    intro h
    obtain ⟨a, ha, rfl⟩ := ih fun x hx => h x (by simp [hx])
    obtain ⟨b, hb, rfl⟩ := ih' fun x hx => h x (by simp [hx])
    exact Rounds.nonneg hu (add_nonneg ha hb) (by rw [← Fl.fin_add]; exact M.add_ok _ _)
  | perm hp _ ih => intro h; exact ih fun x hx => h x (hp.mem_iff.1 hx)

theorem eventually_u_le {c : ℝ} (hc : 0 < c) : ∀ᶠ M in Lmach, M.u ≤ c := by
  have := tendsto_u.eventually (ge_mem_nhds hc)
  exact this

theorem fixedNanSum_nonNegF {M : Machine} (hu : M.u ≤ 1) {l : List Fl} (h : ∀ x ∈ l, NonNegF x) : NonNegF (M.fixedNanSum l) := by
  unfold Machine.fixedNanSum
  split_ifs
  · exact Or.inl rfl
  · refine Or.inr ((M.sum_ok _).nonneg hu fun x hx => ?_)
    obtain ⟨y, hy, rfl⟩ := List.mem_map.1 hx
    rcases h y hy with rfl | ⟨t, ht, rfl⟩
    · exact ⟨0, le_rfl, rfl⟩
    · exact ⟨t, ht, rfl⟩

theorem EvN.red {l : List (Machine → Fl)} (h : ∀ f ∈ l, EvN f) (fm : Formalism) :
    EvN (fun M => M.leaderRed fm (l.map fun f => f M)) := by
  obtain ⟨l', e, hc⟩ := evE_col fun f hf => (h f hf).1
  have hall : ∀ᶠ M in Lmach, ∀ x ∈ l.map (fun f => f M), NonNegF x := by
    have : ∀ᶠ M in Lmach, ∀ f ∈ {f | f ∈ l}, NonNegF (f M) := by
      rw [eventually_all_finite (List.finite_toSet _)]
      exact fun f hf => (h f hf).2
    filter_upwards [this] with M hM x hx
    obtain ⟨f, hf, rfl⟩ := List.mem_map.1 hx
    exact hM f hf
  have hred : EvE (fun M => M.leaderRed fm (l'.map fun f => f M)) := by
    by_cases hne : ∃ f ∈ l', ¬ ∀ M, f M = Fl.nan
    · unfold Machine.leaderRed
      split_ifs
      · exact Or.inr ⟨_, hc.fixedNanSum hne⟩
      · exact Or.inr (hc.nanmax hne)
    · push Not at hne
      refine Or.inl (Eventually.of_forall fun M => ?_)
      have hn : ∀ x ∈ l'.map (fun f => f M), x = Fl.nan := by
        intro x hx
        obtain ⟨f, hf, rfl⟩ := List.mem_map.1 hx
        exact hne f hf M
      unfold Machine.leaderRed
      split_ifs
      · unfold Machine.fixedNanSum
        show (if _ then _ else _) = _
        rw [if_pos]
        rw [List.all_eq_true]
        intro x hx
        rw [hn x hx]
        rfl
      · unfold fixedNanMax nanmax
        have : dropNaN (l'.map fun f => f M) = [] := by
          rw [dropNaN, List.filter_eq_nil_iff]
          intro x hx
          rw [hn x hx]
          simp
        show (match dropNaN (l'.map fun f => f M) with | [] => Fl.nan | a :: t => t.foldl Fl.max a) = _
        rw [this]
  refine ⟨hred.congr (e.mono fun M hM => by rw [hM]), ?_⟩
  filter_upwards [hall, eventually_u_le one_pos] with M hM hu
  unfold Machine.leaderRed
  split_ifs
  · exact fixedNanSum_nonNegF hu hM
  · exact nanmax_nonNegF hM

theorem EvN.mulPos {f g : Machine → Fl} (hf : EvN f) (hg : EvN g) : EvN (fun M => M.mul (f M) (g M)) := by
  refine ⟨hf.1.mul hg.1, ?_⟩
  filter_upwards [hf.2, hg.2, eventually_u_le one_pos] with M h1 h2 hu
  rcases h1 with h1 | ⟨x, hx, h1⟩
  · left; rw [h1, M.nan_mul]
  · rcases h2 with h2 | ⟨y, hy, h2⟩
    · left; rw [h2, M.mul_nan]
    · right
      rw [h1, h2]
      exact Rounds.nonneg hu (mul_nonneg hx hy) (by rw [← Fl.fin_mul]; exact M.mul_ok _ _)

theorem EvN.exp2 (a : ℝ) : EvN (fun M => M.exp2 (Fl.fin a)) := by
  refine ⟨Or.inr ⟨_, (CvTo.const a).exp2⟩, ?_⟩
  filter_upwards [eventually_u_le one_pos] with M hu
  right
  exact Rounds.nonneg hu (Real.rpow_nonneg two_pos.le a) (M.exp2_ok (Fl.fin a))

theorem EvN.sqrt {f : Machine → Fl} (hf : EvN f) : EvN (fun M => M.sqrt (f M)) := by
  refine ⟨?_, ?_⟩
  · rcases hf.1 with h | ⟨a, h⟩
    · refine Or.inl ?_
      filter_upwards [h] with M h
      rw [h]
      exact (M.sqrt_ok Fl.nan).nan
    · refine Or.inr ⟨Real.sqrt a, CvTo.round (f := fun M => Fl.sqrt (f M)) ?_ (Eventually.of_forall fun M => M.sqrt_ok _)⟩
      refine ⟨fun M => Real.sqrt (f M).toReal, ?_, (Real.continuous_sqrt.tendsto a).comp h.spec.2⟩
      filter_upwards [h.spec.1, hf.2] with M h1 h2
      rcases h2 with h2 | ⟨x, hx, h2⟩
      · rw [h2] at h1; cases h1
      · rw [h2]
        simp only [Fl.sqrt, if_pos hx]
        rfl
  · filter_upwards [hf.2, eventually_u_le one_pos] with M h1 hu
    rcases h1 with h1 | ⟨x, hx, h1⟩
    · left; rw [h1]; exact (M.sqrt_ok Fl.nan).nan
    · right
      rw [h1]
      refine Rounds.nonneg hu (Real.sqrt_nonneg x) ?_
      have := M.sqrt_ok (Fl.fin x)
      rwa [Fl.sqrt, if_pos hx] at this

end

end MFA
