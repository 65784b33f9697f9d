import Verif.Props.Signal
import Verif.Props.Psd
import Verif.Spec.Psd

/-! Property C63: `Signal.psd_difference`. -/

namespace MFA

open Classical

variable {R : ℕ}

/-- The row at a frequency. -/
noncomputable def PSD.row (p : PSD R) (f : ℝ) : Row R := (p.psd[p.freq.idxOf f]?).getD (fun _ => Fl.nan)

theorem PSD.WF.at_iff {p : PSD R} (h : p.WF) (f : ℝ) (a : Row R) : p.At f a ↔ f ∈ p.freq ∧ a = p.row f := by
  constructor
  · rintro ⟨i, h1, h2⟩
    obtain ⟨hi, h1'⟩ := List.getElem?_eq_some_iff.1 h1
    have : p.freq.idxOf f = i := by rw [← h1']; exact h.1.idxOf_getElem i hi
    refine ⟨h1' ▸ List.getElem_mem hi, ?_⟩
    rw [PSD.row, this, h2]; rfl
  · rintro ⟨hf, rfl⟩
    have hi := List.idxOf_lt_length_iff.2 hf
    refine ⟨p.freq.idxOf f, ?_, ?_⟩
    · rw [List.getElem?_eq_getElem hi, List.getElem_idxOf]
    · have hi' : p.freq.idxOf f < p.psd.length := by rw [h.2]; exact hi
      rw [PSD.row, List.getElem?_eq_getElem hi']; rfl

theorem PSD.WF.rowsAt_eq {p : PSD R} (h : p.WF) {support : List ℝ} (hs : ∀ f ∈ support, f ∈ p.freq) :
    rowsAt p support = support.map p.row := by
  unfold rowsAt
  induction support with
  | nil => rfl
  | cons f l ih =>
    have hi : p.freq.idxOf f < p.psd.length := by rw [h.2]; exact List.idxOf_lt_length_iff.2 (hs f (by simp))
    rw [List.filterMap_cons, List.getElem?_eq_getElem hi, List.map_cons, PSD.row, List.getElem?_eq_getElem hi]
    simp only [Option.getD_some, List.cons.injEq, true_and]
    exact ih (fun g hg => hs g (by simp [hg]))

theorem mem_intersect1d (a b : List ℝ) (f : ℝ) : f ∈ intersect1d a b ↔ f ∈ a ∧ f ∈ b := by
  simp [intersect1d]

theorem intersect1d_sorted (a b : List ℝ) : (intersect1d a b).Pairwise (· < ·) :=
  Finset.sortedLT_sort _ |>.pairwise

/-- A PSD given by a function of the frequency. -/
theorem at_map {l : List ℝ} (g : ℝ → Row R) (f : ℝ) (row : Row R) :
    (PSD.mk l (l.map g)).At f row ↔ f ∈ l ∧ row = g f := by
  constructor
  · rintro ⟨i, h1, h2⟩
    simp only [List.getElem?_map] at h2
    simp only at h1
    rw [h1] at h2
    exact ⟨List.mem_of_getElem? h1, (Option.some.inj h2).symm⟩
  · rintro ⟨hf, rfl⟩
    obtain ⟨i, hi⟩ := List.mem_iff_getElem?.1 hf
    exact ⟨i, hi, by simp [hi]⟩

/-- C63: without `log`, the result is a `Signal` without data whose PSD has exactly the common frequencies, in
strictly increasing order, with the difference of the two values in every realisation; sampling frequency, name of the
log and PSD parameters are those of the first signal. -/
theorem C63_difference (self other : SignalState R) (p q : PSD (R + 1)) (hp : self.wt_psd = some p)
    (hq : other.wt_psd = some q) (hp' : p.WF) (hq' : q.WF) :
    ∃ s D, Signal.psdDifference self other none = .ok s ∧ s.wt_psd = some D ∧
      s.data = none ∧ s.fs = self.fs ∧ s.log = self.log ∧
      D.freq.Pairwise (· < ·) ∧ D.psd.length = D.freq.length ∧
      (∀ f, f ∈ D.freq ↔ f ∈ p.freq ∧ f ∈ q.freq) ∧
      ∀ f row, D.At f row ↔ ∃ a b, p.At f a ∧ q.At f b ∧ row = fun r => a r - b r := by
  have hsub : subArr (rowsAt p (intersect1d p.freq q.freq)) (rowsAt q (intersect1d p.freq q.freq)) =
      (intersect1d p.freq q.freq).map fun f r => p.row f r - q.row f r := by
    rw [hp'.rowsAt_eq (fun f hf => ((mem_intersect1d _ _ f).1 hf).1),
      hq'.rowsAt_eq (fun f hf => ((mem_intersect1d _ _ f).1 hf).2)]
    unfold subArr
    rw [List.zipWith_map, List.zipWith_self]
  obtain ⟨s, e0, e1, e2, e3, e4⟩ : ∃ s, Signal.psdDifference self other none = .ok s ∧
      s.wt_psd = some ⟨intersect1d p.freq q.freq, (intersect1d p.freq q.freq).map fun f r => p.row f r - q.row f r⟩ ∧
      s.data = none ∧ s.fs = self.fs ∧ s.log = self.log := by
    unfold Signal.psdDifference
    rw [hp, hq]
    simp only
    rw [if_neg (not_not.2 ⟨hp'.1, hq'.1⟩)]
    rw [hsub]
    exact ⟨_, rfl, rfl, rfl, rfl, rfl⟩
  refine ⟨s, _, e0, e1, e2, e3, e4, ?_, ?_, ?_, ?_⟩
  · exact intersect1d_sorted _ _
  · simp
  · exact mem_intersect1d _ _
  · intro f row
    rw [at_map (fun f r => p.row f r - q.row f r), mem_intersect1d]
    constructor
    · rintro ⟨⟨h1, h2⟩, rfl⟩
      exact ⟨_, _, (hp'.at_iff _ _).2 ⟨h1, rfl⟩, (hq'.at_iff _ _).2 ⟨h2, rfl⟩, rfl⟩
    · rintro ⟨a, b, ha, hb, rfl⟩
      obtain ⟨h1, rfl⟩ := (hp'.at_iff _ _).1 ha
      obtain ⟨h2, rfl⟩ := (hq'.at_iff _ _).1 hb
      exact ⟨⟨h1, h2⟩, rfl⟩

theorem Fl.sub_swap (a b : Fl) : b - a = -(a - b) := by
  cases a with
  | fin a => cases b with
    | fin b => rw [Fl.fin_sub, Fl.fin_sub, Fl.neg_fin, neg_sub]
    | _ => rfl
  | _ => cases b <;> rfl

/-- C63: the difference of two signals with the same PSD of finite values is zero at every frequency; exchanging the two
signals negates the result. -/
theorem C63_zero_and_swap (self other : SignalState R) (p q : PSD (R + 1)) (hp : self.wt_psd = some p)
    (hq : other.wt_psd = some q) (hp' : p.WF) (hq' : q.WF) :
    ∃ s s' D D', Signal.psdDifference self other none = .ok s ∧ Signal.psdDifference other self none = .ok s' ∧
      s.wt_psd = some D ∧ s'.wt_psd = some D' ∧
      (∀ f row, D.At f row ↔ D'.At f (fun r => -row r)) ∧
      (p = q → (∀ row ∈ p.psd, ∀ r, ∃ x : ℝ, row r = Fl.fin x) → ∀ f row, D.At f row → row = fun _ => Fl.fin 0) := by
  obtain ⟨s, D, h1, h2, -, -, -, -, -, -, h3⟩ := C63_difference self other p q hp hq hp' hq'
  obtain ⟨s', D', h1', h2', -, -, -, -, -, -, h3'⟩ := C63_difference other self q p hq hp hq' hp'
  have hnn : ∀ x : Fl, - -x = x := by
    intro x
    cases x with
    | fin x => rw [Fl.neg_fin, Fl.neg_fin, neg_neg]
    | _ => rfl
  refine ⟨s, s', D, D', h1, h1', h2, h2', ?_, ?_⟩
  · intro f row
    rw [h3, h3']
    constructor
    · rintro ⟨a, b, ha, hb, rfl⟩
      exact ⟨b, a, hb, ha, by funext r; exact (Fl.sub_swap _ _).symm⟩
    · rintro ⟨b, a, hb, ha, hrow⟩
      refine ⟨a, b, ha, hb, ?_⟩
      funext r
      rw [Fl.sub_swap (b r) (a r), ← congrFun hrow r, hnn]
  · rintro rfl hfin f row hrow
    obtain ⟨a, b, ha, hb, rfl⟩ := (h3 f row).1 hrow
    obtain ⟨-, rfl⟩ := (hp'.at_iff _ _).1 ha
    obtain ⟨i, -, hi⟩ := ha
    obtain ⟨-, rfl⟩ := (hp'.at_iff _ _).1 hb
    funext r
    obtain ⟨x, hx⟩ := hfin _ (List.mem_of_getElem? hi) r
    rw [hx, Fl.fin_sub, sub_self]

theorem Fl.min_fin (a b : ℝ) : Fl.min (fin a) (fin b) = fin (Min.min a b) := by
  unfold Fl.min
  rw [Fl.neg_fin, Fl.neg_fin]
  simp only [Fl.max]
  rw [Fl.neg_fin, max_neg_neg, neg_neg]

theorem foldl_min_fin (l : List ℝ) (x : ℝ) :
    ∃ m : ℝ, (l.map Fl.fin).foldl Fl.min (Fl.fin x) = Fl.fin m ∧ m ∈ x :: l ∧ ∀ y ∈ x :: l, m ≤ y := by
  induction l generalizing x with
  | nil => exact ⟨x, rfl, by simp, by simp⟩
  | cons y l ih =>
    obtain ⟨m, h1, h2, h3⟩ := ih (min x y)
    refine ⟨m, ?_, ?_, ?_⟩
    · rw [List.map_cons, List.foldl_cons, Fl.min_fin, h1]
    · rw [List.mem_cons] at h2
      rcases h2 with rfl | h2
      · rcases min_choice x y with h | h <;> rw [h] <;> simp
      · simp [h2]
    · have := h3 (min x y) (by simp)
      intro z hz
      rw [List.mem_cons, List.mem_cons] at hz
      rcases hz with rfl | rfl | hz
      · exact this.trans (min_le_left _ _)
      · exact this.trans (min_le_right _ _)
      · exact h3 z (by simp [hz])

theorem arrMin_fin (a : Arr R) (ha : a ≠ []) (hR : 0 < R) (hf : ∀ row ∈ a, ∀ r, ∃ x : ℝ, row r = Fl.fin x) :
    ∃ m : ℝ, arrMin a = Fl.fin m ∧ (∃ row ∈ a, ∃ r, row r = Fl.fin m) ∧
      ∀ row ∈ a, ∀ r, ∀ x : ℝ, row r = Fl.fin x → m ≤ x := by
  obtain ⟨l, hl⟩ : ∃ l : List ℝ, a.flatMap List.ofFn = l.map Fl.fin := by
    have : ∀ y ∈ a.flatMap List.ofFn, ∃ x : ℝ, y = Fl.fin x := by
      intro y hy
      simp only [List.mem_flatMap, List.mem_ofFn] at hy
      obtain ⟨row, hrow, r, rfl⟩ := hy
      exact hf row hrow r
    generalize a.flatMap List.ofFn = L at this
    induction L with
    | nil => exact ⟨[], rfl⟩
    | cons y L ih =>
      obtain ⟨x, rfl⟩ := this y (by simp)
      obtain ⟨l, rfl⟩ := ih (fun z hz => this z (by simp [hz]))
      exact ⟨x :: l, rfl⟩
  have hmem : ∀ x : ℝ, x ∈ l ↔ ∃ row ∈ a, ∃ r, row r = Fl.fin x := by
    intro x
    have : Fl.fin x ∈ l.map Fl.fin ↔ x ∈ l := by simp
    rw [← this, ← hl]
    simp only [List.mem_flatMap, List.mem_ofFn]
  cases l with
  | nil =>
    exfalso
    obtain ⟨row, hrow⟩ := List.exists_mem_of_ne_nil a ha
    obtain ⟨x, hx⟩ := hf row hrow ⟨0, hR⟩
    have := (hmem x).2 ⟨row, hrow, _, hx⟩
    simp at this
  | cons x l =>
    obtain ⟨m, h1, h2, h3⟩ := foldl_min_fin l x
    refine ⟨m, ?_, (hmem m).1 h2, ?_⟩
    · unfold arrMin; rw [hl]; exact h1
    · intro row hrow r y hy
      exact h3 y ((hmem y).2 ⟨row, hrow, r, hy⟩)

/-- C63 with `log = (f, g)`: when the differences `f(p1) - f(p2)` at the common frequencies are finite, the values are
`g(f(p1) - f(p2) - m + 0.1)` where `m` is the smallest of these differences (attained). -/
theorem C63_log (self other : SignalState R) (p q : PSD (R + 1)) (hp : self.wt_psd = some p)
    (hq : other.wt_psd = some q) (hp' : p.WF) (hq' : q.WF) (f g : Fl → Fl)
    (hne : ∃ x, x ∈ p.freq ∧ x ∈ q.freq)
    (hfin : ∀ x a b, p.At x a → q.At x b → ∀ r, ∃ t : ℝ, f (a r) - f (b r) = Fl.fin t) :
    ∃ s D, ∃ m : ℝ, Signal.psdDifference self other (some (f, g)) = .ok s ∧ s.wt_psd = some D ∧
      s.data = none ∧ s.fs = self.fs ∧ s.log = self.log ∧
      D.freq.Pairwise (· < ·) ∧ D.psd.length = D.freq.length ∧
      (∀ x, x ∈ D.freq ↔ x ∈ p.freq ∧ x ∈ q.freq) ∧
      (∀ x row, D.At x row ↔ ∃ a b, p.At x a ∧ q.At x b ∧
        row = fun r => g (f (a r) - f (b r) - Fl.fin m + Fl.fin (1 / 10))) ∧
      (∃ x a b r, p.At x a ∧ q.At x b ∧ f (a r) - f (b r) = Fl.fin m) ∧
      ∀ x a b r (t : ℝ), p.At x a → q.At x b → f (a r) - f (b r) = Fl.fin t → m ≤ t := by
  have hd : subArr (mapArr f (rowsAt p (intersect1d p.freq q.freq))) (mapArr f (rowsAt q (intersect1d p.freq q.freq))) =
      (intersect1d p.freq q.freq).map fun x r => f (p.row x r) - f (q.row x r) := by
    rw [hp'.rowsAt_eq (fun f hf => ((mem_intersect1d _ _ f).1 hf).1),
      hq'.rowsAt_eq (fun f hf => ((mem_intersect1d _ _ f).1 hf).2)]
    unfold subArr mapArr
    rw [List.map_map, List.map_map, List.zipWith_map, List.zipWith_self]
    rfl
  obtain ⟨x₀, hx₀⟩ := hne
  have hx₀' := (mem_intersect1d p.freq q.freq x₀).2 hx₀
  have hnil : (intersect1d p.freq q.freq).map (fun x (r : Fin (R + 1)) => f (p.row x r) - f (q.row x r)) ≠ [] := by
    intro h
    rw [List.map_eq_nil_iff] at h
    rw [h] at hx₀'
    cases hx₀'
  have hfin' : ∀ row ∈ (intersect1d p.freq q.freq).map (fun x (r : Fin (R + 1)) => f (p.row x r) - f (q.row x r)),
      ∀ r, ∃ x : ℝ, row r = Fl.fin x := by
    intro row hrow r
    obtain ⟨x, hx, rfl⟩ := List.mem_map.1 hrow
    obtain ⟨h1, h2⟩ := (mem_intersect1d _ _ x).1 hx
    exact hfin x _ _ ((hp'.at_iff _ _).2 ⟨h1, rfl⟩) ((hq'.at_iff _ _).2 ⟨h2, rfl⟩) r
  obtain ⟨m, hm, ⟨row, hrow, r₀, hr₀⟩, hmin⟩ := arrMin_fin _ hnil (Nat.succ_pos R) hfin'
  obtain ⟨s, e0, e1, e2, e3, e4⟩ : ∃ s, Signal.psdDifference self other (some (f, g)) = .ok s ∧
      s.wt_psd = some ⟨intersect1d p.freq q.freq, (intersect1d p.freq q.freq).map
        fun x r => g (f (p.row x r) - f (q.row x r) - Fl.fin m + Fl.fin (1 / 10))⟩ ∧
      s.data = none ∧ s.fs = self.fs ∧ s.log = self.log := by
    unfold Signal.psdDifference
    rw [hp, hq]
    simp only
    rw [if_neg (not_not.2 ⟨hp'.1, hq'.1⟩), hd, if_neg hnil, hm]
    refine ⟨_, rfl, ?_, rfl, rfl, rfl⟩
    simp only [mapArr, List.map_map]
    rfl
  refine ⟨s, _, m, e0, e1, e2, e3, e4, ?_, ?_, ?_, ?_, ?_, ?_⟩
  · exact intersect1d_sorted _ _
  · simp
  · exact mem_intersect1d _ _
  · intro x row
    rw [at_map, mem_intersect1d]
    constructor
    · rintro ⟨⟨h1, h2⟩, rfl⟩
      exact ⟨_, _, (hp'.at_iff _ _).2 ⟨h1, rfl⟩, (hq'.at_iff _ _).2 ⟨h2, rfl⟩, rfl⟩
    · rintro ⟨a, b, ha, hb, rfl⟩
      obtain ⟨h1, rfl⟩ := (hp'.at_iff _ _).1 ha
      obtain ⟨h2, rfl⟩ := (hq'.at_iff _ _).1 hb
      exact ⟨⟨h1, h2⟩, rfl⟩
  · obtain ⟨x, hx, rfl⟩ := List.mem_map.1 hrow
    obtain ⟨h1, h2⟩ := (mem_intersect1d _ _ x).1 hx
    exact ⟨x, _, _, r₀, (hp'.at_iff _ _).2 ⟨h1, rfl⟩, (hq'.at_iff _ _).2 ⟨h2, rfl⟩, hr₀⟩
  · intro x a b r t ha hb ht
    obtain ⟨h1, rfl⟩ := (hp'.at_iff _ _).1 ha
    obtain ⟨h2, rfl⟩ := (hq'.at_iff _ _).1 hb
    exact hmin _ (List.mem_map.2 ⟨x, (mem_intersect1d _ _ x).2 ⟨h1, h2⟩, rfl⟩) r t ht

/-- C63 with `log`: without a common frequency the minimum of an empty array raises ValueError (without `log` the result is
an empty PSD). -/
theorem C63_log_no_common (self other : SignalState R) (p q : PSD (R + 1)) (hp : self.wt_psd = some p)
    (hq : other.wt_psd = some q) (hp' : p.WF) (hq' : q.WF) (f g : Fl → Fl) (hne : ∀ x ∈ p.freq, x ∉ q.freq) :
    Signal.psdDifference self other (some (f, g)) = .error .valueError := by
  have hs : intersect1d p.freq q.freq = [] := by
    rw [List.eq_nil_iff_forall_not_mem]
    intro x hx
    obtain ⟨h1, h2⟩ := (mem_intersect1d _ _ x).1 hx
    exact hne x h1 h2
  unfold Signal.psdDifference
  rw [hp, hq]
  simp only
  rw [if_neg (not_not.2 ⟨hp'.1, hq'.1⟩), hs]
  simp [rowsAt, mapArr, subArr]

/-- C63: before a PSD has been estimated on both signals the call raises AttributeError. -/
theorem C63_missing (self other : SignalState R) (log : Option ((Fl → Fl) × (Fl → Fl)))
    (h : self.wt_psd = none ∨ other.wt_psd = none) :
    Signal.psdDifference self other log = .error .attributeError := by
  unfold Signal.psdDifference
  rcases h with h | h
  · rw [h]
  · rw [h]
    rcases self.wt_psd with _ | p <;> rfl

end MFA
