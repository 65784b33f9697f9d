import Verif.Lemmas.Pattern
import Verif.Lemmas.NonNeg
import Verif.Spec.Tree

/-! Leaders as reductions over dyadic neighbourhoods. -/

namespace MFA

open Classical Finset

variable {R : ℕ}

/-! ### Reductions of concatenations -/

theorem NN.fixedNanSum {l : List Fl} (h : ∀ x ∈ l, NN x) : NN (fixedNanSum l) := by
  rw [fixedNanSum_eq]
  split
  · exact Or.inl rfl
  · exact Or.inr (nonneg_sum (nonneg_dropNaN h))

theorem NN.fixedNanMax {l : List Fl} (h : ∀ x ∈ l, NN x) : NN (fixedNanMax l) := by
  by_cases hex : ∃ x ∈ l, x ≠ Fl.nan
  · exact h _ (nanmax_spec hex).1
  · push Not at hex
    exact Or.inl (nanmax_of_all_nan hex)

theorem NN.leaderRed {l : List Fl} (f : Formalism) (h : ∀ x ∈ l, NN x) : NN (leaderRed f l) := by
  unfold MFA.leaderRed; split
  · exact NN.fixedNanSum h
  · exact NN.fixedNanMax h

theorem leaderRed_nan_iff {l : List Fl} (f : Formalism) (h : ∀ x ∈ l, NN x) :
    leaderRed f l = Fl.nan ↔ ∀ x ∈ l, x = Fl.nan := by
  unfold leaderRed; split
  · rw [fixedNanSum_eq, ← dropNaN_eq_nil_iff]
    by_cases hd : dropNaN l = []
    · simp [hd]
    · simp only [hd, iff_false, if_false]
      exact Fl.not_nan_of_le_right (nonneg_sum (nonneg_dropNaN h))
  · exact nanmax_eq_nan_iff l

theorem leaderRed_nil (f : Formalism) : leaderRed f [] = Fl.nan := by
  unfold leaderRed; split <;> rfl

theorem leaderRed_single (f : Formalism) (x : Fl) : leaderRed f [x] = x := by
  unfold leaderRed; split
  · rw [fixedNanSum_eq]
    cases x <;> simp [dropNaN]
  · cases x <;> simp [fixedNanMax, nanmax, dropNaN]

theorem dropNaN_red_cons (f : Formalism) (hf : f = .pleader) {A : List Fl} (hA : ∀ x ∈ A, NN x) (l : List Fl) :
    (dropNaN (leaderRed f A :: l)).sum = (dropNaN A).sum + (dropNaN l).sum := by
  by_cases hd : dropNaN A = []
  · have : leaderRed f A = Fl.nan := (leaderRed_nan_iff f hA).mpr ((dropNaN_eq_nil_iff A).mp hd)
    rw [this, dropNaN_cons_nan, hd, List.sum_nil, zero_add]
  · have e : leaderRed f A = (dropNaN A).sum := by
      rw [leaderRed, if_pos hf, fixedNanSum_eq, if_neg hd]
    have hne : leaderRed f A ≠ Fl.nan := fun h => hd ((dropNaN_eq_nil_iff A).mpr ((leaderRed_nan_iff f hA).mp h))
    rw [dropNaN_cons_of ((Fl.not_isNaN_iff _).mpr hne), List.sum_cons, e]

theorem leaderRed_three (f : Formalism) {A B C : List Fl} (hA : ∀ x ∈ A, NN x) (hB : ∀ x ∈ B, NN x)
    (hC : ∀ x ∈ C, NN x) :
    leaderRed f [leaderRed f A, leaderRed f B, leaderRed f C] = leaderRed f (A ++ B ++ C) := by
  have hall : ∀ x ∈ A ++ B ++ C, NN x := by
    intro x hx
    simp only [List.mem_append] at hx
    rcases hx with (h | h) | h
    · exact hA x h
    · exact hB x h
    · exact hC x h
  have hthree : ∀ x ∈ [leaderRed f A, leaderRed f B, leaderRed f C], NN x := by
    intro x hx
    simp only [List.mem_cons, List.not_mem_nil, or_false] at hx
    rcases hx with rfl | rfl | rfl
    · exact NN.leaderRed f hA
    · exact NN.leaderRed f hB
    · exact NN.leaderRed f hC
  by_cases hnan : ∀ x ∈ A ++ B ++ C, x = Fl.nan
  · rw [(leaderRed_nan_iff f hall).mpr hnan, leaderRed_nan_iff f hthree]
    intro x hx
    simp only [List.mem_cons, List.not_mem_nil, or_false] at hx
    rcases hx with rfl | rfl | rfl
    · exact (leaderRed_nan_iff f hA).mpr fun y hy => hnan y (by simp [hy])
    · exact (leaderRed_nan_iff f hB).mpr fun y hy => hnan y (by simp [hy])
    · exact (leaderRed_nan_iff f hC).mpr fun y hy => hnan y (by simp [hy])
  · by_cases hf : f = .pleader
    · have h1 : dropNaN (A ++ B ++ C) ≠ [] := fun h => hnan ((dropNaN_eq_nil_iff _).mp h)
      have h2 : dropNaN [leaderRed f A, leaderRed f B, leaderRed f C] ≠ [] := by
        intro h
        have h := (dropNaN_eq_nil_iff _).mp h
        apply hnan
        intro x hx
        simp only [List.mem_append] at hx
        rcases hx with (h' | h') | h'
        · exact (leaderRed_nan_iff f hA).mp (h _ (by simp)) x h'
        · exact (leaderRed_nan_iff f hB).mp (h _ (by simp)) x h'
        · exact (leaderRed_nan_iff f hC).mp (h _ (by simp)) x h'
      have e : ∀ l, dropNaN l ≠ [] → leaderRed f l = (dropNaN l).sum := by
        intro l hl; rw [leaderRed, if_pos hf, fixedNanSum_eq, if_neg hl]
      rw [e _ h1, e _ h2, dropNaN_red_cons f hf hA, dropNaN_red_cons f hf hB, dropNaN_red_cons f hf hC,
        dropNaN_append, dropNaN_append, List.sum_append, List.sum_append, dropNaN_nil, List.sum_nil, add_zero, add_assoc]
    · have e : ∀ l, leaderRed f l = nanmax l := by intro l; rw [leaderRed, if_neg hf]; rfl
      simp only [e]
      push Not at hnan
      obtain ⟨m1, m2, m3⟩ := nanmax_spec hnan
      have le' : ∀ l : List Fl, (∀ x ∈ l, x ∈ A ++ B ++ C) → nanmax l ≠ Fl.nan →
          Fl.le (nanmax l) (nanmax (A ++ B ++ C)) := by
        intro l hl hne
        have : ∃ x ∈ l, x ≠ Fl.nan := by
          by_contra h; push Not at h; exact hne (nanmax_of_all_nan h)
        obtain ⟨a, b, -⟩ := nanmax_spec this
        exact m3 _ (hl _ a) b
      have ge : ∀ l : List Fl, (∀ x ∈ l, x ∈ A ++ B ++ C) → nanmax (A ++ B ++ C) ∈ l →
          nanmax l = nanmax (A ++ B ++ C) := fun l hl hm =>
        nanmax_unique hm m2 (fun x hx hxn => m3 x (hl x hx) hxn)
      apply nanmax_unique
      · have m1' := m1
        simp only [List.mem_append] at m1'
        rcases m1' with (h | h) | h
        · rw [ge A (fun x hx => by simp [hx]) h]; simp
        · rw [ge B (fun x hx => by simp [hx]) h]; simp
        · rw [ge C (fun x hx => by simp [hx]) h]; simp
      · exact m2
      · intro x hx hxn
        simp only [List.mem_cons, List.not_mem_nil, or_false] at hx
        rcases hx with rfl | rfl | rfl
        · exact le' A (fun x hx => by simp [hx]) hxn
        · exact le' B (fun x hx => by simp [hx]) hxn
        · exact le' C (fun x hx => by simp [hx]) hxn

/-! ### Trees -/

/-- The pairs (scale, position) below `(s, k)`. -/
def desc : ℕ → ℕ → List (ℕ × ℕ)
  | 0, _ => []
  | s + 1, k => (s + 1, k) :: (desc s (2 * k) ++ desc s (2 * k + 1))

/-- The neighbourhood of leader `k` at scale `s`. -/
def nbhd (s k : ℕ) : List (ℕ × ℕ) := desc s k ++ desc s (k + 1) ++ desc s (k + 2)

theorem mem_desc {s k j' k' : ℕ} : (j', k') ∈ desc s k ↔ 1 ≤ j' ∧ j' ≤ s ∧ k' / 2 ^ (s - j') = k := by
  induction s generalizing k with
  | zero => simp only [desc, List.not_mem_nil, false_iff]; omega
  | succ s ih =>
    simp only [desc, List.mem_cons, Prod.mk.injEq, List.mem_append, ih]
    by_cases h : j' = s + 1
    · subst h; simp
    · by_cases h' : j' ≤ s
      · have e : k' / 2 ^ (s + 1 - j') = k' / 2 ^ (s - j') / 2 := by
          rw [Nat.div_div_eq_div_mul, ← pow_succ]; congr 2; omega
        rw [e]
        omega
      · omega

theorem mem_nbhd {s k j' k' : ℕ} : (j', k') ∈ nbhd s k ↔ InNbhd s k j' k' := by
  simp only [nbhd, List.mem_append, mem_desc, InNbhd]
  omega

theorem InNbhd.lt_length {N s k j' k' : ℕ} (h : InNbhd s k j' k') (hk : k + 2 < N / 2 ^ s) : k' < N / 2 ^ j' := by
  obtain ⟨h1, h2, h3, h4⟩ := h
  have h5 : k' / 2 ^ (s - j') < N / 2 ^ j' / 2 ^ (s - j') := by
    rw [Nat.div_div_eq_div_mul, ← pow_add, show j' + (s - j') = s by omega]; omega
  by_contra hc
  exact absurd (Nat.div_le_div_right (c := 2 ^ (s - j')) (not_lt.mp hc)) (by omega)

/-- What the formalism does with one coefficient at scale `s`. -/
noncomputable def inpF (p : PExp) (s : ℕ) (x : Fl) : Fl :=
  match p with
  | .num e => Fl.fin ((2:ℝ) ^ s) * fastPower e x.abs
  | _ => x.abs

theorem leaderInput_eq (d : Arr R) (s : ℕ) (p : PExp) : leaderInput d s p = mapArr (inpF p s) d := by
  cases p <;> rfl

theorem NN.pow {x : Fl} (h : NN x) (e : ℝ) : NN (x.pow e) := by
  unfold Fl.pow
  split
  · exact Or.inr zero_le_one
  · rcases h.cases with rfl | rfl | ⟨a, ha, rfl⟩
    · exact Or.inl rfl
    · simp only
      split
      · exact Or.inr trivial
      · exact Or.inr (_root_.le_refl (0:ℝ))
    · simp only
      split
      · split
        · exact Or.inr (_root_.le_refl (0:ℝ))
        · exact Or.inr trivial
      · split
        · exact Or.inr (Real.rpow_nonneg ha e)
        · exact Or.inl rfl

theorem NN.fastPower {x : Fl} (h : NN x) (e : Expo) : NN (fastPower e x) := by
  rw [fastPower_eq]
  split
  · exact Or.inl rfl
  · split
    · exact Or.inl rfl
    · exact h.pow _

theorem NN.inpF (p : PExp) (s : ℕ) (x : Fl) : NN (inpF p s x) := by
  cases p with
  | none => exact NN.abs x
  | inf => exact NN.abs x
  | num e => exact ((NN.abs x).fastPower e).fin_mul (by positivity)

theorem Fl.pow_eq_nan_iff {x : Fl} (h : NN x) {e : ℝ} (he : e ≠ 0) : x.pow e = Fl.nan ↔ x = Fl.nan := by
  unfold Fl.pow
  rw [if_neg he]
  rcases h.cases with rfl | rfl | ⟨a, ha, rfl⟩
  · simp
  · simp only; split <;> simp
  · simp only
    split
    · split <;> simp
    · rename_i h0
      rw [if_pos (Or.inl (lt_of_le_of_ne ha (Ne.symm h0)))]; simp

theorem fastPower_eq_nan_iff {x : Fl} (h : NN x) (e : Expo) : fastPower e x = Fl.nan ↔ x = Fl.nan := by
  rw [fastPower_eq]
  by_cases he : e.val = 0
  · by_cases hx : x = Fl.nan
    · simp [he, hx]
    · simp [he, hx, Fl.pow]
  · rw [if_neg (fun hh => he hh.1), if_neg, Fl.pow_eq_nan_iff h he]
    rintro ⟨-, rfl⟩
    rcases h with h | h
    · cases h
    · simp [Fl.le] at h

theorem fin_mul_eq_nan_iff {x : Fl} {c : ℝ} (hc : c ≠ 0) : Fl.fin c * x = Fl.nan ↔ x = Fl.nan := by
  cases x with
  | nan => simp
  | fin a => rw [Fl.fin_mul]; simp
  | pinf =>
    rw [Fl.fin_mul_pinf]
    rcases Fl.sgnInf_trichotomy c with ⟨_, h, _⟩ | ⟨_, h, _⟩ | ⟨h, _, _⟩
    · simp [h]
    · simp [h]
    · exact absurd h hc
  | ninf =>
    rw [Fl.fin_mul_ninf]
    rcases Fl.sgnInf_trichotomy c with ⟨_, _, h⟩ | ⟨_, _, h⟩ | ⟨h, _, _⟩
    · simp [h]
    · simp [h]
    · exact absurd h hc

theorem abs_eq_nan_iff (x : Fl) : x.abs = Fl.nan ↔ x = Fl.nan := by cases x <;> simp

theorem inpF_eq_nan_iff (p : PExp) (s : ℕ) (x : Fl) : inpF p s x = Fl.nan ↔ x = Fl.nan := by
  cases p with
  | none => exact abs_eq_nan_iff x
  | inf => exact abs_eq_nan_iff x
  | num e =>
    rw [inpF, fin_mul_eq_nan_iff (by positivity), fastPower_eq_nan_iff (NN.abs x), abs_eq_nan_iff]

theorem outF_eq_nan_iff (p : PExp) (s : ℕ) {x : Fl} (h : NN x) : outF p s x = Fl.nan ↔ x = Fl.nan := by
  cases p with
  | none => exact Iff.rfl
  | inf => exact Iff.rfl
  | num e =>
    rw [outF, fastPower_eq_nan_iff (h.fin_mul (by positivity)), fin_mul_eq_nan_iff (by positivity)]

/-- The list of inputs of the neighbourhood `l`. -/
noncomputable def inputs (P : LoopParams) (p : PExp) (sig : Arr R) (r : Fin R) (l : List (ℕ × ℕ)) : List Fl :=
  l.map fun q => inpF p q.1 (ent (coefSeq P sig q.1) q.2 r)

theorem NN.inputs (P : LoopParams) (p : PExp) (sig : Arr R) (r : Fin R) (l : List (ℕ × ℕ)) :
    ∀ x ∈ MFA.inputs P p sig r l, NN x := by
  intro x hx
  obtain ⟨q, -, rfl⟩ := List.mem_map.mp hx
  exact NN.inpF p q.1 _

theorem ent_inpSeq (P : LoopParams) (p : PExp) (sig : Arr R) {s k : ℕ} (hs : 1 ≤ s) (hk : k < sig.length / 2 ^ s)
    (r : Fin R) : ent (inpSeq P p sig s) k r = inpF p s (ent (coefSeq P sig s) k r) := by
  rw [inpSeq, leaderInput_eq, ent_mapArr _ _ (by rw [coefSeq_length _ _ _ hs]; exact hk)]

theorem svF_eq (P : LoopParams) (p : PExp) (sig : Arr R) (r : Fin R) (s : ℕ) : ∀ k, k < sig.length / 2 ^ (s + 1) →
    svF P p sig s k r = leaderRed (checkFormalism p) (inputs P p sig r (desc (s + 1) k)) := by
  induction s with
  | zero =>
    intro k hk
    show ent (inpSeq P p sig 1) k r = _
    rw [ent_inpSeq _ _ _ le_rfl hk]
    simp only [desc, List.nil_append, inputs, List.map_cons, List.map_nil]
    rw [leaderRed_single]
  | succ s ih =>
    intro k hk
    have hk' : 2 * k + 1 < sig.length / 2 ^ (s + 1) := by
      rw [pow_succ, ← Nat.div_div_eq_div_mul] at hk; omega
    rw [svF, ih _ (by omega), ih _ hk', ent_inpSeq _ _ _ (by omega) hk, ← leaderRed_single (checkFormalism p) (inpF p _ _),
      leaderRed_three _ _ (NN.inputs _ _ _ _ _) (NN.inputs _ _ _ _ _)]
    · congr 1
      rw [show desc (s + 1 + 1) k = (s + 1 + 1, k) :: (desc (s + 1) (2 * k) ++ desc (s + 1) (2 * k + 1)) from rfl]
      simp only [inputs, List.map_cons, List.map_append, List.cons_append, List.nil_append]
    · intro x hx
      rw [List.mem_singleton] at hx
      rw [hx]; exact NN.inpF _ _ _

theorem ent_leadSeq (P : LoopParams) (p : PExp) (sig : Arr R) (r : Fin R) {s k : ℕ} (hs : 1 ≤ s)
    (hk : k < sig.length / 2 ^ s - 2) :
    ent (leadSeq P p sig s) k r = outF p s (leaderRed (checkFormalism p) (inputs P p sig r (nbhd s k))) := by
  obtain ⟨t, rfl⟩ : ∃ t, s = t + 1 := ⟨s - 1, by omega⟩
  rw [leadSeq, ent_map_range _ hk, Nat.add_sub_cancel, svF_eq _ _ _ _ _ _ (by omega), svF_eq _ _ _ _ _ _ (by omega),
    svF_eq _ _ _ _ _ _ (by omega), leaderRed_three _ (NN.inputs _ _ _ _ _) (NN.inputs _ _ _ _ _) (NN.inputs _ _ _ _ _)]
  congr 2
  simp [inputs, nbhd]

/-- A leader is NaN iff all coefficients of its neighbourhood are. -/
theorem ent_leadSeq_nan_iff (P : LoopParams) (p : PExp) (sig : Arr R) (r : Fin R) {s k : ℕ} (hs : 1 ≤ s)
    (hk : k < sig.length / 2 ^ s - 2) :
    ent (leadSeq P p sig s) k r = Fl.nan ↔
      ∀ j' k', InNbhd s k j' k' → ent (coefSeq P sig j') k' r = Fl.nan := by
  rw [ent_leadSeq P p sig r hs hk, outF_eq_nan_iff _ _ (NN.leaderRed _ (NN.inputs _ _ _ _ _)),
    leaderRed_nan_iff _ (NN.inputs _ _ _ _ _)]
  constructor
  · intro h j' k' hn
    have := h (inpF p j' (ent (coefSeq P sig j') k' r)) (List.mem_map.mpr ⟨(j', k'), mem_nbhd.mpr hn, rfl⟩)
    rwa [inpF_eq_nan_iff] at this
  · intro h x hx
    obtain ⟨⟨j', k'⟩, hq, rfl⟩ := List.mem_map.mp hx
    rw [inpF_eq_nan_iff]
    exact h j' k' (mem_nbhd.mp hq)

theorem leadSeq_length (P : LoopParams) (p : PExp) (sig : Arr R) (s : ℕ) :
    (leadSeq P p sig s).length = sig.length / 2 ^ s - 2 := by simp [leadSeq]

end MFA
