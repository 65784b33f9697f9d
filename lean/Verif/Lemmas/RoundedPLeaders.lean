import Verif.Lemmas.RoundedWavelet
import Verif.Props.PLeaders

/-! The correction of the p-leaders in rounded arithmetic. -/

namespace MFA

open Filter Topology Classical

noncomputable section

variable {R : ℕ}

theorem CvTo.neg {f : Machine → Fl} {a : ℝ} (hf : CvTo f a) : CvTo (fun M => -f M) (-a) :=
  hf.map1 (op := fun x => -x) (φ := fun x => -x) (Eventually.of_forall fun _ => rfl) (by fun_prop)

theorem CvTo.zpjCorr {f : Machine → Fl} {b : ℝ} (hf : CvTo f b) (hb : 0 < b) (p : ℝ) {j : ℕ} (hj : 1 ≤ j) :
    ∃ c, CvTo (fun M => M.zpjCorr (f M) p j) c := by
  have h1 := one_sub_pos hb
  have h2 : 0 < 1 - (2:ℝ) ^ (-((j : ℝ) * b)) := one_sub_pos (mul_pos (by exact_mod_cast hj) hb)
  exact ⟨_, ((CvTo.const (-1 / p)).mul ((((CvTo.const 1).sub ((CvTo.const (j : ℝ)).mul hf).neg.exp2).div
    ((CvTo.const 1).sub hf.neg.exp2) h1.ne').log2 (div_pos h2 h1))).exp2⟩

theorem CvE.toEv {f : Machine → Fl} (h : CvE f) : EvE f := by
  rcases h with h | ⟨-, h⟩
  · exact Or.inl (Eventually.of_forall h)
  · exact Or.inr h

theorem CvArr.corr {a : FArr R} (ha : CvArr a) {z : Fin R → Machine → Fl} (hz : ∀ r, ∃ c, CvTo (z r) c) :
    ∃ a' : FArr R, CvArr a' ∧ (∀ᶠ M in Lmach, ((a.at M).map fun row r => M.mul (row r) (z r M)) = a'.at M) ∧
      ∀ (M : Machine) (r : Fin R), countNotNaN (col (a'.at M) r) = countNotNaN (col (a.at M) r) := by
  have hE : ∀ (row : Fin R → Machine → Fl) (r : Fin R), ∃ f' : Machine → Fl, row ∈ a →
      CvE f' ∧ ∀ᶠ M in Lmach, M.mul (row r M) (z r M) = f' M := by
    intro row r
    by_cases hrow : row ∈ a
    · obtain ⟨f', h1, h2⟩ := ((ha row hrow r).toEv.mul (Or.inr (hz r))).strict
      exact ⟨f', fun _ => ⟨h1, h2⟩⟩
    · exact ⟨fun _ => Fl.nan, fun h => absurd h hrow⟩
  choose f' hf' using hE
  refine ⟨a.map fun row r => f' row r, ?_, ?_, ?_⟩
  · intro row hrow r
    obtain ⟨row0, h0, rfl⟩ := List.mem_map.1 hrow
    exact (hf' row0 r h0).1
  · have : ∀ᶠ M in Lmach, ∀ row ∈ {row | row ∈ a}, ∀ r, M.mul (row r M) (z r M) = f' row r M := by
      rw [eventually_all_finite (List.finite_toSet _)]
      intro row hrow
      rw [eventually_all]
      exact fun r => (hf' row r hrow).2
    filter_upwards [this] with M hM
    simp only [FArr.at, List.map_map]
    refine List.map_congr_left fun row hrow => ?_
    funext r
    exact hM row hrow r
  · intro M r
    rw [col_at, col_at, List.map_map]
    unfold countNotNaN dropNaN
    rw [List.filter_map, List.filter_map, List.length_map, List.length_map]
    congr 1
    refine List.filter_congr fun row hrow => ?_
    show (!(f' row r M).isNaN) = !(row r M).isNaN
    obtain ⟨c1, c2⟩ := hf' row r hrow
    rw [c1.isNaN M Machine.exact, (ha row hrow r).isNaN M Machine.exact]
    have e : Machine.exact.mul (row r Machine.exact) (z r Machine.exact) = f' row r Machine.exact := pure_le_Lmach c2
    obtain ⟨c, hc⟩ := hz r
    rw [← e, hc.exact]
    rcases ha row hrow r with h | ⟨h, -⟩
    · rw [h, Machine.nan_mul]
    · obtain ⟨x, hx⟩ := h Machine.exact
      rw [hx]
      rfl

theorem Dict.get?_map {α β : Type} (f : α → β) (j : ℤ) : ∀ d : Dict α,
    Dict.get? (d.map fun p => (p.1, f p.2)) j = (Dict.get? d j).map f
  | [] => rfl
  | (k, w) :: d => by
    simp only [List.map_cons, Dict.get?]
    split_ifs
    · rfl
    · exact Dict.get?_map f j d

theorem Dict.mem_of_get?' {α : Type} (j : ℤ) (v : α) : ∀ d : Dict α, Dict.get? d j = some v → (j, v) ∈ d
  | [], h => by cases h
  | (k, w) :: d, h => by
    simp only [Dict.get?] at h
    split_ifs at h with hk
    · cases h; rw [hk]; simp
    · exact List.mem_cons_of_mem _ (Dict.mem_of_get?' j v d h)

/-- Replacing an array with one that has the same counts does not change the counts. -/
theorem Dict.set_counts {α β : Type} (f : α → β) (j : ℤ) (v v' : α) (e : f v' = f v) : ∀ d : Dict α, Dict.get? d j = some v →
    (Dict.set d j v').map (fun p => (p.1, f p.2)) = d.map fun p => (p.1, f p.2)
  | [], h => by cases h
  | (k, w) :: d, h => by
    simp only [Dict.get?] at h
    simp only [Dict.set]
    split_ifs at h ⊢ with hk
    · cases h
      simp only [List.map_cons, e]
    · rw [List.map_cons, List.map_cons, Dict.set_counts f j v v' e d h]

theorem FMrq.applyCorr {η : Fin R → Machine → Fl} {b : Fin R → ℝ} (hη : ∀ r, CvTo (η r) (b r)) (hb : ∀ r, 0 < b r) (p : ℝ) (js : List ℕ) :
    (∀ j ∈ js, 1 ≤ j) → ∀ base : List (ℤ × FArr R), (∀ a ∈ base, CvArr a.2) →
    (∃ e, ∀ᶠ M in Lmach, M.applyCorr (fun r => η r M) p js (base.map fun a => (a.1, a.2.at M)) = .error e) ∨
    ∃ base' : List (ℤ × FArr R), (∀ a ∈ base', CvArr a.2) ∧
      (∀ᶠ M in Lmach, M.applyCorr (fun r => η r M) p js (base.map fun a => (a.1, a.2.at M)) = .ok (base'.map fun a => (a.1, a.2.at M))) ∧
      ∀ M : Machine, (base'.map fun a => (a.1, fun r => countNotNaN (col (a.2.at M) r))) =
        base.map fun a => (a.1, fun r => countNotNaN (col (a.2.at M) r)) := by
  induction js with
  | nil => intro _ base h; exact Or.inr ⟨base, h, Eventually.of_forall fun M => rfl, fun M => rfl⟩
  | cons j js ih =>
    intro hj base hbase
    cases hget : Dict.get? base (j : ℤ) with
    | none =>
      refine Or.inl ⟨.keyError, Eventually.of_forall fun M => ?_⟩
      unfold Machine.applyCorr getKey
      rw [Dict.get?_map (fun a : FArr R => a.at M), hget]
      rfl
    | some a =>
      have hmem := Dict.mem_of_get?' _ _ _ hget
      have hz : ∀ r, ∃ c, CvTo (fun M => M.zpjCorr (η r M) p j) c := fun r => (hη r).zpjCorr (hb r) p (hj j (by simp))
      obtain ⟨a', h1, h2, h3⟩ := (hbase _ hmem).corr hz
      have hbase' : ∀ x ∈ Dict.set base (j : ℤ) a', CvArr x.2 := by
        intro x hx
        rcases Dict.mem_set _ _ _ _ hx with h | h
        · exact hbase x h
        · rw [h]; exact h1
      have step : ∀ᶠ M in Lmach, M.applyCorr (fun r => η r M) p (j :: js) (base.map fun a => (a.1, a.2.at M)) =
          M.applyCorr (fun r => η r M) p js ((Dict.set base (j : ℤ) a').map fun a => (a.1, a.2.at M)) := by
        filter_upwards [h2] with M hM
        conv_lhs => unfold Machine.applyCorr getKey
        rw [Dict.get?_map (fun a : FArr R => a.at M), hget]
        simp only [Option.map_some]
        rw [Dict.set_map (fun a : FArr R => a.at M)]
        rw [hM]
      rcases ih (fun k hk => hj k (by simp [hk])) _ hbase' with ⟨e, he⟩ | ⟨base', g1, g2, g3⟩
      · refine Or.inl ⟨e, ?_⟩
        filter_upwards [step, he] with M s1 s2
        rw [s1, s2]
      · refine Or.inr ⟨base', g1, ?_, fun M => ?_⟩
        · filter_upwards [step, g2] with M s1 s2
          rw [s1, s2]
        · rw [g3 M]
          refine Dict.set_counts (fun a : FArr R => fun r => countNotNaN (col (a.at M) r)) _ a a' ?_ base hget
          funext r
          exact h3 M r

end

end MFA
