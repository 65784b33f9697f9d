import Verif.Lemmas.Fl
import Verif.Spec.Regular

/-! A concrete quantity showing that the hypotheses of the theorems on multiresolution quantities can be met. -/

namespace MFA

/-- Two scales, two realisations; the second realisation has a NaN at scale 1. -/
noncomputable def demo : MRQ 2 :=
  ((MRQ.empty .coef (1/2)).addValues
    [fun _ => Fl.fin 1, fun r => if r = 0 then Fl.fin (-2) else Fl.nan, fun _ => Fl.fin 4] 1).addValues
    [fun _ => Fl.fin 8, fun _ => Fl.fin 3] 2

theorem demo_values : demo.values =
    [(1, [fun _ => Fl.fin 1, fun r => if r = 0 then Fl.fin (-2) else Fl.nan, fun _ => Fl.fin 4]),
     (2, [fun _ => Fl.fin 8, fun _ => Fl.fin 3])] := by
  simp [demo, MRQ.addValues, MRQ.empty, Dict.set]

theorem demo_regular : Regular demo 2 := by
  constructor
  · rw [demo_values]; simp [List.range_succ]
  · rw [demo_values]; simp [demo, MRQ.addValues, MRQ.empty, Dict.set]

theorem demo_nonzero : NonzeroData demo := by
  intro p hp r
  rw [demo_values] at hp
  simp only [List.mem_cons, List.not_mem_nil, or_false] at hp
  rcases hp with rfl | rfl
  · simp only [col, List.map_cons, List.map_nil]
    refine ⟨⟨Fl.fin 1, by simp, by simp⟩, fun x hx => ?_⟩
    simp only [List.mem_cons, List.not_mem_nil, or_false] at hx
    rcases hx with rfl | rfl | rfl
    · exact Or.inr ⟨1, by norm_num, rfl⟩
    · by_cases h : r = 0
      · exact Or.inr ⟨-2, by norm_num, by rw [if_pos h]⟩
      · exact Or.inl (by rw [if_neg h])
    · exact Or.inr ⟨4, by norm_num, rfl⟩
  · simp only [col, List.map_cons, List.map_nil]
    refine ⟨⟨Fl.fin 8, by simp, by simp⟩, fun x hx => ?_⟩
    simp only [List.mem_cons, List.not_mem_nil, or_false] at hx
    rcases hx with rfl | rfl
    · exact Or.inr ⟨8, by norm_num, rfl⟩
    · exact Or.inr ⟨3, by norm_num, rfl⟩

theorem demo_rows : ∀ p ∈ demo.values, p.2 ≠ [] := by
  intro p hp
  rw [demo_values] at hp
  simp only [List.mem_cons, List.not_mem_nil, or_false] at hp
  rcases hp with rfl | rfl <;> simp

end MFA
