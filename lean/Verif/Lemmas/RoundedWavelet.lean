import Verif.Lemmas.RoundedArrays

/-! The rounded wavelet analysis: the loops. -/

namespace MFA

open Filter Topology Classical

noncomputable section

variable {R : ℕ}

/-! ### On the exact machine -/

namespace Machine

theorem exact_filtering : @filtering exact R = @MFA.filtering R := rfl

theorem exact_normalize : @normalize exact R = @MFA.normalize R := by
  funext d s nm g
  unfold normalize MFA.normalize
  by_cases h : nm = 0
  · rw [if_pos h, if_pos h]
  · rw [if_neg h, if_neg h]
    have e : exact.exp2 (exact.mul (Fl.fin s) (exact.sub (Fl.fin (1 / 2)) (exact.div (Fl.fin 1) (Fl.fin nm)))) =
        Fl.fin ((2:ℝ) ^ ((s : ℝ) * (1 / 2 - 1 / nm))) := by
      show Fl.exp2 (Fl.fin s * (Fl.fin (1 / 2) - Fl.fin 1 / Fl.fin nm)) = _
      rw [Fl.fin_div h, Fl.fin_sub, Fl.fin_mul]
      rfl
    rw [e]
    rfl

theorem exact_leaderRed : exact.leaderRed = MFA.leaderRed := by
  funext f
  unfold leaderRed MFA.leaderRed
  rw [exact_fixedNanSum]

theorem exact_findSansVoisin : @findSansVoisin exact R = @MFA.findSansVoisin R := by
  funext s d sv f
  unfold findSansVoisin MFA.findSansVoisin
  rw [exact_leaderRed]

theorem exact_leaderInput : @leaderInput exact R = @MFA.leaderInput R := by
  funext d s p
  cases p with
  | none => rfl
  | inf => rfl
  | num p =>
    unfold leaderInput MFA.leaderInput
    have e : exact.exp2 (Fl.fin s) = Fl.fin ((2:ℝ) ^ s) := by
      show Fl.fin ((2:ℝ) ^ (s : ℝ)) = _
      rw [Real.rpow_natCast]
    simp only [e]
    rfl

theorem exact_leaderOutput : @leaderOutput exact R = @MFA.leaderOutput R := by
  funext d s p
  cases p <;> rfl

theorem exact_computeLeaders : @computeLeaders exact R = @MFA.computeLeaders R := by
  funext d sv s p
  unfold computeLeaders MFA.computeLeaders
  rw [exact_findSansVoisin, exact_leaderInput, exact_leaderOutput, exact_leaderRed]
  rfl

theorem exact_coefLoop (P : LoopParams) (n : ℕ) : ∀ (s : ℕ) (ml : ℤ) (a : Arr R) (acc : MRQ R),
    exact.coefLoop P n s ml a acc = MFA.coefLoop P n s ml a acc := by
  induction n with
  | zero => intro s ml a acc; rfl
  | succ n ih =>
    intro s ml a acc
    unfold coefLoop MFA.coefLoop
    rw [exact_filtering, exact_normalize]
    simp only [ih]
    rfl

theorem exact_leadLoop (P : LoopParams) (p : PExp) (n : ℕ) : ∀ (s : ℕ) (ml : ℤ) (a : Arr R) (st : LeadState R),
    exact.leadLoop P p n s ml a st = MFA.leadLoop P p n s ml a st := by
  induction n with
  | zero => intro s ml a st; rfl
  | succ n ih =>
    intro s ml a st
    unfold leadLoop MFA.leadLoop
    rw [exact_filtering, exact_normalize, exact_computeLeaders]
    simp only [ih]
    rfl

theorem exact_applyCorr (eta : Row R) (p : ℝ) (js : List ℕ) : ∀ (d : Dict (Arr R)), exact.applyCorr eta p js d = MFA.applyCorr eta p js d := by
  induction js with
  | nil => intro d; rfl
  | cons j js ih =>
    intro d
    unfold applyCorr MFA.applyCorr
    simp only [ih]
    rfl

theorem exact_correctLeaders : @correctLeaders exact R = @MFA.correctLeaders R := by
  funext c l p j1 j2 weighted ml
  unfold correctLeaders MFA.correctLeaders estimateEtaP MFA.estimateEtaP
  simp only [exact_structFn, exact_applyCorr]
  rfl

/-- On the machine that computes exactly, the rounded wavelet analysis is the model. -/
theorem exact_waveletAnalysis : @waveletAnalysis exact R = @MFA.waveletAnalysis R := by
  funext sig p wt j1 j2 g nm weighted
  unfold waveletAnalysis MFA.waveletAnalysis
  simp only [exact_coefLoop, exact_leadLoop, exact_correctLeaders]
  rfl

theorem exact_mfAnalysisFull : @mfAnalysisFull exact R = @MFA.mfAnalysisFull R := by
  funext sig j1 j2 nm g weighted wt p q n
  unfold mfAnalysisFull MFA.mfAnalysisFull mfAnalysis MFA.mfAnalysis
  simp only [exact_waveletAnalysis, exact_mfVar]
  rfl

end Machine

/-! ### Loops -/

/-- A computed multiresolution quantity. -/
def EvM (m : Machine → MRQ R) : Prop := ∃ fm : FMrq R, (∀ p ∈ fm.base, CvArr p.2) ∧ ∀ᶠ M in Lmach, m M = fm.at M

theorem Dict.set_map {α β : Type} (f : α → β) (j : ℤ) (v : α) : ∀ d : Dict α,
    (Dict.set d j v).map (fun p => (p.1, f p.2)) = Dict.set (d.map fun p => (p.1, f p.2)) j (f v)
  | [] => rfl
  | (k, w) :: d => by
    simp only [Dict.set, List.map_cons]
    split_ifs
    · rfl
    · rw [List.map_cons, Dict.set_map f j v d]

theorem Dict.mem_set {α : Type} (j : ℤ) (v : α) : ∀ (d : Dict α) (p : ℤ × α), p ∈ Dict.set d j v → p ∈ d ∨ p.2 = v
  | [], p, h => by
    simp only [Dict.set, List.mem_singleton] at h
    exact Or.inr (by rw [h])
  | (k, w) :: d, p, h => by
    simp only [Dict.set] at h
    split_ifs at h
    · rcases List.mem_cons.1 h with h | h
      · exact Or.inr (by rw [h])
      · exact Or.inl (by simp [h])
    · rcases List.mem_cons.1 h with h | h
      · exact Or.inl (by simp [h])
      · rcases Dict.mem_set j v d p h with h | h
        · exact Or.inl (by simp [h])
        · exact Or.inr h

theorem EvM.add {m : Machine → MRQ R} (h : EvM m) {D : Machine → Arr R} (hD : EvA EvE D) (j : ℤ) :
    EvM (fun M => (m M).addValues (D M) j) := by
  obtain ⟨fm, h1, h2⟩ := h
  obtain ⟨a, ha, e⟩ := hD.strict
  refine ⟨{ fm with base := Dict.set fm.base j a }, ?_, ?_⟩
  · intro p hp
    rcases Dict.mem_set j a fm.base p hp with h | h
    · exact h1 p h
    · rw [h]; exact ha
  · filter_upwards [h2, e] with M e1 e2
    rw [e1, e2]
    unfold MRQ.addValues FMrq.at
    have s1 := Dict.set_map (fun a : FArr R => a.at M) j a fm.base
    have s2 := Dict.set_map (fun (a : FArr R) (r : Fin R) => countNotNaN (col (a.at M) r)) j a fm.base
    simp only [s1, s2]

theorem EvM.empty (f : Formalism) (g : ℝ) : EvM (R := R) (fun _ => MRQ.empty f g) :=
  ⟨⟨f, g, []⟩, by simp, Eventually.of_forall fun M => rfl⟩

theorem EvM.coefLoop (P : LoopParams) (hR : R ≠ 0) (hn : P.normalization ≠ 0) : ∀ (n s : ℕ) (ml : ℤ) (A : Machine → Arr R) (acc : Machine → MRQ R),
    EvA EvE A → EvM acc → ∃ (acc' : Machine → MRQ R) (ml' : ℤ), EvM acc' ∧
      ∀ᶠ M in Lmach, M.coefLoop P n s ml (A M) (acc M) = .ok (acc' M, ml') := by
  intro n
  induction n with
  | zero => intro s ml A acc _ h; exact ⟨acc, ml, h, Eventually.of_forall fun M => rfl⟩
  | succ n ih =>
    intro s ml A acc hA hacc
    obtain ⟨D, hD, hDe⟩ := (hA.conv P.high.length P.high).normalize s hn P.gamint
    have hL := hA.conv P.high.length P.low
    rcases hD.tooFew with ht | ht
    · refine ⟨acc, s - 1, hacc, ?_⟩
      filter_upwards [ht] with M hM
      unfold Machine.coefLoop Machine.filtering
      rw [if_neg hR]
      simp only
      rw [hDe M]
      simp only
      rw [if_pos hM]
    · obtain ⟨acc', ml', h1, h2⟩ := ih (s + 1) ml _ _ hL (hacc.add hD s)
      refine ⟨acc', ml', h1, ?_⟩
      filter_upwards [ht, h2] with M hM hM2
      unfold Machine.coefLoop Machine.filtering
      rw [if_neg hR]
      simp only
      rw [hDe M]
      simp only
      rw [if_neg hM]
      exact hM2

/-- A computed state of the loop over scales. -/
def EvSt (st : Machine → LeadState R) : Prop :=
  EvM (fun M => (st M).coefs) ∧ EvM (fun M => (st M).leaders) ∧ EvA EvN (fun M => (st M).sans_voisin)

theorem EvSt.leadLoop (P : LoopParams) {p : PExp} (hp : LeaderP p) (hR : R ≠ 0) (hn : P.normalization ≠ 0) :
    ∀ (n s : ℕ) (ml : ℤ) (A : Machine → Arr R) (st : Machine → LeadState R), EvA EvE A → EvSt st →
      (∃ e, ∀ᶠ M in Lmach, M.leadLoop P p n s ml (A M) (st M) = .error e) ∨
      ∃ (st' : Machine → LeadState R) (ml' : ℤ), EvSt st' ∧ ∀ᶠ M in Lmach, M.leadLoop P p n s ml (A M) (st M) = .ok (st' M, ml') := by
  intro n
  induction n with
  | zero => intro s ml A st _ h; exact Or.inr ⟨st, ml, h, Eventually.of_forall fun M => rfl⟩
  | succ n ih =>
    intro s ml A st hA hst
    obtain ⟨D, hD, hDe⟩ := (hA.conv P.high.length P.high).normalize s hn P.gamint
    have hL := hA.conv P.high.length P.low
    rcases hD.tooFew with ht | ht
    · refine Or.inr ⟨st, s - 1, hst, ?_⟩
      filter_upwards [ht] with M hM
      unfold Machine.leadLoop Machine.filtering
      rw [if_neg hR]
      simp only
      rw [hDe M]
      simp only
      rw [if_pos hM]
    · rcases hD.computeLeaders hp s hst.2.2 with ⟨e, he⟩ | ⟨a, ⟨ha1, ha2⟩, he⟩
      · refine Or.inl ⟨e, ?_⟩
        filter_upwards [ht, he] with M hM hM2
        unfold Machine.leadLoop Machine.filtering
        rw [if_neg hR]
        simp only
        rw [hDe M]
        simp only
        rw [if_neg hM, hM2]
      · have hcoef := hst.1.add hD s
        rcases ha1.tooFew with ht2 | ht2
        · refine Or.inr ⟨fun M => { coefs := (st M).coefs.addValues (D M) s, leaders := (st M).leaders, sans_voisin := (a M).2 }, s - 1,
            ⟨hcoef, hst.2.1, ha2⟩, ?_⟩
          filter_upwards [ht, he, ht2] with M hM hM2 hM3
          unfold Machine.leadLoop Machine.filtering
          rw [if_neg hR]
          simp only
          rw [hDe M]
          simp only
          rw [if_neg hM, hM2]
          simp only
          rw [if_pos hM3]
        · have hst' : EvSt (fun M => (LeadState.mk ((st M).coefs.addValues (D M) s) ((st M).leaders.addValues (a M).1 s) (a M).2 : LeadState R)) := ⟨hcoef, hst.2.1.add ha1 s, ha2⟩
          have key : ∀ᶠ M in Lmach, M.leadLoop P p (n + 1) s ml (A M) (st M) = M.leadLoop P p n (s + 1) ml
              (subsample (maskBorders P.high.length (M.convSame (A M) P.low)))
              (LeadState.mk ((st M).coefs.addValues (D M) s) ((st M).leaders.addValues (a M).1 s) (a M).2) := by
            filter_upwards [ht, he, ht2] with M hM hM2 hM3
            conv_lhs => unfold Machine.leadLoop Machine.filtering
            rw [if_neg hR]
            simp only
            rw [hDe M]
            simp only
            rw [if_neg hM, hM2]
            simp only
            rw [if_neg hM3]
          rcases ih (s + 1) ml _ _ hL hst' with ⟨e, h⟩ | ⟨st', ml', h1, h⟩
          · refine Or.inl ⟨e, ?_⟩
            filter_upwards [key, h] with M k1 k2
            rw [k1]; exact k2
          · refine Or.inr ⟨st', ml', h1, ?_⟩
            filter_upwards [key, h] with M k1 k2
            rw [k1]; exact k2

end

end MFA
