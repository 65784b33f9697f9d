import Verif.Props.Viz
import Verif.Props.Signal
import Verif.Props.SignalAssign
import Verif.Props.Mfa

/-!
# Error cases of C61 and C90, arguments passed on (C87): theorems added after mutations that survived
-/

namespace MFA

open Classical

noncomputable section

variable {R : ℕ}

theorem zipWith_all_eq : ∀ {a b : List ℝ}, a.length = b.length → ((List.zipWith (fun x y => decide (x = y)) a b).all id = true ↔ a = b)
  | [], [], _ => by simp
  | x :: a, y :: b, h => by
    have := zipWith_all_eq (a := a) (b := b) (by simpa using h)
    simp only [List.zipWith_cons_cons, List.all_cons, Bool.and_eq_true, this, id_eq, decide_eq_true_eq, List.cons.injEq]
  | [], _ :: _, h => by simp at h
  | _ :: _, [], h => by simp at h

/-- C61, a result was stored by the user: `Signal.mf_analysis` compares the moments `b` (an array or a list) with the array `a` of the last call.  Arrays of the same length, or
one of which has a single entry (numpy's broadcasting), are compared entry by entry: if all entries and the number of cumulants agree, the
exception is UnboundLocalError, otherwise the TypeError of the unexpected keywords; arrays of other lengths raise AttributeError. -/
theorem C61_stored_params {s : SignalState R} {w : WT (R + 1)} {P : WaveletParameters} (hw : s.wt_transform = some w) (hp : s.wt_param = some (.wave P))
    (hm : s.multi_fractal ≠ none) {a : List ℝ} {n : ℕ} (hq : s.mf_param = some (.ndarray a, n)) {new : QArg} {b : List ℝ}
    (hb : new = .ndarray b ∨ ∃ l : List Expo, new = .pylist l ∧ l.map Expo.val = b) (n' : ℕ) (save : Bool) :
    (a.length = b.length → (Signal.mfAnalysis new n' save s).1 = .error (if a = b ∧ n = n' then .unboundLocalError else .typeError)) ∧
    (∀ x, a = [x] → (Signal.mfAnalysis new n' save s).1 = .error (if (∀ y ∈ b, y = x) ∧ n = n' then .unboundLocalError else .typeError)) ∧
    (∀ y, b = [y] → (Signal.mfAnalysis new n' save s).1 = .error (if (∀ x ∈ a, x = y) ∧ n = n' then .unboundLocalError else .typeError)) ∧
    (a.length ≠ b.length → a.length ≠ 1 → b.length ≠ 1 → (Signal.mfAnalysis new n' save s).1 = .error .attributeError) := by
  have hk : checkKwargs mfAnalysisParams (waveletTransformFields ++ ["p_exp", "j1", "weighted", "q", "n_cumul"]) =
      .error .typeError := by decide
  have hne : s.multi_fractal.isNone = false := by
    cases h : s.multi_fractal with
    | none => exact absurd h hm
    | some _ => rfl
  have key : ∀ l, npEq a b = some l → (Signal.mfAnalysis new n' save s).1 = .error (if l.all id = true ∧ n = n' then .unboundLocalError else .typeError) := by
    intro l hl
    unfold Signal.mfAnalysis Signal.checkWt
    rw [hw, hp]
    have hsq : sameQ (.ndarray a) new = .ok (l.all id) := by
      rcases hb with rfl | ⟨m, rfl, rfl⟩ <;> simp only [sameQ, hl]
    simp only [hne, hq, sameParams, hsq, WtParam.fields, Bool.false_eq_true, if_false]
    by_cases h1 : l.all id = true
    · by_cases h2 : n = n'
      · rw [if_pos ⟨h1, h2⟩, h1]
        simp [h2]
      · rw [if_neg (fun h => h2 h.2), h1]
        simp only [h2, decide_false, Bool.not_false]
        rw [hk]
    · rw [if_neg (fun h => h1 h.1)]
      rw [Bool.not_eq_true] at h1
      rw [h1]
      simp only [Bool.not_false]
      rw [hk]
  have iff : ∀ {p p' : Prop} [Decidable (p ∧ n = n')] [Decidable (p' ∧ n = n')], (p ↔ p') → (if p ∧ n = n' then PyErr.unboundLocalError else .typeError) = if p' ∧ n = n' then PyErr.unboundLocalError else .typeError := by
    intro p p' _ _ h
    by_cases hc : p ∧ n = n'
    · rw [if_pos hc, if_pos ⟨h.1 hc.1, hc.2⟩]
    · rw [if_neg hc, if_neg fun h' => hc ⟨h.2 h'.1, h'.2⟩]
  have h1 : a.length = b.length → (Signal.mfAnalysis new n' save s).1 = .error (if a = b ∧ n = n' then .unboundLocalError else .typeError) := by
    intro h
    rw [key _ (by unfold npEq; rw [if_pos h]), iff (zipWith_all_eq h)]
  refine ⟨h1, ?_, ?_, ?_⟩
  · rintro x rfl
    by_cases hl : b.length = 1
    · rw [h1 hl.symm]
      congr 1
      obtain ⟨y, rfl⟩ := List.length_eq_one_iff.1 hl
      exact iff (by simp [eq_comm])
    · rw [key (b.map fun y => decide (x = y)) (by unfold npEq; rw [if_neg (by simpa using Ne.symm hl)])]
      congr 1
      refine iff ?_
      simp only [List.all_map, List.all_eq_true, Function.comp_apply, id_eq, decide_eq_true_eq]
      exact forall₂_congr fun y _ => eq_comm
  · rintro y rfl
    by_cases hl : a.length = 1
    · rw [h1 hl]
      congr 1
      obtain ⟨x, rfl⟩ := List.length_eq_one_iff.1 hl
      exact iff (by simp)
    · rw [key (a.map fun x => decide (x = y)) (by
        unfold npEq; rw [if_neg (by simpa using hl)]
        match a, hl with
        | [], _ => rfl
        | x :: x' :: a, _ => rfl)]
      congr 1
      refine iff ?_
      simp
  · intro h2 h3 h4
    have : npEq a b = none := by
      unfold npEq; rw [if_neg h2]
      match a, b, h3, h4 with
      | [], [], _, _ => exact absurd rfl h2
      | [], _ :: _ :: _, _, _ => rfl
      | _ :: _ :: _, [], _, _ => rfl
      | _ :: _ :: _, _ :: _ :: _, _, _ => rfl
    unfold Signal.mfAnalysis Signal.checkWt
    rw [hw, hp]
    have hsq : sameQ (.ndarray a) new = .error .attributeError := by
      rcases hb with rfl | ⟨m, rfl, rfl⟩ <;> simp only [sameQ, this]
    simp only [hne, hq, sameParams, hsq, Bool.false_eq_true, if_false]

/-- C61, the same when the moments of the last call were a list: a new list is compared as python lists are; the comparison with a new array with the same
number `≥ 2` of entries raises ValueError. -/
theorem C61_stored_list {s : SignalState R} {w : WT (R + 1)} {P : WaveletParameters} (hw : s.wt_transform = some w) (hp : s.wt_param = some (.wave P))
    (hm : s.multi_fractal ≠ none) {a : List Expo} {n : ℕ} (hq : s.mf_param = some (.pylist a, n)) (n' : ℕ) (save : Bool) :
    (∀ b : List Expo, (Signal.mfAnalysis (.pylist b) n' save s).1 =
      .error (if a.map Expo.val = b.map Expo.val ∧ n = n' then .unboundLocalError else .typeError)) ∧
    (∀ b : List ℝ, a.length = b.length → 2 ≤ b.length → (Signal.mfAnalysis (.ndarray b) n' save s).1 = .error .valueError) ∧
    (∀ b : List ℝ, a.length = 1 → 2 ≤ b.length → (Signal.mfAnalysis (.ndarray b) n' save s).1 = .error .valueError) ∧
    (∀ b : List ℝ, b.length = 1 → 2 ≤ a.length → (Signal.mfAnalysis (.ndarray b) n' save s).1 = .error .valueError) ∧
    (∀ x y, a.map Expo.val = [x] → (Signal.mfAnalysis (.ndarray [y]) n' save s).1 = .error (if x = y ∧ n = n' then .unboundLocalError else .typeError)) ∧
    (∀ b : List ℝ, a.length ≠ b.length → a.length ≠ 1 → b.length ≠ 1 → (Signal.mfAnalysis (.ndarray b) n' save s).1 = .error .typeError) := by
  have hk : checkKwargs mfAnalysisParams (waveletTransformFields ++ ["p_exp", "j1", "weighted", "q", "n_cumul"]) =
      .error .typeError := by decide
  have hne : s.multi_fractal.isNone = false := by
    cases h : s.multi_fractal with
    | none => exact absurd h hm
    | some _ => rfl
  have good : ∀ {new : QArg} {v : Bool}, sameQ (.pylist a) new = .ok v →
      (Signal.mfAnalysis new n' save s).1 = .error (if v = true ∧ n = n' then .unboundLocalError else .typeError) := by
    intro new v hl
    unfold Signal.mfAnalysis Signal.checkWt
    rw [hw, hp]
    simp only [hne, hq, sameParams, hl, WtParam.fields, Bool.false_eq_true, if_false]
    cases v
    · simp only [Bool.not_false]
      rw [hk, if_neg (by simp)]
    · by_cases h2 : n = n'
      · simp [h2]
      · rw [if_neg (fun h => h2 h.2)]
        simp only [h2, decide_false, Bool.not_false]
        rw [hk]
  have bad : ∀ {new : QArg}, sameQ (.pylist a) new = .error .valueError → (Signal.mfAnalysis new n' save s).1 = .error .valueError := by
    intro new hl
    unfold Signal.mfAnalysis Signal.checkWt
    rw [hw, hp]
    simp only [hne, hq, sameParams, hl, Bool.false_eq_true, if_false]
  have two : ∀ {b : List ℝ} {l : List Bool}, npEq (a.map Expo.val) b = some l → 2 ≤ l.length → sameQ (.pylist a) (.ndarray b) = .error .valueError := by
    intro b l h h2
    match l, h2 with
    | _ :: _ :: _, _ => simp only [sameQ, h]
  refine ⟨fun b => ?_, fun b h1 h2 => bad (two (l := List.zipWith (fun x y => decide (x = y)) (a.map Expo.val) b) ?_ ?_), fun b h1 h2 => ?_, fun b h1 h2 => ?_, fun x y h => ?_, fun b h1 h2 h3 => ?_⟩
  · rw [good (new := .pylist b) (v := decide (a.map Expo.val = b.map Expo.val)) rfl]
    simp
  · unfold npEq; rw [if_pos (by simpa using h1)]
  · rw [List.length_zipWith, List.length_map]; omega
  · obtain ⟨x, rfl⟩ := List.length_eq_one_iff.1 h1
    refine bad (two (l := b.map fun y => decide (x.val = y)) ?_ (by simpa using h2))
    unfold npEq; rw [if_neg (by simp; omega)]; rfl
  · obtain ⟨y, rfl⟩ := List.length_eq_one_iff.1 h1
    refine bad (two (l := (a.map Expo.val).map fun x => decide (x = y)) ?_ (by simpa using h2))
    unfold npEq; rw [if_neg (by simp; omega)]
    match a, h2 with
    | _ :: _ :: _, _ => rfl
  · rw [good (new := .ndarray [y]) (v := decide (x = y)) (by simp [sameQ, npEq, h])]
    simp
  · have : npEq (a.map Expo.val) b = none := by
      unfold npEq; rw [if_neg (by simpa using h1)]
      match a, b, h1, h2, h3 with
      | [], [], h1, _, _ => exact absurd rfl h1
      | [], _ :: _ :: _, _, _, _ => rfl
      | _ :: _ :: _, [], _, _, _ => rfl
      | _ :: _ :: _, _ :: _ :: _, _, _, _ => rfl
    rw [good (new := .ndarray b) (v := false) (by simp only [sameQ, this])]
    simp

/-! The hypotheses are met by every analysed signal in which the user stores a result. -/
example (s : SignalState R) (w : WT (R + 1)) (P : WaveletParameters) (d : MFData (R + 1)) :
    (Signal.mfAnalysis (.ndarray [2, 2, 2]) 3 true { s with wt_transform := some w, wt_param := some (.wave P), multi_fractal := some d, mf_param := some (.ndarray [2], 3) }).1 =
      .error .unboundLocalError ∧
    (Signal.mfAnalysis (.ndarray [2, 2, 2]) 3 true { s with wt_transform := some w, wt_param := some (.wave P), multi_fractal := some d, mf_param := some (.pylist [.int 2], 3) }).1 =
      .error .valueError := by
  constructor
  · rw [(C61_stored_params (s := { s with wt_transform := some w, wt_param := some (.wave P), multi_fractal := some d, mf_param := some (.ndarray [2], 3) }) rfl rfl
      (by simp) rfl (Or.inl rfl) 3 true).2.1 2 rfl]
    simp
  · exact (C61_stored_list (s := { s with wt_transform := some w, wt_param := some (.wave P), multi_fractal := some d, mf_param := some (.pylist [.int 2], 3) }) rfl rfl
      (by simp) rfl 3 true).2.2.1 _ rfl (by simp)

/-- **C90**, colours: if a segment, or the average of a segment, has no colour in `seg2color`, `plot_multiscale` raises KeyError and draws nothing. -/
theorem C90_missing_colour {segs : List String} {rows : List MultiRow} {seg2color : String → Option String}
    (ht : CompleteTable segs rows) {grid : String → List ℝ} (hg : ∀ seg ∈ segs, CommonGrid rows seg (grid seg)) {L : String → ℕ}
    (hL : ∀ seg ∈ segs, ∃ w ∈ rows, w.seg = seg ∧ w.freq.length = L seg)
    (hL' : ∀ seg ∈ segs, ∀ w ∈ rows, w.seg = seg → L seg ≤ w.freq.length)
    (hc : ∃ seg ∈ segs, seg2color seg = none ∨ seg2color (seg ++ "_avg") = none) :
    plotMultiscale segs rows seg2color = .error .keyError := by
  have h1 := mapE_ok (segAverage rows) _ segs fun seg hs => segAverage_grid ht hs (hg seg hs) (hL seg hs) (hL' seg hs)
  have hu : ∀ s e', colorE seg2color s = .error e' → e' = .keyError := by
    intro s e' h
    unfold colorE at h
    split at h
    · cases h
    · exact (Except.error.inj h).symm
  have hn : ∀ s, seg2color s = none → colorE seg2color s = .error .keyError := by
    intro s h; rw [colorE, h]
  rw [plotMultiscale, h1]
  simp only []
  by_cases hc1 : ∃ seg ∈ segs, seg2color seg = none
  · obtain ⟨seg, hs, h⟩ := hc1
    rw [mapE_error ⟨seg, hs, hn seg h⟩ fun a _ e' he => hu a e' he]
  · obtain ⟨seg, hs, h⟩ := hc
    have hs2 := h.resolve_left fun h => hc1 ⟨seg, hs, h⟩
    rw [mapE_ok (colorE seg2color) (fun s => (seg2color s).getD "") segs fun s hs' => by
      cases h : seg2color s with
      | none => exact absurd ⟨s, hs', h⟩ hc1
      | some c => rw [colorE, h]; rfl]
    simp only []
    rw [mapE_error (f := fun seg => colorE seg2color (seg ++ "_avg")) ⟨seg, hs, hn _ hs2⟩ fun a _ e' he => hu _ e' he]

/-! The hypotheses are met: two subjects, and the average has no colour. -/
example : plotMultiscale ["s"]
      [⟨"A", "s", [20, 10, 5], [Fl.fin 4, Fl.fin 3, Fl.fin 2]⟩, ⟨"B", "s", [20, 10], [Fl.fin 6, Fl.fin 5]⟩] (fun s => if s = "s" then some "red" else none) =
    .error .keyError := by
  refine C90_missing_colour (grid := fun _ => [20, 10, 5]) (L := fun _ => 2) 
    ⟨by simp, ⟨["A", "B"], by simp, by simp, ?_⟩, by simp, by simp⟩ ?_ ?_ ?_ ⟨"s", by simp, Or.inr (by simp)⟩
  · intro seg hs
    rw [List.mem_singleton.1 hs]
    simp
  · intro seg hs
    rw [List.mem_singleton.1 hs]
    refine ⟨by norm_num, ?_⟩
    simp
  · intro seg hs
    rw [List.mem_singleton.1 hs]
    simp
  · intro seg hs
    simp

/-- **C87, the arguments of the PSD functions**.  After any history of calls and assignments, `estimate_wavelet_psd` returns (or raises) what
`wavelet_estimation` returns (or raises) on the current data and sampling frequency with the two parameters of the call. -/
theorem C87_psd_call (E : Ext (R + 1)) (d : Arr (R + 1)) (fs : ℝ) (log : String) (l : List (SignalStep R)) (n_moments : ℕ) (j2 : Option ℝ) :
    (Signal.estimateWaveletPsd E ⟨n_moments, j2⟩ (runSteps E (SignalState.new d fs log) l)).1 =
      waveletEstimation E.pywt (currentData d l) (currentFs fs l) n_moments j2 :=
  (C87_psd_fresh E d fs log l ⟨n_moments, j2⟩).2.2

/-! An instance: after an assignment of 8 samples. -/
example (E : Ext 1) (c : Arr 1) :
    (Signal.estimateWaveletPsd E ⟨1, none⟩ (runSteps E (SignalState.new c 1 "log2") [.setData (List.replicate 8 fun _ => Fl.fin 1)])).1 =
      waveletEstimation E.pywt (List.replicate 8 fun _ => Fl.fin 1) 1 1 none :=
  C87_psd_call E c 1 "log2" _ 1 none

end

end MFA
