import Verif.Model.Mfa
import Verif.Lemmas.Closed
import Verif.Props.Demo
import Verif.Props.Structure

/-! Properties C47, C49, C51 - C54: the entry points of `mfa.py`, `estimation.py` and `multiresquantity.py`. -/

namespace MFA

open Classical

variable {R : ℕ}

/-! ### C47 -/

/-- What `mf_analysis` has to store for one quantity `m`: what the four estimators return when called separately. -/
def IsBundle (m : MRQ R) (j1 j2 : ℤ) (weighted : Bool) (n : ℕ) (q : List ℝ) (v : MFVar R) : Prop :=
  StructFn.make m (.ndarray q) j1 j2 weighted = .ok v.structure_ ∧
  Cumulants.make m n j1 j2 weighted = .ok v.cumulants ∧
  Spectrum.make m j1 j2 weighted (.ndarray q) = .ok v.spectrum ∧
  ∃ h : HMin R, estimateHmin m j1 j2 weighted true = .ok h ∧ h.hmin = v.hmin

theorem mfVar_ok_iff (m : MRQ R) (j1 j2 : ℤ) (weighted : Bool) (n : ℕ) (q : List ℝ) (v : MFVar R) :
    mfVar m j1 j2 weighted n q = .ok v ↔ IsBundle m j1 j2 weighted n q v := by
  unfold mfVar IsBundle
  cases hs : StructFn.make m (.ndarray q) j1 j2 weighted with
  | error e => simp
  | ok s =>
    cases hc : Cumulants.make m n j1 j2 weighted with
    | error e => simp
    | ok c =>
      cases hp : Spectrum.make m j1 j2 weighted (.ndarray q) with
      | error e => simp
      | ok p =>
        cases hh : estimateHmin m j1 j2 weighted true with
        | error e => simp
        | ok h =>
          cases v
          simp

/-- C47: `mf_analysis` returns `d` iff its parts are exactly what the estimators return separately on the coefficients
and on the leaders, `lwt` being absent iff no leaders were given. `None` stands for `[2]` and lists for arrays. -/
theorem C47_bundle (coefs : MRQ R) (leaders : Option (MRQ R)) (j2 j1 : ℤ) (weighted : Bool) (n : ℕ)
    (q : Option QArg) (d : MFData R) :
    mfAnalysis coefs leaders j2 j1 weighted n q = .ok d ↔
      IsBundle coefs j1 j2 weighted n (normQ q) d.dwt ∧
      match leaders with
      | none => d.lwt = none
      | some l => ∃ v, d.lwt = some v ∧ IsBundle l j1 j2 weighted n (normQ q) v := by
  unfold mfAnalysis
  rw [← mfVar_ok_iff]
  cases hc : mfVar coefs j1 j2 weighted n (normQ q) with
  | error e => simp
  | ok v =>
    obtain ⟨dd, dl⟩ := d
    cases leaders with
    | none => simp [eq_comm]
    | some l =>
      simp only [← mfVar_ok_iff]
      cases hl : mfVar l j1 j2 weighted n (normQ q) with
      | error e => simp
      | ok w =>
        simp only [Except.ok.injEq, MFData.mk.injEq]
        constructor
        · rintro ⟨rfl, rfl⟩; exact ⟨rfl, w, rfl, rfl⟩
        · rintro ⟨rfl, v', rfl, rfl⟩; exact ⟨rfl, rfl⟩

/-- C47: `minimal_mf_analysis` returns exactly the `StructureFunction` of the coefficients and the `Cumulants` of the leaders; it returns nothing
without leaders. -/
theorem C47_minimal (coefs : MRQ R) (leaders : Option (MRQ R)) (j2 j1 : ℤ) (weighted : Bool) (n : ℕ)
    (q : Option QArg) (s : StructFn R) (c : Cumulants R) :
    minimalMfAnalysis coefs leaders j2 j1 weighted n q = .ok (s, c) ↔
      StructFn.make coefs (q.getD (.pylist [.int 2])) j1 j2 weighted = .ok s ∧
        ∃ l, leaders = some l ∧ Cumulants.make l n j1 j2 weighted = .ok c := by
  unfold minimalMfAnalysis
  cases hs : StructFn.make coefs (q.getD (.pylist [.int 2])) j1 j2 weighted with
  | error e => simp
  | ok s' =>
    cases leaders with
    | none => simp
    | some l =>
      cases hc : Cumulants.make l n j1 j2 weighted with
      | error e => simp [hc]
      | ok c' => simp [hc]

/-- C47: `mf_analysis_full` is `wavelet_analysis` followed by the estimators on the coefficients and the leaders it returned, up to the last scale it
returned; an exception of `wavelet_analysis` is passed on. With `minimal=True` only the structure function of the coefficients and the cumulants of the
leaders are returned. -/
theorem C47_full (sig : Arr R) (j1 : ℤ) (j2 : Option ℝ) (nm g : ℝ) (weighted : Bool) (wt : Wavelet) (p : PExp) (q : Option QArg) (n : ℕ) :
    (∀ d, mfAnalysisFull sig j1 j2 nm g weighted wt p q n = .ok d ↔ ∃ w, waveletAnalysis sig p wt j1 j2 g nm weighted = .ok w ∧
      IsBundle w.wt_coefs j1 w.j2_eff weighted n (normQ q) d.dwt ∧
      (w.wt_leaders = none → d.lwt = none) ∧
      ∀ l, w.wt_leaders = some l → ∃ v, d.lwt = some v ∧ IsBundle l j1 w.j2_eff weighted n (normQ q) v) ∧
    (∀ s c, mfAnalysisFullMinimal sig j1 j2 nm g weighted wt p q n = .ok (s, c) ↔ ∃ w, waveletAnalysis sig p wt j1 j2 g nm weighted = .ok w ∧
      StructFn.make w.wt_coefs (q.getD (.pylist [.int 2])) j1 w.j2_eff weighted = .ok s ∧
      ∃ l, w.wt_leaders = some l ∧ Cumulants.make l n j1 w.j2_eff weighted = .ok c) ∧
    (∀ e, waveletAnalysis sig p wt j1 j2 g nm weighted = .error e →
      mfAnalysisFull sig j1 j2 nm g weighted wt p q n = .error e ∧ mfAnalysisFullMinimal sig j1 j2 nm g weighted wt p q n = .error e) := by
  unfold mfAnalysisFull mfAnalysisFullMinimal
  cases hw : waveletAnalysis sig p wt j1 j2 g nm weighted with
  | error e => simp
  | ok w =>
    refine ⟨fun d => ?_, fun s c => ?_, fun e he => by cases he⟩
    · simp only [Except.ok.injEq]
      rw [C47_bundle]
      constructor
      · rintro ⟨h1, h2⟩
        refine ⟨w, rfl, h1, ?_⟩
        cases hl : w.wt_leaders with
        | none => rw [hl] at h2; exact ⟨fun _ => h2, by simp⟩
        | some l => rw [hl] at h2; exact ⟨by simp, fun l' e => by cases e; exact h2⟩
      · rintro ⟨w', rfl, h1, h2, h3⟩
        refine ⟨h1, ?_⟩
        cases hl : w.wt_leaders with
        | none => exact h2 hl
        | some l => exact h3 l hl
    · simp only [Except.ok.injEq]
      rw [C47_minimal]
      constructor
      · intro h; exact ⟨w, rfl, h⟩
      · rintro ⟨w', rfl, h⟩; exact h

/-- C47: when `mf_analysis` raises, one of the estimators raises the same exception when called separately. -/
theorem C47_errors (coefs : MRQ R) (leaders : Option (MRQ R)) (j2 j1 : ℤ) (weighted : Bool) (n : ℕ)
    (q : Option QArg) (e : PyErr) (h : mfAnalysis coefs leaders j2 j1 weighted n q = .error e) :
    ∃ m : MRQ R, (m = coefs ∨ leaders = some m) ∧
      (StructFn.make m (.ndarray (normQ q)) j1 j2 weighted = .error e ∨ Cumulants.make m n j1 j2 weighted = .error e ∨
       Spectrum.make m j1 j2 weighted (.ndarray (normQ q)) = .error e ∨
       estimateHmin m j1 j2 weighted true = .error e) := by
  have key : ∀ m : MRQ R, mfVar m j1 j2 weighted n (normQ q) = .error e →
      (StructFn.make m (.ndarray (normQ q)) j1 j2 weighted = .error e ∨ Cumulants.make m n j1 j2 weighted = .error e ∨
       Spectrum.make m j1 j2 weighted (.ndarray (normQ q)) = .error e ∨
       estimateHmin m j1 j2 weighted true = .error e) := by
    intro m hm
    unfold mfVar at hm
    cases hs : StructFn.make m (.ndarray (normQ q)) j1 j2 weighted with
    | error e' => simp only [hs] at hm; left; cases hm; rfl
    | ok s =>
      cases hc : Cumulants.make m n j1 j2 weighted with
      | error e' => simp only [hs, hc] at hm; right; left; cases hm; rfl
      | ok c =>
        cases hp : Spectrum.make m j1 j2 weighted (.ndarray (normQ q)) with
        | error e' => simp only [hs, hc, hp] at hm; right; right; left; cases hm; rfl
        | ok p =>
          cases hh : estimateHmin m j1 j2 weighted true with
          | error e' => simp only [hs, hc, hp, hh] at hm; right; right; right; cases hm; rfl
          | ok h' => simp only [hs, hc, hp, hh] at hm; cases hm
  unfold mfAnalysis at h
  cases hc : mfVar coefs j1 j2 weighted n (normQ q) with
  | error e' =>
    simp only [hc] at h
    exact ⟨coefs, Or.inl rfl, key _ (by rw [hc]; cases h; rfl)⟩
  | ok v =>
    rw [hc] at h
    cases leaders with
    | none => cases h
    | some l =>
      cases hl : mfVar l j1 j2 weighted n (normQ q) with
      | error e' =>
        simp only [hl] at h
        exact ⟨l, Or.inr rfl, key _ (by rw [hl]; cases h; rfl)⟩
      | ok w => simp only [hl] at h; cases h

/-- C47: `q=None` is `q=[2]`, and a list behaves like the array of its values. -/
theorem C47_q (coefs : MRQ R) (leaders : Option (MRQ R)) (j2 j1 : ℤ) (weighted : Bool) (n : ℕ) (l : List Expo) :
    mfAnalysis coefs leaders j2 j1 weighted n none
      = mfAnalysis coefs leaders j2 j1 weighted n (some (.ndarray [2])) ∧
    mfAnalysis coefs leaders j2 j1 weighted n (some (.pylist l))
      = mfAnalysis coefs leaders j2 j1 weighted n (some (.ndarray (l.map Expo.val))) := ⟨rfl, rfl⟩

/-- The hypothesis "mf_analysis returns" is met by the demo quantity, with leaders. -/
example : ∃ d, mfAnalysis demo (some demo) 2 1 true 3 (some (.ndarray [-1, 2, 7/2])) = .ok d := by
  have hb : ∀ m : MRQ 2, m = demo → ∃ v, IsBundle m 1 2 true 3 [-1, 2, 7/2] v := by
    rintro m rfl
    refine ⟨⟨_, _, _, _⟩, demo_regular.structFn (by norm_num) (by norm_num) (by norm_num) true _ (by simp),
      demo_regular.cumulants (by norm_num) (by norm_num) (by norm_num) true 3,
      demo_regular.spectrum (by norm_num) (by norm_num) (by norm_num) true _ (by simp [QArg.expos]),
      _, demo_regular.hmin (by norm_num) (by norm_num) (by norm_num) true true demo_rows, rfl⟩
  obtain ⟨v, hv⟩ := hb demo rfl
  exact ⟨⟨v, some v⟩, (C47_bundle _ _ _ _ _ _ _ _).mpr ⟨hv, v, rfl, hv⟩⟩

/-! ### C49 -/

/-- The structure function with a python list `q` is never built. -/
theorem structFn_pylist (m : MRQ R) (q : List Expo) (j1 j2 : ℤ) (weighted : Bool) (s : StructFn R) :
    StructFn.make m (.pylist q) j1 j2 weighted ≠ .ok s := by
  unfold StructFn.make
  cases m.checkNrep with
  | error e => simp
  | ok u =>
    dsimp only
    cases sfRegressions m (sfLogValues m (QArg.pylist q).expos) j1 j2 weighted with
    | error e => simp
    | ok regs => simp [sfGetH]

/-- C49: `minimal_mf_analysis` never returns with `q=None`, with a python list, or without leaders. -/
theorem C49_minimal_never_returns (coefs : MRQ R) (leaders : Option (MRQ R)) (j2 j1 : ℤ) (weighted : Bool) (n : ℕ)
    (q : Option QArg) (hq : q = none ∨ (∃ l, q = some (.pylist l)) ∨ leaders = none) :
    ∃ e, minimalMfAnalysis coefs leaders j2 j1 weighted n q = .error e := by
  rcases hq with rfl | ⟨l, rfl⟩ | rfl
  · unfold minimalMfAnalysis
    cases hs : StructFn.make coefs (Option.getD none (.pylist [.int 2])) j1 j2 weighted with
    | error e => exact ⟨e, rfl⟩
    | ok s => exact absurd hs (structFn_pylist _ _ _ _ _ _)
  · unfold minimalMfAnalysis
    cases hs : StructFn.make coefs (Option.getD (some (.pylist l)) (.pylist [.int 2])) j1 j2 weighted with
    | error e => exact ⟨e, rfl⟩
    | ok s => exact absurd hs (structFn_pylist _ _ _ _ _ _)
  · unfold minimalMfAnalysis
    cases hs : StructFn.make coefs (q.getD (.pylist [.int 2])) j1 j2 weighted with
    | error e => exact ⟨e, rfl⟩
    | ok s => exact ⟨.attributeError, rfl⟩

/-- C49: on any quantity with contiguous scales and an admissible range the exception is IndexError for `q=None` and
lists; with an array `q` containing 2 and no leaders it is AttributeError. -/
theorem C49_exceptions {coefs : MRQ R} {J : ℕ} (hm : Regular coefs J) {j1 j2 : ℤ} (h1 : 1 ≤ j1) (h12 : j1 ≤ j2)
    (h2 : j2 ≤ J) (leaders : Option (MRQ R)) (weighted : Bool) (n : ℕ) (l : List Expo) (q : List ℝ)
    (hq : (2:ℝ) ∈ q) :
    minimalMfAnalysis coefs leaders j2 j1 weighted n none = .error .indexError ∧
    minimalMfAnalysis coefs leaders j2 j1 weighted n (some (.pylist l)) = .error .indexError ∧
    minimalMfAnalysis coefs none j2 j1 weighted n (some (.ndarray q)) = .error .attributeError := by
  have key : ∀ l, StructFn.make coefs (.pylist l) j1 j2 weighted = .error .indexError := by
    intro l
    unfold StructFn.make
    rw [hm.checkNrep h1 h12 h2]
    simp only
    rw [hm.sfRegressions h1 h12 h2]
    rfl
  refine ⟨?_, ?_, ?_⟩
  · unfold minimalMfAnalysis; rw [Option.getD_none, key]
  · unfold minimalMfAnalysis; rw [Option.getD_some, key]
  · unfold minimalMfAnalysis; rw [Option.getD_some, hm.structFn h1 h12 h2 weighted q hq]

/-- C49: with an array `q` and leaders, whenever `mf_analysis` returns, the minimal analysis returns the same
structure function of the coefficients and the same cumulants of the leaders. -/
theorem C49_agrees (coefs l : MRQ R) (j2 j1 : ℤ) (weighted : Bool) (n : ℕ) (q : List ℝ) (d : MFData R) (v : MFVar R)
    (h : mfAnalysis coefs (some l) j2 j1 weighted n (some (.ndarray q)) = .ok d) (hv : d.lwt = some v) :
    minimalMfAnalysis coefs (some l) j2 j1 weighted n (some (.ndarray q)) = .ok (d.dwt.structure_, v.cumulants) := by
  obtain ⟨hd, w, hw, hl⟩ := (C47_bundle _ _ _ _ _ _ _ _).mp h
  have : v = w := by rw [hv] at hw; exact Option.some.inj hw
  subst this
  unfold minimalMfAnalysis
  have e1 : StructFn.make coefs (Option.getD (some (.ndarray q)) (.pylist [.int 2])) j1 j2 weighted
      = .ok d.dwt.structure_ := hd.1
  rw [e1]
  simp only
  rw [hl.2.1]

/-! ### C51 -/

/-- C51: a warning is emitted iff `warn` is set and some hmin is exactly 0. -/
theorem C51_warning_iff (m : MRQ R) (j1 j2 : ℤ) (weighted warn : Bool) (h : HMin R)
    (hh : estimateHmin m j1 j2 weighted warn = .ok h) :
    h.warned = true ↔ warn = true ∧ ∃ r, h.hmin r = Fl.fin 0 := by
  unfold estimateHmin at hh
  split at hh
  · cases hh
  · split at hh
    · cases hh
    · split at hh
      · cases hh
      · dsimp only at hh
        split at hh
        · cases hh
        · split at hh
          · cases hh
          · cases hh
            simp [and_comm]

/-- C51, negation of the documented behaviour: on ideal data with minimal regularity `H_r` in realisation `r`, a warning
is emitted iff some `H_r` is exactly 0; in particular there is none when all are negative. -/
theorem C51_negative_hmin_no_warning {m : MRQ R} {J : ℕ} {j1 j2 : ℤ} (hm : Regular m J)
    (hrow : ∀ p ∈ m.values, p.2 ≠ []) (h1 : 1 ≤ j1) (h12 : j1 < j2) (h2 : j2 ≤ J) (weighted : Bool)
    (K H : Fin R → ℝ) (hK : ∀ r, 0 < K r) (hd : Monofractal m K H) :
    ∃ h, estimateHmin m j1 j2 weighted true = .ok h ∧ h.hmin = (fun r => Fl.fin (H r)) ∧
      (h.warned = true ↔ ∃ r, H r = 0) := by
  obtain ⟨s, k, p, h, -, -, -, hh, -, -, -, -, -, e⟩ :=
    C35_monofractal hm hrow h1 h12 h2 weighted true [2] (by simp) 1 K H hK hd
  refine ⟨h, hh, e, ?_⟩
  rw [C51_warning_iff _ _ _ _ _ _ hh, e]
  constructor
  · rintro ⟨-, r, hr⟩; rw [Fl.fin_inj] at hr; exact ⟨r, hr⟩
  · rintro ⟨r, hr⟩; exact ⟨rfl, r, by show Fl.fin (H r) = _; rw [hr]⟩

/-! ### C52 -/

/-- C52: `compute_hurst` raises on every input; the exception is AttributeError whenever the structure function it
starts from can be built. -/
theorem C52_compute_hurst (m : MRQ R) (j1 j2 : ℤ) (weighted : Bool) :
    (∀ x, computeHurst m j1 j2 weighted ≠ .ok x) ∧
    (∀ s, StructFn.make m (.ndarray [2]) j1 j2 weighted = .ok s →
      computeHurst m j1 j2 weighted = .error .attributeError) := by
  have hv : "values" ∉ StructFn.attrNames := by decide
  constructor
  · intro x h
    unfold computeHurst at h
    split at h
    · cases h
    · rw [if_neg hv] at h; cases h
  · intro s hs
    unfold computeHurst
    rw [hs]
    simp only
    rw [if_neg hv]

/-- C52: `plot_hmin` raises on every input, with ValueError whenever `estimate_hmin` returns. -/
theorem C52_plot_hmin (m : MRQ R) (j1 j2 : ℤ) (weighted warn : Bool) :
    plotHmin m j1 j2 weighted warn ≠ .ok () ∧
    (∀ h, estimateHmin m j1 j2 weighted warn = .ok h → plotHmin m j1 j2 weighted warn = .error .valueError) := by
  constructor
  · intro h
    unfold plotHmin at h
    split at h
    · cases h
    · simp [hminTuple] at h
  · intro h hh
    unfold plotHmin
    rw [hh]
    rfl

/-- Both functions called inside do return, e.g. on the demo quantity. -/
example : (∃ s, StructFn.make demo (.ndarray [2]) 1 2 true = .ok s) ∧
    ∃ h, estimateHmin demo 1 2 true true = .ok h :=
  ⟨⟨_, demo_regular.structFn (by norm_num) (by norm_num) (by norm_num) true _ (by simp)⟩,
   ⟨_, demo_regular.hmin (by norm_num) (by norm_num) (by norm_num) true true demo_rows⟩⟩

/-! ### C53 -/

theorem mapE_error {α β : Type} {f : α → Except PyErr β} {e : PyErr} : ∀ {l : List α}, (∃ a ∈ l, f a = .error e) →
    (∀ a ∈ l, ∀ e', f a = .error e' → e' = e) → mapE f l = .error e
  | [], ⟨a, ha, _⟩, _ => by cases ha
  | b :: l, ⟨a, ha, h⟩, hu => by
    rw [mapE]
    cases hb : f b with
    | error e' => rw [hu b (by simp) e' hb]
    | ok v =>
      have hne : a ≠ b := by rintro rfl; rw [h] at hb; cases hb
      have ha' : a ∈ l := (List.mem_cons.mp ha).resolve_left hne
      rw [mapE_error ⟨a, ha', h⟩ (fun c hc => hu c (by simp [hc]))]

theorem Dict.get?_eq_none {α : Type} : ∀ {d : Dict α} {j : ℤ}, j ∉ d.map Prod.fst → d.get? j = none
  | [], _, _ => rfl
  | (k, v) :: d, j, h => by
    rw [List.map_cons, List.mem_cons, not_or] at h
    rw [Dict.get?, if_neg (fun e => h.1 e.symm), Dict.get?_eq_none h.2]

theorem Dict.get?_isSome {α : Type} : ∀ {d : Dict α} {j : ℤ}, j ∈ d.map Prod.fst → ∃ v, d.get? j = some v
  | [], _, h => by cases h
  | (k, v) :: d, j, h => by
    rw [Dict.get?]
    by_cases e : k = j
    · exact ⟨v, by rw [if_pos e]⟩
    · rw [if_neg e]
      rw [List.map_cons, List.mem_cons] at h
      exact Dict.get?_isSome (h.resolve_left (fun e' => e e'.symm))

theorem mem_arange {a b j : ℤ} : j ∈ arange a b ↔ a ≤ j ∧ j < b := by
  rw [arange, List.mem_map]
  constructor
  · rintro ⟨i, hi, rfl⟩; rw [List.mem_range] at hi; omega
  · rintro ⟨h1, h2⟩; exact ⟨(j - a).toNat, by rw [List.mem_range]; omega, by omega⟩

theorem Regular.mem_keys {m : MRQ R} {J : ℕ} (hm : Regular m J) (j : ℤ) :
    j ∈ m.values.map Prod.fst ↔ 1 ≤ j ∧ j ≤ J := by
  rw [hm.1, List.mem_map]
  constructor
  · rintro ⟨i, hi, rfl⟩; rw [List.mem_range] at hi; omega
  · rintro ⟨h1, h2⟩; exact ⟨(j - 1).toNat, by rw [List.mem_range]; omega, by omega⟩

theorem Regular.njKeys {m : MRQ R} {J : ℕ} (hm : Regular m J) : m.nj.map Prod.fst = m.values.map Prod.fst := by
  rw [hm.2, List.map_map]; rfl

/-- C53: weighted regressions over a non-empty range that leaves the available scales `1..J` raise KeyError in all
estimators. -/
theorem C53_weighted_out_of_range {m : MRQ R} {J : ℕ} (hm : Regular m J) (hJ : 0 < J) {j1 j2 : ℤ} (h12 : j1 ≤ j2)
    (hout : j1 < 1 ∨ (J : ℤ) < j2) (q : List ℝ) (hq : q ≠ []) (n : ℕ) :
    StructFn.make m (.ndarray q) j1 j2 true = .error .keyError ∧
    Cumulants.make m n j1 j2 true = .error .keyError ∧
    Spectrum.make m j1 j2 true (.ndarray q) = .error .keyError := by
  have hbad : ∃ j ∈ arange j1 (j2 + 1), j ∉ m.nj.map Prod.fst := by
    rw [hm.njKeys]
    rcases hout with h | h
    · exact ⟨j1, by rw [mem_arange]; omega, by rw [hm.mem_keys]; omega⟩
    · exact ⟨j2, by rw [mem_arange]; omega, by rw [hm.mem_keys]; omega⟩
  have hw : regWeights m.nj j1 j2 true = .error .keyError := by
    unfold regWeights getNjInterv getNjRows
    rw [if_pos rfl, mapE_error (e := .keyError)]
    · obtain ⟨j, hj, hn⟩ := hbad
      exact ⟨j, hj, by rw [getKey, Dict.get?_eq_none hn]⟩
    · intro j _ e' he
      unfold getKey at he
      split at he
      · cases he
      · cases he; rfl
  have hc : m.checkNrep = .ok () := hm.checkNrep (j1 := 1) (j2 := 1) le_rfl le_rfl (by omega)
  have hqe : (QArg.ndarray q).expos ≠ [] := by simpa [QArg.expos] using hq
  refine ⟨?_, ?_, ?_⟩
  · unfold StructFn.make; rw [hc]; simp only; unfold sfRegressions; rw [hw]
  · unfold Cumulants.make; rw [hc]; simp only; rw [hw]
  · unfold Spectrum.make; rw [hc]; simp only; rw [if_neg hqe, mapE_ok _ _ _ (fun e _ => hm.msUV e)]
    simp only; rw [hw]

/-- C53: `estimate_hmin` raises KeyError for every non-empty range leaving the available scales, weighted or not
(each scale having at least one row). -/
theorem C53_hmin_out_of_range {m : MRQ R} {J : ℕ} (hm : Regular m J) (hJ : 0 < J) (hrow : ∀ p ∈ m.values, p.2 ≠ [])
    {j1 j2 : ℤ} (h12 : j1 ≤ j2) (hout : j1 < 1 ∨ (J : ℤ) < j2) (weighted warn : Bool) :
    estimateHmin m j1 j2 weighted warn = .error .keyError := by
  have hbad : ∃ j ∈ arange j1 (j2 + 1), j ∉ m.values.map Prod.fst := by
    rcases hout with h | h
    · exact ⟨j1, by rw [mem_arange]; omega, by rw [hm.mem_keys]; omega⟩
    · exact ⟨j2, by rw [mem_arange]; omega, by rw [hm.mem_keys]; omega⟩
  obtain ⟨v, hv⟩ := Dict.get?_isSome (d := m.values) (j := 1) (by rw [hm.mem_keys]; omega)
  unfold estimateHmin
  have e1 : getKey m.values 1 = .ok v := by rw [getKey, hv]
  rw [e1]
  simp only
  rw [if_neg (by omega), mapE_error (e := .keyError)]
  · obtain ⟨j, hj, hn⟩ := hbad
    exact ⟨j, hj, by rw [supCoeffs, getKey, Dict.get?_eq_none hn]⟩
  · intro j _ e' he
    unfold supCoeffs at he
    by_cases hj : j ∈ m.values.map Prod.fst
    · obtain ⟨p, hp, e⟩ := List.mem_map.mp hj
      rw [← e, hm.getValue hp] at he
      cases hc : p.2 with
      | nil => exact absurd hc (hrow p hp)
      | cons a t => rw [hc] at he; cases he
    · rw [getKey, Dict.get?_eq_none hj] at he; cases he; rfl

/-- C53: a scale of the range that holds no row makes `estimate_hmin` raise ValueError (largest value of an empty array), weighted or not. -/
theorem C53_hmin_empty_scale {m : MRQ R} {J : ℕ} (hm : Regular m J) {j1 j2 : ℤ} (h1 : 1 ≤ j1) (h2 : j2 ≤ J)
    (hrow : ∃ p ∈ m.values, p.2 = [] ∧ j1 ≤ p.1 ∧ p.1 ≤ j2) (weighted warn : Bool) :
    estimateHmin m j1 j2 weighted warn = .error .valueError := by
  obtain ⟨p, hp, hnil, ha, hb⟩ := hrow
  obtain ⟨v, hv⟩ := Dict.get?_isSome (d := m.values) (j := 1) (by rw [hm.mem_keys]; omega)
  unfold estimateHmin
  have e1 : getKey m.values 1 = .ok v := by rw [getKey, hv]
  rw [e1]
  simp only
  rw [if_neg (by omega), mapE_error (e := .valueError)]
  · refine ⟨p.1, by rw [mem_arange]; omega, ?_⟩
    rw [supCoeffs, hm.getValue hp, hnil]
  · intro j hj e' he
    unfold supCoeffs at he
    have hj' : j ∈ m.values.map Prod.fst := by rw [hm.mem_keys]; rw [mem_arange] at hj; omega
    obtain ⟨p, hp, e⟩ := List.mem_map.mp hj'
    rw [← e, hm.getValue hp] at he
    cases hc : p.2 with
    | nil => rw [hc] at he; cases he; rfl
    | cons a t => rw [hc] at he; cases he

/-- C53: without any exponent the spectrum raises ValueError (`np.stack` of no array), for every range. -/
theorem C53_spectrum_no_exponents {m : MRQ R} {J : ℕ} (hm : Regular m J) (hJ : 0 < J) (j1 j2 : ℤ) (weighted : Bool) :
    Spectrum.make m j1 j2 weighted (.ndarray []) = .error .valueError := by
  have hc : m.checkNrep = .ok () := hm.checkNrep (j1 := 1) (j2 := 1) le_rfl le_rfl (by omega)
  unfold Spectrum.make
  rw [hc]
  simp only
  rw [if_pos (by simp [QArg.expos])]

/-- The hypotheses of the last two theorems are met: two scales, the second without rows. -/
example (a : Arr R) : Regular (⟨.coef, 0, [(1, a), (2, [])], [(1, fun r => countNotNaN (col a r)), (2, fun _ => 0)]⟩ : MRQ R) 2 ∧
    ∃ p ∈ ([(1, a), (2, [])] : Dict (Arr R)), p.2 = [] ∧ (1 : ℤ) ≤ p.1 ∧ p.1 ≤ 2 := by
  refine ⟨⟨by simp [List.range_succ], ?_⟩, (2, []), by simp, rfl, by norm_num, by norm_num⟩
  simp [col, countNotNaN]

private theorem slice_length {α : Type} (l : List α) {J : ℕ} (hl : l.length = J) {j1 j2 : ℤ} (h1 : 1 ≤ j1)
    (hj : (J : ℤ) ≤ j2) : (pySlice l (j1 - 1) j2).length = J - (j1 - 1).toNat := by
  obtain ⟨a, rfl⟩ : ∃ a : ℕ, j1 = a + 1 := ⟨(j1 - 1).toNat, by omega⟩
  obtain ⟨b, rfl⟩ : ∃ b : ℕ, j2 = b := ⟨j2.toNat, by omega⟩
  rw [show ((a : ℤ) + 1 - 1) = (a : ℤ) by omega, pySlice, sliceBound_nat, sliceBound_nat]
  simp only [List.length_drop, List.length_take, hl, Int.toNat_natCast]
  omega

theorem arange_length (a b : ℤ) : (arange a b).length = (b - a).toNat := by simp [arange]

private theorem reg_unw {R : ℕ} (y : Arr R) (j1 j2 : ℤ) :
    linearRegression (tileScales R j1 j2) y (.mat ((arange j1 (j2 + 1)).map fun _ _ => Fl.fin 1)) =
      if ((j2 + 1 - j1).toNat = y.length ∨ (j2 + 1 - j1).toNat = 1 ∨ y.length = 1) then .ok {
            slope := fun r => dotB (lrWSlope (col (tileScales R j1 j2) r)
              (col ((arange j1 (j2 + 1)).map fun _ _ => Fl.fin 1) r)) (col y r)
            intercept := fun r => dotB (lrWInter (col (tileScales R j1 j2) r)
              (col ((arange j1 (j2 + 1)).map fun _ _ => Fl.fin 1) r)) (col y r)
            var := fun r => lrVar (col (tileScales R j1 j2) r)
              (col ((arange j1 (j2 + 1)).map fun _ _ => Fl.fin 1) r) }
      else .error .valueError := by
  unfold linearRegression
  simp only [tileScales, List.length_map, arange_length]
  simp only [ne_eq, not_true_eq_false, if_false]

/-- C53: unweighted regressions over `j1..j2` where `j2` exceeds the number `J` of available scales raise ValueError
if at least two scales of the range are available, or if none is and the range is not a single scale. -/
theorem C53_unweighted_raises {m : MRQ R} {J : ℕ} (hm : Regular m J) (hJ : 0 < J) {j1 j2 : ℤ} (h1 : 1 ≤ j1)
    (h12 : j1 < j2) (hout : (J : ℤ) < j2) (hne : j1 ≠ J) (q : List ℝ) (hq : q ≠ []) (n : ℕ) (hn : 0 < n) :
    StructFn.make m (.ndarray q) j1 j2 false = .error .valueError ∧
    Cumulants.make m n j1 j2 false = .error .valueError ∧
    Spectrum.make m j1 j2 false (.ndarray q) = .error .valueError := by
  have hc : m.checkNrep = .ok () := hm.checkNrep (j1 := 1) (j2 := 1) le_rfl le_rfl (by omega)
  have hqe : (QArg.ndarray q).expos ≠ [] := by simpa [QArg.expos] using hq
  have hw : regWeights m.nj j1 j2 false = .ok (.mat ((arange j1 (j2 + 1)).map fun _ _ => Fl.fin 1)) := rfl
  have key : ∀ y : Arr R, y.length = J → linearRegression (tileScales R j1 j2) (pySlice y (j1 - 1) j2)
      (.mat ((arange j1 (j2 + 1)).map fun _ _ => Fl.fin 1)) = .error .valueError := by
    intro y hy
    rw [reg_unw, slice_length y hy h1 hout.le, if_neg]
    omega
  have keyE : ∀ L : List (Arr R), L ≠ [] → (∀ y ∈ L, y.length = J) →
      mapE (fun y => linearRegression (tileScales R j1 j2) (pySlice y (j1 - 1) j2)
      (.mat ((arange j1 (j2 + 1)).map fun _ _ => Fl.fin 1))) L = .error .valueError := by
    intro L hL h
    cases L with
    | nil => exact absurd rfl hL
    | cons a L => rw [mapE, key a (h a (by simp))]
  refine ⟨?_, ?_, ?_⟩
  · unfold StructFn.make; rw [hc]; simp only; unfold sfRegressions; rw [hw]; simp only
    rw [keyE]
    · simpa [sfLogValues] using hqe
    · intro y hy
      obtain ⟨e, -, rfl⟩ := List.mem_map.mp hy
      rw [List.length_map, hm.length]
  · unfold Cumulants.make; rw [hc]; simp only; rw [hw]; simp only
    rw [keyE]
    · simp [cmValues]; omega
    · intro y hy
      obtain ⟨e, -, rfl⟩ := List.mem_map.mp hy
      rw [List.length_map, hm.length]
  · unfold Spectrum.make; rw [hc]; simp only; rw [if_neg hqe, mapE_ok _ _ _ (fun e _ => hm.msUV e)]
    simp only; rw [hw]; simp only
    rw [keyE]
    · simpa using hqe
    · intro y hy
      simp only [List.map_map, List.mem_map, Function.comp] at hy
      obtain ⟨e, -, rfl⟩ := hy
      rw [List.length_map, hm.length]

private theorem unw_weights (j1 j2 : ℤ) (h12 : j1 < j2) (r : Fin R) :
    ∃ w : List ℝ, w.sum = 0 ∧ 2 ≤ w.length ∧ lrWSlope (col (tileScales R j1 j2) r)
      (col ((arange j1 (j2 + 1)).map fun _ _ => Fl.fin 1) r) = w.map Fl.fin := by
  have e1 : col (tileScales R j1 j2) r = (arange j1 (j2+1)).map (fun (j : ℤ) => Fl.fin (j:ℝ)) := by
    simp only [col, tileScales, List.map_map]; rfl
  have e2 : col (R := R) ((arange j1 (j2 + 1)).map fun _ _ => Fl.fin 1) r = (arange j1 (j2+1)).map (fun _ => Fl.fin 1) := by
    simp [col]
  set l := arange j1 (j2+1) with hl
  have e : ∀ f : ℤ → ℝ, (l.map fun p => Fl.fin (f p)) = finCol (fun i : Fin l.length => f l[i]) := by
    intro f; rw [map_eq_ofFn]; rfl
  have hlen : 2 ≤ l.length := by rw [hl, arange_length]; omega
  have hD : rD (fun i : Fin l.length => ((l[i] : ℤ) : ℝ)) (fun _ => 1) ≠ 0 := by
    apply ne_of_gt
    apply rD_pos _ _ (fun _ => one_pos)
    refine ⟨⟨0, by omega⟩, ⟨1, by omega⟩, ?_⟩
    simp [hl, arange]
  refine ⟨List.ofFn (rWS (fun i : Fin l.length => ((l[i] : ℤ) : ℝ)) (fun _ => 1)), ?_, ?_, ?_⟩
  · rw [List.sum_ofFn]; exact rWS_sum _ _ hD
  · rw [List.length_ofFn]; exact hlen
  · rw [e1, e2, e (fun (j : ℤ) => (j:ℝ)), e (fun _ => 1), lrWSlope_fin _ _ hD, finCol, List.map_ofFn]; rfl

theorem silent_core {m : MRQ R} {J : ℕ} (hm : Regular m J) (hJ : 0 < J) {j1 j2 : ℤ} (h12 : j1 < j2)
    (q : List ℝ) (hq : (2:ℝ) ∈ q) (hd : NonzeroData m) {p : ℤ × Arr R} (hp : p ∈ m.values)
    (hsl : pySlice m.values (j1 - 1) j2 = [p]) :
    ∃ s, StructFn.make m (.ndarray q) j1 j2 false = .ok s ∧ s.zeta = q.map (fun _ _ => Fl.fin 0) ∧
      s.H = fun _ => Fl.fin (-m.gamint) := by
  have hc : m.checkNrep = .ok () := hm.checkNrep (j1 := 1) (j2 := 1) le_rfl le_rfl (by omega)
  have hw : regWeights m.nj j1 j2 false = .ok (.mat ((arange j1 (j2 + 1)).map fun _ _ => Fl.fin 1)) := rfl
  have hfin : ∀ e ∈ q, ∀ r, ∀ p ∈ m.values, ∃ t : ℝ, (sfMean p.2 (.real e) r).log2 = Fl.fin t := by
    intro e _ r p hp
    obtain ⟨xs, hne, hx0, he⟩ := hd.entries hp r
    have hcol : sfMean p.2 (.real e) r = nanmean (((col p.2 r).map Fl.abs).map (fastPower (.real e))) := by
      simp only [sfMean, red, mapArr, col, List.map_map, Function.comp_def]
    obtain ⟨x, hx⟩ := List.exists_mem_of_ne_nil xs hne
    rw [hcol, sfMean_col he (Or.inr hx0) hne, Fl.log2_fin]
    · exact ⟨_, rfl⟩
    · exact div_pos (powSum_pos _ ⟨x, hx, hx0 x hx⟩) (by exact_mod_cast List.length_pos_iff.mpr hne)
  have hreg : ∃ g : ℝ → LinReg R, (∀ e ∈ q, (g e).slope = fun _ => Fl.fin 0) ∧
      sfRegressions m (sfLogValues m (q.map Expo.real)) j1 j2 false = .ok (q.map g) := by
    have hone : ∀ e ∈ q, ∃ g : LinReg R, (g.slope = fun _ => Fl.fin 0) ∧
        linearRegression (tileScales R j1 j2) (pySlice (m.values.map fun p r => (sfMean p.2 (.real e) r).log2)
          (j1 - 1) j2) (.mat ((arange j1 (j2 + 1)).map fun _ _ => Fl.fin 1)) = .ok g := by
      intro e he
      rw [reg_unw, pySlice_map, hsl]
      rw [if_pos (by simp)]
      refine ⟨_, ?_, rfl⟩
      funext r
      obtain ⟨w, hs, h2, hwe⟩ := unw_weights (R := R) j1 j2 h12 r
      obtain ⟨t, ht⟩ := hfin e he r p hp
      simp only
      rw [hwe]
      simp only [col, List.map_cons, List.map_nil]
      rw [ht]
      match w, h2 with
      | a :: b :: w', _ =>
        have : dotB ((a :: b :: w').map Fl.fin) [Fl.fin t] = (((a :: b :: w').map Fl.fin).map (fun s => s * Fl.fin t)).sum := rfl
        rw [this, List.map_map]
        have h3 : ((a :: b :: w').map ((fun s => s * Fl.fin t) ∘ Fl.fin)) = ((a :: b :: w').map (fun s => s * t)).map Fl.fin := by
          rw [List.map_map]; apply List.map_congr_left; intro s _; exact Fl.fin_mul _ _
        rw [h3, Fl.sum_map_fin, List.sum_map_mul_right]
        simp only [List.map_id'] 
        rw [hs, zero_mul]
    classical
    refine ⟨fun e => if h : e ∈ q then (hone e h).choose else ⟨fun _ => Fl.nan, fun _ => Fl.nan, fun _ => Fl.nan⟩, ?_, ?_⟩
    · intro e he
      simp only [dif_pos he]; exact (hone e he).choose_spec.1
    · unfold sfRegressions
      rw [hw]
      simp only [sfLogValues, List.map_map]
      have : ∀ l : List ℝ, (∀ e ∈ l, e ∈ q) → mapE (fun lv => linearRegression (tileScales R j1 j2) (pySlice lv (j1 - 1) j2)
          (.mat ((arange j1 (j2 + 1)).map fun _ _ => Fl.fin 1)))
          (l.map ((fun e => m.values.map fun p r => (sfMean p.2 e r).log2) ∘ Expo.real))
          = .ok (l.map fun e => if h : e ∈ q then (hone e h).choose else ⟨fun _ => Fl.nan, fun _ => Fl.nan, fun _ => Fl.nan⟩) := by
        intro l
        induction l with
        | nil => intro _; rfl
        | cons a l ih =>
          intro h
          rw [List.map_cons, mapE, ih (fun e he => h e (by simp [he]))]
          have ha := h a (by simp)
          rw [List.map_cons, dif_pos ha]
          have := (hone a ha).choose_spec.2
          have this' : linearRegression (tileScales R j1 j2) (pySlice (((fun e => m.values.map fun p r => (sfMean p.2 e r).log2) ∘ Expo.real) a) (j1 - 1) j2)
            (.mat ((arange j1 (j2 + 1)).map fun _ _ => Fl.fin 1)) = .ok (hone a ha).choose := this
          clear this
          revert this'
          generalize (hone a ha).choose = g0
          intro this'
          rw [this']
      exact this q (fun e he => he)
  obtain ⟨g, hg, hr⟩ := hreg
  have hz : (q.map g).map LinReg.slope = q.map (fun _ _ => Fl.fin 0) := by
    rw [List.map_map]; apply List.map_congr_left; intro e he; exact hg e he
  obtain ⟨l, hl⟩ := filter_eq_head hq
  refine ⟨{ formalism := m.formalism, gamint := m.gamint, j := m.values.keys, q := .ndarray q
            j1 := j1, j2 := j2, weighted := false
            logvalues := sfLogValues m (q.map Expo.real)
            zeta := q.map (fun _ _ => Fl.fin 0)
            intercept := (q.map g).map LinReg.intercept
            H := fun _ => Fl.fin (-m.gamint) }, ?_, rfl, rfl⟩
  unfold StructFn.make
  rw [hc, expos_ndarray]
  simp only
  rw [hr]
  simp only [hz, sfGetH]
  rw [maskEq_map q 2 (fun _ (_ : Fin R) => Fl.fin 0), hl]
  simp only [List.map_cons]
  congr 2
  funext r
  rw [Fl.fin_div (by norm_num : (2:ℝ) ≠ 0), Fl.fin_sub]
  norm_num

private theorem slice_general {α : Type} (l : List α) {J : ℕ} (hl : l.length = J) {j1 j2 : ℤ} (h1 : j1 ≤ 0)
    (hj : 0 ≤ j2) : (pySlice l (j1 - 1) j2).length = min j2.toNat J - ((J : ℤ) + j1 - 1).toNat := by
  obtain ⟨b, rfl⟩ : ∃ b : ℕ, j2 = b := ⟨j2.toNat, by omega⟩
  unfold pySlice sliceBound
  simp only [List.length_drop, List.length_take, hl, Int.toNat_natCast]
  have ha : j1 - 1 < 0 := by omega
  have hb : ¬ ((b : ℤ) < 0) := by omega
  rw [if_pos ha, if_neg hb]
  omega

theorem single_row {m : MRQ R} {a b : ℤ} (h : (pySlice m.values a b).length = 1) :
    ∃ p ∈ m.values, pySlice m.values a b = [p] := by
  obtain ⟨p, hpe⟩ := List.length_eq_one_iff.mp h
  refine ⟨p, ?_, hpe⟩
  have : p ∈ pySlice m.values a b := by rw [hpe]; simp
  unfold pySlice at this
  exact List.mem_of_mem_take (List.mem_of_mem_drop this)

/-- C53: when exactly one scale of the range is available (`j1 = J < j2`), the unweighted regression silently
returns the slope 0 for every finite value at that scale. -/
theorem C53_unweighted_silent_zero {m : MRQ R} {J : ℕ} (hm : Regular m J) (hJ : 0 < J) {j2 : ℤ} (hout : (J : ℤ) < j2)
    (q : List ℝ) (hq : (2:ℝ) ∈ q) (hd : NonzeroData m) :
    ∃ s, StructFn.make m (.ndarray q) J j2 false = .ok s ∧ s.zeta = q.map (fun _ _ => Fl.fin 0) ∧
      s.H = fun _ => Fl.fin (-m.gamint) := by
  have hlen := slice_length m.values hm.length (j1 := J) (by omega) hout.le
  obtain ⟨p, hp, hsl⟩ := single_row (m := m) (a := (J:ℤ) - 1) (b := j2) (by rw [hlen]; omega)
  exact silent_core hm hJ hout q hq hd hp hsl

/-- C53: a range starting at or below 0.  The unweighted regression over `j1 ≤ 0 < j2` (`j1 = 0` being the natural
off-by-one) never uses the requested scales: with `k` the number of scales python's slice `[j1-1:j2]` then selects
(negative indices count from the end), all estimators raise ValueError unless `k = 1`, and if `k = 1` the structure
function silently returns the slope 0.  For `j1 = 0`, `k = 1` exactly when `j2 ≥ J`. -/
theorem C53_unweighted_low {m : MRQ R} {J : ℕ} (hm : Regular m J) (hJ : 0 < J) {j1 j2 : ℤ} (h1 : j1 ≤ 0)
    (h2 : 0 < j2) (q : List ℝ) (n : ℕ) (hn : 0 < n) :
    (min j2 J ≠ max ((J : ℤ) + j1 - 1) 0 + 1 → q ≠ [] →
      StructFn.make m (.ndarray q) j1 j2 false = .error .valueError ∧
      Cumulants.make m n j1 j2 false = .error .valueError ∧
      Spectrum.make m j1 j2 false (.ndarray q) = .error .valueError) ∧
    (min j2 J = max ((J : ℤ) + j1 - 1) 0 + 1 → (2:ℝ) ∈ q → NonzeroData m →
      ∃ s, StructFn.make m (.ndarray q) j1 j2 false = .ok s ∧ s.zeta = q.map (fun _ _ => Fl.fin 0) ∧
        s.H = fun _ => Fl.fin (-m.gamint)) := by
  constructor
  · intro hne hq
    have hc : m.checkNrep = .ok () := hm.checkNrep (j1 := 1) (j2 := 1) le_rfl le_rfl (by omega)
    have hqe : (QArg.ndarray q).expos ≠ [] := by simpa [QArg.expos] using hq
    have hw : regWeights m.nj j1 j2 false = .ok (.mat ((arange j1 (j2 + 1)).map fun _ _ => Fl.fin 1)) := rfl
    have key : ∀ y : Arr R, y.length = J → linearRegression (tileScales R j1 j2) (pySlice y (j1 - 1) j2)
        (.mat ((arange j1 (j2 + 1)).map fun _ _ => Fl.fin 1)) = .error .valueError := by
      intro y hy
      rw [reg_unw, slice_general y hy h1 h2.le, if_neg]
      omega
    have keyE : ∀ L : List (Arr R), L ≠ [] → (∀ y ∈ L, y.length = J) →
        mapE (fun y => linearRegression (tileScales R j1 j2) (pySlice y (j1 - 1) j2)
        (.mat ((arange j1 (j2 + 1)).map fun _ _ => Fl.fin 1))) L = .error .valueError := by
      intro L hL h
      cases L with
      | nil => exact absurd rfl hL
      | cons a L => rw [mapE, key a (h a (by simp))]
    refine ⟨?_, ?_, ?_⟩
    · unfold StructFn.make; rw [hc]; simp only; unfold sfRegressions; rw [hw]; simp only
      rw [keyE]
      · simpa [sfLogValues] using hqe
      · intro y hy
        obtain ⟨e, -, rfl⟩ := List.mem_map.mp hy
        rw [List.length_map, hm.length]
    · unfold Cumulants.make; rw [hc]; simp only; rw [hw]; simp only
      rw [keyE]
      · simp [cmValues]; omega
      · intro y hy
        obtain ⟨e, -, rfl⟩ := List.mem_map.mp hy
        rw [List.length_map, hm.length]
    · unfold Spectrum.make; rw [hc]; simp only; rw [if_neg hqe, mapE_ok _ _ _ (fun e _ => hm.msUV e)]
      simp only; rw [hw]; simp only
      rw [keyE]
      · simpa using hqe
      · intro y hy
        simp only [List.map_map, List.mem_map, Function.comp] at hy
        obtain ⟨e, -, rfl⟩ := hy
        rw [List.length_map, hm.length]
  · intro he hq hd
    have hlen := slice_general m.values hm.length h1 h2.le
    obtain ⟨p, hp, hsl⟩ := single_row (m := m) (a := j1 - 1) (b := j2) (by rw [hlen]; omega)
    exact silent_core hm hJ (by omega) q hq hd hp hsl

/-- `j1 = 0`, `j2 = J = 2` on the demo quantity: silently 0. -/
example : ∃ s, StructFn.make demo (.ndarray [2, 1]) 0 2 false = .ok s ∧
    s.zeta = [2, 1].map (fun (_ : ℝ) _ => Fl.fin 0) ∧ s.H = fun _ => Fl.fin (-demo.gamint) :=
  (C53_unweighted_low demo_regular (by norm_num) le_rfl (by norm_num) [2, 1] 1 one_pos).2 (by norm_num) (by simp)
    demo_nonzero

/-- `j1 = 0`, `j2 = 1 < J = 2`: ValueError. -/
example : StructFn.make demo (.ndarray [2, 1]) 0 1 false = .error .valueError :=
  ((C53_unweighted_low demo_regular (by norm_num) le_rfl (by norm_num) [2, 1] 1 one_pos).1 (by norm_num) (by simp)).1

/-- The hypotheses of the silent case are met by the demo quantity with `j1 = 2 < j2 = 5`. -/
example : ∃ s, StructFn.make demo (.ndarray [2, 1]) (2 : ℕ) 5 false = .ok s ∧
    s.zeta = [2, 1].map (fun (_ : ℝ) _ => Fl.fin 0) ∧ s.H = fun _ => Fl.fin (-demo.gamint) := by
  exact C53_unweighted_silent_zero demo_regular (by norm_num) (by norm_num) _ (by simp) demo_nonzero

/-! ### C54 -/

/-- The quantity obtained from the constructor by a history of `add_values(coeffs, j)` calls. -/
noncomputable def mrqAfter (f : Formalism) (gamint : ℝ) (ops : List (Arr R × ℤ)) : MRQ R :=
  ops.foldl (fun m op => m.addValues op.1 op.2) (MRQ.empty f gamint)

/-- The array most recently added for scale `j`. -/
def lastAdded (ops : List (Arr R × ℤ)) (j : ℤ) : Option (Arr R) :=
  (ops.reverse.find? (fun op => op.2 = j)).map Prod.fst

theorem Dict.get?_set {α : Type} (d : Dict α) (j k : ℤ) (v : α) :
    (d.set j v).get? k = if j = k then some v else d.get? k := by
  induction d with
  | nil => simp [Dict.set, Dict.get?]
  | cons p d ih =>
    obtain ⟨a, w⟩ := p
    rw [Dict.set]
    by_cases h : a = j
    · subst h
      rw [if_pos rfl, Dict.get?, Dict.get?]
      by_cases h' : a = k
      · rw [if_pos h', if_pos h']
      · rw [if_neg h', if_neg h', if_neg h']
    · rw [if_neg h, Dict.get?, Dict.get?, ih]
      by_cases h' : a = k
      · subst h'; rw [if_pos rfl, if_pos rfl, if_neg (Ne.symm h)]
      · rw [if_neg h', if_neg h']

theorem Dict.keys_set {α : Type} (d : Dict α) (j : ℤ) (v : α) :
    (d.set j v).keys = if j ∈ d.keys then d.keys else d.keys ++ [j] := by
  induction d with
  | nil => simp [Dict.set, Dict.keys]
  | cons p d ih =>
    obtain ⟨a, w⟩ := p
    rw [Dict.set]
    by_cases h : a = j
    · subst h; rw [if_pos rfl]; simp [Dict.keys]
    · rw [if_neg h]
      have : Dict.keys ((a, w) :: Dict.set d j v) = a :: (Dict.set d j v).keys := rfl
      rw [this, ih]
      have h2 : Dict.keys ((a, w) :: d) = a :: Dict.keys d := rfl
      rw [h2]
      by_cases h' : j ∈ Dict.keys d
      · rw [if_pos h', if_pos (List.mem_cons_of_mem _ h')]
      · rw [if_neg h', if_neg (by
          intro e
          rcases List.mem_cons.mp e with e | e
          exacts [h e.symm, h' e])]; rfl

/-- C54: after any history of `add_values`, `values[j]` is the last array added for `j` (absent if none was),
`nj[j]` counts its non-NaN entries in each realisation, the scales are listed without repetition in the order of
their first insertion, in `values` and in `nj`, and the formalism and gamint are unchanged. -/
theorem C54_history (f : Formalism) (gamint : ℝ) (ops : List (Arr R × ℤ)) :
    let m := mrqAfter f gamint ops
    (∀ j, m.values.get? j = lastAdded ops j) ∧
    (∀ j, m.nj.get? j = (lastAdded ops j).map (fun c r => (col c r).countP (fun x => !x.isNaN))) ∧
    m.values.keys = (ops.map Prod.snd).reverse.dedup.reverse ∧
    m.nj.keys = m.values.keys ∧ m.formalism = f ∧ m.gamint = gamint := by
  induction ops using List.reverseRecOn with
  | nil => exact ⟨fun _ => rfl, fun _ => rfl, rfl, rfl, rfl, rfl⟩
  | append_singleton ops op ih =>
    obtain ⟨c, j0⟩ := op
    obtain ⟨i1, i2, i3, i4, i5, i6⟩ := ih
    have hm : mrqAfter f gamint (ops ++ [(c, j0)]) = (mrqAfter f gamint ops).addValues c j0 := by
      simp [mrqAfter]
    have hl : ∀ j, lastAdded (ops ++ [(c, j0)]) j = if j0 = j then some c else lastAdded ops j := by
      intro j
      simp only [lastAdded, List.reverse_append, List.reverse_cons, List.reverse_nil, List.nil_append,
        List.singleton_append, List.find?_cons]
      by_cases h : j0 = j <;> simp [h]
    have hk : ((ops ++ [(c, j0)]).map Prod.snd).reverse.dedup.reverse
        = if j0 ∈ (ops.map Prod.snd).reverse.dedup.reverse then (ops.map Prod.snd).reverse.dedup.reverse
          else (ops.map Prod.snd).reverse.dedup.reverse ++ [j0] := by
      simp only [List.map_append, List.map_cons, List.map_nil, List.reverse_append, List.reverse_cons,
        List.reverse_nil, List.nil_append, List.singleton_append, List.mem_reverse, List.mem_dedup]
      by_cases h : j0 ∈ (ops.map Prod.snd)
      · rw [if_pos h, List.dedup_cons_of_mem (by simpa using h)]
      · rw [if_neg h, List.dedup_cons_of_notMem (by simpa using h), List.reverse_cons]
    dsimp only
    rw [hm]
    refine ⟨fun j => ?_, fun j => ?_, ?_, ?_, i5, i6⟩
    · show (Dict.set _ _ _).get? j = _
      rw [Dict.get?_set, hl, i1]
    · show (Dict.set _ _ _).get? j = _
      rw [Dict.get?_set, hl]
      by_cases h : j0 = j
      · rw [if_pos h, if_pos h]
        simp only [Option.map_some, countNotNaN, dropNaN, List.countP_eq_length_filter]
      · rw [if_neg h, if_neg h, i2]
    · show (Dict.set _ _ _).keys = _
      rw [Dict.keys_set, hk, i3]
    · show (Dict.set _ _ _).keys = (Dict.set _ _ _).keys
      rw [Dict.keys_set, Dict.keys_set, i4]

/-- C54: `get_nj()` lists, in the order of first insertion of the scales, the numbers of non-NaN entries of the last array
added for each of them. -/
theorem C54_get_nj (f : Formalism) (gamint : ℝ) (ops : List (Arr R × ℤ)) :
    (mrqAfter f gamint ops).getNj.map Option.some = ((ops.map Prod.snd).reverse.dedup.reverse).map fun j =>
      (lastAdded ops j).map (fun c r => (col c r).countP (fun x => !x.isNaN)) := by
  obtain ⟨-, h2, h3, h4, -, -⟩ := C54_history f gamint ops
  have hk : (mrqAfter f gamint ops).nj.keys = (ops.map Prod.snd).reverse.dedup.reverse := h4.trans h3
  have hnd : ((mrqAfter f gamint ops).nj.map Prod.fst).Nodup := by
    have : (mrqAfter f gamint ops).nj.keys.Nodup := by
      rw [hk, List.nodup_reverse]
      exact List.nodup_dedup _
    exact this
  rw [← hk]
  unfold MRQ.getNj Dict.keys
  rw [List.map_map, List.map_map]
  refine List.map_congr_left fun p hp => ?_
  have e := dictGet_of_nodup (fun p : ℤ × (Fin R → ℕ) => p.2) (mrqAfter f gamint ops).nj hnd p hp
  have e' : ((mrqAfter f gamint ops).nj.map fun p => (p.1, p.2)) = (mrqAfter f gamint ops).nj := by simp
  rw [e'] at e
  show Option.some p.2 = _
  rw [← e]
  exact h2 p.1

/-- C54: `get_nj_interv(j1, j2)` returns the counts of all the scales `j1, ..., j2` in this order; it raises (KeyError)
iff one of them was never added. -/
theorem C54_get_nj_interv (nj : Dict (Fin R → ℕ)) (j1 j2 : ℤ) :
    (∀ l, getNjRows nj j1 j2 = .ok l ↔ (l.map some = (arange j1 (j2 + 1)).map nj.get?)) ∧
    ((∃ j, j1 ≤ j ∧ j ≤ j2 ∧ nj.get? j = none) ↔ getNjRows nj j1 j2 = .error .keyError) ∧
    (∀ e, getNjRows nj j1 j2 = .error e → e = .keyError) := by
  have gen : ∀ ks : List ℤ,
      (∀ l, mapE (fun j => getKey nj j) ks = .ok l ↔ l.map some = ks.map nj.get?) ∧
      ((∃ j ∈ ks, nj.get? j = none) ↔ mapE (fun j => getKey nj j) ks = .error .keyError) ∧
      (∀ e, mapE (fun j => getKey nj j) ks = .error e → e = .keyError) := by
    intro ks
    induction ks with
    | nil =>
      refine ⟨fun l => ?_, ?_, ?_⟩
      · show Except.ok [] = Except.ok l ↔ _
        constructor
        · intro h; cases h; rfl
        · intro h
          cases l with
          | nil => rfl
          | cons a l => cases h
      · show _ ↔ Except.ok [] = _
        simp
      · intro e h
        cases h
    | cons k ks ih =>
      obtain ⟨i1, i2, i3⟩ := ih
      rw [mapE]
      cases hk : nj.get? k with
      | none =>
        have e : getKey nj k = .error .keyError := by rw [getKey, hk]
        simp only [e]
        refine ⟨fun l => ?_, ?_, ?_⟩
        · constructor
          · intro h; cases h
          · intro h
            rw [List.map_cons, hk] at h
            cases l with
            | nil => cases h
            | cons a l => simp at h
        · simp only [iff_true]; exact ⟨k, by simp, hk⟩
        · intro e h; cases h; rfl
      | some v =>
        have e : getKey nj k = .ok v := by rw [getKey, hk]
        simp only [e]
        cases hr : mapE (fun j => getKey nj j) ks with
        | error e' =>
          have he' := i3 e' hr
          subst he'
          simp only
          refine ⟨fun l => ?_, ?_, ?_⟩
          · constructor
            · intro h; cases h
            · intro h
              rw [List.map_cons, hk] at h
              cases l with
              | nil => cases h
              | cons a l =>
                rw [List.map_cons, List.cons.injEq] at h
                have := (i1 l).mpr h.2
                rw [hr] at this; cases this
          · simp only [iff_true]
            obtain ⟨j, hj, h⟩ := i2.mpr hr
            exact ⟨j, by simp [hj], h⟩
          · intro e h; cases h; rfl
        | ok vs =>
          simp only
          have hvs := (i1 vs).mp hr
          refine ⟨fun l => ?_, ?_, ?_⟩
          · constructor
            · intro h; cases h; rw [List.map_cons, List.map_cons, hk, hvs]
            · intro h
              rw [List.map_cons, hk] at h
              cases l with
              | nil => cases h
              | cons a l =>
                rw [List.map_cons, List.cons.injEq] at h
                have := (i1 l).mpr h.2
                rw [hr] at this
                cases this
                rw [Option.some.inj h.1]
          · constructor
            · rintro ⟨j, hj, h⟩
              rcases List.mem_cons.mp hj with rfl | hj
              · rw [hk] at h; cases h
              · have := i2.mp ⟨j, hj, h⟩
                rw [hr] at this; cases this
            · intro h; cases h
          · intro e h; cases h
  obtain ⟨g1, g2, g3⟩ := gen (arange j1 (j2 + 1))
  refine ⟨g1, ?_, g3⟩
  show _ ↔ mapE _ _ = _
  rw [← g2]
  constructor
  · rintro ⟨j, h1, h2, h⟩; exact ⟨j, by rw [mem_arange]; omega, h⟩
  · rintro ⟨j, hj, h⟩; rw [mem_arange] at hj; exact ⟨j, hj.1, by omega, h⟩

/-- C54: only the three documented formalism strings are accepted, all others raise ValueError, and they are
distinguished. -/
theorem C54_formalism (s : String) :
    ((∃ f, Formalism.ofString s = .ok f) ↔
      s = "wavelet coef" ∨ s = "wavelet leader" ∨ s = "wavelet p-leader") ∧
    (∀ e, Formalism.ofString s = .error e → e = .valueError) ∧
    (∀ s' f, Formalism.ofString s = .ok f → Formalism.ofString s' = .ok f → s = s') := by
  refine ⟨?_, ?_, ?_⟩
  · unfold Formalism.ofString
    split
    · simp [*]
    · split
      · simp [*]
      · split <;> simp [*]
  · unfold Formalism.ofString
    intro e
    split
    · intro h; cases h
    · split
      · intro h; cases h
      · split
        · intro h; cases h
        · intro h; cases h; rfl
  · intro s' f h h'
    unfold Formalism.ofString at h h'
    split_ifs at h h' <;> cases h <;> first | (cases h'; done) | simp_all

/-- A history with a repeated and out-of-order scale. -/
example (a b c : Arr R) : (mrqAfter .leader 0 [(a, 2), (b, 1), (c, 2)]).values = [(2, c), (1, b)] := by
  simp [mrqAfter, MRQ.addValues, MRQ.empty, Dict.set]

end MFA
