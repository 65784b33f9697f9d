import Verif.Model.Attributes
import Verif.Props.Cumulants
import Verif.Props.BiStructure

/-!
# Properties C108 (`from_dict`) and C109 (attributes of `BiCumulants`)
-/

namespace MFA

open Classical

noncomputable section

variable {R : ℕ}

/-! ### from_dict -/

theorem keepParams_find {params : List String} {d : PyDict R} {k : String} (hk : k ∈ params) : (keepParams params d).find k = d.find k := by
  unfold keepParams PyDict.find
  induction d with
  | nil => rfl
  | cons p d ih =>
    by_cases hp : p.1 ∈ params
    · rw [List.filter_cons_of_pos (by simpa using hp)]
      by_cases hpk : p.1 = k
      · simp [hpk]
      · rw [List.find?_cons_of_neg (by simpa using hpk), List.find?_cons_of_neg (by simpa using hpk), ih]
    · rw [List.filter_cons_of_neg (by simpa using hp), ih, List.find?_cons_of_neg (by simp; rintro rfl; exact hp hk)]

theorem mapE_all {α β : Type} {f : α → Except PyErr β} {g : α → β} : ∀ {l : List α}, (∀ a ∈ l, f a = .ok (g a)) → mapE f l = .ok (l.map g)
  | [], _ => rfl
  | a :: l, h => by
    unfold mapE
    rw [h a (by simp), mapE_all (fun b hb => h b (by simp [hb]))]
    rfl

theorem mapE_fails {α β : Type} {f : α → Except PyErr β} {e : PyErr} : ∀ {l : List α}, (∃ a ∈ l, f a = .error e) →
    (∀ a ∈ l, f a = .error e ∨ ∃ b, f a = .ok b) → mapE f l = .error e
  | [], h, _ => by obtain ⟨a, ha, _⟩ := h; cases ha
  | a :: l, h, h' => by
    unfold mapE
    rcases h' a (by simp) with ha | ⟨b, hb⟩
    · rw [ha]
    · rw [hb]
      have : ∃ a ∈ l, f a = .error e := by
        obtain ⟨c, hc, hce⟩ := h
        rcases List.mem_cons.1 hc with rfl | hc
        · rw [hb] at hce; cases hce
        · exact ⟨c, hc, hce⟩
      simp only [mapE_fails this fun c hc => h' c (by simp [hc])]

/-- **C108**: `from_dict` hands to the constructor exactly the values that the dictionary has for its parameters, whatever the other
entries and their order. -/
theorem C108_from_dict {α : Type} {params : List String} (cls : List (PyVal R) → Except PyErr α) {d : PyDict R} {v : String → PyVal R}
    (h : ∀ k ∈ params, d.find k = some (v k)) : fromDict params cls d = cls (params.map v) := by
  unfold fromDict callKw
  rw [if_neg]
  · rw [mapE_all (g := v)]
    intro k hk
    rw [keepParams_find hk, h k hk]
  · rintro ⟨p, hp, hn⟩
    exact hn (by simpa using (List.mem_filter.1 hp).2)

/-- **C108**: a missing parameter is always noticed: TypeError, and the constructor is not run. -/
theorem C108_missing {α : Type} {params : List String} (cls : List (PyVal R) → Except PyErr α) {d : PyDict R} {k : String}
    (hk : k ∈ params) (h : d.find k = none) : fromDict params cls d = .error .typeError := by
  unfold fromDict callKw
  rw [if_neg]
  · rw [mapE_fails (e := .typeError)]
    · exact ⟨k, hk, by rw [keepParams_find hk, h]⟩
    · intro a ha
      rw [keepParams_find ha]
      cases hd : d.find a with
      | none => exact Or.inl rfl
      | some v => exact Or.inr ⟨v, rfl⟩
  · rintro ⟨p, hp, hn⟩
    exact hn (by simpa using (List.mem_filter.1 hp).2)

/-- **C108**: extra entries anywhere in the dictionary change nothing. -/
theorem C108_extra {α : Type} {params : List String} (cls : List (PyVal R) → Except PyErr α) (d₁ d₂ : PyDict R) {p : String × PyVal R}
    (hp : p.1 ∉ params) : fromDict params cls (d₁ ++ p :: d₂) = fromDict params cls (d₁ ++ d₂) := by
  have : keepParams params (d₁ ++ p :: d₂) = keepParams params (d₁ ++ d₂) := by
    unfold keepParams
    rw [List.filter_append, List.filter_append, List.filter_cons_of_neg (by simpa using hp)]
  unfold fromDict
  rw [this]

/-- **C108**: `mf_analysis` passes one dictionary to three constructors; each gets its own arguments, in the right places. -/
theorem C108_mf_analysis (m : MRQ R) (j1 j2 : ℤ) (weighted : Bool) (n_cumul : ℕ) (q : List ℝ) :
    mfVarDict m j1 j2 weighted n_cumul q = mfVar m j1 j2 weighted n_cumul q ∧
    -- without `from_dict` all three calls fail
    callKw StructFn.params (mfParams (.mrq m) (.ndarray q) n_cumul j1 j2 weighted) = .error .typeError ∧
    callKw Cumulants.params (mfParams (.mrq m) (.ndarray q) n_cumul j1 j2 weighted) = .error .typeError ∧
    callKw Spectrum.params (mfParams (.mrq m) (.ndarray q) n_cumul j1 j2 weighted) = .error .typeError := by
  have hd : ∀ params : List String, params ⊆ ["mrq", "q", "n_cumul", "j1", "j2", "weighted"] → ∀ k ∈ params,
      (mfParams (.mrq m) (.ndarray q) n_cumul j1 j2 weighted).find k = some (if k = "mrq" then .mrq m else if k = "q" then .q (.ndarray q)
        else if k = "n_cumul" then .int n_cumul else if k = "j1" then .int j1 else if k = "j2" then .int j2 else .bool weighted) := by
    intro params hs k hk
    have := hs hk
    simp only [List.mem_cons, List.not_mem_nil, or_false] at this
    rcases this with rfl | rfl | rfl | rfl | rfl | rfl <;> simp [mfParams, PyDict.find]
  refine ⟨?_, ?_, ?_, ?_⟩
  · unfold mfVarDict
    simp only
    rw [C108_from_dict StructFn.ofArgs (hd _ (by simp [StructFn.params])), C108_from_dict Cumulants.ofArgs (hd _ (by simp [Cumulants.params])),
      C108_from_dict Spectrum.ofArgs (hd _ (by simp [Spectrum.params]))]
    simp [StructFn.params, Cumulants.params, Spectrum.params, StructFn.ofArgs, Cumulants.ofArgs, Spectrum.ofArgs, mfVar]
    cases StructFn.make m (.ndarray q) j1 j2 weighted with
    | error e => rfl
    | ok s => cases Cumulants.make m n_cumul j1 j2 weighted with
      | error e => rfl
      | ok c => cases Spectrum.make m j1 j2 weighted (.ndarray q) <;> rfl
  · unfold callKw
    rw [if_pos ⟨("n_cumul", .int n_cumul), by simp [mfParams], by simp [StructFn.params]⟩]
  · unfold callKw
    rw [if_pos ⟨("q", .q (.ndarray q)), by simp [mfParams], by simp [Cumulants.params]⟩]
  · unfold callKw
    rw [if_pos ⟨("n_cumul", .int n_cumul), by simp [mfParams], by simp [Spectrum.params]⟩]

/-- **C108** `minimal_mf_analysis` passes its dictionary, with the leaders or None as `mrq`, through `from_dict`: the object-level
function studied elsewhere is what the literal code computes, and `Cumulants.from_dict` with `mrq` None raises AttributeError. -/
theorem C108_minimal (coefs : MRQ R) (leaders : Option (MRQ R)) (j2_eff j1 : ℤ) (weighted : Bool) (n_cumul : ℕ) (q : Option QArg) :
    minimalDict coefs leaders j2_eff j1 weighted n_cumul q = minimalMfAnalysis coefs leaders j2_eff j1 weighted n_cumul q ∧
    fromDict Cumulants.params Cumulants.ofArgs (mfParams (.none : PyVal R) (q.getD (.pylist [.int 2])) n_cumul j1 j2_eff weighted) =
      .error .attributeError := by
  obtain ⟨q', hq'⟩ : ∃ q', q' = q.getD (.pylist [.int 2]) := ⟨_, rfl⟩
  have hd : ∀ (v : PyVal R) (params : List String), params ⊆ ["mrq", "q", "n_cumul", "j1", "j2", "weighted"] → ∀ k ∈ params,
      (mfParams v q' n_cumul j1 j2_eff weighted).find k = some (if k = "mrq" then v else if k = "q" then .q q'
        else if k = "n_cumul" then .int n_cumul else if k = "j1" then .int j1 else if k = "j2" then .int j2_eff else .bool weighted) := by
    intro v params hs k hk
    have := hs hk
    simp only [List.mem_cons, List.not_mem_nil, or_false] at this
    rcases this with rfl | rfl | rfl | rfl | rfl | rfl <;> simp [mfParams, PyDict.find]
  have hs := C108_from_dict StructFn.ofArgs (hd (.mrq coefs) StructFn.params (by simp [StructFn.params]))
  have hc := fun v : PyVal R => C108_from_dict Cumulants.ofArgs (hd v Cumulants.params (by simp [Cumulants.params]))
  constructor
  · unfold minimalDict minimalMfAnalysis
    simp only [← hq', hs, hc]
    cases leaders with
    | none =>
      simp [StructFn.params, Cumulants.params, StructFn.ofArgs, Cumulants.ofArgs]
      try (cases StructFn.make coefs q' j1 j2_eff weighted <;> rfl)
    | some l =>
      simp [StructFn.params, Cumulants.params, StructFn.ofArgs, Cumulants.ofArgs]
      try (cases StructFn.make coefs q' j1 j2_eff weighted with
        | error e => rfl
        | ok s => cases Cumulants.make l n_cumul j1 j2_eff weighted <;> rfl)
  · rw [← hq', hc]
    simp [Cumulants.params, Cumulants.ofArgs]

/-- **C108** for the bivariate analysis. -/
theorem C108_bivariate (same : Bool) (m1 m2 : MRQ R) (j1 j2 : ℤ) (weighted : Bool) (n_cumul : ℕ) (q1 q2 : QArg) :
    biVarDict same m1 m2 j1 j2 weighted n_cumul q1 q2 = biVar same m1 m2 j1 j2 weighted n_cumul (some q1) (some q2) := by
  have hd : ∀ params : List String, params ⊆ ["mrq1", "mrq2", "q1", "q2", "n_cumul", "j1", "j2", "weighted"] → ∀ k ∈ params,
      (biParams m1 m2 q1 q2 j1 j2 weighted n_cumul).find k = some (if k = "mrq1" then .mrq m1 else if k = "mrq2" then .mrq m2
        else if k = "q1" then .q q1 else if k = "q2" then .q q2
        else if k = "n_cumul" then .int n_cumul else if k = "j1" then .int j1 else if k = "j2" then .int j2 else .bool weighted) := by
    intro params hs k hk
    have := hs hk
    simp only [List.mem_cons, List.not_mem_nil, or_false] at this
    rcases this with rfl | rfl | rfl | rfl | rfl | rfl | rfl | rfl <;> simp [biParams, PyDict.find]
  unfold biVarDict
  simp only
  rw [C108_from_dict (BiCumulants.ofArgs same) (hd _ (by simp [BiCumulants.params])),
    C108_from_dict (BiStructFn.ofArgs same) (hd _ (by simp [BiStructFn.params]))]
  simp [BiCumulants.params, BiStructFn.params, BiCumulants.ofArgs, BiStructFn.ofArgs, biVar]
  cases BiCumulants.make same m1 m2 n_cumul j1 j2 weighted with
  | error e => rfl
  | ok c => cases BiStructFn.make same m1 m2 j1 j2 q1 q2 weighted <;> rfl

/-- **C108**: `MultiResolutionQuantity.from_dict` needs only a valid `formalism`; a missing or invalid one raises ValueError, a missing
`gamint` does not raise and is stored as None. -/
theorem C108_mrq (d : PyDict R) (s : String) :
    (∀ g, d.find "formalism" = some (.str s) → d.find "gamint" = some (.num g) → s = "wavelet coef" ∨ s = "wavelet leader" ∨ s = "wavelet p-leader" →
      ∃ f, Formalism.ofString s = .ok f ∧ mrqFromDict d = .ok (f, some g)) ∧
    (d.find "formalism" = some (.str s) → d.find "gamint" = none → s = "wavelet coef" ∨ s = "wavelet leader" ∨ s = "wavelet p-leader" →
      ∃ f, Formalism.ofString s = .ok f ∧ mrqFromDict d = .ok (f, none)) ∧
    (d.find "formalism" = none → mrqFromDict d = .error .valueError) ∧
    (∀ g, d.find "formalism" = some (.str s) → d.find "gamint" = some (.num g) → ¬ (s = "wavelet coef" ∨ s = "wavelet leader" ∨ s = "wavelet p-leader") →
      mrqFromDict d = .error .valueError) := by
  have h1 := keepParams_find (d := d) (params := ["formalism", "gamint"]) (k := "formalism") (by simp)
  have h2 := keepParams_find (d := d) (params := ["formalism", "gamint"]) (k := "gamint") (by simp)
  have hex : s = "wavelet coef" ∨ s = "wavelet leader" ∨ s = "wavelet p-leader" → ∃ f, Formalism.ofString s = .ok f := by
    rintro (rfl | rfl | rfl) <;> simp [Formalism.ofString]
  unfold mrqFromDict
  simp only [h1, h2]
  refine ⟨fun g a b c => ?_, fun a b c => ?_, fun a => ?_, fun g a b c => ?_⟩
  · obtain ⟨f, hf⟩ := hex c
    exact ⟨f, hf, by simp [a, b, hf]⟩
  · obtain ⟨f, hf⟩ := hex c
    exact ⟨f, hf, by simp [a, b, hf]⟩
  · simp [a]
  · push Not at c
    simp [a, b, Formalism.ofString, c.1, c.2.1, c.2.2]

/-! ### Attributes -/

theorem positions_m {R : ℕ} (c : BiCumulants R) (v : ℕ) : positions c.m v = if v ≤ c.n_cumul then [v] else [] := by
  have hlen : c.m.length = c.n_cumul + 1 := by simp [BiCumulants.m]
  have hget : ∀ i : ℕ, i < c.n_cumul + 1 → (c.m[i]? = some (v : ℝ) ↔ i = v) := by
    intro i hi
    simp only [BiCumulants.m, List.getElem?_map, List.getElem?_range hi, Option.map_some, Option.some.injEq, Nat.cast_inj]
  unfold positions
  rw [hlen]
  have h1 : (List.range (c.n_cumul + 1)).filter (fun i => decide (c.m[i]? = some (v : ℝ))) = (List.range (c.n_cumul + 1)).filter fun i => decide (i = v) := by
    apply List.filter_congr
    intro i hi
    simp only [hget i (List.mem_range.1 hi)]
  rw [h1]
  split
  · rename_i h
    have hs : List.range (c.n_cumul + 1) = List.range v ++ v :: (List.range (c.n_cumul - v)).map fun i => v + 1 + i := by
      rw [show c.n_cumul + 1 = v + 1 + (c.n_cumul - v) by omega, List.range_add, List.range_succ, List.append_assoc]; rfl
    rw [hs, List.filter_append, List.filter_cons_of_pos (by simp), List.filter_eq_nil_iff.2, List.filter_eq_nil_iff.2]
    · rfl
    · intro i hi
      obtain ⟨t, -, rfl⟩ := List.mem_map.1 hi
      simp; omega
    · intro i hi
      have := List.mem_range.1 hi
      simp; omega
  · rename_i h
    rw [List.filter_eq_nil_iff]
    intro i hi
    have := List.mem_range.1 hi
    simp; omega

/-- Digits as characters. -/
theorem digit_val (v : ℕ) (hv : v ≤ 9) : (Char.ofNat (48 + v)).isDigit = true ∧ digitVal (Char.ofNat (48 + v)) = v := by
  have : v = 0 ∨ v = 1 ∨ v = 2 ∨ v = 3 ∨ v = 4 ∨ v = 5 ∨ v = 6 ∨ v = 7 ∨ v = 8 ∨ v = 9 := by omega
  rcases this with rfl | rfl | rfl | rfl | rfl | rfl | rfl | rfl | rfl | rfl <;> decide

theorem bcast_positions {R : ℕ} {α : Type} (c : BiCumulants R) (f : ℕ → ℕ → α) (a b : ℕ) :
    bcast .indexError f (positions c.m a) (positions c.m b) = .ok (if a ≤ c.n_cumul ∧ b ≤ c.n_cumul then [f a b] else []) := by
  rw [positions_m, positions_m]
  unfold bcast
  by_cases ha : a ≤ c.n_cumul <;> by_cases hb : b ≤ c.n_cumul <;> simp [ha, hb]

/-- **C109**: `c{a}{b}` and `C{a}{b}` are arrays with the one log-cumulant (curve) of orders `(a, b)` when `a, b ≤ n_cumul`, and
arrays with no entry otherwise: there is no exception for an order that was not computed.  Every other name raises; in particular
orders with two digits cannot be reached. -/
theorem C109_accessors {R : ℕ} (c : BiCumulants R) :
    (∀ a ≤ 9, ∀ b ≤ 9, c.getattr ['c', Char.ofNat (48 + a), Char.ofNat (48 + b)] =
      .ok (.entries (if a ≤ c.n_cumul ∧ b ≤ c.n_cumul then [c.log_cumulants a b] else []))) ∧
    (∀ a ≤ 9, ∀ b ≤ 9, c.getattr ['C', Char.ofNat (48 + a), Char.ofNat (48 + b)] =
      .ok (.curves (if a ≤ c.n_cumul ∧ b ≤ c.n_cumul then [c.values a b] else []))) ∧
    (∀ name, (∀ a ≤ 9, ∀ b ≤ 9, name ≠ ['c', Char.ofNat (48 + a), Char.ofNat (48 + b)] ∧
        name ≠ ['C', Char.ofNat (48 + a), Char.ofNat (48 + b)]) →
      c.getattr name = .error (if name = [] then .indexError else .attributeError)) ∧
    (∀ name : List Char, 3 < name.length → c.getattr name = .error .attributeError) := by
  have hdig : ∀ d : Char, d.isDigit = true → ∃ v ≤ 9, d = Char.ofNat (48 + v) := by
    intro d hd
    have hd' : 48 ≤ d.toNat ∧ d.toNat ≤ 57 := by
      simp only [Char.isDigit, ge_iff_le, Bool.and_eq_true, decide_eq_true_eq] at hd
      exact ⟨hd.1, hd.2⟩
    refine ⟨d.toNat - 48, by omega, ?_⟩
    rw [show 48 + (d.toNat - 48) = d.toNat by omega, Char.ofNat_toNat]
  refine ⟨fun a ha b hb => ?_, fun a ha b hb => ?_, fun name hname => ?_, fun name hl => ?_⟩
  · obtain ⟨d1, d2⟩ := digit_val a ha
    obtain ⟨e1, e2⟩ := digit_val b hb
    simp only [BiCumulants.getattr, d1, e1, and_self, if_true, d2, e2, bcast_positions]
  · obtain ⟨d1, d2⟩ := digit_val a ha
    obtain ⟨e1, e2⟩ := digit_val b hb
    simp only [BiCumulants.getattr, d1, e1, and_self, if_true, d2, e2, bcast_positions]
  · unfold BiCumulants.getattr
    split
    · rename_i d e
      rw [if_neg, if_neg (by simp)]
      rintro ⟨hd, he⟩
      obtain ⟨v, hv, rfl⟩ := hdig d hd
      obtain ⟨w, hw, rfl⟩ := hdig e he
      exact (hname v hv w hw).1 rfl
    · rename_i d e
      rw [if_neg, if_neg (by simp)]
      rintro ⟨hd, he⟩
      obtain ⟨v, hv, rfl⟩ := hdig d hd
      obtain ⟨w, hw, rfl⟩ := hdig e he
      exact (hname v hv w hw).2 rfl
    · simp
    · rename_i h
      rw [if_neg (fun e => h e)]
  · match name, hl with
    | a :: b :: c' :: d :: l, _ =>
      unfold BiCumulants.getattr
      split <;> simp_all

/-- **C109**: `compute_legendre` returns the spectrum of C81 when the cumulants of order two are available (`n_cumul ≥ 2`), and raises
ValueError otherwise (unless the grid is empty). -/
theorem C109_legendre {R : ℕ} (c : BiCumulants R) (hs : ℝ × ℝ) (resolution : ℕ) :
    (2 ≤ c.n_cumul → c.legendre hs resolution = .ok (c.computeLegendre hs resolution)) ∧
    (c.n_cumul < 2 → 1 ≤ resolution → c.legendre hs resolution = .error .valueError) := by
  have h : ∀ a b, a ≤ 9 → b ≤ 9 → c.getattr ['c', Char.ofNat (48 + a), Char.ofNat (48 + b)] =
      .ok (.entries (if a ≤ c.n_cumul ∧ b ≤ c.n_cumul then [c.log_cumulants a b] else [])) :=
    fun a b ha hb => (C109_accessors c).1 a ha b hb
  have h20 := h 2 0 (by norm_num) (by norm_num)
  have h02 := h 0 2 (by norm_num) (by norm_num)
  have h11 := h 1 1 (by norm_num) (by norm_num)
  have h10 := h 1 0 (by norm_num) (by norm_num)
  have h01 := h 0 1 (by norm_num) (by norm_num)
  have c0 : Char.ofNat (48 + 0) = '0' := by decide
  have c1 : Char.ofNat (48 + 1) = '1' := by decide
  have c2 : Char.ofNat (48 + 2) = '2' := by decide
  rw [c2, c0] at h20; rw [c0, c2] at h02; rw [c1] at h11; rw [c1, c0] at h10; rw [c0, c1] at h01
  unfold BiCumulants.legendre
  rw [h20, h02, h11, h10, h01]
  refine ⟨fun hn => ?_, fun hn hr => ?_⟩
  · have e1 : 1 ≤ c.n_cumul := by omega
    simp [hn, e1]
  · have e2 : ¬ 2 ≤ c.n_cumul := by omega
    have e3 : resolution ≠ 0 := by omega
    simp only [e2, false_and, if_false, if_neg e3]

/-! Non-trivial instances: a dictionary with entries in another order and with extra entries, and two orders of an actual object. -/
example (m : MRQ 2) : fromDict StructFn.params StructFn.ofArgs
    [("j2", .int 4), ("n_cumul", .int 3), ("q", .q (.ndarray [1, 2])), ("mrq", .mrq m), ("weighted", .bool true), ("p_exp", .num 2),
      ("j1", .int 2)] = StructFn.make m (.ndarray [1, 2]) 2 4 true := by
  rw [C108_from_dict (v := fun k => if k = "mrq" then .mrq m else if k = "q" then .q (.ndarray [1, 2]) else if k = "j1" then .int 2
    else if k = "j2" then .int 4 else .bool true)]
  · simp [StructFn.params, StructFn.ofArgs]
  · intro k hk
    simp only [StructFn.params, List.mem_cons, List.not_mem_nil, or_false] at hk
    rcases hk with rfl | rfl | rfl | rfl | rfl <;> simp [PyDict.find]

example (c : BiCumulants 1) (hn : c.n_cumul = 3) : c.getattr ['c', '3', '1'] = .ok (.entries [c.log_cumulants 3 1]) ∧
    c.getattr ['C', '4', '0'] = .ok (.curves []) ∧ c.getattr ['c', '1', '0', '2'] = .error .attributeError := by
  obtain ⟨h1, h2, -, h4⟩ := C109_accessors c
  refine ⟨?_, ?_, h4 _ (by simp)⟩
  · have := h1 3 (by norm_num) 1 (by norm_num)
    rw [show Char.ofNat (48 + 3) = '3' by decide, show Char.ofNat (48 + 1) = '1' by decide] at this
    rw [this]; simp [hn]
  · have := h2 4 (by norm_num) 0 (by norm_num)
    rw [show Char.ofNat (48 + 4) = '4' by decide, show Char.ofNat (48 + 0) = '0' by decide] at this
    rw [this]; simp [hn]

end

end MFA
