import Verif.Model.Wavelet
import Verif.Lemmas.Fl

/-! Entrywise description of one filtering step. -/

namespace MFA

open Classical

variable {R : ℕ}

/-- Row `t` of the full convolution window around output `i` (term by term). -/
noncomputable def convAt (a : Arr R) (f : List ℝ) (i : ℕ) (r : Fin R) : Fl :=
  ((List.range f.length).map fun (k : ℕ) =>
      Fl.fin (f.getD k 0) * padGet a ((i : ℤ) + ((f.length - 1) / 2 : ℕ) - k) r).sum

theorem convSame_eq (a : Arr R) (f : List ℝ) :
    convSame a f = (List.range a.length).map fun (i : ℕ) r => convAt a f i r := rfl

/-- Position `i` of an array of length `n` is in the border mask of a filter of length `F`. -/
def Masked (F n i : ℕ) : Prop := i < sliceBound n ((F : ℤ) - 1) ∨ sliceBound n ((n : ℤ) - F + 1) ≤ i

theorem masked_iff {F n i : ℕ} (hF : 1 ≤ F) (hn : F ≤ n + 1) (hi : i < n) : Masked F n i ↔ i + 1 < F ∨ n < i + F := by
  unfold Masked
  obtain ⟨G, rfl⟩ : ∃ G, F = G + 1 := ⟨F - 1, by omega⟩
  have e1 : (((G + 1 : ℕ) : ℤ) - 1) = (G : ℤ) := by push_cast; ring
  have e2 : ((n : ℤ) - ((G + 1 : ℕ) : ℤ) + 1) = ((n - G : ℕ) : ℤ) := by omega
  rw [e1, e2]
  unfold sliceBound
  rw [if_neg (by omega), if_neg (by omega)]
  simp only [Int.toNat_natCast]
  omega

theorem setNaN_getElem? (a : Arr R) (s e i : ℕ) :
    (setNaN a s e)[i]? = (a[i]?).map fun row => if s ≤ i ∧ i < e then (fun _ => Fl.nan) else row := by
  simp [setNaN, List.getElem?_mapIdx]

theorem setNaN_length (a : Arr R) (s e : ℕ) : (setNaN a s e).length = a.length := by simp [setNaN]

theorem maskBorders_length (F : ℕ) (a : Arr R) : (maskBorders F a).length = a.length := by
  simp [maskBorders, setNaN_length]

theorem maskBorders_getElem? (F : ℕ) (a : Arr R) (i : ℕ) :
    (maskBorders F a)[i]? = (a[i]?).map fun row => if Masked F a.length i then (fun _ => Fl.nan) else row := by
  simp only [maskBorders, setNaN_getElem?, Option.map_map]
  cases h : a[i]? with
  | none => rfl
  | some row =>
    have hi : i < a.length := (List.getElem?_eq_some_iff.mp h).1
    simp only [Option.map_some, Function.comp_apply, Option.some.injEq]
    by_cases h1 : i < sliceBound a.length ((F : ℤ) - 1)
    · have hM : Masked F a.length i := Or.inl h1
      rw [if_pos hM]
      split <;> simp [h1]
    · by_cases h2 : sliceBound a.length ((a.length : ℤ) - F + 1) ≤ i
      · have hM : Masked F a.length i := Or.inr h2
        rw [if_pos hM, if_pos ⟨h2, hi⟩]
      · have hM : ¬ Masked F a.length i := fun h => h.elim h1 h2
        rw [if_neg hM, if_neg (fun h => h2 h.1), if_neg (fun h => h1 h.2)]

theorem subsample_length (a : Arr R) : (subsample a).length = a.length / 2 := by
  unfold subsample
  have : (List.range (a.length / 2)).filterMap (fun k => a[2 * k + 1]?)
      = (List.range (a.length / 2)).map (fun k => (a[2 * k + 1]?).getD (fun _ => Fl.nan)) := by
    rw [← List.filterMap_eq_map]
    apply List.filterMap_congr
    intro k hk
    rw [List.mem_range] at hk
    have : 2 * k + 1 < a.length := by omega
    simp [this]
  rw [this]; simp

theorem subsample_getElem? (a : Arr R) (k : ℕ) : (subsample a)[k]? = a[2 * k + 1]? := by
  unfold subsample
  have : (List.range (a.length / 2)).filterMap (fun k => a[2 * k + 1]?)
      = (List.range (a.length / 2)).map (fun k => (a[2 * k + 1]?).getD (fun _ => Fl.nan)) := by
    rw [← List.filterMap_eq_map]
    apply List.filterMap_congr
    intro k hk
    rw [List.mem_range] at hk
    have : 2 * k + 1 < a.length := by omega
    simp [this]
  rw [this, List.getElem?_map]
  by_cases hk : k < a.length / 2
  · have : 2 * k + 1 < a.length := by omega
    simp [hk, this]
  · have : a.length ≤ 2 * k + 1 := by omega
    simp [hk, this]

/-- One output array of `filtering`. -/
noncomputable def filt (F : ℕ) (a : Arr R) (f : List ℝ) : Arr R :=
  (List.range (a.length / 2)).map fun (k : ℕ) r =>
    if Masked F a.length (2 * k + 1) then Fl.nan else convAt a f (2 * k + 1) r

theorem filt_length (F : ℕ) (a : Arr R) (f : List ℝ) : (filt F a f).length = a.length / 2 := by simp [filt]

theorem subsample_mask_conv (F : ℕ) (a : Arr R) (f : List ℝ) :
    subsample (maskBorders F (convSame a f)) = filt F a f := by
  apply List.ext_getElem?
  intro k
  rw [subsample_getElem?, maskBorders_getElem?, convSame_eq, filt]
  simp only [List.getElem?_map, List.length_map, List.length_range]
  by_cases hk : k < a.length / 2
  · have : 2 * k + 1 < a.length := by omega
    rw [List.getElem?_range this, List.getElem?_range hk]
    simp only [Option.map_some, Option.some.injEq]
    funext r
    by_cases hm : Masked F a.length (2 * k + 1)
    · rw [if_pos hm, if_pos hm]
    · rw [if_neg hm, if_neg hm]
  · have : a.length ≤ 2 * k + 1 := by omega
    rw [List.getElem?_eq_none (by simpa using this), List.getElem?_eq_none (by simpa using hk)]
    rfl

theorem filtering_eq (a : Arr R) (h l : List ℝ) : filtering a h l = (filt h.length a h, filt h.length a l) := by
  rw [filtering, subsample_mask_conv, subsample_mask_conv]

/-! ### The sequences of approximations and details -/

/-- Approximation after `j` filtering steps. -/
noncomputable def approxSeq (P : LoopParams) (sig : Arr R) : ℕ → Arr R
  | 0 => sig
  | j + 1 => (filtering (approxSeq P sig j) P.high P.low).2

/-- Raw detail at scale `j + 1`. -/
noncomputable def detailSeq (P : LoopParams) (sig : Arr R) (j : ℕ) : Arr R :=
  (filtering (approxSeq P sig j) P.high P.low).1

/-- The normalisation factors of scale `s` applied to an array. -/
noncomputable def scaled (P : LoopParams) (s : ℕ) (d : Arr R) : Arr R :=
  mapArr (fun x => x * Fl.fin ((2:ℝ) ^ ((s : ℝ) * (1 / 2 - 1 / P.normalization)))
      * Fl.fin ((2:ℝ) ^ (P.gamint * (s : ℝ)))) d

/-- Normalised coefficients at scale `s ≥ 1`. -/
noncomputable def coefSeq (P : LoopParams) (sig : Arr R) (s : ℕ) : Arr R := scaled P s (detailSeq P sig (s - 1))

theorem normalize_eq (d : Arr R) (s : ℕ) (P : LoopParams) (hn : P.normalization ≠ 0) :
    normalize d s P.normalization P.gamint = .ok (scaled P s d) := by
  rw [normalize, if_neg hn]; rfl

theorem approxSeq_length (P : LoopParams) (sig : Arr R) (j : ℕ) : (approxSeq P sig j).length = sig.length / 2 ^ j := by
  induction j with
  | zero => simp [approxSeq]
  | succ j ih => rw [approxSeq, filtering_eq, filt_length, ih, pow_succ, Nat.div_div_eq_div_mul]

theorem detailSeq_length (P : LoopParams) (sig : Arr R) (j : ℕ) : (detailSeq P sig j).length = sig.length / 2 ^ (j + 1) := by
  rw [detailSeq, filtering_eq, filt_length, approxSeq_length, pow_succ, Nat.div_div_eq_div_mul]

theorem coefSeq_length (P : LoopParams) (sig : Arr R) (s : ℕ) (hs : 1 ≤ s) :
    (coefSeq P sig s).length = sig.length / 2 ^ s := by
  rw [coefSeq, scaled, mapArr_length, detailSeq_length, Nat.sub_add_cancel hs]

/-! ### Adding consecutive scales -/

/-- `acc` after adding the arrays `f s, ..., f (s+K-1)` at scales `s, ..., s+K-1`. -/
noncomputable def addMany (f : ℕ → Arr R) (s : ℕ) : ℕ → MRQ R → MRQ R
  | 0, acc => acc
  | K + 1, acc => addMany f (s + 1) K (acc.addValues (f s) s)

theorem Dict.set_append {α : Type} (d : Dict α) (j : ℤ) (v : α) (h : j ∉ d.map Prod.fst) :
    Dict.set d j v = d ++ [(j, v)] := by
  induction d with
  | nil => rfl
  | cons p d ih =>
    obtain ⟨k, w⟩ := p
    rw [List.map_cons, List.mem_cons, not_or] at h
    rw [Dict.set, if_neg (fun e => h.1 e.symm), ih h.2]; rfl

theorem addMany_spec (f : ℕ → Arr R) (K : ℕ) : ∀ (s : ℕ) (acc : MRQ R),
    (∀ k ∈ acc.values.map Prod.fst, k < (s : ℤ)) → (∀ k ∈ acc.nj.map Prod.fst, k < (s : ℤ)) →
    addMany f s K acc =
      { acc with
        values := acc.values ++ (List.range K).map (fun (i : ℕ) => (((s + i : ℕ) : ℤ), f (s + i)))
        nj := acc.nj ++ (List.range K).map
          (fun (i : ℕ) => (((s + i : ℕ) : ℤ), fun r => countNotNaN (col (f (s + i)) r))) } := by
  induction K with
  | zero => intro s acc _ _; simp [addMany]
  | succ K ih =>
    intro s acc h1 h2
    have e1 : Dict.set acc.values s (f s) = acc.values ++ [((s : ℤ), f s)] :=
      Dict.set_append _ _ _ (fun h => absurd (h1 _ h) (lt_irrefl _))
    have e2 : Dict.set acc.nj s (fun r => countNotNaN (col (f s) r))
        = acc.nj ++ [((s : ℤ), fun r => countNotNaN (col (f s) r))] :=
      Dict.set_append _ _ _ (fun h => absurd (h2 _ h) (lt_irrefl _))
    have e3 : acc.addValues (f s) s = { acc with
        values := acc.values ++ [((s : ℤ), f s)]
        nj := acc.nj ++ [((s : ℤ), fun r => countNotNaN (col (f s) r))] } := by
      rw [← e1, ← e2]; rfl
    rw [addMany, e3, ih]
    · simp only [List.append_assoc, List.singleton_append, List.range_succ_eq_map, List.map_cons, List.map_map,
        Nat.add_zero]
      have hh : ∀ i : ℕ, s + 1 + i = s + (i + 1) := fun i => by omega
      congr 3
      · apply List.map_congr_left; intro i _; simp only [Function.comp, hh]
      · apply List.map_congr_left; intro i _; simp only [Function.comp, hh]
    · intro k hk
      simp only [List.map_append, List.map_cons, List.map_nil, List.mem_append, List.mem_singleton] at hk
      rcases hk with hk | rfl
      · have := h1 k hk; push_cast; omega
      · push_cast; omega
    · intro k hk
      simp only [List.map_append, List.map_cons, List.map_nil, List.mem_append, List.mem_singleton] at hk
      rcases hk with hk | rfl
      · have := h2 k hk; push_cast; omega
      · push_cast; omega

/-- The quantity with scales `1..K` holding the arrays `f 1, ..., f K`. -/
noncomputable def scalesUpTo (fm : Formalism) (gamint : ℝ) (f : ℕ → Arr R) (K : ℕ) : MRQ R :=
  { formalism := fm, gamint := gamint
    values := (List.range K).map (fun (i : ℕ) => (((i + 1 : ℕ) : ℤ), f (i + 1)))
    nj := (List.range K).map (fun (i : ℕ) => (((i + 1 : ℕ) : ℤ), fun r => countNotNaN (col (f (i + 1)) r))) }

theorem addMany_empty (f : ℕ → Arr R) (fm : Formalism) (gamint : ℝ) (K : ℕ) :
    addMany f 1 K (MRQ.empty fm gamint) = scalesUpTo fm gamint f K := by
  rw [addMany_spec]
  · simp only [MRQ.empty, List.nil_append, scalesUpTo, Nat.add_comm 1]
  · intro k hk; simp [MRQ.empty] at hk
  · intro k hk; simp [MRQ.empty] at hk

/-! ### The coefficient loop -/

/-- `K` is the number of consecutive good scales `s, s+1, ...` (at most `n`). -/
def FirstBad (n : ℕ) (good : ℕ → Prop) (s K : ℕ) : Prop :=
  K ≤ n ∧ (∀ i < K, good (s + i)) ∧ (K < n → ¬ good (s + K))

theorem FirstBad.unique {n : ℕ} {good : ℕ → Prop} {s K K' : ℕ} (h : FirstBad n good s K) (h' : FirstBad n good s K') :
    K = K' := by
  rcases lt_trichotomy K K' with hl | he | hl
  · exact absurd (h'.2.1 K hl) (h.2.2 (lt_of_lt_of_le hl h'.1))
  · exact he
  · exact absurd (h.2.1 K' hl) (h'.2.2 (lt_of_lt_of_le hl h.1))

theorem coefLoop_spec (P : LoopParams) (sig : Arr R) (hR : R ≠ 0) (hn : P.normalization ≠ 0) (n : ℕ) :
    ∀ (s : ℕ) (ml : ℤ) (acc : MRQ R), 1 ≤ s →
    ∃ K, FirstBad n (fun j => ¬ tooFew (coefSeq P sig j)) s K ∧
      coefLoop P n s ml (approxSeq P sig (s - 1)) acc
        = .ok (addMany (coefSeq P sig) s K acc, if K = n then ml else (s + K : ℤ) - 1) := by
  induction n with
  | zero =>
    intro s ml acc _
    exact ⟨0, ⟨le_rfl, by simp, by simp⟩, rfl⟩
  | succ n ih =>
    intro s ml acc hs
    rw [coefLoop, if_neg hR]
    have hd : (filtering (approxSeq P sig (s - 1)) P.high P.low).1 = detailSeq P sig (s - 1) := rfl
    have ha : (filtering (approxSeq P sig (s - 1)) P.high P.low).2 = approxSeq P sig (s + 1 - 1) := by
      obtain ⟨t, rfl⟩ : ∃ t, s = t + 1 := ⟨s - 1, by omega⟩
      rfl
    simp only [hd, ha]
    rw [normalize_eq _ _ _ hn]
    have hc : scaled P s (detailSeq P sig (s - 1)) = coefSeq P sig s := rfl
    simp only [hc]
    by_cases ht : tooFew (coefSeq P sig s)
    · rw [if_pos ht]
      refine ⟨0, ⟨by omega, by simp, fun _ => by simpa using ht⟩, ?_⟩
      rw [if_neg (by omega)]
      simp [addMany]
    · rw [if_neg ht]
      obtain ⟨K, hK, e⟩ := ih (s + 1) ml (acc.addValues (coefSeq P sig s) s) (by omega)
      refine ⟨K + 1, ⟨by have := hK.1; omega, ?_, ?_⟩, ?_⟩
      · intro i hi
        rcases i with _ | i
        · simpa using ht
        · have := hK.2.1 i (by omega)
          rwa [show s + 1 + i = s + (i + 1) by omega] at this
      · intro h
        have := hK.2.2 (by omega)
        rwa [show s + 1 + K = s + (K + 1) by omega] at this
      · rw [e, addMany]
        congr 2
        by_cases h : K = n
        · rw [if_pos h, if_pos (by omega)]
        · rw [if_neg h, if_neg (by omega)]; push_cast; ring

end MFA
