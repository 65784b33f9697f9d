import Verif.Lemmas.RoundedEntries
import Verif.Lemmas.LeadLoop

/-! The rounded wavelet analysis: computed arrays converge. -/

namespace MFA

open Filter Topology Classical

noncomputable section

variable {R : ℕ}

/-- The array of `n` rows with the given entries. -/
def arrOf (n : ℕ) (e : ℕ → Fin R → Machine → Fl) (M : Machine) : Arr R := (List.range n).map fun (k : ℕ) r => e k r M

/-- A computed array: its length does not depend on the machine, its entries satisfy `E`. -/
def EvA (E : (Machine → Fl) → Prop) (A : Machine → Arr R) : Prop :=
  ∃ n e, (∀ᶠ M in Lmach, A M = arrOf n e M) ∧ ∀ k r, E (e k r)

theorem EvA.mono {E E' : (Machine → Fl) → Prop} (hE : ∀ f, E f → E' f) {A : Machine → Arr R} (h : EvA E A) : EvA E' A := by
  obtain ⟨n, e, h1, h2⟩ := h
  exact ⟨n, e, h1, fun k r => hE _ (h2 k r)⟩

theorem EvA.congr {E : (Machine → Fl) → Prop} {A B : Machine → Arr R} (h : EvA E A) (hB : ∀ᶠ M in Lmach, B M = A M) : EvA E B := by
  obtain ⟨n, e, h1, h2⟩ := h
  refine ⟨n, e, ?_, h2⟩
  filter_upwards [h1, hB] with M a b
  rw [b, a]

theorem EvA.const {a : Arr R} (h : ∀ row ∈ a, ∀ r, row r = Fl.nan ∨ ∃ x, row r = Fl.fin x) : EvA EvE (fun _ => a) := by
  refine ⟨a.length, fun k r _ => ent a k r, Eventually.of_forall fun M => arr_eq_range a, fun k r => ?_⟩
  have : ent a k r = Fl.nan ∨ ∃ x, ent a k r = Fl.fin x := by
    unfold ent
    cases hk : a[k]? with
    | none => exact Or.inl rfl
    | some row => exact h row (List.mem_of_getElem? hk) r
  rcases this with e | ⟨x, e⟩
  · simp only [e]; exact EvE.nan
  · simp only [e]; exact EvE.const x

theorem EvA.map {E E' : (Machine → Fl) → Prop} {op : Machine → Fl → Fl} (hop : ∀ f, E f → E' (fun M => op M (f M)))
    {A : Machine → Arr R} (h : EvA E A) : EvA E' (fun M => mapArr (op M) (A M)) := by
  obtain ⟨n, e, h1, h2⟩ := h
  refine ⟨n, fun k r M => op M (e k r M), ?_, fun k r => hop _ (h2 k r)⟩
  filter_upwards [h1] with M hM
  rw [hM]
  simp [mapArr, arrOf]

theorem padGet_arrOf (n : ℕ) (e : ℕ → Fin R → Machine → Fl) (M : Machine) (t : ℤ) (r : Fin R) :
    padGet (arrOf n e M) t r = if 0 ≤ t ∧ t.toNat < n then e t.toNat r M else Fl.fin 0 := by
  unfold padGet arrOf
  by_cases ht : 0 ≤ t
  · rw [if_pos ht]
    by_cases hn : t.toNat < n
    · rw [if_pos ⟨ht, hn⟩, List.getElem?_map, List.getElem?_range hn]
      rfl
    · rw [if_neg fun h => hn h.2, List.getElem?_eq_none (by simpa using hn)]
  · rw [if_neg ht, if_neg fun h => ht h.1]

theorem subsample_mask_convM (M : Machine) (F : ℕ) (a : Arr R) (f : List ℝ) :
    subsample (maskBorders F (M.convSame a f)) = (List.range (a.length / 2)).map fun (k : ℕ) r =>
      if Masked F a.length (2 * k + 1) then Fl.nan else M.sum ((List.range f.length).map fun (i : ℕ) =>
        M.mul (Fl.fin (f.getD i 0)) (padGet a (((2 * k + 1 : ℕ) : ℤ) + ((f.length - 1) / 2 : ℕ) - i) r)) := by
  apply List.ext_getElem?
  intro k
  rw [subsample_getElem?, maskBorders_getElem?, Machine.convSame]
  simp only [List.getElem?_map, List.length_map, List.length_range]
  by_cases hk : k < a.length / 2
  · have : 2 * k + 1 < a.length := by omega
    rw [List.getElem?_range this, List.getElem?_range hk]
    simp only [Option.map_some, Option.some.injEq]
    funext r
    by_cases hm : Masked F a.length (2 * k + 1)
    · rw [if_pos hm, if_pos hm]
    · rw [if_neg hm, if_neg hm]
  · have : a.length ≤ 2 * k + 1 := by omega
    rw [List.getElem?_eq_none (by simpa using this), List.getElem?_eq_none (by simpa using hk)]
    rfl

theorem EvA.conv (F : ℕ) (f : List ℝ) {A : Machine → Arr R} (h : EvA EvE A) :
    EvA EvE (fun M => subsample (maskBorders F (M.convSame (A M) f))) := by
  obtain ⟨n, e, h1, h2⟩ := h
  refine ⟨n / 2, fun k r M => if Masked F n (2 * k + 1) then Fl.nan else
    M.sum ((List.range f.length).map fun (i : ℕ) =>
      M.mul (Fl.fin (f.getD i 0)) (padGet (arrOf n e M) (((2 * k + 1 : ℕ) : ℤ) + ((f.length - 1) / 2 : ℕ) - i) r)), ?_, fun k r => ?_⟩
  · filter_upwards [h1] with M hM
    have hlen : (arrOf n e M).length = n := by simp [arrOf]
    rw [hM, subsample_mask_convM, hlen]
    rfl
  · by_cases hm : Masked F n (2 * k + 1)
    · simp only [if_pos hm]
      exact EvE.nan
    · simp only [if_neg hm]
      refine EvE.sum (List.range f.length) (fun i M => M.mul (Fl.fin (f.getD i 0))
        (padGet (arrOf n e M) (((2 * k + 1 : ℕ) : ℤ) + ((f.length - 1) / 2 : ℕ) - i) r)) fun i _ => (EvE.const _).mul ?_
      simp only [padGet_arrOf]
      split_ifs
      · exact h2 _ r
      · exact EvE.const 0

theorem EvA.normalize (scale : ℕ) {nm : ℝ} (hnm : nm ≠ 0) (g : ℝ) {A : Machine → Arr R} (h : EvA EvE A) :
    ∃ B : Machine → Arr R, EvA EvE B ∧ ∀ M : Machine, M.normalize (A M) scale nm g = .ok (B M) := by
  refine ⟨fun M => mapArr (fun x => M.mul (M.mul x
      (M.exp2 (M.mul (Fl.fin scale) (M.sub (Fl.fin (1 / 2)) (M.div (Fl.fin 1) (Fl.fin nm))))))
      (M.exp2 (M.mul (Fl.fin g) (Fl.fin scale)))) (A M), ?_, fun M => by rw [Machine.normalize, if_neg hnm]⟩
  refine EvA.map (op := fun M x => M.mul (M.mul x
      (M.exp2 (M.mul (Fl.fin scale) (M.sub (Fl.fin (1 / 2)) (M.div (Fl.fin 1) (Fl.fin nm))))))
      (M.exp2 (M.mul (Fl.fin g) (Fl.fin scale)))) (fun f hf => ?_) h
  exact (hf.mul (Or.inr ⟨_, ((CvTo.const (scale : ℝ)).mul ((CvTo.const (1 / 2)).sub ((CvTo.const 1).div (CvTo.const nm) hnm))).exp2⟩)).mul
    (Or.inr ⟨_, ((CvTo.const g).mul (CvTo.const (scale : ℝ))).exp2⟩)

/-! ### Strict families -/

theorem EvA.strict {A : Machine → Arr R} (h : EvA EvE A) : ∃ a : FArr R, CvArr a ∧ ∀ᶠ M in Lmach, A M = a.at M := by
  obtain ⟨n, e, h1, h2⟩ := h
  choose e' he' hee using fun k r => (h2 k r).strict
  refine ⟨(List.range n).map fun (k : ℕ) r => e' k r, ?_, ?_⟩
  · intro row hrow r
    obtain ⟨k, -, rfl⟩ := List.mem_map.1 hrow
    exact he' k r
  · have : ∀ᶠ M in Lmach, ∀ k ∈ Set.Iio n, ∀ r, e k r M = e' k r M := by
      rw [eventually_all_finite (Set.finite_Iio n)]
      intro k _
      rw [eventually_all]
      exact fun r => hee k r
    filter_upwards [h1, this] with M a b
    rw [a, arrOf, FArr.at, List.map_map]
    refine List.map_congr_left fun k hk => ?_
    funext r
    exact b k (List.mem_range.1 hk) r

theorem EvA.tooFew {A : Machine → Arr R} (h : EvA EvE A) :
    (∀ᶠ M in Lmach, MFA.tooFew (A M)) ∨ ∀ᶠ M in Lmach, ¬ MFA.tooFew (A M) := by
  obtain ⟨a, ha, e⟩ := (EvA.map (op := fun _ x => x.abs) (fun f (hf : EvE f) => hf.abs.1) h).strict
  have key : ∀ M, MFA.tooFew (A M) ↔ ∃ r : Fin R, countNotNaN (col (mapArr Fl.abs (A M)) r) < 3 := by
    intro M
    simp only [MFA.tooFew, col, mapArr, List.map_map]
    rfl
  by_cases hz : ∃ r : Fin R, countNotNaN (col (a.at Machine.exact) r) < 3
  · left
    filter_upwards [e] with M hM
    obtain ⟨r, hr⟩ := hz
    refine (key M).2 ⟨r, ?_⟩
    rw [hM, ha.count M Machine.exact]
    exact hr
  · right
    filter_upwards [e] with M hM
    rw [key]
    rintro ⟨r, hr⟩
    rw [hM, ha.count M Machine.exact] at hr
    exact hz ⟨r, hr⟩

/-! ### Leaders -/

/-- A computation that fails with the same error on all accurate machines, or succeeds on all of them. -/
def EvX {α : Type} (X : Machine → Except PyErr α) (P : (Machine → α) → Prop) : Prop :=
  (∃ e, ∀ᶠ M in Lmach, X M = .error e) ∨ ∃ a, P a ∧ ∀ᶠ M in Lmach, X M = .ok (a M)

theorem stack3_arrOf (g : Machine → List Fl → Fl) (n1 n2 n3 : ℕ) (a b c : ℕ → Fin R → Machine → Fl)
    (hg : ∀ k r, EvN (fun M => g M [a k r M, b k r M, c k r M])) :
    EvX (fun M => stack3 (g M) (arrOf n1 a M) (arrOf n2 b M) (arrOf n3 c M)) (EvA EvN) := by
  by_cases h : n1 = n2 ∧ n2 = n3
  · obtain ⟨rfl, rfl⟩ := h
    refine Or.inr ⟨_, ⟨n1, fun k r M => g M [a k r M, b k r M, c k r M], Eventually.of_forall fun M => rfl, hg⟩,
      Eventually.of_forall fun M => ?_⟩
    exact zip3_range (g M) n1 (fun k r => a k r M) (fun k r => b k r M) (fun k r => c k r M)
  · refine Or.inl ⟨.valueError, Eventually.of_forall fun M => ?_⟩
    show stack3 _ _ _ _ = _
    unfold stack3
    rw [if_neg]
    simpa [arrOf] using h

theorem red3 {a b c : Machine → Fl} (ha : EvN a) (hb : EvN b) (hc : EvN c) (fm : Formalism) :
    EvN (fun M => M.leaderRed fm [a M, b M, c M]) :=
  EvN.red (l := [a, b, c]) (by
    intro f hf
    simp only [List.mem_cons, List.not_mem_nil, or_false] at hf
    rcases hf with rfl | rfl | rfl
    · exact ha
    · exact hb
    · exact hc) fm

theorem EvX.congr {α : Type} {X Y : Machine → Except PyErr α} {P : (Machine → α) → Prop} (h : EvX X P)
    (e : ∀ᶠ M in Lmach, Y M = X M) : EvX Y P := by
  rcases h with ⟨er, h⟩ | ⟨a, ha, h⟩
  · refine Or.inl ⟨er, ?_⟩
    filter_upwards [h, e] with M h1 h2
    rw [h2, h1]
  · refine Or.inr ⟨a, ha, ?_⟩
    filter_upwards [h, e] with M h1 h2
    rw [h2, h1]

theorem EvA.findSansVoisin (fm : Formalism) (scale : ℕ) {D S : Machine → Arr R} (hD : EvA EvN D) (hS : EvA EvN S) :
    EvX (fun M => M.findSansVoisin scale (D M) (S M) fm) (EvA EvN) := by
  by_cases hs : scale = 1
  · exact Or.inr ⟨D, hD, Eventually.of_forall fun M => by
      show M.findSansVoisin _ _ _ _ = _
      rw [Machine.findSansVoisin, if_pos hs]⟩
  · obtain ⟨n, d, hd, hd'⟩ := hD
    obtain ⟨m, s, hs1, hs2⟩ := hS
    refine (stack3_arrOf (fun M => M.leaderRed fm) (min (m / 2) n) (m / 2) (m / 2) d (fun k => s (2 * k)) (fun k => s (2 * k + 1))
      fun k r => red3 (hd' _ _) (hs2 _ _) (hs2 _ _) fm).congr ?_
    filter_upwards [hd, hs1] with M e1 e2
    rw [Machine.findSansVoisin, if_neg hs, e1, e2]
    have hlen : (arrOf m s M).length = m := by simp [arrOf]
    simp only [hlen]
    obtain ⟨f1, f2⟩ := everySecond_range m (fun k r => s k r M) (m / 2) (by omega)
    have f1' : everySecond (arrOf m s M) 0 (2 * (m / 2)) = arrOf (m / 2) (fun k => s (2 * k)) M := f1
    have f2' : everySecond (arrOf m s M) 1 (2 * (m / 2)) = arrOf (m / 2) (fun k => s (2 * k + 1)) M := f2
    rw [f1', f2']
    congr 1
    rw [arrOf, arrOf, ← List.map_take, List.take_range]

/-- The values of `p_exp` for which the analysis can return leaders: infinity and 2. -/
def LeaderP (p : PExp) : Prop := p = .inf ∨ ∃ e : Expo, p = .num e ∧ e.val = 2

theorem EvA.leaderInput {p : PExp} (hp : LeaderP p) (scale : ℕ) {D : Machine → Arr R} (hD : EvA EvE D) :
    EvA EvN (fun M => M.leaderInput (D M) scale p) := by
  rcases hp with rfl | ⟨e, rfl, he⟩
  · exact EvA.map (op := fun _ x => x.abs) (fun f hf => hf.abs) hD
  · refine EvA.map (op := fun M x => M.mul (M.exp2 (Fl.fin scale)) (M.fastPower e x.abs)) (fun f hf => ?_) hD
    refine (EvN.exp2 _).mulPos ?_
    refine (hf.abs.mulPos hf.abs).congr (Eventually.of_forall fun M => ?_)
    rw [Machine.fastPower.eq_def, he]
    norm_num

theorem EvA.leaderOutput {p : PExp} (hp : LeaderP p) (scale : ℕ) {D : Machine → Arr R} (hD : EvA EvN D) :
    ∃ B : Machine → Arr R, EvA EvE B ∧ ∀ M : Machine, M.leaderOutput (D M) scale p = .ok (B M) := by
  rcases hp with rfl | ⟨e, rfl, he⟩
  · exact ⟨D, hD.mono fun f hf => hf.1, fun M => rfl⟩
  · refine ⟨fun M => mapArr (fun x => M.fastPower (.real (1 / e.val)) (M.mul (M.exp2 (Fl.fin (-(scale : ℝ)))) x)) (D M), ?_,
      fun M => by rw [Machine.leaderOutput, if_neg (by rw [he]; norm_num)]⟩
    refine EvA.map (op := fun M x => M.fastPower (.real (1 / e.val)) (M.mul (M.exp2 (Fl.fin (-(scale : ℝ)))) x))
      (fun f hf => ?_) hD
    refine ((EvN.exp2 (-(scale : ℝ))).mulPos hf).sqrt.1.congr (Eventually.of_forall fun M => ?_)
    rw [Machine.fastPower.eq_def, he]
    norm_num [Expo.val]

theorem EvA.computeLeaders {p : PExp} (hp : LeaderP p) (scale : ℕ) {D S : Machine → Arr R} (hD : EvA EvE D) (hS : EvA EvN S) :
    EvX (fun M => M.computeLeaders (D M) (S M) scale p) (fun a => EvA EvE (fun M => (a M).1) ∧ EvA EvN (fun M => (a M).2)) := by
  rcases (hD.leaderInput hp scale).findSansVoisin (checkFormalism p) scale hS with ⟨e, h⟩ | ⟨sv, hsv, h⟩
  · refine Or.inl ⟨e, ?_⟩
    filter_upwards [h] with M hM
    rw [Machine.computeLeaders, hM]
  · obtain ⟨n, s, hs1, hs2⟩ := id hsv
    have h3 : EvX (fun M => stack3 (M.leaderRed (checkFormalism p)) (pySlice (sv M) 0 ((((sv M).length : ℕ) : ℤ) - 2))
        (pySlice (sv M) 1 ((((sv M).length : ℕ) : ℤ) - 1)) (pySlice (sv M) 2 (((sv M).length : ℕ) : ℤ))) (EvA EvN) := by
      refine (stack3_arrOf (fun M => M.leaderRed (checkFormalism p)) (n - 2) (n - 2) (n - 2) s (fun k => s (k + 1)) (fun k => s (k + 2))
        fun k r => red3 (hs2 _ _) (hs2 _ _) (hs2 _ _) _).congr ?_
      filter_upwards [hs1] with M hM
      have hlen : (arrOf n s M).length = n := by simp [arrOf]
      obtain ⟨f1, f2, f3⟩ := slices3 n (fun k r => s k r M)
      rw [hM, hlen]
      congr 1
    rcases h3 with ⟨e, h3⟩ | ⟨l, hl, h3⟩
    · refine Or.inl ⟨e, ?_⟩
      filter_upwards [h, h3] with M hM hM3
      rw [Machine.computeLeaders, hM]
      simp only
      rw [hM3]
    · obtain ⟨B, hB, hB'⟩ := hl.leaderOutput hp scale
      refine Or.inr ⟨fun M => (B M, sv M), ⟨hB, hsv⟩, ?_⟩
      filter_upwards [h, h3] with M hM hM3
      rw [Machine.computeLeaders, hM]
      simp only
      rw [hM3]
      simp only
      rw [hB' M]

end

end MFA
