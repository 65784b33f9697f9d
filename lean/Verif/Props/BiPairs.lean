import Verif.Spec.Pairs
import Verif.Props.Bivariate
import Verif.Props.BiStructure
import Verif.Props.BiItself
import Verif.Props.Cumulants

/-! Property C148: a bivariate analysis sees nothing but the complete pairs of entries. -/

namespace MFA

open Classical

variable {m1 m2 m1' m2' : MRQ 1} {J : ℕ} {j1 j2 : ℤ}

/-- A mean over pairs of something that is NaN when one of the entries is. -/
theorem nanmean_pairs {f : Fl × Fl → Fl} (h1 : ∀ y, f (Fl.nan, y) = Fl.nan) (h2 : ∀ x, f (x, Fl.nan) = Fl.nan) (ps : List (Fl × Fl)) :
    nanmean (ps.map f) = nanmean ((ps.filter fun p => !p.1.isNaN && !p.2.isNaN).map f) := by
  rw [← nanmean_dropNaN, ← nanmean_dropNaN ((ps.filter _).map f)]
  congr 1
  induction ps with
  | nil => rfl
  | cons p ps ih =>
    obtain ⟨x, y⟩ := p
    by_cases hx : x = Fl.nan
    · subst hx
      rw [List.map_cons, h1, dropNaN_cons_nan, ih, List.filter_cons_of_neg (by simp)]
    · by_cases hy : y = Fl.nan
      · subst hy
        rw [List.map_cons, h2, dropNaN_cons_nan, ih, List.filter_cons_of_neg (by simp)]
      · have hx' := (Fl.not_isNaN_iff x).mpr hx
        have hy' := (Fl.not_isNaN_iff y).mpr hy
        rw [List.filter_cons_of_pos (by simp [hx', hy']), List.map_cons, List.map_cons]
        by_cases hf : f (x, y) = Fl.nan
        · rw [hf, dropNaN_cons_nan, dropNaN_cons_nan, ih]
        · rw [dropNaN_cons_of ((Fl.not_isNaN_iff _).mpr hf), dropNaN_cons_of ((Fl.not_isNaN_iff _).mpr hf), ih]

theorem nanmean_pairs_congr {f : Fl × Fl → Fl} (h1 : ∀ y, f (Fl.nan, y) = Fl.nan) (h2 : ∀ x, f (x, Fl.nan) = Fl.nan) {c1 c2 d1 d2 : List Fl}
    (h : (validPairs c1 c2).Perm (validPairs d1 d2)) : nanmean ((c1.zip c2).map f) = nanmean ((d1.zip d2).map f) := by
  rw [nanmean_pairs h1 h2, nanmean_pairs h1 h2 (d1.zip d2)]
  exact nanmean_perm (h.map f)

theorem bcTable_congr {l l' : List (Fl × Fl)} (h : ∀ a b, bcMoment l a b = bcMoment l' a b) (n : ℕ) : bcTable l n = bcTable l' n := by
  unfold bcTable
  have : bcStep l = bcStep l' := by
    funext t m; unfold bcStep; simp only [h]
  rw [this]

theorem bcMoment_congr {c1 c2 d1 d2 : List Fl} (h : (validPairs c1 c2).Perm (validPairs d1 d2)) (a b : ℕ) :
    bcMoment (logPairs (c1.zip c2)) a b = bcMoment (logPairs (d1.zip d2)) a b := by
  unfold bcMoment logPairs
  rw [List.map_map, List.map_map]
  refine nanmean_pairs_congr (fun y => ?_) (fun x => ?_) h
  · show fastPower _ Fl.nan.abs.ln * _ = _
    rw [show Fl.nan.abs.ln = Fl.nan from rfl, fastPower_nan, Fl.nan_mul]
  · show _ * fastPower _ Fl.nan.abs.ln = _
    rw [show Fl.nan.abs.ln = Fl.nan from rfl, fastPower_nan, Fl.mul_nan]

theorem bsMean_congr {c1 c2 d1 d2 : List Fl} (h : (validPairs c1 c2).Perm (validPairs d1 d2)) (a b : Expo) :
    bsMean (c1.zip c2) a b = bsMean (d1.zip d2) a b ∧ bsAbsMean (c1.zip c2) a b = bsAbsMean (d1.zip d2) a b := by
  unfold bsMean bsAbsMean
  refine ⟨nanmean_pairs_congr (fun y => ?_) (fun x => ?_) h, nanmean_pairs_congr (fun y => ?_) (fun x => ?_) h⟩
  · show fastPower _ Fl.nan * _ = _
    rw [fastPower_nan, Fl.nan_mul]
  · show _ * fastPower _ Fl.nan = _
    rw [fastPower_nan, Fl.mul_nan]
  · show fastPower _ Fl.nan.abs * _ = _
    rw [Fl.abs_nan, fastPower_nan, Fl.nan_mul]
  · show _ * fastPower _ Fl.nan.abs = _
    rw [Fl.abs_nan, fastPower_nan, Fl.mul_nan]

/-- The pairs of the scales, one list per scale. -/
theorem samePairs_forall₂ (hp : Paired m1 m2 J) (hp' : Paired m1' m2' J) (h : SamePairs m1 m2 m1' m2') :
    List.Forall₂ (fun q q' => (validPairs (col q.1.2 0) (col q.2.2 0)).Perm (validPairs (col q'.1.2 0) (col q'.2.2 0)))
      (biList m1 m2) (biList m1' m2') := by
  have l1 : m1.values.length = J := by simpa using congrArg List.length hp.reg1.1
  have l2 : m2.values.length = J := by simpa using congrArg List.length hp.reg2.1
  have l3 : m1'.values.length = J := by simpa using congrArg List.length hp'.reg1.1
  have l4 : m2'.values.length = J := by simpa using congrArg List.length hp'.reg2.1
  rw [List.forall₂_iff_get]
  refine ⟨by simp [biList, l1, l2, l3, l4], fun i h1 h2 => ?_⟩
  have hi : i < J := by simpa [biList, l1, l2] using h1
  simp only [biList, List.get_eq_getElem, List.getElem_zip]
  exact h i _ _ _ _ (List.getElem?_eq_getElem (by omega)) (List.getElem?_eq_getElem (by omega)) (List.getElem?_eq_getElem (by omega))
    (List.getElem?_eq_getElem (by omega))

theorem map_congr_forall₂ {α β : Type} {P : α → α → Prop} {l l' : List α} (h : List.Forall₂ P l l') {f : α → β}
    (hf : ∀ a b, P a b → f a = f b) : l.map f = l'.map f := by
  induction h with
  | nil => rfl
  | cons hab _ ih => rw [List.map_cons, List.map_cons, hf _ _ hab, ih]

theorem biWeights_or {a b : Dict (Fin 1 → ℕ)} {weighted : Bool} (h : weighted = false ∨ a = b) (j1 j2 : ℤ) :
    biWeights a j1 j2 weighted = biWeights b j1 j2 weighted := by
  rcases h with rfl | rfl
  · exact biWeights_flat _ _ _ _
  · rfl

/-- C148: the constructors `BiStructureFunction` and `BiCumulants` see nothing but the complete pairs of entries of each scale, in any
order: for two pairs of quantities with the same complete pairs they have the same outcome, exceptions included (with weights: provided that
the counts `nj` are the same too). -/
theorem C148_pairs (hp : Paired m1 m2 J) (hp' : Paired m1' m2' J) (hf : m1.formalism = m1'.formalism) (hg : m1.gamint = m1'.gamint)
    (h : SamePairs m1 m2 m1' m2') {weighted : Bool} (hw : weighted = false ∨ m1.nj = m1'.nj) :
    (∀ q1 q2, BiStructFn.make false m1 m2 j1 j2 q1 q2 weighted = BiStructFn.make false m1' m2' j1 j2 q1 q2 weighted) ∧
    ∀ n, BiCumulants.make false m1' m2' n j1 j2 weighted = match BiCumulants.make false m1 m2 n j1 j2 weighted with
      | .error e => .error e
      | .ok b => .ok { b with nj := m1'.nj } := by
  have hF := samePairs_forall₂ hp hp' h
  have hk : m1.values.keys = m1'.values.keys := by
    have e1 := hp.reg1.1
    have e2 := hp'.reg1.1
    exact e1.trans e2.symm
  have hn1 : (m1.nj.map Prod.fst).Nodup := by
    rw [hp.reg1.2, List.map_map, show (Prod.fst ∘ fun p : ℤ × Arr 1 => (p.1, fun r => countNotNaN (col p.2 r))) = Prod.fst from rfl,
      hp.reg1.1]
    exact List.Nodup.map (fun a b hab => by simpa using hab) List.nodup_range
  have hn2 : (m1'.nj.map Prod.fst).Nodup := by
    rw [hp'.reg1.2, List.map_map, show (Prod.fst ∘ fun p : ℤ × Arr 1 => (p.1, fun r => countNotNaN (col p.2 r))) = Prod.fst from rfl,
      hp'.reg1.1]
    exact List.Nodup.map (fun a b hab => by simpa using hab) List.nodup_range
  have e1 : njEq false m1.nj m2.nj = .ok true := by rw [← hp.nj]; exact njEq_self _ hn1 _
  have e2 : njEq false m1'.nj m2'.nj = .ok true := by rw [← hp'.nj]; exact njEq_self _ hn2 _
  have hbw := biWeights_or hw j1 j2
  have hlen : ((biList m1 m2).map biPairs).length = ((biList m1' m2').map biPairs).length := by
    rw [List.length_map, List.length_map]; exact hF.length_eq
  refine ⟨fun q1 q2 => ?_, fun n => ?_⟩
  · have hm : ∀ a b : Expo, ((biList m1 m2).map biPairs).map (fun ps => bsMean ps a b) =
        ((biList m1' m2').map biPairs).map (fun ps => bsMean ps a b) := by
      intro a b
      rw [List.map_map, List.map_map]
      exact map_congr_forall₂ hF fun q q' hq => (bsMean_congr hq a b).1
    have ha : ∀ a b : Expo, ((biList m1 m2).map biPairs).map (fun ps => (bsAbsMean ps a b).log2) =
        ((biList m1' m2').map biPairs).map (fun ps => (bsAbsMean ps a b).log2) := by
      intro a b
      rw [List.map_map, List.map_map]
      refine map_congr_forall₂ hF fun q q' hq => ?_
      show (bsAbsMean (biPairs q) a b).log2 = (bsAbsMean (biPairs q') a b).log2
      unfold biPairs
      rw [(bsMean_congr hq a b).2]
    have hc : bsCoherence ((biList m1 m2).map biPairs) q1 q2 = bsCoherence ((biList m1' m2').map biPairs) q1 q2 := by
      unfold bsCoherence
      simp only [hm]
    unfold BiStructFn.make
    rw [if_neg (not_not.2 hp.formalism), if_neg (not_not.2 hp.gamint), if_neg (not_not.2 hp'.formalism), if_neg (not_not.2 hp'.gamint)]
    simp only [e1, e2, hp.pairScales, hp'.pairScales, hc, ha, hbw, hk, hf, hg]
  · have hv : ∀ a b, ((biList m1 m2).map biPairs).map (fun ps => (bcTable (logPairs ps) n).values a b) =
        ((biList m1' m2').map biPairs).map (fun ps => (bcTable (logPairs ps) n).values a b) := by
      intro a b
      rw [List.map_map, List.map_map]
      refine map_congr_forall₂ hF fun q q' hq => ?_
      show (bcTable (logPairs (biPairs q)) n).values a b = (bcTable (logPairs (biPairs q')) n).values a b
      unfold biPairs
      rw [bcTable_congr (bcMoment_congr hq)]
    unfold BiCumulants.make
    rw [if_neg (not_not.2 hp.formalism), if_neg (not_not.2 hp'.formalism)]
    simp only [e1, e2, hp.pairScales, hp'.pairScales, hv, hbw, hk, hf, hlen]
    cases biWeights m1'.nj j1 j2 weighted with
    | error e => rfl
    | ok w =>
      simp only
      split
      · rfl
      · by_cases hc : m1'.formalism = .coef
        · simp only [if_pos hc]
        · by_cases hn : n < 2
          · simp only [if_neg hc, if_pos hn]
          · simp only [if_neg hc, if_neg hn]

theorem mask_length (a b : Arr 1) (h : a.length = b.length) : (maskArr a b).length = a.length := by
  simp [maskArr, h]

/-- The complete pairs of two columns are those of the masked columns. -/
theorem validPairs_mask : ∀ (a b : Arr 1), validPairs (col (maskArr a b) 0) (col (maskArr b a) 0) = validPairs (col a 0) (col b 0)
  | [], _ => by simp [maskArr, col, validPairs]
  | _ :: _, [] => by simp [maskArr, col, validPairs]
  | x :: a, y :: b => by
    have ih := validPairs_mask a b
    unfold validPairs maskArr col at ih ⊢
    simp only [List.zip_cons_cons, List.map_cons, List.filter_cons]
    by_cases hx : (x 0).isNaN <;> by_cases hy : (y 0).isNaN <;> simp [-List.map_map, hx, hy, ih]

theorem count_mask : ∀ (a b : Arr 1), countNotNaN (col (maskArr a b) 0) = (validPairs (col a 0) (col b 0)).length
  | [], _ => by simp [maskArr, col, validPairs, countNotNaN, dropNaN]
  | _ :: _, [] => by simp [maskArr, col, validPairs, countNotNaN, dropNaN]
  | x :: a, y :: b => by
    have ih := count_mask a b
    unfold countNotNaN dropNaN validPairs maskArr col at ih ⊢
    simp only [List.zip_cons_cons, List.map_cons, List.filter_cons]
    by_cases hx : (x 0).isNaN <;> by_cases hy : (y 0).isNaN <;> simp [-List.map_map, hx, hy, ih]

theorem validPairs_swap : ∀ (c1 c2 : List Fl), (validPairs c1 c2).length = (validPairs c2 c1).length
  | [], _ => by simp [validPairs]
  | _ :: _, [] => by simp [validPairs]
  | x :: a, y :: b => by
    have ih := validPairs_swap a b
    unfold validPairs at ih ⊢
    simp only [List.zip_cons_cons, List.filter_cons]
    by_cases hx : x.isNaN <;> by_cases hy : y.isNaN <;> simp [-List.map_map, hx, hy, ih]

/-- C148: keeping the complete pairs only makes two quantities that the classes accept, that are NaN at the same places and have the same
complete pairs. -/
theorem C148_masked (hp : Paired m1 m2 J) : Paired (masked m1 m2) (masked m2 m1) J ∧ SameNaN (masked m1 m2) (masked m2 m1) ∧
    SamePairs m1 m2 (masked m1 m2) (masked m2 m1) := by
  have hsw : m2.values.zip m1.values = (biList m1 m2).map Prod.swap := by rw [biList, List.zip_swap]
  have v1 : (masked m1 m2).values = (biList m1 m2).map fun q => (q.1.1, maskArr q.1.2 q.2.2) := rfl
  have v2 : (masked m2 m1).values = (biList m1 m2).map fun q => (q.2.1, maskArr q.2.2 q.1.2) := by
    show (m2.values.zip m1.values).map _ = _
    rw [hsw, List.map_map]; rfl
  have n2 : (masked m2 m1).nj = (biList m1 m2).map fun q => (q.2.1, fun _ => countNotNaN (col (maskArr q.2.2 q.1.2) 0)) := by
    show (m2.values.zip m1.values).map _ = _
    rw [hsw, List.map_map]; rfl
  refine ⟨⟨⟨?_, ?_⟩, ⟨?_, ?_⟩, hp.formalism, hp.gamint, ?_, ?_⟩, ?_, ?_⟩
  · rw [v1, List.map_map, ← hp.reg1.1, ← hp.fst, List.map_map]; rfl
  · rw [v1, List.map_map]
    show (biList m1 m2).map _ = _
    apply List.map_congr_left
    intro q _
    simp only [Function.comp_apply, Prod.mk.injEq, true_and]
    funext r
    rw [Subsingleton.elim r 0]
  · rw [v2, List.map_map, ← hp.reg2.1, ← hp.snd, List.map_map]; rfl
  · rw [v2, n2, List.map_map]
    apply List.map_congr_left
    intro q _
    simp only [Function.comp_apply, Prod.mk.injEq, true_and]
    funext r
    rw [Subsingleton.elim r 0]
  · rw [n2]
    show (biList m1 m2).map _ = _
    apply List.map_congr_left
    intro q hq
    simp only [Prod.mk.injEq]
    refine ⟨hp.keys hq, ?_⟩
    funext r
    rw [count_mask, count_mask, validPairs_swap]
  · rw [v1, v2, List.forall₂_map_left_iff, List.forall₂_map_right_iff, List.forall₂_same]
    intro q hq
    have := hp.len hq
    simp only
    rw [mask_length _ _ this, mask_length _ _ this.symm, this]
  · intro k p p' hk hk' i x y hx hy
    rw [v1, List.getElem?_map] at hk
    rw [v2, List.getElem?_map] at hk'
    obtain ⟨q, hq, rfl⟩ := Option.map_eq_some_iff.1 hk
    obtain ⟨q', hq', rfl⟩ := Option.map_eq_some_iff.1 hk'
    rw [hq] at hq'
    obtain rfl := Option.some.inj hq'
    simp only [maskArr, List.getElem?_map, List.getElem?_zip_eq_some, Option.map_eq_some_iff] at hx hy
    obtain ⟨⟨a, b⟩, ⟨ha, hb⟩, rfl⟩ := hx
    obtain ⟨⟨b', a'⟩, ⟨hb', ha'⟩, rfl⟩ := hy
    simp only at ha hb ha' hb'
    rw [ha] at ha'
    rw [hb] at hb'
    obtain rfl := Option.some.inj ha'
    obtain rfl := Option.some.inj hb'
    simp only
    by_cases h1 : (a 0).isNaN <;> by_cases h2 : (b 0).isNaN
    · simp [h1, h2]
    · simp [h2, (Fl.isNaN_iff _).1 h1]
    · simp [h1, (Fl.isNaN_iff _).1 h2]
    · simp only [h1, h2, if_false, Bool.false_eq_true]
      rw [← Fl.isNaN_iff, ← Fl.isNaN_iff]
      simp [h1, h2]
  · intro k p1 p2 p1' p2' e1 e2 e3 e4
    have hq : (biList m1 m2)[k]? = some (p1, p2) := by rw [biList, List.getElem?_zip_eq_some]; exact ⟨e1, e2⟩
    rw [v1, List.getElem?_map, hq] at e3
    rw [v2, List.getElem?_map, hq] at e4
    obtain rfl := Option.some.inj e3
    obtain rfl := Option.some.inj e4
    simp only
    rw [validPairs_mask]

/-- C148: without weights, the marginals of a bivariate analysis are the results of the univariate estimators on the complete pairs: the entry of
one quantity is dropped when that of the other one is NaN. -/
theorem C148_complete_pairs (hp : Paired m1 m2 J) (h1 : 1 ≤ j1) (h12 : j1 ≤ j2) (h2 : j2 ≤ J) (n : ℕ) (hn : m1.formalism = .coef ∨ 2 ≤ n)
    (q1 q2 : List ℝ) (hn1 : q1.Nodup) (hn2 : q2.Nodup) (hq1 : (0:ℝ) ∈ q1 ∧ (1:ℝ) ∈ q1 ∧ (2:ℝ) ∈ q1)
    (hq2 : (0:ℝ) ∈ q2 ∧ (1:ℝ) ∈ q2 ∧ (2:ℝ) ∈ q2) :
    ∃ b c1 c2 s s1 s2, BiCumulants.make false m1 m2 n j1 j2 false = .ok b ∧
      Cumulants.make (masked m1 m2) n j1 j2 false = .ok c1 ∧ Cumulants.make (masked m2 m1) n j1 j2 false = .ok c2 ∧
      BiStructFn.make false m1 m2 j1 j2 (.ndarray q1) (.ndarray q2) false = .ok s ∧
      StructFn.make (masked m1 m2) (.ndarray q1) j1 j2 false = .ok s1 ∧ StructFn.make (masked m2 m1) (.ndarray q2) j1 j2 false = .ok s2 ∧
      (∀ i < n, (c1.values[i]?.map fun a => a.map fun row => row 0) = some (b.values (i + 1) 0) ∧
        (c2.values[i]?.map fun a => a.map fun row => row 0) = some (b.values 0 (i + 1)) ∧
        (c1.log_cumulants[i]?.map fun row => row 0) = some (b.log_cumulants (i + 1) 0) ∧
        (c2.log_cumulants[i]?.map fun row => row 0) = some (b.log_cumulants 0 (i + 1))) ∧
      (∀ i k : ℕ, i < q1.length → q2[k]? = some 0 → (s.zeta[i]?.bind fun l => l[k]?) = s1.zeta[i]?.map fun row => row 0) ∧
      (∀ i k : ℕ, q1[i]? = some 0 → k < q2.length → (s.zeta[i]?.bind fun l => l[k]?) = s2.zeta[k]?.map fun row => row 0) := by
  obtain ⟨hp', hs', hsp⟩ := C148_masked hp
  obtain ⟨b', c1, c2, hb', hc1, hc2, hm⟩ := C64_marginals hp' hs' h1 h12 h2 false n hn
  obtain ⟨s, s1, s2, hs, hs1, hs2, hz1, hz2⟩ := C69_marginals hp' hs' h1 h12 h2 false q1 q2 hn1 hn2 hq1 hq2
  obtain ⟨e1, e2⟩ := C148_pairs (j1 := j1) (j2 := j2) hp hp' rfl rfl hsp (weighted := false) (Or.inl rfl)
  have e3 := e2 n
  rw [hb'] at e3
  cases hb : BiCumulants.make false m1 m2 n j1 j2 false with
  | error x => rw [hb] at e3; cases e3
  | ok b =>
    rw [hb] at e3
    obtain rfl := Except.ok.inj e3
    refine ⟨b, c1, c2, s, s1, s2, rfl, hc1, hc2, by rw [e1]; exact hs, hs1, hs2, fun i hi => ?_, fun i k hi hk => (hz1 i k hi hk).1,
      fun i k hi hk => (hz2 i k hi hk).1⟩
    obtain ⟨a1, a2, a3, a4, -⟩ := hm i hi
    exact ⟨a1, a2, a3, a4⟩

/-! The hypotheses are met, and dropping incomplete pairs matters: a quantity with the entries NaN, 1, 1 and one with the entries e, NaN, 1, at
one scale.  The first log-cumulant of the second one at this scale is 1/2, but `BiCumulants` finds 0. -/

private noncomputable def oneScale (a b c : Fl) : MRQ 1 :=
  { formalism := .coef, gamint := 0, values := [(1, [fun _ => a, fun _ => b, fun _ => c])], nj := [(1, fun _ => countNotNaN [a, b, c])] }

private theorem oneScale_regular (a b c : Fl) : Regular (oneScale a b c) 1 := by
  refine ⟨by simp [oneScale], ?_⟩
  simp [oneScale, col]

example : ∃ b c, BiCumulants.make false (oneScale .nan (.fin 1) (.fin 1)) (oneScale (.fin (Real.exp 1)) .nan (.fin 1)) 3 1 1 false = .ok b ∧
    Cumulants.make (oneScale (.fin (Real.exp 1)) .nan (.fin 1)) 3 1 1 false = .ok c ∧
    b.values 0 1 = [Fl.fin 0] ∧ cumAt c 0 0 0 = some (Fl.fin (1 / 2)) := by
  have hp : Paired (oneScale .nan (.fin 1) (.fin 1)) (oneScale (.fin (Real.exp 1)) .nan (.fin 1)) 1 :=
    ⟨oneScale_regular _ _ _, oneScale_regular _ _ _, rfl, rfl, by simp [oneScale, countNotNaN, dropNaN, Fl.isNaN], by simp [oneScale]⟩
  obtain ⟨b, c1, c2, s, s1, s2, hb, hc1, hc2, -, -, -, hv, -⟩ := C148_complete_pairs hp le_rfl le_rfl (by norm_num) 3 (Or.inl rfl)
    [0, 1, 2] [0, 1, 2] (by norm_num) (by norm_num) (by norm_num) (by norm_num)
  obtain ⟨hp', -, -⟩ := C148_masked hp
  have hmv : (masked (oneScale (.fin (Real.exp 1)) .nan (.fin 1)) (oneScale .nan (.fin 1) (.fin 1))).values =
      [(1, [fun _ => .nan, fun _ => .nan, fun _ => .fin 1])] := by
    simp [masked, oneScale, maskArr, Fl.isNaN]
  have d1 : NonzeroData (masked (oneScale (.fin (Real.exp 1)) .nan (.fin 1)) (oneScale .nan (.fin 1) (.fin 1))) := by
    intro p hpm r
    rw [hmv] at hpm
    simp only [List.mem_singleton] at hpm
    subst hpm
    refine ⟨⟨.fin 1, by simp [col], by simp⟩, fun x hx => ?_⟩
    simp only [col, List.map_cons, List.map_nil, List.mem_cons, List.not_mem_nil, or_false] at hx
    rcases hx with rfl | rfl | rfl
    · exact Or.inl rfl
    · exact Or.inl rfl
    · exact Or.inr ⟨1, one_ne_zero, rfl⟩
  have d2 : NonzeroData (oneScale (.fin (Real.exp 1)) .nan (.fin 1)) := by
    intro p hpm r
    simp only [oneScale, List.mem_singleton] at hpm
    subst hpm
    refine ⟨⟨.fin 1, by simp [col], by simp⟩, fun x hx => ?_⟩
    simp only [col, List.map_cons, List.map_nil, List.mem_cons, List.not_mem_nil, or_false] at hx
    rcases hx with rfl | rfl | rfl
    · exact Or.inr ⟨_, (Real.exp_pos 1).ne', rfl⟩
    · exact Or.inl rfl
    · exact Or.inr ⟨1, one_ne_zero, rfl⟩
  obtain ⟨c, hc, hcv⟩ := C39_first_cumulants (oneScale_regular (.fin (Real.exp 1)) .nan (.fin 1)) d2 le_rfl le_rfl (by norm_num) false 3 le_rfl
  obtain ⟨c', hc', hcv'⟩ := C39_first_cumulants (j1 := 1) (j2 := 1) hp'.reg2 d1 le_rfl le_rfl (by norm_num) false 3 le_rfl
  rw [hc2] at hc'
  obtain rfl := Except.ok.inj hc'
  refine ⟨b, c, hb, hc, ?_, ?_⟩
  · obtain ⟨hv', -⟩ := hcv' 0 (1, [fun _ => .nan, fun _ => .nan, fun _ => .fin 1]) (by rw [hmv]; rfl) 0
    have h2 := (hv 0 (by norm_num)).2.1
    rw [hp'.reg2.cumulants le_rfl le_rfl (by norm_num) false 3] at hc2
    obtain rfl := Except.ok.inj hc2
    simp only [cmValues, hmv, List.range_succ, List.range_zero, List.nil_append, List.cons_append, List.map_cons, List.map_nil, cumAt,
      List.getElem?_cons_zero, Option.bind_some, Option.map_some, Option.some.injEq] at hv' h2
    rw [← h2, hv']
    simp [logsOf, col, mean]
  · obtain ⟨h1, -⟩ := hcv 0 _ rfl 0
    rw [h1]
    simp [logsOf, col, mean]

end MFA
