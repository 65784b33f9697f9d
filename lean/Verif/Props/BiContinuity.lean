import Verif.Lemmas.BiContinuity
import Verif.Props.BiDemo

/-!
# Property C138: the bivariate analysis is continuous in the two signals
-/

namespace MFA

open Filter Topology

noncomputable section

theorem forall₂_zip {α β α' β' : Type} {P : α → α' → Prop} {Q : β → β' → Prop} {a : List α} {a' : List α'} (h : List.Forall₂ P a a') :
    ∀ {b : List β} {b' : List β'}, List.Forall₂ Q b b' → List.Forall₂ (fun p p' => P p.1 p'.1 ∧ Q p.2 p'.2) (a.zip b) (a'.zip b') := by
  induction h with
  | nil => intro b b' _; simp
  | cons hab _ ih =>
    intro b b' hb
    cases hb with
    | nil => simp
    | cons h1 h2 => exact List.Forall₂.cons ⟨hab, h1⟩ (ih h2)

/-- Related scales of two pairs of quantities. -/
def ScaleClose (P : Fl → Fl → Prop) (q q' : (ℤ × Arr 1) × (ℤ × Arr 1)) : Prop :=
  q.1.1 = q'.1.1 ∧ List.Forall₂ (P) (col q.1.2 0) (col q'.1.2 0) ∧ List.Forall₂ (fun p p' : Fl × Fl => P p.1 p'.1 ∧ P p.2 p'.2) (biPairs q) (biPairs q')

theorem biList_rel {P : Fl → Fl → Prop} {m1 m2 m1' m2' : MRQ 1} (r1 : MRQRelated (P) m1 m1') (r2 : MRQRelated (P) m2 m2') :
    List.Forall₂ (ScaleClose P) (biList m1 m2) (biList m1' m2') := by
  refine (forall₂_zip r1.2 r2.2).imp fun q q' h => ?_
  have h1 := col_forall₂ h.1.2 0
  exact ⟨h.1.1, h1, forall₂_zip h1 (col_forall₂ h.2.2 0)⟩

theorem biSlope_rel {P : Fl → Fl → Prop} (hP : ∀ a b, P a b → (a = Fl.nan ↔ b = Fl.nan)) {m1 m2 m1' m2' : MRQ 1} {J : ℕ} (hp : Paired m1 m2 J) (r1 : MRQRelated (P) m1 m1')
    (r2 : MRQRelated (P) m2 m2') {j1 j2 : ℕ} (h1 : 1 ≤ j1) (h12 : j1 < j2) (h2 : j2 ≤ J) (weighted : Bool)
    (hne : ∀ p ∈ m1.values, ∃ x ∈ col p.2 0, x ≠ Fl.nan) (Y : (ℤ × Arr 1) × (ℤ × Arr 1) → Fl) (E : ℝ)
    (hY : ∀ q ∈ biList m1 m2, ∀ q', List.Forall₂ (fun p p' : Fl × Fl => P p.1 p'.1 ∧ P p.2 p'.2) (biPairs q) (biPairs q') → FlClose E (Y q) (Y q')) :
    FlClose (slopeFactor weighted j1 j2 * E) (biSlope m1 m2 j1 j2 weighted Y) (biSlope m1' m2' j1 j2 weighted Y) := by
  have a1 : (1:ℤ) ≤ (j1 : ℤ) := by exact_mod_cast h1
  have a2 : (j1 : ℤ) ≤ (j2 : ℤ) := by exact_mod_cast h12.le
  have a3 : (j2 : ℤ) ≤ (J : ℤ) := by exact_mod_cast h2
  have hkeys := hp.reg1.sub_keys a1 a2 a3
  rw [hp.sub_fst, List.map_map] at hkeys
  have hf := forall₂_take_drop (biList_rel r1 r2) ((j1 : ℤ) - 1) j2
  obtain ⟨e1, e2, e3⟩ := zip_fst hf
  obtain ⟨Z, hZ⟩ : ∃ Z, Z = (pySlice (biList m1 m2) ((j1 : ℤ) - 1) j2).zip (pySlice (biList m1' m2') ((j1 : ℤ) - 1) j2) := ⟨_, rfl⟩
  rw [← hZ] at e1 e2 e3
  have s1 : biSub m1 m2 j1 j2 = Z.map Prod.fst := e1
  have s2 : biSub m1' m2' j1 j2 = Z.map Prod.snd := e2
  have hmem : ∀ p ∈ Z, p.1 ∈ biList m1 m2 := fun p hp => biSub_mem (j1 := j1) (j2 := j2) (by rw [s1]; exact List.mem_map_of_mem hp)
  have hpos : ∀ p ∈ Z, 0 < wtOf weighted p.1.1 0 := by
    intro p hpz
    have : p.1.1 ∈ m1.values := by rw [← hp.fst]; exact List.mem_map_of_mem (hmem p hpz)
    unfold wtOf; split
    · exact_mod_cast countNotNaN_pos (hne _ this)
    · exact one_pos
  unfold biSlope
  rw [s1, s2, slopeL_map, slopeL_map]
  have hd := slopeL_diff Z (fun p => p.1.1.1) (fun p => wtOf weighted p.1.1 0) weighted hpos (by
    rintro rfl p _; rfl) h12 (by
    rw [← hkeys, s1, List.map_map]; rfl) (fun p => Y p.1) (fun p => Y p.2) E
    (fun p hp => hY _ (hmem p hp) _ (e3 p hp).2.2)
  have hc : slopeL Z ((fun q : (ℤ × Arr 1) × (ℤ × Arr 1) => (q.1.1 : ℝ)) ∘ Prod.snd) ((fun q => wtOf weighted q.1 0) ∘ Prod.snd) (Y ∘ Prod.snd) =
      slopeL Z (fun p => ((p.1.1.1 : ℤ) : ℝ)) (fun p => wtOf weighted p.1.1 0) (fun p => Y p.2) := by
    refine slopeL_congr (fun p hp => ?_) (fun p hp => ?_) (fun _ _ => rfl)
    · show ((p.2.1.1 : ℤ) : ℝ) = _
      rw [(e3 p hp).1]
    · show wtOf weighted p.2.1 0 = wtOf weighted p.1.1 0
      unfold wtOf
      rw [count_forall₂ hP (e3 p hp).2.1]
  rw [hc]
  exact hd

theorem biList_close {η : ℝ} {m1 m2 m1' m2' : MRQ 1} (r1 : MRQRelated (EntryClose η) m1 m1') (r2 : MRQRelated (EntryClose η) m2 m2') :
    List.Forall₂ (ScaleClose (EntryClose η)) (biList m1 m2) (biList m1' m2') := biList_rel r1 r2

theorem biSlope_close {η : ℝ} {m1 m2 m1' m2' : MRQ 1} {J : ℕ} (hp : Paired m1 m2 J) (r1 : MRQRelated (EntryClose η) m1 m1')
    (r2 : MRQRelated (EntryClose η) m2 m2') {j1 j2 : ℕ} (h1 : 1 ≤ j1) (h12 : j1 < j2) (h2 : j2 ≤ J) (weighted : Bool)
    (hne : ∀ p ∈ m1.values, ∃ x ∈ col p.2 0, x ≠ Fl.nan) (Y : (ℤ × Arr 1) × (ℤ × Arr 1) → Fl) (E : ℝ)
    (hY : ∀ q ∈ biList m1 m2, ∀ q', List.Forall₂ (PairClose η) (biPairs q) (biPairs q') → FlClose E (Y q) (Y q')) :
    FlClose (slopeFactor weighted j1 j2 * E) (biSlope m1 m2 j1 j2 weighted Y) (biSlope m1' m2' j1 j2 weighted Y) :=
  biSlope_rel EntryClose.nan hp r1 r2 h1 h12 h2 weighted hne Y E hY

/-- The real pairs at one scale. -/
theorem scale_pairs {m1 m2 : MRQ 1} {J : ℕ} (hp : Paired m1 m2 J) (hs : SameNaN m1 m2) (hd1 : NonzeroData m1) (hd2 : NonzeroData m2)
    {q : (ℤ × Arr 1) × (ℤ × Arr 1)} (hq : q ∈ biList m1 m2) : ∃ zs, JointIs (biPairs q) zs ∧ zs ≠ [] ∧ ∀ z ∈ zs, z.1 ≠ 0 ∧ z.2 ≠ 0 := by
  have q1 : q.1 ∈ m1.values := by rw [← hp.fst]; exact List.mem_map_of_mem hq
  have q2 : q.2 ∈ m2.values := by rw [← hp.snd]; exact List.mem_map_of_mem hq
  have f1 := hd1 _ q1 0
  have f2 := hd2 _ q2 0
  have hJ : JointIs (biPairs q) (jointVals (col q.1.2 0) (col q.2.2 0)) :=
    jointVals_is (fun x hx => (f1.2 x hx).imp id fun ⟨t, _, e⟩ => ⟨t, e⟩) (fun x hx => (f2.2 x hx).imp id fun ⟨t, _, e⟩ => ⟨t, e⟩)
  have hmemz : ∀ z ∈ jointVals (col q.1.2 0) (col q.2.2 0), (Fl.fin z.1, Fl.fin z.2) ∈ biPairs q := by
    intro z hz
    have : (Fl.fin z.1, Fl.fin z.2) ∈ (biPairs q).filter (fun p => !p.1.isNaN && !p.2.isNaN) := by
      rw [hJ]; exact List.mem_map_of_mem (f := fun z : ℝ × ℝ => (Fl.fin z.1, Fl.fin z.2)) hz
    exact (List.mem_filter.1 this).1
  refine ⟨_, hJ, ?_, fun z hz => ?_⟩
  · -- some pair has no NaN
    obtain ⟨k, hk⟩ := List.mem_iff_getElem?.1 hq
    obtain ⟨k1, k2⟩ := List.getElem?_zip_eq_some.1 hk
    obtain ⟨x, hx, hxn⟩ := f1.1
    obtain ⟨i, hi⟩ := List.mem_iff_getElem?.1 hx
    have hi' := hi
    unfold col at hi
    rw [List.getElem?_map] at hi
    obtain ⟨u, hu, hux⟩ := Option.map_eq_some_iff.1 hi
    have hlen : q.1.2.length = q.2.2.length := by
      have := List.forall₂_iff_get.1 hp.rows
      obtain ⟨g1, e1⟩ := List.getElem?_eq_some_iff.1 k1
      obtain ⟨g2, e2⟩ := List.getElem?_eq_some_iff.1 k2
      have := this.2 k g1 g2
      simp only [List.get_eq_getElem, e1, e2] at this
      exact this
    obtain ⟨gi, -⟩ := List.getElem?_eq_some_iff.1 hu
    obtain ⟨y, hy⟩ : ∃ y, q.2.2[i]? = some y := ⟨_, List.getElem?_eq_getElem (by omega)⟩
    have hnn := hs k _ _ k1 k2 i u y hu hy
    have hyn : y 0 ≠ Fl.nan := fun h => hxn (by rw [← hux]; exact hnn.2 h)
    have hmem : (x, y 0) ∈ biPairs q := by
      refine List.mem_of_getElem? (i := i) (List.getElem?_zip_eq_some.2 ⟨hi', ?_⟩)
      unfold col
      rw [List.getElem?_map, hy]; rfl
    intro hnil
    have hJ' := hJ
    unfold JointIs at hJ'
    rw [hnil, List.map_nil, List.filter_eq_nil_iff] at hJ'
    apply hJ' _ hmem
    have b1 := (Fl.not_isNaN_iff _).2 hxn
    have b2 := (Fl.not_isNaN_iff _).2 hyn
    simp [b1, b2]
  · have hm := hmemz z hz
    obtain ⟨b1, b2⟩ := List.of_mem_zip hm
    constructor
    · rcases f1.2 _ b1 with h | ⟨t, ht, e⟩
      · cases h
      · rw [(Fl.fin_inj _ _).1 e]; exact ht
    · rcases f2.2 _ b2 with h | ⟨t, ht, e⟩
      · cases h
      · rw [(Fl.fin_inj _ _).1 e]; exact ht

theorem contPair_eventually {Y : (ℤ × Arr 1) × (ℤ × Arr 1) → Fl} (hY : ContPair Y) {m1 m2 : MRQ 1} {J : ℕ} (hp : Paired m1 m2 J)
    (hs : SameNaN m1 m2) (hd1 : NonzeroData m1) (hd2 : NonzeroData m2) {ε : ℝ} (hε : 0 < ε) : ∀ᶠ η in 𝓝[>] (0:ℝ), ∀ q ∈ biList m1 m2,
      ∀ q', List.Forall₂ (PairClose η) (biPairs q) (biPairs q') → FlClose ε (Y q) (Y q') := by
  have : ∀ᶠ η in 𝓝[>] (0:ℝ), ∀ q ∈ {q | q ∈ biList m1 m2},
      ∀ q', List.Forall₂ (PairClose η) (biPairs q) (biPairs q') → FlClose ε (Y q) (Y q') := by
    rw [eventually_all_finite (List.finite_toSet _)]
    intro q hq
    obtain ⟨zs, a1, a2, a3⟩ := scale_pairs hp hs hd1 hd2 hq
    obtain ⟨η, hη, h⟩ := hY q zs a1 a2 a3 ε hε
    filter_upwards [Ioo_mem_nhdsGT hη] with η' hη' q' hqq
    exact h q' (hqq.imp fun _ _ hab => ⟨hab.1.mono hη'.2.le, hab.2.mono hη'.2.le⟩)
  exact this

theorem FlClose.weaken {ε ε' : ℝ} (h : ε ≤ ε') {a b : Fl} (hab : FlClose ε a b) : FlClose ε' a b := by
  obtain ⟨s, t, e1, e2, e3⟩ := hab
  exact ⟨s, t, e1, e2, e3.trans h⟩

/-- The parts of a result. -/
theorem biVar_parts {m1 m2 : MRQ 1} {J : ℕ} {v : MFBiVar 1} {j1 j2 : ℤ} (hp : Paired m1 m2 J) (a1 : 1 ≤ j1) (a2 : j1 ≤ j2) (a3 : j2 ≤ J) {weighted : Bool}
    {q1 q2 : List ℝ} (hn1 : q1.Nodup) (hn2 : q2.Nodup)
    (hq1 : (0:ℝ) ∈ q1 ∧ (1:ℝ) ∈ q1 ∧ (2:ℝ) ∈ q1) (hq2 : (0:ℝ) ∈ q2 ∧ (1:ℝ) ∈ q2 ∧ (2:ℝ) ∈ q2) {n : ℕ} (hn : 2 ≤ n)
    (hv : biVar false m1 m2 j1 j2 weighted n (some (.ndarray q1)) (some (.ndarray q2)) = .ok v) :
    (∀ (i k : ℕ) (e1 e2 : ℝ), q1[i]? = some e1 → q2[k]? = some e2 → (v.structure_.zeta[i]?.bind fun l => l[k]?) =
      some (biSlope m1 m2 j1 j2 weighted (bsLog e1 e2))) ∧
    v.structure_.coherence = (biList m1 m2).map (fun q => cohOf (biPairs q)) ∧
    ∀ a b, v.cumulants.log_cumulants a b = biSlope m1 m2 j1 j2 weighted (bcAt n a b) * Fl.fin log2e := by
  obtain ⟨c, hc, -, -, -, -, -, -, hlc, -⟩ := hp.biCumulants a1 a2 a3 weighted false (n := n) (Or.inr hn)
  have hcoh := bsCoherence_ok (scales := (biList m1 m2).map biPairs) hn1 hn2 hq1.1 hq1.2.1 hq1.2.2 hq2.1 hq2.2.1 hq2.2.2
  have hfn := hp.biStructFn a1 a2 a3 weighted false hcoh (by rintro rfl; cases hq1.1) (by rintro rfl; cases hq2.1)
  unfold biVar at hv
  simp only [hc, hfn] at hv
  cases hv
  refine ⟨fun i k e1 e2 hi hk => ?_, ?_, hlc⟩
  · simp only [List.getElem?_map, hi, Option.map_some, Option.bind_some, hk]
  · simp only [List.map_map]; rfl

/-- **C138, the estimators are continuous in their data.** -/
theorem C138_estimators {m1 m2 : MRQ 1} {J : ℕ} (hp : Paired m1 m2 J) (hs : SameNaN m1 m2) (hrow1 : ∀ p ∈ m1.values, p.2 ≠ [])
    (hrow2 : ∀ p ∈ m2.values, p.2 ≠ []) (hd1 : NonzeroData m1) (hd2 : NonzeroData m2) {j1 j2 : ℕ} (h1 : 1 ≤ j1)
    (h12 : j1 < j2) (h2 : j2 ≤ J) (weighted : Bool) (q1 q2 : List ℝ) (hn1 : q1.Nodup) (hn2 : q2.Nodup)
    (hq1 : (0:ℝ) ∈ q1 ∧ (1:ℝ) ∈ q1 ∧ (2:ℝ) ∈ q1) (hq2 : (0:ℝ) ∈ q2 ∧ (1:ℝ) ∈ q2 ∧ (2:ℝ) ∈ q2) (n : ℕ) (hn : 2 ≤ n) :
    ∃ v, biVar false m1 m2 j1 j2 weighted n (some (.ndarray q1)) (some (.ndarray q2)) = .ok v ∧ ∀ ε : ℝ, 0 < ε → ∃ η : ℝ, 0 < η ∧
      ∀ m1' m2' : MRQ 1, Paired m1' m2' J → SameNaN m1' m2' → MRQRelated (EntryClose η) m1 m1' → MRQRelated (EntryClose η) m2 m2' →
        ∃ v', biVar false m1' m2' j1 j2 weighted n (some (.ndarray q1)) (some (.ndarray q2)) = .ok v' ∧
          BiEstimatesClose ε q1.length q2.length n v v' := by
  have a1 : (1:ℤ) ≤ (j1 : ℤ) := by exact_mod_cast h1
  have a2 : (j1 : ℤ) ≤ (j2 : ℤ) := by exact_mod_cast h12.le
  have a3 : (j2 : ℤ) ≤ (J : ℤ) := by exact_mod_cast h2
  have hlog : 0 < Real.log 2 := Real.log_pos (by norm_num)
  have hK := slopeFactor_pos h12 weighted
  obtain ⟨v1, hv1, hc1⟩ := C121_estimators hp.reg1 hrow1 hd1 h1 h12 h2 weighted q1 hq1.2.2 n
  obtain ⟨v2, hv2, hc2⟩ := C121_estimators hp.reg2 hrow2 hd2 h1 h12 h2 weighted q2 hq2.2.2 n
  obtain ⟨v, hv, hvm⟩ := biVar_marginals hp hs a1 a2 a3 weighted n hn q1 q2 hn1 hn2 hq1 hq2 hv1 hv2
  refine ⟨v, hv, fun ε hε => ?_⟩
  obtain ⟨η1, hη1, hc1⟩ := hc1 ε hε
  obtain ⟨η2, hη2, hc2⟩ := hc2 ε hε
  obtain ⟨ε', hε'⟩ : ∃ ε', ε' = ε * Real.log 2 / slopeFactor weighted j1 j2 := ⟨_, rfl⟩
  have hε'0 : 0 < ε' := by rw [hε']; positivity
  have hz : ∀ᶠ η in 𝓝[>] (0:ℝ), ∀ e1 ∈ {e | e ∈ q1}, ∀ e2 ∈ {e | e ∈ q2}, ∀ q ∈ biList m1 m2,
      ∀ q', List.Forall₂ (PairClose η) (biPairs q) (biPairs q') → FlClose ε' (bsLog e1 e2 q) (bsLog e1 e2 q') := by
    rw [eventually_all_finite (List.finite_toSet _)]
    intro e1 _
    rw [eventually_all_finite (List.finite_toSet _)]
    intro e2 _
    exact contPair_eventually (contPair_bsLog e1 e2) hp hs hd1 hd2 hε'0
  have hb : ∀ᶠ η in 𝓝[>] (0:ℝ), ∀ q ∈ biList m1 m2,
      ∀ q', List.Forall₂ (PairClose η) (biPairs q) (biPairs q') → FlClose ε' (bcAt n 1 1 q) (bcAt n 1 1 q') :=
    contPair_eventually (contPair_bc11 (by omega)) hp hs hd1 hd2 hε'0
  have hco : ∀ᶠ η in 𝓝[>] (0:ℝ), ∀ q ∈ biList m1 m2,
      ∀ q', List.Forall₂ (PairClose η) (biPairs q) (biPairs q') → FlClose ε (cohOf (biPairs q)) (cohOf (biPairs q')) :=
    contPair_eventually contPair_coh hp hs hd1 hd2 hε
  obtain ⟨η, ⟨⟨⟨hz, hb⟩, hco⟩, hηlt⟩, hη0⟩ :=
    ((((hz.and hb).and hco).and (Ioo_mem_nhdsGT (lt_min hη1 hη2))).and self_mem_nhdsWithin).exists
  refine ⟨η, hη0, fun m1' m2' hp' hs' r1 r2 => ?_⟩
  have mono : ∀ {η' : ℝ}, η ≤ η' → ∀ {m m' : MRQ 1}, MRQRelated (EntryClose η) m m' → MRQRelated (EntryClose η') m m' := by
    intro η' hle m m' h
    exact ⟨h.1, h.2.imp fun a b h => ⟨h.1, h.2.imp fun u v h r => (h r).mono hle⟩⟩
  obtain ⟨v1', hv1', hcl1⟩ := hc1 m1' hp'.reg1 (mono (hηlt.2.le.trans (min_le_left _ _)) r1)
  obtain ⟨v2', hv2', hcl2⟩ := hc2 m2' hp'.reg2 (mono (hηlt.2.le.trans (min_le_right _ _)) r2)
  obtain ⟨v', hv', hvm'⟩ := biVar_marginals hp' hs' a1 a2 a3 weighted n hn q1 q2 hn1 hn2 hq1 hq2 hv1' hv2'
  refine ⟨v', hv', ?_⟩
  obtain ⟨p1, p2, p3⟩ := biVar_parts hp a1 a2 a3 hn1 hn2 hq1 hq2 hn hv
  obtain ⟨p1', p2', p3'⟩ := biVar_parts hp' a1 a2 a3 hn1 hn2 hq1 hq2 hn hv'
  have hne : ∀ p ∈ m1.values, ∃ x ∈ col p.2 0, x ≠ Fl.nan := fun p hp => (hd1 p hp 0).1
  have eK : slopeFactor weighted j1 j2 * ε' = ε * Real.log 2 := by rw [hε']; field_simp
  have hlog1 : Real.log 2 ≤ 1 := by have := Real.log_le_sub_one_of_pos (show (0:ℝ) < 2 by norm_num); linarith
  have cum : ∀ a b, (∀ q ∈ biList m1 m2, ∀ q', List.Forall₂ (PairClose η) (biPairs q) (biPairs q') → FlClose ε' (bcAt n a b q) (bcAt n a b q')) →
      FlClose ε (v.cumulants.log_cumulants a b) (v'.cumulants.log_cumulants a b) := by
    intro a b h
    obtain ⟨s, t, e1, e2, e3⟩ := biSlope_close hp r1 r2 h1 h12 h2 weighted hne (bcAt n a b) ε' h
    refine ⟨s * log2e, t * log2e, by rw [p3, e1, Fl.fin_mul], by rw [p3', e2, Fl.fin_mul], ?_⟩
    rw [log2e_eq, ← sub_mul, abs_mul, abs_of_pos (inv_pos.2 hlog), ← div_eq_mul_inv, div_le_iff₀ hlog, ← eK]
    exact e3
  refine ⟨?_, ?_, ?_⟩
  · intro i k hi hk
    have e1 := List.getElem?_eq_getElem hi
    have e2 := List.getElem?_eq_getElem hk
    refine ⟨_, _, p1 i k _ _ e1 e2, p1' i k _ _ e1 e2, ?_⟩
    refine (biSlope_close hp r1 r2 h1 h12 h2 weighted hne _ ε' (hz _ (List.getElem_mem hi) _ (List.getElem_mem hk))).weaken ?_
    rw [eK]
    exact mul_le_of_le_one_right hε.le hlog1
  · intro a b ha hb'
    by_cases hab : (a = 0 ∧ b = 0) ∨ (1 ≤ a ∧ 1 ≤ b ∧ ¬ (a = 1 ∧ b = 1))
    · apply cum
      intro q _ q' _
      have e : ∀ q, bcAt n a b q = Fl.fin 0 := fun q => bcTable_zero _ _ _ _ (by omega)
      exact ⟨0, 0, e q, e q', by simpa using hε'0.le⟩
    · by_cases h11 : a = 1 ∧ b = 1
      · obtain ⟨rfl, rfl⟩ := h11
        exact cum 1 1 hb
      · rcases Nat.eq_zero_or_pos b with rfl | hb0
        · obtain ⟨i, rfl⟩ : ∃ i, a = i + 1 := ⟨a - 1, by omega⟩
          obtain ⟨c, c', f1, f2, f3⟩ := (hcl1 0).2.2.2.1 i (by omega)
          have g1 := (hvm.1 i (by omega)).1
          have g2 := (hvm'.1 i (by omega)).1
          rw [f1] at g1; rw [f2] at g2
          rw [← Option.some.inj g1, ← Option.some.inj g2]
          exact f3
        · obtain ⟨i, rfl⟩ : ∃ i, b = i + 1 := ⟨b - 1, by omega⟩
          obtain rfl : a = 0 := by omega
          obtain ⟨c, c', f1, f2, f3⟩ := (hcl2 0).2.2.2.1 i (by omega)
          have g1 := (hvm.1 i (by omega)).2
          have g2 := (hvm'.1 i (by omega)).2
          rw [f1] at g1; rw [f2] at g2
          rw [← Option.some.inj g1, ← Option.some.inj g2]
          exact f3
  · rw [p2, p2', List.forall₂_map_left_iff, List.forall₂_map_right_iff]
    have hl := biList_close r1 r2
    rw [List.forall₂_iff_zip] at hl ⊢
    refine ⟨hl.1, fun {a b} hab => ?_⟩
    exact hco a (List.of_mem_zip hab).1 b (hl.2 hab).2.2

theorem Regular.unique {R : ℕ} {m : MRQ R} {J J' : ℕ} (h : Regular m J) (h' : Regular m J') : J = J' := by
  have a := congrArg List.length h.1
  have b := congrArg List.length h'.1
  simp only [List.length_map, List.length_range] at a b
  omega

/-- The coefficients and leaders of a signal whose coefficients are not 0. -/
theorem signal_nonzero {R N : ℕ} (hR : R ≠ 0) {x : Fin R → ℤ → ℝ} {wt : Wavelet} (hwt : wt.Valid) {j1 : ℤ} {j2 : Option ℝ} {g nm : ℝ} {weighted : Bool}
    {w : WT R} (h : waveletAnalysis (sampled N x) .inf wt j1 j2 g nm weighted = .ok w) (h0 : NoZeros w.wt_coefs) :
    NonzeroData w.wt_coefs ∧ ∀ l, w.wt_leaders = some l → NonzeroData l := by
  obtain ⟨J, Jc, hJc, hj2, hc, hl⟩ := C03_regular h
  have hfinc : ∀ s k r v, w.wt_coefs.val? s k r = some v → v = Fl.nan ∨ ∃ t, v = Fl.fin t := by
    intro s k r v hv
    rcases coefs_close hR hwt h h (η := 0) (fun r i _ => by simp) s k r with ⟨e, -⟩ | ⟨a, b, e1, e2, e3⟩
    · rw [hv] at e; cases e
    · rw [hv] at e1; cases e1
      rcases e3 with ⟨e, -⟩ | ⟨s, t, e, -⟩
      · exact Or.inl e
      · exact Or.inr ⟨s, e⟩
  refine ⟨nonzeroData_of hc hfinc (cols_not_nan h _ (Or.inl rfl)) h0, fun l hle => ?_⟩
  have hfinl : ∀ s k r v, l.val? s k r = some v → v = Fl.nan ∨ ∃ t, v = Fl.fin t := by
    intro s k r v hv
    have hself : ∀ s k r, (w.wt_coefs.val? s k r = none ∧ w.wt_coefs.val? s k r = none) ∨
        ∃ a b, w.wt_coefs.val? s k r = some a ∧ w.wt_coefs.val? s k r = some b ∧ EntryClose 0 a b := by
      intro s k r
      rcases hcv : w.wt_coefs.val? s k r with _ | a
      · exact Or.inl ⟨rfl, rfl⟩
      · refine Or.inr ⟨a, a, rfl, rfl, ?_⟩
        rcases hfinc s k r a hcv with e | ⟨t, e⟩
        · exact Or.inl ⟨e, e⟩
        · exact Or.inr ⟨t, t, e, e, by simp⟩
    rcases leaders_close h h hself hle hle hv hv with ⟨e, -⟩ | ⟨s, t, e, -⟩
    · exact Or.inl e
    · exact Or.inr ⟨s, e⟩
  exact nonzeroData_of (hl l hle rfl) hfinl (cols_not_nan h _ (Or.inr ⟨hle, rfl⟩)) (C121_leaders_nonzero h h0 hle)

/-- **C138, the bivariate analysis is continuous in the two signals.**  Let `bivariate_analysis_full` be called on two signals `x`, `y` none of whose
wavelet coefficients is 0, with at least two scales analysed.  The call returns, and for every `ε` there is `η` such that on all signals whose samples
are within `η` of those of `x` and `y` the call returns as well, and all its estimates (exponents, log-cumulants, coherences; from coefficients and from leaders)
are within `ε` of those for `x` and `y`. -/
theorem C138_signal {N : ℕ} {x y : Fin 1 → ℤ → ℝ} {wt : Wavelet} (hwt : wt.Valid) {j1 : ℕ}
    {j2 : Option ℝ} {g nm : ℝ} (hnm : nm ≠ 0) {weighted : Bool} {w1 w2 : WT 1} (hw1 : waveletAnalysis (sampled N x) .inf wt j1 j2 g nm weighted = .ok w1)
    (hw2 : waveletAnalysis (sampled N y) .inf wt j1 j2 g nm weighted = .ok w2)
    (h1 : 1 ≤ j1) (h12 : (j1 : ℤ) < w1.j2_eff) (n1 : NoZeros w1.wt_coefs) (n2 : NoZeros w2.wt_coefs) {q1 q2 : List ℝ} (hn1 : q1.Nodup) (hn2 : q2.Nodup)
    (hq1 : (0:ℝ) ∈ q1 ∧ (1:ℝ) ∈ q1 ∧ (2:ℝ) ∈ q1) (hq2 : (0:ℝ) ∈ q2 ∧ (1:ℝ) ∈ q2 ∧ (2:ℝ) ∈ q2) {n : ℕ} (hn : 2 ≤ n) :
    ∃ d l, bivariateAnalysisFull (sampled N x) (sampled N y) j1 j2 nm g weighted wt .inf (some (.ndarray q1)) (some (.ndarray q2)) n = .ok (d, l) ∧
    ∀ ε : ℝ, 0 < ε → ∃ η : ℝ, 0 < η ∧ ∀ x' y' : Fin 1 → ℤ → ℝ, (∀ r (i : ℕ), i < N → |x r i - x' r i| ≤ η ∧ |y r i - y' r i| ≤ η) →
      ∃ d' l', bivariateAnalysisFull (sampled N x') (sampled N y') j1 j2 nm g weighted wt .inf (some (.ndarray q1)) (some (.ndarray q2)) n =
        .ok (d', l') ∧ BiEstimatesClose ε q1.length q2.length n d d' ∧ BiEstimatesClose ε q1.length q2.length n l l' := by
  obtain ⟨J, Jc, l1, l2, he, hJ, hJc, hl1, hl2, -, -, hpc, hsc, hpl, hsl⟩ := wa_paired hwt hw1 hw2
  obtain ⟨k2, hk2⟩ := Int.eq_ofNat_of_zero_le (show 0 ≤ w1.j2_eff by omega)
  have hjj : j1 < k2 := by rw [hk2] at h12; exact_mod_cast h12
  have hkJ : k2 ≤ J := by rw [hk2] at hJ; exact_mod_cast hJ
  obtain ⟨d1, dl1⟩ := signal_nonzero (by norm_num) hwt hw1 n1
  obtain ⟨d2, dl2⟩ := signal_nonzero (by norm_num) hwt hw2 n2
  have hr := fun {z : Fin 1 → ℤ → ℝ} {w : WT 1} (h : waveletAnalysis (sampled N z) .inf wt j1 j2 g nm weighted = .ok w) =>
    rows_ne_nil (by norm_num) h
  obtain ⟨d, hd, hdc⟩ := C138_estimators hpc hsc (hr hw1 _ (Or.inl rfl)) (hr hw2 _ (Or.inl rfl)) d1 d2 h1 hjj (hkJ.trans hJc) weighted q1 q2 hn1 hn2 hq1 hq2
    n hn
  obtain ⟨l, hl, hlc⟩ := C138_estimators hpl hsl (hr hw1 _ (Or.inr ⟨hl1, rfl⟩)) (hr hw2 _ (Or.inr ⟨hl2, rfl⟩)) (dl1 _ hl1) (dl2 _ hl2) h1 hjj hkJ weighted q1 q2
    hn1 hn2 hq1 hq2 n hn
  refine ⟨d, l, ?_, fun ε hε => ?_⟩
  · unfold bivariateAnalysisFull bivariateAnalysis
    simp only [hw1, hw2, hl1, hl2, ← he, min_self, hk2, hd, hl]
  obtain ⟨η1, hη1, hc1⟩ := hdc ε hε
  obtain ⟨η2, hη2, hc2⟩ := hlc ε hε
  have hL : 0 ≤ lipMax wt g nm Jc := Finset.sum_nonneg fun s _ => coefLip_nonneg wt g nm s
  refine ⟨min η1 η2 / (lipMax wt g nm Jc + 1), by positivity, fun x' y' hxy => ?_⟩
  have hle : lipMax wt g nm Jc * (min η1 η2 / (lipMax wt g nm Jc + 1)) ≤ min η1 η2 := by
    rw [← mul_div_assoc, div_le_iff₀ (by positivity)]
    have : 0 < min η1 η2 := by positivity
    nlinarith
  have hN0 : N ≠ 0 := by
    rintro rfl
    obtain ⟨ml, K, Kc, e, -⟩ := wa_inv hw1
    simp [sampled, maxLevel] at e
  have ex : ∀ z : Fin 1 → ℤ → ℝ, ∃ w, waveletAnalysis (sampled N z) .inf wt j1 j2 g nm weighted = .ok w := by
    intro z
    refine C05_total _ .inf (Or.inr rfl) wt _ _ g nm weighted one_ne_zero ?_ hnm
    intro he
    have := congrArg List.length he
    rw [sampled_length] at this
    exact hN0 this
  obtain ⟨w1', hw1'⟩ := ex x'
  obtain ⟨w2', hw2'⟩ := ex y'
  obtain ⟨e1, rc1, rel1, le1⟩ := wa_close (by norm_num) (Or.inr rfl) hwt hw1 hw1' hpc.reg1 (fun a ha _ => by rw [hl1] at ha; cases ha; exact hpl.reg1)
    (by positivity) hle (fun r i hi => (hxy r i hi).1)
  obtain ⟨e2, rc2, rel2, le2⟩ := wa_close (by norm_num) (Or.inr rfl) hwt hw2 hw2' hpc.reg2 (fun a ha _ => by rw [hl2] at ha; cases ha; exact hpl.reg2)
    (by positivity) hle (fun r i hi => (hxy r i hi).2)
  obtain ⟨l1', hl1', rl1, rll1⟩ := le1 l1 hl1
  obtain ⟨l2', hl2', rl2, rll2⟩ := le2 l2 hl2
  obtain ⟨J', Jc', a1, a2, he', -, -, ha1, ha2, -, -, hpc', hsc', hpl', hsl'⟩ := wa_paired hwt hw1' hw2'
  rw [hl1'] at ha1; cases ha1
  rw [hl2'] at ha2; cases ha2
  obtain rfl := hpc'.reg1.unique rc1
  obtain rfl := hpl'.reg1.unique rl1
  have mono : ∀ {m m' : MRQ 1} {a : ℝ}, min η1 η2 ≤ a → MRQRelated (EntryClose (min η1 η2)) m m' → MRQRelated (EntryClose a) m m' := by
    intro m m' a ha hr
    exact ⟨hr.1, hr.2.imp fun _ _ h => ⟨h.1, h.2.imp fun _ _ h r => (h r).mono ha⟩⟩
  obtain ⟨d', hd', hdcl⟩ := hc1 _ _ hpc' hsc' (mono (min_le_left _ _) rel1) (mono (min_le_left _ _) rel2)
  obtain ⟨l', hl', hlcl⟩ := hc2 _ _ hpl' hsl' (mono (min_le_right _ _) rll1) (mono (min_le_right _ _) rll2)
  refine ⟨d', l', ?_, hdcl, hlcl⟩
  unfold bivariateAnalysisFull bivariateAnalysis
  simp only [hw1', hw2', hl1', hl2', e1, e2, ← he, min_self, hk2, hd', hl']

/-- The multifractal correlation of a result, for leaders. -/
theorem rho_mf_eq {R : ℕ} {same : Bool} {m1 m2 : MRQ R} {n : ℕ} {j1 j2 : ℤ} {weighted : Bool} {c : BiCumulants R} (hf : m1.formalism ≠ .coef)
    (h : BiCumulants.make same m1 m2 n j1 j2 weighted = .ok c) :
    c.rho_mf = some (-(c.log_cumulants 1 1) / ((c.log_cumulants 0 2) * (c.log_cumulants 2 0)).sqrt.abs) := by
  unfold BiCumulants.make at h
  by_cases h0 : m1.formalism ≠ m2.formalism
  · rw [if_pos h0] at h; cases h
  rw [if_neg h0] at h
  split at h
  · cases h
  · cases h
  split at h
  · cases h
  dsimp only at h
  split at h
  · cases h
  split at h
  · cases h
  rw [if_neg hf] at h
  split at h
  · cases h
  · cases h; rfl

theorem rho_mf_full {N : ℕ} {x y : Fin 1 → ℤ → ℝ} {wt : Wavelet} (hwt : wt.Valid) {j1 : ℤ} {j2 : Option ℝ} {g nm : ℝ} {weighted : Bool} {q1 q2 : Option QArg}
    {n : ℕ} {d l : MFBiVar 1} (h : bivariateAnalysisFull (sampled N x) (sampled N y) j1 j2 nm g weighted wt .inf q1 q2 n = .ok (d, l)) :
    l.cumulants.rho_mf = some (-(l.cumulants.log_cumulants 1 1) / ((l.cumulants.log_cumulants 0 2) * (l.cumulants.log_cumulants 2 0)).sqrt.abs) := by
  unfold bivariateAnalysisFull at h
  split at h
  · cases h
  rename_i w1 hw1
  split at h
  · cases h
  rename_i w2 hw2
  obtain ⟨J, Jc, l1, l2, he, hJ, hJc, hl1, hl2, -, hf, -⟩ := wa_paired hwt hw1 hw2
  unfold bivariateAnalysis at h
  simp only [hl1, hl2] at h
  split at h
  · cases h
  split at h
  · cases h
  rename_i v hv
  cases h
  unfold biVar at hv
  split at hv
  · cases hv
  rename_i c hc
  have hr := rho_mf_eq (by rw [hf]; simp) hc
  split at hv
  · split at hv
    · cases hv
    · cases hv; exact hr
  · split_ifs at hv

/-- The formula of the multifractal correlation is continuous where the product under the root is positive. -/
theorem rho_close {n1 n2 n : ℕ} (hn : 2 ≤ n) {v : MFBiVar 1} {a b c : ℝ} (hcc : v.cumulants.log_cumulants 1 1 = Fl.fin c)
    (ha : v.cumulants.log_cumulants 0 2 = Fl.fin a) (hb : v.cumulants.log_cumulants 2 0 = Fl.fin b) (hab : 0 < a * b)
    (hv : v.cumulants.rho_mf = some (-(v.cumulants.log_cumulants 1 1) / ((v.cumulants.log_cumulants 0 2) * (v.cumulants.log_cumulants 2 0)).sqrt.abs)) :
    ∃ ρ : ℝ, v.cumulants.rho_mf = some (Fl.fin ρ) ∧ ∀ ε : ℝ, 0 < ε → ∃ δ : ℝ, 0 < δ ∧ ∀ v' : MFBiVar 1, BiEstimatesClose δ n1 n2 n v v' →
      v'.cumulants.rho_mf = some (-(v'.cumulants.log_cumulants 1 1) / ((v'.cumulants.log_cumulants 0 2) * (v'.cumulants.log_cumulants 2 0)).sqrt.abs) →
      ∃ ρ', v'.cumulants.rho_mf = some (Fl.fin ρ') ∧ |ρ - ρ'| ≤ ε := by
  have form : ∀ c u v : ℝ, 0 < u * v → -(Fl.fin c) / ((Fl.fin u) * (Fl.fin v)).sqrt.abs = Fl.fin (-c / |Real.sqrt (u * v)|) := by
    intro c u v huv
    have hs : 0 < |Real.sqrt (u * v)| := abs_pos.2 (Real.sqrt_pos.2 huv).ne'
    rw [Fl.fin_mul, show (Fl.fin (u * v)).sqrt = Fl.fin (Real.sqrt (u * v)) by simp [Fl.sqrt, not_lt.2 huv.le], Fl.abs_fin,
      show -(Fl.fin c) = Fl.fin (-c) from rfl, Fl.fin_div hs.ne']
  refine ⟨-c / |Real.sqrt (a * b)|, by rw [hv, ha, hb, hcc, form _ _ _ hab], fun ε hε => ?_⟩
  have hcont : ContinuousAt (fun p : ℝ × ℝ × ℝ => -p.1 / |Real.sqrt (p.2.1 * p.2.2)|) (c, a, b) := by
    refine ContinuousAt.div (by fun_prop) (by fun_prop) ?_
    exact (abs_pos.2 (Real.sqrt_pos.2 hab).ne').ne'
  have hpos : ∀ᶠ p : ℝ × ℝ × ℝ in 𝓝 (c, a, b), 0 < p.2.1 * p.2.2 :=
    (show ContinuousAt (fun p : ℝ × ℝ × ℝ => p.2.1 * p.2.2) (c, a, b) by fun_prop).eventually (lt_mem_nhds hab)
  obtain ⟨δ, hδ, hball⟩ := Metric.eventually_nhds_iff.1 ((hcont.eventually (Metric.ball_mem_nhds _ hε)).and hpos)
  refine ⟨δ / 2, by positivity, fun v' hl' hv' => ?_⟩
  obtain ⟨s1, t1, e1, f1, g1⟩ := hl'.2.1 1 1 (by omega) (by omega)
  obtain ⟨s2, t2, e2, f2, g2⟩ := hl'.2.1 0 2 (by omega) (by omega)
  obtain ⟨s3, t3, e3, f3, g3⟩ := hl'.2.1 2 0 (by omega) (by omega)
  obtain rfl := (Fl.fin_inj _ _).1 (hcc.symm.trans e1)
  obtain rfl := (Fl.fin_inj _ _).1 (ha.symm.trans e2)
  obtain rfl := (Fl.fin_inj _ _).1 (hb.symm.trans e3)
  obtain ⟨hb1, hb2⟩ := @hball (t1, t2, t3) (by
    rw [Prod.dist_eq, Prod.dist_eq, max_lt_iff, max_lt_iff, Real.dist_eq, Real.dist_eq, Real.dist_eq, abs_sub_comm, abs_sub_comm t2, abs_sub_comm t3]
    exact ⟨by dsimp only; linarith, by dsimp only; linarith, by dsimp only; linarith⟩)
  refine ⟨-t1 / |Real.sqrt (t2 * t3)|, by rw [hv', f1, f2, f3, form _ _ _ hb2], ?_⟩
  have := Metric.mem_ball.1 hb1
  rw [Real.dist_eq, abs_sub_comm] at this
  exact this.le

theorem rho_mf_biVar {R : ℕ} {same : Bool} {m1 m2 : MRQ R} {n : ℕ} {j1 j2 : ℤ} {weighted : Bool} {q1 q2 : Option QArg} {v : MFBiVar R} (hf : m1.formalism ≠ .coef)
    (hv : biVar same m1 m2 j1 j2 weighted n q1 q2 = .ok v) :
    v.cumulants.rho_mf = some (-(v.cumulants.log_cumulants 1 1) / ((v.cumulants.log_cumulants 0 2) * (v.cumulants.log_cumulants 2 0)).sqrt.abs) := by
  unfold biVar at hv
  split at hv
  · cases hv
  rename_i c hc
  have hr := rho_mf_eq hf hc
  split at hv
  · split at hv
    · cases hv
    · cases hv; exact hr
  · split_ifs at hv

/-- **C138, the multifractal correlation is continuous in the two quantities** wherever the two log-cumulants under its square root have a positive product (elsewhere
it is infinite or NaN). -/
theorem C138_rho {m1 m2 : MRQ 1} {J : ℕ} (hp : Paired m1 m2 J) (hs : SameNaN m1 m2) (hrow1 : ∀ p ∈ m1.values, p.2 ≠ [])
    (hrow2 : ∀ p ∈ m2.values, p.2 ≠ []) (hd1 : NonzeroData m1) (hd2 : NonzeroData m2) {j1 j2 : ℕ} (h1 : 1 ≤ j1)
    (h12 : j1 < j2) (h2 : j2 ≤ J) (weighted : Bool) (q1 q2 : List ℝ) (hn1 : q1.Nodup) (hn2 : q2.Nodup)
    (hq1 : (0:ℝ) ∈ q1 ∧ (1:ℝ) ∈ q1 ∧ (2:ℝ) ∈ q1) (hq2 : (0:ℝ) ∈ q2 ∧ (1:ℝ) ∈ q2 ∧ (2:ℝ) ∈ q2) (n : ℕ) (hn : 2 ≤ n) (hf : m1.formalism ≠ .coef) {v : MFBiVar 1}
    (h : biVar false m1 m2 j1 j2 weighted n (some (.ndarray q1)) (some (.ndarray q2)) = .ok v)
    {a b : ℝ} (ha : v.cumulants.log_cumulants 0 2 = Fl.fin a) (hb : v.cumulants.log_cumulants 2 0 = Fl.fin b) (hab : 0 < a * b) :
    ∃ ρ : ℝ, v.cumulants.rho_mf = some (Fl.fin ρ) ∧ ∀ ε : ℝ, 0 < ε → ∃ η : ℝ, 0 < η ∧
      ∀ m1' m2' : MRQ 1, Paired m1' m2' J → SameNaN m1' m2' → m1'.formalism = m1.formalism →
        MRQRelated (EntryClose η) m1 m1' → MRQRelated (EntryClose η) m2 m2' →
        ∃ v' ρ', biVar false m1' m2' j1 j2 weighted n (some (.ndarray q1)) (some (.ndarray q2)) = .ok v' ∧
          v'.cumulants.rho_mf = some (Fl.fin ρ') ∧ |ρ - ρ'| ≤ ε := by
  obtain ⟨v0, h0, hc⟩ := C138_estimators hp hs hrow1 hrow2 hd1 hd2 h1 h12 h2 weighted q1 q2 hn1 hn2 hq1 hq2 n hn
  rw [h] at h0; cases h0
  obtain ⟨c, hcc⟩ : ∃ c, v.cumulants.log_cumulants 1 1 = Fl.fin c := by
    obtain ⟨η0, hη0, hc0⟩ := hc 1 one_pos
    have hself : ∀ {m : MRQ 1}, NonzeroData m → MRQRelated (EntryClose η0) m m := by
      intro m hd
      refine ⟨rfl, List.forall₂_same.2 fun p hp => ⟨rfl, List.forall₂_same.2 fun u hu r => ?_⟩⟩
      have hmem : u r ∈ col p.2 r := List.mem_map.2 ⟨u, hu, rfl⟩
      rcases (hd p hp r).2 _ hmem with e | ⟨t, -, e⟩
      · exact Or.inl ⟨e, e⟩
      · exact Or.inr ⟨t, t, e, e, by simpa using hη0.le⟩
    obtain ⟨v', -, hl⟩ := hc0 m1 m2 hp hs (hself hd1) (hself hd2)
    obtain ⟨s, t, e, -⟩ := hl.2.1 1 1 (by omega) (by omega)
    exact ⟨s, e⟩
  obtain ⟨ρ, hρ, hcl⟩ := rho_close (n1 := q1.length) (n2 := q2.length) hn hcc ha hb hab (rho_mf_biVar hf h)
  refine ⟨ρ, hρ, fun ε hε => ?_⟩
  obtain ⟨δ, hδ, hcl⟩ := hcl ε hε
  obtain ⟨η, hη, hc⟩ := hc δ hδ
  refine ⟨η, hη, fun m1' m2' hp' hs' hf' r1 r2 => ?_⟩
  obtain ⟨v', hv', hvc⟩ := hc m1' m2' hp' hs' r1 r2
  obtain ⟨ρ', h1', h2'⟩ := hcl v' hvc (rho_mf_biVar (by rw [hf']; exact hf) hv')
  exact ⟨v', ρ', hv', h1', h2'⟩

/-- The leaders `bi1`, `bi2` are numbers other than 0, or NaN. -/
theorem bi_data (m : MRQ 1) (hm : m = bi1 ∨ m = bi2) : (∀ p ∈ m.values, p.2 ≠ []) ∧ NonzeroData m := by
  constructor
  · intro p hp
    rcases hm with rfl | rfl
    · rw [bi1_values] at hp
      simp only [List.mem_cons, List.not_mem_nil, or_false] at hp
      rcases hp with rfl | rfl <;> simp
    · rw [bi2_values] at hp
      simp only [List.mem_cons, List.not_mem_nil, or_false] at hp
      rcases hp with rfl | rfl <;> simp
  · intro p hp r
    rcases hm with rfl | rfl
    · rw [bi1_values] at hp
      simp only [List.mem_cons, List.not_mem_nil, or_false] at hp
      rcases hp with rfl | rfl <;> refine ⟨⟨Fl.fin 1, by simp [col], by simp⟩, fun x hx => ?_⟩ <;>
        simp only [col, List.map_cons, List.map_nil, List.mem_cons, List.not_mem_nil, or_false] at hx <;>
        rcases hx with rfl | rfl | rfl | rfl <;> first | exact Or.inl rfl | exact Or.inr ⟨_, by norm_num, rfl⟩
    · rw [bi2_values] at hp
      simp only [List.mem_cons, List.not_mem_nil, or_false] at hp
      rcases hp with rfl | rfl <;> refine ⟨⟨Fl.fin 1, by simp [col], by simp⟩, fun x hx => ?_⟩ <;>
        simp only [col, List.map_cons, List.map_nil, List.mem_cons, List.not_mem_nil, or_false] at hx <;>
        rcases hx with rfl | rfl | rfl | rfl <;> first | exact Or.inl rfl | exact Or.inr ⟨_, by norm_num, rfl⟩

/-- The hypotheses of `C138_rho` are met, by the leaders `bi1`, `bi2` of `Props/BiDemo`. -/
example : ∃ (v : MFBiVar 1) (a b : ℝ), biVar false bi1 bi2 (1 : ℕ) (2 : ℕ) false 2 (some (.ndarray [0, 1, 2])) (some (.ndarray [0, 1, 2])) = .ok v ∧
    Paired bi1 bi2 2 ∧ SameNaN bi1 bi2 ∧ bi1.formalism ≠ .coef ∧ (∀ p ∈ bi1.values, p.2 ≠ []) ∧ (∀ p ∈ bi2.values, p.2 ≠ []) ∧ NonzeroData bi1 ∧ NonzeroData bi2 ∧
    v.cumulants.log_cumulants 0 2 = Fl.fin a ∧ v.cumulants.log_cumulants 2 0 = Fl.fin b ∧ 0 < a * b := by
  have hcoh := bsCoherence_ok (q1 := [0, 1, 2]) (q2 := [0, 1, 2]) (scales := (biList bi1 bi2).map biPairs) (by norm_num) (by norm_num) (by norm_num) (by norm_num)
    (by norm_num) (by norm_num) (by norm_num) (by norm_num)
  obtain ⟨f, hfn⟩ : ∃ f, BiStructFn.make false bi1 bi2 1 2 (.ndarray [0, 1, 2]) (.ndarray [0, 1, 2]) false = .ok f :=
    ⟨_, bi_paired.biStructFn (j1 := 1) (j2 := 2) (by norm_num) (by norm_num) (by norm_num) false false hcoh (by simp) (by simp)⟩
  obtain ⟨b, hb, hall⟩ := C65_covariance bi_paired bi_jointFinite bi_noZero1 bi_noZero2 (j1 := 1) (j2 := 2) (by norm_num)
    (by norm_num) (by norm_num) false 2 (Or.inr le_rfl)
  obtain ⟨b', hb', -, -, -, hv, -, -, hlc, -⟩ := bi_paired.biCumulants (j1 := 1) (j2 := 2) (by norm_num) (by norm_num)
    (by norm_num) false false (n := 2) (Or.inr le_rfl)
  obtain rfl : b = b' := Except.ok.inj (hb.symm.trans hb')
  have s1 := hall 0 _ _ (by rw [bi1_values]; rfl) (by rw [bi2_values]; rfl)
  have s2 := hall 1 _ _ (by rw [bi1_values]; rfl) (by rw [bi2_values]; rfl)
  simp only [bi_logs1] at s1
  simp only [bi_logs2] at s2
  have key : ∀ a c (u v : ℝ), (b.values a c)[0]? = some (Fl.fin u) → (b.values a c)[1]? = some (Fl.fin v) →
      b.log_cumulants a c = Fl.fin ((v - u) * log2e) := by
    intro a c u v hu hw
    rw [hv, List.getElem?_map] at hu hw
    rw [hlc, bi_slope hu hw, Fl.fin_mul]
  have e20 := key 2 0 _ _ (s1.2.1 2 (by norm_num) le_rfl).1 (s2.2.1 2 (by norm_num) le_rfl).1
  have e02 := key 0 2 _ _ (s1.2.1 2 (by norm_num) le_rfl).2 (s2.2.1 2 (by norm_num) le_rfl).2
  simp only [List.map_cons, List.map_nil] at e20 e02
  have hk : ∀ l : List ℝ, l ≠ [] → iteratedDeriv 2 (empCGF l) 0 = centralMoment l 2 := fun l hl => (sum_central hl).1
  rw [hk _ (by simp), hk _ (by simp)] at e20 e02
  have v0 : centralMoment [0, 0] 2 = 0 := by simp [centralMoment, mean]
  have hl : 0 < Real.log 2 := Real.log_pos (by norm_num)
  have he : 0 < log2e := by
    unfold log2e
    apply Real.logb_pos (by norm_num)
    exact Real.one_lt_exp_iff.2 one_pos
  rw [show centralMoment [0, Real.log 2, 0] 2 = _ from bi_var1.1, v0] at e20
  rw [show centralMoment [0, 0, Real.log 2] 2 = _ from bi_var1.2, v0] at e02
  refine ⟨⟨f, b⟩, _, _, ?_, bi_paired, bi_sameNaN, by simp [bi1, MRQ.addValues, MRQ.empty], (bi_data _ (Or.inl rfl)).1, (bi_data _ (Or.inr rfl)).1, (bi_data _ (Or.inl rfl)).2,
    (bi_data _ (Or.inr rfl)).2, e02, e20, ?_⟩
  · unfold biVar
    simp only [Nat.cast_one, Nat.cast_ofNat, hb, hfn]
  · have : 0 < (2 * Real.log 2 ^ 2 / 9 * log2e) ^ 2 := by positivity
    nlinarith

/-- **C138, the multifractal correlation is continuous in the two signals**, as in `C138_rho`. -/
theorem C138_rho_signal {N : ℕ} {x y : Fin 1 → ℤ → ℝ} {wt : Wavelet} (hwt : wt.Valid) {j1 : ℕ}
    {j2 : Option ℝ} {g nm : ℝ} (hnm : nm ≠ 0) {weighted : Bool} {w1 w2 : WT 1} (hw1 : waveletAnalysis (sampled N x) .inf wt j1 j2 g nm weighted = .ok w1)
    (hw2 : waveletAnalysis (sampled N y) .inf wt j1 j2 g nm weighted = .ok w2)
    (h1 : 1 ≤ j1) (h12 : (j1 : ℤ) < w1.j2_eff) (n1 : NoZeros w1.wt_coefs) (n2 : NoZeros w2.wt_coefs) {q1 q2 : List ℝ} (hn1 : q1.Nodup) (hn2 : q2.Nodup)
    (hq1 : (0:ℝ) ∈ q1 ∧ (1:ℝ) ∈ q1 ∧ (2:ℝ) ∈ q1) (hq2 : (0:ℝ) ∈ q2 ∧ (1:ℝ) ∈ q2 ∧ (2:ℝ) ∈ q2) {n : ℕ} (hn : 2 ≤ n) {d l : MFBiVar 1}
    (h : bivariateAnalysisFull (sampled N x) (sampled N y) j1 j2 nm g weighted wt .inf (some (.ndarray q1)) (some (.ndarray q2)) n = .ok (d, l))
    {a b : ℝ} (ha : l.cumulants.log_cumulants 0 2 = Fl.fin a) (hb : l.cumulants.log_cumulants 2 0 = Fl.fin b) (hab : 0 < a * b) :
    ∃ ρ : ℝ, l.cumulants.rho_mf = some (Fl.fin ρ) ∧ ∀ ε : ℝ, 0 < ε → ∃ η : ℝ, 0 < η ∧ ∀ x' y' : Fin 1 → ℤ → ℝ,
      (∀ r (i : ℕ), i < N → |x r i - x' r i| ≤ η ∧ |y r i - y' r i| ≤ η) →
      ∃ d' l' ρ', bivariateAnalysisFull (sampled N x') (sampled N y') j1 j2 nm g weighted wt .inf (some (.ndarray q1)) (some (.ndarray q2)) n = .ok (d', l') ∧
        l'.cumulants.rho_mf = some (Fl.fin ρ') ∧ |ρ - ρ'| ≤ ε := by
  obtain ⟨d0, l0, h0, hc⟩ := C138_signal hwt hnm hw1 hw2 h1 h12 n1 n2 hn1 hn2 hq1 hq2 hn
  rw [h] at h0; cases h0
  obtain ⟨c, hcc⟩ : ∃ c, l.cumulants.log_cumulants 1 1 = Fl.fin c := by
    obtain ⟨η0, hη0, hc0⟩ := hc 1 one_pos
    obtain ⟨d', l', -, -, hl⟩ := hc0 x y fun r i _ => by simp [hη0.le]
    obtain ⟨s, t, e, -⟩ := hl.2.1 1 1 (by omega) (by omega)
    exact ⟨s, e⟩
  obtain ⟨ρ, hρ, hcl⟩ := rho_close (n1 := q1.length) (n2 := q2.length) hn hcc ha hb hab (rho_mf_full hwt h)
  refine ⟨ρ, hρ, fun ε hε => ?_⟩
  obtain ⟨δ, hδ, hcl⟩ := hcl ε hε
  obtain ⟨η, hη, hc⟩ := hc δ hδ
  refine ⟨η, hη, fun x' y' hxy => ?_⟩
  obtain ⟨d', l', hd', -, hl'⟩ := hc x' y' hxy
  obtain ⟨ρ', h1', h2'⟩ := hcl l' hl' (rho_mf_full hwt hd')
  exact ⟨d', l', ρ', hd', h1', h2'⟩

/-- The hypotheses of `C138_signal` are met, by 64 samples of `3 t + 1` and of `5 t - 2`, with the Haar filters padded with zeros to length 4 and moments
0, 1, 2 for both signals. -/
example : ∃ (wt : Wavelet) (w1 w2 : WT 1), wt.Valid ∧
    waveletAnalysis (sampled 64 fun (_ : Fin 1) t => (Polynomial.C 3 * Polynomial.X + Polynomial.C 1 : Polynomial ℝ).eval (t : ℝ)) .inf wt (1 : ℕ) none 0 1 true =
      .ok w1 ∧
    waveletAnalysis (sampled 64 fun (_ : Fin 1) t => (Polynomial.C 5 * Polynomial.X + Polynomial.C (-2) : Polynomial ℝ).eval (t : ℝ)) .inf wt (1 : ℕ) none 0 1 true =
      .ok w2 ∧ ((1 : ℕ) : ℤ) < w1.j2_eff ∧ NoZeros w1.wt_coefs ∧ NoZeros w2.wt_coefs ∧ ([0, 1, 2] : List ℝ).Nodup := by
  obtain ⟨wt, hwt⟩ : ∃ wt : Wavelet, wt = { dec_lo := [0, (Real.sqrt 2)⁻¹, (Real.sqrt 2)⁻¹, 0], dec_hi := [0, -(Real.sqrt 2)⁻¹, (Real.sqrt 2)⁻¹, 0] } :=
    ⟨_, rfl⟩
  have h : (Real.sqrt 2) ≠ 0 := (Real.sqrt_pos.mpr (by norm_num)).ne'
  have hv : wt.Valid := ⟨by rw [hwt]; rfl, by simp [hwt]⟩
  have hM : ExactMoments wt.dec_hi 1 := by
    constructor
    · intro i hi
      interval_cases i
      simp [hwt, Finset.sum_range_succ]
    · simp [hwt, Finset.sum_range_succ, List.getD]
      rw [show -(Real.sqrt 2)⁻¹ + (Real.sqrt 2)⁻¹ * 2 = (Real.sqrt 2)⁻¹ by ring]
      exact inv_ne_zero h
  have hlo : wt.dec_lo.sum = Real.sqrt 2 := by
    simp only [hwt, List.sum_cons, List.sum_nil, add_zero, zero_add]
    field_simp
    rw [Real.sq_sqrt (by norm_num)]; norm_num
  have hlev : decompositionLevel 64 wt = .ok ((3 : ℕ) : ℤ) :=
    (C01_integer 64 3 _ (by norm_num)).mpr (by simp [hwt])
  have key : ∀ a b : ℝ, a ≠ 0 → ∃ w : WT 1,
      waveletAnalysis (sampled 64 fun (_ : Fin 1) t => (Polynomial.C a * Polynomial.X + Polynomial.C b : Polynomial ℝ).eval (t : ℝ)) .inf wt (1 : ℕ) none 0 1 true =
        .ok w ∧ ((1 : ℕ) : ℤ) < w.j2_eff ∧ NoZeros w.wt_coefs := by
    intro a b ha
    have hdeg : ∀ r : Fin 1, (Polynomial.C a * Polynomial.X + Polynomial.C b : Polynomial ℝ).degree = (1 : ℕ) := fun _ => Polynomial.degree_linear ha
    obtain ⟨w, hw⟩ := C05_total (sampled 64 fun (_ : Fin 1) t => (Polynomial.C a * Polynomial.X + Polynomial.C b : Polynomial ℝ).eval (t : ℝ)) .inf (Or.inr rfl) wt
      (1 : ℕ) none 0 1 true (by norm_num) (by simp [sampled]) (by norm_num)
    have hj : 2 ≤ w.j2_eff := admissible_j2 (j1 := 2) (by norm_num) hv (Or.inr (by simp [hwt])) hlev (by norm_num)
        (by norm_num) (by simp) hw
    obtain ⟨J, Jc, -, -, hc, -⟩ := C03_regular hw
    obtain ⟨K, hK, hmono⟩ := poly_monofractal hv hM (Real.sqrt_pos.mpr (by norm_num)) hlo hdeg hw
    exact ⟨w, hw, by push_cast; omega, noZeros_of_mono hc hK hmono⟩
  obtain ⟨w1, e1, e2, e3⟩ := key 3 1 (by norm_num)
  obtain ⟨w2, f1, -, f3⟩ := key 5 (-2) (by norm_num)
  exact ⟨wt, w1, w2, hv, e1, f1, e2, e3, f3, by norm_num⟩

end

end MFA
