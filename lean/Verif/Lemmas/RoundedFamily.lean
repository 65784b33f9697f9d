import Verif.Lemmas.RoundedClosed
import Verif.Props.Stability

/-! The estimators on quantities computed with rounding. -/

namespace MFA

open Filter Topology Classical

noncomputable section

variable {ι : Type}

theorem Machine.dotB_map (M : Machine) (l : List ι) (f g : ι → Fl) :
    M.dotB (l.map f) (l.map g) = M.sum (l.map fun p => M.mul (f p) (g p)) := by
  rcases l with _ | ⟨a, _ | ⟨b, l⟩⟩
  · rfl
  · rfl
  · simp only [List.map_cons, Machine.dotB, List.zipWith_cons_cons, List.zipWith_map, List.zipWith_self]

theorem listSum_ofFn (l : List ι) (f : ι → ℝ) : (l.map f).sum = ∑ i : Fin l.length, f l[i] := by
  rw [map_eq_ofFn, List.sum_ofFn]

/-- The slope of a rounded regression converges. -/
theorem CvTo.slope {l : List ι} {x w : ι → ℝ} (hw : ∀ p ∈ l, 0 < w p) (hx : ∃ p ∈ l, ∃ p' ∈ l, x p ≠ x p')
    {y : ι → Machine → Fl} (hy : ∀ p ∈ l, ∃ b, CvTo (y p) b) :
    ∃ b, CvTo (fun M => M.slopeL l x w (fun p => y p M)) b := by
  have v0 : CvTo (fun M => M.lrV0 (l.map fun p => Fl.fin (w p))) (l.map w).sum :=
    CvTo.sum l (fun p _ => Fl.fin (w p)) w fun p _ => CvTo.const _
  have v1 : CvTo (fun M => M.lrV1 (l.map fun p => Fl.fin (x p)) (l.map fun p => Fl.fin (w p))) (l.map fun p => w p * x p).sum := by
    refine (CvTo.sum l (fun p M => M.mul (Fl.fin (w p)) (Fl.fin (x p))) _ fun p _ => (CvTo.const _).mul (CvTo.const _)).congr
      (Eventually.of_forall fun M => ?_)
    simp only [Machine.lrV1, List.zipWith_map, List.zipWith_self]
  have v2 : CvTo (fun M => M.lrV2 (l.map fun p => Fl.fin (x p)) (l.map fun p => Fl.fin (w p)))
      (l.map fun p => w p * (x p * x p)).sum := by
    refine (CvTo.sum l (fun p M => M.mul (Fl.fin (w p)) (M.mul (Fl.fin (x p)) (Fl.fin (x p)))) _
      fun p _ => (CvTo.const _).mul ((CvTo.const _).mul (CvTo.const _))).congr (Eventually.of_forall fun M => ?_)
    simp only [Machine.lrV2, List.zipWith_map, List.zipWith_self]
  have vd : CvTo (fun M => M.lrDet (l.map fun p => Fl.fin (x p)) (l.map fun p => Fl.fin (w p)))
      ((l.map w).sum * (l.map fun p => w p * (x p * x p)).sum - (l.map fun p => w p * x p).sum * (l.map fun p => w p * x p).sum) :=
    (v0.mul v2).sub (v1.mul v1)
  have hD : (l.map w).sum * (l.map fun p => w p * (x p * x p)).sum -
      (l.map fun p => w p * x p).sum * (l.map fun p => w p * x p).sum ≠ 0 := by
    rw [listSum_ofFn, listSum_ofFn, listSum_ofFn]
    refine (rD_pos (fun i : Fin l.length => x l[i]) (fun i => w l[i]) (fun i => hw _ (List.getElem_mem _)) ?_).ne'
    obtain ⟨p, hp, p', hp', hne⟩ := hx
    obtain ⟨i, hi, rfl⟩ := List.getElem_of_mem hp
    obtain ⟨i', hi', rfl⟩ := List.getElem_of_mem hp'
    exact ⟨⟨i, hi⟩, ⟨i', hi'⟩, hne⟩
  have hy' : ∀ p, ∃ b, p ∈ l → CvTo (y p) b := by
    intro p
    by_cases hp : p ∈ l
    · obtain ⟨b, hb⟩ := hy p hp
      exact ⟨b, fun _ => hb⟩
    · exact ⟨0, fun h => absurd h hp⟩
  choose B hB using hy'
  refine ⟨_, (CvTo.sum l (fun p M => M.mul (M.div (M.mul (Fl.fin (w p)) (M.sub (M.mul (M.lrV0 (l.map fun p => Fl.fin (w p)))
      (Fl.fin (x p))) (M.lrV1 (l.map fun p => Fl.fin (x p)) (l.map fun p => Fl.fin (w p)))))
      (M.lrDet (l.map fun p => Fl.fin (x p)) (l.map fun p => Fl.fin (w p)))) (y p M)) _ fun p hp =>
    (((CvTo.const (w p)).mul ((v0.mul (CvTo.const (x p))).sub v1)).div vd hD).mul (hB p hp)).congr (Eventually.of_forall fun M => ?_)⟩
  unfold Machine.slopeL Machine.lrWSlope
  rw [List.zipWith_map, List.zipWith_self, M.dotB_map]

/-! ### Families of arrays -/

variable {R : ℕ}

/-- An array of computed values: a fixed shape, and entries that depend on the machine. -/
abbrev FArr (R : ℕ) := List (Fin R → Machine → Fl)

/-- The array on a given machine. -/
def FArr.at (a : FArr R) (M : Machine) : Arr R := a.map fun row r => row r M

/-- NaN on every machine, or a number on every machine that converges. -/
def CvE (f : Machine → Fl) : Prop := (∀ M, f M = Fl.nan) ∨ ((∀ M, ∃ x, f M = Fl.fin x) ∧ ∃ a, CvTo f a)

def CvArr (a : FArr R) : Prop := ∀ row ∈ a, ∀ r, CvE (row r)

/-- A multiresolution quantity of computed values. -/
structure FMrq (R : ℕ) where
  formalism : Formalism
  gamint : ℝ
  base : List (ℤ × FArr R)

def FMrq.at (m : FMrq R) (M : Machine) : MRQ R where
  formalism := m.formalism
  gamint := m.gamint
  values := m.base.map fun p => (p.1, p.2.at M)
  nj := m.base.map fun p => (p.1, fun r => countNotNaN (col (p.2.at M) r))

theorem FMrq.regular (m : FMrq R) {J : ℕ} (h : m.base.map Prod.fst = (List.range J).map fun i : ℕ => (i : ℤ) + 1) (M : Machine) :
    Regular (m.at M) J := by
  refine ⟨?_, ?_⟩
  · rw [← h, FMrq.at, List.map_map]
    rfl
  · simp only [FMrq.at, List.map_map]
    rfl

theorem col_at (a : FArr R) (M : Machine) (r : Fin R) : col (a.at M) r = a.map fun row => row r M := by
  rw [FArr.at, col, List.map_map]
  rfl

theorem CvE.isNaN {f : Machine → Fl} (h : CvE f) (M M' : Machine) : (f M).isNaN = (f M').isNaN := by
  rcases h with h | ⟨h, -⟩
  · rw [h M, h M']
  · obtain ⟨x, hx⟩ := h M
    obtain ⟨y, hy⟩ := h M'
    rw [hx, hy]
    rfl

theorem CvArr.count {a : FArr R} (h : CvArr a) (M M' : Machine) (r : Fin R) :
    countNotNaN (col (a.at M) r) = countNotNaN (col (a.at M') r) := by
  rw [col_at, col_at]
  unfold countNotNaN dropNaN
  rw [List.filter_map, List.filter_map, List.length_map, List.length_map]
  congr 1
  refine List.filter_congr fun row hrow => ?_
  show (!(row r M).isNaN) = !(row r M').isNaN
  rw [(h row hrow r).isNaN M M']

/-- The limit of a convergent entry. -/
def limE (f : Machine → Fl) : ℝ := if h : ∃ a, CvTo f a then h.choose else 0

theorem limE_spec {f : Machine → Fl} (h : ∃ a, CvTo f a) : CvTo f (limE f) := by
  rw [limE, dif_pos h]
  exact h.choose_spec

theorem CvArr.cvCol {a : FArr R} (h : CvArr a) (r : Fin R) :
    CvCol a (fun row => row r) (fun row => ∀ M, row r M = Fl.nan) (fun row => limE (row r)) := by
  intro row hrow
  refine ⟨fun hN => hN, fun hN => ?_⟩
  rcases h row hrow r with h | ⟨-, h⟩
  · exact absurd h hN
  · exact limE_spec h

theorem CvTo.close {f : Machine → Fl} {a : ℝ} (h : CvTo f a) {ε : ℝ} (hε : 0 < ε) :
    ∀ᶠ M in Lmach, FlClose ε (f Machine.exact) (f M) := by
  obtain ⟨g, h1, h2⟩ := id h
  filter_upwards [h1, h2 (Metric.closedBall_mem_nhds a hε)] with M e1 e2
  refine ⟨a, g M, h.exact, e1, ?_⟩
  have : dist (g M) a ≤ ε := e2
  rwa [Real.dist_eq, abs_sub_comm] at this

/-- Conditions on a computed quantity: the scales are `1..J`, the entries converge, every scale has a row, and in exact
arithmetic no value vanishes. -/
structure FMrq.Good (m : FMrq R) (J : ℕ) : Prop where
  keys : m.base.map Prod.fst = (List.range J).map fun i : ℕ => (i : ℤ) + 1
  cv : ∀ p ∈ m.base, CvArr p.2
  rows : ∀ p ∈ m.base, p.2 ≠ []
  nonzero : NonzeroData (m.at Machine.exact)

section
variable {m : FMrq R} {J : ℕ} (hm : m.Good J) {j1 j2 : ℕ} (h1 : 1 ≤ j1) (h12 : j1 < j2) (h2 : j2 ≤ J)
include hm

theorem FMrq.Good.some {p : ℤ × FArr R} (hp : p ∈ m.base) (r : Fin R) :
    (∃ row ∈ p.2, ¬ ∀ M, row r M = Fl.nan) ∧ ∀ row ∈ p.2, (¬ ∀ M, row r M = Fl.nan) → limE (row r) ≠ 0 := by
  have hp' : (p.1, p.2.at Machine.exact) ∈ (m.at Machine.exact).values := List.mem_map.2 ⟨p, hp, rfl⟩
  obtain ⟨⟨x, hx, hne⟩, hall⟩ := hm.nonzero _ hp' r
  dsimp only at hx hall
  rw [col_at] at hx hall
  refine ⟨?_, fun row hrow hN => ?_⟩
  · obtain ⟨row, hrow, rfl⟩ := List.mem_map.1 hx
    exact ⟨row, hrow, fun h => hne (h _)⟩
  · have hc := (hm.cv p hp).cvCol r row hrow
    have e := (hc.2 hN).exact
    dsimp only at e
    rcases hall _ (List.mem_map.2 ⟨row, hrow, rfl⟩) with h | ⟨t, ht, h⟩
    · rw [e] at h; exact absurd h (by simp)
    · rw [e] at h
      rw [(Fl.fin_inj _ _).1 h]
      exact ht

/-- All the statistics, on a machine. -/
def mStats (q : List ℝ) (n : ℕ) : List (Machine → List Fl → Fl) :=
  (fun M c => M.log2 (nanmax (c.map Fl.abs))) ::
  ((q.map fun e M c => M.log2 (M.nanmean ((c.map Fl.abs).map (M.fastPower (.real e))))) ++
  (q.map fun e (M : Machine) c => M.msV c (.real e)) ++
  (q.map fun e (M : Machine) c => M.msU (countNotNaN c) c (.real e)) ++
  (List.range n).map fun i (M : Machine) c => (M.cmColumn (c.map fun x => M.ln x.abs) n).getD i Fl.nan)

theorem FMrq.Good.stat {q : List ℝ} {n : ℕ} {Y : Machine → List Fl → Fl} (hY : Y ∈ mStats q n) {p : ℤ × FArr R} (hp : p ∈ m.base)
    (r : Fin R) : ∃ b, CvTo (fun M => Y M (col (p.2.at M) r)) b := by
  obtain ⟨hne, hA⟩ := hm.some hp r
  have hc := (hm.cv p hp).cvCol r
  simp only [mStats, List.mem_cons, List.mem_append, List.mem_map, List.mem_range] at hY
  simp only [col_at]
  rcases hY with rfl | ((⟨e, -, rfl⟩ | ⟨e, -, rfl⟩) | ⟨e, -, rfl⟩) | ⟨i, hi, rfl⟩
  · exact hc.hmin hA hne
  · exact hc.structure hA hne _
  · exact hc.msV hA hne _
  · exact hc.msU hA hne _
  · exact hc.cumulant hA hne hi

include h1 h12 h2

theorem FMrq.Good.slope (weighted : Bool) {q : List ℝ} {n : ℕ} {Y : Machine → List Fl → Fl} (hY : Y ∈ mStats q n) (r : Fin R) :
    ∃ b, CvTo (fun M => M.slopeL (subR (m.at M) j1 j2) (fun p => (p.1 : ℝ)) (fun p => wtOf weighted p r)
      (fun p => Y M (col p.2 r))) b := by
  have a1 : (1:ℤ) ≤ (j1 : ℤ) := by exact_mod_cast h1
  have a2 : (j1 : ℤ) < (j2 : ℤ) := by exact_mod_cast h12
  have a3 : (j2 : ℤ) ≤ (J : ℤ) := by exact_mod_cast h2
  have hsub : ∀ M, subR (m.at M) j1 j2 = (pySlice m.base ((j1 : ℤ) - 1) j2).map fun p => (p.1, p.2.at M) := by
    intro M
    rw [subR, FMrq.at, pySlice_map]
  have hmem : ∀ p ∈ pySlice m.base ((j1 : ℤ) - 1) j2, p ∈ m.base := by
    intro p hp
    exact List.mem_of_mem_take (List.mem_of_mem_drop hp)
  have := CvTo.slope (l := pySlice m.base ((j1 : ℤ) - 1) j2) (x := fun p => (p.1 : ℝ))
    (w := fun p => wtOf weighted (p.1, p.2.at Machine.exact) r) (y := fun p M => Y M (col (p.2.at M) r)) ?_ ?_ ?_
  · obtain ⟨b, hb⟩ := this
    refine ⟨b, hb.congr (Eventually.of_forall fun M => ?_)⟩
    rw [hsub M]
    unfold Machine.slopeL
    simp only [List.map_map]
    congr 2
    refine List.map_congr_left fun p hp => ?_
    show Fl.fin (wtOf weighted (p.1, p.2.at M) r) = _
    unfold wtOf
    dsimp only
    rw [(hm.cv p (hmem p hp)).count M Machine.exact r]
  · intro p hp
    unfold wtOf
    split_ifs
    · obtain ⟨⟨x, hx, hne⟩, -⟩ := hm.nonzero (p.1, p.2.at Machine.exact) (List.mem_map.2 ⟨p, hmem p hp, rfl⟩) r
      have : 0 < countNotNaN (col (p.2.at Machine.exact) r) := by
        refine List.length_pos_of_mem (a := x) ?_
        rw [dropNaN, List.mem_filter]
        exact ⟨hx, by rw [(Fl.not_isNaN_iff x).2 hne]; rfl⟩
      exact_mod_cast this
    · exact one_pos
  · obtain ⟨p, hp, p', hp', hne⟩ := (m.regular hm.keys Machine.exact).sub_two a1 a2.le a3 a2
    rw [hsub] at hp hp'
    obtain ⟨p0, hp0, rfl⟩ := List.mem_map.1 hp
    obtain ⟨p1, hp1, rfl⟩ := List.mem_map.1 hp'
    exact ⟨p0, hp0, p1, hp1, hne⟩
  · intro p hp
    exact hm.stat hY (hmem p hp) r

theorem FMrq.Good.cumulant (weighted : Bool) {q : List ℝ} {n i : ℕ} (hi : i < n) (r : Fin R) :
    ∃ b, CvTo (fun M => M.cumF (m.at M) j1 j2 weighted n i r) b := by
  obtain ⟨b, hb⟩ := hm.slope h1 h12 h2 weighted (q := q) (n := n)
    (Y := fun M c => (M.cmColumn (c.map fun x => M.ln x.abs) n).getD i Fl.nan) (by
      simp only [mStats, List.mem_cons, List.mem_append, List.mem_map]
      exact Or.inr (Or.inr ⟨i, List.mem_range.2 hi, rfl⟩)) r
  refine ⟨b, hb.congr (Eventually.of_forall fun M => ?_)⟩
  unfold Machine.cumF Machine.logAbsCol
  rfl

/-- The rounded estimates converge to the exact ones. -/
theorem FMrq.Good.estimates (weighted : Bool) {q : List ℝ} (hq : (2:ℝ) ∈ q) (n : ℕ) :
    ∃ v, IsBundle (m.at Machine.exact) j1 j2 weighted n q v ∧ ∀ ε : ℝ, 0 < ε → ∀ᶠ M in Lmach,
      ∃ v', M.mfVar (m.at M) j1 j2 weighted n q = .ok v' ∧ ∀ r, EstimatesClose ε q.length n r v v' := by
  have a1 : (1:ℤ) ≤ (j1 : ℤ) := by exact_mod_cast h1
  have a2 : (j1 : ℤ) ≤ (j2 : ℤ) := by exact_mod_cast h12.le
  have a3 : (j2 : ℤ) ≤ (J : ℤ) := by exact_mod_cast h2
  have hqe : (QArg.ndarray q).expos ≠ [] := by rw [expos_ndarray]; simp; rintro rfl; cases hq
  have hrow : ∀ M, ∀ p ∈ (m.at M).values, p.2 ≠ [] := by
    intro M p hp
    obtain ⟨p0, hp0, rfl⟩ := List.mem_map.1 hp
    have := hm.rows p0 hp0
    simpa [FArr.at] using this
  have hok : ∀ M : Machine, ∃ v : MFVar R, M.mfVar (m.at M) j1 j2 weighted n q = .ok v ∧
      (v.structure_.H = fun r => M.sub (M.div (M.zetaF (m.at M) j1 j2 weighted (.real 2) r) (Fl.fin 2)) (Fl.fin m.gamint)) ∧
      v.hmin = M.hminF (m.at M) j1 j2 weighted ∧
      (v.structure_.zeta = q.map fun e => M.zetaF (m.at M) j1 j2 weighted (.real e)) ∧
      (v.cumulants.log_cumulants = (List.range n).map fun i r => M.mul (M.cumF (m.at M) j1 j2 weighted n i r) M.log2e) ∧
      (v.spectrum.hq = q.map fun e => M.vF (m.at M) j1 j2 weighted (.real e)) ∧
      (v.spectrum.Dq = q.map fun e r => M.add (Fl.fin 1) (M.uF (m.at M) j1 j2 weighted (.real e) r)) := by
    intro M
    have hreg := m.regular hm.keys M
    unfold Machine.mfVar
    rw [hreg.structFnM M a1 a2 a3 weighted q hq]
    simp only
    rw [hreg.cumulantsM M a1 a2 a3 weighted n]
    simp only
    rw [hreg.spectrumM M a1 a2 a3 weighted (.ndarray q) hqe]
    simp only
    rw [hreg.hminM M a1 a2 a3 weighted true (hrow M)]
    refine ⟨_, rfl, rfl, rfl, rfl, rfl, ?_, ?_⟩
    · simp only [expos_ndarray, List.map_map]; rfl
    · simp only [expos_ndarray, List.map_map]; rfl
  choose V hV eH eh ez ec ehq eD using hok
  refine ⟨V Machine.exact, ?_, fun ε hε => ?_⟩
  · have := hV Machine.exact
    rw [Machine.exact_mfVar, mfVar_ok_iff] at this
    exact this
  have key : ∀ Y ∈ mStats q n, ∀ r : Fin R, ∃ b, CvTo (fun M => M.slopeL (subR (m.at M) j1 j2) (fun p => (p.1 : ℝ)) (fun p => wtOf weighted p r)
      (fun p => Y M (col p.2 r))) b := fun Y hY r => hm.slope h1 h12 h2 weighted hY r
  have kz : ∀ e ∈ q, ∀ r : Fin R, ∃ b, CvTo (fun M => M.zetaF (m.at M) j1 j2 weighted (.real e) r) b := by
    intro e he r
    obtain ⟨b, hb⟩ := key (fun M c => M.log2 (M.nanmean ((c.map Fl.abs).map (M.fastPower (.real e))))) (by
      simp only [mStats, List.mem_cons, List.mem_append, List.mem_map]
      exact Or.inr (Or.inl (Or.inl (Or.inl ⟨e, he, rfl⟩)))) r
    refine ⟨b, hb.congr (Eventually.of_forall fun M => ?_)⟩
    unfold Machine.zetaF Machine.sfMean red mapArr col
    simp only [List.map_map]
    rfl
  have kh : ∀ r : Fin R, ∃ b, CvTo (fun M => M.hminF (m.at M) j1 j2 weighted r) b := fun r =>
    key (fun M c => M.log2 (nanmax (c.map Fl.abs))) (by simp [mStats]) r
  have kv : ∀ e ∈ q, ∀ r : Fin R, ∃ b, CvTo (fun M => M.vF (m.at M) j1 j2 weighted (.real e) r) b := by
    intro e he r
    exact key (fun M c => M.msV c (.real e)) (by
      simp only [mStats, List.mem_cons, List.mem_append, List.mem_map]
      exact Or.inr (Or.inl (Or.inl (Or.inr ⟨e, he, rfl⟩)))) r
  have ku : ∀ e ∈ q, ∀ r : Fin R, ∃ b, CvTo (fun M => M.uF (m.at M) j1 j2 weighted (.real e) r) b := by
    intro e he r
    exact key (fun M c => M.msU (countNotNaN c) c (.real e)) (by
      simp only [mStats, List.mem_cons, List.mem_append, List.mem_map]
      exact Or.inr (Or.inl (Or.inr ⟨e, he, rfl⟩))) r
  have kc := fun (i : ℕ) (hi : i < n) (r : Fin R) => hm.cumulant h1 h12 h2 weighted (q := q) hi r
  have hl2 : CvTo (fun M => M.log2e) (Real.logb 2 (Real.exp 1)) := (CvTo.const 1).exp.log2 (Real.exp_pos 1)
  have B1 : ∀ᶠ M in Lmach, ∀ r : Fin R, FlClose ε ((V Machine.exact).structure_.H r) ((V M).structure_.H r) := by
    rw [eventually_all]
    intro r
    obtain ⟨b, hb⟩ := kz 2 hq r
    have := ((hb.div (CvTo.const 2) two_ne_zero).sub (CvTo.const m.gamint)).close hε
    filter_upwards [this] with M hM
    rw [eH, eH]
    exact hM
  have B2 : ∀ᶠ M in Lmach, ∀ r : Fin R, FlClose ε ((V Machine.exact).hmin r) ((V M).hmin r) := by
    rw [eventually_all]
    intro r
    obtain ⟨b, hb⟩ := kh r
    filter_upwards [hb.close hε] with M hM
    rw [eh, eh]
    exact hM
  have B3 : ∀ᶠ M in Lmach, ∀ r : Fin R, ∀ e ∈ {e | e ∈ q}, FlClose ε
      (Machine.exact.zetaF (m.at Machine.exact) j1 j2 weighted (.real e) r) (M.zetaF (m.at M) j1 j2 weighted (.real e) r) := by
    rw [eventually_all]
    intro r
    rw [eventually_all_finite (List.finite_toSet _)]
    intro e he
    obtain ⟨b, hb⟩ := kz e he r
    exact hb.close hε
  have B4 : ∀ᶠ M in Lmach, ∀ r : Fin R, ∀ e ∈ {e | e ∈ q}, FlClose ε
      (Machine.exact.vF (m.at Machine.exact) j1 j2 weighted (.real e) r) (M.vF (m.at M) j1 j2 weighted (.real e) r) := by
    rw [eventually_all]
    intro r
    rw [eventually_all_finite (List.finite_toSet _)]
    intro e he
    obtain ⟨b, hb⟩ := kv e he r
    exact hb.close hε
  have B5 : ∀ᶠ M in Lmach, ∀ r : Fin R, ∀ e ∈ {e | e ∈ q}, FlClose ε
      (Machine.exact.add (Fl.fin 1) (Machine.exact.uF (m.at Machine.exact) j1 j2 weighted (.real e) r))
      (M.add (Fl.fin 1) (M.uF (m.at M) j1 j2 weighted (.real e) r)) := by
    rw [eventually_all]
    intro r
    rw [eventually_all_finite (List.finite_toSet _)]
    intro e he
    obtain ⟨b, hb⟩ := ku e he r
    exact ((CvTo.const 1).add hb).close hε
  have B6 : ∀ᶠ M in Lmach, ∀ r : Fin R, ∀ i ∈ {i | i ∈ List.range n}, FlClose ε
      (Machine.exact.mul (Machine.exact.cumF (m.at Machine.exact) j1 j2 weighted n i r) Machine.exact.log2e)
      (M.mul (M.cumF (m.at M) j1 j2 weighted n i r) M.log2e) := by
    rw [eventually_all]
    intro r
    rw [eventually_all_finite (List.finite_toSet _)]
    intro i hi
    obtain ⟨b, hb⟩ := kc i (List.mem_range.1 hi) r
    exact (hb.mul hl2).close hε
  filter_upwards [B1, B2, B3, B4, B5, B6] with M b1 b2 b3 b4 b5 b6
  refine ⟨V M, hV M, fun r => ?_⟩
  refine ⟨b1 r, b2 r, ?_, ?_, ?_, ?_⟩
  · intro i hi
    have hqi : q[i]? = Option.some q[i] := List.getElem?_eq_getElem hi
    rw [ez, ez]
    exact ⟨_, _, by simp only [List.getElem?_map, hqi, Option.map_some], by simp only [List.getElem?_map, hqi, Option.map_some],
      b3 r _ (List.getElem_mem hi)⟩
  · intro i hi
    rw [ec, ec]
    have hqi : (List.range n)[i]? = Option.some i := by rw [List.getElem?_range]; exact hi
    exact ⟨_, _, by rw [List.getElem?_map, hqi]; rfl, by rw [List.getElem?_map, hqi]; rfl, b6 r i (List.mem_range.2 hi)⟩
  · intro i hi
    have hqi : q[i]? = Option.some q[i] := List.getElem?_eq_getElem hi
    rw [ehq, ehq]
    exact ⟨_, _, by simp only [List.getElem?_map, hqi, Option.map_some], by simp only [List.getElem?_map, hqi, Option.map_some],
      b4 r _ (List.getElem_mem hi)⟩
  · intro i hi
    have hqi : q[i]? = Option.some q[i] := List.getElem?_eq_getElem hi
    rw [eD, eD]
    exact ⟨_, _, by rw [List.getElem?_map, hqi]; rfl, by rw [List.getElem?_map, hqi]; rfl,
      b5 r _ (List.getElem_mem hi)⟩

end

end

end MFA
