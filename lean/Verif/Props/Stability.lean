import Verif.Lemmas.SlopeDiff
import Verif.Props.Estimators
import Verif.Props.LeaderScaling

/-! C121: the analysis is continuous in the data.  C122: relative errors of the data. -/

namespace MFA

open Filter Topology

noncomputable section

variable {R : ℕ} {m : MRQ R} {J : ℕ}

/-- All the statistics that are regressed. -/
def allStats (q : List ℝ) (n : ℕ) : List (List Fl → Fl) :=
  (fun c => (nanmax (c.map Fl.abs)).log2) :: (wideStats q n).map Prod.fst

theorem allStats_cont (q : List ℝ) (n : ℕ) : ∀ Y ∈ allStats q n, ContStat Y := by
  intro Y hY
  simp only [allStats, wideStats, List.mem_cons, List.mem_map, List.mem_append] at hY
  rcases hY with rfl | ⟨Y', hY', rfl⟩
  · exact cont_hmin
  · rcases hY' with ((⟨e, he, rfl⟩ | ⟨e, he, rfl⟩) | ⟨e, he, rfl⟩) | ⟨i, hi, rfl⟩
    · exact cont_structure _
    · exact cont_V _
    · exact cont_U _
    · exact cont_cumulant (List.mem_range.1 hi)

theorem EntryClose.mono {η η' : ℝ} (h : η ≤ η') {a b : Fl} (hab : EntryClose η a b) : EntryClose η' a b := by
  rcases hab with hab | ⟨s, t, h1, h2, h3⟩
  · exact Or.inl hab
  · exact Or.inr ⟨s, t, h1, h2, h3.trans h⟩

theorem EntryClose.nan {η : ℝ} (a b : Fl) (hab : EntryClose η a b) : a = Fl.nan ↔ b = Fl.nan := by
  rcases hab with ⟨rfl, rfl⟩ | ⟨s, t, rfl, rfl, -⟩ <;> simp

theorem EntryRelClose.nan {η : ℝ} (a b : Fl) (hab : EntryRelClose η a b) : a = Fl.nan ↔ b = Fl.nan := by
  rcases hab with ⟨rfl, rfl⟩ | ⟨s, t, rfl, rfl, -⟩ <;> simp

theorem contStat_eventually {Y : List Fl → Fl} (hY : ContStat Y) {c : List Fl} {xs : List ℝ} (hc : Entries c xs) (hne : xs ≠ [])
    (h0 : ∀ x ∈ xs, x ≠ 0) {ε : ℝ} (hε : 0 < ε) :
    ∀ᶠ η in 𝓝[>] (0:ℝ), ∀ c', List.Forall₂ (EntryClose η) c c' → FlClose ε (Y c) (Y c') := by
  obtain ⟨η, hη, h⟩ := hY c xs hc hne h0 ε hε
  filter_upwards [Ioo_mem_nhdsGT hη] with η' hη' c' hcc
  exact h c' (hcc.imp fun _ _ hab => hab.mono hη'.2.le)

/-- The estimates of two related quantities, from the differences of the slopes. -/
theorem bundles_close {m' : MRQ R} (hm : Regular m J) (hm' : Regular m' J) (hg : m'.gamint = m.gamint) {j1 j2 : ℕ}
    (h1 : 1 ≤ j1) (h12 : j1 < j2) (h2 : j2 ≤ J) (weighted : Bool) {q : List ℝ} (hq : (2:ℝ) ∈ q) {n : ℕ} {v v' : MFVar R}
    (hv : IsBundle m j1 j2 weighted n q v) (hv' : IsBundle m' j1 j2 weighted n q v') (hrow : ∀ p ∈ m.values, p.2 ≠ [])
    (hrow' : ∀ p ∈ m'.values, p.2 ≠ []) (r : Fin R) {ε : ℝ} (hε : 0 ≤ ε)
    (key : ∀ Y ∈ allStats q n, FlClose ε
      (slopeL (subR m j1 j2) (fun p => (p.1 : ℝ)) (fun p => wtOf weighted p r) (fun p => Y (col p.2 r)))
      (slopeL (subR m' j1 j2) (fun p => (p.1 : ℝ)) (fun p => wtOf weighted p r) (fun p => Y (col p.2 r)))) :
    EstimatesClose (ε / Real.log 2) q.length n r v v' := by
  have hlog : 0 < Real.log 2 := Real.log_pos (by norm_num)
  have hlog1 : Real.log 2 ≤ 1 := by have := Real.log_le_sub_one_of_pos (show (0:ℝ) < 2 by norm_num); linarith
  have hεs : ε ≤ ε / Real.log 2 := by rw [le_div_iff₀ hlog]; nlinarith
  obtain ⟨b1, b2, b3, h, b4, b5⟩ := hv
  obtain ⟨c1, c2, c3, h', c4, c5⟩ := hv'
  have a1 : (1:ℤ) ≤ (j1 : ℤ) := by exact_mod_cast h1
  have a2 : (j1 : ℤ) ≤ (j2 : ℤ) := by exact_mod_cast h12.le
  have a3 : (j2 : ℤ) ≤ (J : ℤ) := by exact_mod_cast h2
  have hqe : (QArg.ndarray q).expos ≠ [] := by rw [expos_ndarray]; simp; rintro rfl; cases hq
  rw [hm.structFn a1 a2 a3 weighted q hq] at b1
  rw [hm.cumulants a1 a2 a3 weighted n] at b2
  rw [hm.spectrum a1 a2 a3 weighted (.ndarray q) hqe] at b3
  rw [hm.hmin a1 a2 a3 weighted true hrow] at b4
  rw [hm'.structFn a1 a2 a3 weighted q hq] at c1
  rw [hm'.cumulants a1 a2 a3 weighted n] at c2
  rw [hm'.spectrum a1 a2 a3 weighted (.ndarray q) hqe] at c3
  rw [hm'.hmin a1 a2 a3 weighted true hrow'] at c4
  have kz : ∀ e ∈ q, FlClose ε (zetaF m j1 j2 weighted (.real e) r) (zetaF m' j1 j2 weighted (.real e) r) := by
    intro e he
    rw [zetaF_cols, zetaF_cols]
    exact key (fun c => (nanmean ((c.map Fl.abs).map (fastPower (.real e)))).log2) (by
      simp only [allStats, wideStats, List.mem_cons, List.map_append, List.map_map, List.mem_append, List.mem_map]
      exact Or.inr (Or.inl (Or.inl (Or.inl ⟨e, he, rfl⟩))))
  have mono : ∀ {a b : Fl}, FlClose ε a b → FlClose (ε / Real.log 2) a b := by
    rintro a b ⟨s, t, e1, e2, e3⟩
    exact ⟨s, t, e1, e2, e3.trans hεs⟩
  unfold EstimatesClose
  rw [← b5, ← c5, ← Except.ok.inj b1, ← Except.ok.inj b2, ← Except.ok.inj b3, ← Except.ok.inj b4, ← Except.ok.inj c1,
    ← Except.ok.inj c2, ← Except.ok.inj c3, ← Except.ok.inj c4]
  refine ⟨?_, ?_, ?_, ?_, ?_, ?_⟩
  · obtain ⟨s, t, e1, e2, e3⟩ := kz 2 hq
    refine ⟨s / 2 - m.gamint, t / 2 - m.gamint, ?_, ?_, ?_⟩
    · show zetaF _ _ _ _ _ _ / Fl.fin 2 - Fl.fin m.gamint = _
      rw [e1, Fl.fin_div two_ne_zero, Fl.fin_sub]
    · show zetaF _ _ _ _ _ _ / Fl.fin 2 - Fl.fin m'.gamint = _
      rw [e2, Fl.fin_div two_ne_zero, Fl.fin_sub, hg]
    · rw [show s / 2 - m.gamint - (t / 2 - m.gamint) = (s - t) / 2 by ring, abs_div, abs_two, div_le_iff₀ (by norm_num)]
      have := abs_nonneg (s - t)
      linarith
  · exact mono (key (fun c => (nanmax (c.map Fl.abs)).log2) List.mem_cons_self)
  · intro i hi
    have hqi : q[i]? = some q[i] := List.getElem?_eq_getElem hi
    exact ⟨_, _, by simp only [List.getElem?_map, hqi, Option.map_some], by simp only [List.getElem?_map, hqi, Option.map_some],
      mono (kz _ (List.getElem_mem hi))⟩
  · intro i hi
    refine ⟨fun r => cumF m j1 j2 weighted n i r * Fl.fin log2e, fun r => cumF m' j1 j2 weighted n i r * Fl.fin log2e,
      by simp only [List.getElem?_map, List.getElem?_range hi, Option.map_some],
      by simp only [List.getElem?_map, List.getElem?_range hi, Option.map_some], ?_⟩
    obtain ⟨s, t, e1, e2, e3⟩ := key (cumStat n i).1 (List.mem_cons_of_mem _ (List.mem_map_of_mem
      (List.mem_append_right _ (List.mem_map.2 ⟨i, List.mem_range.2 hi, rfl⟩))))
    have e1' : cumF m j1 j2 weighted n i r = Fl.fin s := e1
    have e2' : cumF m' j1 j2 weighted n i r = Fl.fin t := e2
    refine ⟨s * log2e, t * log2e, by show cumF m j1 j2 weighted n i r * Fl.fin log2e = _; rw [e1', Fl.fin_mul],
      by show cumF m' j1 j2 weighted n i r * Fl.fin log2e = _; rw [e2', Fl.fin_mul], ?_⟩
    rw [log2e_eq, ← sub_mul, abs_mul, abs_of_pos (inv_pos.2 hlog), ← div_eq_mul_inv]
    exact div_le_div_of_nonneg_right e3 hlog.le
  · intro i hi
    have hqi : q[i]? = some q[i] := List.getElem?_eq_getElem hi
    refine ⟨vF m j1 j2 weighted (.real q[i]), vF m' j1 j2 weighted (.real q[i]),
      by simp only [expos_ndarray, List.getElem?_map, hqi, Option.map_some],
      by simp only [expos_ndarray, List.getElem?_map, hqi, Option.map_some], ?_⟩
    exact mono (key (fun c => msV c (.real q[i])) (by
      simp only [allStats, wideStats, List.mem_cons, List.map_append, List.map_map, List.mem_append, List.mem_map]
      exact Or.inr (Or.inl (Or.inl (Or.inr ⟨q[i], List.getElem_mem hi, rfl⟩)))))
  · intro i hi
    have hqi : q[i]? = some q[i] := List.getElem?_eq_getElem hi
    refine ⟨fun r => Fl.fin 1 + uF m j1 j2 weighted (.real q[i]) r, fun r => Fl.fin 1 + uF m' j1 j2 weighted (.real q[i]) r,
      by simp only [expos_ndarray, List.getElem?_map, hqi, Option.map_some],
      by simp only [expos_ndarray, List.getElem?_map, hqi, Option.map_some], ?_⟩
    obtain ⟨s, t, e1, e2, e3⟩ := key (fun c => msU (countNotNaN c) c (.real q[i])) (by
      simp only [allStats, wideStats, List.mem_cons, List.map_append, List.map_map, List.mem_append, List.mem_map]
      exact Or.inr (Or.inl (Or.inr ⟨q[i], List.getElem_mem hi, rfl⟩)))
    have e1' : uF m j1 j2 weighted (.real q[i]) r = Fl.fin s := e1
    have e2' : uF m' j1 j2 weighted (.real q[i]) r = Fl.fin t := e2
    refine ⟨1 + s, 1 + t, by show Fl.fin 1 + uF m j1 j2 weighted (.real q[i]) r = _; rw [e1', Fl.fin_add],
      by show Fl.fin 1 + uF m' j1 j2 weighted (.real q[i]) r = _; rw [e2', Fl.fin_add], ?_⟩
    rw [show 1 + s - (1 + t) = s - t by ring]
    exact e3.trans hεs

theorem related_rows {P : Fl → Fl → Prop} {m' : MRQ R} (h : MRQRelated P m m') (hrow : ∀ p ∈ m.values, p.2 ≠ []) : ∀ p ∈ m'.values, p.2 ≠ [] := by
  intro p hp
  obtain ⟨p0, hp0, -, hl⟩ := forall₂_mem' h.2 hp
  intro e
  have := hl.length_eq
  rw [e] at this
  exact hrow p0 hp0 (List.length_eq_zero_iff.1 this)

/-- **C121, the estimators are continuous.**  If no value of the multiresolution quantity `m` vanishes, every quantity whose
values are close enough to those of `m` has all its estimates within `ε` of those of `m`. -/
theorem C121_estimators (hm : Regular m J) (hrow : ∀ p ∈ m.values, p.2 ≠ []) (hd : NonzeroData m) {j1 j2 : ℕ} (h1 : 1 ≤ j1)
    (h12 : j1 < j2) (h2 : j2 ≤ J) (weighted : Bool) (q : List ℝ) (hq : (2:ℝ) ∈ q) (n : ℕ) :
    ∃ v, IsBundle m j1 j2 weighted n q v ∧ ∀ ε : ℝ, 0 < ε → ∃ η : ℝ, 0 < η ∧ ∀ m' : MRQ R, Regular m' J →
      MRQRelated (EntryClose η) m m' → ∃ v', IsBundle m' j1 j2 weighted n q v' ∧ ∀ r, EstimatesClose ε q.length n r v v' := by
  have a1 : (1:ℤ) ≤ (j1 : ℤ) := by exact_mod_cast h1
  have a2 : (j1 : ℤ) ≤ (j2 : ℤ) := by exact_mod_cast h12.le
  have a3 : (j2 : ℤ) ≤ (J : ℤ) := by exact_mod_cast h2
  obtain ⟨v, hv, -⟩ := bundle_total hm a1 a2 a3 hrow weighted n q hq
  refine ⟨v, hv, fun ε hε => ?_⟩
  have hlog : 0 < Real.log 2 := Real.log_pos (by norm_num)
  have hK := slopeFactor_pos h12 weighted
  obtain ⟨ε', hε'⟩ : ∃ ε', ε' = ε * Real.log 2 / slopeFactor weighted j1 j2 := ⟨_, rfl⟩
  have hε'0 : 0 < ε' := by rw [hε']; positivity
  have hev : ∀ᶠ η in 𝓝[>] (0:ℝ), ∀ Y ∈ {Y | Y ∈ allStats q n}, ∀ p ∈ {p | p ∈ m.values}, ∀ r : Fin R, ∀ c',
      List.Forall₂ (EntryClose η) (col p.2 r) c' → FlClose ε' (Y (col p.2 r)) (Y c') := by
    rw [eventually_all_finite (List.finite_toSet _)]
    intro Y hY
    rw [eventually_all_finite (List.finite_toSet _)]
    intro p hp
    rw [eventually_all]
    intro r
    obtain ⟨xs, hne, h0, hE⟩ := hd.entries hp r
    exact contStat_eventually (allStats_cont q n Y hY) hE hne h0 hε'0
  obtain ⟨η, hη, hη0⟩ := (hev.and self_mem_nhdsWithin).exists
  refine ⟨η, hη0, fun m' hm' hrel => ?_⟩
  have hrow' := related_rows hrel hrow
  obtain ⟨v', hv', -⟩ := bundle_total hm' a1 a2 a3 hrow' weighted n q hq
  refine ⟨v', hv', fun r => ?_⟩
  have := bundles_close hm hm' hrel.1 h1 h12 h2 weighted hq hv hv' hrow hrow' r (ε := slopeFactor weighted j1 j2 * ε') (by positivity)
    (fun Y hY => slope_related EntryClose.nan hm hrel h1 h12 h2 weighted r (fun p hp => (hd p hp r).1) Y ε'
      (fun p hp c' hc' => hη Y hY p hp r c' hc'))
  have e : slopeFactor weighted j1 j2 * ε' / Real.log 2 = ε := by rw [hε']; field_simp
  rwa [e] at this

/-! ### C122 -/

theorem Entries.relClose {δ : ℝ} {c c' : List Fl} (h : List.Forall₂ (EntryRelClose δ) c c') : ∀ {xs : List ℝ}, Entries c xs →
    ∃ xs', Entries c' xs' ∧ List.Forall₂ (fun s t : ℝ => ∃ θ, t = s * Real.exp θ ∧ |θ| ≤ δ) xs xs' := by
  induction h with
  | nil => intro xs hx; exact ⟨[], rfl, by have : xs = [] := by simpa [Entries, dropNaN] using hx.symm
                                           rw [this]; exact .nil⟩
  | @cons a b c c' hab hcc ih =>
    intro xs hx
    rcases hab with ⟨rfl, rfl⟩ | ⟨s, θ, rfl, rfl, hst⟩
    · obtain ⟨xs', h1, h2⟩ := ih (xs := xs) (by simpa [Entries, dropNaN] using hx)
      exact ⟨xs', by simpa [Entries, dropNaN] using h1, h2⟩
    · cases xs with
      | nil => simp [Entries, dropNaN] at hx
      | cons x xs =>
        have hx' : Fl.fin s = Fl.fin x ∧ dropNaN c = xs.map Fl.fin := by simpa [Entries, dropNaN] using hx
        obtain ⟨xs', h1, h2⟩ := ih (xs := xs) hx'.2
        have hs : s = x := (Fl.fin_inj _ _).1 hx'.1
        subst hs
        refine ⟨s * Real.exp θ :: xs', ?_, .cons ⟨θ, rfl, hst⟩ h2⟩
        have h1' : dropNaN c' = xs'.map Fl.fin := h1
        simp [Entries, dropNaN] at h1' ⊢
        exact h1'

theorem relClose_nonzero {δ : ℝ} {xs xs' : List ℝ} (h : List.Forall₂ (fun s t : ℝ => ∃ θ, t = s * Real.exp θ ∧ |θ| ≤ δ) xs xs')
    (h0 : ∀ x ∈ xs, x ≠ 0) : ∀ x ∈ xs', x ≠ 0 := by
  intro x hx
  obtain ⟨s, hs, θ, rfl, -⟩ := forall₂_mem' h hx
  exact mul_ne_zero (h0 s hs) (Real.exp_pos _).ne'

theorem sum_rel {δ : ℝ} {xs xs' : List ℝ} (h : List.Forall₂ (fun s t : ℝ => ∃ θ, t = s * Real.exp θ ∧ |θ| ≤ δ) xs xs') (e : ℝ) :
    (xs'.map fun x => |x| ^ e).sum ≤ Real.exp (|e| * δ) * (xs.map fun x => |x| ^ e).sum ∧
    (xs.map fun x => |x| ^ e).sum ≤ Real.exp (|e| * δ) * (xs'.map fun x => |x| ^ e).sum := by
  induction h with
  | nil => simp
  | @cons s t xs xs' hst _ ih =>
    obtain ⟨θ, rfl, hθ⟩ := hst
    obtain ⟨i1, i2⟩ := ih
    have hp : |s * Real.exp θ| ^ e = Real.exp (e * θ) * |s| ^ e := by
      rw [abs_mul, abs_of_pos (Real.exp_pos θ), Real.mul_rpow (abs_nonneg _) (Real.exp_pos _).le, ← Real.exp_mul, mul_comm θ e, mul_comm]
    have hs : 0 ≤ |s| ^ e := Real.rpow_nonneg (abs_nonneg _) _
    have hb : |e * θ| ≤ |e| * δ := by rw [abs_mul]; exact mul_le_mul_of_nonneg_left hθ (abs_nonneg _)
    obtain ⟨hb1, hb2⟩ := abs_le.1 hb
    simp only [List.map_cons, List.sum_cons, hp, mul_add]
    constructor
    · exact add_le_add (mul_le_mul_of_nonneg_right (Real.exp_le_exp.2 hb2) hs) i1
    · refine add_le_add ?_ i2
      rw [← mul_assoc, ← Real.exp_add]
      exact le_mul_of_one_le_left hs (Real.one_le_exp (by linarith))

theorem logb_diff {a b δ : ℝ} (ha : 0 < a) (hb : 0 < b) (h1 : b ≤ Real.exp δ * a) (h2 : a ≤ Real.exp δ * b) :
    |Real.logb 2 a - Real.logb 2 b| ≤ δ / Real.log 2 := by
  have hlog : 0 < Real.log 2 := Real.log_pos (by norm_num)
  have l1 := Real.log_le_log hb h1
  have l2 := Real.log_le_log ha h2
  rw [Real.log_mul (Real.exp_pos _).ne' ha.ne', Real.log_exp] at l1
  rw [Real.log_mul (Real.exp_pos _).ne' hb.ne', Real.log_exp] at l2
  rw [Real.logb, Real.logb, ← sub_div, abs_div, abs_of_pos hlog]
  exact div_le_div_of_nonneg_right (abs_le.2 ⟨by linarith, by linarith⟩) hlog.le

theorem rel_structure {δ : ℝ} (e : Expo) {c c' : List Fl} {xs : List ℝ} (hc : Entries c xs) (hne : xs ≠ []) (h0 : ∀ x ∈ xs, x ≠ 0)
    (h : List.Forall₂ (EntryRelClose δ) c c') :
    FlClose (|e.val| * δ / Real.log 2) (nanmean ((c.map Fl.abs).map (fastPower e))).log2 (nanmean ((c'.map Fl.abs).map (fastPower e))).log2 := by
  obtain ⟨xs', hc', hxx⟩ := hc.relClose h
  have h0' := relClose_nonzero hxx h0
  have hne' : xs' ≠ [] := fun he => hne (by rw [he] at hxx; cases hxx; rfl)
  refine ⟨_, _, stat_structure e (1, xs) c hc one_pos hne h0, stat_structure e (1, xs') c' hc' one_pos hne' h0', ?_⟩
  simp only [Real.logb_one, mul_zero, zero_add, tmean, testF, div_one, pow_zero, mul_one]
  obtain ⟨s1, s2⟩ := sum_rel hxx e.val
  have hl : (0:ℝ) < xs.length := by exact_mod_cast List.length_pos_iff.2 hne
  have hpos : ∀ ys : List ℝ, ys ≠ [] → (∀ y ∈ ys, y ≠ 0) → 0 < (ys.map fun x => |x| ^ e.val).sum := fun ys h1 h2 =>
    powSum_pos _ (exists_nonzero h1 h2)
  have e' : (xs'.length : ℝ) = xs.length := by exact_mod_cast hxx.length_eq.symm
  rw [e']
  refine logb_diff (div_pos (hpos _ hne h0) hl) (div_pos (hpos _ hne' h0') hl) ?_ ?_
  · rw [← mul_div_assoc]; exact div_le_div_of_nonneg_right s1 hl.le
  · rw [← mul_div_assoc]; exact div_le_div_of_nonneg_right s2 hl.le

theorem rel_hmin {δ : ℝ} {c c' : List Fl} {xs : List ℝ} (hc : Entries c xs) (hne : xs ≠ []) (h0 : ∀ x ∈ xs, x ≠ 0)
    (h : List.Forall₂ (EntryRelClose δ) c c') :
    FlClose (δ / Real.log 2) (nanmax (c.map Fl.abs)).log2 (nanmax (c'.map Fl.abs)).log2 := by
  obtain ⟨xs', hc', hxx⟩ := hc.relClose h
  have h0' := relClose_nonzero hxx h0
  have hne' : xs' ≠ [] := fun he => hne (by rw [he] at hxx; cases hxx; rfl)
  obtain ⟨M, hM, ⟨x, hx, hxM⟩, hle⟩ := nanmax_abs hc hne
  obtain ⟨M', hM', ⟨x', hx', hxM'⟩, hle'⟩ := nanmax_abs hc' hne'
  have hM0 : 0 < M := hxM ▸ abs_pos.2 (h0 x hx)
  have hM0' : 0 < M' := hxM' ▸ abs_pos.2 (h0' x' hx')
  refine ⟨_, _, (congrArg Fl.log2 hM).trans (Fl.log2_fin hM0), (congrArg Fl.log2 hM').trans (Fl.log2_fin hM0'), ?_⟩
  refine logb_diff hM0 hM0' ?_ ?_
  · obtain ⟨s, hs, θ, rfl, hθ⟩ := forall₂_mem' hxx hx'
    rw [← hxM', abs_mul, abs_of_pos (Real.exp_pos _), mul_comm]
    exact mul_le_mul (Real.exp_le_exp.2 (abs_le.1 hθ).2) (hle s hs) (abs_nonneg _) (Real.exp_pos _).le
  · obtain ⟨t, ht, θ, e, hθ⟩ := forall₂_mem hxx hx
    have h3 := hle' t ht
    rw [e, abs_mul, abs_of_pos (Real.exp_pos _), hxM] at h3
    calc M = Real.exp (-θ) * (M * Real.exp θ) := by rw [mul_comm M, ← mul_assoc, ← Real.exp_add]; simp
      _ ≤ _ := mul_le_mul (Real.exp_le_exp.2 (by have := (abs_le.1 hθ).1; linarith)) h3 (by positivity) (Real.exp_pos _).le

theorem rel_c1 {δ : ℝ} {n : ℕ} (hn : 1 ≤ n) {c c' : List Fl} {xs : List ℝ} (hc : Entries c xs) (hne : xs ≠ []) (h0 : ∀ x ∈ xs, x ≠ 0)
    (h : List.Forall₂ (EntryRelClose δ) c c') : FlClose δ ((cumStat n 0).1 c) ((cumStat n 0).1 c') := by
  obtain ⟨xs', hc', hxx⟩ := hc.relClose h
  have h0' := relClose_nonzero hxx h0
  have hne' : xs' ≠ [] := fun he => hne (by rw [he] at hxx; cases hxx; rfl)
  refine ⟨_, _, stat_cumulant (by omega : 0 < n) (1, xs) c hc one_pos hne h0,
    stat_cumulant (by omega : 0 < n) (1, xs') c' hc' one_pos hne' h0', ?_⟩
  have hk : ∀ ys : List ℝ, ys ≠ [] → kap (ys.map fun x => Real.log |x / 1|) (0 + 1) = (ys.map fun x => Real.log |x|).sum / ys.length := by
    intro ys hy
    rw [kap_rec _ (by simpa using hy)]
    simp [mom, List.map_map, Function.comp_def]
  have hl : (0:ℝ) < xs.length := by exact_mod_cast List.length_pos_iff.2 hne
  have e' : (xs'.length : ℝ) = xs.length := by exact_mod_cast hxx.length_eq.symm
  simp only [Real.logb_one, mul_zero, zero_add]
  have k1 := hk xs hne
  have k2 := hk xs' hne'
  simp only [zero_add] at k1 k2
  rw [k1, k2, e', ← sub_div, abs_div, abs_of_pos hl, div_le_iff₀ hl]
  clear k1 k2 hk e' hl hc hc' hne hne'
  induction hxx with
  | nil => simp
  | @cons s t xs xs' hst _ ih =>
    obtain ⟨θ, rfl, hθ⟩ := hst
    have i := ih (fun x hx => h0 x (by simp [hx])) (fun x hx => h0' x (by simp [hx]))
    simp only [List.map_cons, List.sum_cons, List.length_cons, Nat.cast_add, Nat.cast_one]
    have hl : Real.log |s * Real.exp θ| = Real.log |s| + θ := by
      rw [abs_mul, abs_of_pos (Real.exp_pos _), Real.log_mul (abs_ne_zero.2 (h0 s (by simp))) (Real.exp_pos _).ne', Real.log_exp]
    rw [hl]
    have e : Real.log |s| + (xs.map fun x => Real.log |x|).sum - (Real.log |s| + θ + (xs'.map fun x => Real.log |x|).sum) =
        ((xs.map fun x => Real.log |x|).sum - (xs'.map fun x => Real.log |x|).sum) - θ := by ring
    rw [e]
    refine (abs_sub _ _).trans ?_
    linarith

/-- **C122, relative errors.**  If every value of `m` is multiplied by a factor between `e^(-δ)` and `e^δ`, then `zeta(q)`
changes by at most `slopeFactor · |q| δ / ln 2`, and `H`, `c_1` and `hmin` by at most `slopeFactor · δ / ln 2`. -/
theorem C122_relative {m' : MRQ R} (hm : Regular m J) (hm' : Regular m' J) (hrow : ∀ p ∈ m.values, p.2 ≠ []) (hd : NonzeroData m)
    {δ : ℝ} (hrel : MRQRelated (EntryRelClose δ) m m') {j1 j2 : ℕ} (h1 : 1 ≤ j1)
    (h12 : j1 < j2) (h2 : j2 ≤ J) (weighted : Bool) (q : List ℝ) (hq : (2:ℝ) ∈ q) (n : ℕ) :
    ∃ v v', IsBundle m j1 j2 weighted n q v ∧ IsBundle m' j1 j2 weighted n q v' ∧ ∀ r,
      (∀ (i : ℕ) (e : ℝ), q[i]? = some e → ∃ z z', v.structure_.zeta[i]? = some z ∧ v'.structure_.zeta[i]? = some z' ∧
        FlClose (slopeFactor weighted j1 j2 * (|e| * δ / Real.log 2)) (z r) (z' r)) ∧
      FlClose (slopeFactor weighted j1 j2 * (δ / Real.log 2)) (v.structure_.H r) (v'.structure_.H r) ∧
      FlClose (slopeFactor weighted j1 j2 * (δ / Real.log 2)) (v.hmin r) (v'.hmin r) ∧
      (1 ≤ n → ∃ c c', v.cumulants.log_cumulants[0]? = some c ∧ v'.cumulants.log_cumulants[0]? = some c' ∧
        FlClose (slopeFactor weighted j1 j2 * (δ / Real.log 2)) (c r) (c' r)) := by
  have hlog : 0 < Real.log 2 := Real.log_pos (by norm_num)
  have a1 : (1:ℤ) ≤ (j1 : ℤ) := by exact_mod_cast h1
  have a2 : (j1 : ℤ) ≤ (j2 : ℤ) := by exact_mod_cast h12.le
  have a3 : (j2 : ℤ) ≤ (J : ℤ) := by exact_mod_cast h2
  have hrow' := related_rows hrel hrow
  have hqe : (QArg.ndarray q).expos ≠ [] := by rw [expos_ndarray]; simp; rintro rfl; cases hq
  refine ⟨⟨_, _, _, _⟩, ⟨_, _, _, _⟩, ⟨hm.structFn a1 a2 a3 weighted q hq, hm.cumulants a1 a2 a3 weighted n,
    hm.spectrum a1 a2 a3 weighted (.ndarray q) hqe, _, hm.hmin a1 a2 a3 weighted true hrow, rfl⟩,
    ⟨hm'.structFn a1 a2 a3 weighted q hq, hm'.cumulants a1 a2 a3 weighted n,
    hm'.spectrum a1 a2 a3 weighted (.ndarray q) hqe, _, hm'.hmin a1 a2 a3 weighted true hrow', rfl⟩, fun r => ?_⟩
  have key := fun (Y : List Fl → Fl) (E : ℝ) => slope_related EntryRelClose.nan hm hrel h1 h12 h2 weighted r
    (fun p hp => (hd p hp r).1) Y E
  have kz : ∀ e : ℝ, FlClose (slopeFactor weighted j1 j2 * (|e| * δ / Real.log 2)) (zetaF m j1 j2 weighted (.real e) r)
      (zetaF m' j1 j2 weighted (.real e) r) := by
    intro e
    rw [zetaF_cols, zetaF_cols]
    refine key (fun c => (nanmean ((c.map Fl.abs).map (fastPower (.real e)))).log2) (|e| * δ / Real.log 2) fun p hp c' hc' => ?_
    obtain ⟨xs, hne, h0, hE⟩ := hd.entries hp r
    exact rel_structure (.real e) hE hne h0 hc'
  refine ⟨?_, ?_, ?_, ?_⟩
  · intro i e he
    exact ⟨_, _, by simp only [List.getElem?_map, he, Option.map_some], by simp only [List.getElem?_map, he, Option.map_some], kz e⟩
  · obtain ⟨s, t, e1, e2, e3⟩ := kz 2
    refine ⟨s / 2 - m.gamint, t / 2 - m.gamint, ?_, ?_, ?_⟩
    · show zetaF _ _ _ _ _ _ / Fl.fin 2 - Fl.fin m.gamint = _
      rw [e1, Fl.fin_div two_ne_zero, Fl.fin_sub]
    · show zetaF _ _ _ _ _ _ / Fl.fin 2 - Fl.fin m'.gamint = _
      rw [e2, Fl.fin_div two_ne_zero, Fl.fin_sub, hrel.1]
    · rw [show s / 2 - m.gamint - (t / 2 - m.gamint) = (s - t) / 2 by ring, abs_div, abs_two, div_le_iff₀ (by norm_num)]
      rw [abs_two] at e3
      exact e3.trans (le_of_eq (by ring))
  · refine key (fun c => (nanmax (c.map Fl.abs)).log2) (δ / Real.log 2) fun p hp c' hc' => ?_
    obtain ⟨xs, hne, h0, hE⟩ := hd.entries hp r
    exact rel_hmin hE hne h0 hc'
  · intro hn
    refine ⟨fun r => cumF m j1 j2 weighted n 0 r * Fl.fin log2e, fun r => cumF m' j1 j2 weighted n 0 r * Fl.fin log2e,
      by simp only [List.getElem?_map, List.getElem?_range (by omega : 0 < n), Option.map_some],
      by simp only [List.getElem?_map, List.getElem?_range (by omega : 0 < n), Option.map_some], ?_⟩
    obtain ⟨s, t, e1, e2, e3⟩ := key (cumStat n 0).1 δ fun p hp c' hc' => by
      obtain ⟨xs, hne, h0, hE⟩ := hd.entries hp r
      exact rel_c1 hn hE hne h0 hc'
    have e1' : cumF m j1 j2 weighted n 0 r = Fl.fin s := e1
    have e2' : cumF m' j1 j2 weighted n 0 r = Fl.fin t := e2
    refine ⟨s * log2e, t * log2e, by show cumF m j1 j2 weighted n 0 r * Fl.fin log2e = _; rw [e1', Fl.fin_mul],
      by show cumF m' j1 j2 weighted n 0 r * Fl.fin log2e = _; rw [e2', Fl.fin_mul], ?_⟩
    rw [log2e_eq, ← sub_mul, abs_mul, abs_of_pos (inv_pos.2 hlog), ← div_eq_mul_inv, ← mul_div_assoc]
    exact div_le_div_of_nonneg_right e3 hlog.le

end

end MFA
