import Verif.Props.Continuity
import Verif.Props.SignalLaws
import Verif.Lemmas.ContinuityPos

/-! C121 for the estimates of positive order (zeros allowed), and C130: the larger component of a signal dominates the estimates. -/

namespace MFA

open Filter Topology

noncomputable section

variable {R : ℕ} {m : MRQ R} {J : ℕ}

/-- The statistics of positive order that are regressed. -/
def posStats (q : List ℝ) : List (List Fl → Fl) :=
  (fun c => (nanmax (c.map Fl.abs)).log2) ::
    (q.filter (fun e => decide (0 < e))).flatMap fun e =>
      [fun c => (nanmean ((c.map Fl.abs).map (fastPower (.real e)))).log2, fun c => msV c (.real e), fun c => msU (countNotNaN c) c (.real e)]

theorem posStats_cont (q : List ℝ) : ∀ Y ∈ posStats q, ContPos Y := by
  intro Y hY
  simp only [posStats, List.mem_cons, List.mem_flatMap, List.mem_filter, decide_eq_true_eq, List.not_mem_nil, or_false] at hY
  rcases hY with rfl | ⟨e, ⟨-, he⟩, rfl | rfl | rfl⟩
  · exact contPos_hmin
  · exact contPos_structure he
  · exact contPos_V he
  · exact contPos_U he

theorem posStats_mem {q : List ℝ} {e : ℝ} (he : e ∈ q) (h0 : 0 < e) :
    (fun c => (nanmean ((c.map Fl.abs).map (fastPower (.real e)))).log2) ∈ posStats q ∧ (fun c => msV c (.real e)) ∈ posStats q ∧
      (fun c => msU (countNotNaN c) c (.real e)) ∈ posStats q := by
  have hm : e ∈ q.filter (fun e => decide (0 < e)) := List.mem_filter.2 ⟨he, by simpa using h0⟩
  refine ⟨?_, ?_, ?_⟩ <;> exact List.mem_cons_of_mem _ (List.mem_flatMap.2 ⟨e, hm, by simp⟩)

/-- The estimates of positive order of two related quantities, from the differences of the slopes. -/
theorem bundles_close_pos {m' : MRQ R} (hm : Regular m J) (hm' : Regular m' J) (hg : m'.gamint = m.gamint) {j1 j2 : ℕ}
    (h1 : 1 ≤ j1) (h12 : j1 < j2) (h2 : j2 ≤ J) (weighted : Bool) {q : List ℝ} (hq : (2:ℝ) ∈ q) {n : ℕ} {v v' : MFVar R}
    (hv : IsBundle m j1 j2 weighted n q v) (hv' : IsBundle m' j1 j2 weighted n q v') (hrow : ∀ p ∈ m.values, p.2 ≠ [])
    (hrow' : ∀ p ∈ m'.values, p.2 ≠ []) (r : Fin R) {ε : ℝ}
    (key : ∀ Y ∈ posStats q, FlClose ε
      (slopeL (subR m j1 j2) (fun p => (p.1 : ℝ)) (fun p => wtOf weighted p r) (fun p => Y (col p.2 r)))
      (slopeL (subR m' j1 j2) (fun p => (p.1 : ℝ)) (fun p => wtOf weighted p r) (fun p => Y (col p.2 r)))) :
    PositiveOrdersClose ε q r v v' := by
  obtain ⟨b1, b2, b3, h, b4, b5⟩ := hv
  obtain ⟨c1, c2, c3, h', c4, c5⟩ := hv'
  have a1 : (1:ℤ) ≤ (j1 : ℤ) := by exact_mod_cast h1
  have a2 : (j1 : ℤ) ≤ (j2 : ℤ) := by exact_mod_cast h12.le
  have a3 : (j2 : ℤ) ≤ (J : ℤ) := by exact_mod_cast h2
  have hqe : (QArg.ndarray q).expos ≠ [] := by rw [expos_ndarray]; simp; rintro rfl; cases hq
  rw [hm.structFn a1 a2 a3 weighted q hq] at b1
  rw [hm.spectrum a1 a2 a3 weighted (.ndarray q) hqe] at b3
  rw [hm.hmin a1 a2 a3 weighted true hrow] at b4
  rw [hm'.structFn a1 a2 a3 weighted q hq] at c1
  rw [hm'.spectrum a1 a2 a3 weighted (.ndarray q) hqe] at c3
  rw [hm'.hmin a1 a2 a3 weighted true hrow'] at c4
  have kz : ∀ e ∈ q, 0 < e → FlClose ε (zetaF m j1 j2 weighted (.real e) r) (zetaF m' j1 j2 weighted (.real e) r) := by
    intro e he h0
    rw [zetaF_cols, zetaF_cols]
    exact key _ (posStats_mem he h0).1
  unfold PositiveOrdersClose
  rw [← b5, ← c5, ← Except.ok.inj b1, ← Except.ok.inj b3, ← Except.ok.inj b4, ← Except.ok.inj c1, ← Except.ok.inj c3, ← Except.ok.inj c4]
  refine ⟨?_, ?_, ?_⟩
  · obtain ⟨s, t, e1, e2, e3⟩ := kz 2 hq (by norm_num)
    refine ⟨s / 2 - m.gamint, t / 2 - m.gamint, ?_, ?_, ?_⟩
    · show zetaF _ _ _ _ _ _ / Fl.fin 2 - Fl.fin m.gamint = _
      rw [e1, Fl.fin_div two_ne_zero, Fl.fin_sub]
    · show zetaF _ _ _ _ _ _ / Fl.fin 2 - Fl.fin m'.gamint = _
      rw [e2, Fl.fin_div two_ne_zero, Fl.fin_sub, hg]
    · rw [show s / 2 - m.gamint - (t / 2 - m.gamint) = (s - t) / 2 by ring, abs_div, abs_two, div_le_iff₀ (by norm_num)]
      have := abs_nonneg (s - t)
      linarith
  · exact key (fun c => (nanmax (c.map Fl.abs)).log2) List.mem_cons_self
  · intro i hi h0
    have hqi : q[i]? = some q[i] := List.getElem?_eq_getElem hi
    have hmem := posStats_mem (List.getElem_mem hi) h0
    refine ⟨⟨_, _, by simp only [List.getElem?_map, hqi, Option.map_some], by simp only [List.getElem?_map, hqi, Option.map_some],
      kz _ (List.getElem_mem hi) h0⟩, ?_, ?_⟩
    · exact ⟨vF m j1 j2 weighted (.real q[i]), vF m' j1 j2 weighted (.real q[i]),
        by simp only [expos_ndarray, List.getElem?_map, hqi, Option.map_some],
        by simp only [expos_ndarray, List.getElem?_map, hqi, Option.map_some], key _ hmem.2.1⟩
    · refine ⟨fun r => Fl.fin 1 + uF m j1 j2 weighted (.real q[i]) r, fun r => Fl.fin 1 + uF m' j1 j2 weighted (.real q[i]) r,
        by simp only [expos_ndarray, List.getElem?_map, hqi, Option.map_some],
        by simp only [expos_ndarray, List.getElem?_map, hqi, Option.map_some], ?_⟩
      obtain ⟨s, t, e1, e2, e3⟩ := key _ hmem.2.2
      have e1' : uF m j1 j2 weighted (.real q[i]) r = Fl.fin s := e1
      have e2' : uF m' j1 j2 weighted (.real q[i]) r = Fl.fin t := e2
      refine ⟨1 + s, 1 + t, by show Fl.fin 1 + uF m j1 j2 weighted (.real q[i]) r = _; rw [e1', Fl.fin_add],
        by show Fl.fin 1 + uF m' j1 j2 weighted (.real q[i]) r = _; rw [e2', Fl.fin_add], ?_⟩
      rw [show 1 + s - (1 + t) = s - t by ring]
      exact e3

theorem NonvanishingData.entries (h : NonvanishingData m) {p : ℤ × Arr R} (hp : p ∈ m.values) (r : Fin R) :
    ∃ xs, Entries (col p.2 r) xs ∧ ∃ x ∈ xs, x ≠ 0 := by
  obtain ⟨xs, -, -, h1, h2⟩ := SpectrumData.entries (q := 1) (Or.inr ⟨one_pos, h⟩) hp r
  exact ⟨xs, h2, h1⟩

/-- Data close enough to data that do not vanish at any scale do not either. -/
theorem NonvanishingData.near (h : NonvanishingData m) : ∃ η : ℝ, 0 < η ∧ ∀ m' : MRQ R, MRQRelated (EntryClose η) m m' → NonvanishingData m' := by
  have hev : ∀ᶠ η in 𝓝[>] (0:ℝ), ∀ p ∈ {p | p ∈ m.values}, ∀ r : Fin R, ∃ t : ℝ, η < |t| ∧ Fl.fin t ∈ col p.2 r := by
    rw [eventually_all_finite (List.finite_toSet _)]
    intro p hp
    rw [eventually_all]
    intro r
    obtain ⟨t, ht0, ht⟩ := h.2 p hp r
    filter_upwards [Ioo_mem_nhdsGT (abs_pos.2 ht0)] with η hη
    exact ⟨t, hη.2, ht⟩
  obtain ⟨η, hη, hη0⟩ := (hev.and self_mem_nhdsWithin).exists
  refine ⟨η, hη0, fun m' hrel => ⟨fun p' hp' r => ?_, fun p' hp' r => ?_⟩⟩
  · obtain ⟨p, hp, -, hl⟩ := forall₂_mem' hrel.2 hp'
    have hc := col_forall₂ hl r
    refine ⟨?_, fun x' hx' => ?_⟩
    · obtain ⟨x, hx, hxn⟩ := (h.1 p hp r).1
      obtain ⟨x', hx', hxx⟩ := forall₂_mem hc hx
      exact ⟨x', hx', fun e => hxn ((EntryClose.nan _ _ hxx).2 e)⟩
    · obtain ⟨x, hx, hxx⟩ := forall₂_mem' hc hx'
      rcases hxx with ⟨-, e⟩ | ⟨s, t, -, e, -⟩
      · exact Or.inl e
      · exact Or.inr ⟨t, e⟩
  · obtain ⟨p, hp, -, hl⟩ := forall₂_mem' hrel.2 hp'
    obtain ⟨t, ht, htc⟩ := hη p hp r
    obtain ⟨x', hx', hxx⟩ := forall₂_mem (col_forall₂ hl r) htc
    rcases hxx with ⟨e, -⟩ | ⟨s, t', e, e', hst⟩
    · cases e
    · rw [Fl.fin_inj] at e
      subst e
      refine ⟨t', ?_, e' ▸ hx'⟩
      rintro rfl
      rw [sub_zero] at hst
      linarith

theorem PositiveOrdersClose.mono {ε ε' : ℝ} (h : ε ≤ ε') {q : List ℝ} {r : Fin R} {v v' : MFVar R} (hc : PositiveOrdersClose ε q r v v') :
    PositiveOrdersClose ε' q r v v' := by
  have mono : ∀ {a b : Fl}, FlClose ε a b → FlClose ε' a b := by
    rintro a b ⟨s, t, e1, e2, e3⟩
    exact ⟨s, t, e1, e2, e3.trans h⟩
  obtain ⟨h1, h2, h3⟩ := hc
  refine ⟨mono h1, mono h2, fun i hi h0 => ?_⟩
  obtain ⟨⟨z, z', a1, a2, a3⟩, ⟨y, y', b1, b2, b3⟩, D, D', c1, c2, c3⟩ := h3 i hi h0
  exact ⟨⟨z, z', a1, a2, mono a3⟩, ⟨y, y', b1, b2, mono b3⟩, D, D', c1, c2, mono c3⟩

/-- **C121, the estimators of positive order are continuous, zeros included.**  If at each scale some value of `m` is not zero, every quantity whose
values are close enough to those of `m` has `H`, `hmin` and, for `q > 0`, `zeta(q)`, `h(q)`, `D(q)` within `ε` of those of `m`. -/
theorem C121_positive_estimators (hm : Regular m J) (hrow : ∀ p ∈ m.values, p.2 ≠ []) (hd : NonvanishingData m) {j1 j2 : ℕ} (h1 : 1 ≤ j1)
    (h12 : j1 < j2) (h2 : j2 ≤ J) (weighted : Bool) (q : List ℝ) (hq : (2:ℝ) ∈ q) (n : ℕ) :
    ∃ v, IsBundle m j1 j2 weighted n q v ∧ ∀ ε : ℝ, 0 < ε → ∃ η : ℝ, 0 < η ∧ ∀ m' : MRQ R, Regular m' J →
      MRQRelated (EntryClose η) m m' → ∃ v', IsBundle m' j1 j2 weighted n q v' ∧ ∀ r, PositiveOrdersClose ε q r v v' := by
  have a1 : (1:ℤ) ≤ (j1 : ℤ) := by exact_mod_cast h1
  have a2 : (j1 : ℤ) ≤ (j2 : ℤ) := by exact_mod_cast h12.le
  have a3 : (j2 : ℤ) ≤ (J : ℤ) := by exact_mod_cast h2
  obtain ⟨v, hv, -⟩ := bundle_total hm a1 a2 a3 hrow weighted n q hq
  refine ⟨v, hv, fun ε hε => ?_⟩
  have hK := slopeFactor_pos h12 weighted
  obtain ⟨ε', hε'⟩ : ∃ ε', ε' = ε / slopeFactor weighted j1 j2 := ⟨_, rfl⟩
  have hε'0 : 0 < ε' := by rw [hε']; positivity
  have hev : ∀ᶠ η in 𝓝[>] (0:ℝ), ∀ Y ∈ {Y | Y ∈ posStats q}, ∀ p ∈ {p | p ∈ m.values}, ∀ r : Fin R, ∀ c',
      List.Forall₂ (EntryClose η) (col p.2 r) c' → FlClose ε' (Y (col p.2 r)) (Y c') := by
    rw [eventually_all_finite (List.finite_toSet _)]
    intro Y hY
    rw [eventually_all_finite (List.finite_toSet _)]
    intro p hp
    rw [eventually_all]
    intro r
    obtain ⟨xs, hE, h0⟩ := hd.entries hp r
    obtain ⟨η, hη, h⟩ := posStats_cont q Y hY _ xs hE h0 ε' hε'0
    filter_upwards [Ioo_mem_nhdsGT hη] with η' hη' c' hcc
    exact h c' (hcc.imp fun _ _ hab => hab.mono hη'.2.le)
  obtain ⟨η, hη, hη0⟩ := (hev.and self_mem_nhdsWithin).exists
  refine ⟨η, hη0, fun m' hm' hrel => ?_⟩
  have hrow' := related_rows hrel hrow
  obtain ⟨v', hv', -⟩ := bundle_total hm' a1 a2 a3 hrow' weighted n q hq
  refine ⟨v', hv', fun r => ?_⟩
  have := bundles_close_pos hm hm' hrel.1 h1 h12 h2 weighted hq hv hv' hrow hrow' r (ε := slopeFactor weighted j1 j2 * ε')
    (fun Y hY => slope_related EntryClose.nan hm hrel h1 h12 h2 weighted r (fun p hp => (hd.1 p hp r).1) Y ε'
      (fun p hp c' hc' => hη Y hY p hp r c' hc'))
  have e : slopeFactor weighted j1 j2 * ε' = ε := by rw [hε']; field_simp
  rwa [e] at this

theorem positive_est {j1 : ℕ} (h1 : 1 ≤ j1) (weighted : Bool) (q : List ℝ) (hq : (2:ℝ) ∈ q) (n : ℕ) :
    ∀ (m : MRQ R) (A k2 : ℕ) (v : MFVar R), Regular m A → (∀ a ∈ m.values, a.2 ≠ []) → FiniteData m → NonvanishingData m → j1 < k2 → k2 ≤ A →
      IsBundle m j1 k2 weighted n q v → ∀ ε : ℝ, 0 < ε → ∃ η : ℝ, 0 < η ∧ ∀ m' v', Regular m' A → MRQRelated (EntryClose η) m m' →
        IsBundle m' j1 k2 weighted n q v' → NonvanishingData m' ∧ ∀ r, PositiveOrdersClose ε q r v v' := by
  intro m A k2 v hm hrow hfin hz hjj hA hv ε hε
  obtain ⟨v0, hv0, hcont⟩ := C121_positive_estimators hm hrow hz h1 hjj hA weighted q hq n
  obtain ⟨η, hη, hh⟩ := hcont ε hε
  obtain ⟨η', hη', hn⟩ := hz.near
  have mono : ∀ {m' : MRQ R} {a : ℝ}, min η η' ≤ a → MRQRelated (EntryClose (min η η')) m m' → MRQRelated (EntryClose a) m m' := by
    intro m' a ha hr
    exact ⟨hr.1, hr.2.imp fun _ _ h => ⟨h.1, h.2.imp fun _ _ h r => (h r).mono ha⟩⟩
  refine ⟨min η η', by positivity, fun m' v' hm' hrel hv' => ⟨hn m' (mono (min_le_right _ _) hrel), fun r => ?_⟩⟩
  obtain ⟨v1, hv1, hcl⟩ := hh m' hm' (mono (min_le_left _ _) hrel)
  have e0 := (mfVar_ok_iff _ _ _ _ _ _ _).2 hv0
  have e1 := (mfVar_ok_iff _ _ _ _ _ _ _).2 hv
  have e2 := (mfVar_ok_iff _ _ _ _ _ _ _).2 hv1
  have e3 := (mfVar_ok_iff _ _ _ _ _ _ _).2 hv'
  rw [e0] at e1; cases e1
  rw [e2] at e3; cases e3
  exact hcl r

/-- **C121, the estimates of positive order are continuous in the signal, zero coefficients included**: as `C121_signal`, for `H`, `hmin` and, for `q > 0`,
`zeta(q)`, `h(q)`, `D(q)`, as soon as each scale holds a coefficient (leader) that is not zero. -/
theorem C121_positive_signal {N : ℕ} {x : Fin R → ℤ → ℝ} (hR : R ≠ 0) {p : PExp} (hp : p = .none ∨ p = .inf) {wt : Wavelet} (hwt : wt.Valid) {j1 : ℕ}
    {j2 : Option ℝ} {g nm : ℝ} (hnm : nm ≠ 0) {weighted : Bool} {w : WT R} (h : waveletAnalysis (sampled N x) p wt j1 j2 g nm weighted = .ok w)
    (h1 : 1 ≤ j1) (h12 : (j1 : ℤ) < w.j2_eff) {q : List ℝ} (hq : (2:ℝ) ∈ q) (n : ℕ) :
    ∃ d, mfAnalysisFull (sampled N x) j1 j2 nm g weighted wt p (some (.ndarray q)) n = .ok d ∧ ∀ ε : ℝ, 0 < ε → ∃ η : ℝ, 0 < η ∧
      ∀ x' : Fin R → ℤ → ℝ, (∀ r (i : ℕ), i < N → |x r i - x' r i| ≤ η) →
        ∃ d', mfAnalysisFull (sampled N x') j1 j2 nm g weighted wt p (some (.ndarray q)) n = .ok d' ∧
          (NonvanishingData w.wt_coefs → ∀ r, PositiveOrdersClose ε q r d.dwt d'.dwt) ∧
          ∀ l v, w.wt_leaders = some l → d.lwt = some v → NonvanishingData l →
            ∃ v', d'.lwt = some v' ∧ ∀ r, PositiveOrdersClose ε q r v v' := by
  obtain ⟨d, hd, H⟩ := signal_continuity hR hp hwt hnm h h1 h12 hq n NonvanishingData
    (fun ε m' v v' => NonvanishingData m' ∧ ∀ r, PositiveOrdersClose ε q r v v') (positive_est h1 weighted q hq n)
  refine ⟨d, hd, fun ε hε => ?_⟩
  obtain ⟨η, hη, H⟩ := H ε hε
  refine ⟨η, hη, fun x' hx' => ?_⟩
  obtain ⟨d', w', hd', -, -, a, b⟩ := H x' hx'
  refine ⟨d', hd', fun hn => (a hn).2, fun l v e1 e2 e3 => ?_⟩
  obtain ⟨l', v', -, c1, c2⟩ := b l v e1 e2 e3
  exact ⟨v', c1, c2.2⟩

theorem eta_none {sig : Arr R} {p : PExp} (hp : p = .none ∨ p = .inf) {wt : Wavelet} {j1 : ℤ} {j2 : Option ℝ} {g nm : ℝ} {weighted : Bool} {w : WT R}
    (h : waveletAnalysis sig p wt j1 j2 g nm weighted = .ok w) : w.eta_p = none := by
  rcases hp with rfl | rfl
  · obtain ⟨_, _, _, _, _, e⟩ := wa_none_inv h; rw [e]
  · obtain ⟨_, _, _, _, _, e⟩ := wa_inf_inv h; rw [e]

theorem NonzeroData.near (h : NonzeroData m) : ∃ η : ℝ, 0 < η ∧ ∀ m' : MRQ R, MRQRelated (EntryClose η) m m' → NonzeroData m' := by
  have hev : ∀ᶠ η in 𝓝[>] (0:ℝ), ∀ p ∈ {p | p ∈ m.values}, ∀ r : Fin R, ∀ x ∈ {x | x ∈ col p.2 r}, x = Fl.nan ∨ ∃ t : ℝ, η < |t| ∧ x = Fl.fin t := by
    rw [eventually_all_finite (List.finite_toSet _)]
    intro p hp
    rw [eventually_all]
    intro r
    rw [eventually_all_finite (List.finite_toSet _)]
    intro x hx
    rcases (h p hp r).2 x hx with e | ⟨t, ht0, ht⟩
    · exact Eventually.of_forall fun _ => Or.inl e
    · filter_upwards [Ioo_mem_nhdsGT (abs_pos.2 ht0)] with η hη
      exact Or.inr ⟨t, hη.2, ht⟩
  obtain ⟨η, hη, hη0⟩ := (hev.and self_mem_nhdsWithin).exists
  refine ⟨η, hη0, fun m' hrel p' hp' r => ?_⟩
  obtain ⟨p, hp, -, hl⟩ := forall₂_mem' hrel.2 hp'
  have hc := col_forall₂ hl r
  refine ⟨?_, fun x' hx' => ?_⟩
  · obtain ⟨x, hx, hxn⟩ := (h p hp r).1
    obtain ⟨x', hx', hxx⟩ := forall₂_mem hc hx
    exact ⟨x', hx', fun e => hxn ((EntryClose.nan _ _ hxx).2 e)⟩
  · obtain ⟨x, hx, hxx⟩ := forall₂_mem' hc hx'
    rcases hη p hp r x hx with e | ⟨t, ht, e⟩
    · exact Or.inl ((EntryClose.nan _ _ hxx).1 e)
    · rcases hxx with ⟨e2, -⟩ | ⟨s, t', e2, e', hst⟩
      · rw [e] at e2; cases e2
      · rw [e, Fl.fin_inj] at e2
        subst e2
        refine Or.inr ⟨t', ?_, e'⟩
        rintro rfl
        rw [sub_zero] at hst
        linarith

/-! ### C130 -/

theorem smul_sampled (N : ℕ) (x : Fin R → ℤ → ℝ) (c : ℝ) : smulArr c (sampled N x) = sampled N fun r t => c * x r t := by
  unfold smulArr sampled mapArr
  rw [List.map_map]
  refine List.map_congr_left fun i _ => ?_
  funext r
  exact Fl.fin_mul c (x r i)

theorem SameEstimates.positive {ε : ℝ} {m' : MRQ R} {q : List ℝ} {v v' v'' : MFVar R} (h : SameEstimates m' q v' v'') (hn : NonvanishingData m') {r : Fin R}
    (hc : PositiveOrdersClose ε q r v v') : PositiveOrdersClose ε q r v v'' := by
  obtain ⟨s1, s2, s3, s4, s5, s6⟩ := h
  obtain ⟨h1, h2, h3⟩ := hc
  refine ⟨by rw [s2]; exact h1, by rw [s5]; exact h2, fun i hi h0 => ?_⟩
  rw [s1, s4, s6 i hi (Or.inr ⟨h0, hn⟩)]
  exact h3 i hi h0

theorem SameEstimates.all {ε : ℝ} {m' : MRQ R} {q : List ℝ} {n : ℕ} {v v' v'' : MFVar R} (h : SameEstimates m' q v' v'') (hn : NonzeroData m') {r : Fin R}
    (hc : EstimatesClose ε q.length n r v v') : EstimatesClose ε q.length n r v v'' := by
  obtain ⟨s1, s2, s3, s4, s5, s6⟩ := h
  obtain ⟨h1, h2, h3, h4, h5, h6⟩ := hc
  unfold EstimatesClose
  rw [s2, s5, s1, s3, s4]
  refine ⟨h1, h2, h3, h4, fun i hi => ?_, h6⟩
  rw [s6 i hi (Or.inl hn)]
  exact h5 i hi

theorem dominance_gen {N : ℕ} {y : Fin R → ℤ → ℝ} (hR : R ≠ 0) {p : PExp} (hp : p = .none ∨ p = .inf) {wt : Wavelet} (hwt : wt.Valid) {j1 : ℕ}
    {j2 : Option ℝ} {g nm : ℝ} (hnm : nm ≠ 0) {weighted : Bool} {w : WT R} (h : waveletAnalysis (sampled N y) p wt j1 j2 g nm weighted = .ok w)
    (h1 : 1 ≤ j1) (h12 : (j1 : ℤ) < w.j2_eff) {q : List ℝ} (hq : (2:ℝ) ∈ q) (n : ℕ) (Good : MRQ R → Prop) (Cl : ℝ → MRQ R → MFVar R → MFVar R → Prop)
    (hest : ∀ (m : MRQ R) (A k2 : ℕ) (v : MFVar R), Regular m A → (∀ a ∈ m.values, a.2 ≠ []) → FiniteData m → Good m → j1 < k2 → k2 ≤ A →
      IsBundle m j1 k2 weighted n q v → ∀ ε : ℝ, 0 < ε → ∃ η : ℝ, 0 < η ∧ ∀ m' v', Regular m' A → MRQRelated (EntryClose η) m m' →
        IsBundle m' j1 k2 weighted n q v' → Cl ε m' v v') (Cl' : ℝ → MFVar R → MFVar R → Prop)
    (hcl : ∀ ε m' v v' v'', Cl ε m' v v' → SameEstimates m' q v' v'' → Cl' ε v v'') :
    ∃ d, mfAnalysisFull (sampled N y) j1 j2 nm g weighted wt p (some (.ndarray q)) n = .ok d ∧
      ∀ ε B : ℝ, 0 < ε → ∃ A₀ : ℝ, 0 < A₀ ∧ ∀ (A : ℝ) (x : Fin R → ℤ → ℝ), A₀ ≤ |A| → (∀ r (i : ℕ), i < N → |x r i| ≤ B) →
        ∃ d', mfAnalysisFull (sampled N fun r t => x r t + A * y r t) j1 j2 nm g weighted wt p (some (.ndarray q)) n = .ok d' ∧
          (Good w.wt_coefs → Cl' ε d.dwt d'.dwt) ∧
          ∀ l v, w.wt_leaders = some l → d.lwt = some v → Good l → ∃ v', d'.lwt = some v' ∧ Cl' ε v v' := by
  obtain ⟨d, hd, H⟩ := signal_continuity hR hp hwt hnm h h1 h12 hq n Good Cl hest
  refine ⟨d, hd, fun ε B hε => ?_⟩
  obtain ⟨η, hη, H⟩ := H ε hε
  refine ⟨(|B| + 1) / η, by positivity, fun A x hA hx => ?_⟩
  have hA0 : 0 < |A| := lt_of_lt_of_le (by positivity) hA
  have hAne : A ≠ 0 := abs_pos.1 hA0
  obtain ⟨d1, w1, hd1, hw1, hj, a, b⟩ := H (fun r t => y r t + x r t / A) (fun r i hi => by
    show |y r i - (y r i + x r i / A)| ≤ η
    rw [show y r i - (y r i + x r i / A) = -(x r i / A) by ring, abs_neg, abs_div, div_le_iff₀ hA0]
    rw [div_le_iff₀ hη] at hA
    have := hx r i hi
    have := le_abs_self B
    linarith)
  have e : sampled N (fun r t => x r t + A * y r t) = smulArr A (sampled N fun r t => y r t + x r t / A) := by
    rw [smul_sampled]
    congr 1
    funext r t
    field_simp
    ring
  have hN : sampled N (fun r t => y r t + x r t / A) ≠ [] := by
    intro he
    obtain ⟨_, _, _, e1, -⟩ := wa_inv hw1
    rw [he] at e1
    simp [maxLevel] at e1
  have hN2 : smulArr A (sampled N fun r t => y r t + x r t / A) ≠ [] := by
    intro he
    have := congrArg List.length he
    rw [smulArr_length] at this
    exact hN (List.length_eq_zero_iff.1 this)
  obtain ⟨w2, hw2, htot⟩ := C48_total _ p hp wt j1 j2 g nm weighted (some (.ndarray q)) n hR hN2 hnm
  obtain ⟨-, hj2, -⟩ := wa_scaled hAne hw1 hw2
  obtain ⟨d2, hd2, -⟩ := htot (by exact_mod_cast h1) (by rw [hj2, hj]; exact h12.le) hq
  obtain ⟨s1, s2, s3⟩ := C34_full hAne hw1 (by exact_mod_cast h1) (by rw [hj]; exact h12.le) hd1 hd2
  refine ⟨d2, by rw [e]; exact hd2, fun hg => hcl _ _ _ _ _ (a hg) s1, fun l v e1 e2 hg => ?_⟩
  obtain ⟨l', v', c1, c2, c3⟩ := b l v e1 e2 hg
  obtain ⟨v2, hv2⟩ := Option.isSome_iff_exists.1 (s2.2 (by rw [c2]; rfl))
  refine ⟨v2, hv2, hcl _ _ _ _ _ c3 (s3 l' v' v2 c1 c2 hv2 ?_)⟩
  rw [eta_none hp hw1]
  intro eta he
  cases he

/-- **C130, the larger component dominates.**  Let `y` be a signal with, at each scale, a coefficient (leader) that is not zero.  The estimates of positive
order of `x + A y` tend to those of `y` as `|A|` grows, uniformly over the signals `x` bounded by `B`. -/
theorem C130_dominance {N : ℕ} {y : Fin R → ℤ → ℝ} (hR : R ≠ 0) {p : PExp} (hp : p = .none ∨ p = .inf) {wt : Wavelet} (hwt : wt.Valid) {j1 : ℕ}
    {j2 : Option ℝ} {g nm : ℝ} (hnm : nm ≠ 0) {weighted : Bool} {w : WT R} (h : waveletAnalysis (sampled N y) p wt j1 j2 g nm weighted = .ok w)
    (h1 : 1 ≤ j1) (h12 : (j1 : ℤ) < w.j2_eff) {q : List ℝ} (hq : (2:ℝ) ∈ q) (n : ℕ) :
    ∃ d, mfAnalysisFull (sampled N y) j1 j2 nm g weighted wt p (some (.ndarray q)) n = .ok d ∧
      ∀ ε B : ℝ, 0 < ε → ∃ A₀ : ℝ, 0 < A₀ ∧ ∀ (A : ℝ) (x : Fin R → ℤ → ℝ), A₀ ≤ |A| → (∀ r (i : ℕ), i < N → |x r i| ≤ B) →
        ∃ d', mfAnalysisFull (sampled N fun r t => x r t + A * y r t) j1 j2 nm g weighted wt p (some (.ndarray q)) n = .ok d' ∧
          (NonvanishingData w.wt_coefs → ∀ r, PositiveOrdersClose ε q r d.dwt d'.dwt) ∧
          ∀ l v, w.wt_leaders = some l → d.lwt = some v → NonvanishingData l → ∃ v', d'.lwt = some v' ∧ ∀ r, PositiveOrdersClose ε q r v v' :=
  dominance_gen hR hp hwt hnm h h1 h12 hq n NonvanishingData _ (positive_est h1 weighted q hq n)
    (fun ε v v' => ∀ r, PositiveOrdersClose ε q r v v') (fun _ _ _ _ _ hc hs r => hs.positive hc.1 (hc.2 r))

/-- C130: if no coefficient (leader) of `y` is zero, the same holds for all the estimates: log-cumulants and negative orders too. -/
theorem C130_dominance_all {N : ℕ} {y : Fin R → ℤ → ℝ} (hR : R ≠ 0) {p : PExp} (hp : p = .none ∨ p = .inf) {wt : Wavelet} (hwt : wt.Valid) {j1 : ℕ}
    {j2 : Option ℝ} {g nm : ℝ} (hnm : nm ≠ 0) {weighted : Bool} {w : WT R} (h : waveletAnalysis (sampled N y) p wt j1 j2 g nm weighted = .ok w)
    (h1 : 1 ≤ j1) (h12 : (j1 : ℤ) < w.j2_eff) {q : List ℝ} (hq : (2:ℝ) ∈ q) (n : ℕ) :
    ∃ d, mfAnalysisFull (sampled N y) j1 j2 nm g weighted wt p (some (.ndarray q)) n = .ok d ∧
      ∀ ε B : ℝ, 0 < ε → ∃ A₀ : ℝ, 0 < A₀ ∧ ∀ (A : ℝ) (x : Fin R → ℤ → ℝ), A₀ ≤ |A| → (∀ r (i : ℕ), i < N → |x r i| ≤ B) →
        ∃ d', mfAnalysisFull (sampled N fun r t => x r t + A * y r t) j1 j2 nm g weighted wt p (some (.ndarray q)) n = .ok d' ∧
          (NoZeros w.wt_coefs → ∀ r, EstimatesClose ε q.length n r d.dwt d'.dwt) ∧
          ∀ l v, w.wt_leaders = some l → d.lwt = some v → NoZeros l → ∃ v', d'.lwt = some v' ∧ ∀ r, EstimatesClose ε q.length n r v v' := by
  refine dominance_gen hR hp hwt hnm h h1 h12 hq n NoZeros (fun ε m' v v' => NonzeroData m' ∧ ∀ r, EstimatesClose ε q.length n r v v') ?_
    (fun ε v v' => ∀ r, EstimatesClose ε q.length n r v v') (fun _ _ _ _ _ hc hs r => hs.all hc.1 (hc.2 r))
  intro m A k2 v hm hrow hfin hz hjj hA hv ε hε
  have hz' := hfin.nonzero hm hz
  obtain ⟨v0, hv0, hcont⟩ := C121_estimators hm hrow hz' h1 hjj hA weighted q hq n
  obtain ⟨η, hη, hh⟩ := hcont ε hε
  obtain ⟨η', hη', hn⟩ := hz'.near
  have mono : ∀ {m' : MRQ R} {a : ℝ}, min η η' ≤ a → MRQRelated (EntryClose (min η η')) m m' → MRQRelated (EntryClose a) m m' := by
    intro m' a ha hr
    exact ⟨hr.1, hr.2.imp fun _ _ h => ⟨h.1, h.2.imp fun _ _ h r => (h r).mono ha⟩⟩
  refine ⟨min η η', by positivity, fun m' v' hm' hrel hv' => ⟨hn m' (mono (min_le_right _ _) hrel), fun r => ?_⟩⟩
  obtain ⟨v1, hv1, hcl⟩ := hh m' hm' (mono (min_le_left _ _) hrel)
  have e0 := (mfVar_ok_iff _ _ _ _ _ _ _).2 hv0
  have e1 := (mfVar_ok_iff _ _ _ _ _ _ _).2 hv
  have e2 := (mfVar_ok_iff _ _ _ _ _ _ _).2 hv1
  have e3 := (mfVar_ok_iff _ _ _ _ _ _ _).2 hv'
  rw [e0] at e1; cases e1
  rw [e2] at e3; cases e3
  exact hcl r

end

end MFA
