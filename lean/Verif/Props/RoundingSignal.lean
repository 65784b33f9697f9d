import Verif.Props.StabilityAll
import Verif.Spec.TotalErr
import Verif.Spec.RoundWavelet
import Verif.Lemmas.RoundedLoop
import Verif.Props.Rounding

/-! Property C127: explicit bounds on the rounding errors of the wavelet coefficients and leaders. -/

namespace MFA

open Classical

noncomputable section

variable {R : ℕ} {M : Machine}

theorem RelM.close {wt : Wavelet} {K : ℤ → ℕ} {S : ℤ → ℝ} {η T : ℕ → ℝ} {m m' : MRQ R} (h : RelM (fun j => ApE M (K j) (S j)) m m')
    (hη : ∀ j : ℤ, M.gam (K j) * S j ≤ η j.toNat) (hT : ∀ j : ℤ, S j ≤ T j.toNat) : ScalesClose η T m m' := by
  refine ⟨h.formalism, h.gamint, h.nj, h.values.imp fun a b hab => ⟨hab.1, List.Forall₂.imp (fun u v huv r => ?_) hab.2⟩⟩
  rcases huv r with h | ⟨x, e1, z, e2, e3, e4⟩
  · exact Or.inl h
  · exact Or.inr ⟨x, z, e1, e2, e4.trans (hT _), by rw [abs_sub_comm]; exact e3.trans (hη _)⟩

theorem leaderSize_mono (wt : Wavelet) (g nm : ℝ) : Monotone (leaderSize wt g nm) := monotone_nat_of_le_succ fun _ => le_max_left _ _

theorem abs_neg_sum (l : List ℝ) : ((l.map fun t => -1 * t).map fun a => |a|).sum = (l.map fun a => |a|).sum := by
  rw [List.map_map]; congr 1; refine List.map_congr_left fun x _ => ?_; simp

/-- **C127, coefficients and leaders.**  On a machine whose operations have relative errors of at most `u ≤ 1/3`, the wavelet analysis of a recording with
samples between `-A` and `A` (or NaN) returns the same scales, NaN positions and numbers of usable values as in exact arithmetic; the coefficients of scale `j`
are off by at most `coefErr`, the leaders by at most `leaderErr`. -/
theorem C127_coefficients {sig : Arr R} {A : ℝ} (hA : 0 ≤ A) (hs : SamplesIn A sig) (hR : R ≠ 0) {p : PExp} (hp : p = .none ∨ p = .inf) {wt : Wavelet}
    (hwt : wt.dec_lo.length = wt.dec_hi.length) {j1 : ℤ} {j2 : Option ℝ} {g nm : ℝ} (hnm : nm ≠ 0) {weighted : Bool} (M : Machine) (hu : 3 * M.u ≤ 1) {w : WT R}
    (h : waveletAnalysis sig p wt j1 j2 g nm weighted = .ok w) :
    ∃ w', M.waveletAnalysis sig p wt j1 j2 g nm weighted = .ok w' ∧ w'.j2_eff = w.j2_eff ∧ w'.warned = w.warned ∧
      ScalesClose (coefErr M.u wt g nm A) (fun j => coefSize wt g nm j * A) w.wt_coefs w'.wt_coefs ∧
      ((w.wt_leaders = none ∧ w'.wt_leaders = none) ∨ p = .inf ∧ ∃ l l', w.wt_leaders = some l ∧ w'.wt_leaders = some l' ∧
        ScalesClose (leaderErr M.u wt g nm A) (fun j => leaderSize wt g nm j * A) l l') := by
  obtain ⟨P, hP⟩ : ∃ P : LoopParams, P = { high := wt.dec_hi.map (fun t => -1 * t), low := wt.dec_lo, normalization := nm, gamint := g } := ⟨_, rfl⟩
  have hlen : P.low.length = P.high.length := by rw [hP]; simpa using hwt
  have hPn : P.normalization ≠ 0 := by rw [hP]; exact hnm
  have hsig : RelA (ApE M (0 * (P.high.length + 1)) ((P.low.map fun a => |a|).sum ^ 0 * A)) sig sig := by
    unfold RelA
    rw [List.forall₂_same]
    intro row hrow r
    rw [pow_zero, one_mul, zero_mul]
    rcases hs row hrow r with h | ⟨x, h, hx⟩
    · exact Or.inl ⟨h, h⟩
    · exact Or.inr ⟨x, h, by rw [h]; exact Ap.exact M 0 hx⟩
  have hcs : ∀ s : ℕ, (2:ℝ) ^ ((s : ℝ) * (1 / 2 - 1 / P.normalization + P.gamint)) * ((P.high.map fun a => |a|).sum * (P.low.map fun a => |a|).sum ^ (s - 1)) =
      coefSize wt g nm s := by intro s; rw [hP, abs_neg_sum]; rfl
  have hF : P.high.length = wt.dec_hi.length := by rw [hP]; simp
  have hgam : ∀ k, M.gam k = relErr M.u k := fun _ => rfl
  have hcc : ∀ {m m' : MRQ R}, RelM (coefRel M P A) m m' → ScalesClose (coefErr M.u wt g nm A) (fun j => coefSize wt g nm j * A) m m' := by
    intro m m' hm
    refine RelM.close (M := M) (wt := wt) hm (fun j => le_of_eq ?_) (fun j => le_of_eq ?_)
    · rw [hcs, hF, hgam, show P.normalization = nm by rw [hP], show P.gamint = g by rw [hP]]; rfl
    · rw [hcs]
  cases hd : decompositionLevelW sig.length (wt.dec_hi.map (fun t => -1 * t)).length j2 with
  | error e =>
    unfold waveletAnalysis at h
    simp only [hd] at h
    cases h
  | ok lw =>
    obtain ⟨ml, warned⟩ := lw
    rcases hp with rfl | rfl
    · obtain ⟨r, r', ml', e1, e2, e3⟩ := coefLoop_rel P hlen hR hPn hu hA ml.toNat 0 ml sig sig (MRQ.empty .coef g) (MRQ.empty .coef g) hsig (RelM.empty _ _ _)
      rw [hP] at e1 e2
      unfold waveletAnalysis at h
      unfold Machine.waveletAnalysis
      simp only [hd] at h ⊢
      rw [e1] at h
      rw [e2]
      cases h
      exact ⟨_, rfl, rfl, rfl, hcc e3, Or.inl ⟨rfl, rfl⟩⟩
    · have hSm : Monotone fun j => leaderSize wt g nm j * A := fun i j hij => mul_le_mul_of_nonneg_right (leaderSize_mono wt g nm hij) hA
      rcases leadLoop_rel P hlen hR hPn hu hA hSm (fun s => by
          have := hcs (s + 1)
          rw [Nat.add_sub_cancel] at this
          rw [this]
          exact mul_le_mul_of_nonneg_right (le_max_right _ _) hA) ml.toNat 0 ml sig sig
        { coefs := MRQ.empty .coef g, leaders := MRQ.empty (checkFormalism .inf) g, sans_voisin := [] }
        { coefs := MRQ.empty .coef g, leaders := MRQ.empty (checkFormalism .inf) g, sans_voisin := [] } hsig (RelM.empty _ _ _) (RelM.empty _ _ _)
        List.Forall₂.nil with ⟨e, e1, -⟩ | ⟨r, r', ml', e1, e2, e3, e4⟩
      · rw [hP] at e1
        unfold waveletAnalysis at h
        simp only [hd] at h
        rw [e1] at h
        cases h
      · rw [hP] at e1 e2
        unfold waveletAnalysis at h
        unfold Machine.waveletAnalysis
        simp only [hd] at h ⊢
        rw [e1] at h
        rw [e2]
        cases h
        refine ⟨_, rfl, rfl, rfl, hcc e3, Or.inr ⟨trivial, _, _, rfl, rfl, ?_⟩⟩
        refine RelM.close (M := M) (wt := wt) e4 (fun j => le_of_eq ?_) (fun j => le_rfl)
        rw [hF, hgam, show P.normalization = nm by rw [hP], show P.gamint = g by rw [hP]]; rfl

/-! ### The estimates -/

theorem FlClose.trans {a b : ℝ} {x y z : Fl} (h : FlClose a x y) (h' : FlClose b y z) : FlClose (a + b) x z := by
  obtain ⟨s, t, e1, e2, e3⟩ := h
  obtain ⟨t', v, e4, e5, e6⟩ := h'
  rw [e2] at e4
  have := (Fl.fin_inj _ _).1 e4
  subst this
  refine ⟨s, v, e1, e5, ?_⟩
  rw [show s - v = (s - t) + (t - v) by ring]
  exact (abs_add_le _ _).trans (add_le_add e3 e6)

theorem EstimatesWithin.trans {E F : ErrBounds} {q : List ℝ} {n : ℕ} {r : Fin R} {v v' v'' : MFVar R} (h : EstimatesWithin E q n r v v')
    (h' : EstimatesWithin F q n r v' v'') : EstimatesWithin (E.add F) q n r v v'' := by
  obtain ⟨a1, a2, a3, a4, a5, a6⟩ := h
  obtain ⟨b1, b2, b3, b4, b5, b6⟩ := h'
  refine ⟨?_, a2.trans b2, a3.trans b3, ?_, ?_, ?_⟩
  · intro i e he
    obtain ⟨z, z', h1, h2, h3⟩ := a1 i e he
    obtain ⟨y, y', h4, h5, h6⟩ := b1 i e he
    rw [h2] at h4; cases h4
    exact ⟨z, y', h1, h5, h3.trans h6⟩
  · intro i hi
    obtain ⟨z, z', h1, h2, h3⟩ := a4 i hi
    obtain ⟨y, y', h4, h5, h6⟩ := b4 i hi
    rw [h2] at h4; cases h4
    exact ⟨z, y', h1, h5, h3.trans h6⟩
  · intro i e he
    obtain ⟨z, z', h1, h2, h3⟩ := a5 i e he
    obtain ⟨y, y', h4, h5, h6⟩ := b5 i e he
    rw [h2] at h4; cases h4
    exact ⟨z, y', h1, h5, h3.trans h6⟩
  · intro i e he
    obtain ⟨z, z', h1, h2, h3⟩ := a6 i e he
    obtain ⟨y, y', h4, h5, h6⟩ := b6 i e he
    rw [h2] at h4; cases h4
    exact ⟨z, y', h1, h5, h3.trans h6⟩

/-- A small absolute error on a number that is not too small is a small relative error. -/
theorem abs_to_rel {s t η Y : ℝ} (hs : s ≠ 0) (hY : |Real.logb 2 (|s|)| ≤ Y) (h : |s - t| ≤ η) (hη : 4 * η * 2 ^ Y ≤ 1) :
    ∃ θ, t = s * Real.exp θ ∧ |θ| ≤ 2 * η * 2 ^ Y := by
  have h2 : (0:ℝ) < 2 ^ Y := Real.rpow_pos_of_pos (by norm_num) _
  have hsp : 0 < |s| := abs_pos.2 hs
  have hlow : 1 ≤ |s| * 2 ^ Y := by
    have h3 : |s| = (2:ℝ) ^ Real.logb 2 (|s|) := (Real.rpow_logb (by norm_num) (by norm_num) hsp).symm
    rw [h3, ← Real.rpow_add (by norm_num)]
    exact Real.one_le_rpow (by norm_num) (by linarith [(abs_le.1 hY).1])
  have hη0 : 0 ≤ η := (abs_nonneg _).trans h
  obtain ⟨x, hx⟩ : ∃ x, x = (t - s) / s := ⟨_, rfl⟩
  have hxb : |x| ≤ η * 2 ^ Y := by
    rw [hx, abs_div, div_le_iff₀ hsp, abs_sub_comm]
    refine h.trans ?_
    rw [mul_assoc]
    exact le_mul_of_one_le_right hη0 (by rw [mul_comm]; exact hlow)
  have hx4 : |x| ≤ 1 / 4 := by linarith
  obtain ⟨x1, x2⟩ := abs_le.1 hx4
  have htx : t = s * (1 + x) := by rw [hx]; field_simp; ring
  refine ⟨Real.log (1 + x), by rw [Real.exp_log (by linarith), ← htx], ?_⟩
  have hlog1 : Real.log (1 + x) ≤ x := by have := Real.log_le_sub_one_of_pos (show 0 < 1 + x by linarith); linarith
  have hlog2 : 1 - (1 + x)⁻¹ ≤ Real.log (1 + x) := Real.one_sub_inv_le_log_of_pos (by linarith)
  have h1x : 1 + x ≠ 0 := by linarith
  have hinv : 1 - (1 + x)⁻¹ = x / (1 + x) := by rw [eq_div_iff h1x, sub_mul, inv_mul_cancel₀ h1x]; ring
  rw [hinv] at hlog2
  have hb : -(2 * |x|) ≤ x / (1 + x) := by
    rw [le_div_iff₀ (by linarith)]
    rcases abs_cases x with ⟨e, e'⟩ | ⟨e, e'⟩ <;> rw [e] <;> nlinarith
  have := le_abs_self x
  have := abs_nonneg x
  rw [abs_le]
  constructor <;> linarith

theorem ScalesClose.related {η' S : ℕ → ℝ} {m m' : MRQ R} (h : ScalesClose η' S m m') {Y η : ℝ} {n : ℕ} (hd : LogData Y n m)
    (hη' : ∀ p ∈ m.values, η' p.1.toNat ≤ η) (hη : 4 * η * 2 ^ Y ≤ 1) : MRQRelated (EntryRelClose (2 * η * 2 ^ Y)) m m' := by
  obtain ⟨-, hg, -, hv⟩ := h
  refine ⟨hg, ?_⟩
  have hd' : ∀ p ∈ m.values, ∀ row ∈ p.2, ∀ r : Fin R, row r = Fl.nan ∨ ∃ t : ℝ, t ≠ 0 ∧ row r = Fl.fin t ∧ |Real.logb 2 (|t|)| ≤ Y :=
    fun p hp row hrow r => ((hd p hp).2.2 r).2 _ (List.mem_map.2 ⟨row, hrow, rfl⟩)
  revert hv hd' hη'
  generalize m.values = d
  generalize m'.values = d'
  intro hη' hv hd'
  induction hv with
  | nil => exact List.Forall₂.nil
  | @cons a b d d' hab _ ih =>
    refine List.Forall₂.cons ⟨hab.1, ?_⟩ (ih (fun p hp => hη' p (List.mem_cons_of_mem _ hp)) (fun p hp => hd' p (List.mem_cons_of_mem _ hp)))
    have e1 := hη' a List.mem_cons_self
    have e2 := hd' a List.mem_cons_self
    obtain ⟨-, hab⟩ := hab
    revert hab e2
    generalize a.2 = x
    generalize b.2 = y
    intro e2 hab
    induction hab with
    | nil => exact List.Forall₂.nil
    | @cons u v x y huv _ ih2 =>
      refine List.Forall₂.cons (fun r => ?_) (ih2 fun row hrow => e2 row (List.mem_cons_of_mem _ hrow))
      rcases huv r with h | ⟨s, t, h1, h2, -, h3⟩
      · exact Or.inl h
      · rcases e2 u List.mem_cons_self r with h4 | ⟨s', h4, h5, h6⟩
        · rw [h1] at h4; cases h4
        · rw [h1] at h5
          have := (Fl.fin_inj _ _).1 h5
          subst this
          obtain ⟨θ, hθ, hθ2⟩ := abs_to_rel h4 h6 (h3.trans e1) hη
          exact Or.inr ⟨s, θ, h1, by rw [h2, hθ], hθ2⟩

theorem MRQRelated.logData {δ Y : ℝ} {n : ℕ} {m m' : MRQ R} (h : MRQRelated (EntryRelClose δ) m m') (hd : LogData Y n m) (hδ : δ ≤ Real.log 2) :
    LogData (Y + 1) n m' := by
  have hlog : 0 < Real.log 2 := Real.log_pos (by norm_num)
  intro b hb
  obtain ⟨a, ha, hab⟩ := forall₂_mem' h.2 hb
  obtain ⟨h1, h2, h3⟩ := hd a ha
  refine ⟨fun he => h1 ?_, by rw [← hab.2.length_eq]; exact h2, fun r => ?_⟩
  · have := hab.2.length_eq
    rw [he] at this
    exact List.length_eq_zero_iff.1 this
  · have hc : List.Forall₂ (EntryRelClose δ) (col a.2 r) (col b.2 r) := col_forall₂ hab.2 r
    obtain ⟨⟨x, hx, hxn⟩, h5⟩ := h3 r
    constructor
    · obtain ⟨y, hy, hxy⟩ := forall₂_mem hc hx
      exact ⟨y, hy, fun he => hxn ((EntryRelClose.nan _ _ hxy).2 he)⟩
    · intro y hy
      obtain ⟨x, hx, hxy⟩ := forall₂_mem' hc hy
      rcases hxy with ⟨-, h⟩ | ⟨s, θ, e1, e2, hθ⟩
      · exact Or.inl h
      · rcases h5 x hx with h4 | ⟨t, ht, e3, hb⟩
        · rw [e1] at h4; cases h4
        · rw [e1] at e3
          have := (Fl.fin_inj _ _).1 e3
          subst this
          refine Or.inr ⟨_, mul_ne_zero ht (Real.exp_pos _).ne', e2, ?_⟩
          rw [Real.logb, log_rel ht, add_div]
          refine (abs_add_le _ _).trans (add_le_add hb ?_)
          rw [abs_div, abs_of_pos hlog, div_le_one hlog]
          exact hθ.trans hδ

theorem regular_of_scalesClose {η' S : ℕ → ℝ} {m m' : MRQ R} {J : ℕ} (h : ScalesClose η' S m m') (hm : Regular m J) : Regular m' J := by
  refine RelM.regular (P := fun _ a b => (a = Fl.nan ↔ b = Fl.nan)) (fun _ _ _ h => h) ⟨h.1, h.2.1, h.2.2.1, h.2.2.2.imp fun a b hab => ⟨hab.1, ?_⟩⟩ hm
  refine List.Forall₂.imp (fun u v huv r => ?_) hab.2
  rcases huv r with ⟨h1, h2⟩ | ⟨s, t, h1, h2, -⟩ <;> rw [h1, h2]
  simp

/-- The estimates computed from approximate values, on a machine with rounding errors. -/
theorem C127_estimates {η' S : ℕ → ℝ} {m m' : MRQ R} {J : ℕ} (hm : Regular m J) (hc : ScalesClose η' S m m') {Y η : ℝ} {n : ℕ} (hd : LogData Y n m)
    (hη' : ∀ p ∈ m.values, η' p.1.toNat ≤ η) (hη : 4 * η * 2 ^ Y ≤ 1) {j1 j2 : ℕ} (h1 : 1 ≤ j1) (h12 : j1 < j2) (h2 : j2 ≤ J) (weighted : Bool)
    {q : List ℝ} (hq : (2:ℝ) ∈ q) (nc : ℕ) {ρ : ℝ} (M : Machine) (hu1 : 32 * ρ * j2 ^ 2 * (j2 - j1 + 3) * M.u ≤ 1) (hu2 : 28 * (n + 1) * M.u ≤ 1)
    (hu3 : nc * (n + 2 * nc + 4) * M.u ≤ 1) :
    ∃ v v', mfVar m j1 j2 weighted nc q = .ok v ∧ M.mfVar m' j1 j2 weighted nc q = .ok v' ∧ ∀ r, Balanced ρ m weighted j1 j2 r →
      EstimatesWithin ((dataErr weighted j1 j2 Y (2 * η * 2 ^ Y)).add (estimatorErr M.u ρ j1 j2 n nc m.gamint (Y + 1))) q nc r v v' := by
  have hrel := hc.related hd hη' hη
  have hl2 : (2:ℝ)⁻¹ ≤ Real.log 2 := by
    have := Real.one_sub_inv_le_log_of_pos (show (0:ℝ) < 2 by norm_num)
    linarith
  have hlm := hrel.logData hd (by linarith)
  have hm' : Regular m' J := regular_of_scalesClose hc hm
  obtain ⟨v, v', b, b', hA⟩ := C122_relative hm hm' (fun p hp => (hd p hp).1) (logData_nonzero hd) hrel h1 h12 h2 weighted q hq nc
  obtain ⟨x, x', c, c', hB⟩ := C122_relative_all hm hm' hd hrel h1 h12 h2 weighted q hq nc
  obtain ⟨y, y', d, d', hC⟩ := C124_bounds hm' hlm h1 h12 h2 weighted hq nc (ρ := ρ) M hu1 hu2
  have b := (mfVar_ok_iff _ _ _ _ _ _ _).2 b
  have b' := (mfVar_ok_iff _ _ _ _ _ _ _).2 b'
  have c := (mfVar_ok_iff _ _ _ _ _ _ _).2 c
  have c' := (mfVar_ok_iff _ _ _ _ _ _ _).2 c'
  rw [b] at c; cases c
  rw [b'] at c' d; cases c'; cases d
  refine ⟨v, y', b, d', fun r hb => ?_⟩
  obtain ⟨p1, p2, p3, -⟩ := hA r
  obtain ⟨p4, p5, p6⟩ := hB r
  have hbal : Balanced ρ m' weighted j1 j2 r := by
    unfold Balanced scaleWeight at hb ⊢
    rw [hc.2.2.1]
    exact hb
  obtain ⟨r1, r2, r3, r4, r5, r6⟩ := hC r hbal
  rw [hc.2.1] at r2
  refine EstimatesWithin.trans (v' := v') ⟨p1, p2, p3, p4, p5, p6⟩ ⟨r1, r2, r3, fun i hi => r4 i hi ?_, r5, r6⟩
  refine le_trans ?_ hu3
  refine mul_le_mul_of_nonneg_right (mul_le_mul_of_nonneg_right (by exact_mod_cast hi) (by positivity)) M.u_nonneg

theorem totalBound {η' S : ℕ → ℝ} {m m' : MRQ R} {J : ℕ} (hm : Regular m J) (hc : ScalesClose η' S m m') {j1 j2 : ℕ} (h1 : 1 ≤ j1) (h12 : j1 < j2)
    (h2 : j2 ≤ J) {weighted : Bool} {q : List ℝ} (hq : (2:ℝ) ∈ q) {nc : ℕ} {M : Machine} {v v' : MFVar R} (hv : mfVar m j1 j2 weighted nc q = .ok v)
    (hv' : M.mfVar m' j1 j2 weighted nc q = .ok v') : TotalBound M.u η' m weighted j1 j2 q nc v v' := by
  intro Y η ρ n hd hη' hη hu1 hu2 hu3 r hb
  obtain ⟨x, x', e1, e2, e3⟩ := C127_estimates hm hc hd hη' hη h1 h12 h2 weighted hq nc (ρ := ρ) M hu1 hu2 hu3
  rw [hv] at e1; cases e1
  rw [hv'] at e2; cases e2
  exact e3 r hb

theorem scalesClose_rows {η' S : ℕ → ℝ} {m m' : MRQ R} (hc : ScalesClose η' S m m') (hrow : ∀ p ∈ m.values, p.2 ≠ []) : ∀ p ∈ m'.values, p.2 ≠ [] := by
  intro b hb he
  obtain ⟨a, ha, hab⟩ := forall₂_mem' hc.2.2.2 hb
  have := hab.2.length_eq
  rw [he] at this
  exact hrow a ha (List.length_eq_zero_iff.1 this)

/-- **C127, the whole analysis.**  `mf_analysis_full` with coefficients only or with wavelet leaders, on a recording with samples between `-A` and `A` (or NaN),
on a machine whose operations have relative errors of at most `u ≤ 1/3`: the call returns as in exact arithmetic, and the estimates from coefficients and from
leaders are within the explicit bounds `TotalBound` of the exact ones, with errors of `coefErr` on the coefficients and `leaderErr` on the leaders. -/
theorem C127_total {sig : Arr R} {A : ℝ} (hA : 0 ≤ A) (hs : SamplesIn A sig) (hR : R ≠ 0) {p : PExp} (hp : p = .none ∨ p = .inf) {wt : Wavelet}
    (hwt : wt.dec_lo.length = wt.dec_hi.length) {j1 j2' : ℕ} {j2 : Option ℝ} {g nm : ℝ} (hnm : nm ≠ 0) {weighted : Bool} (M : Machine) (hu : 3 * M.u ≤ 1)
    {w : WT R} (h : waveletAnalysis sig p wt j1 j2 g nm weighted = .ok w) (hj : w.j2_eff = j2') (h1 : 1 ≤ j1) (h12 : j1 < j2') {q : List ℝ} (hq : (2:ℝ) ∈ q)
    (nc : ℕ) :
    ∃ d d', mfAnalysisFull sig j1 j2 nm g weighted wt p (some (.ndarray q)) nc = .ok d ∧
      M.mfAnalysisFull sig j1 j2 nm g weighted wt p (some (.ndarray q)) nc = .ok d' ∧
      TotalBound M.u (coefErr M.u wt g nm A) w.wt_coefs weighted j1 j2' q nc d.dwt d'.dwt ∧
      ((w.wt_leaders = none ∧ d.lwt = none ∧ d'.lwt = none) ∨ ∃ l v v', w.wt_leaders = some l ∧ d.lwt = some v ∧ d'.lwt = some v' ∧
        TotalBound M.u (leaderErr M.u wt g nm A) l weighted j1 j2' q nc v v') := by
  obtain ⟨J, Jc, hJc, hj2, hc, hl⟩ := C03_regular h
  rw [hj] at hj2
  have hj2J : j2' ≤ J := by exact_mod_cast hj2
  have hj2c : j2' ≤ Jc := by rcases hJc with rfl | rfl <;> omega
  obtain ⟨w', hw', hj', -, hcc, hll⟩ := C127_coefficients hA hs hR hp hwt hnm M hu h
  rw [hj] at hj'
  have a1 : (1:ℤ) ≤ (j1 : ℤ) := by exact_mod_cast h1
  have a2 : (j1 : ℤ) ≤ (j2' : ℤ) := by exact_mod_cast h12.le
  have hrc := rows_ne_nil hR h _ (Or.inl rfl)
  have hnq : normQ (some (.ndarray q)) = q := rfl
  obtain ⟨v, hv⟩ := hc.mfVarM Machine.exact a1 a2 (by exact_mod_cast hj2c) hrc weighted nc hq
  rw [Machine.exact_mfVar] at hv
  obtain ⟨v', hv'⟩ := (regular_of_scalesClose hcc hc).mfVarM M a1 a2 (by exact_mod_cast hj2c) (scalesClose_rows hcc hrc) weighted nc hq
  have hT := totalBound hc hcc h1 h12 hj2c hq hv hv'
  rcases hll with ⟨e1, e2⟩ | ⟨rfl, l, l', e1, e2, hcl⟩
  · refine ⟨⟨v, none⟩, ⟨v', none⟩, ?_, ?_, hT, Or.inl ⟨e1, rfl, rfl⟩⟩
    · unfold mfAnalysisFull mfAnalysis
      rw [h]
      simp only [hnq, e1, hj]
      rw [hv]
    · unfold Machine.mfAnalysisFull Machine.mfAnalysis
      rw [hw']
      simp only [hnq, e2, hj']
      rw [hv']
  · have hreg := hl _ e1 rfl
    have hrl := rows_ne_nil hR h _ (Or.inr ⟨e1, rfl⟩)
    obtain ⟨x, hx⟩ := hreg.mfVarM Machine.exact a1 a2 (by exact_mod_cast hj2J) hrl weighted nc hq
    rw [Machine.exact_mfVar] at hx
    obtain ⟨x', hx'⟩ := (regular_of_scalesClose hcl hreg).mfVarM M a1 a2 (by exact_mod_cast hj2J) (scalesClose_rows hcl hrl) weighted nc hq
    refine ⟨⟨v, some x⟩, ⟨v', some x'⟩, ?_, ?_, hT, Or.inr ⟨l, x, x', e1, rfl, rfl, totalBound hreg hcl h1 h12 hj2J hq hx hx'⟩⟩
    · unfold mfAnalysisFull mfAnalysis
      rw [h]
      simp only [hnq, e1, hj]
      rw [hv]
      simp only
      rw [hx]
    · unfold Machine.mfAnalysisFull Machine.mfAnalysis
      rw [hw']
      simp only [hnq, e2, hj']
      rw [hv']
      simp only
      rw [hx']

end

end MFA
