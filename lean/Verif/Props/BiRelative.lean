import Verif.Lemmas.BiRelative
import Verif.Spec.BiWithin
import Verif.Props.BiContinuity
import Verif.Props.RoundingSignal

/-!
# Property C139: relative errors move the bivariate estimates by a known amount
-/

namespace MFA

noncomputable section

/-- The real pairs at one scale, with their size. -/
theorem scale_pairs_log {m1 m2 : MRQ 1} {J : ℕ} (hp : Paired m1 m2 J) (hs : SameNaN m1 m2) {Y : ℝ} {k : ℕ} (hd1 : LogData Y k m1) (hd2 : LogData Y k m2)
    {q : (ℤ × Arr 1) × (ℤ × Arr 1)} (hq : q ∈ biList m1 m2) : ∃ zs, JointIs (biPairs q) zs ∧ zs ≠ [] ∧ (∀ z ∈ zs, z.1 ≠ 0 ∧ z.2 ≠ 0) ∧
      ∀ z ∈ zs, |Real.log (|z.1|)| ≤ Y * Real.log 2 ∧ |Real.log (|z.2|)| ≤ Y * Real.log 2 := by
  obtain ⟨zs, a1, a2, a3⟩ := scale_pairs hp hs (logData_nonzero hd1) (logData_nonzero hd2) hq
  refine ⟨zs, a1, a2, a3, fun z hz => ?_⟩
  have q1 : q.1 ∈ m1.values := by rw [← hp.fst]; exact List.mem_map_of_mem hq
  have q2 : q.2 ∈ m2.values := by rw [← hp.snd]; exact List.mem_map_of_mem hq
  have hl : 0 < Real.log 2 := Real.log_pos (by norm_num)
  have hmem : (Fl.fin z.1, Fl.fin z.2) ∈ biPairs q := by
    have : (Fl.fin z.1, Fl.fin z.2) ∈ (biPairs q).filter (fun p => !p.1.isNaN && !p.2.isNaN) := by
      rw [a1]; exact List.mem_map_of_mem (f := fun z : ℝ × ℝ => (Fl.fin z.1, Fl.fin z.2)) hz
    exact (List.mem_filter.1 this).1
  obtain ⟨b1, b2⟩ := List.of_mem_zip hmem
  have key : ∀ (c : List Fl) (t : ℝ), LogCol c Y → Fl.fin t ∈ c → |Real.log (|t|)| ≤ Y * Real.log 2 := by
    intro c t hc ht
    rcases hc.2 _ ht with h | ⟨s, -, e, hb⟩
    · cases h
    · rw [(Fl.fin_inj _ _).1 e]
      rwa [Real.logb, abs_div, abs_of_pos hl, div_le_iff₀ hl] at hb
  exact ⟨key _ _ ((hd1 _ q1).2.2 0) b1, key _ _ ((hd2 _ q2).2.2 0) b2⟩

/-- **C139.**  If the values of two quantities are between `2^(-Y)` and `2^Y` and every one of them is multiplied by its own factor between `e^(-δ)` and
`e^δ`, the bivariate estimates change at most by the amounts of `BiWithin`. -/
theorem C139_relative {m1 m2 m1' m2' : MRQ 1} {J : ℕ} (hp : Paired m1 m2 J) (hs : SameNaN m1 m2) (hp' : Paired m1' m2' J) (hs' : SameNaN m1' m2')
    {Y : ℝ} {k : ℕ} (hd1 : LogData Y k m1) (hd2 : LogData Y k m2) {δ : ℝ} (r1 : MRQRelated (EntryRelClose δ) m1 m1')
    (r2 : MRQRelated (EntryRelClose δ) m2 m2') {j1 j2 : ℕ} (h1 : 1 ≤ j1)
    (h12 : j1 < j2) (h2 : j2 ≤ J) (weighted : Bool) (q1 q2 : List ℝ) (hn1 : q1.Nodup) (hn2 : q2.Nodup)
    (hq1 : (0:ℝ) ∈ q1 ∧ (1:ℝ) ∈ q1 ∧ (2:ℝ) ∈ q1) (hq2 : (0:ℝ) ∈ q2 ∧ (1:ℝ) ∈ q2 ∧ (2:ℝ) ∈ q2) (n : ℕ) (hn : 2 ≤ n) :
    ∃ v v', biVar false m1 m2 j1 j2 weighted n (some (.ndarray q1)) (some (.ndarray q2)) = .ok v ∧
      biVar false m1' m2' j1 j2 weighted n (some (.ndarray q1)) (some (.ndarray q2)) = .ok v' ∧ BiWithin Y δ weighted j1 j2 q1 q2 n v v' := by
  have a1 : (1:ℤ) ≤ (j1 : ℤ) := by exact_mod_cast h1
  have a2 : (j1 : ℤ) ≤ (j2 : ℤ) := by exact_mod_cast h12.le
  have a3 : (j2 : ℤ) ≤ (J : ℤ) := by exact_mod_cast h2
  have hlog : 0 < Real.log 2 := Real.log_pos (by norm_num)
  obtain ⟨u1, u1', b1, b1', hu1⟩ := C122_relative_all hp.reg1 hp'.reg1 hd1 r1 h1 h12 h2 weighted q1 hq1.2.2 n
  obtain ⟨u2, u2', b2, b2', hu2⟩ := C122_relative_all hp.reg2 hp'.reg2 hd2 r2 h1 h12 h2 weighted q2 hq2.2.2 n
  obtain ⟨v, hv, hvm⟩ := biVar_marginals hp hs a1 a2 a3 weighted n hn q1 q2 hn1 hn2 hq1 hq2 b1 b2
  obtain ⟨v', hv', hvm'⟩ := biVar_marginals hp' hs' a1 a2 a3 weighted n hn q1 q2 hn1 hn2 hq1 hq2 b1' b2'
  obtain ⟨p1, p2, p3⟩ := biVar_parts hp a1 a2 a3 hn1 hn2 hq1 hq2 hn hv
  obtain ⟨p1', p2', p3'⟩ := biVar_parts hp' a1 a2 a3 hn1 hn2 hq1 hq2 hn hv'
  have hne : ∀ p ∈ m1.values, ∃ x ∈ col p.2 0, x ≠ Fl.nan := fun p hp => ((hd1 p hp).2.2 0).1
  have slope := fun (Z : (ℤ × Arr 1) × (ℤ × Arr 1) → Fl) (E : ℝ) => biSlope_rel EntryRelClose.nan hp r1 r2 h1 h12 h2 weighted hne Z E
  have cum : ∀ a b (E : ℝ), (∀ q ∈ biList m1 m2, ∀ q', List.Forall₂ (PairRel δ) (biPairs q) (biPairs q') → FlClose E (bcAt n a b q) (bcAt n a b q')) →
      FlClose (slopeFactor weighted j1 j2 * E / Real.log 2) (v.cumulants.log_cumulants a b) (v'.cumulants.log_cumulants a b) := by
    intro a b E h
    obtain ⟨s, t, e1, e2, e3⟩ := slope (bcAt n a b) E h
    refine ⟨s * log2e, t * log2e, by rw [p3, e1, Fl.fin_mul], by rw [p3', e2, Fl.fin_mul], ?_⟩
    rw [log2e_eq, ← sub_mul, abs_mul, abs_of_pos (inv_pos.2 hlog), ← div_eq_mul_inv]
    exact div_le_div_of_nonneg_right e3 hlog.le
  refine ⟨v, v', hv, hv', ?_, ?_, ?_, ?_, ?_⟩
  · intro i l e1 e2 hi hl
    refine ⟨_, _, p1 i l _ _ hi hl, p1' i l _ _ hi hl, slope _ _ fun q hq q' hqq => ?_⟩
    obtain ⟨zs, c1, c2, c3, -⟩ := scale_pairs_log hp hs hd1 hd2 hq
    exact bsLog_rel c1 c2 c3 hqq e1 e2
  · refine cum 1 1 _ fun q hq q' hqq => ?_
    obtain ⟨zs, c1, c2, c3, c4⟩ := scale_pairs_log hp hs hd1 hd2 hq
    exact bc11_rel c1 c2 c3 c4 hqq (by omega)
  · intro i hi
    constructor
    · obtain ⟨c, c', f1, f2, f3⟩ := (hu1 0).1 i hi
      have g1 := (hvm.1 i hi).1
      have g2 := (hvm'.1 i hi).1
      rw [f1] at g1; rw [f2] at g2
      rw [← Option.some.inj g1, ← Option.some.inj g2]
      exact f3
    · obtain ⟨c, c', f1, f2, f3⟩ := (hu2 0).1 i hi
      have g1 := (hvm.1 i hi).2
      have g2 := (hvm'.1 i hi).2
      rw [f1] at g1; rw [f2] at g2
      rw [← Option.some.inj g1, ← Option.some.inj g2]
      exact f3
  · intro a b _ _ hab
    have := cum a b 0 fun q _ q' _ => by
      have e : ∀ q, bcAt n a b q = Fl.fin 0 := fun q => bcTable_zero _ _ _ _ (by omega)
      exact ⟨0, 0, e q, e q', by simp⟩
    simpa using this
  · rw [p2, p2', List.forall₂_map_left_iff, List.forall₂_map_right_iff]
    have hl := biList_rel r1 r2
    rw [List.forall₂_iff_zip] at hl ⊢
    refine ⟨hl.1, fun {a b} hab => ?_⟩
    obtain ⟨zs, c1, c2, c3, -⟩ := scale_pairs_log hp hs hd1 hd2 (List.of_mem_zip hab).1
    exact coh_rel c1 c2 c3 (hl.2 hab).2.2

/-- Absolute errors of data of known size are relative errors. -/
theorem related_rel {R : ℕ} {η Y : ℝ} {k : ℕ} {m m' : MRQ R} (h : MRQRelated (EntryClose η) m m') (hd : LogData Y k m) (hη : 4 * η * 2 ^ Y ≤ 1) :
    MRQRelated (EntryRelClose (2 * η * 2 ^ Y)) m m' := by
  refine ⟨h.1, ?_⟩
  have h2 := h.2
  rw [List.forall₂_iff_zip] at h2 ⊢
  refine ⟨h2.1, fun {a b} hab => ⟨(h2.2 hab).1, ?_⟩⟩
  have ha := (hd a (List.of_mem_zip hab).1).2.2
  have h3 := (h2.2 hab).2
  rw [List.forall₂_iff_zip] at h3 ⊢
  refine ⟨h3.1, fun {u u'} huu r => ?_⟩
  rcases h3.2 huu r with e | ⟨s, t, e1, e2, e3⟩
  · exact Or.inl e
  · rcases (ha r).2 (u r) (List.mem_map.2 ⟨u, (List.of_mem_zip huu).1, rfl⟩) with e | ⟨s', hs0, e, hY⟩
    · rw [e1] at e; cases e
    · rw [e1] at e
      obtain rfl := (Fl.fin_inj _ _).1 e
      obtain ⟨θ, hθ, hθ'⟩ := abs_to_rel hs0 hY e3 hη
      exact Or.inr ⟨s, θ, e1, by rw [e2, hθ], hθ'⟩

/-- **C139, the bivariate analysis with an explicit modulus of continuity.**  Let `bivariate_analysis_full` be called on two signals whose wavelet coefficients
and leaders are between `2^(-Y)` and `2^Y`, and on two other signals whose samples differ from theirs by at most `η`.  With `L` the sum over the scales of the
largest factor by which a change of the samples is amplified in a coefficient, and `δ = 2 L η 2^Y` at most 1/2, the results of the two calls differ at most by
the amounts of `BiWithin`. -/
theorem C139_signal {N : ℕ} {x y x' y' : Fin 1 → ℤ → ℝ} {wt : Wavelet} (hwt : wt.Valid) {j1 : ℕ}
    {j2 : Option ℝ} {g nm : ℝ} (hnm : nm ≠ 0) {weighted : Bool} {w1 w2 : WT 1} (hw1 : waveletAnalysis (sampled N x) .inf wt j1 j2 g nm weighted = .ok w1)
    (hw2 : waveletAnalysis (sampled N y) .inf wt j1 j2 g nm weighted = .ok w2)
    (h1 : 1 ≤ j1) (h12 : (j1 : ℤ) < w1.j2_eff) {Y : ℝ} {k : ℕ} (n1 : LogData Y k w1.wt_coefs) (n2 : LogData Y k w2.wt_coefs)
    (l1 : ∀ l, w1.wt_leaders = some l → LogData Y k l) (l2 : ∀ l, w2.wt_leaders = some l → LogData Y k l)
    {q1 q2 : List ℝ} (hn1 : q1.Nodup) (hn2 : q2.Nodup)
    (hq1 : (0:ℝ) ∈ q1 ∧ (1:ℝ) ∈ q1 ∧ (2:ℝ) ∈ q1) (hq2 : (0:ℝ) ∈ q2 ∧ (1:ℝ) ∈ q2 ∧ (2:ℝ) ∈ q2) {n : ℕ} (hn : 2 ≤ n)
    {Jc : ℕ} (hJc : Regular w1.wt_coefs Jc) {η : ℝ} (hη0 : 0 ≤ η) (hη : 4 * (lipMax wt g nm Jc * η) * 2 ^ Y ≤ 1)
    (hx : ∀ r (i : ℕ), i < N → |x r i - x' r i| ≤ η ∧ |y r i - y' r i| ≤ η) :
    ∃ d l d' l', bivariateAnalysisFull (sampled N x) (sampled N y) j1 j2 nm g weighted wt .inf (some (.ndarray q1)) (some (.ndarray q2)) n = .ok (d, l) ∧
      bivariateAnalysisFull (sampled N x') (sampled N y') j1 j2 nm g weighted wt .inf (some (.ndarray q1)) (some (.ndarray q2)) n = .ok (d', l') ∧
      BiWithin Y (2 * (lipMax wt g nm Jc * η) * 2 ^ Y) weighted j1 w1.j2_eff.toNat q1 q2 n d d' ∧
      BiWithin Y (2 * (lipMax wt g nm Jc * η) * 2 ^ Y) weighted j1 w1.j2_eff.toNat q1 q2 n l l' := by
  obtain ⟨J, Jc0, a1, a2, he, hJ, hJJ, hl1, hl2, -, -, hpc, hsc, hpl, hsl⟩ := wa_paired hwt hw1 hw2
  obtain rfl := hJc.unique hpc.reg1
  obtain ⟨k2, hk2⟩ := Int.eq_ofNat_of_zero_le (show 0 ≤ w1.j2_eff by omega)
  have hjj : j1 < k2 := by rw [hk2] at h12; exact_mod_cast h12
  have hkJ : k2 ≤ J := by rw [hk2] at hJ; exact_mod_cast hJ
  have hN0 : N ≠ 0 := by
    rintro rfl
    obtain ⟨ml, K, Kc, e, -⟩ := wa_inv hw1
    simp [sampled, maxLevel] at e
  have ex : ∀ z : Fin 1 → ℤ → ℝ, ∃ w, waveletAnalysis (sampled N z) .inf wt j1 j2 g nm weighted = .ok w := by
    intro z
    refine C05_total _ .inf (Or.inr rfl) wt _ _ g nm weighted one_ne_zero ?_ hnm
    intro he
    have := congrArg List.length he
    rw [sampled_length] at this
    exact hN0 this
  obtain ⟨w1', hw1'⟩ := ex x'
  obtain ⟨w2', hw2'⟩ := ex y'
  obtain ⟨e1, rc1, rel1, le1⟩ := wa_close (by norm_num) (Or.inr rfl) hwt hw1 hw1' hpc.reg1 (fun a ha _ => by rw [hl1] at ha; cases ha; exact hpl.reg1)
    hη0 le_rfl (fun r i hi => (hx r i hi).1)
  obtain ⟨e2, rc2, rel2, le2⟩ := wa_close (by norm_num) (Or.inr rfl) hwt hw2 hw2' hpc.reg2 (fun a ha _ => by rw [hl2] at ha; cases ha; exact hpl.reg2)
    hη0 le_rfl (fun r i hi => (hx r i hi).2)
  obtain ⟨l1', hl1', rl1, rll1⟩ := le1 _ hl1
  obtain ⟨l2', hl2', rl2, rll2⟩ := le2 _ hl2
  obtain ⟨J', Jc', b1, b2, he', -, -, hb1, hb2, -, -, hpc', hsc', hpl', hsl'⟩ := wa_paired hwt hw1' hw2'
  rw [hl1'] at hb1; cases hb1
  rw [hl2'] at hb2; cases hb2
  obtain rfl := hpc'.reg1.unique rc1
  obtain rfl := hpl'.reg1.unique rl1
  obtain ⟨d, d', hd, hd', hdc⟩ := C139_relative hpc hsc hpc' hsc' n1 n2 (related_rel rel1 n1 hη) (related_rel rel2 n2 hη) h1 hjj (hkJ.trans hJJ) weighted
    q1 q2 hn1 hn2 hq1 hq2 n hn
  obtain ⟨l, l', hl, hl', hlc⟩ := C139_relative hpl hsl hpl' hsl' (l1 _ hl1) (l2 _ hl2) (related_rel rll1 (l1 _ hl1) hη) (related_rel rll2 (l2 _ hl2) hη)
    h1 hjj hkJ weighted q1 q2 hn1 hn2 hq1 hq2 n hn
  refine ⟨d, l, d', l', ?_, ?_, ?_, ?_⟩
  · unfold bivariateAnalysisFull bivariateAnalysis
    simp only [hw1, hw2, hl1, hl2, ← he, min_self, hk2, hd, hl]
  · unfold bivariateAnalysisFull bivariateAnalysis
    simp only [hw1', hw2', hl1', hl2', e1, e2, ← he, min_self, hk2, hd', hl']
  · rw [hk2]; exact hdc
  · rw [hk2]; exact hlc

end

end MFA
