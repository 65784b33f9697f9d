import Verif.Props.Dominance
import Verif.Props.MrwEstimation
import Verif.Props.EndToEnd

/-! C130: one large sample determines the estimates of a recording of any length. -/

namespace MFA

open Classical Finset

noncomputable section

variable {R : ℕ}

/-- The samples `x`, with sample number `t0` of each realisation replaced by `A`. -/
def withOutlier (x : Fin R → ℤ → ℝ) (t0 : ℕ) (A : ℝ) : Fin R → ℤ → ℝ := fun r t => if t = t0 then A else x r t

/-- The signal that is 1 at `t0` and 0 elsewhere. -/
def impulse (t0 : ℕ) : ℤ → ℝ := fun t => if t = t0 then 1 else 0

/-! ### The Haar coefficients of an impulse -/

theorem haar_half (k : ℤ) : (2 * k + 1) / 2 = k := by omega

theorem haar_approx (t0 : ℕ) : ∀ (j : ℕ) (k : ℤ), idealApprox haarN.dec_lo (impulse t0) j k =
    if k = ((t0 / 2 ^ j : ℕ) : ℤ) then ((Real.sqrt 2)⁻¹) ^ j else 0
  | 0, k => by simp [idealApprox, impulse]
  | j + 1, k => by
    have e : idealApprox haarN.dec_lo (impulse t0) (j + 1) k =
        (Real.sqrt 2)⁻¹ * idealApprox haarN.dec_lo (impulse t0) j (2 * k + 1) + (Real.sqrt 2)⁻¹ * idealApprox haarN.dec_lo (impulse t0) j (2 * k) := by
      simp [idealApprox, downFilter, haarN, Finset.sum_range_succ]
    rw [e, haar_approx t0 j, haar_approx t0 j, pow_succ, ← Nat.div_div_eq_div_mul]
    generalize t0 / 2 ^ j = m
    by_cases h1 : k = ((m / 2 : ℕ) : ℤ)
    · rw [if_pos h1]
      rcases Nat.mod_two_eq_zero_or_one m with h | h
      · rw [if_neg (by omega), if_pos (by omega), pow_succ]; ring
      · rw [if_pos (by omega), if_neg (by omega), pow_succ]; ring
    · rw [if_neg h1, if_neg (by omega), if_neg (by omega)]; ring

theorem haar_detail (t0 i : ℕ) (k : ℤ) : |idealDetail haarN (impulse t0) (i + 1) k| =
    if k = ((t0 / 2 ^ (i + 1) : ℕ) : ℤ) then ((Real.sqrt 2)⁻¹) ^ (i + 1) else 0 := by
  have e : idealDetail haarN (impulse t0) (i + 1) k =
      (Real.sqrt 2)⁻¹ * (idealApprox haarN.dec_lo (impulse t0) i (2 * k + 1) - idealApprox haarN.dec_lo (impulse t0) i (2 * k)) := by
    simp [idealDetail, downFilter, haarN, Finset.sum_range_succ]; ring
  have h0 : (0:ℝ) ≤ (Real.sqrt 2)⁻¹ := by positivity
  rw [e, haar_approx, haar_approx, pow_succ 2, ← Nat.div_div_eq_div_mul, abs_mul, abs_of_nonneg h0]
  generalize t0 / 2 ^ i = m
  by_cases h1 : k = ((m / 2 : ℕ) : ℤ)
  · rw [if_pos h1]
    rcases Nat.mod_two_eq_zero_or_one m with h | h
    · rw [if_neg (by omega), if_pos (by omega), pow_succ, zero_sub, abs_neg, abs_of_nonneg (by positivity)]; ring
    · rw [if_pos (by omega), if_neg (by omega), pow_succ, sub_zero, abs_of_nonneg (by positivity)]; ring
  · rw [if_neg h1, if_neg (by omega), if_neg (by omega)]; simp

/-! ### The statistics of a scale with a single value that is not zero -/

/-- The values of one scale: all zero except one, of modulus `a`. -/
def SpikeScale (xs : List ℝ) (a : ℝ) : Prop :=
  0 < a ∧ (∃ x ∈ xs, |x| = a) ∧ (∀ x ∈ xs, |x| ≤ a) ∧ ∀ f : ℝ → ℝ, f 0 = 0 → (xs.map fun x => f |x|).sum = f a

theorem SpikeScale.exists_ne {xs : List ℝ} {a : ℝ} (h : SpikeScale xs a) : ∃ x ∈ xs, x ≠ 0 := by
  obtain ⟨x, hx, e⟩ := h.2.1
  refine ⟨x, hx, ?_⟩
  rintro rfl
  rw [abs_zero] at e
  exact h.1.ne e

theorem SpikeScale.powSum {xs : List ℝ} {a : ℝ} (h : SpikeScale xs a) {e : ℝ} (he : 0 < e) : MFA.powSum xs e = a ^ e :=
  h.2.2.2 (fun x => x ^ e) (Real.zero_rpow he.ne')

theorem SpikeScale.stats {xs : List ℝ} {a : ℝ} (h : SpikeScale xs a) {c : List Fl} (hc : Entries c xs) {e : ℝ} (he : 0 < e) :
    (nanmean ((c.map Fl.abs).map (fastPower (.real e)))).log2 = Fl.fin (e * Real.logb 2 a - Real.logb 2 xs.length) ∧
    msV c (.real e) = Fl.fin (Real.logb 2 a) ∧ msU (countNotNaN c) c (.real e) = Fl.fin (Real.logb 2 xs.length) ∧
    (nanmax (c.map Fl.abs)).log2 = Fl.fin (Real.logb 2 a) := by
  have hx := h.exists_ne
  have hne : xs ≠ [] := by rintro rfl; simp at hx
  have hl : (0:ℝ) < xs.length := by exact_mod_cast List.length_pos_iff.2 hne
  have ha := h.1
  have hpa : 0 < a ^ e := by positivity
  have he' : 0 < (Expo.real e).val := he
  have hps : MFA.powSum xs (Expo.real e).val = a ^ e := h.powSum he
  refine ⟨?_, ?_, ?_, ?_⟩
  · rw [sfMean_col hc (Or.inl he') hne, hps, Fl.log2_fin (div_pos hpa hl), Real.logb_div hpa.ne' hl.ne', Real.logb_rpow_eq_mul_logb_of_pos ha]
  · rw [msV_eq hc (Or.inl he') hx, hps]
    have := h.2.2.2 (fun x => x ^ e / a ^ e * Real.logb 2 x) (by simp)
    refine congrArg Fl.fin (this.trans ?_)
    rw [div_self hpa.ne', one_mul]
  · rw [hc.count, msU_eq hc (Or.inl he') hx (List.length_pos_iff.2 hne), hps]
    have := h.2.2.2 (fun x => x ^ e / a ^ e * Real.logb 2 (x ^ e / a ^ e)) (by rw [Real.zero_rpow he.ne']; simp)
    refine congrArg Fl.fin ?_
    refine (congrArg _ this).trans ?_
    rw [div_self hpa.ne', Real.logb_one]; ring
  · obtain ⟨M, hM, ⟨x, hx, hxM⟩, hle⟩ := nanmax_abs hc hne
    have : M = a := by
      refine le_antisymm (hxM ▸ h.2.2.1 x hx) ?_
      obtain ⟨y, hy, e⟩ := h.2.1
      rw [← e]; exact hle y hy
    rw [hM, this, Fl.log2_fin ha]

/-! ### The estimates of an impulse -/

theorem impulse_block {N t0 j : ℕ} (h1 : 1 ≤ j) (h : t0 + 3 * 2 ^ (j - 1) ≤ N) : t0 / 2 ^ j ∈ interior N haarN.dec_hi.length j := by
  obtain ⟨i, rfl⟩ : ∃ i, j = i + 1 := ⟨j - 1, by omega⟩
  have e : haarN.dec_hi.length = 2 := rfl
  have hp : 0 < 2 ^ i := by positivity
  rw [e, interior, mem_filter, mem_range, Nat.add_sub_cancel, pow_succ, ← Nat.div_div_eq_div_mul, ← Nat.div_div_eq_div_mul]
  have h3 : t0 / 2 ^ i + 3 ≤ N / 2 ^ i := by
    rw [Nat.le_div_iff_mul_le hp, add_mul]
    have := Nat.div_mul_le_self t0 (2 ^ i)
    rw [Nat.add_sub_cancel] at h
    omega
  omega

theorem haar_spike {N t0 : ℕ} {p : PExp} {b1 : ℤ} {b2 : Option ℝ} {g nm : ℝ} {weighted : Bool} {w : WT R}
    (h : waveletAnalysis (sampled N fun _ : Fin R => impulse t0) p haarN b1 b2 g nm weighted = .ok w) {j : ℕ} (hj1 : 1 ≤ j)
    (hjl : j ≤ w.wt_coefs.values.length) (hblock : t0 + 3 * 2 ^ (j - 1) ≤ N) {r : Fin R} {xs : List ℝ}
    (hs : ∀ f : ℝ → ℝ, (xs.map f).sum = ∑ k ∈ interior N haarN.dec_hi.length j, f (w.wt_coefs.number j k r))
    (hm : ∀ y ∈ xs, ∃ k ∈ interior N haarN.dec_hi.length j, y = w.wt_coefs.number j k r) :
    SpikeScale xs ((2:ℝ) ^ ((j : ℝ) * (g - 1 / nm))) := by
  have hnum : ∀ k ∈ interior N haarN.dec_hi.length j, |w.wt_coefs.number j k r| = if k = t0 / 2 ^ j then (2:ℝ) ^ ((j : ℝ) * (g - 1 / nm)) else 0 := by
    intro k hk
    obtain ⟨-, e, -⟩ := reported_linear haarN_exact.1 h (interior_reported haarN_exact.1 h hj1 hjl hk r)
    obtain ⟨i, rfl⟩ : ∃ i, j = i + 1 := ⟨j - 1, by omega⟩
    rw [e, abs_mul, haar_detail, abs_of_pos (by positivity)]
    by_cases hk0 : k = t0 / 2 ^ (i + 1)
    · rw [if_pos hk0, if_pos (by exact_mod_cast hk0)]
      have e2 : ((Real.sqrt 2)⁻¹) ^ (i + 1) = (2:ℝ) ^ (((i + 1 : ℕ) : ℝ) * (-(1 / 2))) := by
        rw [Real.sqrt_eq_rpow, ← Real.rpow_neg (by norm_num), ← Real.rpow_natCast, ← Real.rpow_mul (by norm_num)]
        ring_nf
      rw [e2, ← Real.rpow_add (by norm_num)]
      congr 1; ring
    · rw [if_neg hk0, if_neg (by exact_mod_cast hk0), mul_zero]
  have hk0 := impulse_block hj1 hblock
  refine ⟨by positivity, ?_, fun x hx => ?_, fun f hf => ?_⟩
  · by_contra hno
    push Not at hno
    have h1 := hs fun x => if |x| = (2:ℝ) ^ ((j : ℝ) * (g - 1 / nm)) then 1 else 0
    have e1 : (xs.map fun x => if |x| = (2:ℝ) ^ ((j : ℝ) * (g - 1 / nm)) then (1:ℝ) else 0) = xs.map fun _ => 0 :=
      List.map_congr_left fun x hx => if_neg (hno x hx)
    rw [e1] at h1
    have e2 := single_le_sum (f := fun k => if |w.wt_coefs.number j k r| = (2:ℝ) ^ ((j : ℝ) * (g - 1 / nm)) then (1:ℝ) else 0)
      (fun k _ => by split <;> norm_num) hk0
    rw [← h1] at e2
    simp only [hnum _ hk0, if_true] at e2
    simp at e2
    linarith
  · obtain ⟨k, hk, rfl⟩ := hm x hx
    rw [hnum k hk]
    split
    · exact le_rfl
    · positivity
  · rw [hs fun x => f |x|, sum_eq_single_of_mem _ hk0]
    · rw [hnum _ hk0, if_pos rfl]
    · intro k hk hne
      rw [hnum k hk, if_neg hne, hf]

/-- The number of usable coefficients of a scale is close to `N / 2^j` on a logarithmic scale. -/
theorem haar_count {ε : ℝ} (hε : 0 < ε) (j2 : ℕ) : ∃ N₀ : ℕ, ∀ N ≥ N₀, ∀ j : ℕ, 1 ≤ j → j ≤ j2 →
    |Real.logb 2 ((interior N haarN.dec_hi.length j).card : ℝ) - (Real.logb 2 N - j)| ≤ ε := by
  obtain ⟨θ, hθ, h⟩ := logb_near hε
  obtain ⟨N₀, hN₀⟩ := exists_nat_gt (5 * 2 ^ j2 / θ)
  refine ⟨N₀ + 1, fun N hN j h1 h2 => ?_⟩
  have hNpos : (0:ℝ) < N := by exact_mod_cast (by omega : 0 < N)
  have hN' : 5 * 2 ^ j2 / θ < N := hN₀.trans (by exact_mod_cast (by omega : N₀ < N))
  have hp : (0:ℝ) < 2 ^ j := by positivity
  have hm : (0:ℝ) < N / 2 ^ j := by positivity
  have hle : (interior N haarN.dec_hi.length j).card ≤ N / 2 ^ j := by
    refine (card_filter_le _ _).trans ?_
    rw [card_range]
  have hge : N / 2 ^ j ≤ (interior N haarN.dec_hi.length j).card + 4 := by
    have := interior_card_ge N haarN.dec_hi.length j h1
    have e : haarN.dec_hi.length = 2 := rfl
    rw [e] at this ⊢
    omega
  have b1 : ((interior N haarN.dec_hi.length j).card : ℝ) ≤ N / 2 ^ j := by
    have : ((N / 2 ^ j : ℕ) : ℝ) ≤ (N : ℝ) / ((2 ^ j : ℕ) : ℝ) := Nat.cast_div_le
    push_cast at this
    exact (by exact_mod_cast hle : ((interior N haarN.dec_hi.length j).card : ℝ) ≤ ((N / 2 ^ j : ℕ) : ℝ)).trans this
  have b2 : (N : ℝ) / 2 ^ j < (interior N haarN.dec_hi.length j).card + 5 := by
    rw [div_lt_iff₀ hp]
    have h3 : N < (N / 2 ^ j + 1) * 2 ^ j := by
      have := Nat.lt_div_mul_add (a := N) (b := 2 ^ j) (by positivity)
      rw [add_mul, one_mul]
      exact this
    have h4 : N < ((interior N haarN.dec_hi.length j).card + 5) * 2 ^ j := lt_of_lt_of_le h3 (Nat.mul_le_mul_right _ (by omega))
    exact_mod_cast h4
  have b3 : 5 ≤ θ * (N / 2 ^ j) := by
    rw [div_lt_iff₀ hθ] at hN'
    rw [mul_div_assoc', le_div_iff₀ hp]
    have : (2:ℝ) ^ j ≤ 2 ^ j2 := pow_le_pow_right₀ (by norm_num) h2
    linarith
  obtain ⟨-, hl⟩ := h (N / 2 ^ j) (interior N haarN.dec_hi.length j).card hm (by rw [abs_lt]; constructor <;> linarith)
  rwa [Real.logb_div hNpos.ne' hp.ne', Real.logb_pow, Real.logb_self_eq_one (by norm_num), mul_one] at hl

/-- The estimates of positive order of an analysis are those of an isolated point: with `k = gamint - 1/p`, `hmin` and `h(q)` are `k`, `zeta(q)` is
`1 + q k`, `D(q)` is 0, and `H` is `1/2 - 1/p`. -/
def IsolatedPoint (ε : ℝ) (q : List ℝ) (g nm : ℝ) (v : MFVar R) (r : Fin R) : Prop :=
  Near (v.structure_.H r) (1 / 2 - 1 / nm) ε ∧ Near (v.hmin r) (g - 1 / nm) ε ∧
  ∀ (i : ℕ) (hi : i < q.length), 0 < q[i] →
    (∃ z, v.structure_.zeta[i]? = some z ∧ Near (z r) (1 + q[i] * (g - 1 / nm)) ε) ∧
    (∃ h, v.spectrum.hq[i]? = some h ∧ Near (h r) (g - 1 / nm) ε) ∧
    ∃ D, v.spectrum.Dq[i]? = some D ∧ Near (D r) 0 ε

theorem IsolatedPoint.close {ε ε' : ℝ} {q : List ℝ} {g nm : ℝ} {v v' : MFVar R} {r : Fin R} (h : IsolatedPoint ε q g nm v r)
    (hc : PositiveOrdersClose ε' q r v v') : IsolatedPoint (ε + ε') q g nm v' r := by
  have key : ∀ {x y : Fl} {t : ℝ}, Near x t ε → FlClose ε' x y → Near y t (ε + ε') := by
    rintro x y t ⟨a, rfl, ha⟩ ⟨b, c, e1, rfl, hbc⟩
    rw [Fl.fin_inj] at e1
    subst e1
    refine ⟨c, rfl, ?_⟩
    rw [abs_le] at *
    constructor <;> linarith
  obtain ⟨a1, a2, a3⟩ := h
  obtain ⟨c1, c2, c3⟩ := hc
  refine ⟨key a1 c1, key a2 c2, fun i hi h0 => ?_⟩
  obtain ⟨⟨z, d1, d1'⟩, ⟨h, d2, d2'⟩, D, d3, d3'⟩ := a3 i hi h0
  obtain ⟨⟨z1, z2, e1, e1', e1''⟩, ⟨h1, h2, e2, e2', e2''⟩, D1, D2, e3, e3', e3''⟩ := c3 i hi h0
  rw [d1] at e1; cases e1
  rw [d2] at e2; cases e2
  rw [d3] at e3; cases e3
  exact ⟨⟨z2, e1', key d1' e1''⟩, ⟨h2, e2', key d2' e2''⟩, D2, e3', key d3' e3''⟩

theorem impulse_estimates (q : List ℝ) (hq : (2:ℝ) ∈ q) (n j1 j2 : ℕ) (h1 : 1 ≤ j1) (h12 : j1 < j2) {ε : ℝ} (hε : 0 < ε) : ∃ N₀ : ℕ, ∀ {R N t0 : ℕ},
    N₀ ≤ N → t0 + 3 * 2 ^ (j2 - 1) ≤ N → ∀ {p : PExp} {b1 : ℤ} {b2 : Option ℝ} {g nm : ℝ} {weighted : Bool} {w : WT R} {v : MFVar R}, R ≠ 0 →
    waveletAnalysis (sampled N fun _ : Fin R => impulse t0) p haarN b1 b2 g nm weighted = .ok w → j2 ≤ w.wt_coefs.values.length →
    IsBundle w.wt_coefs j1 j2 weighted n q v → ∀ r, IsolatedPoint ε q g nm v r := by
  have hl0 : (0:ℝ) < ((j2 : ℝ) + 1) := by positivity
  obtain ⟨N₀, hN₀⟩ := haar_count (ε := ε / (j2 + 1)) (by positivity) j2
  refine ⟨N₀, ?_⟩
  intro R N t0 hN hblock p b1 b2 g nm weighted w v hR hw hlen hv r
  obtain ⟨hreg, hg, hent⟩ := analysis_entries haarN_exact.1 hw
  have a1 : (1:ℤ) ≤ (j1 : ℤ) := by exact_mod_cast h1
  have a2 : (j1 : ℤ) ≤ (j2 : ℤ) := by exact_mod_cast h12.le
  have a3 : (j2 : ℤ) ≤ (w.wt_coefs.values.length : ℤ) := by exact_mod_cast hlen
  have a4 : (j1 : ℤ) < (j2 : ℤ) := by exact_mod_cast h12
  have hkeys := hreg.sub_keys a1 a2 a3
  have hkey : ∀ a ∈ subR w.wt_coefs j1 j2, ∃ j : ℕ, a.1 = j ∧ j1 ≤ j ∧ j ≤ j2 ∧ ∃ xs : List ℝ, Entries (col a.2 r) xs ∧
      xs.length = (interior N haarN.dec_hi.length j).card ∧ SpikeScale xs ((2:ℝ) ^ ((j : ℝ) * (g - 1 / nm))) := by
    intro a ha
    obtain ⟨j, hj, hj1, hjl, hx⟩ := hent a (sub_mem ha)
    obtain ⟨xs, hxs, hs, hl, hm⟩ := hx r
    have hmem : a.1 ∈ arange (j1 : ℤ) ((j2 : ℤ) + 1) := by rw [← hkeys]; exact List.mem_map_of_mem ha
    have hb := mem_arange.1 hmem
    refine ⟨j, hj, by omega, by omega, xs, hxs, hl, haar_spike hw hj1 hjl ?_ hs hm⟩
    have : 2 ^ (j - 1) ≤ 2 ^ (j2 - 1) := Nat.pow_le_pow_right (by norm_num) (by omega)
    omega
  have hpos : ∀ a ∈ subR w.wt_coefs j1 j2, 0 < wtOf weighted a r := by
    intro a ha
    obtain ⟨j, -, -, -, xs, hxs, -, hsp⟩ := hkey a ha
    unfold wtOf; split
    · rw [hxs.count]
      obtain ⟨x, hx, -⟩ := hsp.exists_ne
      exact_mod_cast List.length_pos_of_mem hx
    · exact one_pos
  have htwo : ∃ a ∈ subR w.wt_coefs j1 j2, ∃ a' ∈ subR w.wt_coefs j1 j2, a.1 ≠ a'.1 := by
    obtain ⟨a, ha, a', ha', hne⟩ := hreg.sub_two a1 a2 a3 a4
    exact ⟨a, ha, a', ha', fun h => hne (by rw [h])⟩
  have hnum : (subR w.wt_coefs j1 j2).length ≤ j2 + 1 := by
    have := congrArg List.length hkeys
    simp only [List.length_map, arange, List.length_range] at this
    omega
  have hslope : ∀ (Y : List Fl → Fl) (c d : ℝ), (∀ a ∈ subR w.wt_coefs j1 j2, ∃ t, Y (col a.2 r) = Fl.fin t ∧ |t - (c + d * a.1)| ≤ ε / (j2 + 1)) →
      Near (slopeL (subR w.wt_coefs j1 j2) (fun p => (p.1 : ℝ)) (fun p => wtOf weighted p r) (fun p => Y (col p.2 r))) d ε := by
    intro Y c d hY
    obtain ⟨z, hz, hzb⟩ := slopeL_near (subR w.wt_coefs j1 j2) (fun p => p.1) (fun p => wtOf weighted p r) hpos htwo
      (fun p => Y (col p.2 r)) c d (fun _ => ε / (j2 + 1)) hY
    refine ⟨z, hz, hzb.trans ?_⟩
    rw [List.map_const', List.sum_replicate, nsmul_eq_mul]
    calc ((subR w.wt_coefs j1 j2).length : ℝ) * (ε / (j2 + 1)) ≤ ((j2 : ℝ) + 1) * (ε / (j2 + 1)) :=
          mul_le_mul_of_nonneg_right (by exact_mod_cast hnum) (by positivity)
      _ = ε := by field_simp
  have hε' : 0 ≤ ε / (j2 + 1) := by positivity
  have hlog : ∀ j : ℕ, Real.logb 2 ((2:ℝ) ^ ((j : ℝ) * (g - 1 / nm))) = j * (g - 1 / nm) := fun j => Real.logb_rpow (by norm_num) (by norm_num)
  have kz : ∀ e : ℝ, 0 < e → Near (zetaF w.wt_coefs j1 j2 weighted (.real e) r) (1 + e * (g - 1 / nm)) ε := by
    intro e he
    rw [zetaF_cols]
    refine hslope (fun c => (nanmean ((c.map Fl.abs).map (fastPower (.real e)))).log2) (-Real.logb 2 N) _ fun a ha => ?_
    obtain ⟨j, hj, hj1, hj2, xs, hxs, hl, hsp⟩ := hkey a ha
    refine ⟨_, (hsp.stats hxs he).1, ?_⟩
    rw [hl, hlog, hj, abs_sub_comm]
    refine le_trans (le_of_eq ?_) (hN₀ N hN j (h1.trans hj1) hj2)
    congr 1
    push_cast
    ring
  have kv : ∀ e : ℝ, 0 < e → Near (vF w.wt_coefs j1 j2 weighted (.real e) r) (g - 1 / nm) ε := by
    intro e he
    refine hslope (fun c => msV c (.real e)) 0 _ fun a ha => ?_
    obtain ⟨j, hj, hj1, hj2, xs, hxs, hl, hsp⟩ := hkey a ha
    refine ⟨_, (hsp.stats hxs he).2.1, ?_⟩
    rw [hlog, hj]
    push_cast
    rw [show (j:ℝ) * (g - 1 / nm) - (0 + (g - 1 / nm) * j) = 0 by ring, abs_zero]
    exact hε'
  have kh : Near (hminF w.wt_coefs j1 j2 weighted r) (g - 1 / nm) ε := by
    refine hslope (fun c => (nanmax (c.map Fl.abs)).log2) 0 _ fun a ha => ?_
    obtain ⟨j, hj, hj1, hj2, xs, hxs, hl, hsp⟩ := hkey a ha
    refine ⟨_, (hsp.stats hxs one_pos).2.2.2, ?_⟩
    rw [hlog, hj]
    push_cast
    rw [show (j:ℝ) * (g - 1 / nm) - (0 + (g - 1 / nm) * j) = 0 by ring, abs_zero]
    exact hε'
  have ku : ∀ e : ℝ, 0 < e → Near (uF w.wt_coefs j1 j2 weighted (.real e) r) (-1) ε := by
    intro e he
    refine hslope (fun c => msU (countNotNaN c) c (.real e)) (Real.logb 2 N) _ fun a ha => ?_
    obtain ⟨j, hj, hj1, hj2, xs, hxs, hl, hsp⟩ := hkey a ha
    refine ⟨_, (hsp.stats hxs he).2.2.1, ?_⟩
    rw [hl, hj]
    refine le_trans (le_of_eq ?_) (hN₀ N hN j (h1.trans hj1) hj2)
    congr 1
    push_cast
    ring
  obtain ⟨c1, c2, c3, h', c4, c5⟩ := hv
  have hqe : (QArg.ndarray q).expos ≠ [] := by rw [expos_ndarray]; simp; rintro rfl; cases hq
  rw [hreg.structFn a1 a2 a3 weighted q hq] at c1
  rw [hreg.spectrum a1 a2 a3 weighted (.ndarray q) hqe] at c3
  rw [hreg.hmin a1 a2 a3 weighted true (rows_ne_nil hR hw _ (Or.inl rfl))] at c4
  unfold IsolatedPoint
  rw [← c5, ← Except.ok.inj c1, ← Except.ok.inj c3, ← Except.ok.inj c4]
  refine ⟨?_, kh, fun i hi h0 => ?_⟩
  · obtain ⟨t, ht, htb⟩ := kz 2 (by norm_num)
    refine ⟨t / 2 - g, ?_, ?_⟩
    · show zetaF _ _ _ _ _ _ / Fl.fin 2 - Fl.fin w.wt_coefs.gamint = _
      rw [ht, hg, Fl.fin_div two_ne_zero, Fl.fin_sub]
    · rw [show t / 2 - g - (1 / 2 - 1 / nm) = (t - (1 + 2 * (g - 1 / nm))) / 2 by ring, abs_div, abs_two, div_le_iff₀ (by norm_num)]
      linarith
  · have hqi : q[i]? = some q[i] := List.getElem?_eq_getElem hi
    refine ⟨⟨_, by simp only [List.getElem?_map, hqi, Option.map_some], kz _ h0⟩,
      ⟨vF w.wt_coefs j1 j2 weighted (.real q[i]), by simp only [expos_ndarray, List.getElem?_map, hqi, Option.map_some], kv _ h0⟩,
      ⟨fun r => Fl.fin 1 + uF w.wt_coefs j1 j2 weighted (.real q[i]) r, by simp only [expos_ndarray, List.getElem?_map, hqi, Option.map_some], ?_⟩⟩
    obtain ⟨t, ht, htb⟩ := ku _ h0
    refine ⟨1 + t, ?_, ?_⟩
    · show Fl.fin 1 + uF _ _ _ _ _ _ = _
      rw [ht, Fl.fin_add]
    · rwa [show 1 + t - 0 = t - -1 by ring]

/-- All the scales of the analysis of an impulse in the first half of the recording have a value that is not zero. -/
theorem impulse_nonvanishing {N t0 : ℕ} {p : PExp} {b1 : ℤ} {b2 : Option ℝ} {g nm : ℝ} {weighted : Bool} {w : WT R} (hN : N ≠ 0) (ht : 2 * t0 ≤ N)
    (h : waveletAnalysis (sampled N fun _ : Fin R => impulse t0) p haarN b1 b2 g nm weighted = .ok w) : NonvanishingData w.wt_coefs := by
  obtain ⟨hreg, hg, hent⟩ := analysis_entries haarN_exact.1 h
  have hval : ∀ a ∈ w.wt_coefs.values, ∀ r : Fin R, ∃ j : ℕ, ∃ xs : List ℝ, Entries (col a.2 r) xs ∧ SpikeScale xs ((2:ℝ) ^ ((j : ℝ) * (g - 1 / nm))) := by
    intro a ha r
    obtain ⟨j, hj, hj1, hjl, hx⟩ := hent a ha
    obtain ⟨xs, hxs, hs, hl, hm⟩ := hx r
    refine ⟨j, xs, hxs, haar_spike h hj1 hjl ?_ hs hm⟩
    obtain ⟨ml, K, Kc, e1, hK, hKc, hKc', h3, hc, -⟩ := wa_inv h
    have hlen : w.wt_coefs.values.length = Kc := by rw [hc]; simp [scalesUpTo]
    rw [sampled_length] at e1
    have h2 := ((maxLevel_iff hN ml).1 e1).1
    have hml : (j : ℤ) ≤ ml := by omega
    have h4 : (2:ℝ) ^ (j : ℤ) ≤ 2 ^ ml := zpow_le_zpow_right₀ (by norm_num) hml
    have e2 : ((haarN.dec_hi.length : ℕ) : ℝ) = 2 := by norm_num [haarN]
    rw [e2] at h2
    rw [zpow_natCast] at h4
    have h5 : (2:ℝ) ^ j * 3 ≤ N := by linarith
    have h6 : 2 ^ j * 3 ≤ N := by exact_mod_cast h5
    obtain ⟨i, rfl⟩ : ∃ i, j = i + 1 := ⟨j - 1, by omega⟩
    rw [Nat.add_sub_cancel]
    rw [pow_succ] at h6
    omega
  refine ⟨fun a ha r => ?_, fun a ha r => ?_⟩
  · obtain ⟨j, xs, hxs, hsp⟩ := hval a ha r
    obtain ⟨x, hx, -⟩ := hsp.exists_ne
    refine ⟨⟨Fl.fin x, hxs.mem' hx, by simp⟩, fun y hy => ?_⟩
    by_cases hyn : y = Fl.nan
    · exact Or.inl hyn
    · obtain ⟨t, -, e⟩ := hxs.mem hy hyn
      exact Or.inr ⟨t, e⟩
  · obtain ⟨j, xs, hxs, hsp⟩ := hval a ha r
    obtain ⟨x, hx, hx0⟩ := hsp.exists_ne
    exact ⟨x, hx0, hxs.mem' hx⟩

/-- **C130, breakdown**: analyse with the Haar wavelet a recording as long as one likes, bounded by `B`, in the first half of which one sample is
replaced by `A`.  For `|A|` large enough, the estimates of positive order carry no information on the recording: they are within `ε` of those of an
isolated point. -/
theorem C130_outlier (q : List ℝ) (hq : (2:ℝ) ∈ q) (n j1 j2 : ℕ) (h1 : 1 ≤ j1) (h12 : j1 < j2) (g : ℝ) {nm : ℝ} (hnm : nm ≠ 0) (weighted : Bool)
    {R : ℕ} (hR : R ≠ 0) {ε : ℝ} (hε : 0 < ε) :
    ∃ N₀ : ℕ, ∀ N t0 : ℕ, N₀ ≤ N → 2 * t0 ≤ N → ∀ B : ℝ, ∃ A₀ : ℝ, 0 < A₀ ∧ ∀ (A : ℝ) (x : Fin R → ℤ → ℝ), A₀ ≤ |A| → (∀ r (i : ℕ), i < N → |x r i| ≤ B) →
      ∃ d, mfAnalysisFull (sampled N (withOutlier x t0 A)) j1 (some j2) nm g weighted haarN .none (some (.ndarray q)) n = .ok d ∧
        ∀ r, IsolatedPoint ε q g nm d.dwt r := by
  obtain ⟨N₀, hN₀⟩ := impulse_estimates q hq n j1 j2 h1 h12 (ε := ε / 2) (by positivity)
  refine ⟨max N₀ (2 ^ (j2 + 1) * (haarN.dec_hi.length + 1)), fun N t0 hN ht B => ?_⟩
  have hN1 := (le_max_left _ _).trans hN
  have hN2 := (le_max_right _ _).trans hN
  have hp2 : 0 < 2 ^ (j2 - 1) := by positivity
  have hN3 : 12 * 2 ^ (j2 - 1) ≤ N := by
    have e : haarN.dec_hi.length = 2 := rfl
    rw [e, show j2 + 1 = (j2 - 1) + 2 by omega, pow_add] at hN2
    omega
  have hN0 : N ≠ 0 := by omega
  have hne : sampled N (fun _ : Fin R => impulse t0) ≠ [] := by
    intro h0; have := congrArg List.length h0; rw [sampled_length] at this; exact hN0 this
  obtain ⟨w, hw, hfull⟩ := C48_total (sampled N fun _ : Fin R => impulse t0) .none (Or.inl rfl) haarN j1 (some (j2 : ℝ)) g nm weighted (some (.ndarray q)) n hR
    hne hnm
  obtain ⟨hj2, hlen⟩ := long_enough hR haarN_exact.1 (Or.inl rfl) (by omega) hN2 hw
  obtain ⟨d, hd, H⟩ := C130_dominance hR (Or.inl rfl) haarN_exact.1 hnm hw h1 (by rw [hj2]; exact_mod_cast h12) hq n
  obtain ⟨A₀, hA₀, H⟩ := H (ε / 2) |B| (by positivity)
  refine ⟨A₀, hA₀, fun A x hA hx => ?_⟩
  obtain ⟨d', hd', hcl, -⟩ := H A (withOutlier x t0 0) hA (fun r i hi => by
    unfold withOutlier
    split
    · rw [abs_zero]; exact abs_nonneg _
    · exact (hx r i hi).trans (le_abs_self _))
  have e : (fun r t => withOutlier x t0 0 r t + A * impulse t0 t) = withOutlier x t0 A := by
    funext r t
    unfold withOutlier impulse
    split <;> ring
  rw [e] at hd'
  refine ⟨d', hd', fun r => ?_⟩
  unfold mfAnalysisFull at hd
  rw [hw] at hd
  simp only at hd
  rw [C47_bundle, hj2] at hd
  have := (hN₀ hN1 (by omega) hR hw hlen hd.1 r).close (hcl (impulse_nonvanishing hN0 ht hw) r)
  rwa [add_halves] at this

/-- With the defaults (`p = 1`, no fractional integration) and any recording: one large enough sample brings `hmin` to -1, `H` to -1/2 and `zeta(1)`
to 0, whatever the other samples. -/
example (weighted : Bool) {ε : ℝ} (hε : 0 < ε) :
    ∃ N₀ : ℕ, ∀ N t0 : ℕ, N₀ ≤ N → 2 * t0 ≤ N → ∀ B : ℝ, ∃ A₀ : ℝ, 0 < A₀ ∧ ∀ (A : ℝ) (x : Fin 1 → ℤ → ℝ), A₀ ≤ |A| → (∀ r (i : ℕ), i < N → |x r i| ≤ B) →
      ∃ d, mfAnalysisFull (sampled N (withOutlier x t0 A)) 1 (some ((3 : ℕ) : ℝ)) 1 0 weighted haarN .none (some (.ndarray [1, 2])) 2 = .ok d ∧
        Near (d.dwt.hmin 0) (-1) ε ∧ Near (d.dwt.structure_.H 0) (-(1 / 2)) ε ∧ ∃ z, d.dwt.structure_.zeta[0]? = some z ∧ Near (z 0) 0 ε := by
  obtain ⟨N₀, h⟩ := C130_outlier [1, 2] (by simp) 2 1 3 le_rfl (by norm_num) 0 one_ne_zero weighted one_ne_zero hε
  refine ⟨N₀, fun N t0 hN ht B => ?_⟩
  obtain ⟨A₀, hA₀, h⟩ := h N t0 hN ht B
  refine ⟨A₀, hA₀, fun A x hA hx => ?_⟩
  obtain ⟨d, hd, hI⟩ := h A x hA hx
  obtain ⟨a, b, c⟩ := hI 0
  obtain ⟨⟨z, hz, hz'⟩, -⟩ := c 0 (by norm_num) (by norm_num)
  refine ⟨d, by exact_mod_cast hd, by norm_num at b; exact b, by norm_num at a ⊢; exact a, z, hz, by norm_num at hz'; exact hz'⟩

/-! ### Trends -/

/-- All the estimates are within `ε` of those of a regular signal of exponent `h` (`g` is the order of fractional integration, which `H` does not
include). -/
def AllNear (ε : ℝ) (q : List ℝ) (n : ℕ) (h g : ℝ) (v : MFVar R) (r : Fin R) : Prop :=
  Near (v.structure_.H r) h ε ∧ Near (v.hmin r) (h + g) ε ∧
  (∀ i, (hi : i < q.length) → ∃ z, v.structure_.zeta[i]? = some z ∧ Near (z r) (q[i] * (h + g)) ε) ∧
  (∀ i, i < n → ∃ c, v.cumulants.log_cumulants[i]? = some c ∧ Near (c r) (if i = 0 then h + g else 0) ε) ∧
  (∀ i, i < q.length → ∃ a, v.spectrum.hq[i]? = some a ∧ Near (a r) (h + g) ε) ∧
  ∀ i, i < q.length → ∃ D, v.spectrum.Dq[i]? = some D ∧ Near (D r) 1 ε

/-- **C130, trends**: let the wavelet have exactly `M` vanishing moments.  A polynomial trend of degree `M` hides the signal it is added to: for a trend of
large enough amplitude all the estimates are within `ε` of those of the trend (`h = M + 1 - 1/p`), whatever the signal bounded by `B`. -/
theorem C130_trend {N : ℕ} {Q : Fin R → Polynomial ℝ} (hR : R ≠ 0) {p : PExp} (hp : p = .none ∨ p = .inf) {wt : Wavelet} (hwt : wt.Valid) {M : ℕ}
    (hM : ExactMoments wt.dec_hi M) (hlo : wt.dec_lo.sum = Real.sqrt 2) (hQ : ∀ r, (Q r).degree = M) {j1 : ℕ} {j2 : Option ℝ} {g nm : ℝ} (hnm : nm ≠ 0)
    {weighted : Bool} {w : WT R} (h : waveletAnalysis (sampled N fun r t => (Q r).eval (t : ℝ)) p wt j1 j2 g nm weighted = .ok w) (h1 : 1 ≤ j1)
    (h12 : (j1 : ℤ) < w.j2_eff) {q : List ℝ} (hq : (2:ℝ) ∈ q) (n : ℕ) {ε : ℝ} (hε : 0 < ε) (B : ℝ) :
    ∃ A₀ : ℝ, 0 < A₀ ∧ ∀ (A : ℝ) (x : Fin R → ℤ → ℝ), A₀ ≤ |A| → (∀ r (i : ℕ), i < N → |x r i| ≤ B) →
      ∃ d, mfAnalysisFull (sampled N fun r t => x r t + A * (Q r).eval (t : ℝ)) j1 j2 nm g weighted wt p (some (.ndarray q)) n = .ok d ∧
        ∀ r, AllNear ε q n (M + 1 - 1 / nm) g d.dwt r := by
  obtain ⟨J, Jc, -, -, hc, -⟩ := C03_regular h
  obtain ⟨K, hK, hmono⟩ := poly_monofractal hwt hM (Real.sqrt_pos.mpr (by norm_num)) hlo hQ h
  have h0 := noZeros_of_mono hc hK hmono
  obtain ⟨d, hd, H⟩ := C130_dominance_all hR hp hwt hnm h h1 h12 hq n
  obtain ⟨A₀, hA₀, H⟩ := H ε B hε
  refine ⟨A₀, hA₀, fun A x hA hx => ?_⟩
  obtain ⟨d', hd', hcl, -⟩ := H A x hA hx
  refine ⟨d', hd', fun r => ?_⟩
  obtain ⟨e1, e2, e3, e4, e5, e6⟩ := C77_polynomials hwt hM hlo hQ hR h (by exact_mod_cast h1) h12 hd
  have hnq : normQ (some (.ndarray q)) = q := rfl
  rw [hnq] at e2 e4 e5
  have key : ∀ {x y : Fl} {t : ℝ}, x = Fl.fin t → FlClose ε x y → Near y t ε := by
    rintro x y t rfl ⟨b, c, e1, rfl, hbc⟩
    rw [Fl.fin_inj] at e1
    subst e1
    exact ⟨c, rfl, by rw [abs_sub_comm]; exact hbc⟩
  obtain ⟨c1, c2, c3, c4, c5, c6⟩ := hcl h0 r
  refine ⟨key (by rw [e1]) c1, key (by rw [e6]) c2, fun i hi => ?_, fun i hi => ?_, fun i hi => ?_, fun i hi => ?_⟩
  · obtain ⟨z, z', a, b, c⟩ := c3 i hi
    rw [e2, List.getElem?_map, List.getElem?_eq_getElem hi, Option.map_some] at a
    exact ⟨z', b, key (by rw [← Option.some.inj a]) c⟩
  · obtain ⟨z, z', a, b, c⟩ := c4 i hi
    rw [e3, List.getElem?_map, List.getElem?_range hi, Option.map_some] at a
    exact ⟨z', b, key (by rw [← Option.some.inj a]) c⟩
  · obtain ⟨z, z', a, b, c⟩ := c5 i hi
    rw [e4, List.getElem?_map, List.getElem?_eq_getElem hi, Option.map_some] at a
    exact ⟨z', b, key (by rw [← Option.some.inj a]) c⟩
  · obtain ⟨z, z', a, b, c⟩ := c6 i hi
    rw [e5, List.getElem?_map, List.getElem?_eq_getElem hi, Option.map_some] at a
    exact ⟨z', b, key (by rw [← Option.some.inj a]) c⟩

/-- A linear trend and the Haar wavelet, 64 samples: `H` tends to 1, `zeta(-1)` to -1 and `c_2` to 0 whatever the signal. -/
example (B : ℝ) {ε : ℝ} (hε : 0 < ε) : ∃ A₀ : ℝ, 0 < A₀ ∧ ∀ (A : ℝ) (x : Fin 1 → ℤ → ℝ), A₀ ≤ |A| → (∀ r (i : ℕ), i < 64 → |x r i| ≤ B) →
    ∃ d, mfAnalysisFull (sampled 64 fun r t => x r t + A * (Polynomial.C 3 * Polynomial.X + Polynomial.C 1 : Polynomial ℝ).eval (t : ℝ)) (1 : ℕ) none 1 0 true
      haarN .none (some (.ndarray [2, -1])) 2 = .ok d ∧ ∀ r, AllNear ε [2, -1] 2 (((1 : ℕ) : ℝ) + 1 - 1 / 1) 0 d.dwt r := by
  have hlev : decompositionLevel 64 haarN = .ok ((4 : ℕ) : ℤ) :=
    (C01_integer 64 4 _ (by norm_num)).mpr (by simp [haarN])
  have hdeg : ∀ r : Fin 1, (Polynomial.C 3 * Polynomial.X + Polynomial.C 1 : Polynomial ℝ).degree = (1 : ℕ) := fun _ => Polynomial.degree_linear (by norm_num)
  obtain ⟨w, hw⟩ := C05_total (sampled 64 fun (_ : Fin 1) t => (Polynomial.C 3 * Polynomial.X + Polynomial.C 1 : Polynomial ℝ).eval (t : ℝ)) .none (Or.inl rfl) haarN
    (1 : ℕ) none 0 1 true (by norm_num) (by simp [sampled]) (by norm_num)
  have hj : 2 ≤ w.j2_eff := admissible_j2 (j1 := 2) (by norm_num) haarN_exact.1 (Or.inl rfl) hlev (by norm_num)
      (by norm_num) (by simp) hw
  exact C130_trend one_ne_zero (Or.inl rfl) haarN_exact.1 haarN_exact.2.1 haarN_exact.2.2 hdeg one_ne_zero hw le_rfl (by push_cast; omega) (by simp) 2 hε B

end

end MFA
