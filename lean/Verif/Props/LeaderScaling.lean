import Verif.Lemmas.LeaderMoments
import Verif.Lemmas.WideRange
import Verif.Props.HurstEstimation
import Verif.Props.NoiseEstimation
import Verif.Props.Leaders

/-!
# Property C119: the leaders of fractional Brownian motion have its exponent
-/

namespace MFA

universe u

open Classical Finset MeasureTheory ProbabilityTheory

noncomputable section

variable {wt : Wavelet}

/-- The usable values of a column of numbers and NaNs. -/
theorem entries_of_col {c : List Fl} {n : ℕ} {v : ℕ → Fl} (hc : c = (List.range n).map v) {A : Finset ℕ} {L : ℕ → ℝ}
    (hA : ∀ k, k ∈ A ↔ k < n ∧ v k ≠ Fl.nan) (hL : ∀ k ∈ A, v k = Fl.fin (L k)) :
    ∃ xs, Entries c xs ∧ (∀ f : ℝ → ℝ, (xs.map f).sum = ∑ k ∈ A, f (L k)) ∧ xs.length = A.card ∧ ∀ y ∈ xs, ∃ k ∈ A, y = L k := by
  let l := (List.range n).filter fun k => k ∈ A
  have hA' : A = l.toFinset := by
    ext k; simp only [l, List.mem_toFinset, List.mem_filter, List.mem_range, decide_eq_true_eq]
    exact ⟨fun h => ⟨((hA k).1 h).1, h⟩, fun h => h.2⟩
  have hnd : l.Nodup := List.nodup_range.filter _
  refine ⟨l.map L, ?_, ?_, ?_, ?_⟩
  · show dropNaN c = _
    rw [hc, List.map_map]
    unfold dropNaN
    rw [List.filter_map]
    have : (List.range n).filter ((fun x : Fl => !x.isNaN) ∘ v) = l := by
      apply List.filter_congr
      intro k hk
      have hk := List.mem_range.1 hk
      by_cases h : k ∈ A
      · simp [h, hL k h, Fl.isNaN]
      · have : v k = Fl.nan := by
          by_contra h'
          exact h ((hA k).2 ⟨hk, h'⟩)
        simp [h, this, Fl.isNaN]
    rw [this]
    apply List.map_congr_left
    intro k hk
    have hk : k ∈ A := by simpa using (List.mem_filter.1 hk).2
    simp [hL k hk]
  · intro f
    rw [List.map_map, hA', List.sum_toFinset _ hnd]; rfl
  · rw [List.length_map, hA', List.toFinset_card_of_nodup hnd]
  · intro y hy
    obtain ⟨k, hk, rfl⟩ := List.mem_map.1 hy
    exact ⟨k, by rw [hA']; exact List.mem_toFinset.2 hk, rfl⟩

/-- The coefficients at the interior positions are numbers, those at the other positions are NaN. -/
theorem coef_or_nan {R N : ℕ} {x : Fin R → ℤ → ℝ} {p : PExp} (hwt : wt.Valid) {j1 : ℤ} {j2 : Option ℝ} {g nm : ℝ} {weighted : Bool}
    {w : WT R} (h : waveletAnalysis (sampled N x) p wt j1 j2 g nm weighted = .ok w) {j k : ℕ} {r : Fin R} {v : Fl}
    (hv : w.wt_coefs.val? j k r = some v) :
    (k ∈ interior N wt.dec_hi.length j ∧ v = Fl.fin (w.wt_coefs.number j k r)) ∨ (k ∉ interior N wt.dec_hi.length j ∧ v = Fl.nan) := by
  obtain ⟨ml, K, Kc, h1, hK, hKc, hKc', h3, hc, hgood, hj2, hl⟩ := wa_inv h
  rw [sampled_length] at h1
  have hv' := hv
  rw [hc, scalesUpTo_val] at hv'
  split at hv'
  · rename_i hjk
    obtain ⟨hj, hjK, hk⟩ := hjk
    rw [coefSeq_length _ _ _ hj, sampled_length] at hk
    have hent := coef_nan_iff wt hwt g nm x r hj (fun i hi => level_room h1 (i := i) (by omega)) hk
    have he := Option.some.inj hv'
    rw [he] at hent
    rw [interior_eq _ _ _ hwt.pos, mem_filter, mem_range]
    by_cases hb : Bord N wt.dec_hi.length j k
    · exact Or.inr ⟨fun h => h.2 hb, hent.2 hb⟩
    · refine Or.inl ⟨⟨hk, hb⟩, ?_⟩
      obtain ⟨t, ht⟩ := (C08_finite hwt h hv).resolve_left fun e => hb (hent.1 e)
      rw [MRQ.number, hv, ht]
  · cases hv'

/-- The leaders of one scale, computed from the coefficients of that scale and the finer ones. -/
theorem leader_scale {R N : ℕ} {x : Fin R → ℤ → ℝ} (hwt : wt.Valid) {j1 : ℤ} {j2 : Option ℝ} {g nm : ℝ} {weighted : Bool}
    {w : WT R} (h : waveletAnalysis (sampled N x) .inf wt j1 j2 g nm weighted = .ok w) :
    ∃ l, w.wt_leaders = some l ∧ Regular l l.values.length ∧ l.gamint = g ∧ l.values.length ≤ w.wt_coefs.values.length ∧
    ∀ a ∈ l.values, ∃ j : ℕ, a.1 = j ∧ 1 ≤ j ∧ j ≤ l.values.length ∧ ∀ r,
      (∀ j' k', 1 ≤ j' → j' ≤ j → k' ∈ interior N wt.dec_hi.length j' → w.wt_coefs.number j' k' r ≠ 0) →
      ∃ xs A L, Entries (col a.2 r) xs ∧ (∀ f : ℝ → ℝ, (xs.map f).sum = ∑ k ∈ A, f (L k)) ∧ xs.length = A.card ∧ (∀ y ∈ xs, ∃ k ∈ A, y = L k) ∧
        ∀ p, LeaderLike N wt.dec_hi.length j (fun j' k' => w.wt_coefs.number j' k' r) A L 1 1 1 p := by
  obtain ⟨l, hl, h16⟩ := C16_leaders h
  obtain ⟨ml, K, Kc, h1, hK, hKc, hKc', h3, hc, hgood, hj2, hl'⟩ := wa_inv h
  simp only at hl'
  have hlS : l = scalesUpTo .leader g (leadSeq (wparams wt g nm) .inf (sampled N x)) K := Option.some.inj (hl.symm.trans hl'.1)
  have hlen : l.values.length = K := by rw [hlS]; simp [scalesUpTo]
  have hlenc : w.wt_coefs.values.length = Kc := by rw [hc]; simp [scalesUpTo]
  refine ⟨l, hl, by rw [hlen, hlS]; exact scalesUpTo_regular _ _ _ _, by rw [hlS]; rfl, by rw [hlen, hlenc]; omega, ?_⟩
  intro a ha
  have ha' := ha
  rw [hlS] at ha'
  obtain ⟨j, hj1, hjK, rfl⟩ := scalesUpTo_mem ha'
  refine ⟨j, rfl, hj1, by rw [hlen]; exact hjK, fun r hne => ?_⟩
  obtain ⟨n, hn⟩ : ∃ n, n = N / 2 ^ j - 2 := ⟨_, rfl⟩
  obtain ⟨v, hvd⟩ : ∃ v : ℕ → Fl, v = fun k => ent (leadSeq (wparams wt g nm) .inf (sampled N x) j) k r := ⟨_, rfl⟩
  have hcol : col (leadSeq (wparams wt g nm) .inf (sampled N x) j) r = (List.range n).map v := by
    rw [col_range, leadSeq_length, sampled_length, hvd, hn]
  have hval : ∀ k, k < n → l.val? j k r = some (v k) := by
    intro k hk
    rw [hlS, scalesUpTo_val, leadSeq_length, sampled_length, if_pos ⟨hj1, hjK, by omega⟩, hvd]
  -- the value of a leader that is not NaN
  have hex : ∀ k, k < n → v k ≠ Fl.nan → ∃ j' k', InNbhd j k j' k' ∧ k' ∈ interior N wt.dec_hi.length j' ∧
      v k = Fl.fin |w.wt_coefs.number j' k' r| := by
    intro k hk hvk
    obtain ⟨j', k', d, hnb, hd, hvd'⟩ := (h16 j k r (v k) (hval k hk)).2.2.1 hvk
    refine ⟨j', k', hnb, ?_⟩
    rcases coef_or_nan hwt h hd with ⟨hI, hd'⟩ | ⟨-, hd'⟩
    · exact ⟨hI, by rw [hvd', hd', Fl.abs_fin]⟩
    · rw [hd'] at hvd'; exact absurd hvd' hvk
  obtain ⟨L, hL⟩ : ∃ L : ℕ → ℝ, ∀ k, k < n → v k ≠ Fl.nan → v k = Fl.fin (L k) := by
    refine ⟨fun k => match v k with | Fl.fin t => t | _ => 0, fun k hk hvk => ?_⟩
    obtain ⟨j', k', -, -, he⟩ := hex k hk hvk
    simp only [he]
  obtain ⟨A, hAd⟩ : ∃ A : Finset ℕ, A = (range n).filter fun k => v k ≠ Fl.nan := ⟨_, rfl⟩
  have hA : ∀ k, k ∈ A ↔ k < n ∧ v k ≠ Fl.nan := by intro k; rw [hAd, mem_filter, mem_range]
  obtain ⟨xs, e1, e2, e3, e4⟩ := entries_of_col hcol hA (fun k hk => hL k ((hA k).1 hk).1 ((hA k).1 hk).2)
  have hLex : ∀ k ∈ A, ∃ j' k', InNbhd j k j' k' ∧ k' ∈ interior N wt.dec_hi.length j' ∧ L k = |w.wt_coefs.number j' k' r| := by
    intro k hk
    obtain ⟨hk1, hk2⟩ := (hA k).1 hk
    obtain ⟨j', k', a1, a2, a3⟩ := hex k hk1 hk2
    rw [hL k hk1 hk2] at a3
    exact ⟨j', k', a1, a2, (Fl.fin_inj _ _).1 a3⟩
  -- an interior position
  have hin : ∀ k, k ∈ interior N wt.dec_hi.length j → k < n → v k ≠ Fl.nan ∧ ∀ t, v k = Fl.fin t → |w.wt_coefs.number j k r| ≤ t := by
    intro k hk hkn
    have hnb : InNbhd j k j k := ⟨hj1, le_rfl, by simp, by simp⟩
    obtain ⟨q1, q2, -, q4⟩ := h16 j k r (v k) (hval k hkn)
    obtain ⟨d, hd⟩ := q1 j k hnb
    have hd' : d = Fl.fin (w.wt_coefs.number j k r) := by
      rcases coef_or_nan hwt h hd with ⟨-, h'⟩ | ⟨h', -⟩
      · exact h'
      · exact absurd hk h'
    have hdn : d ≠ Fl.nan := by rw [hd']; simp
    refine ⟨fun e => ?_, fun t ht => ?_⟩
    · have := q2.1 e j k hnb
      rw [hd] at this
      exact hdn (Option.some.inj this)
    · have := q4 j k d hnb hd hdn
      rw [hd', Fl.abs_fin, ht] at this
      simpa [Fl.le] using this
  refine ⟨xs, A, L, e1, e2, e3, e4, fun p => ⟨?_, ?_, ?_, ?_, ?_, ?_⟩⟩
  · intro k hk
    rw [mem_range, ← hn]; exact ((hA k).1 hk).1
  · intro k hk
    obtain ⟨j', k', a1, a2, a3⟩ := hLex k hk
    rw [a3]
    exact abs_pos.2 (hne j' k' a1.1 a1.2.1 a2)
  · intro k hk hkn
    rw [← hn] at hkn
    exact (hA k).2 ⟨hkn, (hin k hk hkn).1⟩
  · intro k hk hkA
    obtain ⟨hk1, hk2⟩ := (hA k).1 hkA
    exact (hin k hk hk1).2 _ (hL k hk1 hk2)
  · intro k hk
    obtain ⟨j', k', a1, a2, a3⟩ := hLex k hk
    exact ⟨j', k', a1.1, a1.2.1, a2, by rw [a3, one_mul]⟩
  · intro k hk
    obtain ⟨j', k', a1, a2, a3⟩ := hLex k hk
    simp only [one_mul, one_pow]
    rw [a3]
    have h5 : |w.wt_coefs.number j' k' r| ^ p ≤ ∑ k'' ∈ (interior N wt.dec_hi.length j').filter (fun k'' => InNbhd j k j' k''),
        |w.wt_coefs.number j' k'' r| ^ p :=
      single_le_sum (f := fun k'' => |w.wt_coefs.number j' k'' r| ^ p) (fun _ _ => by positivity) (mem_filter.2 ⟨a2, a1⟩)
    exact h5.trans (single_le_sum (f := fun j' => ∑ k'' ∈ (interior N wt.dec_hi.length j').filter (fun k'' => InNbhd j k j' k''),
        |w.wt_coefs.number j' k'' r| ^ p) (fun _ _ => sum_nonneg fun _ _ => by positivity) (mem_Icc.2 ⟨a1.1, a1.2.1⟩))

/-- The leaders are tame when the coefficients are. -/
theorem LeaderLike.tame {N F j : ℕ} {d : ℕ → ℕ → ℝ} {A : Finset ℕ} {L : ℕ → ℝ} {C ρ κ p : ℝ} (h : LeaderLike N F j d A L C ρ κ p)
    {J : ℕ} (hj : 1 ≤ j) (hjJ : j ≤ J) {xs : List ℝ} (e2 : ∀ f : ℝ → ℝ, (xs.map f).sum = ∑ k ∈ A, f (L k)) (e3 : xs.length = A.card)
    (e4 : ∀ y ∈ xs, ∃ k ∈ A, y = L k) {σ : ℕ → ℝ} (hσ : ∀ j', 1 ≤ j' → j' ≤ j → 0 < σ j')
    (hne : ∀ j' k, 1 ≤ j' → j' ≤ j → k ∈ interior N F j' → d j' k ≠ 0)
    (hC : 0 ≤ C) (hρ : 0 ≤ ρ) (hp : 0 < p) {E H M s s1 : ℝ} (hE : 0 < E) (hH : 0 ≤ H) (hM : 0 ≤ M) (hs : 0 < s) (hs1 : s < s1) (hκ : 0 < κ)
    (hconv : ρ * (2:ℝ) ^ (1 - H * p) < 1)
    (hratio : ∀ j', 1 ≤ j' → j' ≤ j → σ j' ≤ σ j * (E * (2:ℝ) ^ (-(H * ((j : ℝ) - j')))))
    (hratio' : ∀ j', 1 ≤ j' → j' ≤ j → σ j ≤ σ j' * (E * (2:ℝ) ^ (H * ((j : ℝ) - j'))))
    (hmom : ∀ e ∈ [p, -s, -s1], ∀ j', 1 ≤ j' → j' ≤ j → ∑ k ∈ interior N F j', |d j' k / σ j'| ^ e ≤ (interior N F j').card * M)
    (hN1 : 2 ^ J * (4 * F + 6) ≤ N)
    (hN2 : 2 * F * ((E * (2:ℝ) ^ (H * J) / κ) ^ s * (N * M) ^ (s / s1)) ≤ N / 2 ^ J) :
    Tame p s (max (2 * (3 * C * E ^ p * M / (1 - ρ * (2:ℝ) ^ (1 - H * p)))) (2 * (M + 1))) (σ j) xs := by
  have hσj := hσ j hj le_rfl
  -- there are at least half as many leaders as dyadic intervals
  have hpow : (2:ℝ) ^ j ≤ 2 ^ J := pow_le_pow_right₀ (by norm_num) hjJ
  have hNj : (4 * (F:ℝ) + 6) ≤ N / 2 ^ j := by
    rw [le_div_iff₀ (by positivity)]
    have h1 : (2:ℝ) ^ J * (4 * F + 6) ≤ N := by exact_mod_cast hN1
    nlinarith [mul_le_mul_of_nonneg_right hpow (by positivity : (0:ℝ) ≤ 4 * F + 6)]
  have hcard : (N:ℝ) / 2 ^ j ≤ 2 * A.card := by
    have h1 := h.card hj
    have h2 : (N:ℝ) / 2 ^ j < (N / 2 ^ j : ℕ) + 1 := by
      rw [div_lt_iff₀ (by positivity)]
      have : N < (N / 2 ^ j + 1) * 2 ^ j := by
        have ha := Nat.div_add_mod N (2 ^ j)
        have hb := Nat.mod_lt N (show 0 < 2 ^ j by positivity)
        rw [add_mul, one_mul, mul_comm (N / 2 ^ j)]
        omega
      exact_mod_cast this
    have h3 : ((N / 2 ^ j : ℕ) : ℝ) ≤ A.card + 2 * F + 2 := by exact_mod_cast h1
    linarith
  have hNpos : (0:ℝ) < N / 2 ^ j := lt_of_lt_of_le (by positivity) hNj
  have hApos : (0:ℝ) < A.card := by linarith
  have hA : A.card ≠ 0 := by rintro h0; rw [h0] at hApos; simp at hApos
  have hmean : ∀ (e T : ℝ), ∑ k ∈ A, (L k / σ j) ^ e ≤ T * (N / 2 ^ j) → 0 ≤ T → tmean e 0 (σ j, xs) ≤ 2 * T := by
    intro e T hT hT0
    have h1 : (xs.map fun x => testF e 0 (x / σ j)).sum = ∑ k ∈ A, (L k / σ j) ^ e := by
      rw [e2]
      refine sum_congr rfl fun k hk => ?_
      rw [testF, pow_zero, mul_one, abs_of_pos (div_pos (h.pos k hk) hσj)]
    unfold tmean
    simp only
    rw [h1, e3, div_le_iff₀ hApos]
    nlinarith
  have hD : 0 < 1 - ρ * (2:ℝ) ^ (1 - H * p) := by linarith
  refine ⟨?_, ?_, ?_, ?_⟩
  · rintro rfl; exact hA e3.symm
  · intro y hy
    obtain ⟨k, hk, rfl⟩ := e4 y hy
    exact (h.pos k hk).ne'
  · refine le_max_of_le_left (hmean p _ ?_ (by positivity))
    exact h.moments hj hσ hC hρ hp hE hM hconv hratio (hmom p (by simp))
  · refine le_max_of_le_right (hmean (-s) (M + 1) ?_ (by positivity))
    have h1 := h.neg_moments hj hσ hne hs hs1 hκ hM (D := E * (2:ℝ) ^ (H * J) / κ) (fun j' h1 h2 => by
      have h3 := hratio' j' h1 h2
      have hs' := hσ j' h1 h2
      have h4 : (2:ℝ) ^ (H * ((j : ℝ) - j')) ≤ (2:ℝ) ^ (H * J) := by
        apply Real.rpow_le_rpow_of_exponent_le (by norm_num)
        apply mul_le_mul_of_nonneg_left _ hH
        have : (j : ℝ) ≤ J := by exact_mod_cast hjJ
        have : (0:ℝ) ≤ j' := Nat.cast_nonneg _
        linarith
      calc σ j ≤ σ j' * (E * (2:ℝ) ^ (H * ((j : ℝ) - j'))) := h3
        _ ≤ σ j' * (E * (2:ℝ) ^ (H * J)) := by gcongr
        _ = _ := by field_simp) (by positivity) (hmom (-s) (by simp) j hj le_rfl) (hmom (-s1) (by simp))
    refine h1.trans ?_
    have h5 : (N:ℝ) / 2 ^ J ≤ N / 2 ^ j := by gcongr
    linarith

/-- All the estimates are within `ε` of those of a signal whose multiresolution quantity has the single exponent `h`
(`g`: the fractional integration, which `H` corrects for). -/
def SingleExponentNear {R : ℕ} (v : MFVar R) (q : List ℝ) (n : ℕ) (h g ε : ℝ) (r : Fin R) : Prop :=
  Near (v.structure_.H r) (h - g) ε ∧
  (∀ (i : ℕ) (e : ℝ), q[i]? = some e → ∃ z, v.structure_.zeta[i]? = some z ∧ Near (z r) (e * h) ε) ∧
  (∀ i, i < n → ∃ c, v.cumulants.log_cumulants[i]? = some c ∧ Near (c r) (if i = 0 then h else 0) ε) ∧
  ∀ i, i < q.length → ∃ hq Dq, v.spectrum.hq[i]? = some hq ∧ v.spectrum.Dq[i]? = some Dq ∧ Near (hq r) h ε ∧ Near (Dq r) 1 ε

theorem SingleExponentNear.mono {R : ℕ} {v : MFVar R} {q : List ℝ} {n : ℕ} {h g ε ε' : ℝ} {r : Fin R}
    (hv : SingleExponentNear v q n h g ε r) (he : ε ≤ ε') : SingleExponentNear v q n h g ε' r := by
  obtain ⟨a, b, c, d⟩ := hv
  have mono : ∀ {f : Fl} {y : ℝ}, Near f y ε → Near f y ε' := by
    rintro f y ⟨t, e1, e2⟩
    exact ⟨t, e1, e2.trans he⟩
  refine ⟨mono a, fun i e hi => ?_, fun i hi => ?_, fun i hi => ?_⟩
  · obtain ⟨z, hz, hz'⟩ := b i e hi; exact ⟨z, hz, mono hz'⟩
  · obtain ⟨z, hz, hz'⟩ := c i hi; exact ⟨z, hz, mono hz'⟩
  · obtain ⟨z, z', hz, hz', h1, h2⟩ := d i hi; exact ⟨z, z', hz, hz', mono h1, mono h2⟩

theorem bounded_list {p s K : ℝ} : ∀ {Ys : List ((List Fl → Fl) × ℝ)}, (∀ Y ∈ Ys, BoundedStat p s Y.1 Y.2) →
    ∃ C : ℝ, 0 ≤ C ∧ (∀ Y ∈ Ys, |Y.2| ≤ C) ∧ ∀ Y ∈ Ys, ∀ (σ : ℝ) (c : List Fl) (xs : List ℝ), 0 < σ → Entries c xs → Tame p s K σ xs →
      ∃ t, Y.1 c = Fl.fin t ∧ |t - Y.2 * Real.logb 2 σ| ≤ C := by
  intro Ys
  induction Ys with
  | nil => exact fun _ => ⟨0, le_rfl, by simp, by simp⟩
  | cons Y Ys ih =>
    intro h
    obtain ⟨C1, h1, h2, h3⟩ := ih fun Y' hY' => h Y' (List.mem_cons_of_mem _ hY')
    obtain ⟨C2, h4, h5⟩ := h Y (by simp) K
    refine ⟨max (max C1 C2) |Y.2|, by positivity, ?_, ?_⟩
    · intro Y' hY'
      rcases List.mem_cons.1 hY' with rfl | hY'
      · exact le_max_right _ _
      · exact (h2 Y' hY').trans ((le_max_left _ _).trans (le_max_left _ _))
    · intro Y' hY' σ c xs hσ hc ht
      rcases List.mem_cons.1 hY' with rfl | hY'
      · obtain ⟨t, a, b⟩ := h5 σ c xs hσ hc ht
        exact ⟨t, a, b.trans ((le_max_right _ _).trans (le_max_left _ _))⟩
      · obtain ⟨t, a, b⟩ := h3 Y' hY' σ c xs hσ hc ht
        exact ⟨t, a, b.trans ((le_max_left _ _).trans (le_max_left _ _))⟩

/-- The log-cumulant of order `i + 1` of the values. -/
def cumStat (n i : ℕ) : (List Fl → Fl) × ℝ :=
  ((fun c => (cmColumn (c.map fun x => x.abs.ln) n).getD i Fl.nan), (if i = 0 then Real.log 2 else 0))

/-- The statistics and the factors of `log2 σ`. -/
def wideStats (q : List ℝ) (n : ℕ) : List ((List Fl → Fl) × ℝ) :=
  q.map (fun e => ((fun c => (nanmean ((c.map Fl.abs).map (fastPower (.real e)))).log2), e)) ++
  q.map (fun e => ((fun c => msV c (.real e)), 1)) ++
  q.map (fun e => ((fun c => msU (countNotNaN c) c (.real e)), 0)) ++
  (List.range n).map (cumStat n)

theorem wideStats_bounded {p s : ℝ} (hs : 0 < s) (hp : 0 < p) {q : List ℝ} (n : ℕ) (hq : ∀ e ∈ q, -s < e ∧ e < p) :
    ∀ Y ∈ wideStats q n, BoundedStat p s Y.1 Y.2 := by
  intro Y hY
  simp only [wideStats, List.mem_append, List.mem_map] at hY
  rcases hY with ((⟨e, he, rfl⟩ | ⟨e, he, rfl⟩) | ⟨e, he, rfl⟩) | ⟨i, hi, rfl⟩
  · exact bounded_structure hs hp (.real e) (hq e he).1 (hq e he).2
  · exact bounded_V hs hp (.real e) (hq e he).1 (hq e he).2
  · exact bounded_U hs hp (.real e) (hq e he).1 (hq e he).2
  · exact bounded_cumulant hs hp (List.mem_range.1 hi)

/-- **The unweighted analysis of a multiresolution quantity whose scales are all tame.** -/
theorem wide_estimates {p s : ℝ} (hs : 0 < s) (hp : 0 < p) (q : List ℝ) (n : ℕ) (h2 : (2:ℝ) ∈ q) (hq : ∀ e ∈ q, -s < e ∧ e < p) (K B : ℝ)
    (hB : 0 ≤ B) : ∃ C : ℝ, 0 ≤ C ∧ ∀ {R J : ℕ} {m : MRQ R} {j1 j2 : ℕ} {r : Fin R} {σ : ℕ → ℝ} {a h : ℝ} {v : MFVar R},
      Regular m J → 1 ≤ j1 → j1 < j2 → j2 ≤ J → IsBundle m j1 j2 false n q v →
      (∀ j, j1 ≤ j → j ≤ j2 → 0 < σ j ∧ |Real.logb 2 (σ j) - (a + h * j)| ≤ B) →
      (∀ b ∈ m.values, ∀ j : ℕ, b.1 = j → j1 ≤ j → j ≤ j2 → ∃ xs, Entries (col b.2 r) xs ∧ Tame p s K (σ j) xs) →
      SingleExponentNear v q n h m.gamint (C / (j2 - j1)) r := by
  obtain ⟨C, hC, hC1, hC2⟩ := bounded_list (K := K) (wideStats_bounded hs hp n hq)
  have hlog : 0 < Real.log 2 := Real.log_pos (by norm_num)
  have hlog1 : Real.log 2 ≤ 1 := by have := Real.log_le_sub_one_of_pos (show (0:ℝ) < 2 by norm_num); linarith
  refine ⟨6 * (C + C * B) / Real.log 2, by positivity, ?_⟩
  intro R J m j1 j2 r σ a h v hreg hj1 hj12 hj2 hv hσ hm
  obtain ⟨b1, b2, b3, -⟩ := hv
  have a1 : (1:ℤ) ≤ (j1 : ℤ) := by exact_mod_cast hj1
  have a2 : (j1 : ℤ) ≤ (j2 : ℤ) := by exact_mod_cast hj12.le
  have a3 : (j2 : ℤ) ≤ (J : ℤ) := by exact_mod_cast hj2
  rw [hreg.structFn a1 a2 a3 false q h2] at b1
  rw [hreg.cumulants a1 a2 a3 false n] at b2
  rw [hreg.spectrum a1 a2 a3 false (.ndarray q) (by rw [expos_ndarray]; simp; rintro rfl; cases h2)] at b3
  have hkeys := hreg.sub_keys a1 a2 a3
  have hkey : ∀ b ∈ subR m j1 j2, ∃ j : ℕ, b.1 = j ∧ j1 ≤ j ∧ j ≤ j2 := by
    intro b hb
    have : b.1 ∈ arange (j1 : ℤ) ((j2 : ℤ) + 1) := by rw [← hkeys]; exact List.mem_map.2 ⟨b, hb, rfl⟩
    unfold arange at this
    obtain ⟨i, hi, he⟩ := List.mem_map.1 this
    rw [List.mem_range] at hi
    exact ⟨j1 + i, by rw [← he]; push_cast; ring, by omega, by omega⟩
  have hj : (0:ℝ) < (j2:ℝ) - j1 := by
    have : (j1:ℝ) < j2 := by exact_mod_cast hj12
    linarith
  obtain ⟨ε, hε⟩ : ∃ ε, ε = 6 * (C + C * B) / ((j2:ℝ) - j1) := ⟨_, rfl⟩
  have hε0 : 0 ≤ ε := by rw [hε]; positivity
  have hε' : ε / Real.log 2 = 6 * (C + C * B) / Real.log 2 / (j2 - j1) := by rw [hε]; field_simp
  have hεs : ε ≤ ε / Real.log 2 := by rw [le_div_iff₀ hlog]; nlinarith
  rw [← hε']
  have key : ∀ Y ∈ wideStats q n, ∃ z, slopeL (subR m j1 j2) (fun p => (p.1 : ℝ)) (fun p => wtOf false p r)
      (fun p => Y.1 (col p.2 r)) = Fl.fin z ∧ |z - Y.2 * h| ≤ ε := by
    intro Y hY
    obtain ⟨z, hz, hzb⟩ := slopeL_wide (subR m j1 j2) (fun p => p.1) (fun p => wtOf false p r) (fun _ _ => rfl) hj12 hkeys
      (fun p => Y.1 (col p.2 r)) (Y.2 * a) (Y.2 * h) (C + C * B) (fun b hb => by
        obtain ⟨j, hbj, h3, h4⟩ := hkey b hb
        obtain ⟨xs, hxs, ht⟩ := hm b (sub_mem hb) j hbj h3 h4
        obtain ⟨t1, t2⟩ := hσ j h3 h4
        obtain ⟨t, ht1, ht2⟩ := hC2 Y hY _ _ xs t1 hxs ht
        refine ⟨t, ht1, ?_⟩
        rw [hbj]
        have e : t - (Y.2 * a + Y.2 * h * ((j : ℤ) : ℝ)) = (t - Y.2 * Real.logb 2 (σ j)) + Y.2 * (Real.logb 2 (σ j) - (a + h * j)) := by
          push_cast; ring
        rw [e]
        refine (abs_add_le _ _).trans (add_le_add ht2 ?_)
        rw [abs_mul]
        exact mul_le_mul (hC1 Y hY) t2 (abs_nonneg _) hC)
    exact ⟨z, hz, by rw [hε]; exact hzb⟩
  have kz : ∀ e ∈ q, ∃ z, zetaF m j1 j2 false (.real e) r = Fl.fin z ∧ |z - e * h| ≤ ε := by
    intro e he
    rw [zetaF_cols]
    exact key ((fun c => (nanmean ((c.map Fl.abs).map (fastPower (.real e)))).log2), e)
      (by simp only [wideStats, List.mem_append, List.mem_map]; exact Or.inl (Or.inl (Or.inl ⟨e, he, rfl⟩)))
  have kc : ∀ i, i < n → ∃ z, cumF m j1 j2 false n i r = Fl.fin z ∧ |z - (if i = 0 then Real.log 2 else 0) * h| ≤ ε := by
    intro i hi
    obtain ⟨z, hz, hb⟩ := key (cumStat n i)
      (List.mem_append_right _ (List.mem_map.2 ⟨i, List.mem_range.2 hi, rfl⟩))
    refine ⟨z, ?_, hb⟩
    rw [← hz]
    rfl
  unfold SingleExponentNear
  rw [← Except.ok.inj b1, ← Except.ok.inj b2, ← Except.ok.inj b3]
  refine ⟨?_, ?_, ?_, ?_⟩
  · obtain ⟨t, ht, htb⟩ := kz 2 h2
    refine ⟨t / 2 - m.gamint, ?_, ?_⟩
    · show zetaF _ _ _ _ _ _ / Fl.fin 2 - Fl.fin m.gamint = _
      rw [ht, Fl.fin_div two_ne_zero, Fl.fin_sub]
    · rw [show t / 2 - m.gamint - (h - m.gamint) = (t - 2 * h) / 2 by ring, abs_div, abs_two, div_le_iff₀ (by norm_num)]
      linarith
  · intro i e he
    have hm' := List.mem_of_getElem? he
    refine ⟨zetaF m j1 j2 false (.real e), by simp only [List.getElem?_map, he, Option.map_some], ?_⟩
    obtain ⟨t, ht, htb⟩ := kz e hm'
    exact ⟨t, ht, htb.trans hεs⟩
  · intro i hi
    refine ⟨fun r => cumF m j1 j2 false n i r * Fl.fin log2e,
      by simp only [List.getElem?_map, List.getElem?_range hi, Option.map_some], ?_⟩
    obtain ⟨z, hz, hb⟩ := kc i hi
    refine ⟨z * log2e, by show cumF m j1 j2 false n i r * Fl.fin log2e = _; rw [hz, Fl.fin_mul], ?_⟩
    rw [log2e_eq, show z * (Real.log 2)⁻¹ - (if i = 0 then h else 0) = (z - (if i = 0 then Real.log 2 else 0) * h) * (Real.log 2)⁻¹ by
      split
      · field_simp
      · ring, abs_mul, abs_of_pos (inv_pos.2 hlog), ← div_eq_mul_inv]
    exact div_le_div_of_nonneg_right hb hlog.le
  · intro i hi
    have hqi : q[i]? = some q[i] := List.getElem?_eq_getElem hi
    have hqm : q[i] ∈ q := List.getElem_mem hi
    refine ⟨vF m j1 j2 false (.real q[i]), fun r => Fl.fin 1 + uF m j1 j2 false (.real q[i]) r,
      by simp only [expos_ndarray, List.getElem?_map, hqi, Option.map_some],
      by simp only [expos_ndarray, List.getElem?_map, hqi, Option.map_some], ?_, ?_⟩
    · obtain ⟨z, hz, hb⟩ := key ((fun c => msV c (.real q[i])), 1)
        (by simp only [wideStats, List.mem_append, List.mem_map]; exact Or.inl (Or.inl (Or.inr ⟨q[i], hqm, rfl⟩)))
      refine ⟨z, hz, ?_⟩
      simp only [one_mul] at hb
      exact hb.trans hεs
    · obtain ⟨z, hz, hb⟩ := key ((fun c => msU (countNotNaN c) c (.real q[i])), 0)
        (by simp only [wideStats, List.mem_append, List.mem_map]; exact Or.inl (Or.inr ⟨q[i], hqm, rfl⟩))
      have hz' : uF m j1 j2 false (.real q[i]) r = Fl.fin z := hz
      refine ⟨1 + z, by show Fl.fin 1 + uF m j1 j2 false (.real q[i]) r = _; rw [hz', Fl.fin_add], ?_⟩
      simp only [zero_mul, sub_zero] at hb
      rw [show 1 + z - 1 = z by ring]
      exact hb.trans hεs

/-- With high probability, no coefficient of the first `J` scales vanishes and their normalised moments are bounded. -/
theorem good_scales {M : ℕ} (hM : VanishingMoments wt.dec_hi M) (hM1 : 1 ≤ M) (hwt : wt.Valid) {G : ℤ → ℝ}
    {h β : ℝ} (hK : ScalingKernel wt G h β) (g nm : ℝ) : ∃ (τ : ℕ → ℝ) (a B : ℝ), 0 ≤ B ∧
    ∀ (es : List ℝ), (∀ e ∈ es, -(1 / 2) < e) → ∃ T : ℝ, 0 ≤ T ∧ ∀ (J : ℕ) (δ : ℝ), 0 < δ → ∃ N₀ : ℕ,
    ∀ {Ω : Type u} [MeasurableSpace Ω] {μ : Measure Ω} {c : ℝ} {R N : ℕ} {x : Ω → List (Fin R → ℝ)} {w : Ω → WT R}, 0 < c →
      IncrementAnalysis μ wt G c g nm N x w → N₀ ≤ N → (∀ ω, J ≤ (w ω).wt_coefs.values.length) → ∀ r,
      (∀ j, 1 ≤ j → j ≤ J → 0 < √(c * τ j) ∧ |Real.logb 2 √(c * τ j) - (Real.logb 2 c / 2 + a + coefExponent h g nm / 2 * j)| ≤ B) ∧
      μ {ω | ¬ ∀ j, 1 ≤ j → j ≤ J → (∀ k ∈ interior N wt.dec_hi.length j, (w ω).wt_coefs.number j k r ≠ 0) ∧
        ∀ e ∈ es, ∑ k ∈ interior N wt.dec_hi.length j, |(w ω).wt_coefs.number j k r / √(c * τ j)| ^ e ≤
          (interior N wt.dec_hi.length j).card * T} ≤ ENNReal.ofReal δ := by
  obtain ⟨τ, V, B, hV, hB, hl⟩ := joint_llnG.{u} hM hM1 hwt hK g nm
  refine ⟨τ, Real.logb 2 V / 2, B, hB, ?_⟩
  intro es hes
  have hmom : ∀ e ∈ es, 0 < normalMoment e 0 := fun e he => normalMoment_pos (by have := hes e he; linarith)
  obtain ⟨T, hT0, hT⟩ : ∃ T : ℝ, 0 ≤ T ∧ ∀ e ∈ es, normalMoment e 0 + 1 ≤ T := by
    clear hmom hes
    induction es with
    | nil => exact ⟨0, le_rfl, by simp⟩
    | cons e es ih =>
      obtain ⟨T, h1, h2⟩ := ih
      refine ⟨max T (normalMoment e 0 + 1), le_max_of_le_left h1, ?_⟩
      intro e' he'
      rcases List.mem_cons.1 he' with rfl | he'
      · exact le_max_right _ _
      · exact (h2 e' he').trans (le_max_left _ _)
  refine ⟨T, hT0, ?_⟩
  intro J δ hδ
  obtain ⟨N₀, hN₀⟩ := hl (es.map fun e => (e, 0)) (by
    intro p hp
    obtain ⟨e, he, rfl⟩ := List.mem_map.1 hp
    exact hes e he) J 1 δ one_pos hδ
  refine ⟨N₀, ?_⟩
  intro Ω _ μ c R N x w hc hw hN hJ r
  obtain ⟨hτ, hμ⟩ := hN₀ hc hw hN hJ r
  refine ⟨fun j h1 h2 => ?_, (measure_mono ?_).trans hμ⟩
  · obtain ⟨t1, t2⟩ := hτ j h1 h2
    refine ⟨Real.sqrt_pos.2 (mul_pos hc t1), ?_⟩
    have hs : Real.logb 2 √(c * τ j) = (Real.logb 2 c + Real.logb 2 (τ j)) / 2 := by
      rw [Real.sqrt_eq_rpow, Real.logb_rpow_eq_mul_logb_of_pos (mul_pos hc t1), Real.logb_mul hc.ne' t1.ne']; ring
    rw [hs, show (Real.logb 2 c + Real.logb 2 (τ j)) / 2 - (Real.logb 2 c / 2 + Real.logb 2 V / 2 + coefExponent h g nm / 2 * j) =
      (Real.logb 2 (τ j) - (Real.logb 2 V + j * coefExponent h g nm)) / 2 by ring, abs_div, abs_two, div_le_iff₀ (by norm_num)]
    have h3 : (2:ℝ) ^ (-(2 * β * j)) ≤ 1 := by
      apply Real.rpow_le_one_of_one_le_of_nonpos (by norm_num)
      have := hK.pos
      have : (0:ℝ) ≤ 2 * β * j := by positivity
      linarith
    nlinarith
  · intro ω hω
    simp only [Set.mem_ofPred_eq] at hω ⊢
    intro htyp
    apply hω
    intro j h1 h2
    obtain ⟨hreg, -, hent⟩ := hw.entries hwt ω
    obtain ⟨b, hb, hbj⟩ : ∃ b ∈ (w ω).wt_coefs.values, b.1 = (j : ℤ) := by
      have h3 : (j : ℤ) ∈ (w ω).wt_coefs.values.map Prod.fst := by
        rw [hreg.1, List.mem_map]
        have := hJ ω
        exact ⟨j - 1, List.mem_range.2 (by omega), by push_cast [Nat.cast_sub h1]; ring⟩
      obtain ⟨b, hb, e⟩ := List.mem_map.1 h3
      exact ⟨b, hb, e⟩
    obtain ⟨j', hj', -, -, hx⟩ := hent b hb
    have hjj : j' = j := by rw [hbj] at hj'; exact_mod_cast hj'.symm
    subst hjj
    obtain ⟨xs, e1, e2, e3, e4⟩ := hx r
    obtain ⟨ys, f1, f2⟩ := htyp b hb (by rw [hbj]; exact_mod_cast h2)
    obtain rfl := f1.unique e1
    rw [hbj, Int.toNat_natCast] at f2
    obtain ⟨g1, g2, g3⟩ := f2
    refine ⟨fun k hk h0 => ?_, fun e he => ?_⟩
    · have h5 := e2 fun t => if t = 0 then 1 else 0
      have h6 : (ys.map fun t : ℝ => if t = 0 then (1:ℝ) else 0).sum = 0 := by
        apply List.sum_eq_zero
        intro t ht
        obtain ⟨y, hy, rfl⟩ := List.mem_map.1 ht
        rw [if_neg (g2 y hy)]
      rw [h6] at h5
      have h7 := (sum_eq_zero_iff_of_nonneg (fun i _ => by split <;> norm_num)).1 h5.symm k hk
      rw [if_pos h0] at h7
      exact one_ne_zero h7
    · have h5 := g3 (e, 0) (List.mem_map.2 ⟨e, he, rfl⟩)
      have h6 := e2 fun t => testF e 0 (t / √(c * τ j'))
      simp only [testF, pow_zero, mul_one] at h5 h6
      rw [h6, e3] at h5
      have hl0 : (0:ℝ) < (interior N wt.dec_hi.length j').card := by
        rw [← e3]; exact_mod_cast List.length_pos_iff.2 g1
      have h7 := (abs_lt.1 h5).2
      have h8 := hT e he
      have h9 : (∑ k ∈ interior N wt.dec_hi.length j', |(w ω).wt_coefs.number j' k r / √(c * τ j')| ^ e) /
          (interior N wt.dec_hi.length j').card ≤ T := by linarith
      rw [div_le_iff₀ hl0] at h9
      linarith

theorem exists_s {q : List ℝ} (hq : ∀ e ∈ q, -(1 / 2) < e) : ∃ s : ℝ, 0 < s ∧ s < 1 / 2 ∧ ∀ e ∈ q, -s < e := by
  induction q with
  | nil => exact ⟨1 / 4, by norm_num, by norm_num, by simp⟩
  | cons a q ih =>
    obtain ⟨s, h1, h2, h3⟩ := ih fun e he => hq e (List.mem_cons_of_mem _ he)
    have ha := hq a (by simp)
    refine ⟨max s ((1 / 2 - a) / 2), lt_max_of_lt_left h1, max_lt h2 (by linarith), ?_⟩
    intro e he
    rcases List.mem_cons.1 he with rfl | he
    · have := le_max_right s ((1 / 2 - e) / 2); linarith
    · have := h3 e he; have := le_max_left s ((1 / 2 - a) / 2); linarith

theorem exists_p (q : List ℝ) (b : ℝ) : ∃ p : ℝ, 0 < p ∧ b < p ∧ ∀ e ∈ q, e < p := by
  induction q with
  | nil => exact ⟨max b 0 + 1, by positivity, by have := le_max_left b 0; linarith, by simp⟩
  | cons a q ih =>
    obtain ⟨p, h1, h2, h3⟩ := ih
    refine ⟨max p (a + 1), lt_max_of_lt_left h1, lt_max_of_lt_left h2, ?_⟩
    intro e he
    rcases List.mem_cons.1 he with rfl | he
    · exact lt_max_of_lt_right (by linarith)
    · exact lt_max_of_lt_left (h3 e he)

/-- A power of exponent less than one is eventually negligible. -/
theorem sublinear (c T θ : ℝ) (hT : 0 ≤ T) (h1 : θ < 1) (J : ℕ) :
    ∃ N₀ : ℕ, ∀ N : ℕ, N₀ ≤ N → c * ((N:ℝ) * T) ^ θ ≤ N / 2 ^ J := by
  have ht := (tendsto_rpow_atTop (by linarith : 0 < 1 - θ)).comp (tendsto_natCast_atTop_atTop (R := ℝ))
  obtain ⟨N₀, h⟩ := Filter.eventually_atTop.1 (ht.eventually_ge_atTop (c * T ^ θ * 2 ^ J))
  refine ⟨N₀ + 1, fun N hN => ?_⟩
  have h2 := h N (by omega)
  simp only [Function.comp_apply] at h2
  have hN0 : (0:ℝ) < N := by exact_mod_cast (by omega : 0 < N)
  rw [Real.mul_rpow hN0.le hT, le_div_iff₀ (by positivity)]
  calc c * ((N:ℝ) ^ θ * T ^ θ) * 2 ^ J = (c * T ^ θ * 2 ^ J) * (N:ℝ) ^ θ := by ring
    _ ≤ (N:ℝ) ^ (1 - θ) * (N:ℝ) ^ θ := mul_le_mul_of_nonneg_right h2 (by positivity)
    _ = N := by rw [← Real.rpow_add hN0, sub_add_cancel, Real.rpow_one]

/-- The two standard deviations of scales related by the scaling law. -/
theorem ratio_bounds {σ : ℕ → ℝ} {a b B : ℝ} {J : ℕ} (hσ : ∀ j, 1 ≤ j → j ≤ J → 0 < σ j ∧ |Real.logb 2 (σ j) - (a + b * j)| ≤ B)
    {i j : ℕ} (hi : 1 ≤ i) (hiJ : i ≤ J) (hj : 1 ≤ j) (hjJ : j ≤ J) : σ i ≤ σ j * ((2:ℝ) ^ (2 * B) * (2:ℝ) ^ (b * ((i : ℝ) - j))) := by
  obtain ⟨i1, i2⟩ := hσ i hi hiJ
  obtain ⟨j1, j2⟩ := hσ j hj hjJ
  have e : ∀ t : ℝ, 0 < t → t = (2:ℝ) ^ (Real.logb 2 t) := fun t ht => (Real.rpow_logb (by norm_num) (by norm_num) ht).symm
  rw [e _ i1, e _ j1, ← Real.rpow_add (by norm_num), ← Real.rpow_add (by norm_num)]
  apply Real.rpow_le_rpow_of_exponent_le (by norm_num)
  have := (abs_le.1 i2).2
  have := (abs_le.1 j2).1
  linarith

/-- **The leaders of Gaussian signals with stationary increments**, for any kernel with a scaling exponent. -/
theorem leader_estimates {M : ℕ} (hM : VanishingMoments wt.dec_hi M) (hM1 : 1 ≤ M) (hwt : wt.Valid) (hF : 4 ≤ wt.dec_hi.length) {G : ℤ → ℝ}
    {h β : ℝ} (hK : ScalingKernel wt G h β) (g nm : ℝ) (hnm : nm ≠ 0) (hpos : 0 < h + g + 1 - 1 / nm) (q : List ℝ) (n : ℕ)
    (h2 : (2:ℝ) ∈ q) (hq : ∀ e ∈ q, -(1 / 2) < e) : ∃ B : ℝ, 0 ≤ B ∧ ∀ j1 j2 : ℕ, 1 ≤ j1 → j1 < j2 → ∀ δ : ℝ, 0 < δ → ∃ N₀ : ℕ,
    ∀ {Ω : Type u} [MeasurableSpace Ω] {μ : Measure Ω} {R N : ℕ} {x : Ω → List (Fin R → ℝ)} {A : ℕ → ℝ} {c : ℝ}, 0 < c → N₀ ≤ N →
      GaussianArray μ N x (fun n m => A n + A m - c * G ((n : ℤ) - m)) → ∀ r : Fin R,
      μ {ω | ¬ ∃ d v, mfAnalysisFull (asFloats (x ω)) j1 (some j2) nm g false wt .inf (some (.ndarray q)) n = .ok d ∧ d.lwt = some v ∧
        SingleExponentNear v q n (h + g + 1 - 1 / nm) g (B / (j2 - j1)) r} ≤ ENNReal.ofReal δ := by
  obtain ⟨b, hb⟩ : ∃ b, b = h + g + 1 - 1 / nm := ⟨_, rfl⟩
  have hbc : coefExponent h g nm / 2 = b := by rw [hb]; unfold coefExponent; ring
  rw [← hb] at hpos
  obtain ⟨τ, a, B, hB, hgood⟩ := good_scales.{u} hM hM1 hwt hK g nm
  rw [hbc] at hgood
  obtain ⟨s, hs0, hs1, hsq⟩ := exists_s hq
  obtain ⟨p, hp0, hpb, hpq⟩ := exists_p q (2 / b)
  have hconv : (1:ℝ) * (2:ℝ) ^ (1 - b * p) < 1 := by
    rw [one_mul]
    apply Real.rpow_lt_one_of_one_lt_of_neg (by norm_num)
    have := (div_lt_iff₀ hpos).1 hpb
    linarith
  obtain ⟨s1, hs1d⟩ : ∃ s1, s1 = (s + 1 / 2) / 2 := ⟨_, rfl⟩
  have hss1 : s < s1 := by rw [hs1d]; linarith
  obtain ⟨T, hT0, hgood⟩ := hgood [p, -s, -s1] (by
    intro e he
    simp only [List.mem_cons, List.not_mem_nil, or_false] at he
    rcases he with rfl | rfl | rfl
    · linarith
    · linarith
    · rw [hs1d]; linarith)
  obtain ⟨K, hKd⟩ : ∃ K, K = max (2 * (3 * 1 * ((2:ℝ) ^ (2 * B)) ^ p * T / (1 - 1 * (2:ℝ) ^ (1 - b * p)))) (2 * (T + 1)) := ⟨_, rfl⟩
  obtain ⟨C, hC, hwide⟩ := wide_estimates hs0 hp0 q n h2 (fun e he => ⟨hsq e he, hpq e he⟩) K B hB
  refine ⟨C, hC, ?_⟩
  intro j1 j2 hj1 hj12 δ hδ
  obtain ⟨N₁, hN₁⟩ := hgood j2 δ hδ
  obtain ⟨N₂, hN₂⟩ := sublinear (2 * wt.dec_hi.length * ((2:ℝ) ^ (2 * B) * (2:ℝ) ^ (b * j2) / 1) ^ s) T (s / s1) hT0
    ((div_lt_one (by linarith)).2 hss1) j2
  refine ⟨max (max N₁ N₂) (max (2 ^ j2 * (4 * wt.dec_hi.length + 6)) (2 ^ (j2 + 1) * (wt.dec_hi.length + 1))), ?_⟩
  intro Ω _ μ R N x A c hc hN hG r
  have hR : R ≠ 0 := fun h0 => by subst h0; exact r.elim0
  have hNa : N₁ ≤ N := (le_max_left _ _).trans ((le_max_left _ _).trans hN)
  have hNb : N₂ ≤ N := (le_max_right _ _).trans ((le_max_left _ _).trans hN)
  have hNc : 2 ^ j2 * (4 * wt.dec_hi.length + 6) ≤ N := (le_max_left _ _).trans ((le_max_right _ _).trans hN)
  have hNd : 2 ^ (j2 + 1) * (wt.dec_hi.length + 1) ≤ N := (le_max_right _ _).trans ((le_max_right _ _).trans hN)
  have hN0 : N ≠ 0 := by
    have : 0 < 2 ^ (j2 + 1) * (wt.dec_hi.length + 1) := by positivity
    omega
  have hne : ∀ ω, asFloats (x ω) ≠ [] := by
    intro ω h0; have := congrArg List.length h0; simp [asFloats, hG.length ω] at this; exact hN0 this
  choose w hw hfull using fun ω => C48_total (asFloats (x ω)) .inf (Or.inr rfl) wt j1 (some (j2 : ℝ)) g nm false (some (.ndarray q)) n hR
    (hne ω) hnm
  have hw' : ∀ ω, waveletAnalysis (sampled N fun r t => ((x ω).getD t.toNat fun _ => 0) r) .inf wt j1 (some (j2 : ℝ)) g nm false = .ok (w ω) := by
    intro ω
    have h0 := hw ω
    rwa [asFloats_sampled (hG.length ω)] at h0
  have hlong : ∀ ω, (w ω).j2_eff = j2 ∧ j2 ≤ (w ω).wt_coefs.values.length :=
    fun ω => long_enough hR hwt (Or.inr hF) (by omega) hNd (hw' ω)
  have hP : IncrementAnalysis μ wt G c g nm N x w := ⟨⟨A, hG⟩, .inf, j1, some (j2 : ℝ), false, hw⟩
  obtain ⟨hσ, hμ⟩ := hN₁ hc hP hNa (fun ω => (hlong ω).2) r
  refine (measure_mono ?_).trans hμ
  intro ω hω
  simp only [Set.mem_ofPred_eq] at hω ⊢
  intro hall
  apply hω
  obtain ⟨hj2, hlen⟩ := hlong ω
  obtain ⟨d, hd, -⟩ := hfull ω (by exact_mod_cast hj1) (by rw [hj2]; exact_mod_cast hj12.le) h2
  obtain ⟨l, hl, hreg, hlg, hllen, hscale⟩ := leader_scale hwt (hw' ω)
  have hJl : j2 ≤ l.values.length := by
    obtain ⟨J, Jc, -, h3, -, h4⟩ := C03_regular (hw ω)
    have h5 := (h4 l hl rfl).1
    have h6 := congrArg List.length h5
    simp only [List.length_map, List.length_range] at h6
    rw [hj2] at h3
    have : j2 ≤ J := by exact_mod_cast h3
    omega
  have hd0 := hd
  unfold mfAnalysisFull at hd
  rw [hw ω] at hd
  simp only at hd
  rw [C47_bundle, hj2, hl] at hd
  obtain ⟨-, v, hv, hbun⟩ := hd
  refine ⟨d, v, hd0, hv, ?_⟩
  rw [← hb, ← hlg]
  refine hwide (σ := fun j => √(c * τ j)) (a := Real.logb 2 c / 2 + a) hreg hj1 hj12 hJl hbun
    (fun j h3 h4 => hσ j (hj1.trans h3) h4) ?_
  intro b' hb' j hbj h3 h4
  obtain ⟨j', hj', hj'1, -, hr⟩ := hscale b' hb'
  have hjj : j' = j := by rw [hbj] at hj'; exact_mod_cast hj'.symm
  subst hjj
  have hnz : ∀ i k, 1 ≤ i → i ≤ j' → k ∈ interior N wt.dec_hi.length i → (w ω).wt_coefs.number i k r ≠ 0 :=
    fun i k hi hij hk => (hall i hi (hij.trans h4)).1 k hk
  obtain ⟨xs, A', L, e1, e2, e3, e4, hLL⟩ := hr r hnz
  refine ⟨xs, e1, ?_⟩
  rw [hKd]
  refine (hLL p).tame hj'1 h4 e2 e3 e4 (σ := fun j => √(c * τ j)) (fun i hi hij => (hσ i hi (hij.trans h4)).1) hnz zero_le_one zero_le_one hp0
    (by positivity) hpos.le hT0 hs0 hss1 one_pos hconv ?_ ?_ ?_ hNc ?_
  · intro i hi hij
    have := ratio_bounds hσ hi (hij.trans h4) hj'1 h4
    rwa [show b * ((i : ℝ) - j') = -(b * ((j' : ℝ) - i)) by ring] at this
  · intro i hi hij
    exact ratio_bounds hσ hj'1 h4 hi (hij.trans h4)
  · intro e he i hi hij
    exact (hall i hi (hij.trans h4)).2 e he
  · have := hN₂ N hNb
    rwa [mul_assoc] at this

/-- **C119, the signals**: Gaussian signals whose increments have the variogram `2 c |t|^(2H)` (any mean-zero Gaussian array with that
covariance structure, however produced), analysed with the wavelet leaders (`p_exp=inf`) by an unweighted `mf_analysis_full`.  There is
a constant `B`, which depends on the wavelet, `H`, the settings, `q` and the number of cumulants but not on the signal nor on the range
of scales, such that for every range `1 ≤ j1 < j2` and every long enough signal, with probability at least `1 - δ` the call returns
leader estimates and all of them are within `B / (j2 - j1)` of those of a signal of the single exponent `H + gamint` (for
`normalization=1`). -/
theorem C119_power_law {M : ℕ} (hM : VanishingMoments wt.dec_hi M) (hM1 : 1 ≤ M) (hwt : wt.Valid) (ho : OrthonormalBank wt)
    (hF : 4 ≤ wt.dec_hi.length) {H : ℝ} (h0 : 0 < H) (h1 : H < 1) (hH : 4 * H - 4 * M < -1) (g nm : ℝ) (hnm : nm ≠ 0)
    (hpos : 0 < H + g + 1 - 1 / nm) (q : List ℝ) (n : ℕ) (h2 : (2:ℝ) ∈ q) (hq : ∀ e ∈ q, -(1 / 2) < e) :
    ∃ B : ℝ, 0 ≤ B ∧ ∀ j1 j2 : ℕ, 1 ≤ j1 → j1 < j2 → ∀ δ : ℝ, 0 < δ → ∃ N₀ : ℕ,
    ∀ {Ω : Type u} [MeasurableSpace Ω] {μ : Measure Ω} {R N : ℕ} {x : Ω → List (Fin R → ℝ)} {A : ℕ → ℝ} {c : ℝ}, 0 < c → N₀ ≤ N →
      GaussianArray μ N x (fun n m => A n + A m - c * |(n : ℝ) - m| ^ (2 * H)) → ∀ r : Fin R,
      μ {ω | ¬ ∃ d v, mfAnalysisFull (asFloats (x ω)) j1 (some j2) nm g false wt .inf (some (.ndarray q)) n = .ok d ∧ d.lwt = some v ∧
        SingleExponentNear v q n (H + g + 1 - 1 / nm) g (B / (j2 - j1)) r} ≤ ENNReal.ofReal δ := by
  obtain ⟨B, hB, h⟩ := leader_estimates.{u} hM hM1 hwt hF (powerLaw_kernel hM hM1 hwt ho h0 h1 hH) g nm hnm hpos q n h2 hq
  refine ⟨B, hB, fun j1 j2 h3 h4 δ hδ => ?_⟩
  obtain ⟨N₀, hN₀⟩ := h j1 j2 h3 h4 δ hδ
  refine ⟨N₀, ?_⟩
  intro Ω _ μ R N x A c hc hN hG
  have e : (fun n m : ℕ => A n + A m - c * |(((n : ℤ) - m : ℤ) : ℝ)| ^ (2 * H)) = fun n m : ℕ => A n + A m - c * |(n : ℝ) - m| ^ (2 * H) := by
    funext n m; push_cast; rfl
  refine hN₀ hc hN (A := A) ?_
  rw [e]; exact hG

/-- **C119, end to end**: simulate fractional Brownian motion of parameter `H` with `fbm`, analyse its wavelet leaders with
`mf_analysis_full`.  For some constant `B`, for every range of scales and every long enough signal, with probability at least `1 - δ`
the leader estimates of `H`, `zeta(q)`, `c_m`, `h(q)` and `D(q)` are all within `B / (j2 - j1)` of `H`, `qH`, `H` (0 for `m ≥ 2`),
`H` and 1. -/
theorem C119_fbm {M : ℕ} (hM : VanishingMoments wt.dec_hi M) (hM1 : 1 ≤ M) (hwt : wt.Valid) (ho : OrthonormalBank wt)
    (hF : 4 ≤ wt.dec_hi.length) {H : ℝ} (h0 : 0 < H) (h1 : H < 1) (hH : 4 * H - 4 * M < -1) (q : List ℝ) (n : ℕ) (h2 : (2:ℝ) ∈ q)
    (hq : ∀ e ∈ q, -(1 / 2) < e) :
    ∃ B : ℝ, 0 ≤ B ∧ ∀ j1 j2 : ℕ, 1 ≤ j1 → j1 < j2 → ∀ δ : ℝ, 0 < δ → ∃ N₀ : ℕ,
    ∀ {Ω : Type u} [MeasurableSpace Ω] {μ : Measure Ω} {gen : Ω → ℕ → ℝ}, StdNormal μ gen →
    ∀ {N R : ℕ} {sigma : ℝ} {dt : Option ℝ} (z0 : Option (CArr R)), N₀ ≤ N → sigma ≠ 0 → (∀ d, dt = some d → 0 ≤ d) → R ≠ 0 →
      ∃ x : Ω → RArr R, Returns (fbm R N H sigma dt "cme" z0) gen x ∧ ∀ r : Fin R,
      μ {ω | ¬ ∃ d v, mfAnalysisFull (asFloats (x ω)) j1 (some j2) 1 0 false wt .inf (some (.ndarray q)) n = .ok d ∧ d.lwt = some v ∧
        SingleExponentNear v q n H 0 (B / (j2 - j1)) r} ≤ ENNReal.ofReal δ := by
  obtain ⟨B, hB, h⟩ := C119_power_law.{u} hM hM1 hwt ho hF h0 h1 hH 0 1 one_ne_zero (by linarith) q n h2 hq
  rw [show H + 0 + 1 - 1 / 1 = H by ring] at h
  refine ⟨B, hB, fun j1 j2 h3 h4 δ hδ => ?_⟩
  obtain ⟨N₀, hN₀⟩ := h j1 j2 h3 h4 δ hδ
  refine ⟨max N₀ 2, ?_⟩
  intro Ω _ μ gen hg N R sigma dt z0 hN hs hdt hR
  have hN2 := (le_max_right _ _).trans hN
  obtain ⟨x, hx, hG, -⟩ := C85_fbm (R := R) (sigma := sigma) z0 h0 h1.le hN2 hdt hR hg
  have hstep := (fgnDt_eq (by omega : N ≠ 0) hdt).2
  rw [fbm_powerLaw H sigma hstep.le] at hG
  exact ⟨x, hx, fun r => hN₀ (by positivity) ((le_max_left _ _).trans hN) hG r⟩

/-- **C119, consistency**: for every `ε` there is a width `W` such that the leader estimates of fractional Brownian motion on any range of
at least `W` octaves are within `ε` of the truth, with probability as close to one as desired when the signal is long enough. -/
theorem C119_consistent {M : ℕ} (hM : VanishingMoments wt.dec_hi M) (hM1 : 1 ≤ M) (hwt : wt.Valid) (ho : OrthonormalBank wt)
    (hF : 4 ≤ wt.dec_hi.length) {H : ℝ} (h0 : 0 < H) (h1 : H < 1) (hH : 4 * H - 4 * M < -1) (q : List ℝ) (n : ℕ) (h2 : (2:ℝ) ∈ q)
    (hq : ∀ e ∈ q, -(1 / 2) < e) (ε : ℝ) (hε : 0 < ε) :
    ∃ W : ℕ, ∀ j1 j2 : ℕ, 1 ≤ j1 → j1 + W ≤ j2 → ∀ δ : ℝ, 0 < δ → ∃ N₀ : ℕ,
    ∀ {Ω : Type u} [MeasurableSpace Ω] {μ : Measure Ω} {gen : Ω → ℕ → ℝ}, StdNormal μ gen →
    ∀ {N R : ℕ} {sigma : ℝ} {dt : Option ℝ} (z0 : Option (CArr R)), N₀ ≤ N → sigma ≠ 0 → (∀ d, dt = some d → 0 ≤ d) → R ≠ 0 →
      ∃ x : Ω → RArr R, Returns (fbm R N H sigma dt "cme" z0) gen x ∧ ∀ r : Fin R,
      μ {ω | ¬ ∃ d v, mfAnalysisFull (asFloats (x ω)) j1 (some j2) 1 0 false wt .inf (some (.ndarray q)) n = .ok d ∧ d.lwt = some v ∧
        SingleExponentNear v q n H 0 ε r} ≤ ENNReal.ofReal δ := by
  obtain ⟨B, hB, h⟩ := C119_fbm.{u} hM hM1 hwt ho hF h0 h1 hH q n h2 hq
  obtain ⟨W, hW⟩ := exists_nat_ge (B / ε)
  refine ⟨W + 1, fun j1 j2 h3 h4 δ hδ => ?_⟩
  obtain ⟨N₀, hN₀⟩ := h j1 j2 h3 (by omega) δ hδ
  refine ⟨N₀, ?_⟩
  intro Ω _ μ gen hg N R sigma dt z0 hN hs hdt hR
  obtain ⟨x, hx, hb⟩ := hN₀ hg z0 hN hs hdt hR
  refine ⟨x, hx, fun r => (measure_mono ?_).trans (hb r)⟩
  intro ω hω
  simp only [Set.mem_ofPred_eq] at hω ⊢
  rintro ⟨d, v, e1, e2, e3⟩
  refine hω ⟨d, v, e1, e2, e3.mono ?_⟩
  have hj : (W:ℝ) + 1 ≤ (j2:ℝ) - j1 := by
    have : ((j1 + (W + 1) : ℕ) : ℝ) ≤ j2 := by exact_mod_cast h4
    push_cast at this; linarith
  rw [div_le_iff₀ (by positivity : (0:ℝ) < ε)] at hW
  rw [div_le_iff₀ (by have : (0:ℝ) ≤ W := by positivity
                      linarith)]
  nlinarith

/-- **C119, noises**: fractional Gaussian noise has the negative exponent `H - 1` and its leaders mean nothing, but after fractional
integration of an order `gamint` with `H - 1 + gamint > 0` the leader estimates are those of the exponent `H - 1 + gamint`; the
estimate of the Hurst parameter, which corrects for `gamint`, is `H - 1`. -/
theorem C119_fgn {M : ℕ} (hM : VanishingMoments wt.dec_hi M) (hM1 : 1 ≤ M) (hwt : wt.Valid) (ho : OrthonormalBank wt)
    (hF : 4 ≤ wt.dec_hi.length) {H : ℝ} (h0 : 0 < H) (h1 : H < 1) (hr : 1 / 2 ≤ H ∨ RegularWavelet wt) (g : ℝ) (hpos : 0 < H - 1 + g)
    (q : List ℝ) (n : ℕ) (h2 : (2:ℝ) ∈ q) (hq : ∀ e ∈ q, -(1 / 2) < e) :
    ∃ B : ℝ, 0 ≤ B ∧ ∀ j1 j2 : ℕ, 1 ≤ j1 → j1 < j2 → ∀ δ : ℝ, 0 < δ → ∃ N₀ : ℕ,
    ∀ {Ω : Type u} [MeasurableSpace Ω] {μ : Measure Ω} {gen : Ω → ℕ → ℝ}, StdNormal μ gen →
    ∀ {N R : ℕ} {sigma : ℝ} {dt : Option ℝ} (z0 : Option (CArr R)), N₀ ≤ N → sigma ≠ 0 → (∀ d, dt = some d → 0 ≤ d) → R ≠ 0 →
      ∃ x : Ω → RArr R, Returns (fgn R N H sigma dt "cme" z0) gen x ∧ ∀ r : Fin R,
      μ {ω | ¬ ∃ d v, mfAnalysisFull (asFloats (x ω)) j1 (some j2) 1 g false wt .inf (some (.ndarray q)) n = .ok d ∧ d.lwt = some v ∧
        SingleExponentNear v q n (H - 1 + g) g (B / (j2 - j1)) r} ≤ ENNReal.ofReal δ := by
  obtain ⟨β, hK⟩ := noise_kernel hM hM1 hwt ho h0 h1 hr
  obtain ⟨B, hB, h⟩ := leader_estimates.{u} hM hM1 hwt hF hK g 1 one_ne_zero (by linarith) q n h2 hq
  rw [show H - 1 + g + 1 - 1 / 1 = H - 1 + g by ring] at h
  refine ⟨B, hB, fun j1 j2 h3 h4 δ hδ => ?_⟩
  obtain ⟨N₀, hN₀⟩ := h j1 j2 h3 h4 δ hδ
  refine ⟨max N₀ 2, ?_⟩
  intro Ω _ μ gen hg N R sigma dt z0 hN hs hdt hR
  have hN2 := (le_max_right _ _).trans hN
  obtain ⟨x, hx, hG, -⟩ := C85_fgn (R := R) (sigma := sigma) z0 h0 h1.le hN2 hdt hR hg
  have hstep := (fgnDt_eq (by omega : N ≠ 0) hdt).2
  refine ⟨x, hx, fun r => ?_⟩
  have e : (fun n m : ℕ => fgnCovariance H sigma (effStep dt N) (n * effStep dt N) (m * effStep dt N)) =
      fun n m : ℕ => (0:ℝ) + 0 - sigma ^ 2 * effStep dt N ^ (2 * H) * -noiseKernel (2 * H) ((n : ℤ) - m) := by
    funext n m
    rw [fgn_noiseKernel H sigma hstep.le]
    ring
  rw [e] at hG
  exact hN₀ (A := fun _ => 0) (by positivity) ((le_max_left _ _).trans hN) hG r

/-! The hypotheses are met: for `db2` and every `0 < H < 1`, with `q = [2, 1, -1/4]`. -/
example (H : ℝ) (h0 : 0 < H) (h1 : H < 1) (ε δ : ℝ) (hε : 0 < ε) (hδ : 0 < δ) : ∃ j1 j2 N : ℕ, 1 ≤ j1 ∧ j1 < j2 ∧
    ∃ (Ω : Type) (_ : MeasurableSpace Ω) (μ : Measure Ω) (gen : Ω → ℕ → ℝ) (x : Ω → RArr 2), StdNormal μ gen ∧
    Returns (fbm 2 N H 1 none "cme" none) gen x ∧
    μ {ω | ¬ ∃ d v, mfAnalysisFull (asFloats (x ω)) j1 (some j2) 1 0 false db2 .inf (some (.ndarray [2, 1, -1 / 4])) 3 = .ok d ∧
        d.lwt = some v ∧ SingleExponentNear v [2, 1, -1 / 4] 3 H 0 ε 0} ≤ ENNReal.ofReal δ := by
  obtain ⟨hv, ho, hm⟩ := db2_orthonormal
  obtain ⟨W, h⟩ := C119_consistent hm (by norm_num) hv ho (by simp [db2]) h0 h1 (by push_cast; linarith) [2, 1, -1 / 4] 3 (by simp)
    (by intro e he; simp only [List.mem_cons, List.not_mem_nil, or_false] at he; rcases he with rfl | rfl | rfl <;> norm_num) ε hε
  obtain ⟨N₀, hN₀⟩ := h 1 (W + 2) le_rfl (by omega) δ hδ
  obtain ⟨Ω, m, μ, gen, hg⟩ := exists_stdNormal
  obtain ⟨x, hx, hb⟩ := hN₀ hg (R := 2) (sigma := 1) (dt := none) none le_rfl one_ne_zero (by intro d hd; cases hd) (by norm_num)
  exact ⟨1, W + 2, N₀, le_rfl, by omega, Ω, m, μ, gen, x, hg, hx, hb 0⟩

end

end MFA
