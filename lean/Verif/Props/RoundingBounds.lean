import Verif.Lemmas.RoundedSizes
import Verif.Props.RoundingExact

/-! C124: explicit bounds on the effect of rounding errors. -/

namespace MFA

open Classical

noncomputable section

variable {R : ℕ} {m : MRQ R} {J : ℕ}

theorem Ap.of_exact {k : ℕ} {A : ℝ} {f : Fl} {x : ℝ} (h : Ap Machine.exact k A f x) : f = Fl.fin x := by
  obtain ⟨z, e, h2, -⟩ := h
  have : Machine.exact.gam k = 0 := by unfold Machine.gam; show (1 + (0:ℝ)) ^ _ - 1 = 0; simp
  rw [this, zero_mul] at h2
  rw [e, sub_eq_zero.1 (abs_nonpos_iff.1 h2)]

theorem wtOf_eq (hm : Regular m J) (weighted : Bool) {p : ℤ × Arr R} (hp : p ∈ m.values) (r : Fin R) : wtOf weighted p r = scaleWeight m weighted p.1 r := by
  unfold wtOf scaleWeight
  cases weighted with
  | false => rfl
  | true =>
    have := hm.getNj hp
    unfold getKey at this
    cases h : m.nj.get? p.1 with
    | none => rw [h] at this; cases this
    | some v =>
      rw [h] at this
      simp only [Except.ok.injEq] at this
      simp [this]

theorem scaleWeight_sum (hm : Regular m J) (weighted : Bool) {j1 j2 : ℕ} (h1 : 1 ≤ j1) (h12 : j1 ≤ j2) (h2 : j2 ≤ J) (r : Fin R) :
    ((subR m j1 j2).map fun p => wtOf weighted p r).sum = ∑ i ∈ Finset.Icc j1 j2, scaleWeight m weighted i r := by
  have a1 : (1:ℤ) ≤ (j1 : ℤ) := by exact_mod_cast h1
  have a2 : (j1 : ℤ) ≤ (j2 : ℤ) := by exact_mod_cast h12
  have a3 : (j2 : ℤ) ≤ (J : ℤ) := by exact_mod_cast h2
  have e : ((subR m j1 j2).map fun p => wtOf weighted p r) = ((subR m j1 j2).map Prod.fst).map fun j => scaleWeight m weighted j r := by
    rw [List.map_map]
    exact List.map_congr_left fun p hp => wtOf_eq hm weighted (sub_mem hp) r
  rw [e, hm.sub_keys a1 a2 a3]
  unfold arange
  rw [List.map_map, show ((j2 : ℤ) + 1 - j1).toNat = j2 + 1 - j1 by omega, ← Finset.Ico_add_one_right_eq_Icc, Finset.sum_Ico_eq_sum_range]
  have : ∀ (f : ℕ → ℝ) (n : ℕ), ((List.range n).map f).sum = ∑ i ∈ Finset.range n, f i := by
    intro f n
    induction n with
    | zero => simp
    | succ n ih => rw [List.range_succ, List.map_append, List.sum_append, ih, Finset.sum_range_succ]; simp
  rw [this]
  refine Finset.sum_congr rfl fun i _ => ?_
  show scaleWeight m weighted ((j1 : ℤ) + i) r = _
  push_cast
  rfl

/-- Error of a slope fitted to a statistic of the columns. -/
theorem stat_err {M : Machine} (hm : Regular m J) {j1 j2 : ℕ} (h1 : 1 ≤ j1) (h12 : j1 < j2) (h2 : j2 ≤ J) (weighted : Bool) {ρ : ℝ}
    (hu : 32 * ρ * j2 ^ 2 * (j2 - j1 + 3) * M.u ≤ 1) {r : Fin R} (hb : Balanced ρ m weighted j1 j2 r) (hne : ∀ p ∈ m.values, ∃ x ∈ col p.2 r, x ≠ Fl.nan)
    {k : ℕ} (hk : (k : ℝ) * M.u ≤ 1) {A : ℝ} {Y : Machine → ℤ × Arr R → Fl}
    (hY : ∀ p ∈ m.values, ∃ b, Ap M k A (Y M p) b ∧ Ap Machine.exact k A (Y Machine.exact p) b) :
    1 ≤ ρ ∧ ∃ z s, M.slopeL (subR m j1 j2) (fun p => (p.1 : ℝ)) (fun p => wtOf weighted p r) (Y M) = Fl.fin z ∧
      Machine.exact.slopeL (subR m j1 j2) (fun p => (p.1 : ℝ)) (fun p => wtOf weighted p r) (Y Machine.exact) = Fl.fin s ∧
      |z - s| ≤ roundErr M.u ρ j1 j2 k A ∧ |s| ≤ 4 * ρ * j2 * A := by
  have a1 : (1:ℤ) ≤ (j1 : ℤ) := by exact_mod_cast h1
  have a2 : (j1 : ℤ) ≤ (j2 : ℤ) := by exact_mod_cast h12.le
  have a3 : (j2 : ℤ) ≤ (J : ℤ) := by exact_mod_cast h2
  have hkeys := hm.sub_keys a1 a2 a3
  have hw : ∀ p ∈ subR m j1 j2, 0 < wtOf weighted p r := by
    intro p hp
    unfold wtOf
    split
    · exact_mod_cast count_pos (hne p (sub_mem hp))
    · exact one_pos
  have hb' : ∀ p ∈ subR m j1 j2, ((subR m j1 j2).map fun p => wtOf weighted p r).sum ≤
      ρ * (((subR m j1 j2).map fun p => wtOf weighted p r).sum - wtOf weighted p r) := by
    intro p hp
    have hk : p.1 ∈ arange (j1 : ℤ) ((j2 : ℤ) + 1) := by rw [← hkeys]; exact List.mem_map.2 ⟨p, hp, rfl⟩
    rw [mem_arange] at hk
    obtain ⟨j, hj⟩ : ∃ j : ℕ, p.1 = j := ⟨p.1.toNat, by omega⟩
    have := hb j (Finset.mem_Icc.2 (by omega))
    rw [scaleWeight_sum hm weighted h1 h12.le h2 r, wtOf_eq hm weighted (sub_mem hp) r, hj]
    exact this
  obtain ⟨p0, hp0⟩ := List.exists_mem_of_ne_nil _ (hm.sub_ne_nil a1 a2 a3)
  have hs0 : 0 ≤ ((subR m j1 j2).map fun p => wtOf weighted p r).sum - wtOf weighted p0 r := by
    have := List.single_le_sum (l := (subR m j1 j2).map fun p => wtOf weighted p r) (by
      intro x hx; obtain ⟨p, hp, rfl⟩ := List.mem_map.1 hx; exact (hw p hp).le) _ (List.mem_map.2 ⟨p0, hp0, rfl⟩)
    linarith
  have hρ1 : 1 ≤ ρ := by
    have h3 := hb' p0 hp0
    have h4 := hw p0 hp0
    by_contra hlt
    push Not at hlt
    have : ρ * (((subR m j1 j2).map fun p => wtOf weighted p r).sum - wtOf weighted p0 r) ≤
        1 * (((subR m j1 j2).map fun p => wtOf weighted p r).sum - wtOf weighted p0 r) := mul_le_mul_of_nonneg_right hlt.le hs0
    linarith
  refine ⟨hρ1, ?_⟩
  have hY' : ∀ p, ∃ b, p ∈ m.values → Ap M k A (Y M p) b ∧ Ap Machine.exact k A (Y Machine.exact p) b := by
    intro p
    by_cases hp : p ∈ m.values
    · obtain ⟨b, hb⟩ := hY p hp
      exact ⟨b, fun _ => hb⟩
    · exact ⟨0, fun h => absurd h hp⟩
  choose b hb2 using hY'
  exact slope_err (M := M) (l := subR m j1 j2) (x := fun p => p.1) (w := fun p => wtOf weighted p r) h12 hkeys hw (by linarith) hb' hu hk
    (y := Y M) (y0 := Y Machine.exact) (Y := b) (fun p hp => (hb2 p (sub_mem hp)).1) (fun p hp => (hb2 p (sub_mem hp)).2.of_exact)

theorem roundErr_ge {u ρ : ℝ} {j1 j2 : ℕ} (h12 : j1 < j2) (hρ : 1 ≤ ρ) (hu : 0 ≤ u) (k : ℕ) {A : ℝ} (hA : 0 ≤ A) :
    0 ≤ roundErr u ρ j1 j2 k A ∧ (4 * ρ * j2 * A) * u ≤ roundErr u ρ j1 j2 k A / 100 := by
  have hj2 : (1:ℝ) ≤ j2 := by exact_mod_cast (by omega : 1 ≤ j2)
  have hL : (1:ℝ) ≤ j2 - j1 := by
    have : (j1 : ℝ) + 1 ≤ j2 := by exact_mod_cast h12
    linarith
  have hS : 0 ≤ (4 * ρ * j2 * A) * u := by positivity
  have hc : (100:ℝ) ≤ 2 * (96 * ρ * j2 ^ 2 * (j2 - j1 + 3) + 7 * k) := by
    have h1 : (1:ℝ) ≤ ρ * j2 ^ 2 := by nlinarith [one_le_pow₀ hj2 (n := 2)]
    have h2 : (1:ℝ) ≤ ρ * j2 ^ 2 * (j2 - j1 + 3) := by nlinarith
    have h3 : (0:ℝ) ≤ k := Nat.cast_nonneg k
    nlinarith
  have e : roundErr u ρ j1 j2 k A = (4 * ρ * j2 * A * u) * (2 * (96 * ρ * j2 ^ 2 * (j2 - j1 + 3) + 7 * k)) := by unfold roundErr; ring
  rw [e]
  refine ⟨mul_nonneg hS (by linarith), ?_⟩
  have := mul_le_mul_of_nonneg_left hc hS
  linarith

theorem Rounds.fin {u x : ℝ} {b : Fl} (h : Rounds u (Fl.fin x) b) : ∃ y, b = Fl.fin y ∧ |y - x| ≤ u * |x| := by
  rcases h with ⟨a, y, e1, e2, e3⟩ | ⟨e, -⟩
  · rw [Fl.fin_inj] at e1
    subst e1
    exact ⟨y, e2, e3⟩
  · exact absurd rfl (e x)

theorem Ap.log2e (M : Machine) (hu : M.u ≤ 1 / 2) : Ap M 1 7 M.log2e (Real.logb 2 (Real.exp 1)) := by
  have h1 : Ap M 1 (Real.exp 1) (M.exp (Fl.fin 1)) (Real.exp 1) := by
    refine Ap.round (k := 0) (f := Fl.exp (Fl.fin 1)) ?_ (M.exp_ok _)
    exact Ap.exact M 0 (le_of_eq (abs_of_pos (Real.exp_pos 1)))
  have h2 : (0.6931471803 : ℝ) < Real.log 2 := Real.log_two_gt_d9
  have h3 : |Real.logb 2 (Real.exp 1)| ≤ 2 := by
    rw [Real.logb, Real.log_exp, abs_of_pos (by positivity), div_le_iff₀ (by linarith)]
    linarith
  have h4 : M.gam 1 ≤ 1 / 2 := by unfold Machine.gam; linarith
  exact (h1.log2 (Real.exp_pos 1) le_rfl h4 h3).mono le_rfl (by norm_num)

theorem logData_nonzero {Y : ℝ} {n : ℕ} (hd : LogData Y n m) : NonzeroData m := by
  intro p hp r
  obtain ⟨h1, h2⟩ := (hd p hp).2.2 r
  refine ⟨h1, fun x hx => ?_⟩
  rcases h2 x hx with e | ⟨t, h0, e, -⟩
  · exact Or.inl e
  · exact Or.inr ⟨t, h0, e⟩

set_option maxHeartbeats 1600000 in
/-- **C124, explicit bounds.**  A multiresolution quantity with scales `1..J`, at most `n` values per scale, all of them between `2^(-Y)` and `2^Y` in
absolute value or NaN, analysed over `j1 < j2` scales on a machine whose operations have relative errors of at most `u`.  Provided `u` is small compared with
the inverse of the number of operations, both the exact and the rounded estimators return, and in every realisation where no scale holds more than
`1 - 1/ρ` of the weight their results differ by at most `roundErr`, an explicit multiple of `u`. -/
theorem C124_bounds (hm : Regular m J) {Y : ℝ} {n : ℕ} (hd : LogData Y n m) {j1 j2 : ℕ} (h1 : 1 ≤ j1) (h12 : j1 < j2) (h2 : j2 ≤ J) (weighted : Bool)
    {q : List ℝ} (hq : (2:ℝ) ∈ q) (nc : ℕ) {ρ : ℝ} (M : Machine) (hu1 : 32 * ρ * j2 ^ 2 * (j2 - j1 + 3) * M.u ≤ 1) (hu2 : 28 * (n + 1) * M.u ≤ 1) :
    ∃ v v', mfVar m j1 j2 weighted nc q = .ok v ∧ M.mfVar m j1 j2 weighted nc q = .ok v' ∧ ∀ r, Balanced ρ m weighted j1 j2 r →
      (∀ (i : ℕ) (e : ℝ), q[i]? = some e → ∃ z z', v.structure_.zeta[i]? = some z ∧ v'.structure_.zeta[i]? = some z' ∧
        FlClose (roundErr M.u ρ j1 j2 (n + 2) (|e| * Y + 5)) (z r) (z' r)) ∧
      FlClose (roundErr M.u ρ j1 j2 (n + 2) (2 * Y + 5) + |m.gamint| * M.u) (v.structure_.H r) (v'.structure_.H r) ∧
      FlClose (roundErr M.u ρ j1 j2 1 Y) (v.hmin r) (v'.hmin r) ∧
      (∀ i < nc, (i + 1) * (n + 2 * nc + 4) * M.u ≤ 1 → ∃ c c', v.cumulants.log_cumulants[i]? = some c ∧ v'.cumulants.log_cumulants[i]? = some c' ∧
        FlClose (3 * roundErr M.u ρ j1 j2 ((i + 1) * (n + 2 * nc + 4)) ((i + 1).factorial * 2 ^ i * (Y * Real.log 2) ^ (i + 1))) (c r) (c' r)) ∧
      (∀ (i : ℕ) (e : ℝ), q[i]? = some e → ∃ h h', v.spectrum.hq[i]? = some h ∧ v'.spectrum.hq[i]? = some h' ∧
        FlClose (roundErr M.u ρ j1 j2 (8 * n + 9) Y) (h r) (h' r)) ∧
      ∀ (i : ℕ) (e : ℝ), q[i]? = some e → ∃ D D', v.spectrum.Dq[i]? = some D ∧ v'.spectrum.Dq[i]? = some D' ∧
        FlClose (2 * roundErr M.u ρ j1 j2 (15 * n + 16) (2 * Real.logb 2 n + 2 * |e| * Y + 5)) (D r) (D' r) := by
  have a1 : (1:ℤ) ≤ (j1 : ℤ) := by exact_mod_cast h1
  have a2 : (j1 : ℤ) ≤ (j2 : ℤ) := by exact_mod_cast h12.le
  have a3 : (j2 : ℤ) ≤ (J : ℤ) := by exact_mod_cast h2
  have hqe : (QArg.ndarray q).expos ≠ [] := by rw [expos_ndarray]; simp; rintro rfl; cases hq
  have hrow : ∀ p ∈ m.values, p.2 ≠ [] := fun p hp => (hd p hp).1
  have hu0 := M.u_nonneg
  have hok : ∀ M : Machine, ∃ v : MFVar R, M.mfVar m j1 j2 weighted nc q = .ok v ∧
      (v.structure_.H = fun r => M.sub (M.div (M.zetaF m j1 j2 weighted (.real 2) r) (Fl.fin 2)) (Fl.fin m.gamint)) ∧
      v.hmin = M.hminF m j1 j2 weighted ∧
      (v.structure_.zeta = q.map fun e => M.zetaF m j1 j2 weighted (.real e)) ∧
      (v.cumulants.log_cumulants = (List.range nc).map fun i r => M.mul (M.cumF m j1 j2 weighted nc i r) M.log2e) ∧
      (v.spectrum.hq = q.map fun e => M.vF m j1 j2 weighted (.real e)) ∧
      (v.spectrum.Dq = q.map fun e r => M.add (Fl.fin 1) (M.uF m j1 j2 weighted (.real e) r)) := by
    intro M
    unfold Machine.mfVar
    rw [hm.structFnM M a1 a2 a3 weighted q hq]
    simp only
    rw [hm.cumulantsM M a1 a2 a3 weighted nc]
    simp only
    rw [hm.spectrumM M a1 a2 a3 weighted (.ndarray q) hqe]
    simp only
    rw [hm.hminM M a1 a2 a3 weighted true hrow]
    refine ⟨_, rfl, rfl, rfl, rfl, rfl, ?_, ?_⟩
    · simp only [expos_ndarray, List.map_map]; rfl
    · simp only [expos_ndarray, List.map_map]; rfl
  obtain ⟨v, hv, vH, vh, vz, vc, vhq, vD⟩ := hok Machine.exact
  obtain ⟨v', hv', wH, wh, wz, wc, whq, wD⟩ := hok M
  rw [Machine.exact_mfVar] at hv
  refine ⟨v, v', hv, hv', fun r hb => ?_⟩
  have hne : ∀ p ∈ m.values, ∃ x ∈ col p.2 r, x ≠ Fl.nan := fun p hp => ((hd p hp).2.2 r).1
  have hlen : ∀ p ∈ m.values, (col p.2 r).length ≤ n := fun p hp => by
    rw [col, List.length_map]; exact (hd p hp).2.1
  have hn0 : (0:ℝ) ≤ n := Nat.cast_nonneg n
  have hnu : 0 ≤ (n:ℝ) * M.u := mul_nonneg hn0 hu0
  have hg7 : M.gam (7 * (n + 1)) ≤ 1 / 2 := by
    have hc : ((7 * (n + 1) : ℕ) : ℝ) * M.u ≤ 1 := by push_cast; nlinarith
    have := M.gam_le hc
    push_cast at this
    nlinarith
  have hx7 : Machine.exact.gam (7 * (n + 1)) ≤ 1 / 2 := by unfold Machine.gam; show (1 + (0:ℝ)) ^ _ - 1 ≤ _; simp
  have hY0 : 0 ≤ Y := by
    obtain ⟨p0, hp0⟩ := List.exists_mem_of_ne_nil _ (hm.sub_ne_nil a1 a2 a3)
    exact ((hd p0 (sub_mem hp0)).2.2 r).nonneg
  have kz : ∀ e : ℝ, 1 ≤ ρ ∧ ∃ z s, M.zetaF m j1 j2 weighted (.real e) r = Fl.fin z ∧ Machine.exact.zetaF m j1 j2 weighted (.real e) r = Fl.fin s ∧
      |z - s| ≤ roundErr M.u ρ j1 j2 (n + 2) (|e| * Y + 5) ∧ |s| ≤ 4 * ρ * j2 * (|e| * Y + 5) := by
    intro e
    have := stat_err (M := M) hm h1 h12 h2 weighted hu1 hb hne (k := n + 2) (by push_cast; nlinarith) (A := |e| * Y + 5)
      (Y := fun M p => M.log2 (M.sfMean p.2 (.real e) r)) (fun p hp => by
        have hl := (hd p hp).2.2 r
        refine ⟨Real.logb 2 (usum (col p.2 r) (fun x => |flVal x| ^ e) / countNotNaN (col p.2 r)), ?_, ?_⟩
        · have := hl.structure M (hlen p hp) ((M.gam_mono (by omega)).trans hg7) e
          unfold Machine.sfMean red
          rw [col_mapArr, col_mapArr]
          exact this
        · have := hl.structure Machine.exact (hlen p hp) ((Machine.exact.gam_mono (by omega)).trans hx7) e
          unfold Machine.sfMean red
          rw [col_mapArr, col_mapArr]
          exact this)
    push_cast at this
    exact this
  have kh : 1 ≤ ρ ∧ ∃ z s, M.hminF m j1 j2 weighted r = Fl.fin z ∧ Machine.exact.hminF m j1 j2 weighted r = Fl.fin s ∧
      |z - s| ≤ roundErr M.u ρ j1 j2 1 Y ∧ |s| ≤ 4 * ρ * j2 * Y := by
    have := stat_err (M := M) hm h1 h12 h2 weighted hu1 hb hne (k := 1) (by push_cast; nlinarith) (A := Y)
      (Y := fun M p => M.log2 (nanmax ((col p.2 r).map Fl.abs))) (fun p hp => by
        obtain ⟨b, hb⟩ := ((hd p hp).2.2 r).hmin
        exact ⟨b, hb _, hb _⟩)
    rw [Nat.cast_one] at this
    exact this
  have kc : ∀ i < nc, (i + 1) * (n + 2 * nc + 4) * M.u ≤ 1 → 1 ≤ ρ ∧ ∃ z s, M.cumF m j1 j2 weighted nc i r = Fl.fin z ∧
      Machine.exact.cumF m j1 j2 weighted nc i r = Fl.fin s ∧
      |z - s| ≤ roundErr M.u ρ j1 j2 (((i + 1) * (n + 2 * nc + 4) : ℕ) : ℝ) ((i + 1).factorial * 2 ^ i * (Y * Real.log 2) ^ (i + 1)) ∧
      |s| ≤ 4 * ρ * j2 * ((i + 1).factorial * 2 ^ i * (Y * Real.log 2) ^ (i + 1)) := by
    intro i hi hui
    exact stat_err (M := M) hm h1 h12 h2 weighted hu1 hb hne (k := (i + 1) * (n + 2 * nc + 4)) (by push_cast; exact hui)
      (A := (i + 1).factorial * 2 ^ i * (Y * Real.log 2) ^ (i + 1))
      (Y := fun M p => (M.cmColumn (M.logAbsCol p.2 r) nc).getD i Fl.nan) (fun p hp => by
        obtain ⟨b, hb⟩ := ((hd p hp).2.2 r).cumulant (hlen p hp) hi
        exact ⟨b, hb _, hb _⟩)
  have kV : ∀ e : ℝ, 1 ≤ ρ ∧ ∃ z s, M.vF m j1 j2 weighted (.real e) r = Fl.fin z ∧ Machine.exact.vF m j1 j2 weighted (.real e) r = Fl.fin s ∧
      |z - s| ≤ roundErr M.u ρ j1 j2 (8 * n + 9) Y ∧ |s| ≤ 4 * ρ * j2 * Y := by
    intro e
    have := stat_err (M := M) hm h1 h12 h2 weighted hu1 hb hne (k := 8 * n + 9) (by push_cast; nlinarith) (A := Y)
      (Y := fun M p => M.msV (col p.2 r) (.real e)) (fun p hp => by
        have hl := (hd p hp).2.2 r
        exact ⟨_, hl.spectrumV M (hlen p hp) ((M.gam_mono (by omega)).trans hg7) e,
          hl.spectrumV Machine.exact (hlen p hp) ((Machine.exact.gam_mono (by omega)).trans hx7) e⟩)
    push_cast at this
    exact this
  have kU : ∀ e : ℝ, 1 ≤ ρ ∧ ∃ z s, M.uF m j1 j2 weighted (.real e) r = Fl.fin z ∧ Machine.exact.uF m j1 j2 weighted (.real e) r = Fl.fin s ∧
      |z - s| ≤ roundErr M.u ρ j1 j2 (((15 * n + 16 : ℕ)) : ℝ) (2 * Real.logb 2 n + 2 * |e| * Y + 5) ∧
      |s| ≤ 4 * ρ * j2 * (2 * Real.logb 2 n + 2 * |e| * Y + 5) := by
    intro e
    exact stat_err (M := M) hm h1 h12 h2 weighted hu1 hb hne (k := 15 * n + 16) (by push_cast; nlinarith) (A := 2 * Real.logb 2 n + 2 * |e| * Y + 5)
      (Y := fun M p => M.msU (countNotNaN (col p.2 r)) (col p.2 r) (.real e)) (fun p hp => by
        have hl := (hd p hp).2.2 r
        exact ⟨_, hl.spectrumU M (hlen p hp) hg7 e, hl.spectrumU Machine.exact (hlen p hp) hx7 e⟩)
  have hρ := kh.1
  have hj2 : (1:ℝ) ≤ j2 := by exact_mod_cast (by omega : 1 ≤ j2)
  have hu : M.u ≤ 1 / 28 := by nlinarith
  have hget : ∀ {β : Type} (f : ℝ → β) {i : ℕ} {e : ℝ}, q[i]? = some e → (q.map f)[i]? = some (f e) := by
    intro β f i e h
    rw [List.getElem?_map, h]; rfl
  refine ⟨fun i e hi => ?_, ?_, ?_, fun i hi hui => ?_, fun i e hi => ?_, fun i e hi => ?_⟩
  · obtain ⟨-, z, s, e1, e2, e3, -⟩ := kz e
    rw [vz, wz]
    refine ⟨_, _, hget _ hi, hget _ hi, s, z, e2, e1, ?_⟩
    rw [abs_sub_comm]
    exact e3
  · obtain ⟨-, z, s, e1, e2, e3, e4⟩ := kz 2
    rw [show |(2:ℝ)| = 2 by norm_num] at e3 e4
    obtain ⟨hE0, hE⟩ := roundErr_ge (u := M.u) h12 hρ hu0 (n + 2) (A := 2 * Y + 5) (by linarith)
    push_cast at hE0 hE
    obtain ⟨d, d1, d2⟩ := (show Rounds M.u (Fl.fin (z / 2)) (M.div (Fl.fin z) (Fl.fin 2)) by
      have := M.div_ok (Fl.fin z) (Fl.fin 2)
      rwa [Fl.fin_div two_ne_zero] at this).fin
    obtain ⟨y, y1, y2⟩ := (show Rounds M.u (Fl.fin (d - m.gamint)) (M.sub (Fl.fin d) (Fl.fin m.gamint)) by
      have := M.sub_ok (Fl.fin d) (Fl.fin m.gamint)
      rwa [Fl.fin_sub] at this).fin
    have hex : v.structure_.H r = Fl.fin (s / 2 - m.gamint) := by
      rw [vH]
      show Machine.exact.zetaF m j1 j2 weighted (.real 2) r / Fl.fin 2 - Fl.fin m.gamint = _
      rw [e2, Fl.fin_div two_ne_zero, Fl.fin_sub]
    refine ⟨s / 2 - m.gamint, y, hex, by rw [wH]; show M.sub (M.div (M.zetaF m j1 j2 weighted (.real 2) r) (Fl.fin 2)) (Fl.fin m.gamint) = _; rw [e1, d1, y1], ?_⟩
    obtain ⟨E, hEe⟩ : ∃ E, E = roundErr M.u ρ j1 j2 (n + 2) (2 * Y + 5) := ⟨_, rfl⟩
    rw [← hEe] at e3 hE0 hE ⊢
    obtain ⟨S, hS⟩ : ∃ S, S = 4 * ρ * j2 * (2 * Y + 5) := ⟨_, rfl⟩
    rw [← hS] at e4 hE
    have b1 : |z| ≤ S + E := by have := abs_sub_abs_le_abs_sub z s; linarith
    have b2 : |z / 2| ≤ (S + E) / 2 := by rw [abs_div, abs_of_pos (by norm_num : (0:ℝ) < 2)]; linarith
    have b3 : M.u * |z / 2| ≤ M.u * ((S + E) / 2) := mul_le_mul_of_nonneg_left b2 hu0
    have b4 : |d| ≤ (S + E) / 2 + M.u * ((S + E) / 2) := by have := abs_sub_abs_le_abs_sub d (z / 2); linarith
    have b5 : |d - m.gamint| ≤ |d| + |m.gamint| := abs_sub _ _
    have b6 : M.u * |d - m.gamint| ≤ M.u * ((S + E) / 2 + M.u * ((S + E) / 2) + |m.gamint|) := mul_le_mul_of_nonneg_left (by linarith) hu0
    have b7 : M.u * E ≤ 1 / 28 * E := mul_le_mul_of_nonneg_right hu hE0
    have b8 : M.u * (M.u * E) ≤ 1 / 28 * E := by nlinarith
    have b9 : M.u * (M.u * S) ≤ E / 100 := by
      have : M.u * (M.u * S) ≤ 1 * (M.u * S) := mul_le_mul_of_nonneg_right (by linarith) (mul_nonneg hu0 ((abs_nonneg _).trans e4))
      linarith
    have e5 : s / 2 - m.gamint - y = -(y - (d - m.gamint)) - (d - z / 2) - (z - s) / 2 := by ring
    rw [e5]
    have t1 := abs_sub (-(y - (d - m.gamint)) - (d - z / 2)) ((z - s) / 2)
    have t2 := abs_sub (-(y - (d - m.gamint))) (d - z / 2)
    rw [abs_neg] at t2
    rw [abs_div (z - s), abs_of_pos (by norm_num : (0:ℝ) < 2)] at t1
    nlinarith
  · obtain ⟨-, z, s, e1, e2, e3, -⟩ := kh
    rw [vh, wh]
    refine ⟨s, z, e2, e1, ?_⟩
    rw [abs_sub_comm]
    exact e3
  · obtain ⟨-, z, s, e1, e2, e3, e4⟩ := kc i hi hui
    have hA : 0 ≤ ((i + 1).factorial : ℝ) * 2 ^ i * (Y * Real.log 2) ^ (i + 1) := by
      have := mul_nonneg hY0 (Real.log_pos (by norm_num : (1:ℝ) < 2)).le
      positivity
    obtain ⟨hE0, hE⟩ := roundErr_ge (u := M.u) h12 hρ hu0 ((i + 1) * (n + 2 * nc + 4)) hA
    obtain ⟨lf, l1, l2, -⟩ := Ap.log2e M (by linarith)
    have l3 := (Ap.log2e Machine.exact (by show (0:ℝ) ≤ _; norm_num)).of_exact
    have l4 : |Real.logb 2 (Real.exp 1)| ≤ 2 := by
      have h2 : (0.6931471803 : ℝ) < Real.log 2 := Real.log_two_gt_d9
      rw [Real.logb, Real.log_exp, abs_of_pos (by positivity), div_le_iff₀ (by linarith)]
      linarith
    have l5 : |lf - Real.logb 2 (Real.exp 1)| ≤ 7 * M.u := by
      have : M.gam 1 = M.u := by unfold Machine.gam; ring
      rw [this] at l2; linarith
    obtain ⟨y, y1, y2⟩ := (show Rounds M.u (Fl.fin (z * lf)) (M.mul (Fl.fin z) M.log2e) by
      have := M.mul_ok (Fl.fin z) M.log2e
      rwa [l1, Fl.fin_mul, ← l1] at this).fin
    have hgr : ∀ {β : Type} (f : ℕ → β), ((List.range nc).map f)[i]? = some (f i) := by
      intro β f
      rw [List.getElem?_map, List.getElem?_range hi]; rfl
    rw [vc, wc]
    refine ⟨_, _, hgr _, hgr _, s * Real.logb 2 (Real.exp 1), y, ?_, ?_, ?_⟩
    · show Machine.exact.cumF m j1 j2 weighted nc i r * Machine.exact.log2e = _
      rw [e2, l3, Fl.fin_mul]
    · show M.mul (M.cumF m j1 j2 weighted nc i r) M.log2e = _
      rw [e1, y1]
    obtain ⟨E, hEe⟩ : ∃ E, E = roundErr M.u ρ j1 j2 (((i + 1) * (n + 2 * nc + 4) : ℕ) : ℝ) ((i + 1).factorial * 2 ^ i * (Y * Real.log 2) ^ (i + 1)) := ⟨_, rfl⟩
    have hEe' : roundErr M.u ρ j1 j2 ((i + 1) * (n + 2 * nc + 4)) ((i + 1).factorial * 2 ^ i * (Y * Real.log 2) ^ (i + 1)) = E := by
      rw [hEe]; push_cast; rfl
    rw [hEe']
    rw [← hEe] at e3 hE0 hE
    obtain ⟨S, hS⟩ : ∃ S, S = 4 * ρ * j2 * ((i + 1).factorial * 2 ^ i * (Y * Real.log 2) ^ (i + 1)) := ⟨_, rfl⟩
    rw [← hS] at e4 hE
    have hS0 : 0 ≤ S := (abs_nonneg _).trans e4
    have l6 : |lf| ≤ 9 / 4 := by have := abs_sub_abs_le_abs_sub lf (Real.logb 2 (Real.exp 1)); linarith
    have b1 : |z| ≤ S + E := by have := abs_sub_abs_le_abs_sub z s; linarith
    have b2 : |z * lf| ≤ (S + E) * (9 / 4) := by rw [abs_mul]; exact mul_le_mul b1 l6 (abs_nonneg _) (by linarith)
    have b3 : M.u * |z * lf| ≤ M.u * ((S + E) * (9 / 4)) := mul_le_mul_of_nonneg_left b2 hu0
    have b4 : |(z - s) * lf| ≤ E * (9 / 4) := by rw [abs_mul]; exact mul_le_mul e3 l6 (abs_nonneg _) hE0
    have b5 : |s * (lf - Real.logb 2 (Real.exp 1))| ≤ S * (7 * M.u) := by rw [abs_mul]; exact mul_le_mul e4 l5 (abs_nonneg _) hS0
    have b7 : M.u * E ≤ 1 / 28 * E := mul_le_mul_of_nonneg_right hu hE0
    rw [show s * Real.logb 2 (Real.exp 1) - y = -(y - z * lf) - (z - s) * lf - s * (lf - Real.logb 2 (Real.exp 1)) by ring]
    have t1 := abs_sub (-(y - z * lf) - (z - s) * lf) (s * (lf - Real.logb 2 (Real.exp 1)))
    have t2 := abs_sub (-(y - z * lf)) ((z - s) * lf)
    rw [abs_neg] at t2
    nlinarith
  · obtain ⟨-, z, s, e1, e2, e3, -⟩ := kV e
    rw [vhq, whq]
    refine ⟨_, _, hget _ hi, hget _ hi, s, z, e2, e1, ?_⟩
    rw [abs_sub_comm]
    exact e3
  · obtain ⟨-, z, s, e1, e2, e3, e4⟩ := kU e
    have hln : 0 ≤ Real.logb 2 (n : ℝ) := by
      obtain ⟨p0, hp0⟩ := List.exists_mem_of_ne_nil _ (hm.sub_ne_nil a1 a2 a3)
      refine Real.logb_nonneg (by norm_num) ?_
      exact_mod_cast (count_pos (hne p0 (sub_mem hp0))).trans_le ((count_le _).trans (hlen p0 (sub_mem hp0)))
    have hA : 5 ≤ 2 * Real.logb 2 n + 2 * |e| * Y + 5 := by
      have := mul_nonneg (abs_nonneg e) hY0
      nlinarith
    obtain ⟨hE0, hE⟩ := roundErr_ge (u := M.u) h12 hρ hu0 (15 * n + 16) (A := 2 * Real.logb 2 n + 2 * |e| * Y + 5) (by linarith)
    obtain ⟨y, y1, y2⟩ := (show Rounds M.u (Fl.fin (1 + z)) (M.add (Fl.fin 1) (Fl.fin z)) by
      have := M.add_ok (Fl.fin 1) (Fl.fin z)
      rwa [Fl.fin_add] at this).fin
    rw [vD, wD]
    refine ⟨_, _, hget _ hi, hget _ hi, 1 + s, y, ?_, ?_, ?_⟩
    · show Fl.fin 1 + Machine.exact.uF m j1 j2 weighted (.real e) r = _
      rw [e2, Fl.fin_add]
    · show M.add (Fl.fin 1) (M.uF m j1 j2 weighted (.real e) r) = _
      rw [e1, y1]
    have hS1 : 1 ≤ 4 * ρ * j2 * (2 * Real.logb 2 n + 2 * |e| * Y + 5) := by
      have h3 : (1:ℝ) ≤ ρ * j2 := one_le_mul_of_one_le_of_one_le hρ hj2
      have h4 := mul_le_mul h3 hA (by norm_num) (by positivity)
      have h5 : 4 * ρ * j2 * (2 * Real.logb 2 n + 2 * |e| * Y + 5) = 4 * (ρ * j2 * (2 * Real.logb 2 n + 2 * |e| * Y + 5)) := by ring
      rw [h5]
      linarith
    obtain ⟨S, hS⟩ : ∃ S, S = 4 * ρ * j2 * (2 * Real.logb 2 n + 2 * |e| * Y + 5) := ⟨_, rfl⟩
    rw [← hS] at e4 hE hS1
    obtain ⟨E, hEe⟩ : ∃ E, E = roundErr M.u ρ j1 j2 ((15 * n + 16 : ℕ) : ℝ) (2 * Real.logb 2 n + 2 * |e| * Y + 5) := ⟨_, rfl⟩
    have hEe' : roundErr M.u ρ j1 j2 (15 * n + 16) (2 * Real.logb 2 n + 2 * |e| * Y + 5) = E := by rw [hEe]; push_cast; rfl
    rw [hEe']
    rw [← hEe] at e3 hE0 hE
    have b1 : |z| ≤ S + E := by have := abs_sub_abs_le_abs_sub z s; linarith
    have b2 : |1 + z| ≤ 1 + (S + E) := (abs_add_le _ _).trans (by rw [abs_one]; linarith)
    have b3 : M.u * |1 + z| ≤ M.u * (1 + (S + E)) := mul_le_mul_of_nonneg_left b2 hu0
    have b4 : M.u * 1 ≤ S * M.u := by nlinarith
    have b7 : M.u * E ≤ 1 / 28 * E := mul_le_mul_of_nonneg_right hu hE0
    rw [show 1 + s - y = -(y - (1 + z)) - (z - s) by ring]
    have t2 := abs_sub (-(y - (1 + z))) (z - s)
    rw [abs_neg] at t2
    nlinarith

end

end MFA
