import Verif.Lemmas.RoundedColumn

/-! Explicit bounds on rounding errors: ordinates of the regressions. -/

namespace MFA

open Classical

noncomputable section

/-- The number held by an entry. -/
def flVal : Fl → ℝ
  | .fin t => t
  | _ => 0

variable {M : Machine} {c : List Fl} {Y : ℝ} {n : ℕ}

theorem LogCol.nonneg (h : LogCol c Y) : 0 ≤ Y := by
  obtain ⟨⟨x, hx, hn⟩, h2⟩ := h
  rcases h2 x hx with e | ⟨t, -, -, ht⟩
  · exact absurd e hn
  · exact (abs_nonneg _).trans ht

theorem LogCol.entry (h : LogCol c Y) {x : Fl} (hx : x ∈ c) (hn : x ≠ Fl.nan) :
    flVal x ≠ 0 ∧ x = Fl.fin (flVal x) ∧ |Real.logb 2 (|flVal x|)| ≤ Y := by
  rcases h.2 x hx with e | ⟨t, h0, rfl, ht⟩
  · exact absurd e hn
  · exact ⟨h0, rfl, ht⟩

theorem logb_rpow_le {t Y : ℝ} (ht : t ≠ 0) (hY : |Real.logb 2 (|t|)| ≤ Y) (e : ℝ) : |Real.logb 2 (|t| ^ e)| ≤ |e| * Y := by
  rw [Real.logb_rpow_eq_mul_logb_of_pos (abs_pos.2 ht), abs_mul]
  exact mul_le_mul_of_nonneg_left hY (abs_nonneg _)

theorem le_of_abs_logb {t B : ℝ} (ht : 0 < t) (h : |Real.logb 2 t| ≤ B) : (2:ℝ) ^ (-B) ≤ t ∧ t ≤ 2 ^ B := by
  have := abs_le.1 h
  have h2 : (1:ℝ) < 2 := by norm_num
  exact ⟨(Real.le_logb_iff_rpow_le h2 ht).1 this.1, (Real.logb_le_iff_le_rpow h2 ht).1 this.2⟩

theorem abs_logb_of_le {t B : ℝ} (ht : 0 < t) (h1 : (2:ℝ) ^ (-B) ≤ t) (h2 : t ≤ 2 ^ B) : |Real.logb 2 t| ≤ B := by
  have h : (1:ℝ) < 2 := by norm_num
  exact abs_le.2 ⟨(Real.le_logb_iff_rpow_le h ht).2 h1, (Real.logb_le_iff_le_rpow h ht).2 h2⟩

theorem LogCol.power (M : Machine) (h : LogCol c Y) (e : ℝ) :
    ApC M 1 c (fun x => M.fastPower (.real e) x.abs) (fun x => |flVal x| ^ e) (fun x => |flVal x| ^ e) := by
  intro x hx
  refine ⟨fun hn => ?_, fun hn => ?_⟩
  · show M.fastPower _ x.abs = _
    rw [hn]
    exact M.fastPower_nan _
  · obtain ⟨h0, h1, -⟩ := h.entry hx hn
    have := Ap.absPower M h0 e
    rw [← h1] at this
    exact this

/-- The mean of the powers. -/
theorem LogCol.mean_pow (h : LogCol c Y) (e : ℝ) : 0 < usum c (fun x => |flVal x| ^ e) / countNotNaN c ∧
    |Real.logb 2 (usum c (fun x => |flVal x| ^ e) / countNotNaN c)| ≤ |e| * Y := by
  have hc : (0:ℝ) < countNotNaN c := by exact_mod_cast count_pos h.1
  have hp : ∀ x ∈ c, x ≠ Fl.nan → 0 < |flVal x| ^ e := fun x hx hn => Real.rpow_pos_of_pos (abs_pos.2 (h.entry hx hn).1) e
  have hpos := usum_pos h.1 hp
  refine ⟨div_pos hpos hc, abs_logb_of_le (div_pos hpos hc) ?_ ?_⟩
  · rw [le_div_iff₀ hc, mul_comm, ← usum_const]
    refine usum_le fun x hx hn => ?_
    obtain ⟨h0, -, h2⟩ := h.entry hx hn
    exact (le_of_abs_logb (hp x hx hn) (logb_rpow_le h0 h2 e)).1
  · rw [div_le_iff₀ hc, mul_comm, ← usum_const]
    refine usum_le fun x hx hn => ?_
    obtain ⟨h0, -, h2⟩ := h.entry hx hn
    exact (le_of_abs_logb (hp x hx hn) (logb_rpow_le h0 h2 e)).2

theorem LogCol.structure (M : Machine) (h : LogCol c Y) (hn : c.length ≤ n) (hg : M.gam (n + 2) ≤ 1 / 2) (e : ℝ) :
    Ap M (n + 2) (|e| * Y + 5) (M.log2 (M.nanmean ((c.map Fl.abs).map (M.fastPower (.real e)))))
      (Real.logb 2 (usum c (fun x => |flVal x| ^ e) / countNotNaN c)) := by
  obtain ⟨h1, h2⟩ := h.mean_pow e
  have := ((h.power M e).nanmean h.1).mono (l := n + 2) (by omega) le_rfl
  rw [List.map_map]
  exact this.log2 h1 (by omega) hg h2

theorem LogCol.hmin (h : LogCol c Y) : ∃ b, ∀ M : Machine, Ap M 1 Y (M.log2 (nanmax (c.map Fl.abs))) b := by
  obtain ⟨x, hx, hn⟩ := h.1
  obtain ⟨s1, s2, -⟩ := nanmax_spec (l := c.map Fl.abs) ⟨x.abs, List.mem_map.2 ⟨x, hx, rfl⟩, by
    obtain ⟨-, e, -⟩ := h.entry hx hn
    rw [e]; exact fun h => by cases h⟩
  obtain ⟨y, hy, ey⟩ := List.mem_map.1 s1
  have hyn : y ≠ Fl.nan := by rintro rfl; exact s2 ey.symm
  obtain ⟨h0, h1, h2⟩ := h.entry hy hyn
  refine ⟨Real.logb 2 |flVal y|, fun M => ?_⟩
  rw [← ey, h1, Fl.abs_fin]
  exact Ap.log2Exact M (abs_pos.2 h0) h2

/-! ### Multifractal spectrum -/

theorem LogCol.ratio (M : Machine) (h : LogCol c Y) (hn : c.length ≤ n) (hg : M.gam (n + 1) ≤ 1 / 2) (e : ℝ) :
    ApC M (7 * (n + 1)) c (fun x => M.div (M.fastPower (.real e) x.abs) (M.nansum (c.map fun x => M.fastPower (.real e) x.abs)))
      (fun x => |flVal x| ^ e / usum c (fun x => |flVal x| ^ e)) (fun x => |flVal x| ^ e / usum c (fun x => |flVal x| ^ e)) := by
  have hP := h.power M e
  have hp : ∀ x ∈ c, x ≠ Fl.nan → 0 < |flVal x| ^ e := fun x hx hn => Real.rpow_pos_of_pos (abs_pos.2 (h.entry hx hn).1) e
  have hpos := usum_pos h.1 hp
  intro x hx
  refine ⟨fun hxn => ?_, fun hxn => ?_⟩
  · show M.div (M.fastPower _ x.abs) _ = _
    have := (hP x hx).1 hxn
    dsimp only at this
    rw [this, M.nan_div]
  · have hs := hP.nansum.mono (l := n + 1) (by omega) le_rfl
    obtain ⟨d, hd1, hd2, -⟩ := hs
    obtain ⟨z, hz1, hz2⟩ := ((hP x hx).2 hxn).div (ε := M.gam (n + 1)) (M.gam_mono (by omega)) (M.u_le_gam (by omega)) hg hpos ⟨d, hd1, hd2⟩
    refine ⟨z, hz1, hz2.trans ?_, le_of_eq (abs_of_pos (div_pos (hp x hx hxn) hpos))⟩
    refine mul_le_mul_of_nonneg_right ?_ (div_pos (hp x hx hxn) hpos).le
    have := M.mul_gam_le 7 (n + 1)
    exact_mod_cast this

theorem LogCol.ratio_sum (h : LogCol c Y) (e a : ℝ) :
    usum c (fun x => |flVal x| ^ e / usum c (fun x => |flVal x| ^ e) * a) = a := by
  have hp : ∀ x ∈ c, x ≠ Fl.nan → 0 < |flVal x| ^ e := fun x hx hn => Real.rpow_pos_of_pos (abs_pos.2 (h.entry hx hn).1) e
  have hpos := usum_pos h.1 hp
  have : (fun x => |flVal x| ^ e / usum c (fun x => |flVal x| ^ e) * a) = fun x => (a / usum c (fun x => |flVal x| ^ e)) * |flVal x| ^ e := by
    funext x; ring
  rw [this, usum_mul]
  field_simp

theorem LogCol.spectrumV (M : Machine) (h : LogCol c Y) (hn : c.length ≤ n) (hg : M.gam (n + 1) ≤ 1 / 2) (e : ℝ) :
    Ap M (8 * n + 9) Y (M.msV c (.real e)) (usum c fun x => |flVal x| ^ e / usum c (fun x => |flVal x| ^ e) * Real.logb 2 |flVal x|) := by
  have hR := h.ratio M hn hg e
  have h1 : ApC M (7 * (n + 1) + 1 + 1) c (fun x => M.mul (M.div (M.fastPower (.real e) x.abs) (M.nansum (c.map fun x => M.fastPower (.real e) x.abs)))
      (M.log2 x.abs)) (fun x => |flVal x| ^ e / usum c (fun x => |flVal x| ^ e) * Y)
      (fun x => |flVal x| ^ e / usum c (fun x => |flVal x| ^ e) * Real.logb 2 |flVal x|) := by
    intro x hx
    refine ⟨fun hxn => ?_, fun hxn => ?_⟩
    · have := (hR x hx).1 hxn
      dsimp only at this ⊢
      rw [this, M.nan_mul]
    · obtain ⟨h0, h1, h2⟩ := h.entry hx hxn
      refine ((hR x hx).2 hxn).mul ?_
      have := Ap.log2Exact M (abs_pos.2 h0) h2
      rw [h1, Fl.abs_fin]
      exact this
  have := (h1.fixedNanSum h.1).mono (l := 8 * n + 9) (by omega) (le_of_eq (h.ratio_sum e Y))
  unfold Machine.msV Machine.msR
  simp only [List.map_map]
  have e2 : List.zipWith (fun R x => M.mul R (M.log2 x.abs)) (c.map ((fun t => M.div t (M.nansum (c.map (M.fastPower (.real e) ∘ Fl.abs)))) ∘
      M.fastPower (.real e) ∘ Fl.abs)) c = c.map (fun x => M.mul (M.div (M.fastPower (.real e) x.abs) (M.nansum (c.map fun x => M.fastPower (.real e) x.abs)))
      (M.log2 x.abs)) := by
    rw [List.zipWith_map_left, List.zipWith_self]
    rfl
  rw [e2]
  exact this

theorem LogCol.ratio_log (h : LogCol c Y) (hn : c.length ≤ n) (e : ℝ) {x : Fl} (hx : x ∈ c) (hxn : x ≠ Fl.nan) :
    |Real.logb 2 (|flVal x| ^ e / usum c (fun x => |flVal x| ^ e))| ≤ Real.logb 2 n + 2 * |e| * Y := by
  have hp : ∀ x ∈ c, x ≠ Fl.nan → 0 < |flVal x| ^ e := fun x hx hn => Real.rpow_pos_of_pos (abs_pos.2 (h.entry hx hn).1) e
  have hpos := usum_pos h.1 hp
  have hc := count_pos h.1
  have hcR : (0:ℝ) < countNotNaN c := by exact_mod_cast hc
  have hn' := hc.trans_le ((count_le c).trans hn)
  have hnR : (0:ℝ) < n := by exact_mod_cast hn'
  obtain ⟨h0, -, h2⟩ := h.entry hx hxn
  obtain ⟨m1, m2⟩ := h.mean_pow e
  have a1 := abs_le.1 (logb_rpow_le h0 h2 e)
  have a2 := abs_le.1 m2
  rw [Real.logb_div hpos.ne' hcR.ne'] at a2
  rw [Real.logb_div (hp x hx hxn).ne' hpos.ne']
  have a3 : 0 ≤ Real.logb 2 (countNotNaN c : ℝ) := Real.logb_nonneg (by norm_num) (by exact_mod_cast hc)
  have a4 : Real.logb 2 (countNotNaN c : ℝ) ≤ Real.logb 2 n :=
    Real.logb_le_logb_of_le (by norm_num) hcR (by exact_mod_cast (count_le c).trans hn)
  rw [abs_le]
  constructor <;> nlinarith

theorem LogCol.spectrumU (M : Machine) (h : LogCol c Y) (hn : c.length ≤ n) (hg : M.gam (7 * (n + 1)) ≤ 1 / 2) (e : ℝ) :
    Ap M (15 * n + 16) (2 * Real.logb 2 n + 2 * |e| * Y + 5) (M.msU (countNotNaN c) c (.real e))
      (Real.logb 2 (countNotNaN c) + usum c fun x => |flVal x| ^ e / usum c (fun x => |flVal x| ^ e) *
        Real.logb 2 (|flVal x| ^ e / usum c (fun x => |flVal x| ^ e))) := by
  have hR := h.ratio M hn ((M.gam_mono (by omega)).trans hg) e
  have hp : ∀ x ∈ c, x ≠ Fl.nan → 0 < |flVal x| ^ e := fun x hx hn => Real.rpow_pos_of_pos (abs_pos.2 (h.entry hx hn).1) e
  have hpos := usum_pos h.1 hp
  have hc := count_pos h.1
  have hcR : (0:ℝ) < countNotNaN c := by exact_mod_cast hc
  have h1 : ApC M (7 * (n + 1) + 7 * (n + 1) + 1) c
      (fun x => M.mul (M.div (M.fastPower (.real e) x.abs) (M.nansum (c.map fun x => M.fastPower (.real e) x.abs)))
        (M.log2 (M.div (M.fastPower (.real e) x.abs) (M.nansum (c.map fun x => M.fastPower (.real e) x.abs)))))
      (fun x => |flVal x| ^ e / usum c (fun x => |flVal x| ^ e) * (Real.logb 2 n + 2 * |e| * Y + 5))
      (fun x => |flVal x| ^ e / usum c (fun x => |flVal x| ^ e) * Real.logb 2 (|flVal x| ^ e / usum c (fun x => |flVal x| ^ e))) := by
    intro x hx
    refine ⟨fun hxn => ?_, fun hxn => ?_⟩
    · have := (hR x hx).1 hxn
      dsimp only at this ⊢
      rw [this, M.nan_mul]
    · have hr := (hR x hx).2 hxn
      exact hr.mul (hr.log2 (div_pos (hp x hx hxn) hpos) (by omega) hg (h.ratio_log hn e hx hxn))
  have h2 := (h1.fixedNanSum h.1).mono (l := 15 * n + 15) (by omega) (le_of_eq (h.ratio_sum e _))
  have h3 : Ap M (15 * n + 15) (Real.logb 2 n) (M.log2 (Fl.fin (countNotNaN c))) (Real.logb 2 (countNotNaN c)) := by
    refine (Ap.log2Exact M hcR (B := Real.logb 2 n) ?_).mono (by omega) le_rfl
    rw [abs_of_nonneg (Real.logb_nonneg (by norm_num) (by exact_mod_cast hc))]
    exact Real.logb_le_logb_of_le (by norm_num) hcR (by exact_mod_cast (count_le c).trans hn)
  have h4 := (h3.add h2).mono (l := 15 * n + 16) le_rfl (B := 2 * Real.logb 2 n + 2 * |e| * Y + 5) (le_of_eq (by ring))
  unfold Machine.msU Machine.msR
  simp only [List.map_map]
  exact h4

/-! ### Cumulants -/

theorem LogCol.moment (h : LogCol c Y) (hn : c.length ≤ n) {k : ℕ} (hk : 1 ≤ k) :
    ∃ b, ∀ M : Machine, Ap M (k + n + 2) ((Y * Real.log 2) ^ k) (M.cmMoment (c.map fun x => M.ln x.abs) k) b := by
  have hl2 : 0 < Real.log 2 := Real.log_pos (by norm_num)
  have hc := count_pos h.1
  have hcR : (0:ℝ) < countNotNaN c := by exact_mod_cast hc
  refine ⟨usum c (fun x => Real.log |flVal x| ^ k) / countNotNaN c, fun M => ?_⟩
  have h1 : ApC M (1 * k + 1) c (fun x => M.fastPower (.real k) (M.ln x.abs)) (fun _ => (Y * Real.log 2) ^ k) (fun x => Real.log |flVal x| ^ k) := by
    intro x hx
    refine ⟨fun hxn => ?_, fun hxn => ?_⟩
    · show M.fastPower _ (M.ln x.abs) = _
      rw [hxn, show Fl.abs Fl.nan = Fl.nan from rfl, M.ln_nan, M.fastPower_nan]
    · obtain ⟨h0, h1, h2⟩ := h.entry hx hxn
      have : |Real.log (|flVal x|)| ≤ Y * Real.log 2 := by
        rw [Real.logb, abs_div, abs_of_pos hl2, div_le_iff₀ hl2] at h2
        exact h2
      have := (Ap.lnExact M (abs_pos.2 h0) this).fastPowerNat hk
      show Ap M _ _ (M.fastPower _ (M.ln x.abs)) _
      rw [h1, Fl.abs_fin]
      exact this
  have h2 := (h1.nanmean h.1).mono (l := k + n + 2) (by omega) (B := (Y * Real.log 2) ^ k) (by
    rw [usum_const, mul_div_assoc, mul_div_cancel₀ _ hcR.ne'])
  unfold Machine.cmMoment
  rw [List.map_map]
  exact h2

theorem cum_size {k : ℕ} (hk : 1 ≤ k) :
    1 + ((List.range k).map fun i => ((Nat.choose k i : ℕ) : ℝ) * (((i + 1).factorial : ℝ) * 2 ^ i)).sum ≤ ((k + 1).factorial : ℝ) * 2 ^ k := by
  have h1 : ((List.range k).map fun i => ((Nat.choose k i : ℕ) : ℝ) * (((i + 1).factorial : ℝ) * 2 ^ i)).sum ≤
      ((List.range k).map fun i => ((k.factorial * k : ℕ) : ℝ) * 2 ^ i).sum := by
    refine listSum_le _ _ _ fun i hi => ?_
    have hi' := List.mem_range.1 hi
    have : Nat.choose k i * (i + 1).factorial ≤ k.factorial * k := by
      have h := Nat.choose_mul_factorial_mul_factorial hi'.le
      have hp := Nat.factorial_pos (k - i)
      have h2 : k.choose i * i.factorial ≤ k.factorial := by
        rw [← h]; exact Nat.le_mul_of_pos_right _ hp
      rw [Nat.factorial_succ]
      calc k.choose i * ((i + 1) * i.factorial) = (k.choose i * i.factorial) * (i + 1) := by ring
        _ ≤ k.factorial * k := Nat.mul_le_mul h2 hi'
    rw [← mul_assoc]
    refine mul_le_mul_of_nonneg_right ?_ (by positivity)
    exact_mod_cast this
  rw [listSum_mul] at h1
  have h2 : ((List.range k).map fun i => (2:ℝ) ^ i).sum = 2 ^ k - 1 := by
    clear h1 hk
    induction k with
    | zero => simp
    | succ k ih => rw [List.range_succ, List.map_append, List.sum_append, ih]; simp; ring
  rw [h2] at h1
  have h3 : (1:ℝ) ≤ ((k.factorial * k : ℕ) : ℝ) := by exact_mod_cast Nat.mul_pos (Nat.factorial_pos k) hk
  have h4 : ((k + 1).factorial : ℝ) = ((k.factorial * k : ℕ) : ℝ) + (k.factorial : ℝ) := by rw [Nat.factorial_succ]; push_cast; ring
  have h5 : (0:ℝ) ≤ (k.factorial : ℝ) * 2 ^ k := by positivity
  rw [h4]
  nlinarith

theorem Ap.aux {M : Machine} {k K : ℕ} {L : ℝ} {vs ms : List Fl} {v μ : ℕ → ℝ} {kv km : ℕ → ℕ} {a : ℕ → ℝ}
    (hv : ∀ i < k, Ap M (kv i) (a i * L ^ (i + 1)) (vs.getD i Fl.nan) (v i)) (hm : ∀ i < k, Ap M (km i) (L ^ (i + 1)) (ms.getD i Fl.nan) (μ i))
    (hK : ∀ i < k, kv i + km (k - i - 1) + 2 ≤ K) :
    Ap M (K + k) (((List.range k).map fun i => ((Nat.choose k i : ℕ) : ℝ) * a i).sum * L ^ (k + 1)) (M.cmAux (k + 1) vs ms)
      ((List.range k).map fun i => ((Nat.choose k i : ℕ) : ℝ) * v i * μ (k - i - 1)).sum := by
  unfold Machine.cmAux
  rw [show k + 1 - 1 = k by omega]
  have key : ∀ j, j ≤ k → Ap M (K + j) (((List.range j).map fun i => ((Nat.choose k i : ℕ) : ℝ) * a i).sum * L ^ (k + 1))
      ((List.range j).foldl (fun aux ind_n => M.add aux (M.mul (M.mul (Fl.fin ((Nat.choose k ind_n : ℕ) : ℝ)) (vs.getD ind_n Fl.nan))
        (ms.getD (k - ind_n - 1) Fl.nan))) (Fl.fin 0))
      ((List.range j).map fun i => ((Nat.choose k i : ℕ) : ℝ) * v i * μ (k - i - 1)).sum := by
    intro j
    induction j with
    | zero => intro _; simpa using Ap.exact M K (x := 0) (A := 0) (by simp)
    | succ j ih =>
      intro hj
      have t0 := (Ap.exact M 0 (x := ((Nat.choose k j : ℕ) : ℝ)) (A := ((Nat.choose k j : ℕ) : ℝ)) (le_of_eq (abs_of_nonneg (Nat.cast_nonneg _))))
      have t := (t0.mul (hv j (by omega))).mul (hm (k - j - 1) (by omega))
      have hKj := hK j (by omega)
      have t' := t.mono (l := K + j) (by omega) le_rfl
      have := (ih (by omega)).add t'
      simp only [List.range_succ, List.foldl_append, List.foldl_cons, List.foldl_nil, List.map_append, List.sum_append, List.map_cons, List.map_nil,
        List.sum_cons, List.sum_nil, add_zero]
      refine this.mono (by omega) (le_of_eq ?_)
      have e : L ^ (j + 1) * L ^ (k - j - 1 + 1) = L ^ (k + 1) := by rw [← pow_add]; congr 1; omega
      rw [← e]; ring
  exact key k le_rfl

theorem getD_left {l l' : List Fl} {i : ℕ} (h : i < l.length) : (l ++ l').getD i Fl.nan = l.getD i Fl.nan := by
  simp [List.getD, List.getElem?_append_left h]

theorem getD_last {l : List Fl} {y : Fl} {k : ℕ} (h : l.length = k) : (l ++ [y]).getD k Fl.nan = y := by
  subst h
  simp [List.getD]

theorem LogCol.cumulant (h : LogCol c Y) (hn : c.length ≤ n) {nc i : ℕ} (hi : i < nc) :
    ∃ b, ∀ M : Machine, Ap M ((i + 1) * (n + 2 * nc + 4)) (((i + 1).factorial : ℝ) * 2 ^ i * (Y * Real.log 2) ^ (i + 1))
      ((M.cmColumn (c.map fun x => M.ln x.abs) nc).getD i Fl.nan) b := by
  have hL : 0 ≤ Y * Real.log 2 := mul_nonneg h.nonneg (Real.log_pos (by norm_num)).le
  have hmom := fun k (hk : 1 ≤ k) => h.moment hn hk
  choose! μ hμ using hmom
  have key : ∀ k, k ≤ nc → ∃ v : ℕ → ℝ, ∀ M : Machine, ∃ vs ms : List Fl,
      (List.range k).foldl (fun st i => M.cmStep (c.map fun x => M.ln x.abs) st (i + 1)) ([], []) = (vs, ms) ∧ vs.length = k ∧ ms.length = k ∧
      (∀ i < k, Ap M ((i + 1) * (n + 2 * nc + 4)) (((i + 1).factorial : ℝ) * 2 ^ i * (Y * Real.log 2) ^ (i + 1)) (vs.getD i Fl.nan) (v i)) ∧
      ∀ i < k, Ap M (i + 1 + n + 2) ((Y * Real.log 2) ^ (i + 1)) (ms.getD i Fl.nan) (μ (i + 1)) := by
    intro k
    induction k with
    | zero => exact fun _ => ⟨fun _ => 0, fun M => ⟨[], [], rfl, rfl, rfl, fun i hi => absurd hi (by omega), fun i hi => absurd hi (by omega)⟩⟩
    | succ k ih =>
      intro hk
      obtain ⟨v, hv⟩ := ih (by omega)
      refine ⟨fun i => if i < k then v i else if k = 0 then μ 1 else
        μ (k + 1) - ((List.range k).map fun i => ((Nat.choose k i : ℕ) : ℝ) * v i * μ (k - i - 1 + 1)).sum, fun M => ?_⟩
      obtain ⟨vs, ms, e, l1, l2, hv1, hm1⟩ := hv M
      have hmk := hμ (k + 1) (by omega) M
      have hms : ∀ i < k + 1, Ap M (i + 1 + n + 2) ((Y * Real.log 2) ^ (i + 1))
          ((ms ++ [M.cmMoment (c.map fun x => M.ln x.abs) (k + 1)]).getD i Fl.nan) (μ (i + 1)) := by
        intro i hi
        by_cases h' : i < k
        · rw [getD_left (by omega)]
          exact hm1 i h'
        · obtain rfl : i = k := by omega
          rw [getD_last l2]
          exact hmk
      have hvs : ∀ (y : Fl), Ap M ((k + 1) * (n + 2 * nc + 4)) (((k + 1).factorial : ℝ) * 2 ^ k * (Y * Real.log 2) ^ (k + 1)) y
          (if k = 0 then μ 1 else μ (k + 1) - ((List.range k).map fun i => ((Nat.choose k i : ℕ) : ℝ) * v i * μ (k - i - 1 + 1)).sum) →
          ∀ i < k + 1, Ap M ((i + 1) * (n + 2 * nc + 4)) (((i + 1).factorial : ℝ) * 2 ^ i * (Y * Real.log 2) ^ (i + 1)) ((vs ++ [y]).getD i Fl.nan)
            (if i < k then v i else if k = 0 then μ 1 else
              μ (k + 1) - ((List.range k).map fun i => ((Nat.choose k i : ℕ) : ℝ) * v i * μ (k - i - 1 + 1)).sum) := by
        intro y hy i hi
        by_cases h' : i < k
        · rw [getD_left (by omega), if_pos h']
          exact hv1 i h'
        · obtain rfl : i = k := by omega
          rw [getD_last l1, if_neg h']
          exact hy
      by_cases hk0 : k = 0
      · refine ⟨vs ++ [M.cmMoment (c.map fun x => M.ln x.abs) (k + 1)], ms ++ [M.cmMoment (c.map fun x => M.ln x.abs) (k + 1)], ?_, by simp [l1],
          by simp [l2], hvs _ ?_, hms⟩
        · rw [List.range_succ, List.foldl_append, e]
          simp only [List.foldl_cons, List.foldl_nil, Machine.cmStep, hk0, zero_add, if_true]
        · rw [if_pos hk0]
          subst hk0
          refine hmk.mono ?_ (le_of_eq ?_)
          · ring_nf; omega
          · simp
      · have hk1 : ¬ (k + 1 = 1) := by omega
        have ha := Ap.aux (M := M) (k := k) (K := k * (n + 2 * nc + 4) + k + n + 4) (L := Y * Real.log 2) (vs := vs)
          (ms := ms ++ [M.cmMoment (c.map fun x => M.ln x.abs) (k + 1)]) (v := v) (μ := fun i => μ (i + 1)) (kv := fun i => (i + 1) * (n + 2 * nc + 4))
          (km := fun i => i + 1 + n + 2) (a := fun i => ((i + 1).factorial : ℝ) * 2 ^ i) hv1 (fun i hi => hms i (by omega)) (by
            intro i hi
            have : (i + 1) * (n + 2 * nc + 4) ≤ k * (n + 2 * nc + 4) := Nat.mul_le_mul_right _ (by omega)
            omega)
        have hs := (hmk.mono (l := k * (n + 2 * nc + 4) + k + n + 4 + k) (by
          have : k ≤ k * (n + 2 * nc + 4) := Nat.le_mul_of_pos_right _ (by omega)
          omega) le_rfl).sub ha
        refine ⟨vs ++ [M.sub (M.cmMoment (c.map fun x => M.ln x.abs) (k + 1))
            (M.cmAux (k + 1) vs (ms ++ [M.cmMoment (c.map fun x => M.ln x.abs) (k + 1)]))],
          ms ++ [M.cmMoment (c.map fun x => M.ln x.abs) (k + 1)], ?_, by simp [l1], by simp [l2], hvs _ ?_, hms⟩
        · rw [List.range_succ, List.foldl_append, e]
          simp only [List.foldl_cons, List.foldl_nil, Machine.cmStep, if_neg hk1]
        · rw [if_neg hk0]
          refine hs.mono ?_ ?_
          · have : (k + 1) * (n + 2 * nc + 4) = k * (n + 2 * nc + 4) + (n + 2 * nc + 4) := by ring
            omega
          · have := mul_le_mul_of_nonneg_right (cum_size (k := k) (by omega)) (pow_nonneg hL (k + 1))
            refine le_trans (le_of_eq ?_) this
            ring
  obtain ⟨v, hv⟩ := key nc le_rfl
  refine ⟨v i, fun M => ?_⟩
  obtain ⟨vs, ms, e, l1, -, hv1, -⟩ := hv M
  unfold Machine.cmColumn
  rw [e]
  exact hv1 i hi

end

end MFA
