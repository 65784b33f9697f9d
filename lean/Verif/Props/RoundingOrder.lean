import Verif.Props.RoundingSignal
import Verif.Props.RoundingDouble

/-! Property C127, continued: the errors are at most proportional to the precision of the machine. -/

namespace MFA

open Classical

noncomputable section

variable {R : ℕ} {m : MRQ R} {J : ℕ}

/-! ### Functions of the precision bounded by a multiple of it -/

/-- `f u ≤ K u` for some `K`, for all precisions up to `u0`. -/
def OfOrder (u0 : ℝ) (f : ℝ → ℝ) : Prop := ∃ K : ℝ, 0 ≤ K ∧ ∀ u, 0 ≤ u → u ≤ u0 → f u ≤ K * u

theorem OfOrder.add {u0 : ℝ} {f g : ℝ → ℝ} (hf : OfOrder u0 f) (hg : OfOrder u0 g) : OfOrder u0 fun u => f u + g u := by
  obtain ⟨K, h0, h⟩ := hf
  obtain ⟨L, h0', h'⟩ := hg
  exact ⟨K + L, add_nonneg h0 h0', fun u a b => (add_le_add (h u a b) (h' u a b)).trans (le_of_eq (by ring))⟩

theorem OfOrder.mul {u0 c : ℝ} (hc : 0 ≤ c) {f : ℝ → ℝ} (hf : OfOrder u0 f) : OfOrder u0 fun u => c * f u := by
  obtain ⟨K, h0, h⟩ := hf
  exact ⟨c * K, mul_nonneg hc h0, fun u a b => (mul_le_mul_of_nonneg_left (h u a b) hc).trans (le_of_eq (by ring))⟩

theorem OfOrder.mono {u0 u1 : ℝ} (h : u1 ≤ u0) {f : ℝ → ℝ} (hf : OfOrder u0 f) : OfOrder u1 f := by
  obtain ⟨K, h0, hK⟩ := hf
  exact ⟨K, h0, fun u a b => hK u a (b.trans h)⟩

theorem OfOrder.of_le {u0 : ℝ} {f g : ℝ → ℝ} (hg : OfOrder u0 g) (h : ∀ u, 0 ≤ u → u ≤ u0 → f u ≤ g u) : OfOrder u0 f := by
  obtain ⟨K, h0, hK⟩ := hg
  exact ⟨K, h0, fun u a b => (h u a b).trans (hK u a b)⟩

theorem OfOrder.all {ι : Type} {u0 : ℝ} (l : List ι) {f : ι → ℝ → ℝ} (h : ∀ i ∈ l, OfOrder u0 (f i)) :
    ∃ K : ℝ, 0 ≤ K ∧ ∀ i ∈ l, ∀ u, 0 ≤ u → u ≤ u0 → f i u ≤ K * u := by
  induction l with
  | nil => exact ⟨0, le_rfl, fun i hi => by cases hi⟩
  | cons a l ih =>
    obtain ⟨K, h0, hK⟩ := ih fun i hi => h i (List.mem_cons_of_mem _ hi)
    obtain ⟨L, h0', hL⟩ := h a List.mem_cons_self
    refine ⟨K + L, add_nonneg h0 h0', fun i hi u p q => ?_⟩
    have t1 := mul_nonneg h0 p
    have t2 := mul_nonneg h0' p
    rcases List.mem_cons.1 hi with rfl | hi
    · exact (hL u p q).trans (by linarith)
    · exact (hK i hi u p q).trans (by linarith)

theorem relErr_lin (k : ℕ) : OfOrder 1 fun u => relErr u k := by
  refine ⟨k * 2 ^ k, by positivity, fun u h0 h1 => ?_⟩
  unfold relErr
  have := pow_diff (s := 1 + u) (t := 1) (B := 2) (δ := u) (by rw [abs_of_nonneg] <;> linarith) (by norm_num) (by rw [add_sub_cancel_left, abs_of_nonneg h0])
  rcases Nat.eq_zero_or_pos k with rfl | hk
  · simp
  · have h2 := this (k - 1)
    rw [Nat.sub_add_cancel hk, one_pow] at h2
    refine (le_abs_self _).trans (h2.trans ?_)
    have e : ((k - 1 : ℕ) : ℝ) + 1 = k := by exact_mod_cast Nat.sub_add_cancel hk
    rw [e]
    have : (2:ℝ) ^ (k - 1) ≤ 2 ^ k := pow_le_pow_right₀ (by norm_num) (by omega)
    calc (k:ℝ) * u * 2 ^ (k - 1) ≤ (k:ℝ) * u * 2 ^ k := mul_le_mul_of_nonneg_left this (by positivity)
      _ = _ := by ring

/-- C127: the relative error of `k` roundings is at most `2 k u`, as long as `k u ≤ 1`. -/
theorem C127_relErr (M : Machine) {k : ℕ} (h : k * M.u ≤ 1) : relErr M.u k ≤ 2 * k * M.u := (M.gam_le h).trans (le_of_eq (by ring))

/-! ### Every quantity is balanced -/

theorem balanced_exists (hm : Regular m J) (hcol : ∀ p ∈ m.values, ∀ r : Fin R, ∃ x ∈ col p.2 r, x ≠ Fl.nan) {j1 j2 : ℕ} (h1 : 1 ≤ j1) (h12 : j1 < j2)
    (h2 : j2 ≤ J) (weighted : Bool) : ∃ ρ : ℝ, 0 ≤ ρ ∧ ∀ r : Fin R, Balanced ρ m weighted j1 j2 r := by
  have hw : ∀ r : Fin R, ∀ i ∈ Finset.Icc j1 j2, 1 ≤ scaleWeight m weighted i r := by
    intro r i hi
    have hi' := Finset.mem_Icc.1 hi
    have : (i : ℤ) ∈ m.values.map Prod.fst := by
      rw [hm.1]
      exact List.mem_map.2 ⟨i - 1, List.mem_range.2 (by omega), by omega⟩
    obtain ⟨p, hp, he⟩ := List.mem_map.1 this
    rw [← he, ← wtOf_eq hm weighted hp r]
    unfold wtOf
    split
    · have : 0 < countNotNaN (col p.2 r) := by
        obtain ⟨x, hx, hn⟩ := hcol p hp r
        have hd : x ∈ dropNaN (col p.2 r) := mem_dropNaN.2 ⟨hx, (Fl.not_isNaN_iff x).2 hn⟩
        exact List.length_pos_of_mem hd
      exact_mod_cast this
    · exact le_rfl
  refine ⟨∑ r : Fin R, ∑ i ∈ Finset.Icc j1 j2, scaleWeight m weighted i r, Finset.sum_nonneg fun r _ => Finset.sum_nonneg fun i hi =>
    zero_le_one.trans (hw r i hi), fun r => Balanced.mono (ρ := ∑ i ∈ Finset.Icc j1 j2, scaleWeight m weighted i r) ?_
      (Finset.single_le_sum (f := fun r => ∑ i ∈ Finset.Icc j1 j2, scaleWeight m weighted i r) (fun r _ => Finset.sum_nonneg fun i hi =>
        zero_le_one.trans (hw r i hi)) (Finset.mem_univ r))⟩
  intro j hj
  obtain ⟨k, hk, hkj⟩ : ∃ k ∈ Finset.Icc j1 j2, k ≠ j := by
    have hj' := Finset.mem_Icc.1 hj
    by_cases h : j = j1
    · exact ⟨j2, Finset.mem_Icc.2 (by omega), by omega⟩
    · exact ⟨j1, Finset.mem_Icc.2 (by omega), by omega⟩
  have hs := Finset.add_sum_erase _ (fun i : ℕ => scaleWeight m weighted i r) hj
  have hk1 := Finset.single_le_sum (s := (Finset.Icc j1 j2).erase j) (f := fun i : ℕ => scaleWeight m weighted i r)
    (fun i hi => zero_le_one.trans (hw r i (Finset.mem_of_mem_erase hi))) (Finset.mem_erase.2 ⟨hkj, hk⟩)
  have hk2 := hw r k hk
  have hS : 0 ≤ ∑ i ∈ Finset.Icc j1 j2, scaleWeight m weighted i r := Finset.sum_nonneg fun i hi => zero_le_one.trans (hw r i hi)
  exact le_mul_of_one_le_right hS (by linarith)

/-! ### The bounds are of first order -/

theorem exp_ofOrder {c u0 : ℝ} {δ : ℝ → ℝ} (hc : 0 ≤ c) (hδ : OfOrder u0 δ) (h0 : ∀ u, 0 ≤ u → 0 ≤ δ u) (h1 : ∀ u, 0 ≤ u → u ≤ u0 → c * δ u ≤ 1) :
    OfOrder u0 fun u => Real.exp (c * δ u) - 1 := by
  refine (hδ.mul (c := 2 * c) (by positivity)).of_le fun u a b => ?_
  have hn : 0 ≤ c * δ u := mul_nonneg hc (h0 u a)
  have := Real.abs_exp_sub_one_le (x := c * δ u) (by rw [abs_of_nonneg hn]; exact h1 u a b)
  rw [abs_of_nonneg hn] at this
  have := (le_abs_self _).trans this
  linarith

theorem roundErr_lin {u0 ρ k A : ℝ} {j1 j2 : ℕ} (h12 : j1 < j2) (hρ : 0 ≤ ρ) (hk : 0 ≤ k) (hA : 0 ≤ A) : OfOrder u0 fun u => roundErr u ρ j1 j2 k A := by
  have hj : (j1 : ℝ) ≤ j2 := by exact_mod_cast h12.le
  have h3 : (0:ℝ) ≤ j2 - j1 + 3 := by linarith
  exact ⟨8 * ρ * j2 * (96 * ρ * j2 ^ 2 * (j2 - j1 + 3) + 7 * k) * A, by positivity, fun u _ _ => le_rfl⟩

theorem slopeFactor_nonneg (weighted : Bool) {j1 j2 : ℕ} (h12 : j1 < j2) : 0 ≤ slopeFactor weighted j1 j2 := by
  have hj : (j1 : ℝ) ≤ j2 := by exact_mod_cast h12.le
  unfold slopeFactor
  split
  · linarith
  · exact div_nonneg (by norm_num) (by linarith)

theorem EstimatesWithin.close {E : ErrBounds} {q : List ℝ} {n : ℕ} {r : Fin R} {v v' : MFVar R} {ε : ℝ} (h : EstimatesWithin E q n r v v')
    (h1 : ∀ e ∈ q, E.zeta e ≤ ε) (h2 : E.H ≤ ε) (h3 : E.hmin ≤ ε) (h4 : ∀ i ∈ List.range n, E.cumulant i ≤ ε) (h5 : ∀ e ∈ q, E.hq e ≤ ε)
    (h6 : ∀ e ∈ q, E.Dq e ≤ ε) : EstimatesClose ε q.length n r v v' := by
  obtain ⟨a1, a2, a3, a4, a5, a6⟩ := h
  refine ⟨a2.mono h2, a3.mono h3, ?_, ?_, ?_, ?_⟩
  · intro i hi
    obtain ⟨z, z', e1, e2, e3⟩ := a1 i _ (List.getElem?_eq_getElem hi)
    exact ⟨z, z', e1, e2, e3.mono (h1 _ (List.getElem_mem hi))⟩
  · intro i hi
    obtain ⟨z, z', e1, e2, e3⟩ := a4 i hi
    exact ⟨z, z', e1, e2, e3.mono (h4 _ (List.mem_range.2 hi))⟩
  · intro i hi
    obtain ⟨z, z', e1, e2, e3⟩ := a5 i _ (List.getElem?_eq_getElem hi)
    exact ⟨z, z', e1, e2, e3.mono (h5 _ (List.getElem_mem hi))⟩
  · intro i hi
    obtain ⟨z, z', e1, e2, e3⟩ := a6 i _ (List.getElem?_eq_getElem hi)
    exact ⟨z, z', e1, e2, e3.mono (h6 _ (List.getElem_mem hi))⟩

theorem small_exists (l : List ℝ) : ∃ u0 : ℝ, 0 < u0 ∧ ∀ c ∈ l, ∀ u, 0 ≤ u → u ≤ u0 → c * u ≤ 1 := by
  refine ⟨1 / (1 + (l.map fun c => |c|).sum), ?_, fun c hc u h0 h1 => ?_⟩
  · have : 0 ≤ (l.map fun c => |c|).sum := List.sum_nonneg (by intro a ha; obtain ⟨b, -, rfl⟩ := List.mem_map.1 ha; exact abs_nonneg _)
    positivity
  · have hs : 0 ≤ (l.map fun c => |c|).sum := List.sum_nonneg (by intro a ha; obtain ⟨b, -, rfl⟩ := List.mem_map.1 ha; exact abs_nonneg _)
    have hle : |c| ≤ (l.map fun c => |c|).sum :=
      List.single_le_sum (by intro a ha; obtain ⟨b, -, rfl⟩ := List.mem_map.1 ha; exact abs_nonneg _) _ (List.mem_map.2 ⟨c, hc, rfl⟩)
    rw [le_div_iff₀ (by linarith)] at h1
    have := mul_le_mul_of_nonneg_right ((le_abs_self c).trans hle) h0
    nlinarith

theorem EstimatesClose.mono {ε ε' : ℝ} {nq n : ℕ} {r : Fin R} {v v' : MFVar R} (h : EstimatesClose ε nq n r v v') (hε : ε ≤ ε') :
    EstimatesClose ε' nq n r v v' := by
  obtain ⟨a1, a2, a3, a4, a5, a6⟩ := h
  refine ⟨a1.mono hε, a2.mono hε, ?_, ?_, ?_, ?_⟩
  · intro i hi; obtain ⟨z, z', e1, e2, e3⟩ := a3 i hi; exact ⟨z, z', e1, e2, e3.mono hε⟩
  · intro i hi; obtain ⟨z, z', e1, e2, e3⟩ := a4 i hi; exact ⟨z, z', e1, e2, e3.mono hε⟩
  · intro i hi; obtain ⟨z, z', e1, e2, e3⟩ := a5 i hi; exact ⟨z, z', e1, e2, e3.mono hε⟩
  · intro i hi; obtain ⟨z, z', e1, e2, e3⟩ := a6 i hi; exact ⟨z, z', e1, e2, e3.mono hε⟩

theorem absSum_nonneg (l : List ℝ) : 0 ≤ (l.map fun a => |a|).sum :=
  List.sum_nonneg (by intro a ha; obtain ⟨b, -, rfl⟩ := List.mem_map.1 ha; exact abs_nonneg _)

theorem coefSize_nonneg (wt : Wavelet) (g nm : ℝ) (j : ℕ) : 0 ≤ coefSize wt g nm j :=
  mul_nonneg (Real.rpow_nonneg (by norm_num) _) (mul_nonneg (absSum_nonneg _) (pow_nonneg (absSum_nonneg _) _))

theorem leaderSize_nonneg (wt : Wavelet) (g nm : ℝ) : ∀ j, 0 ≤ leaderSize wt g nm j
  | 0 => le_rfl
  | _ + 1 => (leaderSize_nonneg wt g nm _).trans (le_max_left _ _)

/-- The bounds of C127 as a multiple of the precision. -/
theorem totalBound_order (hm : Regular m J) (hrow : ∀ p ∈ m.values, p.2 ≠ []) (hd : NonzeroData m) {j1 j2 : ℕ} (h1 : 1 ≤ j1) (h12 : j1 < j2) (h2 : j2 ≤ J)
    (weighted : Bool) (q : List ℝ) (nc : ℕ) {η' : ℝ → ℕ → ℝ} (hη' : ∀ j, OfOrder 1 fun u => η' u j) (hR : R ≠ 0) :
    ∃ K u0 : ℝ, 0 ≤ K ∧ 0 < u0 ∧ ∀ u, 0 ≤ u → u ≤ u0 → ∀ v v' : MFVar R, TotalBound u (η' u) m weighted j1 j2 q nc v v' →
      ∀ r, EstimatesClose (K * u) q.length nc r v v' := by
  have hlog : 0 < Real.log 2 := Real.log_pos (by norm_num)
  obtain ⟨Y, n, hL⟩ := C124_sizes hrow hd
  obtain ⟨ρ, hρ0, hρ⟩ := balanced_exists hm (fun p hp r => (hd p hp r).1) h1 h12 h2 weighted
  have hY : 0 ≤ Y := by
    obtain ⟨p0, hp0⟩ := List.exists_mem_of_ne_nil _ (hm.sub_ne_nil (j1 := (j1:ℤ)) (j2 := (j2:ℤ)) (by exact_mod_cast h1) (by exact_mod_cast h12.le)
      (by exact_mod_cast h2))
    exact ((hL p0 (sub_mem hp0)).2.2 ⟨0, Nat.pos_of_ne_zero hR⟩).nonneg
  obtain ⟨C, hC0, hC⟩ := OfOrder.all (u0 := 1) (m.values.map fun p => p.1.toNat) (f := fun j u => η' u j) fun j _ => hη' j
  have h2Y : (0:ℝ) < 2 ^ Y := Real.rpow_pos_of_pos (by norm_num) _
  obtain ⟨u0, hu0, hsm⟩ := small_exists ([1, 4 * C * 2 ^ Y, 32 * ρ * j2 ^ 2 * (j2 - j1 + 3), 28 * (n + 1), nc * (n + 2 * nc + 4)] ++
    q.map fun e => 2 * |e| * (2 * C * 2 ^ Y))
  have hS := slopeFactor_nonneg weighted h12
  obtain ⟨δ, hδ⟩ : ∃ δ : ℝ → ℝ, δ = fun u => 2 * (C * u) * 2 ^ Y := ⟨_, rfl⟩
  have hδl : OfOrder u0 δ := ⟨2 * C * 2 ^ Y, by positivity, fun u _ _ => le_of_eq (by rw [hδ]; ring)⟩
  have hδ0 : ∀ u, 0 ≤ u → 0 ≤ δ u := fun u hu => by rw [hδ]; positivity
  have hδ1 : ∀ u, 0 ≤ u → u ≤ u0 → δ u ≤ 1 := fun u a b => by
    have h3 := hsm (4 * C * 2 ^ Y) (by simp) u a b
    have h4 := hδ0 u a
    rw [hδ] at h4 ⊢
    linarith
  have hexp : ∀ e ∈ q, OfOrder u0 fun u => Real.exp (2 * |e| * δ u) - 1 := fun e he => exp_ofOrder (by positivity) hδl hδ0 fun u a b => by
    have := hsm (2 * |e| * (2 * C * 2 ^ Y)) (List.mem_append_right _ (List.mem_map.2 ⟨e, he, rfl⟩)) u a b
    rw [hδ]
    refine le_trans (le_of_eq ?_) this
    ring
  have hn0 : (0:ℝ) ≤ n := Nat.cast_nonneg n
  have hlogn : 0 ≤ Real.logb 2 n := by
    rcases Nat.eq_zero_or_pos n with rfl | hn
    · simp
    · exact Real.logb_nonneg (by norm_num) (by exact_mod_cast hn)
  obtain ⟨E, hE⟩ : ∃ E : ℝ → ErrBounds, E = fun u => (dataErr weighted j1 j2 Y (δ u)).add (estimatorErr u ρ j1 j2 n nc m.gamint (Y + 1)) := ⟨_, rfl⟩
  have hdl : ∀ c : ℝ, 0 ≤ c → OfOrder u0 fun u => slopeFactor weighted j1 j2 * (c * δ u / Real.log 2) := fun c hc =>
    (hδl.mul (c := slopeFactor weighted j1 j2 * c / Real.log 2) (by positivity)).of_le fun u _ _ => le_of_eq (by ring)
  have k1 := OfOrder.all q (f := fun e u => (E u).zeta e) fun e he => by
    rw [hE]; exact (hdl |e| (abs_nonneg _)).add (roundErr_lin h12 hρ0 (by positivity) (by positivity))
  have k2 : OfOrder u0 fun u => (E u).H := by
    rw [hE]
    refine ((hdl 1 zero_le_one).of_le fun u _ _ => le_of_eq ?_).add ((roundErr_lin h12 hρ0 (by positivity) (by positivity)).add
      ⟨|m.gamint|, abs_nonneg _, fun u _ _ => le_rfl⟩)
    show slopeFactor weighted j1 j2 * (δ u / Real.log 2) = _
    ring
  have k3 : OfOrder u0 fun u => (E u).hmin := by
    rw [hE]
    refine ((hdl 1 zero_le_one).of_le fun u _ _ => le_of_eq ?_).add (roundErr_lin h12 hρ0 (by positivity) (by positivity))
    show slopeFactor weighted j1 j2 * (δ u / Real.log 2) = _
    ring
  have k4 := OfOrder.all (List.range nc) (f := fun i u => (E u).cumulant i) fun i _ => by
    rw [hE]
    refine ((hdl ((i + 1).factorial * 2 ^ i * ((i + 1) * (Y * Real.log 2 + 1) ^ i)) (by positivity)).of_le fun u a b => ?_).add
      ((roundErr_lin h12 hρ0 (by positivity) (by positivity)).mul (by norm_num))
    show slopeFactor weighted j1 j2 * ((i + 1).factorial * 2 ^ i * ((i + 1) * δ u * (Y * Real.log 2 + δ u) ^ i) / Real.log 2) ≤ _
    refine mul_le_mul_of_nonneg_left (div_le_div_of_nonneg_right ?_ hlog.le) hS
    have hd0 := hδ0 u a
    have hd1 := hδ1 u a b
    have : (Y * Real.log 2 + δ u) ^ i ≤ (Y * Real.log 2 + 1) ^ i := pow_le_pow_left₀ (by positivity) (by linarith) i
    calc ((i + 1).factorial : ℝ) * 2 ^ i * ((i + 1) * δ u * (Y * Real.log 2 + δ u) ^ i)
        ≤ (i + 1).factorial * 2 ^ i * ((i + 1) * δ u * (Y * Real.log 2 + 1) ^ i) :=
          mul_le_mul_of_nonneg_left (mul_le_mul_of_nonneg_left this (by positivity)) (by positivity)
      _ = _ := by ring
  have k5 := OfOrder.all q (f := fun e u => (E u).hq e) fun e he => by
    rw [hE]
    refine (((hdl 1 zero_le_one).add ((hexp e he).mul (c := slopeFactor weighted j1 j2 * Y) (by positivity))).of_le fun u _ _ => le_of_eq ?_).add
      (roundErr_lin h12 hρ0 (by positivity) (by positivity))
    show slopeFactor weighted j1 j2 * (δ u / Real.log 2 + (Real.exp (2 * |e| * δ u) - 1) * Y) = _
    ring
  have k6 := OfOrder.all q (f := fun e u => (E u).Dq e) fun e he => by
    rw [hE]
    refine (((hdl (2 * |e|) (by positivity)).add ((hexp e he).mul (c := slopeFactor weighted j1 j2 * |e| * Y) (by positivity))).of_le
      fun u _ _ => le_of_eq ?_).add ((roundErr_lin h12 hρ0 (by positivity) (by positivity)).mul (by norm_num))
    show slopeFactor weighted j1 j2 * (|e| * (2 * δ u / Real.log 2 + (Real.exp (2 * |e| * δ u) - 1) * Y)) = _
    ring
  obtain ⟨K1, p1, k1⟩ := k1
  obtain ⟨K2, p2, k2⟩ := k2
  obtain ⟨K3, p3, k3⟩ := k3
  obtain ⟨K4, p4, k4⟩ := k4
  obtain ⟨K5, p5, k5⟩ := k5
  obtain ⟨K6, p6, k6⟩ := k6
  refine ⟨K1 + K2 + K3 + K4 + K5 + K6, u0, by positivity, hu0, fun u a b v v' hT r => ?_⟩
  have hu1 : u ≤ 1 := by have := hsm 1 (by simp) u a b; linarith
  have hW := hT Y (C * u) ρ n hL (fun p hp => hC _ (List.mem_map.2 ⟨p, hp, rfl⟩) u a hu1)
    ((le_of_eq (by ring)).trans (hsm (4 * C * 2 ^ Y) (by simp) u a b)) (hsm _ (by simp) u a b) (hsm _ (by simp) u a b) (hsm _ (by simp) u a b) r (hρ r)
  have hEu : EstimatesWithin (E u) q nc r v v' := by rw [hE, hδ]; exact hW
  have t1 := mul_nonneg p1 a
  have t2 := mul_nonneg p2 a
  have t3 := mul_nonneg p3 a
  have t4 := mul_nonneg p4 a
  have t5 := mul_nonneg p5 a
  have t6 := mul_nonneg p6 a
  refine hEu.close (fun e he => ?_) ?_ ?_ (fun i hi => ?_) (fun e he => ?_) (fun e he => ?_)
  · have := k1 e he u a b; linarith
  · have := k2 u a b; linarith
  · have := k3 u a b; linarith
  · have := k4 i hi u a b; linarith
  · have := k5 e he u a b; linarith
  · have := k6 e he u a b; linarith

theorem noInf_samplesIn {sig : Arr R} (hs : NoInf sig) : ∃ A : ℝ, 0 ≤ A ∧ SamplesIn A sig := by
  refine ⟨(sig.map fun row => ∑ r, |flVal (row r)|).sum, List.sum_nonneg ?_, fun row hrow r => ?_⟩
  · intro a ha
    obtain ⟨row, -, rfl⟩ := List.mem_map.1 ha
    exact Finset.sum_nonneg fun _ _ => abs_nonneg _
  · rcases hs row hrow r with h | ⟨x, h⟩
    · exact Or.inl h
    · refine Or.inr ⟨x, h, ?_⟩
      have h1 : |x| ≤ ∑ r, |flVal (row r)| := by
        have := Finset.single_le_sum (f := fun r => |flVal (row r)|) (fun _ _ => abs_nonneg _) (Finset.mem_univ r)
        simp only [h] at this
        exact this
      refine h1.trans (List.single_le_sum ?_ _ (List.mem_map.2 ⟨row, hrow, rfl⟩))
      intro a ha
      obtain ⟨row, -, rfl⟩ := List.mem_map.1 ha
      exact Finset.sum_nonneg fun _ _ => abs_nonneg _

theorem coefErr_ofOrder (wt : Wavelet) (g nm : ℝ) {A : ℝ} (hA : 0 ≤ A) (j : ℕ) : OfOrder 1 fun u => coefErr u wt g nm A j := by
  have h0 : 0 ≤ coefSize wt g nm j * A := mul_nonneg (coefSize_nonneg wt g nm j) hA
  exact ((relErr_lin (coefRoundings wt.dec_hi.length nm g j)).mul h0).of_le fun u _ _ => le_of_eq (mul_comm _ _)

theorem leaderErr_ofOrder (wt : Wavelet) (g nm : ℝ) {A : ℝ} (hA : 0 ≤ A) (j : ℕ) : OfOrder 1 fun u => leaderErr u wt g nm A j := by
  have h0 : 0 ≤ leaderSize wt g nm j * A := mul_nonneg (leaderSize_nonneg wt g nm j) hA
  exact ((relErr_lin (coefRoundings wt.dec_hi.length nm g j)).mul h0).of_le fun u _ _ => le_of_eq (mul_comm _ _)

theorem scalesClose_finite {η' S : ℕ → ℝ} {m m' : MRQ R} (hc : ScalesClose η' S m m') {p : ℤ × Arr R} (hp : p ∈ m.values) {r : Fin R} {x : Fl}
    (hx : x ∈ col p.2 r) : x = Fl.nan ∨ ∃ t : ℝ, x = Fl.fin t := by
  obtain ⟨row, hrow, rfl⟩ := List.mem_map.1 hx
  obtain ⟨b, -, hab⟩ := forall₂_mem hc.2.2.2 hp
  obtain ⟨row', -, hrr⟩ := forall₂_mem hab.2 hrow
  rcases hrr r with h | ⟨s, t, h, -⟩
  · exact Or.inl h.1
  · exact Or.inr ⟨s, h⟩

/-- **C127, first order.**  `mf_analysis_full` with coefficients only or with wavelet leaders, on a recording without infinities for which at least two scales
are analysed: there are `K` and `u0 > 0` such that on every machine whose operations have relative errors of at most `u ≤ u0`, the call returns, and all the
estimates from coefficients (from leaders) are within `K u` of the exact ones if no coefficient (no leader) is 0. -/
theorem C127_first_order {sig : Arr R} (hs : NoInf sig) (hR : R ≠ 0) {p : PExp} (hp : p = .none ∨ p = .inf) {wt : Wavelet}
    (hwt : wt.dec_lo.length = wt.dec_hi.length) {j1 : ℕ} {j2 : Option ℝ} {g nm : ℝ} (hnm : nm ≠ 0) {weighted : Bool} {w : WT R}
    (h : waveletAnalysis sig p wt j1 j2 g nm weighted = .ok w) (h1 : 1 ≤ j1) (h12 : (j1 : ℤ) < w.j2_eff) {q : List ℝ} (hq : (2:ℝ) ∈ q) (n : ℕ) :
    ∃ d, mfAnalysisFull sig j1 j2 nm g weighted wt p (some (.ndarray q)) n = .ok d ∧ ∃ K u0 : ℝ, 0 < u0 ∧
      ∀ M : Machine, M.u ≤ u0 →
        ∃ d', M.mfAnalysisFull sig j1 j2 nm g weighted wt p (some (.ndarray q)) n = .ok d' ∧
          (NoZeros w.wt_coefs → ∀ r, EstimatesClose (K * M.u) q.length n r d.dwt d'.dwt) ∧
          ∀ l v, w.wt_leaders = some l → d.lwt = some v → NoZeros l →
            ∃ v', d'.lwt = some v' ∧ ∀ r, EstimatesClose (K * M.u) q.length n r v v' := by
  obtain ⟨A, hA, hsA⟩ := noInf_samplesIn hs
  obtain ⟨J, Jc, hJc, hj2, hc, hl⟩ := C03_regular h
  obtain ⟨j2', hj2'⟩ := Int.eq_ofNat_of_zero_le (show 0 ≤ w.j2_eff by omega)
  have hjj : j1 < j2' := by rw [hj2'] at h12; exact_mod_cast h12
  have hj2J : j2' ≤ J := by rw [hj2'] at hj2; exact_mod_cast hj2
  have hj2c : j2' ≤ Jc := by rcases hJc with rfl | rfl <;> omega
  have hrc := rows_ne_nil hR h _ (Or.inl rfl)
  have hcc := cols_not_nan h _ (Or.inl rfl)
  obtain ⟨w1, -, -, -, hcl, hll⟩ := C127_coefficients hA hsA hR hp hwt hnm Machine.exact (by show 3 * (0:ℝ) ≤ 1; norm_num) h
  have mk : ∀ (m : MRQ R) (K : ℕ), Regular m K → (∀ p ∈ m.values, p.2 ≠ []) → (∀ p ∈ m.values, ∀ r : Fin R, ∃ x ∈ col p.2 r, x ≠ Fl.nan) →
      (∀ p ∈ m.values, ∀ (r : Fin R), ∀ x ∈ col p.2 r, x = Fl.nan ∨ ∃ t : ℝ, x = Fl.fin t) → j2' ≤ K → ∀ η' : ℝ → ℕ → ℝ, (∀ j, OfOrder 1 fun u => η' u j) →
      ∃ C u0 : ℝ, 0 ≤ C ∧ 0 < u0 ∧ (NoZeros m → ∀ u, 0 ≤ u → u ≤ u0 → ∀ v v' : MFVar R, TotalBound u (η' u) m weighted j1 j2' q n v v' →
        ∀ r, EstimatesClose (C * u) q.length n r v v') := by
    intro m K hm hrow hcol hfin hK η' hη'
    by_cases h0 : NoZeros m
    · have hd : NonzeroData m := by
        intro p hp r
        refine ⟨hcol p hp r, fun x hx => ?_⟩
        obtain ⟨s, k, hv⟩ := mem_col_val hm hp hx
        rcases hfin p hp r x hx with h | ⟨t, rfl⟩
        · exact Or.inl h
        · exact Or.inr ⟨t, fun ht => h0 s k r (by rw [hv, ht]), rfl⟩
      obtain ⟨C, u0, e1, e2, e3⟩ := totalBound_order hm hrow hd h1 hjj hK weighted q n hη' hR
      exact ⟨C, u0, e1, e2, fun _ => e3⟩
    · exact ⟨0, 1, le_rfl, one_pos, fun h => absurd h h0⟩
  obtain ⟨C, u1, hC0, hu1, hCc⟩ := mk w.wt_coefs Jc hc hrc hcc (fun p hp r x hx => scalesClose_finite hcl hp hx) hj2c (fun u => coefErr u wt g nm A)
    (coefErr_ofOrder wt g nm hA)
  have hLd : ∃ C u0 : ℝ, 0 ≤ C ∧ 0 < u0 ∧ ∀ l, w.wt_leaders = some l → NoZeros l → ∀ u, 0 ≤ u → u ≤ u0 → ∀ v v' : MFVar R,
      TotalBound u (leaderErr u wt g nm A) l weighted j1 j2' q n v v' → ∀ r, EstimatesClose (C * u) q.length n r v v' := by
    rcases hll with ⟨e1, -⟩ | ⟨rfl, l, l', e1, -, hcl'⟩
    · exact ⟨0, 1, le_rfl, one_pos, fun l hl => by rw [e1] at hl; cases hl⟩
    · obtain ⟨C, u0, a, b, c⟩ := mk l J (hl _ e1 rfl) (rows_ne_nil hR h _ (Or.inr ⟨e1, rfl⟩)) (cols_not_nan h _ (Or.inr ⟨e1, rfl⟩))
        (fun p hp r x hx => scalesClose_finite hcl' hp hx) hj2J (fun u => leaderErr u wt g nm A) (leaderErr_ofOrder wt g nm hA)
      refine ⟨C, u0, a, b, fun l2 hl2 => ?_⟩
      rw [e1] at hl2; cases hl2
      exact c
  obtain ⟨C', u2, hC0', hu2, hCl⟩ := hLd
  obtain ⟨d, d0, hd, -⟩ := C127_total hA hsA hR hp hwt hnm Machine.exact (by show 3 * (0:ℝ) ≤ 1; norm_num) h hj2' h1 hjj hq n
  refine ⟨d, hd, C + C', min (1 / 3) (min u1 u2), by positivity, fun M hM => ?_⟩
  have hM1 : M.u ≤ 1 / 3 := hM.trans (min_le_left _ _)
  have hM2 : M.u ≤ u1 := hM.trans ((min_le_right _ _).trans (min_le_left _ _))
  have hM3 : M.u ≤ u2 := hM.trans ((min_le_right _ _).trans (min_le_right _ _))
  have hu0 := M.u_nonneg
  obtain ⟨d1, d', hd1, hd', hT, hTl⟩ := C127_total hA hsA hR hp hwt hnm M (by linarith) h hj2' h1 hjj hq n
  rw [hd] at hd1; cases hd1
  refine ⟨d', hd', fun hz r => ?_, fun l v hle hdv hz => ?_⟩
  · exact (hCc hz M.u hu0 hM2 _ _ hT r).mono (by have := mul_nonneg hC0' hu0; linarith)
  · rcases hTl with ⟨e1, -⟩ | ⟨l2, x, x', e1, e2, e3, e4⟩
    · rw [e1] at hle; cases hle
    · rw [e1] at hle; cases hle
      rw [e2] at hdv; cases hdv
      exact ⟨x', e3, fun r => (hCl _ e1 hz M.u hu0 hM3 _ _ e4 r).mono (by have := mul_nonneg hC0 hu0; linarith)⟩

/-- The remaining hypotheses of C127 are met by the recording and the filters of the example beside `C123_signal` (64 samples of `3 t + 1`, for which no
coefficient and no leader is 0, and at least two scales are analysed), and by the machine `Machine.inflating`, which makes errors. -/
example : SamplesIn 190 (sampled 64 fun (_ : Fin 1) t => (Polynomial.C 3 * Polynomial.X + Polynomial.C 1 : Polynomial ℝ).eval (t : ℝ)) ∧
    [0, (Real.sqrt 2)⁻¹, (Real.sqrt 2)⁻¹, 0].length = [0, -(Real.sqrt 2)⁻¹, (Real.sqrt 2)⁻¹, 0].length ∧
    3 * (Machine.inflating (1 / 10) (by norm_num)).u ≤ 1 := by
  refine ⟨fun row hrow r => ?_, rfl, by show 3 * (1 / 10 : ℝ) ≤ 1; norm_num⟩
  unfold sampled at hrow
  obtain ⟨i, hi, rfl⟩ := List.mem_map.1 hrow
  refine Or.inr ⟨_, rfl, ?_⟩
  have h1 : (i : ℝ) ≤ 63 := by exact_mod_cast Nat.lt_succ_iff.1 (List.mem_range.1 hi)
  have h0 : (0:ℝ) ≤ i := Nat.cast_nonneg i
  simp only [Polynomial.eval_add, Polynomial.eval_mul, Polynomial.eval_C, Polynomial.eval_X, Int.cast_natCast]
  rw [abs_of_nonneg] <;> linarith

end

end MFA
