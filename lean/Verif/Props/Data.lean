import Verif.Lemmas.Stats
import Verif.Props.Demo

/-! Properties C38 and C46: the estimators on data with NaN, permuted, or zero entries. -/

namespace MFA

open Classical Finset

variable {R : ℕ}

/-! ### C38 -/

/-- Two quantities with the same formalism, gamint and scales whose columns have the same non-NaN entries up to order
(number and position of the NaN entries may differ). -/
def SameData (m m' : MRQ R) : Prop :=
  m.formalism = m'.formalism ∧ m.gamint = m'.gamint ∧
  List.Forall₂ (fun p p' => p.1 = p'.1 ∧ ∀ r, (dropNaN (col p.2 r)).Perm (dropNaN (col p'.2 r))) m.values m'.values

/-- `nj` holds the number of non-NaN entries of each column: true of every quantity built with `add_values`. -/
def CountsNj (m : MRQ R) : Prop := m.nj = m.values.map (fun p => (p.1, fun r => countNotNaN (col p.2 r)))

private def Eqv (c c' : List Fl) : Prop := (dropNaN c).Perm (dropNaN c')

private theorem dropNaN_map_drop {f : Fl → Fl} (hnan : f Fl.nan = Fl.nan) (c : List Fl) :
    dropNaN (c.map f) = dropNaN ((dropNaN c).map f) := by
  induction c with
  | nil => rfl
  | cons a c ih =>
    by_cases ha : a = Fl.nan
    · subst ha; rw [List.map_cons, hnan, dropNaN_cons_nan, dropNaN_cons_nan, ih]
    · rw [dropNaN_cons_of ((Fl.not_isNaN_iff a).mpr ha), List.map_cons, List.map_cons]
      by_cases hfa : f a = Fl.nan
      · rw [hfa, dropNaN_cons_nan, dropNaN_cons_nan, ih]
      · rw [dropNaN_cons_of ((Fl.not_isNaN_iff _).mpr hfa), dropNaN_cons_of ((Fl.not_isNaN_iff _).mpr hfa), ih]

private theorem Eqv.map {c c' : List Fl} (h : Eqv c c') {f : Fl → Fl} (hnan : f Fl.nan = Fl.nan) :
    Eqv (c.map f) (c'.map f) := by
  unfold Eqv
  rw [dropNaN_map_drop hnan, dropNaN_map_drop hnan c']
  exact dropNaN_perm (List.Perm.map f h)

private theorem Eqv.nanmean {c c' : List Fl} (h : Eqv c c') : nanmean c = nanmean c' := by
  rw [← nanmean_dropNaN c, ← nanmean_dropNaN c']; exact nanmean_perm h

private theorem Eqv.nansum {c c' : List Fl} (h : Eqv c c') : nansum c = nansum c' := by
  rw [← nansum_dropNaN c, ← nansum_dropNaN c']; exact nansum_perm h

private theorem Eqv.count {c c' : List Fl} (h : Eqv c c') : countNotNaN c = countNotNaN c' := h.length_eq

private theorem Eqv.nanmax {c c' : List Fl} (h : Eqv c c') : nanmax c = nanmax c' := by
  rw [← nanmax_dropNaN c, ← nanmax_dropNaN c']; exact nanmax_perm h

private theorem Eqv.fixedNanSum {c c' : List Fl} (h : Eqv c c') : fixedNanSum c = fixedNanSum c' := by
  have hnil : dropNaN c = [] ↔ dropNaN c' = [] := by
    constructor
    · intro e; unfold Eqv at h; rw [e] at h; exact (List.nil_perm.mp h)
    · intro e; unfold Eqv at h; rw [e] at h; exact (List.perm_nil.mp h)
  rw [fixedNanSum_eq, fixedNanSum_eq]
  by_cases e : dropNaN c = []
  · rw [if_pos e, if_pos (hnil.mp e)]
  · rw [if_neg e, if_neg (fun e' => e (hnil.mpr e'))]; exact h.sum_eq

private theorem Eqv.sf {c c' : List Fl} (h : Eqv c c') (e : Expo) :
    MFA.nanmean ((c.map Fl.abs).map (fastPower e)) = MFA.nanmean ((c'.map Fl.abs).map (fastPower e)) :=
  ((h.map (f := Fl.abs) rfl).map (fastPower_nan e)).nanmean

private theorem msR_map (c : List Fl) (e : Expo) :
    msR c e = c.map fun x => fastPower e x.abs / nansum ((c.map Fl.abs).map (fastPower e)) := by
  unfold msR
  simp only [List.map_map]
  rfl

private theorem Eqv.msV {c c' : List Fl} (h : Eqv c c') (e : Expo) : MFA.msV c e = MFA.msV c' e := by
  have key : ∀ c : List Fl, MFA.msV c e = MFA.fixedNanSum (c.map fun x =>
      fastPower e x.abs / MFA.nansum ((c.map Fl.abs).map (fastPower e)) * x.abs.log2) := by
    intro c
    unfold MFA.msV
    rw [msR_map, List.zipWith_map_left]
    exact congrArg _ (List.zipWith_self (f := fun (a b : Fl) =>
      fastPower e a.abs / MFA.nansum ((c.map Fl.abs).map (fastPower e)) * b.abs.log2))
  rw [key, key, ((h.map (f := Fl.abs) rfl).map (fastPower_nan e)).nansum]
  exact (h.map (by simp)).fixedNanSum

private theorem Eqv.msU {c c' : List Fl} (h : Eqv c c') (n : ℕ) (e : Expo) : MFA.msU n c e = MFA.msU n c' e := by
  unfold MFA.msU
  rw [msR_map, msR_map, ((h.map (f := Fl.abs) rfl).map (fastPower_nan e)).nansum]
  congr 1
  simp only [List.map_map]
  refine (h.map ?_).fixedNanSum
  simp only [Function.comp_apply, Fl.abs_nan, fastPower_nan, Fl.nan_div, Fl.nan_mul]

private theorem cmColumn_congr {l l' : List Fl} (h : ∀ k, cmMoment l k = cmMoment l' k) (n : ℕ) :
    cmColumn l n = cmColumn l' n := by
  unfold cmColumn
  have : (fun (st : List Fl × List Fl) (i : ℕ) => cmStep l st (i + 1))
      = fun st i => cmStep l' st (i + 1) := by
    funext st i; unfold cmStep; rw [h]
  rw [this]

private theorem Eqv.cm {c c' : List Fl} (h : Eqv c c') (n : ℕ) :
    cmColumn (c.map fun x => x.abs.ln) n = cmColumn (c'.map fun x => x.abs.ln) n := by
  apply cmColumn_congr
  intro k
  exact ((h.map (f := fun x => x.abs.ln) rfl).map (fastPower_nan _)).nanmean

private theorem forall₂_map_eq {α β γ : Type} {P : α → β → Prop} {l : List α} {l' : List β} (h : List.Forall₂ P l l')
    (f : α → γ) (g : β → γ) (hfg : ∀ a b, P a b → f a = g b) : l.map f = l'.map g := by
  induction h with
  | nil => rfl
  | cons hab _ ih => rw [List.map_cons, List.map_cons, hfg _ _ hab, ih]

/-- C38: NaN entries and the order of the entries influence neither the counts nor any of the estimators; whatever
the scale range and parameters, each call has the same outcome (result or exception). -/
theorem C38_nan_and_order (m m' : MRQ R) (h : SameData m m') (hn : CountsNj m) (hn' : CountsNj m') (j1 j2 : ℤ)
    (weighted warn : Bool) (q : QArg) (n : ℕ) :
    m.nj = m'.nj ∧
    StructFn.make m q j1 j2 weighted = StructFn.make m' q j1 j2 weighted ∧
    Cumulants.make m n j1 j2 weighted = Cumulants.make m' n j1 j2 weighted ∧
    Spectrum.make m j1 j2 weighted q = Spectrum.make m' j1 j2 weighted q ∧
    ((∀ p ∈ m.values, p.2 ≠ []) → (∀ p ∈ m'.values, p.2 ≠ []) →
      estimateHmin m j1 j2 weighted warn = estimateHmin m' j1 j2 weighted warn) := by
  obtain ⟨hform, hgam, hv⟩ := h
  have hnj : m.nj = m'.nj := by
    rw [hn, hn']
    apply forall₂_map_eq hv
    intro p p' ⟨e, hp⟩
    rw [e]; congr 1; funext r; exact Eqv.count (hp r)
  have hchk : m.checkNrep = m'.checkNrep := by
    unfold MRQ.checkNrep
    generalize m.values = V at hv
    generalize m'.values = V' at hv
    cases hv with
    | nil => rfl
    | cons _ _ => rfl
  have hkeys : m.values.keys = m'.values.keys := forall₂_map_eq hv _ _ (fun p p' hp => hp.1)
  have hlv : ∀ q, sfLogValues m q = sfLogValues m' q := by
    intro q
    unfold sfLogValues
    apply List.map_congr_left
    intro e _
    apply forall₂_map_eq hv
    intro p p' ⟨_, hp⟩
    funext r
    unfold sfMean red
    rw [col_mapArr, col_mapArr, col_mapArr, col_mapArr, Eqv.sf (hp r)]
  have hcv : ∀ n, cmValues m n = cmValues m' n := by
    intro n
    unfold cmValues
    apply List.map_congr_left
    intro i _
    apply forall₂_map_eq hv
    intro p p' ⟨_, hp⟩
    funext r
    unfold logAbsCol
    rw [Eqv.cm (hp r)]
  have huv : msUV m = msUV m' := by
    funext e
    unfold msUV
    rw [hnj]
    clear hn hn' hnj hchk hkeys hlv hcv
    generalize m'.nj = NJ
    generalize m.values = V at hv
    generalize m'.values = V' at hv
    induction hv with
    | nil => rfl
    | cons hab _ ih =>
      obtain ⟨e1, hp⟩ := hab
      rw [mapE, mapE, ih, e1]
      cases getKey NJ _ with
      | error _ => rfl
      | ok N =>
        simp only
        have a1 : ∀ r, msU (N r) (col _ r) e = msU (N r) (col _ r) e := fun r => Eqv.msU (hp r) (N r) e
        have a2 : ∀ r, msV (col _ r) e = msV (col _ r) e := fun r => Eqv.msV (hp r) e
        rw [funext a1, funext a2]
  refine ⟨hnj, ?_, ?_, ?_, ?_⟩
  · unfold StructFn.make sfRegressions
    rw [hchk, hlv, hnj, hform, hgam, hkeys]
  · unfold Cumulants.make
    rw [hchk, hcv, hnj, hform, hkeys]
  · unfold Spectrum.make
    rw [hchk, huv, hnj, hform, hkeys]
  · intro hr hr'
    have hget : ∀ j, (getKey m.values j = getKey m'.values j ∧ ∃ e, getKey m.values j = .error e) ∨
        ∃ v v', getKey m.values j = .ok v ∧ getKey m'.values j = .ok v' ∧ v ≠ [] ∧ v' ≠ [] ∧
          ∀ r, (dropNaN (col v r)).Perm (dropNaN (col v' r)) := by
      intro j
      clear hn hn' hnj hchk hkeys hlv hcv huv
      unfold getKey
      generalize m.values = V at hv hr
      generalize m'.values = V' at hv hr'
      induction hv with
      | nil => left; exact ⟨rfl, _, rfl⟩
      | @cons p p' l l' hab _ ih =>
        obtain ⟨e1, hp⟩ := hab
        obtain ⟨k, v⟩ := p
        obtain ⟨k', v'⟩ := p'
        simp only at e1 hp
        subst e1
        by_cases hk : k = j
        · right
          refine ⟨v, v', by simp [Dict.get?, hk], by simp [Dict.get?, hk], hr (k, v) (by simp),
            hr' (k, v') (by simp), hp⟩
        · simp only [Dict.get?, hk, if_false]
          exact ih (fun p hp => hr p (by simp [hp])) (fun p hp => hr' p (by simp [hp]))
    have hsup : supCoeffs m = supCoeffs m' := by
      funext j
      unfold supCoeffs
      rcases hget j with ⟨e, e', he'⟩ | ⟨v, v', e, e', hv0, hv0', hp⟩
      · rw [← e, he']
      · rw [e, e']
        cases v with
        | nil => exact absurd rfl hv0
        | cons a t =>
          cases v' with
          | nil => exact absurd rfl hv0'
          | cons a' t' =>
            simp only
            congr 1
            funext r
            unfold red
            rw [col_mapArr, col_mapArr]
            exact (Eqv.map (hp r) (f := Fl.abs) rfl).nanmax
    unfold estimateHmin
    rw [hsup, hnj]
    rcases hget 1 with ⟨e, e', he'⟩ | ⟨v, v', e, e', _⟩
    · rw [← e, he']
    · rw [e, e']

/-- Two different quantities with the same data. -/
example : ∃ m m' : MRQ 1, m ≠ m' ∧ SameData m m' ∧ CountsNj m ∧ CountsNj m' ∧
    (∀ p ∈ m.values, p.2 ≠ []) ∧ (∀ p ∈ m'.values, p.2 ≠ []) := by
  refine ⟨(MRQ.empty .coef 0).addValues [fun _ => Fl.fin 1, fun _ => Fl.fin 2] 1,
    (MRQ.empty .coef 0).addValues [fun _ => Fl.fin 2, fun _ => Fl.nan, fun _ => Fl.fin 1] 1, ?_, ?_, ?_, ?_, ?_, ?_⟩
  · intro h
    have := congrArg (fun m : MRQ 1 => (m.values.map fun p => p.2.length)) h
    simp [MRQ.addValues, MRQ.empty, Dict.set] at this
  · refine ⟨rfl, rfl, ?_⟩
    simp only [MRQ.addValues, MRQ.empty, Dict.set]
    refine List.Forall₂.cons ⟨rfl, fun r => ?_⟩ List.Forall₂.nil
    simp only [col, List.map_cons, List.map_nil, dropNaN, List.filter_cons, Fl.isNaN_fin, Fl.isNaN_nan,
      Bool.not_false, Bool.not_true, if_true, if_false, List.filter_nil]
    exact List.Perm.swap _ _ _
  · simp [CountsNj, MRQ.addValues, MRQ.empty, Dict.set]
  · simp [CountsNj, MRQ.addValues, MRQ.empty, Dict.set]
  · simp [MRQ.addValues, MRQ.empty, Dict.set]
  · simp [MRQ.addValues, MRQ.empty, Dict.set]

/-! ### C46 -/

/-- Statistics U and V of one column, q > 0: zeros contribute nothing. -/
private theorem ms_zero_positive_q (c : List Fl) (nj : ℕ) (hn : 0 < nj) (q : ℝ) (hq : 0 < q)
    (hf : ∀ x ∈ c, x = Fl.nan ∨ ∃ t : ℝ, x = Fl.fin t) (hex : ∃ t : ℝ, t ≠ 0 ∧ Fl.fin t ∈ c) :
    msV c (.real q) = msV (c.filter fun x => decide (x ≠ Fl.fin 0)) (.real q) ∧
    msU nj c (.real q) = msU nj (c.filter fun x => decide (x ≠ Fl.fin 0)) (.real q) := by
  obtain ⟨xs, hxs⟩ := dropNaN_eq_map_fin (l := c) (fun y hy hyn => (hf y hy).resolve_left hyn)
  have hE : Entries c xs := hxs
  have hE' : Entries (c.filter fun x => decide (x ≠ Fl.fin 0)) (xs.filter fun x => decide (x ≠ 0)) := by
    unfold Entries
    have e1 : dropNaN (c.filter fun x => decide (x ≠ Fl.fin 0)) = (dropNaN c).filter fun x => decide (x ≠ Fl.fin 0) := by
      unfold dropNaN; rw [List.filter_filter, List.filter_filter]
      apply List.filter_congr; intro x _; rw [Bool.and_comm]
    rw [e1, hxs, List.filter_map]
    congr 1
    apply List.filter_congr
    intro x _
    simp only [Function.comp_apply, ne_eq]
    by_cases h0 : x = 0
    · subst h0; simp [-Fl.fin_zero]
    · simp [h0, Fl.fin_inj, -Fl.fin_zero]
  obtain ⟨t, ht0, ht⟩ := hex
  obtain ⟨s, hs, es⟩ := hE.mem ht (by simp)
  rw [Fl.fin_inj] at es; subst es
  have hx : ∃ x ∈ xs, x ≠ 0 := ⟨t, hs, ht0⟩
  have hx' : ∃ x ∈ xs.filter fun x => decide (x ≠ 0), x ≠ 0 := ⟨t, by simp [hs, ht0], ht0⟩
  have hq' : 0 < (Expo.real q).val := hq
  have hsum : ∀ g : ℝ → ℝ, g 0 = 0 → ∀ ys : List ℝ,
      ((ys.filter fun x => decide (x ≠ 0)).map g).sum = (ys.map g).sum := by
    intro g hg ys
    induction ys with
    | nil => rfl
    | cons y ys ih =>
      by_cases h0 : y = 0
      · subst h0; simp [hg]; simpa using ih
      · simp [h0]; simpa using ih
  have hS : powSum (xs.filter fun x => decide (x ≠ 0)) q = powSum xs q :=
    hsum (fun x => |x| ^ q) (by simp [Real.zero_rpow hq.ne']) xs
  have hz : (|(0:ℝ)|) ^ q = 0 := by rw [abs_zero, Real.zero_rpow hq.ne']
  constructor
  · rw [msV_eq hE (Or.inl hq') hx, msV_eq hE' (Or.inl hq') hx']
    congr 1
    show _ = ((xs.filter fun x => decide (x ≠ 0)).map fun x => |x| ^ q / powSum _ q * Real.logb 2 |x|).sum
    rw [hS, hsum (fun x => |x| ^ q / powSum xs q * Real.logb 2 |x|) (by simp [hz])]
    rfl
  · rw [msU_eq hE (Or.inl hq') hx hn, msU_eq hE' (Or.inl hq') hx' hn]
    congr 2
    show _ = ((xs.filter fun x => decide (x ≠ 0)).map fun x =>
      |x| ^ q / powSum _ q * Real.logb 2 (|x| ^ q / powSum _ q)).sum
    rw [hS, hsum (fun x => |x| ^ q / powSum xs q * Real.logb 2 (|x| ^ q / powSum xs q)) (by simp [Real.zero_rpow hq.ne'])]
    rfl

private theorem sum_ninf {l : List Fl} (hf : ∀ x ∈ l, x = Fl.ninf ∨ ∃ t : ℝ, x = Fl.fin t) :
    (Fl.ninf ∈ l → l.sum = Fl.ninf) ∧ (l.sum = Fl.ninf ∨ ∃ t : ℝ, l.sum = Fl.fin t) := by
  induction l with
  | nil => exact ⟨fun h => (by cases h), Or.inr ⟨0, rfl⟩⟩
  | cons a l ih =>
    obtain ⟨ih1, ih2⟩ := ih (fun x hx => hf x (by simp [hx]))
    rw [List.sum_cons]
    constructor
    · intro h
      rcases List.mem_cons.mp h with h | h
      · rw [← h]; rcases ih2 with e | ⟨t, e⟩ <;> rw [e] <;> rfl
      · rw [ih1 h]; rcases hf a (by simp) with e | ⟨t, e⟩ <;> rw [e] <;> rfl
    · rcases hf a (by simp) with e | ⟨t, e⟩ <;> rcases ih2 with e' | ⟨t', e'⟩ <;> rw [e, e']
      · exact Or.inl rfl
      · exact Or.inl rfl
      · exact Or.inl rfl
      · exact Or.inr ⟨t + t', rfl⟩

/-- One column, q = 0: one zero coefficient makes V(j,0) equal to -inf. -/
theorem ms_zero_q_zero (c : List Fl) (hf : ∀ x ∈ c, x = Fl.nan ∨ ∃ t : ℝ, x = Fl.fin t) (h0 : Fl.fin 0 ∈ c) :
    msV c (.real 0) = Fl.ninf := by
  have hpos : 0 < countNotNaN c := countNotNaN_pos ⟨_, h0, by simp⟩
  have hn : (0:ℝ) < countNotNaN c := by exact_mod_cast hpos
  have hs : nansum ((c.map Fl.abs).map (fastPower (.real 0))) = Fl.fin (countNotNaN c) := by
    rw [nansum, dropNaN_pow_zero, Fl.sum_map_fin]; simp
  have hz : List.zipWith (fun R x => R * x.abs.log2) (msR c (.real 0)) c
      = c.map fun x => fastPower (.real 0) x.abs / Fl.fin (countNotNaN c) * x.abs.log2 := by
    rw [msR_map, List.zipWith_map_left, hs]
    exact List.zipWith_self (f := fun (a b : Fl) => fastPower (.real 0) a.abs / Fl.fin (countNotNaN c) * b.abs.log2)
  set f : Fl → Fl := fun x => fastPower (.real 0) x.abs / Fl.fin (countNotNaN c) * x.abs.log2 with hfdef
  have hf0 : f (Fl.fin 0) = Fl.ninf := by
    rw [hfdef]
    simp only
    rw [fastPower_zero_of (by simp [-Fl.fin_zero]), Fl.fin_div hn.ne']
    have : ((Fl.fin 0).abs.log2) = Fl.ninf := by simp [Fl.log2, Fl.logOf, -Fl.fin_zero]
    rw [this, Fl.fin_mul_ninf, Fl.sgnInf_neg]
    have : 0 < 1 / (countNotNaN c : ℝ) := by positivity
    linarith
  have hft : ∀ t : ℝ, t ≠ 0 → f (Fl.fin t) = Fl.fin (1 / (countNotNaN c : ℝ) * Real.logb 2 |t|) := by
    intro t ht
    rw [hfdef]
    simp only
    rw [fastPower_zero_of (by simp), Fl.fin_div hn.ne', Fl.abs_fin, Fl.log2_fin (abs_pos.mpr ht), Fl.fin_mul]
  unfold msV
  rw [hz, fixedNanSum_eq]
  have hmem : Fl.ninf ∈ dropNaN (c.map f) :=
    mem_dropNaN.mpr ⟨List.mem_map.mpr ⟨_, h0, hf0⟩, rfl⟩
  rw [if_neg (fun e => by rw [e] at hmem; cases hmem)]
  apply (sum_ninf _).1 hmem
  intro x hx
  obtain ⟨hx1, hx2⟩ := mem_dropNaN.mp hx
  obtain ⟨y, hy, rfl⟩ := List.mem_map.mp hx1
  rcases hf y hy with rfl | ⟨t, rfl⟩
  · rw [hfdef] at hx2; simp at hx2
  · by_cases ht : t = 0
    · subst ht; exact Or.inl hf0
    · exact Or.inr ⟨_, hft t ht⟩

/-- One column, q < 0: one zero coefficient makes U(j,q) NaN, while V(j,q) silently becomes 0 as soon as there is a non-zero
coefficient (each non-zero coefficient gets weight 0). -/
theorem ms_zero_negative_q (c : List Fl) (nj : ℕ) (q : ℝ) (hq : q < 0)
    (hf : ∀ x ∈ c, x = Fl.nan ∨ ∃ t : ℝ, x = Fl.fin t) (h0 : Fl.fin 0 ∈ c) :
    msU nj c (.real q) = Fl.nan ∧
    ((∃ t : ℝ, t ≠ 0 ∧ Fl.fin t ∈ c) → msV c (.real q) = Fl.fin 0) := by
  have p0 : fastPower (.real q) (Fl.fin 0).abs = Fl.pinf := by
    rw [fastPower_eq, if_neg (by simp [-Fl.fin_zero]), if_neg (by simp [-Fl.fin_zero])]
    simp [Fl.pow, Expo.val, hq.ne, not_lt.mpr hq.le, -Fl.fin_zero]
  have pt : ∀ t : ℝ, t ≠ 0 → fastPower (.real q) (Fl.fin t).abs = Fl.fin (|t| ^ q) :=
    fun t ht => fastPower_abs_fin (e := .real q) (Or.inr ht)
  have hinf : ∀ l : List Fl, (∀ x ∈ l, x = Fl.pinf ∨ ∃ t : ℝ, x = Fl.fin t) →
      (Fl.pinf ∈ l → l.sum = Fl.pinf) ∧ (l.sum = Fl.pinf ∨ ∃ t : ℝ, l.sum = Fl.fin t) := by
    intro l
    induction l with
    | nil => intro _; exact ⟨fun h => (by cases h), Or.inr ⟨0, rfl⟩⟩
    | cons a l ih =>
      intro hf
      obtain ⟨ih1, ih2⟩ := ih (fun x hx => hf x (by simp [hx]))
      rw [List.sum_cons]
      constructor
      · intro h
        rcases List.mem_cons.mp h with h | h
        · rw [← h]; rcases ih2 with e | ⟨t, e⟩ <;> rw [e] <;> rfl
        · rw [ih1 h]; rcases hf a (by simp) with e | ⟨t, e⟩ <;> rw [e] <;> rfl
      · rcases hf a (by simp) with e | ⟨t, e⟩ <;> rcases ih2 with e' | ⟨t', e'⟩ <;> rw [e, e']
        · exact Or.inl rfl
        · exact Or.inl rfl
        · exact Or.inl rfl
        · exact Or.inr ⟨t + t', rfl⟩
  have hs : nansum ((c.map Fl.abs).map (fastPower (.real q))) = Fl.pinf := by
    unfold nansum
    apply (hinf _ _).1
    · rw [List.map_map]
      exact mem_dropNaN.mpr ⟨List.mem_map.mpr ⟨_, h0, p0⟩, rfl⟩
    · intro x hx
      rw [List.map_map] at hx
      obtain ⟨hx1, hx2⟩ := mem_dropNaN.mp hx
      obtain ⟨y, hy, rfl⟩ := List.mem_map.mp hx1
      rcases hf y hy with rfl | ⟨t, rfl⟩
      · simp [fastPower_nan] at hx2
      · by_cases ht : t = 0
        · subst ht; exact Or.inl p0
        · exact Or.inr ⟨_, pt t ht⟩
  have hdiv0 : Fl.pinf / Fl.pinf = Fl.nan := by
    show Fl.pinf * Fl.fin 0 = _
    rw [Fl.pinf_mul_fin, Fl.sgnInf_zero]
  have hdivt : ∀ t : ℝ, Fl.fin t / Fl.pinf = Fl.fin 0 := by
    intro t
    show Fl.fin t * Fl.fin 0 = _
    rw [Fl.fin_mul, mul_zero]
  have hlog0 : (Fl.fin 0).log2 = Fl.ninf := by simp [Fl.log2, Fl.logOf, -Fl.fin_zero]
  constructor
  · unfold msU
    rw [msR_map, hs, List.map_map]
    have : fixedNanSum (c.map ((fun R => R * R.log2) ∘ fun x => fastPower (.real q) x.abs / Fl.pinf)) = Fl.nan := by
      rw [fixedNanSum_eq, if_pos]
      rw [dropNaN_eq_nil_iff]
      intro x hx
      obtain ⟨y, hy, rfl⟩ := List.mem_map.mp hx
      rcases hf y hy with rfl | ⟨t, rfl⟩
      · simp [fastPower_nan]
      · simp only [Function.comp_apply]
        by_cases ht : t = 0
        · subst ht; rw [p0, hdiv0]; simp
        · rw [pt t ht, hdivt, hlog0, Fl.fin_mul_ninf, neg_zero, Fl.sgnInf_zero]
    rw [this]; simp
  · rintro ⟨t, ht, htc⟩
    unfold msV
    rw [msR_map, List.zipWith_map_left, hs]
    rw [show List.zipWith (fun (a b : Fl) => fastPower (.real q) a.abs / Fl.pinf * b.abs.log2) c c
      = c.map (fun x => fastPower (.real q) x.abs / Fl.pinf * x.abs.log2) from
      List.zipWith_self (f := fun (a b : Fl) => fastPower (.real q) a.abs / Fl.pinf * b.abs.log2)]
    have hval : ∀ s : ℝ, s ≠ 0 → fastPower (.real q) (Fl.fin s).abs / Fl.pinf * (Fl.fin s).abs.log2 = Fl.fin 0 := by
      intro s hs
      rw [pt s hs, hdivt, Fl.abs_fin, Fl.log2_fin (abs_pos.mpr hs), Fl.fin_mul, zero_mul]
    rw [fixedNanSum_eq, if_neg]
    · have : ∀ x ∈ dropNaN (c.map fun x => fastPower (.real q) x.abs / Fl.pinf * x.abs.log2), x = Fl.fin 0 := by
        intro x hx
        obtain ⟨hx1, hx2⟩ := mem_dropNaN.mp hx
        obtain ⟨y, hy, rfl⟩ := List.mem_map.mp hx1
        rcases hf y hy with rfl | ⟨s, rfl⟩
        · simp at hx2
        · by_cases hs0 : s = 0
          · subst hs0; rw [p0, hdiv0] at hx2; simp at hx2
          · exact hval s hs0
      generalize dropNaN (c.map fun x => fastPower (.real q) x.abs / Fl.pinf * x.abs.log2) = L at this
      induction L with
      | nil => rfl
      | cons a L ih =>
        rw [List.sum_cons, this a (by simp), ih (fun x hx => this x (by simp [hx])), Fl.fin_add, add_zero]
    · intro e
      have : Fl.fin 0 ∈ dropNaN (c.map fun x => fastPower (.real q) x.abs / Fl.pinf * x.abs.log2) :=
        mem_dropNaN.mpr ⟨List.mem_map.mpr ⟨_, htc, hval t ht⟩, rfl⟩
      rw [e] at this; cases this

/-- The non-zero numbers among the entries of a column, in order (NaN entries and zeros are left out). -/
noncomputable def nonzeros (c : List Fl) : List ℝ :=
  c.filterMap fun x => match x with
    | Fl.fin t => if t = 0 then none else some t
    | _ => none

private theorem mem_nonzeros {c : List Fl} {t : ℝ} : t ∈ nonzeros c ↔ t ≠ 0 ∧ Fl.fin t ∈ c := by
  unfold nonzeros
  rw [List.mem_filterMap]
  constructor
  · rintro ⟨x, hx, h⟩
    cases x with
    | fin s =>
      simp only at h
      split at h
      · cases h
      · rename_i h0; cases h; exact ⟨h0, hx⟩
    | _ => cases h
  · rintro ⟨h0, h⟩; exact ⟨_, h, by simp [h0]⟩

private theorem nonzeros_entries {c : List Fl} (hf : ∀ x ∈ c, x = Fl.nan ∨ ∃ t : ℝ, x = Fl.fin t) :
    Entries (c.filter fun x => decide (x ≠ Fl.fin 0)) (nonzeros c) := by
  induction c with
  | nil => rfl
  | cons a c ih =>
    have ih := ih (fun x hx => hf x (by simp [hx]))
    rcases hf a (by simp) with rfl | ⟨t, rfl⟩
    · rw [List.filter_cons_of_pos (by simp)]
      exact ih
    · by_cases h0 : t = 0
      · subst h0
        rw [List.filter_cons_of_neg (by simp)]
        have : nonzeros (Fl.fin 0 :: c) = nonzeros c := by simp [nonzeros, List.filterMap_cons, -Fl.fin_zero]
        rw [this]; exact ih
      · rw [List.filter_cons_of_pos (by simp [Fl.fin_inj, h0, -Fl.fin_zero])]
        have : nonzeros (Fl.fin t :: c) = t :: nonzeros c := by simp [nonzeros, List.filterMap_cons, h0]
        rw [this]
        unfold Entries at ih ⊢
        rw [dropNaN_cons_of (by simp), ih, List.map_cons]

/-- C46: the statistics U and V of `MultifractalSpectrum` on finite data with zeros (NaN entries allowed), at every scale and
in every realisation.  Let `xs` be the non-zero coefficients.  For q > 0 (or when there is no zero) U and V are computed
from `xs` only, except that zeros count in `nj`; for q = 0 a zero makes V equal to -inf; for q < 0 a zero makes U NaN,
while V silently becomes 0. -/
theorem C46_zeros {m : MRQ R} {J : ℕ} {j1 j2 : ℤ} (hm : Regular m J) (h1 : 1 ≤ j1) (h12 : j1 ≤ j2) (h2 : j2 ≤ J)
    (weighted : Bool) (q : List ℝ) (hqn : q ≠ [])
    (hf : ∀ p ∈ m.values, ∀ r, ∀ x ∈ col p.2 r, x = Fl.nan ∨ ∃ t : ℝ, x = Fl.fin t) :
    ∃ s, Spectrum.make m j1 j2 weighted (.ndarray q) = .ok s ∧
      ∀ (i : ℕ) (hi : i < q.length) (k : ℕ) (p : ℤ × Arr R), m.values[k]? = some p →
      ∃ (Ui Vi : Arr R) (U V : Row R), s.U[i]? = some Ui ∧ s.V[i]? = some Vi ∧ Ui[k]? = some U ∧ Vi[k]? = some V ∧
        ∀ (r : Fin R) (xs : List ℝ) (S : ℝ), xs = nonzeros (col p.2 r) → S = (xs.map fun t => |t| ^ q[i]).sum →
          (xs ≠ [] → (0 < q[i] ∨ Fl.fin 0 ∉ col p.2 r) →
            V r = Fl.fin (xs.map fun t => |t| ^ q[i] / S * Real.logb 2 |t|).sum ∧
            U r = Fl.fin (Real.logb 2 (countNotNaN (col p.2 r)) +
              (xs.map fun t => |t| ^ q[i] / S * Real.logb 2 (|t| ^ q[i] / S)).sum)) ∧
          (Fl.fin 0 ∈ col p.2 r → q[i] = 0 → V r = Fl.ninf) ∧
          (Fl.fin 0 ∈ col p.2 r → q[i] < 0 → U r = Fl.nan ∧ (xs ≠ [] → V r = Fl.fin 0)) := by
  have hqn' : (QArg.ndarray q).expos ≠ [] := by simpa [QArg.expos] using hqn
  refine ⟨_, hm.spectrum h1 h12 h2 weighted _ hqn', fun i hi k p hk => ?_⟩
  have hp : p ∈ m.values := List.mem_of_getElem? hk
  refine ⟨m.values.map fun p r => msU (countNotNaN (col p.2 r)) (col p.2 r) (.real q[i]),
    m.values.map fun p r => msV (col p.2 r) (.real q[i]), fun r => msU (countNotNaN (col p.2 r)) (col p.2 r) (.real q[i]),
    fun r => msV (col p.2 r) (.real q[i]), by simp [QArg.expos, List.getElem?_eq_getElem hi],
    by simp [QArg.expos, List.getElem?_eq_getElem hi], by simp [hk], by simp [hk], ?_⟩
  rintro r xs S rfl rfl
  have hfr := hf p hp r
  refine ⟨fun hne hcase => ?_, fun h0 hq => ?_, fun h0 hq => ?_⟩
  · obtain ⟨t, ht⟩ := List.exists_mem_of_ne_nil _ hne
    obtain ⟨ht0, htc⟩ := mem_nonzeros.mp ht
    have hpos : 0 < countNotNaN (col p.2 r) := countNotNaN_pos ⟨_, htc, by simp⟩
    have hE := nonzeros_entries hfr
    have hx : ∃ x ∈ nonzeros (col p.2 r), x ≠ 0 := ⟨t, ht, ht0⟩
    have hq0 : 0 < (Expo.real q[i]).val ∨ ∀ x ∈ nonzeros (col p.2 r), x ≠ 0 :=
      Or.inr fun x hx => (mem_nonzeros.mp hx).1
    have e1 : msV (col p.2 r) (.real q[i]) = msV ((col p.2 r).filter fun x => decide (x ≠ Fl.fin 0)) (.real q[i]) ∧
        msU (countNotNaN (col p.2 r)) (col p.2 r) (.real q[i])
          = msU (countNotNaN (col p.2 r)) ((col p.2 r).filter fun x => decide (x ≠ Fl.fin 0)) (.real q[i]) := by
      rcases hcase with hq | hz
      · exact ms_zero_positive_q _ _ hpos _ hq hfr ⟨t, ht0, htc⟩
      · rw [List.filter_eq_self.mpr (fun x hx => by
          simp only [decide_eq_true_eq]; rintro rfl; exact hz hx)]
        exact ⟨rfl, rfl⟩
    simp only
    rw [e1.1, e1.2, msV_eq hE hq0 hx, msU_eq hE hq0 hx hpos]
    exact ⟨rfl, rfl⟩
  · simp only; rw [hq]; exact ms_zero_q_zero _ hfr h0
  · have := ms_zero_negative_q _ (countNotNaN (col p.2 r)) _ hq hfr h0
    refine ⟨this.1, fun hne => this.2 ?_⟩
    obtain ⟨t, ht⟩ := List.exists_mem_of_ne_nil _ hne
    exact ⟨t, (mem_nonzeros.mp ht).1, (mem_nonzeros.mp ht).2⟩

/-- Data with a zero, a NaN and non-zero coefficients at each of two scales. -/
example : ∃ m : MRQ 1, Regular m 2 ∧ (∀ p ∈ m.values, ∀ r, ∀ x ∈ col p.2 r, x = Fl.nan ∨ ∃ t : ℝ, x = Fl.fin t) ∧
    ∀ p ∈ m.values, Fl.fin 0 ∈ col p.2 0 ∧ nonzeros (col p.2 0) ≠ [] := by
  let v : Arr 1 := [fun _ => Fl.fin 0, fun _ => Fl.nan, fun _ => Fl.fin 5]
  refine ⟨((MRQ.empty .coef 0).addValues v 1).addValues v 2, ?_, ?_, ?_⟩
  · constructor
    · simp [MRQ.addValues, MRQ.empty, Dict.set, List.range_succ]
    · simp [MRQ.addValues, MRQ.empty, Dict.set]
  · intro p hp r x hx
    have hv : p.2 = v := by
      simp [MRQ.addValues, MRQ.empty, Dict.set] at hp
      rcases hp with rfl | rfl <;> rfl
    rw [hv] at hx
    simp only [v, col, List.map_cons, List.map_nil, List.mem_cons, List.not_mem_nil, or_false] at hx
    rcases hx with rfl | rfl | rfl
    · exact Or.inr ⟨0, rfl⟩
    · exact Or.inl rfl
    · exact Or.inr ⟨5, rfl⟩
  · intro p hp
    have hv : p.2 = v := by
      simp [MRQ.addValues, MRQ.empty, Dict.set] at hp
      rcases hp with rfl | rfl <;> rfl
    rw [hv]
    refine ⟨by simp [v, col], fun h => ?_⟩
    have : (5:ℝ) ∈ nonzeros (col v 0) := mem_nonzeros.mpr ⟨by norm_num, by simp [v, col]⟩
    rw [h] at this; cases this

end MFA
