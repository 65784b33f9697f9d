import Verif.Props.Stability
import Verif.Props.Full
import Verif.Props.BiCompat
import Verif.Props.EndToEnd
import Verif.Props.Demo

/-! C121 for signals: the wavelet coefficients and leaders depend continuously on the samples. -/

namespace MFA

open Filter Topology

noncomputable section

variable {R : ℕ}

theorem downFilter_close {f : List ℝ} {x y : ℤ → ℝ} {η : ℝ} (h : ∀ i, |x i - y i| ≤ η) (k : ℤ) :
    |downFilter f x k - downFilter f y k| ≤ (f.map fun a => |a|).sum * η := by
  unfold downFilter
  rw [← Finset.sum_sub_distrib]
  have e : (f.map fun a => |a|).sum = ∑ m ∈ Finset.range f.length, |f.getD m 0| := by
    induction f with
    | nil => simp
    | cons a f ih => rw [List.map_cons, List.sum_cons, List.length_cons, Finset.sum_range_succ', ih]; simp [add_comm]
  rw [e, Finset.sum_mul]
  refine (Finset.abs_sum_le_sum_abs _ _).trans (Finset.sum_le_sum fun m _ => ?_)
  rw [← mul_sub, abs_mul]
  exact mul_le_mul_of_nonneg_left (h _) (abs_nonneg _)

theorem idealApprox_close {f : List ℝ} {x y : ℤ → ℝ} {η : ℝ} (h : ∀ i, |x i - y i| ≤ η) : ∀ (j : ℕ) (k : ℤ),
    |idealApprox f x j k - idealApprox f y j k| ≤ (f.map fun a => |a|).sum ^ j * η
  | 0, k => by simpa [idealApprox] using h k
  | j + 1, k => by
    refine (downFilter_close (idealApprox_close h j) k).trans (le_of_eq ?_)
    rw [pow_succ]; ring

/-- The detail coefficients are Lipschitz in the samples. -/
theorem idealDetail_close {wt : Wavelet} {x y : ℤ → ℝ} {η : ℝ} (h : ∀ i, |x i - y i| ≤ η) (j : ℕ) (k : ℤ) :
    |idealDetail wt x j k - idealDetail wt y j k| ≤
      (wt.dec_hi.map fun a => |a|).sum * (wt.dec_lo.map fun a => |a|).sum ^ (j - 1) * η := by
  unfold idealDetail
  rw [show ∀ a b : ℝ, -a - -b = -(a - b) from fun a b => by ring, abs_neg]
  refine (downFilter_close (idealApprox_close h (j - 1)) k).trans (le_of_eq ?_)
  ring

/-- Replacing the values the library never sees. -/
theorem sampled_eq {N : ℕ} {x y : Fin R → ℤ → ℝ} (h : ∀ r (i : ℕ), i < N → x r i = y r i) : sampled N x = sampled N y := by
  unfold sampled
  refine List.map_congr_left fun i hi => ?_
  funext r
  rw [h r i (List.mem_range.1 hi)]

/-- A Lipschitz constant of the coefficient of scale `s`. -/
def coefLip (wt : Wavelet) (g nm : ℝ) (s : ℕ) : ℝ :=
  (2:ℝ) ^ ((s : ℝ) * (1 / 2 - 1 / nm + g)) * ((wt.dec_hi.map fun a => |a|).sum * (wt.dec_lo.map fun a => |a|).sum ^ (s - 1))

theorem abs_sum_nonneg (f : List ℝ) : 0 ≤ (f.map fun a => |a|).sum :=
  List.sum_nonneg (by intro a ha; obtain ⟨b, -, rfl⟩ := List.mem_map.1 ha; exact abs_nonneg _)

theorem coefLip_nonneg (wt : Wavelet) (g nm : ℝ) (s : ℕ) : 0 ≤ coefLip wt g nm s :=
  mul_nonneg (by positivity) (mul_nonneg (abs_sum_nonneg _) (pow_nonneg (abs_sum_nonneg _) _))

/-- The coefficients of two signals whose samples differ by at most `η`. -/
theorem coefs_close {N : ℕ} {x x' : Fin R → ℤ → ℝ} (hR : R ≠ 0) {p : PExp} {wt : Wavelet} (hwt : wt.Valid) {j1 : ℤ} {j2 : Option ℝ}
    {g nm : ℝ} {weighted : Bool} {w w' : WT R} (h : waveletAnalysis (sampled N x) p wt j1 j2 g nm weighted = .ok w)
    (h' : waveletAnalysis (sampled N x') p wt j1 j2 g nm weighted = .ok w') {η : ℝ}
    (hx : ∀ r (i : ℕ), i < N → |x r i - x' r i| ≤ η) :
    (∀ s k r, (w.wt_coefs.val? s k r = none ∧ w'.wt_coefs.val? s k r = none) ∨
      ∃ a b, w.wt_coefs.val? s k r = some a ∧ w'.wt_coefs.val? s k r = some b ∧ EntryClose (coefLip wt g nm s * η) a b) := by
  by_cases hη : 0 ≤ η
  swap
  · -- no sample at all
    have hN : N = 0 := by
      by_contra hN
      exact hη ((abs_nonneg _).trans (hx ⟨0, Nat.pos_of_ne_zero hR⟩ 0 (Nat.pos_of_ne_zero hN)))
    subst hN
    obtain ⟨ml, K, Kc, h1, -⟩ := wa_inv h
    simp [sampled, maxLevel] at h1
  intro s k r
  obtain ⟨y, hy⟩ : ∃ y : Fin R → ℤ → ℝ, y = fun (r : Fin R) (i : ℤ) => if 0 ≤ i ∧ i < (N : ℤ) then x' r i else x r i := ⟨_, rfl⟩
  have hs : sampled N x' = sampled N y := sampled_eq fun r i hi => by
    rw [hy]; simp only; rw [if_pos ⟨by positivity, by exact_mod_cast hi⟩]
  have hxy : ∀ r i, |x r i - y r i| ≤ η := by
    intro r i
    rw [hy]; simp only
    split
    · rename_i hi
      obtain ⟨n, rfl⟩ := Int.eq_ofNat_of_zero_le hi.1
      exact hx r n (by exact_mod_cast hi.2)
    · rw [sub_self, abs_zero]; exact hη
  rw [hs] at h'
  obtain ⟨ml, K, Kc, h1, h2, h3, h4, h5, -⟩ := wa_finite hwt hR h
  obtain ⟨ml', K', Kc', h1', h2', h3', h4', h5', -⟩ := wa_finite hwt hR h'
  rw [h1] at h1'
  cases h1'
  have hKK : K = K' := h2.unique h2'
  subst hKK
  have hKc : Kc = Kc' := by rw [h3, h3']
  subst hKc
  rw [h5, h5', scalesUpTo_val, scalesUpTo_val]
  by_cases hs : 1 ≤ s ∧ s ≤ Kc
  swap
  · exact Or.inl ⟨if_neg fun hh => hs ⟨hh.1, hh.2.1⟩, if_neg fun hh => hs ⟨hh.1, hh.2.1⟩⟩
  rw [coefSeq_length _ _ _ hs.1, coefSeq_length _ _ _ hs.1, sampled_length, sampled_length]
  by_cases hk : k < N / 2 ^ s
  swap
  · exact Or.inl ⟨if_neg fun hh => hk hh.2.2, if_neg fun hh => hk hh.2.2⟩
  refine Or.inr ⟨_, _, if_pos ⟨hs.1, hs.2, hk⟩, if_pos ⟨hs.1, hs.2, hk⟩, ?_⟩
  rw [coef_ent wt hwt g nm x r hs.1 (fun i hi => by have := level_room h1 (i := i) (by omega); omega) hk,
    coef_ent wt hwt g nm y r hs.1 (fun i hi => by have := level_room h1 (i := i) (by omega); omega) hk]
  by_cases hb : Bord N wt.dec_hi.length s k
  · exact Or.inl ⟨if_pos hb, if_pos hb⟩
  · refine Or.inr ⟨_, _, if_neg hb, if_neg hb, ?_⟩
    rw [scaleFactor_eq, ← mul_sub, abs_mul, abs_of_pos (by positivity), coefLip, mul_assoc]
    exact mul_le_mul_of_nonneg_left (idealDetail_close (hxy r) s k) (by positivity)

/-- Two quantities with the same number of scales and related entries. -/
theorem related_of_val {P : Fl → Fl → Prop} (hR : R ≠ 0) {m m' : MRQ R} {J : ℕ} (hm : Regular m J) (hm' : Regular m' J) (hg : m'.gamint = m.gamint)
    (h : ∀ s k r, (m.val? s k r = none ∧ m'.val? s k r = none) ∨ ∃ a b, m.val? s k r = some a ∧ m'.val? s k r = some b ∧ P a b) :
    MRQRelated P m m' := by
  have hlen : m.values.length = J ∧ m'.values.length = J := by
    have a := congrArg List.length hm.1
    have b := congrArg List.length hm'.1
    simp only [List.length_map, List.length_range] at a b
    exact ⟨a, b⟩
  refine ⟨hg, List.forall₂_iff_get.2 ⟨by rw [hlen.1, hlen.2], fun i hi hi' => ?_⟩⟩
  have hk : (m.values.get ⟨i, hi⟩).1 = (i : ℤ) + 1 := by
    have : (m.values.map Prod.fst)[i]? = ((List.range J).map (fun i : ℕ => (i : ℤ) + 1))[i]? := by rw [hm.1]
    rw [List.getElem?_map, List.getElem?_eq_getElem hi, List.getElem?_map, List.getElem?_range (by omega)] at this
    simpa using this
  have hk' : (m'.values.get ⟨i, hi'⟩).1 = (i : ℤ) + 1 := by
    have : (m'.values.map Prod.fst)[i]? = ((List.range J).map (fun i : ℕ => (i : ℤ) + 1))[i]? := by rw [hm'.1]
    rw [List.getElem?_map, List.getElem?_eq_getElem hi', List.getElem?_map, List.getElem?_range (by omega)] at this
    simpa using this
  have hget : ∀ (k : ℕ) r, m.val? (i + 1) k r = ((m.values.get ⟨i, hi⟩).2[k]?).map fun row => row r := by
    intro k r
    have := dictGet_of_nodup (fun p : ℤ × Arr R => p.2) m.values hm.nodup _ (List.get_mem m.values ⟨i, hi⟩)
    have e : (m.values.map fun p => (p.1, p.2)) = m.values := by simp
    rw [e] at this
    rw [hk] at this
    unfold MRQ.val?
    push_cast
    rw [this]; rfl
  have hget' : ∀ (k : ℕ) r, m'.val? (i + 1) k r = ((m'.values.get ⟨i, hi'⟩).2[k]?).map fun row => row r := by
    intro k r
    have := dictGet_of_nodup (fun p : ℤ × Arr R => p.2) m'.values hm'.nodup _ (List.get_mem m'.values ⟨i, hi'⟩)
    have e : (m'.values.map fun p => (p.1, p.2)) = m'.values := by simp
    rw [e] at this
    rw [hk'] at this
    unfold MRQ.val?
    push_cast
    rw [this]; rfl
  refine ⟨by rw [hk, hk'], ?_⟩
  obtain ⟨a, ha⟩ : ∃ a : Arr R, a = (m.values.get ⟨i, hi⟩).2 := ⟨_, rfl⟩
  obtain ⟨b, hb⟩ : ∃ b : Arr R, b = (m'.values.get ⟨i, hi'⟩).2 := ⟨_, rfl⟩
  rw [← ha] at hget ⊢
  rw [← hb] at hget' ⊢
  have hrel : ∀ (k : ℕ) (r : Fin R), (a[k]?.map (fun row : Row R => row r) = none ∧ b[k]?.map (fun row : Row R => row r) = none) ∨
      ∃ u v, a[k]?.map (fun row : Row R => row r) = some u ∧ b[k]?.map (fun row : Row R => row r) = some v ∧ P u v := by
    intro k r
    rw [← hget, ← hget']
    exact h (i + 1) k r
  have hl : a.length = b.length := by
    have r0 : Fin R := ⟨0, Nat.pos_of_ne_zero hR⟩
    have key : ∀ k, k < a.length ↔ k < b.length := by
      intro k
      rcases hrel k r0 with ⟨h1, h2⟩ | ⟨u, v, h1, h2, -⟩
      · rw [Option.map_eq_none_iff, List.getElem?_eq_none_iff] at h1 h2
        omega
      · obtain ⟨_, h1, -⟩ := Option.map_eq_some_iff.1 h1
        obtain ⟨_, h2, -⟩ := Option.map_eq_some_iff.1 h2
        have := (List.getElem?_eq_some_iff.1 h1).1
        have := (List.getElem?_eq_some_iff.1 h2).1
        omega
    have k1 := key a.length
    have k2 := key b.length
    omega
  refine List.forall₂_iff_get.2 ⟨hl, fun k hk1 hk2 r => ?_⟩
  rcases hrel k r with ⟨h1, -⟩ | ⟨u, v, h1, h2, hP⟩
  · rw [List.getElem?_eq_getElem hk1] at h1; cases h1
  · rw [List.getElem?_eq_getElem hk1] at h1
    rw [List.getElem?_eq_getElem hk2] at h2
    simp only [Option.map_some, Option.some.injEq] at h1 h2
    rw [← h1, ← h2] at hP
    exact hP

/-- Every entry of a column is a value of the quantity. -/
theorem mem_col_val {m : MRQ R} {J : ℕ} (hm : Regular m J) {p : ℤ × Arr R} (hp : p ∈ m.values) {r : Fin R} {x : Fl} (hx : x ∈ col p.2 r) :
    ∃ s k : ℕ, m.val? s k r = some x := by
  obtain ⟨row, hrow, rfl⟩ := List.mem_map.1 hx
  obtain ⟨k, hk, e⟩ := List.getElem_of_mem hrow
  have hg := dictGet_of_nodup (fun p : ℤ × Arr R => p.2) m.values hm.nodup p hp
  have e1 : (m.values.map fun p => (p.1, p.2)) = m.values := by simp
  rw [e1] at hg
  have hr := hm.key_range hp
  refine ⟨p.1.toNat, k, ?_⟩
  unfold MRQ.val?
  rw [Int.toNat_of_nonneg (by omega), hg]
  simp only [Option.bind_some]
  rw [List.getElem?_eq_getElem hk, e]
  rfl

/-- No value of the quantity is 0. -/
def NoZeros (m : MRQ R) : Prop := ∀ s k r, m.val? s k r ≠ some (Fl.fin 0)

theorem nonzeroData_of {m : MRQ R} {J : ℕ} (hm : Regular m J) (hfin : ∀ s k r v, m.val? s k r = some v → v = Fl.nan ∨ ∃ t, v = Fl.fin t)
    (hcol : ∀ p ∈ m.values, ∀ r : Fin R, ∃ x ∈ col p.2 r, x ≠ Fl.nan) (h0 : NoZeros m) : NonzeroData m := by
  intro p hp r
  refine ⟨hcol p hp r, fun x hx => ?_⟩
  obtain ⟨s, k, hv⟩ := mem_col_val hm hp hx
  rcases hfin s k r x hv with h | ⟨t, rfl⟩
  · exact Or.inl h
  · exact Or.inr ⟨t, fun ht => h0 s k r (by rw [hv, ht]), rfl⟩

theorem finiteData_of {m : MRQ R} {J : ℕ} (hm : Regular m J) (hfin : ∀ s k r v, m.val? s k r = some v → v = Fl.nan ∨ ∃ t, v = Fl.fin t)
    (hcol : ∀ p ∈ m.values, ∀ r : Fin R, ∃ x ∈ col p.2 r, x ≠ Fl.nan) : FiniteData m := by
  intro p hp r
  refine ⟨hcol p hp r, fun x hx => ?_⟩
  obtain ⟨s, k, hv⟩ := mem_col_val hm hp hx
  exact hfin s k r x hv

theorem FiniteData.nonzero {m : MRQ R} {J : ℕ} (h : FiniteData m) (hm : Regular m J) (h0 : NoZeros m) : NonzeroData m := by
  intro p hp r
  refine ⟨(h p hp r).1, fun x hx => ?_⟩
  obtain ⟨s, k, hv⟩ := mem_col_val hm hp hx
  rcases (h p hp r).2 x hx with h | ⟨t, rfl⟩
  · exact Or.inl h
  · exact Or.inr ⟨t, fun ht => h0 s k r (by rw [hv, ht]), rfl⟩

theorem cols_not_nan {sig : Arr R} {p : PExp} {wt : Wavelet} {j1 : ℤ} {j2 : Option ℝ} {g nm : ℝ}
    {weighted : Bool} {w : WT R} (h : waveletAnalysis sig p wt j1 j2 g nm weighted = .ok w) (m : MRQ R)
    (hm : m = w.wt_coefs ∨ w.wt_leaders = some m ∧ p = .inf) : ∀ a ∈ m.values, ∀ r : Fin R, ∃ x ∈ col a.2 r, x ≠ Fl.nan := by
  intro a ha r
  have := (C04_three_values h m hm a ha).2 r
  have hpos : 0 < (col a.2 r).countP (fun x => !x.isNaN) := by omega
  obtain ⟨x, hx, hxn⟩ := List.countP_pos_iff.1 hpos
  exact ⟨x, hx, by rintro rfl; simp at hxn⟩

/-- The leaders of two signals whose coefficients are close. -/
theorem leaders_close {sig sig' : Arr R} {wt : Wavelet} {j1 : ℤ} {j2 : Option ℝ} {g nm : ℝ} {weighted : Bool} {w w' : WT R}
    (h : waveletAnalysis sig .inf wt j1 j2 g nm weighted = .ok w) (h' : waveletAnalysis sig' .inf wt j1 j2 g nm weighted = .ok w') {η : ℝ}
    (hc : ∀ s k r, (w.wt_coefs.val? s k r = none ∧ w'.wt_coefs.val? s k r = none) ∨
      ∃ a b, w.wt_coefs.val? s k r = some a ∧ w'.wt_coefs.val? s k r = some b ∧ EntryClose η a b)
    {l l' : MRQ R} (hl : w.wt_leaders = some l) (hl' : w'.wt_leaders = some l') {s k : ℕ} {r : Fin R} {v v' : Fl}
    (hv : l.val? s k r = some v) (hv' : l'.val? s k r = some v') : EntryClose η v v' := by
  obtain ⟨l0, e, h16⟩ := C16_leaders h
  rw [hl] at e; cases e
  obtain ⟨l0, e, h16'⟩ := C16_leaders h'
  rw [hl'] at e; cases e
  obtain ⟨a1, a2, a3, a4⟩ := h16 s k r v hv
  obtain ⟨b1, b2, b3, b4⟩ := h16' s k r v' hv'
  have hpair : ∀ j' k', InNbhd s k j' k' → ∃ a b, w.wt_coefs.val? j' k' r = some a ∧ w'.wt_coefs.val? j' k' r = some b ∧ EntryClose η a b := by
    intro j' k' hn
    rcases hc j' k' r with ⟨h1, -⟩ | h1
    · obtain ⟨d, hd⟩ := a1 j' k' hn
      rw [hd] at h1; cases h1
    · exact h1
  by_cases hnan : v = Fl.nan
  · refine Or.inl ⟨hnan, b2.2 fun j' k' hn => ?_⟩
    obtain ⟨a, b, e1, e2, e3⟩ := hpair j' k' hn
    have := a2.1 hnan j' k' hn
    rw [e1] at this
    cases this
    rw [e2, (e3.nan _ _).1 rfl]
  · have hnan' : v' ≠ Fl.nan := by
      intro hn'
      refine hnan (a2.2 fun j' k' hn => ?_)
      obtain ⟨a, b, e1, e2, e3⟩ := hpair j' k' hn
      have := b2.1 hn' j' k' hn
      rw [e2] at this
      cases this
      rw [e1, (e3.nan _ _).2 rfl]
    obtain ⟨j', k', d, hn, hd, hvd⟩ := a3 hnan
    obtain ⟨j'', k'', d'', hn'', hd'', hvd''⟩ := b3 hnan'
    obtain ⟨a, b, e1, e2, e3⟩ := hpair j' k' hn
    obtain ⟨a', b', e1', e2', e3'⟩ := hpair j'' k'' hn''
    rw [e1] at hd; cases hd
    rw [e2'] at hd''; cases hd''
    rcases e3 with ⟨rfl, -⟩ | ⟨t, u, rfl, rfl, htu⟩
    · exact absurd hvd hnan
    rcases e3' with ⟨-, rfl⟩ | ⟨t', u', rfl, rfl, htu'⟩
    · exact absurd hvd'' hnan'
    have k1 := b4 j' k' _ hn e2 (by simp)
    have k2 := a4 j'' k'' _ hn'' e1' (by simp)
    rw [hvd'', Fl.abs_fin, Fl.abs_fin] at k1
    rw [hvd, Fl.abs_fin, Fl.abs_fin] at k2
    have k1' : |u| ≤ |u'| := k1
    have k2' : |t'| ≤ |t| := k2
    refine Or.inr ⟨|t|, |u'|, hvd, hvd'', ?_⟩
    have m1 := abs_sub_abs_le_abs_sub t u
    have m2 := abs_sub_abs_le_abs_sub u' t'
    rw [abs_sub_comm] at m2
    rw [abs_le]
    constructor <;> linarith

/-- The largest Lipschitz constant of the first `K` scales. -/
def lipMax (wt : Wavelet) (g nm : ℝ) (K : ℕ) : ℝ := ∑ s ∈ Finset.range (K + 1), coefLip wt g nm s

theorem coefLip_le {wt : Wavelet} {g nm : ℝ} {K s : ℕ} (hs : s ≤ K) : coefLip wt g nm s ≤ lipMax wt g nm K :=
  Finset.single_le_sum (f := fun s => coefLip wt g nm s) (fun s _ => coefLip_nonneg wt g nm s) (Finset.mem_range.2 (by omega))

theorem val_scale {m : MRQ R} {J : ℕ} (hm : Regular m J) {s k : ℕ} {r : Fin R} {v : Fl} (h : m.val? s k r = some v) : s ≤ J := by
  unfold MRQ.val? at h
  obtain ⟨a, ha, -⟩ := Option.bind_eq_some_iff.1 h
  have : ((s : ℤ), a) ∈ m.values := mem_of_get? ha
  have h2 : (s : ℤ) ≤ J := (hm.key_range this).2
  exact_mod_cast h2

/-- The shape of the leaders. -/
theorem lead_shape {N : ℕ} {x : Fin R → ℤ → ℝ} {wt : Wavelet} {j1 : ℤ} {j2 : Option ℝ} {g nm : ℝ} {weighted : Bool} {w : WT R}
    (h : waveletAnalysis (sampled N x) .inf wt j1 j2 g nm weighted = .ok w) {l : MRQ R} (hl : w.wt_leaders = some l) :
    ∃ K, Regular l K ∧ l.gamint = g ∧ ∀ s k r, ((1 ≤ s ∧ s ≤ K ∧ k < N / 2 ^ s - 2) → ∃ v, l.val? s k r = some v) ∧
      (¬ (1 ≤ s ∧ s ≤ K ∧ k < N / 2 ^ s - 2) → l.val? s k r = none) := by
  obtain ⟨_, K, _, -, -, -, -, -, -, -, -, e⟩ := wa_inv h
  have el : l = scalesUpTo .leader g (leadSeq (wparams wt g nm) .inf (sampled N x)) K := Option.some.inj (hl.symm.trans e.1)
  clear hl e
  refine ⟨K, by rw [el]; exact scalesUpTo_regular _ _ _ _, by rw [el]; rfl, fun s k r => ?_⟩
  have hva := scalesUpTo_val .leader g (leadSeq (wparams wt g nm) .inf (sampled N x)) K s k r
  rw [leadSeq_length, sampled_length] at hva
  rw [el, hva]
  constructor
  · intro hc; rw [if_pos hc]; exact ⟨_, rfl⟩
  · intro hc; rw [if_neg hc]

/-- What two calls on signals of the same length share, and how close their coefficients and leaders are. -/
theorem wa_close {N : ℕ} {x x' : Fin R → ℤ → ℝ} (hR : R ≠ 0) {p : PExp} (hp : p = .none ∨ p = .inf) {wt : Wavelet} (hwt : wt.Valid) {j1 : ℤ}
    {j2 : Option ℝ} {g nm : ℝ} {weighted : Bool} {w w' : WT R} (h : waveletAnalysis (sampled N x) p wt j1 j2 g nm weighted = .ok w)
    (h' : waveletAnalysis (sampled N x') p wt j1 j2 g nm weighted = .ok w') {J Jc : ℕ} (hc : Regular w.wt_coefs Jc)
    (hl : ∀ l, w.wt_leaders = some l → p = .inf → Regular l J) {η η' : ℝ} (hη : 0 ≤ η) (hle : lipMax wt g nm Jc * η ≤ η')
    (hx : ∀ r (i : ℕ), i < N → |x r i - x' r i| ≤ η) :
    w'.j2_eff = w.j2_eff ∧ Regular w'.wt_coefs Jc ∧ MRQRelated (EntryClose η') w.wt_coefs w'.wt_coefs ∧
      ∀ l, w.wt_leaders = some l → ∃ l', w'.wt_leaders = some l' ∧ Regular l' J ∧ MRQRelated (EntryClose η') l l' := by
  have hind := C07_data_independent hR hR hwt hwt rfl h h'
  obtain ⟨-, hj, hk, -, hlk⟩ := hind
  have hlen : ∀ {m m' : MRQ R} {A B : ℕ}, Regular m A → Regular m' B → m.values.keys = m'.values.keys → B = A := by
    intro m m' A B hA hB hkk
    have h1 := congrArg List.length hA.1
    have h2 := congrArg List.length hB.1
    have h3 := congrArg List.length hkk
    simp only [Dict.keys, List.length_map, List.length_range] at h1 h2 h3
    omega
  obtain ⟨J2, Jc2, -, -, hc2, hl2⟩ := C03_regular h'
  have e := hlen hc hc2 hk
  subst e
  have hcl := coefs_close hR hwt h h' hx
  have hcl' : ∀ s k r, (w.wt_coefs.val? s k r = none ∧ w'.wt_coefs.val? s k r = none) ∨
      ∃ a b, w.wt_coefs.val? s k r = some a ∧ w'.wt_coefs.val? s k r = some b ∧ EntryClose η' a b := by
    intro s k r
    rcases hcl s k r with h1 | ⟨a, b, e1, e2, e3⟩
    · exact Or.inl h1
    · refine Or.inr ⟨a, b, e1, e2, e3.mono ?_⟩
      exact (mul_le_mul_of_nonneg_right (coefLip_le (val_scale hc e1)) hη).trans hle
  have hgc : w.wt_coefs.gamint = g ∧ w'.wt_coefs.gamint = g := by
    obtain ⟨_, _, _, -, -, -, -, -, e, -⟩ := wa_inv h
    obtain ⟨_, _, _, -, -, -, -, -, e', -⟩ := wa_inv h'
    rw [e, e']; exact ⟨rfl, rfl⟩
  refine ⟨hj.symm, hc2, related_of_val hR hc hc2 (by rw [hgc.1, hgc.2]) hcl', ?_⟩
  intro l hle'
  have hpi : p = .inf := by
    rcases hp with rfl | rfl
    · obtain ⟨_, _, _, -, -, -, -, -, -, -, -, e⟩ := wa_inv h
      rw [e.1] at hle'; cases hle'
    · rfl
  subst hpi
  obtain ⟨l', hle2, hkk, -⟩ := hlk l hle'
  have hlr := hl l hle' rfl
  have hlr' := hl2 l' hle2 rfl
  have e := hlen hlr hlr' hkk
  subst e
  refine ⟨l', hle2, hlr', ?_⟩
  refine related_of_val hR hlr hlr' ?_ fun s k r => ?_
  · obtain ⟨K, -, e1⟩ := lead_shape h hle'
    obtain ⟨K', -, e1'⟩ := lead_shape h' hle2
    rw [e1.1, e1'.1]
  · obtain ⟨K, hr1, e1⟩ := lead_shape h hle'
    obtain ⟨K', hr2, e1'⟩ := lead_shape h' hle2
    have a := hlen hr1 hlr rfl
    have b := hlen hr2 hlr' rfl
    have hKK : K' = K := by omega
    subst hKK
    have hva := e1.2 s k r
    have hvb := e1'.2 s k r
    by_cases hcond : 1 ≤ s ∧ s ≤ K' ∧ k < N / 2 ^ s - 2
    · obtain ⟨v, hv⟩ := hva.1 hcond
      obtain ⟨v', hv'⟩ := hvb.1 hcond
      exact Or.inr ⟨_, _, hv, hv', leaders_close h h' hcl' hle' hle2 hv hv'⟩
    · exact Or.inl ⟨hva.2 hcond, hvb.2 hcond⟩

/-- The continuity of the analysis, for a condition `Good` on the data and a notion `Cl ε m'` of closeness of the results that may mention the new data `m'`. -/
theorem signal_continuity {N : ℕ} {x : Fin R → ℤ → ℝ} (hR : R ≠ 0) {p : PExp} (hp : p = .none ∨ p = .inf) {wt : Wavelet} (hwt : wt.Valid) {j1 : ℕ}
    {j2 : Option ℝ} {g nm : ℝ} (hnm : nm ≠ 0) {weighted : Bool} {w : WT R} (h : waveletAnalysis (sampled N x) p wt j1 j2 g nm weighted = .ok w)
    (h1 : 1 ≤ j1) (h12 : (j1 : ℤ) < w.j2_eff) {q : List ℝ} (hq : (2:ℝ) ∈ q) (n : ℕ)
    (Good : MRQ R → Prop) (Cl : ℝ → MRQ R → MFVar R → MFVar R → Prop)
    (hest : ∀ (m : MRQ R) (A k2 : ℕ) (v : MFVar R), Regular m A → (∀ a ∈ m.values, a.2 ≠ []) → FiniteData m → Good m → j1 < k2 → k2 ≤ A →
      IsBundle m j1 k2 weighted n q v → ∀ ε : ℝ, 0 < ε → ∃ η : ℝ, 0 < η ∧ ∀ m' v', Regular m' A → MRQRelated (EntryClose η) m m' →
        IsBundle m' j1 k2 weighted n q v' → Cl ε m' v v') :
    ∃ d, mfAnalysisFull (sampled N x) j1 j2 nm g weighted wt p (some (.ndarray q)) n = .ok d ∧ ∀ ε : ℝ, 0 < ε → ∃ η : ℝ, 0 < η ∧
      ∀ x' : Fin R → ℤ → ℝ, (∀ r (i : ℕ), i < N → |x r i - x' r i| ≤ η) →
        ∃ d' w', mfAnalysisFull (sampled N x') j1 j2 nm g weighted wt p (some (.ndarray q)) n = .ok d' ∧
          waveletAnalysis (sampled N x') p wt j1 j2 g nm weighted = .ok w' ∧ w'.j2_eff = w.j2_eff ∧
          (Good w.wt_coefs → Cl ε w'.wt_coefs d.dwt d'.dwt) ∧
          ∀ l v, w.wt_leaders = some l → d.lwt = some v → Good l →
            ∃ l' v', w'.wt_leaders = some l' ∧ d'.lwt = some v' ∧ Cl ε l' v v' := by
  obtain ⟨J, Jc, hJc, hj2, hc, hl⟩ := C03_regular h
  obtain ⟨j2', hj2'⟩ := Int.eq_ofNat_of_zero_le (show 0 ≤ w.j2_eff by omega)
  have hjj : j1 < j2' := by rw [hj2'] at h12; exact_mod_cast h12
  have hj2J : j2' ≤ J := by rw [hj2'] at hj2; exact_mod_cast hj2
  have hj2c : j2' ≤ Jc := by rcases hJc with rfl | rfl <;> omega
  have hN : (sampled N x) ≠ [] := by
    intro he
    obtain ⟨ml, K, Kc, e, -⟩ := wa_inv h
    rw [he] at e
    simp [maxLevel] at e
  have hN0 : N ≠ 0 := by rintro rfl; exact hN rfl
  have hfinc : ∀ s k r v, w.wt_coefs.val? s k r = some v → v = Fl.nan ∨ ∃ t, v = Fl.fin t := by
    intro s k r v hv
    rcases coefs_close hR hwt h h (η := 0) (fun r i _ => by simp) s k r with ⟨e, -⟩ | ⟨a, b, e1, e2, e3⟩
    · rw [hv] at e; cases e
    · rw [hv] at e1; cases e1
      rcases e3 with ⟨e, -⟩ | ⟨s, t, e, -⟩
      · exact Or.inl e
      · exact Or.inr ⟨s, e⟩
  have hrowc := rows_ne_nil hR h _ (Or.inl rfl)
  obtain ⟨w0, hw0, htot⟩ := C48_total (sampled N x) p hp wt j1 j2 g nm weighted (some (.ndarray q)) n hR hN hnm
  rw [h] at hw0; cases hw0
  obtain ⟨d, hd, -⟩ := htot (by exact_mod_cast h1) h12.le hq
  refine ⟨d, hd, fun ε hε => ?_⟩
  have hd' := hd
  unfold mfAnalysisFull at hd'
  rw [h] at hd'
  simp only at hd'
  rw [C47_bundle] at hd'
  obtain ⟨hbc, hbl⟩ := hd'
  rw [hj2'] at hbc hbl
  have hnq : normQ (some (.ndarray q)) = q := rfl
  rw [hnq] at hbc hbl
  -- a modulus for the coefficients and one for the leaders
  have gen : ∀ (m : MRQ R) (A : ℕ) (v : MFVar R), Regular m A → j2' ≤ A → (∀ a ∈ m.values, a.2 ≠ []) → FiniteData m →
      IsBundle m j1 j2' weighted n q v → ∃ η : ℝ, 0 < η ∧ ∀ m' v', Regular m' A → MRQRelated (EntryClose η) m m' → IsBundle m' j1 j2' weighted n q v' →
        Good m → Cl ε m' v v' := by
    intro m A v hm hA hrow hfin hv
    by_cases hz : Good m
    · obtain ⟨η, hη, hh⟩ := hest m A j2' v hm hrow hfin hz hjj hA hv ε hε
      exact ⟨η, hη, fun m' v' hm' hrel hv' _ => hh m' v' hm' hrel hv'⟩
    · exact ⟨1, one_pos, fun _ _ _ _ _ h => absurd h hz⟩
  obtain ⟨η1, hη1, hc1⟩ := gen _ Jc _ hc hj2c hrowc (finiteData_of hc hfinc (cols_not_nan h _ (Or.inl rfl))) hbc
  obtain ⟨η2, hη2, hl1⟩ : ∃ η : ℝ, 0 < η ∧ ∀ l v, w.wt_leaders = some l → d.lwt = some v → ∀ m' v', Regular m' J → MRQRelated (EntryClose η) l m' →
      IsBundle m' j1 j2' weighted n q v' → Good l → Cl ε m' v v' := by
    cases hle : w.wt_leaders with
    | none => exact ⟨1, one_pos, by simp⟩
    | some l =>
      have hpi : p = .inf := by
        rcases hp with rfl | rfl
        · obtain ⟨_, _, _, -, -, -, -, -, -, -, -, e⟩ := wa_inv h
          rw [e.1] at hle; cases hle
        · rfl
      subst hpi
      have hbl' : ∃ v, d.lwt = some v ∧ IsBundle l j1 j2' weighted n q v := by rw [hle] at hbl; exact hbl
      obtain ⟨v, hdv, hv⟩ := hbl'
      have hlr := hl l hle rfl
      have hfinl : ∀ s k r v, l.val? s k r = some v → v = Fl.nan ∨ ∃ t, v = Fl.fin t := by
        intro s k r v hv
        have hself : ∀ s k r, (w.wt_coefs.val? s k r = none ∧ w.wt_coefs.val? s k r = none) ∨
            ∃ a b, w.wt_coefs.val? s k r = some a ∧ w.wt_coefs.val? s k r = some b ∧ EntryClose 0 a b := by
          intro s k r
          rcases hcv : w.wt_coefs.val? s k r with _ | a
          · exact Or.inl ⟨rfl, rfl⟩
          · refine Or.inr ⟨a, a, rfl, rfl, ?_⟩
            rcases hfinc s k r a hcv with e | ⟨t, e⟩
            · exact Or.inl ⟨e, e⟩
            · exact Or.inr ⟨t, t, e, e, by simp⟩
        rcases leaders_close h h hself hle hle hv hv with ⟨e, -⟩ | ⟨s, t, e, -⟩
        · exact Or.inl e
        · exact Or.inr ⟨s, e⟩
      obtain ⟨η, hη, hh⟩ := gen l J v hlr hj2J (rows_ne_nil hR h _ (Or.inr ⟨hle, rfl⟩))
        (finiteData_of hlr hfinl (cols_not_nan h _ (Or.inr ⟨hle, rfl⟩))) hv
      refine ⟨η, hη, fun l' v' e1 e2 => ?_⟩
      cases e1
      rw [hdv] at e2; cases e2
      exact hh
  have hL : 0 ≤ lipMax wt g nm Jc := Finset.sum_nonneg fun s _ => coefLip_nonneg wt g nm s
  refine ⟨min η1 η2 / (lipMax wt g nm Jc + 1), by positivity, fun x' hx' => ?_⟩
  have hle : lipMax wt g nm Jc * (min η1 η2 / (lipMax wt g nm Jc + 1)) ≤ min η1 η2 := by
    rw [← mul_div_assoc, div_le_iff₀ (by positivity)]
    have : 0 < min η1 η2 := by positivity
    nlinarith
  have hN' : (sampled N x') ≠ [] := by
    intro he
    have := congrArg List.length he
    rw [sampled_length] at this
    exact hN0 this
  obtain ⟨w', hw', htot'⟩ := C48_total (sampled N x') p hp wt j1 j2 g nm weighted (some (.ndarray q)) n hR hN' hnm
  obtain ⟨hj', hc', hrel, hlead⟩ := wa_close hR hp hwt h hw' hc hl (by positivity) hle hx'
  obtain ⟨d', hdd', -⟩ := htot' (by exact_mod_cast h1) (by rw [hj']; exact h12.le) hq
  refine ⟨d', w', hdd', hw', hj', ?_⟩
  unfold mfAnalysisFull at hdd'
  rw [hw'] at hdd'
  simp only at hdd'
  rw [C47_bundle, hj'] at hdd'
  obtain ⟨hbc', hbl'⟩ := hdd'
  rw [hj2', hnq] at hbc' hbl'
  have mono : ∀ {m m' : MRQ R} {a : ℝ}, min η1 η2 ≤ a → MRQRelated (EntryClose (min η1 η2)) m m' → MRQRelated (EntryClose a) m m' := by
    intro m m' a ha hr
    exact ⟨hr.1, hr.2.imp fun _ _ h => ⟨h.1, h.2.imp fun _ _ h r => (h r).mono ha⟩⟩
  refine ⟨fun hz => hc1 _ _ hc' (mono (min_le_left _ _) hrel) hbc' hz, ?_⟩
  intro l v hle' hdv hz
  obtain ⟨l', hll', hreg', hrel'⟩ := hlead l hle'
  rw [hll'] at hbl'
  obtain ⟨v', hdv', hv'⟩ := hbl'
  exact ⟨l', v', hll', hdv', hl1 l v hle' hdv l' v' hreg' (mono (min_le_right _ _) hrel') hv' hz⟩

/-- **C121, the analysis is continuous in the signal.**  Let `mf_analysis_full` be called with coefficients only or with wavelet leaders, on a signal
`x` for which at least two scales are analysed.  For every `ε` there is `η` such that on every signal whose samples are within `η` of those of `x` the call
returns, and: if no wavelet coefficient of `x` is 0, all the estimates from coefficients are within `ε` of those of `x`; if no leader of `x` is 0, so
are all the estimates from leaders. -/
theorem C121_signal {N : ℕ} {x : Fin R → ℤ → ℝ} (hR : R ≠ 0) {p : PExp} (hp : p = .none ∨ p = .inf) {wt : Wavelet} (hwt : wt.Valid) {j1 : ℕ}
    {j2 : Option ℝ} {g nm : ℝ} (hnm : nm ≠ 0) {weighted : Bool} {w : WT R} (h : waveletAnalysis (sampled N x) p wt j1 j2 g nm weighted = .ok w)
    (h1 : 1 ≤ j1) (h12 : (j1 : ℤ) < w.j2_eff) {q : List ℝ} (hq : (2:ℝ) ∈ q) (n : ℕ) :
    ∃ d, mfAnalysisFull (sampled N x) j1 j2 nm g weighted wt p (some (.ndarray q)) n = .ok d ∧ ∀ ε : ℝ, 0 < ε → ∃ η : ℝ, 0 < η ∧
      ∀ x' : Fin R → ℤ → ℝ, (∀ r (i : ℕ), i < N → |x r i - x' r i| ≤ η) →
        ∃ d', mfAnalysisFull (sampled N x') j1 j2 nm g weighted wt p (some (.ndarray q)) n = .ok d' ∧
          (NoZeros w.wt_coefs → ∀ r, EstimatesClose ε q.length n r d.dwt d'.dwt) ∧
          ∀ l v, w.wt_leaders = some l → d.lwt = some v → NoZeros l →
            ∃ v', d'.lwt = some v' ∧ ∀ r, EstimatesClose ε q.length n r v v' := by
  have hest : ∀ (m : MRQ R) (A k2 : ℕ) (v : MFVar R), Regular m A → (∀ a ∈ m.values, a.2 ≠ []) → FiniteData m → NoZeros m → j1 < k2 → k2 ≤ A →
      IsBundle m j1 k2 weighted n q v → ∀ ε : ℝ, 0 < ε → ∃ η : ℝ, 0 < η ∧ ∀ m' v', Regular m' A → MRQRelated (EntryClose η) m m' →
        IsBundle m' j1 k2 weighted n q v' → ∀ r, EstimatesClose ε q.length n r v v' := by
    intro m A k2 v hm hrow hfin hz hjj hA hv ε hε
    obtain ⟨v0, hv0, hcont⟩ := C121_estimators hm hrow (hfin.nonzero hm hz) h1 hjj hA weighted q hq n
    obtain ⟨η, hη, hh⟩ := hcont ε hε
    refine ⟨η, hη, fun m' v' hm' hrel hv' r => ?_⟩
    obtain ⟨v1, hv1, hcl⟩ := hh m' hm' hrel
    have e0 := (mfVar_ok_iff _ _ _ _ _ _ _).2 hv0
    have e1 := (mfVar_ok_iff _ _ _ _ _ _ _).2 hv
    have e2 := (mfVar_ok_iff _ _ _ _ _ _ _).2 hv1
    have e3 := (mfVar_ok_iff _ _ _ _ _ _ _).2 hv'
    rw [e0] at e1; cases e1
    rw [e2] at e3; cases e3
    exact hcl r
  obtain ⟨d, hd, H⟩ := signal_continuity hR hp hwt hnm h h1 h12 hq n NoZeros (fun ε _ v v' => ∀ r, EstimatesClose ε q.length n r v v') hest
  refine ⟨d, hd, fun ε hε => ?_⟩
  obtain ⟨η, hη, H⟩ := H ε hε
  refine ⟨η, hη, fun x' hx' => ?_⟩
  obtain ⟨d', w', hd', -, -, a, b⟩ := H x' hx'
  refine ⟨d', hd', a, fun l v e1 e2 e3 => ?_⟩
  obtain ⟨l', v', -, c1, c2⟩ := b l v e1 e2 e3
  exact ⟨v', c1, c2⟩

/-- C121: no leader is 0 when no coefficient is. -/
theorem C121_leaders_nonzero {sig : Arr R} {wt : Wavelet} {j1 : ℤ} {j2 : Option ℝ} {g nm : ℝ} {weighted : Bool} {w : WT R}
    (h : waveletAnalysis sig .inf wt j1 j2 g nm weighted = .ok w) (h0 : NoZeros w.wt_coefs) {l : MRQ R} (hl : w.wt_leaders = some l) :
    NoZeros l := by
  obtain ⟨l0, e, h16⟩ := C16_leaders h
  rw [hl] at e; cases e
  intro s k r hv
  obtain ⟨-, -, a3, -⟩ := h16 s k r _ hv
  obtain ⟨j', k', d, -, hd, hvd⟩ := a3 (by simp)
  cases d with
  | nan => cases hvd
  | pinf => cases hvd
  | ninf => cases hvd
  | fin t =>
    rw [Fl.abs_fin, Fl.fin_inj] at hvd
    rw [abs_eq_zero.1 hvd.symm] at hd
    exact h0 _ _ _ hd

theorem noZeros_of_mono {m : MRQ R} {J : ℕ} (hm : Regular m J) {K H : Fin R → ℝ} (hK : ∀ r, 0 < K r) (h : Monofractal m K H) : NoZeros m := by
  intro s k r hv
  unfold MRQ.val? at hv
  obtain ⟨a, ha, ha2⟩ := Option.bind_eq_some_iff.1 hv
  have hmem := mem_of_get? ha
  obtain ⟨row, hrow, hr⟩ := Option.map_eq_some_iff.1 ha2
  rcases (h _ hmem r).2 (Fl.fin 0) (List.mem_map.2 ⟨row, List.mem_of_getElem? hrow, hr⟩) with e | e
  · cases e
  · obtain ⟨t, e1, e2⟩ := e
    have hp := hK r
    rw [Fl.fin_inj] at e1
    rw [← e1, abs_zero] at e2
    have : 0 < K r * (2:ℝ) ^ ((((s : ℤ), a).1 : ℝ) * H r) := by positivity
    linarith

/-- The hypotheses of `C121_signal` and `C121_leaders_nonzero` are met: 64 samples of `3 t + 1` with wavelet leaders, the Haar filters padded with zeros to length
4; no coefficient and no leader is 0. -/
example : ∃ w : WT 1, waveletAnalysis (sampled 64 fun (_ : Fin 1) t => (Polynomial.C 3 * Polynomial.X + Polynomial.C 1 : Polynomial ℝ).eval (t : ℝ)) .inf
      { dec_lo := [0, (Real.sqrt 2)⁻¹, (Real.sqrt 2)⁻¹, 0], dec_hi := [0, -(Real.sqrt 2)⁻¹, (Real.sqrt 2)⁻¹, 0] } (1 : ℕ) none 0 1 true = .ok w ∧
    ((1 : ℕ) : ℤ) < w.j2_eff ∧ NoZeros w.wt_coefs ∧ ∃ l, w.wt_leaders = some l ∧ NoZeros l := by
  obtain ⟨wt, hwt⟩ : ∃ wt : Wavelet, wt = { dec_lo := [0, (Real.sqrt 2)⁻¹, (Real.sqrt 2)⁻¹, 0], dec_hi := [0, -(Real.sqrt 2)⁻¹, (Real.sqrt 2)⁻¹, 0] } :=
    ⟨_, rfl⟩
  rw [← hwt]
  have h : (Real.sqrt 2) ≠ 0 := (Real.sqrt_pos.mpr (by norm_num)).ne'
  have hv : wt.Valid := ⟨by rw [hwt]; rfl, by simp [hwt]⟩
  have hM : ExactMoments wt.dec_hi 1 := by
    constructor
    · intro i hi
      interval_cases i
      simp [hwt, Finset.sum_range_succ]
    · simp [hwt, Finset.sum_range_succ, List.getD]
      rw [show -(Real.sqrt 2)⁻¹ + (Real.sqrt 2)⁻¹ * 2 = (Real.sqrt 2)⁻¹ by ring]
      exact inv_ne_zero h
  have hlo : wt.dec_lo.sum = Real.sqrt 2 := by
    simp only [hwt, List.sum_cons, List.sum_nil, add_zero, zero_add]
    field_simp
    rw [Real.sq_sqrt (by norm_num)]; norm_num
  have hlev : decompositionLevel 64 wt = .ok ((3 : ℕ) : ℤ) :=
    (C01_integer 64 3 _ (by norm_num)).mpr (by simp [hwt])
  have hdeg : ∀ r : Fin 1, (Polynomial.C 3 * Polynomial.X + Polynomial.C 1 : Polynomial ℝ).degree = (1 : ℕ) := fun _ => Polynomial.degree_linear (by norm_num)
  obtain ⟨w, hw⟩ := C05_total (sampled 64 fun (_ : Fin 1) t => (Polynomial.C 3 * Polynomial.X + Polynomial.C 1 : Polynomial ℝ).eval (t : ℝ)) .inf (Or.inr rfl) wt
    (1 : ℕ) none 0 1 true (by norm_num) (by simp [sampled]) (by norm_num)
  have hj : 2 ≤ w.j2_eff := admissible_j2 (j1 := 2) (by norm_num) hv (Or.inr (by simp [hwt])) hlev (by norm_num)
      (by norm_num) (by simp) hw
  obtain ⟨J, Jc, -, -, hc, -⟩ := C03_regular hw
  obtain ⟨K, hK, hmono⟩ := poly_monofractal hv hM (Real.sqrt_pos.mpr (by norm_num)) hlo hdeg hw
  have h0 := noZeros_of_mono hc hK hmono
  obtain ⟨l, hl, -⟩ := C16_leaders hw
  exact ⟨w, hw, by push_cast; omega, h0, l, hl, C121_leaders_nonzero hw h0 hl⟩

/-- The hypotheses of `C121_estimators` and `C122_relative` are met: `demo`, and `demo` with its last entry multiplied by `e^θ`. -/
example (θ : ℝ) : Regular demo 2 ∧ (∀ p ∈ demo.values, p.2 ≠ []) ∧ NonzeroData demo ∧
    Regular (demo.addValues [fun _ => Fl.fin 8, fun _ => Fl.fin (3 * Real.exp θ)] 2) 2 ∧
    MRQRelated (EntryRelClose |θ|) demo (demo.addValues [fun _ => Fl.fin 8, fun _ => Fl.fin (3 * Real.exp θ)] 2) := by
  have hv : (demo.addValues [fun _ => Fl.fin 8, fun _ => Fl.fin (3 * Real.exp θ)] 2).values =
      [(1, [fun _ => Fl.fin 1, fun r => if r = 0 then Fl.fin (-2) else Fl.nan, fun _ => Fl.fin 4]),
       (2, [fun _ => Fl.fin 8, fun _ => Fl.fin (3 * Real.exp θ)])] := by
    simp [demo, MRQ.addValues, MRQ.empty, Dict.set]
  have hself : ∀ t : ℝ, EntryRelClose |θ| (Fl.fin t) (Fl.fin t) := fun t => Or.inr ⟨t, 0, rfl, by simp, by simp⟩
  refine ⟨demo_regular, demo_rows, demo_nonzero, ⟨?_, ?_⟩, rfl, ?_⟩
  · rw [hv]; simp [List.range_succ]
  · rw [hv]; simp [demo, MRQ.addValues, MRQ.empty, Dict.set]
  · rw [hv, demo_values]
    simp only [List.forall₂_cons, List.forall₂_nil_left_iff, and_true, true_and]
    refine ⟨⟨fun r => hself _, fun r => ?_, fun r => hself _⟩, fun r => hself _, fun r => Or.inr ⟨3, θ, rfl, rfl, le_rfl⟩⟩
    split
    · exact hself _
    · exact Or.inl ⟨rfl, rfl⟩

end

end MFA
