import Verif.Lemmas.Stats
import Verif.Props.Demo

/-! Properties C39-C42: `Cumulants`. -/

namespace MFA

open Classical Finset

variable {R : ℕ} {m : MRQ R} {J : ℕ} {j1 j2 : ℤ}

/-- The logarithms of the moduli of the (finite, non-zero) entries of a column, NaN entries left out. -/
noncomputable def logsOf (c : List Fl) : List ℝ :=
  c.filterMap fun x => match x with
    | Fl.fin t => some (Real.log |t|)
    | _ => none

private theorem logsOf_entries {c : List Fl} {xs : List ℝ} (h : Entries c xs)
    (hf : ∀ x ∈ c, x = Fl.nan ∨ ∃ t : ℝ, x = Fl.fin t) : logsOf c = xs.map fun x => Real.log |x| := by
  induction c generalizing xs with
  | nil =>
    have : xs = [] := by
      have := h; simp only [Entries, dropNaN_nil] at this
      exact List.map_eq_nil_iff.mp this.symm
    rw [this]; rfl
  | cons a c ih =>
    have hf' : ∀ x ∈ c, x = Fl.nan ∨ ∃ t : ℝ, x = Fl.fin t := fun x hx => hf x (by simp [hx])
    rcases hf a (by simp) with rfl | ⟨t, rfl⟩
    · rw [← ih (xs := xs) h hf']; rfl
    · unfold Entries at h
      rw [dropNaN_cons_of (by simp)] at h
      cases xs with
      | nil => cases h
      | cons y ys =>
        rw [List.map_cons, List.cons.injEq, Fl.fin_inj] at h
        rw [List.map_cons, ← ih (xs := ys) h.2 hf', h.1]; rfl

private theorem logsOf_finite {c : List Fl} (hd : (∃ x ∈ c, x ≠ Fl.nan) ∧
    ∀ x ∈ c, x = Fl.nan ∨ ∃ t : ℝ, t ≠ 0 ∧ x = Fl.fin t) :
    logsOf c ≠ [] ∧ dropNaN (c.map fun x => x.abs.ln) = (logsOf c).map Fl.fin := by
  obtain ⟨⟨x, hx, hxn⟩, hf⟩ := hd
  have hf' : ∀ x ∈ c, x = Fl.nan ∨ ∃ t : ℝ, x = Fl.fin t := fun x hx => (hf x hx).imp_right (fun ⟨t, _, e⟩ => ⟨t, e⟩)
  obtain ⟨xs, hxs⟩ := dropNaN_eq_map_fin (l := c) (fun y hy hyn => (hf' y hy).resolve_left hyn)
  have hE : Entries c xs := hxs
  have h0 : ∀ x ∈ xs, x ≠ 0 := by
    intro x hx
    rcases hf _ (hE.mem' hx) with h | ⟨t, ht, e⟩
    · exact absurd h (by simp)
    · rw [Fl.fin_inj] at e; rwa [e]
  rw [logsOf_entries hE hf']
  refine ⟨?_, hE.logs h0⟩
  obtain ⟨t, ht, _⟩ := hE.mem hx hxn
  intro h
  rw [List.map_eq_nil_iff] at h
  rw [h] at ht; cases ht

/-- The value stored by `Cumulants` for order `i+1`, scale number `k`, realisation `r`. -/
noncomputable def cumAt (c : Cumulants R) (i k : ℕ) (r : Fin R) : Option Fl :=
  (c.values[i]?.bind fun a => a[k]?).map fun row => row r

private theorem cumAt_eq (hm : Regular m J) (h1 : 1 ≤ j1) (h12 : j1 ≤ j2) (h2 : j2 ≤ J) (weighted : Bool) (n : ℕ) :
    ∃ c, Cumulants.make m n j1 j2 weighted = .ok c ∧ ∀ i < n, ∀ (k : ℕ) (p : ℤ × Arr R), m.values[k]? = some p →
      ∀ r, cumAt c i k r = some ((cmColumn ((col p.2 r).map fun x => x.abs.ln) n).getD i Fl.nan) := by
  refine ⟨_, hm.cumulants h1 h12 h2 weighted n, fun i hi k p hk r => ?_⟩
  simp [cumAt, cmValues, hi, hk, logAbsCol]

/-- C40: the cumulant of order `i+1` is the derivative of order `i+1` at 0 of the logarithm of the empirical moment
generating function of the logs of the moduli, for every order, scale and realisation. -/
theorem C40_cumulants_are_cgf_derivatives (hm : Regular m J) (hd : NonzeroData m) (h1 : 1 ≤ j1) (h12 : j1 ≤ j2)
    (h2 : j2 ≤ J) (weighted : Bool) (n : ℕ) :
    ∃ c, Cumulants.make m n j1 j2 weighted = .ok c ∧ ∀ i < n, ∀ (k : ℕ) (p : ℤ × Arr R), m.values[k]? = some p →
      ∀ r, cumAt c i k r = some (Fl.fin (iteratedDeriv (i + 1) (empCGF (logsOf (col p.2 r))) 0)) := by
  obtain ⟨c, hc, h⟩ := cumAt_eq hm h1 h12 h2 weighted n
  refine ⟨c, hc, fun i hi k p hk r => ?_⟩
  obtain ⟨hne, hl⟩ := logsOf_finite (hd p (List.mem_of_getElem? hk) r)
  rw [h i hi k p hk r, cmColumn_getD hl hne hi]; rfl

theorem sum_central {ls : List ℝ} (hl : ls ≠ []) :
    kap ls 2 = centralMoment ls 2 ∧ kap ls 3 = centralMoment ls 3 := by
  have hlen : (ls.length : ℝ) ≠ 0 := by
    have : 0 < ls.length := List.length_pos_iff.mpr hl
    exact_mod_cast this.ne'
  have k1 : kap ls 1 = mom ls 1 := by rw [kap_rec ls hl 0]; simp
  have k2 : kap ls 2 = mom ls 2 - mom ls 1 * mom ls 1 := by
    rw [kap_rec ls hl 1]; simp [k1]
  have k3 : kap ls 3 = mom ls 3 - (mom ls 1 * mom ls 2 + 2 * (mom ls 2 - mom ls 1 * mom ls 1) * mom ls 1) := by
    rw [kap_rec ls hl 2]
    simp [Finset.sum_range_succ, k1, k2]
  set μ := mean ls with hμ
  have hm1 : mom ls 1 = μ := mom_one ls
  have s1 : (ls.map fun l => l ^ 1).sum = ls.length * mom ls 1 := by unfold mom; field_simp
  have s2 : (ls.map fun l => l ^ 2).sum = ls.length * mom ls 2 := by unfold mom; field_simp
  have s3 : (ls.map fun l => l ^ 3).sum = ls.length * mom ls 3 := by unfold mom; field_simp
  constructor
  · have e : (ls.map fun l => (l - μ) ^ 2) = ls.map fun l => l ^ 2 + ((-2 * μ) * l ^ 1 + μ ^ 2) := by
      apply List.map_congr_left; intro l _; ring
    rw [centralMoment, ← hμ, e, List.sum_map_add, List.sum_map_add, List.sum_map_mul_left, s1, s2, k2, hm1]
    simp only [List.map_const', List.sum_replicate, nsmul_eq_mul]
    field_simp; ring
  · have e : (ls.map fun l => (l - μ) ^ 3)
        = ls.map fun l => l ^ 3 + ((-3 * μ) * l ^ 2 + ((3 * μ ^ 2) * l ^ 1 + (- μ ^ 3))) := by
      apply List.map_congr_left; intro l _; ring
    rw [centralMoment, ← hμ, e, List.sum_map_add, List.sum_map_add, List.sum_map_add, List.sum_map_mul_left,
      List.sum_map_mul_left, s1, s2, s3, k3, hm1]
    simp only [List.map_const', List.sum_replicate, nsmul_eq_mul]
    field_simp; ring

/-- C39: C_1 is the mean, C_2 the variance (hence ≥ 0), C_3 the third central moment of the logs. -/
theorem C39_first_cumulants (hm : Regular m J) (hd : NonzeroData m) (h1 : 1 ≤ j1) (h12 : j1 ≤ j2)
    (h2 : j2 ≤ J) (weighted : Bool) (n : ℕ) (hn : 3 ≤ n) :
    ∃ c, Cumulants.make m n j1 j2 weighted = .ok c ∧ ∀ (k : ℕ) (p : ℤ × Arr R), m.values[k]? = some p → ∀ r,
      cumAt c 0 k r = some (Fl.fin (mean (logsOf (col p.2 r)))) ∧
      cumAt c 1 k r = some (Fl.fin (centralMoment (logsOf (col p.2 r)) 2)) ∧
      0 ≤ centralMoment (logsOf (col p.2 r)) 2 ∧
      cumAt c 2 k r = some (Fl.fin (centralMoment (logsOf (col p.2 r)) 3)) := by
  obtain ⟨c, hc, h⟩ := C40_cumulants_are_cgf_derivatives hm hd h1 h12 h2 weighted n
  refine ⟨c, hc, fun k p hk r => ?_⟩
  obtain ⟨hne, hl⟩ := logsOf_finite (hd p (List.mem_of_getElem? hk) r)
  obtain ⟨c2, c3⟩ := sum_central hne
  refine ⟨?_, ?_, ?_, ?_⟩
  · rw [h 0 (by omega) k p hk r]; congr 2; exact kap_one hne
  · rw [h 1 (by omega) k p hk r]; congr 2
  · unfold centralMoment
    apply div_nonneg _ (Nat.cast_nonneg _)
    apply List.sum_nonneg
    intro x hx
    obtain ⟨y, _, rfl⟩ := List.mem_map.mp hx
    positivity
  · rw [h 2 (by omega) k p hk r]; congr 2

/-- One column `c`: multiplying by `a` adds ln|a| to C_1 and leaves the other cumulants unchanged; raising the moduli to the
power `s` multiplies C_m by s^m. -/
private theorem cum_shift_and_homogeneity (c : List Fl) (hne : ∃ x ∈ c, x ≠ Fl.nan)
    (hf : ∀ x ∈ c, x = Fl.nan ∨ ∃ t : ℝ, t ≠ 0 ∧ x = Fl.fin t) (n : ℕ) (a s : ℝ) (ha : a ≠ 0) (hs : s ≠ 0) :
    ∃ C : ℕ → ℝ,
      (∀ i < n, (cmColumn (c.map fun x => x.abs.ln) n).getD i Fl.nan = Fl.fin (C i)) ∧
      (∀ i < n, (cmColumn ((c.map fun x => Fl.fin a * x).map fun x => x.abs.ln) n).getD i Fl.nan
        = Fl.fin (C i + if i = 0 then Real.log |a| else 0)) ∧
      (∀ i < n, (cmColumn ((c.map fun x => x.abs.pow s).map fun x => x.abs.ln) n).getD i Fl.nan
        = Fl.fin (s ^ (i + 1) * C i)) := by
  have hf' : ∀ x ∈ c, x = Fl.nan ∨ ∃ t : ℝ, x = Fl.fin t := fun x hx => (hf x hx).imp_right (fun ⟨t, _, e⟩ => ⟨t, e⟩)
  obtain ⟨xs, hxs⟩ := dropNaN_eq_map_fin (l := c) (fun y hy hyn => (hf' y hy).resolve_left hyn)
  have hE : Entries c xs := hxs
  have h0 : ∀ x ∈ xs, x ≠ 0 := by
    intro x hx
    rcases hf _ (hE.mem' hx) with h | ⟨t, ht, e⟩
    · exact absurd h (by simp)
    · rw [Fl.fin_inj] at e; rwa [e]
  have hxne : xs ≠ [] := by
    obtain ⟨x, hx, hxn⟩ := hne
    obtain ⟨t, ht, _⟩ := hE.mem hx hxn
    rintro rfl; cases ht
  have hls := hE.logs h0
  refine ⟨fun i => kap (xs.map fun x => Real.log |x|) (i + 1), fun i hi => cmColumn_getD hls (by simp [hxne]) hi,
    fun i hi => ?_, fun i hi => ?_⟩
  · have he' := hE.scale ha
    have hls' := he'.logs (fun x hx => by
      obtain ⟨y, hy, rfl⟩ := List.mem_map.mp hx; exact mul_ne_zero ha (h0 y hy))
    rw [cmColumn_getD hls' (by simp [hxne]) hi]
    congr 1
    have e : (xs.map (a * ·)).map (fun x => Real.log |x|)
        = (xs.map fun x => Real.log |x|).map (· + Real.log |a|) := by
      rw [List.map_map, List.map_map]
      apply List.map_congr_left
      intro x hx
      simp only [Function.comp_apply]
      rw [abs_mul, Real.log_mul (abs_ne_zero.mpr ha) (abs_ne_zero.mpr (h0 x hx)), add_comm]
    rw [e, kap_shift (by simp [hxne])]
  · have hpow : ∀ t : ℝ, t ≠ 0 → (Fl.fin t).abs.pow s = Fl.fin (|t| ^ s) := by
      intro t ht
      have h1 : 0 < |t| := abs_pos.mpr ht
      simp only [Fl.abs_fin, Fl.pow, hs, h1.ne', h1, true_or, if_true, if_false]
    have he' : Entries (c.map fun x => x.abs.pow s) (xs.map fun x => |x| ^ s) := by
      unfold Entries
      rw [dropNaN_map_of (by simp [Fl.pow, hs]), hxs, List.map_map, List.map_map]
      · apply List.map_congr_left; intro x hx; exact hpow x (h0 x hx)
      · intro x hx hxn
        obtain ⟨t, ht, rfl⟩ := hE.mem hx hxn
        rw [hpow t (h0 t ht)]; simp
    have hls' := he'.logs (fun x hx => by
      obtain ⟨y, hy, rfl⟩ := List.mem_map.mp hx
      exact (Real.rpow_pos_of_pos (abs_pos.mpr (h0 y hy)) s).ne')
    rw [cmColumn_getD hls' (by simp [hxne]) hi]
    congr 1
    have e : (xs.map fun x => |x| ^ s).map (fun x => Real.log |x|)
        = (xs.map fun x => Real.log |x|).map (s * ·) := by
      rw [List.map_map, List.map_map]
      apply List.map_congr_left
      intro x hx
      simp only [Function.comp_apply]
      rw [abs_of_pos (Real.rpow_pos_of_pos (abs_pos.mpr (h0 x hx)) s), Real.log_rpow (abs_pos.mpr (h0 x hx))]
    rw [e, kap_scale (by simp [hxne])]

/-- The quantity with every value replaced by the power `s` of its modulus. -/
noncomputable def powBy (s : ℝ) (m : MRQ R) : MRQ R :=
  { m with values := m.values.map fun p => (p.1, mapArr (fun x => x.abs.pow s) p.2) }

private theorem powBy_regular (hm : Regular m J) (hd : NonzeroData m) {s : ℝ} (hs : s ≠ 0) : Regular (powBy s m) J := by
  constructor
  · show List.map Prod.fst (m.values.map _) = _
    rw [List.map_map]; exact hm.1
  · show m.nj = List.map _ (m.values.map _)
    rw [hm.2, List.map_map]
    apply List.map_congr_left
    intro p hp
    simp only [Function.comp_apply, Prod.mk.injEq, true_and]
    funext r
    rw [col_mapArr]
    unfold countNotNaN
    rw [dropNaN_map_of (by simp [Fl.pow, hs]), List.length_map]
    intro x hx hxn
    rcases (hd p hp r).2 x hx with h | ⟨t, ht, rfl⟩
    · exact absurd h hxn
    · have h1 : 0 < |t| := abs_pos.mpr ht
      simp [Fl.abs_fin, Fl.pow, hs, h1.ne', h1]

/-- C41: multiplying the data at scale `j` by `a j ≠ 0` adds ln|a j| to C_1(j) and leaves the other cumulants unchanged;
replacing the data by the power `s ≠ 0` of their moduli multiplies C_m(j) by s^m.  At every scale, in every realisation. -/
theorem C41_values (hm : Regular m J) (hd : NonzeroData m) (h1 : 1 ≤ j1) (h12 : j1 ≤ j2) (h2 : j2 ≤ J)
    (weighted : Bool) (n : ℕ) (a : ℤ → ℝ) (ha : ∀ j : ℤ, 1 ≤ j → j ≤ J → a j ≠ 0) (s : ℝ) (hs : s ≠ 0) :
    ∃ c c' c'', Cumulants.make m n j1 j2 weighted = .ok c ∧
      Cumulants.make (scaleBy a m) n j1 j2 weighted = .ok c' ∧
      Cumulants.make (powBy s m) n j1 j2 weighted = .ok c'' ∧
      ∀ i < n, ∀ (k : ℕ) (p : ℤ × Arr R), m.values[k]? = some p → ∀ r, ∃ C : ℝ,
        cumAt c i k r = some (Fl.fin C) ∧
        cumAt c' i k r = some (Fl.fin (C + if i = 0 then Real.log |a p.1| else 0)) ∧
        cumAt c'' i k r = some (Fl.fin (s ^ (i + 1) * C)) := by
  have ha' : ∀ p ∈ m.values, a p.1 ≠ 0 := fun p hp => ha p.1 (hm.key_range hp).1 (hm.key_range hp).2
  obtain ⟨c, hc, e⟩ := cumAt_eq hm h1 h12 h2 weighted n
  obtain ⟨c', hc', e'⟩ := cumAt_eq (hm.scaleBy ha') h1 h12 h2 weighted n
  obtain ⟨c'', hc'', e''⟩ := cumAt_eq (powBy_regular hm hd hs) h1 h12 h2 weighted n
  refine ⟨c, c', c'', hc, hc', hc'', fun i hi k p hk r => ?_⟩
  have hp := List.mem_of_getElem? hk
  obtain ⟨C, a1, a2, a3⟩ := cum_shift_and_homogeneity (col p.2 r) (hd p hp r).1 (hd p hp r).2 n (a p.1) s (ha' p hp) hs
  refine ⟨C i, ?_, ?_, ?_⟩
  · rw [e i hi k p hk r, a1 i hi]
  · rw [e' i hi k (p.1, mapArr (fun x => Fl.fin (a p.1) * x) p.2) (by simp [scaleBy, hk]) r, col_mapArr, a2 i hi]
  · rw [e'' i hi k (p.1, mapArr (fun x => x.abs.pow s) p.2) (by simp [powBy, hk]) r, col_mapArr, a3 i hi]

example : Regular demo 2 ∧ NonzeroData demo := ⟨demo_regular, demo_nonzero⟩

/-! ### C42 -/

private theorem maskEq_m {α : Type} (n : ℕ) (v : ℕ) (a : List α) (ha : a.length = n) :
    maskEq ((List.range n).map fun i => ((i + 1 : ℕ) : ℝ)) (v : ℝ) a
      = if 1 ≤ v then (a[v - 1]?).toList else [] := by
  subst ha
  unfold maskEq
  have key : ∀ (a : List α) (s : ℕ), (((((List.range a.length).map fun i => ((i + s + 1 : ℕ) : ℝ)).zip a).filter
      (fun p => p.1 = (v : ℝ))).map Prod.snd) = if s + 1 ≤ v then (a[v - 1 - s]?).toList else [] := by
    intro a
    induction a with
    | nil => intro s; simp
    | cons x a ih =>
      intro s
      rw [List.length_cons, List.range_succ_eq_map, List.map_cons, List.map_map, List.zip_cons_cons, List.filter_cons]
      have h' : (List.range a.length).map ((fun i => ((i + s + 1 : ℕ) : ℝ)) ∘ Nat.succ)
          = (List.range a.length).map fun i => ((i + (s + 1) + 1 : ℕ) : ℝ) := by
        apply List.map_congr_left; intro i _; simp only [Function.comp_apply]; congr 1; omega
      rw [h']
      by_cases hv : s + 1 = v
      · have : (((0 + s + 1 : ℕ) : ℝ) = (v : ℝ)) := by rw [← hv]; congr 1; omega
        simp only [this, decide_true, if_true, List.map_cons, ih (s + 1)]
        rw [if_neg (by omega), if_pos (by omega), show v - 1 - s = 0 by omega]; simp
      · have : ¬ (((0 + s + 1 : ℕ) : ℝ) = (v : ℝ)) := by
          intro h; apply hv; have : (0 + s + 1 : ℕ) = v := by exact_mod_cast h
          omega
        simp only [this, decide_false, Bool.false_eq_true, if_false, ih (s + 1)]
        by_cases hle : s + 1 ≤ v
        · rw [if_pos (by omega), if_pos hle, show v - 1 - s = (v - 1 - (s + 1)) + 1 by omega]; simp
        · rw [if_neg (by omega), if_neg hle]
  simpa using key a 0

private theorem mapE_index {α β : Type} (f : α → Except PyErr β) : ∀ (l : List α) (l' : List β), mapE f l = .ok l' →
    l'.length = l.length ∧ ∀ (i : ℕ) (a : α), l[i]? = some a → ∃ b, f a = .ok b ∧ l'[i]? = some b
  | [], l', h => by
    simp only [mapE, Except.ok.injEq] at h
    subst h; exact ⟨rfl, fun i a h => by simp at h⟩
  | a :: l, l', h => by
    rw [mapE] at h
    split at h
    · cases h
    · rename_i b hb
      split at h
      · cases h
      · rename_i bs hbs
        injection h with h
        subst h
        obtain ⟨h1, h2⟩ := mapE_index f l bs hbs
        refine ⟨by simp [h1], fun i a' hi => ?_⟩
        cases i with
        | zero => simp only [List.getElem?_cons_zero, Option.some.injEq] at hi ⊢; subst hi; exact ⟨b, hb, rfl⟩
        | succ i => simpa using h2 i a' (by simpa using hi)

/-- Digits as characters. -/
private theorem digit_cases (v : ℕ) (hv : v ≤ 9) : (Char.ofNat (48 + v)).isDigit = true ∧
    (Char.ofNat (48 + v)).toNat - '0'.toNat = v := by
  have : v = 0 ∨ v = 1 ∨ v = 2 ∨ v = 3 ∨ v = 4 ∨ v = 5 ∨ v = 6 ∨ v = 7 ∨ v = 8 ∨ v = 9 := by omega
  rcases this with rfl | rfl | rfl | rfl | rfl | rfl | rfl | rfl | rfl | rfl <;> decide

/-- C42: `c{v}` / `C{v}` return the row / block of order `v` when 1 ≤ v ≤ n_cumul and an empty array otherwise; `M` is
`-c2`; every name that is neither `M` nor a letter c/C followed by one digit raises; `log_cumulants` and
`var_log_cumulants` are the regression slopes and variances times log2(e) and log2(e)^2. -/
theorem C42_accessors (n : ℕ) (weighted : Bool) (c : Cumulants R)
    (hc : Cumulants.make m n j1 j2 weighted = .ok c) :
    (∀ v ≤ 9, c.getattr ['c', Char.ofNat (48 + v)]
        = .ok (.rows (if 1 ≤ v then (c.log_cumulants[v - 1]?).toList else []))) ∧
    (∀ v ≤ 9, c.getattr ['C', Char.ofNat (48 + v)]
        = .ok (.blocks (if 1 ≤ v then (c.values[v - 1]?).toList else []))) ∧
    c.getattr ['M'] = .ok (.rows ((c.log_cumulants[1]?).toList.map fun row r => -(row r))) ∧
    (∀ name, (∀ v ≤ 9, name ≠ ['c', Char.ofNat (48 + v)] ∧ name ≠ ['C', Char.ofNat (48 + v)]) → name ≠ ['M'] →
        c.getattr name = .error (if name = [] then .indexError else .attributeError)) ∧
    c.log_cumulants.length = n ∧ c.values.length = n ∧
    (∃ w, regWeights m.nj j1 j2 weighted = .ok w ∧ ∀ (i : ℕ) (v : Arr R), c.values[i]? = some v →
      ∃ g, linearRegression (tileScales R j1 j2) (pySlice v (j1 - 1) j2) w = .ok g ∧
        c.slope[i]? = some g.slope ∧ c.intercept[i]? = some g.intercept ∧
        c.log_cumulants[i]? = some (fun r => g.slope r * Fl.fin (Real.logb 2 (Real.exp 1))) ∧
        c.var_log_cumulants[i]? = some (fun r => Fl.fin (Real.logb 2 (Real.exp 1) ^ 2) * g.var r)) := by
  have hlen : c.n_cumul = n ∧ c.log_cumulants.length = n ∧ c.values.length = n ∧
      (∃ w, regWeights m.nj j1 j2 weighted = .ok w ∧ ∀ (i : ℕ) (v : Arr R), c.values[i]? = some v →
      ∃ g, linearRegression (tileScales R j1 j2) (pySlice v (j1 - 1) j2) w = .ok g ∧
        c.slope[i]? = some g.slope ∧ c.intercept[i]? = some g.intercept ∧
        c.log_cumulants[i]? = some (fun r => g.slope r * Fl.fin (Real.logb 2 (Real.exp 1))) ∧
        c.var_log_cumulants[i]? = some (fun r => Fl.fin (Real.logb 2 (Real.exp 1) ^ 2) * g.var r)) := by
    unfold Cumulants.make at hc
    split at hc
    · cases hc
    · simp only at hc
      split at hc
      · cases hc
      · rename_i w hw
        split at hc
        · cases hc
        · rename_i regs hregs
          injection hc with hc
          subst hc
          obtain ⟨hl, hi⟩ := mapE_index _ _ _ hregs
          simp only [cmValues, List.length_map, List.length_range] at hl
          refine ⟨rfl, by simp [hl], by simp [cmValues], w, hw, fun i v hv => ?_⟩
          obtain ⟨g, hg, hgi⟩ := hi i v hv
          refine ⟨g, hg, ?_, ?_, ?_, ?_⟩ <;> simp [hgi, log2e]
  obtain ⟨hn, hl1, hl2, hl3⟩ := hlen
  have hmm : c.m = (List.range n).map fun i => ((i + 1 : ℕ) : ℝ) := by rw [Cumulants.m, hn]
  refine ⟨?_, ?_, ?_, ?_, hl1, hl2, hl3⟩
  · intro v hv
    obtain ⟨d1, d2⟩ := digit_cases v hv
    simp only [Cumulants.getattr, d1, if_true, d2, hmm, maskEq_m n v _ hl1]
  · intro v hv
    obtain ⟨d1, d2⟩ := digit_cases v hv
    simp only [Cumulants.getattr, d1, if_true, d2, hmm, maskEq_m n v _ hl2]
  · have h2 := maskEq_m n 2 _ hl1
    simp only [Nat.cast_ofNat] at h2
    simp only [Cumulants.getattr, hmm, h2]; rfl
  · intro name hname hM
    have hdig : ∀ d : Char, d.isDigit = true → ∃ v ≤ 9, d = Char.ofNat (48 + v) := by
      intro d hd
      have hd' : 48 ≤ d.toNat ∧ d.toNat ≤ 57 := by
        simp only [Char.isDigit, ge_iff_le, Bool.and_eq_true, decide_eq_true_eq] at hd
        exact ⟨hd.1, hd.2⟩
      refine ⟨d.toNat - 48, by omega, ?_⟩
      rw [show 48 + (d.toNat - 48) = d.toNat by omega, Char.ofNat_toNat]
    unfold Cumulants.getattr
    split
    · rename_i d
      split
      · rename_i hd
        obtain ⟨v, hv, rfl⟩ := hdig d hd
        exact absurd rfl (hname v hv).1
      · simp
    · rename_i d
      split
      · rename_i hd
        obtain ⟨v, hv, rfl⟩ := hdig d hd
        exact absurd rfl (hname v hv).2
      · simp
    · exact absurd rfl hM
    · simp
    · rename_i h
      rw [if_neg (fun e => h e)]

example (weighted : Bool) : ∃ c, Cumulants.make demo 3 1 2 weighted = .ok c :=
  ⟨_, demo_regular.cumulants (by norm_num) (by norm_num) (by norm_num) weighted 3⟩

end MFA
