import Verif.Lemmas.BiCumulants
import Verif.Lemmas.Stats
import Verif.Spec.Bivariate

/-!
# Closed forms for pairs of quantities with one realisation
-/

namespace MFA

open Classical

/-! ### The table of one scale -/

section table
variable (ls : List (Fl × Fl)) (n : ℕ)

theorem bcTable_left : IsCum (fun m => bcMoment ls m 0) (fun m => (bcTable ls n).values m 0) n := by
  intro m h1 h2
  have h := (bcTable_inv ls n).eq (m, 0) (mem_bcOrder.2 ⟨h2, Nat.zero_le _⟩)
  unfold BcEq at h
  simp only at h
  rw [if_neg (by omega), if_neg (by omega), if_pos ⟨trivial, h1⟩] at h
  exact h

theorem bcTable_right : IsCum (fun m => bcMoment ls 0 m) (fun m => (bcTable ls n).values 0 m) n := by
  intro m h1 h2
  have h := (bcTable_inv ls n).eq (0, m) (mem_bcOrder.2 ⟨Nat.zero_le _, h2⟩)
  unfold BcEq at h
  simp only at h
  rw [if_neg (by omega), if_pos ⟨trivial, h1⟩] at h
  exact h

theorem bcTable_one_one (hn : 1 ≤ n) : (bcTable ls n).values 1 1 =
    bcMoment ls 1 1 - (bcTable ls n).values 1 0 * (bcTable ls n).values 0 1 := by
  have h := (bcTable_inv ls n).eq (1, 1) (mem_bcOrder.2 ⟨hn, hn⟩)
  unfold BcEq at h
  simp only at h
  simpa using h

theorem bcTable_zero (a b : ℕ) (h : (a = 0 ∧ b = 0) ∨ (1 ≤ a ∧ 1 ≤ b ∧ ¬ (a = 1 ∧ b = 1)) ∨ n < a ∨ n < b) :
    (bcTable ls n).values a b = Fl.fin 0 := by
  by_cases hin : (a, b) ∈ bcOrder n
  · have h' := (bcTable_inv ls n).eq (a, b) hin
    rw [mem_bcOrder] at hin
    unfold BcEq at h'
    simp only at h' hin
    rw [if_neg (by omega), if_neg (by omega), if_neg (by omega)] at h'
    exact h'
  · exact (bcTable_inv ls n).out (a, b) hin

theorem bcMoment_swap (a b : ℕ) : bcMoment (ls.map Prod.swap) a b = bcMoment ls b a := by
  unfold bcMoment
  rw [List.map_map]
  congr 1
  apply List.map_congr_left
  intro p _
  exact Fl.mul_comm _ _

theorem bcTable_swap (a b : ℕ) : (bcTable (ls.map Prod.swap) n).values a b = (bcTable ls n).values b a := by
  have hl : ∀ m, 1 ≤ m → m ≤ n → (bcTable (ls.map Prod.swap) n).values m 0 = (bcTable ls n).values 0 m :=
    IsCum.unique (bcTable_left (ls.map Prod.swap) n) (bcTable_right ls n) (fun m _ _ => bcMoment_swap ls m 0)
  have hr : ∀ m, 1 ≤ m → m ≤ n → (bcTable (ls.map Prod.swap) n).values 0 m = (bcTable ls n).values m 0 :=
    IsCum.unique (bcTable_right (ls.map Prod.swap) n) (bcTable_left ls n) (fun m _ _ => bcMoment_swap ls 0 m)
  by_cases hz : (a = 0 ∧ b = 0) ∨ (1 ≤ a ∧ 1 ≤ b ∧ ¬ (a = 1 ∧ b = 1)) ∨ n < a ∨ n < b
  · rw [bcTable_zero _ _ _ _ hz, bcTable_zero _ _ _ _ (by omega)]
  · rcases Nat.eq_zero_or_pos a with rfl | ha
    · exact hr b (by omega) (by omega)
    · rcases Nat.eq_zero_or_pos b with rfl | hb
      · exact hl a (by omega) (by omega)
      · obtain ⟨rfl, rfl⟩ : a = 1 ∧ b = 1 := by omega
        rw [bcTable_one_one _ _ (by omega), bcTable_one_one _ _ (by omega), bcMoment_swap,
          hl 1 le_rfl (by omega), hr 1 le_rfl (by omega), Fl.mul_comm]

theorem fastPower_zero_mul {x y : Fl} (h : x = Fl.nan ↔ y = Fl.nan) (e : Expo) :
    fastPower e x * fastPower (.real 0) y = fastPower e x := by
  by_cases hy : y = Fl.nan
  · rw [h.2 hy, hy, fastPower_nan, Fl.nan_mul]
  · rw [fastPower_zero_of hy, Fl.mul_comm]
    exact Fl.one_mul _

theorem bcMoment_left (h : ∀ p ∈ ls, (p.1 = Fl.nan ↔ p.2 = Fl.nan)) (m : ℕ) :
    bcMoment ls m 0 = cmMoment (ls.map Prod.fst) m := by
  unfold bcMoment cmMoment
  rw [List.map_map]
  congr 1
  apply List.map_congr_left
  intro p hp
  simp only [Function.comp_apply, Nat.cast_zero]
  exact fastPower_zero_mul (h p hp) _

/-- The first column of the table is the univariate column. -/
theorem bcTable_left_eq (h : ∀ p ∈ ls, (p.1 = Fl.nan ↔ p.2 = Fl.nan)) {m : ℕ} (h1 : 1 ≤ m) (h2 : m ≤ n) :
    (bcTable ls n).values m 0 = (cmColumn (ls.map Prod.fst) n).getD (m - 1) Fl.nan :=
  IsCum.unique (bcTable_left ls n) (cmColumn_isCum (ls.map Prod.fst) n) (fun m _ _ => bcMoment_left ls h m) m h1 h2

theorem bcTable_right_eq (h : ∀ p ∈ ls, (p.1 = Fl.nan ↔ p.2 = Fl.nan)) {m : ℕ} (h1 : 1 ≤ m) (h2 : m ≤ n) :
    (bcTable ls n).values 0 m = (cmColumn (ls.map Prod.snd) n).getD (m - 1) Fl.nan := by
  rw [← bcTable_swap, bcTable_left_eq _ _ _ h1 h2, List.map_map]
  · rfl
  · intro p hp
    obtain ⟨q, hq, rfl⟩ := List.mem_map.1 hp
    exact (h q hq).symm

end table

/-! ### Jointly finite pairs -/

/-- The pairs without NaN are the real pairs `zs`. -/
def JointIs (ls : List (Fl × Fl)) (zs : List (ℝ × ℝ)) : Prop :=
  ls.filter (fun p => !p.1.isNaN && !p.2.isNaN) = zs.map fun z => (Fl.fin z.1, Fl.fin z.2)

theorem JointIs.dropNaN {ls : List (Fl × Fl)} {zs : List (ℝ × ℝ)} (h : JointIs ls zs) (f : Fl × Fl → Fl) (g : ℝ × ℝ → ℝ)
    (hn : ∀ p : Fl × Fl, (p.1 = Fl.nan ∨ p.2 = Fl.nan) → f p = Fl.nan)
    (hf : ∀ z : ℝ × ℝ, z ∈ zs → f (Fl.fin z.1, Fl.fin z.2) = Fl.fin (g z)) :
    MFA.dropNaN (ls.map f) = (zs.map g).map Fl.fin := by
  unfold JointIs at h
  induction ls generalizing zs with
  | nil =>
    have : zs = [] := by simpa using h.symm
    subst this; rfl
  | cons p ls ih =>
    rw [List.map_cons]
    by_cases hp : p.1 = Fl.nan ∨ p.2 = Fl.nan
    · rw [hn p hp, dropNaN_cons_nan]
      apply ih _ hf
      rw [List.filter_cons_of_neg] at h
      · exact h
      · rcases hp with hp | hp <;> simp [hp]
    · rw [not_or] at hp
      rw [List.filter_cons_of_pos (by
        have h1 := (Fl.not_isNaN_iff _).2 hp.1
        have h2 := (Fl.not_isNaN_iff _).2 hp.2
        simp [h1, h2])] at h
      cases zs with
      | nil => cases h
      | cons z zs =>
        rw [List.map_cons, List.cons.injEq] at h
        rw [h.1, hf z (by simp), dropNaN_cons_of (by simp), List.map_cons, List.map_cons,
          ih h.2 (fun z hz => hf z (by simp [hz]))]

theorem JointIs.nanmean {ls : List (Fl × Fl)} {zs : List (ℝ × ℝ)} (h : JointIs ls zs) (hz : zs ≠ [])
    (f : Fl × Fl → Fl) (g : ℝ × ℝ → ℝ) (hn : ∀ p : Fl × Fl, (p.1 = Fl.nan ∨ p.2 = Fl.nan) → f p = Fl.nan)
    (hf : ∀ z : ℝ × ℝ, z ∈ zs → f (Fl.fin z.1, Fl.fin z.2) = Fl.fin (g z)) :
    MFA.nanmean (ls.map f) = Fl.fin (mean (zs.map g)) := by
  rw [← nanmean_dropNaN, h.dropNaN f g hn hf, nanmean_map_fin (by simpa using hz)]
  simp [mean]

theorem prod_nan (e1 e2 : Expo) (p : Fl × Fl) (h : p.1 = Fl.nan ∨ p.2 = Fl.nan) :
    fastPower e1 p.1 * fastPower e2 p.2 = Fl.nan := by
  rcases h with h | h <;> rw [h, fastPower_nan] <;> simp

theorem JointIs.bcMoment {ls : List (Fl × Fl)} {zs : List (ℝ × ℝ)} (h : JointIs ls zs) (hz : zs ≠ []) (a b : ℕ) :
    bcMoment ls a b = Fl.fin (mean (zs.map fun z => z.1 ^ a * z.2 ^ b)) := by
  unfold MFA.bcMoment
  apply h.nanmean hz
  · exact prod_nan _ _
  · intro z _
    rw [fastPower_nat, fastPower_nat, Fl.fin_mul]

theorem JointIs.left {ls : List (Fl × Fl)} {zs : List (ℝ × ℝ)} (h : JointIs ls zs) (hz : zs ≠ []) {n m : ℕ}
    (h1 : 1 ≤ m) (h2 : m ≤ n) : (bcTable ls n).values m 0 = Fl.fin (kap (zs.map Prod.fst) m) := by
  have hd : MFA.dropNaN ((zs.map Prod.fst).map Fl.fin) = (zs.map Prod.fst).map Fl.fin := dropNaN_map_fin _
  have hne : zs.map Prod.fst ≠ [] := by simpa using hz
  have := IsCum.unique (bcTable_left ls n) (cmColumn_isCum ((zs.map Prod.fst).map Fl.fin) n) (fun m _ _ => by
    rw [h.bcMoment hz, cmMoment_fin hd hne]
    simp [mom, mean, Function.comp_def]) m h1 h2
  rw [this, cmColumn_getD hd hne (by omega)]
  congr 2; omega

theorem JointIs.swap {ls : List (Fl × Fl)} {zs : List (ℝ × ℝ)} (h : JointIs ls zs) :
    JointIs (ls.map Prod.swap) (zs.map Prod.swap) := by
  unfold JointIs at *
  rw [List.filter_map, List.map_map]
  have : ((fun p : Fl × Fl => !p.1.isNaN && !p.2.isNaN) ∘ Prod.swap) = fun p : Fl × Fl => !p.1.isNaN && !p.2.isNaN := by
    funext p; simp [Bool.and_comm]
  rw [this, h, List.map_map]; rfl

theorem JointIs.right {ls : List (Fl × Fl)} {zs : List (ℝ × ℝ)} (h : JointIs ls zs) (hz : zs ≠ []) {n m : ℕ}
    (h1 : 1 ≤ m) (h2 : m ≤ n) : (bcTable ls n).values 0 m = Fl.fin (kap (zs.map Prod.snd) m) := by
  rw [← bcTable_swap, h.swap.left (by simpa using hz) h1 h2, List.map_map]; rfl

theorem cov_eq {zs : List (ℝ × ℝ)} (hz : zs ≠ []) :
    cov zs = mean (zs.map fun z => z.1 * z.2) - mean (zs.map Prod.fst) * mean (zs.map Prod.snd) := by
  have hl : (zs.length : ℝ) ≠ 0 := by
    have : 0 < zs.length := List.length_pos_iff.mpr hz
    exact_mod_cast this.ne'
  unfold cov
  generalize ha : mean (zs.map Prod.fst) = a
  generalize hb : mean (zs.map Prod.snd) = b
  have ha' : (zs.map Prod.fst).sum = a * zs.length := by
    rw [← ha, mean, List.length_map, div_mul_cancel₀ _ hl]
  have hb' : (zs.map Prod.snd).sum = b * zs.length := by
    rw [← hb, mean, List.length_map, div_mul_cancel₀ _ hl]
  have key : ∀ l : List (ℝ × ℝ), (l.map fun z => (z.1 - a) * (z.2 - b)).sum =
      (l.map fun z => z.1 * z.2).sum - b * (l.map Prod.fst).sum - a * (l.map Prod.snd).sum + a * b * l.length := by
    intro l
    induction l with
    | nil => simp
    | cons z l ih => simp only [List.map_cons, List.sum_cons, ih, List.length_cons]; push_cast; ring
  rw [key, ha', hb', mean, List.length_map]
  field_simp
  ring

theorem JointIs.one_one {ls : List (Fl × Fl)} {zs : List (ℝ × ℝ)} (h : JointIs ls zs) (hz : zs ≠ []) {n : ℕ}
    (hn : 1 ≤ n) : (bcTable ls n).values 1 1 = Fl.fin (cov zs) := by
  rw [bcTable_one_one _ _ hn, h.left hz le_rfl hn, h.right hz le_rfl hn, h.bcMoment hz, kap_one (by simpa using hz),
    kap_one (by simpa using hz), Fl.fin_mul, Fl.fin_sub, cov_eq hz]
  simp

/-! ### Pairs of quantities -/

section paired
variable {m1 m2 : MRQ 1} {J : ℕ}

/-- The scales of the two quantities, side by side. -/
noncomputable def biList (m1 m2 : MRQ 1) : List ((ℤ × Arr 1) × (ℤ × Arr 1)) := m1.values.zip m2.values

/-- The pairs of values at one scale. -/
noncomputable def biPairs (q : (ℤ × Arr 1) × (ℤ × Arr 1)) : List (Fl × Fl) := (col q.1.2 0).zip (col q.2.2 0)

noncomputable def biSub (m1 m2 : MRQ 1) (j1 j2 : ℤ) : List ((ℤ × Arr 1) × (ℤ × Arr 1)) :=
  pySlice (biList m1 m2) (j1 - 1) j2

theorem flat_one (a : Arr 1) : flat a = col a 0 := by
  unfold flat col
  induction a with
  | nil => rfl
  | cons x a ih =>
    rw [List.flatMap_cons, ih, List.map_cons]
    simp

theorem Paired.length (h : Paired m1 m2 J) : m1.values.length = m2.values.length := h.rows.length_eq

theorem Paired.fst (h : Paired m1 m2 J) : (biList m1 m2).map Prod.fst = m1.values :=
  List.map_fst_zip (le_of_eq h.length)

theorem Paired.snd (h : Paired m1 m2 J) : (biList m1 m2).map Prod.snd = m2.values :=
  List.map_snd_zip (le_of_eq h.length.symm)

theorem Paired.keys (h : Paired m1 m2 J) {q : (ℤ × Arr 1) × (ℤ × Arr 1)} (hq : q ∈ biList m1 m2) : q.1.1 = q.2.1 := by
  have e : (biList m1 m2).map (fun q => q.1.1) = (biList m1 m2).map (fun q => q.2.1) := by
    have h1 : (biList m1 m2).map (fun q => q.1.1) = m1.values.map Prod.fst := by
      rw [← h.fst, List.map_map]; rfl
    have h2 : (biList m1 m2).map (fun q => q.2.1) = m2.values.map Prod.fst := by
      rw [← h.snd, List.map_map]; rfl
    rw [h1, h2, h.reg1.1, h.reg2.1]
  rw [List.map_inj_left] at e
  exact e q hq

theorem Paired.counts (h : Paired m1 m2 J) {q : (ℤ × Arr 1) × (ℤ × Arr 1)} (hq : q ∈ biList m1 m2) :
    countNotNaN (col q.1.2 0) = countNotNaN (col q.2.2 0) := by
  have e : (biList m1 m2).map (fun q => (q.1.1, fun r => countNotNaN (col q.1.2 r))) =
      (biList m1 m2).map (fun q => (q.2.1, fun r => countNotNaN (col q.2.2 r))) := by
    have h1 : (biList m1 m2).map (fun q => (q.1.1, fun r => countNotNaN (col q.1.2 r))) = m1.nj := by
      rw [h.reg1.2, ← h.fst, List.map_map]; rfl
    have h2 : (biList m1 m2).map (fun q => (q.2.1, fun r => countNotNaN (col q.2.2 r))) = m2.nj := by
      rw [h.reg2.2, ← h.snd, List.map_map]; rfl
    rw [h1, h2, h.nj]
  rw [List.map_inj_left] at e
  have := (Prod.ext_iff.1 (e q hq)).2
  exact congrFun this 0

theorem Paired.len {q : (ℤ × Arr 1) × (ℤ × Arr 1)} (h : Paired m1 m2 J) (hq : q ∈ biList m1 m2) :
    q.1.2.length = q.2.2.length := by
  obtain ⟨_, hz⟩ := List.forall₂_iff_zip.1 h.rows
  exact hz (a := q.1) (b := q.2) hq

theorem Paired.swap (h : Paired m1 m2 J) : Paired m2 m1 J :=
  ⟨h.reg2, h.reg1, h.formalism.symm, h.gamint.symm, h.nj.symm, by
    have := h.rows.flip
    exact this.imp (fun _ _ e => e.symm)⟩

theorem Paired.mem1 (h : Paired m1 m2 J) {q : (ℤ × Arr 1) × (ℤ × Arr 1)} (hq : q ∈ biList m1 m2) : q.1 ∈ m1.values := by
  rw [← h.fst]; exact List.mem_map_of_mem hq

theorem Paired.mem2 (h : Paired m1 m2 J) {q : (ℤ × Arr 1) × (ℤ × Arr 1)} (hq : q ∈ biList m1 m2) : q.2 ∈ m2.values := by
  rw [← h.snd]; exact List.mem_map_of_mem hq

theorem mapE_map_ok {α β κ : Type} (f : α → Except PyErr β) (g : κ → α) (k : κ → β) (l : List κ)
    (h : ∀ q ∈ l, f (g q) = .ok (k q)) : mapE f (l.map g) = .ok (l.map k) := by
  induction l with
  | nil => rfl
  | cons q l ih =>
    rw [List.map_cons, mapE, h q (by simp), ih (fun q' hq' => h q' (by simp [hq']))]
    rfl

theorem pairUp_eq {R : ℕ} {a b : Arr R} (h : a.length = b.length) : pairUp a b = .ok ((flat a).zip (flat b)) := by
  unfold pairUp
  rw [if_pos h]

theorem Paired.pairScales (h : Paired m1 m2 J) : pairScales m1 m2 = .ok ((biList m1 m2).map biPairs) := by
  unfold MFA.pairScales
  conv_lhs => rw [← h.fst]
  apply mapE_map_ok
  intro q hq
  rw [h.keys hq, h.reg2.getValue (h.mem2 hq)]
  simp only
  rw [pairUp_eq (h.len hq), flat_one, flat_one]
  rfl

theorem dictGet_self {α : Type} (d : Dict α) (hd : (d.map Prod.fst).Nodup) {p : ℤ × α} (hp : p ∈ d) :
    Dict.get? d p.1 = some p.2 := by
  have := dictGet_of_nodup (fun p : ℤ × α => p.2) d hd p hp
  simpa using this

theorem njEq_self (a : Dict (Fin 1 → ℕ)) (ha : (a.map Prod.fst).Nodup) (same : Bool) : njEq same a a = .ok true := by
  unfold njEq
  cases same with
  | true => rfl
  | false =>
    rw [if_neg (by simp), if_neg (by simp)]
    have : ∀ l : Dict (Fin 1 → ℕ), (∀ p ∈ l, p ∈ a) → njEqLoop a l = .ok true := by
      intro l
      induction l with
      | nil => intro _; rfl
      | cons p l ih =>
        intro hl
        obtain ⟨j, v⟩ := p
        have hg := dictGet_self a ha (hl (j, v) (by simp))
        unfold njEqLoop
        simp only at hg
        rw [hg]
        simp only [arrEqTruth, if_true, decide_true]
        exact ih (fun q hq => hl q (by simp [hq]))
    exact this a (fun _ h => h)

theorem Paired.njEq (h : Paired m1 m2 J) (same : Bool) : MFA.njEq same m1.nj m2.nj = .ok true := by
  rw [← h.nj]
  apply njEq_self
  rw [h.reg1.2, List.map_map]
  exact h.reg1.nodup

theorem biWeights_one (nj : Dict (Fin 1 → ℕ)) (j1 j2 : ℤ) (weighted : Bool) :
    biWeights nj j1 j2 weighted = regWeights nj j1 j2 weighted := by
  unfold biWeights regWeights getNjInterv
  cases weighted with
  | false => rfl
  | true =>
    simp only [if_true]
    cases getNjRows nj j1 j2 with
    | error e => rfl
    | ok l => cases l with
      | nil => rfl
      | cons a l => rfl

variable {j1 j2 : ℤ}

theorem Paired.sub_fst (h : Paired m1 m2 J) : subR m1 j1 j2 = (biSub m1 m2 j1 j2).map Prod.fst := by
  unfold subR biSub
  rw [← pySlice_map, h.fst]

theorem Paired.sub_snd (h : Paired m1 m2 J) : subR m2 j1 j2 = (biSub m1 m2 j1 j2).map Prod.snd := by
  unfold subR biSub
  rw [← pySlice_map, h.snd]

theorem biSub_mem {q : (ℤ × Arr 1) × (ℤ × Arr 1)} (hq : q ∈ biSub m1 m2 j1 j2) : q ∈ biList m1 m2 := by
  unfold biSub pySlice at hq
  exact List.mem_of_mem_take (List.mem_of_mem_drop hq)

/-- Slope over the common scales of a curve. -/
noncomputable def biSlope (m1 m2 : MRQ 1) (j1 j2 : ℤ) (weighted : Bool) (f : (ℤ × Arr 1) × (ℤ × Arr 1) → Fl) : Fl :=
  slopeL (biSub m1 m2 j1 j2) (fun q => (q.1.1 : ℝ)) (fun q => wtOf weighted q.1 0) f

noncomputable def biInter (m1 m2 : MRQ 1) (j1 j2 : ℤ) (weighted : Bool) (f : (ℤ × Arr 1) × (ℤ × Arr 1) → Fl) : Fl :=
  interL (biSub m1 m2 j1 j2) (fun q => (q.1.1 : ℝ)) (fun q => wtOf weighted q.1 0) f

/-- The regression weights of a pair. -/
noncomputable def biW (m1 m2 : MRQ 1) (j1 j2 : ℤ) (weighted : Bool) : Weights 1 :=
  .mat ((biSub m1 m2 j1 j2).map fun q r => Fl.fin (wtOf weighted q.1 r))

theorem Paired.weights (h : Paired m1 m2 J) (h1 : 1 ≤ j1) (h12 : j1 ≤ j2) (h2 : j2 ≤ J) (weighted : Bool) :
    biWeights m1.nj j1 j2 weighted = .ok (biW m1 m2 j1 j2 weighted) := by
  rw [biWeights_one, h.reg1.weights h1 h12 h2, h.sub_fst, List.map_map]; rfl

theorem Paired.regression (h : Paired m1 m2 J) (h1 : 1 ≤ j1) (h12 : j1 ≤ j2) (h2 : j2 ≤ J) (weighted : Bool)
    (f : (ℤ × Arr 1) × (ℤ × Arr 1) → Fl) :
    ∃ var, biRegression ((biList m1 m2).map f) j1 j2 (biW m1 m2 j1 j2 weighted) =
      .ok ⟨fun _ => biSlope m1 m2 j1 j2 weighted f, fun _ => biInter m1 m2 j1 j2 weighted f, var⟩ := by
  unfold biRegression biW
  rw [h.reg1.tile h1 h12 h2, h.sub_fst, List.map_map, pySlice_map, List.map_map]
  have := linearRegression_map (R := 1) (biSub m1 m2 j1 j2) (fun q => (q.1.1 : ℝ)) (fun q r => wtOf weighted q.1 r)
    (fun q _ => f q)
  have e1 : (fun r : Fin 1 => slopeL (biSub m1 m2 j1 j2) (fun q => (q.1.1 : ℝ)) (fun p => wtOf weighted p.1 r) fun p => f p)
      = fun _ => biSlope m1 m2 j1 j2 weighted f := by
    funext r; rw [Subsingleton.elim r 0]; rfl
  have e2 : (fun r : Fin 1 => interL (biSub m1 m2 j1 j2) (fun q => (q.1.1 : ℝ)) (fun p => wtOf weighted p.1 r) fun p => f p)
      = fun _ => biInter m1 m2 j1 j2 weighted f := by
    funext r; rw [Subsingleton.elim r 0]; rfl
  rw [e1, e2] at this
  exact ⟨_, this⟩

/-- The univariate and the bivariate slopes agree. -/
theorem Paired.slope_left (h : Paired m1 m2 J) (weighted : Bool) (f : ℤ × Arr 1 → Fl) :
    slopeL (subR m1 j1 j2) (fun p => (p.1 : ℝ)) (fun p => wtOf weighted p 0) f =
      biSlope m1 m2 j1 j2 weighted (fun q => f q.1) := by
  rw [h.sub_fst, slopeL_map]; rfl

theorem Paired.slope_right (h : Paired m1 m2 J) (weighted : Bool) (f : ℤ × Arr 1 → Fl) :
    slopeL (subR m2 j1 j2) (fun p => (p.1 : ℝ)) (fun p => wtOf weighted p 0) f =
      biSlope m1 m2 j1 j2 weighted (fun q => f q.2) := by
  rw [h.sub_snd, slopeL_map]
  apply slopeL_congr
  · intro q hq
    simp only [Function.comp_apply, h.keys (biSub_mem hq)]
  · intro q hq
    simp only [Function.comp_apply, wtOf, h.counts (biSub_mem hq)]
  · intro q hq; rfl

theorem Paired.inter_left (h : Paired m1 m2 J) (weighted : Bool) (f : ℤ × Arr 1 → Fl) :
    interL (subR m1 j1 j2) (fun p => (p.1 : ℝ)) (fun p => wtOf weighted p 0) f =
      biInter m1 m2 j1 j2 weighted (fun q => f q.1) := by
  rw [h.sub_fst, interL_map]; rfl

theorem Paired.inter_right (h : Paired m1 m2 J) (weighted : Bool) (f : ℤ × Arr 1 → Fl) :
    interL (subR m2 j1 j2) (fun p => (p.1 : ℝ)) (fun p => wtOf weighted p 0) f =
      biInter m1 m2 j1 j2 weighted (fun q => f q.2) := by
  rw [h.sub_snd, interL_map]
  apply interL_congr
  · intro q hq
    simp only [Function.comp_apply, h.keys (biSub_mem hq)]
  · intro q hq
    simp only [Function.comp_apply, wtOf, h.counts (biSub_mem hq)]
  · intro q hq; rfl

/-- The value of `C_{ab}` at one scale. -/
noncomputable def bcAt (n a b : ℕ) (q : (ℤ × Arr 1) × (ℤ × Arr 1)) : Fl := (bcTable (logPairs (biPairs q)) n).values a b

/-- Closed form of the constructor. -/
theorem Paired.biCumulants (h : Paired m1 m2 J) (h1 : 1 ≤ j1) (h12 : j1 ≤ j2) (h2 : j2 ≤ J) (weighted : Bool)
    (same : Bool) {n : ℕ} (hn : m1.formalism = .coef ∨ 2 ≤ n) :
    ∃ c, BiCumulants.make same m1 m2 n j1 j2 weighted = .ok c ∧
      c.formalism = m1.formalism ∧ c.j = m1.values.keys ∧ c.n_cumul = n ∧
      (∀ a b, c.values a b = (biList m1 m2).map (bcAt n a b)) ∧
      (∀ a b, c.slope a b = biSlope m1 m2 j1 j2 weighted (bcAt n a b)) ∧
      (∀ a b, c.intercept a b = biInter m1 m2 j1 j2 weighted (bcAt n a b)) ∧
      (∀ a b, c.log_cumulants a b = biSlope m1 m2 j1 j2 weighted (bcAt n a b) * Fl.fin log2e) ∧
      (m1.formalism = .coef → c.RHO_MF = none ∧ c.rho_mf = none) ∧
      (m1.formalism ≠ .coef → c.RHO_MF = some ((biList m1 m2).map fun q => rhoOf (bcAt n 1 1 q) (bcAt n 0 2 q) (bcAt n 2 0 q)) ∧
        c.rho_mf = some (-(c.log_cumulants 1 1) / ((c.log_cumulants 0 2) * (c.log_cumulants 2 0)).sqrt.abs)) := by
  have hval : ∀ a b, ((biList m1 m2).map biPairs).map (fun ps => (bcTable (logPairs ps) n).values a b) =
      (biList m1 m2).map (bcAt n a b) := by
    intro a b; rw [List.map_map]; rfl
  have hreg : ∀ a b, ∃ var, biRegression ((biList m1 m2).map (bcAt n a b)) j1 j2 (biW m1 m2 j1 j2 weighted) =
      .ok ⟨fun _ => biSlope m1 m2 j1 j2 weighted (bcAt n a b), fun _ => biInter m1 m2 j1 j2 weighted (bcAt n a b), var⟩ :=
    fun a b => h.regression h1 h12 h2 weighted _
  have hs : ∀ a b, slopeOf (biRegression ((biList m1 m2).map (bcAt n a b)) j1 j2 (biW m1 m2 j1 j2 weighted)) =
      biSlope m1 m2 j1 j2 weighted (bcAt n a b) := by
    intro a b; obtain ⟨v, hv⟩ := hreg a b; rw [hv]; rfl
  have hi : ∀ a b, interceptOf (biRegression ((biList m1 m2).map (bcAt n a b)) j1 j2 (biW m1 m2 j1 j2 weighted)) =
      biInter m1 m2 j1 j2 weighted (bcAt n a b) := by
    intro a b; obtain ⟨v, hv⟩ := hreg a b; rw [hv]; rfl
  have hm : ∃ regs, mapE (fun p : ℕ × ℕ => biRegression ((biList m1 m2).map (bcAt n p.1 p.2)) j1 j2
      (biW m1 m2 j1 j2 weighted)) (bcOrder n) = .ok regs := by
    choose var hvar using hreg
    exact ⟨_, mapE_ok _ _ _ (fun p _ => hvar p.1 p.2)⟩
  obtain ⟨regs, hregs⟩ := hm
  unfold BiCumulants.make
  rw [if_neg (by simp [h.formalism]), h.njEq same]
  simp only [h.pairScales, hval, h.weights h1 h12 h2 weighted, hregs, hs, hi]
  by_cases hc : m1.formalism = .coef
  · rw [if_pos hc]
    refine ⟨_, rfl, rfl, rfl, rfl, fun _ _ => rfl, fun _ _ => rfl, fun _ _ => rfl, fun _ _ => rfl, fun _ => ⟨rfl, rfl⟩,
      fun hn => (hn hc).elim⟩
  · have hn2 : 2 ≤ n := hn.resolve_left hc
    rw [if_neg hc, if_neg (by omega)]
    refine ⟨_, rfl, rfl, rfl, rfl, fun _ _ => rfl, fun _ _ => rfl, fun _ _ => rfl, fun _ _ => rfl,
      fun h' => (hc h').elim, fun _ => ⟨?_, rfl⟩⟩
    simp only [List.length_map]
    congr 1
    apply List.ext_getElem
    · simp
    · intro i hi1 hi2
      simp at hi1
      simp [hi1]

end paired

end MFA
