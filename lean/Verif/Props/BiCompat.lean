import Verif.Props.BiDemo
import Verif.Props.SignalLaws

/-!
# C104: which pairs of quantities the bivariate classes accept
-/

namespace MFA

open Classical

/-- Two dictionaries have the same entries (in whatever order). -/
def SameEntries {α : Type} (a b : Dict α) : Prop := ∀ j, Dict.get? a j = Dict.get? b j

theorem get?_eq_none_iff {α : Type} (d : Dict α) (j : ℤ) : Dict.get? d j = none ↔ j ∉ d.map Prod.fst := by
  induction d with
  | nil => simp [Dict.get?]
  | cons p d ih =>
    obtain ⟨k, v⟩ := p
    rw [Dict.get?]
    split
    · rename_i h; simp [h]
    · rename_i h
      rw [ih]
      simp [Ne.symm h]

theorem mem_of_get? {α : Type} {d : Dict α} {j : ℤ} {v : α} (h : Dict.get? d j = some v) : (j, v) ∈ d := by
  induction d with
  | nil => simp [Dict.get?] at h
  | cons p d ih =>
    obtain ⟨k, w⟩ := p
    rw [Dict.get?] at h
    split at h
    · rename_i hk
      obtain rfl := Option.some.inj h
      simp [hk]
    · exact List.mem_cons_of_mem _ (ih h)

theorem njEqLoop_one (b : Dict (Fin 1 → ℕ)) : ∀ l : Dict (Fin 1 → ℕ),
    njEqLoop b l = .ok (decide (∀ p ∈ l, Dict.get? b p.1 = some p.2))
  | [] => by simp [njEqLoop]
  | (j, v) :: l => by
    rw [njEqLoop]
    split
    · rename_i h
      simp [h]
    · rename_i v' h
      simp only [arrEqTruth, if_true]
      by_cases hv : v = v'
      · subst hv
        simp only [decide_true, njEqLoop_one b l, Except.ok.injEq, decide_eq_decide, List.mem_cons, forall_eq_or_imp, h, true_and]
      · have hv' : ¬ v' = v := fun e => hv e.symm
        simp [hv, h, hv']

/-- On one realisation `nj1 == nj2` never raises and says whether the entries are the same. -/
theorem njEq_one {a b : Dict (Fin 1 → ℕ)} (ha : (a.map Prod.fst).Nodup) (hb : (b.map Prod.fst).Nodup) :
    njEq false a b = .ok (decide (SameEntries a b)) := by
  unfold njEq
  rw [if_neg (by simp)]
  split
  · rename_i hl
    simp only [Except.ok.injEq, Bool.false_eq, decide_eq_false_iff_not]
    intro he
    have hsub : ∀ {c d : Dict (Fin 1 → ℕ)}, (c.map Prod.fst).Nodup → SameEntries c d → c.length ≤ d.length := by
      intro c d hc h
      have : (c.map Prod.fst) ⊆ (d.map Prod.fst) := by
        intro j hj
        by_contra hd
        rw [← get?_eq_none_iff, ← h j, get?_eq_none_iff] at hd
        exact hd hj
      have := (List.subperm_of_subset hc this).length_le
      simpa using this
    exact hl (le_antisymm (hsub ha he) (hsub hb fun j => (he j).symm))
  · rename_i hl
    push Not at hl
    rw [njEqLoop_one]
    congr 1
    rw [decide_eq_decide]
    constructor
    · intro h j
      rcases hj : Dict.get? a j with _ | v
      · have hna := (get?_eq_none_iff a j).1 hj
        symm
        rw [get?_eq_none_iff]
        have hsub : (a.map Prod.fst) ⊆ (b.map Prod.fst) := by
          intro i hi
          obtain ⟨p, hp, rfl⟩ := List.mem_map.1 hi
          exact List.mem_map.2 ⟨_, mem_of_get? (h p hp), rfl⟩
        have hp : (a.map Prod.fst).Perm (b.map Prod.fst) :=
          (List.subperm_of_subset ha hsub).perm_of_length_le (by simp [hl])
        intro hjb
        exact hna (hp.mem_iff.2 hjb)
      · have := h _ (mem_of_get? hj)
        exact this.symm
    · intro h p hp
      rw [← h p.1]
      exact dictGet_self a ha hp

variable {m1 m2 : MRQ 1} {j1 j2 : ℤ} {weighted : Bool}

/-- **C104**: two quantities of different formalisms, or with different numbers of coefficients at some scale, are refused with
AssertionError by `BiCumulants` and by `BiStructureFunction`, and two quantities with different `gamint` by the latter, whatever the other
arguments. -/
theorem C104_assertions (h1 : (m1.nj.map Prod.fst).Nodup) (h2 : (m2.nj.map Prod.fst).Nodup) :
    (m1.formalism ≠ m2.formalism ∨ ¬ SameEntries m1.nj m2.nj →
      ∀ n j1 j2 weighted, BiCumulants.make false m1 m2 n j1 j2 weighted = .error .assertionError) ∧
    (m1.formalism ≠ m2.formalism ∨ m1.gamint ≠ m2.gamint ∨ ¬ SameEntries m1.nj m2.nj →
      ∀ j1 j2 q1 q2 weighted, BiStructFn.make false m1 m2 j1 j2 q1 q2 weighted = .error .assertionError) := by
  constructor
  · intro h n j1 j2 weighted
    unfold BiCumulants.make
    by_cases hf : m1.formalism = m2.formalism
    · rw [if_neg (by simpa using hf), njEq_one h1 h2]
      have : ¬ SameEntries m1.nj m2.nj := h.resolve_left (by simpa using hf)
      simp [this]
    · rw [if_pos hf]
  · intro h j1 j2 q1 q2 weighted
    unfold BiStructFn.make
    by_cases hf : m1.formalism = m2.formalism
    · rw [if_neg (by simpa using hf)]
      by_cases hg : m1.gamint = m2.gamint
      · rw [if_neg (by simpa using hg), njEq_one h1 h2]
        have : ¬ SameEntries m1.nj m2.nj := (h.resolve_left (by simpa using hf)).resolve_left (by simpa using hg)
        simp [this]
      · rw [if_pos hg]
    · rw [if_pos hf]

/-- **C104**: `BiCumulants` does not look at `gamint`: two quantities that differ by the order of fractional integration are accepted and
the result is the same as if the orders agreed. -/
theorem C104_cumulants_ignore_gamint {R : ℕ} (same : Bool) (m1 m2 : MRQ R) (g1 g2 : ℝ) (n : ℕ) (j1 j2 : ℤ) (weighted : Bool) :
    BiCumulants.make same { m1 with gamint := g1 } { m2 with gamint := g2 } n j1 j2 weighted =
      BiCumulants.make same m1 m2 n j1 j2 weighted := rfl

/-- **C104**: when `bivariate_analysis` returns on two different transforms of one realisation, the coefficients agree in formalism, `gamint`
and numbers of coefficients at every scale, and so do the leaders: transforms computed with different `gamint`, or different kinds of
leaders, are refused. -/
theorem C104_analysis {w1 w2 : WT 1} {n : ℕ} {q1 q2 : Option QArg} {d l : MFBiVar 1}
    (hc1 : (w1.wt_coefs.nj.map Prod.fst).Nodup) (hc2 : (w2.wt_coefs.nj.map Prod.fst).Nodup)
    (hl1 : ∀ l, w1.wt_leaders = some l → (l.nj.map Prod.fst).Nodup) (hl2 : ∀ l, w2.wt_leaders = some l → (l.nj.map Prod.fst).Nodup)
    (h : bivariateAnalysis false w1 w2 j1 weighted n q1 q2 = .ok (d, l)) :
    ∃ l1 l2, w1.wt_leaders = some l1 ∧ w2.wt_leaders = some l2 ∧
      w1.wt_coefs.formalism = w2.wt_coefs.formalism ∧ w1.wt_coefs.gamint = w2.wt_coefs.gamint ∧
      SameEntries w1.wt_coefs.nj w2.wt_coefs.nj ∧
      l1.formalism = l2.formalism ∧ l1.gamint = l2.gamint ∧ SameEntries l1.nj l2.nj := by
  have key : ∀ {m1 m2 : MRQ 1} {j2 : ℤ} {v}, (m1.nj.map Prod.fst).Nodup → (m2.nj.map Prod.fst).Nodup →
      biVar false m1 m2 j1 j2 weighted n q1 q2 = .ok v →
      m1.formalism = m2.formalism ∧ m1.gamint = m2.gamint ∧ SameEntries m1.nj m2.nj := by
    intro m1 m2 j2 v h1 h2 hv
    by_contra hne
    have hne' : m1.formalism ≠ m2.formalism ∨ m1.gamint ≠ m2.gamint ∨ ¬ SameEntries m1.nj m2.nj := by tauto
    have hb := (C104_assertions h1 h2).2 hne' j1 j2
    unfold biVar at hv
    split at hv
    · cases hv
    · split at hv
      · rw [hb] at hv; cases hv
      · split at hv <;> cases hv
  unfold bivariateAnalysis at h
  simp only at h
  split at h
  · cases h
  · rename_i dwt hd
    split at h
    · rename_i l1 l2 e1 e2
      split at h
      · cases h
      · rename_i lwt hl
        obtain ⟨a1, a2, a3⟩ := key hc1 hc2 hd
        obtain ⟨b1, b2, b3⟩ := key (hl1 _ e1) (hl2 _ e2) hl
        exact ⟨l1, l2, e1, e2, a1, a2, a3, b1, b2, b3⟩
    · cases h

theorem Regular.nj_nodup {R : ℕ} {m : MRQ R} {J : ℕ} (h : Regular m J) : (m.nj.map Prod.fst).Nodup := by
  rw [h.2, List.map_map]
  exact h.nodup

theorem leaders_nj_nodup {R : ℕ} {sig : Arr R} {p : PExp} {wt : Wavelet} {j1 : ℤ} {j2 : Option ℝ} {g nm : ℝ} {weighted : Bool}
    {w : WT R} (h : waveletAnalysis sig p wt j1 j2 g nm weighted = .ok w) (l : MRQ R) (hl : w.wt_leaders = some l) :
    (l.nj.map Prod.fst).Nodup := by
  obtain ⟨ml, K, Kc, -, -, -, -, -, -, -, -, hm⟩ := wa_inv h
  cases p with
  | none => rw [hm.1] at hl; cases hl
  | inf =>
    simp only at hm
    rw [hm.1] at hl; cases hl
    exact (scalesUpTo_regular _ _ _ _).nj_nodup
  | num e =>
    simp only at hm
    obtain ⟨⟨eta, -, hm⟩, -⟩ := hm
    rw [hm] at hl; cases hl
    exact (scalesUpTo_regular .pleader g (leadSeq (wparams wt g nm) (.num e) sig) K).nj_nodup

/-- **C104**, end to end: transforms of two signals computed with different orders of fractional integration cannot be analysed
together. -/
theorem C104_gamint_mismatch {s1 s2 : Arr 1} {p p' : PExp} {wt wt' : Wavelet} {i1 i1' : ℤ} {i2 i2' : Option ℝ} {g g' nm nm' : ℝ}
    {b b' : Bool} {w1 w2 : WT 1} (h1 : waveletAnalysis s1 p wt i1 i2 g nm b = .ok w1)
    (h2 : waveletAnalysis s2 p' wt' i1' i2' g' nm' b' = .ok w2) (hg : g ≠ g') (j1 : ℤ) (weighted : Bool) (n : ℕ)
    (q1 q2 : Option QArg) : ∃ e, bivariateAnalysis false w1 w2 j1 weighted n q1 q2 = .error e := by
  rcases hr : bivariateAnalysis false w1 w2 j1 weighted n q1 q2 with e | ⟨d, l⟩
  · exact ⟨e, rfl⟩
  · obtain ⟨_, J, _, _, hc, _⟩ := C03_regular h1
    obtain ⟨_, J', _, _, hc', _⟩ := C03_regular h2
    obtain ⟨-, -, -, -, -, hgm, -⟩ := C104_analysis hc.nj_nodup hc'.nj_nodup (leaders_nj_nodup h1) (leaders_nj_nodup h2) hr
    rw [coefs_gamint h1, coefs_gamint h2] at hgm
    exact absurd hgm hg

/-- C104: the quantities of the demonstration (which both classes accept) are refused as soon as `gamint`, the formalism or the number of
coefficients of one of them is changed. -/
example (q1 q2 : QArg) :
    BiStructFn.make false { bi1 with gamint := 1 } bi2 1 2 q1 q2 true = .error .assertionError ∧
    BiCumulants.make false { bi1 with formalism := .coef } bi2 2 1 2 true = .error .assertionError ∧
    BiCumulants.make false (bi1.addValues [fun _ => Fl.fin 1] 2) bi2 2 1 2 true = .error .assertionError ∧
    ∃ c, BiCumulants.make false { bi1 with gamint := 1 } bi2 3 1 2 true = .ok c := by
  have n1 := bi_paired.reg1.nj_nodup
  have n2 := bi_paired.reg2.nj_nodup
  have h0 : bi2.gamint = 0 := rfl
  refine ⟨(C104_assertions (m1 := { bi1 with gamint := 1 }) n1 n2).2 (Or.inr (Or.inl (by rw [h0]; exact one_ne_zero))) _ _ _ _ _,
    (C104_assertions (m1 := { bi1 with formalism := .coef }) n1 n2).1 (Or.inl (by simp [bi2, MRQ.addValues, MRQ.empty])) _ _ _ _,
    (C104_assertions ?_ n2).1 (Or.inr fun h => ?_) _ _ _ _, ?_⟩
  · simp [bi1, MRQ.addValues, MRQ.empty, Dict.set]
  · have := h 2
    simp [bi1, bi2, MRQ.addValues, MRQ.empty, Dict.set, Dict.get?, col, countNotNaN_countP] at this
    have := congrFun this 0
    simp at this
  · obtain ⟨b, c1, c2, h, -⟩ := C64_marginals bi_paired bi_sameNaN (j1 := 1) (j2 := 2) (by norm_num) (by norm_num)
      (by norm_num) true 3 (Or.inr (by norm_num))
    exact ⟨b, (C104_cumulants_ignore_gamint false bi1 bi2 1 bi2.gamint 3 1 2 true).trans h⟩

/-! ### Different numbers of entries -/

theorem pairUp_stretch_left {R : ℕ} (a b : Arr R) : pairUp (stretchRow a b) b = pairUp a b := by
  match a with
  | [] => rfl
  | [x] =>
    unfold pairUp stretchRow
    simp only [List.length_map, if_true]
    by_cases h : ([x] : Arr R).length = b.length
    · rw [if_pos h]
      obtain ⟨y, rfl⟩ := List.length_eq_one_iff.1 h.symm
      rfl
    · rw [if_neg h]
  | x :: y :: t => rfl

theorem pairUp_stretch_right {R : ℕ} (a b : Arr R) : pairUp a (stretchRow b a) = pairUp a b := by
  match b with
  | [] => rfl
  | [y] =>
    unfold pairUp stretchRow
    simp only [List.length_map, if_true]
    match a with
    | [] => simp [flat]
    | [x] => simp
    | x :: x' :: t => simp
  | x :: y :: t => rfl

theorem pairUp_mismatch {R : ℕ} {a b : Arr R} (h : a.length ≠ b.length) (ha : a.length ≠ 1) (hb : b.length ≠ 1) : pairUp a b = .error .valueError := by
  unfold pairUp
  rw [if_neg h]
  split
  · simp at ha
  · simp at hb
  · rfl

theorem mapE_congr_map {α β : Type} {f g : α → Except PyErr β} {k : α → α} (l : List α) (h : ∀ a ∈ l, f (k a) = g a) : mapE f (l.map k) = mapE g l := by
  induction l with
  | nil => rfl
  | cons a l ih =>
    simp only [List.map_cons, mapE, h a List.mem_cons_self, ih fun b hb => h b (List.mem_cons_of_mem _ hb)]

theorem get?_mem_nodup {α : Type} {d : Dict α} (h : (d.map Prod.fst).Nodup) {p : ℤ × α} (hp : p ∈ d) : Dict.get? d p.1 = some p.2 := by
  induction d with
  | nil => simp at hp
  | cons q d ih =>
    obtain ⟨k, v⟩ := q
    rw [List.map_cons, List.nodup_cons] at h
    rw [Dict.get?]
    rcases List.mem_cons.1 hp with rfl | hp
    · simp
    · rw [if_neg (fun e => h.1 (by dsimp only at e ⊢; rw [e]; exact List.mem_map.2 ⟨p, hp, rfl⟩)), ih h.2 hp]

theorem get?_stretched {R : ℕ} (m m' : MRQ R) (j : ℤ) : Dict.get? (stretched m m').values j =
    (Dict.get? m.values j).map fun a => match Dict.get? m'.values j with
      | some b => stretchRow a b
      | none => a := by
  unfold stretched
  dsimp only
  induction m.values with
  | nil => rfl
  | cons p d ih =>
    obtain ⟨k, v⟩ := p
    simp only [List.map_cons, Dict.get?]
    by_cases h : k = j
    · subst h; simp; rfl
    · rw [if_neg h, if_neg h, ih]

theorem pairScales_left {R : ℕ} (m1 m2 : MRQ R) : pairScales (stretched m1 m2) m2 = pairScales m1 m2 := by
  unfold pairScales
  refine mapE_congr_map (f := fun p => match getKey m2.values p.1 with
    | .error e => .error e
    | .ok v => pairUp p.2 v) m1.values fun p _ => ?_
  dsimp only [getKey]
  cases Dict.get? m2.values p.1 with
  | none => rfl
  | some b => exact pairUp_stretch_left _ _

theorem pairScales_right {R : ℕ} {m1 m2 : MRQ R} (h : (m1.values.map Prod.fst).Nodup) : pairScales m1 (stretched m2 m1) = pairScales m1 m2 := by
  unfold pairScales
  have := mapE_congr_map (f := fun p => match getKey (stretched m2 m1).values p.1 with
    | .error e => .error e
    | .ok v => pairUp p.2 v) (g := fun p => match getKey m2.values p.1 with
    | .error e => .error e
    | .ok v => pairUp p.2 v) (k := id) m1.values fun p hp => ?_
  · rwa [List.map_id] at this
  · dsimp only [getKey, id]
    rw [get?_stretched, get?_mem_nodup h hp]
    cases Dict.get? m2.values p.1 with
    | none => rfl
    | some b => exact pairUp_stretch_right _ _

/-- **C104**: a quantity with a single row at some scale is used as if that row were repeated as many times as the other quantity has rows there: neither class
gives another result (or another exception) when the row is actually repeated. -/
theorem C104_broadcast {R : ℕ} (same : Bool) (m1 m2 : MRQ R) (h : (m1.values.map Prod.fst).Nodup) (n : ℕ) (j1 j2 : ℤ) (weighted : Bool) (q1 q2 : QArg) :
    BiCumulants.make same m1 (stretched m2 m1) n j1 j2 weighted = BiCumulants.make same m1 m2 n j1 j2 weighted ∧
    BiCumulants.make same (stretched m1 m2) m2 n j1 j2 weighted = BiCumulants.make same m1 m2 n j1 j2 weighted ∧
    BiStructFn.make same m1 (stretched m2 m1) j1 j2 q1 q2 weighted = BiStructFn.make same m1 m2 j1 j2 q1 q2 weighted ∧
    BiStructFn.make same (stretched m1 m2) m2 j1 j2 q1 q2 weighted = BiStructFn.make same m1 m2 j1 j2 q1 q2 weighted := by
  have e1 : ∀ m m' : MRQ R, (stretched m m').nj = m.nj := fun _ _ => rfl
  have e2 : ∀ m m' : MRQ R, (stretched m m').formalism = m.formalism := fun _ _ => rfl
  have e3 : ∀ m m' : MRQ R, (stretched m m').gamint = m.gamint := fun _ _ => rfl
  have e4 : ∀ m m' : MRQ R, Dict.keys (stretched m m').values = Dict.keys m.values := by
    intro m m'; simp [stretched, Dict.keys, List.map_map, Function.comp_def]
  refine ⟨?_, ?_, ?_, ?_⟩
  · unfold BiCumulants.make; rw [pairScales_right h, e1, e2]
  · unfold BiCumulants.make; rw [pairScales_left, e1, e2, e4]
  · unfold BiStructFn.make; rw [pairScales_right h, e1, e2, e3]
  · unfold BiStructFn.make; rw [pairScales_left, e1, e2, e3, e4]

/-- **C104**: two quantities of the same formalism and with the same counts and scales, but with different numbers of rows at some scale, neither of
them 1, are refused with ValueError. -/
theorem C104_shape_mismatch {R : ℕ} (same : Bool) {m1 m2 : MRQ R} (hf : m1.formalism = m2.formalism) (hg : m1.gamint = m2.gamint) (hnj : njEq same m1.nj m2.nj = .ok true)
    (hk : ∀ j ∈ m1.values.map Prod.fst, j ∈ m2.values.map Prod.fst) {j : ℤ} {a b : Arr R} (ha : (j, a) ∈ m1.values) (hb : Dict.get? m2.values j = some b)
    (hab : a.length ≠ b.length) (ha1 : a.length ≠ 1) (hb1 : b.length ≠ 1) (n : ℕ) (j1 j2 : ℤ) (weighted : Bool) (q1 q2 : QArg) (hq1 : q1.expos ≠ []) (hq2 : q2.expos ≠ []) :
    BiCumulants.make same m1 m2 n j1 j2 weighted = .error .valueError ∧ BiStructFn.make same m1 m2 j1 j2 q1 q2 weighted = .error .valueError := by
  have hs : pairScales m1 m2 = .error .valueError := by
    unfold pairScales
    have key : ∀ l : List (ℤ × Arr R), (∀ p ∈ l, p.1 ∈ m2.values.map Prod.fst) → (j, a) ∈ l → mapE (fun p : ℤ × Arr R => match getKey m2.values p.1 with
        | .error e => .error e
        | .ok v => pairUp p.2 v) l = .error .valueError := by
      intro l
      induction l with
      | nil => intro _ h; simp at h
      | cons p l ih =>
        intro hl hm
        have hp : ∃ v, Dict.get? m2.values p.1 = some v := by
          have := hl p List.mem_cons_self
          by_contra hcon
          push Not at hcon
          exact (get?_eq_none_iff _ _).1 (Option.eq_none_iff_forall_ne_some.2 hcon) this
        obtain ⟨v, hv⟩ := hp
        have hpu : pairUp p.2 v = .error .valueError ∨ ∃ z, pairUp p.2 v = .ok z := by
          unfold pairUp
          split_ifs
          · exact Or.inr ⟨_, rfl⟩
          · split
            · exact Or.inr ⟨_, rfl⟩
            · exact Or.inr ⟨_, rfl⟩
            · exact Or.inl rfl
        unfold mapE
        simp only [getKey, hv]
        rcases List.mem_cons.1 hm with e | e
        · subst e
          rw [hb] at hv; cases hv
          rw [pairUp_mismatch hab ha1 hb1]
        · rcases hpu with e' | ⟨z, e'⟩
          · rw [e']
          · rw [e']
            have := ih (fun q hq => hl q (List.mem_cons_of_mem _ hq)) e
            simp only [getKey] at this
            simp only [this]
    exact key _ (fun p hp => hk _ (List.mem_map.2 ⟨p, hp, rfl⟩)) ha
  constructor
  · unfold BiCumulants.make
    simp only [hf, ne_eq, not_true_eq_false, if_false, hnj, hs]
  · unfold BiStructFn.make
    simp only [hf, hg, ne_eq, not_true_eq_false, if_false, hnj, hs, hq1, hq2, or_self]

/-- C104: a quantity with one entry is used three times against a quantity with three entries, two of which are NaN (so that the counts agree); against two entries it
is refused. -/
example : ∃ m1 m2 m3 : MRQ 1, m1.values = [(1, [fun _ => Fl.fin 5])] ∧ m2.values = [(1, [fun _ => Fl.fin 2, fun _ => Fl.nan, fun _ => Fl.nan])] ∧
    m3.values = [(1, [fun _ => Fl.fin 3, fun _ => Fl.nan])] ∧ (stretched m1 m2).values = [(1, [fun _ => Fl.fin 5, fun _ => Fl.fin 5, fun _ => Fl.fin 5])] ∧
    BiCumulants.make false (stretched m1 m2) m2 2 1 1 false = BiCumulants.make false m1 m2 2 1 1 false ∧
    BiCumulants.make false m2 m3 2 1 1 false = .error .valueError := by
  have hv : ∀ a : Arr 1, ((MRQ.empty .leader 0).addValues a 1).values = [(1, a)] := by intro a; simp [MRQ.addValues, MRQ.empty, Dict.set]
  refine ⟨(MRQ.empty .leader 0).addValues [fun _ => Fl.fin 5] 1, (MRQ.empty .leader 0).addValues [fun _ => Fl.fin 2, fun _ => Fl.nan, fun _ => Fl.nan] 1,
    (MRQ.empty .leader 0).addValues [fun _ => Fl.fin 3, fun _ => Fl.nan] 1, hv _, hv _, hv _, ?_, ?_, ?_⟩
  · simp [stretched, hv, Dict.get?, stretchRow]
  · exact (C104_broadcast false _ _ (by simp [hv]) 2 1 1 false (.ndarray [1]) (.ndarray [1])).2.1
  · refine (C104_shape_mismatch false (m1 := (MRQ.empty .leader 0).addValues [fun _ => Fl.fin 2, fun _ => Fl.nan, fun _ => Fl.nan] 1)
      (m2 := (MRQ.empty .leader 0).addValues [fun _ => Fl.fin 3, fun _ => Fl.nan] 1) rfl rfl ?_ (by simp [hv]) (j := 1) (a := [fun _ => Fl.fin 2, fun _ => Fl.nan, fun _ => Fl.nan]) (b := [fun _ => Fl.fin 3, fun _ => Fl.nan])
      (by rw [hv]; exact List.mem_cons_self) (by rw [hv]; rfl) (by simp) (by simp) (by simp) 2 1 1 false (.ndarray [1])
      (.ndarray [1]) (by simp [QArg.expos]) (by simp [QArg.expos])).1
    simp [MRQ.addValues, MRQ.empty, Dict.set, njEq, njEqLoop, arrEqTruth, Dict.get?, col, countNotNaN_countP]

end MFA
