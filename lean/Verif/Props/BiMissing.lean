import Verif.Props.Missing
import Verif.Props.BiCompat
import Verif.Props.BiPairs
import Verif.Props.BiAnalysis

/-! Property C149: two recordings with missing samples. -/

namespace MFA

open Classical

/-- C149: the transforms of two recordings with missing samples that do not have the same number of intact coefficients at a scale that one of them
has are refused with AssertionError, by both classes and by `bivariate_analysis`, whatever the other arguments. -/
theorem C149_refused {N N' : ℕ} {x y : Fin 1 → ℤ → ℝ} {mis mis' : Fin 1 → Finset ℤ} {p p' : PExp} {wt wt' : Wavelet} (hwt : wt.Valid)
    (hwt' : wt'.Valid) {i1 i1' : ℤ} {i2 i2' : Option ℝ} {g g' nm nm' : ℝ} {b b' : Bool} {w1 w2 : WT 1}
    (h1 : waveletAnalysis (gappy N x mis) p wt i1 i2 g nm b = .ok w1) (h2 : waveletAnalysis (gappy N' y mis') p' wt' i1' i2' g' nm' b' = .ok w2)
    {j n : ℕ} (hn : w1.wt_coefs.nj? j 0 = some n) (hne : (intact N wt.dec_hi.length j (mis 0)).card ≠ (intact N' wt'.dec_hi.length j (mis' 0)).card)
    (j1 j2 : ℤ) (weighted : Bool) (c : ℕ) :
    BiCumulants.make false w1.wt_coefs w2.wt_coefs c j1 j2 weighted = .error .assertionError ∧
    (∀ q1 q2, BiStructFn.make false w1.wt_coefs w2.wt_coefs j1 j2 q1 q2 weighted = .error .assertionError) ∧
    ∀ q1 q2, bivariateAnalysis false w1 w2 j1 weighted c q1 q2 = .error .assertionError := by
  obtain ⟨_, J, _, _, hc, _⟩ := C03_regular h1
  obtain ⟨_, J', _, _, hc', _⟩ := C03_regular h2
  have hE : ¬ SameEntries w1.wt_coefs.nj w2.wt_coefs.nj := by
    intro he
    have hn' : w2.wt_coefs.nj? j 0 = some n := by
      unfold MRQ.nj? at hn ⊢
      rw [← he]; exact hn
    exact hne ((C125_nj hwt h1 hn).symm.trans (C125_nj hwt' h2 hn'))
  obtain ⟨a1, a2⟩ := C104_assertions hc.nj_nodup hc'.nj_nodup
  have b1 := a1 (Or.inr hE)
  refine ⟨b1 _ _ _ _, fun q1 q2 => a2 (Or.inr (Or.inr hE)) _ _ _ _ _, fun q1 q2 => ?_⟩
  unfold bivariateAnalysis biVar
  simp only [b1]

/-- Missing samples other than those of the second recording that are used by an intact coefficient make the numbers of coefficients differ. -/
theorem intact_lt {N F j : ℕ} {mis mis' : Finset ℤ} (hsub : mis' ⊆ mis) {k : ℕ} (hk : k ∈ intact N F j mis') {t : ℤ} (ht : t ∈ mis) (hu : Uses F j k t) :
    (intact N F j mis).card < (intact N F j mis').card := by
  apply Finset.card_lt_card
  rw [Finset.ssubset_iff_of_subset]
  · refine ⟨k, hk, fun hc => ?_⟩
    exact (Finset.mem_filter.1 hc).2 t ht hu
  · intro i hi
    rw [intact, Finset.mem_filter] at hi ⊢
    exact ⟨hi.1, fun s hs => hi.2 s (hsub hs)⟩

/-- C149, on the signals: `bivariate_analysis_full` refuses, with AssertionError, two recordings of one length that do not have the same number of intact
coefficients at a scale that the transform of the first one has. -/
theorem C149_full_refused {N : ℕ} {x y : Fin 1 → ℤ → ℝ} {mis mis' : Fin 1 → Finset ℤ} {p : PExp} (hp : p = .none ∨ p = .inf) {wt : Wavelet} (hwt : wt.Valid)
    {j1 : ℤ} {j2 : Option ℝ} {g nm : ℝ} (hnm : nm ≠ 0) {weighted : Bool} (hN : N ≠ 0) {w1 : WT 1}
    (h1 : waveletAnalysis (gappy N x mis) p wt j1 j2 g nm weighted = .ok w1) {J n : ℕ} (hn : w1.wt_coefs.nj? J 0 = some n)
    (hne : (intact N wt.dec_hi.length J (mis 0)).card ≠ (intact N wt.dec_hi.length J (mis' 0)).card) (c : ℕ) (q1 q2 : Option QArg) :
    bivariateAnalysisFull (gappy N x mis) (gappy N y mis') j1 j2 nm g weighted wt p q1 q2 c = .error .assertionError := by
  have hnil : gappy N y mis' ≠ [] := by
    intro e
    have := gappy_length N y mis'; rw [e] at this; exact hN this.symm
  obtain ⟨w2, e2⟩ := C05_total (gappy N y mis') p hp wt j1 j2 g nm weighted one_ne_zero hnil hnm
  unfold bivariateAnalysisFull
  simp only [h1, e2]
  exact (C149_refused hwt hwt h1 e2 hn hne j1 0 weighted c).2.2 q1 q2

theorem validPairs_range {L : ℕ} {a b a' b' : ℕ → Fl}
    (h : ∀ k < L, (a k ≠ Fl.nan ∧ b k ≠ Fl.nan ↔ a' k ≠ Fl.nan ∧ b' k ≠ Fl.nan) ∧ (a k ≠ Fl.nan → b k ≠ Fl.nan → a k = a' k ∧ b k = b' k)) :
    validPairs ((List.range L).map a) ((List.range L).map b) = validPairs ((List.range L).map a') ((List.range L).map b') := by
  have gen : ∀ l : List ℕ, (∀ k ∈ l, k < L) → validPairs (l.map a) (l.map b) = validPairs (l.map a') (l.map b') := by
    intro l
    induction l with
    | nil => intro _; rfl
    | cons k l ih =>
      intro hl
      have ih := ih fun i hi => hl i (List.mem_cons_of_mem _ hi)
      obtain ⟨h1, h2⟩ := h k (hl k List.mem_cons_self)
      unfold validPairs at ih ⊢
      simp only [List.map_cons, List.zip_cons_cons, List.filter_cons]
      by_cases hab : a k ≠ Fl.nan ∧ b k ≠ Fl.nan
      · obtain ⟨e1, e2⟩ := h2 hab.1 hab.2
        rw [← e1, ← e2, ih]
      · have hab' := fun hc => hab (h1.2 hc)
        rw [if_neg, if_neg, ih]
        · intro hc
          simp only [Bool.and_eq_true, Bool.not_eq_true'] at hc
          exact hab' ⟨(Fl.not_isNaN_iff _).1 (by simp [hc.1]), (Fl.not_isNaN_iff _).1 (by simp [hc.2])⟩
        · intro hc
          simp only [Bool.and_eq_true, Bool.not_eq_true'] at hc
          exact hab ⟨(Fl.not_isNaN_iff _).1 (by simp [hc.1]), (Fl.not_isNaN_iff _).1 (by simp [hc.2])⟩
  exact gen _ fun k hk => List.mem_range.1 hk

/-- The entries of the coefficients of a recording with missing samples. -/
theorem gappy_ent {N : ℕ} {x : Fin 1 → ℤ → ℝ} {mis : Fin 1 → Finset ℤ} {p : PExp} {wt : Wavelet} (hwt : wt.Valid) {j1 : ℤ} {j2 : Option ℝ} {g nm : ℝ}
    {weighted : Bool} {w : WT 1} (h : waveletAnalysis (gappy N x mis) p wt j1 j2 g nm weighted = .ok w) {K : ℕ}
    (hK : w.wt_coefs = scalesUpTo .coef g (coefSeq (wparams wt g nm) (gappy N x mis)) K) {s k : ℕ} (hs : 1 ≤ s) (hsK : s ≤ K) (hk : k < N / 2 ^ s) :
    (ent (coefSeq (wparams wt g nm) (gappy N x mis) s) k 0 ≠ Fl.nan ↔ k ∈ intact N wt.dec_hi.length s (mis 0)) ∧
    (ent (coefSeq (wparams wt g nm) (gappy N x mis) s) k 0 ≠ Fl.nan → ent (coefSeq (wparams wt g nm) (gappy N x mis) s) k 0 =
      Fl.fin ((2:ℝ) ^ ((s : ℝ) * (1 / 2 - 1 / nm + g)) * idealDetail wt (x 0) s k)) := by
  have hv : w.wt_coefs.val? s k 0 = some (ent (coefSeq (wparams wt g nm) (gappy N x mis) s) k 0) := by
    rw [hK, scalesUpTo_val, if_pos ⟨hs, hsK, by rw [coefSeq_length _ _ _ hs, gappy_length]; exact hk⟩]
  obtain ⟨m1, m2⟩ := C125_missing hwt h hv
  refine ⟨?_, m2⟩
  rw [Ne, m1, intact, Finset.mem_filter]
  push Not
  exact Iff.rfl

theorem intact_union {N F j : ℕ} (m m' : Finset ℤ) (k : ℕ) : k ∈ intact N F j (m ∪ m') ↔ k ∈ intact N F j m ∧ k ∈ intact N F j m' := by
  simp only [intact, Finset.mem_filter, Finset.mem_union]
  constructor
  · rintro ⟨h1, h2⟩
    exact ⟨⟨h1, fun t ht => h2 t (Or.inl ht)⟩, ⟨h1, fun t ht => h2 t (Or.inr ht)⟩⟩
  · rintro ⟨⟨h1, h2⟩, -, h3⟩
    exact ⟨h1, fun t ht => ht.elim (h2 t) (h3 t)⟩

/-- The scales of a quantity without finite `p_exp`. -/
theorem same_scales {fm : Formalism} {g : ℝ} {f f' : ℕ → Arr 1} {K K' : ℕ} (h : SameEntries (scalesUpTo fm g f K).nj (scalesUpTo fm g f' K').nj) :
    K = K' ∧ ∀ s, 1 ≤ s → s ≤ K → countNotNaN (col (f s) 0) = countNotNaN (col (f' s) 0) := by
  have hs : ∀ s : ℕ, (scalesUpTo fm g f K).nj? s 0 = (scalesUpTo fm g f' K').nj? s 0 := fun s => by unfold MRQ.nj?; rw [h]
  simp only [scalesUpTo_nj] at hs
  have hK : K = K' := by
    have a := hs K
    have b := hs K'
    rcases lt_trichotomy K K' with hlt | heq | hgt
    · rw [if_neg (by omega), if_pos (by omega)] at b; cases b
    · exact heq
    · rw [if_pos (by omega), if_neg (by omega)] at a; cases a
  refine ⟨hK, fun s h1 h2 => ?_⟩
  have := hs s
  rw [if_pos ⟨h1, h2⟩, if_pos ⟨h1, hK ▸ h2⟩] at this
  exact Option.some.inj this

theorem paired_of_counts {fm : Formalism} {g : ℝ} {f f' : ℕ → Arr 1} {K : ℕ} (hl : ∀ s, 1 ≤ s → s ≤ K → (f s).length = (f' s).length)
    (hc : ∀ s, 1 ≤ s → s ≤ K → countNotNaN (col (f s) 0) = countNotNaN (col (f' s) 0)) :
    Paired (scalesUpTo fm g f K) (scalesUpTo fm g f' K) K := by
  refine ⟨scalesUpTo_regular _ _ _ _, scalesUpTo_regular _ _ _ _, rfl, rfl, ?_, forall₂_scales hl⟩
  simp only [scalesUpTo]
  apply List.map_congr_left
  intro i hi
  rw [List.mem_range] at hi
  simp only [Prod.mk.injEq, true_and]
  funext r
  rw [Subsingleton.elim r 0]
  exact hc _ (by omega) (by omega)

theorem samePairs_scales {fm : Formalism} {g : ℝ} {f1 f2 f3 f4 : ℕ → Arr 1} {K : ℕ} {L : ℕ → ℕ} (l1 : ∀ s, 1 ≤ s → (f1 s).length = L s)
    (l2 : ∀ s, 1 ≤ s → (f2 s).length = L s) (l3 : ∀ s, 1 ≤ s → (f3 s).length = L s) (l4 : ∀ s, 1 ≤ s → (f4 s).length = L s)
    (h : ∀ s k, 1 ≤ s → s ≤ K → k < L s → (ent (f1 s) k 0 ≠ Fl.nan ∧ ent (f2 s) k 0 ≠ Fl.nan ↔ ent (f3 s) k 0 ≠ Fl.nan ∧ ent (f4 s) k 0 ≠ Fl.nan) ∧
      (ent (f1 s) k 0 ≠ Fl.nan → ent (f2 s) k 0 ≠ Fl.nan → ent (f1 s) k 0 = ent (f3 s) k 0 ∧ ent (f2 s) k 0 = ent (f4 s) k 0)) :
    SamePairs (scalesUpTo fm g f1 K) (scalesUpTo fm g f2 K) (scalesUpTo fm g f3 K) (scalesUpTo fm g f4 K) := by
  intro k p1 p2 p1' p2' q1 q2 q3 q4
  simp only [scalesUpTo, List.getElem?_map, Option.map_eq_some_iff] at q1 q2 q3 q4
  obtain ⟨i, hi, rfl⟩ := q1
  obtain ⟨i2, hi2, rfl⟩ := q2
  obtain ⟨i3, hi3, rfl⟩ := q3
  obtain ⟨i4, hi4, rfl⟩ := q4
  rw [hi] at hi2 hi3 hi4
  obtain rfl := Option.some.inj hi2
  obtain rfl := Option.some.inj hi3
  obtain rfl := Option.some.inj hi4
  have hik : i < K := List.mem_range.1 (List.mem_of_getElem? hi)
  have hs : 1 ≤ i + 1 := by omega
  simp only
  rw [col_range, col_range, col_range, col_range, l1 _ hs, l2 _ hs, l3 _ hs, l4 _ hs]
  exact List.Perm.of_eq (validPairs_range fun k hk => h (i + 1) k hs (by omega) hk)

/-- C149: two recordings with missing samples, of one length, that the classes accept are analysed as if every sample missing in one of them were missing
in the other one too: without weights the results are those of the recordings with the union of the missing samples (when these have the same scales). -/
theorem C149_union {N : ℕ} {x y : Fin 1 → ℤ → ℝ} {mis mis' : Fin 1 → Finset ℤ} {p p' : PExp} {wt : Wavelet} (hwt : wt.Valid) {i1 : ℤ} {i2 : Option ℝ}
    {g nm : ℝ} {b : Bool} {w1 w2 u1 u2 : WT 1} (h1 : waveletAnalysis (gappy N x mis) p wt i1 i2 g nm b = .ok w1)
    (h2 : waveletAnalysis (gappy N y mis') p wt i1 i2 g nm b = .ok w2)
    (h3 : waveletAnalysis (gappy N x fun r => mis r ∪ mis' r) p' wt i1 i2 g nm b = .ok u1)
    (h4 : waveletAnalysis (gappy N y fun r => mis r ∪ mis' r) p' wt i1 i2 g nm b = .ok u2)
    (hE : SameEntries w1.wt_coefs.nj w2.wt_coefs.nj) (hs1 : u1.wt_coefs.values.length = w1.wt_coefs.values.length)
    (hs2 : u2.wt_coefs.values.length = w1.wt_coefs.values.length) (j1 j2 : ℤ) :
    (∀ q1 q2, BiStructFn.make false w1.wt_coefs w2.wt_coefs j1 j2 q1 q2 false = BiStructFn.make false u1.wt_coefs u2.wt_coefs j1 j2 q1 q2 false) ∧
    ∀ n, BiCumulants.make false u1.wt_coefs u2.wt_coefs n j1 j2 false = match BiCumulants.make false w1.wt_coefs w2.wt_coefs n j1 j2 false with
      | .error e => .error e
      | .ok c => .ok { c with nj := u1.wt_coefs.nj } := by
  obtain ⟨_, _, K, -, -, -, -, -, c1, -⟩ := wa_inv h1
  obtain ⟨_, _, K2, -, -, -, -, -, c2, -⟩ := wa_inv h2
  obtain ⟨_, _, K3, -, -, -, -, -, c3, -⟩ := wa_inv h3
  obtain ⟨_, _, K4, -, -, -, -, -, c4, -⟩ := wa_inv h4
  have e := hE
  rw [c1, c2] at e
  obtain ⟨rfl, hcount⟩ := same_scales e
  obtain rfl : K3 = K := by rw [c3, c1] at hs1; simpa [scalesUpTo] using hs1
  obtain rfl : K4 = K3 := by rw [c4, c1] at hs2; simpa [scalesUpTo] using hs2
  have hlen : ∀ (z : Fin 1 → ℤ → ℝ) m s, 1 ≤ s → (coefSeq (wparams wt g nm) (gappy N z m) s).length = N / 2 ^ s := fun z m s hs => by
    rw [coefSeq_length _ _ _ hs, gappy_length]
  have hp : Paired w1.wt_coefs w2.wt_coefs K4 := by
    rw [c1, c2]
    exact paired_of_counts (fun s hs _ => by rw [hlen _ _ _ hs, hlen _ _ _ hs]) hcount
  have key : ∀ s k, 1 ≤ s → s ≤ K4 → k < N / 2 ^ s →
      (ent (coefSeq (wparams wt g nm) (gappy N x mis) s) k 0 ≠ Fl.nan ∧ ent (coefSeq (wparams wt g nm) (gappy N y mis') s) k 0 ≠ Fl.nan ↔
        k ∈ intact N wt.dec_hi.length s (mis 0 ∪ mis' 0)) := by
    intro s k hs hsK hk
    rw [(gappy_ent hwt h1 c1 hs hsK hk).1, (gappy_ent hwt h2 c2 hs hsK hk).1, intact_union]
  have hp' : Paired u1.wt_coefs u2.wt_coefs K4 := by
    rw [c3, c4]
    refine (scalesUpTo_paired (fun s hs _ => by rw [hlen _ _ _ hs, hlen _ _ _ hs]) fun s hs hsK k hk r => ?_).1
    rw [hlen _ _ _ hs] at hk
    rw [Subsingleton.elim r 0]
    exact not_iff_not.1 ((gappy_ent hwt h3 c3 hs hsK hk).1.trans (gappy_ent hwt h4 c4 hs hsK hk).1.symm)
  have hS : SamePairs w1.wt_coefs w2.wt_coefs u1.wt_coefs u2.wt_coefs := by
    rw [c1, c2, c3, c4]
    exact samePairs_scales (L := fun s => N / 2 ^ s) (fun s hs => hlen _ _ _ hs) (fun s hs => hlen _ _ _ hs) (fun s hs => hlen _ _ _ hs)
      (fun s hs => hlen _ _ _ hs) fun s k hs hsK hk => by
        have d1 := gappy_ent hwt h1 c1 hs hsK hk
        have d2 := gappy_ent hwt h2 c2 hs hsK hk
        have d3 := gappy_ent hwt h3 c3 hs hsK hk
        have d4 := gappy_ent hwt h4 c4 hs hsK hk
        have hkey := key s k hs hsK hk
        refine ⟨?_, fun ha hb => ?_⟩
        · rw [hkey, d3.1, d4.1, and_self]
        · have hin := hkey.1 ⟨ha, hb⟩
          exact ⟨(d1.2 ha).trans (d3.2 (d3.1.2 hin)).symm, (d2.2 hb).trans (d4.2 (d4.1.2 hin)).symm⟩
  have hf : w1.wt_coefs.formalism = u1.wt_coefs.formalism := by rw [c1, c3]; unfold scalesUpTo; simp only
  have hg : w1.wt_coefs.gamint = u1.wt_coefs.gamint := by rw [c1, c3]; unfold scalesUpTo; simp only
  obtain ⟨r1, r2⟩ := C148_pairs (j1 := j1) (j2 := j2) hp hp' hf hg hS (weighted := false) (Or.inl rfl)
  exact ⟨r1, r2⟩

/-- C149: two recordings of one length with the same missing samples are always accepted, without finite `p_exp` in the number of scales that they have, and
the marginals of `BiCumulants` are the results of `Cumulants` on each of them alone, with or without weights. -/
theorem C149_same_missing {N : ℕ} {x y : Fin 1 → ℤ → ℝ} {mis : Fin 1 → Finset ℤ} {wt : Wavelet} (hwt : wt.Valid) {i1 : ℤ} {i2 : Option ℝ}
    {g nm : ℝ} {b : Bool} {w1 w2 : WT 1} (h1 : waveletAnalysis (gappy N x mis) .none wt i1 i2 g nm b = .ok w1)
    (h2 : waveletAnalysis (gappy N y mis) .none wt i1 i2 g nm b = .ok w2) {j1 j2 : ℤ} (hj1 : 1 ≤ j1) (hj : j1 ≤ j2)
    (hj2 : j2 ≤ w1.wt_coefs.values.length) (weighted : Bool) (n : ℕ) :
    SameEntries w1.wt_coefs.nj w2.wt_coefs.nj ∧
    ∃ c c1 c2, BiCumulants.make false w1.wt_coefs w2.wt_coefs n j1 j2 weighted = .ok c ∧
      Cumulants.make w1.wt_coefs n j1 j2 weighted = .ok c1 ∧ Cumulants.make w2.wt_coefs n j1 j2 weighted = .ok c2 ∧
      ∀ i < n, (c1.values[i]?.map fun a => a.map fun row => row 0) = some (c.values (i + 1) 0) ∧
        (c2.values[i]?.map fun a => a.map fun row => row 0) = some (c.values 0 (i + 1)) ∧
        (c1.log_cumulants[i]?.map fun row => row 0) = some (c.log_cumulants (i + 1) 0) ∧
        (c2.log_cumulants[i]?.map fun row => row 0) = some (c.log_cumulants 0 (i + 1)) := by
  obtain ⟨ml, K, m1, f1, -, c1⟩ := wa_none_inv h1
  obtain ⟨ml', K', m2, f2, -, c2⟩ := wa_none_inv h2
  rw [gappy_length] at m1 m2
  obtain rfl : ml = ml' := by rw [m1] at m2; exact Except.ok.inj m2
  have hct : ∀ s, 1 ≤ s → s ≤ ml.toNat → countNotNaN (col (coefSeq (wparams wt g nm) (gappy N x mis) s) 0) =
      countNotNaN (col (coefSeq (wparams wt g nm) (gappy N y mis) s) 0) := by
    intro s hs hsm
    rw [count_gappy x mis hwt g nm 0 hs fun i hi => level_room m1 (by omega), count_gappy y mis hwt g nm 0 hs fun i hi => level_room m1 (by omega)]
  have hgood : ∀ i < ml.toNat, (¬ tooFew (coefSeq (wparams wt g nm) (gappy N x mis) (1 + i)) ↔ ¬ tooFew (coefSeq (wparams wt g nm) (gappy N y mis) (1 + i))) := by
    intro i hi
    rw [tooFew_iff, tooFew_iff, not_iff_not]
    constructor
    · rintro ⟨r, hr⟩
      rw [Subsingleton.elim r 0] at hr
      exact ⟨0, by rw [← hct _ (by omega) (by omega)]; exact hr⟩
    · rintro ⟨r, hr⟩
      rw [Subsingleton.elim r 0] at hr
      exact ⟨0, by rw [hct _ (by omega) (by omega)]; exact hr⟩
  obtain rfl : K = K' := (f1.congr hgood).unique f2
  have e1 : w1.wt_coefs = scalesUpTo .coef g (coefSeq (wparams wt g nm) (gappy N x mis)) K := by rw [c1]
  have e2 : w2.wt_coefs = scalesUpTo .coef g (coefSeq (wparams wt g nm) (gappy N y mis)) K := by rw [c2]
  have hlen : ∀ (z : Fin 1 → ℤ → ℝ) m s, 1 ≤ s → (coefSeq (wparams wt g nm) (gappy N z m) s).length = N / 2 ^ s := fun z m s hs => by
    rw [coefSeq_length _ _ _ hs, gappy_length]
  obtain ⟨hp, hs⟩ : Paired w1.wt_coefs w2.wt_coefs K ∧ SameNaN w1.wt_coefs w2.wt_coefs := by
    rw [e1, e2]
    refine scalesUpTo_paired (fun s hs _ => by rw [hlen _ _ _ hs, hlen _ _ _ hs]) fun s hs hsK k hk r => ?_
    rw [hlen _ _ _ hs] at hk
    rw [Subsingleton.elim r 0]
    exact not_iff_not.1 ((gappy_ent hwt h1 e1 hs hsK hk).1.trans (gappy_ent hwt h2 e2 hs hsK hk).1.symm)
  have hJ : w1.wt_coefs.values.length = K := by simpa using congrArg List.length hp.reg1.1
  have hf : w1.wt_coefs.formalism = .coef := by rw [e1]; unfold scalesUpTo; simp only
  refine ⟨fun j => by rw [hp.nj], ?_⟩
  obtain ⟨c, c1, c2, hc, hc1, hc2, hm⟩ := C64_marginals hp hs hj1 hj (by rw [hJ] at hj2; exact hj2) weighted n (Or.inl hf)
  refine ⟨c, c1, c2, hc, hc1, hc2, fun i hi => ?_⟩
  obtain ⟨a1, a2, a3, a4, -⟩ := hm i hi
  exact ⟨a1, a2, a3, a4⟩

/-- The transforms of two recordings with the same missing samples: coefficients and leaders are paired and NaN at the same places. -/
theorem wa_gappy_paired {N : ℕ} {x y : Fin 1 → ℤ → ℝ} {mis : Fin 1 → Finset ℤ} {wt : Wavelet} (hwt : wt.Valid) {j1 : ℤ} {j2 : Option ℝ} {g nm : ℝ}
    {weighted : Bool} {w1 w2 : WT 1} (h1 : waveletAnalysis (gappy N x mis) .inf wt j1 j2 g nm weighted = .ok w1)
    (h2 : waveletAnalysis (gappy N y mis) .inf wt j1 j2 g nm weighted = .ok w2) :
    ∃ (J Jc : ℕ) (l1 l2 : MRQ 1), w1.j2_eff = w2.j2_eff ∧ w1.j2_eff ≤ (J : ℤ) ∧ J ≤ Jc ∧
      w1.wt_leaders = some l1 ∧ w2.wt_leaders = some l2 ∧
      Paired w1.wt_coefs w2.wt_coefs Jc ∧ SameNaN w1.wt_coefs w2.wt_coefs ∧ Paired l1 l2 J ∧ SameNaN l1 l2 := by
  obtain ⟨ml, K, m1, f1, -, c1⟩ := wa_inf_inv h1
  obtain ⟨ml', K', m2, f2, -, c2⟩ := wa_inf_inv h2
  rw [gappy_length] at m1 m2
  obtain rfl : ml = ml' := by rw [m1] at m2; exact Except.ok.inj m2
  obtain ⟨P, hP⟩ : ∃ P, P = wparams wt g nm := ⟨_, rfl⟩
  rw [← hP] at f1 f2 c1 c2
  have hlen : ∀ (z : Fin 1 → ℤ → ℝ) s, 1 ≤ s → (coefSeq P (gappy N z mis) s).length = N / 2 ^ s := fun z s hs => by
    rw [coefSeq_length _ _ _ hs, gappy_length]
  have hcn : ∀ s k, 1 ≤ s → s ≤ ml.toNat → k < N / 2 ^ s →
      (ent (coefSeq P (gappy N x mis) s) k 0 = Fl.nan ↔ ent (coefSeq P (gappy N y mis) s) k 0 = Fl.nan) := by
    intro s k hs hsm hk
    rw [hP, gappy_nan_iff x mis hwt g nm 0 hs hk fun i hi => level_room m1 (by omega),
      gappy_nan_iff y mis hwt g nm 0 hs hk fun i hi => level_room m1 (by omega)]
  have hln : ∀ s k, 1 ≤ s → s ≤ ml.toNat → k < N / 2 ^ s - 2 →
      (ent (leadSeq P .inf (gappy N x mis) s) k 0 = Fl.nan ↔ ent (leadSeq P .inf (gappy N y mis) s) k 0 = Fl.nan) := by
    intro s k hs hsm hk
    rw [ent_leadSeq_nan_iff P .inf _ 0 hs (by rw [gappy_length]; exact hk), ent_leadSeq_nan_iff P .inf _ 0 hs (by rw [gappy_length]; exact hk)]
    refine forall_congr' fun j' => forall_congr' fun k' => imp_congr_right fun hn => ?_
    by_cases hk' : k' < N / 2 ^ j'
    · have := hn.1
      have := hn.2.1
      exact hcn j' k' (by omega) (by omega) hk'
    · have := hn.1
      have e : ∀ z, ent (coefSeq P (gappy N z mis) j') k' 0 = Fl.nan := fun z => by
        unfold ent
        rw [List.getElem?_eq_none (by rw [hlen z j' (by omega)]; omega)]
      rw [e, e]
  have hct : ∀ {f f' : Arr 1}, f.length = f'.length → (∀ k < f.length, (ent f k 0 = Fl.nan ↔ ent f' k 0 = Fl.nan)) → (tooFew f ↔ tooFew f') := by
    intro f f' hl h
    have : countNotNaN (col f 0) = countNotNaN (col f' 0) := by
      rw [col_range, col_range, ← hl, countNotNaN_countP, countNotNaN_countP, List.countP_map, List.countP_map]
      refine List.countP_congr fun k hk => ?_
      have := h k (List.mem_range.1 hk)
      rw [← Fl.isNaN_iff, ← Fl.isNaN_iff] at this
      simp only [Function.comp_apply]
      rw [show (ent f k 0).isNaN = (ent f' k 0).isNaN from Bool.eq_iff_iff.2 this]
    rw [tooFew_iff, tooFew_iff]
    constructor <;> rintro ⟨r, hr⟩ <;> refine ⟨0, ?_⟩ <;> rw [Subsingleton.elim r 0] at hr <;> omega
  have htc : ∀ s, 1 ≤ s → s ≤ ml.toNat → (tooFew (coefSeq P (gappy N x mis) s) ↔ tooFew (coefSeq P (gappy N y mis) s)) := fun s hs hsm =>
    hct (by rw [hlen _ _ hs, hlen _ _ hs]) fun k hk => hcn s k hs hsm (by rw [hlen _ _ hs] at hk; exact hk)
  have htl : ∀ s, 1 ≤ s → s ≤ ml.toNat → (tooFew (leadSeq P .inf (gappy N x mis) s) ↔ tooFew (leadSeq P .inf (gappy N y mis) s)) := fun s hs hsm =>
    hct (by rw [leadSeq_length, leadSeq_length, gappy_length, gappy_length]) fun k hk =>
      hln s k hs hsm (by rw [leadSeq_length, gappy_length] at hk; exact hk)
  obtain rfl : K = K' := by
    refine (f1.congr fun i hi => ?_).unique f2
    rw [htc _ (by omega) (by omega), htl _ (by omega) (by omega)]
  have hKm := f1.1
  have hcs : coefScales P (gappy N x mis) ml.toNat K = coefScales P (gappy N y mis) ml.toNat K := by
    unfold coefScales
    by_cases hK : K = ml.toNat
    · rw [if_pos (Or.inl hK), if_pos (Or.inl hK)]
    · have := htc (K + 1) (by omega) (by omega)
      by_cases ht : tooFew (coefSeq P (gappy N x mis) (K + 1))
      · rw [if_pos (Or.inr ht), if_pos (Or.inr (this.1 ht))]
      · rw [if_neg (by tauto), if_neg (by tauto)]
  have hKc : K ≤ coefScales P (gappy N x mis) ml.toNat K ∧ coefScales P (gappy N x mis) ml.toNat K ≤ ml.toNat := by
    unfold coefScales
    split
    · exact ⟨le_rfl, hKm⟩
    · rename_i hne; rw [not_or] at hne; have := hne.1; constructor <;> omega
  have hc := scalesUpTo_paired (fm := .coef) (g := g) (f := coefSeq P (gappy N x mis)) (f' := coefSeq P (gappy N y mis))
    (K := coefScales P (gappy N x mis) ml.toNat K) (fun s hs _ => by rw [hlen _ _ hs, hlen _ _ hs]) fun s hs hsK k hk r => by
      rw [Subsingleton.elim r 0]
      exact hcn s k hs (by omega) (by rw [hlen _ _ hs] at hk; exact hk)
  have hl := scalesUpTo_paired (fm := .leader) (g := g) (f := leadSeq P .inf (gappy N x mis)) (f' := leadSeq P .inf (gappy N y mis))
    (K := K) (fun s hs _ => by rw [leadSeq_length, leadSeq_length, gappy_length, gappy_length]) fun s hs hsK k hk r => by
      rw [Subsingleton.elim r 0]
      exact hln s k hs (by omega) (by rw [leadSeq_length, gappy_length] at hk; exact hk)
  refine ⟨K, coefScales P (gappy N x mis) ml.toNat K, _, _, by rw [c1, c2], by rw [c1]; exact j2Eff_le f1.1 j2, hKc.1, by rw [c1], by rw [c2],
    ?_, ?_, hl.1, hl.2⟩
  · rw [c1, c2, ← hcs]; exact hc.1
  · rw [c1, c2, ← hcs]; exact hc.2

/-- C149: two recordings of one length with the same missing samples are accepted by `bivariate_analysis_full` with leaders, and the marginals of the
results, for coefficients and leaders, with or without weights, are the results of `mf_analysis_full` on each recording alone. -/
theorem C149_full_same {N : ℕ} (x y : Fin 1 → ℤ → ℝ) (mis : Fin 1 → Finset ℤ) {wt : Wavelet} (hwt : wt.Valid) (hN : N ≠ 0) {j1 : ℤ} {j2 : Option ℝ}
    {g nm : ℝ} (hnm : nm ≠ 0) {weighted : Bool} {w : WT 1} (hw : waveletAnalysis (gappy N x mis) .inf wt j1 j2 g nm weighted = .ok w) (h1 : 1 ≤ j1)
    (hj : j1 ≤ w.j2_eff) (q1 q2 : List ℝ) (hn1 : q1.Nodup) (hn2 : q2.Nodup) (hq1 : (0:ℝ) ∈ q1 ∧ (1:ℝ) ∈ q1 ∧ (2:ℝ) ∈ q1)
    (hq2 : (0:ℝ) ∈ q2 ∧ (1:ℝ) ∈ q2 ∧ (2:ℝ) ∈ q2) {n : ℕ} (hn : 2 ≤ n) :
    ∃ d l d1 l1 d2 l2,
      bivariateAnalysisFull (gappy N x mis) (gappy N y mis) j1 j2 nm g weighted wt .inf (some (.ndarray q1)) (some (.ndarray q2)) n = .ok (d, l) ∧
      mfAnalysisFull (gappy N x mis) j1 j2 nm g weighted wt .inf (some (.ndarray q1)) n = .ok ⟨d1, some l1⟩ ∧
      mfAnalysisFull (gappy N y mis) j1 j2 nm g weighted wt .inf (some (.ndarray q2)) n = .ok ⟨d2, some l2⟩ ∧
      Marginals n q1 q2 d d1 d2 ∧ Marginals n q1 q2 l l1 l2 := by
  have hnil : ∀ z : Fin 1 → ℤ → ℝ, gappy N z mis ≠ [] := by
    intro z e
    have := gappy_length N z mis; rw [e] at this; exact hN this.symm
  have ex : ∀ (z : Fin 1 → ℤ → ℝ) (q : List ℝ), (2:ℝ) ∈ q → ∃ w' dd ll leads,
      waveletAnalysis (gappy N z mis) .inf wt j1 j2 g nm weighted = .ok w' ∧ w'.j2_eff = w.j2_eff ∧ w'.wt_leaders = some leads ∧
      mfAnalysisFull (gappy N z mis) j1 j2 nm g weighted wt .inf (some (.ndarray q)) n = .ok ⟨dd, some ll⟩ ∧
      IsBundle w'.wt_coefs j1 w'.j2_eff weighted n q dd ∧ IsBundle leads j1 w'.j2_eff weighted n q ll := by
    intro z q hq
    obtain ⟨w', hw', hfull⟩ := C48_total (gappy N z mis) .inf (Or.inr rfl) wt j1 j2 g nm weighted (some (.ndarray q)) n (by norm_num) (hnil z) hnm
    obtain ⟨_, _, _, _, he, -⟩ := wa_gappy_paired hwt hw' hw
    obtain ⟨d, hd, -, hsome, -⟩ := hfull h1 (by rw [he]; exact hj) hq
    obtain ⟨_, _, _, -, -, -, -, -, -, -, -, hle⟩ := wa_inv hw'
    have hd' := hd
    unfold mfAnalysisFull at hd'
    simp only [hw', C47_bundle, hle.1] at hd'
    obtain ⟨hb, v, hv, hb'⟩ := hd'
    refine ⟨w', d.dwt, v, _, hw', he, hle.1, ?_, hb, hb'⟩
    rw [hd, ← hv]
  obtain ⟨w1, d1, l1, m1, hw1, e1, hm1, hf1, hd1, hl1⟩ := ex x q1 hq1.2.2
  obtain ⟨w2, d2, l2, m2, hw2, e2, hm2, hf2, hd2, hl2⟩ := ex y q2 hq2.2.2
  obtain ⟨J, Jc, a1, a2, he, hJ, hJc, ha1, ha2, hpc, hsc, hpl, hsl⟩ := wa_gappy_paired hwt hw1 hw2
  rw [hm1] at ha1; rw [hm2] at ha2
  cases ha1; cases ha2
  rw [← he] at hd2 hl2
  rw [← e1] at hj
  obtain ⟨d, hd, hdm⟩ := biVar_marginals hpc hsc h1 hj (by omega) weighted n hn q1 q2 hn1 hn2 hq1 hq2 hd1 hd2
  obtain ⟨l, hl, hlm⟩ := biVar_marginals hpl hsl h1 hj hJ weighted n hn q1 q2 hn1 hn2 hq1 hq2 hl1 hl2
  refine ⟨d, l, d1, l1, d2, l2, ?_, hf1, hf2, hdm, hlm⟩
  unfold bivariateAnalysisFull bivariateAnalysis
  simp only [hw1, hw2, hm1, hm2, ← he, min_self, hd, hl]

/-! Concrete cases.  The window of the coefficient (1, 4) of `haar` is the samples 8 and 9, that of (1, 5) the samples 10 and 11: a complete recording of 24
samples and one without the sample 10 are refused; one without the sample 10 and one without the sample 8 have the same numbers of coefficients. -/

private theorem haar_valid' : haar.Valid := ⟨rfl, by simp [haar]⟩

private theorem haar_len : haar.dec_hi.length = 2 := by simp [haar]

private theorem uses_haar (k t : ℤ) : Uses 2 1 k t ↔ 2 * k ≤ t ∧ t ≤ 2 * k + 1 := by
  unfold Uses firstSample lastSample
  norm_num

private theorem intact_haar (m : ℤ) : intact 24 2 1 {m} = (interior 24 2 1).filter fun (k : ℕ) => ¬ (2 * (k : ℤ) ≤ m ∧ m ≤ 2 * k + 1) := by
  ext k
  simp only [intact, Finset.mem_filter, Finset.mem_singleton, forall_eq, uses_haar]

example (x y : Fin 1 → ℤ → ℝ) (c : ℕ) (q1 q2 : Option QArg) :
    ∃ w1 w2, waveletAnalysis (gappy 24 x fun _ => {10}) .none haar 1 none 0 1 false = .ok w1 ∧
      waveletAnalysis (gappy 24 y fun _ => ∅) .none haar 1 none 0 1 false = .ok w2 ∧
      bivariateAnalysis false w1 w2 1 false c q1 q2 = .error .assertionError ∧
      bivariateAnalysisFull (gappy 24 x fun _ => {10}) (gappy 24 y fun _ => ∅) 1 none 1 0 false haar .none q1 q2 c = .error .assertionError := by
  have c10 : (intact 24 2 1 {10}).card = 10 := by rw [intact_haar]; decide
  have h3 : ∀ (r : Fin 1) (s : ℕ), 1 ≤ s → s ≤ 1 → 3 ≤ (intact 24 haar.dec_hi.length s {10}).card := by
    intro r s h1 h2
    obtain rfl : s = 1 := by omega
    rw [haar_len, c10]; norm_num
  obtain ⟨w1, e1, hn⟩ := C125_scales x (fun _ => {10}) haar_valid' 1 none 0 1 false (by norm_num) (by norm_num) (by norm_num) (J := 1) (by simp [haar]) h3
  obtain ⟨w2, e2⟩ := C05_total (gappy 24 y fun _ => ∅) .none (Or.inl rfl) haar 1 none 0 1 false one_ne_zero
    (by intro e; have := gappy_length 24 y (fun _ => ∅); rw [e] at this; cases this) one_ne_zero
  have hne : (intact 24 haar.dec_hi.length 1 {10}).card ≠ (intact 24 haar.dec_hi.length 1 ∅).card := by
    rw [haar_len]
    refine (intact_lt (k := 5) (t := 10) (Finset.empty_subset _) ?_ (by simp) ?_).ne
    · rw [intact, Finset.mem_filter]
      exact ⟨by decide, by simp⟩
    · rw [uses_haar]; norm_num
  have hn1 := hn 0 1 le_rfl le_rfl
  exact ⟨w1, w2, e1, e2, (C149_refused haar_valid' haar_valid' e1 e2 hn1 hne 1 1 false c).2.2 q1 q2,
    C149_full_refused (Or.inl rfl) haar_valid' one_ne_zero (by norm_num) e1 hn1 hne c q1 q2⟩

private theorem uses_haar2 (k t : ℤ) : Uses 2 2 k t ↔ 4 * k ≤ t ∧ t ≤ 4 * k + 3 := by
  unfold Uses firstSample lastSample
  norm_num

/-- A recording of 22 samples with these missing samples has the two scales 1 and 2, with the numbers of coefficients shown. -/
private theorem two_scales (x : Fin 1 → ℤ → ℝ) (m : Finset ℤ) {a b : ℕ} (ha : (intact 22 2 1 m).card = a) (hb : (intact 22 2 2 m).card = b) (h3 : 3 ≤ a)
    (h4 : 3 ≤ b) : ∃ w, waveletAnalysis (gappy 22 x fun _ => m) .none haar 1 none 0 1 false = .ok w ∧ w.wt_coefs.values.length = 2 ∧
      ∀ s : ℕ, w.wt_coefs.nj? s 0 = if s = 1 then some a else if s = 2 then some b else none := by
  obtain ⟨w, e, hn⟩ := C125_scales (N := 22) x (fun _ => m) haar_valid' 1 none 0 1 false (by norm_num) (by norm_num) (by norm_num) (J := 2) (by simp [haar])
    (by
      intro r s h1 h2
      rw [haar_len]
      rcases (by omega : s = 1 ∨ s = 2) with rfl | rfl <;> omega)
  obtain ⟨ml, K, h1, h2, -, h5⟩ := wa_none_inv e
  rw [gappy_length] at h1
  have hml : ml.toNat ≤ 2 := by
    have h := ((maxLevel_iff (by norm_num) ml).1 h1).1
    by_contra hc
    have hle : (3 : ℤ) ≤ ml := by omega
    have h6 : (2:ℝ) ^ (3 : ℤ) ≤ (2:ℝ) ^ ml := zpow_le_zpow_right₀ (by norm_num) hle
    rw [haar_len] at h
    norm_num at h h6
    linarith
  have e1 : w.wt_coefs = scalesUpTo .coef 0 (coefSeq (wparams haar 0 1) (gappy 22 x fun _ => m)) K := by rw [h5]
  have hK : K = 2 := by
    have := hn 0 2 (by norm_num) le_rfl
    rw [e1, scalesUpTo_nj] at this
    split at this
    · have := h2.1; omega
    · cases this
  refine ⟨w, e, by rw [e1, hK]; simp [scalesUpTo], fun s => ?_⟩
  by_cases hs : 1 ≤ s ∧ s ≤ 2
  · rw [hn 0 s hs.1 hs.2, haar_len]
    rcases (by omega : s = 1 ∨ s = 2) with rfl | rfl
    · rw [if_pos rfl, ha]
    · rw [if_neg (by norm_num), if_pos rfl, hb]
  · rw [e1, scalesUpTo_nj, hK, if_neg hs, if_neg (by omega), if_neg (by omega)]

example (x y : Fin 1 → ℤ → ℝ) (j1 j2 : ℤ) (q1 q2 : QArg) :
    ∃ w1 w2 u1 u2, waveletAnalysis (gappy 22 x fun _ => {10}) .none haar 1 none 0 1 false = .ok w1 ∧
      waveletAnalysis (gappy 22 y fun _ => {8}) .none haar 1 none 0 1 false = .ok w2 ∧
      waveletAnalysis (gappy 22 x fun _ => {10} ∪ {8}) .none haar 1 none 0 1 false = .ok u1 ∧
      waveletAnalysis (gappy 22 y fun _ => {10} ∪ {8}) .none haar 1 none 0 1 false = .ok u2 ∧
      BiStructFn.make false w1.wt_coefs w2.wt_coefs j1 j2 q1 q2 false = BiStructFn.make false u1.wt_coefs u2.wt_coefs j1 j2 q1 q2 false ∧
      w1.wt_coefs.nj? 1 0 = some 9 ∧ u1.wt_coefs.nj? 1 0 = some 8 := by
  have i1 : ∀ m : ℤ, intact 22 2 1 {m} = (interior 22 2 1).filter fun (k : ℕ) => ¬ (2 * (k : ℤ) ≤ m ∧ m ≤ 2 * k + 1) := by
    intro m; ext k; simp only [intact, Finset.mem_filter, Finset.mem_singleton, forall_eq, uses_haar]
  have i2 : ∀ m : ℤ, intact 22 2 2 {m} = (interior 22 2 2).filter fun (k : ℕ) => ¬ (4 * (k : ℤ) ≤ m ∧ m ≤ 4 * k + 3) := by
    intro m; ext k; simp only [intact, Finset.mem_filter, Finset.mem_singleton, forall_eq, uses_haar2]
  have v1 : (intact 22 2 1 ({10} ∪ {8})).card = 8 := by
    rw [show intact 22 2 1 ({10} ∪ {8}) = intact 22 2 1 {10} ∩ intact 22 2 1 {8} from by ext k; rw [intact_union, Finset.mem_inter], i1, i1]; decide
  have v2 : (intact 22 2 2 ({10} ∪ {8})).card = 4 := by
    rw [show intact 22 2 2 ({10} ∪ {8}) = intact 22 2 2 {10} ∩ intact 22 2 2 {8} from by ext k; rw [intact_union, Finset.mem_inter], i2, i2]; decide
  obtain ⟨w1, e1, l1, n1⟩ := two_scales x {10} (a := 9) (b := 4) (by rw [i1]; decide) (by rw [i2]; decide) (by norm_num) (by norm_num)
  obtain ⟨w2, e2, l2, n2⟩ := two_scales y {8} (a := 9) (b := 4) (by rw [i1]; decide) (by rw [i2]; decide) (by norm_num) (by norm_num)
  obtain ⟨u1, e3, l3, n3⟩ := two_scales x ({10} ∪ {8}) v1 v2 (by norm_num) (by norm_num)
  obtain ⟨u2, e4, l4, n4⟩ := two_scales y ({10} ∪ {8}) v1 v2 (by norm_num) (by norm_num)
  have hE : SameEntries w1.wt_coefs.nj w2.wt_coefs.nj := by
    intro j
    obtain ⟨_, _, K, -, -, -, -, -, c1, -⟩ := wa_inv e1
    obtain ⟨_, _, K', -, -, -, -, -, c2, -⟩ := wa_inv e2
    obtain rfl : K = 2 := by rw [c1] at l1; simpa [scalesUpTo] using l1
    obtain rfl : K' = 2 := by rw [c2] at l2; simpa [scalesUpTo] using l2
    have hc : ∀ s, 1 ≤ s → s ≤ 2 → countNotNaN (col (coefSeq (wparams haar 0 1) (gappy 22 x fun _ => {10}) s) 0) =
        countNotNaN (col (coefSeq (wparams haar 0 1) (gappy 22 y fun _ => {8}) s) 0) := by
      intro s h1 h2
      have a := n1 s
      have b := n2 s
      rw [c1, scalesUpTo_nj, if_pos ⟨h1, h2⟩] at a
      rw [c2, scalesUpTo_nj, if_pos ⟨h1, h2⟩] at b
      exact Option.some.inj (a.trans b.symm)
    have := (paired_of_counts (fm := .coef) (g := 0) (fun s hs _ => by
      rw [coefSeq_length _ _ _ hs, coefSeq_length _ _ _ hs, gappy_length, gappy_length]) hc).nj
    rw [c1, c2, this]
  exact ⟨w1, w2, u1, u2, e1, e2, e3, e4, (C149_union haar_valid' e1 e2 (mis := fun _ => {10}) (mis' := fun _ => {8}) e3 e4 hE (l3.trans l1.symm)
    (l4.trans l1.symm) j1 j2).1 q1 q2, n1 1, n3 1⟩

private theorem three {f : Arr 1} (h3 : 3 ≤ f.length) (h : ∀ k < 3, ent f k 0 ≠ Fl.nan) : ¬ tooFew f := by
  rw [tooFew_iff]
  rintro ⟨r, hr⟩
  rw [Subsingleton.elim r 0, col_range, countNotNaN_countP] at hr
  obtain ⟨m, hm⟩ : ∃ m, f.length = 3 + m := ⟨f.length - 3, by omega⟩
  rw [hm, List.range_add, List.map_append, List.countP_append] at hr
  have h0 := (Fl.not_isNaN_iff _).2 (h 0 (by norm_num))
  have h1 := (Fl.not_isNaN_iff _).2 (h 1 (by norm_num))
  have h2 := (Fl.not_isNaN_iff _).2 (h 2 (by norm_num))
  simp [List.range_succ, h0, h1, h2] at hr

example (x y : Fin 1 → ℤ → ℝ) : ∃ d l, bivariateAnalysisFull (gappy 24 x fun _ => {10}) (gappy 24 y fun _ => {10}) 1 none 1 0 false haar .inf
    (some (.ndarray [0, 1, 2])) (some (.ndarray [0, 1, 2])) 3 = .ok (d, l) := by
  obtain ⟨w, hw⟩ := C05_total (gappy 24 x fun _ => {10}) .inf (Or.inr rfl) haar 1 none 0 1 false one_ne_zero
    (by intro e; have := gappy_length 24 x (fun _ => {10}); rw [e] at this; cases this) one_ne_zero
  have hj : 1 ≤ w.j2_eff := by
    obtain ⟨ml, K, h1, h2, -, h5⟩ := wa_inf_inv hw
    rw [gappy_length] at h1
    have hml : 1 ≤ ml := by
      have h := ((maxLevel_iff (by norm_num) ml).1 h1).2
      by_contra hc
      have h6 : (2:ℝ) ^ (ml + 1) ≤ (2:ℝ) ^ (1 : ℤ) := zpow_le_zpow_right₀ (by norm_num) (by omega)
      rw [haar_len] at h
      norm_num at h h6
      linarith
    have hco : ∀ k < 5, ent (coefSeq (wparams haar 0 1) (gappy 24 x fun _ => {10}) 1) k 0 ≠ Fl.nan := by
      intro k hk
      rw [Ne, gappy_nan_iff x _ haar_valid' 0 1 0 le_rfl (by omega) fun i hi => level_room h1 (by omega), haar_len]
      have hin : k ∈ interior 24 2 1 := by
        rw [interior, Finset.mem_filter, Finset.mem_range]; omega
      rintro (hc | ⟨t, ht, hu⟩)
      · exact hc hin
      · rw [Finset.mem_singleton] at ht
        unfold Uses firstSample lastSample at hu
        norm_num at hu
        omega
    have hK : 1 ≤ K := by
      by_contra hc
      obtain rfl : K = 0 := by omega
      refine h2.2.2 (by omega) ⟨three ?_ fun k hk => hco k (by omega), three ?_ fun k hk => ?_⟩
      · rw [coefSeq_length _ _ _ le_rfl, gappy_length]; norm_num
      · rw [leadSeq_length, gappy_length]; norm_num
      · rw [Ne, ent_leadSeq_nan_iff _ _ _ _ le_rfl (by rw [gappy_length]; omega)]
        intro hall
        exact hco k (by omega) (hall 1 k (by unfold InNbhd; norm_num))
    rw [h5]
    have := h2.1
    simp only [j2Eff, finalLevel]
    split <;> omega
  obtain ⟨d, l, _, _, _, _, h, -⟩ := C149_full_same x y (fun _ => {10}) haar_valid' (by norm_num) one_ne_zero hw le_rfl hj [0, 1, 2] [0, 1, 2]
    (by norm_num) (by norm_num) (by norm_num) (by norm_num) (n := 3) (by norm_num)
  exact ⟨d, l, h⟩
end MFA
