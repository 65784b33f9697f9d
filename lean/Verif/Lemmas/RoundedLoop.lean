import Verif.Lemmas.RoundedRel
import Verif.Lemmas.RoundedWavelet
import Verif.Spec.RoundWavelet

/-! The wavelet transform computed with rounding errors, compared with the exact one. -/

namespace MFA

open Classical

noncomputable section

variable {R : ℕ} {M : Machine}

theorem RelA.normalize {k : ℕ} {A : ℝ} {a b : Arr R} (h : RelA (ApE M k A) a b) (s : ℕ) {nm : ℝ} (hnm : nm ≠ 0) (g : ℝ) (hu : 3 * M.u ≤ 1) :
    ∃ a' b' : Arr R, MFA.normalize a s nm g = .ok a' ∧ M.normalize b s nm g = .ok b' ∧
      RelA (ApE M (k + (⌈6 * (s * (1 / 2 + 1 / |nm|))⌉₊ + ⌈2 * (|g| * s)⌉₊ + 4)) ((2:ℝ) ^ ((s : ℝ) * (1 / 2 - 1 / nm + g)) * A)) a' b' := by
  have hu0 := M.u_nonneg
  have h1 : Ap M 3 (s * (1 / 2 + 1 / |nm|)) (M.mul (Fl.fin s) (M.sub (Fl.fin (1 / 2)) (M.div (Fl.fin 1) (Fl.fin nm)))) (s * (1 / 2 - 1 / nm)) := by
    have := (Ap.exact M 0 (le_of_eq (abs_of_nonneg (Nat.cast_nonneg (α := ℝ) s)))).mul
      ((Ap.exact M 1 (le_of_eq (abs_of_pos (by norm_num : (0:ℝ) < 1 / 2)))).sub (Ap.inv M hnm))
    exact this
  have h2 : Ap M 1 (|g| * s) (M.mul (Fl.fin g) (Fl.fin s)) (g * s) := by
    have := (Ap.exact M 0 (le_refl |g|)).mul (Ap.exact M 0 (le_of_eq (abs_of_nonneg (Nat.cast_nonneg (α := ℝ) s))))
    exact this
  have h3 := h1.exp2 (by norm_num) (by exact_mod_cast hu) (K := ⌈6 * (s * (1 / 2 + 1 / |nm|))⌉₊) (le_trans (le_of_eq (by norm_num)) (Nat.le_ceil _))
  have h4 := h2.exp2 (by norm_num) (by push_cast; linarith) (K := ⌈2 * (|g| * s)⌉₊) (le_trans (le_of_eq (by norm_num)) (Nat.le_ceil _))
  refine ⟨_, _, by rw [MFA.normalize, if_neg hnm], by rw [Machine.normalize, if_neg hnm], h.map fun x y hxy => ?_⟩
  have key := (hxy.mul h3).mul h4
  have e : A * (2:ℝ) ^ ((s : ℝ) * (1 / 2 - 1 / nm)) * (2:ℝ) ^ (g * (s : ℝ)) = (2:ℝ) ^ ((s : ℝ) * (1 / 2 - 1 / nm + g)) * A := by
    rw [mul_assoc, ← Real.rpow_add (by norm_num), mul_comm]
    ring_nf
  rw [e] at key
  exact key.mono (by omega) le_rfl

/-! ### Multiresolution quantities -/

/-- Same formalism, `gamint`, scales and `nj`; arrays of the same lengths, with entries related by `P`, which depends on the scale. -/
structure RelM (P : ℤ → Fl → Fl → Prop) (m m' : MRQ R) : Prop where
  formalism : m'.formalism = m.formalism
  gamint : m'.gamint = m.gamint
  nj : m'.nj = m.nj
  values : List.Forall₂ (fun a b : ℤ × Arr R => a.1 = b.1 ∧ RelA (P a.1) a.2 b.2) m.values m'.values

theorem RelM.empty (P : ℤ → Fl → Fl → Prop) (f : Formalism) (g : ℝ) : RelM (R := R) P (MRQ.empty f g) (MRQ.empty f g) :=
  ⟨rfl, rfl, rfl, List.Forall₂.nil⟩

theorem set_rel {Q : ℤ → Arr R → Arr R → Prop} {d d' : Dict (Arr R)} (h : List.Forall₂ (fun a b : ℤ × Arr R => a.1 = b.1 ∧ Q a.1 a.2 b.2) d d') (j : ℤ)
    {a b : Arr R} (hab : Q j a b) : List.Forall₂ (fun a b : ℤ × Arr R => a.1 = b.1 ∧ Q a.1 a.2 b.2) (Dict.set d j a) (Dict.set d' j b) := by
  induction h with
  | nil => exact List.Forall₂.cons ⟨rfl, hab⟩ List.Forall₂.nil
  | @cons x y d d' hxy ht ih =>
    obtain ⟨k, u⟩ := x
    obtain ⟨k', v⟩ := y
    obtain ⟨e, hq⟩ := hxy
    dsimp only at e hq
    subst e
    simp only [Dict.set]
    by_cases hk : k = j
    · rw [if_pos hk, if_pos hk]
      subst hk
      exact List.Forall₂.cons ⟨rfl, hab⟩ ht
    · rw [if_neg hk, if_neg hk]
      exact List.Forall₂.cons ⟨rfl, hq⟩ ih

theorem RelM.add {P : ℤ → Fl → Fl → Prop} {m m' : MRQ R} (h : RelM P m m') (j : ℤ) (hP : ∀ a b, P j a b → (a = Fl.nan ↔ b = Fl.nan)) {a b : Arr R}
    (hab : RelA (P j) a b) : RelM P (m.addValues a j) (m'.addValues b j) := by
  refine ⟨h.formalism, h.gamint, ?_, set_rel (Q := fun j => RelA (P j)) h.values j hab⟩
  show Dict.set m'.nj j _ = Dict.set m.nj j _
  rw [h.nj]
  congr 1
  funext r
  exact (hab.count hP r).symm

theorem RelM.mono {P Q : ℤ → Fl → Fl → Prop} {m m' : MRQ R} (h : RelM P m m') (hPQ : ∀ p ∈ m.values, ∀ x y, P p.1 x y → Q p.1 x y) : RelM Q m m' := by
  refine ⟨h.formalism, h.gamint, h.nj, ?_⟩
  have hv := h.values
  revert hPQ hv
  generalize m.values = d
  generalize m'.values = d'
  intro hPQ hv
  induction hv with
  | nil => exact List.Forall₂.nil
  | @cons x y d d' hxy _ ih =>
    exact List.Forall₂.cons ⟨hxy.1, hxy.2.mono (hPQ x (by simp))⟩ (ih fun p hp => hPQ p (by simp [hp]))

theorem RelM.regular {P : ℤ → Fl → Fl → Prop} (hP : ∀ j a b, P j a b → (a = Fl.nan ↔ b = Fl.nan)) {m m' : MRQ R} (h : RelM P m m') {J : ℕ}
    (hm : Regular m J) : Regular m' J := by
  have hv := h.values
  have e1 : m'.values.map Prod.fst = m.values.map Prod.fst := by
    revert hv
    generalize m.values = d
    generalize m'.values = d'
    intro hv
    induction hv with
    | nil => rfl
    | cons hxy _ ih => rw [List.map_cons, List.map_cons, ih, hxy.1]
  have e2 : (m'.values.map fun p => (p.1, fun r => countNotNaN (col p.2 r))) = m.values.map fun p => (p.1, fun r => countNotNaN (col p.2 r)) := by
    revert hv
    generalize m.values = d
    generalize m'.values = d'
    intro hv
    induction hv with
    | nil => rfl
    | cons hxy _ ih =>
      rw [List.map_cons, List.map_cons, ih]
      congr 1
      rw [hxy.1]
      congr 1
      funext r
      exact (hxy.2.count (hP _) r).symm
  exact ⟨e1.trans hm.1, by rw [h.nj, hm.2, e2]⟩

/-! ### Coefficients -/

/-- The sizes and numbers of roundings at scale `s`, when the samples are of size `A`. -/
def coefRel (M : Machine) (P : LoopParams) (A : ℝ) (s : ℤ) : Fl → Fl → Prop :=
  ApE M (coefRoundings P.high.length P.normalization P.gamint s.toNat)
    ((2:ℝ) ^ ((s.toNat : ℝ) * (1 / 2 - 1 / P.normalization + P.gamint)) *
      ((P.high.map fun a => |a|).sum * (P.low.map fun a => |a|).sum ^ (s.toNat - 1)) * A)

theorem detail_rel {P : LoopParams} (hlen : P.low.length = P.high.length) (hnm : P.normalization ≠ 0) (hu : 3 * M.u ≤ 1) {A : ℝ} (hA : 0 ≤ A) {s : ℕ}
    {a b : Arr R} (h : RelA (ApE M (s * (P.high.length + 1)) ((P.low.map fun a => |a|).sum ^ s * A)) a b) :
    ∃ a' b' : Arr R, MFA.normalize (MFA.filtering a P.high P.low).1 (s + 1) P.normalization P.gamint = .ok a' ∧
      M.normalize (M.filtering b P.high P.low).1 (s + 1) P.normalization P.gamint = .ok b' ∧ RelA (coefRel M P A (s + 1 : ℕ)) a' b' ∧
      RelA (ApE M ((s + 1) * (P.high.length + 1)) ((P.low.map fun a => |a|).sum ^ (s + 1) * A)) (MFA.filtering a P.high P.low).2
        (M.filtering b P.high P.low).2 := by
  have hL : 0 ≤ (P.low.map fun a => |a|).sum := List.sum_nonneg (by intro a ha; obtain ⟨b, -, rfl⟩ := List.mem_map.1 ha; exact abs_nonneg _)
  have hA' : 0 ≤ (P.low.map fun a => |a|).sum ^ s * A := mul_nonneg (pow_nonneg hL _) hA
  obtain ⟨a', b', e1, e2, h3⟩ := (h.conv hA' P.high.length P.high).normalize (s + 1) hnm P.gamint hu
  refine ⟨a', b', e1, e2, ?_, ?_⟩
  · refine h3.mono fun x y hxy => hxy.mono ?_ (le_of_eq ?_)
    · rw [Int.toNat_natCast, coefRoundings]
      ring_nf
      omega
    · rw [Int.toNat_natCast, Nat.add_sub_cancel]
      ring
  · refine (h.conv hA' P.high.length P.low).mono fun x y hxy => hxy.mono ?_ (le_of_eq (by ring))
    rw [hlen]
    exact le_of_eq (by ring)

theorem coefRel_nan {P : LoopParams} {A : ℝ} (j : ℤ) (a b : Fl) (h : coefRel M P A j a b) : a = Fl.nan ↔ b = Fl.nan := ApE.nan_iff h

theorem coefLoop_rel (P : LoopParams) (hlen : P.low.length = P.high.length) (hR : R ≠ 0) (hnm : P.normalization ≠ 0) (hu : 3 * M.u ≤ 1) {A : ℝ} (hA : 0 ≤ A) :
    ∀ (n s : ℕ) (ml : ℤ) (a b : Arr R) (acc acc' : MRQ R),
      RelA (ApE M (s * (P.high.length + 1)) ((P.low.map fun a => |a|).sum ^ s * A)) a b → RelM (coefRel M P A) acc acc' →
      ∃ r r' ml', MFA.coefLoop P n (s + 1) ml a acc = .ok (r, ml') ∧ M.coefLoop P n (s + 1) ml b acc' = .ok (r', ml') ∧ RelM (coefRel M P A) r r' := by
  intro n
  induction n with
  | zero => intro s ml a b acc acc' _ h; exact ⟨acc, acc', ml, rfl, rfl, h⟩
  | succ n ih =>
    intro s ml a b acc acc' hab hacc
    obtain ⟨a', b', e1, e2, h3, h4⟩ := detail_rel hlen hnm hu hA hab
    have ht := h3.tooFew (coefRel_nan _)
    unfold Machine.coefLoop MFA.coefLoop
    rw [if_neg hR, if_neg hR]
    simp only
    rw [e1, e2]
    simp only
    by_cases htf : MFA.tooFew a'
    · rw [if_pos htf, if_pos (ht.1 htf)]
      exact ⟨acc, acc', _, rfl, rfl, hacc⟩
    · rw [if_neg htf, if_neg fun h => htf (ht.2 h)]
      exact ih (s + 1) ml _ _ _ _ h4 (hacc.add _ (coefRel_nan _) h3)

/-! ### Leaders -/

theorem Ap.max {k : ℕ} {A x y : ℝ} {f g : Fl} (hf : Ap M k A f x) (hg : Ap M k A g y) : Ap M k A (Fl.max f g) (Max.max x y) := by
  obtain ⟨z, rfl, h2, h3⟩ := hf
  obtain ⟨z', rfl, h2', h3'⟩ := hg
  exact ⟨Max.max z z', rfl, (abs_max_sub_max_le_max _ _ _ _).trans (max_le h2 h2'), (abs_max_le_max_abs_abs).trans (max_le h3 h3')⟩

theorem nanmax_rel {k : ℕ} {A : ℝ} {l l' : List Fl} (h : List.Forall₂ (ApE M k A) l l') : ApE M k A (nanmax l) (nanmax l') := by
  have hd : List.Forall₂ (fun a b => ∃ x : ℝ, a = Fl.fin x ∧ Ap M k A b x) (dropNaN l) (dropNaN l') := by
    induction h with
    | nil => exact List.Forall₂.nil
    | @cons a b l l' hab _ ih =>
      rcases hab with ⟨rfl, rfl⟩ | ⟨x, rfl, hx⟩
      · simpa [dropNaN] using ih
      · obtain ⟨z, rfl, h2⟩ := id hx
        have : List.Forall₂ (fun a b => ∃ x : ℝ, a = Fl.fin x ∧ Ap M k A b x) (Fl.fin x :: dropNaN l) (Fl.fin z :: dropNaN l') :=
          List.Forall₂.cons ⟨x, rfl, hx⟩ ih
        simpa [dropNaN] using this
  have key : ∀ {t t' : List Fl}, List.Forall₂ (fun a b => ∃ x : ℝ, a = Fl.fin x ∧ Ap M k A b x) t t' → ∀ (x : ℝ) (y : Fl), Ap M k A y x →
      ∃ x' : ℝ, t.foldl Fl.max (Fl.fin x) = Fl.fin x' ∧ Ap M k A (t'.foldl Fl.max y) x' := by
    intro t t' ht
    induction ht with
    | nil => intro x y hy; exact ⟨x, rfl, hy⟩
    | @cons a b t t' hab _ ih =>
      intro x y hy
      obtain ⟨x1, rfl, hx1⟩ := hab
      exact ih (Max.max x x1) (Fl.max y b) (hy.max hx1)
  unfold nanmax
  revert hd
  generalize dropNaN l = t
  generalize dropNaN l' = t'
  intro hd
  cases hd with
  | nil => exact ApE.nan _ _
  | cons hab ht =>
    obtain ⟨x, rfl, hx⟩ := hab
    obtain ⟨x', e, hx'⟩ := key ht x _ hx
    exact Or.inr ⟨x', e, hx'⟩

theorem RelA.stack3 {Q : Fl → Fl → Prop} {f g : List Fl → Fl} (hfg : ∀ x y z x' y' z', Q x x' → Q y y' → Q z z' → Q (f [x, y, z]) (g [x', y', z']))
    {a b c a' b' c' : Arr R} (ha : RelA Q a a') (hb : RelA Q b b') (hc : RelA Q c c') :
    (∃ e, MFA.stack3 f a b c = .error e ∧ MFA.stack3 g a' b' c' = .error e) ∨
    ∃ d d', MFA.stack3 f a b c = .ok d ∧ MFA.stack3 g a' b' c' = .ok d' ∧ RelA Q d d' := by
  unfold MFA.stack3
  rw [← ha.length, ← hb.length, ← hc.length]
  by_cases h : a.length = b.length ∧ b.length = c.length
  · rw [if_pos h, if_pos h]
    refine Or.inr ⟨_, _, rfl, rfl, ?_⟩
    unfold RelA
    rw [List.forall₂_map_left_iff, List.forall₂_map_right_iff]
    unfold RelA at ha hb hc
    clear h
    induction ha generalizing b c b' c' with
    | nil => exact List.Forall₂.nil
    | cons h1 _ ih =>
      cases hb with
      | nil => exact List.Forall₂.nil
      | cons h2 hb =>
        cases hc with
        | nil => exact List.Forall₂.nil
        | cons h3 hc => exact List.Forall₂.cons (fun r => hfg _ _ _ _ _ _ (h1 r) (h2 r) (h3 r)) (ih hb hc)
  · rw [if_neg h, if_neg h]
    exact Or.inl ⟨_, rfl, rfl⟩

theorem RelA.everySecond {Q : Fl → Fl → Prop} {a a' : Arr R} (h : RelA Q a a') (i j : ℕ) : RelA Q (MFA.everySecond a i j) (MFA.everySecond a' i j) := by
  unfold MFA.everySecond RelA
  generalize (List.range ((j - i + 1) / 2)) = l
  induction l with
  | nil => exact List.Forall₂.nil
  | cons k l ih =>
    rcases h.get (i + 2 * k) with ⟨e1, e2⟩ | ⟨u, v, e1, e2, e3⟩
    · simp only [List.filterMap_cons, e1, e2]; exact ih
    · simp only [List.filterMap_cons, e1, e2]; exact List.Forall₂.cons e3 ih

theorem computeLeaders_rel {k : ℕ} {A : ℝ} {d d' sv sv' : Arr R} (hd : RelA (ApE M k A) d d') (hsv : RelA (ApE M k A) sv sv') (s : ℕ) :
    (∃ e, MFA.computeLeaders d sv s .inf = .error e ∧ M.computeLeaders d' sv' s .inf = .error e) ∨
    ∃ r r', MFA.computeLeaders d sv s .inf = .ok r ∧ M.computeLeaders d' sv' s .inf = .ok r' ∧ RelA (ApE M k A) r.1 r'.1 ∧ RelA (ApE M k A) r.2 r'.2 := by
  have hred : ∀ x y z x' y' z', ApE M k A x x' → ApE M k A y y' → ApE M k A z z' →
      ApE M k A (MFA.leaderRed (checkFormalism .inf) [x, y, z]) (M.leaderRed (checkFormalism .inf) [x', y', z']) := by
    intro x y z x' y' z' h1 h2 h3
    exact nanmax_rel (List.Forall₂.cons h1 (List.Forall₂.cons h2 (List.Forall₂.cons h3 List.Forall₂.nil)))
  have hin : RelA (ApE M k A) (MFA.leaderInput d s .inf) (M.leaderInput d' s .inf) := hd.map fun x y h => h.abs
  have hf : (∃ e, MFA.findSansVoisin s (MFA.leaderInput d s .inf) sv (checkFormalism .inf) = .error e ∧
        M.findSansVoisin s (M.leaderInput d' s .inf) sv' (checkFormalism .inf) = .error e) ∨
      ∃ a a', MFA.findSansVoisin s (MFA.leaderInput d s .inf) sv (checkFormalism .inf) = .ok a ∧
        M.findSansVoisin s (M.leaderInput d' s .inf) sv' (checkFormalism .inf) = .ok a' ∧ RelA (ApE M k A) a a' := by
    unfold MFA.findSansVoisin Machine.findSansVoisin
    by_cases hs : s = 1
    · rw [if_pos hs, if_pos hs]; exact Or.inr ⟨_, _, rfl, rfl, hin⟩
    · rw [if_neg hs, if_neg hs, ← hsv.length]
      exact RelA.stack3 hred (List.forall₂_take _ hin) (hsv.everySecond _ _) (hsv.everySecond _ _)
  unfold MFA.computeLeaders Machine.computeLeaders
  simp only
  rcases hf with ⟨e, e1, e2⟩ | ⟨a, a', e1, e2, ha⟩
  · rw [e1, e2]; exact Or.inl ⟨e, rfl, rfl⟩
  · rw [e1, e2]
    simp only
    rw [← ha.length]
    rcases RelA.stack3 hred (forall₂_take_drop ha 0 ((a.length : ℤ) - 2)) (forall₂_take_drop ha 1 ((a.length : ℤ) - 1)) (forall₂_take_drop ha 2 (a.length : ℤ)) with
      ⟨e, e3, e4⟩ | ⟨l, l', e3, e4, hl⟩
    · rw [e3, e4]; exact Or.inl ⟨e, rfl, rfl⟩
    · rw [e3, e4]
      exact Or.inr ⟨(l, a), (l', a'), rfl, rfl, hl, ha⟩

/-- Leaders of scale `s`, of size at most `S s`. -/
def leadRel (M : Machine) (P : LoopParams) (S : ℕ → ℝ) (s : ℤ) : Fl → Fl → Prop :=
  ApE M (coefRoundings P.high.length P.normalization P.gamint s.toNat) (S s.toNat)

theorem leadRel_nan {P : LoopParams} {S : ℕ → ℝ} (j : ℤ) (a b : Fl) (h : leadRel M P S j a b) : a = Fl.nan ↔ b = Fl.nan := ApE.nan_iff h

theorem coefRoundings_mono (F : ℕ) (nm g : ℝ) : Monotone (coefRoundings F nm g) := by
  intro i j hij
  unfold coefRoundings
  have hc : (i : ℝ) ≤ j := by exact_mod_cast hij
  have h1 : ⌈6 * ((i : ℝ) * (1 / 2 + 1 / |nm|))⌉₊ ≤ ⌈6 * ((j : ℝ) * (1 / 2 + 1 / |nm|))⌉₊ := Nat.ceil_mono (by gcongr)
  have h2 : ⌈2 * (|g| * (i : ℝ))⌉₊ ≤ ⌈2 * (|g| * (j : ℝ))⌉₊ := Nat.ceil_mono (by gcongr)
  have h3 : i * (F + 1) ≤ j * (F + 1) := Nat.mul_le_mul_right _ hij
  omega

theorem leadLoop_rel (P : LoopParams) (hlen : P.low.length = P.high.length) (hR : R ≠ 0) (hnm : P.normalization ≠ 0) (hu : 3 * M.u ≤ 1) {A : ℝ} (hA : 0 ≤ A)
    {S : ℕ → ℝ} (hSm : Monotone S) (hS : ∀ s : ℕ, (2:ℝ) ^ (((s + 1 : ℕ) : ℝ) * (1 / 2 - 1 / P.normalization + P.gamint)) *
      ((P.high.map fun a => |a|).sum * (P.low.map fun a => |a|).sum ^ s) * A ≤ S (s + 1)) :
    ∀ (n s : ℕ) (ml : ℤ) (a b : Arr R) (st st' : LeadState R),
      RelA (ApE M (s * (P.high.length + 1)) ((P.low.map fun a => |a|).sum ^ s * A)) a b → RelM (coefRel M P A) st.coefs st'.coefs →
      RelM (leadRel M P S) st.leaders st'.leaders → RelA (leadRel M P S s) st.sans_voisin st'.sans_voisin →
      (∃ e, MFA.leadLoop P .inf n (s + 1) ml a st = .error e ∧ M.leadLoop P .inf n (s + 1) ml b st' = .error e) ∨
      ∃ r r' ml', MFA.leadLoop P .inf n (s + 1) ml a st = .ok (r, ml') ∧ M.leadLoop P .inf n (s + 1) ml b st' = .ok (r', ml') ∧
        RelM (coefRel M P A) r.coefs r'.coefs ∧ RelM (leadRel M P S) r.leaders r'.leaders := by
  intro n
  induction n with
  | zero => intro s ml a b st st' _ h1 h2 _; exact Or.inr ⟨st, st', ml, rfl, rfl, h1, h2⟩
  | succ n ih =>
    intro s ml a b st st' hab hc hl hsv
    obtain ⟨a', b', e1, e2, h3, h4⟩ := detail_rel hlen hnm hu hA hab
    have ht := h3.tooFew (coefRel_nan _)
    have hd : RelA (leadRel M P S (s + 1 : ℕ)) a' b' := h3.mono fun x y h => by
      refine ApE.mono h le_rfl ?_
      rw [Int.toNat_natCast]
      exact hS s
    have hsv' : RelA (leadRel M P S (s + 1 : ℕ)) st.sans_voisin st'.sans_voisin := hsv.mono fun x y h => by
      refine ApE.mono h ?_ ?_
      · rw [Int.toNat_natCast, Int.toNat_natCast]; exact coefRoundings_mono _ _ _ (Nat.le_succ s)
      · rw [Int.toNat_natCast, Int.toNat_natCast]; exact hSm (Nat.le_succ s)
    unfold Machine.leadLoop MFA.leadLoop
    rw [if_neg hR, if_neg hR]
    simp only
    rw [e1, e2]
    simp only
    by_cases htf : MFA.tooFew a'
    · rw [if_pos htf, if_pos (ht.1 htf)]
      exact Or.inr ⟨st, st', _, rfl, rfl, hc, hl⟩
    · rw [if_neg htf, if_neg fun h => htf (ht.2 h)]
      rcases computeLeaders_rel hd hsv' (s + 1) with ⟨e, e3, e4⟩ | ⟨⟨l, v⟩, ⟨l', v'⟩, e3, e4, h5, h6⟩
      · rw [e3, e4]; exact Or.inl ⟨e, rfl, rfl⟩
      · rw [e3, e4]
        simp only
        have hc' := hc.add ((s + 1 : ℕ) : ℤ) (coefRel_nan _) h3
        have ht2 := h5.tooFew fun x y h => ApE.nan_iff h
        by_cases htf2 : MFA.tooFew l
        · rw [if_pos htf2, if_pos (ht2.1 htf2)]
          exact Or.inr ⟨_, _, _, rfl, rfl, hc', hl⟩
        · rw [if_neg htf2, if_neg fun h => htf2 (ht2.2 h)]
          exact ih (s + 1) ml _ _ _ _ h4 hc' (hl.add ((s + 1 : ℕ) : ℤ) (leadRel_nan _) h5) h6

end

end MFA
