import Verif.Lemmas.Continuity
import Verif.Lemmas.WideRange
import Verif.Lemmas.Closed
import Verif.Lemmas.Stats

/-! How much a regression slope changes when its ordinates change, and the corresponding statement for two related
multiresolution quantities. -/

namespace MFA

open Classical Finset

noncomputable section

variable {ι : Type}

theorem slopeL_sub (l : List ι) (x w : ι → ℝ) (hw : ∀ p ∈ l, 0 < w p) (hx : ∃ p ∈ l, ∃ p' ∈ l, x p ≠ x p') (t t' : ι → ℝ) :
    ∃ z z', slopeL l x w (fun p => Fl.fin (t p)) = Fl.fin z ∧ slopeL l x w (fun p => Fl.fin (t' p)) = Fl.fin z' ∧
      slopeL l x w (fun p => Fl.fin (t p - t' p)) = Fl.fin (z - z') := by
  have hl : l ≠ [] := by obtain ⟨p, hp, -⟩ := hx; exact fun h => by rw [h] at hp; cases hp
  rcases slopeL_cases l hl x w (fun p hp => (hw p hp).le) with h | ⟨_, h⟩
  · have h2 := (slopeL_affine l x w hw hx 0 0).1
    rw [(h _).1] at h2
    cases h2
  · refine ⟨∑ i : Fin l.length, rWS (fun i : Fin l.length => x l[i]) (fun i => w l[i]) i * t l[i],
      ∑ i : Fin l.length, rWS (fun i : Fin l.length => x l[i]) (fun i => w l[i]) i * t' l[i], ?_, ?_, ?_⟩
    · rw [(h _).1, ← Fl.sum_fin]
      exact sum_congr rfl fun i _ => Fl.fin_mul _ _
    · rw [(h _).1, ← Fl.sum_fin]
      exact sum_congr rfl fun i _ => Fl.fin_mul _ _
    · rw [(h _).1, ← sum_sub_distrib, ← Fl.sum_fin]
      refine sum_congr rfl fun i _ => ?_
      rw [Fl.fin_mul]
      congr 1; ring

theorem slopeFactor_pos {j1 j2 : ℕ} (h : j1 < j2) (weighted : Bool) : 0 < slopeFactor weighted j1 j2 := by
  have : (0:ℝ) < j2 - j1 := by have : (j1:ℝ) < j2 := by exact_mod_cast h
                               linarith
  unfold slopeFactor; split <;> positivity

theorem slopeL_diff (l : List ι) (x : ι → ℤ) (w : ι → ℝ) (weighted : Bool) (hw : ∀ p ∈ l, 0 < w p) (hw1 : weighted = false → ∀ p ∈ l, w p = 1)
    {j1 j2 : ℕ} (h12 : j1 < j2) (hx : l.map x = arange (j1 : ℤ) ((j2 : ℤ) + 1)) (y y' : ι → Fl) (E : ℝ)
    (hy : ∀ p ∈ l, FlClose E (y p) (y' p)) :
    FlClose (slopeFactor weighted j1 j2 * E) (slopeL l (fun p => (x p : ℝ)) w y) (slopeL l (fun p => (x p : ℝ)) w y') := by
  have hmem : ∀ j : ℤ, (j1 : ℤ) ≤ j → j ≤ j2 → ∃ p ∈ l, x p = j := by
    intro j h1 h2
    have : j ∈ l.map x := by
      rw [hx, arange, List.mem_map]
      exact ⟨(j - j1).toNat, by rw [List.mem_range]; omega, by omega⟩
    obtain ⟨p, hp, e⟩ := List.mem_map.1 this
    exact ⟨p, hp, e⟩
  have htwo : ∃ p ∈ l, ∃ p' ∈ l, x p ≠ x p' := by
    obtain ⟨p, hp, e⟩ := hmem j1 le_rfl (by omega)
    obtain ⟨p', hp', e'⟩ := hmem j2 (by omega) le_rfl
    exact ⟨p, hp, p', hp', by omega⟩
  have htwo' : ∃ p ∈ l, ∃ p' ∈ l, (x p : ℝ) ≠ (x p' : ℝ) := by
    obtain ⟨p, hp, p', hp', h⟩ := htwo
    exact ⟨p, hp, p', hp', by exact_mod_cast h⟩
  choose! t t' ht ht' hE using hy
  obtain ⟨z, z', e1, e2, e3⟩ := slopeL_sub l (fun p => (x p : ℝ)) w hw htwo' t t'
  refine ⟨z, z', ?_, ?_, ?_⟩
  · rw [← e1]; exact slopeL_congr (fun _ _ => rfl) (fun _ _ => rfl) ht
  · rw [← e2]; exact slopeL_congr (fun _ _ => rfl) (fun _ _ => rfl) ht'
  · have hlen : (l.length : ℝ) = j2 - j1 + 1 := by
      have h := congrArg List.length hx
      simp only [List.length_map, arange, List.length_range] at h
      have : l.length = j2 - j1 + 1 := by omega
      rw [this, Nat.cast_add, Nat.cast_sub h12.le]; simp
    have hb : ∀ p ∈ l, ∃ u, (fun p => Fl.fin (t p - t' p)) p = Fl.fin u ∧ |u - (0 + 0 * (x p : ℝ))| ≤ E := fun p hp =>
      ⟨_, rfl, by simpa using hE p hp⟩
    unfold slopeFactor
    cases weighted with
    | true =>
      obtain ⟨u, hu, hub⟩ := slopeL_near l x w hw htwo (fun p => Fl.fin (t p - t' p)) 0 0 (fun _ => E) hb
      rw [e3] at hu
      rw [(Fl.fin_inj _ _).1 hu]
      simp only [sub_zero, List.map_const', List.sum_replicate, nsmul_eq_mul, hlen] at hub
      simpa using hub
    | false =>
      obtain ⟨u, hu, hub⟩ := slopeL_wide l x w (hw1 rfl) h12 hx (fun p => Fl.fin (t p - t' p)) 0 0 E hb
      rw [e3] at hu
      rw [(Fl.fin_inj _ _).1 hu]
      simp only [sub_zero] at hub
      simp only [Bool.false_eq_true, if_false]
      exact hub.trans (le_of_eq (by ring))

theorem forall₂_take_drop {α β : Type} {P : α → β → Prop} {l : List α} {l' : List β} (h : List.Forall₂ P l l') (a b : ℤ) :
    List.Forall₂ P (pySlice l a b) (pySlice l' a b) := by
  unfold pySlice
  rw [← h.length_eq]
  exact List.forall₂_drop _ (List.forall₂_take _ h)

theorem zip_fst {α β : Type} {P : α → β → Prop} {l : List α} {l' : List β} (h : List.Forall₂ P l l') :
    l = (l.zip l').map Prod.fst ∧ l' = (l.zip l').map Prod.snd ∧ ∀ p ∈ l.zip l', P p.1 p.2 := by
  induction h with
  | nil => simp
  | cons hab _ ih =>
    obtain ⟨h1, h2, h3⟩ := ih
    refine ⟨by simp [← h1], by simp [← h2], ?_⟩
    intro p hp
    rw [List.zip_cons_cons, List.mem_cons] at hp
    rcases hp with rfl | hp
    · exact hab
    · exact h3 p hp

theorem col_forall₂ {R : ℕ} {P : Fl → Fl → Prop} {a b : Arr R} (h : List.Forall₂ (fun u v : Row R => ∀ r, P (u r) (v r)) a b)
    (r : Fin R) : List.Forall₂ P (col a r) (col b r) := by
  unfold col
  rw [List.forall₂_map_left_iff, List.forall₂_map_right_iff]
  exact h.imp fun _ _ h => h r

theorem count_forall₂ {P : Fl → Fl → Prop} (hP : ∀ a b, P a b → (a = Fl.nan ↔ b = Fl.nan)) {c c' : List Fl} (h : List.Forall₂ P c c') :
    countNotNaN c = countNotNaN c' := by
  unfold countNotNaN dropNaN
  induction h with
  | nil => rfl
  | @cons a b c c' hab _ ih =>
    have := hP a b hab
    by_cases ha : a = Fl.nan
    · have hb := this.1 ha
      subst ha hb
      simpa using ih
    · have hb : b ≠ Fl.nan := fun hb => ha (this.2 hb)
      have ha' : a.isNaN = false := by cases a <;> first | rfl | exact absurd rfl ha
      have hb' : b.isNaN = false := by cases b <;> first | rfl | exact absurd rfl hb
      simp only [List.filter_cons, ha', hb', Bool.not_false, if_true, List.length_cons, ih]

variable {R : ℕ} {m m' : MRQ R} {J : ℕ}

/-- The slopes of a statistic over two related quantities. -/
theorem slope_related {P : Fl → Fl → Prop} (hP : ∀ a b, P a b → (a = Fl.nan ↔ b = Fl.nan)) (hm : Regular m J)
    (hrel : MRQRelated P m m') {j1 j2 : ℕ} (h1 : 1 ≤ j1) (h12 : j1 < j2) (h2 : j2 ≤ J) (weighted : Bool) (r : Fin R)
    (hne : ∀ p ∈ m.values, ∃ x ∈ col p.2 r, x ≠ Fl.nan) (Y : List Fl → Fl) (E : ℝ)
    (hY : ∀ p ∈ m.values, ∀ c', List.Forall₂ P (col p.2 r) c' → FlClose E (Y (col p.2 r)) (Y c')) :
    FlClose (slopeFactor weighted j1 j2 * E)
      (slopeL (subR m j1 j2) (fun p => (p.1 : ℝ)) (fun p => wtOf weighted p r) (fun p => Y (col p.2 r)))
      (slopeL (subR m' j1 j2) (fun p => (p.1 : ℝ)) (fun p => wtOf weighted p r) (fun p => Y (col p.2 r))) := by
  have a1 : (1:ℤ) ≤ (j1 : ℤ) := by exact_mod_cast h1
  have a2 : (j1 : ℤ) ≤ (j2 : ℤ) := by exact_mod_cast h12.le
  have a3 : (j2 : ℤ) ≤ (J : ℤ) := by exact_mod_cast h2
  have hkeys := hm.sub_keys a1 a2 a3
  have hf := forall₂_take_drop hrel.2 ((j1 : ℤ) - 1) j2
  obtain ⟨e1, e2, e3⟩ := zip_fst hf
  obtain ⟨Z, hZ⟩ : ∃ Z, Z = (pySlice m.values ((j1 : ℤ) - 1) j2).zip (pySlice m'.values ((j1 : ℤ) - 1) j2) := ⟨_, rfl⟩
  rw [← hZ] at e1 e2 e3
  have s1 : subR m j1 j2 = Z.map Prod.fst := e1
  have s2 : subR m' j1 j2 = Z.map Prod.snd := e2
  have hmem : ∀ p ∈ Z, p.1 ∈ m.values := fun p hp => sub_mem (m := m) (j1 := j1) (j2 := j2) (by rw [s1]; exact List.mem_map_of_mem hp)
  have hpos : ∀ p ∈ Z, 0 < wtOf weighted p.1 r := by
    intro p hp
    unfold wtOf; split
    · exact_mod_cast countNotNaN_pos (hne _ (hmem p hp))
    · exact one_pos
  rw [s1, s2, slopeL_map, slopeL_map]
  have hd := slopeL_diff Z (fun p => p.1.1) (fun p => wtOf weighted p.1 r) weighted hpos (by
    rintro rfl p _; rfl) h12 (by
    rw [← hkeys, s1, List.map_map]; rfl) (fun p => Y (col p.1.2 r)) (fun p => Y (col p.2.2 r)) E
    (fun p hp => hY _ (hmem p hp) _ (col_forall₂ (e3 p hp).2 r))
  have hc : slopeL Z ((fun p : ℤ × Arr R => (p.1 : ℝ)) ∘ Prod.snd) ((fun p => wtOf weighted p r) ∘ Prod.snd) ((fun p => Y (col p.2 r)) ∘ Prod.snd) =
      slopeL Z (fun p => ((p.1.1 : ℤ) : ℝ)) (fun p => wtOf weighted p.1 r) (fun p => Y (col p.2.2 r)) := by
    refine slopeL_congr (fun p hp => ?_) (fun p hp => ?_) (fun _ _ => rfl)
    · show ((p.2.1 : ℤ) : ℝ) = _
      rw [(e3 p hp).1]
    · show wtOf weighted p.2 r = wtOf weighted p.1 r
      unfold wtOf
      rw [count_forall₂ hP (col_forall₂ (e3 p hp).2 r)]
  rw [hc]
  exact hd

end

end MFA
