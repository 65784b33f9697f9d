import Verif.Lemmas.LeadLoop
import Verif.Lemmas.Closed

/-! What `wavelet_analysis` returns, in terms of the sequences of coefficients and leaders. -/

namespace MFA

open Classical

variable {R : ℕ}

/-- Loop parameters used by `wavelet_analysis`. -/
noncomputable def wparams (wt : Wavelet) (gamint normalization : ℝ) : LoopParams :=
  { high := wt.dec_hi.map (fun t => -1 * t), low := wt.dec_lo, normalization := normalization, gamint := gamint }

theorem coefLoop_inv (P : LoopParams) (sig : Arr R) (n : ℕ) (ml : ℤ) (acc : MRQ R) (res : MRQ R × ℤ)
    (h : coefLoop P n 1 ml sig acc = .ok res) :
    ∃ K, FirstBad n (fun j => ¬ tooFew (coefSeq P sig j)) 1 K ∧
      res = (addMany (coefSeq P sig) 1 K acc, if K = n then ml else (K : ℤ)) := by
  rcases n with _ | n
  · cases h
    exact ⟨0, ⟨le_rfl, by simp, by simp⟩, rfl⟩
  · by_cases hR : R = 0
    · rw [coefLoop, if_pos hR] at h; cases h
    · by_cases hn : P.normalization = 0
      · rw [coefLoop, if_neg hR] at h
        simp only [normalize, if_pos hn] at h
        cases h
      · obtain ⟨K, hK, e⟩ := coefLoop_spec P sig hR hn (n + 1) 1 ml acc le_rfl
        refine ⟨K, hK, ?_⟩
        rw [show approxSeq P sig (1 - 1) = sig from rfl, h] at e
        cases e
        congr 1
        split
        · rfl
        · push_cast; ring

theorem leadLoop_inv (P : LoopParams) (p : PExp) (hp : p.NonZero) (sig : Arr R) (n : ℕ) (ml : ℤ) (st : LeadState R)
    (res : LeadState R × ℤ) (h : leadLoop P p n 1 ml sig st = .ok res) :
    ∃ K, FirstBad n (fun j => ¬ tooFew (coefSeq P sig j) ∧ ¬ tooFew (leadSeq P p sig j)) 1 K ∧
      res.1.coefs = addMany (coefSeq P sig) 1
        (if K = n ∨ tooFew (coefSeq P sig (K + 1)) then K else K + 1) st.coefs ∧
      res.1.leaders = addMany (leadSeq P p sig) 1 K st.leaders ∧
      res.2 = if K = n then ml else (K : ℤ) := by
  rcases n with _ | n
  · cases h
    exact ⟨0, ⟨le_rfl, by simp, by simp⟩, by rw [if_pos (Or.inl rfl)]; rfl, rfl, rfl⟩
  · by_cases hR : R = 0
    · rw [leadLoop, if_pos hR] at h; cases h
    · by_cases hn : P.normalization = 0
      · rw [leadLoop, if_neg hR] at h
        simp only [normalize, if_pos hn] at h
        cases h
      · obtain ⟨K, sv, hK, e⟩ := leadLoop_spec P p hp sig hR hn (n + 1) 1 ml st le_rfl (Or.inl rfl)
        refine ⟨K, hK, ?_⟩
        rw [show approxSeq P sig (1 - 1) = sig from rfl, h] at e
        cases e
        refine ⟨by rw [Nat.add_comm 1 K], rfl, ?_⟩
        show (if K = n + 1 then ml else ((1:ℕ) : ℤ) + K - 1) = _
        split
        · rfl
        · push_cast; ring

/-! ### The p-leader correction -/

theorem Dict.set_eq_map {α : Type} : ∀ (d : List (ℤ × α)) (j : ℤ) (v : α), (d.map Prod.fst).Nodup →
    j ∈ d.map Prod.fst → Dict.set d j v = d.map (fun p => if p.1 = j then (p.1, v) else p)
  | [], j, v, _, h => by cases h
  | (k, w) :: d, j, v, hn, h => by
    rw [List.map_cons, List.nodup_cons] at hn
    rw [Dict.set, List.map_cons]
    by_cases e : k = j
    · subst e
      rw [if_pos rfl, if_pos rfl]
      congr 1
      symm
      rw [List.map_congr_left (g := id)]
      · simp
      · intro p hp
        rw [if_neg]; rfl
        intro e
        have hm := List.mem_map_of_mem (f := Prod.fst) hp
        rw [e] at hm
        exact hn.1 hm
    · rw [if_neg e, if_neg (show ¬ (k, w).1 = j from e)]
      rw [List.map_cons, List.mem_cons] at h
      rw [Dict.set_eq_map d j v hn.2 (h.resolve_left (fun e' => e e'.symm))]

theorem applyCorr_spec (eta : Row R) (p : ℝ) : ∀ (js : List ℕ) (d : Dict (Arr R)), js.Nodup →
    (d.map Prod.fst).Nodup → (∀ j ∈ js, ((j : ℕ) : ℤ) ∈ d.map Prod.fst) →
    applyCorr eta p js d = .ok (d.map fun q => if ∃ j ∈ js, ((j : ℕ) : ℤ) = q.1 then
      (q.1, q.2.map fun row r => row r * zpjCorr (eta r) p q.1.toNat) else q)
  | [], d, _, _, _ => by simp [applyCorr]
  | j :: js, d, hj, hd, hm => by
    rw [List.nodup_cons] at hj
    have hjm := hm j (by simp)
    obtain ⟨q, hq, e⟩ := List.mem_map.mp hjm
    have hget : getKey d (j : ℤ) = .ok q.2 := by
      have := dictGet_of_nodup (fun p : ℤ × Arr R => p.2) d hd q hq
      have e' : (d.map fun p => (p.1, p.2)) = d := by simp
      rw [e', e] at this
      rw [getKey, this]
    rw [applyCorr, hget]
    simp only
    set v := q.2.map fun row r => row r * zpjCorr (eta r) p j with hv
    have hset := Dict.set_eq_map d (j : ℤ) v hd hjm
    have hfst : (Dict.set d (j : ℤ) v).map Prod.fst = d.map Prod.fst := by
      rw [hset, List.map_map]
      apply List.map_congr_left
      intro x _
      simp only [Function.comp]; split <;> rfl
    rw [applyCorr_spec eta p js _ hj.2 (by rw [hfst]; exact hd) (by
      intro i hi; rw [hfst]; exact hm i (by simp [hi]))]
    congr 1
    rw [hset, List.map_map]
    apply List.map_congr_left
    intro x hx
    simp only [Function.comp]
    by_cases hxj : x.1 = (j : ℤ)
    · have hxq : x = q := by
        have h1 := dictGet_of_nodup (fun p : ℤ × Arr R => p.2) d hd q hq
        have h2 := dictGet_of_nodup (fun p : ℤ × Arr R => p.2) d hd x hx
        rw [hxj, ← e, h1] at h2
        exact Prod.ext (hxj.trans e.symm) (Option.some.inj h2).symm
      subst hxq
      rw [if_pos hxj, if_neg, if_pos ⟨j, by simp, hxj.symm⟩]
      · rw [hv, hxj]; rfl
      · rintro ⟨i, hi, hi'⟩
        rw [hxj] at hi'
        exact hj.1 (by have : i = j := by exact_mod_cast hi'
                       rwa [this] at hi)
    · rw [if_neg hxj]
      by_cases hex : ∃ i ∈ js, ((i : ℕ) : ℤ) = x.1
      · obtain ⟨i, hi, e'⟩ := hex
        rw [if_pos ⟨i, hi, e'⟩, if_pos ⟨i, by simp [hi], e'⟩]
      · rw [if_neg hex, if_neg]
        rintro ⟨i, hi, e'⟩
        rcases List.mem_cons.mp hi with rfl | hi
        · exact hxj e'.symm
        · exact hex ⟨i, hi, e'⟩

/-- Corrected leaders at scale `s`. -/
noncomputable def corrSeq (eta : Row R) (p : ℝ) (f : ℕ → Arr R) (s : ℕ) : Arr R :=
  (f s).map fun row r => row r * zpjCorr (eta r) p s

theorem applyCorr_scales (eta : Row R) (p : ℝ) (fm : Formalism) (g : ℝ) (f : ℕ → Arr R) (K : ℕ) :
    applyCorr eta p ((List.range K).map (· + 1)) (scalesUpTo fm g f K).values
      = .ok (scalesUpTo fm g (corrSeq eta p f) K).values := by
  rw [applyCorr_spec]
  · congr 1
    simp only [scalesUpTo, List.map_map]
    apply List.map_congr_left
    intro i hi
    simp only [Function.comp]
    rw [if_pos ⟨i + 1, by simpa using hi, rfl⟩]
    simp [corrSeq]
  · exact List.Nodup.map (fun a b h => by simpa using h) List.nodup_range
  · simp only [scalesUpTo, List.map_map]
    refine List.Nodup.map (fun a b h => ?_) List.nodup_range
    simpa using h
  · intro j hj
    obtain ⟨i, hi, rfl⟩ := List.mem_map.mp hj
    simp only [scalesUpTo, List.map_map, List.mem_map]
    exact ⟨i, hi, rfl⟩

/-! ### The result of `wavelet_analysis` -/

theorem maxLevel_nonzero {N F : ℕ} {ml : ℤ} (h : maxLevel N F = .ok ml) : N ≠ 0 := by
  rintro rfl; rw [maxLevel, if_pos rfl] at h; cases h

theorem decompositionLevelW_ok {N F : ℕ} {j2 : Option ℝ} {x : ℤ × Bool} (h : decompositionLevelW N F j2 = .ok x) :
    maxLevel N F = .ok x.1 ∧ (x.2 = true ↔ ∃ j, j2 = some j ∧ (x.1 : ℝ) < j) := by
  unfold decompositionLevelW at h
  cases hm : maxLevel N F with
  | error e => rw [hm] at h; cases h
  | ok l =>
    rw [hm] at h
    cases h
    refine ⟨rfl, ?_⟩
    cases j2 <;> simp

/-- The `max_level` after the loops, given the number of scales kept. -/
def finalLevel (ml : ℤ) (K : ℕ) : ℤ := if K = ml.toNat then ml else K

theorem finalLevel_toNat (ml : ℤ) (K : ℕ) : (finalLevel ml K).toNat = K := by
  unfold finalLevel; split
  · rename_i h; exact h.symm
  · simp

/-- The number of coefficient scales when leaders are computed too. -/
noncomputable def coefScales (P : LoopParams) (sig : Arr R) (n K : ℕ) : ℕ :=
  if K = n ∨ tooFew (coefSeq P sig (K + 1)) then K else K + 1

/-- Everything one needs to know about a successful call without leaders. -/
theorem wa_none_inv {sig : Arr R} {wt : Wavelet} {j1 : ℤ} {j2 : Option ℝ} {g nm : ℝ} {weighted : Bool} {w : WT R}
    (h : waveletAnalysis sig .none wt j1 j2 g nm weighted = .ok w) :
    ∃ ml K, maxLevel sig.length wt.dec_hi.length = .ok ml ∧
      FirstBad ml.toNat (fun j => ¬ tooFew (coefSeq (wparams wt g nm) sig j)) 1 K ∧
      (w.warned = true ↔ ∃ j, j2 = some j ∧ (ml : ℝ) < j) ∧
      w = { wt_coefs := scalesUpTo .coef g (coefSeq (wparams wt g nm) sig) K, wt_leaders := none
            j2_eff := j2Eff (finalLevel ml K) j2, eta_p := none, warned := w.warned } := by
  unfold waveletAnalysis at h
  dsimp only at h
  cases hd : decompositionLevelW sig.length (wt.dec_hi.map (fun t => -1 * t)).length j2 with
  | error e => rw [hd] at h; cases h
  | ok x =>
    obtain ⟨ml, wd⟩ := x
    rw [hd] at h
    simp only at h
    obtain ⟨h1, h2⟩ := decompositionLevelW_ok hd
    rw [List.length_map] at h1
    cases hc : coefLoop (wparams wt g nm) ml.toNat 1 ml sig (MRQ.empty .coef g) with
    | error e => rw [wparams] at hc; rw [hc] at h; cases h
    | ok res =>
      obtain ⟨K, hK, e⟩ := coefLoop_inv _ _ _ _ _ _ hc
      rw [wparams] at hc; rw [hc] at h
      obtain ⟨c, l⟩ := res
      simp only [Prod.mk.injEq] at e
      cases h
      refine ⟨ml, K, h1, hK, h2, ?_⟩
      rw [e.1, e.2, addMany_empty]
      rfl

/-- A successful call with p_exp = inf. -/
theorem wa_inf_inv {sig : Arr R} {wt : Wavelet} {j1 : ℤ} {j2 : Option ℝ} {g nm : ℝ} {weighted : Bool} {w : WT R}
    (h : waveletAnalysis sig .inf wt j1 j2 g nm weighted = .ok w) :
    ∃ ml K, maxLevel sig.length wt.dec_hi.length = .ok ml ∧
      FirstBad ml.toNat (fun j => ¬ tooFew (coefSeq (wparams wt g nm) sig j) ∧
        ¬ tooFew (leadSeq (wparams wt g nm) .inf sig j)) 1 K ∧
      (w.warned = true ↔ ∃ j, j2 = some j ∧ (ml : ℝ) < j) ∧
      w = { wt_coefs := scalesUpTo .coef g (coefSeq (wparams wt g nm) sig)
              (coefScales (wparams wt g nm) sig ml.toNat K)
            wt_leaders := some (scalesUpTo .leader g (leadSeq (wparams wt g nm) .inf sig) K)
            j2_eff := j2Eff (finalLevel ml K) j2, eta_p := none, warned := w.warned } := by
  unfold waveletAnalysis at h
  dsimp only at h
  cases hd : decompositionLevelW sig.length (wt.dec_hi.map (fun t => -1 * t)).length j2 with
  | error e => rw [hd] at h; cases h
  | ok x =>
    obtain ⟨ml, wd⟩ := x
    rw [hd] at h
    simp only at h
    obtain ⟨h1, h2⟩ := decompositionLevelW_ok hd
    rw [List.length_map] at h1
    cases hc : leadLoop (wparams wt g nm) .inf ml.toNat 1 ml sig
        { coefs := MRQ.empty .coef g, leaders := MRQ.empty (checkFormalism .inf) g, sans_voisin := [] } with
    | error e => rw [wparams] at hc; rw [hc] at h; cases h
    | ok res =>
      obtain ⟨K, hK, e1, e2, e3⟩ := leadLoop_inv _ .inf trivial _ _ _ _ _ hc
      rw [wparams] at hc; rw [hc] at h
      obtain ⟨st, l⟩ := res
      simp only at e1 e2 e3
      cases h
      refine ⟨ml, K, h1, hK, h2, ?_⟩
      rw [e1, e2, e3, addMany_empty, addMany_empty]
      rfl

theorem structFn_mem_two {m : MRQ R} {q : List ℝ} {j1 j2 : ℤ} {weighted : Bool} {s : StructFn R}
    (h : StructFn.make m (.ndarray q) j1 j2 weighted = .ok s) : (2:ℝ) ∈ q := by
  by_contra hq
  unfold StructFn.make at h
  cases hc : m.checkNrep with
  | error e => rw [hc] at h; cases h
  | ok u =>
    rw [hc] at h
    simp only at h
    cases hr : sfRegressions m (sfLogValues m (QArg.ndarray q).expos) j1 j2 weighted with
    | error e => rw [hr] at h; cases h
    | ok regs =>
      rw [hr] at h
      simp only [sfGetH] at h
      have : maskEq q 2 (regs.map LinReg.slope) = [] := by
        unfold maskEq
        rw [List.map_eq_nil_iff, List.filter_eq_nil_iff]
        rintro ⟨a, b⟩ hab
        simp only [decide_eq_true_eq]
        rintro rfl
        exact hq (List.of_mem_zip hab).1
      rw [this] at h
      cases h

/-- A successful call with a number p_exp: it is 2. -/
theorem wa_num_inv {sig : Arr R} {p : Expo} {wt : Wavelet} {j1 : ℤ} {j2 : Option ℝ} {g nm : ℝ} {weighted : Bool}
    {w : WT R} (h : waveletAnalysis sig (.num p) wt j1 j2 g nm weighted = .ok w) :
    p.val = 2 ∧ ∃ ml K eta, maxLevel sig.length wt.dec_hi.length = .ok ml ∧
      FirstBad ml.toNat (fun j => ¬ tooFew (coefSeq (wparams wt g nm) sig j) ∧
        ¬ tooFew (leadSeq (wparams wt g nm) (.num p) sig j)) 1 K ∧
      (w.warned = true ↔ ∃ j, j2 = some j ∧ (ml : ℝ) < j) ∧
      estimateEtaP (scalesUpTo .coef g (coefSeq (wparams wt g nm) sig)
              (coefScales (wparams wt g nm) sig ml.toNat K)) p j1 (j2Eff (finalLevel ml K) j2) weighted = .ok eta ∧
      ¬ ((∀ r, (eta r).isNaN = false) ∧ (∃ r, Fl.le (eta r) (Fl.fin 0))) ∧
      w = { wt_coefs := scalesUpTo .coef g (coefSeq (wparams wt g nm) sig)
              (coefScales (wparams wt g nm) sig ml.toNat K)
            wt_leaders := some
              { scalesUpTo .pleader g (leadSeq (wparams wt g nm) (.num p) sig) K with
                values := (scalesUpTo .pleader g
                  (corrSeq eta p.val (leadSeq (wparams wt g nm) (.num p) sig)) K).values }
            j2_eff := j2Eff (finalLevel ml K) j2, eta_p := some eta, warned := w.warned } := by
  unfold waveletAnalysis at h
  dsimp only at h
  cases hd : decompositionLevelW sig.length (wt.dec_hi.map (fun t => -1 * t)).length j2 with
  | error e => rw [hd] at h; cases h
  | ok x =>
    obtain ⟨ml, wd⟩ := x
    rw [hd] at h
    simp only at h
    obtain ⟨h1, h2⟩ := decompositionLevelW_ok hd
    rw [List.length_map] at h1
    cases hc : leadLoop (wparams wt g nm) (.num p) ml.toNat 1 ml sig
        { coefs := MRQ.empty .coef g, leaders := MRQ.empty (checkFormalism (.num p)) g, sans_voisin := [] } with
    | error e => rw [wparams] at hc; rw [hc] at h; cases h
    | ok res =>
      have hc' := hc
      rw [wparams] at hc'; rw [hc'] at h
      obtain ⟨st, l⟩ := res
      simp only at h
      cases hcl : correctLeaders st.coefs st.leaders p j1 (j2Eff l j2) weighted l with
      | error e => rw [hcl] at h; cases h
      | ok y =>
        rw [hcl] at h
        obtain ⟨lead, eta⟩ := y
        cases h
        unfold correctLeaders at hcl
        cases he : estimateEtaP st.coefs p j1 (j2Eff l j2) weighted with
        | error e => rw [he] at hcl; cases hcl
        | ok eta' =>
          have hp2 : p.val = 2 := by
            unfold estimateEtaP at he
            cases hs : StructFn.make st.coefs (.ndarray [p.val]) j1 (j2Eff l j2) weighted with
            | error e => rw [hs] at he; cases he
            | ok s => have := structFn_mem_two hs; simpa [eq_comm] using this
          have hnz : PExp.NonZero (.num p) := by show p.val ≠ 0; rw [hp2]; norm_num
          obtain ⟨K, hK, e1, e2, e3⟩ := leadLoop_inv _ _ hnz _ _ _ _ _ hc
          simp only at e1 e2 e3
          rw [addMany_empty] at e1 e2
          rw [he] at hcl
          simp only at hcl
          by_cases hneg : (∀ r, (eta' r).isNaN = false) ∧ (∃ r, Fl.le (eta' r) (Fl.fin 0))
          · rw [if_pos hneg] at hcl; cases hcl
          · rw [if_neg hneg] at hcl
            have e3' : l = finalLevel ml K := e3
            rw [e3', finalLevel_toNat, e2, applyCorr_scales] at hcl
            cases hcl
            refine ⟨hp2, ml, K, eta, h1, hK, h2, ?_, hneg, ?_⟩
            · rw [← he, e1, e3']; rfl
            · rw [e1, e3']; rfl

end MFA
