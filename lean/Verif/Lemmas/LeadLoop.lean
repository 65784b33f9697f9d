import Verif.Lemmas.Filtering
import Verif.Lemmas.Range

/-! Entrywise description of the leader computation and of the leader loop. -/

namespace MFA

open Classical

variable {R : ℕ}

/-- Entry `k` of an array in realisation `r` (NaN outside). -/
noncomputable def ent (a : Arr R) (k : ℕ) (r : Fin R) : Fl :=
  match a[k]? with
  | some row => row r
  | none => Fl.nan

theorem arr_eq_range (a : Arr R) : a = (List.range a.length).map fun (k : ℕ) r => ent a k r := by
  apply List.ext_getElem?
  intro k
  rw [List.getElem?_map]
  by_cases hk : k < a.length
  · rw [List.getElem?_range hk]
    simp only [Option.map_some]
    rw [List.getElem?_eq_getElem hk]
    congr 1
    funext r
    simp [ent, hk]
  · rw [List.getElem?_eq_none (by simpa using hk), List.getElem?_eq_none (by simpa using hk)]; rfl

theorem ent_map_range {n : ℕ} (f : ℕ → Row R) {k : ℕ} (hk : k < n) (r : Fin R) :
    ent ((List.range n).map f) k r = f k r := by
  simp [ent, hk]

theorem ent_mapArr (f : Fl → Fl) (a : Arr R) {k : ℕ} (hk : k < a.length) (r : Fin R) :
    ent (mapArr f a) k r = f (ent a k r) := by
  simp [ent, mapArr, hk]

theorem col_range (a : Arr R) (r : Fin R) : col a r = (List.range a.length).map fun k => ent a k r := by
  conv_lhs => rw [arr_eq_range a]
  simp [col]

/-- What enters the leader computation at scale `s`. -/
noncomputable def inpSeq (P : LoopParams) (p : PExp) (sig : Arr R) (s : ℕ) : Arr R :=
  leaderInput (coefSeq P sig s) s p

theorem leaderInput_length (d : Arr R) (s : ℕ) (p : PExp) : (leaderInput d s p).length = d.length := by
  cases p <;> simp [leaderInput, mapArr_length]

theorem inpSeq_length (P : LoopParams) (p : PExp) (sig : Arr R) (s : ℕ) (hs : 1 ≤ s) :
    (inpSeq P p sig s).length = sig.length / 2 ^ s := by
  rw [inpSeq, leaderInput_length, coefSeq_length _ _ _ hs]

/-- `sans_voisin` at scale `s + 1`. -/
noncomputable def svF (P : LoopParams) (p : PExp) (sig : Arr R) : ℕ → ℕ → Fin R → Fl
  | 0, k, r => ent (inpSeq P p sig 1) k r
  | s + 1, k, r => leaderRed (checkFormalism p)
      [ent (inpSeq P p sig (s + 2)) k r, svF P p sig s (2 * k) r, svF P p sig s (2 * k + 1) r]

/-- The array `sans_voisin` at scale `s ≥ 1`. -/
noncomputable def svSeq (P : LoopParams) (p : PExp) (sig : Arr R) (s : ℕ) : Arr R :=
  (List.range (sig.length / 2 ^ s)).map fun (k : ℕ) r => svF P p sig (s - 1) k r

/-- The final transformation of a leader. -/
noncomputable def outF (p : PExp) (s : ℕ) (x : Fl) : Fl :=
  match p with
  | .num p => fastPower (.real (1 / p.val)) (Fl.fin ((2:ℝ) ^ (-(s : ℝ))) * x)
  | _ => x

/-- The leaders at scale `s ≥ 1` (before the p-leader correction). -/
noncomputable def leadSeq (P : LoopParams) (p : PExp) (sig : Arr R) (s : ℕ) : Arr R :=
  (List.range (sig.length / 2 ^ s - 2)).map fun (k : ℕ) r =>
    outF p s (leaderRed (checkFormalism p)
      [svF P p sig (s - 1) k r, svF P p sig (s - 1) (k + 1) r, svF P p sig (s - 1) (k + 2) r])

theorem everySecond_range (n : ℕ) (f : ℕ → Row R) (m : ℕ) (h : 2 * m ≤ n) :
    everySecond ((List.range n).map f) 0 (2 * m) = (List.range m).map (fun k => f (2 * k)) ∧
    everySecond ((List.range n).map f) 1 (2 * m) = (List.range m).map (fun k => f (2 * k + 1)) := by
  constructor
  · unfold everySecond
    rw [show (2 * m - 0 + 1) / 2 = m by omega, ← List.filterMap_eq_map (f := fun k => f (2 * k))]
    apply List.filterMap_congr
    intro k hk
    rw [List.mem_range] at hk
    have : 2 * k < n := by omega
    simp [this]
  · unfold everySecond
    rw [show (2 * m - 1 + 1) / 2 = m by omega, ← List.filterMap_eq_map (f := fun k => f (2 * k + 1))]
    apply List.filterMap_congr
    intro k hk
    rw [List.mem_range] at hk
    have : 1 + 2 * k < n := by omega
    simp [this, Nat.add_comm]

theorem zip3_range (g : List Fl → Fl) (n : ℕ) (a b c : ℕ → Row R) :
    stack3 g ((List.range n).map a) ((List.range n).map b) ((List.range n).map c)
      = .ok ((List.range n).map fun (k : ℕ) r => g [a k r, b k r, c k r]) := by
  unfold stack3
  rw [if_pos (by simp)]
  congr 1
  apply List.ext_getElem
  · simp
  · intro i h1 h2; simp

theorem findSansVoisin_one (P : LoopParams) (p : PExp) (sig sv : Arr R) :
    findSansVoisin 1 (inpSeq P p sig 1) sv (checkFormalism p) = .ok (svSeq P p sig 1) := by
  rw [findSansVoisin, if_pos rfl]
  congr 1
  conv_lhs => rw [arr_eq_range (inpSeq P p sig 1), inpSeq_length _ _ _ _ le_rfl]
  rfl

theorem findSansVoisin_succ (P : LoopParams) (p : PExp) (sig : Arr R) (s : ℕ) (hs : 1 ≤ s) :
    findSansVoisin (s + 1) (inpSeq P p sig (s + 1)) (svSeq P p sig s) (checkFormalism p)
      = .ok (svSeq P p sig (s + 1)) := by
  rw [findSansVoisin, if_neg (by omega)]
  have hlen : (svSeq P p sig s).length / 2 = sig.length / 2 ^ (s + 1) := by
    rw [svSeq, List.length_map, List.length_range, pow_succ, Nat.div_div_eq_div_mul]
  have hle : 2 * (sig.length / 2 ^ (s + 1)) ≤ sig.length / 2 ^ s := by
    rw [pow_succ, ← Nat.div_div_eq_div_mul]; omega
  simp only [hlen]
  have e := everySecond_range (R := R) (sig.length / 2 ^ s) (fun (k : ℕ) r => svF P p sig (s - 1) k r) _ hle
  have e0 : (inpSeq P p sig (s + 1)).take (sig.length / 2 ^ (s + 1))
      = (List.range (sig.length / 2 ^ (s + 1))).map fun (k : ℕ) r => ent (inpSeq P p sig (s + 1)) k r := by
    rw [List.take_of_length_le (by rw [inpSeq_length _ _ _ _ (by omega)])]
    conv_lhs => rw [arr_eq_range (inpSeq P p sig (s + 1)), inpSeq_length _ _ _ _ (by omega : 1 ≤ s + 1)]
  have e1 : svSeq P p sig s = (List.range (sig.length / 2 ^ s)).map fun (k : ℕ) r => svF P p sig (s - 1) k r := rfl
  rw [e0, e1, e.1, e.2, zip3_range]
  congr 1
  obtain ⟨t, rfl⟩ : ∃ t, s = t + 1 := ⟨s - 1, by omega⟩
  rfl

theorem slices3 (n : ℕ) (f : ℕ → Row R) :
    pySlice ((List.range n).map f) 0 ((n : ℤ) - 2) = (List.range (n - 2)).map f ∧
    pySlice ((List.range n).map f) 1 ((n : ℤ) - 1) = (List.range (n - 2)).map (fun k => f (k + 1)) ∧
    pySlice ((List.range n).map f) 2 n = (List.range (n - 2)).map (fun k => f (k + 2)) := by
  have gen : ∀ (b e : ℕ), e ≤ n → ((((List.range n).map f).take e).drop b)
      = (List.range (e - b)).map (fun k => f (k + b)) := by
    intro b e he
    apply List.ext_getElem
    · simp; omega
    · intro i h1 h2
      simp [Nat.add_comm]
  have sb : ∀ s : ℤ, ((List.range n).map f).length = n := fun _ => by simp
  refine ⟨?_, ?_, ?_⟩
  · unfold pySlice sliceBound
    simp only [List.length_map, List.length_range]
    rw [if_neg (by omega : ¬ (0:ℤ) < 0)]
    by_cases h : (n : ℤ) - 2 < 0
    · rw [if_pos h, gen _ _ (by omega)]
      rw [show (((n : ℤ) - 2 + n).toNat - min (Int.toNat 0) n) = n - 2 by omega]
      simp
    · rw [if_neg h, gen _ _ (by omega)]
      rw [show (min ((n : ℤ) - 2).toNat n - min (Int.toNat 0) n) = n - 2 by omega]
      simp
  · unfold pySlice sliceBound
    simp only [List.length_map, List.length_range]
    rw [if_neg (by omega : ¬ (1:ℤ) < 0)]
    by_cases h : (n : ℤ) - 1 < 0
    · rw [if_pos h]
      obtain rfl : n = 0 := by omega
      simp
    · rw [if_neg h, gen _ _ (by omega)]
      by_cases hn : n = 1
      · subst hn; simp
      · rw [show (min ((n : ℤ) - 1).toNat n - min (Int.toNat 1) n) = n - 2 by omega,
          show min (Int.toNat 1) n = 1 by omega]
  · unfold pySlice sliceBound
    simp only [List.length_map, List.length_range]
    rw [if_neg (by omega : ¬ (2:ℤ) < 0), if_neg (by omega), gen _ _ (by omega)]
    by_cases hn : n < 2
    · rw [show (min (n : ℤ).toNat n - min (Int.toNat 2) n) = 0 by omega, show n - 2 = 0 by omega]; simp
    · rw [show (min (n : ℤ).toNat n - min (Int.toNat 2) n) = n - 2 by omega,
          show min (Int.toNat 2) n = 2 by omega]

/-- `p_exp` is not the number 0. -/
def PExp.NonZero : PExp → Prop
  | .num p => p.val ≠ 0
  | _ => True

theorem leaderOutput_eq (a : Arr R) (s : ℕ) (p : PExp) (hp : p.NonZero) :
    leaderOutput a s p = .ok (mapArr (outF p s) a) := by
  cases p with
  | none => simp [leaderOutput, mapArr, outF]
  | inf => simp [leaderOutput, mapArr, outF]
  | num e => rw [leaderOutput, if_neg hp]; rfl

theorem computeLeaders_eq (P : LoopParams) (p : PExp) (hp : p.NonZero) (sig sv : Arr R) (s : ℕ) (hs : 1 ≤ s)
    (hsv : s = 1 ∨ sv = svSeq P p sig (s - 1)) :
    computeLeaders (coefSeq P sig s) sv s p = .ok (leadSeq P p sig s, svSeq P p sig s) := by
  have h1 : findSansVoisin s (leaderInput (coefSeq P sig s) s p) sv (checkFormalism p) = .ok (svSeq P p sig s) := by
    rcases hsv with rfl | rfl
    · exact findSansVoisin_one P p sig sv
    · obtain ⟨t, rfl⟩ : ∃ t, s = t + 1 := ⟨s - 1, by omega⟩
      by_cases ht : 1 ≤ t
      · exact findSansVoisin_succ P p sig t ht
      · obtain rfl : t = 0 := by omega
        exact findSansVoisin_one P p sig _
  unfold computeLeaders
  simp only [h1]
  have e1 : svSeq P p sig s = (List.range (sig.length / 2 ^ s)).map fun (k : ℕ) r => svF P p sig (s - 1) k r := rfl
  have e2 : (svSeq P p sig s).length = sig.length / 2 ^ s := by rw [e1]; simp
  rw [e2]
  obtain ⟨s1, s2, s3⟩ := slices3 (R := R) (sig.length / 2 ^ s) (fun (k : ℕ) r => svF P p sig (s - 1) k r)
  rw [← e1] at s1 s2 s3
  rw [s1, s2, s3, zip3_range]
  simp only [leaderOutput_eq _ _ _ hp]
  congr 2
  simp only [mapArr, List.map_map]
  rfl

theorem leadLoop_spec (P : LoopParams) (p : PExp) (hp : p.NonZero) (sig : Arr R) (hR : R ≠ 0)
    (hn : P.normalization ≠ 0) (n : ℕ) :
    ∀ (s : ℕ) (ml : ℤ) (st : LeadState R), 1 ≤ s → (s = 1 ∨ st.sans_voisin = svSeq P p sig (s - 1)) →
    ∃ K sv, FirstBad n (fun j => ¬ tooFew (coefSeq P sig j) ∧ ¬ tooFew (leadSeq P p sig j)) s K ∧
      leadLoop P p n s ml (approxSeq P sig (s - 1)) st
        = .ok ({ coefs := addMany (coefSeq P sig) s
                   (if K = n ∨ tooFew (coefSeq P sig (s + K)) then K else K + 1) st.coefs
                 leaders := addMany (leadSeq P p sig) s K st.leaders
                 sans_voisin := sv }, if K = n then ml else (s + K : ℤ) - 1) := by
  induction n with
  | zero =>
    intro s ml st _ _
    refine ⟨0, st.sans_voisin, ⟨le_rfl, by simp, by simp⟩, ?_⟩
    rw [leadLoop, if_pos (Or.inl rfl), if_pos rfl]
    rfl
  | succ n ih =>
    intro s ml st hs hsv
    rw [leadLoop, if_neg hR]
    have hd : (filtering (approxSeq P sig (s - 1)) P.high P.low).1 = detailSeq P sig (s - 1) := rfl
    have ha : (filtering (approxSeq P sig (s - 1)) P.high P.low).2 = approxSeq P sig (s + 1 - 1) := by
      obtain ⟨t, rfl⟩ : ∃ t, s = t + 1 := ⟨s - 1, by omega⟩
      rfl
    simp only [hd, ha]
    rw [normalize_eq _ _ _ hn]
    have hc : scaled P s (detailSeq P sig (s - 1)) = coefSeq P sig s := rfl
    simp only [hc]
    by_cases ht : tooFew (coefSeq P sig s)
    · rw [if_pos ht]
      refine ⟨0, st.sans_voisin, ⟨by omega, by simp, fun _ h => h.1 (by simpa using ht)⟩, ?_⟩
      rw [if_pos (Or.inr (by simpa using ht)), if_neg (by omega : ¬ 0 = n + 1)]
      simp [addMany]
    · rw [if_neg ht, computeLeaders_eq P p hp sig _ s hs hsv]
      simp only
      by_cases hl : tooFew (leadSeq P p sig s)
      · rw [if_pos hl]
        refine ⟨0, svSeq P p sig s, ⟨by omega, by simp, fun _ h => h.2 (by simpa using hl)⟩, ?_⟩
        rw [if_neg (by rintro (h | h); exacts [by omega, ht (by simpa using h)]), if_neg (by omega : ¬ 0 = n + 1)]
        simp [addMany]
      · rw [if_neg hl]
        obtain ⟨K, sv, hK, e⟩ := ih (s + 1) ml
          { coefs := st.coefs.addValues (coefSeq P sig s) s
            leaders := st.leaders.addValues (leadSeq P p sig s) s, sans_voisin := svSeq P p sig s }
          (by omega) (Or.inr rfl)
        refine ⟨K + 1, sv, ⟨by have := hK.1; omega, ?_, ?_⟩, ?_⟩
        · intro i hi
          rcases i with _ | i
          · exact ⟨by simpa using ht, by simpa using hl⟩
          · have := hK.2.1 i (by omega)
            rwa [show s + 1 + i = s + (i + 1) by omega] at this
        · intro h
          have := hK.2.2 (by omega)
          rwa [show s + 1 + K = s + (K + 1) by omega] at this
        · rw [e]
          simp only [show s + 1 + K = s + (K + 1) by omega]
          have hiff : (K = n ∨ tooFew (coefSeq P sig (s + (K + 1)))) ↔ (K + 1 = n + 1 ∨ tooFew (coefSeq P sig (s + (K + 1)))) := by
            constructor <;> (rintro (h | h); exacts [Or.inl (by omega), Or.inr h])
          congr 2
          · by_cases hq : K = n ∨ tooFew (coefSeq P sig (s + (K + 1)))
            · rw [if_pos hq, if_pos (hiff.mp hq)]; rfl
            · rw [if_neg hq, if_neg (fun h => hq (hiff.mpr h))]; rfl
          · by_cases h : K = n
            · rw [if_pos h, if_pos (by omega)]
            · rw [if_neg h, if_neg (by omega)]; push_cast; ring

end MFA
