import Verif.Lemmas.Binary
import Verif.Props.RoundedLevel
import Verif.Props.RoundingOrder

/-! C128: the analysis in correctly rounded binary arithmetic. -/

namespace MFA

open Classical

noncomputable section

/-- The `p`-bit binary floating-point numbers: a significand of at most `p` bits times a power of two. -/
def IsBinary (p : ℕ) (y : ℝ) : Prop := ∃ n e : ℤ, |n| < 2 ^ p ∧ y = n * 2 ^ e

theorem isBinary_iff {p : ℕ} (hp : 1 ≤ p) (y : ℝ) : IsBinary p y ↔ ∃ n e : ℤ, |n| ≤ 2 ^ p ∧ y = n * 2 ^ e := by
  constructor
  · rintro ⟨n, e, h, rfl⟩; exact ⟨n, e, h.le, rfl⟩
  · rintro ⟨n, e, h, rfl⟩
    rcases h.lt_or_eq with hlt | heq
    · exact ⟨n, e, hlt, rfl⟩
    · have h1 : (1:ℤ) < 2 ^ p := one_lt_pow₀ (by norm_num) (by omega)
      rcases abs_choice n with hs | hs
      · have : (n : ℝ) = 2 ^ p := by rw [hs] at heq; exact_mod_cast heq
        refine ⟨1, p + e, by rw [abs_one]; exact h1, ?_⟩
        rw [this, zpow_add₀ (by norm_num), zpow_natCast]; push_cast; ring
      · have : (-n : ℝ) = 2 ^ p := by rw [hs] at heq; exact_mod_cast heq
        refine ⟨-1, p + e, by rw [abs_neg, abs_one]; exact h1, ?_⟩
        rw [zpow_add₀ (by norm_num), zpow_natCast, ← this]; push_cast; ring

/-- C128: `roundTo p` rounds to the nearest `p`-bit number: its values are such numbers, none is nearer, the numbers themselves are unchanged, and the relative
error is at most `2^-p`. -/
theorem C128_rounding {p : ℕ} (hp : 1 ≤ p) (x : ℝ) :
    IsBinary p (roundTo p x) ∧ (∀ y, IsBinary p y → |roundTo p x - x| ≤ |y - x|) ∧ (IsBinary p x → roundTo p x = x) ∧
      |roundTo p x - x| ≤ 1 / 2 ^ p * |x| := by
  refine ⟨(isBinary_iff hp _).2 (roundTo_isRep hp x), ?_, ?_, roundTo_err p x⟩
  · rintro y ⟨n, e, h, rfl⟩
    exact roundTo_nearest hp x h.le
  · rintro ⟨n, e, h, rfl⟩
    exact roundTo_rep hp h.le

/-- C128: a number half-way between two neighbouring `p`-bit numbers `n 2^e` and `(n + 1) 2^e`, of significands with `p` bits, goes to the one of even significand. -/
theorem C128_ties {p : ℕ} {n e : ℤ} (h1 : 2 ^ p ≤ 2 * n) (h2 : n < 2 ^ p) :
    roundTo p ((n + 1 / 2) * 2 ^ e) = (if Even n then (n : ℝ) else n + 1) * 2 ^ e := by
  have hn : (0:ℝ) < n := by
    have : (0:ℤ) < 2 * n := lt_of_lt_of_le (by positivity) h1
    exact_mod_cast (by omega : 0 < n)
  have h1R : (2:ℝ) ^ p ≤ 2 * n := by exact_mod_cast h1
  have h2R : (n : ℝ) + 1 ≤ 2 ^ p := by exact_mod_cast h2
  have hpos : (0:ℝ) < ((n : ℝ) + 1 / 2) * 2 ^ e := by positivity
  have hlog : Int.log 2 |((n : ℝ) + 1 / 2) * 2 ^ e| = e + p - 1 := by
    have hb := log_bounds hpos.ne'
    rw [abs_of_pos hpos] at hb ⊢
    apply le_antisymm
    · have : (2:ℝ) ^ Int.log 2 (((n : ℝ) + 1 / 2) * 2 ^ e) < 2 ^ (e + p) := by
        refine hb.1.trans_lt ?_
        rw [zpow_add₀ (by norm_num), zpow_natCast, mul_comm]
        exact mul_lt_mul_of_pos_left (by linarith) (by positivity)
      have := (zpow_lt_zpow_iff_right₀ (by norm_num : (1:ℝ) < 2)).1 this
      omega
    · have : (2:ℝ) ^ (e + p - 1) < 2 ^ (Int.log 2 (((n : ℝ) + 1 / 2) * 2 ^ e) + 1) := by
        refine lt_of_le_of_lt ?_ hb.2
        rw [zpow_sub_one₀ (by norm_num), zpow_add₀ (by norm_num), zpow_natCast, mul_assoc, mul_comm]
        exact mul_le_mul_of_nonneg_right (by linarith) (by positivity)
      have := (zpow_lt_zpow_iff_right₀ (by norm_num : (1:ℝ) < 2)).1 this
      omega
  have hulp : ulp p (((n : ℝ) + 1 / 2) * 2 ^ e) = 2 ^ e := by
    unfold ulp; rw [hlog]; congr 1; ring
  rw [roundTo, if_neg hpos.ne', hulp, mul_div_cancel_right₀ _ (by positivity)]
  congr 1
  have hfr : Int.fract ((n : ℝ) + 1 / 2) = 1 / 2 := by
    rw [Int.fract_intCast_add, Int.fract_eq_self]; norm_num
  have hfl : ⌊(n : ℝ) + 1 / 2⌋ = n := by
    rw [Int.floor_intCast_add]; norm_num
  unfold roundEven
  rw [hfr, if_neg (lt_irrefl _), if_neg (lt_irrefl _), hfl]
  split_ifs <;> simp

/-- The machine whose operations are rounded to the nearest `p`-bit number, with any summation order. -/
def Machine.binary (p : ℕ) (sum : List Fl → Fl) (hsum : ∀ l, IsSum (fun a b => rnd p (a + b)) l (sum l)) : Machine where
  u := 1 / 2 ^ p
  u_nonneg := by positivity
  add a b := rnd p (a + b)
  sub a b := rnd p (a - b)
  mul a b := rnd p (a * b)
  div a b := rnd p (a / b)
  pow a e := rnd p (Fl.pow a e)
  sqrt a := rnd p (Fl.sqrt a)
  log2 a := rnd p (Fl.log2 a)
  ln a := rnd p (Fl.ln a)
  exp a := rnd p (Fl.exp a)
  exp2 a := rnd p (Fl.exp2 a)
  sum := sum
  add_ok _ _ := rnd_ok p _
  sub_ok _ _ := rnd_ok p _
  mul_ok _ _ := rnd_ok p _
  div_ok _ _ := rnd_ok p _
  pow_ok _ _ := rnd_ok p _
  sqrt_ok _ := rnd_ok p _
  log2_ok _ := rnd_ok p _
  ln_ok _ := rnd_ok p _
  exp_ok _ := rnd_ok p _
  exp2_ok _ := rnd_ok p _
  sum_ok := hsum

/-- `b` is the exact result `a` correctly rounded: a `p`-bit number than which no `p`-bit number is nearer; NaN and infinities are kept. -/
def CorrectlyRounded (p : ℕ) (a b : Fl) : Prop :=
  (∃ x y : ℝ, a = Fl.fin x ∧ b = Fl.fin y ∧ IsBinary p y ∧ ∀ z, IsBinary p z → |y - x| ≤ |z - x|) ∨ ((∀ x : ℝ, a ≠ Fl.fin x) ∧ b = a)

theorem rnd_correct {p : ℕ} (hp : 1 ≤ p) (a : Fl) : CorrectlyRounded p a (rnd p a) := by
  cases a with
  | fin x => exact Or.inl ⟨x, _, rfl, rfl, (C128_rounding hp x).1, (C128_rounding hp x).2.1⟩
  | nan => exact Or.inr ⟨fun x => by simp, rfl⟩
  | pinf => exact Or.inr ⟨fun x => by simp, rfl⟩
  | ninf => exact Or.inr ⟨fun x => by simp, rfl⟩

/-- C128: every operation of the machine is correctly rounded. -/
theorem C128_operations {p : ℕ} (hp : 1 ≤ p) (sum : List Fl → Fl) (hsum : ∀ l, IsSum (fun a b => rnd p (a + b)) l (sum l)) (a b : Fl) (e : ℝ) :
    let M := Machine.binary p sum hsum
    CorrectlyRounded p (a + b) (M.add a b) ∧ CorrectlyRounded p (a - b) (M.sub a b) ∧ CorrectlyRounded p (a * b) (M.mul a b) ∧
      CorrectlyRounded p (a / b) (M.div a b) ∧ CorrectlyRounded p (Fl.pow a e) (M.pow a e) ∧ CorrectlyRounded p (Fl.sqrt a) (M.sqrt a) ∧
      CorrectlyRounded p (Fl.log2 a) (M.log2 a) ∧ CorrectlyRounded p (Fl.ln a) (M.ln a) ∧ CorrectlyRounded p (Fl.exp a) (M.exp a) ∧
      CorrectlyRounded p (Fl.exp2 a) (M.exp2 a) :=
  ⟨rnd_correct hp _, rnd_correct hp _, rnd_correct hp _, rnd_correct hp _, rnd_correct hp _, rnd_correct hp _, rnd_correct hp _, rnd_correct hp _,
    rnd_correct hp _, rnd_correct hp _⟩

/-- C128: division and `log2` of that machine are monotone, and exact on powers of two. -/
theorem C128_faithful {p : ℕ} (hp : 1 ≤ p) (sum : List Fl → Fl) (hsum : ∀ l, IsSum (fun a b => rnd p (a + b)) l (sum l)) :
    (Machine.binary p sum hsum).Faithful := by
  have hpow : ∀ k : ℤ, roundTo p ((2:ℝ) ^ k) = 2 ^ k := by
    intro k
    have := roundTo_rep (p := p) hp (n := 1) (e := k) (by rw [abs_one]; exact one_le_pow₀ (by norm_num))
    simpa using this
  refine ⟨?_, ?_, ?_, ?_⟩
  · intro a b k hb hab
    show rnd p (Fl.fin a / Fl.fin b) = _
    rw [Fl.fin_div hb.ne', hab]
    show Fl.fin (roundTo p (2 ^ k)) = _
    rw [hpow]
  · intro a b c d x y ha hb hd hle hx hy
    change rnd p (Fl.fin a / Fl.fin b) = _ at hx
    change rnd p (Fl.fin c / Fl.fin d) = _ at hy
    rw [Fl.fin_div hb.ne'] at hx
    rw [Fl.fin_div hd.ne'] at hy
    rw [← (Fl.fin_inj _ _).1 hx, ← (Fl.fin_inj _ _).1 hy]
    exact roundTo_mono hp hle
  · intro k hk
    show rnd p (Fl.log2 (Fl.fin (2 ^ k))) = _
    have e : Real.logb 2 ((2:ℝ) ^ k) = k := by rw [← Real.rpow_intCast, Real.logb_rpow (by norm_num) (by norm_num)]
    rw [Fl.log2_fin (by positivity), e]
    have hk' : |k| ≤ 2 ^ p := by
      have hk2 : |(k : ℝ)| * (1 / 2 ^ p) ≤ 1 := hk
      rw [mul_one_div, div_le_one (by positivity)] at hk2
      exact_mod_cast hk2
    have := roundTo_rep (p := p) hp (n := k) (e := 0) hk'
    rw [zpow_zero, mul_one] at this
    show Fl.fin (roundTo p k) = _
    rw [this]
  · intro a b x y ha hab hx hy
    change rnd p (Fl.log2 (Fl.fin a)) = _ at hx
    change rnd p (Fl.log2 (Fl.fin b)) = _ at hy
    rw [Fl.log2_fin ha] at hx
    rw [Fl.log2_fin (ha.trans_le hab)] at hy
    rw [← (Fl.fin_inj _ _).1 hx, ← (Fl.fin_inj _ _).1 hy]
    exact roundTo_mono hp (Real.logb_le_logb_of_le (by norm_num) ha hab)

/-- C128: with 53-bit significands, the decomposition level is exact up to `2^44` samples. -/
theorem C128_level (sum : List Fl → Fl) (hsum : ∀ l, IsSum (fun a b => rnd 53 (a + b)) l (sum l)) {N F : ℕ} (hF : 1 ≤ F) (hFN : F + 1 ≤ N) (hN : N ≤ 2 ^ 44) :
    ∃ J : ℕ, (Machine.binary 53 sum hsum).maxLevel N F = .ok J ∧ 2 ^ J * (F + 1) ≤ N ∧ N < 2 ^ (J + 1) * (F + 1) := by
  refine C126_double (C128_faithful (by norm_num) sum hsum) ?_ hF hFN hN
  show (1:ℝ) / 2 ^ 53 ≤ 1 / 2 ^ 52
  norm_num

theorem FlClose.symm {ε : ℝ} {a b : Fl} (h : FlClose ε a b) : FlClose ε b a := by
  obtain ⟨s, t, rfl, rfl, h⟩ := h
  exact ⟨t, s, rfl, rfl, by rw [abs_sub_comm]; exact h⟩

theorem getClose {α : Type} {β : Type} {ε : ℝ} {n : ℕ} {l l' l'' : List α} {f : α → β → Fl} {r : β}
    (h : ∀ i, i < n → ∃ z z', l[i]? = some z ∧ l'[i]? = some z' ∧ FlClose ε (f z r) (f z' r))
    (h' : ∀ i, i < n → ∃ z z', l[i]? = some z ∧ l''[i]? = some z' ∧ FlClose ε (f z r) (f z' r)) :
    ∀ i, i < n → ∃ z z', l'[i]? = some z ∧ l''[i]? = some z' ∧ FlClose (ε + ε) (f z r) (f z' r) := by
  intro i hi
  obtain ⟨a, b, e1, e2, h1⟩ := h i hi
  obtain ⟨a', c, e3, e4, h2⟩ := h' i hi
  rw [e1] at e3
  cases e3
  exact ⟨b, c, e2, e4, h1.symm.trans h2⟩

theorem EstimatesClose.both {R : ℕ} {ε : ℝ} {nq n : ℕ} {r : Fin R} {v v' v'' : MFVar R} (h : EstimatesClose ε nq n r v v')
    (h' : EstimatesClose ε nq n r v v'') : EstimatesClose (ε + ε) nq n r v' v'' := by
  obtain ⟨a1, a2, a3, a4, a5, a6⟩ := h
  obtain ⟨b1, b2, b3, b4, b5, b6⟩ := h'
  exact ⟨a1.symm.trans b1, a2.symm.trans b2, getClose (f := fun (z : Fin R → Fl) r => z r) a3 b3, getClose (f := fun (z : Fin R → Fl) r => z r) a4 b4,
    getClose (f := fun (z : Fin R → Fl) r => z r) a5 b5, getClose (f := fun (z : Fin R → Fl) r => z r) a6 b6⟩

/-- **C128, convergence.**  With `p`-bit arithmetic and any summation order, the errors of all the estimates of `mf_analysis_full` are at most `K 2^-p`, from some
`p` on. -/
theorem C128_convergence {R : ℕ} {sig : Arr R} (hs : NoInf sig) (hR : R ≠ 0) {pe : PExp} (hpe : pe = .none ∨ pe = .inf) {wt : Wavelet}
    (hwt : wt.dec_lo.length = wt.dec_hi.length) {j1 : ℕ} {j2 : Option ℝ} {g nm : ℝ} (hnm : nm ≠ 0) {weighted : Bool} {w : WT R}
    (h : waveletAnalysis sig pe wt j1 j2 g nm weighted = .ok w) (h1 : 1 ≤ j1) (h12 : (j1 : ℤ) < w.j2_eff) {q : List ℝ} (hq : (2:ℝ) ∈ q) (n : ℕ) :
    ∃ d, mfAnalysisFull sig j1 j2 nm g weighted wt pe (some (.ndarray q)) n = .ok d ∧ ∃ (K : ℝ) (p0 : ℕ),
      ∀ p : ℕ, p0 ≤ p → ∀ (sum : List Fl → Fl) (hsum : ∀ l, IsSum (fun a b => rnd p (a + b)) l (sum l)),
        ∃ d', (Machine.binary p sum hsum).mfAnalysisFull sig j1 j2 nm g weighted wt pe (some (.ndarray q)) n = .ok d' ∧
          (NoZeros w.wt_coefs → ∀ r, EstimatesClose (K / 2 ^ p) q.length n r d.dwt d'.dwt) ∧
          ∀ l v, w.wt_leaders = some l → d.lwt = some v → NoZeros l →
            ∃ v', d'.lwt = some v' ∧ ∀ r, EstimatesClose (K / 2 ^ p) q.length n r v v' := by
  obtain ⟨d, hd, K, u0, hu0, H⟩ := C127_first_order hs hR hpe hwt hnm h h1 h12 hq n
  obtain ⟨p0, hp0⟩ := exists_pow_lt_of_lt_one hu0 (by norm_num : (1 / 2 : ℝ) < 1)
  refine ⟨d, hd, K, p0, fun p hp sum hsum => ?_⟩
  have hle : (1:ℝ) / 2 ^ p ≤ u0 := by
    refine le_trans ?_ hp0.le
    rw [one_div_pow]
    exact one_div_le_one_div_of_le (by positivity) (pow_le_pow_right₀ (by norm_num) hp)
  have e : K * (Machine.binary p sum hsum).u = K / 2 ^ p := by
    show K * (1 / 2 ^ p) = _
    ring
  have := H (Machine.binary p sum hsum) hle
  rw [e] at this
  exact this

/-- **C128, reproducibility.**  Two platforms (two machines: other summation orders, other mathematical libraries), both with relative errors of at most `u`, give
estimates that differ by at most `K u`. -/
theorem C128_platforms {R : ℕ} {sig : Arr R} (hs : NoInf sig) (hR : R ≠ 0) {pe : PExp} (hpe : pe = .none ∨ pe = .inf) {wt : Wavelet}
    (hwt : wt.dec_lo.length = wt.dec_hi.length) {j1 : ℕ} {j2 : Option ℝ} {g nm : ℝ} (hnm : nm ≠ 0) {weighted : Bool} {w : WT R}
    (h : waveletAnalysis sig pe wt j1 j2 g nm weighted = .ok w) (h1 : 1 ≤ j1) (h12 : (j1 : ℤ) < w.j2_eff) {q : List ℝ} (hq : (2:ℝ) ∈ q) (n : ℕ) :
    ∃ K u0 : ℝ, 0 < u0 ∧ ∀ u : ℝ, u ≤ u0 → ∀ M M' : Machine, M.u ≤ u → M'.u ≤ u →
      ∃ d d', M.mfAnalysisFull sig j1 j2 nm g weighted wt pe (some (.ndarray q)) n = .ok d ∧
        M'.mfAnalysisFull sig j1 j2 nm g weighted wt pe (some (.ndarray q)) n = .ok d' ∧
          (NoZeros w.wt_coefs → ∀ r, EstimatesClose (K * u) q.length n r d.dwt d'.dwt) ∧
          ∀ l, w.wt_leaders = some l → NoZeros l →
            ∃ v v', d.lwt = some v ∧ d'.lwt = some v' ∧ ∀ r, EstimatesClose (K * u) q.length n r v v' := by
  obtain ⟨d0, hd0, K, u0, hu0, H⟩ := C127_first_order hs hR hpe hwt hnm h h1 h12 hq n
  refine ⟨2 * |K|, u0, hu0, fun u hu M M' hM hM' => ?_⟩
  obtain ⟨d, hd, a, b⟩ := H M (hM.trans hu)
  obtain ⟨d', hd', a', b'⟩ := H M' (hM'.trans hu)
  have hle : ∀ N : Machine, N.u ≤ u → K * N.u ≤ |K| * u := fun N hN =>
    (mul_le_mul_of_nonneg_right (le_abs_self K) N.u_nonneg).trans (mul_le_mul_of_nonneg_left hN (abs_nonneg K))
  have e : |K| * u + |K| * u = 2 * |K| * u := by ring
  have key : ∀ {v v1 v2 : MFVar R} {r : Fin R}, EstimatesClose (K * M.u) q.length n r v v1 → EstimatesClose (K * M'.u) q.length n r v v2 →
      EstimatesClose (2 * |K| * u) q.length n r v1 v2 := by
    intro v v1 v2 r x y
    have := (x.mono (hle M hM)).both (y.mono (hle M' hM'))
    rwa [e] at this
  refine ⟨d, d', hd, hd', fun h0 r => key (a h0 r) (a' h0 r), fun l hl h0 => ?_⟩
  have hsome : ∃ v, d0.lwt = some v := by
    obtain ⟨w0, hw0, -, -, hlw⟩ := ((C47_full sig j1 j2 nm g weighted wt pe _ n).1 d0).1 hd0
    rw [h] at hw0
    cases hw0
    obtain ⟨v, hv, -⟩ := hlw l hl
    exact ⟨v, hv⟩
  obtain ⟨v, hv⟩ := hsome
  obtain ⟨v1, e1, x1⟩ := b l v hl hv h0
  obtain ⟨v2, e2, x2⟩ := b' l v hl hv h0
  exact ⟨v1, v2, e1, e2, fun r => key (x1 r) (x2 r)⟩

/-- The summation order of the machine can be chosen: for example from the last entry to the first one. -/
example (p : ℕ) : ∃ sum : List Fl → Fl, ∀ l, IsSum (fun a b => rnd p (a + b)) l (sum l) := ⟨_, sumRight_ok _⟩

/-- This machine makes errors: with 2 bits, `4 + 1` is 4 (ties to even). -/
example : rnd 2 (Fl.fin 4 + Fl.fin 1) = Fl.fin 4 := by
  rw [Fl.fin_add]
  have := C128_ties (p := 2) (n := 2) (e := 1) (by norm_num) (by norm_num)
  norm_num at this
  show Fl.fin (roundTo 2 (4 + 1)) = _
  norm_num
  rw [this]

end

end MFA
