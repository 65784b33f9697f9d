import Verif.Props.SimulChol

/-!
# C76: the skewness convolution; C73: argument validation; C74: supplied noise
-/

namespace MFA

open Classical Finset Matrix

noncomputable section

variable {R : ℕ}

/-! ### C76 -/

theorem dft_conv {M : ℕ} (hM : M ≠ 0) (a b : List ℂ) (ha : a.length = M) (hb : b.length = M) (n : ℕ) :
    idft ((List.range M).map fun k => dft a k * dft b k) n
      = ∑ i ∈ range M, ∑ j ∈ range M, if (M : ℤ) ∣ (n : ℤ) - i - j then a.getD i 0 * b.getD j 0 else 0 := by
  have hM' : (M : ℂ) ≠ 0 := by exact_mod_cast hM
  rw [idft_eq]
  simp only [List.length_map, List.length_range]
  rw [div_eq_iff hM', sum_mul]
  have h1 : ∀ k ∈ range M, ((List.range M).map fun k => dft a k * dft b k).getD k 0 * ee M ((n : ℤ) * k)
      = ∑ i ∈ range M, ∑ j ∈ range M, a.getD i 0 * b.getD j 0 * ee M (k * ((n : ℤ) - i - j)) := by
    intro k hk
    rw [range_map_getD _ _ _ _ (by simpa using hk), dft_eq, dft_eq, ha, hb, sum_mul_sum, sum_mul]
    refine sum_congr rfl fun i _ => ?_
    rw [sum_mul]
    refine sum_congr rfl fun j _ => ?_
    have : ee M (k * ((n : ℤ) - i - j)) = ee M (-((k : ℤ) * i)) * ee M (-((k : ℤ) * j)) * ee M ((n : ℤ) * k) := by
      rw [← ee_add, ← ee_add]; congr 1; ring
    rw [this]; ring
  rw [sum_congr rfl h1, sum_comm]
  refine sum_congr rfl fun i _ => ?_
  rw [sum_comm, sum_mul]
  refine sum_congr rfl fun j _ => ?_
  rw [← mul_sum, ee_sum hM]
  split <;> simp

theorem skewKernel_getD (N : ℕ) (K0 alpha beta dt : ℝ) (i : ℕ) (hi : i < 2 * N) :
    (((skewKernel N K0 alpha beta dt).map fun (t : ℝ) => (t : ℂ)).getD i 0)
      = if 1 ≤ i ∧ i ≤ N then ((K0 / (i : ℝ) ^ alpha / dt ^ beta : ℝ) : ℂ) else 0 := by
  rw [skewKernel, List.map_map, range_map_getD _ _ _ _ hi]
  simp only [Function.comp]
  split <;> simp

theorem bcast_ok {α β γ : Type} (err : PyErr) (f : α → β → γ) {a : List α} {b : List β} (h : a.length = b.length) :
    bcast err f a b = .ok (List.zipWith f a b) := by
  unfold bcast; rw [if_pos h]

theorem bcast_error {α β γ : Type} (err : PyErr) (f : α → β → γ) {a : List α} {b : List β} (h : a.length ≠ b.length)
    (ha : a.length ≠ 1) (hb : b.length ≠ 1) : bcast err f a b = .error err := by
  unfold bcast
  rw [if_neg h]
  match a, b with
  | [x], b => simp at ha
  | [], [y] => simp at hb
  | x :: x' :: a, [y] => simp at hb
  | [], [] => simp at h
  | [], _ :: _ :: _ => rfl
  | _ :: _ :: _, [] => rfl
  | _ :: _ :: _, _ :: _ :: _ => rfl

theorem zip_dft (M : ℕ) (K : List ℝ) (e : RArr R) :
    List.zipWith (fun (a : Fin 1 → ℂ) (b : Fin R → ℂ) r => a 0 * b r)
      ((List.range M).map fun (k : ℕ) (r : Fin 1) => dft (ccol (K.map fun (t : ℝ) (_ : Fin 1) => (t : ℂ)) r) k)
      ((List.range M).map fun (k : ℕ) (r : Fin R) => dft (ccol (e.map fun (row : Fin R → ℝ) (r : Fin R) => (row r : ℂ)) r) k)
      = (List.range M).map fun (k : ℕ) (r : Fin R) =>
        dft (K.map fun (t : ℝ) => (t : ℂ)) k * dft (e.map fun (row : Fin R → ℝ) => (row r : ℂ)) k := by
  have e1 : ccol (K.map fun (t : ℝ) (_ : Fin 1) => (t : ℂ)) 0 = K.map fun (t : ℝ) => (t : ℂ) := by
    rw [ccol, List.map_map]; rfl
  have e2 : ∀ r, ccol (e.map fun (row : Fin R → ℝ) (r : Fin R) => (row r : ℂ)) r = e.map fun (row : Fin R → ℝ) => (row r : ℂ) := by
    intro r; rw [ccol, List.map_map]; rfl
  rw [List.zipWith_map, List.zipWith_self]
  simp only [e1, e2]

theorem skewness_eq {N : ℕ} (hN : N ≠ 0) (e : RArr R) (he : e.length = 2 * N) (K0 alpha beta dt : ℝ) :
    skewnessConvolution e K0 alpha beta dt = .ok ((List.range N).map fun (k : ℕ) r =>
      ∑ τ ∈ Icc 1 N, K0 / (τ : ℝ) ^ alpha / dt ^ beta * (e.getD (N + k - τ) fun _ => 0) r) := by
  have hdiv : e.length / 2 = N := by omega
  have hklen : (skewKernel N K0 alpha beta dt).length = 2 * N := by simp [skewKernel]
  unfold skewnessConvolution
  simp only [hdiv]
  unfold fftRows
  rw [if_neg (by rw [List.length_map, hklen]; omega)]
  simp only []
  rw [if_neg (by rw [List.length_map, he]; omega)]
  simp only [List.length_map, hklen, he]
  rw [bcast_ok _ _ (by simp)]
  simp only []
  rw [zip_dft]
  unfold ifftRows
  rw [if_neg (by simp; omega)]
  simp only [List.length_map, List.length_range]
  congr 1
  apply List.ext_getElem
  · simp; omega
  intro k h1 h2
  have hk : k < N := by simpa using h2
  simp only [List.getElem_drop, List.getElem_map, List.getElem_range]
  funext r
  have hcol : ccol ((List.range (2 * N)).map fun (k : ℕ) (r : Fin R) =>
        dft ((skewKernel N K0 alpha beta dt).map fun (t : ℝ) => (t : ℂ)) k * dft (e.map fun (row : Fin R → ℝ) => (row r : ℂ)) k) r
      = (List.range (2 * N)).map fun k => dft ((skewKernel N K0 alpha beta dt).map fun (t : ℝ) => (t : ℂ)) k
        * dft (e.map fun (row : Fin R → ℝ) => (row r : ℂ)) k := by
    rw [ccol, List.map_map]; rfl
  rw [hcol, dft_conv (by omega) _ _ (by simp [hklen]) (by simp [he])]
  have heget : ∀ j, ((e.map fun (row : Fin R → ℝ) => (row r : ℂ)).getD j 0) = (((e.getD j fun _ => 0) r : ℝ) : ℂ) := by
    intro j
    rw [List.getD_eq_getElem?_getD, List.getElem?_map, List.getD_eq_getElem?_getD]
    cases e[j]? <;> simp
  have hinner : ∀ i ∈ range (2 * N), (∑ j ∈ range (2 * N), if ((2 * N : ℕ) : ℤ) ∣ ((N + k : ℕ) : ℤ) - i - j then
        ((skewKernel N K0 alpha beta dt).map fun (t : ℝ) => (t : ℂ)).getD i 0 * (e.map fun (row : Fin R → ℝ) => (row r : ℂ)).getD j 0 else 0)
      = if i ∈ Icc 1 N then ((K0 / (i : ℝ) ^ alpha / dt ^ beta * (e.getD (N + k - i) fun _ => 0) r : ℝ) : ℂ) else 0 := by
    intro i hi
    have hi' : i < 2 * N := by simpa using hi
    rw [skewKernel_getD N K0 alpha beta dt i hi']
    simp only [mem_Icc]
    split
    · rename_i hIcc
      rw [sum_eq_single (N + k - i)]
      · rw [if_pos, heget]
        · push_cast; ring
        · have : ((N + k : ℕ) : ℤ) - i - ((N + k - i : ℕ) : ℤ) = 0 := by omega
          rw [this]; exact dvd_zero _
      · intro j hj hne
        have hj' : j < 2 * N := by simpa using hj
        rw [if_neg]
        intro hdvd
        apply hne
        have h3 : ((N + k : ℕ) : ℤ) - i - j = ((N + k - i : ℕ) : ℤ) - j := by omega
        rw [h3, dvd_sub_iff (by omega) hj'] at hdvd
        exact hdvd.symm
      · intro hc; simp at hc; omega
    · simp
  rw [sum_congr rfl hinner, ← sum_filter, Complex.re_sum]
  have hfil : (range (2 * N)).filter (fun i => i ∈ Icc 1 N) = Icc 1 N := by
    ext i; simp only [mem_filter, mem_range, mem_Icc]; omega
  rw [hfil]
  refine sum_congr rfl fun τ _ => ?_
  rw [Complex.ofReal_re]

/-- **C76**.  On a noise of `2N` rows the transform based `skewness_convolution` returns `N` rows, and row `k` is the sum over
the lags `1 <= tau <= N` of `K0 / tau^alpha / dt^beta` times row `N + k - tau` of the noise: only strictly past values enter. -/
theorem C76_causal_convolution {N : ℕ} (hN : N ≠ 0) (e : RArr R) (he : e.length = 2 * N) (K0 alpha beta dt : ℝ) :
    ∃ x, skewnessConvolution e K0 alpha beta dt = .ok x ∧ x.length = N ∧ ∀ k < N, ∀ r,
      (x.getD k fun _ => 0) r
        = ∑ τ ∈ Icc 1 N, K0 / (τ : ℝ) ^ alpha / dt ^ beta * (e.getD (N + k - τ) fun _ => 0) r := by
  refine ⟨_, skewness_eq hN e he K0 alpha beta dt, by simp, fun k hk r => ?_⟩
  rw [range_map_getD _ _ _ _ hk]

/-- **C76**, causality as a two-run property: row `k` of the result does not change when the noise changes only from row `N + k`
on. -/
theorem C76_strictly_causal {N : ℕ} (hN : N ≠ 0) (e e' : RArr R) (he : e.length = 2 * N) (he' : e'.length = 2 * N)
    (K0 alpha beta dt : ℝ) (k : ℕ) (hk : k < N) (heq : ∀ i < N + k, e.getD i (fun _ => 0) = e'.getD i fun _ => 0) :
    ∃ x x', skewnessConvolution e K0 alpha beta dt = .ok x ∧ skewnessConvolution e' K0 alpha beta dt = .ok x' ∧
      x.getD k (fun _ => 0) = x'.getD k fun _ => 0 := by
  obtain ⟨x, hx, -, h1⟩ := C76_causal_convolution hN e he K0 alpha beta dt
  obtain ⟨x', hx', -, h2⟩ := C76_causal_convolution hN e' he' K0 alpha beta dt
  refine ⟨x, x', hx, hx', ?_⟩
  funext r
  rw [h1 k hk r, h2 k hk r]
  refine sum_congr rfl fun τ hτ => ?_
  rw [mem_Icc] at hτ
  rw [heq (N + k - τ) (by omega)]

/-- **C76**: after `N` rows of zeros the two implementations agree. -/
theorem C76_equals_direct {N : ℕ} (hN : N ≠ 0) (f : RArr R) (hf : f.length = N) (K0 alpha beta dt : ℝ) :
    skewnessConvolution (List.replicate N (fun _ => 0) ++ f) K0 alpha beta dt
      = .ok (skewnessConvolutionDumb f K0 alpha beta dt) := by
  rw [skewness_eq hN _ (by simp [hf]; omega), skewnessConvolutionDumb, hf]
  congr 1
  refine List.map_congr_left fun k hk => ?_
  have hk' : k < N := by simpa using hk
  funext r
  have hget : ∀ τ, 1 ≤ τ → τ ≤ N → ((List.replicate N (fun _ => (0:ℝ)) ++ f : RArr R).getD (N + k - τ) fun _ => 0) r
      = if τ ≤ k then (f.getD (k - τ) fun _ => 0) r else 0 := by
    intro τ h1 h2
    split
    · rename_i h
      rw [List.getD_eq_getElem?_getD, List.getElem?_append_right (by simp; omega), List.length_replicate,
        show N + k - τ - N = k - τ by omega, List.getD_eq_getElem?_getD]
    · rename_i h
      rw [List.getD_eq_getElem?_getD, List.getElem?_append_left (by simp; omega),
        List.getElem?_replicate, if_pos (by omega)]
      rfl
  have h1 : ∀ τ ∈ Icc 1 N, K0 / (τ : ℝ) ^ alpha / dt ^ beta
        * ((List.replicate N (fun _ => (0:ℝ)) ++ f : RArr R).getD (N + k - τ) fun _ => 0) r
      = if τ ∈ Icc 1 k then K0 / (τ : ℝ) ^ alpha / dt ^ beta * (f.getD (k - τ) fun _ => 0) r else 0 := by
    intro τ hτ
    rw [mem_Icc] at hτ
    rw [hget τ hτ.1 hτ.2]
    simp only [mem_Icc, hτ.1, true_and]
    split <;> simp
  rw [sum_congr rfl h1, ← sum_filter]
  have hfil : (Icc 1 N).filter (fun i => i ∈ Icc 1 k) = Icc 1 k := by
    ext i; simp only [mem_filter, mem_Icc]; omega
  rw [hfil]
  refine sum_bij' (fun τ _ => k - τ) (fun i _ => k - i) ?_ ?_ ?_ ?_ ?_
  · intro τ hτ; rw [mem_Icc] at hτ; simp; omega
  · intro i hi; have : i < k := by simpa using hi
    rw [mem_Icc]; omega
  · intro τ hτ; rw [mem_Icc] at hτ; omega
  · intro i hi; have : i < k := by simpa using hi
    omega
  · intro τ hτ
    rw [mem_Icc] at hτ
    have : (k : ℝ) - ((k - τ : ℕ) : ℝ) = τ := by rw [Nat.cast_sub hτ.2]; ring
    rw [this]

/-- **C76**: a noise with an odd number of rows (or none) is refused. -/
theorem C76_odd_rows (e : RArr R) (he : e.length % 2 = 1 ∨ e.length = 0) (K0 alpha beta dt : ℝ) :
    skewnessConvolution e K0 alpha beta dt = .error .valueError := by
  have hklen : (skewKernel (e.length / 2) K0 alpha beta dt).length = 2 * (e.length / 2) := by simp [skewKernel]
  unfold skewnessConvolution
  simp only []
  unfold fftRows
  by_cases h0 : e.length / 2 = 0
  · rw [if_pos (by rw [List.length_map, hklen, h0])]
  · rw [if_neg (by rw [List.length_map, hklen]; omega)]
    simp only []
    rw [if_neg (by rw [List.length_map]; omega)]
    simp only []
    have hodd : e.length % 2 = 1 := by omega
    rw [bcast_error]
    · simp only [List.length_map, List.length_range, hklen]; omega
    · simp only [List.length_map, List.length_range, hklen]; omega
    · simp only [List.length_map, List.length_range]; omega

end

end MFA
