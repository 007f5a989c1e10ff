import Verif.Props.Convolution
import Verif.Props.FixedChannel
import Verif.Props.RoundingRoot

/-! C204: a transmission channel adds a constant to the log features, and mean subtraction removes it. -/

set_option linter.unusedSectionVars false

namespace Spafe
namespace Props
open Model XF Spec

/-- What the samples at the edges of the frames add to a spectrum: C190. `X` bounds the samples, `h 0, ..., h (p - 1)` is the
impulse response. -/
noncomputable def edgeError (a : Args) (coeff X : ℝ) (h : ℕ → ℝ) (p : ℕ) : ℝ :=
  2 * (emphMax a.preEmph coeff * X) * ∑ m ∈ Finset.range p, m * |h m|

/-- The response of the channel is `g n` over filter `n` of the bank, up to the fraction `θ`. -/
def FlatOverFilters (h : ℕ → ℝ) (p nfft : ℕ) (fb : List (List ℝ)) (g : ℕ → ℝ) (θ : ℝ) : Prop :=
  ∀ n < fb.length, 0 < g n ∧ ∀ k < nfft / 2 + 1, (fb.getD n []).getD k 0 ≠ 0 → |‖response h p nfft k‖ - g n| ≤ θ * g n

/-- The root of the sum of the weights of filter `n` over `nfft`. -/
noncomputable def filterMass (fb : List (List ℝ)) (nfft n : ℕ) : ℝ :=
  √(∑ k ∈ Finset.range (nfft / 2 + 1), (fb.getD n []).getD k 0 / nfft)

theorem bank_nonneg {fb : List (List ℝ)} (h : ∀ r ∈ fb, ∀ v ∈ r, 0 ≤ v) (n k : ℕ) : 0 ≤ (fb.getD n []).getD k 0 := by
  by_cases hn : n < fb.length
  · by_cases hk : k < (fb.getD n []).length
    · exact h _ (getD_mem _ hn) _ (getD_mem _ hk)
    · rw [List.getD_eq_default _ _ (by omega)]
  · rw [List.getD_eq_default fb _ (by omega)]; simp

/-- A weighted norm after a multiplication with numbers whose absolute values are near `g` and a disturbance of at most `e`. -/
theorem weighted_product {N : ℕ} {V : ℕ → ℝ} (hV : ∀ k < N, 0 ≤ V k) {x y H : ℕ → ℂ} {g θ e : ℝ} (hg : 0 < g) (h0 : 0 ≤ θ) (h1 : θ ≤ 1)
    (he : 0 ≤ e) (hH : ∀ k < N, V k ≠ 0 → |‖H k‖ - g| ≤ θ * g) (hd : ∀ k < N, ‖y k - H k * x k‖ ≤ e) :
    |√(∑ k ∈ Finset.range N, V k * ‖y k‖ ^ 2) - g * √(∑ k ∈ Finset.range N, V k * ‖x k‖ ^ 2)| ≤
      θ * (g * √(∑ k ∈ Finset.range N, V k * ‖x k‖ ^ 2)) + e * √(∑ k ∈ Finset.range N, V k) := by
  have hscale : ∀ c : ℝ, 0 ≤ c → c * √(∑ k ∈ Finset.range N, V k * ‖x k‖ ^ 2) =
      √(∑ k ∈ Finset.range N, V k * (c * ‖x k‖) ^ 2) := by
    intro c hc
    rw [show ∑ k ∈ Finset.range N, V k * (c * ‖x k‖) ^ 2 = c ^ 2 * ∑ k ∈ Finset.range N, V k * ‖x k‖ ^ 2 by
      rw [Finset.mul_sum]; exact Finset.sum_congr rfl fun k _ => by ring]
    rw [Real.sqrt_mul (sq_nonneg _), Real.sqrt_sq hc]
  have hD : ∀ z : ℕ → ℂ, (∀ k < N, ‖z k‖ ≤ e) → √(∑ k ∈ Finset.range N, V k * ‖z k‖ ^ 2) ≤ e * √(∑ k ∈ Finset.range N, V k) := by
    intro z hz
    rw [show e * √(∑ k ∈ Finset.range N, V k) = √(e ^ 2 * ∑ k ∈ Finset.range N, V k) by
      rw [Real.sqrt_mul (sq_nonneg _), Real.sqrt_sq he]]
    refine Real.sqrt_le_sqrt ?_
    rw [Finset.mul_sum]
    refine Finset.sum_le_sum fun k hk => ?_
    have hk := Finset.mem_range.mp hk
    rw [mul_comm (e ^ 2)]
    exact mul_le_mul_of_nonneg_left (pow_le_pow_left₀ (norm_nonneg _) (hz k hk) 2) (hV k hk)
  have up : √(∑ k ∈ Finset.range N, V k * ‖H k * x k‖ ^ 2) ≤ ((1 + θ) * g) * √(∑ k ∈ Finset.range N, V k * ‖x k‖ ^ 2) := by
    rw [hscale _ (by positivity)]
    refine Real.sqrt_le_sqrt (Finset.sum_le_sum fun k hk => ?_)
    have hk := Finset.mem_range.mp hk
    by_cases hz : V k = 0
    · rw [hz, zero_mul, zero_mul]
    · have := (abs_le.mp (hH k hk hz)).2
      refine mul_le_mul_of_nonneg_left (pow_le_pow_left₀ (norm_nonneg _) ?_ 2) (hV k hk)
      rw [norm_mul]
      exact mul_le_mul_of_nonneg_right (by linarith) (norm_nonneg _)
  have lo : ((1 - θ) * g) * √(∑ k ∈ Finset.range N, V k * ‖x k‖ ^ 2) ≤ √(∑ k ∈ Finset.range N, V k * ‖H k * x k‖ ^ 2) := by
    have hc : 0 ≤ (1 - θ) * g := mul_nonneg (by linarith) hg.le
    rw [hscale _ hc]
    refine Real.sqrt_le_sqrt (Finset.sum_le_sum fun k hk => ?_)
    have hk := Finset.mem_range.mp hk
    by_cases hz : V k = 0
    · rw [hz, zero_mul, zero_mul]
    · have := (abs_le.mp (hH k hk hz)).1
      refine mul_le_mul_of_nonneg_left (pow_le_pow_left₀ (by positivity) ?_ 2) (hV k hk)
      rw [norm_mul]
      exact mul_le_mul_of_nonneg_right (by linarith) (norm_nonneg _)
  have t1 := sqrt_weighted_add hV (fun k => H k * x k) (fun k => y k - H k * x k)
  have t2 := sqrt_weighted_add hV y (fun k => H k * x k - y k)
  simp only [add_sub_cancel] at t1 t2
  have d1 := hD _ hd
  have d2 := hD (fun k => H k * x k - y k) fun k hk => by rw [norm_sub_rev]; exact hd k hk
  rw [abs_le]
  constructor <;> linarith

/-- **C204**, the energies: the roots of the band energies are multiplied by the response of the channel, up to its variation over
the filter and the edges of the frames. -/
theorem C204_energy {a : Args} {coeff : ℝ} {fb : List (List ℝ)} {sig sig' : List ℝ} {l s : ℕ} (hs : Setup a fb sig l s)
    {h : ℕ → ℝ} {p : ℕ} (hf : IsFiltered h p sig sig') {X : ℝ} (hX : ∀ t < sig.length, |sig.getD t 0| ≤ X) (hl2 : 2 ≤ l)
    (hl : l ≤ a.nfft) {g : ℕ → ℝ} {θ : ℝ} (h0 : 0 ≤ θ) (h1 : θ ≤ 1) (hg : FlatOverFilters h p a.nfft fb g θ) {i n : ℕ}
    (hi : i < (sig.length - l) / s + 1) (hn : n < fb.length) :
    |√(energyOf a coeff fb sig' l s i n) - g n * √(energyOf a coeff fb sig l s i n)| ≤
      θ * (g n * √(energyOf a coeff fb sig l s i n)) + edgeError a coeff X h p * filterMass fb a.nfft n := by
  have hlong := hs.long
  have hfit : i * s + l ≤ sig.length := by
    have h3 : i ≤ (sig.length - l) / s := by omega
    have h4 := (Nat.mul_le_mul_right s h3).trans (Nat.div_mul_le_self (sig.length - l) s)
    omega
  have hX0 : 0 ≤ X := (abs_nonneg _).trans (hX 0 (by omega))
  have he : 0 ≤ edgeError a coeff X h p := by
    have : 0 ≤ emphMax a.preEmph coeff := by unfold emphMax; split_ifs <;> positivity
    unfold edgeError
    positivity
  have hE : ∀ x : List ℝ, energyOf a coeff fb x l s i n = ∑ k ∈ Finset.range (a.nfft / 2 + 1), (fb.getD n []).getD k 0 / a.nfft *
      ‖frameBin (windowWeight a.win.winType l) (emphasised a.preEmph coeff x) l s a.nfft i k‖ ^ 2 := by
    intro x
    unfold energyOf bandEnergy framePower
    exact Finset.sum_congr rfl fun k _ => by ring
  rw [hE, hE]
  unfold filterMass
  refine weighted_product (H := response h p a.nfft) (fun k _ => div_nonneg (bank_nonneg hs.nonneg n k) (Nat.cast_nonneg _)) (hg n hn).1 h0 h1 he
    (fun k hk hV => (hg n hn).2 k hk fun hc => hV (by rw [hc, zero_div])) fun k _ => ?_
  exact filter_frame _ hf a.preEmph coeff hX hl2 hl hfit k

theorem Setup.filtered {a : Args} {fb : List (List ℝ)} {sig sig' : List ℝ} {l s : ℕ} (h : Setup a fb sig l s)
    (hf : sig'.length = sig.length) : Setup a fb sig' l s :=
  ⟨h.bank, h.cols, h.nonneg, h.rows, h.ceps, h.nfft, h.window, h.hopLe, h.len, h.hop, h.pos, by rw [hf]; exact h.long, fun hp h0 => by
    rw [h0, List.length_nil] at hf
    exact h.samples hp (List.length_eq_zero_iff.mp hf.symm)⟩

theorem log_channel {E E' g η : ℝ} (h0 : 0 ≤ η) (h1 : η < 1) (hE : 0 < E) (hg : 0 < g) (hd : |√E' - g * √E| ≤ η * (g * √E)) :
    |logFloor E' - logFloor E - 2 * Real.log g| ≤ 2 * Real.log (1 / (1 - η)) := by
  have e1 : g * √E = √(g ^ 2 * E) := by rw [Real.sqrt_mul (sq_nonneg _), Real.sqrt_sq hg.le]
  rw [e1] at hd
  have hp : 0 < g ^ 2 * E := by positivity
  have key := log_near h0 h1 hp hd
  have e2 : logFloor (g ^ 2 * E) = logFloor E + 2 * Real.log g := by
    unfold logFloor
    rw [if_neg hp.ne', if_neg hE.ne', Real.log_mul (by positivity) hE.ne', Real.log_pow]
    push_cast
    ring
  rw [e2] at key
  rwa [sub_sub]

theorem log_compression {a : Args} {f : Feature} {coeff : ℝ} (hf : (f, coeff) ∈ logFeatures a) : (f, coeff, logFloor) ∈ compressions a := by
  simp only [logFeatures, compressions, List.mem_cons, Prod.mk.injEq, List.not_mem_nil, or_false, and_true] at hf ⊢
  rcases hf with h | h | h | h
  · exact Or.inl h
  · exact Or.inr (Or.inl h)
  · exact Or.inr (Or.inr (Or.inl h))
  · exact Or.inr (Or.inr (Or.inr (Or.inl h)))

theorem dctII_centered (N R : ℕ) (y : ℕ → ℕ → ℝ) (i k : ℕ) :
    dctII N (fun n => y i n - (∑ j ∈ Finset.range R, y j n) / R) k =
      dctII N (y i) k - (∑ j ∈ Finset.range R, dctII N (y j) k) / R := by
  unfold dctII
  rw [← Finset.mul_sum, Finset.sum_comm, mul_div_assoc, ← mul_sub, Finset.sum_div, ← Finset.sum_sub_distrib]
  congr 1
  refine Finset.sum_congr rfl fun n _ => ?_
  rw [← Finset.sum_mul]
  ring

/-- The log features with `normalize = "ms"`: the DCT of the log energies minus their means over the frames. -/
theorem ms_meaning {a : Args} {f : Feature} {coeff : ℝ} (hf : (f, coeff) ∈ logFeatures a) {fb : List (List ℝ)}
    {sig : List ℝ} {l s : ℕ} (h : Setup a fb sig l s) (hd : a.dctType = 2) (hu : a.useEnergy = false) (hl : a.lifter = none)
    (hn : a.normalize = some "ms") (hc : 0 < a.numCeps) {R : ℕ} (hR : R = (sig.length - l) / s + 1) :
    ∃ m, f a sig = .ok m ∧ HasShape m R (min a.numCeps fb.length) ∧ ∀ i k, i < R → k < min a.numCeps fb.length →
      (m.getD i []).getD k nan = fin (dctII fb.length (fun n => logFloor (energyOf a coeff fb sig l s i n) -
        (∑ j ∈ Finset.range R, logFloor (energyOf a coeff fb sig l s j n)) / R) k) := by
  have hmem : f ∈ [mfcc, imfcc, lfcc, bfcc, gfcc, ngcc, msrcc, psrcc, (fun a => pncc a 0), plp, rplp] := by
    simp only [logFeatures, List.mem_cons, Prod.mk.injEq, List.not_mem_nil, or_false] at hf ⊢
    rcases hf with ⟨rfl, -⟩ | ⟨rfl, -⟩ | ⟨rfl, -⟩ | ⟨rfl, -⟩ <;> simp
  obtain ⟨m, h1, h2, h3⟩ := C101_meaning { a with lifter := none, normalize := none } f coeff logFloor (log_compression hf) fb sig l s
    ⟨h.bank, h.cols, h.nonneg, h.rows, h.ceps, h.nfft, h.window, h.hopLe, h.len, h.hop, h.pos, h.long, h.samples⟩ hd hu rfl rfl
  rw [← hR] at h2 h3
  have hR0 : 0 < R := by rw [hR]; exact Nat.succ_pos _
  have hp : 0 < min a.numCeps fb.length := lt_min hc h.rows
  obtain ⟨c, hcc⟩ : ∃ c, c = min a.numCeps fb.length := ⟨_, rfl⟩
  obtain ⟨y, hy⟩ : ∃ y : ℕ → ℕ → ℝ, y = fun i n => logFloor (energyOf a coeff fb sig l s i n) := ⟨_, rfl⟩
  have em : m = finMat (matOf R c fun i k => dctII fb.length (y i) k) := by
    rw [hcc]
    refine isMatrix_of h2 fun i k hi hk => ?_
    rw [hy]
    exact h3 i k hi hk
  obtain ⟨B, b1, b2, b3, b4, -⟩ := C15_ms (matOf_rect R c fun i k => dctII fb.length (y i) k) (matOf_ne _ hR0) (by rw [hcc]; exact hp)
  have hBl : B.length = R := by rw [b2]; simp [matOf]
  refine ⟨finMat B, ?_, ⟨by rw [finMat_length, hBl], ?_⟩, fun i k hi hk => ?_⟩
  · rw [C102_post_processing f 0 hmem a sig, h1, ok_bind, hl, hn, em]
    unfold postProcess
    simp only [ok_bind, if_neg (show ¬ ("ms" : String) = "" by decide)]
    rw [ncols_finMat_matOf _ hR0, b1]
  · intro r hr
    obtain ⟨r', hr', rfl⟩ := List.mem_map.mp hr
    rw [List.length_map, ← hcc]
    exact b3 r' hr'
  · rw [← hcc] at hk
    have e1 : ((finMat B).getD i []).getD k nan = fin (Np.at2 B i k) := by
      have hi' : i < B.length := by rw [hBl]; exact hi
      have hk' : k < (B.getD i []).length := by rw [b3 _ (getD_mem _ hi')]; exact hk
      unfold finMat Np.at2
      rw [getD_map_lt _ _ [] _ hi', getD_map_lt _ _ 0 _ hk']
    rw [e1, b4 i k (by simpa [matOf] using hi) hk, mean_col]
    have hlen : (matOf R c fun i k => dctII fb.length (y i) k).length = R := by simp [matOf]
    rw [hlen, at2_matOf _ hi hk, Finset.sum_congr rfl fun j hj => at2_matOf _ (Finset.mem_range.mp hj) hk,
      ← dctII_centered fb.length R y i k, hy]

/-- **C204**, without normalisation: the channel adds the DCT of the logarithm of its response to every row. -/
theorem C204_shift (a : Args) (f : Feature) (coeff : ℝ) (hf : (f, coeff) ∈ logFeatures a) (fb : List (List ℝ)) (sig sig' : List ℝ)
    (l s : ℕ) (hs : Setup a fb sig l s) (hd : a.dctType = 2) (hu : a.useEnergy = false) (hli : a.lifter = none)
    (hn : a.normalize = none) (h : ℕ → ℝ) (p : ℕ) (hfil : IsFiltered h p sig sig') (X : ℝ) (hX : ∀ t < sig.length, |sig.getD t 0| ≤ X)
    (hl2 : 2 ≤ l) (hl : l ≤ a.nfft) (g : ℕ → ℝ) (θ η : ℝ) (t0 : 0 ≤ θ) (t1 : θ ≤ 1) (h0 : 0 ≤ η) (h1 : η < 1)
    (hg : FlatOverFilters h p a.nfft fb g θ)
    (hE : ∀ i < (sig.length - l) / s + 1, ∀ n < fb.length, 0 < energyOf a coeff fb sig l s i n ∧
      θ * (g n * √(energyOf a coeff fb sig l s i n)) + edgeError a coeff X h p * filterMass fb a.nfft n ≤
        η * (g n * √(energyOf a coeff fb sig l s i n))) :
    ∃ m m', f a sig = .ok m ∧ f a sig' = .ok m' ∧ HasShape m ((sig.length - l) / s + 1) (min a.numCeps fb.length) ∧
      HasShape m' ((sig.length - l) / s + 1) (min a.numCeps fb.length) ∧ ∀ i < (sig.length - l) / s + 1, ∃ c c' : ℕ → ℝ,
        (∀ k < min a.numCeps fb.length, (m.getD i []).getD k nan = fin (c k) ∧ (m'.getD i []).getD k nan = fin (c' k)) ∧
        √(∑ k ∈ Finset.range (min a.numCeps fb.length), (c' k - (c k + dctII fb.length (fun n => 2 * Real.log (g n)) k)) ^ 2) ≤
          √fb.length * (2 * Real.log (1 / (1 - η))) := by
  have hs' := Setup.filtered hs hfil.1
  obtain ⟨m, m1, m2, m3⟩ := C101_meaning a f coeff logFloor (log_compression hf) fb sig l s hs hd hu hli hn
  obtain ⟨m', m1', m2', m3'⟩ := C101_meaning a f coeff logFloor (log_compression hf) fb sig' l s hs' hd hu hli hn
  rw [hfil.1] at m2' m3'
  refine ⟨m, m', m1, m1', m2, m2', fun i hi => ⟨_, _, fun k hk => ⟨m3 i k hi hk, m3' i k hi hk⟩, ?_⟩⟩
  have hκ : 0 ≤ 2 * Real.log (1 / (1 - η)) := by
    have : 1 ≤ 1 / (1 - η) := by rw [le_div_iff₀ (by linarith)]; linarith
    have := Real.log_nonneg this
    linarith
  have key := dct_error (min_le_right a.numCeps fb.length) (rt := fun n => logFloor (energyOf a coeff fb sig' l s i n))
    (y := fun n => logFloor (energyOf a coeff fb sig l s i n) + 2 * Real.log (g n)) (B := fun _ => 2 * Real.log (1 / (1 - η)))
    (c' := dctII fb.length fun n => logFloor (energyOf a coeff fb sig' l s i n)) (tau := 0) (fun n hn' => by
      obtain ⟨e1, e2⟩ := hE i hi n hn'
      have := log_channel h0 h1 e1 (hg n hn').1 ((C204_energy hs hfil hX hl2 hl t0 t1 hg hi hn').trans e2)
      rwa [sub_sub] at this) (by simp)
  simp only [dctII_add] at key
  refine key.trans (le_of_eq ?_)
  rw [zero_add, Finset.sum_const, Finset.card_range, nsmul_eq_mul, Real.sqrt_mul (Nat.cast_nonneg _), Real.sqrt_sq hκ]

/-- **C204**: with `normalize = "ms"` the features of the recording through the channel are those of the original, up to twice what
the channel varies over a filter and the edges of the frames contribute. -/
theorem C204_ms (a : Args) (f : Feature) (coeff : ℝ) (hf : (f, coeff) ∈ logFeatures a) (fb : List (List ℝ)) (sig sig' : List ℝ)
    (l s : ℕ) (hs : Setup a fb sig l s) (hd : a.dctType = 2) (hu : a.useEnergy = false) (hli : a.lifter = none)
    (hn : a.normalize = some "ms") (hc : 0 < a.numCeps) (h : ℕ → ℝ) (p : ℕ) (hfil : IsFiltered h p sig sig') (X : ℝ)
    (hX : ∀ t < sig.length, |sig.getD t 0| ≤ X)
    (hl2 : 2 ≤ l) (hl : l ≤ a.nfft) (g : ℕ → ℝ) (θ η : ℝ) (t0 : 0 ≤ θ) (t1 : θ ≤ 1) (h0 : 0 ≤ η) (h1 : η < 1)
    (hg : FlatOverFilters h p a.nfft fb g θ)
    (hE : ∀ i < (sig.length - l) / s + 1, ∀ n < fb.length, 0 < energyOf a coeff fb sig l s i n ∧
      θ * (g n * √(energyOf a coeff fb sig l s i n)) + edgeError a coeff X h p * filterMass fb a.nfft n ≤
        η * (g n * √(energyOf a coeff fb sig l s i n))) :
    ∃ m m', f a sig = .ok m ∧ f a sig' = .ok m' ∧ HasShape m ((sig.length - l) / s + 1) (min a.numCeps fb.length) ∧
      HasShape m' ((sig.length - l) / s + 1) (min a.numCeps fb.length) ∧ ∀ i < (sig.length - l) / s + 1, ∃ c c' : ℕ → ℝ,
        (∀ k < min a.numCeps fb.length, (m.getD i []).getD k nan = fin (c k) ∧ (m'.getD i []).getD k nan = fin (c' k)) ∧
        √(∑ k ∈ Finset.range (min a.numCeps fb.length), (c' k - c k) ^ 2) ≤ √fb.length * (4 * Real.log (1 / (1 - η))) := by
  have hs' := Setup.filtered hs hfil.1
  obtain ⟨R, hR⟩ : ∃ R, R = (sig.length - l) / s + 1 := ⟨_, rfl⟩
  have hR0 : (0 : ℝ) < R := by rw [hR]; positivity
  obtain ⟨m, m1, m2, m3⟩ := ms_meaning hf hs hd hu hli hn hc hR
  obtain ⟨m', m1', m2', m3'⟩ := ms_meaning hf hs' hd hu hli hn hc (R := R) (by rw [hfil.1, hR])
  rw [← hR] at hE ⊢
  refine ⟨m, m', m1, m1', m2, m2', fun i hi => ⟨_, _, fun k hk => ⟨m3 i k hi hk, m3' i k hi hk⟩, ?_⟩⟩
  obtain ⟨κ, hκe⟩ : ∃ κ, κ = 2 * Real.log (1 / (1 - η)) := ⟨_, rfl⟩
  have hκ : 0 ≤ κ := by
    have : 1 ≤ 1 / (1 - η) := by rw [le_div_iff₀ (by linarith)]; linarith
    have := Real.log_nonneg this
    linarith
  obtain ⟨y, hy⟩ : ∃ y : ℕ → ℕ → ℝ, y = fun i n => logFloor (energyOf a coeff fb sig l s i n) := ⟨_, rfl⟩
  obtain ⟨y', hy'⟩ : ∃ y' : ℕ → ℕ → ℝ, y' = fun i n => logFloor (energyOf a coeff fb sig' l s i n) := ⟨_, rfl⟩
  have hlog : ∀ i < R, ∀ n < fb.length, |y' i n - y i n - 2 * Real.log (g n)| ≤ κ := by
    intro i hi n hn'
    obtain ⟨e1, e2⟩ := hE i hi n hn'
    rw [hy, hy', hκe]
    exact log_channel h0 h1 e1 (hg n hn').1 ((C204_energy hs hfil hX hl2 hl t0 t1 hg (by rw [← hR]; exact hi) hn').trans e2)
  have key := dct_error (min_le_right a.numCeps fb.length) (rt := fun n => y' i n - (∑ j ∈ Finset.range R, y' j n) / R)
    (y := fun n => y i n - (∑ j ∈ Finset.range R, y j n) / R) (B := fun _ => 2 * κ)
    (c' := dctII fb.length fun n => y' i n - (∑ j ∈ Finset.range R, y' j n) / R) (tau := 0) (fun n hn' => by
      have e1 := hlog i hi n hn'
      have e2 : |(∑ j ∈ Finset.range R, (y' j n - y j n - 2 * Real.log (g n))) / R| ≤ κ := by
        rw [abs_div, abs_of_pos hR0, div_le_iff₀ hR0]
        refine (Finset.abs_sum_le_sum_abs _ _).trans ?_
        refine (Finset.sum_le_sum fun j hj => hlog j (Finset.mem_range.mp hj) n hn').trans ?_
        rw [Finset.sum_const, Finset.card_range, nsmul_eq_mul, mul_comm]
      have e3 : (∑ j ∈ Finset.range R, (y' j n - y j n - 2 * Real.log (g n))) / R =
          (∑ j ∈ Finset.range R, y' j n) / R - (∑ j ∈ Finset.range R, y j n) / R - 2 * Real.log (g n) := by
        rw [Finset.sum_sub_distrib, Finset.sum_sub_distrib, Finset.sum_const, Finset.card_range, nsmul_eq_mul]
        field_simp
      rw [e3] at e2
      rw [abs_le] at *
      constructor <;> linarith) (by simp)
  rw [hy, hy'] at key
  refine key.trans (le_of_eq ?_)
  rw [zero_add, Finset.sum_const, Finset.card_range, nsmul_eq_mul, Real.sqrt_mul (Nat.cast_nonneg _), Real.sqrt_sq (by positivity), hκe]
  ring

/-- Two filters of one bin each, no pre-emphasis, mean subtraction. -/
noncomputable def channelDemo : Args :=
  { demo2 with preEmph := false, normalize := some "ms", fbanks := some (finMat [[1, 0], [0, 1]]) }

theorem channelDemo_setup : Setup channelDemo [[1, 0], [0, 1]] [5, 1, 4] 2 1 :=
  have S := demo2_setup
  ⟨rfl, by simp [channelDemo, demo2], by simp, by simp, by simp [channelDemo, demo2], S.nfft, S.window, S.hopLe, S.len, S.hop, S.pos, S.long,
    fun _ => by simp⟩

theorem binRoot_two : binRoot 2 0 = 1 ∧ binRoot 2 1 = -1 := by
  constructor
  · simp [binRoot]
  · unfold binRoot
    rw [show -(2 * (Real.pi : ℂ) * Complex.I * (1 : ℕ) / (2 : ℕ)) = -(Real.pi * Complex.I) by push_cast; ring, Complex.exp_neg,
      Complex.exp_pi_mul_I]
    norm_num

theorem channelDemo_energy : ∀ i < 2, ∀ n < 2, ∃ v : ℝ, 0.24 ≤ v ∧
    energyOf channelDemo channelDemo.preEmphCoeff [[1, 0], [0, 1]] [5, 1, 4] 2 1 i n = v ^ 2 / 2 := by
  have hb : ∀ i k : ℕ, frameBin (windowWeight channelDemo.win.winType 2) (emphasised channelDemo.preEmph channelDemo.preEmphCoeff [5, 1, 4])
      2 1 channelDemo.nfft i k = (0.08 : ℝ) * (([5, 1, 4] : List ℝ).getD i 0 : ℝ) +
        (0.08 : ℝ) * (([5, 1, 4] : List ℝ).getD (i + 1) 0 : ℝ) * binRoot 2 k := by
    intro i k
    have hn : channelDemo.nfft = 2 := rfl
    have hw : ∀ j < 2, windowWeight channelDemo.win.winType 2 j = 0.08 := by
      intro j hj
      have : channelDemo.win.winType = "hamming" := rfl
      rw [this]
      interval_cases j <;> simp [windowWeight] <;> norm_num
    have he : ∀ t, emphasised channelDemo.preEmph channelDemo.preEmphCoeff [5, 1, 4] t = ([5, 1, 4] : List ℝ).getD t 0 := fun t => by
      simp [emphasised, channelDemo]
    unfold frameBin
    rw [hn, show min 2 2 = 2 from rfl, Finset.sum_range_succ, Finset.sum_range_one, binRoot_pow, binRoot_pow, hw 0 (by norm_num),
      hw 1 (by norm_num), he, he, mul_one, pow_zero, pow_one, add_zero]
    push_cast
    ring
  have hE : ∀ i n : ℕ, n < 2 → energyOf channelDemo channelDemo.preEmphCoeff [[1, 0], [0, 1]] [5, 1, 4] 2 1 i n =
      ‖frameBin (windowWeight channelDemo.win.winType 2) (emphasised channelDemo.preEmph channelDemo.preEmphCoeff [5, 1, 4])
        2 1 channelDemo.nfft i n‖ ^ 2 / 2 := by
    intro i n hn
    have hn2 : channelDemo.nfft = 2 := rfl
    unfold energyOf bandEnergy framePower
    rw [hn2, show 2 / 2 + 1 = 2 from rfl, Finset.sum_range_succ, Finset.sum_range_one]
    interval_cases n <;> simp
  obtain ⟨r0, r1⟩ := binRoot_two
  intro i hi n hn
  refine ⟨_, ?_, hE i n hn⟩
  rw [hb]
  interval_cases i <;> interval_cases n <;> simp only [r0, r1] <;>
    simp only [List.getD_cons_zero, List.getD_cons_succ, mul_one, mul_neg, ← Complex.ofReal_mul, ← Complex.ofReal_add, ← Complex.ofReal_neg,
      Complex.norm_real, Real.norm_eq_abs, zero_add] <;> norm_num [abs_of_pos, abs_of_neg]

/-- An echo of a hundredth after one sample. The edges of the frames are at most half of each band. -/
example : ∃ m m', mfcc channelDemo [5, 1, 4] = .ok m ∧ mfcc channelDemo [5, 1.05, 4.01] = .ok m' ∧ ∀ i < 2, ∃ c c' : ℕ → ℝ,
    (∀ k < 2, (m.getD i []).getD k nan = fin (c k) ∧ (m'.getD i []).getD k nan = fin (c' k)) ∧
    √(∑ k ∈ Finset.range 2, (c' k - c k) ^ 2) ≤ √2 * (4 * Real.log 2) := by
  obtain ⟨H, hH⟩ : ∃ H : ℕ → ℝ, H = fun j => if j = 0 then 1 else 1 / 100 := ⟨_, rfl⟩
  obtain ⟨r0, r1⟩ := binRoot_two
  have hr : ∀ k, response H 2 channelDemo.nfft k = 1 + 1 / 100 * binRoot 2 k := fun k => by
    have hn2 : channelDemo.nfft = 2 := rfl
    unfold response
    rw [hn2, Finset.sum_range_succ, Finset.sum_range_one, binRoot_pow, binRoot_pow, hH]
    simp
  have hfil : IsFiltered H 2 [5, 1, 4] [5, 1.05, 4.01] := by
    refine ⟨rfl, fun t ht => ?_⟩
    simp only [List.length_cons, List.length_nil] at ht
    rw [Finset.sum_range_succ, Finset.sum_range_one, hH]
    interval_cases t <;> norm_num [delayed]
  have hmass : ∀ n < 2, filterMass [[1, 0], [0, 1]] channelDemo.nfft n = √(1 / 2) := by
    intro n hn
    have hn2 : channelDemo.nfft = 2 := rfl
    unfold filterMass
    rw [hn2, show 2 / 2 + 1 = 2 from rfl, Finset.sum_range_succ, Finset.sum_range_one]
    interval_cases n <;> simp
  have hedge : edgeError channelDemo channelDemo.preEmphCoeff 5 H 2 = 0.1 := by
    unfold edgeError
    rw [Finset.sum_range_succ, Finset.sum_range_one, hH]
    norm_num [emphMax, channelDemo, abs_of_pos]
  obtain ⟨m, m', h1, h2, -, -, h3⟩ := C204_ms channelDemo mfcc channelDemo.preEmphCoeff (by simp [logFeatures]) [[1, 0], [0, 1]]
    [5, 1, 4] [5, 1.05, 4.01] 2 1 channelDemo_setup rfl rfl rfl rfl (by simp [channelDemo, demo2]) H 2 hfil 5
    (fun t ht => by
      simp only [List.length_cons, List.length_nil] at ht
      interval_cases t <;> norm_num [abs_of_pos])
    le_rfl le_rfl (fun n => if n = 0 then 1.01 else 0.99) 0 (1 / 2) le_rfl (by norm_num) (by norm_num) (by norm_num)
    (fun n hn => by
      simp only [List.length_cons, List.length_nil] at hn
      refine ⟨by beta_reduce; split_ifs <;> norm_num, fun k hk hW => ?_⟩
      have hn2 : channelDemo.nfft = 2 := rfl
      rw [hn2] at hk
      rw [hr]
      have e0 : ‖(1 : ℂ) + 1 / 100 * 1‖ = 1.01 := by
        rw [show (1 : ℂ) + 1 / 100 * 1 = ((1.01 : ℝ) : ℂ) by push_cast; norm_num, Complex.norm_real]; norm_num
      have e1 : ‖(1 : ℂ) + 1 / 100 * -1‖ = 0.99 := by
        rw [show (1 : ℂ) + 1 / 100 * -1 = ((0.99 : ℝ) : ℂ) by push_cast; norm_num, Complex.norm_real]; norm_num
      interval_cases n <;> interval_cases k
      · rw [r0, e0]; norm_num
      · simp at hW
      · simp at hW
      · rw [r1, e1]; norm_num)
    (fun i hi n hn => by
      simp only [List.length_cons, List.length_nil] at hi hn
      obtain ⟨v, v1, v2⟩ := channelDemo_energy i (by omega) n (by omega)
      have v0 : 0 < v := by linarith
      have hq : 0 < √(1 / 2 : ℝ) := Real.sqrt_pos.mpr (by norm_num)
      have hg : (0.99 : ℝ) ≤ if n = 0 then 1.01 else 0.99 := by split_ifs <;> norm_num
      rw [v2, hmass n (by omega), hedge, show v ^ 2 / 2 = v ^ 2 * (1 / 2) by ring, Real.sqrt_mul (sq_nonneg _), Real.sqrt_sq v0.le]
      refine ⟨by positivity, ?_⟩
      rw [zero_mul, zero_add, ← mul_assoc, ← mul_assoc]
      refine mul_le_mul_of_nonneg_right ?_ hq.le
      nlinarith)
  refine ⟨m, m', h1, h2, fun i hi => ?_⟩
  obtain ⟨c, c', h4, h5⟩ := h3 i (by simpa using hi)
  have hm : min channelDemo.numCeps ([[1, 0], [0, 1]] : List (List ℝ)).length = 2 := rfl
  rw [hm] at h4 h5
  refine ⟨c, c', h4, h5.trans (le_of_eq ?_)⟩
  norm_num

end Props
end Spafe
