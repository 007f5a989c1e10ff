import Verif.Model.RoundingSpfeats
import Verif.Props.Rounding
import Verif.Props.Float64
import Verif.Props.RoundingBank
import Verif.Props.Spfeats

/-! C181: the spectral descriptors in floating point. -/

set_option linter.unusedSectionVars false

namespace Spafe
namespace Props
open Model XF Spec

variable {u v : ℝ} {fl : ℝ → ℝ} {abs : ℂ → ℝ}

/-! ### Relative errors -/

theorem Near.pos {g r t : ℝ} (hg : g < 2) (ht : 0 < t) (a : Near g r t) : 0 < r := by
  unfold Near at a
  rw [abs_of_pos ht] at a
  have := (_root_.abs_le.mp a).1
  nlinarith

theorem Near.inv {g r t : ℝ} (hg : g < 2) (ht : 0 < t) (a : Near g r t) : Near (1 / (2 - g)) (1 / r) (1 / t) := by
  have hr := a.pos hg ht
  have h2 : 0 < 2 - g := by linarith
  unfold Near at *
  rw [abs_of_pos ht] at a
  have hlo : (2 - g) * t ≤ r := by
    have := (_root_.abs_le.mp a).1
    linarith
  rw [abs_of_pos (by positivity : (0 : ℝ) < 1 / t)]
  have e : 1 / r - 1 / t = (t - r) / (r * t) := by field_simp
  rw [e, abs_div, abs_of_pos (by positivity : (0 : ℝ) < r * t), abs_sub_comm, div_le_iff₀ (by positivity)]
  have e2 : (1 / (2 - g) - 1) * (1 / t) * (r * t) = (g - 1) * (r / (2 - g)) := by
    field_simp
    ring
  rw [e2]
  have hg1 : 0 ≤ g - 1 := by
    have h3 := (abs_nonneg _).trans a
    exact nonneg_of_mul_nonneg_left h3 ht
  have : t ≤ r / (2 - g) := by rw [le_div_iff₀ h2]; linarith
  exact a.trans (mul_le_mul_of_nonneg_left this hg1)

theorem Near.div {g h r t s w : ℝ} (hg : 1 ≤ g) (hh1 : 1 ≤ h) (hh : h < 2) (hw : 0 < w) (a : Near g r t) (b : Near h s w) :
    Near (g / (2 - h)) (r / s) (t / w) := by
  have h1 : 1 ≤ 1 / (2 - h) := by rw [le_div_iff₀ (by linarith)]; linarith
  have := Near.mul hg h1 a (b.inv hh hw)
  rwa [mul_one_div, mul_one_div, mul_one_div] at this

theorem Near.absolute {g r t : ℝ} (a : Near g r t) : Near g |r| |t| := by
  unfold Near at *
  rw [abs_abs]
  exact (abs_abs_sub_abs_le _ _).trans a

theorem Near.pow {g r t : ℝ} (hg : 1 ≤ g) (a : Near g r t) (i : ℕ) : Near (g ^ i) (r ^ i) (t ^ i) := by
  induction i with
  | zero => simpa using Near.refl 1
  | succ i ih =>
    rw [pow_succ, pow_succ, pow_succ]
    exact Near.mul (one_le_pow₀ hg) hg ih a

/-- A sum of terms of one sign keeps the relative error of its terms. -/
theorem near_sum (h : Rounding u fl) {g : ℝ} (hg : 1 ≤ g) {p t : ℕ → ℝ} {n : ℕ} {r : ℝ} (ht : ∀ k < n, 0 ≤ t k)
    (hp : ∀ k < n, Near g (p k) (t k)) (hs : FlSum fl ((List.range n).map p) r) :
    Near ((1 + u) ^ n * g) r (∑ k ∈ Finset.range n, t k) := by
  have hd : FlDot fl p (fun _ => 1) n r := ⟨p, fun k _ => Or.inl (by ring), hs⟩
  have := C120_dot h hg hp hd
  unfold Near
  simp only [mul_one] at this
  rw [abs_of_nonneg (Finset.sum_nonneg fun k hk => ht k (Finset.mem_range.mp hk))]
  refine this.trans (le_of_eq ?_)
  congr 1
  exact Finset.sum_congr rfl fun k hk => abs_of_nonneg (ht k (Finset.mem_range.mp hk))

theorem near_dot (h : Rounding u fl) {g g' : ℝ} (hg : 1 ≤ g) (hg' : 1 ≤ g') {a b a' b' : ℕ → ℝ} {n : ℕ} {r : ℝ}
    (ht : ∀ k < n, 0 ≤ a k * b k) (ha : ∀ k < n, Near g (a' k) (a k)) (hb : ∀ k < n, Near g' (b' k) (b k))
    (hs : FlDot fl a' b' n r) : Near ((1 + u) ^ (n + 1) * (g * g')) r (∑ k ∈ Finset.range n, a k * b k) := by
  obtain ⟨p, hp, hsum⟩ := hs
  have hu := h.nonneg
  have hgg : 1 ≤ g * g' := one_le_mul_of_one_le_of_one_le hg hg'
  have h1 : ∀ k < n, Near ((1 + u) * (g * g')) (p k) (a k * b k) := by
    intro k hk
    have h2 := Near.mul hg hg' (ha k hk) (hb k hk)
    rcases hp k hk with e | e
    · rw [e]
      exact h2.mono (by nlinarith)
    · rw [e]
      exact Near.trans (by linarith) (h.near _) h2
  have := near_sum h (by nlinarith) ht h1 hsum
  rwa [← mul_assoc, ← pow_succ] at this

/-! ### Centroid -/

/-- The factor of the computed bin frequencies. -/
noncomputable def freqFactor (u : ℝ) : ℝ := (1 + u) ^ 2 / (2 - (1 + u) ^ 2)

theorem abs_signed {n k : ℕ} (hk : k < n) (fs : ℝ) (hfs : 0 < fs) :
    |(if k ≤ (n - 1) / 2 then (k : ℝ) else (k : ℝ) - n)| * (fs / n) = binFreq fs n k := by
  have hn : (0 : ℝ) < n := by exact_mod_cast (by omega : 0 < n)
  have hkn : (k : ℝ) ≤ n := by exact_mod_cast hk.le
  unfold binFreq
  split
  · next h =>
    have : (k : ℝ) ≤ n - k := by
      have : 2 * k ≤ n := by omega
      have : (2 : ℝ) * k ≤ n := by exact_mod_cast this
      linarith
    rw [abs_of_nonneg (by positivity), min_eq_left this]
    ring
  · next h =>
    have : (n : ℝ) - k ≤ k := by
      have : n ≤ 2 * k := by omega
      have : (n : ℝ) ≤ 2 * k := by exact_mod_cast this
      linarith
    rw [abs_of_nonpos (by linarith), min_eq_right this]
    ring

/-- C181: the computed bin frequencies. -/
theorem C181_freqs (h : Rounding u fl) (hu : u ≤ 1 / 10) {fs : ℝ} (hfs : 0 < fs) {n k : ℕ} (hk : k < n) :
    Near (freqFactor u) (flFreq fl fs n k) (binFreq fs n k) := by
  have hu0 := h.nonneg
  have hn : (0 : ℝ) < n := by exact_mod_cast (by omega : 0 < n)
  have hg : 1 ≤ 1 + u := by linarith
  have hq : (1 + u) ^ 2 < 2 := by nlinarith
  have h1 : Near (1 + u) (fl (1 / fs)) (1 / fs) := h.near _
  have h2 : Near (1 * (1 + u)) (n * fl (1 / fs)) (n * (1 / fs)) := Near.mul le_rfl hg (Near.refl _) h1
  have h3 : Near ((1 + u) * (1 * (1 + u))) (fl (n * fl (1 / fs))) (n * (1 / fs)) := Near.trans hg (h.near _) h2
  have e3 : (1 + u) * (1 * (1 + u)) = (1 + u) ^ 2 := by ring
  rw [e3] at h3
  have h4 := h3.inv hq (by positivity)
  have h5 := Near.trans hg (h.near _) h4
  have e5 : 1 / ((n : ℝ) * (1 / fs)) = fs / n := by field_simp
  rw [e5] at h5
  have hinv : 1 ≤ 1 / (2 - (1 + u) ^ 2) := by
    rw [le_div_iff₀ (by linarith)]
    nlinarith
  have h6 := Near.trans hg (h.near _) (Near.mul le_rfl (by nlinarith) (Near.refl (if k ≤ (n - 1) / 2 then (k : ℝ) else (k : ℝ) - n)) h5)
  have h7 := h6.absolute
  rw [abs_mul, abs_of_pos (by positivity : (0 : ℝ) < fs / n), abs_signed hk fs hfs] at h7
  have e7 : (1 + u) * (1 * ((1 + u) * (1 / (2 - (1 + u) ^ 2)))) = freqFactor u := by
    unfold freqFactor
    ring
  rw [e7] at h7
  exact h7

theorem binFreq_nonneg {fs : ℝ} (hfs : 0 < fs) {n k : ℕ} (hk : k < n) : 0 ≤ binFreq fs n k := by
  rw [← abs_signed hk fs hfs]
  positivity

theorem binFreq_le {fs : ℝ} (hfs : 0 < fs) {n k : ℕ} (hk : k < n) : binFreq fs n k ≤ fs / 2 := by
  have hn : (0 : ℝ) < n := by exact_mod_cast (by omega : 0 < n)
  unfold binFreq
  have h1 : min (k : ℝ) ((n : ℝ) - k) ≤ n / 2 := by
    rcases le_total (k : ℝ) (n / 2) with h | h
    · exact (min_le_left _ _).trans h
    · exact (min_le_right _ _).trans (by linarith)
  rw [div_le_iff₀ hn]
  nlinarith

/-- The factor of the computed centroid of order `i` over `n` bins. -/
noncomputable def centroidFactor (u v : ℝ) (n i : ℕ) : ℝ :=
  (1 + u) * ((1 + u) ^ (n + 1) * ((1 + v) * ((1 + v) * freqFactor u ^ i)) / (2 - (1 + u) ^ n * (1 + v)))

theorem freqFactor_ge (hu0 : 0 ≤ u) (hu : u ≤ 1 / 10) : 1 ≤ freqFactor u := by
  unfold freqFactor
  rw [le_div_iff₀ (by nlinarith)]
  nlinarith

theorem total_pos {s : List ℂ} (hs : ∃ z ∈ s, z ≠ 0) : 0 < total s := by
  obtain ⟨z, hz, hne⟩ := hs
  obtain ⟨k, hk, rfl⟩ := List.getElem_of_mem hz
  unfold total
  refine Finset.sum_pos' (fun j _ => norm_nonneg _) ⟨k, Finset.mem_range.mpr hk, ?_⟩
  unfold mag
  rw [List.getD_eq_getElem _ _ hk]
  exact norm_pos_iff.mpr hne

/-- C181: the computed centroid of every order has a small relative error, whatever the spectrum. -/
theorem C181_centroid (h : Rounding u fl) (hu : u ≤ 1 / 10) (hv : 0 ≤ v) (habs : ∀ z, |abs z - ‖z‖| ≤ v * ‖z‖) {pw : ℝ → ℕ → ℝ}
    {i : ℕ} (hpw : ∀ t, |pw t i - t ^ i| ≤ v * |t ^ i|) {fs : ℝ} (hfs : 0 < fs) {s : List ℂ} (hs : ∃ z ∈ s, z ≠ 0)
    (hn : (1 + u) ^ s.length * (1 + v) < 2) {r : ℝ} (hr : FlCentroid fl abs pw fs s i r) :
    ∃ c, spectralCentroid fs s i = .ok (fin c) ∧ |r - c| ≤ (centroidFactor u v s.length i - 1) * c := by
  refine ⟨_, C72_meaning fs hfs s hs i, ?_⟩
  have hu0 := h.nonneg
  have hg : 1 ≤ 1 + u := by linarith
  have hgv : 1 ≤ 1 + v := by linarith
  obtain ⟨num, den, hnum, hden, rfl⟩ := hr
  have hF := freqFactor_ge hu0 hu
  have ha : ∀ k < s.length, Near (1 + v) (abs (s.getD k 0)) (mag s k) := by
    intro k _
    unfold Near mag
    rw [add_sub_cancel_left, abs_of_nonneg (norm_nonneg _)]
    exact habs _
  have hb : ∀ k < s.length, Near ((1 + v) * freqFactor u ^ i) (pw (flFreq fl fs s.length k) i) (binFreq fs s.length k ^ i) := by
    intro k hk
    have h1 := (C181_freqs h hu hfs hk).pow hF i
    have h2 : Near (1 + v) (pw (flFreq fl fs s.length k) i) (flFreq fl fs s.length k ^ i) := by
      unfold Near
      rw [add_sub_cancel_left]
      exact hpw _
    exact Near.trans hgv h2 h1
  have hnn : ∀ k < s.length, 0 ≤ mag s k * binFreq fs s.length k ^ i := fun k hk =>
    mul_nonneg (norm_nonneg _) (pow_nonneg (binFreq_nonneg hfs hk) i)
  have hFi : 1 ≤ (1 + v) * freqFactor u ^ i := one_le_mul_of_one_le_of_one_le hgv (one_le_pow₀ hF)
  have h1 := near_dot h hgv hFi hnn ha hb hnum
  have h2 := near_sum h hgv (fun k _ => norm_nonneg _) ha hden
  have hT : 0 < total s := total_pos hs
  have hD1 : 1 ≤ (1 + u) ^ s.length * (1 + v) := one_le_mul_of_one_le_of_one_le (one_le_pow₀ hg) hgv
  have hN1 : 1 ≤ (1 + u) ^ (s.length + 1) * ((1 + v) * ((1 + v) * freqFactor u ^ i)) :=
    one_le_mul_of_one_le_of_one_le (one_le_pow₀ hg) (one_le_mul_of_one_le_of_one_le hgv hFi)
  have h3 := Near.trans hg (h.near _) (Near.div hN1 hD1 hn hT h1 h2)
  have hc : 0 ≤ (∑ k ∈ Finset.range s.length, mag s k * binFreq fs s.length k ^ i) / total s :=
    div_nonneg (Finset.sum_nonneg fun k hk => hnn k (Finset.mem_range.mp hk)) hT.le
  unfold Near at h3
  rw [abs_of_nonneg hc] at h3
  exact h3

theorem pow_le_inv (hu : 0 ≤ u) {n : ℕ} (hn : n * u < 1) : (1 + u) ^ n ≤ 1 / (1 - n * u) := by
  have h1 : (1 + u) ^ n ≤ Real.exp (n * u) := by
    rw [Real.exp_nat_mul]
    exact pow_le_pow_left₀ (by linarith) (by linarith [Real.add_one_le_exp u]) n
  exact h1.trans (exp_le_inv hn)

/-- C181 in double precision: over up to 65536 bins the centroid (order 1) and the second moment (order 2) have a relative error of
at most `2e-11`. -/
theorem C181_centroid_double (habs : ∀ z, |abs z - ‖z‖| ≤ 2 / 2 ^ 53 * ‖z‖) {pw : ℝ → ℕ → ℝ} {i : ℕ} (hi : i ≤ 2)
    (hpw : ∀ t, |pw t i - t ^ i| ≤ 2 / 2 ^ 53 * |t ^ i|) {fs : ℝ} (hfs : 0 < fs) {s : List ℂ} (hs : ∃ z ∈ s, z ≠ 0)
    (hn : s.length ≤ 65536) {r : ℝ} (hr : FlCentroid fl64 abs pw fs s i r) :
    ∃ c, spectralCentroid fs s i = .ok (fin c) ∧ |r - c| ≤ 2 / 10 ^ 11 * c := by
  have hp : (1 + 1 / 2 ^ 53 : ℝ) ^ s.length ≤ 1 / (1 - 65536 / 2 ^ 53) := by
    refine (pow_le_pow_right₀ (by norm_num) hn).trans ((pow_le_inv (by norm_num) (by norm_num)).trans (by norm_num))
  have hp2 : (1 + 1 / 2 ^ 53 : ℝ) ^ s.length * (1 + 2 / 2 ^ 53) ≤ 1 / (1 - 65536 / 2 ^ 53) * (1 + 2 / 2 ^ 53) := by gcongr
  obtain ⟨c, hc, hb⟩ := C181_centroid C130_binary64.1 (by norm_num) (by norm_num) habs hpw hfs hs
    (hp2.trans_lt (by norm_num)) hr
  refine ⟨c, hc, hb.trans ?_⟩
  obtain ⟨c', hc', h0, -⟩ := C72_range fs hfs s hs i
  rw [hc] at hc'
  have : c = c' := by simpa using hc'
  rw [← this] at h0
  refine mul_le_mul_of_nonneg_right ?_ h0
  unfold centroidFactor
  have hF0 := freqFactor_ge (u := 1 / 2 ^ 53) (by norm_num) (by norm_num)
  have hF : freqFactor (1 / 2 ^ 53) ^ i ≤ freqFactor (1 / 2 ^ 53) ^ 2 := pow_le_pow_right₀ hF0 hi
  have hFv : freqFactor (1 / 2 ^ 53) ^ 2 ≤ 1 + 10 / 2 ^ 53 := by
    unfold freqFactor
    norm_num
  have hFi : 0 ≤ freqFactor (1 / 2 ^ 53) ^ i := by positivity
  have hden : 0 < 2 - 1 / (1 - 65536 / 2 ^ 53) * (1 + 2 / 2 ^ 53 : ℝ) := by norm_num
  have key : (1 + 1 / 2 ^ 53) * ((1 + 1 / 2 ^ 53) ^ (s.length + 1) * ((1 + 2 / 2 ^ 53) * ((1 + 2 / 2 ^ 53) * freqFactor (1 / 2 ^ 53) ^ i)) /
      (2 - (1 + 1 / 2 ^ 53) ^ s.length * (1 + 2 / 2 ^ 53))) ≤
      (1 + 1 / 2 ^ 53) * ((1 / (1 - 65536 / 2 ^ 53)) * (1 + 1 / 2 ^ 53) * ((1 + 2 / 2 ^ 53) * ((1 + 2 / 2 ^ 53) * (1 + 10 / 2 ^ 53))) /
      (2 - 1 / (1 - 65536 / 2 ^ 53) * (1 + 2 / 2 ^ 53 : ℝ))) := by
    rw [pow_succ _ s.length]
    have h9 := hF.trans hFv
    gcongr
  refine le_trans (sub_le_sub_right key 1) ?_
  norm_num

/-- C181: how far the centroid moves when the spectrum changes, for instance through the errors of the FFT or added noise: at most
half the sampling rate times the relative change of the magnitudes. -/
theorem C181_centroid_stable {fs : ℝ} (hfs : 0 < fs) {s s' : List ℂ} (hl : s'.length = s.length) (hs : ∃ z ∈ s, z ≠ 0)
    (hs' : ∃ z ∈ s', z ≠ 0) :
    ∃ c c', spectralCentroid fs s 1 = .ok (fin c) ∧ spectralCentroid fs s' 1 = .ok (fin c') ∧
      |c' - c| ≤ fs / 2 * ((∑ k ∈ Finset.range s.length, ‖s'.getD k 0 - s.getD k 0‖) / ∑ k ∈ Finset.range s.length, ‖s'.getD k 0‖) := by
  refine ⟨_, _, C72_meaning fs hfs s hs 1, C72_meaning fs hfs s' hs' 1, ?_⟩
  have hT := total_pos hs
  have hT' := total_pos hs'
  obtain ⟨c, hc, hc0, hc1⟩ := C72_range fs hfs s hs 1
  rw [C72_meaning fs hfs s hs 1] at hc
  have e : barycenter fs s 1 = c := by simpa using hc
  rw [e]
  rw [pow_one] at hc1
  have e1 : ∑ k ∈ Finset.range s.length, mag s k * (binFreq fs s.length k - c) = 0 := by
    have h1 : c * total s = ∑ k ∈ Finset.range s.length, mag s k * binFreq fs s.length k := by
      rw [← e]
      unfold barycenter
      rw [div_mul_cancel₀ _ hT.ne']
      simp
    unfold total at h1
    rw [Finset.mul_sum] at h1
    simp only [mul_sub, Finset.sum_sub_distrib]
    rw [← h1, sub_eq_zero]
    exact Finset.sum_congr rfl fun k _ => mul_comm _ _
  have e2 : barycenter fs s' 1 - c = (∑ k ∈ Finset.range s.length, (mag s' k - mag s k) * (binFreq fs s.length k - c)) / total s' := by
    have h1 : (∑ k ∈ Finset.range s.length, (mag s' k - mag s k) * (binFreq fs s.length k - c)) =
        (∑ k ∈ Finset.range s.length, mag s' k * binFreq fs s.length k) - c * total s' := by
      simp only [sub_mul, Finset.sum_sub_distrib]
      rw [e1, sub_zero]
      simp only [mul_sub, Finset.sum_sub_distrib]
      unfold total
      rw [hl, Finset.mul_sum]
      congr 1
      exact Finset.sum_congr rfl fun k _ => mul_comm _ _
    rw [h1, sub_div, mul_div_cancel_right₀ _ hT'.ne']
    unfold barycenter
    rw [hl]
    simp
  have e3 : total s' = ∑ k ∈ Finset.range s.length, ‖s'.getD k 0‖ := by
    unfold total mag
    rw [hl]
  rw [e2, abs_div, abs_of_pos hT', ← e3, ← mul_div_assoc]
  gcongr
  rw [Finset.mul_sum]
  refine (Finset.abs_sum_le_sum_abs _ _).trans (Finset.sum_le_sum fun k hk => ?_)
  have hk' := Finset.mem_range.mp hk
  rw [abs_mul, mul_comm]
  have h1 : |binFreq fs s.length k - c| ≤ fs / 2 := by
    have a1 := binFreq_nonneg hfs hk'
    have a2 := binFreq_le hfs hk'
    rw [abs_le]
    constructor <;> linarith
  have h2 : |mag s' k - mag s k| ≤ ‖s'.getD k 0 - s.getD k 0‖ := abs_norm_sub_norm_le _ _
  gcongr

/-! ### Flatness -/

theorem log_near_bound {g r t : ℝ} (hg : g < 2) (ht : 0 < t) (a : Near g r t) : |Real.log r - Real.log t| ≤ Real.log (1 / (2 - g)) := by
  have hr := a.pos hg ht
  have h2 : 0 < 2 - g := by linarith
  unfold Near at a
  rw [abs_of_pos ht] at a
  obtain ⟨h3, h4⟩ := _root_.abs_le.mp a
  have hg1 : 0 ≤ g - 1 := nonneg_of_mul_nonneg_left ((abs_nonneg _).trans a) ht
  rw [abs_le]
  constructor
  · have h5 : Real.log ((2 - g) * t) ≤ Real.log r := Real.log_le_log (by positivity) (by linarith)
    rw [Real.log_mul h2.ne' ht.ne'] at h5
    rw [one_div, Real.log_inv]
    linarith
  · have h6 : r ≤ 1 / (2 - g) * t := by
      have : g ≤ 1 / (2 - g) := by rw [le_div_iff₀ h2]; nlinarith [sq_nonneg (g - 1)]
      nlinarith
    have h5 : Real.log r ≤ Real.log (1 / (2 - g) * t) := Real.log_le_log hr h6
    rw [Real.log_mul (by positivity) ht.ne'] at h5
    linarith

/-- The error of the logarithm of a computed magnitude, of their sum relative to the number of bins, and of the mean. -/
noncomputable def logErr (v Λ : ℝ) : ℝ := v * (Λ + Real.log (1 / (1 - v))) + Real.log (1 / (1 - v))
noncomputable def logSumErr (u v Λ : ℝ) (n : ℕ) : ℝ := ((1 + u) ^ n - 1) * (Λ + logErr v Λ) + logErr v Λ
noncomputable def logMeanErr (u v Λ : ℝ) (n : ℕ) : ℝ := u * (Λ + logSumErr u v Λ n) + logSumErr u v Λ n

/-- The factor of the computed flatness over `n` bins whose logarithms are at most `Λ` in absolute value. -/
noncomputable def flatnessFactor (u v Λ : ℝ) (n : ℕ) : ℝ :=
  (1 + u) * ((1 + v) * Real.exp (logMeanErr u v Λ n) / (2 - (1 + u) * ((1 + u) ^ n * (1 + v))))

theorem near_exp {x y W : ℝ} (h : |x - y| ≤ W) : Near (Real.exp W) (Real.exp x) (Real.exp y) := by
  unfold Near
  rw [abs_of_pos (Real.exp_pos y)]
  obtain ⟨h1, h2⟩ := _root_.abs_le.mp h
  have hW : 0 ≤ W := (abs_nonneg _).trans h
  have e : Real.exp x = Real.exp y * Real.exp (x - y) := by rw [← Real.exp_add]; congr 1; ring
  have hy := Real.exp_pos y
  have h3 : Real.exp (x - y) ≤ Real.exp W := Real.exp_le_exp.mpr h2
  have h4 : Real.exp (-W) ≤ Real.exp (x - y) := Real.exp_le_exp.mpr h1
  have h5 : 2 ≤ Real.exp W + Real.exp (-W) := by
    have := Real.one_le_cosh W
    rw [Real.cosh_eq] at this
    linarith
  rw [e, abs_le]
  constructor <;> nlinarith

/-- C181: the computed flatness has a relative error governed by the largest logarithm of a magnitude. -/
theorem C181_flatness (h : Rounding u fl) (hv : 0 ≤ v) (hv1 : v < 1) (habs : ∀ z, |abs z - ‖z‖| ≤ v * ‖z‖) {lg ex : ℝ → ℝ}
    (hlg : ∀ t, 0 < t → |lg t - Real.log t| ≤ v * |Real.log t|) (hex : ∀ t, |ex t - Real.exp t| ≤ v * Real.exp t) {s : List ℂ}
    (hne : s ≠ []) {Λ : ℝ} (hs : ∀ z ∈ s, z ≠ 0 ∧ |Real.log ‖z‖| ≤ Λ) (hn : (1 + u) * ((1 + u) ^ s.length * (1 + v)) < 2)
    {r : ℝ} (hr : FlFlatness fl abs lg ex s r) :
    ∃ f, spectralFlatness s = fin f ∧ |r - f| ≤ (flatnessFactor u v Λ s.length - 1) * f := by
  obtain ⟨z0, hz0⟩ := List.exists_mem_of_ne_nil s hne
  have hs1 : ∃ z ∈ s, z ≠ 0 := ⟨z0, hz0, (hs z0 hz0).1⟩
  refine ⟨_, C73_meaning s hs1, ?_⟩
  have hu0 := h.nonneg
  have hg : 1 ≤ 1 + u := by linarith
  have hgv : 1 ≤ 1 + v := by linarith
  have hlen : 0 < s.length := List.length_pos_of_ne_nil hne
  have hnR : (0 : ℝ) < s.length := by exact_mod_cast hlen
  obtain ⟨S, T, hS, hT, rfl⟩ := hr
  have hm : ∀ k < s.length, 0 < mag s k ∧ |Real.log (mag s k)| ≤ Λ := by
    intro k hk
    have := hs (s.getD k 0) (by rw [List.getD_eq_getElem _ _ hk]; exact List.getElem_mem hk)
    exact ⟨norm_pos_iff.mpr this.1, this.2⟩
  have ha : ∀ k < s.length, Near (1 + v) (abs (s.getD k 0)) (mag s k) := by
    intro k _
    unfold Near mag
    rw [add_sub_cancel_left, abs_of_nonneg (norm_nonneg _)]
    exact habs _
  have hpos : ∀ k < s.length, 0 < abs (s.getD k 0) := fun k hk => (ha k hk).pos (by linarith) (hm k hk).1
  have hlog : ∀ k < s.length, |lg (abs (s.getD k 0)) - Real.log (mag s k)| ≤ logErr v Λ := by
    intro k hk
    have h1 := log_near_bound (by linarith) (hm k hk).1 (ha k hk)
    rw [show 2 - (1 + v) = 1 - v by ring] at h1
    have h2 := hlg _ (hpos k hk)
    have h3 : |Real.log (abs (s.getD k 0))| ≤ Λ + Real.log (1 / (1 - v)) := by
      have := abs_sub_abs_le_abs_sub (Real.log (abs (s.getD k 0))) (Real.log (mag s k))
      have := (hm k hk).2
      linarith
    have h4 := abs_sub_le (lg (abs (s.getD k 0))) (Real.log (abs (s.getD k 0))) (Real.log (mag s k))
    have h5 := mul_le_mul_of_nonneg_left h3 hv
    unfold logErr
    linarith
  have hq0 : 0 ≤ logErr v Λ := (abs_nonneg _).trans (hlog 0 hlen)
  have hL0 : 0 ≤ Λ := (abs_nonneg _).trans (hm 0 hlen).2
  have hsum : |S - ∑ k ∈ Finset.range s.length, Real.log (mag s k)| ≤ s.length * logSumErr u v Λ s.length := by
    have h1 := C120_sum h hS
    rw [list_sum_range, List.length_map, List.length_range, List.map_map, list_sum_range] at h1
    have h2 : ∑ k ∈ Finset.range s.length, ((fun x => |x|) ∘ fun (k : ℕ) => lg (abs (s.getD k 0))) k ≤ s.length * (Λ + logErr v Λ) := by
      rw [← Finset.card_range s.length, ← nsmul_eq_mul, Finset.card_range]
      refine (Finset.sum_le_card_nsmul _ _ (Λ + logErr v Λ) fun k hk => ?_).trans (le_of_eq (by rw [Finset.card_range]))
      have hk' := Finset.mem_range.mp hk
      have := abs_sub_abs_le_abs_sub (lg (abs (s.getD k 0))) (Real.log (mag s k))
      have h3 := hlog k hk'
      have h4 := (hm k hk').2
      simp only [Function.comp]
      linarith
    have h3 : |∑ k ∈ Finset.range s.length, lg (abs (s.getD k 0)) - ∑ k ∈ Finset.range s.length, Real.log (mag s k)| ≤
        s.length * logErr v Λ := by
      rw [← Finset.sum_sub_distrib]
      refine (Finset.abs_sum_le_sum_abs _ _).trans ?_
      refine (Finset.sum_le_card_nsmul _ _ (logErr v Λ) fun k hk => hlog k (Finset.mem_range.mp hk)).trans (le_of_eq ?_)
      rw [Finset.card_range, nsmul_eq_mul]
    have h4 : (1 + u) ^ (s.length - 1) - 1 ≤ (1 + u) ^ s.length - 1 := sub_le_sub_right (pow_le_pow_right₀ hg (by omega)) 1
    have h5 : 0 ≤ (1 + u) ^ s.length - 1 := by linarith [one_le_pow₀ hg (n := s.length)]
    have h6 : ((1 + u) ^ (s.length - 1) - 1) * ∑ k ∈ Finset.range s.length, ((fun x => |x|) ∘ fun (k : ℕ) => lg (abs (s.getD k 0))) k ≤
        ((1 + u) ^ s.length - 1) * (s.length * (Λ + logErr v Λ)) :=
      mul_le_mul h4 h2 (Finset.sum_nonneg fun k _ => abs_nonneg _) h5
    have h7 := abs_sub_le S (∑ k ∈ Finset.range s.length, lg (abs (s.getD k 0))) (∑ k ∈ Finset.range s.length, Real.log (mag s k))
    unfold logSumErr
    calc _ ≤ _ := h7
      _ ≤ ((1 + u) ^ s.length - 1) * (s.length * (Λ + logErr v Λ)) + s.length * logErr v Λ := add_le_add (h1.trans h6) h3
      _ = _ := by ring
  obtain ⟨μ, hμ⟩ : ∃ μ, μ = (∑ k ∈ Finset.range s.length, Real.log (mag s k)) / s.length := ⟨_, rfl⟩
  have hμΛ : |μ| ≤ Λ := by
    rw [hμ, abs_div, abs_of_pos hnR, div_le_iff₀ hnR]
    refine (Finset.abs_sum_le_sum_abs _ _).trans ?_
    refine (Finset.sum_le_card_nsmul _ _ Λ fun k hk => (hm k (Finset.mem_range.mp hk)).2).trans (le_of_eq ?_)
    rw [Finset.card_range, nsmul_eq_mul, mul_comm]
  have hmean : |S / s.length - μ| ≤ logSumErr u v Λ s.length := by
    rw [hμ, ← sub_div, abs_div, abs_of_pos hnR, div_le_iff₀ hnR, mul_comm]
    exact hsum
  have hfm : |fl (S / s.length) - μ| ≤ logMeanErr u v Λ s.length := by
    have := fl_close h hmean
    have h2 := mul_le_mul_of_nonneg_left hμΛ hu0
    unfold logMeanErr
    linarith
  have hexp : Near ((1 + v) * Real.exp (logMeanErr u v Λ s.length)) (ex (fl (S / s.length))) (Real.exp μ) := by
    refine Near.trans hgv ?_ (near_exp hfm)
    unfold Near
    rw [add_sub_cancel_left, abs_of_pos (Real.exp_pos _)]
    exact hex _
  have hTn := near_sum h hgv (fun k _ => norm_nonneg _) ha hT
  have hTot : 0 < ∑ k ∈ Finset.range s.length, mag s k := total_pos hs1
  have hD : Near ((1 + u) * ((1 + u) ^ s.length * (1 + v))) (fl (T / s.length)) (total s / s.length) := by
    refine Near.trans hg (h.near _) ?_
    have h1 : 1 ≤ (1 + u) ^ s.length * (1 + v) := one_le_mul_of_one_le_of_one_le (one_le_pow₀ hg) hgv
    have := Near.mul h1 le_rfl hTn (Near.refl (1 / (s.length : ℝ)))
    rw [mul_one, mul_one_div, mul_one_div] at this
    exact this
  have hW0 : 0 ≤ logMeanErr u v Λ s.length := (abs_nonneg _).trans hfm
  have hE1 : 1 ≤ (1 + v) * Real.exp (logMeanErr u v Λ s.length) :=
    one_le_mul_of_one_le_of_one_le hgv (Real.one_le_exp hW0)
  have hD1 : 1 ≤ (1 + u) * ((1 + u) ^ s.length * (1 + v)) :=
    one_le_mul_of_one_le_of_one_le hg (one_le_mul_of_one_le_of_one_le (one_le_pow₀ hg) hgv)
  have hfin := Near.trans hg (h.near _) (Near.div hE1 hD1 hn (div_pos hTot hnR) hexp hD)
  have hgm : Real.exp μ / (total s / s.length) = flatness s := by
    unfold flatness
    congr 1
    have hprod : 0 < ∏ k ∈ Finset.range s.length, mag s k := Finset.prod_pos fun k hk => (hm k (Finset.mem_range.mp hk)).1
    rw [Real.rpow_def_of_pos hprod, Real.log_prod fun k hk => (hm k (Finset.mem_range.mp hk)).1.ne', hμ]
    congr 1
    ring
  have hf0 : 0 ≤ flatness s := by
    rw [← hgm]
    exact div_nonneg (Real.exp_pos _).le (div_nonneg hTot.le hnR.le)
  have hgm' : Real.exp μ / ((∑ k ∈ Finset.range s.length, mag s k) / s.length) = flatness s := hgm
  rw [hgm'] at hfin
  unfold Near at hfin
  rw [abs_of_nonneg hf0] at hfin
  exact hfin

/-- C181 in double precision: over up to 65536 bins with magnitudes between `e^-700` and `e^700` (about `1e±304`) the flatness has a
relative error of at most `6e-9`. -/
theorem C181_flatness_double (habs : ∀ z, |abs z - ‖z‖| ≤ 2 / 2 ^ 53 * ‖z‖) {lg ex : ℝ → ℝ}
    (hlg : ∀ t, 0 < t → |lg t - Real.log t| ≤ 2 / 2 ^ 53 * |Real.log t|) (hex : ∀ t, |ex t - Real.exp t| ≤ 2 / 2 ^ 53 * Real.exp t)
    {s : List ℂ} (hne : s ≠ []) (hs : ∀ z ∈ s, z ≠ 0 ∧ |Real.log ‖z‖| ≤ 700) (hn : s.length ≤ 65536)
    {r : ℝ} (hr : FlFlatness fl64 abs lg ex s r) :
    ∃ f, spectralFlatness s = fin f ∧ |r - f| ≤ 6 / 10 ^ 9 * f := by
  have hp : (1 + 1 / 2 ^ 53 : ℝ) ^ s.length ≤ 1 / (1 - 65536 / 2 ^ 53) := by
    refine (pow_le_pow_right₀ (by norm_num) hn).trans ((pow_le_inv (by norm_num) (by norm_num)).trans (by norm_num))
  have hp1 : (1 : ℝ) ≤ (1 + 1 / 2 ^ 53 : ℝ) ^ s.length := one_le_pow₀ (by norm_num)
  have hp2 : (1 + 1 / 2 ^ 53 : ℝ) * ((1 + 1 / 2 ^ 53 : ℝ) ^ s.length * (1 + 2 / 2 ^ 53)) ≤
      (1 + 1 / 2 ^ 53 : ℝ) * (1 / (1 - 65536 / 2 ^ 53) * (1 + 2 / 2 ^ 53)) := by gcongr
  obtain ⟨f, hf, hb⟩ := C181_flatness C130_binary64.1 (by norm_num) (by norm_num) habs hlg hex hne hs
    (hp2.trans_lt (by norm_num)) hr
  refine ⟨f, hf, hb.trans ?_⟩
  obtain ⟨z0, hz0⟩ := List.exists_mem_of_ne_nil s hne
  obtain ⟨f', hf', h0, -⟩ := C73_range s ⟨z0, hz0, (hs z0 hz0).1⟩
  rw [hf] at hf'
  have : f = f' := by simpa using hf'
  rw [← this] at h0
  refine mul_le_mul_of_nonneg_right ?_ h0
  have hlg0 : Real.log (1 / (1 - 2 / 2 ^ 53)) ≤ 3 / 2 ^ 53 := by
    refine (Real.log_le_sub_one_of_pos (by norm_num)).trans (by norm_num)
  have hlg1 : 0 ≤ Real.log (1 / (1 - 2 / 2 ^ 53)) := Real.log_nonneg (by norm_num)
  have hE : logErr (2 / 2 ^ 53) 700 ≤ 1500 / 2 ^ 53 := by
    unfold logErr
    generalize Real.log (1 / (1 - 2 / 2 ^ 53)) = q at hlg0 hlg1
    norm_num at hlg0 ⊢
    linarith
  have hE0 : 0 ≤ logErr (2 / 2 ^ 53) 700 := by
    unfold logErr
    positivity
  have hQ : logSumErr (1 / 2 ^ 53) (2 / 2 ^ 53) 700 s.length ≤ 5.2 / 10 ^ 9 := by
    unfold logSumErr
    have b1 : (1 + 1 / 2 ^ 53 : ℝ) ^ s.length - 1 ≤ 7.3 / 10 ^ 12 := by
      refine (sub_le_sub_right hp 1).trans (by norm_num)
    have b2 : 700 + logErr (2 / 2 ^ 53) 700 ≤ 701 := by
      norm_num at hE ⊢
      linarith
    have b3 := mul_le_mul b1 b2 (by linarith) (by norm_num)
    refine (add_le_add b3 hE).trans ?_
    norm_num
  have hQ0 : 0 ≤ logSumErr (1 / 2 ^ 53) (2 / 2 ^ 53) 700 s.length := by
    unfold logSumErr
    have : 0 ≤ (1 + 1 / 2 ^ 53 : ℝ) ^ s.length - 1 := by linarith
    positivity
  have hW : logMeanErr (1 / 2 ^ 53) (2 / 2 ^ 53) 700 s.length ≤ 5.3 / 10 ^ 9 := by
    unfold logMeanErr
    generalize logSumErr (1 / 2 ^ 53) (2 / 2 ^ 53) 700 s.length = q at hQ hQ0
    norm_num at hQ ⊢
    linarith
  have hX : Real.exp (logMeanErr (1 / 2 ^ 53) (2 / 2 ^ 53) 700 s.length) ≤ 1 / (1 - 5.3 / 10 ^ 9) :=
    (Real.exp_le_exp.mpr hW).trans (exp_le_inv (by norm_num))
  unfold flatnessFactor
  have hden : 0 < 2 - (1 + 1 / 2 ^ 53 : ℝ) * (1 / (1 - 65536 / 2 ^ 53) * (1 + 2 / 2 ^ 53)) := by norm_num
  have key : (1 + 1 / 2 ^ 53) * ((1 + 2 / 2 ^ 53) * Real.exp (logMeanErr (1 / 2 ^ 53) (2 / 2 ^ 53) 700 s.length) /
      (2 - (1 + 1 / 2 ^ 53) * ((1 + 1 / 2 ^ 53) ^ s.length * (1 + 2 / 2 ^ 53)))) ≤
      (1 + 1 / 2 ^ 53) * ((1 + 2 / 2 ^ 53) * (1 / (1 - 5.3 / 10 ^ 9)) /
      (2 - (1 + 1 / 2 ^ 53 : ℝ) * (1 / (1 - 65536 / 2 ^ 53) * (1 + 2 / 2 ^ 53)))) := by
    gcongr
  refine le_trans (sub_le_sub_right key 1) ?_
  norm_num

/-! ### Flux -/

theorem sqrt_sum_sub (n : ℕ) (f g : ℕ → ℝ) :
    |√(∑ k ∈ Finset.range n, f k ^ 2) - √(∑ k ∈ Finset.range n, g k ^ 2)| ≤ √(∑ k ∈ Finset.range n, (f k - g k) ^ 2) := by
  have := sqrt_weighted_sub (n := n) (W := fun _ => 1) (fun _ _ => zero_le_one) (fun k => (f k : ℂ)) (fun k => (g k : ℂ))
  simpa only [one_mul, ← Complex.ofReal_sub, Complex.norm_real, Real.norm_eq_abs, sq_abs] using this

theorem sqrt_sum_add (n : ℕ) (f g : ℕ → ℝ) :
    √(∑ k ∈ Finset.range n, (f k + g k) ^ 2) ≤ √(∑ k ∈ Finset.range n, f k ^ 2) + √(∑ k ∈ Finset.range n, g k ^ 2) := by
  have := sqrt_weighted_add (n := n) (W := fun _ => 1) (fun _ _ => zero_le_one) (fun k => (f k : ℂ)) (fun k => (g k : ℂ))
  simpa only [one_mul, ← Complex.ofReal_add, Complex.norm_real, Real.norm_eq_abs, sq_abs] using this

theorem sqrt_sum_mono {n : ℕ} {f g : ℕ → ℝ} (h : ∀ k < n, |f k| ≤ |g k|) :
    √(∑ k ∈ Finset.range n, f k ^ 2) ≤ √(∑ k ∈ Finset.range n, g k ^ 2) :=
  Real.sqrt_le_sqrt (Finset.sum_le_sum fun k hk => sq_le_sq.mpr (h k (Finset.mem_range.mp hk)))

theorem sqrt_sum_smul (n : ℕ) {c : ℝ} (hc : 0 ≤ c) (f : ℕ → ℝ) :
    √(∑ k ∈ Finset.range n, (c * f k) ^ 2) = c * √(∑ k ∈ Finset.range n, f k ^ 2) := by
  simp only [mul_pow, ← Finset.mul_sum]
  rw [Real.sqrt_mul (sq_nonneg c), Real.sqrt_sq hc]

/-- C181: the computed flux. Differences of nearly equal magnitudes cancel, so the error is relative to the norm of the magnitudes,
not to the flux. -/
theorem C181_flux (h : Rounding u fl) (hv : 0 ≤ v) (habs : ∀ z, |abs z - ‖z‖| ≤ v * ‖z‖) {rt : ℝ → ℝ}
    (hrt : ∀ t, 0 ≤ t → |rt t - √t| ≤ v * √t) {s : List ℂ} (hn : (1 + u) ^ (s.length - 1 + 1) ≤ 2) {r : ℝ} (hr : FlFlux fl abs rt s r) :
    ∃ f, spectralFlux s 2 = .ok f ∧
      |r - f| ≤ ((1 + v) * (1 + u) ^ (s.length + 1) - 1) * f +
        (1 + v) * (1 + u) ^ (s.length + 1) * (2 * v) * √(∑ k ∈ Finset.range s.length, mag s k ^ 2) := by
  refine ⟨_, (C74_meaning s 2).1 (by norm_num), ?_⟩
  have hu0 := h.nonneg
  have hg : 1 ≤ 1 + u := by linarith
  obtain ⟨S, hS, rfl⟩ := hr
  obtain ⟨d, hd⟩ : ∃ d : ℕ → ℝ, d = fun k => mag s (k + 1) - mag s k := ⟨_, rfl⟩
  obtain ⟨d', hd'⟩ : ∃ d' : ℕ → ℝ, d' = fun k => fl (abs (s.getD (k + 1) 0) - abs (s.getD k 0)) := ⟨_, rfl⟩
  obtain ⟨A, hA⟩ : ∃ A, A = √(∑ k ∈ Finset.range s.length, mag s k ^ 2) := ⟨_, rfl⟩
  have hflux : flux s 2 = √(∑ k ∈ Finset.range (s.length - 1), d k ^ 2) := by
    unfold flux
    rw [Real.sqrt_eq_rpow, hd]
    simp only [sq_abs]
    norm_num
  rw [hflux, ← hA]
  obtain ⟨n, hnn⟩ : ∃ n, n = s.length - 1 := ⟨_, rfl⟩
  rw [← hnn] at hS hn ⊢
  have hdiff : ∀ k, |d' k - d k| ≤ u * |d k| + (1 + u) * v * (mag s (k + 1) + mag s k) := by
    intro k
    have h1 : |(abs (s.getD (k + 1) 0) - abs (s.getD k 0)) - d k| ≤ v * (mag s (k + 1) + mag s k) := by
      rw [hd]
      have a1 := habs (s.getD (k + 1) 0)
      have a2 := habs (s.getD k 0)
      have e : (abs (s.getD (k + 1) 0) - abs (s.getD k 0)) - (mag s (k + 1) - mag s k) =
          (abs (s.getD (k + 1) 0) - ‖s.getD (k + 1) 0‖) - (abs (s.getD k 0) - ‖s.getD k 0‖) := by unfold mag; ring
      beta_reduce
      rw [e]
      refine (abs_sub _ _).trans ?_
      unfold mag
      linarith
    have h2 := fl_close h h1
    rw [hd']
    beta_reduce
    linarith
  -- the norm of the magnitudes and of the shifted magnitudes
  have hA1 : √(∑ k ∈ Finset.range n, mag s k ^ 2) ≤ A := by
    rw [hA]
    exact Real.sqrt_le_sqrt (Finset.sum_le_sum_of_subset_of_nonneg (Finset.range_mono (by omega)) fun _ _ _ => sq_nonneg _)
  have hA2 : √(∑ k ∈ Finset.range n, mag s (k + 1) ^ 2) ≤ A := by
    rw [hA]
    apply Real.sqrt_le_sqrt
    rcases Nat.eq_zero_or_pos s.length with h0 | h0
    · rw [hnn, h0]; simp
    · rw [show s.length = n + 1 by omega, Finset.sum_range_succ' (fun k => mag s k ^ 2)]
      linarith [sq_nonneg (mag s 0)]
  have hδ : √(∑ k ∈ Finset.range n, (d' k - d k) ^ 2) ≤ u * √(∑ k ∈ Finset.range n, d k ^ 2) + (1 + u) * v * (A + A) := by
    have h1 : √(∑ k ∈ Finset.range n, (d' k - d k) ^ 2) ≤
        √(∑ k ∈ Finset.range n, (u * |d k| + (1 + u) * v * (mag s (k + 1) + mag s k)) ^ 2) := by
      refine sqrt_sum_mono fun k _ => (hdiff k).trans (le_abs_self _)
    refine h1.trans ((sqrt_sum_add n (fun k => u * |d k|) fun k => (1 + u) * v * (mag s (k + 1) + mag s k)).trans ?_)
    rw [sqrt_sum_smul n hu0, sqrt_sum_smul n (by positivity)]
    simp only [sq_abs]
    have h2 := sqrt_sum_add n (fun k => mag s (k + 1)) fun k => mag s k
    have h3 : √(∑ k ∈ Finset.range n, (mag s (k + 1) + mag s k) ^ 2) ≤ A + A := by linarith
    gcongr
  have hN := sqrt_sum_sub n d' d
  have hdot := near_dot h (g := 1) (g' := 1) le_rfl le_rfl (a := fun k => |d' k|) (b := fun k => |d' k|) (n := n)
    (fun k _ => mul_self_nonneg _) (fun k _ => Near.refl _) (fun k _ => Near.refl _) (r := S) (by rw [hd']; exact hS)
  have hsq : ∑ k ∈ Finset.range n, |d' k| * |d' k| = ∑ k ∈ Finset.range n, d' k ^ 2 :=
    Finset.sum_congr rfl fun k _ => by rw [abs_mul_abs_self, sq]
  rw [hsq, mul_one, mul_one] at hdot
  have hP : 0 ≤ ∑ k ∈ Finset.range n, d' k ^ 2 := Finset.sum_nonneg fun _ _ => sq_nonneg _
  unfold Near at hdot
  rw [abs_of_nonneg hP] at hdot
  have hS0 : 0 ≤ S := by
    have := (_root_.abs_le.mp hdot).1
    nlinarith
  have hs1 := sqrt_near hP hdot
  have hs2 := hrt S hS0
  generalize √(∑ k ∈ Finset.range n, d' k ^ 2) = D' at *
  have hD0 : 0 ≤ √(∑ k ∈ Finset.range n, d k ^ 2) := Real.sqrt_nonneg _
  generalize √(∑ k ∈ Finset.range n, d k ^ 2) = D at *
  have hDD : |D' - D| ≤ u * D + (1 + u) * v * (A + A) := hN.trans hδ
  have hA0 : 0 ≤ A := by rw [hA]; exact Real.sqrt_nonneg _
  obtain ⟨G, hG⟩ : ∃ G, G = (1 + u) ^ (n + 1) := ⟨_, rfl⟩
  have hG1 : 1 ≤ G := by rw [hG]; exact one_le_pow₀ hg
  rw [← hG] at hs1
  have hD'0 : D' ≤ D + (u * D + (1 + u) * v * (A + A)) := by
    have := (_root_.abs_le.mp hDD).2
    linarith
  have hsS : √S ≤ G * D' := by
    have := (_root_.abs_le.mp hs1).2
    linarith
  have hsS' := mul_le_mul_of_nonneg_left hsS hv
  have h5 : |rt S - D'| ≤ ((1 + v) * G - 1) * D' := by
    have := abs_sub_le (rt S) (√S) D'
    nlinarith
  have hH : 0 ≤ (1 + v) * G - 1 := by nlinarith
  have h6 := mul_le_mul_of_nonneg_left hD'0 hH
  have h7 := abs_sub_le (rt S) D' D
  have hlen : s.length + 1 = n + 1 + 1 := by
    obtain ⟨p, -, hp⟩ := hS
    have := hp.length_pos
    simp at this
    omega
  rw [hlen, pow_succ _ (n + 1), ← hG]
  nlinarith

/-- C181 in double precision, up to 65536 bins. -/
theorem C181_flux_double (habs : ∀ z, |abs z - ‖z‖| ≤ 2 / 2 ^ 53 * ‖z‖) {rt : ℝ → ℝ}
    (hrt : ∀ t, 0 ≤ t → |rt t - √t| ≤ 2 / 2 ^ 53 * √t) {s : List ℂ} (hn : s.length ≤ 65536) {r : ℝ} (hr : FlFlux fl64 abs rt s r) :
    ∃ f, spectralFlux s 2 = .ok f ∧
      |r - f| ≤ 1 / 10 ^ 11 * f + 1 / 10 ^ 15 * √(∑ k ∈ Finset.range s.length, mag s k ^ 2) := by
  have hp : (1 + 1 / 2 ^ 53 : ℝ) ^ (s.length + 1) ≤ 1 / (1 - 65537 / 2 ^ 53) := by
    refine (pow_le_pow_right₀ (by norm_num) (by omega : s.length + 1 ≤ 65537)).trans
      ((pow_le_inv (by norm_num) (by norm_num)).trans (by norm_num))
  have hp' : (1 + 1 / 2 ^ 53 : ℝ) ^ (s.length - 1 + 1) ≤ 2 := by
    refine (pow_le_pow_right₀ (by norm_num) (by omega : s.length - 1 + 1 ≤ s.length + 1)).trans (hp.trans (by norm_num))
  obtain ⟨f, hf, hb⟩ := C181_flux C130_binary64.1 (by norm_num) habs hrt hp' hr
  refine ⟨f, hf, hb.trans ?_⟩
  obtain ⟨f', hf', h0, -⟩ := C74_nonneg_zero_iff s 2 (by norm_num)
  rw [hf] at hf'
  have : f = f' := by simpa using hf'
  rw [← this] at h0
  have e1 : (1 + 2 / 2 ^ 53) * (1 + 1 / 2 ^ 53 : ℝ) ^ (s.length + 1) - 1 ≤ 1 / 10 ^ 11 := by
    have : (1 + 2 / 2 ^ 53) * (1 + 1 / 2 ^ 53 : ℝ) ^ (s.length + 1) ≤ (1 + 2 / 2 ^ 53) * (1 / (1 - 65537 / 2 ^ 53)) := by gcongr
    refine (sub_le_sub_right this 1).trans (by norm_num)
  have e2 : (1 + 2 / 2 ^ 53) * (1 + 1 / 2 ^ 53 : ℝ) ^ (s.length + 1) * (2 * (2 / 2 ^ 53)) ≤ 1 / 10 ^ 15 := by
    have : (1 + 2 / 2 ^ 53) * (1 + 1 / 2 ^ 53 : ℝ) ^ (s.length + 1) * (2 * (2 / 2 ^ 53)) ≤
        (1 + 2 / 2 ^ 53) * (1 / (1 - 65537 / 2 ^ 53)) * (2 * (2 / 2 ^ 53)) := by gcongr
    exact this.trans (by norm_num)
  exact add_le_add (mul_le_mul_of_nonneg_right e1 h0) (mul_le_mul_of_nonneg_right e2 (Real.sqrt_nonneg _))

/-- C181: a bound relative to the flux is impossible as soon as `np.abs` is not exact: of two bins with the magnitude 5 one is
computed a little too large, and the flux is positive instead of 0. -/
theorem C181_flux_not_relative (hv : 0 < v) :
    ∃ (abs : ℂ → ℝ) (s : List ℂ) (r : ℝ), (∀ z, |abs z - ‖z‖| ≤ v * ‖z‖) ∧ FlFlux id abs Real.sqrt s r ∧
      spectralFlux s 2 = .ok 0 ∧ 0 < r := by
  have h5 : ‖(5 : ℂ)‖ = 5 := by simp
  have h34 : ‖(⟨3, 4⟩ : ℂ)‖ = 5 := by
    rw [Complex.norm_def, Complex.normSq_mk, show (3 : ℝ) * 3 + 4 * 4 = 5 ^ 2 by norm_num, Real.sqrt_sq (by norm_num)]
  have hne : (⟨3, 4⟩ : ℂ) ≠ 5 := by
    intro h
    have := congrArg Complex.im h
    simp at this
  refine ⟨fun z => if z = 5 then ‖z‖ else (1 + v) * ‖z‖, [5, ⟨3, 4⟩], 5 * v, ?_, ?_, ?_, by positivity⟩
  · intro z
    beta_reduce
    split_ifs
    · rw [sub_self, abs_zero]
      positivity
    · rw [show (1 + v) * ‖z‖ - ‖z‖ = v * ‖z‖ by ring, abs_of_nonneg (by positivity)]
  · refine ⟨(5 * v) ^ 2, ⟨fun _ => (5 * v) ^ 2, ?_, ?_⟩, (Real.sqrt_sq (by positivity)).symm⟩
    · intro k hk
      left
      have : k = 0 := by simp at hk; omega
      subst this
      have e : (1 + v) * 5 - 5 = 5 * v := by ring
      simp [hne, h34, e, abs_of_pos hv, sq]
    · exact FlSum.one _
  · rw [(C74_meaning _ 2).1 (by norm_num)]
    unfold flux mag
    simp [h34]

/-! ### Examples -/

/-- Runs exist for every spectrum. -/
theorem C181_runs (fl : ℝ → ℝ) (abs : ℂ → ℝ) (pw : ℝ → ℕ → ℝ) (lg ex rt : ℝ → ℝ) (fs : ℝ) (i : ℕ) {s : List ℂ} (hs : 2 ≤ s.length) :
    (∃ r, FlCentroid fl abs pw fs s i r) ∧ (∃ r, FlFlatness fl abs lg ex s r) ∧ ∃ r, FlFlux fl abs rt s r := by
  obtain ⟨n, hn⟩ : ∃ n, s.length = n + 2 := ⟨s.length - 2, by omega⟩
  have hsum : ∀ f : ℕ → ℝ, ∃ r, FlSum fl ((List.range s.length).map f) r := by
    intro f
    rw [hn, List.range_succ_eq_map, List.map_cons]
    exact flSum_exists fl _ _
  refine ⟨?_, ?_, ?_⟩
  · obtain ⟨a, ha⟩ := flDot_exists fl (fun k => abs (s.getD k 0)) (fun k => pw (flFreq fl fs s.length k) i) (n + 1)
    obtain ⟨b, hb⟩ := hsum fun k => abs (s.getD k 0)
    exact ⟨_, a, b, by rw [show s.length = n + 1 + 1 from hn] at ha ⊢; exact ha, hb, rfl⟩
  · obtain ⟨a, ha⟩ := hsum fun k => lg (abs (s.getD k 0))
    obtain ⟨b, hb⟩ := hsum fun k => abs (s.getD k 0)
    exact ⟨_, a, b, ha, hb, rfl⟩
  · obtain ⟨a, ha⟩ := flDot_exists fl (fun k => |fl (abs (s.getD (k + 1) 0) - abs (s.getD k 0))|)
      (fun k => |fl (abs (s.getD (k + 1) 0) - abs (s.getD k 0))|) n
    exact ⟨_, a, by rw [show s.length - 1 = n + 1 by omega]; exact ha, rfl⟩

/-- A spectrum of two bins in double precision, with correctly rounded library functions. -/
example : ∃ r c, FlCentroid fl64 (fun z => fl64 ‖z‖) (fun t i => fl64 (t ^ i)) 8000 twoBins 1 r ∧
    spectralCentroid 8000 twoBins 1 = .ok (fin c) ∧ |r - c| ≤ 2 / 10 ^ 11 * c := by
  have hr := (C181_runs fl64 (fun z => fl64 ‖z‖) (fun t i => fl64 (t ^ i)) id id id 8000 1 (s := twoBins) (by simp [twoBins])).1
  obtain ⟨r, hr⟩ := hr
  have hR := C130_binary64.1
  obtain ⟨c, hc, hb⟩ := C181_centroid_double (i := 1) (fun z => (hR.err ‖z‖).trans (by
      rw [abs_of_nonneg (norm_nonneg z)]; gcongr; norm_num)) (by norm_num)
    (fun t => (hR.err (t ^ 1)).trans (by gcongr; norm_num)) (by norm_num : (0 : ℝ) < 8000) twoBins_nonzero (by simp [twoBins]) hr
  exact ⟨r, c, hr, hc, hb⟩

end Props
end Spafe
