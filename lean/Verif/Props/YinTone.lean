import Verif.Props.YinMeaning
import Verif.Props.Tone
import Verif.Lemmas.YinTone

/-! C139: `compute_yin` on a pure tone. -/

set_option linter.unusedSectionVars false

namespace Spafe
namespace Props
open Model XF Spec Real

/-- The lag that YIN picks on a frame of a tone of period `P`. -/
theorem pitchLag_tone {x : List ℝ} {w a T p : ℕ} {A h P φ thr : ℝ} (H : ToneSize w h P) (hA : A ≠ 0) (hx : ToneFrame x w A h φ)
    (ha : 1 ≤ a) (haP : a ≤ ⌊P⌋₊) (hT : ⌈P⌉₊ < T) (h1 : 1 / 10 ≤ thr) (h2 : thr ≤ 1 / 4)
    (hp : PitchLag 0 (yinCmnd x) a T thr p) : ⌊P⌋₊ ≤ p ∧ p ≤ ⌈P⌉₊ ∧ yinCmnd x p < thr := by
  have hP := H.hP
  have f1 : ((⌊P⌋₊ : ℕ) : ℝ) ≤ P := Nat.floor_le (by linarith)
  have f2 : P < (⌊P⌋₊ : ℕ) + 1 := Nat.lt_floor_add_one P
  have c1 : P ≤ (⌈P⌉₊ : ℕ) := Nat.le_ceil P
  have c2 : ((⌈P⌉₊ : ℕ) : ℝ) < P + 1 := Nat.ceil_lt_add_one (by linarith)
  have hfc : ⌊P⌋₊ ≤ ⌈P⌉₊ := Nat.floor_le_ceil P
  obtain ⟨r, hr, hr1, hr2⟩ : ∃ r : ℕ, |(r : ℝ) - P| ≤ 1 / 2 ∧ ⌊P⌋₊ ≤ r ∧ r ≤ ⌈P⌉₊ := by
    by_cases h : P - (⌊P⌋₊ : ℕ) ≤ 1 / 2
    · exact ⟨⌊P⌋₊, abs_le.mpr ⟨by linarith, by linarith⟩, le_rfl, hfc⟩
    · refine ⟨⌈P⌉₊, abs_le.mpr ⟨by linarith, ?_⟩, hfc, le_rfl⟩
      have : ⌈P⌉₊ ≤ ⌊P⌋₊ + 1 := Nat.ceil_le_floor_add_one P
      have : ((⌈P⌉₊ : ℕ) : ℝ) ≤ (⌊P⌋₊ : ℕ) + 1 := by exact_mod_cast this
      linarith
  have hcr := cmnd_nearest H hA hx hr
  rcases hp with ⟨-, h⟩ | ⟨t0, k1, k2, k3, k4, k5, k6, k7⟩
  · have := h r (by omega) (by omega)
    linarith
  · have ht0 : t0 ≤ r := by
      by_contra hc
      have := k5 r (by omega) (by omega)
      linarith
    have hcp : ∀ t, t0 ≤ t → t ≤ p → yinCmnd x t < thr := by
      intro t ht
      induction t, ht using Nat.le_induction with
      | base => intro _; linarith
      | succ t ht ih =>
        intro h3
        have := k6 t ht (by omega)
        have := ih (by omega)
        linarith
    refine ⟨?_, ?_, hcp p k2 le_rfl⟩
    · by_contra hc
      have h5 := hcp p k2 le_rfl
      have h6 : ((p + 1 : ℕ) : ℝ) ≤ (⌊P⌋₊ : ℕ) := by exact_mod_cast (by omega : p + 1 ≤ ⌊P⌋₊)
      push_cast at h6
      have h7 := k7 (by omega)
      by_cases h8 : h * p ≤ π / 2
      · have := cmnd_rising H hA hx (by omega) h8
        linarith
      · have := cmnd_falling H hA hx (τ := p) (by omega) (by linarith) (by linarith) (by linarith)
        linarith
    · by_contra hc
      have h5 := k6 ⌈P⌉₊ (by omega) (by omega)
      have := cmnd_after H hA hx c1 c2.le
      linarith

/-- A tone and the arguments of `compute_yin`: at least ten samples per period and four periods per window, the frequency
inside the search range, a threshold between `0.1` (the default) and `0.25`. -/
structure YinTone (fs winLen winHop low high thr f : ℝ) : Prop where
  valid : YinValid fs winLen winHop low high
  f_pos : 0 < f
  ten : 10 * f ≤ fs
  window : 4 * (fs / f) ≤ ⌊winLen * fs⌋₊
  le_high : f ≤ high
  high_fs : high ≤ fs
  above_low : ⌈fs / f⌉₊ < ⌊fs / low⌋₊
  lags : ⌊fs / low⌋₊ ≤ ⌊winLen * fs⌋₊
  thr_ge : 1 / 10 ≤ thr
  thr_le : thr ≤ 1 / 4

/-- C139: a window that holds a tone of frequency `f` gets the pitch `fs / p` for a lag `p` less than one sample away from the
period `fs / f`, and a harmonic rate below the threshold, whatever amplitude and phase of the tone and the rest of the
signal are. -/
theorem C139_tone (sig : List ℝ) {fs winLen winHop low high thr f A φ : ℝ} (H : YinTone fs winLen winHop low high thr f)
    (hA : A ≠ 0) :
    ∃ R, computeYin sig fs winLen winHop low high thr = .ok R ∧ ∀ i < R.pitches.length,
      IsTone (fun t => sig.getD t 0) fs f A φ (i * ⌊winHop * fs⌋₊) (i * ⌊winHop * fs⌋₊ + ⌊winLen * fs⌋₊) →
      ∃ (p : ℕ) (hr : ℝ), R.pitches.getD i nan = fin (fs / p) ∧ |(p : ℝ) - fs / f| < 1 ∧
        R.harmonicRates.getD i nan = fin hr ∧ hr < thr := by
  have hfs := H.valid.1
  have hf := H.f_pos
  have hlow : low ≤ fs := by
    have h1 : 1 ≤ ⌊fs / low⌋₊ := by have := H.above_low; omega
    have h2 : (1 : ℝ) ≤ fs / low := by
      have := (Nat.le_floor_iff (div_nonneg hfs.le H.valid.2.1.le)).mp h1
      simpa using this
    rwa [le_div_iff₀ H.valid.2.1, one_mul] at h2
  obtain ⟨R, hR, hlen, hmain⟩ := C124_meaning sig (thr := thr) H.valid hlow H.lags
  refine ⟨R, hR, fun i hi htone => ?_⟩
  have hin := (hlen i).mp hi
  obtain ⟨w, hw⟩ : ∃ w, w = ⌊winLen * fs⌋₊ := ⟨_, rfl⟩
  obtain ⟨s, hs⟩ : ∃ s, s = ⌊winHop * fs⌋₊ := ⟨_, rfl⟩
  have hsize : ToneSize w (π * f / fs) (fs / f) :=
    ⟨by rw [le_div_iff₀ hf]; exact H.ten, by field_simp, by rw [hw]; exact H.window⟩
  have hframe : ToneFrame (yinWindow sig w s i) w A (π * f / fs) (2 * π * f * (i * s : ℕ) / fs + φ) := by
    rw [← hw, ← hs] at hin
    refine ⟨by simp [yinWindow]; omega, fun j hj => ?_⟩
    have := htone (i * s + j) (by rw [hs]; omega) (by rw [← hw, ← hs]; omega)
    beta_reduce at this
    rw [yinWindow, getD_take_lt _ _ hj, getD_drop', this]
    congr 2
    push_cast
    field_simp
    ring
  have hnc : NotConst (yinWindow sig w s i) := by
    by_contra hc
    have h1 := cum_pos hsize hA hframe le_rfl
    have h2 : yinCum (yinWindow sig w s i) 1 = 0 := by
      simp only [yinCum, Finset.sum_range_one, zero_add, yinDiff]
      apply Finset.sum_eq_zero
      intro j hj
      rw [Finset.mem_range] at hj
      by_contra hne
      exact hc ⟨j, by omega, fun he => hne (by rw [he]; ring)⟩
    linarith
  rw [hw, hs] at hnc
  obtain ⟨p, k, hp, -, r1, r2, -⟩ := hmain i hi hnc
  have ha : 1 ≤ ⌊fs / high⌋₊ := Nat.le_floor (by
    rw [Nat.cast_one, le_div_iff₀ H.valid.2.2.1, one_mul]; exact H.high_fs)
  have haP : ⌊fs / high⌋₊ ≤ ⌊fs / f⌋₊ := Nat.floor_le_floor (div_le_div_of_nonneg_left hfs.le hf H.le_high)
  rw [← hw, ← hs] at hp
  obtain ⟨q1, q2, q3⟩ := pitchLag_tone hsize hA hframe ha haP H.above_low H.thr_ge H.thr_le hp
  have hp0 : p ≠ 0 := by omega
  rw [if_neg hp0] at r1 r2
  have hPpos : 0 ≤ fs / f := div_nonneg hfs.le hf.le
  refine ⟨p, _, r1, ?_, r2, by rw [← hw, ← hs]; exact q3⟩
  have f2 := Nat.lt_floor_add_one (fs / f)
  have c2 := Nat.ceil_lt_add_one hPpos
  have q1' : ((⌊fs / f⌋₊ : ℕ) : ℝ) ≤ p := by exact_mod_cast q1
  have q2' : (p : ℝ) ≤ (⌈fs / f⌉₊ : ℕ) := by exact_mod_cast q2
  rw [abs_lt]
  constructor <;> linarith

/-- C139: in Hertz, the pitch is less than `f ^ 2 / (fs - f)` away from `f`. -/
theorem C139_error (sig : List ℝ) {fs winLen winHop low high thr f A φ : ℝ} (H : YinTone fs winLen winHop low high thr f)
    (hA : A ≠ 0) :
    ∃ R, computeYin sig fs winLen winHop low high thr = .ok R ∧ ∀ i < R.pitches.length,
      IsTone (fun t => sig.getD t 0) fs f A φ (i * ⌊winHop * fs⌋₊) (i * ⌊winHop * fs⌋₊ + ⌊winLen * fs⌋₊) →
      ∃ v, R.pitches.getD i nan = fin v ∧ |v - f| < f ^ 2 / (fs - f) := by
  obtain ⟨R, hR, h⟩ := C139_tone sig H hA (φ := φ)
  refine ⟨R, hR, fun i hi ht => ?_⟩
  obtain ⟨p, -, h1, h2, -⟩ := h i hi ht
  refine ⟨_, h1, ?_⟩
  have hfs := H.valid.1
  have hf := H.f_pos
  have h10 := H.ten
  have hp : fs / f - 1 < p := by linarith [(abs_lt.mp h2).1]
  have hP : 10 ≤ fs / f := by rw [le_div_iff₀ hf]; exact h10
  have hp0 : (0 : ℝ) < p := by linarith
  have e : fs / p - f = f * (fs / f - p) / p := by field_simp
  rw [e, abs_div, abs_mul, abs_of_pos hf, abs_of_pos hp0, abs_sub_comm, div_lt_div_iff₀ hp0 (by linarith)]
  have h3 : fs - f < f * p := by
    have := mul_lt_mul_of_pos_left hp hf
    rw [mul_sub, mul_div_cancel₀ _ hf.ne', mul_one] at this
    exact this
  have h4 : 0 < fs - f := by linarith
  have h5 := mul_lt_mul_of_pos_left h2 hf
  nlinarith

/-- C139: a tone with a whole number of samples per period gets its own frequency as pitch. -/
theorem C139_exact (sig : List ℝ) {fs winLen winHop low high thr f A φ : ℝ} (H : YinTone fs winLen winHop low high thr f)
    (hA : A ≠ 0) (n : ℕ) (hn : fs = n * f) :
    ∃ R, computeYin sig fs winLen winHop low high thr = .ok R ∧ ∀ i < R.pitches.length,
      IsTone (fun t => sig.getD t 0) fs f A φ (i * ⌊winHop * fs⌋₊) (i * ⌊winHop * fs⌋₊ + ⌊winLen * fs⌋₊) →
      R.pitches.getD i nan = fin f := by
  obtain ⟨R, hR, h⟩ := C139_tone sig H hA (φ := φ)
  refine ⟨R, hR, fun i hi ht => ?_⟩
  obtain ⟨p, -, h1, h2, -⟩ := h i hi ht
  have hf := H.f_pos
  have e : fs / f = n := by rw [hn]; field_simp
  rw [e] at h2
  have hpn : p = n := by
    have : |(p : ℤ) - n| < 1 := by exact_mod_cast h2
    have := Int.abs_lt_one_iff.mp this
    omega
  have hn0 : (n : ℝ) ≠ 0 := by rintro h0; rw [h0] at hn; linarith [H.valid.1]
  rw [h1, hpn, hn]
  congr 1
  field_simp

/-- The defaults at 16 kHz: all tones from 134 Hz to 1600 Hz. -/
theorem default_yinTone {f : ℝ} (h1 : 134 ≤ f) (h2 : f ≤ 1600) : YinTone 16000 0.03 0.015 50 3000 0.1 f := by
  obtain ⟨e1, e2, e3, e4⟩ := default_sizes
  have hf : 0 < f := by linarith
  have hle : 16000 / f ≤ 119.5 := by rw [div_le_iff₀ hf]; linarith
  refine ⟨default_valid, hf, by linarith, ?_, by linarith, by norm_num, ?_, by rw [e4, e1]; norm_num, by norm_num, by norm_num⟩
  · rw [e1]; push_cast; linarith
  · rw [e4]
    have : ⌈16000 / f⌉₊ ≤ 120 := Nat.ceil_le.mpr (by push_cast; linarith)
    omega

/-- One second of a tone at 440 Hz: every one of the 65 pitches is within 13 Hz of it. -/
example : ∃ R, computeYin ((List.range 16000).map fun (t : ℕ) => (2 : ℝ) * cos (2 * π * 440 * t / 16000 + 1)) 16000 0.03 0.015 50 3000 0.1 =
    .ok R ∧ ∀ i < 65, ∃ v, R.pitches.getD i nan = fin v ∧ |v - 440| < 13 := by
  obtain ⟨e1, e2, e3, e4⟩ := default_sizes
  obtain ⟨R, hR, h⟩ := C139_error ((List.range 16000).map fun (t : ℕ) => (2 : ℝ) * cos (2 * π * 440 * t / 16000 + 1))
    (default_yinTone (f := 440) (by norm_num) (by norm_num)) (by norm_num : (2 : ℝ) ≠ 0) (φ := 1)
  refine ⟨R, hR, fun i hi => ?_⟩
  have hl := (C80_shape _ default_valid R hR)
  obtain ⟨l1, -, -, l4, -⟩ := hl
  have hil : i < R.pitches.length := by
    rw [l1, l4 i, e1, e2]
    simp
    omega
  obtain ⟨v, v1, v2⟩ := h i hil (by
    intro t t1 t2
    rw [e1, e2] at t2
    exact getD_map_range_lt _ _ (by omega))
  exact ⟨v, v1, v2.trans (by norm_num)⟩

end Props
end Spafe
