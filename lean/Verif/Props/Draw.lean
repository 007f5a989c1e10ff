import Verif.Model.Draw
import Verif.Spec.Draw
import Verif.Spec.Features
import Verif.Props.Vis
import Verif.Props.MelFbanks

/-! C182: what the pictures of `utils/vis.py` show. -/

set_option linter.unusedSectionVars false

namespace Spafe
namespace Props
open Model XF Spec

theorem matT_shape {m : XMat} {r c : ℕ} (h : HasShape m r c) (hr : 0 < r) :
    (matT m).length = c ∧ ∀ k < c, (matT m).getD k [] = m.map fun row => row.getD k 0 := by
  obtain ⟨hl, hrow⟩ := h
  have hc : (m.headD []).length = c := by
    cases m with
    | nil => simp at hl; omega
    | cons a t => exact hrow a (by simp)
  unfold matT Np.transpose
  rw [hc]
  refine ⟨by simp, fun k hk => ?_⟩
  rw [getD_map_range_lt _ _ hk]
  rfl

theorem matT_entry {m : XMat} {r c : ℕ} (h : HasShape m r c) {i k : ℕ} (hi : i < r) (hk : k < c) (d : XF ℝ) :
    ((matT m).getD k []).getD i d = (m.getD i []).getD k d := by
  have h2 := (matT_shape h (by omega)).2 k hk
  have hi' : i < m.length := by rw [h.1]; exact hi
  have hrow : (m.getD i []).length = c := h.2 _ (getD_mem [] hi')
  rw [h2, getD_map_lt _ _ [] d hi']
  exact (List.getD_eq_getElem _ _ (by omega)).trans (List.getD_eq_getElem _ _ (by omega)).symm

/-- C182: `show_features` draws one image; the value at column `i` and height `k` is coefficient `k` of frame `i`. -/
theorem C182_features {feats : XMat} {m n : ℕ} (h : HasShape feats m n) (hm : 0 < m) :
    ∃ img, showFeatures feats = [Draw.image img none] ∧ HasShape img n m ∧
      ∀ i < m, ∀ k < n, shownAtIndex img n m i k = (feats.getD i []).getD k nan := by
  refine ⟨matT feats, rfl, ⟨(matT_shape h hm).1, ?_⟩, ?_⟩
  · intro row hrow
    obtain ⟨k, hk, rfl⟩ := List.getElem_of_mem hrow
    have hk' : k < n := by rw [(matT_shape h hm).1] at hk; exact hk
    rw [← List.getD_eq_getElem _ [] hk, (matT_shape h hm).2 k hk', List.length_map, h.1]
  · intro i hi k hk
    unfold shownAtIndex shownAt
    have hfl : ∀ (a N : ℕ), a < N → ⌊((a : ℝ) - -1 / 2) / ((N : ℝ) - 1 / 2 - -1 / 2) * N⌋₊ = a := by
      intro a N ha
      have hN : (N : ℝ) ≠ 0 := by
        have : (0 : ℝ) < N := by exact_mod_cast (by omega : 0 < N)
        exact this.ne'
      have h0 : (0 : ℝ) ≤ a := Nat.cast_nonneg a
      rw [show (N : ℝ) - 1 / 2 - -1 / 2 = N by ring, div_mul_cancel₀ _ hN, Nat.floor_eq_iff (by linarith)]
      constructor <;> linarith
    rw [hfl k n hk, hfl i m hi, matT_entry h hi hk]

/-- C182: `show_fbanks` raises `ValueError` when the number of frequencies is not that of the columns of the bank; otherwise it draws
filter `j` as the line through the points `(ref_freqs[k], fbanks[j][k])`, and a vertical line at exactly the given centres. -/
theorem C182_fbanks (fmt : XF ℝ → String) (ticks : List (XF ℝ)) {fbanks : XMat} {n c : ℕ} (h : HasShape fbanks n c) (hn : 0 < n)
    (centers : List (XF ℝ)) (ref : List ℝ) (fbType : String) (mark : Bool) :
    (ref.length ≠ c → showFbanks fmt ticks fbanks centers ref fbType mark = .error .valueError) ∧
    (ref.length = c → ∃ cmds data, showFbanks fmt ticks fbanks centers ref fbType mark = .ok cmds ∧
      (∀ xs d, Draw.lines xs d ∈ cmds ↔ xs = ref ∧ d = data) ∧
      (∀ j < n, ∀ k < c, (data.getD k []).getD j nan = (fbanks.getD j []).getD k nan) ∧
      (∀ f, Draw.vline f ∈ cmds ↔ mark = true ∧ f ∈ centers) ∧
      ∀ f s, Draw.label f s ∈ cmds ↔ mark = true ∧ f ∈ centers ∧ s = "(" ++ fmt f ++ ", 1)") := by
  have hT := (matT_shape h hn).1
  constructor
  · intro hne
    unfold showFbanks
    rw [if_pos (by rw [hT]; exact hne)]
  · intro he
    obtain ⟨ms, hms⟩ := (tick_loops ticks).1
    obtain ⟨es, hes⟩ := (tick_loops ticks).2
    have htick : ∃ labels, tickFunction fmt ticks fbType = .ok labels := by
      unfold tickFunction
      rw [hms, ok_bind, hes, ok_bind]
      exact ⟨_, rfl⟩
    obtain ⟨labels, hlab⟩ := htick
    refine ⟨Draw.lines ref (matT fbanks) ::
        (if mark then centers.flatMap fun f => [Draw.vline f, Draw.label f ("(" ++ fmt f ++ ", 1)")] else []) ++
        [Draw.topTicks ticks labels], matT fbanks, ?_, ?_, fun j hj k hk => matT_entry h hj hk nan, ?_, ?_⟩
    · unfold showFbanks
      rw [if_neg (by rw [hT]; simpa using he), hlab, ok_bind]
    · intro xs d
      cases mark <;> simp
    · intro f
      cases mark <;> simp
    · intro f s
      cases mark <;> simp

/-- C182: the plot of the docstring of `mel_filter_banks` (`mel_fbanks.py:178-200`): filter `j` is drawn as its triangle over the
frequencies in Hz, and its vertical line stands at the apex. -/
theorem C182_mel_plot (fmt : XF ℝ → String) (ticks : List (XF ℝ)) {fs high : ℝ} (h1 : 0 < high) (h2 : high ≤ fs / 2) {n : ℕ}
    (hn : 0 < n) (nfft : ℕ) (fbType : String) :
    ∃ bank cs marks cmds data, melFilterBanks n nfft fs 0 (some high) "constant" "Oshaghnessy" = .ok (bank, cs) ∧
      (cs.mapM fun m => mel2hz m "Oshaghnessy") = .ok marks ∧
      showFbanks fmt ticks bank marks ((List.range (nfft / 2 + 1)).map fun (k : ℕ) => colFreq 0 high nfft k) fbType true = .ok cmds ∧
      Draw.lines ((List.range (nfft / 2 + 1)).map fun (k : ℕ) => colFreq 0 high nfft k) data ∈ cmds ∧
      ∀ j < n, Draw.vline (fin (melPoint 2595 700 0 high n (j + 1))) ∈ cmds ∧
        ∀ k < nfft / 2 + 1, (data.getD k []).getD j nan = fin (tri (melPoint 2595 700 0 high n j) (melPoint 2595 700 0 high n (j + 1))
          (melPoint 2595 700 0 high n (j + 2)) (colFreq 0 high nfft k)) := by
  obtain ⟨bank, cs, hb, ⟨hl, hrows, hM⟩, hcl, hcv⟩ := C26_mel_triangles (fs := fs) (hf := some high) Scale.constant MelConst.oshaghnessy
    (EffHigh.given high h1.ne') le_rfl h1 h2 n nfft
  have hmarks : (cs.mapM fun m => mel2hz m "Oshaghnessy") =
      .ok ((List.range n).map fun (j : ℕ) => fin (melPoint 2595 700 0 high n (j + 1))) := by
    have e : cs = (List.range n).map fun (j : ℕ) => fin (mel 2595 700 (melPoint 2595 700 0 high n (j + 1))) := by
      refine ext_getD nan (by rw [hcl]; simp) fun j hj => ?_
      rw [hcl] at hj
      rw [getD_map_range_lt _ _ hj]
      have := hcv j hj
      rw [List.getD_eq_getElem _ _ (by rw [hcl]; exact hj)] at this ⊢
      exact this
    rw [e, List.mapM_map]
    refine (mapM_ok _ _ _ fun j hj => ?_)
    have hp : -700 < melPoint 2595 700 0 high n (j + 1) := by
      unfold melPoint melInv
      nlinarith [Real.rpow_pos_of_pos (by norm_num : (0 : ℝ) < 10) (linPoint (mel 2595 700 0) (mel 2595 700 high) n (j + 1) / 2595)]
    simp only [Function.comp]
    rw [mel2hz_eq MelConst.oshaghnessy, melInv_mel (by norm_num) (by norm_num) hp]
  have hF := (C182_fbanks fmt ticks (fbanks := bank) (n := n) (c := nfft / 2 + 1) ⟨hl, hrows⟩ hn
    ((List.range n).map fun (j : ℕ) => fin (melPoint 2595 700 0 high n (j + 1)))
    ((List.range (nfft / 2 + 1)).map fun (k : ℕ) => colFreq 0 high nfft k) fbType true).2 (by simp)
  obtain ⟨cmds, data, hs, hlines, hdata, hv, -⟩ := hF
  refine ⟨bank, cs, _, cmds, data, hb, hmarks, hs, (hlines _ _).mpr ⟨rfl, rfl⟩, fun j hj => ⟨(hv _).mpr ⟨rfl, ?_⟩, fun k hk => ?_⟩⟩
  · exact List.mem_map.mpr ⟨j, List.mem_range.mpr hj, rfl⟩
  · have hk' : k < (bank.getD j []).length := by
      rw [hrows _ (getD_mem [] (by rw [hl]; exact hj))]
      exact hk
    have := hM j k hj hk
    rw [hdata j hj k hk]
    rw [List.getD_eq_getElem _ _ hk'] at this ⊢
    rw [this]
    beta_reduce
    rw [one_mul]

/-- C182: the picture of the docstrings of the spectrogram functions, `show_spectrogram(S.T, fs, 0, T, 0, F)`: at time `t` and height
`f` it shows, in decibels relative to the largest value, the band `⌊f n / F⌋` of the frame `⌊t M / T⌋`. -/
theorem C182_spectrogram (S : ℕ → ℕ → ℝ) {M n : ℕ} (hM : 0 < M) (hn : 0 < n) {T F dbf : ℝ} :
    ∃ img top, showSpectrogram ((List.range n).map fun (k : ℕ) => (List.range M).map fun (i : ℕ) => ((S i k : ℝ) : ℂ)) 0 T 0 F dbf =
        .ok [Draw.image img (some (0, T, 0, F))] ∧
      (∃ i < M, ∃ k < n, top = |S i k|) ∧ (∀ i < M, ∀ k < n, |S i k| ≤ top) ∧
      ∀ t f, 0 ≤ t → t < T → 0 ≤ f → f < F →
        shownAt img n M 0 T 0 F t f = fin (decibels dbf top |S ⌊t / T * M⌋₊ ⌊f / F * n⌋₊|) := by
  obtain ⟨spec, hspec⟩ : ∃ spec : List (List ℂ), spec =
    (List.range n).map fun (k : ℕ) => (List.range M).map fun (i : ℕ) => ((S i k : ℝ) : ℂ) := ⟨_, rfl⟩
  rw [← hspec]
  obtain ⟨top, hp, hd⟩ := (C87_meaning spec dbf).2 ⟨(List.range M).map fun (i : ℕ) => ((S i 0 : ℝ) : ℂ), by
    rw [hspec]; exact List.mem_map.mpr ⟨0, List.mem_range.mpr hn, rfl⟩, by
    simp; omega⟩
  refine ⟨_, top, by unfold showSpectrogram; rw [hd, ok_bind], ?_, ?_, ?_⟩
  · obtain ⟨⟨r, hr, v, hv, e⟩, -⟩ := hp
    rw [hspec] at hr
    obtain ⟨k, hk, rfl⟩ := List.mem_map.mp hr
    obtain ⟨i, hi, rfl⟩ := List.mem_map.mp hv
    exact ⟨i, List.mem_range.mp hi, k, List.mem_range.mp hk, by rw [← e]; simp⟩
  · intro i hi k hk
    have := hp.2 _ (by rw [hspec]; exact List.mem_map.mpr ⟨k, List.mem_range.mpr hk, rfl⟩) ((S i k : ℝ) : ℂ)
      (List.mem_map.mpr ⟨i, List.mem_range.mpr hi, rfl⟩)
    simpa using this
  · intro t f ht0 ht1 hf0 hf1
    have fl_lt : ∀ {x X : ℝ} {N : ℕ}, 0 ≤ x → x < X → 0 < N → ⌊x / X * N⌋₊ < N := by
      intro x X N h0 h1 hN
      have hX : 0 < X := by linarith
      have hN' : (0 : ℝ) < N := by exact_mod_cast hN
      rw [Nat.floor_lt (by positivity)]
      have : x / X < 1 := by rw [div_lt_one hX]; exact h1
      nlinarith
    have hi := fl_lt ht0 ht1 hM
    have hk := fl_lt hf0 hf1 hn
    unfold shownAt decibels
    simp only [sub_zero]
    rw [hspec]
    generalize ⌊t / T * (M : ℝ)⌋₊ = i at *
    generalize ⌊f / F * (n : ℝ)⌋₊ = k at *
    simp [List.getD_eq_getElem?_getD, hi, hk]

/-- C182: along the time axis of these pictures the column of frame `i` always overlaps the time span of the frame. -/
theorem C182_time {L l s i : ℕ} {fs : ℝ} (hfs : 0 < fs) (hs : 0 < s) (hl : l ≤ L) (hi : i < (L - l) / s + 1) :
    (i : ℝ) * ((L : ℝ) / fs) / ((L - l) / s + 1 : ℕ) ≤ (i * s + l : ℕ) / fs ∧
      (i * s : ℕ) / fs ≤ ((i : ℝ) + 1) * ((L : ℝ) / fs) / ((L - l) / s + 1 : ℕ) := by
  obtain ⟨N, hN⟩ : ∃ N, N = (L - l) / s + 1 := ⟨_, rfl⟩
  rw [← hN] at hi ⊢
  have hmod := Nat.div_add_mod (L - l) s
  have hlt := Nat.mod_lt (L - l) hs
  obtain ⟨q, hq⟩ : ∃ q, q = (L - l) / s := ⟨_, rfl⟩
  obtain ⟨ρ, hρ⟩ : ∃ ρ, ρ = (L - l) % s := ⟨_, rfl⟩
  rw [← hq, ← hρ] at hmod
  rw [← hρ] at hlt
  rw [← hq] at hN
  have hL : (L : ℝ) = l + s * q + ρ := by
    have : L = l + s * q + ρ := by omega
    exact_mod_cast this
  have hNR : (N : ℝ) = q + 1 := by exact_mod_cast hN
  have hiR : (i : ℝ) ≤ q := by exact_mod_cast (by omega : i ≤ q)
  have hρs : (ρ : ℝ) ≤ s := by exact_mod_cast hlt.le
  have hN0 : (0 : ℝ) < N := by rw [hNR]; positivity
  have hi0 : (0 : ℝ) ≤ i := Nat.cast_nonneg i
  have hl0 : (0 : ℝ) ≤ l := Nat.cast_nonneg l
  have hs0 : (0 : ℝ) ≤ s := Nat.cast_nonneg s
  have hρ0 : (0 : ℝ) ≤ ρ := Nat.cast_nonneg ρ
  have hq0 : (0 : ℝ) ≤ q := Nat.cast_nonneg q
  push_cast
  constructor
  · rw [div_le_div_iff₀ hN0 hfs, mul_div_assoc', div_mul_cancel₀ _ hfs.ne', hNR, hL]
    nlinarith [mul_nonneg hi0 hs0, mul_nonneg hi0 hl0, mul_nonneg hi0 (sub_nonneg.mpr hρs), mul_nonneg hl0 (sub_nonneg.mpr hiR)]
  · rw [div_le_div_iff₀ hfs hN0, mul_div_assoc', div_mul_cancel₀ _ hfs.ne', hNR, hL]
    nlinarith [mul_nonneg hi0 hs0, mul_nonneg hi0 hl0, mul_nonneg hi0 hρ0, mul_nonneg hs0 (sub_nonneg.mpr hiR)]

/-- C182: in the picture of a linear spectrogram from 0 to `H` Hz every band is shown at its centre frequency. -/
theorem C182_bands_partial {H : ℝ} (hH : 0 < H) {n j : ℕ} (hj : j < n) : ⌊linPoint 0 H n (j + 1) / H * n⌋₊ = j := by
  have hjR : (j : ℝ) + 1 ≤ n := by exact_mod_cast hj
  have hn : (0 : ℝ) < n := by linarith [(Nat.cast_nonneg j : (0 : ℝ) ≤ j)]
  have e : linPoint 0 H n (j + 1) / H * n = ((j : ℝ) + 1) * n / (n + 1) := by
    unfold linPoint
    push_cast
    field_simp
    ring
  have hj0 : (0 : ℝ) ≤ j := Nat.cast_nonneg j
  rw [e, Nat.floor_eq_iff (by positivity), le_div_iff₀ (by positivity), div_lt_iff₀ (by positivity)]
  constructor <;> nlinarith

/-- C182 is violated by the picture of the docstring of `mel_spectrogram` (`mfcc.py:110-120`), whose height is labelled in kHz from 0 to
`fs / 2`: with at least 5 filters up to 5600 Hz or more, the height of the centre frequency of the middle band shows a lower band. -/
theorem C182_bands_violated {approach : String} {a b H : ℝ} (hm : MelConst approach a b) (hH : 8 * b ≤ H) {n : ℕ} (hn : 5 ≤ n) :
    ⌊melPoint a b 0 H n ((n - 1) / 2 + 1) / H * n⌋₊ < (n - 1) / 2 := by
  have hab : 0 < a ∧ 0 < b := by cases hm <;> norm_num
  obtain ⟨ha, hb⟩ := hab
  have hH0 : 0 < H := by linarith
  obtain ⟨j, hj⟩ : ∃ j, j = (n - 1) / 2 := ⟨_, rfl⟩
  rw [← hj]
  have hq : 9 ≤ 1 + H / b := by
    have : 8 ≤ H / b := by rw [le_div_iff₀ hb]; exact hH
    linarith
  obtain ⟨Q, hQ⟩ : ∃ Q, Q = 1 + H / b := ⟨_, rfl⟩
  have hHQ : H = b * (Q - 1) := by rw [hQ]; field_simp; ring
  rw [← hQ] at hq
  have hnR : (0 : ℝ) < n := by exact_mod_cast (by omega : 0 < n)
  have hpt : melPoint a b 0 H n (j + 1) ≤ b * (√Q - 1) := by
    have e : melPoint a b 0 H n (j + 1) = b * (Q ^ (((j : ℝ) + 1) / (n + 1)) - 1) := by
      unfold melPoint melInv linPoint mel
      rw [← hQ, zero_div, add_zero, Real.logb_one, mul_zero, zero_add, sub_zero]
      congr 2
      rw [show ((j + 1 : ℕ) : ℝ) * (a * Real.logb 10 Q) / (n + 1) / a = Real.logb 10 Q * (((j : ℝ) + 1) / (n + 1)) by
        push_cast; field_simp]
      rw [Real.rpow_mul (by norm_num), Real.rpow_logb (by norm_num) (by norm_num) (by linarith)]
    rw [e, Real.sqrt_eq_rpow]
    have : Q ^ (((j : ℝ) + 1) / (n + 1)) ≤ Q ^ (1 / 2 : ℝ) := by
      apply Real.rpow_le_rpow_of_exponent_le (by linarith)
      rw [div_le_div_iff₀ (by positivity) (by norm_num)]
      have : 2 * (j + 1) ≤ n + 1 := by omega
      have : (2 : ℝ) * (j + 1) ≤ n + 1 := by exact_mod_cast this
      linarith
    gcongr
  have hjn : (n : ℝ) ≤ 2 * j + 2 := by exact_mod_cast (by omega : n ≤ 2 * j + 2)
  have hn5 : (5 : ℝ) ≤ n := by exact_mod_cast hn
  have hj2 : 2 ≤ j := by omega
  obtain ⟨R, hR⟩ : ∃ R, R = √Q := ⟨_, rfl⟩
  have hR2 : R ^ 2 = Q := by rw [hR]; exact Real.sq_sqrt (by linarith)
  have hR0 : 0 ≤ R := by rw [hR]; exact Real.sqrt_nonneg _
  have hR3 : 3 ≤ R := by nlinarith
  rw [Nat.floor_lt' (by omega)]
  rw [← hR] at hpt
  generalize melPoint a b 0 H n (j + 1) = p at *
  have h1 : p / H * n ≤ n / (R + 1) := by
    rw [div_mul_eq_mul_div, div_le_div_iff₀ hH0 (by linarith), hHQ, ← hR2]
    have : p * (n * (R + 1)) ≤ b * (R - 1) * (n * (R + 1)) := by gcongr
    nlinarith
  refine h1.trans_lt ?_
  rw [div_lt_iff₀ (by linarith)]
  have hj2R : (2 : ℝ) ≤ j := by exact_mod_cast hj2
  nlinarith

/-- So a mel spectrogram with all its energy in that band is drawn as silence, 80 dB down, at the centre frequency of the band. -/
theorem C182_picture_violated {approach : String} {a b H : ℝ} (hm : MelConst approach a b) (hH : 8 * b ≤ H) {n M : ℕ} (hn : 5 ≤ n)
    (hM : 0 < M) {T t : ℝ} (h0 : 0 ≤ t) (ht : t < T) :
    ∃ img, showSpectrogram ((List.range n).map fun (k : ℕ) => (List.range M).map fun _ => (((if k = (n - 1) / 2 then 1 else 0 : ℝ) : ℝ) : ℂ))
        0 T 0 (H / 1000) 80 = .ok [Draw.image img (some (0, T, 0, H / 1000))] ∧
      shownAt img n M 0 T 0 (H / 1000) t (melPoint a b 0 H n ((n - 1) / 2 + 1) / 1000) = fin (-80) := by
  obtain ⟨ha, hb⟩ := melConst_pos hm
  have hH0 : 0 < H := by linarith
  obtain ⟨img, top, h1, ⟨i0, -, k0, -, e0⟩, hmax, h2⟩ := C182_spectrogram (fun _ k => if k = (n - 1) / 2 then (1 : ℝ) else 0) hM
    (by omega : 0 < n) (T := T) (F := H / 1000) (dbf := 80)
  refine ⟨img, h1, ?_⟩
  have htop : top = 1 := by
    have := hmax 0 hM ((n - 1) / 2) (by omega)
    simp at this
    rcases eq_or_ne k0 ((n - 1) / 2) with h | h
    · rw [e0, if_pos h, abs_one]
    · rw [if_neg h, abs_zero] at e0; linarith
  have hfl := C182_bands_violated hm hH hn
  have hmono := melPoint_strictMono (low := 0) ha hb (by linarith) hH0 n
  have hp0 : 0 ≤ melPoint a b 0 H n ((n - 1) / 2 + 1) := by
    have := hmono (show 0 < (n - 1) / 2 + 1 by omega)
    rw [melPoint_zero ha hb (by linarith)] at this
    exact this.le
  have hp1 : melPoint a b 0 H n ((n - 1) / 2 + 1) < H := by
    have := hmono (show (n - 1) / 2 + 1 < n + 1 by omega)
    rw [melPoint_last ha hb (by linarith)] at this
    exact this
  rw [h2 t _ h0 ht (by positivity) (by linarith), div_div_div_cancel_right₀ (by norm_num : (1000 : ℝ) ≠ 0), if_neg hfl.ne, htop]
  unfold decibels
  have : max (1e-10 : ℝ) |0| / max 1e-10 1 = (10 : ℝ) ^ (-10 : ℝ) := by
    rw [abs_zero, max_eq_left (by norm_num), max_eq_right (by norm_num), div_one, Real.rpow_neg (by norm_num)]
    norm_num
  rw [this, Real.logb_rpow (by norm_num) (by norm_num), max_eq_right (by norm_num)]

/-- The documented plot with 128 filters at 16 kHz: the centre frequency of band 63 lies in the strip of a lower band. -/
example : ⌊melPoint 2595 700 0 8000 128 64 / 8000 * (128 : ℕ)⌋₊ < 63 :=
  C182_bands_violated MelConst.oshaghnessy (by norm_num) (by norm_num : 5 ≤ 128)

/-- A picture of two frames with two coefficients. -/
example : ∃ img, showFeatures [[fin 1, fin 2], [fin 3, fin 4]] = [Draw.image img none] ∧ shownAtIndex img 2 2 (0 : ℕ) (1 : ℕ) = fin 2 := by
  obtain ⟨img, h1, -, h2⟩ := C182_features (feats := [[fin 1, fin 2], [fin 3, fin 4]]) (m := 2) (n := 2) ⟨rfl, by simp⟩ (by norm_num)
  exact ⟨img, h1, h2 0 (by norm_num) 1 (by norm_num)⟩

end Props
end Spafe
