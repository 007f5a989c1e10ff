import Verif.Props.LpMeaning
import Verif.Props.PnccMeaning
import Verif.Props.Gammatone2
import Verif.Props.BarkFbanks
import Verif.Props.MelFbanks

/-! C108: what the features compute from the signal alone, with the filter bank they build themselves. -/

set_option linter.unusedSectionVars false

namespace Spafe
namespace Props
open Model XF Spec

/-- The arguments are in range and no bank is given. -/
structure Auto (a : Args) (sig : List ℝ) (l s : ℕ) : Prop where
  bank : a.fbanks = none
  filters : 1 ≤ a.nfilts
  ceps : a.numCeps ≤ a.nfilts
  nfft : a.nfft ≠ 0
  window : WindowName a.win.winType
  hopLe : a.win.winHop ≤ a.win.winLen
  len : pyInt (a.win.winLen * a.fs) = l
  hop : pyInt (a.win.winHop * a.fs) = s
  pos : 0 < s
  long : l ≤ sig.length
  samples : a.preEmph = true → sig ≠ []

/-- The frequency band and the scale of the bank are valid: effective upper frequency `high`, scale factors `w`. -/
structure Band (a : Args) (high : ℝ) (w : ℕ → ℕ → ℝ) : Prop where
  scale : Scale a.scale w
  eff : EffHigh a.fs a.high high
  low0 : 0 ≤ a.low
  lt : a.low < high
  le : high ≤ a.fs / 2

theorem matOf_cols (r c : ℕ) (f : ℕ → ℕ → ℝ) : ∀ x ∈ matOf r c f, x.length = c := by
  intro x hx
  obtain ⟨m, -, rfl⟩ := List.mem_map.mp hx
  simp

theorem matOf_nonneg {r c : ℕ} {f : ℕ → ℕ → ℝ} (h : ∀ j k, j < r → k < c → 0 ≤ f j k) :
    ∀ x ∈ matOf r c f, ∀ v ∈ x, 0 ≤ v := by
  intro x hx v hv
  obtain ⟨m, hm, rfl⟩ := List.mem_map.mp hx
  obtain ⟨k, hk, rfl⟩ := List.mem_map.mp hv
  exact h m k (List.mem_range.mp hm) (List.mem_range.mp hk)

theorem isMatrix_eq {m : XMat} {r c : ℕ} {f : ℕ → ℕ → ℝ} (h : IsMatrix m r c f) : m = finMat (matOf r c f) := by
  obtain ⟨h1, h2, h3⟩ := h
  exact eq_finMat_of_entries h2 h1 f fun i j hi hj => h3 i j hi hj

/-- The energy of frame `i` in a band with the weights `W`. -/
noncomputable def weightedEnergy (W : ℕ → ℝ) (w y : ℕ → ℝ) (l s nfft i : ℕ) : ℝ :=
  ∑ k ∈ Finset.range (nfft / 2 + 1), framePower w y l s nfft i k * W k

theorem bandEnergy_matOf {r nfft : ℕ} (f : ℕ → ℕ → ℝ) (w y : ℕ → ℝ) (l s i : ℕ) {n : ℕ} (hn : n < r) :
    bandEnergy (matOf r (nfft / 2 + 1) f) w y l s nfft i n = weightedEnergy (f n) w y l s nfft i := by
  unfold bandEnergy weightedEnergy
  apply Finset.sum_congr rfl
  intro k hk
  unfold matOf
  rw [getD_map_range_lt _ _ hn, getD_map_range_lt _ _ (Finset.mem_range.mp hk)]

theorem dctII_congr {N : ℕ} {f g : ℕ → ℝ} (h : ∀ n < N, f n = g n) (k : ℕ) : dctII N f k = dctII N g k := by
  unfold dctII
  congr 1
  exact Finset.sum_congr rfl fun n hn => by rw [h n (Finset.mem_range.mp hn)]

/-- `Setup` with the computed bank. -/
theorem Auto.setup {a : Args} {sig : List ℝ} {l s : ℕ} (h : Auto a sig l s) {f : ℕ → ℕ → ℝ}
    (hf : ∀ j k, j < a.nfilts → k < a.nfft / 2 + 1 → 0 ≤ f j k) :
    Setup { a with fbanks := some (finMat (matOf a.nfilts (a.nfft / 2 + 1) f)) } (matOf a.nfilts (a.nfft / 2 + 1) f)
      sig l s where
  bank := rfl
  cols := matOf_cols _ _ _
  nonneg := matOf_nonneg hf
  rows := by rw [matOf_length]; exact h.filters
  ceps := h.ceps
  nfft := h.nfft
  window := h.window
  hopLe := h.hopLe
  len := h.len
  hop := h.hop
  pos := h.pos
  long := h.long
  samples := h.samples

theorem Auto.none {a : Args} {sig : List ℝ} {l s : ℕ} (h : Auto a sig l s) : { a with fbanks := none } = a := by
  have := h.bank
  cases a
  simp_all

/-- The entries in terms of the weights of the bank. -/
theorem auto_meaning {a : Args} {sig : List ℝ} {l s : ℕ} (h : Auto a sig l s) {W : ℕ → ℕ → ℝ}
    (hW : ∀ j k, j < a.nfilts → k < a.nfft / 2 + 1 → 0 ≤ W j k) {f : Feature} {coeff : ℝ} {G : ℝ → ℝ}
    (hf : (f, coeff, G) ∈ compressions a) (hd : a.dctType = 2) (hu : a.useEnergy = false) (hl : a.lifter = none)
    (hn : a.normalize = none)
    (he : f { a with fbanks := some (finMat (matOf a.nfilts (a.nfft / 2 + 1) W)) } sig = f { a with fbanks := none } sig) :
    ∃ m, f a sig = .ok m ∧ HasShape m ((sig.length - l) / s + 1) a.numCeps ∧
      ∀ i k, i < (sig.length - l) / s + 1 → k < a.numCeps → (m.getD i []).getD k nan =
        fin (dctII a.nfilts (fun n => G (weightedEnergy (W n) (windowWeight a.win.winType l)
          (emphasised a.preEmph coeff sig) l s a.nfft i)) k) := by
  have hs := h.setup hW
  obtain ⟨m, h1, h2, h3⟩ := C101_meaning { a with fbanks := some (finMat (matOf a.nfilts (a.nfft / 2 + 1) W)) } f coeff G
    hf _ sig l s hs hd hu hl hn
  rw [he, h.none] at h1
  rw [matOf_length] at h2 h3
  have hc : min a.numCeps a.nfilts = a.numCeps := Nat.min_eq_left h.ceps
  simp only [hc] at h2 h3
  refine ⟨m, h1, h2, fun i k hi hk => (h3 i k hi hk).trans ?_⟩
  congr 1
  apply dctII_congr
  intro n hn
  congr 1
  exact bandEnergy_matOf W _ _ l s i hn

theorem tri_nonneg (l c u f : ℝ) : 0 ≤ tri l c u f := le_max_left _ _

theorem scale_nonneg {sc : String} {w : ℕ → ℕ → ℝ} (h : Scale sc w) {n j : ℕ} (hj : j < n) : 0 ≤ w n j := by
  cases h with
  | ascendant => positivity
  | descendant =>
    have : (j : ℝ) ≤ n := by exact_mod_cast hj.le
    exact div_nonneg (by linarith) (by positivity)
  | constant => norm_num

/-- C108 for `mfcc`: the bands are triangles between points equidistant on the mel scale. -/
theorem C108_mfcc (a : Args) (sig : List ℝ) (l s : ℕ) (h : Auto a sig l s) (high : ℝ) (w : ℕ → ℕ → ℝ)
    (hb : Band a high w) (c d : ℝ) (hm : MelConst a.approach c d)
    (hd : a.dctType = 2) (hu : a.useEnergy = false) (hl : a.lifter = none) (hn : a.normalize = none) :
    ∃ m, mfcc a sig = .ok m ∧ HasShape m ((sig.length - l) / s + 1) a.numCeps ∧
      ∀ i k, i < (sig.length - l) / s + 1 → k < a.numCeps → (m.getD i []).getD k nan =
        fin (dctII a.nfilts (fun j => logFloor (weightedEnergy (fun b => w a.nfilts j *
            tri (melPoint c d a.low high a.nfilts j) (melPoint c d a.low high a.nfilts (j + 1))
              (melPoint c d a.low high a.nfilts (j + 2)) (colFreq a.low high a.nfft b))
          (windowWeight a.win.winType l) (emphasised a.preEmph a.preEmphCoeff sig) l s a.nfft i)) k) := by
  obtain ⟨bank, cs, h1, h2, -⟩ := C26_mel_triangles hb.scale hm hb.eff hb.low0 hb.lt hb.le a.nfilts a.nfft
  rw [isMatrix_eq h2] at h1
  exact auto_meaning h (fun j k hj _ => mul_nonneg (scale_nonneg hb.scale hj) (tri_nonneg ..)) (by simp [compressions])
    hd hu hl hn ((C39_precomputed_bank a sig _).1 cs h1).1

/-- C108 for `lfcc`: the bands are triangles between equidistant points; the pre-emphasis coefficient is 0.97. -/
theorem C108_lfcc (a : Args) (sig : List ℝ) (l s : ℕ) (h : Auto a sig l s) (high : ℝ) (w : ℕ → ℕ → ℝ)
    (hb : Band a high w) (hd : a.dctType = 2) (hu : a.useEnergy = false) (hl : a.lifter = none) (hn : a.normalize = none) :
    ∃ m, lfcc a sig = .ok m ∧ HasShape m ((sig.length - l) / s + 1) a.numCeps ∧
      ∀ i k, i < (sig.length - l) / s + 1 → k < a.numCeps → (m.getD i []).getD k nan =
        fin (dctII a.nfilts (fun j => logFloor (weightedEnergy (fun b => w a.nfilts j *
            tri (linPoint a.low high a.nfilts j) (linPoint a.low high a.nfilts (j + 1))
              (linPoint a.low high a.nfilts (j + 2)) (colFreq a.low high a.nfft b))
          (windowWeight a.win.winType l) (emphasised a.preEmph 0.97 sig) l s a.nfft i)) k) := by
  obtain ⟨bank, cs, h1, h2, -⟩ := C30_linear_triangles hb.scale hb.eff hb.low0 hb.lt hb.le a.nfilts a.nfft
  rw [isMatrix_eq h2] at h1
  exact auto_meaning h (fun j k hj _ => mul_nonneg (scale_nonneg hb.scale hj) (tri_nonneg ..)) (by simp [compressions])
    hd hu hl hn ((C39_precomputed_bank a sig _).2.1 cs h1)

/-- C108 for `imfcc` (which needs an explicit upper frequency): the mel triangles mirrored about the middle of the band,
with ascending and descending scale exchanged. -/
theorem C108_imfcc (a : Args) (sig : List ℝ) (l s : ℕ) (h : Auto a sig l s) (high : ℝ) (hh : a.high = some high)
    (h0 : 0 ≤ a.low) (h1 : a.low < high) (h2 : high ≤ a.fs / 2) (scale' : String) (hsw : SwapScale a.scale scale')
    (w : ℕ → ℕ → ℝ) (hs : Scale scale' w) (c d : ℝ) (hm : MelConst a.approach c d) (hnf : 2 ≤ a.nfft)
    (hd : a.dctType = 2) (hu : a.useEnergy = false) (hl : a.lifter = none) (hn : a.normalize = none) :
    ∃ m, imfcc a sig = .ok m ∧ HasShape m ((sig.length - l) / s + 1) a.numCeps ∧
      ∀ i k, i < (sig.length - l) / s + 1 → k < a.numCeps → (m.getD i []).getD k nan =
        fin (dctII a.nfilts (fun j => logFloor (weightedEnergy (fun b => w a.nfilts j *
            tri (melPoint c d a.low high a.nfilts j) (melPoint c d a.low high a.nfilts (j + 1))
              (melPoint c d a.low high a.nfilts (j + 2)) (a.low + high - colFreq a.low high a.nfft b))
          (windowWeight a.win.winType l) (emphasised a.preEmph a.preEmphCoeff sig) l s a.nfft i)) k) := by
  obtain ⟨bank, cs, h3, h4⟩ := C31_inverse_mel_weights hsw hs hm h0 h1 h2 a.nfilts a.nfft hnf
  rw [isMatrix_eq h4, ← hh] at h3
  exact auto_meaning h (fun j k hj _ => mul_nonneg (scale_nonneg hs hj) (tri_nonneg ..)) (by simp [compressions])
    hd hu hl hn ((C39_precomputed_bank a sig _).2.2.2.2 cs h3)

/-- The weight of column `b` in band `j` of a Bark bank: the critical-band curve around centres equidistant in Bark,
cut to the columns between the band edges. -/
noncomputable def barkWeight (B : ℝ → ℝ) (w : ℕ → ℕ → ℝ) (low high fs : ℝ) (n nfft j b : ℕ) : ℝ :=
  w n j * if 2 ≤ n ∧ ⌊((nfft : ℝ) + 1) * (low / fs)⌋ ≤ b ∧ (b : ℤ) < ⌊((nfft : ℝ) + 1) * (high / fs)⌋
    then barkCurve (B (b * fs / (nfft + 1)) - gridPoint (B low) (B high) n j) else 0

theorem barkCurve_nonneg (d : ℝ) : 0 ≤ barkCurve d := by
  unfold barkCurve
  split_ifs <;> positivity

theorem barkWeight_nonneg {sc : String} {B : ℝ → ℝ} {w : ℕ → ℕ → ℝ} (hs : Scale sc w) (low high fs : ℝ)
    {n j : ℕ} (hj : j < n) (nfft b : ℕ) : 0 ≤ barkWeight B w low high fs n nfft j b := by
  unfold barkWeight
  apply mul_nonneg (scale_nonneg hs hj)
  split_ifs
  · exact barkCurve_nonneg _
  · exact le_rfl

/-- C108 for `bfcc`. -/
theorem C108_bfcc (a : Args) (sig : List ℝ) (l s : ℕ) (h : Auto a sig l s) (high : ℝ) (w : ℕ → ℕ → ℝ)
    (hb : Band a high w) (B : ℝ → ℝ) (hB : BarkScale a.approach B)
    (hd : a.dctType = 2) (hu : a.useEnergy = false) (hl : a.lifter = none) (hn : a.normalize = none) :
    ∃ m, bfcc a sig = .ok m ∧ HasShape m ((sig.length - l) / s + 1) a.numCeps ∧
      ∀ i k, i < (sig.length - l) / s + 1 → k < a.numCeps → (m.getD i []).getD k nan =
        fin (dctII a.nfilts (fun j => logFloor (intensity (weightedEnergy
          (barkWeight B w a.low high a.fs a.nfilts a.nfft j)
          (windowWeight a.win.winType l) (emphasised a.preEmph 0.97 sig) l s a.nfft i))) k) := by
  have hfs : 0 < a.fs := by have := hb.low0; have := hb.lt; have := hb.le; linarith
  obtain ⟨bank, cs, h1, -, h2⟩ := C34_bark_ok_partial hb.scale hB hb.eff hfs hb.low0 hb.le a.nfilts a.nfft
  replace h2 : IsMatrix bank a.nfilts (a.nfft / 2 + 1) (barkWeight B w a.low high a.fs a.nfilts a.nfft) := h2
  rw [isMatrix_eq h2] at h1
  have h3 := (C39_precomputed_bank a sig _).2.2.1 cs h1
  have h4 := auto_meaning h (W := barkWeight B w a.low high a.fs a.nfilts a.nfft) (f := bfcc) (coeff := 0.97)
    (G := fun e => logFloor (intensity e))
    (fun j k hj _ => barkWeight_nonneg hb.scale _ _ _ hj _ _) (by simp [compressions]) hd hu hl hn h3
  exact h4

/-- The weight of column `b` in band `j` of a gammatone bank, `M j` being the peak of its response. -/
noncomputable def gammaWeight (w : ℕ → ℕ → ℝ) (low high fs : ℝ) (n nfft : ℕ) (M : ℕ → ℝ) (j b : ℕ) : ℝ :=
  w n j * (gtResponse fs (gtCentre low high n j) (gtDecay (gtCentre low high n j) 4) (2 * Real.pi * b / nfft) / M j)

/-- `M j` is the peak of the response of channel `j` over the bins. -/
def IsPeak (low high fs : ℝ) (n nfft : ℕ) (M : ℕ → ℝ) : Prop :=
  ∀ j < n, 0 < M j ∧ IsGreatest {v | ∃ k, k < nfft / 2 + 1 ∧ v = gtResponse fs (gtCentre low high n j)
    (gtDecay (gtCentre low high n j) 4) (2 * Real.pi * k / nfft)} (M j)

theorem gamma_bank {a : Args} {high : ℝ} {w : ℕ → ℕ → ℝ} (hb : Band a high w) (hnf : 3 ≤ a.nfft) :
    ∃ M cs, IsPeak a.low high a.fs a.nfilts a.nfft M ∧
      gammatoneFilterBanks a.nfilts a.nfft a.fs a.low a.high a.scale 4 a.approach = .ok (finMat (matOf a.nfilts
        (a.nfft / 2 + 1) (gammaWeight w a.low high a.fs a.nfilts a.nfft M)), cs) ∧
      ∀ j k, j < a.nfilts → k < a.nfft / 2 + 1 → 0 ≤ gammaWeight w a.low high a.fs a.nfilts a.nfft M j k := by
  obtain ⟨bank, cs, h1, h2⟩ := C104_gammatone_formula (ap := a.approach) (order := 4) hb.scale hb.eff hb.low0 hb.lt hb.le
    (n := a.nfilts) hnf (by norm_num)
  obtain ⟨bank', cs', h3, h4⟩ := C35_peak (ap := a.approach) (order := 4) hb.scale hb.eff hb.low0 hb.lt hb.le
    (n := a.nfilts) hnf (by norm_num)
  rw [h1] at h3
  injection h3 with h3
  injection h3 with h3 _
  subst h3
  have hex : ∀ j, ∃ M, j < a.nfilts → 0 < M ∧ IsGreatest {v | ∃ k, k < a.nfft / 2 + 1 ∧ v = gtResponse a.fs
      (gtCentre a.low high a.nfilts j) (gtDecay (gtCentre a.low high a.nfilts j) 4) (2 * Real.pi * k / a.nfft)} M ∧
      ∀ k, k < a.nfft / 2 + 1 → (bank.getD j []).getD k nan = fin (w a.nfilts j * (gtResponse a.fs
        (gtCentre a.low high a.nfilts j) (gtDecay (gtCentre a.low high a.nfilts j) 4) (2 * Real.pi * k / a.nfft) / M)) := by
    intro j
    by_cases hj : j < a.nfilts
    · obtain ⟨M, hM⟩ := h2 j hj; exact ⟨M, fun _ => hM⟩
    · exact ⟨0, fun h => absurd h hj⟩
  choose M hM using hex
  obtain ⟨hs1, hs2, -⟩ := C25_gammatone_shape h1
  have hin : ∀ j k, j < a.nfilts → k < a.nfft / 2 + 1 →
      (bank.getD j []).getD k (fin 0) = fin (gammaWeight w a.low high a.fs a.nfilts a.nfft M j k) := by
    intro j k hj hk
    unfold gammaWeight
    rw [← (hM j hj).2.2 k hk]
    have hlen : (bank.getD j []).length = a.nfft / 2 + 1 := hs2 _ (getD_mem _ (by omega))
    exact (List.getD_eq_getElem _ _ (by omega)).trans (List.getD_eq_getElem _ _ (by omega)).symm
  refine ⟨M, cs, fun j hj => ⟨(hM j hj).1, (hM j hj).2.1⟩, ?_, ?_⟩
  · rw [h1, isMatrix_eq ⟨hs1, hs2, hin⟩]
  · intro j k hj hk
    obtain ⟨v, hv, hv0, -⟩ := (h4 j hj).1 k hk
    rw [hin j k hj hk] at hv
    rw [XF.fin_injective hv]; exact hv0

/-- C108 for `gfcc` and `ngcc`: the bands are Slaney's gammatone responses with peak 1. -/
theorem C108_gammatone (a : Args) (f : Feature) (coeff : ℝ) (G : ℝ → ℝ)
    (hf : (f, coeff, G) ∈ [(gfcc, (0.97 : ℝ), fun e : ℝ => e ^ (1 / 3 : ℝ)), (ngcc, a.preEmphCoeff, logFloor)])
    (sig : List ℝ) (l s : ℕ) (h : Auto a sig l s) (high : ℝ) (w : ℕ → ℕ → ℝ) (hb : Band a high w) (hnf : 3 ≤ a.nfft)
    (hd : a.dctType = 2) (hu : a.useEnergy = false) (hl : a.lifter = none) (hn : a.normalize = none) :
    ∃ M, IsPeak a.low high a.fs a.nfilts a.nfft M ∧
    ∃ m, f a sig = .ok m ∧ HasShape m ((sig.length - l) / s + 1) a.numCeps ∧
      ∀ i k, i < (sig.length - l) / s + 1 → k < a.numCeps → (m.getD i []).getD k nan =
        fin (dctII a.nfilts (fun j => G (weightedEnergy (gammaWeight w a.low high a.fs a.nfilts a.nfft M j)
          (windowWeight a.win.winType l) (emphasised a.preEmph coeff sig) l s a.nfft i)) k) := by
  obtain ⟨M, cs, h1, h2, h3⟩ := gamma_bank hb hnf
  refine ⟨M, h1, ?_⟩
  have hC := (C39_precomputed_bank a sig _).2.2.2.1 cs h2
  simp only [List.mem_cons, Prod.mk.injEq, List.not_mem_nil, or_false] at hf
  rcases hf with ⟨rfl, rfl, rfl⟩ | ⟨rfl, rfl, rfl⟩
  · have h4 := auto_meaning h (f := gfcc) (coeff := 0.97) (G := fun e : ℝ => e ^ (1 / 3 : ℝ)) h3 (by simp [compressions])
      hd hu hl hn hC.1
    exact h4
  · have h4 := auto_meaning h (f := ngcc) (coeff := a.preEmphCoeff) (G := logFloor) h3 (by simp [compressions])
      hd hu hl hn hC.2
    exact h4

/-- C108 for `msrcc`: the mel triangles of `C108_mfcc`, compression by the power `gamma`. -/
theorem C108_msrcc (a : Args) (sig : List ℝ) (l s : ℕ) (h : Auto a sig l s) (high : ℝ) (w : ℕ → ℕ → ℝ)
    (hb : Band a high w) (c d : ℝ) (hm : MelConst a.approach c d)
    (hd : a.dctType = 2) (hu : a.useEnergy = false) (hl : a.lifter = none) (hn : a.normalize = none) (E : ℕ → ℕ → ℝ)
    (hE : E = fun i j => weightedEnergy (fun b => w a.nfilts j *
            tri (melPoint c d a.low high a.nfilts j) (melPoint c d a.low high a.nfilts (j + 1))
              (melPoint c d a.low high a.nfilts (j + 2)) (colFreq a.low high a.nfft b))
          (windowWeight a.win.winType l) (emphasised a.preEmph a.preEmphCoeff sig) l s a.nfft i)
    (hpos : 0 ≤ a.gamma ∨ ∀ i j, i < (sig.length - l) / s + 1 → j < a.nfilts → 0 < E i j) :
    ∃ m, msrcc a sig = .ok m ∧ HasShape m ((sig.length - l) / s + 1) a.numCeps ∧
      ∀ i k, i < (sig.length - l) / s + 1 → k < a.numCeps → (m.getD i []).getD k nan =
        fin (dctII a.nfilts (fun j => E i j ^ a.gamma) k) := by
  subst hE
  obtain ⟨bank, cs, h1, h2, -⟩ := C26_mel_triangles hb.scale hm hb.eff hb.low0 hb.lt hb.le a.nfilts a.nfft
  rw [isMatrix_eq h2] at h1
  obtain ⟨m, h3, h4, h5⟩ := C101_msrcc_meaning _ _ sig l s
    (h.setup fun j k hj _ => mul_nonneg (scale_nonneg hb.scale hj) (tri_nonneg ..)) hd hu hl hn
    (hpos.imp id fun hp i n hi hn => by
      rw [matOf_length] at hn
      have := hp i n hi hn
      rwa [bandEnergy_matOf _ _ _ l s i hn])
  rw [((C39_precomputed_bank a sig _).1 cs h1).2.1, h.none] at h3
  rw [matOf_length] at h4 h5
  have hc : min a.numCeps a.nfilts = a.numCeps := Nat.min_eq_left h.ceps
  simp only [hc] at h4 h5
  refine ⟨m, h3, h4, fun i k hi hk => (h5 i k hi hk).trans ?_⟩
  congr 1
  apply dctII_congr
  intro n hn
  congr 1
  exact bandEnergy_matOf _ _ _ l s i hn

theorem inverseDft_congr {n N : ℕ} {f g : ℕ → ℝ} (h : ∀ j < N, f j = g j) : inverseDft n N f = inverseDft n N g := by
  funext t
  unfold inverseDft
  congr 2
  exact Finset.sum_congr rfl fun j hj => by rw [h j (by simp at hj; omega)]

/-- C108 for `plp`: the Bark bank of `C108_bfcc`, then as in `C107_plp_meaning`. -/
theorem C108_plp (a : Args) (sig : List ℝ) (l s : ℕ) (h : Auto a sig l s) (high : ℝ) (w : ℕ → ℕ → ℝ)
    (hb : Band a high w) (B : ℝ → ℝ) (hB : BarkScale a.approach B)
    (ho : 2 ≤ a.numCeps) (hl : a.lifter = none) (hn : a.normalize = none) (E : ℕ → ℕ → ℝ)
    (hE : E = fun i j => weightedEnergy (barkWeight B w a.low high a.fs a.nfilts a.nfft j)
      (windowWeight a.win.winType l) (emphasised a.preEmph a.preEmphCoeff sig) l s a.nfft i)
    (hpos : ∀ i < (sig.length - l) / s + 1, ∃ n < min a.nfft a.nfilts, E i n ≠ 0) :
    ∃ m, plp a sig = .ok m ∧ HasShape m ((sig.length - l) / s + 1) a.numCeps ∧
      ∀ i < (sig.length - l) / s + 1, ∀ x : List ℝ,
        x = (List.range a.nfft).map (inverseDft a.nfft a.nfilts fun n => intensity (E i n)) →
        ∃ p, IsPredictor x (a.numCeps - 1) p ∧ ∀ k < a.numCeps,
          (m.getD i []).getD k nan = fin (lpCoefficient p (lpResidual x (a.numCeps - 1) p) k) := by
  subst hE
  have hfs : 0 < a.fs := by have := hb.low0; have := hb.lt; have := hb.le; linarith
  obtain ⟨bank, cs, h1, -, h2⟩ := C34_bark_ok_partial hb.scale hB hb.eff hfs hb.low0 hb.le a.nfilts a.nfft
  replace h2 : IsMatrix bank a.nfilts (a.nfft / 2 + 1) (barkWeight B w a.low high a.fs a.nfilts a.nfft) := h2
  rw [isMatrix_eq h2] at h1
  have he : ∀ i n, n < a.nfilts → _ := fun i n hn => bandEnergy_matOf (r := a.nfilts) (nfft := a.nfft)
    (barkWeight B w a.low high a.fs a.nfilts a.nfft) (windowWeight a.win.winType l)
    (emphasised a.preEmph a.preEmphCoeff sig) l s i (n := n) hn
  obtain ⟨m, h3, h4, h5⟩ := C107_plp_meaning { a with fbanks := some (finMat (matOf a.nfilts (a.nfft / 2 + 1)
      (barkWeight B w a.low high a.fs a.nfilts a.nfft))) } _ sig l s
    (h.setup fun j k hj _ => barkWeight_nonneg hb.scale _ _ _ hj _ _) ho hl hn _ rfl
    (fun i hi => by
      obtain ⟨n, h6, h7⟩ := hpos i hi
      refine ⟨n, by rw [matOf_length]; exact h6, ?_⟩
      exact fun h8 => h7 ((he i n (by omega)).symm.trans h8))
  rw [C39_plp_precomputed_bank plp (by simp) a sig _ cs h1, h.none] at h3
  refine ⟨m, h3, h4, ?_⟩
  rintro i hi x rfl
  refine h5 i hi _ ?_
  rw [matOf_length]
  congr 1
  exact inverseDft_congr fun n hn => congrArg intensity (he i n hn).symm

/-- C108 for `rplp`: the Bark bank of `C108_bfcc`, then as in `C107_rplp_meaning`. -/
theorem C108_rplp (a : Args) (sig : List ℝ) (l s : ℕ) (h : Auto a sig l s) (high : ℝ) (w : ℕ → ℕ → ℝ)
    (hb : Band a high w) (B : ℝ → ℝ) (hB : BarkScale a.approach B)
    (ho : 2 ≤ a.numCeps) (hl : a.lifter = none) (hn : a.normalize = none) (E : ℕ → ℕ → ℝ)
    (hE : E = fun i j => weightedEnergy (barkWeight B w a.low high a.fs a.nfilts a.nfft j)
      (windowWeight a.win.winType l) (emphasised a.preEmph a.preEmphCoeff sig) l s a.nfft i)
    (hpos : ∀ i < (sig.length - l) / s + 1, ∀ n < a.nfilts, 0 < E i n) :
    ∃ m, rplp a sig = .ok m ∧ HasShape m ((sig.length - l) / s + 1) a.numCeps ∧
      ∀ i < (sig.length - l) / s + 1, ∀ y x : List ℝ,
        Rasta ((List.range a.nfilts).map fun (n : ℕ) => Real.log (E i n)) y →
        x = (List.range a.nfft).map (inverseDft a.nfft a.nfilts fun n => intensity (Real.exp (y.getD n 0))) →
        ∃ p, IsPredictor x (a.numCeps - 1) p ∧ ∀ k < a.numCeps,
          (m.getD i []).getD k nan = fin (lpCoefficient p (lpResidual x (a.numCeps - 1) p) k) := by
  subst hE
  have hfs : 0 < a.fs := by have := hb.low0; have := hb.lt; have := hb.le; linarith
  obtain ⟨bank, cs, h1, -, h2⟩ := C34_bark_ok_partial hb.scale hB hb.eff hfs hb.low0 hb.le a.nfilts a.nfft
  replace h2 : IsMatrix bank a.nfilts (a.nfft / 2 + 1) (barkWeight B w a.low high a.fs a.nfilts a.nfft) := h2
  rw [isMatrix_eq h2] at h1
  have he : ∀ i n, n < a.nfilts → _ := fun i n hn => bandEnergy_matOf (r := a.nfilts) (nfft := a.nfft)
    (barkWeight B w a.low high a.fs a.nfilts a.nfft) (windowWeight a.win.winType l)
    (emphasised a.preEmph a.preEmphCoeff sig) l s i (n := n) hn
  obtain ⟨m, h3, h4, h5⟩ := C107_rplp_meaning { a with fbanks := some (finMat (matOf a.nfilts (a.nfft / 2 + 1)
      (barkWeight B w a.low high a.fs a.nfilts a.nfft))) } _ sig l s
    (h.setup fun j k hj _ => barkWeight_nonneg hb.scale _ _ _ hj _ _) ho hl hn _ rfl
    (fun i hi n hn => by
      rw [matOf_length] at hn
      exact lt_of_lt_of_eq (hpos i hi n hn) (he i n hn).symm)
  rw [C39_plp_precomputed_bank rplp (by simp) a sig _ cs h1, h.none] at h3
  refine ⟨m, h3, h4, ?_⟩
  rintro i hi y x hy rfl
  refine h5 i hi y _ ?_ ?_
  · rw [matOf_length]
    convert hy using 1
    exact List.map_congr_left fun n hn => congrArg Real.log (he i n (List.mem_range.mp hn))
  · rw [matOf_length]

/-- C108 for `pncc`: the gammatone bank of `C108_gammatone`, then as in `C106_pncc_meaning`. -/
theorem C108_pncc (a : Args) (power : ℝ) (hp : 0 < power) (sig : List ℝ) (l s : ℕ) (h : Auto a sig l s) (high : ℝ)
    (w : ℕ → ℕ → ℝ) (hb : Band a high w) (hnf : 3 ≤ a.nfft) (hd : a.dctType = 2) (hl : a.lifter = none)
    (hn : a.normalize = none) (R : ℕ) (hR : R = (sig.length - l) / s + 1) :
    ∃ M, IsPeak a.low high a.fs a.nfilts a.nfft M ∧ ∀ P : ℕ → ℕ → ℝ,
      P = bandPower power ((List.range a.nfilts).map fun j => (List.range (a.nfft / 2 + 1)).map
          (gammaWeight w a.low high a.fs a.nfilts a.nfft M j)) (windowWeight a.win.winType l)
        (emphasised a.preEmph a.preEmphCoeff sig) l s a.nfft →
      (∀ i n, i < R → 1 ≤ n → n < a.nfilts → 0 < mediumTime R (fun j => P j n) i) →
      ∃ m, pncc a power sig = .ok m ∧ HasShape m R a.numCeps ∧
        ∀ i k, i < R → k < a.numCeps → (m.getD i []).getD k nan = fin (dctII a.nfilts (pnccBand R a.nfilts P i) k) := by
  obtain ⟨M, cs, h1, h2, h3⟩ := gamma_bank hb hnf
  refine ⟨M, h1, fun P hP hpos => ?_⟩
  obtain ⟨m, h4, h5, h6⟩ := C106_pncc_meaning { a with fbanks := some (finMat (matOf a.nfilts (a.nfft / 2 + 1)
      (gammaWeight w a.low high a.fs a.nfilts a.nfft M))) } power hp _ sig l s (h.setup h3) (by rw [matOf_length])
      hd hl hn R hR P hP (fun i n hi h1 hn => hpos i n hi h1 (by rwa [matOf_length] at hn))
  rw [C39_pncc_precomputed_bank a power sig _ cs h2, h.none] at h4
  rw [matOf_length] at h5 h6
  have hc : min a.numCeps a.nfilts = a.numCeps := Nat.min_eq_left h.ceps
  simp only [hc] at h5 h6
  exact ⟨m, h4, h5, h6⟩

/-- The default arguments meet the hypotheses for every signal of at least 400 samples (0.025 s at 16 kHz). -/
theorem default_auto (sig : List ℝ) (h : 400 ≤ sig.length) : Auto {} sig 400 160 where
  bank := rfl
  filters := by norm_num
  ceps := by norm_num
  nfft := by norm_num
  window := by simp [Args.win, WindowName]
  hopLe := by simp [Args.win]; norm_num
  len := by
    have : (({} : Args).win.winLen * ({} : Args).fs) = ((400 : ℕ) : ℝ) := by simp [Args.win]; norm_num
    rw [this]; simp [pyInt]
  hop := by
    have : (({} : Args).win.winHop * ({} : Args).fs) = ((160 : ℕ) : ℝ) := by simp [Args.win]; norm_num
    rw [this]; simp [pyInt]
  pos := by norm_num
  long := h
  samples := fun _ e => by simp [e] at h

theorem default_bank_band : Band {} 8000 (fun _ _ => 1) where
  scale := Scale.constant
  eff := by
    have : (8000 : ℝ) = 16000 / 2 := by norm_num
    rw [this]; exact EffHigh.none
  low0 := le_rfl
  lt := by norm_num
  le := by norm_num

/-- `mfcc(sig)` with all defaults, one second of audio: 98 frames of 13 coefficients given by the formula. -/
example (sig : List ℝ) (h : sig.length = 16000) : ∃ m, mfcc {} sig = .ok m ∧ HasShape m 98 13 ∧
    (m.getD 97 []).getD 12 nan = fin (dctII 24 (fun j => logFloor (weightedEnergy (fun b => 1 *
        tri (melPoint 2595 700 0 8000 24 j) (melPoint 2595 700 0 8000 24 (j + 1)) (melPoint 2595 700 0 8000 24 (j + 2))
          (colFreq 0 8000 512 b)) (windowWeight "hamming" 400) (emphasised true 0.97 sig) 400 160 512 97)) 12) := by
  obtain ⟨m, h1, h2, h3⟩ := C108_mfcc {} sig 400 160 (default_auto sig (by omega)) 8000 _ default_bank_band 2595 700
    MelConst.oshaghnessy rfl rfl rfl rfl
  have hR : (sig.length - 400) / 160 + 1 = 98 := by omega
  rw [hR] at h2 h3
  exact ⟨m, h1, h2, h3 97 12 (by norm_num) (by norm_num)⟩

/-- The other features with their defaults. -/
example (sig : List ℝ) (h : 400 ≤ sig.length) : (∃ m, lfcc {} sig = .ok m) ∧ (∃ m, gfcc {} sig = .ok m) ∧
    (∃ m, bfcc { approach := "Wang" } sig = .ok m) ∧ ∃ m, imfcc { high := some 8000 } sig = .ok m := by
  refine ⟨?_, ?_, ?_, ?_⟩
  · obtain ⟨m, h1, -⟩ := C108_lfcc {} sig 400 160 (default_auto sig h) 8000 _ default_bank_band rfl rfl rfl rfl
    exact ⟨m, h1⟩
  · obtain ⟨-, -, m, h1, -⟩ := C108_gammatone {} gfcc (0.97 : ℝ) (fun e : ℝ => e ^ (1 / 3 : ℝ)) (by simp) sig 400 160 (default_auto sig h) 8000 _ default_bank_band
      (by norm_num) rfl rfl rfl rfl
    exact ⟨m, h1⟩
  · have h2 := default_auto sig h
    obtain ⟨m, h1, -⟩ := C108_bfcc { approach := "Wang" } sig 400 160
      ⟨h2.bank, h2.filters, h2.ceps, h2.nfft, h2.window, h2.hopLe, h2.len, h2.hop, h2.pos, h2.long, h2.samples⟩ 8000 _
      ⟨default_bank_band.scale, default_bank_band.eff, default_bank_band.low0, default_bank_band.lt, default_bank_band.le⟩ _ BarkScale.wang
      rfl rfl rfl rfl
    exact ⟨m, h1⟩
  · have h2 := default_auto sig h
    obtain ⟨m, h1, -⟩ := C108_imfcc { high := some 8000 } sig 400 160
      ⟨h2.bank, h2.filters, h2.ceps, h2.nfft, h2.window, h2.hopLe, h2.len, h2.hop, h2.pos, h2.long, h2.samples⟩ 8000 rfl
      default_bank_band.low0 default_bank_band.lt default_bank_band.le "constant" SwapScale.constant _ Scale.constant 2595 700
      MelConst.oshaghnessy (by norm_num) rfl rfl rfl rfl
    exact ⟨m, h1⟩

end Props
end Spafe
