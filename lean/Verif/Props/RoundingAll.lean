import Verif.Props.RoundingBank
import Verif.Props.SpecMeaning

/-! C148: the log features and spectrograms with their own bank, all in floating point. -/

set_option linter.unusedSectionVars false

namespace Spafe
namespace Props
open Model XF Spec

/-- `W'` is a computed bank of `N` filters over `K` columns: weights in `[0, 1]`, within `τ` of `W`. -/
def CloseBank (W W' : ℕ → ℕ → ℝ) (τ : ℝ) (N K : ℕ) : Prop :=
  ∀ j < N, ∀ k < K, 0 ≤ W' j k ∧ W' j k ≤ 1 ∧ |W' j k - W j k| ≤ τ

/-- The bound of C148 for a band of exact energy `E > 0`: the bound of C120 plus the effect of the error `τ` of the bank. -/
noncomputable def rootErrorBank (u v ω δ τ E A : ℝ) (nfft : ℕ) : ℝ :=
  rootError u v ω δ 1 E A nfft + (1 + u) ^ (nfft / 2 + 4) * (1 + v) ^ 2 * (τ * A ^ 2 / √E)

/-- A bank off by `τ` changes the energies by at most `τ` times the energy of the samples. -/
theorem weightedEnergy_close {W W' : ℕ → ℝ} {τ : ℝ} {w : ℕ → ℝ} {on : Bool} {c : ℝ} {x : List ℝ} {l s nfft i : ℕ}
    (hw : ∀ j < l, 0 ≤ w j ∧ w j ≤ 1) (hnf : nfft ≠ 0) (hτ : 0 ≤ τ) (h : ∀ k < nfft / 2 + 1, |W' k - W k| ≤ τ) :
    |weightedEnergy W' w (emphasised on c x) l s nfft i - weightedEnergy W w (emphasised on c x) l s nfft i| ≤
      τ * frameAmplitude on c x l s i ^ 2 := by
  have hA : frameAmplitude on c x l s i ^ 2 = ∑ j ∈ Finset.range l, amplitude on c x (i * s + j) ^ 2 :=
    Real.sq_sqrt (Finset.sum_nonneg fun _ _ => sq_nonneg _)
  have hp := sum_framePower_le w (emphasised on c x) l s nfft i hnf
  have hq : ∑ j ∈ Finset.range l, (w j * emphasised on c x (i * s + j)) ^ 2 ≤ frameAmplitude on c x l s i ^ 2 := by
    rw [hA]
    refine Finset.sum_le_sum fun j hj => ?_
    obtain ⟨w0, w1⟩ := hw j (Finset.mem_range.mp hj)
    rw [← sq_abs, abs_mul, abs_of_nonneg w0]
    have h1 := abs_emphasised_le on c x (i * s + j)
    have h2 := mul_le_mul w1 h1 (abs_nonneg _) zero_le_one
    rw [one_mul] at h2
    exact pow_le_pow_left₀ (mul_nonneg w0 (abs_nonneg _)) h2 2
  unfold weightedEnergy
  rw [← Finset.sum_sub_distrib]
  have hf : ∀ k, 0 ≤ framePower w (emphasised on c x) l s nfft i k := fun k => by unfold framePower; positivity
  calc |∑ k ∈ Finset.range (nfft / 2 + 1), (framePower w (emphasised on c x) l s nfft i k * W' k -
        framePower w (emphasised on c x) l s nfft i k * W k)|
      ≤ ∑ k ∈ Finset.range (nfft / 2 + 1), |framePower w (emphasised on c x) l s nfft i k * W' k -
        framePower w (emphasised on c x) l s nfft i k * W k| := Finset.abs_sum_le_sum_abs _ _
    _ ≤ ∑ k ∈ Finset.range (nfft / 2 + 1), τ * framePower w (emphasised on c x) l s nfft i k := by
        refine Finset.sum_le_sum fun k hk => ?_
        rw [← mul_sub, abs_mul, abs_of_nonneg (hf k), mul_comm]
        exact mul_le_mul_of_nonneg_right (h k (Finset.mem_range.mp hk)) (hf k)
    _ = τ * ∑ k ∈ Finset.range (nfft / 2 + 1), framePower w (emphasised on c x) l s nfft i k := by rw [Finset.mul_sum]
    _ ≤ _ := mul_le_mul_of_nonneg_left (hp.trans hq) hτ

theorem sqrt_close {E E' t : ℝ} (hE : 0 < E) (hE' : 0 ≤ E') (h : |E' - E| ≤ t) : |√E' - √E| ≤ t / √E := by
  have h1 := Real.sqrt_pos.mpr hE
  have h2 := Real.sqrt_nonneg E'
  rw [le_div_iff₀ h1]
  refine le_trans ?_ h
  have e : E' - E = (√E' - √E) * (√E' + √E) := by
    have a1 := Real.mul_self_sqrt hE.le
    have a2 := Real.mul_self_sqrt hE'
    linarith [show (√E' - √E) * (√E' + √E) = √E' * √E' - √E * √E by ring]
  rw [e, abs_mul, abs_of_nonneg (show 0 ≤ √E' + √E by linarith)]
  exact mul_le_mul_of_nonneg_left (by linarith) (abs_nonneg _)

section
variable {u v ω δ τ : ℝ} {fl : ℝ → ℝ} {fft : (ℕ → ℝ) → ℕ → ℂ} {abs : ℂ → ℝ} {wv : ℕ → ℝ}

/-- C148, one energy: computed with a computed bank versus exact with the exact bank. -/
theorem C148_energy {name : String} {l nfft N : ℕ} (hname : WindowName name)
    (ar : Arithmetic u v ω δ fl fft abs wv name l nfft) (hnf : nfft ≠ 0) {W W' : ℕ → ℕ → ℝ} (hτ : 0 ≤ τ)
    (hW' : CloseBank W W' τ N (nfft / 2 + 1)) {on : Bool} {c : ℝ} {x : List ℝ} {s i : ℕ}
    (hlen : i * s + l ≤ x.length) (F : FlFrame fl (matOf N (nfft / 2 + 1) W') wv fft abs on c x l s nfft i) {n : ℕ} (hn : n < N)
    (hE : 0 < weightedEnergy (W n) (windowWeight name l) (emphasised on c x) l s nfft i) :
    |√(F.energy n) - √(weightedEnergy (W n) (windowWeight name l) (emphasised on c x) l s nfft i)| ≤
      rootErrorBank u v ω δ τ (weightedEnergy (W n) (windowWeight name l) (emphasised on c x) l s nfft i)
        (frameAmplitude on c x l s i) nfft := by
  have hlenN : (matOf N (nfft / 2 + 1) W').length = N := by simp [matOf]
  have h1 := C120_energy (fb := matOf N (nfft / 2 + 1) W') (M := 1) (w := windowWeight name l) ar.round ar.v0 ar.δ0
    (fun r hr a ha => by
      obtain ⟨m, hm, rfl⟩ := List.mem_map.mp hr
      obtain ⟨k, hk, rfl⟩ := List.mem_map.mp ha
      have := hW' m (List.mem_range.mp hm) k (List.mem_range.mp hk)
      exact ⟨this.1, this.2.1⟩) zero_le_one
    (fun j hj => ⟨(windowWeight_range hname hj).1, (windowWeight_range hname hj).2, ar.window_err j hj⟩) ar.ω0
      ar.fft_err hnf ar.abs_err hlen F (show n < _ by rw [hlenN]; exact hn)
  rw [bandEnergy_matOf _ _ _ _ _ _ hn] at h1
  have h2 := weightedEnergy_close (w := windowWeight name l) (l := l) (on := on) (c := c) (x := x) (s := s) (i := i) (fun j hj => windowWeight_range hname hj) hnf hτ
    (fun k hk => (hW' n hn k hk).2.2)
  have hE' : 0 ≤ weightedEnergy (W' n) (windowWeight name l) (emphasised on c x) l s nfft i := by
    unfold weightedEnergy
    refine Finset.sum_nonneg fun k hk => mul_nonneg (by unfold framePower; positivity) (hW' n hn k (Finset.mem_range.mp hk)).1
  have h3 := sqrt_close hE hE' h2
  unfold rootErrorBank rootError
  generalize weightedEnergy (W' n) (windowWeight name l) (emphasised on c x) l s nfft i = E' at *
  generalize weightedEnergy (W n) (windowWeight name l) (emphasised on c x) l s nfft i = E at *
  have hG : 1 ≤ (1 + u) ^ (nfft / 2 + 4) * (1 + v) ^ 2 :=
    one_le_mul_of_one_le_of_one_le (one_le_pow₀ (by linarith [ar.round.nonneg])) (one_le_pow₀ (by linarith [ar.v0]))
  generalize (1 + u) ^ (nfft / 2 + 4) * (1 + v) ^ 2 = G at *
  generalize τ * frameAmplitude on c x l s i ^ 2 / √E = t at *
  generalize √1 * ((δ * ((1 + ω) * (1 + u) ^ 3) + ((1 + ω) * (1 + u) ^ 3 - 1)) * frameAmplitude on c x l s i) = q at *
  have h4 := abs_sub_le (√(F.energy n)) (√E') (√E)
  have h5 := (abs_le.mp h3).2
  have h6 := mul_le_mul_of_nonneg_left h5 (sub_nonneg.mpr hG)
  nlinarith

/-- Rows of log energies: relative errors of the roots of the energies become absolute errors of the coefficients. -/
theorem log_row {N p : ℕ} (hp : p ≤ N) (hN : 0 < N) {E E' : ℕ → ℝ} {η : ℝ} (h0 : 0 ≤ η) (h1 : η < 1)
    (hE : ∀ n < N, 0 < E n ∧ |√(E' n) - √(E n)| ≤ η * √(E n)) {lg c' : ℕ → ℝ} {lam tau : ℝ}
    (hlg : ∀ n < N, |lg n - logFloor (E' n)| ≤ lam)
    (hc' : √(∑ k ∈ Finset.range p, (c' k - dctII N lg k) ^ 2) ≤ tau) :
    √(∑ k ∈ Finset.range p, (c' k - dctII N (fun n => logFloor (E n)) k) ^ 2) ≤
      tau + √N * (lam + 2 * Real.log (1 / (1 - η))) := by
  set y : ℕ → ℝ := fun n => logFloor (E n) with hy
  have key : ∀ n < N, |lg n - y n| ≤ lam + 2 * Real.log (1 / (1 - η)) := by
    intro n hn
    obtain ⟨e1, e3⟩ := hE n hn
    exact (abs_sub_le _ (logFloor (E' n)) _).trans (add_le_add (hlg n hn) (log_near h0 h1 e1 e3))
  have hb : 0 ≤ lam + 2 * Real.log (1 / (1 - η)) := (abs_nonneg _).trans (key 0 hN)
  have hsq : √(∑ k ∈ Finset.range p, (dctII N lg k - dctII N y k) ^ 2) ≤ √N * (lam + 2 * Real.log (1 / (1 - η))) := by
    rw [← Real.sqrt_sq hb, ← Real.sqrt_mul (Nat.cast_nonneg _)]
    apply Real.sqrt_le_sqrt
    refine (dctII_contracts N p hp lg y).trans ?_
    have : ∀ n ∈ Finset.range N, (lg n - y n) ^ 2 ≤ (lam + 2 * Real.log (1 / (1 - η))) ^ 2 := fun n hn => by
      rw [← sq_abs]
      exact pow_le_pow_left₀ (abs_nonneg _) (key n (Finset.mem_range.mp hn)) 2
    refine (Finset.sum_le_sum this).trans ?_
    simp
  have hmin := sqrt_weighted_add (n := p) (W := fun _ => 1) (fun _ _ => zero_le_one)
    (fun k => ((c' k - dctII N lg k : ℝ) : ℂ)) (fun k => ((dctII N lg k - dctII N y k : ℝ) : ℂ))
  simp only [← Complex.ofReal_add, Complex.norm_real, Real.norm_eq_abs, sq_abs, one_mul, sub_add_sub_cancel] at hmin
  exact hmin.trans (add_le_add hc' hsq)

/-- The exact energy of frame `i` in the band with weights `W`, for these arguments. -/
noncomputable def ownEnergy (a : Args) (coeff : ℝ) (W : ℕ → ℝ) (x : List ℝ) (l s i : ℕ) : ℝ :=
  weightedEnergy W (windowWeight a.win.winType l) (emphasised a.preEmph coeff x) l s a.nfft i

/-- Every band of every frame is loud enough, relative to its frame, for the bound of C148 to be at most `η`. -/
def Resolved (u v ω δ τ η : ℝ) (a : Args) (coeff : ℝ) (W : ℕ → ℕ → ℝ) (x : List ℝ) (l s : ℕ) : Prop :=
  ∀ i < (x.length - l) / s + 1, ∀ n < a.nfilts, 0 < ownEnergy a coeff (W n) x l s i ∧
    rootErrorBank u v ω δ τ (ownEnergy a coeff (W n) x l s i) (frameAmplitude a.preEmph coeff x l s i) a.nfft ≤
      η * √(ownEnergy a coeff (W n) x l s i)

/-- Rows that are a DCT of logarithms of energies, off by `lam`, computed with an error of at most `tau`, from the energies of any
float run with the bank `W'`: they differ from the rows of `m` by at most `tau + √N (lam + 2 log (1/(1-η)))`. -/
def CloseRows (m : XMat) (η : ℝ) (a : Args) (coeff : ℝ) (W' : ℕ → ℕ → ℝ) (x : List ℝ) (l s : ℕ) (fl : ℝ → ℝ)
    (fft : (ℕ → ℝ) → ℕ → ℂ) (abs : ℂ → ℝ) (wv : ℕ → ℝ) : Prop :=
  ∀ i < (x.length - l) / s + 1,
    ∀ (F : FlFrame fl (matOf a.nfilts (a.nfft / 2 + 1) W') wv fft abs a.preEmph coeff x l s a.nfft i) (lg c' : ℕ → ℝ) (lam tau : ℝ),
      (∀ n < a.nfilts, |lg n - logFloor (F.energy n)| ≤ lam) →
      √(∑ k ∈ Finset.range a.numCeps, (c' k - dctII a.nfilts lg k) ^ 2) ≤ tau →
      ∃ c : ℕ → ℝ, (∀ k < a.numCeps, (m.getD i []).getD k nan = fin (c k)) ∧
        √(∑ k ∈ Finset.range a.numCeps, (c' k - c k) ^ 2) ≤ tau + √a.nfilts * (lam + 2 * Real.log (1 / (1 - η)))

theorem frame_inside {x : List ℝ} {l s i : ℕ} (hs : 0 < s) (hl : l ≤ x.length) (hi : i < (x.length - l) / s + 1) :
    i * s + l ≤ x.length := by
  have h1 : i ≤ (x.length - l) / s := by omega
  have h2 := (Nat.le_div_iff_mul_le hs).mp h1
  omega

theorem close_rows {a : Args} {x : List ℝ} {l s : ℕ} (h : Auto a x l s) {coeff η : ℝ} {W W' : ℕ → ℕ → ℝ}
    (ar : Arithmetic u v ω δ fl fft abs wv a.win.winType l a.nfft) (hτ : 0 ≤ τ)
    (hW : CloseBank W W' τ a.nfilts (a.nfft / 2 + 1)) (h0 : 0 ≤ η) (h1 : η < 1) (hE : Resolved u v ω δ τ η a coeff W x l s)
    {m : XMat} (hm : ∀ i k, i < (x.length - l) / s + 1 → k < a.numCeps → (m.getD i []).getD k nan =
        fin (dctII a.nfilts (fun j => logFloor (weightedEnergy (W j)
          (windowWeight a.win.winType l) (emphasised a.preEmph coeff x) l s a.nfft i)) k)) :
    CloseRows m η a coeff W' x l s fl fft abs wv := by
  intro i hi F lg c' lam tau hlg hc'
  refine ⟨_, fun k hk => hm i k hi hk, ?_⟩
  refine log_row h.ceps h.filters h0 h1 (fun n hn => ?_) hlg hc'
  obtain ⟨e1, e2⟩ := hE i hi n hn
  exact ⟨e1, (C148_energy h.window ar h.nfft hτ hW (frame_inside h.pos h.long hi) F hn e1).trans e2⟩

/-- The band weights of the exact mel bank. -/
noncomputable def melWeight (w : ℕ → ℕ → ℝ) (c d low high : ℝ) (N nfft : ℕ) (j b : ℕ) : ℝ := w N j *
  tri (melPoint c d low high N j) (melPoint c d low high N (j + 1)) (melPoint c d low high N (j + 2)) (colFreq low high nfft b)

/-- The band weights of the exact linear bank. -/
noncomputable def linWeight (w : ℕ → ℕ → ℝ) (low high : ℝ) (N nfft : ℕ) (j b : ℕ) : ℝ := w N j *
  tri (linPoint low high N j) (linPoint low high N (j + 1)) (linPoint low high N (j + 2)) (colFreq low high nfft b)

/-- C148 for `mfcc` called without a bank: the computed bank, the computed spectrum, logarithms and DCT together. -/
theorem C148_mfcc {vl r e : ℝ} {lg10 p10 : ℝ → ℝ} (hL : LogPow vl lg10 p10) (hmono : Monotone fl) (hone : fl 1 = 1) (hu10 : u ≤ 1 / 10)
    (a : Args) (x : List ℝ) (l s : ℕ) (h : Auto a x l s) (high : ℝ) (w : ℕ → ℕ → ℝ)
    (hb : Band a high w) (c d : ℝ) (hm : MelConst a.approach c d) (hnf : 2 ≤ a.nfft)
    (hd : a.dctType = 2) (hu : a.useEnergy = false) (hl : a.lifter = none) (hn : a.normalize = none)
    (ar : Arithmetic u v ω δ fl fft abs wv a.win.winType l a.nfft)
    (hr : r = melStep d a.low high a.nfilts) (hbe : bankErr u vl d a.low high * Real.exp (2 * r) ≤ e) (he : 2 * e < r)
    {η : ℝ} (h0 : 0 ≤ η) (h1 : η < 1)
    (hE : Resolved u v ω δ (weightErr u e r) η a a.preEmphCoeff (melWeight w c d a.low high a.nfilts a.nfft) x l s) :
    ∃ m, mfcc a x = .ok m ∧ HasShape m ((x.length - l) / s + 1) a.numCeps ∧
      CloseRows m η a a.preEmphCoeff (fun j k => flWeight fl (flMelPoint fl lg10 p10 c d a.low high a.nfilts) a.low high
        (w a.nfilts j) a.nfft j k) x l s fl fft abs wv := by
  obtain ⟨m, h2, h3, h4⟩ := C108_mfcc a x l s h high w hb c d hm hd hu hl hn
  have hW : CloseBank (melWeight w c d a.low high a.nfilts a.nfft) (fun j k => flWeight fl (flMelPoint fl lg10 p10 c d a.low high
      a.nfilts) a.low high (w a.nfilts j) a.nfft j k) (weightErr u e r) a.nfilts (a.nfft / 2 + 1) := fun j hj k hk =>
    mel_entry ar.round hu10 hmono hone hL hb.scale hm hb.low0 hb.lt hnf hj hk hr hbe he
  have hτ : 0 ≤ weightErr u e r := (abs_nonneg _).trans (hW 0 h.filters 0 (by omega)).2.2
  exact ⟨m, h2, h3, close_rows h ar hτ hW h0 h1 hE h4⟩

/-- C148 for `lfcc` called without a bank. -/
theorem C148_lfcc (hmono : Monotone fl) (hone : fl 1 = 1) (hu10 : u ≤ 1 / 10)
    (a : Args) (x : List ℝ) (l s : ℕ) (h : Auto a x l s) (high : ℝ) (w : ℕ → ℕ → ℝ) (hb : Band a high w) (hnf : 2 ≤ a.nfft)
    (hd : a.dctType = 2) (hu : a.useEnergy = false) (hl : a.lifter = none) (hn : a.normalize = none)
    (ar : Arithmetic u v ω δ fl fft abs wv a.win.winType l a.nfft)
    (he : 2 * (((1 + u) ^ 4 - 1) * high) < (high - a.low) / (a.nfilts + 1)) {η : ℝ} (h0 : 0 ≤ η) (h1 : η < 1)
    (hE : Resolved u v ω δ (weightErr u (((1 + u) ^ 4 - 1) * high) ((high - a.low) / (a.nfilts + 1))) η a 0.97
      (linWeight w a.low high a.nfilts a.nfft) x l s) :
    ∃ m, lfcc a x = .ok m ∧ HasShape m ((x.length - l) / s + 1) a.numCeps ∧
      CloseRows m η a 0.97 (fun j k => |flWeight fl (flPoint fl a.low high a.nfilts) a.low high (w a.nfilts j) a.nfft j k|)
        x l s fl fft abs wv := by
  obtain ⟨m, h2, h3, h4⟩ := C108_lfcc a x l s h high w hb hd hu hl hn
  have hW : CloseBank (linWeight w a.low high a.nfilts a.nfft) (fun j k => |flWeight fl (flPoint fl a.low high a.nfilts) a.low high
      (w a.nfilts j) a.nfft j k|) (weightErr u (((1 + u) ^ 4 - 1) * high) ((high - a.low) / (a.nfilts + 1))) a.nfilts (a.nfft / 2 + 1) := by
    intro j hj k hk
    obtain ⟨b0, b1, b2⟩ := lin_entry ar.round hu10 hmono hone hb.scale hb.low0 hb.lt hnf hj hk he
    beta_reduce
    rw [abs_of_nonneg b0]
    exact ⟨b0, b1, b2⟩
  have hτ := (abs_nonneg _).trans (hW 0 h.filters 0 (by omega)).2.2
  exact ⟨m, h2, h3, close_rows h ar hτ hW h0 h1 hE h4⟩

/-- C148 for `imfcc` called without a bank (and with an upper frequency, as it needs). -/
theorem C148_imfcc {vl r e : ℝ} {lg10 p10 : ℝ → ℝ} (hL : LogPow vl lg10 p10) (hmono : Monotone fl) (hone : fl 1 = 1) (hu10 : u ≤ 1 / 10)
    (a : Args) (x : List ℝ) (l s : ℕ) (h : Auto a x l s) (high : ℝ) (hh : a.high = some high)
    (hlow : 0 ≤ a.low) (hlh : a.low < high) (hhf : high ≤ a.fs / 2) (scale' : String) (hsw : SwapScale a.scale scale')
    (w : ℕ → ℕ → ℝ) (hs : Scale scale' w) (c d : ℝ) (hm : MelConst a.approach c d) (hnf : 2 ≤ a.nfft)
    (hd : a.dctType = 2) (hu : a.useEnergy = false) (hl : a.lifter = none) (hn : a.normalize = none)
    (ar : Arithmetic u v ω δ fl fft abs wv a.win.winType l a.nfft)
    (hr : r = melStep d a.low high a.nfilts) (hbe : bankErr u vl d a.low high * Real.exp (2 * r) ≤ e) (he : 2 * e < r)
    {η : ℝ} (h0 : 0 ≤ η) (h1 : η < 1)
    (hE : Resolved u v ω δ (weightErr u e r) η a a.preEmphCoeff
      (fun j k => melWeight w c d a.low high a.nfilts a.nfft j (a.nfft / 2 - k)) x l s) :
    ∃ m, imfcc a x = .ok m ∧ HasShape m ((x.length - l) / s + 1) a.numCeps ∧
      CloseRows m η a a.preEmphCoeff (fun j k => |flWeight fl (flMelPoint fl lg10 p10 c d a.low high a.nfilts) a.low high
        (w a.nfilts j) a.nfft j (a.nfft / 2 - k)|) x l s fl fft abs wv := by
  obtain ⟨m, h2, h3, h4⟩ := C108_imfcc a x l s h high hh hlow hlh hhf scale' hsw w hs c d hm hnf hd hu hl hn
  have hW : CloseBank (fun j k => melWeight w c d a.low high a.nfilts a.nfft j (a.nfft / 2 - k)) (fun j k =>
      |flWeight fl (flMelPoint fl lg10 p10 c d a.low high a.nfilts) a.low high (w a.nfilts j) a.nfft j (a.nfft / 2 - k)|)
      (weightErr u e r) a.nfilts (a.nfft / 2 + 1) := by
    intro j hj k hk
    obtain ⟨b0, b1, b2⟩ := mel_entry ar.round hu10 hmono hone hL hs hm hlow hlh hnf hj (k := a.nfft / 2 - k) (by omega) hr hbe he
    beta_reduce
    rw [abs_of_nonneg b0]
    exact ⟨b0, b1, b2⟩
  have hτ : 0 ≤ weightErr u e r := (abs_nonneg _).trans (hW 0 h.filters 0 (by omega)).2.2
  refine ⟨m, h2, h3, close_rows h ar hτ hW h0 h1 hE ?_⟩
  intro i k hi hk
  rw [h4 i k hi hk]
  refine congrArg fin (congrArg (fun t => dctII a.nfilts t k) (funext fun j => congrArg logFloor ?_))
  unfold weightedEnergy
  refine Finset.sum_congr rfl fun b hbm => ?_
  have hb' : b ≤ a.nfft / 2 := by have := Finset.mem_range.mp hbm; omega
  have hMp : (0 : ℝ) < (a.nfft / 2 : ℕ) := by exact_mod_cast (by omega : 0 < a.nfft / 2)
  have e1 : a.low + high - colFreq a.low high a.nfft b = colFreq a.low high a.nfft (a.nfft / 2 - b) := by
    unfold colFreq
    rw [Nat.cast_sub hb']
    field_simp
    ring
  beta_reduce
  rw [e1, melWeight]

/-- C148 for `mel_spectrogram` without a bank. -/
theorem C148_mel_spectrogram {vl r e : ℝ} {lg10 p10 : ℝ → ℝ} (hL : LogPow vl lg10 p10) (hmono : Monotone fl) (hone : fl 1 = 1)
    (hu10 : u ≤ 1 / 10) (a : Args) (x : List ℝ) (l s : ℕ) (h : Auto a x l s) (high : ℝ) (w : ℕ → ℕ → ℝ)
    (hb : Band a high w) (c d : ℝ) (hm : MelConst a.approach c d) (hnf : 2 ≤ a.nfft)
    (ar : Arithmetic u v ω δ fl fft abs wv a.win.winType l a.nfft)
    (hr : r = melStep d a.low high a.nfilts) (hbe : bankErr u vl d a.low high * Real.exp (2 * r) ≤ e) (he : 2 * e < r) :
    ∃ out, melSpectrogram a x = .ok out ∧ ∀ i < (x.length - l) / s + 1, ∀ n < a.nfilts, ∃ E, 0 ≤ E ∧
      (out.1.getD i []).getD n (fin 0) = fin E ∧ (0 < E →
        ∀ F : FlFrame fl (matOf a.nfilts (a.nfft / 2 + 1) fun j k => flWeight fl (flMelPoint fl lg10 p10 c d a.low high a.nfilts)
          a.low high (w a.nfilts j) a.nfft j k) wv fft abs a.preEmph a.preEmphCoeff x l s a.nfft i,
        |√(F.energy n) - √E| ≤ rootErrorBank u v ω δ (weightErr u e r) E (frameAmplitude a.preEmph a.preEmphCoeff x l s i) a.nfft) := by
  obtain ⟨out, h2, h3, -⟩ := C113_mel a x l s h high w hb c d hm
  have hW : CloseBank (melWeight w c d a.low high a.nfilts a.nfft) (fun j k => flWeight fl (flMelPoint fl lg10 p10 c d a.low high
      a.nfilts) a.low high (w a.nfilts j) a.nfft j k) (weightErr u e r) a.nfilts (a.nfft / 2 + 1) := fun j hj k hk =>
    mel_entry ar.round hu10 hmono hone hL hb.scale hm hb.low0 hb.lt hnf hj hk hr hbe he
  have hτ : 0 ≤ weightErr u e r := (abs_nonneg _).trans (hW 0 h.filters 0 (by omega)).2.2
  refine ⟨out, h2, fun i hi n hn => ⟨ownEnergy a a.preEmphCoeff (melWeight w c d a.low high a.nfilts a.nfft n) x l s i, ?_, ?_, ?_⟩⟩
  · unfold ownEnergy weightedEnergy
    exact Finset.sum_nonneg fun k _ => mul_nonneg (by unfold framePower; positivity)
      (mul_nonneg (scale_nonneg hb.scale hn) (tri_nonneg ..))
  · exact h3.2.2 i n hi hn
  · exact fun hE F => C148_energy h.window ar h.nfft hτ hW (frame_inside h.pos h.long hi) F hn hE

/-- C148 for `linear_spectrogram` without a bank. -/
theorem C148_linear_spectrogram (hmono : Monotone fl) (hone : fl 1 = 1)
    (hu10 : u ≤ 1 / 10) (a : Args) (x : List ℝ) (l s : ℕ) (h : Auto a x l s) (high : ℝ) (w : ℕ → ℕ → ℝ)
    (hb : Band a high w) (hnf : 2 ≤ a.nfft) (ar : Arithmetic u v ω δ fl fft abs wv a.win.winType l a.nfft)
    (he : 2 * (((1 + u) ^ 4 - 1) * high) < (high - a.low) / (a.nfilts + 1)) :
    ∃ out, linearSpectrogram a x = .ok out ∧ ∀ i < (x.length - l) / s + 1, ∀ n < a.nfilts, ∃ E, 0 ≤ E ∧
      (out.1.getD i []).getD n (fin 0) = fin E ∧ (0 < E →
        ∀ F : FlFrame fl (matOf a.nfilts (a.nfft / 2 + 1) fun j k => |flWeight fl (flPoint fl a.low high a.nfilts)
          a.low high (w a.nfilts j) a.nfft j k|) wv fft abs a.preEmph 0.97 x l s a.nfft i,
        |√(F.energy n) - √E| ≤ rootErrorBank u v ω δ (weightErr u (((1 + u) ^ 4 - 1) * high) ((high - a.low) / (a.nfilts + 1))) E
          (frameAmplitude a.preEmph 0.97 x l s i) a.nfft) := by
  obtain ⟨out, h2, h3, -⟩ := C113_linear a x l s h high w hb
  have hW : CloseBank (linWeight w a.low high a.nfilts a.nfft) (fun j k => |flWeight fl (flPoint fl a.low high a.nfilts) a.low high
      (w a.nfilts j) a.nfft j k|) (weightErr u (((1 + u) ^ 4 - 1) * high) ((high - a.low) / (a.nfilts + 1))) a.nfilts (a.nfft / 2 + 1) := by
    intro j hj k hk
    obtain ⟨b0, b1, b2⟩ := lin_entry ar.round hu10 hmono hone hb.scale hb.low0 hb.lt hnf hj hk he
    beta_reduce
    rw [abs_of_nonneg b0]
    exact ⟨b0, b1, b2⟩
  have hτ := (abs_nonneg _).trans (hW 0 h.filters 0 (by omega)).2.2
  refine ⟨out, h2, fun i hi n hn => ⟨ownEnergy a 0.97 (linWeight w a.low high a.nfilts a.nfft n) x l s i, ?_, ?_, ?_⟩⟩
  · unfold ownEnergy weightedEnergy
    exact Finset.sum_nonneg fun k _ => mul_nonneg (by unfold framePower; positivity)
      (mul_nonneg (scale_nonneg hb.scale hn) (tri_nonneg ..))
  · exact h3.2.2 i n hi hn
  · exact fun hE F => C148_energy h.window ar h.nfft hτ hW (frame_inside h.pos h.long hi) F hn hE

/-- The bound of C148 in double precision with the default bank, for a band that carries at least the `κ²`-th part of the energy
of its frame. -/
theorem rootErrorBank_double {τ E A κ : ℝ} (hτ0 : 0 ≤ τ) (hτ : τ ≤ 1.1 / 10 ^ 12) (hE : 0 < E) (hκ : 1 ≤ κ) (hA : 0 ≤ A)
    (hEA : A ≤ κ * √E) :
    rootErrorBank (1 / 2 ^ 53) (2 / 2 ^ 53) (1 / 10 ^ 15) (1 / 10 ^ 14) τ E A 512 ≤ 1.3 / 10 ^ 12 * κ ^ 2 * √E := by
  have hs := Real.sqrt_pos.mpr hE
  unfold rootErrorBank rootError
  rw [Real.sqrt_one, one_mul]
  have h1 : ((1 : ℝ) + 1 / 2 ^ 53) ^ (512 / 2 + 4) * (1 + 2 / 2 ^ 53) ^ 2 ≤ 1 + 1 / 10 ^ 13 := by
    have h130 : ((1 : ℝ) + 1 / 2 ^ 53) ^ 130 ≤ 1 + 2 / 10 ^ 14 := by norm_num
    have h260 : ((1 : ℝ) + 1 / 2 ^ 53) ^ (512 / 2 + 4) ≤ (1 + 2 / 10 ^ 14) ^ 2 := by
      rw [show 512 / 2 + 4 = 130 * 2 by norm_num, pow_mul]
      exact pow_le_pow_left₀ (by positivity) h130 2
    refine (mul_le_mul_of_nonneg_right h260 (by positivity)).trans (by norm_num)
  have hG0 : 0 ≤ ((1 : ℝ) + 1 / 2 ^ 53) ^ (512 / 2 + 4) * (1 + 2 / 2 ^ 53) ^ 2 := by positivity
  have h2 : (1 / 10 ^ 14 * ((1 + 1 / 10 ^ 15) * (1 + 1 / 2 ^ 53) ^ 3) +
      ((1 + 1 / 10 ^ 15) * (1 + 1 / 2 ^ 53) ^ 3 - 1) : ℝ) ≤ 2 / 10 ^ 14 := by norm_num
  have h0 : (0 : ℝ) ≤ 1 / 10 ^ 14 * ((1 + 1 / 10 ^ 15) * (1 + 1 / 2 ^ 53) ^ 3) +
      ((1 + 1 / 10 ^ 15) * (1 + 1 / 2 ^ 53) ^ 3 - 1) := by norm_num
  generalize ((1 : ℝ) + 1 / 2 ^ 53) ^ (512 / 2 + 4) * (1 + 2 / 2 ^ 53) ^ 2 = G at *
  generalize (1 / 10 ^ 14 * ((1 + 1 / 10 ^ 15) * (1 + 1 / 2 ^ 53) ^ 3) +
      ((1 + 1 / 10 ^ 15) * (1 + 1 / 2 ^ 53) ^ 3 - 1) : ℝ) = q at *
  have hκ2 : κ ≤ κ ^ 2 := by nlinarith
  have hκ1 : 1 ≤ κ ^ 2 := by nlinarith
  have h3 : q * A ≤ 2 / 10 ^ 14 * (κ * √E) := mul_le_mul h2 hEA hA (by norm_num)
  have h4 : G * (q * A) ≤ (1 + 1 / 10 ^ 13) * (2 / 10 ^ 14 * (κ * √E)) :=
    mul_le_mul h1 h3 (mul_nonneg h0 hA) (by norm_num)
  have h5 : (G - 1) * √E ≤ 1 / 10 ^ 13 * √E := mul_le_mul_of_nonneg_right (by linarith) hs.le
  have h6 : τ * A ^ 2 / √E ≤ 1.1 / 10 ^ 12 * (κ ^ 2 * √E) := by
    rw [div_le_iff₀ hs]
    calc τ * A ^ 2 ≤ 1.1 / 10 ^ 12 * (κ * √E) ^ 2 := by gcongr
      _ = _ := by ring
  have h7 : G * (τ * A ^ 2 / √E) ≤ (1 + 1 / 10 ^ 13) * (1.1 / 10 ^ 12 * (κ ^ 2 * √E)) :=
    mul_le_mul h1 h6 (by positivity) (by norm_num)
  have h8 : κ * √E ≤ κ ^ 2 * √E := mul_le_mul_of_nonneg_right hκ2 hs.le
  have h9 : √E ≤ κ ^ 2 * √E := le_mul_of_one_le_left hs.le hκ1
  have h10 : (1 + 1 / 10 ^ 13) * (2 / 10 ^ 14 * (κ * √E)) ≤ (1 + 1 / 10 ^ 13) * (2 / 10 ^ 14 * (κ ^ 2 * √E)) := by gcongr
  have h11 : (1 / 10 ^ 13 : ℝ) * √E ≤ 1 / 10 ^ 13 * (κ ^ 2 * √E) := by gcongr
  have h12 : 0 ≤ κ ^ 2 * √E := by positivity
  rw [mul_assoc]
  generalize κ ^ 2 * √E = z at *
  norm_num at *
  linarith

/-- C148 in double precision for the default bank of `mfcc` (24 filters, 512 points, 16 kHz, 0 to 8 kHz): if every band carries at
least the `κ²`-th part of the energy of its frame, then the log energies are accurate to `3·10⁻¹²·κ²`. -/
theorem C148_default {lg10 p10 : ℝ → ℝ} (hL : LogPow (4 / 2 ^ 53) lg10 p10) (a : Args) (x : List ℝ) (l s : ℕ) (h : Auto a x l s)
    (w : ℕ → ℕ → ℝ) (hs : Scale a.scale w) (ha : a.approach = "Oshaghnessy") (hN : a.nfilts = 24) (hK : a.nfft = 512)
    (hfs : a.fs = 16000) (hlow : a.low = 0) (hhigh : a.high = none)
    (hd : a.dctType = 2) (hu : a.useEnergy = false) (hl : a.lifter = none) (hn : a.normalize = none)
    (ar : Arithmetic (1 / 2 ^ 53) (2 / 2 ^ 53) (1 / 10 ^ 15) (1 / 10 ^ 14) fl64 fft abs wv a.win.winType l a.nfft)
    {κ : ℝ} (h0 : 1 ≤ κ) (h1 : κ ≤ 10 ^ 5)
    (hE : ∀ i < (x.length - l) / s + 1, ∀ n < 24, 0 < ownEnergy a a.preEmphCoeff (melWeight w 2595 700 0 8000 24 512 n) x l s i ∧
      frameAmplitude a.preEmph a.preEmphCoeff x l s i ≤ κ * √(ownEnergy a a.preEmphCoeff (melWeight w 2595 700 0 8000 24 512 n) x l s i)) :
    ∃ m, mfcc a x = .ok m ∧ HasShape m ((x.length - l) / s + 1) a.numCeps ∧
      ∀ i < (x.length - l) / s + 1, ∀ (F : FlFrame fl64 (matOf 24 257 fun j k => flWeight fl64
        (flMelPoint fl64 lg10 p10 2595 700 0 8000 24) 0 8000 (w 24 j) 512 j k) wv fft abs a.preEmph a.preEmphCoeff x l s 512 i)
        (lg c' : ℕ → ℝ) (lam tau : ℝ), (∀ n < 24, |lg n - logFloor (F.energy n)| ≤ lam) →
        √(∑ k ∈ Finset.range a.numCeps, (c' k - dctII 24 lg k) ^ 2) ≤ tau →
        ∃ c : ℕ → ℝ, (∀ k < a.numCeps, (m.getD i []).getD k nan = fin (c k)) ∧
          √(∑ k ∈ Finset.range a.numCeps, (c' k - c k) ^ 2) ≤ tau + √24 * (lam + 3 / 10 ^ 12 * κ ^ 2) := by
  obtain ⟨hR, hmono, -, -, -, hint⟩ := C130_binary64
  have e1 : fl64 1 = 1 := by simpa using hint 1 (by norm_num)
  obtain ⟨r, hr⟩ : ∃ r, r = melStep 700 0 8000 24 := ⟨_, rfl⟩
  obtain ⟨r1, r2⟩ := melStep_default
  rw [← hr] at r1 r2
  have hX : Real.exp (2 * r) ≤ 1 / (1 - 0.24) :=
    (Real.exp_le_exp.mpr (by linarith)).trans (exp_le_inv (by norm_num))
  have hX0 := Real.exp_pos (2 * r)
  have hB := bankErr_double (b := 700) (low := 0) (high := 8000) (by norm_num) le_rfl (by norm_num) (by norm_num) (by norm_num)
  have hbe := mul_le_mul hB hX hX0.le (by norm_num)
  obtain ⟨e, he⟩ : ∃ e : ℝ, e = 1.9 / 10 ^ 14 * (1 / (1 - 0.24)) := ⟨_, rfl⟩
  rw [← he] at hbe
  have he2 : 2 * e < r := by rw [he]; norm_num; linarith
  have hb : Band a 8000 w := ⟨hs, by rw [hhigh, hfs]; convert EffHigh.none (fs := 16000) using 1; norm_num, by rw [hlow],
    by rw [hlow]; norm_num, by rw [hfs]; norm_num⟩
  have hτ : weightErr (1 / 2 ^ 53) e r ≤ 1.1 / 10 ^ 12 := by
    refine weightErr_double.trans ?_
    have : 4 * e / r ≤ 4 * e / 0.1 := by
      have : 0 ≤ e := by rw [he]; norm_num
      gcongr
    refine (add_le_add_left this _).trans ?_
    rw [he]; norm_num
  have hτ0 : 0 ≤ weightErr (1 / 2 ^ 53) e r := by
    unfold weightErr
    have : 0 ≤ 4 * e / r := div_nonneg (by rw [he]; norm_num) (by linarith)
    have h3 : (0 : ℝ) ≤ ((1 + 1 / 2 ^ 53) ^ 2 / (1 - 1 / 2 ^ 53) - 1) + ((1 + 1 / 2 ^ 53) ^ 2 - 1) := by norm_num
    linarith
  obtain ⟨η, hη⟩ : ∃ η : ℝ, η = 1.3 / 10 ^ 12 * κ ^ 2 := ⟨_, rfl⟩
  have hη0 : 0 ≤ η := by rw [hη]; positivity
  have hη1 : η ≤ 0.1 := by
    have : κ ^ 2 ≤ (10 ^ 5) ^ 2 := pow_le_pow_left₀ (by linarith) h1 2
    rw [hη]
    nlinarith
  have hlog : 2 * Real.log (1 / (1 - η)) ≤ 3 / 10 ^ 12 * κ ^ 2 := by
    have k1 : Real.log (1 / (1 - η)) ≤ 1 / (1 - η) - 1 := Real.log_le_sub_one_of_pos (by apply div_pos <;> linarith)
    have k2 : 1 / (1 - η) - 1 = η / (1 - η) := by
      have : 1 - η ≠ 0 := by linarith
      field_simp
      ring
    have k3 : η / (1 - η) ≤ η / 0.9 := by gcongr; linarith
    have k4 : η / 0.9 ≤ 1.5 / 10 ^ 12 * κ ^ 2 := by rw [hη]; have := sq_nonneg κ; norm_num; linarith
    linarith
  obtain ⟨m, h2, h3, h4⟩ := C148_mfcc (r := r) (e := e) (η := η) hL hmono e1 (by norm_num) a x l s h 8000 w hb 2595 700
    (by rw [ha]; exact MelConst.oshaghnessy) (by rw [hK]; norm_num) hd hu hl hn ar (by rw [hr, hlow, hN]) (by rw [hlow]; exact hbe) he2
    hη0 (by linarith) (by
      intro i hi n hn'
      rw [hN] at hn'
      obtain ⟨k1, k2⟩ := hE i hi n hn'
      rw [hlow, hN, hK]
      refine ⟨k1, ?_⟩
      rw [hη]
      exact rootErrorBank_double hτ0 hτ k1 h0 (Real.sqrt_nonneg _) k2)
  refine ⟨m, h2, h3, fun i hi F lg c' lam tau hlg hc' => ?_⟩
  unfold CloseRows at h4
  rw [hN, hK, hlow] at h4
  obtain ⟨c, hc, hc2⟩ := h4 i hi F lg c' lam tau hlg hc'
  refine ⟨c, hc, hc2.trans ?_⟩
  push_cast
  gcongr

/-- Every filter of the default bank has a column at which its weight is at least `0.7`. -/
theorem default_filter_hit {n : ℕ} (hn : n < 24) : ∃ k < 257, 0.7 ≤ melWeight (fun _ _ => 1) 2595 700 0 8000 24 512 n k := by
  have hm := MelConst.oshaghnessy
  obtain ⟨hbot, htop, hst⟩ := C26_mel_edges hm le_rfl (show (0 : ℝ) < 8000 by norm_num) 24
  have r1 := melStep_default.1
  have gap : ∀ i : ℕ, 70 ≤ melPoint 2595 700 0 8000 24 (i + 1) - melPoint 2595 700 0 8000 24 i := by
    intro i
    have g := mel_geometric (a := 2595) (b := 700) (low := 0) (high := 8000) (by norm_num) (by norm_num) le_rfl (by norm_num) 24 i
    change _ = _ * Real.exp (melStep 700 0 8000 24) at g
    have h0 : 0 ≤ melPoint 2595 700 0 8000 24 i := hbot.ge.trans (hst.monotone (Nat.zero_le i))
    have h1 := Real.add_one_le_exp (melStep 700 0 8000 24)
    nlinarith
  have g0 := gap n
  have g1 := gap (n + 1)
  have hc8 : melPoint 2595 700 0 8000 24 (n + 1) ≤ 8000 := (hst.monotone (show n + 1 ≤ 24 + 1 by omega)).trans htop.le
  have hc0 : 0 ≤ melPoint 2595 700 0 8000 24 (n + 1) := hbot.ge.trans (hst.monotone (Nat.zero_le _))
  unfold melWeight
  generalize melPoint 2595 700 0 8000 24 n = p0 at *
  rw [show n + 1 + 1 = n + 2 by ring] at g1
  generalize melPoint 2595 700 0 8000 24 (n + 1) = c at *
  generalize melPoint 2595 700 0 8000 24 (n + 2) = p2 at *
  obtain ⟨k, hk⟩ : ∃ k : ℕ, k = ⌊c / 31.25 + 1 / 2⌋₊ := ⟨_, rfl⟩
  have hpos : 0 ≤ c / 31.25 + 1 / 2 := by positivity
  have k1 : (k : ℝ) ≤ c / 31.25 + 1 / 2 := by rw [hk]; exact Nat.floor_le hpos
  have k2 : c / 31.25 + 1 / 2 < k + 1 := by rw [hk]; exact Nat.lt_floor_add_one _
  have e1 : c / 31.25 = c * 0.032 := by ring
  rw [e1] at k1 k2
  have hk256 : k < 257 := by
    have : (k : ℝ) < 257 := by linarith
    exact_mod_cast this
  refine ⟨k, hk256, ?_⟩
  have ef : colFreq 0 8000 512 k = 31.25 * k := by unfold colFreq; norm_num; ring
  rw [one_mul, ef, tri]
  refine le_max_of_le_right (le_min ?_ ?_)
  · rw [le_div_iff₀ (by linarith)]; linarith
  · rw [le_div_iff₀ (by linarith)]; linarith

/-- `N` samples of silence and a click. -/
def click (N : ℕ) : List ℝ := List.replicate N 0 ++ [1]

theorem click_length (N : ℕ) : (click N).length = N + 1 := by simp [click]

theorem click_getD (N t : ℕ) (ht : t ≤ N) : (click N).getD t 0 = if t = N then 1 else 0 := by
  unfold click
  rcases lt_or_ge t N with h | h
  · rw [List.getD_append _ _ _ _ (by simpa using h), if_neg (by omega)]
    simp [List.getD_eq_getElem?_getD]
  · obtain rfl : t = N := by omega
    rw [List.getD_append_right _ _ _ _ (by simp)]
    simp

/-- One frame of silence with a click at its end, all default arguments: the hypotheses of `C148_default` hold with `κ = 400`, so
in double precision every log energy of this frame is accurate to `5·10⁻⁷`. -/
theorem click_resolved (n : ℕ) (hn : n < 24) :
    0 < ownEnergy {} 0.97 (melWeight (fun _ _ => 1) 2595 700 0 8000 24 512 n) (click 399) 400 160 0 ∧
      frameAmplitude true 0.97 (click 399) 400 160 0 ≤
        400 * √(ownEnergy {} 0.97 (melWeight (fun _ _ => 1) 2595 700 0 8000 24 512 n) (click 399) 400 160 0) := by
  have hx : ∀ t < 400, (click 399).getD t 0 = if t = 399 then 1 else 0 := fun t ht => click_getD 399 t (by omega)
  have hy : ∀ t < 400, emphasised true 0.97 (click 399) t = if t = 399 then 1 else 0 := by
    intro t ht
    unfold emphasised
    rw [if_pos rfl, hx t ht, hx (t - 1) (by omega), if_neg (show ¬ t - 1 = 399 by omega)]
    simp
  have hA : frameAmplitude true 0.97 (click 399) 400 160 0 = 1 := by
    unfold frameAmplitude
    rw [Real.sqrt_eq_one, Finset.sum_eq_single_of_mem 399 (by simp)]
    · unfold amplitude
      rw [zero_mul, zero_add, hx 399 (by norm_num), hx 398 (by norm_num)]
      norm_num
    · intro j hj hne
      have hj' := Finset.mem_range.mp hj
      unfold amplitude
      rw [zero_mul, zero_add, hx j hj', hx (j - 1) (by omega), if_neg hne, if_neg (show ¬ j - 1 = 399 by omega)]
      simp
  have hwin : windowWeight "hamming" 400 399 = 0.08 := by
    unfold windowWeight
    rw [if_neg (by norm_num), if_neg (by decide), if_pos rfl]
    have : 2 * Real.pi * ((399 : ℕ) : ℝ) / (((400 : ℕ) : ℝ) - 1) = 2 * Real.pi := by norm_num
    rw [this, Real.cos_two_pi]
    norm_num
  have hP : ∀ k, framePower (windowWeight "hamming" 400) (emphasised true 0.97 (click 399)) 400 160 512 0 k =
      0.0064 / 512 := by
    intro k
    unfold framePower frameBin
    rw [Finset.sum_eq_single_of_mem 399 (by simp)]
    · rw [zero_mul, zero_add, hy 399 (by norm_num), hwin, if_pos rfl, norm_mul]
      have e : -(2 * (Real.pi : ℂ) * Complex.I * (((399 : ℕ) : ℂ) * (k : ℂ)) / ((512 : ℕ) : ℂ)) =
          ((-(2 * Real.pi * (399 * k) / 512) : ℝ) : ℂ) * Complex.I := by push_cast; ring
      rw [e, Complex.norm_exp_ofReal_mul_I, Complex.norm_real]
      norm_num
    · intro j hj hne
      have hj' := Finset.mem_range.mp hj
      rw [zero_mul, zero_add, hy j (by omega), if_neg hne]
      simp
  have hE : 0.0064 / 512 * 0.7 ≤ ownEnergy {} 0.97 (melWeight (fun _ _ => 1) 2595 700 0 8000 24 512 n)
      (click 399) 400 160 0 := by
    obtain ⟨k, hk, hw⟩ := default_filter_hit hn
    unfold ownEnergy weightedEnergy
    refine le_trans ?_ (Finset.single_le_sum (f := fun k => framePower (windowWeight ({} : Args).win.winType 400)
      (emphasised ({} : Args).preEmph 0.97 (click 399)) 400 160 ({} : Args).nfft 0 k *
        melWeight (fun _ _ => 1) 2595 700 0 8000 24 512 n k) (fun k _ => mul_nonneg (by unfold framePower; positivity) ?_)
        (Finset.mem_range.mpr (show k < ({} : Args).nfft / 2 + 1 by simpa using hk)))
    · have h1 := hP k
      have e : framePower (windowWeight ({} : Args).win.winType 400)
          (emphasised ({} : Args).preEmph 0.97 (click 399)) 400 160 ({} : Args).nfft 0 k = 0.0064 / 512 := by
        have ew : ({} : Args).win.winType = "hamming" := by simp [Args.win]
        rw [ew]
        exact h1
      beta_reduce
      rw [e]
      gcongr
    · exact mul_nonneg zero_le_one (tri_nonneg ..)
  refine ⟨lt_of_lt_of_le (by norm_num) hE, ?_⟩
  rw [hA]
  have h1 : √(0.0025 ^ 2) ≤ √(ownEnergy {} 0.97 (melWeight (fun _ _ => 1) 2595 700 0 8000 24 512 n)
      (click 399) 400 160 0) := Real.sqrt_le_sqrt (le_trans (by norm_num) hE)
  rw [Real.sqrt_sq (by norm_num)] at h1
  linarith

/-- Non-vacuity of `C148_default`: the click, any accurate FFT, absolute value and window table. -/
example {lg10 p10 : ℝ → ℝ} (hL : LogPow (4 / 2 ^ 53) lg10 p10)
    (ar : Arithmetic (1 / 2 ^ 53) (2 / 2 ^ 53) (1 / 10 ^ 15) (1 / 10 ^ 14) fl64 fft abs wv "hamming" 400 512) :
    ∃ m, mfcc {} (click 399) = .ok m ∧ HasShape m 1 13 := by
  obtain ⟨m, h1, h2, -⟩ := C148_default (κ := 400) hL {} (click 399) 400 160 (default_auto _ (by rw [click_length])) _ Scale.constant
    rfl rfl rfl rfl rfl rfl rfl rfl rfl rfl ar (by norm_num) (by norm_num) (by
      intro i hi n hn
      obtain rfl : i = 0 := by rw [click_length] at hi; omega
      exact click_resolved n hn)
  exact ⟨m, h1, by rw [click_length] at h2; exact h2⟩

end

end Props
end Spafe
