import Verif.Spec.Meaning

/-!
The stages of PNCC as functions of time, channel by channel: what each stage of `spafe/features/pncc.py` computes for
real input, written as closed formulas and scalar recursions (no arrays). The constants are those of the paper (Kim & Stern),
with the four deviations that C54, C56 and C157 record: the envelope starts from 0 (from `0.9 q 0` for one frame only), the
excitation switch lacks the maximum with the floor, the weight average leaves out channel 0, and it divides by one more than the
number of channels.
-/

namespace Spafe
namespace Spec

/-- Average power over the five frames around frame `m` of `T` frames (missing frames count as 0). -/
noncomputable def mediumTime (T : ℕ) (p : ℕ → ℝ) (m : ℕ) : ℝ :=
  (∑ i ∈ Finset.Ico (m - 2) (min T (m + 3)), p i) / 5

/-- One step of the asymmetric low-pass filter: slow upwards, fast downwards. -/
noncomputable def follow (e x : ℝ) : ℝ := if e ≤ x then 0.999 * e + 0.001 * x else 0.5 * e + 0.5 * x

/-- The lower envelope of `q`. -/
noncomputable def envelope (T : ℕ) (q : ℕ → ℝ) : ℕ → ℝ
  | 0 => follow (if T = 1 then 0.9 * q 0 else 0) (q 0)
  | m + 1 => follow (envelope T q m) (q (m + 1))

/-- What exceeds the lower envelope, rectified at `thr`. -/
noncomputable def excess (T : ℕ) (thr : ℝ) (q : ℕ → ℝ) (m : ℕ) : ℝ :=
  if q m - envelope T q m < thr then 0 else q m - envelope T q m

/-- Peak with decay. -/
noncomputable def decayingPeak (q : ℕ → ℝ) : ℕ → ℝ
  | 0 => q 0
  | m + 1 => max (0.85 * decayingPeak q m) (q (m + 1))

/-- Temporal masking. -/
noncomputable def masked (q : ℕ → ℝ) : ℕ → ℝ
  | 0 => q 0
  | m + 1 => if 0.85 * decayingPeak q m ≤ q (m + 1) then q (m + 1) else 0.2 * decayingPeak q m

/-- Noise suppression: masking while the power is at least twice its envelope, otherwise the floor. -/
noncomputable def suppressed (T : ℕ) (thr : ℝ) (q : ℕ → ℝ) (m : ℕ) : ℝ :=
  if 2 * envelope T q m ≤ q m then masked (excess T thr q) m else envelope T (excess T thr q) m

/-- The channels over which the weight of channel `l` (of `L`) is averaged. -/
def weightChannels (L l : ℕ) : Finset ℕ := Finset.Ico (max (l - 4) 1) (min (l + 4) L)

/-- The smoothed weight of channel `l`. -/
noncomputable def smoothWeight (L : ℕ) (ratio : ℕ → ℝ) (l : ℕ) : ℝ :=
  (∑ k ∈ weightChannels L l, ratio k) / ((weightChannels L l).card + 1)

/-- Power times smoothed weight. -/
noncomputable def weighted (T L : ℕ) (P : ℕ → ℕ → ℝ) (m l : ℕ) : ℝ :=
  P m l * smoothWeight L (fun k =>
    suppressed T 0 (mediumTime T fun i => P i k) m / mediumTime T (fun i => P i k) m) l

/-- The running mean power. -/
noncomputable def runningMean (L : ℕ) (t : ℕ → ℕ → ℝ) : ℕ → ℝ
  | 0 => 0.0001
  | m + 1 => 0.999 * runningMean L t m + 0.001 * ((∑ l ∈ Finset.range L, t (m + 1) l) / L)

/-- What the DCT is taken of: channel `l` of frame `m`. -/
noncomputable def pnccBand (T L : ℕ) (P : ℕ → ℕ → ℝ) (m l : ℕ) : ℝ :=
  (weighted T L P m l / runningMean L (weighted T L P) m) ^ (1 / 15 : ℝ)

/-- The band power of `pncc`: as `bandEnergy`, with `|X| ^ power / nfft`. -/
noncomputable def bandPower (power : ℝ) (fb : List (List ℝ)) (w y : ℕ → ℝ) (l s nfft i n : ℕ) : ℝ :=
  ∑ k ∈ Finset.range (nfft / 2 + 1), ‖frameBin w y l s nfft i k‖ ^ power / nfft * (fb.getD n []).getD k 0

end Spec
end Spafe
