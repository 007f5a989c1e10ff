import Verif.Spec.Spfeats

/-! The third and fourth standardised moments of a spectrum, the skewness and kurtosis of Peeters (2004), to which
`spfeats.py:62-125` refers: the central moment over the same power of the standard deviation. -/

namespace Spafe
namespace Spec

/-- The magnitude-weighted central moment of order `p` of the bin frequencies over the `p`-th power of their standard deviation. -/
noncomputable def standardMoment (p : ℕ) (fs : ℝ) (s : List ℂ) : ℝ :=
  (∑ k ∈ Finset.range s.length, mag s k * (binFreq fs s.length k - barycenter fs s 1) ^ p) / total s / spread fs s ^ p

end Spec
end Spafe
