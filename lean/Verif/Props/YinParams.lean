import Verif.Props.YinMeaning

/-! C176: what the parameters of `compute_yin` do to the reported pitches. -/

set_option linter.unusedSectionVars false

namespace Spafe
namespace Props
open Model XF Spec

/-- The lag that the window `x` gets: that of YIN, or none if the window is constant. -/
def Picks (x : List ℝ) (a T : ℕ) (thr : ℝ) (p : ℕ) : Prop :=
  (NotConst x ∧ PitchLag 0 (yinCmnd x) a T thr p) ∨ (¬ NotConst x ∧ p = 0)

theorem pitchLag_earlier {c : ℕ → ℝ} {a a' T : ℕ} {thr thr' : ℝ} {p p' : ℕ} (ha : 1 ≤ a') (haa : a' ≤ a)
    (ht : thr ≤ thr') (h : PitchLag 0 c a T thr p) (h' : PitchLag 0 c a' T thr' p') (hp : p ≠ 0) : p' ≠ 0 ∧ p' ≤ p := by
  simp only [PitchLag, add_zero, mul_zero] at h h'
  rcases h with ⟨h0, -⟩ | ⟨t0, h1, h2, h3, h4, -, h6, h7⟩
  · exact absurd h0 hp
  have hcp : c p < thr := by
    rcases h2.eq_or_lt with rfl | hlt
    · exact h4
    -- the values decrease from `t0` to `p`
    have hdec : ∀ d, t0 + d ≤ p → c (t0 + d) ≤ c t0 := by
      intro d
      induction d with
      | zero => intro _; exact le_refl _
      | succ d ih =>
        intro hd
        exact (h6 (t0 + d) (by omega) (by omega)).le.trans (ih (by omega))
    have := hdec (p - t0) (by omega)
    rw [show t0 + (p - t0) = p by omega] at this
    exact this.trans_lt h4
  rcases h' with ⟨-, hall⟩ | ⟨t0', g1, g2, g3, g4, g5, g6, g7⟩
  · have := hall p (by omega) h3
    linarith
  refine ⟨by omega, ?_⟩
  by_contra hlt
  have ht0 : t0' ≤ p := by
    by_contra hc
    have := g5 p (by omega) (by omega)
    linarith
  have e1 := g6 p ht0 (by omega)
  have e2 := h7 (by omega)
  linarith

theorem pitchLag_longer {c : ℕ → ℝ} {a T T' : ℕ} {thr : ℝ} {p p' : ℕ} (ha : 1 ≤ a) (hT : T ≤ T')
    (h : PitchLag 0 c a T thr p) (h' : PitchLag 0 c a T' thr p') (hp : p ≠ 0) : p ≤ p' ∧ (p + 1 < T → p' = p) := by
  simp only [PitchLag, add_zero, mul_zero] at h h'
  rcases h with ⟨h0, -⟩ | ⟨t0, h1, h2, h3, h4, h5, h6, h7⟩
  · exact absurd h0 hp
  rcases h' with ⟨-, hall⟩ | ⟨t0', g1, g2, g3, g4, g5, g6, g7⟩
  · have := hall t0 h1 (by omega)
    linarith
  have e : t0' = t0 := by
    rcases lt_trichotomy t0' t0 with hl | hl | hl
    · have := h5 t0' g1 hl; linarith
    · exact hl
    · have := g5 t0 h1 hl; linarith
  subst e
  have hle : p ≤ p' := by
    by_contra hlt
    have e1 := h6 p' g2 (by omega)
    have e2 := g7 (by omega)
    linarith
  refine ⟨hle, fun hpT => ?_⟩
  by_contra hne
  have e1 := g6 p h2 (by omega)
  have e2 := h7 hpT
  linarith

/-- Every window, constant or not. -/
theorem yin_picks (sig : List ℝ) {fs winLen winHop low high : ℝ} (thr : ℝ) (hv : YinValid fs winLen winHop low high)
    (hlow : low ≤ fs) (hhigh : high ≤ fs) (hT : ⌊fs / low⌋₊ ≤ ⌊winLen * fs⌋₊) :
    ∃ R, computeYin sig fs winLen winHop low high thr = .ok R ∧
      R.pitches.length = yinCount sig.length ⌊winLen * fs⌋₊ ⌊winHop * fs⌋₊ ∧
      R.argmins.length = yinCount sig.length ⌊winLen * fs⌋₊ ⌊winHop * fs⌋₊ ∧
      R.times = (List.range (yinCount sig.length ⌊winLen * fs⌋₊ ⌊winHop * fs⌋₊)).map
        (fun (i : ℕ) => ((i * ⌊winHop * fs⌋₊ : ℕ) : ℝ) / fs) ∧
      ∀ i < yinCount sig.length ⌊winLen * fs⌋₊ ⌊winHop * fs⌋₊,
        (∃ p, Picks (yinWindow sig ⌊winLen * fs⌋₊ ⌊winHop * fs⌋₊ i) ⌊fs / high⌋₊ ⌊fs / low⌋₊ thr p ∧
          R.pitches.getD i nan = fin (if p = 0 then 0 else fs / p)) ∧
        ∃ g : ℝ, R.argmins.getD i nan = fin g ∧
          ((NotConst (yinWindow sig ⌊winLen * fs⌋₊ ⌊winHop * fs⌋₊ i) ∧
            ∃ k, FirstMin (yinCmnd (yinWindow sig ⌊winLen * fs⌋₊ ⌊winHop * fs⌋₊ i)) ⌊fs / low⌋₊ k ∧
              g = if ⌊fs / high⌋₊ < k then fs / k else 0) ∨
           (¬ NotConst (yinWindow sig ⌊winLen * fs⌋₊ ⌊winHop * fs⌋₊ i) ∧ g = 0)) := by
  obtain ⟨R, hR, -, hmean⟩ := C124_meaning sig (thr := thr) hv hlow hT
  obtain ⟨l1, l2, l3, l4, hent⟩ := computeYin_entries sig hv R hR
  refine ⟨R, hR, l1, l3, ?_, ?_⟩
  · apply List.ext_getElem
    · simp [l4]
    · intro i h1 h2
      have := (hent i (by omega)).1
      rw [List.getD_eq_getElem _ _ h1] at this
      simpa using this
  intro i hi
  obtain ⟨-, r, hr, e1, e2, e3⟩ := hent i hi
  by_cases hc : NotConst (yinWindow sig ⌊winLen * fs⌋₊ ⌊winHop * fs⌋₊ i)
  · obtain ⟨p, k, hp, hk, m1, -, m3⟩ := hmean i (by omega) hc
    exact ⟨⟨p, Or.inl ⟨hc, hp⟩, m1⟩, _, m3, Or.inl ⟨hc, k, hk, rfl⟩⟩
  · have ha : 1 ≤ ⌊fs / high⌋₊ := by
      rw [Nat.one_le_floor_iff, le_div_iff₀ hv.2.2.1]; linarith
    have hlen : ⌊fs / low⌋₊ ≤ (yinWindow sig ⌊winLen * fs⌋₊ ⌊winHop * fs⌋₊ i).length := by
      have hin : i * ⌊winHop * fs⌋₊ + ⌊winLen * fs⌋₊ < sig.length := by
        have := (C80_shape sig hv R hR).2.2.2.1 i
        exact this.mp (by omega)
      simp only [yinWindow, List.length_take, List.length_drop]
      omega
    rw [yinFrame_const fs _ _ thr _ hc hlen ha] at hr
    obtain rfl := Except.ok.inj hr
    exact ⟨⟨0, Or.inr ⟨hc, rfl⟩, by rw [e1]; simp⟩, 0, e3, Or.inr ⟨hc, rfl⟩⟩

theorem yinPitch_le {fs : ℝ} (hfs : 0 < fs) {p p' : ℕ} (h : p ≠ 0 → p' ≠ 0 ∧ p' ≤ p) :
    (if p = 0 then 0 else fs / p) ≤ (if p' = 0 then (0 : ℝ) else fs / p') := by
  by_cases hp : p = 0
  · rw [if_pos hp]
    split_ifs
    · exact le_refl _
    · positivity
  · obtain ⟨h1, h2⟩ := h hp
    rw [if_neg hp, if_neg h1]
    have : (0 : ℝ) < p' := by exact_mod_cast Nat.pos_of_ne_zero h1
    exact div_le_div_of_nonneg_left hfs.le this (by exact_mod_cast h2)

/-- C176: raising `harmonic_threshold` never makes a voiced window unvoiced and never lowers its pitch. The times and the
third array do not change. -/
theorem C176_threshold (sig : List ℝ) {fs winLen winHop low high thr thr' : ℝ} (hv : YinValid fs winLen winHop low high)
    (hlow : low ≤ fs) (hhigh : high ≤ fs) (hT : ⌊fs / low⌋₊ ≤ ⌊winLen * fs⌋₊) (ht : thr ≤ thr') :
    ∃ R R', computeYin sig fs winLen winHop low high thr = .ok R ∧ computeYin sig fs winLen winHop low high thr' = .ok R' ∧
      R'.times = R.times ∧ R'.argmins = R.argmins ∧ R'.pitches.length = R.pitches.length ∧
      ∀ i < R.pitches.length, ∃ f f' : ℝ, R.pitches.getD i nan = fin f ∧ R'.pitches.getD i nan = fin f' ∧ 0 ≤ f ∧ f ≤ f' := by
  obtain ⟨R, hR, l1, l2, l3, hent⟩ := yin_picks sig thr hv hlow hhigh hT
  obtain ⟨R', hR', l1', l2', l3', hent'⟩ := yin_picks sig thr' hv hlow hhigh hT
  have ha : 1 ≤ ⌊fs / high⌋₊ := by
    rw [Nat.one_le_floor_iff, le_div_iff₀ hv.2.2.1]; linarith
  refine ⟨R, R', hR, hR', by rw [l3, l3'], ?_, by rw [l1, l1'], ?_⟩
  · apply List.ext_getElem (by rw [l2, l2'])
    intro i h1 h2
    obtain ⟨-, g, e1, k1⟩ := hent i (by omega)
    obtain ⟨-, g', e1', k1'⟩ := hent' i (by omega)
    rw [List.getD_eq_getElem _ _ h2] at e1
    rw [List.getD_eq_getElem _ _ h1] at e1'
    rw [e1, e1']
    congr 1
    rcases k1 with ⟨hc, k, hk, rfl⟩ | ⟨hc, rfl⟩
    · rcases k1' with ⟨-, k', hk', rfl⟩ | ⟨hc', -⟩
      · have : k' = k := by
          rcases lt_trichotomy k' k with hl | hl | hl
          · have := hk.2.2 k' hl; have := hk'.2.1 k hk.1; linarith
          · exact hl
          · have := hk'.2.2 k hl; have := hk.2.1 k' hk'.1; linarith
        rw [this]
      · exact absurd hc hc'
    · rcases k1' with ⟨hc', -⟩ | ⟨-, rfl⟩
      · exact absurd hc' hc
      · rfl
  · intro i hi
    obtain ⟨⟨p, hp, e⟩, -⟩ := hent i (by omega)
    obtain ⟨⟨p', hp', e'⟩, -⟩ := hent' i (by omega)
    refine ⟨_, _, e, e', ?_, yinPitch_le hv.1 fun hp0 => ?_⟩
    · have := hv.1
      split_ifs <;> positivity
    · rcases hp with ⟨hc, hp⟩ | ⟨-, h0⟩
      · rcases hp' with ⟨-, hp'⟩ | ⟨hc', -⟩
        · exact pitchLag_earlier ha le_rfl ht hp hp' hp0
        · exact absurd hc hc'
      · exact absurd h0 hp0

/-- C176: raising `high_freq` never makes a voiced window unvoiced and never lowers its pitch. -/
theorem C176_high_freq (sig : List ℝ) {fs winLen winHop low high high' thr : ℝ} (hv : YinValid fs winLen winHop low high)
    (hlow : low ≤ fs) (hh : high ≤ high') (hhigh : high' ≤ fs) (hT : ⌊fs / low⌋₊ ≤ ⌊winLen * fs⌋₊) :
    ∃ R R', computeYin sig fs winLen winHop low high thr = .ok R ∧ computeYin sig fs winLen winHop low high' thr = .ok R' ∧
      R'.times = R.times ∧ R'.pitches.length = R.pitches.length ∧
      ∀ i < R.pitches.length, ∃ f f' : ℝ, R.pitches.getD i nan = fin f ∧ R'.pitches.getD i nan = fin f' ∧ 0 ≤ f ∧ f ≤ f' := by
  have hv' : YinValid fs winLen winHop low high' := ⟨hv.1, hv.2.1, hv.2.2.1.trans_le hh, hv.2.2.2⟩
  obtain ⟨R, hR, l1, l2, l3, hent⟩ := yin_picks sig thr hv hlow (hh.trans hhigh) hT
  obtain ⟨R', hR', l1', l2', l3', hent'⟩ := yin_picks sig thr hv' hlow hhigh hT
  have ha : 1 ≤ ⌊fs / high'⌋₊ := by
    rw [Nat.one_le_floor_iff, le_div_iff₀ hv'.2.2.1]; linarith
  have haa : ⌊fs / high'⌋₊ ≤ ⌊fs / high⌋₊ :=
    Nat.floor_mono (div_le_div_of_nonneg_left hv.1.le hv.2.2.1 hh)
  refine ⟨R, R', hR, hR', by rw [l3, l3'], by rw [l1, l1'], ?_⟩
  intro i hi
  obtain ⟨⟨p, hp, e⟩, -⟩ := hent i (by omega)
  obtain ⟨⟨p', hp', e'⟩, -⟩ := hent' i (by omega)
  refine ⟨_, _, e, e', ?_, yinPitch_le hv.1 fun hp0 => ?_⟩
  · have := hv.1
    split_ifs <;> positivity
  · rcases hp with ⟨hc, hp⟩ | ⟨-, h0⟩
    · rcases hp' with ⟨-, hp'⟩ | ⟨hc', -⟩
      · exact pitchLag_earlier ha haa le_rfl hp hp' hp0
      · exact absurd hc hc'
    · exact absurd h0 hp0

/-- C176: lowering `low_freq` never makes a voiced window unvoiced and never raises its pitch, and it changes the pitch
only of windows that were given the longest period searched, `⌊fs / low⌋ - 1` samples. -/
theorem C176_low_freq (sig : List ℝ) {fs winLen winHop low low' high thr : ℝ} (hv : YinValid fs winLen winHop low high)
    (hlow : low ≤ fs) (h0 : 0 < low') (hl : low' ≤ low) (hhigh : high ≤ fs) (hT : ⌊fs / low'⌋₊ ≤ ⌊winLen * fs⌋₊) :
    ∃ R R', computeYin sig fs winLen winHop low high thr = .ok R ∧ computeYin sig fs winLen winHop low' high thr = .ok R' ∧
      R'.times = R.times ∧ R'.pitches.length = R.pitches.length ∧
      ∀ i < R.pitches.length, ∃ f f' : ℝ, R.pitches.getD i nan = fin f ∧ R'.pitches.getD i nan = fin f' ∧
        (f ≠ 0 → 0 < f' ∧ f' ≤ f ∧ (f ≠ fs / ((⌊fs / low⌋₊ - 1 : ℕ) : ℝ) → f' = f)) := by
  have hv' : YinValid fs winLen winHop low' high := ⟨hv.1, h0, hv.2.2⟩
  have hTT : ⌊fs / low⌋₊ ≤ ⌊fs / low'⌋₊ := Nat.floor_mono (div_le_div_of_nonneg_left hv.1.le h0 hl)
  obtain ⟨R, hR, l1, l2, l3, hent⟩ := yin_picks sig thr hv hlow hhigh (hTT.trans hT)
  obtain ⟨R', hR', l1', l2', l3', hent'⟩ := yin_picks sig thr hv' (hl.trans hlow) hhigh hT
  have ha : 1 ≤ ⌊fs / high⌋₊ := by
    rw [Nat.one_le_floor_iff, le_div_iff₀ hv.2.2.1]; linarith
  refine ⟨R, R', hR, hR', by rw [l3, l3'], by rw [l1, l1'], ?_⟩
  intro i hi
  obtain ⟨⟨p, hp, e⟩, -⟩ := hent i (by omega)
  obtain ⟨⟨p', hp', e'⟩, -⟩ := hent' i (by omega)
  refine ⟨_, _, e, e', fun hf => ?_⟩
  have hp0 : p ≠ 0 := fun h => hf (if_pos h)
  rcases hp with ⟨hc, hp⟩ | ⟨-, hz⟩
  swap
  · exact absurd hz hp0
  rcases hp' with ⟨-, hp'⟩ | ⟨hc', -⟩
  swap
  · exact absurd hc hc'
  obtain ⟨h1, h2⟩ := pitchLag_longer ha hTT hp hp' hp0
  have hp'0 : p' ≠ 0 := by omega
  have hpT : p < ⌊fs / low⌋₊ := by
    rcases hp with ⟨hz, -⟩ | ⟨t0, -, -, h3, -⟩
    · exact absurd hz hp0
    · exact h3
  have hfs := hv.1
  rw [if_neg hp0, if_neg hp'0]
  have hpp : (0 : ℝ) < p := by exact_mod_cast Nat.pos_of_ne_zero hp0
  have hpp' : (0 : ℝ) < p' := by exact_mod_cast Nat.pos_of_ne_zero hp'0
  refine ⟨by positivity, div_le_div_of_nonneg_left hfs.le hpp (by exact_mod_cast h1), fun hne => ?_⟩
  by_cases hlt : p + 1 < ⌊fs / low⌋₊
  · rw [h2 hlt]
  · exact absurd (by rw [show ⌊fs / low⌋₊ - 1 = p by omega]) hne

/-- The hypotheses are met by the defaults of `compute_yin` at 16 kHz. -/
example : YinValid 16000 0.03 0.015 50 3000 ∧ ⌊(16000 : ℝ) / 50⌋₊ ≤ ⌊(0.03 : ℝ) * 16000⌋₊ := by
  obtain ⟨h1, -, -, h4⟩ := default_sizes
  exact ⟨default_valid, by rw [h1, h4]; norm_num⟩

end Props
end Spafe
