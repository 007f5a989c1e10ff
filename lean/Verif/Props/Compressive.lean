import Verif.Props.Converters
import Verif.Props.MelFbanks
import Verif.Props.GammatoneFbanks
import Mathlib.Analysis.SpecialFunctions.Arsinh
import Mathlib.Analysis.SpecialFunctions.Trigonometric.ArctanDeriv
import Mathlib.Analysis.Convex.SpecificFunctions.Basic
import Mathlib.Analysis.Convex.Deriv

/-!
C155: the auditory scales resolve high frequencies more coarsely than low ones: the same step in Hz is a smaller step on the
mel, ERB and Bark scales the higher it lies, and filters that are equidistant on the scale lie further and further apart in Hz. The
Traunmueller formula of the code is a straight line and has no such compression.
-/

set_option linter.unusedSectionVars false

namespace Spafe
namespace Spec

/-- The step from `f` to `f + δ` on the scale `φ` becomes strictly smaller when it is moved upwards. -/
def Compressive (φ : ℝ → ℝ) (lowest : ℝ) : Prop :=
  ∀ f g δ : ℝ, lowest ≤ f → f < g → 0 < δ → φ (g + δ) - φ g < φ (f + δ) - φ f

end Spec

namespace Props

open Model XF Spec

theorem concave_step {S : Set ℝ} {φ : ℝ → ℝ} (h : StrictConcaveOn ℝ S φ) {f g δ : ℝ} (hf : f ∈ S) (hg : g + δ ∈ S)
    (hfg : f < g) (hδ : 0 < δ) : φ (g + δ) - φ g < φ (f + δ) - φ f := by
  have hD : 0 < g + δ - f := by linarith
  have hne : f ≠ g + δ := by linarith
  have ht : 0 < δ / (g + δ - f) := by positivity
  have ht1 : 0 < (g - f) / (g + δ - f) := div_pos (by linarith) hD
  have hs : (g - f) / (g + δ - f) + δ / (g + δ - f) = 1 := by field_simp; ring
  have h1 := h.2 hf hg hne ht1 ht hs
  have h2 := h.2 hf hg hne ht ht1 (by rw [add_comm]; exact hs)
  simp only [smul_eq_mul] at h1 h2
  have e1 : (g - f) / (g + δ - f) * f + δ / (g + δ - f) * (g + δ) = f + δ := by field_simp; ring
  have e2 : δ / (g + δ - f) * f + (g - f) / (g + δ - f) * (g + δ) = g := by field_simp; ring
  rw [e1] at h1
  rw [e2] at h2
  have h3 : (g - f) / (g + δ - f) = 1 - δ / (g + δ - f) := by linarith
  rw [h3] at h1 h2
  linarith

theorem arsinh_concave : StrictConcaveOn ℝ (Set.Ici 0) Real.arsinh := by
  apply StrictAntiOn.strictConcaveOn_of_deriv (convex_Ici 0) Real.continuous_arsinh.continuousOn
  rw [interior_Ici]
  intro x hx y hy hxy
  rw [(Real.hasDerivAt_arsinh x).deriv, (Real.hasDerivAt_arsinh y).deriv]
  have hx0 : (0 : ℝ) < x := hx
  have h1 : √(1 + x ^ 2) < √(1 + y ^ 2) := Real.sqrt_lt_sqrt (by positivity) (by nlinarith)
  exact inv_strictAnti₀ (by positivity) h1

theorem arctan_concave : StrictConcaveOn ℝ (Set.Ici 0) Real.arctan := by
  apply StrictAntiOn.strictConcaveOn_of_deriv (convex_Ici 0) Real.continuous_arctan.continuousOn
  rw [interior_Ici]
  intro x hx y hy hxy
  rw [(Real.hasDerivAt_arctan x).deriv, (Real.hasDerivAt_arctan y).deriv]
  have hx0 : (0 : ℝ) < x := hx
  exact one_div_lt_one_div_of_lt (by positivity) (by nlinarith)

theorem compressive_scale {S : Set ℝ} {ψ : ℝ → ℝ} (h : StrictConcaveOn ℝ S ψ) {c k s lowest : ℝ} (hc : 0 < c)
    (hk : 0 < k) (d : ℝ) (hS : ∀ f, lowest ≤ f → s + f * k ∈ S) :
    Compressive (fun f => d + c * ψ (s + f * k)) lowest := by
  intro f g δ hf hfg hδ
  have h1 := concave_step h (f := s + f * k) (g := s + g * k) (δ := δ * k) (hS f hf)
    (by have := hS (g + δ) (by linarith); convert this using 1; ring) (by nlinarith) (by positivity)
  rw [show s + g * k + δ * k = s + (g + δ) * k by ring, show s + f * k + δ * k = s + (f + δ) * k by ring] at h1
  nlinarith

theorem logb_eq_log (x : ℝ) : Real.logb 10 x = 1 / Real.log 10 * Real.log x := by
  rw [Real.logb]; ring

theorem log10_pos' : 0 < Real.log 10 := Real.log_pos (by norm_num)

theorem compressive_log {c k s lowest : ℝ} (hc : 0 < c) (hk : 0 < k) (d : ℝ) (hS : ∀ f, lowest ≤ f → 0 < s + f * k) :
    Compressive (fun f => d + c * Real.logb 10 (s + f * k)) lowest := by
  have := compressive_scale strictConcaveOn_log_Ioi (c := c * (1 / Real.log 10)) (k := k) (s := s) (lowest := lowest)
    (mul_pos hc (one_div_pos.2 log10_pos')) hk d hS
  intro f g δ hf hfg hδ
  have h1 := this f g δ hf hfg hδ
  simp only [logb_eq_log]
  simp only [mul_assoc] at h1
  exact h1

/-- **C155** (mel). For both documented formulas. -/
theorem C155_mel (a : String) (ha : MelApproach a) :
    ∃ φ : ℝ → ℝ, (∀ f, 0 ≤ f → hz2mel (fin f) a = .ok (fin (φ f))) ∧ Compressive φ 0 := by
  rcases ha with rfl | rfl
  · refine ⟨_, fun f hf => hz2mel_fin_osh (by linarith), ?_⟩
    have := compressive_log (c := 2595) (k := 1 / 700) (s := 1) (lowest := 0) (by norm_num) (by norm_num) 0
      (fun f hf => by positivity)
    simpa [div_eq_mul_inv] using this
  · refine ⟨_, fun f hf => hz2mel_fin_lin (by linarith), ?_⟩
    have := compressive_log (c := 2410) (k := 1 / 625) (s := 1) (lowest := 0) (by norm_num) (by norm_num) 0
      (fun f hf => by positivity)
    simpa [div_eq_mul_inv] using this

/-- **C155** (ERB rate). -/
theorem C155_erb : ∃ φ : ℝ → ℝ, (∀ f, 0 ≤ f → hz2erb (fin f) "Glasberg" = some (fin (φ f))) ∧ Compressive φ 0 := by
  refine ⟨_, fun f hf => hz2erb_fin hf, ?_⟩
  have := compressive_log (c := erbA) (k := 0.00437) (s := 1) (lowest := 0) erbA_pos (by norm_num) 0
    (fun f hf => by positivity)
  simpa using this

/-- **C155** (Bark), for five of the six documented formulas and for every undocumented name. `Zwicker` is not defined at 0, so
the statement is for frequencies from any `lowest > 0` on. The full claim includes `Traunmueller`, for which it fails. -/
theorem C155_bark_partial (a : String) (ha : a ≠ "Traunmueller") (lowest : ℝ) (h0 : 0 < lowest) :
    ∃ φ : ℝ → ℝ, (∀ f, lowest ≤ f → hz2bark (fin f) a = fin (φ f)) ∧ Compressive φ lowest := by
  have wang : ∃ φ : ℝ → ℝ, (∀ f, lowest ≤ f → hz2bark (fin f) "Wang" = fin (φ f)) ∧ Compressive φ lowest := by
    refine ⟨_, fun f hf => hz2bark_wang f, ?_⟩
    have := compressive_scale arsinh_concave (c := 6) (k := 1 / 600) (s := 0) (lowest := lowest) (by norm_num) (by norm_num) 0
      (fun f hf => by have : 0 < f := by linarith
                      show (0 : ℝ) ≤ _; positivity)
    simpa [div_eq_mul_inv] using this
  by_cases hb : BarkApproach a
  · rcases hb with rfl | rfl | rfl | rfl | rfl | rfl
    · exact wang
    · refine ⟨_, fun f hf => hz2bark_tjomov f, ?_⟩
      have := compressive_scale arsinh_concave (c := 6.7) (k := 1 / 600) (s := 20 / 600) (lowest := lowest) (by norm_num)
        (by norm_num) 0 (fun f hf => by have : 0 < f := by linarith
                                        show (0 : ℝ) ≤ _; positivity)
      have e : ∀ f : ℝ, (f + 20) / 600 = 20 / 600 + f * (1 / 600) := fun f => by ring
      simp only [e]
      simpa using this
    · refine ⟨_, fun f hf => hz2bark_schroeder f, ?_⟩
      have := compressive_scale arsinh_concave (c := 7) (k := 1 / 650) (s := 0) (lowest := lowest) (by norm_num) (by norm_num) 0
        (fun f hf => by have : 0 < f := by linarith
                        show (0 : ℝ) ≤ _; positivity)
      simpa [div_eq_mul_inv] using this
    · refine ⟨_, fun f hf => hz2bark_terhardt f, ?_⟩
      have := compressive_scale arctan_concave (c := 13.3) (k := 0.75 / 1000) (s := 0) (lowest := lowest) (by norm_num)
        (by norm_num) 0 (fun f hf => by have : 0 < f := by linarith
                                        show (0 : ℝ) ≤ _; positivity)
      have e : ∀ f : ℝ, f * 0.75 / 1000 = 0 + f * (0.75 / 1000) := fun f => by ring
      intro f g δ hf hfg hδ
      have h := this f g δ hf hfg hδ
      beta_reduce at h ⊢
      rw [e, e, e, e]
      linarith
    · refine ⟨_, fun f hf => hz2bark_zwicker (by linarith), ?_⟩
      have := compressive_log (c := 14.2) (k := 1 / 1000) (s := 0) (lowest := lowest) (by norm_num) (by norm_num) 8.7
        (fun f hf => by have : 0 < f := by linarith
                        positivity)
      have e : ∀ f : ℝ, f / 1000 = 0 + f * (1 / 1000) := fun f => by ring
      intro f g δ hf hfg hδ
      have h := this f g δ hf hfg hδ
      beta_reduce at h ⊢
      rw [e (g + δ), e g, e (f + δ), e f]
      exact h
    · exact absurd rfl ha
  · obtain ⟨φ, h1, h2⟩ := wang
    exact ⟨φ, fun f hf => by rw [(C05_unknown_is_wang a hb _).1]; exact h1 f hf, h2⟩

/-- **C155**, violated by `hz2bark(f, "Traunmueller")`: the formula is a straight line, a step of 1961 Hz is 26.28 Bark wherever it
lies (the published formula `26.81 f / (1960 + f) - 0.53` stays below 26.28 altogether). -/
theorem C155_traunmueller_linear : ∃ φ : ℝ → ℝ, (∀ f, hz2bark (fin f) "Traunmueller" = fin (φ f)) ∧
    (∀ f g δ, φ (g + δ) - φ g = φ (f + δ) - φ f) ∧ (∀ f, φ (f + 1961) - φ f = 26.28) ∧ ∀ lowest, ¬ Compressive φ lowest := by
  refine ⟨_, fun f => hz2bark_traun f, fun f g δ => by ring, fun f => by ring, fun lowest h => ?_⟩
  have := h lowest (lowest + 1) 1 le_rfl (by linarith) (by norm_num)
  simp only at this
  linarith

/-! ### Filter banks -/

/-- **C155** (mel bank). In Hz, the distances of neighbouring centres of the mel bank (including the lower edge as number -1)
increase strictly: by the same factor from each filter to the next. -/
theorem C155_mel_bank {scale : String} {w : ℕ → ℕ → ℝ} (hs : Scale scale w) {approach : String} {a b : ℝ}
    (hm : MelConst approach a b) {fs : ℝ} {hf : Option ℝ} {low high : ℝ} (he : EffHigh fs hf high) (h0 : 0 ≤ low)
    (h1 : low < high) (h2 : high ≤ fs / 2) (n nfft : ℕ) :
    ∃ bank cs, ∃ c : ℕ → ℝ, melFilterBanks n nfft fs low hf scale approach = .ok (bank, cs) ∧
      (∀ j < n, ∃ v, cs.getD j (fin 0) = fin v ∧ mel2hz (fin v) approach = .ok (fin (c (j + 1)))) ∧ c 0 = low ∧
      ∃ q > 1, ∀ j < n, 0 < c (j + 1) - c j ∧ (j + 1 < n → c (j + 2) - c (j + 1) = q * (c (j + 1) - c j)) := by
  obtain ⟨ha, hb⟩ := melConst_pos hm
  obtain ⟨bank, cs, e, -, hv⟩ := C26_mel_triangles hs hm he h0 h1 h2 n nfft
  obtain ⟨p0, -, hmono⟩ := C26_mel_edges hm h0 h1 n
  have hml := mel_strictMono ha hb (by linarith) h1
  refine ⟨bank, cs, melPoint a b low high n, e, fun j hj => ⟨_, hv.2 j hj, ?_⟩, p0,
    (10 : ℝ) ^ ((mel a b high - mel a b low) / (n + 1) / a), ?_, fun j hj => ⟨sub_pos.2 (hmono (by omega)), fun _ => ?_⟩⟩
  · have hpt : mel a b (melPoint a b low high n (j + 1)) = linPoint (mel a b low) (mel a b high) n (j + 1) := mel_melInv ha hb
    beta_reduce
    rw [hpt]
    cases hm
    · rw [mel2hz_fin_osh]; rfl
    · rw [mel2hz_fin_lin]; rfl
  · exact Real.one_lt_rpow (by norm_num) (div_pos (div_pos (sub_pos.2 hml) (by positivity)) ha)
  · have step : ∀ i : ℕ, (10 : ℝ) ^ (linPoint (mel a b low) (mel a b high) n (i + 1) / a) =
        (10 : ℝ) ^ ((mel a b high - mel a b low) / (n + 1) / a) *
          (10 : ℝ) ^ (linPoint (mel a b low) (mel a b high) n i / a) := by
      intro i
      rw [← Real.rpow_add (by norm_num)]
      congr 1
      unfold linPoint
      push_cast
      ring
    unfold melPoint melInv
    rw [step (j + 1), step j]
    ring

/-- **C155** (gammatone bank). The centre frequencies in Hz whose ERB rates are returned lie further and further apart. -/
theorem C155_gammatone_bank {scale : String} {w : ℕ → ℕ → ℝ} (hs : Scale scale w) {fs : ℝ} {hf : Option ℝ} {low high : ℝ}
    (he : EffHigh fs hf high) (h0 : 0 ≤ low) (h1 : low < high) (h2 : high ≤ fs / 2) {n nfft order : ℕ} (hn : 1 ≤ nfft)
    (ho : 1 ≤ order) :
    ∃ bank cs, ∃ c : ℕ → ℝ, gammatoneFilterBanks n nfft fs low hf scale order "Glasberg" = .ok (bank, cs) ∧
      (∀ j < n, cs.getD j none = hz2erb (fin (c j)) "Glasberg") ∧ (0 < n → c 0 = low) ∧
      ∃ q > 1, ∀ j, j + 1 < n → 0 < c (j + 1) - c j ∧ (j + 2 < n → c (j + 2) - c (j + 1) = q * (c (j + 1) - c j)) := by
  obtain ⟨bank, cs, fc, e, -, hv, hz, hr, hmono, hq⟩ := C36_centres hs he h0 h1 h2 (n := n) (nfft := nfft) (order := order) hn ho
  refine ⟨bank, cs, fc, e, fun j hj => ?_, hz, ?_⟩
  · rw [hv j hj, hz2erb_fin (h0.trans (hr j hj).1)]; rfl
  by_cases hn0 : n = 0
  · exact ⟨2, by norm_num, fun j hj => by omega⟩
  refine ⟨((high + 9.26449 * 24.7) / (low + 9.26449 * 24.7)) ^ (1 / (n : ℝ)), ?_, fun j hj =>
    ⟨sub_pos.2 (hmono j (j + 1) (by omega) hj), fun hj2 => ?_⟩⟩
  · have hnp : (0 : ℝ) < n := by exact_mod_cast Nat.pos_of_ne_zero hn0
    refine Real.one_lt_rpow ?_ (by positivity)
    rw [lt_div_iff₀ (by positivity)]
    linarith
  · have q1 := hq j hj
    have q2 := hq (j + 1) hj2
    generalize ((high + 9.26449 * 24.7) / (low + 9.26449 * 24.7)) ^ (1 / (n : ℝ)) = q at q1 q2 ⊢
    have p0 := h0.trans (hr j (by omega)).1
    have p1 := h0.trans (hr (j + 1) hj).1
    rw [div_eq_iff (by positivity)] at q1
    rw [div_eq_iff (by positivity)] at q2
    linear_combination q2 - q1

example : ∃ bank cs, ∃ c : ℕ → ℝ, melFilterBanks 24 512 16000 0 none "constant" "Oshaghnessy" = .ok (bank, cs) ∧
    (∀ j < 24, ∃ v, cs.getD j (fin 0) = fin v ∧ mel2hz (fin v) "Oshaghnessy" = .ok (fin (c (j + 1)))) ∧ c 0 = 0 ∧
    ∃ q > 1, ∀ j < 24, 0 < c (j + 1) - c j ∧ (j + 1 < 24 → c (j + 2) - c (j + 1) = q * (c (j + 1) - c j)) :=
  C155_mel_bank .constant .oshaghnessy .none (le_refl _) (by norm_num) (by norm_num) 24 512

end Props
end Spafe
