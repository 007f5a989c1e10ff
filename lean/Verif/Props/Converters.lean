import Verif.Lemmas.Converters

/-! Properties C01–C05: frequency scale conversions (`spafe/utils/converters.py`). -/

namespace Spafe
namespace Props
open XF Model

/-- The two documented mel approaches. -/
def MelApproach (a : String) : Prop := a = "Oshaghnessy" ∨ a = "Lindsay"

/-- The six documented Bark approaches. -/
def BarkApproach (a : String) : Prop :=
  a = "Wang" ∨ a = "Tjomov" ∨ a = "Schroeder" ∨ a = "Terhardt" ∨ a = "Zwicker" ∨ a = "Traunmueller"

/-- C01: Hz → mel → Hz is the identity for every `f ≥ 0`. -/
theorem C01_mel2hz_hz2mel (a : String) (ha : MelApproach a) (f : ℝ) (hf : 0 ≤ f) :
    (hz2mel (fin f) a >>= fun m => mel2hz m a) = .ok (fin f) := by
  rcases ha with rfl | rfl
  · rw [hz2mel_fin_osh (by linarith)]
    rw [ok_bind]
    rw [mel2hz_fin_osh, rpow_logb_div (by norm_num) (by positivity)]
    congr 2; ring
  · rw [hz2mel_fin_lin (by linarith)]
    rw [ok_bind]
    rw [mel2hz_fin_lin, rpow_logb_div (by norm_num) (by positivity)]
    congr 2; ring

/-- C01: mel → Hz → mel is the identity for every real mel value. -/
theorem C01_hz2mel_mel2hz (a : String) (ha : MelApproach a) (m : ℝ) :
    (mel2hz (fin m) a >>= fun f => hz2mel f a) = .ok (fin m) := by
  rcases ha with rfl | rfl
  · rw [mel2hz_fin_osh]
    rw [ok_bind]
    have h : (0:ℝ) < (10:ℝ) ^ (m / 2595) := by positivity
    rw [hz2mel_fin_osh (by linarith)]
    have : 1 + 700 * ((10:ℝ) ^ (m / 2595) - 1) / 700 = (10:ℝ) ^ (m / 2595) := by ring
    rw [this, logb_rpow_div (by norm_num)]
  · rw [mel2hz_fin_lin]
    rw [ok_bind]
    have h : (0:ℝ) < (10:ℝ) ^ (m / 2410) := by positivity
    rw [hz2mel_fin_lin (by linarith)]
    have : 1 + 625 * ((10:ℝ) ^ (m / 2410) - 1) / 625 = (10:ℝ) ^ (m / 2410) := by ring
    rw [this, logb_rpow_div (by norm_num)]

example : (hz2mel (fin 440) "Lindsay" >>= fun m => mel2hz m "Lindsay") = .ok (fin 440) :=
  C01_mel2hz_hz2mel _ (Or.inr rfl) _ (by norm_num)

/-- C02: `hz2mel` maps 0 to 0 and is strictly increasing on non-negative frequencies. -/
theorem C02_hz2mel_strictMono (a : String) (ha : MelApproach a) :
    ∃ g : ℝ → ℝ, (∀ f, 0 ≤ f → hz2mel (fin f) a = .ok (fin (g f))) ∧ g 0 = 0 ∧
      ∀ f f', 0 ≤ f → f < f' → g f < g f' := by
  rcases ha with rfl | rfl
  · refine ⟨fun f => 2595 * Real.logb 10 (1 + f / 700), fun f hf => hz2mel_fin_osh (by linarith),
      by simp, fun f f' hf hff => ?_⟩
    have : Real.logb 10 (1 + f / 700) < Real.logb 10 (1 + f' / 700) :=
      Real.logb_lt_logb (by norm_num) (by positivity) (by linarith)
    simpa using this
  · refine ⟨fun f => 2410 * Real.logb 10 (1 + f / 625), fun f hf => hz2mel_fin_lin (by linarith),
      by simp, fun f f' hf hff => ?_⟩
    have : Real.logb 10 (1 + f / 625) < Real.logb 10 (1 + f' / 625) :=
      Real.logb_lt_logb (by norm_num) (by positivity) (by linarith)
    simpa using this

/-- C02: an undocumented approach raises `KeyError` in both directions, for every argument. -/
theorem C02_unknown_approach (a : String) (ha : ¬ MelApproach a) (x : XF ℝ) :
    hz2mel x a = .error .keyError ∧ mel2hz x a = .error .keyError := by
  simp only [MelApproach, not_or] at ha
  simp [hz2mel, mel2hz, ha.1, ha.2]

/-- C02, anchors of the scale: 700 Hz is `2595 log10 2` mel (O'Shaughnessy), 625 Hz is `2410 log10 2` (Lindsay). -/
theorem C02_anchor :
    hz2mel (fin 700) "Oshaghnessy" = .ok (fin (2595 * Real.logb 10 2)) ∧
    hz2mel (fin 625) "Lindsay" = .ok (fin (2410 * Real.logb 10 2)) := by
  constructor
  · rw [hz2mel_fin_osh (by norm_num)]; norm_num
  · rw [hz2mel_fin_lin (by norm_num)]; norm_num

example : ¬ MelApproach "foo" := by simp [MelApproach]

/-- C03: Hz → ERB → Hz is the identity for `f ≥ 0`. -/
theorem C03_erb2hz_hz2erb (f : ℝ) (hf : 0 ≤ f) :
    (hz2erb (fin f) "Glasberg" >>= fun e => erb2hz e "Glasberg") = some (fin f) := by
  rw [hz2erb_fin hf]
  rw [Option.bind_eq_bind, Option.bind_some]
  rw [erb2hz_fin, rpow_logb_div erbA_pos.ne' (by positivity)]
  congr 2; field_simp; ring

/-- C03: ERB → Hz → ERB is the identity for every real ERB value. -/
theorem C03_hz2erb_erb2hz (e : ℝ) :
    (erb2hz (fin e) "Glasberg" >>= fun f => hz2erb f "Glasberg") = some (fin e) := by
  rw [erb2hz_fin]
  rw [Option.bind_eq_bind, Option.bind_some]
  have hp : (0:ℝ) < (10:ℝ) ^ (e / erbA) := by positivity
  have : 1 + ((10:ℝ) ^ (e / erbA) - 1) / 0.00437 * 0.00437 = (10:ℝ) ^ (e / erbA) := by
    field_simp; ring
  rw [hz2erb, if_pos rfl, fin_mul, fin_add, this, log10_pos hp, fin_mul, logb_rpow_div erbA_pos.ne']

/-- C03: `hz2erb` maps 0 to 0 and is strictly increasing on non-negative frequencies. -/
theorem C03_hz2erb_strictMono :
    ∃ g : ℝ → ℝ, (∀ f, 0 ≤ f → hz2erb (fin f) "Glasberg" = some (fin (g f))) ∧ g 0 = 0 ∧
      ∀ f f', 0 ≤ f → f < f' → g f < g f' := by
  refine ⟨fun f => erbA * Real.logb 10 (1 + f * 0.00437), fun f hf => hz2erb_fin hf, by simp,
    fun f f' hf hff => ?_⟩
  refine mul_lt_mul_of_pos_left ?_ erbA_pos
  exact Real.logb_lt_logb (by norm_num) (by positivity) (by linarith)

/-- C03, anchor of the scale: `1000/4.37` Hz is `1000 ln 10 / (24.7 * 4.37) * log10 2` ERB units. -/
theorem C03_anchor :
    hz2erb (fin (1000 / 4.37)) "Glasberg" = some (fin (1000 * Real.log 10 / (24.7 * 4.37) * Real.logb 10 2)) := by
  rw [hz2erb_fin (by norm_num)]
  have : (1:ℝ) + 1000 / 4.37 * 0.00437 = 2 := by norm_num
  rw [this]; rfl

/-- C03: any other approach string yields `None`. -/
theorem C03_unknown_approach (a : String) (ha : a ≠ "Glasberg") (x : XF ℝ) :
    hz2erb x a = none ∧ erb2hz x a = none := by simp [hz2erb, erb2hz, ha]

/-- C04 (part): the Bark round trip holds for Wang, Tjomov, Schroeder and Zwicker at every `f > 0`.
Missing from the full claim: Terhardt and Traunmueller, for which it is false (next two theorems). -/
theorem C04_bark_roundtrip_partial (a : String)
    (ha : a = "Wang" ∨ a = "Tjomov" ∨ a = "Schroeder" ∨ a = "Zwicker") (f : ℝ) (hf : 0 < f) :
    bark2hz (hz2bark (fin f) a) a = fin f := by
  rcases ha with rfl | rfl | rfl | rfl
  · rw [hz2bark_wang, bark2hz_wang, mul_div_cancel_left₀ _ (by norm_num), Real.sinh_arsinh]
    congr 1; ring
  · rw [hz2bark_tjomov, bark2hz_tjomov, mul_div_cancel_left₀ _ (by norm_num), Real.sinh_arsinh]
    congr 1; ring
  · rw [hz2bark_schroeder, bark2hz_schroeder, mul_div_cancel_left₀ _ (by norm_num), Real.sinh_arsinh]
    congr 1; ring
  · rw [hz2bark_zwicker hf, bark2hz_zwicker, add_sub_cancel_left, mul_div_cancel_left₀ _ (by norm_num),
      Real.rpow_add (by norm_num), Real.rpow_logb (by norm_num) (by norm_num) (by positivity)]
    congr 1
    have : (10:ℝ) ^ (3:ℝ) = 1000 := by
      rw [show (3:ℝ) = ((3:ℕ):ℝ) by norm_num, Real.rpow_natCast]; norm_num
    rw [this]; ring

/-- C04 (violation): Terhardt never round-trips, at any positive frequency
(`bark2hz` divides by 13 where `hz2bark` multiplies by 13.3). -/
theorem C04_terhardt_never_roundtrips (f : ℝ) (hf : 0 < f) :
    bark2hz (hz2bark (fin f) "Terhardt") "Terhardt" ≠ fin f := by
  rw [hz2bark_terhardt, bark2hz_terhardt, Ne, fin_inj]
  set x := f * 0.75 / 1000 with hx
  have hx0 : 0 < x := by positivity
  have hfx : f = 1000 / 0.75 * x := by rw [hx]; ring
  intro h
  have htan : Real.tan (13.3 * Real.arctan x / 13) = x := by
    have h' : 1000 / 0.75 * Real.tan (13.3 * Real.arctan x / 13) = 1000 / 0.75 * x := by
      rw [← hfx]; exact h
    exact mul_left_cancel₀ (by norm_num) h'
  have hat : 0 < Real.arctan x := Real.arctan_pos.mpr hx0
  have hat2 := Real.arctan_lt_pi_div_two x
  have hlt : Real.arctan x < 13.3 * Real.arctan x / 13 := by norm_num; linarith
  rcases lt_or_ge (13.3 * Real.arctan x / 13) (Real.pi / 2) with hc | hc
  · have := Real.tan_lt_tan_of_lt_of_lt_pi_div_two (by linarith [Real.pi_pos]) hc hlt
    rw [Real.tan_arctan, htan] at this
    exact lt_irrefl _ this
  · have hpi : 13.3 * Real.arctan x / 13 ≤ Real.pi := by
      norm_num; linarith [Real.pi_pos]
    have : Real.tan (13.3 * Real.arctan x / 13) ≤ 0 := by
      rw [Real.tan_eq_sin_div_cos]
      apply div_nonpos_of_nonneg_of_nonpos
      · exact Real.sin_nonneg_of_nonneg_of_le_pi (by positivity) hpi
      · exact Real.cos_nonpos_of_pi_div_two_le_of_le hc (by linarith [Real.pi_pos])
    rw [htan] at this
    linarith

/-- One direction of the Traunmueller conversion, as an equation. -/
theorem traun_iff {h f : ℝ} (hh : -0.53 < h ∨ h ≤ 26) :
    fin 1960 * ((fin h + fin 0.53) / (fin 26.28 - fin h)) = fin f ↔ 26.28 - h ≠ 0 ∧ 1960 * (h + 0.53) = f * (26.28 - h) := by
  rw [fin_add, fin_sub]
  by_cases hd : 26.28 - h = 0
  · have hp : 0 < h + 0.53 := by norm_num at hd ⊢; linarith
    rw [hd]
    have e1 : (fin (h + 0.53) / fin 0 : XF ℝ) = pinf := by
      show XF.mul _ (XF.inv _) = _
      simp [XF.inv, XF.mul, XF.infMul, hp]
      exact hp.ne'
    rw [e1]
    have e2 : (fin 1960 * pinf : XF ℝ) = pinf := by
      show XF.mul _ _ = _
      simp [XF.mul, XF.infMul]
    rw [e2]
    simp
  · rw [fin_div _ _ hd, fin_mul, fin_inj, ← mul_div_assoc, div_eq_iff hd]
    exact ⟨fun h => ⟨hd, h⟩, And.right⟩

/-- C04 (violation): Traunmueller round-trips at one positive frequency only, between 146 Hz and 148 Hz
(`hz2bark` divides by `1 + 1960` where the formula divides by `1960 + f`). -/
theorem C04_traunmueller_once : ∃ f0 : ℝ, 146 < f0 ∧ f0 < 148 ∧ ∀ f : ℝ, 0 < f →
    (bark2hz (hz2bark (fin f) "Traunmueller") "Traunmueller" = fin f ↔ f = f0) := by
  obtain ⟨p, hp⟩ : ∃ p : ℝ → ℝ, p = fun f => 26.28 * f ^ 2 + (1960 * 26.28 - 26.28 * 1961 * 0.85 - 0.83 * 1961) * f - 1960 * 1961 * (0.83 - 0.53 * 0.85) := ⟨_, rfl⟩
  have hcont : ContinuousOn p (Set.Icc 146 148) := by rw [hp]; fun_prop
  obtain ⟨f0, ⟨h1, h2⟩, h0⟩ := intermediate_value_Ioo (by norm_num) hcont (show (0 : ℝ) ∈ Set.Ioo (p 146) (p 148) by
    rw [hp]; constructor <;> norm_num)
  refine ⟨f0, h1, h2, fun f hf => ?_⟩
  rw [hz2bark_traun]
  obtain ⟨b, hb⟩ : ∃ b : ℝ, b = 26.28 * f / (1 + 1960) - 0.53 := ⟨_, rfl⟩
  rw [← hb]
  have hbf : b * 1961 = 26.28 * f - 0.53 * 1961 := by rw [hb]; ring
  rw [bark2hz, if_neg (by decide), if_neg (by decide), if_neg (by decide), if_neg (by decide),
    if_neg (by decide), if_pos rfl]
  rw [hp] at h0
  beta_reduce at h0
  rcases lt_or_ge b 2 with hb2 | hb2
  · have hh : traunmuellerHelper (fin b) = fin ((b - 0.3) / 0.85) := by
      rw [traunmuellerHelper, if_pos (by simpa [ltb_fin] using hb2), fin_sub, fin_div _ _ (by norm_num)]
    rw [hh, traun_iff (Or.inr (by rw [div_le_iff₀ (by norm_num)]; norm_num; linarith))]
    have hne : 26.28 - (b - 0.3) / 0.85 ≠ 0 := by
      have : (b - 0.3) / 0.85 < 2 := by rw [div_lt_iff₀ (by norm_num)]; norm_num; linarith
      norm_num at this ⊢; linarith
    have key : 1960 * ((b - 0.3) / 0.85 + 0.53) - f * (26.28 - (b - 0.3) / 0.85) =
        (f - f0) * (26.28 * (f + f0) + (1960 * 26.28 - 26.28 * 1961 * 0.85 - 0.83 * 1961)) / (1961 * 0.85) := by
      rw [hb]
      linear_combination (1 / (1961 * 0.85)) * h0
    have hpos : 0 < 26.28 * (f + f0) + (1960 * 26.28 - 26.28 * 1961 * 0.85 - 0.83 * 1961) := by
      norm_num; linarith
    constructor
    · rintro ⟨-, h⟩
      rw [sub_eq_zero.mpr h] at key
      have k2 : (f - f0) * (26.28 * (f + f0) + (1960 * 26.28 - 26.28 * 1961 * 0.85 - 0.83 * 1961)) = 0 := by
        rw [eq_div_iff (by norm_num)] at key; linarith
      rcases mul_eq_zero.mp k2 with h | h
      · linarith
      · exact absurd h hpos.ne'
    · rintro rfl
      refine ⟨hne, sub_eq_zero.mp ?_⟩
      rw [key, sub_self, zero_mul, zero_div]
  · have hf2 : 148 < f := by norm_num at hbf; linarith
    refine iff_of_false ?_ (by linarith)
    rcases le_or_gt b 20.1 with hb3 | hb3
    · have hh : traunmuellerHelper (fin b) = fin b := by
        simp [traunmuellerHelper, ltb_fin, not_lt.mpr hb2, not_lt.mpr hb3]
      rw [hh, traun_iff (Or.inr (by norm_num at hb3; linarith))]
      rintro ⟨-, h⟩
      rw [hb] at h
      have h3 : f * (f * 26.28 - (26.81 * 1961 - 1960 * 26.28)) = 0 := by linear_combination 1961 * h
      rcases mul_eq_zero.mp h3 with h4 | h4 <;> norm_num at h4 <;> linarith
    · have hh : traunmuellerHelper (fin b) = fin ((b + 4.422) / 1.22) := by
        rw [traunmuellerHelper, if_neg (by simpa [ltb_fin] using hb2), if_pos (by simpa [ltb_fin] using hb3), fin_add, fin_div _ _ (by norm_num)]
      rw [hh, traun_iff (Or.inl (by
        have : 0 ≤ (b + 4.422) / 1.22 := by positivity
        linarith))]
      rintro ⟨-, h⟩
      rw [hb] at h
      have h3 : 26.28 * f ^ 2 + (1960 * 26.28 - 26.28 * 1961 * 1.22 + 3.892 * 1961) * f + 1960 * 1961 * (3.892 + 0.53 * 1.22) = 0 := by
        linear_combination 1961 * 1.22 * h
      nlinarith [sq_nonneg (f - 71)]

/-- C05: every documented Bark scale is strictly increasing on `f > 0`. -/
theorem C05_hz2bark_strictMono (a : String) (ha : BarkApproach a) :
    ∃ g : ℝ → ℝ, (∀ f, 0 < f → hz2bark (fin f) a = fin (g f)) ∧ ∀ f f', 0 < f → f < f' → g f < g f' := by
  rcases ha with rfl | rfl | rfl | rfl | rfl | rfl
  · refine ⟨_, fun f _ => hz2bark_wang f, fun f f' _ h => ?_⟩
    have : Real.arsinh (f / 600) < Real.arsinh (f' / 600) := Real.arsinh_lt_arsinh.mpr (by linarith)
    linarith
  · refine ⟨_, fun f _ => hz2bark_tjomov f, fun f f' _ h => ?_⟩
    have : Real.arsinh ((f + 20) / 600) < Real.arsinh ((f' + 20) / 600) :=
      Real.arsinh_lt_arsinh.mpr (by linarith)
    norm_num at *; linarith
  · refine ⟨_, fun f _ => hz2bark_schroeder f, fun f f' _ h => ?_⟩
    have : Real.arsinh (f / 650) < Real.arsinh (f' / 650) := Real.arsinh_lt_arsinh.mpr (by linarith)
    linarith
  · refine ⟨_, fun f _ => hz2bark_terhardt f, fun f f' _ h => ?_⟩
    have : Real.arctan (f * 0.75 / 1000) < Real.arctan (f' * 0.75 / 1000) :=
      Real.arctan_strictMono (by linarith)
    linarith
  · refine ⟨_, fun f hf => hz2bark_zwicker hf, fun f f' hf h => ?_⟩
    have : Real.logb 10 (f / 1000) < Real.logb 10 (f' / 1000) :=
      Real.logb_lt_logb (by norm_num) (by positivity) (by linarith)
    linarith
  · refine ⟨_, fun f _ => hz2bark_traun f, fun f f' _ h => ?_⟩
    norm_num; linarith

/-- C05, anchors: one exact value of each Bark scale. -/
theorem C05_anchor :
    hz2bark (fin 600) "Wang" = fin (6 * Real.arsinh 1) ∧
    hz2bark (fin 580) "Tjomov" = fin (6.7 * Real.arsinh 1) ∧
    hz2bark (fin 650) "Schroeder" = fin (7 * Real.arsinh 1) ∧
    hz2bark (fin (4000 / 3)) "Terhardt" = fin (13.3 * (Real.pi / 4)) ∧
    hz2bark (fin 1000) "Zwicker" = fin 8.7 ∧ hz2bark (fin 10000) "Zwicker" = fin 22.9 ∧
    hz2bark (fin 0) "Traunmueller" = fin (-0.53) ∧ hz2bark (fin 1961) "Traunmueller" = fin 25.75 := by
  refine ⟨?_, ?_, ?_, ?_, ?_, ?_, ?_, ?_⟩
  · rw [hz2bark_wang]; norm_num
  · rw [hz2bark_tjomov]; norm_num
  · rw [hz2bark_schroeder]; norm_num
  · rw [hz2bark_terhardt, show (4000 / 3 * 0.75 / 1000 : ℝ) = 1 by norm_num, Real.arctan_one]
  · rw [hz2bark_zwicker (by norm_num)]; norm_num
  · rw [hz2bark_zwicker (by norm_num), show (10000 / 1000 : ℝ) = 10 by norm_num,
      Real.logb_self_eq_one (by norm_num)]
    norm_num
  · rw [hz2bark_traun]; norm_num
  · rw [hz2bark_traun]; norm_num

/-- C05: an undocumented approach is exactly the Wang conversion, in both directions, on every extended float. -/
theorem C05_unknown_is_wang (a : String) (ha : ¬ BarkApproach a) (x : XF ℝ) :
    hz2bark x a = hz2bark x "Wang" ∧ bark2hz x a = bark2hz x "Wang" := by
  simp only [BarkApproach, not_or] at ha
  obtain ⟨h1, h2, h3, h4, h5, h6⟩ := ha
  simp [hz2bark, bark2hz, h1, h2, h3, h4, h5, h6]

/-- C05: the Wang scale is anchored: 0 Hz is 0 Bark and it is odd and unbounded (it inverts `600 sinh(b/6)`
on all of `ℝ`). -/
theorem C05_wang_onto (b : ℝ) :
    hz2bark (bark2hz (fin b) "Wang") "Wang" = fin b ∧ hz2bark (fin 0) "Wang" = fin 0 := by
  constructor
  · rw [bark2hz_wang, hz2bark_wang, mul_div_cancel_left₀ _ (by norm_num), Real.arsinh_sinh]
    congr 1; ring
  · rw [hz2bark_wang]; simp

example : ¬ BarkApproach "traunmueller" := by simp [BarkApproach]

end Props
end Spafe
