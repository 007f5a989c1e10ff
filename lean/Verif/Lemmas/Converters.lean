import Verif.Model.Converters
import Mathlib.Analysis.SpecialFunctions.Pow.Real
import Mathlib.Analysis.SpecialFunctions.Trigonometric.ArctanDeriv
import Mathlib.Analysis.Real.Pi.Bounds
import Mathlib.Tactic.Positivity
import Mathlib.Tactic.FieldSimp
import Mathlib.Tactic.Linarith
import Mathlib.Tactic.NormNum

/-! Values of the converters on finite arguments. -/

namespace Spafe
namespace Model
open XF

theorem erbA_pos : 0 < erbA := by
  unfold erbA
  have : 0 < Real.log 10 := Real.log_pos (by norm_num)
  positivity

theorem hz2mel_fin_osh {f : ℝ} (hf : -700 < f) :
    hz2mel (fin f) "Oshaghnessy" = .ok (fin (2595 * Real.logb 10 (1 + f / 700))) := by
  have h : (0:ℝ) < 1 + f / 700 := by linarith
  simp only [hz2mel, if_true, fin_div f 700 (by norm_num), fin_add, log10_pos h, fin_mul]

theorem hz2mel_fin_lin {f : ℝ} (hf : -625 < f) :
    hz2mel (fin f) "Lindsay" = .ok (fin (2410 * Real.logb 10 (1 + f / 625))) := by
  have h : (0:ℝ) < 1 + f / 625 := by linarith
  rw [hz2mel, if_neg (by decide), if_pos rfl, fin_div f 625 (by norm_num), fin_add, log10_pos h, fin_mul]

theorem mel2hz_fin_osh (m : ℝ) :
    mel2hz (fin m) "Oshaghnessy" = .ok (fin (700 * ((10:ℝ) ^ (m / 2595) - 1))) := by
  rw [mel2hz, if_pos rfl, fin_div m 2595 (by norm_num), exp10, fin_sub, fin_mul]

theorem mel2hz_fin_lin (m : ℝ) :
    mel2hz (fin m) "Lindsay" = .ok (fin (625 * ((10:ℝ) ^ (m / 2410) - 1))) := by
  rw [mel2hz, if_neg (by decide), if_pos rfl, fin_div m 2410 (by norm_num), exp10, fin_sub, fin_mul]

theorem hz2erb_fin {f : ℝ} (hf : 0 ≤ f) :
    hz2erb (fin f) "Glasberg" = some (fin (erbA * Real.logb 10 (1 + f * 0.00437))) := by
  have h : (0:ℝ) < 1 + f * 0.00437 := by positivity
  rw [hz2erb, if_pos rfl, fin_mul, fin_add, log10_pos h, fin_mul]

theorem erb2hz_fin (e : ℝ) :
    erb2hz (fin e) "Glasberg" = some (fin (((10:ℝ) ^ (e / erbA) - 1) / 0.00437)) := by
  rw [erb2hz, if_pos rfl, fin_div e _ erbA_pos.ne', exp10, fin_sub, fin_div _ _ (by norm_num)]

theorem hz2bark_wang (f : ℝ) : hz2bark (fin f) "Wang" = fin (6 * Real.arsinh (f / 600)) := by
  rw [hz2bark, if_pos rfl, fin_div _ _ (by norm_num), arcsinh, fin_mul]
theorem hz2bark_tjomov (f : ℝ) :
    hz2bark (fin f) "Tjomov" = fin (6.7 * Real.arsinh ((f + 20) / 600)) := by
  rw [hz2bark, if_neg (by decide), if_pos rfl, fin_add, fin_div _ _ (by norm_num), arcsinh, fin_mul]
theorem hz2bark_schroeder (f : ℝ) :
    hz2bark (fin f) "Schroeder" = fin (7 * Real.arsinh (f / 650)) := by
  rw [hz2bark, if_neg (by decide), if_neg (by decide), if_pos rfl, fin_div _ _ (by norm_num), arcsinh,
    fin_mul]
theorem hz2bark_terhardt (f : ℝ) :
    hz2bark (fin f) "Terhardt" = fin (13.3 * Real.arctan (f * 0.75 / 1000)) := by
  rw [hz2bark, if_neg (by decide), if_neg (by decide), if_neg (by decide), if_pos rfl, fin_mul,
    fin_div _ _ (by norm_num), arctan, fin_mul]
theorem hz2bark_zwicker {f : ℝ} (hf : 0 < f) :
    hz2bark (fin f) "Zwicker" = fin (8.7 + 14.2 * Real.logb 10 (f / 1000)) := by
  rw [hz2bark, if_neg (by decide), if_neg (by decide), if_neg (by decide), if_neg (by decide), if_pos rfl,
    fin_div _ _ (by norm_num), log10_pos (by positivity), fin_mul, fin_add]
theorem hz2bark_traun (f : ℝ) :
    hz2bark (fin f) "Traunmueller" = fin (26.28 * f / (1 + 1960) - 0.53) := by
  rw [hz2bark, if_neg (by decide), if_neg (by decide), if_neg (by decide), if_neg (by decide),
    if_neg (by decide), if_pos rfl, fin_mul, fin_add, fin_div _ _ (by norm_num), fin_sub]

theorem bark2hz_wang (b : ℝ) : bark2hz (fin b) "Wang" = fin (600 * Real.sinh (b / 6)) := by
  rw [bark2hz, if_pos rfl, fin_div _ _ (by norm_num), sinh, fin_mul]
theorem bark2hz_tjomov (b : ℝ) : bark2hz (fin b) "Tjomov" = fin (600 * Real.sinh (b / 6.7) - 20) := by
  rw [bark2hz, if_neg (by decide), if_pos rfl, fin_div _ _ (by norm_num), sinh, fin_mul, fin_sub]
theorem bark2hz_schroeder (b : ℝ) : bark2hz (fin b) "Schroeder" = fin (650 * Real.sinh (b / 7)) := by
  rw [bark2hz, if_neg (by decide), if_neg (by decide), if_pos rfl, fin_div _ _ (by norm_num), sinh, fin_mul]
theorem bark2hz_terhardt (b : ℝ) :
    bark2hz (fin b) "Terhardt" = fin (1000 / 0.75 * Real.tan (b / 13)) := by
  rw [bark2hz, if_neg (by decide), if_neg (by decide), if_neg (by decide), if_pos rfl,
    fin_div _ _ (by norm_num), fin_div _ _ (by norm_num), tan, fin_mul]
theorem bark2hz_zwicker (b : ℝ) :
    bark2hz (fin b) "Zwicker" = fin ((10:ℝ) ^ ((b - 8.7) / 14.2 + 3)) := by
  rw [bark2hz, if_neg (by decide), if_neg (by decide), if_neg (by decide), if_neg (by decide), if_pos rfl,
    fin_sub, fin_div _ _ (by norm_num), fin_add, exp10]
theorem bark2hz_traun_mid {b : ℝ} (h1 : 2 ≤ b) (h2 : b ≤ 20.1) :
    bark2hz (fin b) "Traunmueller" = fin (1960 * ((b + 0.53) / (26.28 - b))) := by
  have hh : traunmuellerHelper (fin b) = fin b := by
    simp [traunmuellerHelper, ltb_fin, not_lt.mpr h1, not_lt.mpr h2]
  rw [bark2hz, if_neg (by decide), if_neg (by decide), if_neg (by decide), if_neg (by decide),
    if_neg (by decide), if_pos rfl, hh, fin_add, fin_sub, fin_div _ _ (by norm_num at h2 ⊢; linarith), fin_mul]

theorem logb_rpow_div {c m : ℝ} (hc : c ≠ 0) : c * Real.logb 10 ((10:ℝ) ^ (m / c)) = m := by
  rw [Real.logb_rpow (by norm_num) (by norm_num)]; field_simp

theorem rpow_logb_div {c x : ℝ} (hc : c ≠ 0) (hx : 0 < x) :
    (10:ℝ) ^ (c * Real.logb 10 x / c) = x := by
  rw [mul_div_cancel_left₀ _ hc, Real.rpow_logb (by norm_num) (by norm_num) hx]

end Model
end Spafe
