import Verif.Model.Vis
import Verif.Lemmas.Converters
import Verif.Lemmas.ListAux

/-! Properties C87 and C88: the numbers behind the plots of `spafe/utils/vis.py`. -/

set_option linter.unusedSectionVars false

namespace Spafe
namespace Props
open Model XF

/-- `p` is the largest magnitude in the spectrogram. -/
def Peak (spec : List (List ℂ)) (p : ℝ) : Prop :=
  (∃ r ∈ spec, ∃ v ∈ r, ‖v‖ = p) ∧ ∀ r ∈ spec, ∀ v ∈ r, ‖v‖ ≤ p

theorem foldl_max_spec (l : List ℝ) (a : ℝ) :
    (l.foldl max a = a ∨ l.foldl max a ∈ l) ∧ a ≤ l.foldl max a ∧ ∀ b ∈ l, b ≤ l.foldl max a := by
  induction l generalizing a with
  | nil => simp
  | cons c l ih =>
    obtain ⟨h1, h2, h3⟩ := ih (max a c)
    simp only [List.foldl_cons]
    refine ⟨?_, (le_max_left _ _).trans h2, fun b hb => ?_⟩
    · rcases h1 with h1 | h1
      · rcases max_choice a c with h | h
        · left; rw [h1, h]
        · right; rw [h1, h]; exact List.mem_cons_self
      · right; exact List.mem_cons_of_mem _ h1
    · rcases List.mem_cons.mp hb with rfl | hb
      · exact (le_max_right _ _).trans h2
      · exact h3 b hb

theorem matMax_spec (m : List (List ℝ)) :
    (m.flatten = [] ∧ matMax m = .error .valueError) ∨
    ∃ p, matMax m = .ok p ∧ (∃ r ∈ m, p ∈ r) ∧ ∀ r ∈ m, ∀ v ∈ r, v ≤ p := by
  unfold matMax
  cases h : m.flatten with
  | nil => left; exact ⟨rfl, rfl⟩
  | cons a l =>
    right
    obtain ⟨h1, h2, h3⟩ := foldl_max_spec l a
    refine ⟨_, rfl, ?_, fun r hr v hv => ?_⟩
    · have : l.foldl max a ∈ m.flatten := by
        rw [h]; rcases h1 with h1 | h1
        · rw [h1]; exact List.mem_cons_self
        · exact List.mem_cons_of_mem _ h1
      exact List.mem_flatten.mp this
    · have : v ∈ m.flatten := List.mem_flatten.mpr ⟨r, hr, hv⟩
      rw [h] at this
      rcases List.mem_cons.mp this with rfl | hv
      · exact h2
      · exact h3 v hv

/-- Decibels below the peak `p`, with the floor `1e-10` on both. -/
noncomputable def decibel (p v : ℝ) : ℝ := 10 * Real.logb 10 (max 1e-10 v / max 1e-10 p)

theorem decibel_nonpos {p v : ℝ} (h : v ≤ p) : decibel p v ≤ 0 := by
  have hp : (0 : ℝ) < max 1e-10 p := lt_max_of_lt_left (by norm_num)
  have hv : (0 : ℝ) < max 1e-10 v := lt_max_of_lt_left (by norm_num)
  have : Real.logb 10 (max 1e-10 v / max 1e-10 p) ≤ 0 :=
    Real.logb_nonpos (by norm_num) (by positivity) (by rw [div_le_one hp]; exact max_le_max_left _ h)
  unfold decibel; linarith

theorem decibel_self (p : ℝ) : decibel p p = 0 := by
  have hp : (0 : ℝ) < max 1e-10 p := lt_max_of_lt_left (by norm_num)
  unfold decibel; rw [div_self hp.ne', Real.logb_one, mul_zero]

theorem dbImage_eq (spec : List (List ℂ)) (dbf : ℝ) :
    (spec.flatten = [] ∧ dbImage spec dbf = .error .valueError) ∨
    ∃ p, Peak spec p ∧ dbImage spec dbf = .ok (spec.map fun r => r.map fun v => max (decibel p ‖v‖) (-dbf)) := by
  unfold dbImage
  rcases matMax_spec (spec.map fun r => r.map fun v => ‖v‖) with ⟨h1, h2⟩ | ⟨p, hp, ⟨r, hr, hpr⟩, hle⟩
  · left
    refine ⟨?_, by simp only [h2]; rfl⟩
    rw [List.flatten_eq_nil_iff] at h1 ⊢
    intro r hr
    have := h1 _ (List.mem_map_of_mem hr)
    simpa using this
  right
  obtain ⟨r, hr1, rfl⟩ := List.mem_map.mp hr
  clear hr
  have hr := hr1
  obtain ⟨v, hv, rfl⟩ := List.mem_map.mp hpr
  have hle' : ∀ r ∈ spec, ∀ u ∈ r, ‖u‖ ≤ ‖v‖ := fun r hr u hu =>
    hle _ (List.mem_map_of_mem hr) _ (List.mem_map_of_mem hu)
  refine ⟨‖v‖, ⟨⟨r, hr, v, hv, rfl⟩, hle'⟩, ?_⟩
  simp only [hp, ok_bind]
  have e : ((spec.map fun r => r.map fun v => ‖v‖).map fun r => r.map fun u =>
      10 * Real.logb 10 (max 1e-10 u / max 1e-10 ‖v‖)) = spec.map fun r => r.map fun u => decibel ‖v‖ ‖u‖ := by
    rw [List.map_map]
    refine List.map_congr_left fun r _ => ?_
    rw [Function.comp_apply, List.map_map]; rfl
  rw [e]
  have hin : ∃ q ∈ (spec.map fun r => r.map fun u => decibel ‖v‖ ‖u‖), (0 : ℝ) ∈ q :=
    ⟨_, List.mem_map_of_mem hr, List.mem_map.mpr ⟨v, hv, decibel_self _⟩⟩
  have hle0 : ∀ q ∈ (spec.map fun r => r.map fun u => decibel ‖v‖ ‖u‖), ∀ d ∈ q, d ≤ 0 := by
    rintro q hq d hd
    obtain ⟨r, hr, rfl⟩ := List.mem_map.mp hq
    obtain ⟨u, hu, rfl⟩ := List.mem_map.mp hd
    exact decibel_nonpos (hle' r hr u hu)
  rcases matMax_spec (spec.map fun r => r.map fun u => decibel ‖v‖ ‖u‖) with ⟨h1, -⟩ | ⟨t, ht, ⟨q, hq, htq⟩, htle⟩
  · obtain ⟨q, hq, h0⟩ := hin
    have : (0 : ℝ) ∈ (spec.map fun r => r.map fun u => decibel ‖v‖ ‖u‖).flatten := List.mem_flatten.mpr ⟨q, hq, h0⟩
    rw [h1] at this; cases this
  · obtain ⟨q', hq', h0⟩ := hin
    have ht0 : t = 0 := le_antisymm (hle0 q hq t htq) (htle q' hq' 0 h0)
    rw [ht, ok_bind, ht0, zero_sub, List.map_map]
    congr 1
    refine List.map_congr_left fun r _ => ?_
    rw [Function.comp_apply, List.map_map]; rfl

/-- C87: for every spectrogram with at least one entry, real or complex, `show_spectrogram` draws an image of the same
shape; the entry for `v` is `10 log10(max(1e-10, |v|) / max(1e-10, p))`, where `p` is the largest magnitude, but not
less than `-dbf`. Without any entry it raises `ValueError`. -/
theorem C87_meaning (spec : List (List ℂ)) (dbf : ℝ) :
    ((∀ r ∈ spec, r = []) → dbImage spec dbf = .error .valueError) ∧
    ((∃ r ∈ spec, r ≠ []) → ∃ p, Peak spec p ∧ dbImage spec dbf =
      .ok (spec.map fun r => r.map fun v =>
        max (10 * Real.logb 10 (max 1e-10 ‖v‖ / max 1e-10 p)) (-dbf))) := by
  constructor
  · intro h
    rcases dbImage_eq spec dbf with ⟨-, h2⟩ | ⟨p, ⟨⟨r, hr, v, hv, -⟩, -⟩, -⟩
    · exact h2
    · rw [h r hr] at hv; cases hv
  · rintro ⟨r, hr, hne⟩
    rcases dbImage_eq spec dbf with ⟨h1, -⟩ | h
    · rw [List.flatten_eq_nil_iff] at h1; exact absurd (h1 r hr) hne
    · exact h

/-- C87: for `dbf ≥ 0` the largest value of the image is exactly 0 and no value is below `-dbf`. -/
theorem C87_range {spec : List (List ℂ)} {dbf : ℝ} {m : List (List ℝ)} (hd : 0 ≤ dbf) (h : dbImage spec dbf = .ok m) :
    (∃ r ∈ m, (0 : ℝ) ∈ r) ∧ ∀ r ∈ m, ∀ d ∈ r, -dbf ≤ d ∧ d ≤ 0 := by
  rcases dbImage_eq spec dbf with ⟨-, h2⟩ | ⟨p, ⟨⟨r, hr, v, hv, hvp⟩, hle⟩, h2⟩
  · rw [h2] at h; cases h
  rw [h2] at h
  injection h with h
  subst h
  refine ⟨⟨_, List.mem_map_of_mem hr, List.mem_map.mpr ⟨v, hv, ?_⟩⟩, fun q hq d hd' => ?_⟩
  · rw [hvp, decibel_self]; exact max_eq_left (by linarith)
  · obtain ⟨r, hr, rfl⟩ := List.mem_map.mp hq
    obtain ⟨u, hu, rfl⟩ := List.mem_map.mp hd'
    exact ⟨le_max_right _ _, max_le (decibel_nonpos (hle r hr u hu)) (by linarith)⟩

/-- C87: for `dbf ≤ 0` the image is constant, `-dbf` everywhere: nothing of the spectrogram is visible. -/
theorem C87_negative_range {spec : List (List ℂ)} {dbf : ℝ} {m : List (List ℝ)} (hd : dbf ≤ 0)
    (h : dbImage spec dbf = .ok m) : ∀ r ∈ m, ∀ d ∈ r, d = -dbf := by
  rcases dbImage_eq spec dbf with ⟨-, h2⟩ | ⟨p, ⟨-, hle⟩, h2⟩
  · rw [h2] at h; cases h
  rw [h2] at h
  injection h with h
  subst h
  intro q hq d hd'
  obtain ⟨r, hr, rfl⟩ := List.mem_map.mp hq
  obtain ⟨u, hu, rfl⟩ := List.mem_map.mp hd'
  exact max_eq_right ((decibel_nonpos (hle r hr u hu)).trans (by linarith))

/-- C87: a spectrogram whose magnitudes are all at most `1e-10` (for example a silent one) is drawn as 0 dB everywhere,
that is, at full brightness. -/
theorem C87_silence {spec : List (List ℂ)} {dbf : ℝ} {m : List (List ℝ)} (hd : 0 ≤ dbf)
    (hs : ∀ r ∈ spec, ∀ v ∈ r, ‖v‖ ≤ 1e-10) (h : dbImage spec dbf = .ok m) : ∀ r ∈ m, ∀ d ∈ r, d = 0 := by
  rcases dbImage_eq spec dbf with ⟨-, h2⟩ | ⟨p, ⟨⟨r, hr, v, hv, hvp⟩, hle⟩, h2⟩
  · rw [h2] at h; cases h
  rw [h2] at h
  injection h with h
  subst h
  have hp : p ≤ 1e-10 := hvp ▸ hs r hr v hv
  intro q hq d hd'
  obtain ⟨r, hr, rfl⟩ := List.mem_map.mp hq
  obtain ⟨u, hu, rfl⟩ := List.mem_map.mp hd'
  have hu' := hs r hr u hu
  unfold decibel
  rw [max_eq_left hu', max_eq_left hp, div_self (by norm_num), Real.logb_one, mul_zero]
  exact max_eq_left (by linarith)

/-- C87: the image does not change when the spectrogram is multiplied by a constant, as long as no magnitude is below
the floor `1e-10` before or after. -/
theorem C87_gain (spec : List (List ℂ)) (dbf : ℝ) (c : ℂ)
    (hs : ∀ r ∈ spec, ∀ v ∈ r, 1e-10 ≤ ‖v‖ ∧ 1e-10 ≤ ‖c * v‖) :
    dbImage (spec.map fun r => r.map (c * ·)) dbf = dbImage spec dbf := by
  rcases dbImage_eq spec dbf with ⟨h1, h2⟩ | ⟨p, ⟨⟨r, hr, v, hv, hvp⟩, hle⟩, h2⟩
  · rcases dbImage_eq (spec.map fun r => r.map (c * ·)) dbf with ⟨-, h3⟩ | ⟨p, ⟨⟨r, hr, v, hv, -⟩, -⟩, -⟩
    · rw [h2, h3]
    · rw [List.flatten_eq_nil_iff] at h1
      obtain ⟨r, hr1, rfl⟩ := List.mem_map.mp hr
      rw [h1 r hr1] at hv; cases hv
  · rcases dbImage_eq (spec.map fun r => r.map (c * ·)) dbf with ⟨h3, -⟩ | ⟨p', ⟨⟨r', hr', v', hv', hvp'⟩, hle'⟩, h3⟩
    · rw [List.flatten_eq_nil_iff] at h3
      have := h3 _ (List.mem_map_of_mem hr)
      rw [List.map_eq_nil_iff] at this
      rw [this] at hv; cases hv
    · rw [h2, h3, List.map_map]
      have hc : 0 < ‖c‖ := by
        have h := (hs r hr v hv).2
        rw [norm_mul] at h
        by_contra hn
        have : ‖c‖ = 0 := le_antisymm (not_lt.mp hn) (norm_nonneg _)
        rw [this, zero_mul] at h; norm_num at h
      obtain ⟨r', hr1, rfl⟩ := List.mem_map.mp hr'
      obtain ⟨v', hv1, rfl⟩ := List.mem_map.mp hv'
      have hpp : p' = ‖c‖ * p := by
        apply le_antisymm
        · rw [← hvp', norm_mul]; exact mul_le_mul_of_nonneg_left (hle r' hr1 v' hv1) hc.le
        · rw [← hvp, ← norm_mul]; exact hle' _ (List.mem_map_of_mem hr) _ (List.mem_map_of_mem hv)
      have hp1 : 1e-10 ≤ p := hvp ▸ (hs r hr v hv).1
      have hp2 : 1e-10 ≤ p' := by rw [hpp, ← hvp, ← norm_mul]; exact (hs r hr v hv).2
      congr 1
      refine List.map_congr_left fun q hq => ?_
      rw [Function.comp_apply, List.map_map]
      refine List.map_congr_left fun u hu => ?_
      rw [Function.comp_apply]
      have hu' := hs q hq u hu
      unfold decibel
      rw [max_eq_right hu'.1, max_eq_right hu'.2, max_eq_right hp1, max_eq_right hp2, hpp, norm_mul,
        mul_div_mul_left _ _ hc.ne']

/-- The hypotheses hold for a small complex spectrogram. -/
example : ∃ m, dbImage [[3, Complex.I], [0, 1]] 80 = .ok m ∧ (∃ r ∈ m, (0 : ℝ) ∈ r) ∧
    ∀ r ∈ m, ∀ d ∈ r, -80 ≤ d ∧ d ≤ 0 := by
  obtain ⟨p, -, h⟩ := (C87_meaning [[3, Complex.I], [0, 1]] 80).2 ⟨_, List.mem_cons_self, by simp⟩
  exact ⟨_, h, C87_range (by norm_num) h⟩

example : ∀ r ∈ ([[3, Complex.I], [2, 1]] : List (List ℂ)), ∀ v ∈ r, 1e-10 ≤ ‖v‖ ∧ 1e-10 ≤ ‖2 * v‖ := by
  intro r hr v hv
  simp only [List.mem_cons, List.not_mem_nil, or_false] at hr
  rcases hr with rfl | rfl <;> simp only [List.mem_cons, List.not_mem_nil, or_false] at hv <;>
    rcases hv with rfl | rfl <;> simp <;> norm_num

/-! ### `tick_function` -/

theorem tick_loops (X : List (XF ℝ)) :
    (∃ ms, X.mapM (fun y => hz2mel y "Oshaghnessy") = .ok ms) ∧
    ∃ es, X.mapM erbTick = .ok es :=
  ⟨⟨_, mapM_ok _ (fun y => fin 2595 * XF.log10 (fin 1 + y / fin 700)) X fun y _ => by rw [hz2mel, if_pos rfl]⟩,
    ⟨_, mapM_ok _ (fun y => fin erbA * XF.log10 (fin 1 + y * fin 0.00437)) X fun y _ => by simp [erbTick, hz2erb]⟩⟩

/-- C88: for every list of ticks and every name other than "mel", "bark" and "gamma" the ticks are formatted as they
are. In particular the name "erb" gives no erb conversion. -/
theorem C88_unconverted (fmt : XF ℝ → String) (X : List (XF ℝ)) (name : String) (h1 : name ≠ "mel") (h2 : name ≠ "bark")
    (h3 : name ≠ "gamma") : tickFunction fmt X name = .ok (X.map fmt) := by
  obtain ⟨⟨ms, hm⟩, ⟨es, he⟩⟩ := tick_loops X
  unfold tickFunction
  rw [hm, ok_bind]
  dsimp only
  rw [he, ok_bind, if_neg h1, if_neg h2, if_neg h3]

/-- C88: for the three names every tick `f ≥ 0` is converted from Hz to mel, Bark or erb and formatted, in place. -/
theorem C88_converted (fmt : XF ℝ → String) (xs : List ℝ) (hx : ∀ x ∈ xs, 0 ≤ x) :
    tickFunction fmt (xs.map fin) "mel" = .ok (xs.map fun x => fmt (fin (2595 * Real.logb 10 (1 + x / 700)))) ∧
    tickFunction fmt (xs.map fin) "bark" = .ok (xs.map fun x => fmt (fin (6 * Real.arsinh (x / 600)))) ∧
    tickFunction fmt (xs.map fin) "gamma" =
      .ok (xs.map fun x => fmt (fin (1000 * Real.log 10 / (24.7 * 4.37) * Real.logb 10 (1 + x * 0.00437)))) := by
  have hm : (xs.map fin).mapM (fun y => hz2mel y "Oshaghnessy") =
      .ok (xs.map fun x => fin (2595 * Real.logb 10 (1 + x / 700))) := by
    rw [List.mapM_map]
    exact mapM_ok _ _ _ fun x h => hz2mel_fin_osh (by linarith [hx x h])
  have he : (xs.map fin).mapM erbTick =
      .ok (xs.map fun x => fin (erbA * Real.logb 10 (1 + x * 0.00437))) := by
    rw [List.mapM_map]
    exact mapM_ok _ _ _ fun x h => by rw [Function.comp_apply, erbTick, hz2erb_fin (hx x h)]
  unfold tickFunction
  rw [hm]
  simp only [he, ok_bind]
  refine ⟨?_, ?_, ?_⟩
  · rw [if_pos trivial, List.map_map]; rfl
  · rw [if_neg (by decide), if_pos trivial, List.map_map, List.map_map]
    congr 1
    refine List.map_congr_left fun x _ => ?_
    simp only [Function.comp_apply, hz2bark_wang]
  · rw [if_neg (by decide), if_neg (by decide), if_pos trivial, List.map_map]; rfl

example (fmt : XF ℝ → String) : tickFunction fmt [fin 0, fin 700] "mel" =
    .ok [fmt (fin 0), fmt (fin (2595 * Real.logb 10 2))] := by
  have := (C88_converted fmt [0, 700] (by simp)).1
  simp only [List.map_cons, List.map_nil] at this
  rw [this]
  norm_num

end Props
end Spafe
