import Verif.Model.Filters
import Verif.Lemmas.ListAux
import Mathlib.Tactic.NormNum
import Mathlib.Tactic.LinearCombination
import Mathlib.Tactic.FieldSimp
import Mathlib.Tactic.Linarith

/-! Lemmas about the RASTA filter. -/

set_option linter.unusedSectionVars false

namespace Spafe
namespace Model

variable {α : Type} [Field α] [LinearOrder α] [IsStrictOrderedRing α]

theorem rastaNumer_eq : (rastaNumer : List α) = [1/5, 1/10, 0, -1/10, -1/5] := by
  simp only [rastaNumer, List.map_cons, List.map_nil, List.sum_cons, List.sum_nil]
  norm_num

theorem rasta_zi_length : (lfilterZiFir (rastaNumer : List α)).length = 4 := by
  simp [lfilterZiFir, rastaNumer]

/-- FIR history state: `z_k = Σ_{i>k} b_i h_{i-k}` for the last four samples `h1..h4`, plus `p` in slot 0. -/
def rastaState (h1 h2 h3 h4 p : α) : List α :=
  [1/10 * h1 - 1/10 * h3 - 1/5 * h4 + p, -(1/10) * h2 - 1/5 * h3, -(1/10) * h1 - 1/5 * h2, -(1/5) * h1]

theorem df2t_cons (b a z : List α) (x : α) (xs : List α) :
    df2t b a z (x :: xs) =
      ((df2tStep b a z x).1 :: (df2t b a (df2tStep b a z x).2 xs).1,
        (df2t b a (df2tStep b a z x).2 xs).2) := rfl

theorem df2t_length (b a : List α) (xs : List α) : ∀ z, (df2t b a z xs).1.length = xs.length := by
  induction xs with
  | nil => intro z; rfl
  | cons x xs ih => intro z; rw [df2t_cons]; simp [ih]

theorem firZi_length (b z x : List α) (hb : b ≠ []) :
    (firZi b z x).1.length = x.length ∧ (firZi b z x).2.length = b.length - 1 := by
  have : 0 < b.length := List.length_pos_iff.mpr hb
  simp only [firZi, List.length_take, List.length_drop, List.length_map, List.length_range]
  omega

theorem fir_four (z : List α) (hz : z.length = 4) (x0 x1 x2 x3 : α) :
    (firZi rastaNumer z [x0, x1, x2, x3]).2 = rastaState x3 x2 x1 x0 0 := by
  match z, hz with
  | [a, b, c, d], _ =>
    rw [rastaNumer_eq]
    simp only [firZi, rastaState]
    simp [List.range_succ]
    refine ⟨?_, ?_, ?_, ?_⟩ <;> ring

theorem iir_step (h1 h2 h3 h4 p x : α) :
    df2tStep rastaNumer [1, -(94/100)] (rastaState h1 h2 h3 h4 p) x =
      (1/5 * x + 1/10 * h1 - 1/10 * h3 - 1/5 * h4 + p,
        rastaState x h1 h2 h3 (94/100 * (1/5 * x + 1/10 * h1 - 1/10 * h3 - 1/5 * h4 + p))) := by
  rw [rastaNumer_eq]
  simp only [df2tStep, rastaState]
  simp [List.range_succ]
  refine ⟨by ring, by ring, by ring, ?_⟩
  ring

/-- The recursion performed by the IIR call, in index form. -/
theorem iir_spec (xs : List α) : ∀ (h1 h2 h3 h4 q : α) (n : ℕ), n < xs.length →
    let o := (df2t rastaNumer [1, -(94/100)] (rastaState h1 h2 h3 h4 (94/100 * q)) xs).1
    let X := h4 :: h3 :: h2 :: h1 :: xs
    o.getD n 0 = 1/5 * X.getD (n+4) 0 + 1/10 * X.getD (n+3) 0 - 1/10 * X.getD (n+1) 0
      - 1/5 * X.getD n 0 + 94/100 * (q :: o).getD n 0 := by
  induction xs with
  | nil => intro h1 h2 h3 h4 q n hn; simp at hn
  | cons x xs ih =>
    intro h1 h2 h3 h4 q n hn
    rw [df2t_cons, iir_step]
    cases n with
    | zero => simp
    | succ n =>
      have := ih x h1 h2 h3 (1/5 * x + 1/10 * h1 - 1/10 * h3 - 1/5 * h4 + 94/100 * q) n (by simpa using hn)
      simpa using this

/-- Output of one row, as a function of the row alone. -/
def rastaRowOut (r : List α) : List α :=
  List.replicate (min 4 r.length) 0 ++
    (df2t rastaNumer [1, -(94/100)]
      (rastaState (r.getD 3 0) (r.getD 2 0) (r.getD 1 0) (r.getD 0 0) 0) (r.drop 4)).1

theorem map_mul_zero (l : List α) : l.map (· * 0) = List.replicate l.length 0 := by
  simp [List.map_const']

theorem rastaRows_eq (x : List (List α)) (hx : ∀ r ∈ x, r ≠ []) :
    ∀ z : List α, z.length = 4 →
      rastaRows rastaNumer [1, -(94/100)] z x = .ok (x.map rastaRowOut) := by
  induction x with
  | nil => intro z _; rfl
  | cons r rs ih =>
    intro z hz
    have hr := hx r (by simp)
    have hlen : ∀ (l z : List α), (firZi rastaNumer z l).2.length = 4 := fun l z => by
      rw [(firZi_length _ _ _ (by simp [rastaNumer])).2]; rfl
    cases r with
    | nil => exact absurd rfl hr
    | cons x0 t =>
      rw [rastaRows]
      have hz' : (z.map (· * x0)).length = 4 := by simpa using hz
      have hrest := ih (fun r h => hx r (by simp [h])) _ (hlen ((x0 :: t).take 4) (z.map (· * x0)))
      simp only [hrest, List.map_cons]
      congr 2
      rw [rastaRowOut, map_mul_zero, (firZi_length _ _ _ (by simp [rastaNumer])).1]
      congr 1
      · simp; omega
      · match t with
        | [] => rfl
        | [_] => rfl
        | [_, _] => rfl
        | a :: b :: c :: t =>
          rw [show (x0 :: a :: b :: c :: t).take 4 = [x0, a, b, c] from rfl, fir_four _ hz']
          rfl

end Model
end Spafe
