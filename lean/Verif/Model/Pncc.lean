import Verif.Model.Features

/-! Model of `spafe/features/pncc.py`, on extended floats. -/

namespace Spafe
namespace Model

open XF

/-- `medium_time_power_calculation`, `pncc.py:28-56`. The slice `P[max(0, m-M) : min(rows, m+M+1), l]` summed by the
builtin `sum`. -/
noncomputable def mediumTimePower (P : XMat) (M : ℕ := 2) : XMat :=
  (List.range P.length).map fun (m : ℕ) => (List.range (Np.ncols P)).map fun (l : ℕ) =>
    fin (1 / (2 * (M : ℝ) + 1)) * ∑ i ∈ Finset.Ico (m - M) (min P.length (m + M + 1)), Np.at2 P i l

/-- One step of the asymmetric filter, `pncc.py:88-95`: previous output, current input. -/
noncomputable def asymStep (lmA lmB : ℝ) (prev x : XF ℝ) : XF ℝ :=
  let q1 := fin lmA * prev + fin (1 - lmA) * x
  let q2 := fin lmB * prev + fin (1 - lmB) * x
  if leb prev x then q1 else q2

/-- A loop over rows that computes each output row from the previous output row and the current input row. -/
def scanRows {β : Type} (step : β → β → β) : List β → List (List β) → List (List β)
  | _, [] => []
  | prev, r :: rs => List.zipWith step prev r :: scanRows step (List.zipWith step prev r) rs

/-- The row read as `Q_tilde_out[-1]` in the first iteration (`m = 0`, line 88): the last row of the freshly
initialised array, which is zero unless there is only one row (then it is the row set in line 84). -/
noncomputable def asymInit (Q : XMat) : List (XF ℝ) :=
  if Q.length = 1 then (Q.headD []).map (fin 0.9 * ·) else (Q.headD []).map fun _ => 0

/-- `asymmetric_lowpass_filtering`, `pncc.py:59-96`. Line 84 raises `IndexError` when there is no row. -/
noncomputable def asymmetricLowpass (Q : XMat) (lmA : ℝ := 0.999) (lmB : ℝ := 0.5) : Py XMat :=
  if Q.length = 0 then .error .indexError
  else .ok (scanRows (asymStep lmA lmB) (asymInit Q) Q)

/-- The online peak power, `pncc.py:124-129`. -/
noncomputable def onlinePeak (lam : ℝ) : XMat → XMat
  | [] => []
  | q :: qs => q :: scanRows (fun p x => max2 (fin lam * p) x) q qs

/-- One entry of line 130-134: previous peak, current input. -/
noncomputable def maskStep (lam myu : ℝ) (p x : XF ℝ) : XF ℝ :=
  if leb (fin lam * p) x then x else fin myu * p

/-- `temporal_masking`, `pncc.py:99-136`. -/
noncomputable def temporalMasking (Q : XMat) (lam : ℝ := 0.85) (myu : ℝ := 0.2) : Py XMat :=
  match Q with
  | [] => .error .indexError
  | q :: qs => .ok (q :: List.zipWith (List.zipWith (maskStep lam myu)) (onlinePeak lam (q :: qs)) qs)

/-- `l1 = max(l - N, 1)`, `pncc.py:166` (integers in Python; `l - N` negative gives 1 as here). -/
def wsLo (N l : ℕ) : ℕ := max (l - N) 1

/-- `l2 = min(l + N, L)`, `pncc.py:167`. -/
def wsHi (N L l : ℕ) : ℕ := min (l + N) L

/-- One entry of `weight_smoothing`, `pncc.py:166-171`: `1 / float(l2 - l1 + 1)` is evaluated first
(`ZeroDivisionError`), then the ratios (`IndexError` beyond the last of the `c` channels). -/
noncomputable def wsEntry (c N L : ℕ) (R Q : XMat) (m l : ℕ) : Py (XF ℝ) :=
  if ((wsHi N L l : ℤ) - wsLo N l + 1) = 0 then .error .zeroDivisionError
  else if wsLo N l < wsHi N L l ∧ c < wsHi N L l then .error .indexError
  else .ok (fin (1 / (((wsHi N L l : ℤ) - wsLo N l + 1 : ℤ) : ℝ)) *
    ∑ k ∈ Finset.Ico (wsLo N l) (wsHi N L l), Np.at2 R m k / Np.at2 Q m k)

/-- `weight_smoothing`, `pncc.py:139-173`, for `R` and `Q` of the same shape. -/
noncomputable def weightSmoothing (R Q : XMat) (nfilts : ℕ := 128) (N : ℕ := 4) : Py XMat :=
  (List.range R.length).mapM fun (m : ℕ) =>
    (List.range (Np.ncols R)).mapM fun (l : ℕ) => wsEntry (Np.ncols R) N nfilts R Q m l

/-- The running mean power `myu`, `pncc.py:201-208`: `myu[0] = 0.0001`, then the recursion over the remaining rows;
division by `L = 0` raises, as does a row with fewer than `L` entries. -/
noncomputable def myuLoop (lam : ℝ) (L : ℕ) : XF ℝ → XMat → Py (List (XF ℝ))
  | _, [] => .ok []
  | prev, t :: ts =>
    if L = 0 then .error .zeroDivisionError
    else if t.length < L then .error .indexError
    else do
      let v := fin lam * prev + fin ((1 - lam) / L) * (t.take L).sum
      let vs ← myuLoop lam L v ts
      .ok (v :: vs)

/-- `mean_power_normalization`, `pncc.py:176-212`: `U = k * T / myu[:, None]`. -/
noncomputable def meanPowerNormalization (T : XMat) (lam : ℝ := 0.999) (nfilts : ℕ := 80) (k : ℝ := 1) : Py XMat :=
  match T with
  | [] => .error .indexError
  | t :: ts => do
    let myu ← myuLoop lam nfilts (fin 0.0001) ts
    .ok (List.zipWith (fun r u => r.map fun v => fin k * v / u) (t :: ts) (fin 0.0001 :: myu))

/-- Pointwise combination of two matrices of the same shape. -/
def mapMat2 {β γ δ : Type} (f : β → γ → δ) (x : List (List β)) (y : List (List γ)) : List (List δ) :=
  List.zipWith (List.zipWith f) x y

/-- `asymmetric_noise_suppression_with_temporal_masking`, `pncc.py:215-271`. -/
noncomputable def noiseSuppression (Q : XMat) (threshold : ℝ := 0) : Py XMat := do
  let le ← asymmetricLowpass Q 0.999 0.5
  let sub := mapMat2 (fun q e => q - e) Q le
  let q0 := sub.map fun r => r.map fun v => if ltb v (fin threshold) then fin 0 else v
  let f ← asymmetricLowpass q0
  let tm ← temporalMasking q0
  let exc := mapMat2 (fun q e => leb (fin 2 * e) q) Q le
  .ok (mapMat2 (fun (b : Bool) (p : XF ℝ × XF ℝ) => if b then p.1 else p.2) exc (mapMat2 Prod.mk tm f))

/-- `P`, `pncc.py:401-425`: `(1/nfft) * |X| ** power` times the bank. -/
noncomputable def pnccPower (a : Args) (power : ℝ) (fb : XMat) (sig : List ℝ) : Py XMat := do
  let windows ← frontEnd a a.preEmphCoeff sig
  let ft ← absFft a.nfft windows
  if ∀ r ∈ fb, r.length = a.nfft / 2 + 1 then
    .ok (Np.dotT (ft.map fun r => r.map fun v => fin (1 / (a.nfft : ℝ)) * XF.pow (fin v) power) fb)
  else .error .valueError

/-- The medium-time processing and power-law non-linearity, `pncc.py:429-444`. -/
noncomputable def pnccNonlin (nfilts : ℕ) (P : XMat) : Py XMat := do
  let Q := mediumTimePower P
  let R ← noiseSuppression Q
  let S ← weightSmoothing R Q nfilts
  let T := mapMat2 (fun p s => p * s) P S
  let U ← meanPowerNormalization T (nfilts := nfilts)
  .ok (U.map fun r => r.map fun v => XF.pow v (1 / 15))

/-- `pncc`, `pncc.py:274-457` (`power = 2` by default; no `use_energy`). -/
noncomputable def pncc (a : Args) (power : ℝ) (sig : List ℝ) : Py XMat :=
  if a.nfilts < a.numCeps then .error (.parameterError ErrorMsgs.nfilts)
  else do
    let fb ← gammaBankOf a
    let P ← pnccPower a power fb sig
    let V ← pnccNonlin a.nfilts P
    cepstralTail { a with useEnergy := false } [] V

end Model
end Spafe
