import Verif.Model.Freq
import Verif.Model.TransZeros
import Mathlib.Analysis.SpecialFunctions.Complex.Log
import Mathlib.Algebra.Order.Floor.Defs
import Mathlib.Data.List.Sort

/-!
# The automatic frequency grid

Models the branch of `_get_freq_grid` for models with dynamics and no frequencies given (`/repo/harold/_frequency_domain.py:226-341`) and
`_loglog_points_around` (`/repo/harold/_frequency_domain.py:344-380`).

Simplifications: exact arithmetic; modes with equal natural frequency are kept in the order in which they are found (`argsort` may choose another one). A zero at
infinity makes frequencies `nan`; the grid is then `none`. `np.spacing` is a parameter, the number of samples is a natural number.
-/

namespace Harold

open Classical

/-- `np.spacing`; `eps` is `np.spacing(1.)`. -/
structure GridNum where
  eps : ℝ
  spacing : ℝ → ℝ

/-- The nonzero modes with nonnegative imaginary part, each once (`_frequency_domain.py:244-248`). -/
noncomputable def pzKeep (dt : Option ℝ) (l : List ℂ) : List ℂ :=
  (l.filter fun z => decide (z ≠ (if dt.isSome then 1 else 0) ∧ ¬ z.im < 0)).dedup

/-- The dummy modes (`_frequency_domain.py:250-255`). -/
noncomputable def pzDummy (dt : Option ℝ) (l : List ℂ) : List ℂ :=
  if l = [] then (if dt.isSome then [(0.01 : ℂ), -0.8] else [(0.001 : ℂ), 100]) else l

/-- Modes of discrete models are mapped to the left half plane (`_frequency_domain.py:257-265`). -/
noncomputable def pzMap (N : GridNum) (dt : Option ℝ) (l : List ℂ) : List ℂ :=
  match dt with
  | none => l
  | some dt => l.map fun z => if N.spacing 1000 < ‖z‖ then Complex.log z / dt else (Real.pi / dt : ℝ)

/-- The modes sorted by their natural frequencies (`_frequency_domain.py:267-269`). -/
noncomputable def gridModes (N : GridNum) (dt : Option ℝ) (l : List ℂ) : List ℂ :=
  (pzMap N dt (pzDummy dt (pzKeep dt l))).mergeSort fun x y => decide (‖x‖ ≤ ‖y‖)

/-- `damp_fact` (`_frequency_domain.py:270`). -/
noncomputable def dampFact (z : ℂ) : ℝ := |z.re| / ‖z‖

/-- `ud` and `ld` (`_frequency_domain.py:272-280`) from the smallest and the largest natural frequency. -/
noncomputable def gridBounds (N : GridNum) (dt : Option ℝ) (lo hi : ℝ) : ℝ × ℝ :=
  let ud : ℝ := ⌈Real.logb 10 (min hi (10 ^ 16))⌉ + 1
  let ld : ℝ := ⌊Real.logb 10 (max lo (N.spacing 100))⌋ - 1
  match dt with
  | none => (ud, ld)
  | some dt =>
    let ud := min ud (Real.logb 10 (Real.pi / dt))
    if ud - ld < 1 then (ud, (⌊ud - 2⌋ : ℝ)) else (ud, ld)

/-- `samples` (`_frequency_domain.py:281-287`). -/
noncomputable def gridSamples (samples : Option ℕ) (ud ld : ℝ) : ℤ :=
  match samples with
  | some n => n
  | none => 15 * ⌈ud - ld⌉

/-- `wp` (`_frequency_domain.py:296-298`). -/
noncomputable def peakFreq (z : ℂ) : ℝ := if dampFact z < 1 / 2 then ‖z‖ * √(1 - 2 * dampFact z ^ 2) else ‖z‖

/-- `fr` in the loop (`_frequency_domain.py:303-307`); `underdamp` is `inf` for damping factors from 0.5 on. -/
noncomputable def gridCentre (N : GridNum) (z : ℂ) : ℝ :=
  if dampFact z < 1 / 2 ∧ dampFact z < √N.eps then peakFreq z + 100 * √(N.spacing (peakFreq z)) else peakFreq z

/-- `num` in the loop (`_frequency_domain.py:309-313`). -/
noncomputable def gridNum (N : GridNum) (z : ℂ) : ℕ :=
  if dampFact z < 1 / 2 then (max 5 (5 - ⌈Real.logb 10 (max (dampFact z) √N.eps)⌉)).toNat else 3

/-- `np.geomspace(a, b, n, endpoint)` for numbers of equal sign. -/
noncomputable def geomspace (a b : ℝ) (n : ℕ) (endpoint : Bool) : List ℝ :=
  (List.range n).map fun k : ℕ => a * (b / a) ^ ((k : ℝ) / ((if endpoint then n - 1 else n : ℕ) : ℝ))

/-- The points to the left of `x` (`_frequency_domain.py:369-375`). -/
noncomputable def pointsLeft (x : ℝ) (num : ℕ) : List ℝ :=
  let shr : ℝ := |(⌈Real.logb 10 x⌉ : ℝ)| + 1
  (geomspace (Real.logb 10 (x * (1 - 0.15)) - shr) (Real.logb 10 x - shr) num true).map fun y => (10 : ℝ) ^ (y + shr)

/-- The points to the right of `x` (`_frequency_domain.py:369-379`). -/
noncomputable def pointsRight (x : ℝ) (num : ℕ) : List ℝ :=
  let shl : ℝ := |(⌈Real.logb 10 x⌉ : ℝ)| + 1
  (geomspace (Real.logb 10 x + shl) (Real.logb 10 (x * (1 + 0.15)) + shl) num false).map fun y => (10 : ℝ) ^ (y - shl)

/-- `_loglog_points_around(x, w, spread=0.15, num=num)` (`_frequency_domain.py:344-380`). -/
noncomputable def pointsAround (x : ℝ) (w : Option ℝ) (num : ℕ) : List ℝ :=
  (match w with
  | none => pointsLeft x num
  | some w => (pointsLeft x num).filter fun y => decide (w * 1.17876863 < y)) ++ pointsRight x num

/-- The loop over the modes (`_frequency_domain.py:301-317`). -/
noncomputable def gridExtra (N : GridNum) (modes : List ℂ) : List ℝ :=
  modes.foldl (fun w z => w ++ pointsAround (gridCentre N z) w.getLast? (gridNum N z)) []

/-- The points next to the Nyquist frequency (`_frequency_domain.py:320-322`). -/
noncomputable def gridNyquist (dt : Option ℝ) (ud : ℝ) : List ℝ :=
  if dt.isSome then logspace (ud + Real.logb 10 0.75) (0.995 * ud) 15 else []

/-- Frequencies close to the Nyquist frequency and above it are dropped (`_frequency_domain.py:329-330`); `w` is sorted and not empty. -/
noncomputable def gridCut (dt : Option ℝ) (w : List ℝ) : List ℝ :=
  match dt with
  | none => w
  | some dt => if 0.995 * (Real.pi / dt) < w.getLastD 0 then w.filter fun x => decide (x ≤ 0.995 * (Real.pi / dt)) else w

/-- The frequencies of undamped modes are removed (`_frequency_domain.py:333-334`). -/
noncomputable def gridDrop (N : GridNum) (modes : List ℂ) (w : List ℝ) : List ℝ :=
  (modes.filter fun z => decide (dampFact z < √N.eps)).foldl (fun w z => w.filter fun x => decide (¬ |x - ‖z‖| < 100 * N.eps)) w

/-- The grid from the poles and zeros (`_frequency_domain.py:244-336`). `np.logspace` raises `ValueError` for a negative number of samples. -/
noncomputable def modesGrid (N : GridNum) (dt : Option ℝ) (samples : Option ℕ) (l : List ℂ) : Res (List ℝ) :=
  let modes := gridModes N dt l
  let b := gridBounds N dt ‖modes.headD 0‖ ‖modes.getLastD 0‖
  let n := gridSamples samples b.1 b.2
  if n < 0 then .error .value
  else .ok (gridDrop N modes (gridCut dt
    ((logspace b.2 b.1 n.toNat ++ (gridExtra N modes ++ gridNyquist dt b.1)).mergeSort fun x y => decide (x ≤ y))))

/-- `_get_freq_grid(G, None, samples, ., 'rad/s')` for a model with dynamics, from its poles and the zeros of its channels (`none` for a zero at infinity). -/
noncomputable def autoFreqGrid (N : GridNum) (dt : Option ℝ) (samples : Option ℕ) (poles : List ℂ) (zeros : List (Option ℂ)) : Res (Option (List ℝ)) :=
  if none ∈ zeros then .ok none
  else do
    let w ← modesGrid N dt samples (poles ++ zeros.filterMap id)
    .ok (some w)

/-- The zeros of the channels of a `State` model (`_frequency_domain.py:230-241`); `G[row, col]` has the matrices `a`, column `col` of `b`, row `row` of `c` and the entry of `d`. -/
noncomputable def channelZeros (T : TzNum) (G : StateM ℝ) : Res (List (Option ℂ)) := do
  let z ← finM fun r : Fin G.d.r => do
    let z ← finM fun c : Fin G.d.c => transmissionZeros T
      ⟨G.a, G.b.slice 0 G.b.r c (c + 1), G.c.slice r (r + 1) 0 G.c.c, G.d.slice r (r + 1) c (c + 1)⟩
    .ok (List.ofFn z).flatten
  .ok (List.ofFn z).flatten

/-- `_get_freq_grid(G, None, samples, ., 'rad/s')` for a `State` model with dynamics. -/
noncomputable def stateFreqGrid (N : GridNum) (T : TzNum) (P : Numerics ℝ ℂ) (G : StateM ℝ) (samples : Option ℕ) : Res (Option (List ℝ)) := do
  let z ← channelZeros T G
  autoFreqGrid N G.dt samples (P.eig G.a) z

end Harold
