import Verif.Model.Simulate
import Mathlib.Algebra.Order.Floor.Ring
import Mathlib.Algebra.Order.Field.Basic

/-! Model of the time-series and Hawkes simulators of cdmir/datasets/simlulators.py; see Verif/Model/Simulate.lean for what is a
parameter. -/

namespace Cdmir.Sim
open BigOperators

section Lag
variable {K : Type} [CommRing K] [DecidableEq K]

/-- One row of a time series. -/
abbrev Row (n : Nat) (K : Type) := Fin n → K

/-- L359-367 (and L450-458, L532-553): the first rows, then `length` steps; every step sees the window `value_lags`, appends its row
to the result and to the window, and drops the oldest row of the window (L321, L413, L480). -/
def lagLoop {n : Nat} (step : Nat → List (Row n K) → Except Err (Row n K)) (start : List (Row n K)) (length : Nat) :
    Except Err (List (Row n K)) := do
  let r ← (List.range length).foldlM (fun (st : List (Row n K) × List (Row n K)) t => do
    let v ← step t st.1
    pure ((st.1 ++ [v]).drop 1, st.2 ++ [v])) (start, start)
  pure r.2

/-- What is drawn for a time series: the standard noise of the first rows and of every step, the binomial draw of every step. -/
structure LagDraw (n : Nat) (K : Type) where
  start : NoiseType → Nat × Fin n → K
  noise : Nat → NoiseType → Fin n → K
  binomial : Nat → Fin n → K → K
  sigmoid : K → K

/-- L311-313: the sum over the lags of `value_lags[lag] @ weight_mats[lag]`. -/
def lagSum {n : Nat} (W : Nat → Matrix (Fin n) (Fin n) K) (maxLag : Nat) (win : List (Row n K)) : Row n K :=
  (List.range maxLag).foldl (fun acc lag => fun c => acc c + ∑ i, (win.getD lag (fun _ => 0)) i * W lag i c) (fun _ => 0)

/-- L307-323: `TimeLagSimulator._simulate_single_time_linear_anm` at step `t`. -/
def stepLinear {n : Nat} (d : LagDraw n K) (nt : NoiseType) (scale : Fin n → K) (W : Nat → Matrix (Fin n) (Fin n) K) (maxLag : Nat)
    (t : Nat) (win : List (Row n K)) : Except Err (Row n K) :=
  let v := lagSum W maxLag win
  if nt = .logistic then pure (fun c => d.binomial t c (d.sigmoid (v c)))
  else do
    let noise ← genNoise (d.noise t) nt scale
    pure (fun c => v c + noise c)

/-- The first `max_lag` rows (L360-362): scaled noise. -/
def startRows {n : Nat} (draw : NoiseType → Nat × Fin n → K) (nt : NoiseType) (scale : Fin n → K) (maxLag : Nat) :
    Except Err (List (Row n K)) := do
  let x ← genNoise draw nt (fun p => scale p.2)
  pure ((List.range maxLag).map (fun k c => x (k, c)))

/-- L325-370: `TimeLagSimulator.simulate_linear_anm`; `lags` is `weight_mats.shape[0]`. -/
def lagLinear {n : Nat} (d : LagDraw n K) (lags : Nat) (W : Nat → Matrix (Fin n) (Fin n) K) (maxLag length : Option Nat)
    (nt : NoiseType) (scale : Scale K) : Except Err (List (Row n K)) := do
  if nt = .other ∨ nt = .poisson then throw .assertion
  if maxLag.getD lags ≠ lags then throw .value
  let sv ← scaleVec n scale
  let st ← startRows d.start (if nt = .logistic then .gauss else nt) sv lags
  lagLoop (stepLinear d nt sv W lags) st (length.getD 5000)

/-- What is drawn by the non-linear time series: the weights of the functions are drawn at every step `t` (L379-395). -/
structure LagNonlinDraw (n : Nat) (K : Type) where
  start : NoiseType → Nat × Fin n → K
  noise : Nat → NoiseType → Fin n → K
  w1 : Nat → Fin n → Fin n → Nat → K
  w2 : Nat → Fin n → Nat → K
  m1 : Nat → Fin n → Fin n → K
  m2 : Nat → Fin n → Fin n → K
  m3 : Nat → Fin n → Fin n → K
  sigmoid : K → K
  tanh : K → K
  cos : K → K
  sin : K → K

/-- `np.multiply(value_lags, adj_mats[:, :, j])` (L410, L478). -/
def maskRows {n : Nat} (A : Nat → Matrix (Fin n) (Fin n) K) (j : Fin n) (win : List (Row n K)) : List (Row n K) :=
  win.zipIdx.map (fun (r, lag) => fun i => r i * A lag i j)

/-- The sum over all lags of the rows times a vector of weights. -/
def lagDot {n : Nat} (rows : List (Row n K)) (w : Fin n → K) : K := (rows.map (fun r => ∑ i, r i * w i)).sum

/-- L372-400: `TimeLagSimulator._simulate_single_value_nonlinear_anm` for node `j` at step `t`. -/
def lagNonlinValue {n : Nat} (d : LagNonlinDraw n K) (func : FuncType) (hidden : Option Nat) (t : Nat) (j : Fin n)
    (rows : List (Row n K)) : Except Err K :=
  if n = 0 then pure 0 else match func with
    | .mlp => pure ((List.range (hidden.getD 100)).map (fun h =>
        d.sigmoid (lagDot rows (fun i => d.w1 t j i h)) * d.w2 t j h)).sum
    | .mim => pure (d.tanh (lagDot rows (d.m1 t j)) + d.cos (lagDot rows (d.m2 t j)) + d.sin (lagDot rows (d.m3 t j)))
    | .other => throw .value

/-- L402-414: `TimeLagSimulator._simulate_single_time_nonlinear_anm`. -/
def stepNonlin {n : Nat} (d : LagNonlinDraw n K) (nt : NoiseType) (scale : Fin n → K) (A : Nat → Matrix (Fin n) (Fin n) K)
    (func : FuncType) (hidden : Option Nat) (t : Nat) (win : List (Row n K)) : Except Err (Row n K) := do
  let noise ← genNoise (d.noise t) nt scale
  let vals ← (List.finRange n).mapM (fun j => lagNonlinValue d func hidden t j (maskRows A j win))
  pure (fun j => vals.getD j.val 0 + noise j)

/-- L416-461: `TimeLagSimulator.simulate_nonlinear_anm`. -/
def lagNonlinear {n : Nat} (d : LagNonlinDraw n K) (lags : Nat) (A : Nat → Matrix (Fin n) (Fin n) K) (maxLag length : Option Nat)
    (nt : NoiseType) (scale : Scale K) (func : FuncType) (hidden : Option Nat) : Except Err (List (Row n K)) := do
  if nt = .other ∨ nt = .logistic ∨ nt = .poisson then throw .assertion
  if func = .other then throw .assertion
  if maxLag.getD lags ≠ lags then throw .value
  let sv ← scaleVec n scale
  let st ← startRows d.start nt sv lags
  lagLoop (stepNonlin d nt sv A func hidden) st (length.getD 5000)

/-- What is drawn by the post-nonlinear time series: the functions once (L544-546), the noise at every step. -/
structure LagPnlDraw (n : Nat) (K : Type) where
  start : NoiseType → Nat × Fin n → K
  noise : Nat → NoiseType → Nat × Fin n → K
  w1 : Fin n → Nat → Nat → Nat → K
  w2 : Fin n → Nat → Nat → Nat → K
  elem : Elem K

/-- `np.sum(rows, axis=0)` of rows of equal length; `width` is the length when there is no row. -/
def sumRows (width : Nat) : List (List K) → List K
  | [] => List.replicate width 0
  | r :: rs => rs.foldl (List.zipWith (· + ·)) r

/-- L476-479 for node `j`: `func1` of every masked row, added up over the lags, plus noise, through `func2`, added up. -/
def lagPnlValue {n : Nat} (d : LagPnlDraw n K) (f1 f2 : FnSpec) (h : Nat) (noise : Nat × Fin n → K) (j : Fin n)
    (rows : List (Row n K)) : Except Err K := do
  let us ← rows.mapM (fun r => runLayers (pnlLayers d.elem (d.w1 j) f1 n h h) ((List.finRange n).map r))
  let v ← addRow (sumRows h us) ((List.range h).map (fun c => noise (c, j)))
  let w ← runLayers (pnlLayers d.elem (d.w2 j) f2 h 1 h) v
  pure w.sum

/-- L469-481: `TimeLagSimulator._simulate_single_time_pnl`. -/
def stepPnl {n : Nat} (d : LagPnlDraw n K) (nt : NoiseType) (scale : Fin n → K) (A : Nat → Matrix (Fin n) (Fin n) K)
    (f1 f2 : FnSpec) (h : Nat) (t : Nat) (win : List (Row n K)) : Except Err (Row n K) := do
  let noise ← genNoise (d.noise t) nt (fun p => scale p.2)
  let vals ← (List.finRange n).mapM (fun j => lagPnlValue d f1 f2 h noise j (maskRows A j win))
  pure (fun j => vals.getD j.val 0)

/-- L483-556: `TimeLagSimulator.simulate_pnl`. Here `length` has no default: `range(None)` raises `TypeError`. -/
def lagPnl {n : Nat} (d : LagPnlDraw n K) (lags : Nat) (A : Nat → Matrix (Fin n) (Fin n) K) (maxLag length : Option Nat)
    (nt : NoiseType) (scale : Scale K) (f1 f2 : FnSpec) (hidden : Option Nat) : Except Err (List (Row n K)) := do
  if nt = .other ∨ nt = .logistic ∨ nt = .poisson then throw .assertion
  if !f1.accepted || !f2.accepted then throw .assertion
  if maxLag.getD lags ≠ lags then throw .value
  let sv ← scaleVec n scale
  let st ← startRows d.start nt sv lags
  let h := hidden.getD n
  if h ≠ n ∧ hiddenRefused f1 f2 then throw .value
  match length with
  | none => throw .type
  | some len => lagLoop (stepPnl d nt sv A f1 f2 h) st len

end Lag

/-! ### Hawkes processes -/

/-- L574: the pairs `(i, j)` with `i < j`, in the order of `itertools.product`. -/
def edgeSelect (n : Nat) : List (Nat × Nat) :=
  ((List.range n).flatMap (fun i => (List.range n).map (fun j => (i, j)))).filter (fun p => decide (p.1 < p.2))

section Hawkes
variable {K : Type} [Field K] [LinearOrder K] [FloorRing K]

/-- L573-577: `edge_mat`; `shuffled` is the shuffled list of pairs, `k` is `round(out_degree_rate * n)`. -/
def edgeMat (shuffled : List (Nat × Nat)) (k : Nat) (i j : Nat) : K :=
  if (i, j) ∈ shuffled.take k then 1 else 0

/-- L580-581: `alpha`, the drawn numbers on the edges. -/
def alphaMat (shuffled : List (Nat × Nat)) (k : Nat) (draw : Nat → Nat → K) (i j : Nat) : K :=
  edgeMat shuffled k i j * draw i j

/-- L583-588: the calls of `hawkes.set_kernel`. -/
def kernels (n : Nat) (alpha : Nat → Nat → K) : List (Nat × Nat × K) :=
  (List.range n).flatMap (fun i => (List.range n).filterMap (fun j =>
    if alpha i j = 0 then none else some (j, i, alpha i j)))

/-- A row of the event table. -/
structure Ev (K : Type) where
  seq : Nat
  time : K
  type : Nat
  deriving DecidableEq

/-- L590-602: the event table from the simulated time stamps of every sequence and type. -/
def eventRows (neNum n : Nat) (ts : Nat → Nat → List K) : List (Ev K) :=
  (List.range neNum).flatMap (fun s => (List.range n).flatMap (fun e => (ts s e).map (fun t => ⟨s, t, e⟩)))

/-- `.astype('int')`: cut off towards zero. -/
def truncInt (x : K) : ℤ := if 0 ≤ x then ⌊x⌋ else ⌈x⌉

/-- L606-607: the time stamps cut down to multiples of the interval. -/
def cutTimes (interval : Option K) (tab : List (Ev K)) : List (Ev K) :=
  match interval with
  | none => tab
  | some w => tab.map (fun r => { r with time := (truncInt (r.time / w) : K) * w })

/-- `Series.unique()`: the values in the order of their first appearance. -/
def uniq (l : List Nat) : List Nat := l.foldl (fun acc x => if x ∈ acc then acc else acc ++ [x]) []

/-- L609-611: `events`, by sequence and by type; `np.sort` of the types that occur. -/
def eventsOf (tab : List (Ev K)) : List (List (List K)) :=
  (uniq (tab.map Ev.seq)).map (fun s => ((uniq (tab.map Ev.type)).mergeSort (· ≤ ·)).map (fun e =>
    (tab.filter (fun r => decide (r.type = e ∧ r.seq = s))).map Ev.time))

end Hawkes

/-- L613-640: `HawkesSimulator.INSEM_data` from its draws: `x t` the counts of the cause, `thin t k` the `k`-th binomial draw at `t`
(0 or 1), `extra t` the poisson draw added. With no row at all the table has no columns and naming three columns raises
`ValueError`. -/
def insem (size : Nat) (x : Nat → Nat) (thin : Nat → Nat → Nat) (extra : Nat → Nat) : Except Err (List (Nat × Nat × Nat)) :=
  let y := fun t => ((List.range (x t)).map (thin t)).sum + extra t
  let rows := (List.range size).flatMap (fun t => List.replicate (x t) (0, t, 0)) ++
    (List.range size).flatMap (fun t => List.replicate (y t) (0, t, 1))
  if rows = [] then throw .value else pure rows

end Cdmir.Sim
