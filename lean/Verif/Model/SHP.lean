import Verif.Model.Py
import Mathlib.Algebra.BigOperators.Fin
import Mathlib.Algebra.Field.Rat
import Mathlib.Algebra.Order.Field.Rat
import Mathlib.Data.List.FinRange

/-! Model of the structural Hawkes process search of cdmir/discovery/point_process/SHP.py. Floats are elements of a field; `log`
and `exp` are parameters, the random draws are a parameter, networkx's acyclicity test is a parameter. NaN is not modelled. -/

namespace Cdmir.SHP
open BigOperators

variable {K : Type} [Field K] [LinearOrder K] {m n : Nat}

/-- The tables of `__init__` (SHP.py L63-85) that the search reads: `m` rows (one for each sequence and time stamp, in the order of
`X_df`), `n` event types. `dt = none` is `time_interval=None`, the default. -/
structure Data (K : Type) (m n : Nat) where
  seq : Fin m → Nat
  time : Fin m → K
  X : Fin m → Fin n → K
  /-- `T_each_seq` (L66-67) -/
  last : Nat → K
  /-- `T` (L65) -/
  T : K
  decay : K
  dt : Option K

/-- SHP.py L97-111: the rows `next_ind` reached from row `ind`, `fuel` rows at most: the rows of the same sequence up to the first
with a factor below 0.0001. `kappa` is L115-117. -/
def reached (D : Data K m n) (kappa : K → K) (ind : Fin m) : Nat → Fin m → List (Fin m × K)
  | 0, _ => []
  | fuel + 1, next =>
    if D.seq next = D.seq ind then
      let kap := kappa (D.time next - D.time ind)
      if kap < 1 / 10000 then []
      else (next, kap) :: (if h : next.val + 1 < m then reached D kappa ind fuel ⟨next.val + 1, h⟩ else [])
    else []

/-- SHP.py L88-112: `sum_t_X_kappa`. -/
def influence (D : Data K m n) (kappa : K → K) (t : Fin m) (j : Fin n) : K :=
  ((List.finRange m).map fun ind => ((reached D kappa ind m ind).map fun p => if p.1 = t then D.X ind j * p.2 else 0).sum).sum

/-- SHP.py L94-95, L198: a column sum of `decay_effect_integral_to_T`. -/
def integral (D : Data K m n) (kappa : K → K) (j : Fin n) : K :=
  ∑ t, D.X t j * ((1 - kappa (D.last (D.seq t) - D.time t)) / D.decay)

/-- SHP.py L171: `lambda_for_i`. -/
def rate (S : Fin m → Fin n → K) (alpha : Fin n → K) (mu : K) (t : Fin m) : K := (∑ j, S t j * alpha j) + mu

/-- SHP.py L171-177: `new_Li`. -/
def logLik (D : Data K m n) (log : K → K) (S : Fin m → Fin n → K) (i : Fin n) (alpha : Fin n → K) (mu : K) : K :=
  -((∑ j, (∑ t, 1 / D.decay * D.X t j) * alpha j) + mu * D.T) + ∑ t, D.X t i * log (rate S alpha mu t)

/-- SHP.py L192: the update of `mu[i]`. -/
def muStep (D : Data K m n) (S : Fin m → Fin n → K) (i : Fin n) (alpha : Fin n → K) (mu : K) : K :=
  (∑ t, mu / rate S alpha mu t * D.X t i) / D.T

/-- SHP.py L194-202: the update of `alpha[:, i]` with `time_interval = dt`. -/
def alphaStep (D : Data K m n) (S : Fin m → Fin n → K) (I : Fin n → K) (i : Fin n) (pa : List (Fin n)) (dt : K)
    (alpha : Fin n → K) (mu : K) (j : Fin n) : K :=
  if j ∈ pa then
    let lower := I j * dt
    if lower = 0 then 0 else (∑ t, alpha j * S t j / rate S alpha mu t * D.X t i) / lower
  else alpha j

/-- The result of a fit: `Li`, the coefficients of the parents, `mu[i]`. -/
structure Fit (K : Type) (n : Nat) where
  lik : K
  alpha : Fin n → K
  mu : K

/-- SHP.py L167-202: the loop that fits one event type; `Li = none` is minus infinity. Without a time interval L198 raises a
`TypeError` as soon as there is a parent. -/
def fitLoop (D : Data K m n) (log : K → K) (S : Fin m → Fin n → K) (I : Fin n → K) (i : Fin n) (pa : List (Fin n)) :
    Nat → Option K → (Fin n → K) → K → Except Err (Fit K n)
  | 0, _, _, _ => throw .fuel
  | fuel + 1, Li, alpha, mu =>
    let newLi := logLik D log S i alpha mu
    if (match Li with | none => false | some Li => decide (newLi - Li < 17 / 2000)) then pure ⟨newLi, alpha, mu⟩
    else
      let mu' := muStep D S i alpha mu
      match D.dt with
      | none => if pa = [] then fitLoop D log S I i pa fuel (some newLi) alpha mu' else throw .type
      | some dt => fitLoop D log S I i pa fuel (some newLi) (alphaStep D S I i pa dt alpha mu) mu'

/-- SHP.py L151-202: one fit, from the drawn coefficients and `mu = 1`. -/
def fit (D : Data K m n) (log kappa : K → K) (fuel : Nat) (i : Fin n) (pa : List (Fin n)) (alpha : Fin n → K) : Except Err (Fit K n) :=
  fitLoop D log (influence D kappa) (integral D kappa) i pa fuel none alpha 1

/-- An adjacency matrix of zeros and ones. -/
abbrev Edges (n : Nat) := Fin n → Fin n → Bool

/-- SHP.py L158: `np.where(edge_mat[:, i] == 1)[0]`. -/
def parents (E : Edges n) (i : Fin n) : List (Fin n) := (List.finRange n).filter fun j => E j i

/-- SHP.py L206, L208: `edge_mat.sum()`, the number of ones. -/
def edgeSum (E : Edges n) : Nat := ((List.finRange n).map fun i => (parents E i).length).sum

/-- SHP.py L55-57: `hist_likelihood`. -/
abbrev Hist (K : Type) (n : Nat) := List ((Fin n × List (Fin n)) × Fit K n)

/-- The state of the object between calls: the record and the number of draws made. -/
structure Obj (K : Type) (n : Nat) where
  hist : Hist K n
  draws : Nat

/-- The triple returned by `EM`; `lik = none` is minus infinity. -/
structure Result (K : Type) (n : Nat) where
  lik : Option K
  alpha : Fin n → Fin n → K
  mu : Fin n → K

/-- SHP.py L157-204: one turn of the loop over event types; the accumulator holds the record, `L`, `alpha` and `mu`. -/
def emStep (fit : Fin n → List (Fin n) → (Fin n → K) → Except Err (Fit K n)) (E : Edges n)
    (s : Hist K n × K × (Fin n → Fin n → K) × (Fin n → K)) (i : Fin n) :
    Except Err (Hist K n × K × (Fin n → Fin n → K) × (Fin n → K)) := do
  let (hist, L, alpha, mu) := s
  let pa := parents E i
  let put (f : Fit K n) (hist : Hist K n) :=
    (hist, L + f.lik, (fun a b => if b = i ∧ a ∈ pa then f.alpha a else alpha a b), fun b => if b = i then f.mu else mu b)
  match hist.lookup (i, pa) with
  | some f => pure (put f hist)
  | none =>
    let f ← fit i pa fun j => alpha j i
    pure (put f (((i, pa), f) :: hist))

/-- SHP.py L142-209: `EM`. `penalty` is the term subtracted, for the number of ones (L206, L208-209). -/
def em (fit : Fin n → List (Fin n) → (Fin n → K) → Except Err (Fit K n)) (acyclic : Edges n → Bool)
    (draw : Nat → Fin n → Fin n → K) (penalty : Nat → K) (E : Edges n) (o : Obj K n) : Except Err (Result K n × Obj K n) :=
  if acyclic E then do
    let alpha : Fin n → Fin n → K := fun j i => if E j i then draw o.draws j i else 0
    let (hist, L, alpha, mu) ← (List.finRange n).foldlM (emStep fit E) (o.hist, 0, alpha, fun _ => 1)
    pure (⟨some (L - penalty (edgeSum E)), alpha, mu⟩, ⟨hist, o.draws + 1⟩)
  else pure (⟨none, fun _ _ => 0, fun _ => 0⟩, o)

/-- SHP.py L282-298: `one_step_change`. -/
def oneStep (E : Edges n) (j i : Fin n) (op : Nat) : Edges n :=
  if j = i then E
  else fun a b =>
    if (a, b) = (j, i) then op == 1 else if (a, b) = (i, j) then op != 0 && op != 1 else E a b

/-- SHP.py L277-280: `one_step_change_iterator`. -/
def changes (E : Edges n) : List (Edges n) :=
  (List.finRange n).flatMap fun j => (List.finRange n).flatMap fun i => (List.range 3).map fun op => oneStep E j i op

/-- `new_L > L` with minus infinity. -/
def better : Option K → Option K → Bool
  | none, _ => false
  | some _, none => true
  | some a, some b => decide (a > b)

/-- SHP.py L308-317: the pass over the candidates; the accumulator holds `result`, `edge_mat`, `stop_tag` and the object. -/
def pass (em : Edges n → Obj K n → Except Err (Result K n × Obj K n)) :
    List (Edges n) → Result K n → Edges n → Bool → Obj K n → Except Err (Result K n × Edges n × Bool × Obj K n)
  | [], r, E, stop, o => pure (r, E, stop, o)
  | N :: Ns, r, E, stop, o => do
    let (r', o) ← em N o
    if better r'.lik r.lik then pass em Ns r' N false o else pass em Ns r E stop o

/-- SHP.py L306-320: the loop, `fuel` passes at most. -/
def climb (em : Edges n → Obj K n → Except Err (Result K n × Obj K n)) :
    Nat → Result K n → Edges n → Obj K n → Except Err (Result K n × Edges n × Obj K n)
  | 0, _, _, _ => throw .fuel
  | fuel + 1, r, E, o => do
    let (r, E', stop, o) ← pass em (changes E) r E true o
    if stop then pure (r, E', o) else climb em fuel r E' o

/-- SHP.py L300-320: `Hill_Climb`. The code returns the first component; the final matrix and object are kept for the proofs. -/
def hillClimb (em : Edges n → Obj K n → Except Err (Result K n × Obj K n)) (fuel : Nat) (init : Edges n) (o : Obj K n) :
    Except Err (Result K n × Edges n × Obj K n) := do
  let (r, o) ← em init o
  climb em fuel r init o

end Cdmir.SHP
