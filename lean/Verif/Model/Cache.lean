import Verif.Model.Indep
import Mathlib.Data.Matrix.Mul

/-! Model of the caches keyed by `hash(str(...))`: cdmir/utils/local_score/_base.py, cdmir/utils/independence/_base.py and
cdmir/utils/kernel. `hash` is a parameter. Printed texts are lists of characters; the text of a numpy array is a parameter. -/

namespace Cdmir.Cached

section
variable {Q H R : Type} [DecidableEq H]

/-- local_score/_base.py L19-26, independence/_base.py L63-77, kernel/_base.py L16-23, kernel/gaussian.py L33-40: look the key up in
`cache_dict`, else compute and store. If the computation raises nothing is stored. -/
def call (key : Q → H) (f : Q → Except Err R) (cache : List (H × R)) (q : Q) : Except Err R × List (H × R) :=
  match cache.lookup (key q) with
  | some r => (.ok r, cache)
  | none =>
    match f q with
    | .ok r => (.ok r, (key q, r) :: cache)
    | .error e => (.error e, cache)

/-- The answers of one object to a sequence of calls (the caller goes on after an exception). -/
def answers (key : Q → H) (f : Q → Except Err R) : List (H × R) → List Q → List (Except Err R)
  | _, [] => []
  | cache, q :: qs => (call key f cache q).1 :: answers key f (call key f cache q).2 qs

end

/-- `str` of a list of ints: Python built-in. -/
def strList (l : List Int) : List Char := '[' :: joinComma (l.map pyStr) ++ [']']

/-- local_score/_base.py L19: `str((i, parent_i))` for a list of parents. -/
def localKey (q : Int × List Int) : List Char := '(' :: pyStr q.1 ++ ',' :: ' ' :: strList q.2 ++ [')']

/-- `str` of `None` or a list of ints. -/
def strOpt : Option (List Int) → List Char
  | none => ['N', 'o', 'n', 'e']
  | some l => strList l

/-- independence/_base.py L63: `str((x_ids, y_ids, z_ids))`. -/
def testKey (q : Option (List Int) × Option (List Int) × Option (List Int)) : List Char :=
  '(' :: strOpt q.1 ++ ',' :: ' ' :: strOpt q.2.1 ++ ',' :: ' ' :: strOpt q.2.2 ++ [')']

section
variable {α : Type} [DecidableEq α]

/-- The arguments that `__input_to_list` accepts; lists of mixed elements are not modelled. -/
inductive Input (α : Type) where
  | none
  | int (n : Int)
  | name (s : α)
  | ints (l : List Int)
  | names (l : List α)
  | array (l : List Int)

/-- independence/_base.py L23-24: `name_dict[name]`, the last index of a name. -/
def nameIndex (names : List α) (s : α) : Except Err Int :=
  match (names.reverse).idxOf? s with
  | some k => pure ((names.length : Int) - 1 - k)
  | none => throw .key

/-- independence/_base.py L32-53: `__input_to_list`. -/
def inputToList (names : List α) : Input α → Except Err (Option (List Int))
  | .none => pure none
  | .int n => pure (some [n])
  | .name s => do pure (some [← nameIndex names s])
  | .ints l => pure (if l.length = 0 then none else some l)
  | .names l => if l.length = 0 then pure none else do pure (some (← l.mapM (nameIndex names)))
  | .array l => pure (if l.length = 0 then none else some l)

/-- independence/_base.py L55-77: `_compute_p_value`. `hash` is Python's, `without` and `cond` are the two test functions. -/
def computeP {H R : Type} [DecidableEq H] (hash : List Char → H) (names : List α)
    (without : Option (List Int) → Option (List Int) → Except Err R) (cond : Option (List Int) → Option (List Int) → List Int → Except Err R)
    (cache : List (H × R)) (xs ys zs : Input α) : Except Err R × List (H × R) :=
  match (do pure (← inputToList names xs, ← inputToList names ys, ← inputToList names zs) :
      Except Err (Option (List Int) × Option (List Int) × Option (List Int))) with
  | .error e => (.error e, cache)
  | .ok q => call (fun q => hash (testKey q)) (fun q => match q.2.2 with | none => without q.1 q.2.1 | some z => cond q.1 q.2.1 z) cache q

end

section
variable {K : Type}

/-- A sample of rows. -/
abbrev Rows (K : Type) := List (List K)

/-- kernel/linear.py L16-17: `x.dot(y.T)`. -/
def linearKernel [Semiring K] (q : Rows K × Rows K) : Rows K :=
  q.1.map fun a => q.2.map fun b => (List.zipWith (· * ·) a b).sum

/-- What numpy prints of a sequence of more than 1000 numbers in all: three items at each end. -/
def edgeItems {β : Type} (l : List β) : List (Option β) :=
  if l.length ≤ 6 then l.map some else (l.take 3).map some ++ none :: (l.drop (l.length - 3)).map some

/-- The parts of an array that numpy prints when there are more than 1000 numbers. -/
def summary (A : Rows K) : List (Option (List (Option K))) := edgeItems (A.map edgeItems)

/-- kernel/_base.py L15-23 as called by kernel/linear.py L13-14: the cached linear kernel. `text` is numpy's text of an array. -/
def linearCalls [Semiring K] {H T : Type} [DecidableEq H] (text : Rows K → T) (hash : T × T → H) (qs : List (Rows K × Rows K)) :
    List (Except Err (Rows K)) :=
  answers (fun q => hash (text q.1, text q.2)) (fun q => .ok (linearKernel q)) [] qs

/-- kernel/gaussian.py L42-49: `exp(-0.5 * sq_dists * width)` for two samples. -/
def gaussKernel [Field K] (exp : K → K) (width : K) (q : Rows K × Rows K) : Rows K :=
  q.1.map fun a => q.2.map fun b => exp (-(1 / 2) * (List.zipWith (fun x y => (x - y) * (x - y)) a b).sum * width)

/-- kernel/gaussian.py L29-40: one call. `strategy = none` is `manual`, otherwise the rule for the width; the state is the width and the
cache. The key contains the width after the update. -/
def gaussCall [Field K] {H T : Type} [DecidableEq H] (exp : K → K) (text : Rows K → T) (hash : T × T × K → H)
    (strategy : Option (Rows K → K)) (s : K × List (H × Rows K)) (q : Rows K × Rows K) : Rows K × K × List (H × Rows K) :=
  let width := match strategy with | none => s.1 | some f => f q.1
  let key := hash (text q.1, text q.2, width)
  match s.2.lookup key with
  | some r => (r, width, s.2)
  | none => (gaussKernel exp width q, width, (key, gaussKernel exp width q) :: s.2)

/-- A sequence of calls; before each call the caller may assign `width`. -/
def gaussAnswers [Field K] {H T : Type} [DecidableEq H] (exp : K → K) (text : Rows K → T) (hash : T × T × K → H)
    (strategy : Option (Rows K → K)) : K × List (H × Rows K) → List (Option K × Rows K × Rows K) → List (Rows K)
  | _, [] => []
  | s, (w, q) :: qs =>
    let r := gaussCall exp text hash strategy (w.getD s.1, s.2) q
    r.1 :: gaussAnswers exp text hash strategy r.2 qs

/-- kernel/polynomial.py L15-16: `pow(const + x.dot(y.T), degree)`. -/
def polyKernel [Semiring K] (degree : Nat) (const : K) (q : Rows K × Rows K) : Rows K :=
  (linearKernel q).map fun r => r.map fun x => (const + x) ^ degree

/-- kernel/polynomial.py L28-29 with kernel/_base.py L15-23: the cached polynomial kernel. The key does not contain `degree` and `const`;
before each call the caller may assign them. -/
def polyAnswers [Semiring K] {H T : Type} [DecidableEq H] (text : Rows K → T) (hash : T × T → H) (qs : List ((Nat × K) × Rows K × Rows K)) :
    List (Except Err (Rows K)) :=
  answers (fun q => hash (text q.2.1, text q.2.2)) (fun q => .ok (polyKernel q.1.1 q.1.2 q.2)) [] qs

end
end Cdmir.Cached
