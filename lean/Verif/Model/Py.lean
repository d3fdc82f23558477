/-!
Python runtime pieces used by the model: exceptions, insertion-ordered dictionaries, sets as lists,
`itertools.combinations` / `itertools.permutations`.

Nothing in this file models a file of /repo; it models the Python built-ins and `itertools` functions that the
modelled files call (imports at cdmir/graph/digraph.py L1-2, cdmir/graph/pdag.py L2,
cdmir/discovery/constraint/adjacency_search.py L2).
-/

namespace Cdmir

/-- Python exceptions that the modelled code can raise.
Models: `assert` (graph.py L19, L55, L151, L154), `dict` subscripts (graph.py L58-59), `raise ValueError`,
calls with wrong types. Messages are dropped. `fuel` is not a Python exception: it marks that the step bound given to
the model of a `while` loop was used up (digraph.py L45, L67, L104; pdag.py L136). -/
inductive Err where
  | assertion
  | key
  | value
  | type
  | index
  | notImplemented
  | exception
  | fuel
  deriving DecidableEq, Repr

/-- Python `dict` with insertion order (used as `_adj` in cdmir/graph/graph.py L21 and its inner dictionaries L26,
L34), as an association list. -/
abbrev Dict (κ ν : Type _) := List (κ × ν)

section
variable {κ ν : Type _} [DecidableEq κ]

/-- `d.get(k)`: Python built-in, used through `d[k]` in cdmir/graph/graph.py L58-59, L67, L113, L116. -/
def dget : Dict κ ν → κ → Option ν
  | [], _ => none
  | (k, v) :: t, x => if k = x then some v else dget t x

/-- `d[k]` with `KeyError`: Python built-in, cdmir/graph/graph.py L58-59, L67, L113, L116. -/
def dgetE (d : Dict κ ν) (x : κ) : Except Err ν :=
  match dget d x with
  | some v => .ok v
  | none => .error .key

/-- `k in d`: Python built-in, cdmir/graph/graph.py L113. -/
def dhas (d : Dict κ ν) (x : κ) : Bool := (dget d x).isSome

/-- `d[k] = v` and `d.update({k: v})`: keeps the position of an existing key, appends a new one.
Python built-in, cdmir/graph/graph.py L26, L34, L58-59. -/
def dset : Dict κ ν → κ → ν → Dict κ ν
  | [], x, w => [(x, w)]
  | (k, v) :: t, x, w => if k = x then (k, w) :: t else (k, v) :: dset t x w

/-- `d.pop(k, None)`: Python built-in, cdmir/graph/graph.py L87, L90, L103-104. -/
def ddel : Dict κ ν → κ → Dict κ ν
  | [], _ => []
  | (k, v) :: t, x => if k = x then t else (k, v) :: ddel t x

/-- `d.keys()`: Python built-in, cdmir/graph/graph.py L116. -/
def dkeys (d : Dict κ ν) : List κ := d.map Prod.fst

end

section
variable {α : Type _} [DecidableEq α]

/-- `set(l)` as a duplicate-free list (first occurrences kept); the order carries no meaning.
Python built-in, cdmir/graph/graph.py L18. -/
def pySet (l : List α) : List α :=
  l.foldl (fun s x => if x ∈ s then s else s ++ [x]) []

/-- `s | t` / `s |= t` on sets as duplicate-free lists. Python built-in, adjacency_search.py L44-45, dag2cpdag.py
L16-17. -/
def pyUnion (s t : List α) : List α :=
  t.foldl (fun s x => if x ∈ s then s else s ++ [x]) s

end

/-- `itertools.combinations(l, k)` in its documented (lexicographic by position) order.
Used at pdag.py L14, L18, dag2cpdag.py L12, L14, adjacency_search.py L39, L84, graph_evaluation.py L28, L75. -/
def combinations {α : Type _} : List α → Nat → List (List α)
  | _, 0 => [[]]
  | [], _ + 1 => []
  | x :: xs, k + 1 => (combinations xs k).map (x :: ·) ++ combinations xs (k + 1)

/-- `itertools.combinations(l, 2)` as pairs, same order. Used at pdag.py L14, L18, dag2cpdag.py L12,
graph_evaluation.py L28-29, L75-76. -/
def pairs {α : Type _} : List α → List (α × α)
  | [] => []
  | x :: xs => xs.map (fun y => (x, y)) ++ pairs xs

/-- Helper of `perms2`: `pre` are the elements before the current one (itertools.permutations, used at
pdag.py L47, L73, L91, L113). -/
def perms2Aux {α : Type _} (pre : List α) : List α → List (α × α)
  | [] => []
  | x :: xs => (pre ++ xs).map (fun y => (x, y)) ++ perms2Aux (pre ++ [x]) xs

/-- `itertools.permutations(l, 2)` as pairs in its documented order. Used at pdag.py L47, L73, L91, L113,
dag2cpdag.py L10, adjacency_search.py L28, L33, L75, graph_evaluation.py L42-43, L56-59. -/
def perms2 {α : Type _} (l : List α) : List (α × α) := perms2Aux [] l

end Cdmir
