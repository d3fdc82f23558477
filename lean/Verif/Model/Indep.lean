import Verif.Model.DiGraph
import Verif.Model.Adjacency
import Mathlib.Data.List.Sort
import Mathlib.Data.Rat.Defs
import Mathlib.Algebra.Order.Field.Rat

/-!
Model of cdmir/utils/independence/basic_independence.py and cdmir/utils/independence/dsep.py. Cache keys are Python strings,
here lists of characters. The statistic `cal_stats` is a parameter: a function of the ids, possibly raising.
-/

namespace Cdmir

/-- `str(n)` for an int: Python built-in, basic_independence.py L9, L16, L19. -/
def pyStr (n : Int) : List Char :=
  if n < 0 then '-' :: Nat.toDigits 10 n.natAbs else Nat.toDigits 10 n.natAbs

/-- `', '.join(l)`: Python built-in, basic_independence.py L9. -/
def joinComma : List (List Char) → List Char
  | [] => []
  | [s] => s
  | s :: t => s ++ ',' :: ' ' :: joinComma t

/-- basic_independence.py L6-9: `_stringize_list`. -/
def stringizeList : Option (List Int) → List Char
  | none => []
  | some z => joinComma (z.map pyStr)

/-- basic_independence.py L12-19: `_get_cache_key`. `z` is what one iteration over the argument delivers. -/
def cacheKey (x y : Int) (z : Option (List Int)) : List Char :=
  let p := if x > y then (y, x) else (x, y)
  match z with
  | none => 'I' :: '(' :: pyStr p.1 ++ ',' :: ' ' :: pyStr p.2 ++ [')']
  | some z => 'I' :: '(' :: pyStr p.1 ++ ',' :: ' ' :: pyStr p.2 ++ ' ' :: '|' :: ' ' ::
      stringizeList (some (z.insertionSort (· ≤ ·))) ++ [')']

/-- basic_independence.py L27: `self.cache`. -/
abbrev Cache (V : Type) := Dict (List Char) V

/-- basic_independence.py L38-46: `itest`. `cal` is `cal_stats`, `truthy` the truth value of its results. The key is made
by iterating over `z_ids` once; `cal_stats` gets the same object afterwards. An exception of `cal_stats` leaves the cache as
it was. -/
def itest {V : Type} (truthy : V → Bool) (cal : Int → Int → Option (List Int) → Except Err V) (cache : Cache V) (x y : Int)
    (z : Option (ZArg Int)) : Except Err (V × Cache V) := do
  let key := cacheKey x y (z.map ZArg.first)
  match dget cache key with
  | some v =>
    if truthy v then pure (v, cache)
    else
      let v ← cal x y (z.map ZArg.later)
      pure (v, dset cache key v)
  | none =>
    let v ← cal x y (z.map ZArg.later)
    pure (v, dset cache key v)

section
variable {α : Type} [DecidableEq α]

/-- basic_independence.py L26: `{name: i for i, name in enumerate(self.var_names)}`. -/
def nameId (names : List α) : Dict α Int :=
  names.zipIdx.foldl (fun d p => dset d p.1 (p.2 : Int)) []

/-- basic_independence.py L32-35: `test`. `z` is what one iteration over the argument delivers. -/
def citTest {V : Type} (truthy : V → Bool) (cal : Int → Int → Option (List Int) → Except Err V) (names : List α)
    (cache : Cache V) (x y : α) (z : Option (List α)) : Except Err (V × Cache V) := do
  let i ← dgetE (nameId names) x
  let j ← dgetE (nameId names) y
  match z with
  | none => itest truthy cal cache i j none
  | some z =>
    let zs ← z.mapM (dgetE (nameId names))
    itest truthy cal cache i j (some (.reiterable zs))

/-- `l[i]` with Python's negative indices: used at dsep.py L14-15. -/
def pyIndex (l : List α) (i : Int) : Except Err α :=
  let k := if i < 0 then i + l.length else i
  if k < 0 then .error .index
  else match l[k.toNat]? with
    | some a => .ok a
    | none => .error .index

/-- dsep.py L13-18: `Dsep.cal_stats`. Iterating over `None` raises `TypeError`. Floats 1.0 and 0.0 as rationals. -/
def dsepCal (names : List α) (G : Graph α) (x y : Int) (z : Option (List Int)) : Except Err (ℚ × ℚ) :=
  match z with
  | none => .error .type
  | some z => do
    let zs ← z.mapM (pyIndex names)
    let a ← pyIndex names x
    let b ← pyIndex names y
    if ← G.isDSeparate a b (.reiterable zs) then pure (1, 1) else pure (0, 0)

/-- A `Dsep` object as the searches see it: `indep_test.test(u, v, z)[0]` (adjacency_search.py L39, L84). A pair is
always true. -/
def dsepTest (names : List α) (G : Graph α) : CITest α (Cache (ℚ × ℚ)) ℚ := fun u v z c => do
  let (r, c) ← citTest (fun _ => true) (dsepCal names G) names c u v (some z)
  pure (r.1, c)

end
end Cdmir
