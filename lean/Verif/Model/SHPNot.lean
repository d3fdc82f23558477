import Verif.Model.SHP
import Verif.Model.EventTable

/-! Model of what the tests call on the class SHP beside the search: `EM_not_HC` (cdmir/discovery/point_process/SHP.py L212-274), and of
`get_interval_events` (L15-20), which nothing calls. -/

namespace Cdmir.SHP

variable {K : Type} [Field K] [LinearOrder K] {m n : Nat}

/-- SHP.py L235-267: the loop of `EM_not_HC`; it differs from `fitLoop` in `<=` at L246. `pa` is in the order in which the set is read. -/
def fitLoopLe (D : Data K m n) (log : K → K) (S : Fin m → Fin n → K) (I : Fin n → K) (i : Fin n) (pa : List (Fin n)) :
    Nat → Option K → (Fin n → K) → K → Except Err (Fit K n)
  | 0, _, _, _ => throw .fuel
  | fuel + 1, Li, alpha, mu =>
    let newLi := logLik D log S i alpha mu
    if (match Li with | none => false | some Li => decide (newLi - Li ≤ 17 / 2000)) then pure ⟨newLi, alpha, mu⟩
    else
      let mu' := muStep D S i alpha mu
      match D.dt with
      | none => if pa = [] then fitLoopLe D log S I i pa fuel (some newLi) alpha mu' else throw .type
      | some dt => fitLoopLe D log S I i pa fuel (some newLi) (alphaStep D S I i pa dt alpha mu) mu'

/-- SHP.py L218-221, L233-267: one fit of `EM_not_HC`. -/
def fitLe (D : Data K m n) (log kappa : K → K) (fuel : Nat) (i : Fin n) (pa : List (Fin n)) (alpha : Fin n → K) : Except Err (Fit K n) :=
  fitLoopLe D log (influence D kappa) (integral D kappa) i pa fuel none alpha 1

/-- SHP.py L223-269: one turn of the loop over event types. `order` is the order in which Python reads the set `Pa_i`; the key of the
record is the tuple in that order (L227, L252). -/
def notStep (fit : Fin n → List (Fin n) → (Fin n → K) → Except Err (Fit K n)) (order : List (Fin n) → List (Fin n)) (E : Edges n)
    (s : Hist K n × K × (Fin n → Fin n → K) × (Fin n → K)) (i : Fin n) :
    Except Err (Hist K n × K × (Fin n → Fin n → K) × (Fin n → K)) := do
  let (hist, L, alpha, mu) := s
  let pa := order (parents E i)
  let put (f : Fit K n) (hist : Hist K n) :=
    (hist, L + f.lik, (fun a b => if b = i ∧ a ∈ pa then f.alpha a else alpha a b), fun b => if b = i then f.mu else mu b)
  match hist.lookup (i, pa) with
  | some f => pure (put f hist)
  | none =>
    let f ← fit i pa fun j => alpha j i
    pure (put f (((i, pa), f) :: hist))

/-- SHP.py L212-274: `EM_not_HC`. The record and the generator are those of the object, shared with `EM`. `penalty` is the term
subtracted (L270-274); for AIC it is multiplied by `reg`, which `EM` does not do. -/
def emNot (fit : Fin n → List (Fin n) → (Fin n → K) → Except Err (Fit K n)) (order : List (Fin n) → List (Fin n))
    (draw : Nat → Fin n → Fin n → K) (penalty : Nat → K) (E : Edges n) (o : Obj K n) : Except Err (Result K n × Obj K n) := do
  let alpha : Fin n → Fin n → K := fun j i => if E j i then draw o.draws j i else 0
  let (hist, L, alpha, mu) ← (List.finRange n).foldlM (notStep fit order E) (o.hist, 0, alpha, fun _ => 1)
  pure (⟨some (L - penalty (edgeSum E)), alpha, mu⟩, ⟨hist, o.draws + 1⟩)

/-- `hash` of a small int is the int, and a set of at most four ints is a table of eight places: an int is put at its remainder, if that
place is free, and the set is read by places. This is the order of CPython for at most four ints with different remainders. -/
def cpython (l : List (Fin n)) : List (Fin n) := (List.range 8).flatMap fun r => l.filter fun x => x.val % 8 == r

/-- The penalties of `EM` (L206, L208-209; `notHC = false`) and of `EM_not_HC` (L270-274), for `edges` ones; `logN` is the logarithm of
the number of events. -/
def penaltyOf (notHC aic : Bool) (n : Nat) (reg logN : K) (edges : Nat) : K :=
  if aic then (if notHC then ((n + edges : Nat) : K) * reg else ((n + edges : Nat) : K))
  else ((n + edges : Nat) : K) * logN * reg

variable [FloorRing K]

/-- SHP.py L15-20: `get_interval_events`: the lists it returns, and the caller's table afterwards (L16 writes into the argument).
Sequences are in the order of their first event, types in increasing order. -/
def intervalEvents (d : K) (E : List (Event K)) : List (List (List K)) × List (Event K) :=
  let E' := E.map fun e => { e with time := (trunc (e.time / d) : K) * d }
  ((E'.map Event.seq).reverse.dedup.reverse.map fun j =>
    (names E').map fun i => (E'.filter fun e => e.type == i && e.seq == j).map Event.time, E')

end Cdmir.SHP
