import Verif.Model.Py
import Mathlib.Data.List.Basic

/-! Model of cdmir/discovery/funtional_based/one_component/olc.py, function `olc` with `surrogate_regression` and `fisher_test`.

A column of samples is an element of any type `Col`, a float an element of any type `F` with the four operations used and no law
assumed of them, so that infinity, NaN and rounding are included. The numerical routines (regression, KCI, singular value
decomposition, covariance, logarithm and chi-square distribution) are fields of `Env`; so are the cliques listed by networkx and the
iteration order of sets. Printing (`verbose`) is left out. -/

namespace Cdmir.Olc

/-- The routines called by olc.py. -/
structure Env (Col F P : Type) where
  /-- L73-74, L93-94: `reg.fit(features, x)` and then `x - reg.intercept_`. -/
  residual : Col → List Col → Col
  /-- L12-13: `normalize`. -/
  normalize : Col → Col
  /-- L59-60: `cal_pval`, the p-value of the KCI test. -/
  pval : Col → Col → P
  /-- L35-38: `fisher_test`. -/
  fisher : List P → P
  /-- L78, L99: `pval >= alpha`. -/
  geAlpha : P → Bool
  /-- L145, L176, L257: `pval >= beta`; false for the 0 that stands for a `LinAlgError` unless `beta <= 0`. -/
  geBeta : P → Bool
  /-- L143, L172, L254: `pval = 0`. -/
  zeroP : P
  /-- L107: `np.cov(data.T)`. -/
  cov : List Col → Nat → Nat → F
  /-- L224, L227, L230, L239, L245: entry `[0, 1]` of `np.cov(np.array([a, b]))`. -/
  cov2 : Col → Col → F
  /-- L232-234: the square root of `|temp_cov * xcum4(x, e, e, e) / xcum4(x, x, e, e)|`. -/
  start : F → Col → Col → F
  /-- L45-46: the last right singular vector of `sub_A.T` (`none`: `LinAlgError`). The argument is the list of rows of `sub_A`. -/
  svdLast : List (List F) → Option (List F)
  /-- L48: `omega /= omega[-1]`. -/
  divLast : List F → List F
  /-- L49: `np.dot(omega, columns)`. -/
  comb : List F → List Col → Col
  /-- L154, L161, L222, ...: `np.abs(a) < EPS`. -/
  small : F → Bool
  /-- L109: `find_cliques(UDG)`, for the nodes and edges of `UDG`. -/
  cliques : List Nat → List (Nat × Nat) → List (List Nat)
  /-- The iteration order of a set. -/
  order : List Nat → List Nat

variable {Col F P : Type}

/-- `UDG.has_edge(x, y)`. An undirected graph is the list of its edges. -/
def hasEdge (u : List (Nat × Nat)) (x y : Nat) : Bool := decide ((x, y) ∈ u ∨ (y, x) ∈ u)

/-- `UDG.remove_edge(x, y)`, called only for edges that are there. -/
def removeEdge (u : List (Nat × Nat)) (x y : Nat) : List (Nat × Nat) :=
  u.filter fun e => decide (¬ (e = (x, y) ∨ e = (y, x)))

/-- `CG.add_edge(x, y)`. -/
def addArc (c : List (Nat × Nat)) (x y : Nat) : List (Nat × Nat) := if (x, y) ∈ c then c else c ++ [(x, y)]

/-- `combinations(l, 2)`. -/
def pairs : List Nat → List (Nat × Nat)
  | [] => []
  | x :: l => l.map (fun y => (x, y)) ++ pairs l

/-- `permutations(range(n), 2)`. -/
def arrangements (n : Nat) : List (Nat × Nat) :=
  (List.range n).flatMap fun x => ((List.range n).filter fun y => decide (y ≠ x)).map fun y => (x, y)

/-- olc.py L62-63: the nodes of `UDG`. `add_edge` adds them, so there are none for `n = 1`. -/
def nodes (n : Nat) : List Nat := if n = 1 then [] else List.range n

/-- `UDG.neighbors(x)`, in the order in which they were added; `NetworkXError` for a node that is not in the graph. -/
def neighbors (n : Nat) (u : List (Nat × Nat)) (x : Nat) : Except Err (List Nat) :=
  if x ∈ nodes n then pure ((List.range n).filter fun y => hasEdge u x y) else throw .exception

/-- `data` (whose columns are overwritten), `UDG` and `CG`. -/
structure St (Col : Type) where
  data : Nat → Col
  udg : List (Nat × Nat)
  cg : List (Nat × Nat)

/-- olc.py L71-82: one ordered pair of the first phase, and whether it changed anything. -/
def step1 (E : Env Col F P) (s : St Col) (x y : Nat) : St Col × Bool :=
  if hasEdge s.udg x y then
    let res := E.residual (s.data x) [s.data y]
    if E.geAlpha (E.pval res (s.data y)) then
      (⟨Function.update s.data x (E.normalize res), removeEdge s.udg x y, addArc s.cg y x⟩, true)
    else (s, false)
  else (s, false)

/-- olc.py L69-84: one run through the ordered pairs. -/
def pass1 (E : Env Col F P) (n : Nat) (s : St Col) : St Col × Bool :=
  (arrangements n).foldl (fun r p => let q := step1 E r.1 p.1 p.2; (q.1, r.2 || q.2)) (s, false)

/-- olc.py L67-84: the first `while`. `fuel` bounds the number of runs. -/
def phase1 (E : Env Col F P) (n : Nat) : Nat → St Col → Except Err (St Col)
  | 0, _ => throw .fuel
  | fuel + 1, s =>
    let r := pass1 E n s
    if r.2 then phase1 E n fuel r.1 else pure r.1

/-- olc.py L90-103: one node of the second phase. -/
def step2 (E : Env Col F P) (n : Nat) (s : St Col) (x : Nat) : Except Err (St Col × Bool) := do
  let adj ← neighbors n s.udg x
  if adj.isEmpty then return (s, false)
  let e := E.residual (s.data x) (adj.map s.data)
  let ps := adj.map fun y => E.pval e (s.data y)
  if E.geAlpha (E.fisher ps) then
    pure (adj.foldl (fun s y => ⟨s.data, removeEdge s.udg x y, addArc s.cg y x⟩) s, true)
  else pure (s, false)

/-- olc.py L88-105: one run through the nodes. -/
def pass2 (E : Env Col F P) (n : Nat) (s : St Col) : Except Err (St Col × Bool) :=
  (List.range n).foldlM (fun r x => do let q ← step2 E n r.1 x; pure (q.1, r.2 || q.2)) (s, false)

/-- olc.py L86-105: the second `while`. -/
def phase2 (E : Env Col F P) (n : Nat) : Nat → St Col → Except Err (St Col)
  | 0, _ => throw .fuel
  | fuel + 1, s => do
    let r ← pass2 E n s
    if r.2 then phase2 E n fuel r.1 else pure r.1

/-- The variables of the third phase: `data` does not change any more. -/
structure St3 (F : Type) where
  udg : List (Nat × Nat)
  cg : List (Nat × Nat)
  A : Nat → Nat → F
  surrogate : Nat → List Nat
  exogenous : Nat → List Nat
  /-- `changed_latent` -/
  latent : Bool
  /-- `changed_orient` -/
  orient : Bool

/-- `A[i, j] = v`. -/
def setA (A : Nat → Nat → F) (i j : Nat) (v : F) : Nat → Nat → F := Function.update A i (Function.update (A i) j v)

/-- `a & b` and `a | b` and `a |= {x}` for sets kept as lists without repetition. -/
def inter (a b : List Nat) : List Nat := a.filter fun i => decide (i ∈ b)

@[inherit_doc inter]
def union (a b : List Nat) : List Nat := a ++ b.filter fun i => decide (i ∉ a)

@[inherit_doc inter]
def insertAt (s : Nat → List Nat) (x i : Nat) : Nat → List Nat := Function.update s x (union (s x) [i])

/-- olc.py L41-50: `surrogate_regression`; `none` is a `LinAlgError`. -/
def surrReg (E : Env Col F P) (data : Nat → Col) (A : Nat → Nat → F) (X exo : List Nat) (z : Option Nat) : Option Col :=
  let X := match z with | none => X | some z => X ++ [z]
  match E.svdLast (X.map fun i => exo.map fun j => A i j) with
  | none => none
  | some omega =>
    let omega := if z.isSome then E.divLast omega else omega
    some (E.comb omega (X.map data))

/-- olc.py L139-143, L167-172, L249-254: the p-value of a surrogate regression against a column, 0 for a `LinAlgError`. -/
def surrPval (E : Env Col F P) (data : Nat → Col) (A : Nat → Nat → F) (X exo : List Nat) (y : Nat) : P :=
  match surrReg E data A X exo none with
  | some e => E.pval e (data y)
  | none => E.zeroP

variable [Zero F] [Sub F] [Mul F] [Div F]

/-- olc.py L151-165: `A` with the entries for `x` and `y` filled in where they are small, and which of the two were. -/
def orientA (E : Env Col F P) (cov : Nat → Nat → F) (ce : List Nat) (A : Nat → Nat → F) (x y : Nat) : (Nat → Nat → F) × Bool × Bool :=
  let chx := E.small (A x x)
  let A1 := if chx then setA A x x (ce.foldl (fun v i => v - A x i * A x i) (cov x x)) else A
  let chy := E.small (A1 y x)
  let A2 := if chy then setA A1 y x (ce.foldl (fun v i => v - A1 x i * A1 y i) (cov x y)) else A1
  (A2, chx, chy)

/-- olc.py L151-191: one run of the loop at line 150, for the direction `x → y`, and whether it ended with the `break`. -/
def tryOrient (E : Env Col F P) (data : Nat → Col) (cov : Nat → Nat → F) (cs ce : List Nat) (s : St3 F) (x y : Nat) :
    St3 F × Bool :=
  let a := orientA E cov ce s.A x y
  if E.geBeta (surrPval E data a.1 ([x, y] ++ cs) (ce ++ [x]) x) then
    (⟨removeEdge s.udg x y, addArc s.cg x y, a.1, insertAt s.surrogate y x,
      insertAt (insertAt s.exogenous x x) y y, s.latent, true⟩, true)
  else
    let A3 := if a.2.1 then setA a.1 x x 0 else a.1
    let A4 := if a.2.2 then setA A3 y x 0 else A3
    ({ s with A := A4 }, false)

/-- olc.py L210-248: `A` with the entries of `x`, `y`, `z` in the column `l` filled in where they are small, and which were. -/
def latentA (E : Env Col F P) (data : Nat → Col) (ez : Col) (A : Nat → Nat → F) (l x y z : Nat) :
    (Nat → Nat → F) × Bool × Bool × Bool :=
  let chz := E.small (A z l)
  let A1 := if chz then
      setA A z l
        (if !E.small (A x l) then E.cov2 ez (data x) / A x l
         else if !E.small (A y l) then E.cov2 ez (data y) / A y l
         else E.start (E.cov2 ez (data x)) (data x) ez)
    else A
  let chx := E.small (A1 x l)
  let A2 := if chx then setA A1 x l (E.cov2 ez (data x) / A1 z l) else A1
  let chy := E.small (A2 y l)
  let A3 := if chy then setA A2 y l (E.cov2 ez (data y) / A2 z l) else A2
  (A3, chx, chy, chz)

/-- olc.py L205-208: the elements of at least two of the three sets. -/
def twoOf (a b c : List Nat) : List Nat := union (union (inter a b) (inter a c)) (inter b c)

/-- olc.py L201-282: one `z` of the search for a latent variable `l = latent_id + n`, and whether it ended with the `break`. -/
def tryLatent (E : Env Col F P) (data : Nat → Col) (l : Nat) (s : St3 F) (x y z : Nat) : St3 F × Bool :=
  let cs := E.order (twoOf (s.surrogate x) (s.surrogate y) (s.surrogate z))
  let ce := E.order (twoOf (s.exogenous x) (s.exogenous y) (s.exogenous z))
  let ez := if cs.isEmpty then data z else (surrReg E data s.A cs ce (some z)).getD (data z)
  let a := latentA E data ez s.A l x y z
  if E.geBeta (surrPval E data a.1 (cs ++ [x, y]) (ce ++ [l]) z) then
    (⟨removeEdge (removeEdge s.udg x z) y z, addArc (addArc (addArc s.cg l x) l y) l z, a.1,
      insertAt (insertAt s.surrogate x z) y z, insertAt (insertAt (insertAt s.exogenous x l) y l) z l, true, s.orient⟩, true)
  else
    let A4 := if a.2.1 then setA a.1 x l 0 else a.1
    let A5 := if a.2.2.1 then setA A4 y l 0 else A4
    let A6 := if a.2.2.2 then setA A5 z l 0 else A5
    ({ s with A := A6 }, false)

/-- olc.py L195-282: the loop over `z`. `A` has `2 n` columns, so line 222 raises an `IndexError` when `l` is not less. -/
def latentLoop (E : Env Col F P) (data : Nat → Col) (n l : Nat) (x y : Nat) : List Nat → St3 F → Except Err (St3 F)
  | [], s => pure s
  | z :: zs, s =>
    if z = x ∨ z = y then latentLoop E data n l x y zs s
    else if !hasEdge s.udg x z && !hasEdge s.udg y z then latentLoop E data n l x y zs s
    else if 2 * n ≤ l then throw .index
    else
      let r := tryLatent E data l s x y z
      if r.2 then pure r.1 else latentLoop E data n l x y zs r.1

/-- olc.py L135-192: the tests of one pair: removal of the edge, and orientation in one direction or the other. After an orientation
in the second run of the loop at line 150 the variables `x` and `y` stay exchanged. -/
def pairTest (E : Env Col F P) (data : Nat → Col) (cov : Nat → Nat → F) (s : St3 F) (x y : Nat) : St3 F × Nat × Nat :=
  let cs := E.order (inter (s.surrogate x) (s.surrogate y))
  let ce := E.order (inter (s.exogenous x) (s.exogenous y))
  let s := if E.geBeta (surrPval E data s.A ([x] ++ cs) ce y) then { s with udg := removeEdge s.udg x y } else s
  if hasEdge s.udg x y && !cs.isEmpty then
    let r1 := tryOrient E data cov cs ce s x y
    if r1.2 then (r1.1, x, y)
    else
      let r2 := tryOrient E data cov cs ce r1.1 y x
      if r2.2 then (r2.1, y, x) else (r2.1, x, y)
  else (s, x, y)

/-- olc.py L135-282: one pair of the third phase. -/
def step3 (E : Env Col F P) (data : Nat → Col) (cov : Nat → Nat → F) (n l : Nat) (po : List Nat) (s : St3 F) (p : Nat × Nat) :
    Except Err (St3 F) :=
  if hasEdge s.udg p.1 p.2 then
    let r := pairTest E data cov s p.1 p.2
    latentLoop E data n l r.2.1 r.2.2 po r.1
  else pure s

/-- olc.py L125-284: the third `while`, for the current `latent_id`. -/
def phase3 (E : Env Col F P) (data : Nat → Col) (cov : Nat → Nat → F) (n : Nat) (po : List Nat) :
    Nat → Nat → St3 F → Except Err (St3 F × Nat)
  | 0, _, _ => throw .fuel
  | fuel + 1, lid, s => do
    let s' ← (pairs po).foldlM (step3 E data cov n (lid + n) po) { s with latent := false, orient := false }
    if s'.latent || s'.orient then phase3 E data cov n po fuel (if s'.latent then lid + 1 else lid) s' else pure (s', lid)

/-- What `olc` returns, together with the array `data` as it is left. -/
structure Result (Col F : Type) where
  size : Nat
  adjmat : Nat → Nat → Nat
  coef : Nat → Nat → F
  data : Nat → Col

/-- olc.py L287-292: `adjmat`; arcs are written after the undirected edges. -/
def adjmatOf (u c : List (Nat × Nat)) (i j : Nat) : Nat := if (j, i) ∈ c then 1 else if hasEdge u i j then 2 else 0

/-- olc.py L294-300: `coef`. -/
def coefOf (n : Nat) (c : List (Nat × Nat)) (A : Nat → Nat → F) (i j : Nat) : F :=
  if (j, i) ∈ c then (if j < n ∧ i < n then A i j / A j j else A i j) else 0

/-- olc.py L120-123: `partial_observed`. -/
def partialObserved (E : Env Col F P) (n : Nat) (u : List (Nat × Nat)) : List Nat :=
  E.order ((E.cliques (nodes n) u).foldl union [])

/-- olc.py L53-302: `olc` on data with `n` columns. The fuel bounds each of the three `while` loops. -/
def olc (E : Env Col F P) (fuel n : Nat) (data : Nat → Col) : Except Err (Result Col F) := do
  let s1 ← phase1 E n fuel ⟨data, pairs (List.range n), []⟩
  let s2 ← phase2 E n fuel s1
  let po := partialObserved E n s2.udg
  let r ← phase3 E s2.data (E.cov ((List.range n).map s2.data)) n po fuel 0
    ⟨s2.udg, s2.cg, fun _ _ => 0, fun _ => [], fun _ => [], false, false⟩
  pure ⟨r.2 + n, adjmatOf r.1.udg r.1.cg, coefOf n r.1.cg r.1.A, s2.data⟩

end Cdmir.Olc
