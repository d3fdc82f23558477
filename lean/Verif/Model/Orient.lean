import Verif.Model.Hier

/-! Model of the helpers of LearningHierarchicalStructure that the main procedure does not reach or hardly uses: Orientation.py, the two tests of
general purity and `TestOverlap` of MergeCluster.py (L417-535), and the set operators of Utils.py. Whether an argument is a list or a set
matters here: a set has no `[0]`, and `<` does not compare a set with a list. -/

namespace Cdmir.Orient
open Cdmir.Hier
open Cdmir.Tetrad (allE)

variable {V Col : Type} [LinearOrder V]

/-- A Python list, or a set in the order in which it is read. -/
inductive Coll (V : Type)
  | list (l : List V)
  | set (l : List V)

/-- The elements. -/
def Coll.elems : Coll V → List V
  | .list l => l
  | .set l => l

/-- `C[i]`. -/
def Coll.get (C : Coll V) (i : Nat) : Except Err V :=
  match C with
  | .list l => match l[i]? with
    | some v => pure v
    | none => throw .index
  | .set _ => throw .type

/-- `l[0]` of a list. -/
def head : List V → Except Err V
  | [] => throw .index
  | v :: _ => pure v

/-- `set(S) < set(T)`. -/
def properSub (S T : List V) : Bool := S.all (fun x => x ∈ T) && T.any (fun x => x ∉ S)

/-- `set(S) < C`: a `TypeError` if `C` is a list. -/
def below (S : List V) : Coll V → Except Err Bool
  | .list _ => throw .type
  | .set T => pure (properSub S T)

/-- MergeCluster.py L456-459, L460-463, L519-522: the loop with `break`. -/
def firstBelow (C : Coll V) : List (List V) → Except Err (Option (List V))
  | [] => pure none
  | S :: rest => do if ← below S C then pure (some S) else firstBelow C rest

/-- MergeCluster.py L308-343: `TestImpureWithImpure`, of lists or sets. -/
def impure (env : Env V Col) (d : Frame V Col) (C1 C2 : Coll V) : Except Err Bool := do
  let i ← C1.get 0
  let j ← C2.get 0
  allE (fun t => vanE env d i j t.1 t.2) (pairs (env.order ((dkeys d).filter fun v => v ∉ C1.elems ∧ v ∉ C2.elems)))

/-- MergeCluster.py L508-535: `GeneralPurity`. -/
def generalPurity (env : Env V Col) (d : Frame V Col) (all : List (List V)) (C1 C2 : Coll V) : Except Err Bool := do
  match ← firstBelow C1 all with
  | some S =>
    let i ← head S
    let j ← head (env.order (C1.elems.filter fun v => v ∉ S))
    let k ← C2.get 0
    allE (fun s => vanE env d i k j s) (env.order ((dkeys d).filter fun v => v ∉ C1.elems ∧ v ∉ C2.elems))
  | none => impure env d C1 C2

/-- MergeCluster.py L444-505: `GeneralPurity_withPurity`. Line 465 reads `GeneralPurity_C1 and GeneralPurity_C1`; `S2` then is the cluster at which the
second loop stopped, the last one if it found none. Lines 478-488 are never reached. -/
def withPurity (env : Env V Col) (d : Frame V Col) (all : List (List V)) (C1 C2 : Coll V) : Except Err Bool := do
  let f1 ← firstBelow C1 all
  let f2 ← firstBelow C2 all
  match f1, f2 with
  | some S, f2 =>
    let S2 := f2.getD (all.getLast?.getD [])
    let i ← head S
    let j ← head (env.order (C1.elems.filter fun v => v ∉ S))
    let k ← head S2
    let s ← head (env.order (C2.elems.filter fun v => v ∉ S2))
    vanE env d i k j s
  | none, some S2 =>
    let i ← head S2
    let j ← head (env.order (C2.elems.filter fun v => v ∉ S2))
    let k ← C1.get 0
    let s ← C1.get 1
    vanE env d i k j s
  | none, none => impure env d C1 C2

/-- MergeCluster.py L418-435: `TestOverlap`. -/
def testOverlap (C1 C2 : List V) : Bool := 0 < (C1.filter fun v => v ∈ C2).length

/-- Orientation.py L36-44: the loop over the clusters. `Tclu[0]` (L44) asks a set for its first element. -/
def measuredLoop (clu : List V) (pures : List (List V)) : List (List V) → Except Err (List V)
  | [] => pure []
  | C :: rest =>
    if properSub C clu then
      if contains C pures then do
        let a ← (Coll.list C).get 0
        let b ← (Coll.list C).get 1
        let M ← measuredLoop clu pures rest
        pure (a :: b :: M)
      else do
        let _ ← (Coll.list C).get 0
        throw .type
    else measuredLoop clu pures rest

/-- Orientation.py L51-53: a latent name is replaced by its list, and the next test `j in Lkey` raises, a list having no hash. -/
def observed (latent : Dict V (List V)) (j : V) : Except Err V := if j ∈ dkeys latent then throw .type else pure j

/-- Orientation.py L31-55: `GetMeasuredVariables`. Line 48 calls the list `clu`. -/
def getMeasured (latent : Dict V (List V)) (pures all : List (List V)) (i : V) : Except Err (List V) := do
  let clu ← dgetE latent i
  let M ← measuredLoop clu pures all
  if M = [] then do
    let _ ← (Coll.list clu).get 0
    throw .type
  else M.mapM (observed latent)

/-- Orientation.py L12-28: `Orientation_ImpureCluster`. `LearnCausalOrder` asks the list for its `keys` (Infer_Causal_Order.py L68, an `AttributeError`). -/
def orientImpure (latent : Dict V (List V)) (pures all : List (List V)) : List (List V) → Except Err (List (List V))
  | [] => pure []
  | C :: _ => do
    let _ ← C.mapM (getMeasured latent pures all)
    throw .exception

/-- Utils.py L35-53: `GeneralSetOperator`. -/
def setOperator (S : List V) (sets : List (List V)) (op : String) : Bool :=
  sets.any fun T =>
    if op = ">" then properSub T S
    else if op = ">=" then T.all fun x => x ∈ S
    else if op = "=" then setEq S T
    else if op = "<" then properSub S T
    else if op = "<=" then S.all fun x => x ∈ T
    else false

/-- Utils.py L67-72: `GeneralSetCover`. -/
def setCover (S : List V) (sets : List (List V)) : Bool := sets.any fun T => S.all fun x => x ∈ T

/-- Utils.py L76-81: `GeneralSetStrictCover`. -/
def setStrictCover (S : List V) (sets : List (List V)) : Bool := sets.any fun T => properSub S T

/-- Utils.py L8-12: `ExtendList`, which changes its first argument. -/
def extendList (all : List (List V)) : List (List V) → List (List V)
  | [] => all
  | C :: rest => extendList (if contains C all then all else all ++ [C]) rest

end Cdmir.Orient
