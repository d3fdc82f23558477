import Verif.Model.Merge
import Verif.Model.Tetrad

/-! Model of the recursive procedure in cdmir/discovery/funtional_based/LearningHierarchicalStructure: FindCausalCluster.py, MergeCluster.py,
UpdataData.py, Utils.py and the loop of Causal_Discovery_in_LHM.py.

Left out: the printed output; `AllCausalCluster` and `GeneralPureClusters`, which are written but never read before the orientation phase
(`roll_back` gets the former and does not use it); the phases after the loop (see HierGraph.lean; `Orientation.py` is in Orient.lean). `exit(-1)` is `Err.exception`. -/

namespace Cdmir.Hier
open Cdmir.Tetrad (allE anyE checkCausalCluster judgePureCluster)

variable {V Col : Type} [LinearOrder V]

/-- What the procedure takes from outside. -/
structure Env (V Col : Type) where
  /-- `VT.vanishes` of four columns at the level `alpha`. -/
  van : Col → Col → Col → Col → Except Err Bool
  /-- The order in which Python reads a set of names. -/
  order : List V → List V
  /-- The order in which Python reads a set of numbers (Overlap_Merge.py). -/
  idxOrder : List Nat → List Nat
  /-- `'L' + str(n)`. -/
  lname : Nat → V
  /-- The number of rows of the data, `len(data)`. -/
  rows : Nat

/-- A data frame: its columns in order, with their names. `data[v]` is `dgetE`; a frame with two columns of one name is read as having the first only. -/
abbrev Frame (V Col : Type) := Dict V Col

/-- `set(S) == set(T)`. -/
def setEq (S T : List V) : Bool := S.all (fun x => x ∈ T) && T.all (fun x => x ∈ S)

/-- Utils.py L57-63: `GeneralSetContains`. -/
def contains (S : List V) (sets : List (List V)) : Bool := sets.any (setEq S)

/-- `VT.vanishes(data[i], data[j], data[k], data[l], alpha)`. -/
def vanE (env : Env V Col) (d : Frame V Col) (i j k l : V) : Except Err Bool := do
  env.van (← dgetE d i) (← dgetE d j) (← dgetE d k) (← dgetE d l)

/-- TetradMethod.py L33-54 on the current data. -/
def check (env : Env V Col) (d : Frame V Col) (C : List V) : Except Err Bool := checkCausalCluster (vanE env d) env.order (dkeys d) C

/-- TetradMethod.py L73-89 on the current data. -/
def judge (env : Env V Col) (d : Frame V Col) (C : List V) : Except Err Bool := judgePureCluster (vanE env d) env.order (dkeys d) C

/-- What is known of the clusters: those learned in this pass, the pure and the impure ones of all passes. -/
structure Found (V : Type) where
  learned : List (List V)
  pures : List (List V)
  impures : List (List V)
  deriving DecidableEq

/-- FindCausalCluster.py L49-57: the clusters that come from pairs are recorded as pure or impure. -/
def record (env : Env V Col) (d : Frame V Col) : List (List V) → List (List V) × List (List V) → Except Err (List (List V) × List (List V))
  | [], st => pure st
  | S :: l, st => do
    if 2 < S.length then record env d l (st.1 ++ [S], st.2)
    else if ← judge env d S then record env d l (st.1 ++ [S], st.2)
    else record env d l (st.1, st.2 ++ [S])

/-- FindCausalCluster.py L61-66: the clusters of one size; `B` is in the order in which it is read. -/
def sizePass (env : Env V Col) (d : Frame V Col) : List (List V) → List (List V) × List V → Except Err (List (List V) × List V)
  | [], st => pure st
  | S :: l, st => do
    if ← check env d S then sizePass env d l (st.1 ++ [S], env.order (st.2.filter fun v => v ∉ S))
    else sizePass env d l st

/-- FindCausalCluster.py L59-67: the `while` loop over the sizes; the first argument bounds the number of passes. -/
def sizeLoop (env : Env V Col) (d : Frame V Col) : Nat → Nat → List (List V) → List V → Except Err (List (List V))
  | 0, _, acc, _ => pure acc
  | fuel + 1, k, acc, B => do
    if k ≤ B.length ∧ k + 2 < (dkeys d).length then
      let st ← sizePass env d (combinations B k) (acc, B)
      sizeLoop env d fuel (k + 1) st.1 st.2
    else pure acc

/-- FindCausalCluster.py L39-43: the pairs that pass. The combinations are taken of the first value of `B`, so they may overlap. -/
def pairPass (env : Env V Col) (d : Frame V Col) : List (List V) → Except Err (List (List V))
  | [] => pure []
  | S :: l => do
    if ← check env d S then pure (S :: (← pairPass env d l)) else pairPass env d l

/-- FindCausalCluster.py L10-69: `FindCausalCluster`. -/
def findCausalCluster (env : Env V Col) (d : Frame V Col) (pures impures : List (List V)) : Except Err (Found V) := do
  let cs := dkeys d
  let ps ← pairPass env d (combinations cs 2)
  let B := if ps.isEmpty then cs else env.order (cs.filter fun v => v ∉ ps.flatten)
  let merged ← Merge.mergeList env.idxOrder ps
  let (p, i) ← record env d merged (pures, impures)
  let big ← sizeLoop env d cs.length 3 [] B
  pure ⟨merged ++ big, p, i ++ big⟩

/-- MergeCluster.py L308-343: `TestImpureWithImpure`. -/
def testImpureWithImpure (env : Env V Col) (d : Frame V Col) : List V → List V → Except Err Bool
  | i :: C1, j :: C2 =>
    allE (fun t => vanE env d i j t.1 t.2) (pairs (env.order ((dkeys d).filter fun v => v ∉ i :: C1 ∧ v ∉ j :: C2)))
  | _, _ => throw .index

/-- MergeCluster.py L377-414: `TestPureWithImpure`. -/
def testPureWithImpure (env : Env V Col) (d : Frame V Col) : List V → List V → Except Err Bool
  | i :: j :: C1, k :: C2 =>
    allE (fun s => vanE env d i k j s) (env.order ((dkeys d).filter fun v => v ∉ i :: j :: C1 ∧ v ∉ k :: C2))
  | _, _ => throw .index

/-- MergeCluster.py L346-373: `TestPureWithPure`. -/
def testPureWithPure (env : Env V Col) (d : Frame V Col) : List V → List V → Except Err Bool
  | i :: j :: _, k :: s :: _ => do
    let f1 ← vanE env d i k j s
    let f2 ← vanE env d i j k s
    let f3 ← vanE env d i s j k
    pure (f1 && f2 && f3)
  | C1, C2 => testPureWithImpure env d C1 C2

/-- UpdataData.py L87-100: the `while` loop of `GetObservedForLatent`; the first argument bounds the number of passes. What the inner loop (L94-97)
finds is overwritten by line 98. -/
def getObserved (latent : Dict V (List V)) : Nat → V → Except Err V
  | 0, _ => throw .fuel
  | fuel + 1, v =>
    match dget latent v with
    | none => pure v
    | some [] => throw .index
    | some (w :: _) => getObserved latent fuel w

/-- `data[names]`. -/
def select (d : Frame V Col) (names : List V) : Except Err (List Col) := names.mapM (dgetE d)

/-- UpdataData.py L13-84: `roll_back`. -/
def rollBack (env : Env V Col) (ora d : Frame V Col) (latent : Dict V (List V)) (pures : List (List V)) (L : V) :
    Except Err (Frame V Col × List V) := do
  let some lm := dget latent L | throw .exception
  let lpure := env.order (pySet (pures.filter fun S => S.all fun x => x ∈ lm).flatten)
  let lobs := lpure.filter fun s => s ∈ dkeys ora
  let ll ← (lpure.filter fun s => s ∉ dkeys ora).mapM (getObserved latent (latent.length + 1))
  let rb := lobs ++ ll
  let cs ← select ora rb
  if !dhas d L then throw .key
  match rb with
  | a :: b :: _ => pure ((d ++ rb.zip cs).filter fun e => e.1 ≠ L, [a, b])
  | _ => throw .index

/-- MergeCluster.py L232-238: the test for one variable. -/
def outerTest (env : Env V Col) (ora d : Frame V Col) (latent : Dict V (List V)) (pures : List (List V)) (C : List V) (L : V) : Except Err Bool := do
  if dhas latent L then
    let (td, lm) ← rollBack env ora d latent pures L
    if env.rows < 4 then pure false else testPureWithImpure env td lm C
  else pure false

/-- MergeCluster.py L224-240: `OutterEarlyLearning`, the loop over the variables that remain. -/
def outerEarly (env : Env V Col) (ora d : Frame V Col) (latent : Dict V (List V)) (pures : List (List V)) (C : List V) :
    List V → Except Err (Option V)
  | [] => pure none
  | L :: l => do
    if ← outerTest env ora d latent pures C L then pure (some L) else outerEarly env ora d latent pures C l

/-- MergeCluster.py L277-302: the test for one variable. -/
def innerTest (env : Env V Col) (ora d : Frame V Col) (latent : Dict V (List V)) (pures : List (List V)) (C : List V) (L : V) : Except Err Bool := do
  if dhas latent L then
    let TC := C.erase L
    let (td, lm) ← rollBack env ora d latent pures L
    if env.rows < 4 then pure false
    else if contains C pures || contains TC pures then testPureWithPure env td lm TC
    else testPureWithImpure env td lm TC
  else pure false

/-- MergeCluster.py L245-304: `Inner_EarlyLearning`, the loop over the variables of the cluster. -/
def innerEarly (env : Env V Col) (ora d : Frame V Col) (latent : Dict V (List V)) (pures : List (List V)) (C : List V) :
    List V → Except Err (Option V)
  | [] => pure none
  | L :: l => do
    if ← innerTest env ora d latent pures C L then pure (some L) else innerEarly env ora d latent pures C l

/-- The two dictionaries `InnerELClusters` and `OutterELClusters`. -/
structure Early (V : Type) where
  inner : Dict V (List V) := []
  outer : Dict V (List V) := []
  deriving DecidableEq

/-- MergeCluster.py L67-70: the early latent variable outside, looked for only if the cluster is impure. -/
def outerOf (env : Env V Col) (ora d : Frame V Col) (latent : Dict V (List V)) (pures impures : List (List V)) (remaining S : List V) :
    Except Err (Option V) :=
  if contains S impures then outerEarly env ora d latent pures S remaining else pure none

/-- MergeCluster.py L66-80: the early learned clusters are recorded, by their latent variable. -/
def detect (env : Env V Col) (ora d : Frame V Col) (latent : Dict V (List V)) (pures impures : List (List V)) (remaining : List V) :
    List (List V) → Early V → Except Err (Early V)
  | [], e => pure e
  | S :: l, e => do
    match ← outerOf env ora d latent pures impures remaining S with
    | some L => detect env ora d latent pures impures remaining l { e with outer := dset e.outer L S }
    | none =>
      match ← innerEarly env ora d latent pures S S with
      | some L => detect env ora d latent pures impures remaining l { e with inner := dset e.inner L S }
      | none => detect env ora d latent pures impures remaining l e

/-- Utils.py L15-31: `GeneralDicContains` and `GetEarlyLearningByDic`: the first key whose cluster is the given set. -/
def byDict (S : List V) (d : Dict V (List V)) : Option V := (d.find? fun e => setEq S e.2).map Prod.fst

/-- MergeCluster.py L112-116, L121-125: the early latent variable of a cluster. -/
def earlyOf (e : Early V) (S : List V) : Option V := (byDict S e.inner).or (byDict S e.outer)

/-- The results of `MergeCausalCluster` (L191): the four parts, the remaining variables, and `LatentIndex`. -/
structure Parts (V : Type) where
  merge : List (List V) := []
  earlyImpure : List (List V) := []
  earlyRemove : List (List V) := []
  intro : List (List V) := []
  remaining : List V := []
  latent : Dict V (List V) := []
  deriving DecidableEq

/-- MergeCluster.py L195-221: `UpdateLatentIndex`, without `AllCausalCluster`. For a key that is missing, line 207 returns one value and the caller
fails to unpack it. -/
def updateLatentIndex (env : Env V Col) (L : V) (C : List V) (latent : Dict V (List V)) : Except Err (Dict V (List V)) :=
  match dget latent L with
  | none => throw .value
  | some t => pure (dset latent L (env.order (pyUnion (pySet t) (C.erase L))))

/-- MergeCluster.py L88-105: may `C1` and `C2` be merged? -/
def mayMerge (env : Env V Col) (d : Frame V Col) (pures impures : List (List V)) (C1 C2 : List V) : Except Err Bool :=
  if contains C1 pures && contains C2 pures then pure false
  else if contains C1 impures && contains C2 impures then testImpureWithImpure env d C1 C2
  else if contains C1 pures && contains C2 impures then testPureWithImpure env d C1 C2
  else if contains C1 impures && contains C2 pures then testPureWithImpure env d C2 C1
  else pure false

/-- The clusters of `rest` with which `C1` is to be merged, L87-105. -/
def hope (env : Env V Col) (d : Frame V Col) (pures impures : List (List V)) (C1 : List V) : List (List V) → Except Err (List (List V))
  | [] => pure []
  | C2 :: l => do
    if ← mayMerge env d pures impures C1 C2 then pure (C2 :: (← hope env d pures impures C1 l)) else hope env d pures impures C1 l

/-- MergeCluster.py L136-150: the clusters to be merged that were learned early are moved under their latent variable. Returns what is left to be merged. -/
def moveEarly (env : Env V Col) (e : Early V) : List (List V) → Parts V → Except Err (List (List V) × Parts V)
  | [], st => pure ([], st)
  | C :: l, st => do
    match earlyOf e C with
    | none =>
      let (r, st) ← moveEarly env e l st
      pure (C :: r, st)
    | some L =>
      let latent ← updateLatentIndex env L C st.latent
      let (r, st) ← moveEarly env e l
        { st with latent := latent, earlyRemove := st.earlyRemove ++ [L :: C.erase L], remaining := st.remaining.erase L }
      pure ([L] :: r, st)

/-- MergeCluster.py L158-189: a cluster that is merged with no other. `UpTC.remove` (L165) raises if the variable is not in the cluster. -/
def single (env : Env V Col) (pures impures : List (List V)) (e : Early V) (C1 : List V) (st : Parts V) : Except Err (Parts V) := do
  match byDict C1 e.inner with
  | some L =>
    if L ∉ C1 then throw .value
    pure { st with earlyRemove := st.earlyRemove ++ [L :: C1.erase L], latent := ← updateLatentIndex env L C1 st.latent }
  | none =>
    match byDict C1 e.outer with
    | some L => pure { st with earlyRemove := st.earlyRemove ++ [L :: C1], latent := ← updateLatentIndex env L C1 st.latent }
    | none =>
      if contains C1 pures then pure { st with intro := st.intro ++ [C1] }
      else if contains C1 impures then pure { st with earlyImpure := st.earlyImpure ++ [C1] }
      else pure st

/-- MergeCluster.py L85-189: the `while` loop; the list is kept reversed, so that `pop()` takes the head, and read backwards where the code reads it
forwards. The first argument bounds the number of passes. -/
def mergeLoop (env : Env V Col) (d : Frame V Col) (pures impures : List (List V)) (e : Early V) :
    Nat → List (List V) → Parts V → Except Err (Parts V)
  | 0, [], st => pure st
  | 0, _ :: _, _ => throw .fuel
  | _ + 1, [], st => pure st
  | fuel + 1, C1 :: rest, st => do
    let h ← hope env d pures impures C1 rest.reverse
    if h.isEmpty then mergeLoop env d pures impures e fuel rest (← single env pures impures e C1 st)
    else
      let (ms, st) ← moveEarly env e (C1 :: h) st
      let left := h.foldl (fun l C2 => l.erase C2) rest.reverse
      mergeLoop env d pures impures e fuel left.reverse { st with merge := st.merge ++ [env.order (pySet ms.flatten)] }

/-- MergeCluster.py L10-192: `MergeCausalCluster`; also returns the impure clusters (L50). -/
def mergeCausalCluster (env : Env V Col) (ora d : Frame V Col) (latent : Dict V (List V)) (f : Found V) :
    Except Err (Parts V × List (List V)) := do
  let remaining := if f.learned.isEmpty then [] else env.order ((dkeys d).filter fun v => v ∉ f.learned.flatten)
  let impures := if f.learned.isEmpty then f.impures ++ [dkeys d] else f.impures
  let e ← detect env ora d latent f.pures impures remaining f.learned {}
  let parts ← mergeLoop env d f.pures impures e f.learned.length f.learned.reverse { remaining := remaining, latent := latent }
  pure (parts, impures)

/-- UpdataData.py L126-148: a latent variable is introduced for each cluster: the new number, `LatentIndex`, the surrogates and the names. -/
def introduce (env : Env V Col) : List (List V) → Nat × Dict V (List V) × List V × List V → Except Err (Nat × Dict V (List V) × List V × List V)
  | [], st => pure st
  | [] :: _, _ => throw .index
  | (v :: S) :: l, (n, latent, sur, names) => introduce env l (n + 1, dset latent (env.lname n) (v :: S), sur ++ [v], names ++ [env.lname n])

/-- UpdataData.py L104-162: `UpdataData`. -/
def updateData (env : Env V Col) (p : Parts V) (n : Nat) (d : Frame V Col) : Except Err (Frame V Col × Nat × Dict V (List V)) := do
  let removes := (p.earlyRemove.map List.tail).flatten
  let (n, latent, sur, names) ← introduce env (p.merge ++ p.intro) (n, p.latent, [], [])
  let indexs := env.order ((dkeys d).filter fun v => v ∉ removes ∧ v ∉ (p.merge ++ p.intro).flatten)
  let tdata ← select d sur
  let t2data ← select d indexs
  pure ((indexs ++ names).zip (tdata ++ t2data), n, latent)

/-- The variables of the loop in Causal_Discovery_in_LHM.py. -/
structure State (V Col : Type) where
  data : Frame V Col
  pures : List (List V) := []
  impures : List (List V) := []
  num : Nat := 1
  latent : Dict V (List V) := []
  deriving DecidableEq

/-- Causal_Discovery_in_LHM.py L40-85: one pass of the loop, and whether the loop goes on. -/
def pass (env : Env V Col) (ora : Frame V Col) (s : State V Col) : Except Err (State V Col × Bool) := do
  let f ← findCausalCluster env s.data s.pures s.impures
  let (p, impures) ← mergeCausalCluster env ora s.data s.latent f
  let s := { s with pures := f.pures, impures := impures, latent := p.latent }
  if p.merge.isEmpty && p.intro.isEmpty then
    if p.remaining.isEmpty && !p.earlyImpure.isEmpty then throw .exception
    if p.remaining.length ≤ 3 then return (s, false)
  let (data, n, latent) ← updateData env p s.num s.data
  pure ({ s with data := data, num := n, latent := latent }, decide (1 < env.rows))

/-- Causal_Discovery_in_LHM.py L38-85: the loop, with a bound on the number of passes. -/
def run (env : Env V Col) (ora : Frame V Col) : Nat → State V Col → Except Err (State V Col)
  | 0, _ => throw .fuel
  | fuel + 1, s => do
    let (s, go) ← pass env ora s
    if go then run env ora fuel s else pure s

end Cdmir.Hier
