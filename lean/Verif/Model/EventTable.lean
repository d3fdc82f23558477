import Verif.Model.SHP
import Mathlib.Algebra.Order.Floor.Ring
import Mathlib.Data.List.Dedup
import Mathlib.Data.List.Sort
import Mathlib.Data.Rat.Floor

/-! Model of the tables SHP builds from the events it is given (cdmir/discovery/point_process/SHP.py L44-85 and L119-139). Sequence
identifiers and event types are natural numbers in place of any ordered labels. Not modelled: the types of the columns (with numbers for
event types `self.event_table.values` of L79 is an array of floats when the times are, and L82 then fails to use its code as an index)
and `max_time_stamp`, which nothing reads. -/

namespace Cdmir.SHP

variable {K : Type} [Field K] [LinearOrder K] [FloorRing K]

/-- A row of the argument `event_table`, with the columns renamed at SHP.py L122. -/
structure Event (K : Type) where
  seq : Nat
  time : K
  type : Nat

/-- `astype('int')`: towards zero. -/
def trunc (x : K) : Int := if 0 ≤ x then ⌊x⌋ else ⌈x⌉

/-- SHP.py L123-125: the time stamp of an event. -/
def bin (dt : Option K) (t : K) : K :=
  match dt with
  | none => t
  | some d => (trunc (t / d) : K) * d

/-- A row of the table: sequence, time stamp, type. -/
abbrev Key (K : Type) := Nat × K × Nat

/-- The order of `groupby` on the three columns. -/
abbrev keyLe (a b : Key K) : Prop := a.1 < b.1 ∨ a.1 = b.1 ∧ (a.2.1 < b.2.1 ∨ a.2.1 = b.2.1 ∧ a.2.2 ≤ b.2.2)

/-- The keys of the events, in the order given. -/
def keys (dt : Option K) (E : List (Event K)) : List (Key K) := E.map fun e => (e.seq, bin dt e.time, e.type)

/-- SHP.py L127-128: one row for each sequence, time stamp and type, in order, with the number of events. -/
def grouped (dt : Option K) (E : List (Event K)) : List (Key K × Nat) :=
  ((keys dt E).dedup.insertionSort keyLe).map fun k => (k, (keys dt E).count k)

/-- SHP.py L130, L132: `event_names`, the types in order. The code of a type (L131) is its place in this list. -/
def names (E : List (Event K)) : List Nat := (E.map fun e => e.type).dedup.insertionSort (· ≤ ·)

/-- The first time stamp of a sequence. -/
def start (dt : Option K) (E : List (Event K)) (s : Nat) : K :=
  (((grouped dt E).filter fun r => r.1.1 == s).map fun r => r.1.2.1).min?.getD 0

/-- SHP.py L47-52: the rows with the start of each sequence at time zero: sequence and time, code, count. -/
def shifted (dt : Option K) (E : List (Event K)) : List ((Nat × K) × Nat × Nat) :=
  (grouped dt E).map fun r => ((r.1.1, r.1.2.1 - start dt E r.1.1), (names E).idxOf r.1.2.2, r.2)

/-- SHP.py L80-82: one turn of the loop that fills `X_dict`. -/
def addRow (tbl : List ((Nat × K) × (Nat → Nat))) (r : (Nat × K) × Nat × Nat) : List ((Nat × K) × (Nat → Nat)) :=
  (if r.1 ∈ tbl.map Prod.fst then tbl else tbl ++ [(r.1, fun _ => 0)]).map fun p =>
    if p.1 = r.1 then (p.1, fun i => if i = r.2.1 then r.2.2 else p.2 i) else p

/-- SHP.py L78-83: the rows of `X_df`. -/
def table (dt : Option K) (E : List (Event K)) : List ((Nat × K) × (Nat → Nat)) := (shifted dt E).foldl addRow []

/-- SHP.py L66-67: `T_each_seq`. -/
def lastTime (dt : Option K) (E : List (Event K)) (s : Nat) : K :=
  (((shifted dt E).filter fun r => r.1.1 == s).map fun r => r.1.2).max?.getD 0

/-- SHP.py L44-85: the tables of the object. -/
def tables (dt : Option K) (decay : K) (E : List (Event K)) : Data K (table dt E).length (names E).length where
  seq t := ((table dt E)[t]).1.1
  time t := ((table dt E)[t]).1.2
  X t j := (((table dt E)[t]).2 j : K)
  last := lastTime dt E
  T := ((E.map fun e => e.seq).dedup.map (lastTime dt E)).sum
  decay := decay
  dt := dt

end Cdmir.SHP
