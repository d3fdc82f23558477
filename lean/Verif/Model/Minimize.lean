import Mathlib.Algebra.Order.Field.Basic
import Mathlib.Algebra.BigOperators.Fin
import Mathlib.Algebra.Order.Group.Unbundled.Abs
import Mathlib.Algebra.Module.Pi
import Verif.Model.Py

/-!
Model of `minimize`, cdmir/utils/local_score/score_utils.py L112-L311: the conjugate-gradient minimiser that the
marginal-likelihood scores call (marginal_base.py L63, L73, L154, L164).

Numbers are elements of an arbitrary ordered field instead of floats. `np.sqrt` and `sys.float_info.min` are parameters.
A point, a gradient and a search direction are columns of `n + 1` entries.
-/

namespace Cdmir.Minimize

/-- What one call of the objective through `feval` (score_utils.py L190, L222, L278) gives: it raises, it gives NaN
(value and gradient), or it gives a finite value and gradient. Infinite values are not modelled apart from NaN. -/
inductive Ev (F V : Type _) where
  | raise (e : Err)
  | nan
  | ok (f : F) (df : V)

/-- The two things `minimize` takes from outside: `np.sqrt` (L245, L269), called on non-negative numbers only, and
`sys.float_info.min` (L299). -/
structure Env (F : Type _) where
  sqrt : F → F
  tiny : F

/-- Whether the objective's gradient is a `np.matrix`, so that `*` is the matrix product, or a plain array, so that `*` is
the elementwise product with broadcasting (L194, L233, L285, L292, L295, L298, L308). `gpr_multi_new` gives a plain array
(score_utils.py L435). -/
inductive Kind where
  | matrix
  | array
  deriving DecidableEq, Repr

variable {F : Type _} [Field F] [LinearOrder F] {n : ℕ}

/-- `INT`, `EXT`, `MAX`, `RATIO`, `SIG`, `RHO`: score_utils.py L145-L150. -/
def INT : F := 1 / 10
/-- score_utils.py L146. -/
def EXT : F := 3
/-- score_utils.py L147. -/
def MAX : ℕ := 20
/-- score_utils.py L148. -/
def RATIO : F := 10
/-- score_utils.py L149. -/
def SIG : F := 1 / 10
/-- score_utils.py L150. -/
def RHO : F := SIG / 2

/-- `(u.T * v)[0, 0]`: score_utils.py L194, L233, L285, L292, L295, L298, L308. For matrices it is the dot product; for
plain arrays `u.T * v` is the table of all products and its first entry is `u[0] * v[0]`. -/
def inner (k : Kind) (u v : Fin (n + 1) → F) : F :=
  match k with
  | .matrix => ∑ i, u i * v i
  | .array => u 0 * v 0

/-- The step length that the cubic extrapolation proposes, `none` when it is not a finite number: score_utils.py
L243-L245. -/
def cubicExt (E : Env F) (x1 f1 d1 x2 f2 d2 : F) : Option F :=
  let A := 6 * (f1 - f2) + 3 * (d2 + d1) * (x2 - x1)
  let B := 3 * (f2 - f1) - (2 * d1 + d2) * (x2 - x1)
  let disc := B * B - A * d1 * (x2 - x1)
  if disc < 0 then none
  else
    let den := B + E.sqrt disc
    if den = 0 then none else some (x1 - d1 * (x2 - x1) ^ 2 / den)

/-- The step length of the next extrapolation: score_utils.py L243-L251. -/
def nextExt (E : Env F) (x1 f1 d1 x2 f2 d2 : F) : F :=
  match cubicExt E x1 f1 d1 x2 f2 d2 with
  | none => x2 * EXT
  | some x =>
    if x < 0 then x2 * EXT
    else if x > x2 * EXT then x2 * EXT
    else if x < x2 + INT * (x2 - x1) then x2 + INT * (x2 - x1)
    else x

/-- The step length that the interpolation proposes, `none` when it is not a finite number: score_utils.py L264-L269. -/
def interpPoint (E : Env F) (f0 x2 f2 d2 x4 f4 d4 : F) : Option F :=
  if f4 > f0 then
    let den := f4 - f2 - d2 * (x4 - x2)
    if den = 0 then none else some (x2 - (1 / 2) * d2 * (x4 - x2) ^ 2 / den)
  else
    let A := 6 * (f2 - f4) / (x4 - x2) + 3 * (d4 + d2)
    let B := 3 * (f4 - f2) - (2 * d2 + d4) * (x4 - x2)
    let disc := B * B - A * d2 * (x4 - x2) ^ 2
    if disc < 0 then none
    else if A = 0 then none
    else some (x2 + (E.sqrt disc - B) / A)

/-- The step length of the next interpolation: score_utils.py L264-L274. -/
def nextInt (E : Env F) (f0 x2 f2 d2 x4 f4 d4 : F) : F :=
  let x := (interpPoint E f0 x2 f2 d2 x4 f4 d4).getD ((x2 + x4) / 2)
  max (min x (x4 - INT * (x4 - x2))) (x2 + INT * (x4 - x2))

/-- The best point of a line search so far: `X0`, `F0`, `dF0`, score_utils.py L199-L201, L229-L232, L279-L282. -/
structure Best (F : Type _) (n : ℕ) where
  X : Fin (n + 1) → F
  f : F
  df : Fin (n + 1) → F

/-- `if f3 < F0: X0 = X + x3 * s; F0 = f3; dF0 = df3`: score_utils.py L229-L232, L279-L282. -/
def Best.upd (b : Best F n) (X : Fin (n + 1) → F) (f : F) (df : Fin (n + 1) → F) : Best F n :=
  if f < b.f then ⟨X, f, df⟩ else b

/-- What stays the same during one line search: the objective, the point, the direction, the value and the gradient and
the slope at the point (score_utils.py L197-L201). -/
structure Line (F : Type _) (n : ℕ) where
  obj : (Fin (n + 1) → F) → Ev F (Fin (n + 1) → F)
  kind : Kind
  X : Fin (n + 1) → F
  s : Fin (n + 1) → F
  f0 : F
  df0 : Fin (n + 1) → F
  d0 : F

/-- `X + x3 * s`: score_utils.py L219, L230, L275, L280, L289. -/
def Line.at (L : Line F n) (x3 : F) : Fin (n + 1) → F := fun i => L.X i + x3 * L.s i

/-- `while (not success and M > 0)`: score_utils.py L215-L227. Returns the budget left, the last step length, and the
value and gradient if the objective gave finite ones. -/
def tries (L : Line F n) : ℕ → F → ℕ × F × Option (F × (Fin (n + 1) → F))
  | 0, x3 => (0, x3, none)
  | M + 1, x3 =>
    match L.obj (L.at x3) with
    | .ok f df => (M, x3, some (f, df))
    | _ => tries L M ((0 + x3) / 2)

/-- The state after the extrapolation: score_utils.py L252. -/
structure Probe (F : Type _) (n : ℕ) where
  x3 : F
  f3 : F
  df3 : Fin (n + 1) → F
  d3 : F
  M : ℕ
  best : Best F n

/-- `f3 > f0 + x3 * RHO * d0`: score_utils.py L234, L254, L255. -/
def Line.high (L : Line F n) (x3 f3 : F) : Prop := f3 > L.f0 + x3 * RHO * L.d0

instance (L : Line F n) (x3 f3 : F) : Decidable (L.high x3 f3) := inferInstanceAs (Decidable (_ > _))

/-- The extrapolation, `while 1`: score_utils.py L207-L252. `x2` is reset to zero in every round (L208), so the point
moved to `x1` is always the start of the line. When no try succeeds, `f3` and `df3` are those of the start (L211-L212).
In the code they are NaN if the objective gave NaN; the round then ends the extrapolation all the same since the budget
is used up, and neither the best point nor the test of L288 sees the difference. -/
def extrap (E : Env F) (L : Line F n) : ℕ → ℕ → F → Best F n → Except Err (Probe F n)
  | 0, _, _, _ => .error .fuel
  | fuel + 1, M, x3, b =>
    let r := tries L M x3
    let v := r.2.2.getD (L.f0, L.df0)
    let b' := b.upd (L.at r.2.1) v.1 v.2
    let d3 := inner L.kind v.2 L.s
    if d3 > SIG * L.d0 ∨ L.high r.2.1 v.1 ∨ r.1 = 0 then .ok ⟨r.2.1, v.1, v.2, d3, r.1, b'⟩
    else extrap E L fuel r.1 (nextExt E 0 L.f0 L.d0 r.2.1 v.1 d3) b'

/-- The end of a line search: the budget left, the best point, and the last point tried (`none` when the objective gave
NaN there): score_utils.py L286. -/
structure LineEnd (F : Type _) (n : ℕ) where
  M : ℕ
  best : Best F n
  last : Option (F × F × (Fin (n + 1) → F) × F)

/-- `abs(d3) > -SIG * d0 or f3 > f0 + x3 * RHO * d0`: score_utils.py L254. -/
def Line.more (L : Line F n) (x3 f3 d3 : F) : Prop := |d3| > -SIG * L.d0 ∨ L.high x3 f3

instance (L : Line F n) (x3 f3 d3 : F) : Decidable (L.more x3 f3 d3) := inferInstanceAs (Decidable (_ ∨ _))

/-- The interpolation: score_utils.py L254-L286. `p2` is `(x2, f2, d2)`; `p4` is `(x4, f4, d4)`, `none` while the names
are unbound, in which case L264 raises. An exception of the objective is not caught here. -/
def interp (E : Env F) (L : Line F n) : ℕ → (F × F × F) → Option (F × F × F) → F → F → (Fin (n + 1) → F) → F → Best F n →
    Except Err (LineEnd F n)
  | 0, _, _, x3, f3, df3, d3, b => .ok ⟨0, b, some (x3, f3, df3, d3)⟩
  | M + 1, p2, p4, x3, f3, df3, d3, b =>
    if L.more x3 f3 d3 then
      let up : Bool := d3 > 0 ∨ L.high x3 f3
      let q2 := if up then p2 else (x3, f3, d3)
      let q4 := if up then some (x3, f3, d3) else p4
      match q4 with
      | none => .error .exception
      | some q4 =>
        let x3' := nextInt E L.f0 q2.1 q2.2.1 q2.2.2 q4.1 q4.2.1 q4.2.2
        match L.obj (L.at x3') with
        | .raise e => .error e
        | .nan => .ok ⟨M, b, none⟩
        | .ok f df => interp E L M q2 (some q4) x3' f df (inner L.kind df L.s) (b.upd (L.at x3') f df)
    else .ok ⟨M + 1, b, some (x3, f3, df3, d3)⟩

/-- The state of the outer loop: score_utils.py L185-L195. `fX` is the list of recorded values, oldest first. -/
structure St (F : Type _) (n : ℕ) where
  X : Fin (n + 1) → F
  f0 : F
  df0 : Fin (n + 1) → F
  s : Fin (n + 1) → F
  d0 : F
  x3 : F
  i : ℕ
  failed : Bool
  fX : List F

/-- `s = ((df3.T * df3)[0, 0] - df0.T * df3[0, 0]) / (df0.T * df0)[0, 0] * s - df3`: score_utils.py L292. For matrices the
factor of `s` is a row, its product with the column `s` is one number, and the number is added to every entry of `-df3`.
For plain arrays of more than one entry the result is a square table and no longer a column; the model stops there. -/
def newDir (k : Kind) (df0 df3 s : Fin (n + 1) → F) : Except Err (Fin (n + 1) → F) :=
  let c := ∑ j, (inner k df3 df3 - df0 j * df3 0) / inner k df0 df0 * s j
  match k with
  | .matrix => .ok fun i => c - df3 i
  | .array => if n = 0 then .ok fun i => c - df3 i else .error .notImplemented

/-- One pass of the outer loop: score_utils.py L198-L310. The flag says whether `break` was reached. `i` is increased
with every decrease of `M` when `length < 0`; the model adds up at the end of the pass. -/
def step (E : Env F) (obj : (Fin (n + 1) → F) → Ev F (Fin (n + 1) → F)) (k : Kind) (length : ℤ) (st : St F n) :
    Except Err (St F n × Bool) := do
  let L : Line F n := ⟨obj, k, st.X, st.s, st.f0, st.df0, st.d0⟩
  let M := if length > 0 then MAX else min MAX (length.natAbs - st.i)
  let p ← extrap E L (M + 1) M st.x3 ⟨st.X, st.f0, st.df0⟩
  let e ← interp E L p.M (0, st.f0, st.d0) none p.x3 p.f3 p.df3 p.d3 p.best
  let i := if length > 0 then st.i + 1 else st.i + (M - e.M)
  match e.last.filter fun l => |l.2.2.2| < -SIG * st.d0 ∧ l.2.1 < st.f0 + l.1 * RHO * st.d0 with
  | some (x3, f3, df3, _) =>
    let s ← newDir k st.df0 df3 st.s
    let d0 := inner k df3 s
    let s' : Fin (n + 1) → F := if d0 > 0 then fun i => -df3 i else s
    let d0' := if d0 > 0 then -inner k s' s' else d0
    .ok (⟨L.at x3, f3, df3, s', d0', x3 * min RATIO (st.d0 / (d0' - E.tiny)), i, false, st.fX ++ [f3]⟩, false)
  | none =>
    let st' := { st with X := e.best.X, f0 := e.best.f, df0 := e.best.df, i := i }
    if st.failed ∨ i > length.natAbs then .ok (st', true)
    else
      let s : Fin (n + 1) → F := fun i => -e.best.df i
      let d0 := -inner k s s
      .ok ({ st' with s := s, d0 := d0, x3 := 1 / (1 - d0), failed := true }, false)

/-- `while i < abs(length)`: score_utils.py L197-L310. -/
def loop (E : Env F) (obj : (Fin (n + 1) → F) → Ev F (Fin (n + 1) → F)) (k : Kind) (length : ℤ) : ℕ → St F n →
    Except Err (St F n)
  | 0, st => if st.i < length.natAbs then .error .fuel else .ok st
  | fuel + 1, st =>
    if st.i < length.natAbs then
      match step E obj k length st with
      | .error e => .error e
      | .ok (st', true) => .ok st'
      | .ok (st', false) => loop E obj k length fuel st'
    else .ok st

/-- `minimize(X, f, (length, red))`: score_utils.py L112-L311. Returns the point, the recorded values and the count. A NaN
at the start is not modelled further: the comparisons with it are all false, and the model reports it as an error. -/
def minimize (E : Env F) (obj : (Fin (n + 1) → F) → Ev F (Fin (n + 1) → F)) (k : Kind) (X : Fin (n + 1) → F) (length : ℤ)
    (red : F) : Except Err ((Fin (n + 1) → F) × List F × ℕ) :=
  match obj X with
  | .raise e => .error e
  | .nan => .error .notImplemented
  | .ok f0 df0 =>
    let s : Fin (n + 1) → F := fun i => -df0 i
    let d0 := -inner k s s
    let st : St F n := ⟨X, f0, df0, s, d0, red / (1 - d0), if length < 0 then 1 else 0, false, [f0]⟩
    match loop E obj k length length.natAbs st with
    | .error e => .error e
    | .ok st => .ok (st.X, st.fX, st.i)

end Cdmir.Minimize
