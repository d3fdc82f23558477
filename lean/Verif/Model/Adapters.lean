import Verif.Model.Py

/-! Model of cdmir/utils/adapters.py, with the part of Python's calling convention it depends on. -/

namespace Cdmir

/-- What the body of a Python function sees: its named parameters, `*args` and `**kwargs`. -/
structure Bound (V : Type) where
  named : List (String × V)
  args : List V
  kwargs : List (String × V)
  deriving DecidableEq, Repr

/-- Python's binding of a call `f(*pos, **kw)` for `def f(p1, ..., pn, *args, **kwargs)`; `dflt` gives default values.
A parameter given twice, or not at all without a default, is a `TypeError`. Used at adapters.py L6, L17 and pc.py L31. -/
def bindCall {V : Type} (params : List String) (dflt : List (String × V)) (pos : List V) (kw : List (String × V)) :
    Except Err (Bound V) := do
  let byPos := params.zip pos
  let kwNamed := kw.filter (fun a => a.1 ∈ params)
  if kwNamed.any (fun a => (dget byPos a.1).isSome) then throw .type
  let named ← params.mapM fun p =>
    match (dget byPos p).or ((dget kwNamed p).or (dget dflt p)) with
    | some v => pure (p, v)
    | none => throw .type
  pure { named := named, args := pos.drop params.length, kwargs := kw.filter (fun a => ¬ a.1 ∈ params) }

/-- What the wrapper asks of its arguments (adapters.py L7-16): the number of columns of a DataFrame or ndarray (`none` for
any other type), the column labels and the array of a DataFrame (`none` for an ndarray), the list `[0, ..., n - 1]`, the
length of a list of names, and `None`. -/
structure DataOps (V : Type) where
  cols : V → Option Nat
  frame : V → Option (V × V)
  range : Nat → V
  len : V → Nat
  none : V

/-- adapters.py L7-16: the checks and the choice of `data` and `var_names`. -/
def convertData {V : Type} [DecidableEq V] (o : DataOps V) (data names : V) : Except Err (V × V) :=
  match o.cols data with
  | .none => .error .assertion
  | some n =>
    if names = o.none then
      match o.frame data with
      | some (c, a) => .ok (a, c)
      | .none => .ok (data, o.range n)
    else if o.len names = n then .ok (data, names) else .error .assertion

/-- adapters.py L5-19: a method `func` with named parameters `params` (the first three are `self`, `data`, `var_names`) and
`*args`, `**kwargs`, decorated with `data_form_converter_for_class_method`. The result is what the body of `func` gets. -/
def decorated {V : Type} [DecidableEq V] (o : DataOps V) (params : List String) (pos : List V) (kw : List (String × V)) :
    Except Err (Bound V) := do
  let b ← bindCall ["self", "data", "var_names"] [("var_names", o.none)] pos kw
  match b.named with
  | [(_, self), (_, data), (_, names)] =>
    let (data, names) ← convertData o data names
    bindCall params [] b.args ([("self", self), ("data", data), ("var_names", names)] ++ b.kwargs)
  | _ => throw .type

end Cdmir
