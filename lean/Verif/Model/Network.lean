import Verif.Model.Notears
import Mathlib.Analysis.Real.Sqrt
import Mathlib.Analysis.SpecialFunctions.Trigonometric.Basic

/-! Model of cdmir/discovery/score_based/entropy_based/entropy_based_discovery: lbfgsb_scipy.py, locally_connected.py, nonlinear.py,
nonlinear_ent.py (the same classes) and the model and training loops of linear_ent.py.

Tensors are the lists of their entries in memory order, so that `view` is a matter of indices. The optimisers (scipy's L-BFGS-B and
those of torch), the sigmoid and the losses are parameters. The change of floating point type is left out. -/

namespace Cdmir.Net
open BigOperators Finset

/-- A bound `(low, high)` of one parameter, `None` as `none` (lbfgsb_scipy.py L39, nonlinear.py L36, L38). -/
abbrev Bound (K : Type) := Option K × Option K

section
variable {K : Type} [Field K]

/-! ### lbfgsb_scipy.py -/

/-- lbfgsb_scipy.py L58-66: `_distribute_flat_params`, for parameters of the given sizes. A slice that is too short cannot be viewed
in the shape of the parameter (`RuntimeError`). The second argument is `offset`; L66 compares it with L24. -/
def distributeFrom (numel : Nat) (v : List K) : Nat → List Nat → Except Err (List (List K))
  | offset, [] => if offset = numel then pure [] else throw .assertion
  | offset, n :: ns =>
    let t := (v.drop offset).take n
    if t.length = n then do
      let ts ← distributeFrom numel v (offset + n) ns
      pure (t :: ts)
    else throw .exception

/-- lbfgsb_scipy.py L58-66 with L24, `_numel`. -/
def distribute (sizes : List Nat) (v : List K) : Except Err (List (List K)) := distributeFrom sizes.sum v 0 sizes

/-- lbfgsb_scipy.py L48-56: `_gather_flat_params` (dense parameters). -/
def gather (ps : List (List K)) : List K := ps.flatten

/-- lbfgsb_scipy.py L26-36: `_gather_flat_grad`; a parameter without gradient contributes zeros. -/
def gatherGrad (sizes : List Nat) (gs : List (Option (List K))) : List K :=
  (List.zipWith (fun n g => g.getD (List.replicate n 0)) sizes gs).flatten

/-- lbfgsb_scipy.py L38-46: `_gather_flat_bounds`; a parameter without `bounds` is free. -/
def gatherBounds (sizes : List Nat) (bs : List (Option (List (Bound K)))) : List (Bound K) :=
  (List.zipWith (fun n b => b.getD (List.replicate n (none, none))) sizes bs).flatten

/-- lbfgsb_scipy.py L77-84: `wrapped_closure`. `loss` is the closure: from the parameters to the value and the gradients. -/
def wrapped (sizes : List Nat) (loss : List (List K) → K × List (Option (List K))) (v : List K) : Except Err (K × List K) := do
  let ps ← distribute sizes v
  let r := loss ps
  pure (r.1, gatherGrad sizes r.2)

/-- lbfgsb_scipy.py L68-101: `step`. `scipy` is `sopt.minimize(..., method='L-BFGS-B', jac=True)`: objective, start, bounds. -/
def step (scipy : (List K → Except Err (K × List K)) → List K → List (Bound K) → Except Err (List K)) (sizes : List Nat)
    (bs : List (Option (List (Bound K)))) (loss : List (List K) → K × List (Option (List K))) (ps : List (List K)) :
    Except Err (List (List K)) := do
  let sol ← scipy (wrapped sizes loss) (gather ps) (gatherBounds sizes bs)
  distribute sizes sol

/-! ### locally_connected.py and the classes of nonlinear.py -/

/-- The entry of a tensor at a memory position. -/
def at' (t : List K) (i : Nat) : K := t.getD i 0

/-- `nn.Linear` (nonlinear.py L19-20, L94-95; linear_ent.py L27-28): weight `[out, in]`, bias `[out]` (the empty list without
bias). One row of the input. -/
def linear (inF : Nat) (w b : List K) (x : Nat → K) : Nat → K := fun o => ∑ i ∈ range inF, x i * at' w (o * inF + i) + at' b o

/-- locally_connected.py L51-58: `forward`, one row of the input, weight `[d, m1, m2]`, bias `[d, m2]`. -/
def localForward (m1 m2 : Nat) (w b : List K) (x : Nat → Nat → K) : Nat → Nat → K :=
  fun j c => ∑ a ∈ range m1, x j a * at' w ((j * m1 + a) * m2 + c) + at' b (j * m2 + c)

/-- locally_connected.py L60-66: `extra_repr` reads `self.in_features`, which `__init__` (L26-30) calls `input_features`; torch's
`__getattr__` raises an `AttributeError`. -/
def extraRepr : Except Err String := throw .exception

/-- The parameters of a `NotearsMLP` (nonlinear.py L11-27) for `dims = d :: m1 :: rest`: `fc1_pos`, `fc1_neg` and the local layers,
each weight and bias. -/
structure Mlp (K : Type) where
  d : Nat
  m1 : Nat
  rest : List Nat
  posW : List K
  posB : List K
  negW : List K
  negB : List K
  layers : List (List K × List K)

/-- nonlinear.py L14-15: the assertions of the constructor. -/
def checkDims : List Nat → Except Err (Nat × Nat × List Nat)
  | d :: m1 :: rest => if (m1 :: rest).getLast? = some 1 then pure (d, m1, rest) else throw .assertion
  | _ => throw .assertion

/-- nonlinear.py L25-26: input and output widths of the local layers. -/
def layerDims (m1 : Nat) (rest : List Nat) : List (Nat × Nat) := (m1 :: rest).zip rest

/-- The sizes of `model.parameters()` of a `NotearsMLP`, in the order of registration (nonlinear.py L19-27, locally_connected.py
L32-36). -/
def mlpSizes (d m1 : Nat) (rest : List Nat) (bias : Bool) : List Nat :=
  let fc := if bias then [d * m1 * d, d * m1] else [d * m1 * d]
  fc ++ fc ++ (layerDims m1 rest).flatMap fun q => if bias then [d * q.1 * q.2, d * q.2] else [d * q.1 * q.2]

/-- nonlinear.py L29-40: `_bounds` of `NotearsMLP`. -/
def mlpBounds (d m1 : Nat) : List (Bound K) :=
  (List.range d).flatMap fun j => (List.range m1).flatMap fun _ => (List.range d).map fun i =>
    if i = j then (some 0, some 0) else (some 0, none)

/-- The `bounds` attributes of the parameters (nonlinear.py L21-22). -/
def mlpAttrs (d m1 : Nat) (rest : List Nat) (bias : Bool) : List (Option (List (Bound K))) :=
  let fc : List (Option (List (Bound K))) := if bias then [some (mlpBounds d m1), none] else [some (mlpBounds d m1)]
  fc ++ fc ++ (layerDims m1 rest).flatMap fun _ => if bias then [none, none] else [none]

/-- The network whose parameters, in the order of `model.parameters()`, are the given tensors. -/
def mlpOf (d m1 : Nat) (rest : List Nat) (bias : Bool) (ts : List (List K)) : Mlp K :=
  let t (i : Nat) := ts.getD i []
  ⟨d, m1, rest, t 0, if bias then t 1 else [], if bias then t 2 else t 1, if bias then t 3 else [],
    (List.range rest.length).map fun l => if bias then (t (4 + 2 * l), t (5 + 2 * l)) else (t (2 + l), [])⟩

/-- nonlinear.py L43-44: the first layer, read as `[d, m1]`. -/
def Mlp.hidden (p : Mlp K) (x : Nat → K) : Nat → Nat → K :=
  fun j l => linear p.d p.posW p.posB x (j * p.m1 + l) - linear p.d p.negW p.negB x (j * p.m1 + l)

/-- nonlinear.py L45-47: the local layers. -/
def layersForward (act : K → K) : List ((Nat × Nat) × List K × List K) → (Nat → Nat → K) → Nat → Nat → K
  | [], z => z
  | ((a, b), w, c) :: ls, z => layersForward act ls (localForward a b w c fun j l => act (z j l))

/-- nonlinear.py L42-49: `forward`, one row; `act` is the sigmoid. -/
def Mlp.forward (act : K → K) (p : Mlp K) (x : Nat → K) : Nat → K :=
  fun j => layersForward act ((layerDims p.m1 p.rest).zip p.layers) (p.hidden x) j 0

/-- nonlinear.py L54-55, L81-82: `fc1_weight.view(d, -1, d)`, indices `[j, m1, i]`. -/
def Mlp.fc1 (p : Mlp K) : Fin p.d → Fin p.m1 → Fin p.d → K := fun j l i =>
  at' p.posW ((j * p.m1 + l) * p.d + i) - at' p.negW ((j * p.m1 + l) * p.d + i)

/-- nonlinear.py L51-61: `h_func` of `NotearsMLP`. -/
def Mlp.h (p : Mlp K) : K := Notears.hOf (Notears.mlpA p.fc1)

/-- nonlinear.py L72-75: `fc1_l1_reg`, the sum of the entries of both weights. -/
def l1Reg (posW negW : List K) : K := (List.zipWith (· + ·) posW negW).sum

/-- nonlinear.py L63-70: `l2_reg` of `NotearsMLP`. -/
def Mlp.l2Reg (p : Mlp K) : K :=
  ((List.zipWith (· - ·) p.posW p.negW).map (· ^ 2)).sum + (p.layers.map fun q => (q.1.map (· ^ 2)).sum).sum

/-- The parameters of a `NotearsSobolev` (nonlinear.py L89-99). -/
structure Sob (K : Type) where
  d : Nat
  k : Nat
  posW : List K
  negW : List K

/-- nonlinear.py L102-113: `_bounds` of `NotearsSobolev`. -/
def sobBounds (d k : Nat) : List (Bound K) :=
  (List.range d).flatMap fun j => (List.range d).flatMap fun i => (List.range k).map fun _ =>
    if i = j then (some 0, some 0) else (some 0, none)

/-- nonlinear.py L94-99: sizes of the parameters, and the parameters themselves. -/
def sobSizes (d k : Nat) : List Nat := [d * (d * k), d * (d * k)]

/-- nonlinear.py L96-97. -/
def sobAttrs (d k : Nat) : List (Option (List (Bound K))) := [some (sobBounds d k), some (sobBounds d k)]

/-- The model whose parameters are the given tensors (nonlinear.py L94-95). -/
def sobOf (d k : Nat) (ts : List (List K)) : Sob K := ⟨d, k, ts.getD 0 [], ts.getD 1 []⟩

/-- nonlinear.py L132-133, L151-152: indices `[j, i, k]`. -/
def Sob.fc1 (p : Sob K) : Fin p.d → Fin p.d → Fin p.k → K := fun j i l =>
  at' p.posW ((j * p.d + i) * p.k + l) - at' p.negW ((j * p.d + i) * p.k + l)

/-- nonlinear.py L131-139: `h_func` of `NotearsSobolev`. -/
def Sob.h (p : Sob K) : K := Notears.hOf (Notears.sobolevA p.fc1)

/-- nonlinear.py L125-129: `forward`, one row, from the bases. -/
def Sob.forwardBases (p : Sob K) (bases : Nat → K) : Nat → K :=
  fun j => linear (p.d * p.k) p.posW [] bases j - linear (p.d * p.k) p.negW [] bases j

/-! ### linear_ent.py -/

/-- linear_ent.py L19-36: the parameters of `linear_nonGauss` (`pos_neg` is `True`, no bias). -/
structure Lin (K : Type) where
  d : Nat
  posW : List K
  negW : List K

/-- linear_ent.py L40-50: `_bounds`. -/
def linBounds (d : Nat) : List (Bound K) :=
  (List.range d).flatMap fun j => (List.range d).map fun i => if i = j then (some 0, some 0) else (some 0, none)

/-- linear_ent.py L60-65: `weight_train`, `[j, i]`. -/
def Lin.train (p : Lin K) : Matrix (Fin p.d) (Fin p.d) K := fun j i => at' p.posW (j * p.d + i) - at' p.negW (j * p.d + i)

/-- linear_ent.py L52-58: `weight_test`, transposed. -/
def Lin.test (p : Lin K) : Matrix (Fin p.d) (Fin p.d) K := p.train.transpose

/-- linear_ent.py L81-88: `h_func`. -/
def Lin.h (p : Lin K) : K := Notears.hTrace (Notears.had p.test p.test)

/-- linear_ent.py L72-75: `L1`. -/
def Lin.l1 (p : Lin K) : K := Notears.total p.train

/-- linear_ent.py L102-108: `forward`, the whole data matrix: the output, and `l2_reg_store`. -/
def Lin.forward {n : Nat} (p : Lin K) (X : Matrix (Fin n) (Fin p.d) K) : Matrix (Fin n) (Fin p.d) K × K :=
  (fun r j => (∑ i : Fin p.d, X r i * at' p.posW (j * p.d + i)) - ∑ i : Fin p.d, X r i * at' p.negW (j * p.d + i),
    Notears.total (Notears.had X X) / n)

/-- linear_ent.py L111-114: `squared_loss`. -/
def squaredLoss {n d : Nat} (out target : Matrix (Fin n) (Fin d) K) : K :=
  1 / 2 / n * ∑ r, ∑ j, (out r j - target r j) ^ 2

/-! ### The loops -/

section
variable [LinearOrder K] {σ : Type}

/-- linear_ent.py L67-70: `abs_L1`. -/
def Lin.absL1 (p : Lin K) : K := ∑ j, ∑ i, |p.train j i|

/-- linear_ent.py L157-170: the objective of `LBFGSB`; `ent` is the entropy loss. -/
def Lin.objective {n : Nat} (p : Lin K) (ent : Matrix (Fin n) (Fin p.d) K → Matrix (Fin n) (Fin p.d) K → K) (X : Matrix (Fin n) (Fin p.d) K)
    (lambda1 lambda2 rho alpha beta gama : K) : K :=
  let out := (p.forward X).1
  let l2 := (p.forward X).2
  beta * ent out X + gama * squaredLoss out X + (1 / 2 * rho * p.h * p.h + alpha * p.h) + 1 / 2 * lambda2 * l2 + lambda1 * p.absL1

/-- nonlinear.py L170-189, nonlinear_ent.py L174-194, linear_ent.py L155-182, L123-148: the loop of a dual ascent step. `opt rho alpha s` is
`optimizer.step(closure)`, which updates the model in place; the state is the model. -/
def ascentLoop (opt : K → K → σ → σ) (hf : σ → K) (rhoMax alpha : K) (h : Option K) :
    Nat → K → σ → Option K → Except Err (K × σ × Option K)
  | 0, rho, s, new => if rho < rhoMax then throw .fuel else pure (rho, s, new)
  | fuel + 1, rho, s, new =>
    if rho < rhoMax then
      let s' := opt rho alpha s
      let hNew := hf s'
      if Notears.slow h hNew then ascentLoop opt hf rhoMax alpha h fuel (rho * 10) s' (some hNew)
      else pure (rho, s', some hNew)
    else pure (rho, s, new)

/-- nonlinear.py L165-191, linear_ent.py L151-184: `dual_ascent_step`, `LBFGSB`. `alpha += rho * None` is a `TypeError`. -/
def dualAscent (fuel : Nat) (opt : K → K → σ → σ) (hf : σ → K) (rhoMax rho alpha : K) (h : Option K) (s : σ) :
    Except Err (K × K × K × σ) := do
  let (rho', s', new) ← ascentLoop opt hf rhoMax alpha h fuel rho s none
  match new with
  | none => throw .type
  | some hn => pure (rho', alpha + rho' * hn, hn, s')

/-- linear_ent.py L204-211: one annealing step of `beta`. -/
def anneal (on : Bool) (beta : K) : K := if on then (if beta > 1 / 10 then beta - 1 / 10 else beta) else beta

/-- nonlinear.py L203-208, linear_ent.py L198-221: the rounds. The optimiser may depend on `beta`, which only linear_ent.py uses. The
result is the model, with the last `rho` and `h` (`none` is `np.inf`). -/
def rounds (fuel : Nat) (opt : K → K → K → σ → σ) (hf : σ → K) (hTol rhoMax : K) (on : Bool) :
    Nat → K → K → K → Option K → σ → Except Err (σ × K × Option K)
  | 0, _, rho, _, h, s => pure (s, rho, h)
  | k + 1, beta, rho, alpha, h, s => do
    let beta' := anneal on beta
    let (rho', alpha', h', s') ← dualAscent fuel (opt beta') hf rhoMax rho alpha h s
    if h' ≤ hTol ∨ rho' ≥ rhoMax then pure (s', rho', some h') else rounds fuel opt hf hTol rhoMax on k beta' rho' alpha' (some h') s'

/-- nonlinear.py L194-211: `notears_nonlinear`, for a model with constraint `hf` and `fc1_to_adj` `adj`. -/
def notearsNonlinear {d : Nat} (fuel : Nat) (opt : K → K → σ → σ) (hf : σ → K) (adj : σ → Matrix (Fin d) (Fin d) K)
    (p : Notears.Params K) (s : σ) : Except Err (Matrix (Fin d) (Fin d) K) := do
  let r ← rounds fuel (fun _ => opt) hf p.hTol p.rhoMax false p.maxIter 0 1 0 none s
  pure (Notears.threshold p.wThreshold (adj r.1))

/-- linear_ent.py L187-228: `train_LBFGSB`. -/
def trainLBFGSB {d : Nat} (fuel : Nat) (opt : K → K → K → σ → σ) (hf : σ → K) (adj : σ → Matrix (Fin d) (Fin d) K)
    (p : Notears.Params K) (on : Bool) (beta : K) (s : σ) : Except Err (Matrix (Fin d) (Fin d) K) := do
  let r ← rounds fuel opt hf p.hTol p.rhoMax on p.maxIter beta 1 0 none s
  pure (Notears.threshold p.wThreshold (adj r.1))

end
end

/-- nonlinear.py L77-86: `fc1_to_adj` of `NotearsMLP`. -/
noncomputable def Mlp.adj (p : Mlp ℝ) : Matrix (Fin p.d) (Fin p.d) ℝ := fun i j => Real.sqrt (Notears.mlpA p.fc1 i j)

/-- nonlinear.py L149-156: `fc1_to_adj` of `NotearsSobolev`. -/
noncomputable def Sob.adj (p : Sob ℝ) : Matrix (Fin p.d) (Fin p.d) ℝ := fun i j => Real.sqrt (Notears.sobolevA p.fc1 i j)

/-- nonlinear.py L118: `mu`. -/
noncomputable def mu (kk : Nat) : ℝ := 2 / (2 * kk + 1) / Real.pi

/-- nonlinear.py L115-123: `sobolev_basis`, one row: position `i * k + kk` holds basis `kk` of variable `i`. -/
noncomputable def basis (k : Nat) (x : Nat → ℝ) : Nat → ℝ := fun q => mu (q % k) * Real.sin (x (q / k) / mu (q % k))

/-- nonlinear.py L125-129: `forward` of `NotearsSobolev`, one row. -/
noncomputable def Sob.forward (p : Sob ℝ) (x : Nat → ℝ) : Nat → ℝ := p.forwardBases (basis p.k x)

end Cdmir.Net
