import Verif.Props.Simulate

/-! Property C72: the post-nonlinear simulator for independent samples, and the composed functions of `_pnl_func_sequential`. -/

namespace Cdmir.Sim
open BigOperators

set_option linter.unusedSectionVars false

/-- The names that give a product with a matrix; the others are applied to each number. -/
def Fn.IsMat (t : Fn) : Prop := t = .cos ∨ t = .linear ∨ t = .other

instance (t : Fn) : Decidable t.IsMat := by unfold Fn.IsMat; infer_instance

section
variable {K : Type} [CommRing K]

theorem runLayers_cons (l : Layer K) (ls : List (Layer K)) (x : List K) :
    runLayers (l :: ls) x = (do let y ← runLayer l x; runLayers ls y) := rfl

theorem run_mat {e : Elem K} {W : Nat → Nat → K} {t : Fn} (h : t.IsMat) (din dout : Nat) (x : List K) :
    (x.length = din → ∃ y, runLayer (pnlFunc e W t din dout) x = Except.ok y ∧ y.length = dout) ∧
    (x.length ≠ din → runLayer (pnlFunc e W t din dout) x = Except.error .value) := by
  have : pnlFunc e W t din dout = .mat din dout W := by rcases h with rfl | rfl | rfl <;> rfl
  rw [this]
  refine ⟨fun q => ⟨_, if_pos q, by simp⟩, fun q => if_neg q⟩

theorem run_elem {e : Elem K} {W : Nat → Nat → K} {t : Fn} (h : ¬ t.IsMat) (din dout : Nat) (x : List K) :
    ∃ y, runLayer (pnlFunc e W t din dout) x = Except.ok y ∧ y.length = x.length := by
  cases t with
  | cos => exact absurd (Or.inl rfl) h
  | linear => exact absurd (Or.inr (Or.inl rfl)) h
  | other => exact absurd (Or.inr (Or.inr rfl)) h
  | tanh => exact ⟨_, rfl, List.length_map _⟩
  | leakyRelu => exact ⟨_, rfl, List.length_map _⟩
  | sin => exact ⟨_, rfl, List.length_map _⟩

/-- The width the functions `ts` are given by their predecessor. -/
def before (ts : List Fn) (dout hidden : Nat) : Nat := if Fn.linear ∈ ts then hidden else dout

theorem pnlSeq_cons (e : Elem K) (W : Nat → Nat → Nat → K) (t : Fn) (ts : List Fn) (din dout hidden : Nat) :
    pnlSeq e W (t :: ts) din dout hidden =
      pnlFunc e (W ts.length) t din (before ts dout hidden) ::
        pnlSeq e W ts (before ts dout hidden) dout (before ts dout hidden) := by
  rw [pnlSeq]
  by_cases h : Fn.linear ∈ ts <;> simp [h, before]

theorem before_before (ts : List Fn) (dout hidden : Nat) : before ts dout (before ts dout hidden) = before ts dout hidden := by
  unfold before; split <;> rfl

/-- What the layers do depends on the hidden width only through `before`. -/
theorem before_cons {t : Fn} (h : t ≠ .linear) (ts : List Fn) (dout hidden : Nat) :
    before (t :: ts) dout hidden = before ts dout hidden := by
  have : Fn.linear ∈ t :: ts ↔ Fn.linear ∈ ts := by simp [Ne.symm h]
  simp [before, this]

theorem seq_ok (e : Elem K) (W : Nat → Nat → Nat → K) (dout : Nat) (ts : List Fn) (hidden : Nat) (x : List K)
    (hx : x.length = before ts dout hidden) :
    ∃ y, runLayers (pnlSeq e W ts x.length dout hidden) x = Except.ok y ∧ y.length = dout := by
  induction ts generalizing hidden x with
  | nil => exact ⟨x, rfl, by simpa [before] using hx⟩
  | cons t ts ih =>
    rw [pnlSeq_cons, runLayers_cons]
    have : ∃ y, runLayer (pnlFunc e (W ts.length) t x.length (before ts dout hidden)) x = Except.ok y ∧
        y.length = before ts dout hidden := by
      by_cases h : t.IsMat
      · exact (run_mat h _ _ x).1 rfl
      · obtain ⟨y, h1, h2⟩ := run_elem (e := e) (W := W ts.length) h x.length (before ts dout hidden) x
        refine ⟨y, h1, ?_⟩
        rw [h2, hx, before_cons (fun q => h (by simp [q, Fn.IsMat]))]
    obtain ⟨y, h1, h2⟩ := this
    rw [h1, ok_bind]
    have := ih (before ts dout hidden) y (by rw [h2, before_before])
    rwa [h2] at this

theorem seq_elem (e : Elem K) (W : Nat → Nat → Nat → K) (ts : List Fn) (h : ∀ t ∈ ts, ¬ t.IsMat) (din dout hidden : Nat)
    (x : List K) : ∃ y, runLayers (pnlSeq e W ts din dout hidden) x = Except.ok y ∧ y.length = x.length := by
  induction ts generalizing din hidden x with
  | nil => exact ⟨x, rfl, rfl⟩
  | cons t ts ih =>
    rw [pnlSeq_cons, runLayers_cons]
    obtain ⟨y, h1, h2⟩ := run_elem (e := e) (W := W ts.length) (h t List.mem_cons_self) din (before ts dout hidden) x
    rw [h1, ok_bind]
    obtain ⟨z, h3, h4⟩ := ih (fun t q => h t (List.mem_cons_of_mem _ q)) (before ts dout hidden) (before ts dout hidden) y
    exact ⟨z, h3, by rw [h4, h2]⟩

theorem seq_fail (e : Elem K) (W : Nat → Nat → Nat → K) (ts : List Fn) (dout din hidden : Nat) (x : List K)
    (hd : x.length ≠ din) (hb : din = before ts dout hidden) (h : ∃ t ∈ ts, t.IsMat) :
    runLayers (pnlSeq e W ts din dout hidden) x = Except.error .value := by
  induction ts generalizing din hidden x with
  | nil => simp at h
  | cons t ts ih =>
    rw [pnlSeq_cons, runLayers_cons]
    by_cases q : t.IsMat
    · rw [(run_mat q _ _ x).2 hd]; rfl
    · obtain ⟨y, h1, h2⟩ := run_elem (e := e) (W := W ts.length) q din (before ts dout hidden) x
      rw [h1, ok_bind]
      have e1 : din = before ts dout hidden := by rw [hb, before_cons (fun r => q (by simp [r, Fn.IsMat]))]
      refine ih _ _ y (by rw [h2, ← e1]; exact hd) (before_before _ _ _).symm ?_
      obtain ⟨t', h3, h4⟩ := h
      rcases List.mem_cons.1 h3 with rfl | h3
      · exact absurd h4 q
      · exact ⟨t', h3, h4⟩

/-- C72. Whether the functions of a list fit together, for every list of names and every sizes. A list of functions of single
numbers keeps the width of its input. A list with a product in it ends with the width asked for, if it begins with a product, or
if the input width is the one the second function expects (the hidden width if a 'linear' follows, else the output width). In
every other case the call raises `ValueError`. -/
theorem c72_layers (e : Elem K) (W : Nat → Nat → Nat → K) (t : Fn) (ts : List Fn) (dout hidden : Nat) (x : List K) :
    ((∀ u ∈ t :: ts, ¬ u.IsMat) →
      ∃ y, runLayers (pnlLayers e W (.seq (t :: ts)) x.length dout hidden) x = Except.ok y ∧ y.length = x.length) ∧
    (t.IsMat ∨ x.length = (if Fn.linear ∈ ts then hidden else dout) →
      ∃ y, runLayers (pnlLayers e W (.seq (t :: ts)) x.length dout hidden) x = Except.ok y ∧ y.length = dout) ∧
    (¬ t.IsMat → x.length ≠ (if Fn.linear ∈ ts then hidden else dout) → (∃ u ∈ ts, u.IsMat) →
      runLayers (pnlLayers e W (.seq (t :: ts)) x.length dout hidden) x = Except.error .value) := by
  refine ⟨fun h => seq_elem e W _ h _ _ _ x, fun h => ?_, fun h h2 h3 => ?_⟩
  · show ∃ y, runLayers (pnlSeq e W (t :: ts) x.length dout hidden) x = Except.ok y ∧ _
    rw [pnlSeq_cons, runLayers_cons]
    have : ∃ y, runLayer (pnlFunc e (W ts.length) t x.length (before ts dout hidden)) x = Except.ok y ∧
        y.length = before ts dout hidden := by
      by_cases q : t.IsMat
      · exact (run_mat q _ _ x).1 rfl
      · obtain ⟨y, h1, h2⟩ := run_elem (e := e) (W := W ts.length) q x.length (before ts dout hidden) x
        exact ⟨y, h1, by rw [h2]; exact h.resolve_left q⟩
    obtain ⟨y, h1, h2⟩ := this
    rw [h1, ok_bind]
    have := seq_ok e W dout ts (before ts dout hidden) y (by rw [h2, before_before])
    rwa [h2] at this
  · show runLayers (pnlSeq e W (t :: ts) x.length dout hidden) x = _
    rw [pnlSeq_cons, runLayers_cons]
    obtain ⟨y, h4, h5⟩ := run_elem (e := e) (W := W ts.length) h x.length (before ts dout hidden) x
    rw [h4, ok_bind]
    exact seq_fail e W ts dout _ _ y (by rw [h5]; exact h2) (before_before _ _ _).symm h3

/-- Whether the names of a function contain a product. -/
def FnSpec.HasMat : FnSpec → Prop
  | .one t => t.IsMat
  | .seq ts => ∃ t ∈ ts, t.IsMat

/-- The functions fit when all widths are equal. -/
theorem layers_equal (e : Elem K) (W : Nat → Nat → Nat → K) (f : FnSpec) (x : List K) :
    ∃ y, runLayers (pnlLayers e W f x.length x.length x.length) x = Except.ok y ∧ y.length = x.length := by
  cases f with
  | one t =>
    show ∃ y, runLayers [pnlFunc e (W 0) t x.length x.length] x = _ ∧ _
    rw [runLayers_cons]
    by_cases q : t.IsMat
    · obtain ⟨y, h1, h2⟩ := (run_mat (e := e) (W := W 0) q x.length x.length x).1 rfl
      exact ⟨y, by rw [h1]; rfl, h2⟩
    · obtain ⟨y, h1, h2⟩ := run_elem (e := e) (W := W 0) q x.length x.length x
      exact ⟨y, by rw [h1]; rfl, h2⟩
  | seq ts => exact seq_ok e W _ ts _ x (by simp [before])

end

section
variable {K : Type} [CommRing K] [DecidableEq K] {N n : Nat}

theorem singlePnl_dep (d : PnlDraw N n K) (t : NoiseType) (sv : Fin n → K) (f1 f2 : FnSpec) (hidden : Option Nat)
    (A : Matrix (Fin n) (Fin n) K) (j : Fin n) (X Y : Tab N n K) (h : ∀ i, A i j ≠ 0 → ∀ s, X s i = Y s i) :
    singlePnl d t sv f1 f2 hidden (preds A j) j X = singlePnl d t sv f1 f2 hidden (preds A j) j Y := by
  have : ∀ s, (preds A j).map (X s) = (preds A j).map (Y s) := fun s =>
    List.map_congr_left fun i hi => h i (mem_preds.1 hi) s
  simp only [singlePnl, this]

theorem simPnl_run (nx : Nx n K) (adj : Matrix (Fin n) (Fin n) K) {t : NoiseType} {sc : Scale K} {sv : Fin n → K}
    (f1 f2 : FnSpec) (hidden : Option Nat) (d : PnlDraw N n K) (hnx : nx.Right adj)
    (acyc : Spec.Acyclic (fun i j => adj i j ≠ 0)) (ht : t.Additive) (hs : ScaleOf sc sv) (h1 : f1.accepted = true)
    (h2 : f2.accepted = true) :
    simPnl nx adj t sc f1 f2 hidden d = fillM (nx.topo adj) (fun j => singlePnl d t sv f1 f2 hidden (preds adj j) j) := by
  have len : (nx.topo adj).length = n := by rw [(hnx.perm acyc).length_eq, List.length_finRange]
  have h3 : ¬ (t = .other ∨ t = .logistic ∨ t = .poisson) := by rcases ht with rfl | rfl | rfl | rfl | rfl <;> simp
  simp only [simPnl, if_neg h3, h1, h2, scaleVec_of hs, hnx.dag.2 acyc, len, ok_bind, Bool.not_true, Bool.or_self,
    Bool.false_eq_true, if_false, ne_eq, not_true_eq_false]

theorem const_of_bind {β : Type} {r : Except Err β} {g : β → K} {v : Fin N → K}
    (h : (do let rows ← r; pure (fun _ => g rows)) = Except.ok v) (s s' : Fin N) : v s = v s' := by
  cases r with
  | error e => cases h
  | ok b => cases h; rfl

theorem mapM_ok {ι β : Type} (f : ι → Except Err β) {P : β → Prop} (l : List ι) (h : ∀ i ∈ l, ∃ b, f i = Except.ok b ∧ P b) :
    ∃ bs, l.mapM f = Except.ok bs ∧ bs.length = l.length ∧ ∀ b ∈ bs, P b := by
  induction l with
  | nil => exact ⟨[], rfl, rfl, by simp⟩
  | cons i l ih =>
    obtain ⟨b, hb, pb⟩ := h i List.mem_cons_self
    obtain ⟨bs, hbs, hl, pbs⟩ := ih fun i q => h i (List.mem_cons_of_mem _ q)
    refine ⟨b :: bs, ?_, by simp [hl], by simpa using ⟨pb, pbs⟩⟩
    rw [List.mapM_cons, hb, ok_bind, hbs]
    rfl

/-- C72. With no hidden size given, the simulation runs for every acyclic matrix, all functions and all sizes. -/
theorem c72_runs (nx : Nx n K) (adj : Matrix (Fin n) (Fin n) K) {t : NoiseType} {sc : Scale K} {sv : Fin n → K}
    (f1 f2 : FnSpec) (d : PnlDraw N n K) (hnx : nx.Right adj) (acyc : Spec.Acyclic (fun i j => adj i j ≠ 0)) (ht : t.Additive)
    (hs : ScaleOf sc sv) (h1 : f1.accepted = true) (h2 : f2.accepted = true) :
    ∃ X, simPnl nx adj t sc f1 f2 none d = Except.ok X := by
  rw [simPnl_run nx adj f1 f2 none d hnx acyc ht hs h1 h2]
  have key : ∀ j X, ∃ v, singlePnl d t sv f1 f2 none (preds adj j) j X = Except.ok v := by
    intro j X
    unfold singlePnl
    simp only [Option.getD_none, ne_eq, not_true_eq_false, false_and, if_false]
    by_cases p : (preds adj j).length = 0
    · rw [if_pos p, genNoise_add ht]
      exact ⟨_, rfl⟩
    · rw [if_neg p, genNoise_add ht, ok_bind]
      obtain ⟨bs, h, _⟩ := mapM_ok (P := fun _ => True) (fun s => do
          let u ← runLayers (pnlLayers d.elem (d.w1 j) f1 (preds adj j).length (preds adj j).length (preds adj j).length)
            ((preds adj j).map (X s))
          let v ← addRow u ((List.range (preds adj j).length).map (fun c => d.noise2 j t (s, c) * sv j))
          runLayers (pnlLayers d.elem (d.w2 j) f2 (preds adj j).length (preds adj j).length (preds adj j).length) v)
        (List.finRange N) (fun s _ => by
          obtain ⟨u, hu, lu⟩ := layers_equal d.elem (d.w1 j) f1 ((preds adj j).map (X s))
          rw [List.length_map] at hu lu
          rw [hu, ok_bind]
          have e : addRow u ((List.range (preds adj j).length).map (fun c => d.noise2 j t (s, c) * sv j)) =
              Except.ok (List.zipWith (· + ·) u ((List.range (preds adj j).length).map (fun c => d.noise2 j t (s, c) * sv j))) :=
            if_pos (by simp [lu])
          rw [e, ok_bind]
          obtain ⟨w, hw, _⟩ := layers_equal d.elem (d.w2 j) f2
            (List.zipWith (· + ·) u ((List.range (preds adj j).length).map (fun c => d.noise2 j t (s, c) * sv j)))
          rw [List.length_zipWith, lu, List.length_map, List.length_range, min_self] at hw
          exact ⟨w, hw, trivial⟩)
      exact ⟨_, by rw [h]; rfl⟩
  choose f hf using key
  exact foldlM_ok hf _ _

/-- C72 fails: in every table the simulator returns, the column of a node with a predecessor is constant: all samples have the same
value, whatever the noise of the sample. -/
theorem c72_false (nx : Nx n K) (adj : Matrix (Fin n) (Fin n) K) {t : NoiseType} {sc : Scale K} {sv : Fin n → K} (f1 f2 : FnSpec)
    (hidden : Option Nat) (d : PnlDraw N n K) (hnx : nx.Right adj) (acyc : Spec.Acyclic (fun i j => adj i j ≠ 0))
    (ht : t.Additive) (hs : ScaleOf sc sv) (h1 : f1.accepted = true) (h2 : f2.accepted = true) {X : Tab N n K}
    (h : simPnl nx adj t sc f1 f2 hidden d = Except.ok X) {i j : Fin n} (hij : adj i j ≠ 0) (s s' : Fin N) : X s j = X s' j := by
  rw [simPnl_run nx adj f1 f2 hidden d hnx acyc ht hs h1 h2] at h
  have pw : (nx.topo adj).Pairwise (fun a b => ¬ adj b a ≠ 0) := by simpa using hnx.order acyc
  have e := fillM_spec (P := fun i j => adj i j ≠ 0) (irr_of_acyclic acyc)
    (value := fun j => singlePnl d t sv f1 f2 hidden (preds adj j) j) (singlePnl_dep d t sv f1 f2 hidden adj)
    (hnx.perm acyc) pw h j
  simp only [singlePnl] at e
  split at e
  · simp [throw, throwThe, MonadExceptOf.throw, bind, Except.bind] at e
  · rw [if_neg (fun q => hij ((preds_nil j).1 q i)), genNoise_add ht, ok_bind] at e
    exact const_of_bind e s s'

/-- C72. Nodes without predecessors are their scaled noise. -/
theorem c72_roots_partial (nx : Nx n K) (adj : Matrix (Fin n) (Fin n) K) {t : NoiseType} {sc : Scale K} {sv : Fin n → K}
    (f1 f2 : FnSpec) (hidden : Option Nat) (d : PnlDraw N n K) (hnx : nx.Right adj)
    (acyc : Spec.Acyclic (fun i j => adj i j ≠ 0)) (ht : t.Additive) (hs : ScaleOf sc sv) (h1 : f1.accepted = true)
    (h2 : f2.accepted = true) {X : Tab N n K} (h : simPnl nx adj t sc f1 f2 hidden d = Except.ok X) {j : Fin n}
    (hj : ∀ i, adj i j = 0) (s : Fin N) : X s j = sv j * d.noise1 j t s := by
  rw [simPnl_run nx adj f1 f2 hidden d hnx acyc ht hs h1 h2] at h
  have pw : (nx.topo adj).Pairwise (fun a b => ¬ adj b a ≠ 0) := by simpa using hnx.order acyc
  have e := fillM_spec (P := fun i j => adj i j ≠ 0) (irr_of_acyclic acyc)
    (value := fun j => singlePnl d t sv f1 f2 hidden (preds adj j) j) (singlePnl_dep d t sv f1 f2 hidden adj)
    (hnx.perm acyc) pw h j
  simp only [singlePnl] at e
  split at e
  · simp [throw, throwThe, MonadExceptOf.throw, bind, Except.bind] at e
  · rw [if_pos ((preds_nil j).2 hj), genNoise_add ht] at e
    rw [← congrFun (Except.ok.inj e) s, mul_comm]

theorem mapM_head_error {ι β : Type} {f : ι → Except Err β} {i : ι} {e : Err} (h : f i = Except.error e) (l : List ι) :
    (i :: l).mapM f = Except.error e := by
  rw [List.mapM_cons, h]
  rfl

/-- C72. A hidden size can only be given when both functions contain 'linear': otherwise every call with at least one node raises
`ValueError`, because the nodes without predecessors are checked as well. -/
theorem c72_hidden (nx : Nx n K) (adj : Matrix (Fin n) (Fin n) K) {t : NoiseType} {sc : Scale K} {sv : Fin n → K}
    (f1 f2 : FnSpec) (k : Nat) (d : PnlDraw N n K) (hnx : nx.Right adj) (acyc : Spec.Acyclic (fun i j => adj i j ≠ 0))
    (ht : t.Additive) (hs : ScaleOf sc sv) (h1 : f1.accepted = true) (h2 : f2.accepted = true) (hk : k ≠ 0) (hn : n ≠ 0)
    (hl : ¬ (f1.hasLinear = true ∧ f2.hasLinear = true)) :
    simPnl nx adj t sc f1 f2 (some k) d = Except.error .value := by
  rw [simPnl_run nx adj f1 f2 (some k) d hnx acyc ht hs h1 h2]
  have perm := hnx.perm acyc
  have order := hnx.order acyc
  cases hl0 : nx.topo adj with
  | nil =>
    rw [hl0] at perm
    have := perm.length_eq
    rw [List.length_finRange] at this
    exact absurd this.symm hn
  | cons a l =>
    rw [hl0] at perm order
    have root : ∀ i, adj i a = 0 := by
      intro i
      have : i ∈ a :: l := perm.mem_iff.2 (List.mem_finRange i)
      rcases List.mem_cons.1 this with rfl | q
      · exact not_not.1 (irr_of_acyclic acyc i)
      · exact (List.pairwise_cons.1 order).1 i q
    have href : hiddenRefused f1 f2 = true := by
      have x1 : ∀ f : FnSpec, f.hasLinear = false → f ≠ .one .linear := by
        rintro f h rfl
        exact absurd h (by decide)
      unfold hiddenRefused
      cases a1 : f1.hasLinear with
      | false => simp [x1 f1 a1]
      | true =>
        cases a2 : f2.hasLinear with
        | false => simp [x1 f2 a2]
        | true => exact absurd ⟨a1, a2⟩ hl
    unfold fillM
    rw [List.foldlM_cons]
    have : singlePnl d t sv f1 f2 (some k) (preds adj a) a (fun _ _ => 0) = Except.error .value := by
      have p0 := (preds_nil a).2 root
      simp only [singlePnl, Option.getD_some, p0, ne_eq, hk, not_false_eq_true, href, true_and, if_true]
      rfl
    simp only [this]
    rfl

/-- C72. Also with 'linear' in both functions the call fails, when the first function begins with a function of single numbers
and some node has predecessors, but not as many as the hidden size. -/
theorem c72_mismatch (nx : Nx n K) (adj : Matrix (Fin n) (Fin n) K) {t : NoiseType} {sc : Scale K} {sv : Fin n → K}
    {u : Fn} {us : List Fn} (f2 : FnSpec) (k : Nat) (d : PnlDraw N n K) (hnx : nx.Right adj)
    (acyc : Spec.Acyclic (fun i j => adj i j ≠ 0)) (ht : t.Additive) (hs : ScaleOf sc sv)
    (h1 : (FnSpec.seq (u :: us)).accepted = true) (h2 : f2.accepted = true) (hu : ¬ u.IsMat) (hus : Fn.linear ∈ us) (hN : N ≠ 0)
    {j : Fin n} (hj : ∃ i, adj i j ≠ 0) (hk : (Finset.univ.filter (fun i => adj i j ≠ 0)).card ≠ k) :
    ∀ X, simPnl nx adj t sc (.seq (u :: us)) f2 (some k) d ≠ Except.ok X := by
  intro X h
  rw [simPnl_run nx adj _ f2 (some k) d hnx acyc ht hs h1 h2] at h
  have pw : (nx.topo adj).Pairwise (fun a b => ¬ adj b a ≠ 0) := by simpa using hnx.order acyc
  have e := fillM_spec (P := fun i j => adj i j ≠ 0) (irr_of_acyclic acyc)
    (value := fun j => singlePnl d t sv (.seq (u :: us)) f2 (some k) (preds adj j) j)
    (singlePnl_dep d t sv (.seq (u :: us)) f2 (some k) adj) (hnx.perm acyc) pw h j
  have card : (preds adj j).length = (Finset.univ.filter (fun i => adj i j ≠ 0)).card := by
    have nd : (preds adj j).Nodup := (List.nodup_finRange n).filter _
    rw [← List.toFinset_card_of_nodup nd]
    congr 1
    ext i
    simp [mem_preds]
  obtain ⟨i, hi⟩ := hj
  simp only [singlePnl] at e
  split at e
  · simp [throw, throwThe, MonadExceptOf.throw, bind, Except.bind] at e
  · rw [if_neg (fun q => hi ((preds_nil j).1 q i)), genNoise_add ht, ok_bind] at e
    obtain ⟨m, rfl⟩ := Nat.exists_eq_succ_of_ne_zero hN
    rw [List.finRange_succ] at e
    have bad := (c72_layers d.elem (d.w1 j) u us k k ((preds adj j).map (X 0))).2.2 hu
      (by rw [List.length_map, if_pos hus, card]; exact hk) ⟨.linear, hus, Or.inr (Or.inl rfl)⟩
    rw [List.length_map] at bad
    rw [mapM_head_error (e := .value) (by
      show (do let u ← runLayers (pnlLayers d.elem (d.w1 j) (.seq (u :: us)) _ k k) _; _) = _
      rw [bad]; rfl)] at e
    simp [bind, Except.bind] at e

/-- The names in a function argument. -/
def FnSpec.Names : FnSpec → List Fn
  | .one t => [t]
  | .seq ts => ts

/-- C72. A call is refused with an `AssertionError` if a name is other than 'tanh', 'leaky_relu', 'cos' and 'linear'; 'sin' is refused although
`_pnl_func` knows it. With other names, additive noise and an acyclic matrix it is not refused in this way. -/
theorem c72_names (nx : Nx n K) (adj : Matrix (Fin n) (Fin n) K) {t : NoiseType} (sc : Scale K) (f1 f2 : FnSpec) (hidden : Option Nat)
    (d : PnlDraw N n K) (ht : t.Additive) :
    ((∃ f ∈ f1.Names ++ f2.Names, f = .sin ∨ f = .other) → simPnl nx adj t sc f1 f2 hidden d = Except.error .assertion) ∧
    ((∀ f ∈ f1.Names ++ f2.Names, f ≠ .sin ∧ f ≠ .other) → f1.accepted = true ∧ f2.accepted = true) := by
  have key : ∀ f : FnSpec, f.accepted = true ↔ ∀ t ∈ f.Names, t ≠ .sin ∧ t ≠ .other := by
    have h1 : ∀ t : Fn, [Fn.tanh, .leakyRelu, .cos, .linear].contains t = true ↔ t ≠ .sin ∧ t ≠ .other := by
      intro t
      cases t <;> decide
    intro f
    cases f with
    | one t => simpa [FnSpec.accepted, FnSpec.Names] using h1 t
    | seq ts =>
      simp only [FnSpec.accepted, FnSpec.Names, List.all_eq_true]
      exact forall_congr' fun t => imp_congr_right fun _ => h1 t
  constructor
  · rintro ⟨f, hf, hbad⟩
    have h3 : ¬ (t = .other ∨ t = .logistic ∨ t = .poisson) := by rcases ht with rfl | rfl | rfl | rfl | rfl <;> simp
    have h4 : (!f1.accepted || !f2.accepted) = true := by
      rw [List.mem_append] at hf
      rcases hf with hf | hf
      · have : ¬ f1.accepted = true := fun q => by
          have := (key f1).1 q f hf
          rcases hbad with rfl | rfl
          · exact this.1 rfl
          · exact this.2 rfl
        simp [this]
      · have : ¬ f2.accepted = true := fun q => by
          have := (key f2).1 q f hf
          rcases hbad with rfl | rfl
          · exact this.1 rfl
          · exact this.2 rfl
        simp [this]
    unfold simPnl
    rw [if_neg h3, if_pos h4]
    rfl
  · intro h
    exact ⟨(key f1).2 fun t q => h t (List.mem_append_left _ q), (key f2).2 fun t q => h t (List.mem_append_right _ q)⟩

/-- C72. The name 'cos' is accepted, but the function built for it is a product with a matrix: it maps a row of zeros to zeros. -/
theorem c72_cos (e : Elem K) (W : Nat → Nat → Nat → K) (din dout hidden : Nat) :
    (FnSpec.one .cos).accepted = true ∧
    runLayers (pnlLayers e W (.one .cos) din dout hidden) (List.replicate din 0) = Except.ok (List.replicate dout 0) := by
  refine ⟨rfl, ?_⟩
  show runLayers [Layer.mat din dout (W 0)] _ = _
  rw [runLayers_cons]
  have : runLayer (Layer.mat din dout (W 0)) (List.replicate din 0) = Except.ok (List.replicate dout 0) := by
    refine (if_pos (by simp)).trans ?_
    show Except.ok _ = _
    congr 1
    rw [List.eq_replicate_iff]
    refine ⟨by simp, fun b hb => ?_⟩
    obtain ⟨c, _, rfl⟩ := List.mem_map.1 hb
    refine List.sum_eq_zero fun x hx => ?_
    obtain ⟨⟨v, i⟩, hv, rfl⟩ := List.mem_map.1 hx
    have := List.mem_zipIdx hv
    have e : v = 0 := by rw [this.2.2, List.getElem_replicate]
    show v * W 0 i c = 0
    rw [e, zero_mul]
  rw [this]
  rfl

end

/-! ### Cases -/

/-- Draws: standard noise `j + s`, all weights 1, `tanh` and `leaky_relu` replaced by doubling. -/
def exPnl (N : Nat) : PnlDraw N 3 ℚ where
  noise1 := fun j _ s => (j : ℚ) + s
  noise2 := fun j _ p => (j : ℚ) + p.1 + p.2
  w1 := fun _ _ _ _ => 1
  w2 := fun _ _ _ _ => 1
  elem := ⟨fun x => 2 * x, fun x => 2 * x, fun x => 2 * x⟩

example : ∃ X, simPnl exNx exW .uniform (.scalar 3) (.one .tanh) (.seq [.linear, .leakyRelu]) none (exPnl 4) = Except.ok X :=
  c72_runs exNx exW _ _ (exPnl 4) exNx_right exW_acyclic (by decide) (Or.inr (Or.inl ⟨3, rfl, rfl⟩)) rfl rfl

/-- The table of two samples of that model with the default functions: the second and third columns are constant. -/
example : (match simPnl exNx exW .uniform .default (.one .tanh) (.one .leakyRelu) none (exPnl 2) with
    | .ok X => decide ((List.finRange 2).map (fun s => (List.finRange 3).map (X s)) = [[0, 10, 108], [1, 10, 108]])
    | _ => false) = true := by decide +kernel

example {X : Tab 4 3 ℚ} (h : simPnl exNx exW .uniform .default (.one .tanh) (.one .leakyRelu) none (exPnl 4) = Except.ok X)
    (s s' : Fin 4) : X s 1 = X s' 1 :=
  c72_false exNx exW _ _ none (exPnl 4) exNx_right exW_acyclic (by decide) (Or.inl ⟨rfl, rfl⟩) rfl rfl h
    (i := 0) (by decide +kernel) s s'

example {X : Tab 4 3 ℚ} (h : simPnl exNx exW .uniform .default (.one .tanh) (.one .leakyRelu) none (exPnl 4) = Except.ok X)
    (s : Fin 4) : X s 0 = 1 * (exPnl 4).noise1 0 .uniform s :=
  c72_roots_partial exNx exW _ _ none (exPnl 4) exNx_right exW_acyclic (by decide) (Or.inl ⟨rfl, rfl⟩) rfl rfl h
    (by decide +kernel) s

example : simPnl exNx exW .gauss .default (.one .tanh) (.one .linear) (some 2) (exPnl 4) = Except.error .value :=
  c72_hidden exNx exW _ _ 2 (exPnl 4) exNx_right exW_acyclic (by decide) (Or.inl ⟨rfl, rfl⟩) rfl rfl (by decide) (by decide)
    (by decide)

/-- Node 1 has one predecessor, the hidden size is 2. -/
example : ∀ X, simPnl exNx exW .gauss .default (.seq [.tanh, .linear]) (.seq [.linear]) (some 2) (exPnl 4) ≠ Except.ok X :=
  c72_mismatch exNx exW _ 2 (exPnl 4) exNx_right exW_acyclic (by decide) (Or.inl ⟨rfl, rfl⟩) rfl rfl (by decide) (by decide)
    (by decide) (j := 1) ⟨0, by decide +kernel⟩ (by decide +kernel)

/-- With 'linear' first the same call runs. -/
example : (match simPnl exNx exW .gauss .default (.seq [.linear, .tanh, .linear]) (.seq [.linear]) (some 2) (exPnl 4) with
    | .ok _ => true | _ => false) = true := by decide +kernel

/-- 'tanh', 'linear' on a row of width 2 with hidden size 5 fails; on a row of width 5 it ends with width 3. -/
example : runLayers (pnlLayers (exPnl 1).elem (fun _ _ _ => 1) (.seq [.tanh, .linear]) 2 3 5) [1, 2] = Except.error .value ∧
    ∃ y, runLayers (pnlLayers (exPnl 1).elem (fun _ _ _ => 1) (.seq [.tanh, .linear]) 5 3 5) [1, 2, 3, 4, (5 : ℚ)] = Except.ok y ∧
      y.length = 3 :=
  ⟨(c72_layers (exPnl 1).elem _ .tanh [.linear] 3 5 [1, 2]).2.2 (by decide) (by decide) (by decide),
    (c72_layers (exPnl 1).elem _ .tanh [.linear] 3 5 [1, 2, 3, 4, 5]).2.1 (Or.inr rfl)⟩

example : runLayers (pnlLayers (exPnl 1).elem (fun _ _ _ => 1) (.one .cos) 2 3 5) [0, 0] = Except.ok [0, 0, (0 : ℚ)] :=
  (c72_cos (exPnl 1).elem _ 2 3 5).2

example (nx : Nx 3 ℚ) (adj : Matrix (Fin 3) (Fin 3) ℚ) :
    simPnl nx adj .gauss .default (.seq [.tanh, .sin]) (.one .linear) none (exPnl 2) = Except.error .assertion :=
  (c72_names nx adj .default _ _ none (exPnl 2) (by decide)).1 ⟨.sin, by decide, Or.inl rfl⟩

end Cdmir.Sim
