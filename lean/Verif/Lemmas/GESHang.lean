import Verif.Lemmas.GESFit
import Verif.Lemmas.GESOpsGen
import Verif.Props.Pdag2dag

/-! A run of `fit` that gets stuck, from a computation with bounded loops: proof devices. -/

set_option linter.unusedSectionVars false

namespace Cdmir
namespace GES
open Graph Spec
variable {α : Type} [DecidableEq α] {K : Type} [Field K] [LinearOrder K] [IsStrictOrderedRing K]

/-- The insertion chosen in a state, when it improves the score and concerns nodes of the graph. -/
def chosen (n : Nat) (maxP : ℚ) (score : α → List α → K) (s : State α K) : Except Err (Best α K × α × α × List α) := do
  let b ← forwardPass n maxP score s.graph s.record
  match b.op with
  | none => throw .fuel
  | some (i, j, t) =>
    if 0 < b.change ∧ i ∈ s.graph.nodeList ∧ j ∈ s.graph.nodeList ∧ i ≠ j ∧ ∀ x ∈ t, x ∈ s.graph.nodeList ∧ x ≠ j then
      pure (b, i, j, t)
    else throw .fuel

/-- One round. -/
def stepG (n : Nat) (so : List α → List α) (maxP : ℚ) (score : α → List α → K) (s : State α K) : Except Err (State α K) := do
  let (b, i, j, t) ← chosen n maxP score s
  let g ← insertOp s.graph i j t
  let g ← complete n so g
  pure ⟨g, s.score + b.change, b.record⟩

/-- Several rounds. -/
def runG (n : Nat) (so : List α → List α) (maxP : ℚ) (score : α → List α → K) : Nat → State α K → Except Err (State α K)
  | 0, s => pure s
  | k + 1, s => do runG n so maxP score k (← stepG n so maxP score s)

/-- Whether the next round gets stuck in `pdag2dag`. -/
def stuckG (n : Nat) (maxP : ℚ) (score : α → List α → K) (s : State α K) : Except Err Bool := do
  let (_, i, j, t) ← chosen n maxP score s
  let g ← insertOp s.graph i j t
  match pdag2dag g.nodeList.length g with
  | .error .fuel => pure true
  | _ => pure false

/-- `k` rounds from the start and the test for being stuck. -/
def stuckAfter (n : Nat) (so : List α → List α) (maxP : ℚ) (score : α → List α → K) (names : List α) (k : Nat) :
    Except Err Bool := do
  let g ← Graph.init .pdag names
  let s ← scoreG score g
  let g ← complete n so g
  stuckG n maxP score (← runG n so maxP score k ⟨g, s, fun _ => []⟩)

theorem bind_ok {β γ : Type} {a : Except Err β} {f : β → Except Err γ} {y : γ} (h : (a >>= f) = .ok y) :
    ∃ x, a = .ok x ∧ f x = .ok y := by
  cases a with
  | error e => cases h
  | ok x => exact ⟨x, rfl, h⟩

theorem chosen_ok {n : Nat} {maxP : ℚ} {score : α → List α → K} {s : State α K} {b : Best α K} {i j : α} {t : List α}
    (h : chosen n maxP score s = .ok (b, i, j, t)) :
    forwardPass n maxP score s.graph s.record = .ok b ∧ b.op = some (i, j, t) ∧ 0 < b.change ∧ i ∈ s.graph.nodeList ∧
      j ∈ s.graph.nodeList ∧ i ≠ j ∧ ∀ x ∈ t, x ∈ s.graph.nodeList ∧ x ≠ j := by
  unfold chosen at h
  obtain ⟨b', e, h⟩ := bind_ok h
  cases ho : b'.op with
  | none => rw [ho] at h; cases h
  | some o =>
    obtain ⟨i', j', t'⟩ := o
    rw [ho] at h
    simp only at h
    split_ifs at h with hc
    · cases h
      exact ⟨e, ho, hc⟩

theorem loop_unfold {n m : Nat} (hnm : n ≤ m) {so : List α → List α} {maxP : ℚ} {score : α → List α → K} {s : State α K}
    {b : Best α K} {i j : α} {t : List α} (hc : chosen n maxP score s = .ok (b, i, j, t)) {k : Nat} {x : State α K}
    (h : greedyLoop (forwardPass m maxP score) insertOp (complete m so) k s = .ok x) :
    ∃ k' g1 g2, k = k' + 1 ∧ insertOp s.graph i j t = .ok g1 ∧ complete m so g1 = .ok g2 ∧
      greedyLoop (forwardPass m maxP score) insertOp (complete m so) k' ⟨g2, s.score + b.change, b.record⟩ = .ok x := by
  obtain ⟨h1, h2, h3, _⟩ := chosen_ok hc
  cases k with
  | zero => unfold greedyLoop at h; cases h
  | succ k =>
    unfold greedyLoop at h
    rw [forwardPass_le hnm maxP score s.graph s.record b h1] at h
    obtain ⟨b', e, h⟩ := bind_ok h
    obtain rfl := Except.ok.inj e
    rw [h2] at h
    simp only at h
    have : ¬ (s.score + b.change - s.score ≤ 0) := by linarith
    rw [if_neg this] at h
    obtain ⟨g1, e1, h⟩ := bind_ok h
    obtain ⟨g2, e2, h⟩ := bind_ok h
    exact ⟨k, g1, g2, rfl, e1, e2, h⟩

theorem step_loop {n m : Nat} (hnm : n ≤ m) {so : List α → List α} (hso : ∀ l, (so l).Perm l) {maxP : ℚ}
    {score : α → List α → K} {s s' : State α K} (hd : DU s.graph) (hc : stepG n so maxP score s = .ok s') {k : Nat} {x : State α K}
    (h : greedyLoop (forwardPass m maxP score) insertOp (complete m so) k s = .ok x) :
    DU s'.graph ∧ ∃ k', greedyLoop (forwardPass m maxP score) insertOp (complete m so) k' s' = .ok x := by
  unfold stepG at hc
  obtain ⟨⟨b, i, j, t⟩, e, hc⟩ := bind_ok hc
  obtain ⟨g1, e1, hc⟩ := bind_ok hc
  obtain ⟨g2, e2, hc⟩ := bind_ok hc
  cases hc
  obtain ⟨k', g1', g2', _, e1', e2', hk⟩ := loop_unfold hnm e h
  rw [e1] at e1'
  obtain rfl := Except.ok.inj e1'
  rw [complete_le hnm so g1 g2 e2] at e2'
  obtain rfl := Except.ok.inj e2'
  obtain ⟨_, _, _, hi, hj, hne, ht⟩ := chosen_ok e
  obtain ⟨g1', e1', f⟩ := insertOp_gen hd hi hj hne ht
  rw [e1] at e1'
  obtain rfl := Except.ok.inj e1'
  have e2' := complete_le (Nat.le_max_left n g1.nodeList.length) so g1 g2 e2
  rcases complete_ok f.du hso (Nat.le_max_right n g1.nodeList.length) with ⟨d, g', k1, _, _, _, _, k2, _⟩ | ⟨k1, _⟩
  · rw [k1] at e2'
    obtain rfl := Except.ok.inj e2'
    exact ⟨k2, k', hk⟩
  · rw [k1] at e2'; cases e2'

theorem run_loop {n m : Nat} (hnm : n ≤ m) {so : List α → List α} (hso : ∀ l, (so l).Perm l) {maxP : ℚ}
    {score : α → List α → K} : ∀ {r : Nat} {s s' : State α K}, DU s.graph → runG n so maxP score r s = .ok s' → ∀ {k : Nat} {x : State α K},
    greedyLoop (forwardPass m maxP score) insertOp (complete m so) k s = .ok x →
    DU s'.graph ∧ ∃ k', greedyLoop (forwardPass m maxP score) insertOp (complete m so) k' s' = .ok x
  | 0, s, s', hd, hr, k, x, h => by cases hr; exact ⟨hd, k, h⟩
  | r + 1, s, s', hd, hr, k, x, h => by
    unfold runG at hr
    obtain ⟨t, e, hr⟩ := bind_ok hr
    obtain ⟨hd', k', h'⟩ := step_loop hnm hso hd e h
    exact run_loop hnm hso hd' hr h'

/-- If the bounded computation gets stuck, `fit` never returns. -/
theorem fit_stuck {n : Nat} {so : List α → List α} (hso : ∀ l, (so l).Perm l) {maxP : ℚ} {score : α → List α → K}
    {names : List α} {r : Nat} (h : stuckAfter n so maxP score names r = .ok true) (m : Nat) (x : Graph α × K) :
    fit m so maxP score names ≠ .ok x := by
  intro e
  have e := fit_le (Nat.le_max_left m n) so maxP score names x e
  have hnm : n ≤ max m n := Nat.le_max_right m n
  generalize max m n = M at e hnm
  unfold fit at e
  unfold stuckAfter at h
  obtain ⟨gi, ei, e⟩ := bind_ok e
  rw [ei] at h
  obtain ⟨gi', ei', h⟩ := bind_ok h
  obtain rfl := Except.ok.inj ei'
  obtain ⟨sc, es, e⟩ := bind_ok e
  rw [es] at h
  obtain ⟨sc', es', h⟩ := bind_ok h
  obtain rfl := Except.ok.inj es'
  obtain ⟨g0, eg, e⟩ := bind_ok e
  obtain ⟨g0', eg', h⟩ := bind_ok h
  rw [complete_le hnm so gi g0' eg'] at eg
  obtain rfl := Except.ok.inj eg
  obtain ⟨sf, er, h⟩ := bind_ok h
  obtain ⟨a, ea, _⟩ := bind_ok e
  have d0 : DU g0' := by
    obtain ⟨g0, e0, d0, _⟩ := complete_init ei hso (Nat.le_max_right n names.length)
    rw [complete_le (Nat.le_max_left n names.length) so gi g0' eg'] at e0
    obtain rfl := Except.ok.inj e0
    exact d0
  obtain ⟨hd, k, hk⟩ := run_loop hnm hso (s := ⟨g0', sc, fun _ => []⟩) d0 er ea
  unfold stuckG at h
  obtain ⟨⟨b, i, j, t⟩, ec, h⟩ := bind_ok h
  obtain ⟨g1, e1, h⟩ := bind_ok h
  obtain ⟨k', g1', g2, _, e1', e2, _⟩ := loop_unfold hnm ec hk
  rw [e1] at e1'
  obtain rfl := Except.ok.inj e1'
  obtain ⟨_, _, _, hi, hj, hne, ht⟩ := chosen_ok ec
  obtain ⟨g1', e1', f⟩ := insertOp_gen hd hi hj hne ht
  rw [e1] at e1'
  obtain rfl := Except.ok.inj e1'
  unfold complete at e2
  obtain ⟨d, ed, _⟩ := bind_ok e2
  have := ((c27_terminates_iff f.du.rs f.du.du).2.1).1 ⟨_, _, ed⟩
  obtain ⟨d', ed'⟩ := this
  have ed'' : pdag2dag g1.nodeList.length g1 = .ok d' := ed'
  rw [ed''] at h
  cases h

end GES
end Cdmir
