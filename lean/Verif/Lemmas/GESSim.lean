import Verif.Lemmas.GESHang

/-! The record of local scores does not change what a run of GES does: proof devices that let a long run be computed round by
round. -/

set_option linter.unusedSectionVars false

namespace Cdmir
namespace GES
open Graph Spec
variable {α : Type} [DecidableEq α] {K : Type} [Field K] [LinearOrder K] [IsStrictOrderedRing K] {g : Graph α}

/-- Two results are both the same error or both values in a relation. -/
def Rel {β : Type} (R : β → β → Prop) : Except Err β → Except Err β → Prop
  | .ok x, .ok y => R x y
  | .error e, .error e' => e = e'
  | _, _ => False

omit [DecidableEq α] in
theorem Rel.bind {β γ : Type} {R : β → β → Prop} {S : γ → γ → Prop} {a b : Except Err β} {f f' : β → Except Err γ} (h : Rel R a b)
    (hf : ∀ x y, R x y → Rel S (f x) (f' y)) : Rel S (a >>= f) (b >>= f') := by
  cases a <;> cases b <;> simp only [Rel] at h
  · subst h; rfl
  · exact hf _ _ h

theorem Rel.same {β γ : Type} {S : γ → γ → Prop} (a : Except Err β) {f f' : β → Except Err γ}
    (hf : ∀ x, Rel S (f x) (f' x)) : Rel S (a >>= f) (a >>= f') := by
  cases a
  · rfl
  · exact hf _

theorem Rel.foldlM {σ β : Type} {R : σ → σ → Prop} {f : σ → β → Except Err σ} (l : List β)
    (h : ∀ s s' x, x ∈ l → R s s' → Rel R (f s x) (f s' x)) {s s' : σ} (hs : R s s') : Rel R (l.foldlM f s) (l.foldlM f s') := by
  induction l generalizing s s' with
  | nil => exact hs
  | cons x t ih =>
    rw [List.foldlM_cons, List.foldlM_cons]
    exact (h s s' x (by simp) hs).bind (fun y y' hy => ih (fun s s' x hx => h s s' x (by simp [hx])) hy)

/-- The same choice with records that are both right. -/
def SameBest (score : α → List α → K) (x y : Best α K) : Prop :=
  x.change = y.change ∧ x.op = y.op ∧ RecOK score x.record ∧ RecOK score y.record

theorem SameBest.offer {score : α → List α → K} {x y : Best α K} (h : SameBest score x y) (i j : α) (t : List α) {c : K}
    {r r' : Record α K} (hr : RecOK score r) (hr' : RecOK score r') :
    SameBest score (x.offer i j t (c, r)) (y.offer i j t (c, r')) := by
  obtain ⟨h1, h2, h3, h4⟩ := h
  unfold Best.offer
  simp only [h1]
  split_ifs
  · exact ⟨rfl, rfl, hr, hr'⟩
  · exact ⟨rfl, h2, hr, hr'⟩

theorem forwardSub_sim (h : DU g) {score : α → List α → K} (hsc : SetScore score) (n : Nat) {i j : α} (hi : i ∈ g.nodeList)
    (hj : j ∈ g.nodeList) (sub : List (List α)) (s s' : List Nat × Best α K) (k : Nat)
    (hs : s.1 = s'.1 ∧ SameBest score s.2 s'.2) :
    Rel (fun s s' => s.1 = s'.1 ∧ SameBest score s.2 s'.2) (forwardSub n score g i j sub s k) (forwardSub n score g i j sub s' k) := by
  have last : ∀ v : Bool, Rel (fun s s' : List Nat × Best α K => s.1 = s'.1 ∧ SameBest score s.2 s'.2)
      (if v = true then (insertChange score g i j (sub.getD k []) s.2.record >>= fun c =>
        pure (mark (findSubsetInclude (sub.getD k []) sub) s.1 1, s.2.offer i j (sub.getD k []) c)) else pure s)
      (if v = true then (insertChange score g i j (sub.getD k []) s'.2.record >>= fun c =>
        pure (mark (findSubsetInclude (sub.getD k []) sub) s.1 1, s'.2.offer i j (sub.getD k []) c)) else pure s') := by
    intro v
    split_ifs
    · obtain ⟨r, e, hr⟩ := insertChange_ok h hsc hs.2.2.2.1 hi hj (sub.getD k [])
      obtain ⟨r', e', hr'⟩ := insertChange_ok h hsc hs.2.2.2.2 hi hj (sub.getD k [])
      rw [e, e']
      exact ⟨rfl, hs.2.offer i j _ hr hr'⟩
    · exact hs
  unfold forwardSub
  rw [← hs.1]
  by_cases c : s.1.getD k 0 < 2
  · rw [if_pos c, if_pos c]
    refine Rel.same _ (fun v => ?_)
    cases v
    · exact ⟨rfl, hs.2⟩
    · by_cases c0 : s.1.getD k 0 = 0
      · simp only [if_true, c0]
        exact Rel.same _ last
      · simp only [if_true, c0, if_false]
        exact last true
  · rw [if_neg c, if_neg c]
    exact hs

theorem forwardPass_sim (h : DU g) {score : α → List α → K} (hsc : SetScore score) (n : Nat) (maxP : ℚ) {r r' : Record α K}
    (hr : RecOK score r) (hr' : RecOK score r') :
    Rel (SameBest score) (forwardPass n maxP score g r) (forwardPass n maxP score g r') := by
  unfold forwardPass
  refine Rel.foldlM _ ?_ ⟨rfl, rfl, hr, hr'⟩
  rintro b b' ⟨i, j⟩ hx hb
  have hm := mem_allPairs.1 hx
  unfold forwardPair
  refine Rel.same _ (fun c => ?_)
  split_ifs
  · refine Rel.same _ (fun a => ?_)
    split_ifs
    · refine Rel.same _ (fun tj => Rel.same _ (fun ti => ?_))
      dsimp only
      refine Rel.bind (R := fun s s' : List Nat × Best α K => s.1 = s'.1 ∧ SameBest score s.2 s'.2) ?_ (fun x y k => k.2)
      exact Rel.foldlM _ (fun s s' k _ hs => forwardSub_sim h hsc n hm.1 hm.2 _ s s' k hs) ⟨rfl, hb⟩
    · exact hb
  · exact hb

theorem backwardSub_sim (h : DU g) {so : List α → List α} (hso : ∀ l, (so l).Perm l) {score : α → List α → K} (hsc : SetScore score)
    {i j : α} (hi : i ∈ g.nodeList) (hj : j ∈ g.nodeList) (sub : List (List α)) (s s' : List Nat × Best α K) (k : Nat)
    (hs : s.1 = s'.1 ∧ SameBest score s.2 s'.2) :
    Rel (fun s s' => s.1 = s'.1 ∧ SameBest score s.2 s'.2) (backwardSub so score g i j sub s k) (backwardSub so score g i j sub s' k) := by
  have last : ∀ (v : Bool) (f : List Nat), Rel (fun s s' : List Nat × Best α K => s.1 = s'.1 ∧ SameBest score s.2 s'.2)
      (if v = true then (deleteChange so score g i j (sub.getD k []) s.2.record >>= fun c =>
        pure (f, s.2.offer i j (sub.getD k []) c)) else pure (f, s.2))
      (if v = true then (deleteChange so score g i j (sub.getD k []) s'.2.record >>= fun c =>
        pure (f, s'.2.offer i j (sub.getD k []) c)) else pure (f, s'.2)) := by
    intro v f
    split_ifs
    · obtain ⟨r, e, hr⟩ := deleteChange_ok h hso hsc hs.2.2.2.1 hi hj (sub.getD k [])
      obtain ⟨r', e', hr'⟩ := deleteChange_ok h hso hsc hs.2.2.2.2 hi hj (sub.getD k [])
      rw [e, e']
      exact ⟨rfl, hs.2.offer i j _ hr hr'⟩
    · exact ⟨rfl, hs.2⟩
  unfold backwardSub
  rw [← hs.1]
  dsimp only
  by_cases c : s.1.getD k 1 = 1
  · rw [if_pos c, if_pos c]
    cases deleteValid so g i j (sub.getD k []) with
    | error e => rfl
    | ok v => exact last v _
  · rw [if_neg c, if_neg c]
    exact last true s.1

theorem backwardPass_sim (h : DU g) {so : List α → List α} (hso : ∀ l, (so l).Perm l) {score : α → List α → K}
    (hsc : SetScore score) {r r' : Record α K} (hr : RecOK score r) (hr' : RecOK score r') :
    Rel (SameBest score) (backwardPass so score g r) (backwardPass so score g r') := by
  unfold backwardPass
  refine Rel.foldlM _ ?_ ⟨rfl, rfl, hr, hr'⟩
  rintro b b' ⟨i, j⟩ hx hb
  have hm := mem_allPairs.1 hx
  have last : ∀ go : Bool, Rel (SameBest score)
      (if go = true then (naSet g i j >>= fun na =>
        (List.range (combinatorial na).length).foldlM (backwardSub so score g i j (combinatorial na))
          (List.replicate (combinatorial na).length 1, b) >>= fun r => pure r.2) else pure b)
      (if go = true then (naSet g i j >>= fun na =>
        (List.range (combinatorial na).length).foldlM (backwardSub so score g i j (combinatorial na))
          (List.replicate (combinatorial na).length 1, b') >>= fun r => pure r.2) else pure b') := by
    intro go
    split_ifs
    · refine Rel.same _ (fun na => ?_)
      refine Rel.bind (R := fun s s' : List Nat × Best α K => s.1 = s'.1 ∧ SameBest score s.2 s'.2) ?_ (fun x y k => k.2)
      exact Rel.foldlM _ (fun s s' k _ hs => backwardSub_sim h hso hsc hm.1 hm.2 _ s s' k hs) ⟨rfl, hb⟩
    · exact hb
  have mid : ∀ u : Bool, Rel (SameBest score)
      ((if u = true then pure true else g.isArrow i j) >>= fun go => if go = true then (naSet g i j >>= fun na =>
        (List.range (combinatorial na).length).foldlM (backwardSub so score g i j (combinatorial na))
          (List.replicate (combinatorial na).length 1, b) >>= fun r => pure r.2) else pure b)
      ((if u = true then pure true else g.isArrow i j) >>= fun go => if go = true then (naSet g i j >>= fun na =>
        (List.range (combinatorial na).length).foldlM (backwardSub so score g i j (combinatorial na))
          (List.replicate (combinatorial na).length 1, b') >>= fun r => pure r.2) else pure b') :=
    fun u => Rel.same _ last
  unfold backwardPair
  refine Rel.same _ (fun u => ?_)
  cases u with
  | false => exact mid false
  | true =>
    refine Rel.same (g.isTail i j) (fun u => ?_)
    cases u
    · exact mid false
    · exact mid true

theorem recOK_nil (score : α → List α → K) : RecOK score (fun _ => []) := by
  intro j e he; cases he

theorem Rel.ok {β : Type} {R : β → β → Prop} {a b : Except Err β} (h : Rel R a b) {y : β} (hb : b = .ok y) : ∃ x, a = .ok x ∧ R x y := by
  subst hb
  cases a with
  | error e => exact absurd h (by simp [Rel])
  | ok x => exact ⟨x, rfl, h⟩

/-! ### rounds with an empty record -/

/-- A round of the forward phase with an empty record: the change and the next graph. -/
def fwdStage (n : Nat) (so : List α → List α) (maxP : ℚ) (score : α → List α → K) (g : Graph α) : Except Err (K × Graph α) := do
  let (b, i, j, t) ← chosen n maxP score ⟨g, 0, fun _ => []⟩
  let g ← insertOp g i j t
  let g ← complete n so g
  pure (b.change, g)

/-- Whether the forward phase stops at a graph. -/
def fwdStop (n : Nat) (maxP : ℚ) (score : α → List α → K) (g : Graph α) : Except Err Bool := do
  let b ← forwardPass n maxP score g (fun _ => [])
  match b.op with
  | none => pure true
  | some _ => pure (decide (b.change ≤ 0))

/-- A round of the backward phase with an empty record. -/
def bwdStage (n : Nat) (so : List α → List α) (score : α → List α → K) (g : Graph α) : Except Err (K × Graph α) := do
  let b ← backwardPass so score g (fun _ => [])
  match b.op with
  | none => throw .fuel
  | some (i, j, t) =>
    if 0 < b.change then do
      let g ← deleteOp g i j t
      let g ← complete n so g
      pure (b.change, g)
    else throw .fuel

/-- Whether the backward phase stops at a graph. -/
def bwdStop (so : List α → List α) (score : α → List α → K) (g : Graph α) : Except Err Bool := do
  let b ← backwardPass so score g (fun _ => [])
  match b.op with
  | none => pure true
  | some _ => pure (decide (b.change ≤ 0))

theorem chosen_sim (h : DU g) {score : α → List α → K} (hsc : SetScore score) {n : Nat} {maxP : ℚ} {r : Record α K} (hr : RecOK score r)
    {b : Best α K} {i j : α} {t : List α} (e : chosen n maxP score ⟨g, 0, fun _ => []⟩ = .ok (b, i, j, t)) (s : K) :
    ∃ b', chosen n maxP score ⟨g, s, r⟩ = .ok (b', i, j, t) ∧ b'.change = b.change ∧ RecOK score b'.record := by
  obtain ⟨e1, ho, hc⟩ := chosen_ok e
  obtain ⟨b', e2, k1, k2, k3, _⟩ := (forwardPass_sim h hsc n maxP hr (recOK_nil score)).ok e1
  refine ⟨b', ?_, k1, k3⟩
  unfold chosen
  simp only [e2, bind, Except.bind, k2, ho]
  rw [if_pos (by rw [k1]; exact hc)]
  rfl

/-- One round with any right record. -/
theorem fwd_step (h : DU g) {so : List α → List α} (hso : ∀ l, (so l).Perm l) {score : α → List α → K} (hsc : SetScore score) {n : Nat}
    (hn : g.nodeList.length ≤ n) {maxP : ℚ} {r : Record α K} (hr : RecOK score r) {c : K} {g2 : Graph α}
    (e : fwdStage n so maxP score g = .ok (c, g2)) (s : K) :
    ∃ r', RecOK score r' ∧ DU g2 ∧ g2.nodeList = g.nodeList ∧ stepG n so maxP score ⟨g, s, r⟩ = .ok ⟨g2, s + c, r'⟩ ∧
      ∀ k, greedyLoop (forwardPass n maxP score) insertOp (complete n so) (k + 1) ⟨g, s, r⟩ =
        greedyLoop (forwardPass n maxP score) insertOp (complete n so) k ⟨g2, s + c, r'⟩ := by
  unfold fwdStage at e
  obtain ⟨⟨b, i, j, t⟩, ec, e⟩ := bind_ok e
  obtain ⟨g1, e1, e⟩ := bind_ok e
  obtain ⟨g2', e2, e⟩ := bind_ok e
  cases e
  obtain ⟨b', ec', k1, k2⟩ := chosen_sim h hsc hr ec s
  obtain ⟨f1, f2, f3, hi, hj, hne, ht⟩ := chosen_ok ec'
  obtain ⟨x, e1', f⟩ := insertOp_gen h hi hj hne ht
  have e1'' : insertOp g i j t = .ok x := e1'
  rw [e1] at e1''
  obtain rfl := Except.ok.inj e1''
  refine ⟨b'.record, k2, ?_, ?_, ?_, fun k => ?_⟩
  · rcases complete_ok f.du hso (n := n) (by rw [f.nodes]; exact hn) with ⟨d, g', q1, _, _, _, _, q2, _⟩ | ⟨q1, _⟩
    · rw [e2] at q1; obtain rfl := Except.ok.inj q1; exact q2
    · rw [e2] at q1; cases q1
  · rcases complete_ok f.du hso (n := n) (by rw [f.nodes]; exact hn) with ⟨d, g', q1, _, _, _, _, _, q2, _⟩ | ⟨q1, _⟩
    · rw [e2] at q1; obtain rfl := Except.ok.inj q1; exact q2.trans f.nodes
    · rw [e2] at q1; cases q1
  · unfold stepG
    simp only [ec', bind, Except.bind, e1, e2, k1]
    rfl
  · conv_lhs => unfold greedyLoop
    have f1' : forwardPass n maxP score g r = .ok b' := f1
    simp only [f1', bind, Except.bind, f2]
    rw [if_neg (by linarith), e1]
    simp only
    rw [e2, k1]

theorem fwd_stop (h : DU g) {score : α → List α → K} (hsc : SetScore score) {n : Nat} {maxP : ℚ} {r : Record α K} (hr : RecOK score r)
    (e : fwdStop n maxP score g = .ok true) {so : List α → List α} (s : K) (k : Nat) :
    ∃ r', RecOK score r' ∧ greedyLoop (forwardPass n maxP score) insertOp (complete n so) (k + 1) ⟨g, s, r⟩ = .ok ⟨g, s, r'⟩ := by
  unfold fwdStop at e
  obtain ⟨b, eb, e⟩ := bind_ok e
  obtain ⟨b', e2, k1, k2, k3, _⟩ := (forwardPass_sim h hsc n maxP hr (recOK_nil score)).ok eb
  refine ⟨b'.record, k3, ?_⟩
  unfold greedyLoop
  simp only [e2, bind, Except.bind, k2]
  cases ho : b.op with
  | none => rfl
  | some o =>
    obtain ⟨i, j, t⟩ := o
    rw [ho] at e
    have e := Except.ok.inj e
    simp only [decide_eq_true_eq] at e
    simp only
    rw [if_pos (by rw [k1]; linarith)]
    rfl

theorem bwd_step (h : DU g) {so : List α → List α} (hso : ∀ l, (so l).Perm l) {score : α → List α → K} (hsc : SetScore score) {n : Nat}
    (hn : g.nodeList.length ≤ n) {r : Record α K} (hr : RecOK score r) {c : K} {g2 : Graph α}
    (e : bwdStage n so score g = .ok (c, g2)) (s : K) :
    ∃ r', RecOK score r' ∧ DU g2 ∧ g2.nodeList = g.nodeList ∧
      ∀ k, greedyLoop (backwardPass so score) deleteOp (complete n so) (k + 1) ⟨g, s, r⟩ =
        greedyLoop (backwardPass so score) deleteOp (complete n so) k ⟨g2, s + c, r'⟩ := by
  unfold bwdStage at e
  obtain ⟨b, eb, e⟩ := bind_ok e
  cases ho : b.op with
  | none => rw [ho] at e; cases e
  | some o =>
  obtain ⟨i, j, t⟩ := o
  rw [ho] at e
  simp only at e
  split_ifs at e with hc
  obtain ⟨g1, e1, e⟩ := bind_ok e
  obtain ⟨g2', e2, e⟩ := bind_ok e
  cases e
  obtain ⟨b', eb', k1, k2, k3, _⟩ := (backwardPass_sim h hso hsc hr (recOK_nil score)).ok eb
  obtain ⟨x, ex, _, _, _, hx⟩ := backwardPass_best h hso hsc hr
  rw [eb'] at ex
  obtain rfl := Except.ok.inj ex
  obtain ⟨hv, _⟩ := hx i j t (k2.trans ho)
  have hmem := ValidDelete.mem h.wf hv
  have hcon : Conn g i j := hv.edge.elim (fun k => Dir.conn h.wf k) (fun k => Und.conn h.wf k)
  obtain ⟨x, e1', f⟩ := deleteOp_eff h hmem.1 hmem.2 (h.ne hcon) hv.cand
  rw [e1] at e1'
  obtain rfl := Except.ok.inj e1'
  refine ⟨b'.record, k3, ?_, ?_, fun k => ?_⟩
  · rcases complete_ok f.du hso (n := n) (by rw [f.nodes]; exact hn) with ⟨d, g', q1, _, _, _, _, q2, _⟩ | ⟨q1, _⟩
    · rw [e2] at q1; obtain rfl := Except.ok.inj q1; exact q2
    · rw [e2] at q1; cases q1
  · rcases complete_ok f.du hso (n := n) (by rw [f.nodes]; exact hn) with ⟨d, g', q1, _, _, _, _, _, q2, _⟩ | ⟨q1, _⟩
    · rw [e2] at q1; obtain rfl := Except.ok.inj q1; exact q2.trans f.nodes
    · rw [e2] at q1; cases q1
  · conv_lhs => unfold greedyLoop
    simp only [eb', bind, Except.bind, k2, ho]
    rw [if_neg (by rw [k1]; linarith), e1]
    simp only
    rw [e2, k1]

theorem bwd_stop (h : DU g) {so : List α → List α} (hso : ∀ l, (so l).Perm l) {score : α → List α → K} (hsc : SetScore score) {n : Nat}
    {r : Record α K} (hr : RecOK score r) (e : bwdStop so score g = .ok true) (s : K) (k : Nat) :
    ∃ r', greedyLoop (backwardPass so score) deleteOp (complete n so) (k + 1) ⟨g, s, r⟩ = .ok ⟨g, s, r'⟩ := by
  unfold bwdStop at e
  obtain ⟨b, eb, e⟩ := bind_ok e
  obtain ⟨b', e2, k1, k2, k3, _⟩ := (backwardPass_sim h hso hsc hr (recOK_nil score)).ok eb
  refine ⟨b'.record, ?_⟩
  unfold greedyLoop
  simp only [e2, bind, Except.bind, k2]
  cases ho : b.op with
  | none => rfl
  | some o =>
    obtain ⟨i, j, t⟩ := o
    rw [ho] at e
    have e := Except.ok.inj e
    simp only [decide_eq_true_eq] at e
    simp only
    rw [if_pos (by rw [k1]; linarith)]
    rfl

/-! ### chains of rounds -/

/-- A list of rounds of the forward phase, one after the other. -/
def FwdChain (n : Nat) (so : List α → List α) (maxP : ℚ) (score : α → List α → K) : Graph α → List (K × Graph α) → Prop
  | _, [] => True
  | g, (c, g') :: l => fwdStage n so maxP score g = .ok (c, g') ∧ FwdChain n so maxP score g' l

/-- A list of rounds of the backward phase, one after the other. -/
def BwdChain (n : Nat) (so : List α → List α) (score : α → List α → K) : Graph α → List (K × Graph α) → Prop
  | _, [] => True
  | g, (c, g') :: l => bwdStage n so score g = .ok (c, g') ∧ BwdChain n so score g' l

/-- Where a chain ends. -/
def chainEnd {β : Type} : Graph α → List (β × Graph α) → Graph α
  | g, [] => g
  | _, (_, g') :: l => chainEnd g' l

theorem fwd_chain {so : List α → List α} (hso : ∀ l, (so l).Perm l) {score : α → List α → K} (hsc : SetScore score) {n : Nat}
    {maxP : ℚ} : ∀ {l : List (K × Graph α)} {g : Graph α}, DU g → g.nodeList.length ≤ n → ∀ {r : Record α K}, RecOK score r →
    FwdChain n so maxP score g l → ∀ s : K, ∃ r', RecOK score r' ∧ DU (chainEnd g l) ∧ (chainEnd g l).nodeList = g.nodeList ∧
      runG n so maxP score l.length ⟨g, s, r⟩ = .ok ⟨chainEnd g l, l.foldl (fun a p => a + p.1) s, r'⟩ ∧
      ∀ k, greedyLoop (forwardPass n maxP score) insertOp (complete n so) (k + l.length) ⟨g, s, r⟩ =
        greedyLoop (forwardPass n maxP score) insertOp (complete n so) k ⟨chainEnd g l, l.foldl (fun a p => a + p.1) s, r'⟩
  | [], g, h, _, r, hr, _, s => ⟨r, hr, h, rfl, rfl, fun _ => rfl⟩
  | (c, g') :: l, g, h, hn, r, hr, hl, s => by
    obtain ⟨r1, h1, h2, h3, h4, h5⟩ := fwd_step h hso hsc hn hr hl.1 s
    obtain ⟨r2, q1, q2, q3, q4, q5⟩ := fwd_chain hso hsc h2 (by rw [h3]; exact hn) h1 hl.2 (s + c)
    refine ⟨r2, q1, q2, q3.trans h3, ?_, fun k => ?_⟩
    · change runG n so maxP score (l.length + 1) _ = _
      unfold runG
      rw [h4]
      exact q4
    · change greedyLoop _ _ _ (k + l.length + 1) _ = _
      rw [h5]
      exact q5 k

theorem bwd_chain {so : List α → List α} (hso : ∀ l, (so l).Perm l) {score : α → List α → K} (hsc : SetScore score) {n : Nat} :
    ∀ {l : List (K × Graph α)} {g : Graph α}, DU g → g.nodeList.length ≤ n → ∀ {r : Record α K}, RecOK score r →
    BwdChain n so score g l → ∀ s : K, ∃ r', RecOK score r' ∧ DU (chainEnd g l) ∧
      ∀ k, greedyLoop (backwardPass so score) deleteOp (complete n so) (k + l.length) ⟨g, s, r⟩ =
        greedyLoop (backwardPass so score) deleteOp (complete n so) k ⟨chainEnd g l, l.foldl (fun a p => a + p.1) s, r'⟩
  | [], g, h, _, r, hr, _, s => ⟨r, hr, h, fun _ => rfl⟩
  | (c, g') :: l, g, h, hn, r, hr, hl, s => by
    obtain ⟨r1, h1, h2, h3, h5⟩ := bwd_step h hso hsc hn hr hl.1 s
    obtain ⟨r2, q1, q2, q5⟩ := bwd_chain hso hsc h2 (by rw [h3]; exact hn) h1 hl.2 (s + c)
    refine ⟨r2, q1, q2, fun k => ?_⟩
    change greedyLoop _ _ _ (k + l.length + 1) _ = _
    rw [h5]
    exact q5 k

/-- The start of `fit`: the completed empty graph and its score. -/
def start (n : Nat) (so : List α → List α) (score : α → List α → K) (names : List α) : Except Err (K × Graph α) := do
  let g ← Graph.init .pdag names
  let s ← scoreG score g
  let g ← complete n so g
  pure (s, g)

theorem start_ok {n : Nat} {so : List α → List α} (hso : ∀ l, (so l).Perm l) {score : α → List α → K} {names : List α} {s : K}
    {g : Graph α} (hn : names.length ≤ n) (e : start n so score names = .ok (s, g)) :
    DU g ∧ g.nodeList = names ∧ ∃ gi, Graph.init .pdag names = .ok gi ∧ scoreG score gi = .ok s ∧ complete n so gi = .ok g := by
  unfold start at e
  obtain ⟨gi, ei, e⟩ := bind_ok e
  obtain ⟨s', es, e⟩ := bind_ok e
  obtain ⟨g', eg, e⟩ := bind_ok e
  cases e
  obtain ⟨g0, e0, d0, d1, _⟩ := complete_init ei hso hn
  rw [eg] at e0
  obtain rfl := Except.ok.inj e0
  exact ⟨d0, d1, gi, ei, es, eg⟩

/-- A run of `fit` put together from its rounds. -/
theorem fit_of_chain {n : Nat} {so : List α → List α} (hso : ∀ l, (so l).Perm l) {maxP : ℚ} {score : α → List α → K}
    (hsc : SetScore score) {names : List α} {s : K} {g : Graph α} (hn : names.length ≤ n) (e : start n so score names = .ok (s, g))
    {l l' : List (K × Graph α)} (hl : FwdChain n so maxP score g l) (hs : fwdStop n maxP score (chainEnd g l) = .ok true)
    (hl' : BwdChain n so score (chainEnd g l) l') (hs' : bwdStop so score (chainEnd (chainEnd g l) l') = .ok true)
    (h1 : l.length + 1 ≤ n) (h2 : l'.length + 1 ≤ n) :
    fit n so maxP score names = .ok (chainEnd (chainEnd g l) l', l'.foldl (fun a p => a + p.1) (l.foldl (fun a p => a + p.1) s)) := by
  obtain ⟨d, dn, gi, e1, e2, e3⟩ := start_ok hso hn e
  obtain ⟨r1, a1, a2, a3, _, a5⟩ := fwd_chain hso hsc d (by rw [dn]; exact hn) (recOK_nil score) hl s
  obtain ⟨r2, b1, b2⟩ := fwd_stop (so := so) a2 hsc a1 hs (l.foldl (fun a p => a + p.1) s) (n - (l.length + 1))
  obtain ⟨r3, c1, c2, c3⟩ := bwd_chain hso hsc a2 (by rw [a3, dn]; exact hn) b1 hl' (l.foldl (fun a p => a + p.1) s)
  obtain ⟨r4, d1⟩ := bwd_stop (n := n) c2 hso hsc c1 hs' (l'.foldl (fun a p => a + p.1) (l.foldl (fun a p => a + p.1) s))
    (n - (l'.length + 1))
  have w1 := a5 (n - (l.length + 1) + 1)
  rw [b2, show n - (l.length + 1) + 1 + l.length = n by omega] at w1
  have w2 := c3 (n - (l'.length + 1) + 1)
  rw [d1, show n - (l'.length + 1) + 1 + l'.length = n by omega] at w2
  unfold fit
  simp only [e1, e2, e3, w1, w2, bind, Except.bind]
  rfl

/-- A run that gets stuck put together from its rounds. -/
theorem stuck_of_chain {n : Nat} {so : List α → List α} (hso : ∀ l, (so l).Perm l) {maxP : ℚ} {score : α → List α → K}
    (hsc : SetScore score) {names : List α} {s : K} {g : Graph α} (hn : names.length ≤ n) (e : start n so score names = .ok (s, g))
    {l : List (K × Graph α)} (hl : FwdChain n so maxP score g l) (hs : stuckG n maxP score ⟨chainEnd g l, 0, fun _ => []⟩ = .ok true) :
    stuckAfter n so maxP score names l.length = .ok true := by
  obtain ⟨d, dn, gi, e1, e2, e3⟩ := start_ok hso hn e
  obtain ⟨r1, a1, a2, a3, a4, _⟩ := fwd_chain hso hsc d (by rw [dn]; exact hn) (recOK_nil score) hl s
  unfold stuckAfter
  simp only [e1, e2, e3, a4, bind, Except.bind]
  unfold stuckG at hs
  obtain ⟨⟨b, i, j, t⟩, ec, hs⟩ := bind_ok hs
  obtain ⟨b', ec', _, _⟩ := chosen_sim a2 hsc a1 ec (l.foldl (fun a p => a + p.1) s)
  unfold stuckG
  rw [ec']
  exact hs

end GES
end Cdmir
