import Verif.Model.DiGraph
import Verif.Lemmas.Edges
import Verif.Lemmas.Trail

/-! Correctness of the searches of digraph.py (L14-83). -/

namespace Cdmir

theorem filterE_ok {α : Type} (p : α → Except Err Bool) (q : α → Bool) (l : List α) (h : ∀ x ∈ l, p x = .ok (q x)) :
    filterE p l = .ok (l.filter q) := by
  induction l with
  | nil => rfl
  | cons x t ih =>
    unfold filterE
    rw [h x (by simp), ih (fun y hy => h y (by simp [hy]))]
    simp only [bind, Except.bind, pure, Except.pure, List.filter_cons]

section push
variable {κ : Type} [DecidableEq κ]

theorem dget_foldl_dset {ν : Type} (x : ν) (ks : List κ) (d : Dict κ ν) (k : κ) :
    dget (ks.foldl (fun d k => dset d k x) d) k = if k ∈ ks then some x else dget d k := by
  induction ks generalizing d with
  | nil => simp
  | cons a t ih =>
    rw [List.foldl_cons, ih, dget_dset]
    by_cases h1 : k ∈ t
    · simp [h1]
    · by_cases h2 : a = k
      · simp [h2]
      · have : k ≠ a := fun h => h2 h.symm
        simp [h1, h2, this]

theorem dget_dinit {ν : Type} (ks : List κ) (x : ν) (k : κ) :
    dget (dinit ks x) k = if k ∈ ks then some x else none := by
  unfold dinit; rw [dget_foldl_dset]; simp

/-- Number of unvisited keys of `K`. -/
def unvis (K : List κ) (vis : Dict κ Bool) : Nat := (K.filter (fun k => dget vis k = some false)).length

theorem unvis_push {K : List κ} {vis : Dict κ Bool} {k : κ} (hk : k ∈ K) (hv : dget vis k = some false) :
    unvis K (dset vis k true) + 1 ≤ unvis K vis := by
  unfold unvis
  have hle : ∀ l : List κ, (l.filter (fun a => decide (dget (dset vis k true) a = some false))).length ≤
      (l.filter (fun a => decide (dget vis a = some false))).length := by
    intro l
    induction l with
    | nil => simp
    | cons a t ih =>
      rw [List.filter_cons, List.filter_cons, dget_dset]
      by_cases ha : k = a
      · simp only [ha, ↓reduceIte, Option.some.injEq, Bool.true_eq_false, decide_false, Bool.false_eq_true]
        split_ifs
        · simp only [List.length_cons]; subst ha; omega
        · subst ha; exact ih
      · simp only [ha, ↓reduceIte]
        split_ifs
        · simp only [List.length_cons]; omega
        · exact ih
  induction K with
  | nil => simp at hk
  | cons a t ih =>
    rw [List.filter_cons, List.filter_cons, dget_dset]
    by_cases ha : k = a
    · subst ha
      simp only [↓reduceIte, Option.some.injEq, Bool.true_eq_false, decide_false, Bool.false_eq_true, hv,
        decide_true, List.length_cons]
      have := hle t
      omega
    · have hkt : k ∈ t := by
        rcases List.mem_cons.1 hk with h | h
        · exact absurd h ha
        · exact h
      have := ih hkt
      simp only [ha, ↓reduceIte]
      split_ifs
      · simp only [List.length_cons]; omega
      · exact this

/-- Effect of pushing a list of known keys (digraph.py L49-51, L62-65). -/
theorem pushAll_ok {K : List κ} (ks : List κ) (q : List κ) (vis : Dict κ Bool) (hK : ∀ k ∈ ks, k ∈ K)
    (hv : ∀ k ∈ K, (dget vis k).isSome) :
    ∃ N vis', ks.foldlM pushNew (q, vis) = .ok (q ++ N, vis') ∧ (∀ k ∈ N, k ∈ ks) ∧
      (∀ k ∈ ks, k ∈ N ∨ dget vis k = some true) ∧
      (∀ k, dget vis' k = some true ↔ dget vis k = some true ∨ k ∈ N) ∧
      (∀ k ∈ K, (dget vis' k).isSome) ∧ N.length + unvis K vis' ≤ unvis K vis := by
  induction ks generalizing q vis with
  | nil => exact ⟨[], vis, by simp [pure, Except.pure], by simp, by simp, by simp, hv, by simp⟩
  | cons k t ih =>
    have hk := hK k (by simp)
    obtain ⟨b, hb⟩ := Option.isSome_iff_exists.1 (hv k hk)
    cases b with
    | true =>
      obtain ⟨N, vis', h1, h2, h3, h4, h5, h6⟩ := ih q vis (fun x hx => hK x (by simp [hx])) hv
      refine ⟨N, vis', ?_, fun x hx => by simp [h2 x hx], ?_, h4, h5, h6⟩
      · rw [List.foldlM_cons]
        have : pushNew (q, vis) k = .ok (q, vis) := by
          unfold pushNew
          simp only
          rw [dgetE_of _ _ _ hb]
          rfl
        rw [this]
        exact h1
      · intro x hx
        rcases List.mem_cons.1 hx with rfl | hx
        · exact Or.inr hb
        · exact h3 x hx
    | false =>
      have hv1 : ∀ x ∈ K, (dget (dset vis k true) x).isSome := by
        intro x hx
        rw [dget_dset]
        split_ifs
        · rfl
        · exact hv x hx
      obtain ⟨N, vis', h1, h2, h3, h4, h5, h6⟩ := ih (q ++ [k]) (dset vis k true) (fun x hx => hK x (by simp [hx])) hv1
      have hp := unvis_push hk hb
      refine ⟨k :: N, vis', ?_, ?_, ?_, ?_, h5, by simp only [List.length_cons]; omega⟩
      · rw [List.foldlM_cons]
        have : pushNew (q, vis) k = .ok (q ++ [k], dset vis k true) := by
          unfold pushNew
          simp only
          rw [dgetE_of _ _ _ hb]
          rfl
        rw [this]
        rw [List.append_assoc] at h1
        exact h1
      · intro x hx
        rcases List.mem_cons.1 hx with rfl | hx
        · simp
        · simp [h2 x hx]
      · intro x hx
        by_cases hxk : x = k
        · exact Or.inl (by simp [hxk])
        · rcases List.mem_cons.1 hx with h | hx
          · exact absurd h hxk
          · rcases h3 x hx with h | h
            · exact Or.inl (by simp [h])
            · rw [dget_dset, if_neg (fun h => hxk h.symm)] at h
              exact Or.inr h
      · intro x
        rw [h4, dget_dset]
        by_cases hxk : k = x
        · simp [hxk]
        · have : x ≠ k := fun h => hxk h.symm
          simp [hxk, this]

end push

namespace Graph
variable {α : Type} [DecidableEq α] {g : Graph α}

/-- A consistent object of class DiGraph: what every reachable one satisfies (proof device). -/
structure DG (g : Graph α) : Prop where
  good : g.Good
  kind : g.kind = .digraph

theorem DG.wf (h : g.DG) : g.WF := h.good.wf

theorem dir_iff (h : g.WF) (u v : α) : Dir g u v ↔ g.mark v u = some .tail ∧ g.mark u v = some .arrow := by
  unfold Dir
  by_cases huv : u ∈ g.nodeList ∧ v ∈ g.nodeList
  · rw [getEdge_ok h huv.1 huv.2]
    simp only [Except.ok.injEq, edge?_eq_some, true_and]
  · rw [getEdge_err h huv]
    simp only [reduceCtorEq, false_iff]
    rintro ⟨_, h2⟩
    have : (g.mark u v).isSome := by rw [h2]; rfl
    exact huv ⟨h.mark_left this, h.mark_right this⟩

theorem Dir.mem (h : g.WF) {u v : α} (hd : Dir g u v) : u ∈ g.nodeList ∧ v ∈ g.nodeList := by
  have h2 := ((dir_iff h u v).1 hd).2
  have : (g.mark u v).isSome := by rw [h2]; rfl
  exact ⟨h.mark_left this, h.mark_right this⟩

theorem Dir.asymm (h : g.WF) {u v : α} (hd : Dir g u v) : ¬ Dir g v u := by
  rw [dir_iff h] at *
  rintro ⟨_, h2⟩
  rw [hd.1] at h2
  simp at h2

theorem DG.arrow_iff (h : g.DG) (u v : α) : g.mark u v = some .arrow ↔ Dir g u v := by
  rw [dir_iff h.wf]
  constructor
  · intro hm
    refine ⟨?_, hm⟩
    have hk := h.good.kindOK
    unfold KindOK at hk
    rw [h.kind] at hk
    simp only at hk
    have hs : (g.mark u v).isSome := by rw [hm]; rfl
    by_cases huv : u = v
    · subst huv
      have := hk.2 u hs
      rw [hm] at this
      simp at this
    · rcases hk.1 u v huv hs with h1 | h1
      · exact h1.2
      · rw [hm] at h1; simp at h1
  · exact fun hm => hm.2

/-- Pure form of `get_parents` (digraph.py L14-17): proof device. -/
def pa (g : Graph α) (u : α) : List α := (g.nbrs u).filter (fun v => g.mark v u = some .arrow)

/-- Pure form of `get_children` (digraph.py L19-22): proof device. -/
def ch (g : Graph α) (u : α) : List α := (g.nbrs u).filter (fun v => g.mark u v = some .arrow)

theorem nbrs_sub (h : g.WF) {u v : α} (hv : v ∈ g.nbrs u) : v ∈ g.nodeList := by
  rw [mem_nbrs] at hv; exact h.mark_right hv

theorem getParents_ok (h : g.WF) {u : α} (hu : u ∈ g.nodeList) : g.getParents u = .ok (g.pa u) := by
  unfold getParents
  rw [getNeighbours_ok h hu]
  exact filterE_ok _ _ _ (fun v hv => hasMark_ok h .arrow (nbrs_sub h hv) hu)

theorem getChildren_ok (h : g.WF) {u : α} (hu : u ∈ g.nodeList) : g.getChildren u = .ok (g.ch u) := by
  unfold getChildren
  rw [getNeighbours_ok h hu]
  exact filterE_ok _ _ _ (fun v hv => hasMark_ok h .arrow hu (nbrs_sub h hv))

theorem getParents_err (h : g.WF) {u : α} (hu : u ∉ g.nodeList) : g.getParents u = .error .key := by
  unfold getParents; rw [getNeighbours_err h hu]; rfl

theorem getChildren_err (h : g.WF) {u : α} (hu : u ∉ g.nodeList) : g.getChildren u = .error .key := by
  unfold getChildren; rw [getNeighbours_err h hu]; rfl

theorem DG.mem_pa (h : g.DG) (u v : α) : v ∈ g.pa u ↔ Dir g v u := by
  unfold pa
  rw [List.mem_filter, mem_nbrs, decide_eq_true_eq, h.arrow_iff]
  constructor
  · exact fun x => x.2
  · intro hd
    refine ⟨?_, hd⟩
    rw [((dir_iff h.wf v u).1 hd).1]; rfl

theorem DG.mem_ch (h : g.DG) (u v : α) : v ∈ g.ch u ↔ Dir g u v := by
  unfold ch
  rw [List.mem_filter, mem_nbrs, decide_eq_true_eq, h.arrow_iff]
  constructor
  · exact fun x => x.2
  · intro hd
    refine ⟨?_, hd⟩
    rw [((dir_iff h.wf u v).1 hd).2]; rfl

theorem pa_nodup (h : g.WF) (u : α) : (g.pa u).Nodup := (nbrs_nodup h u).filter _
theorem ch_nodup (h : g.WF) (u : α) : (g.ch u).Nodup := (nbrs_nodup h u).filter _
theorem pa_sub (h : g.WF) {u v : α} (hv : v ∈ g.pa u) : v ∈ g.nodeList := nbrs_sub h (List.mem_of_mem_filter hv)
theorem ch_sub (h : g.WF) {u v : α} (hv : v ∈ g.ch u) : v ∈ g.nodeList := nbrs_sub h (List.mem_of_mem_filter hv)

/-! ### phase I -/

theorem ancLoop_ok (h : g.WF) (n : Nat) (q : List α) (vis : Dict α Bool) (a : List α)
    (hq : ∀ y ∈ q, y ∈ g.nodeList) (hv : ∀ k ∈ g.nodeList, (dget vis k).isSome)
    (hf : q.length + unvis g.nodeList vis ≤ n) :
    ∃ a', g.ancLoop n q vis a = .ok a' ∧ (∀ y ∈ q, y ∈ a') ∧ (∀ y ∈ a, y ∈ a') ∧
      (∀ y ∈ a', y ∈ a ∨ ∃ w ∈ q, Relation.ReflTransGen (fun p c => p ∈ g.pa c) y w) ∧
      (∀ y ∈ a', y ∉ a → ∀ p ∈ g.pa y, p ∈ a' ∨ dget vis p = some true) := by
  induction n generalizing q vis a with
  | zero =>
    cases q with
    | nil => exact ⟨a, by simp [ancLoop, pure, Except.pure], by simp, fun y hy => hy, fun y hy => Or.inl hy, fun y hy h1 => absurd hy h1⟩
    | cons y t => simp only [List.length_cons] at hf; omega
  | succ n ih =>
    cases q with
    | nil => exact ⟨a, by simp [ancLoop, pure, Except.pure], by simp, fun y hy => hy, fun y hy => Or.inl hy, fun y hy h1 => absurd hy h1⟩
    | cons y t =>
      have hy := hq y (by simp)
      simp only [List.length_cons] at hf
      by_cases hya : y ∈ a
      · obtain ⟨a', h1, h2, h3, h4, h5⟩ := ih t vis (pyUnion a [y]) (fun x hx => hq x (by simp [hx])) hv (by omega)
        have hsame : ∀ x, x ∈ pyUnion a [y] ↔ x ∈ a := by
          intro x; rw [mem_pyUnion]; simp only [List.mem_singleton]
          constructor
          · rintro (h | rfl) <;> assumption
          · exact Or.inl
        refine ⟨a', ?_, ?_, fun x hx => h3 x ((hsame x).2 hx), ?_, fun x hx hxa => h5 x hx (fun hh => hxa ((hsame x).1 hh))⟩
        · rw [ancLoop]
          simp only [hya, ↓reduceIte]
          exact h1
        · intro x hx
          rcases List.mem_cons.1 hx with rfl | hx
          · exact h3 x ((hsame x).2 hya)
          · exact h2 x hx
        · intro x hx
          rcases h4 x hx with hh | ⟨w, hw, hr⟩
          · exact Or.inl ((hsame x).1 hh)
          · exact Or.inr ⟨w, by simp [hw], hr⟩
      · obtain ⟨N, vis', p1, p2, p3, p4, p5, p6⟩ := pushAll_ok (K := g.nodeList) (g.pa y) t vis
          (fun k hk => pa_sub h hk) hv
        obtain ⟨a', h1, h2, h3, h4, h5⟩ := ih (t ++ N) vis' (pyUnion a [y])
          (by
            intro x hx
            rcases List.mem_append.1 hx with hx | hx
            · exact hq x (by simp [hx])
            · exact pa_sub h (p2 x hx))
          p5 (by simp only [List.length_append]; omega)
        refine ⟨a', ?_, ?_, fun x hx => h3 x (by rw [mem_pyUnion]; exact Or.inl hx), ?_, ?_⟩
        · rw [ancLoop]
          simp only [hya, ↓reduceIte, getParents_ok h hy, bind, Except.bind]
          simp only [p1]
          exact h1
        · intro x hx
          rcases List.mem_cons.1 hx with rfl | hx
          · exact h3 x (by rw [mem_pyUnion]; simp)
          · exact h2 x (by simp [hx])
        · intro x hx
          rcases h4 x hx with hh | ⟨w, hw, hr⟩
          · rw [mem_pyUnion, List.mem_singleton] at hh
            rcases hh with hh | rfl
            · exact Or.inl hh
            · exact Or.inr ⟨x, by simp, Relation.ReflTransGen.refl⟩
          · rcases List.mem_append.1 hw with hw | hw
            · exact Or.inr ⟨w, by simp [hw], hr⟩
            · exact Or.inr ⟨y, by simp, hr.tail (p2 w hw)⟩
        · intro x hx hxa p hp
          by_cases hxy : x = y
          · subst hxy
            rcases p3 p hp with hh | hh
            · exact Or.inl (h2 p (by simp [hh]))
            · exact Or.inr hh
          · have := h5 x hx (by rw [mem_pyUnion, List.mem_singleton]; rintro (hh | hh); exact hxa hh; exact hxy hh) p hp
            rcases this with hh | hh
            · exact Or.inl hh
            · rw [p4] at hh
              rcases hh with hh | hh
              · exact Or.inr hh
              · exact Or.inl (h2 p (by simp [hh]))

theorem ancLoop_err (h : g.WF) (n : Nat) (q : List α) (vis : Dict α Bool) (a : List α)
    (hv : ∀ k ∈ g.nodeList, (dget vis k).isSome) (hf : q.length + unvis g.nodeList vis ≤ n)
    (ha : ∀ y ∈ a, y ∈ g.nodeList)
    (hb : ∃ y ∈ q, y ∉ g.nodeList) : g.ancLoop n q vis a = .error .key := by
  induction n generalizing q vis a with
  | zero =>
    cases q with
    | nil => simp at hb
    | cons y t => simp only [List.length_cons] at hf; omega
  | succ n ih =>
    cases q with
    | nil => simp at hb
    | cons y t =>
      simp only [List.length_cons] at hf
      by_cases hy : y ∈ g.nodeList
      · have hbt : ∃ y ∈ t, y ∉ g.nodeList := by
          obtain ⟨b, hb1, hb2⟩ := hb
          rcases List.mem_cons.1 hb1 with rfl | hb1
          · exact absurd hy hb2
          · exact ⟨b, hb1, hb2⟩
        have ha' : ∀ x ∈ pyUnion a [y], x ∈ g.nodeList := by
          intro x hx
          rw [mem_pyUnion, List.mem_singleton] at hx
          rcases hx with hx | rfl
          · exact ha x hx
          · exact hy
        rw [ancLoop]
        by_cases hya : y ∈ a
        · simp only [hya, ↓reduceIte]
          exact ih t vis _ hv (by omega) ha' hbt
        · obtain ⟨N, vis', p1, p2, p3, p4, p5, p6⟩ := pushAll_ok (K := g.nodeList) (g.pa y) t vis
            (fun k hk => pa_sub h hk) hv
          simp only [hya, ↓reduceIte, getParents_ok h hy, bind, Except.bind, p1]
          refine ih (t ++ N) vis' _ p5 (by simp only [List.length_append]; omega) ha' ?_
          obtain ⟨b, hb1, hb2⟩ := hbt
          exact ⟨b, by simp [hb1], hb2⟩
      · have hya : y ∉ a := fun hh => hy (ha y hh)
        rw [ancLoop]
        simp only [hya, ↓reduceIte, getParents_err h hy, bind, Except.bind]

theorem unvis_le_length {κ : Type} [DecidableEq κ] (K : List κ) (vis : Dict κ Bool) : unvis K vis ≤ K.length :=
  List.length_filter_le _ _

theorem vis1_some (g : Graph α) (l : List α) : ∀ k ∈ g.nodeList,
    (dget (l.foldl (fun d k => dset d k true) (dinit g.nodes false)) k).isSome := by
  intro k hk
  rw [dget_foldl_dset, dget_dinit]
  have : k ∈ g.nodes := hk
  split_ifs <;> simp

/-- Phase I collects the members of `z` and their ancestors. -/
theorem ancestorsOf_ok (h : g.DG) (z : ZArg α) (hz : ∀ y ∈ z.first, y ∈ g.nodeList) :
    ∃ a, g.ancestorsOf z = .ok a ∧ ∀ y, y ∈ a ↔ Spec.AncZ (Dir g) (fun w => w ∈ z.first) y := by
  unfold ancestorsOf
  obtain ⟨a, h1, h2, h3, h4, h5⟩ := ancLoop_ok h.wf (z.first.length + g.nodes.length) z.first _ [] hz
    (vis1_some g z.later) (Nat.add_le_add_left (unvis_le_length _ _) _)
  refine ⟨a, h1, ?_⟩
  have hlater : ∀ y ∈ z.later, y ∈ z.first := by
    intro y hy; cases z <;> simp_all [ZArg.later, ZArg.first]
  have hclosed : ∀ y ∈ a, ∀ p, Dir g p y → p ∈ a := by
    intro y hy p hp
    rcases h5 y hy (by simp) p ((h.mem_pa y p).2 hp) with hh | hh
    · exact hh
    · rw [dget_foldl_dset, dget_dinit] at hh
      split_ifs at hh with hl
      · exact h2 p (hlater p hl)
      · simp at hh
  intro y
  constructor
  · intro hy
    rcases h4 y hy with hh | ⟨w, hw, hr⟩
    · simp at hh
    · refine ⟨w, hw, ?_⟩
      unfold Spec.Desc
      exact Relation.ReflTransGen.mono (fun p c hpc => (h.mem_pa c p).1 hpc) _ _ hr
  · rintro ⟨w, hw, hd⟩
    unfold Spec.Desc at hd
    induction hd using Relation.ReflTransGen.head_induction_on with
    | refl => exact h2 w hw
    | head e _ ih => exact hclosed _ ih _ e

theorem ancestorsOf_err (h : g.WF) (z : ZArg α) (hz : ∃ y ∈ z.first, y ∉ g.nodeList) :
    g.ancestorsOf z = .error .key :=
  ancLoop_err h _ _ _ [] (vis1_some g z.later) (Nat.add_le_add_left (unvis_le_length _ _) _) (by simp) hz

/-! ### phase II -/

/-- Successors of a key in phase II (digraph.py L71-83): proof device. -/
def trailSucc (g : Graph α) (z a : List α) (y : α) (d : Bool) : List (α × Bool) :=
  if d = true ∧ y ∉ z then (g.pa y).map (fun p => (p, true)) ++ (g.ch y).map (fun c => (c, false))
  else if d = false then
    (if y ∉ z then (g.ch y).map (fun c => (c, false)) else []) ++
      (if y ∈ a then (g.pa y).map (fun p => (p, true)) else [])
  else []

theorem trailPushes_eq (h : g.WF) (z a : List α) {y : α} (hy : y ∈ g.nodeList) (d : Bool)
    (s : List (α × Bool) × Dict (α × Bool) Bool) :
    g.trailPushes z a y d s = (g.trailSucc z a y d).foldlM pushNew s := by
  unfold trailPushes trailSucc
  rw [getParents_ok h hy, getChildren_ok h hy]
  by_cases c1 : d = true ∧ y ∉ z
  · rw [if_pos c1, if_pos c1, List.foldlM_append]; rfl
  · rw [if_neg c1, if_neg c1]
    by_cases c2 : d = false
    · rw [if_pos c2, if_pos c2, List.foldlM_append]
      by_cases c3 : y ∉ z <;> by_cases c4 : y ∈ a <;>
        simp only [c3, c4, not_false_eq_true, ↓reduceIte] <;> rfl
    · rw [if_neg c2, if_neg c2]; rfl

theorem mem_trailSucc (z a : List α) (y : α) (d : Bool) (w : α) (e : Bool) :
    (w, e) ∈ g.trailSucc z a y d ↔ (d = true ∧ y ∉ z ∧ e = true ∧ w ∈ g.pa y) ∨ (y ∉ z ∧ e = false ∧ w ∈ g.ch y) ∨
      (d = false ∧ y ∈ a ∧ e = true ∧ w ∈ g.pa y) := by
  unfold trailSucc
  cases d <;> cases e <;> by_cases hz : y ∈ z <;> by_cases ha : y ∈ a <;>
    simp [hz, ha]

theorem trailSucc_mem (h : g.WF) {z a : List α} {y : α} {d : Bool} {s : α × Bool} (hs : s ∈ g.trailSucc z a y d) :
    s.1 ∈ g.nodeList := by
  obtain ⟨w, e⟩ := s
  rw [mem_trailSucc] at hs
  rcases hs with hs | hs | hs
  · exact pa_sub h hs.2.2.2
  · exact ch_sub h hs.2.2
  · exact pa_sub h hs.2.2.2

omit [DecidableEq α] in
theorem mem_trailKeys (g : Graph α) (s : α × Bool) : s ∈ g.trailKeys ↔ s.1 ∈ g.nodeList := by
  obtain ⟨u, b⟩ := s
  unfold trailKeys nodes
  cases b <;> simp [List.mem_flatMap]

theorem trailLoop_ok (h : g.WF) (z a : List α) (n : Nat) (q : List (α × Bool)) (vis : Dict (α × Bool) Bool)
    (hq : ∀ s ∈ q, s.1 ∈ g.nodeList) (hv : ∀ k ∈ g.trailKeys, (dget vis k).isSome)
    (hf : q.length + unvis g.trailKeys vis ≤ n) :
    ∃ P : List (α × Bool), g.trailLoop z a n q vis = ((P.filter (fun s => s.1 ∉ z)).map Prod.fst, none) ∧
      (∀ s ∈ q, s ∈ P) ∧
      (∀ s ∈ P, ∃ s0 ∈ q, Relation.ReflTransGen (fun s t => t ∈ g.trailSucc z a s.1 s.2) s0 s) ∧
      (∀ s ∈ P, ∀ t ∈ g.trailSucc z a s.1 s.2, t ∈ P ∨ dget vis t = some true) := by
  induction n generalizing q vis with
  | zero =>
    cases q with
    | nil => exact ⟨[], by simp [trailLoop], by simp, by simp, by simp⟩
    | cons y t => simp only [List.length_cons] at hf; omega
  | succ n ih =>
    cases q with
    | nil => exact ⟨[], by simp [trailLoop], by simp, by simp, by simp⟩
    | cons yd t =>
      obtain ⟨y, d⟩ := yd
      have hy := hq (y, d) (by simp)
      simp only [List.length_cons] at hf
      obtain ⟨N, vis', p1, p2, p3, p4, p5, p6⟩ := pushAll_ok (K := g.trailKeys) (g.trailSucc z a y d) t vis
          (fun k hk => (mem_trailKeys g k).2 (trailSucc_mem h hk)) hv
      obtain ⟨P, h1, h2, h3, h4⟩ := ih (t ++ N) vis'
        (by
          intro s hs
          rcases List.mem_append.1 hs with hs | hs
          · exact hq s (by simp [hs])
          · exact trailSucc_mem h (p2 s hs)) p5 (by simp only [List.length_append]; omega)
      refine ⟨(y, d) :: P, ?_, ?_, ?_, ?_⟩
      · rw [trailLoop, trailPushes_eq h z a hy, p1]
        simp only [h1]
        rw [List.filter_cons]
        by_cases hyz : y ∈ z <;> simp [hyz]
      · intro s hs
        rcases List.mem_cons.1 hs with rfl | hs
        · simp
        · exact List.mem_cons_of_mem _ (h2 s (by simp [hs]))
      · intro s hs
        rcases List.mem_cons.1 hs with rfl | hs
        · exact ⟨(y, d), by simp, Relation.ReflTransGen.refl⟩
        · obtain ⟨s0, hs0, hr⟩ := h3 s hs
          rcases List.mem_append.1 hs0 with hs0 | hs0
          · exact ⟨s0, by simp [hs0], hr⟩
          · exact ⟨(y, d), by simp, Relation.ReflTransGen.head (p2 s0 hs0) hr⟩
      · intro s hs t' ht'
        rcases List.mem_cons.1 hs with rfl | hs
        · rcases p3 t' ht' with hh | hh
          · exact Or.inl (List.mem_cons_of_mem _ (h2 t' (by simp [hh])))
          · exact Or.inr hh
        · rcases h4 s hs t' ht' with hh | hh
          · exact Or.inl (List.mem_cons_of_mem _ hh)
          · rw [p4] at hh
            rcases hh with hh | hh
            · exact Or.inr hh
            · exact Or.inl (List.mem_cons_of_mem _ (h2 t' (by simp [hh])))

/-- `get_reachable_nodes` for a start node of the graph: yields, without exception, the nodes outside `z.later` of the
states that can be reached. -/
theorem getReachableNodes_ok (h : g.WF) (x : α) (hx : x ∈ g.nodeList) (z : ZArg α) (a : List α)
    (ha : g.ancestorsOf z = .ok a) :
    ∃ ys, g.getReachableNodes x z = (ys, none) ∧
      ∀ y, y ∈ ys ↔ y ∉ z.later ∧ ∃ d, Relation.ReflTransGen (fun s t => t ∈ g.trailSucc z.later a s.1 s.2) (x, true) (y, d) := by
  have hv : ∀ k ∈ g.trailKeys, (dget (dset (dinit g.trailKeys false) (x, true) true) k).isSome := by
    intro k hk
    rw [dget_dset, dget_dinit]
    split_ifs <;> simp
  have hf : [(x, true)].length + unvis g.trailKeys (dset (dinit g.trailKeys false) (x, true) true) ≤ 2 * g.nodes.length + 1 := by
    have h1 : g.trailKeys.length = 2 * g.nodes.length := by
      unfold trailKeys
      induction g.nodes with
      | nil => rfl
      | cons u t ih => simp only [List.flatMap_cons, List.length_append, List.length_cons, List.length_nil, ih]; omega
    have := unvis_le_length g.trailKeys (dset (dinit g.trailKeys false) (x, true) true)
    simp only [List.length_cons, List.length_nil]
    omega
  obtain ⟨P, h1, h2, h3, h4⟩ := trailLoop_ok h z.later a (2 * g.nodes.length + 1) [(x, true)]
    (dset (dinit g.trailKeys false) (x, true) true) (by simpa using hx) hv hf
  refine ⟨_, by unfold getReachableNodes; rw [ha]; exact h1, ?_⟩
  have hxP : (x, true) ∈ P := h2 _ (by simp)
  have hcl : ∀ s ∈ P, ∀ t ∈ g.trailSucc z.later a s.1 s.2, t ∈ P := by
    intro s hs t ht
    rcases h4 s hs t ht with hh | hh
    · exact hh
    · rw [dget_dset, dget_dinit] at hh
      split_ifs at hh with c
      · rw [← c]; exact hxP
      · simp at hh
  intro y
  simp only [List.mem_map, List.mem_filter, decide_eq_true_eq, Prod.exists, exists_and_right, exists_eq_right]
  constructor
  · rintro ⟨⟨d, hd⟩, hz⟩
    obtain ⟨s0, hs0, hr⟩ := h3 _ hd
    simp only [List.mem_singleton] at hs0
    subst hs0
    exact ⟨hz, d, hr⟩
  · rintro ⟨hz, d, hr⟩
    refine ⟨⟨d, ?_⟩, hz⟩
    have : ∀ s, Relation.ReflTransGen (fun s t => t ∈ g.trailSucc z.later a s.1 s.2) (x, true) s → s ∈ P := by
      intro s hs
      induction hs with
      | refl => exact hxP
      | tail _ m ih => exact hcl _ ih _ m
    exact this _ hr

theorem trailSucc_iff_move (h : g.DG) {z a : List α}
    (ha : ∀ y, y ∈ a ↔ Spec.AncZ (Dir g) (fun w => w ∈ z) y) (s t : α × Bool) :
    t ∈ g.trailSucc z a s.1 s.2 ↔ Spec.Move (Dir g) (fun w => w ∈ z) s t := by
  obtain ⟨y, d⟩ := s
  obtain ⟨w, e⟩ := t
  rw [mem_trailSucc, h.mem_pa, h.mem_ch]
  constructor
  · rintro (⟨rfl, h1, rfl, h2⟩ | ⟨h1, rfl, h2⟩ | ⟨rfl, h1, rfl, h2⟩)
    · exact Spec.Move.up_pa h1 h2
    · cases d
      · exact Spec.Move.down_ch h1 h2
      · exact Spec.Move.up_ch h1 h2
    · exact Spec.Move.down_pa ((ha y).1 h1) h2
  · intro hm
    cases hm with
    | up_pa hz e => exact Or.inl ⟨rfl, hz, rfl, e⟩
    | up_ch hz e => exact Or.inr (Or.inl ⟨hz, rfl, e⟩)
    | down_ch hz e => exact Or.inr (Or.inl ⟨hz, rfl, e⟩)
    | down_pa ha' e => exact Or.inr (Or.inr ⟨rfl, (ha y).2 ha', rfl, e⟩)

/-- `is_d_separate` decides d-separation, for re-iterable `z`. -/
theorem isDSeparate_iff (h : g.DG) {x y : α} {l : List α} (hx : x ∈ g.nodeList) (hz : ∀ w ∈ l, w ∈ g.nodeList)
    (hxz : x ∉ l) (hyz : y ∉ l) :
    ∃ b, g.isDSeparate x y (.reiterable l) = .ok b ∧ (b = true ↔ Spec.DSep (Dir g) x y (fun w => w ∈ l)) := by
  obtain ⟨a, ha, hmem⟩ := ancestorsOf_ok h (.reiterable l) hz
  obtain ⟨ys, h1, h2⟩ := getReachableNodes_ok h.wf x hx (.reiterable l) a ha
  have hiff : y ∈ ys ↔ ∃ p, Spec.IsPath (Dir g) p x y ∧ ¬ Spec.Blocked (Dir g) (fun w => w ∈ l) p := by
    rw [h2, ← Spec.reach_iff_path (fun u v hd => Dir.asymm h.wf hd) (Z := fun w => w ∈ l) hxz]
    have : (fun s t => t ∈ g.trailSucc (ZArg.reiterable l).later a s.1 s.2) = Spec.Move (Dir g) (fun w => w ∈ l) := by
      funext s t
      exact propext (trailSucc_iff_move h hmem s t)
    rw [this]
    exact ⟨fun hh => hh.2, fun hh => ⟨hyz, hh⟩⟩
  unfold isDSeparate
  rw [h1]
  by_cases hy : y ∈ ys
  · refine ⟨false, by simp [hy], ?_⟩
    simp only [Bool.false_eq_true, false_iff]
    obtain ⟨p, hp, hb⟩ := hiff.1 hy
    exact fun hd => hb (hd p hp)
  · refine ⟨true, by simp [hy], ?_⟩
    simp only [true_iff]
    intro p hp
    by_contra hb
    exact hy (hiff.2 ⟨p, hp, hb⟩)

end Graph
end Cdmir
