import Verif.Model.Merge
import Verif.Lemmas.Dict
import Mathlib.Logic.Relation
import Mathlib.Data.List.Induction
import Mathlib.Data.List.Sort

/-! Property C40: `merge_list` returns the connected components of the overlapping clusters. -/

namespace Cdmir.Merge

/-! ### The dictionary of neighbours -/

/-- `x` is in the set stored under `a`. -/
def Nb (d : Dict Nat (List Nat)) (a x : Nat) : Prop := ∃ s, dget d a = some s ∧ x ∈ s

theorem addTo_nb (d : Dict Nat (List Nat)) (k x a y : Nat) : Nb (addTo d k x) a y ↔ Nb d a y ∨ (a = k ∧ y = x) := by
  unfold addTo Nb
  cases h : dget d k with
  | none =>
    simp only [dget_dset]
    by_cases ha : a = k
    · subst ha; simp [h]
    · simp [ha, Ne.symm ha]
  | some s =>
    simp only [dget_dset]
    by_cases ha : a = k
    · subst ha
      by_cases hx : x ∈ s
      · simp only [hx, if_true, h]
        constructor
        · rintro ⟨t, ht, hy⟩; exact Or.inl ⟨t, ht, hy⟩
        · rintro (h1 | ⟨_, rfl⟩)
          · exact h1
          · exact ⟨s, rfl, hx⟩
      · simp [hx, h]
    · simp [ha, Ne.symm ha]

theorem addTo_keys (d : Dict Nat (List Nat)) (k x a : Nat) : a ∈ dkeys (addTo d k x) ↔ a ∈ dkeys d ∨ a = k := by
  unfold addTo
  cases h : dget d k <;> simp only [mem_dkeys_iff, dget_dset] <;> by_cases ha : a = k
  · simp [ha]
  · simp [ha, Ne.symm ha]
  · simp [ha]
  · simp [ha, Ne.symm ha]

theorem graphOf_spec (edges : List (Nat × Nat)) :
    (∀ a x, Nb (graphOf edges) a x ↔ (a, x) ∈ edges ∨ (x, a) ∈ edges) ∧
    (∀ a, a ∈ dkeys (graphOf edges) ↔ ∃ x, (a, x) ∈ edges ∨ (x, a) ∈ edges) := by
  unfold graphOf
  induction edges using List.reverseRec with
  | nil => exact ⟨fun a x => by simp [Nb], fun a => by simp [dkeys]⟩
  | append_singleton es e ih =>
    obtain ⟨h1, h2⟩ := ih
    obtain ⟨u, v⟩ := e
    rw [List.foldl_append]
    simp only [List.foldl_cons, List.foldl_nil]
    constructor
    · intro a x
      rw [addTo_nb, addTo_nb, h1]
      simp only [List.mem_append, List.mem_singleton, Prod.mk.injEq]
      tauto
    · intro a
      rw [addTo_keys, addTo_keys, h2]
      simp only [List.mem_append, List.mem_singleton, Prod.mk.injEq]
      constructor
      · rintro ((⟨x, h⟩ | rfl) | rfl)
        · exact ⟨x, by tauto⟩
        · exact ⟨v, by simp⟩
        · exact ⟨u, by simp⟩
      · rintro ⟨x, (h | h) | (h | h)⟩
        · exact Or.inl (Or.inl ⟨x, Or.inl h⟩)
        · exact Or.inl (Or.inr h.1)
        · exact Or.inl (Or.inl ⟨x, Or.inr h⟩)
        · exact Or.inr h.2

/-! ### Breadth-first search -/

/-- The work left: neighbour lists of the keys not yet visited. -/
def todo (d : Dict Nat (List Nat)) (visited : List Nat) : Nat :=
  ((d.filter (fun e => e.1 ∉ visited)).map (fun e => e.2.length)).sum

theorem todo_visit (d : Dict Nat (List Nat)) (visited : List Nat) (v : Nat) (ns : List Nat) (hv : v ∉ visited)
    (h : dget d v = some ns) : todo d (visited ++ [v]) + ns.length ≤ todo d visited := by
  unfold todo
  induction d with
  | nil => simp at h
  | cons e t ih =>
    obtain ⟨k, s⟩ := e
    have hmono : ∀ t : Dict Nat (List Nat), ((t.filter (fun e => e.1 ∉ visited ++ [v])).map (fun e => e.2.length)).sum ≤
        ((t.filter (fun e => e.1 ∉ visited)).map (fun e => e.2.length)).sum := by
      intro t
      induction t with
      | nil => simp
      | cons e t ih =>
        by_cases h1 : e.1 ∈ visited
        · simpa [List.filter_cons, h1] using ih
        · by_cases h2 : e.1 = v
          · simp only [List.filter_cons, List.mem_append, h2, List.mem_singleton, or_true, not_true, decide_false,
              hv, not_false_iff, decide_true, if_true, List.map_cons, List.sum_cons]
            simp only [List.mem_append, List.mem_singleton] at ih
            exact le_trans (by simpa using ih) (Nat.le_add_left _ _)
          · simp only [List.mem_append, List.mem_singleton] at ih
            simpa [List.filter_cons, h1, h2] using ih
    rw [dget_cons] at h
    by_cases hk : k = v
    · rw [if_pos hk] at h
      cases h
      subst hk
      have := hmono t
      simp only [List.filter_cons, List.mem_append, List.mem_singleton, or_true, not_true, decide_false, hv, not_false_iff,
        decide_true, if_true, List.map_cons, List.sum_cons]
      simp only [List.mem_append, List.mem_singleton] at this
      simp at this ⊢
      omega
    · rw [if_neg hk] at h
      have := ih h
      by_cases h1 : k ∈ visited
      · simpa [List.filter_cons, h1] using this
      · simp only [List.mem_append, List.mem_singleton] at this
        simp [h1, hk] at this ⊢
        omega

theorem bfsLoop_spec {setOrder : List Nat → List Nat} (hso : ∀ l, (setOrder l).Perm l) {d : Dict Nat (List Nat)}
    (hkeys : ∀ a x, Nb d a x → x ∈ dkeys d) (start : Nat) (fuel : Nat) (visited queue : List Nat)
    (hq : ∀ x ∈ queue, x ∈ dkeys d) (hfuel : queue.length + todo d visited ≤ fuel)
    (hr : ∀ x, x ∈ visited ∨ x ∈ queue → Relation.ReflTransGen (Nb d) start x)
    (hs : start ∈ visited ∨ start ∈ queue)
    (hc : ∀ a ∈ visited, ∀ x, Nb d a x → x ∈ visited ∨ x ∈ queue) :
    ∃ c, bfsLoop setOrder d fuel visited queue = .ok c ∧ ∀ x, x ∈ c ↔ Relation.ReflTransGen (Nb d) start x := by
  induction fuel generalizing visited queue with
  | zero =>
    cases queue with
    | nil =>
      refine ⟨visited, rfl, fun x => ⟨fun h => hr x (Or.inl h), fun h => ?_⟩⟩
      induction h with
      | refl => simpa using hs
      | tail _ h2 ih => simpa using hc _ ih _ h2
    | cons v q => simp at hfuel
  | succ fuel ih =>
    cases queue with
    | nil =>
      refine ⟨visited, rfl, fun x => ⟨fun h => hr x (Or.inl h), fun h => ?_⟩⟩
      induction h with
      | refl => simpa using hs
      | tail _ h2 ih => simpa using hc _ ih _ h2
    | cons v q =>
      by_cases hv : v ∈ visited
      · rw [bfsLoop, if_pos hv]
        refine ih visited q (fun x hx => hq x (by simp [hx])) (by simp at hfuel; omega) ?_ ?_ ?_
        · rintro x (hx | hx)
          · exact hr x (Or.inl hx)
          · exact hr x (Or.inr (by simp [hx]))
        · rcases hs with h | h
          · exact Or.inl h
          · rcases List.mem_cons.1 h with rfl | h
            · exact Or.inl hv
            · exact Or.inr h
        · intro a ha x hx
          rcases hc a ha x hx with h | h
          · exact Or.inl h
          · rcases List.mem_cons.1 h with rfl | h
            · exact Or.inl hv
            · exact Or.inr h
      · obtain ⟨ns, hns⟩ := Option.isSome_iff_exists.1 ((mem_dkeys_iff d v).1 (hq v (by simp)))
        rw [bfsLoop, if_neg hv, dgetE_of _ _ _ hns]
        have hmem : ∀ x, x ∈ setOrder (ns.filter (fun x => x ∉ visited ++ [v])) ↔ x ∈ ns ∧ x ∉ visited ∧ x ≠ v := by
          intro x
          rw [(hso _).mem_iff]
          simp
        have hlen : (setOrder (ns.filter (fun x => x ∉ visited ++ [v]))).length ≤ ns.length := by
          rw [(hso _).length_eq]; exact List.length_filter_le _ _
        have htodo := todo_visit d visited v ns hv hns
        show ∃ c, bfsLoop setOrder d fuel _ _ = .ok c ∧ _
        refine ih _ _ ?_ ?_ ?_ ?_ ?_
        · intro x hx
          rcases List.mem_append.1 hx with h | h
          · exact hq x (by simp [h])
          · exact hkeys v x ⟨ns, hns, ((hmem x).1 h).1⟩
        · simp only [List.length_append]
          simp at hfuel
          omega
        · rintro x (hx | hx)
          · rcases List.mem_append.1 hx with h | h
            · exact hr x (Or.inl h)
            · rw [List.mem_singleton.1 h]; exact hr v (Or.inr (by simp))
          · rcases List.mem_append.1 hx with h | h
            · exact hr x (Or.inr (by simp [h]))
            · exact (hr v (Or.inr (by simp))).tail ⟨ns, hns, ((hmem x).1 h).1⟩
        · rcases hs with h | h
          · exact Or.inl (by simp [h])
          · rcases List.mem_cons.1 h with rfl | h
            · exact Or.inl (by simp)
            · exact Or.inr (by simp [h])
        · intro a ha x hx
          by_cases hxv : x ∈ visited ++ [v]
          · exact Or.inl hxv
          · right
            rw [List.mem_append]
            simp only [List.mem_append, List.mem_singleton, not_or] at hxv
            rcases List.mem_append.1 ha with h | h
            · rcases hc a h x hx with h' | h'
              · exact absurd h' hxv.1
              · rcases List.mem_cons.1 h' with h' | h'
                · exact absurd h' hxv.2
                · exact Or.inl h'
            · rw [List.mem_singleton.1 h] at hx
              obtain ⟨s, hs', hxs⟩ := hx
              rw [hns] at hs'
              cases hs'
              exact Or.inr ((hmem x).2 ⟨hxs, hxv⟩)

theorem bfs_spec {setOrder : List Nat → List Nat} (hso : ∀ l, (setOrder l).Perm l) {d : Dict Nat (List Nat)}
    (hkeys : ∀ a x, Nb d a x → x ∈ dkeys d) {start : Nat} (hs : start ∈ dkeys d) :
    ∃ c, bfs setOrder d start = .ok c ∧ ∀ x, x ∈ c ↔ Relation.ReflTransGen (Nb d) start x := by
  refine bfsLoop_spec hso hkeys start _ [] [start] (by simpa using hs) ?_ ?_ (by simp) (by simp)
  · have : todo d [] = (d.map (fun e => e.2.length)).sum := by simp [todo]
    simp [this]
  · rintro x (h | h)
    · cases h
    · rw [List.mem_singleton.1 h]

/-! ### Components -/

theorem reach_symm {r : Nat → Nat → Prop} (hr : ∀ a b, r a b → r b a) {a b : Nat} (h : Relation.ReflTransGen r a b) :
    Relation.ReflTransGen r b a := by
  induction h with
  | refl => exact .refl
  | tail _ h2 ih => exact Relation.ReflTransGen.head (hr _ _ h2) ih

theorem components_spec {setOrder : List Nat → List Nat} (hso : ∀ l, (setOrder l).Perm l) {d : Dict Nat (List Nat)}
    (hkeys : ∀ a x, Nb d a x → x ∈ dkeys d) (hsymm : ∀ a x, Nb d a x → Nb d x a) :
    ∃ cs, connectedComponents setOrder d = .ok cs ∧
      (∀ c ∈ cs, ∃ v ∈ dkeys d, ∀ x, x ∈ c ↔ Relation.ReflTransGen (Nb d) v x) ∧
      cs.Pairwise (fun c c' => ∀ x, x ∈ c → x ∉ c') ∧ ∀ v ∈ dkeys d, ∃ c ∈ cs, v ∈ c := by
  have main : ∀ (vs : List Nat) (seen : List Nat) (out : List (List Nat)), (∀ v ∈ vs, v ∈ dkeys d) →
      (∀ x, x ∈ seen ↔ ∃ c ∈ out, x ∈ c) →
      (∀ c ∈ out, ∃ v ∈ dkeys d, ∀ x, x ∈ c ↔ Relation.ReflTransGen (Nb d) v x) →
      out.Pairwise (fun c c' => ∀ x, x ∈ c → x ∉ c') →
      ∃ st, vs.foldlM (fun (st : List Nat × List (List Nat)) v =>
        if v ∈ st.1 then pure st
        else do
          let c ← bfs setOrder d v
          pure (pyUnion st.1 c, st.2 ++ [c])) (seen, out) = (Except.ok st : Except Err _) ∧
        (∀ c ∈ st.2, ∃ v ∈ dkeys d, ∀ x, x ∈ c ↔ Relation.ReflTransGen (Nb d) v x) ∧
        st.2.Pairwise (fun c c' => ∀ x, x ∈ c → x ∉ c') ∧ (∀ c ∈ out, c ∈ st.2) ∧ ∀ v ∈ vs, ∃ c ∈ st.2, v ∈ c := by
    intro vs
    induction vs with
    | nil => exact fun seen out _ h1 h2 h3 => ⟨(seen, out), rfl, h2, h3, fun _ h => h, by simp⟩
    | cons v vs ih =>
      intro seen out hvs h1 h2 h3
      by_cases hv : v ∈ seen
      · obtain ⟨st, e, q1, q2, q3, q4⟩ := ih seen out (fun x hx => hvs x (by simp [hx])) h1 h2 h3
        refine ⟨st, ?_, q1, q2, q3, fun x hx => ?_⟩
        · rw [List.foldlM_cons]; simp only [hv, if_true]; exact e
        · rcases List.mem_cons.1 hx with rfl | hx
          · obtain ⟨c, hc, hxc⟩ := (h1 x).1 hv
            exact ⟨c, q3 c hc, hxc⟩
          · exact q4 x hx
      · obtain ⟨c, ec, hc⟩ := bfs_spec hso hkeys (hvs v (by simp))
        obtain ⟨st, e, q1, q2, q3, q4⟩ := ih (pyUnion seen c) (out ++ [c]) (fun x hx => hvs x (by simp [hx]))
          (fun x => by
            rw [mem_pyUnion, h1]
            constructor
            · rintro (⟨c', h, h'⟩ | h)
              · exact ⟨c', by simp [h], h'⟩
              · exact ⟨c, by simp, h⟩
            · rintro ⟨c', h, h'⟩
              rcases List.mem_append.1 h with h | h
              · exact Or.inl ⟨c', h, h'⟩
              · rw [List.mem_singleton.1 h] at h'; exact Or.inr h')
          (fun c' h => by
            rcases List.mem_append.1 h with h | h
            · exact h2 c' h
            · rw [List.mem_singleton.1 h]; exact ⟨v, hvs v (by simp), hc⟩)
          (by
            refine List.pairwise_append.2 ⟨h3, by simp, fun a ha b hb x hxa hxb => ?_⟩
            rw [List.mem_singleton.1 hb, hc] at hxb
            obtain ⟨w, _, hw⟩ := h2 a ha
            exact hv ((h1 v).2 ⟨a, ha, (hw v).2 (((hw x).1 hxa).trans (reach_symm hsymm hxb))⟩))
        refine ⟨st, ?_, q1, q2, fun c' h => q3 c' (by simp [h]), fun x hx => ?_⟩
        · rw [List.foldlM_cons]; simp only [hv, if_false, ec]; exact e
        · rcases List.mem_cons.1 hx with rfl | hx
          · exact ⟨c, q3 c (by simp), (hc x).2 .refl⟩
          · exact q4 x hx
  obtain ⟨st, e, q1, q2, _, q4⟩ := main (dkeys d) [] [] (fun _ h => h) (by simp) (by simp) (by simp)
  refine ⟨st.2, ?_, q1, q2, q4⟩
  unfold connectedComponents
  rw [e]; rfl

/-! ### The result -/

section
variable {α : Type} [LinearOrder α]

theorem mem_sorted {l : List α} {x : α} : x ∈ sorted l ↔ x ∈ l := by
  unfold sorted; exact (List.perm_insertionSort _ l).mem_iff

theorem sorted_strict {l : List α} (h : l.Nodup) : (sorted l).Pairwise (· < ·) := by
  have h1 : (sorted l).Pairwise (· ≤ ·) := by
    unfold sorted; exact List.pairwise_insertionSort (· ≤ ·) l
  have h2 : (sorted l).Nodup := by unfold sorted; exact (List.perm_insertionSort _ l).nodup_iff.2 h
  exact h1.imp₂ (fun a b hab hne => lt_of_le_of_ne hab hne) h2

theorem overlapEdges_mem (s : List (List α)) (i j : Nat) :
    ((i, j) ∈ overlapEdges s ∨ (j, i) ∈ overlapEdges s) ↔
      i ≠ j ∧ i < s.length ∧ j < s.length ∧ ∃ x, x ∈ s.getD i [] ∧ x ∈ s.getD j [] := by
  have hb : ∀ a b : Nat, (!((s.getD a []).filter (fun x => x ∈ s.getD b [])).isEmpty) = true ↔
      ∃ x, x ∈ s.getD a [] ∧ x ∈ s.getD b [] := by
    intro a b
    rw [Bool.not_eq_true', ← Bool.not_eq_true, List.isEmpty_iff, List.eq_nil_iff_forall_not_mem]
    simp only [List.mem_filter, decide_eq_true_eq, not_and, not_forall, not_not]
    constructor
    · rintro ⟨x, h1, h2⟩; exact ⟨x, h1, h2⟩
    · rintro ⟨x, h1, h2⟩; exact ⟨x, h1, h2⟩
  simp only [overlapEdges, List.mem_filter, hb]
  constructor
  · rintro (⟨h, x, h1, h2⟩ | ⟨h, x, h1, h2⟩)
    · have := mem_pairs_mem h
      exact ⟨mem_pairs_ne List.nodup_range h, List.mem_range.1 this.1, List.mem_range.1 this.2, x, h1, h2⟩
    · have := mem_pairs_mem h
      exact ⟨(mem_pairs_ne List.nodup_range h).symm, List.mem_range.1 this.2, List.mem_range.1 this.1, x, h2, h1⟩
  · rintro ⟨hne, hi, hj, x, h1, h2⟩
    rcases pairs_complete (List.mem_range.2 hi) (List.mem_range.2 hj) hne with h | h
    · exact Or.inl ⟨h, x, h1, h2⟩
    · exact Or.inr ⟨h, x, h2, h1⟩

theorem foldl_collect (s : List (List α)) (cs : List (List Nat)) (res : List (List α)) (un : List Nat) :
    cs.foldl (fun (st : List (List α) × List Nat) c =>
      (st.1 ++ [sorted (pySet (c.flatMap (fun i => s.getD i [])))], st.2.filter (fun i => i ∉ c))) (res, un) =
    (res ++ cs.map (fun c => sorted (pySet (c.flatMap (fun i => s.getD i [])))), un.filter (fun i => ∀ c ∈ cs, i ∉ c)) := by
  induction cs generalizing res un with
  | nil => simp
  | cons c cs ih =>
    rw [List.foldl_cons, ih]
    simp [List.filter_filter, Bool.and_comm]

/-- **C40.** Whatever the order in which sets are read, `merge_list` returns; the lists returned are strictly increasing,
pairwise disjoint, together have the elements of the input, and two elements are in a common list iff a chain leads from one to
the other in which consecutive elements lie in a common input cluster. Empty input clusters are returned as they are. -/
theorem c40_merge_list (setOrder : List Nat → List Nat) (hso : ∀ l, (setOrder l).Perm l) (L : List (List α)) :
    ∃ res, mergeList setOrder L = .ok res ∧ (∀ r ∈ res, r.Pairwise (· < ·)) ∧
      res.Pairwise (fun r r' => ∀ x, x ∈ r → x ∉ r') ∧ (∀ x, (∃ r ∈ res, x ∈ r) ↔ ∃ c ∈ L, x ∈ c) ∧
      (∀ x y, (∃ r ∈ res, x ∈ r ∧ y ∈ r) ↔ Relation.TransGen (fun a b => ∃ c ∈ L, a ∈ c ∧ b ∈ c) x y) ∧
      res.count [] = L.count [] := by
  set s := L.map pySet with hs
  have hlen : s.length = L.length := by simp [hs]
  have hget : ∀ i x, x ∈ s.getD i [] ↔ i < L.length ∧ x ∈ L.getD i [] := by
    intro i x
    by_cases hi : i < L.length
    · simp [hs, List.getD, hi]
    · simp [hs, List.getD, hi]
  have hnod : ∀ i, (s.getD i []).Nodup := by
    intro i
    by_cases hi : i < L.length
    · simp [hs, List.getD, hi, pySet_nodup]
    · simp [hs, List.getD, hi]
  have hmemL : ∀ c, c ∈ L ↔ ∃ i, i < L.length ∧ L.getD i [] = c := by
    intro c
    rw [List.mem_iff_getElem]
    constructor
    · rintro ⟨i, hi, rfl⟩; exact ⟨i, hi, by simp [List.getD, hi]⟩
    · rintro ⟨i, hi, rfl⟩; exact ⟨i, hi, by simp [List.getD, hi]⟩
  set d := graphOf (overlapEdges s) with hd
  obtain ⟨hnb, hk⟩ := graphOf_spec (overlapEdges s)
  rw [← hd] at hnb hk
  have hnb' : ∀ a x, Nb d a x ↔ a ≠ x ∧ a < s.length ∧ x < s.length ∧ ∃ z, z ∈ s.getD a [] ∧ z ∈ s.getD x [] := by
    intro a x; rw [hnb, overlapEdges_mem]
  have hsymm : ∀ a x, Nb d a x → Nb d x a := by
    intro a x h; rw [hnb'] at h ⊢
    obtain ⟨h1, h2, h3, z, h4, h5⟩ := h
    exact ⟨h1.symm, h3, h2, z, h5, h4⟩
  have hkeys : ∀ a x, Nb d a x → x ∈ dkeys d := by
    intro a x h
    rw [hk]; exact ⟨a, by rw [hnb] at h; tauto⟩
  have hkey' : ∀ a, a ∈ dkeys d ↔ ∃ x, Nb d a x := by
    intro a; rw [hk]; simp only [hnb]
  obtain ⟨cs, ecs, q1, q2, q3⟩ := components_spec hso hkeys hsymm
  set un := (List.range s.length).filter (fun i => ∀ c ∈ cs, i ∉ c) with hun
  set F : List Nat → List α := fun c => sorted (pySet (c.flatMap (fun i => s.getD i []))) with hF
  -- all classes
  set cls := cs ++ un.map (fun i => [i]) with hcls
  have hres : mergeList setOrder L = .ok (cs.map F ++ un.map (fun i => sorted (s.getD i []))) := by
    unfold mergeList
    simp only [← hs, ← hd, ecs]
    show (pure _ : Except Err _) = _
    rw [foldl_collect]
    simp [hF, hun]
    rfl
  have hmemF : ∀ c x, x ∈ F c ↔ ∃ i ∈ c, x ∈ s.getD i [] := by
    intro c x; simp only [hF, mem_sorted, mem_pySet, List.mem_flatMap]
  have hunmem : ∀ i, i ∈ un ↔ i < s.length ∧ i ∉ dkeys d := by
    intro i
    rw [hun, List.mem_filter, List.mem_range]
    simp only [decide_eq_true_eq]
    refine and_congr_right (fun _ => ⟨fun h hc => ?_, fun h c hc hi => ?_⟩)
    · obtain ⟨c, h1, h2⟩ := q3 i hc; exact h c h1 h2
    · obtain ⟨v, hv, hc'⟩ := q1 c hc
      apply h
      rcases Relation.ReflTransGen.cases_tail ((hc' i).1 hi) with h' | ⟨b, _, h'⟩
      · rw [h']; exact hv
      · exact hkeys b i h'
  set R := cs.map F ++ un.map (fun i => sorted (s.getD i [])) with hR
  -- the class of an index
  have hiso : ∀ i, i ∉ dkeys d → ∀ x, Relation.ReflTransGen (Nb d) i x → x = i := by
    intro i hi x hx
    rcases Relation.ReflTransGen.cases_head hx with h | ⟨b, h, _⟩
    · exact h.symm
    · exact absurd ((hkey' i).2 ⟨b, h⟩) hi
  have hclass : ∀ r ∈ R, ∃ v, v < s.length ∧ ∀ x, x ∈ r ↔ ∃ i, Relation.ReflTransGen (Nb d) v i ∧ x ∈ s.getD i [] := by
    intro r hr
    rcases List.mem_append.1 hr with hr | hr
    · obtain ⟨c, hc, rfl⟩ := List.mem_map.1 hr
      obtain ⟨v, hv, hcv⟩ := q1 c hc
      refine ⟨v, ?_, fun x => ?_⟩
      · obtain ⟨x, hx⟩ := (hkey' v).1 hv
        exact ((hnb' v x).1 hx).2.1
      · rw [hmemF]; simp only [hcv]
    · obtain ⟨i, hi, rfl⟩ := List.mem_map.1 hr
      refine ⟨i, ((hunmem i).1 hi).1, fun x => ?_⟩
      rw [mem_sorted]
      constructor
      · intro h; exact ⟨i, .refl, h⟩
      · rintro ⟨j, h1, h2⟩
        rw [hiso i ((hunmem i).1 hi).2 j h1] at h2
        exact h2
  have hcover : ∀ v, v < s.length → ∃ r ∈ R, ∀ x, x ∈ r ↔ ∃ i, Relation.ReflTransGen (Nb d) v i ∧ x ∈ s.getD i [] := by
    intro v hv
    by_cases hvk : v ∈ dkeys d
    · obtain ⟨c, hc, hvc⟩ := q3 v hvk
      obtain ⟨w, _, hcw⟩ := q1 c hc
      refine ⟨F c, List.mem_append_left _ (List.mem_map.2 ⟨c, hc, rfl⟩), fun x => ?_⟩
      rw [hmemF]
      have hwv := (hcw v).1 hvc
      constructor
      · rintro ⟨i, h1, h2⟩
        exact ⟨i, (reach_symm hsymm hwv).trans ((hcw i).1 h1), h2⟩
      · rintro ⟨i, h1, h2⟩
        exact ⟨i, (hcw i).2 (hwv.trans h1), h2⟩
    · refine ⟨sorted (s.getD v []), List.mem_append_right _ (List.mem_map.2 ⟨v, (hunmem v).2 ⟨hv, hvk⟩, rfl⟩), fun x => ?_⟩
      rw [mem_sorted]
      constructor
      · intro h; exact ⟨v, .refl, h⟩
      · rintro ⟨j, h1, h2⟩
        rw [hiso v hvk j h1] at h2
        exact h2
  have hstep : ∀ i j x, i < s.length → j < s.length → x ∈ s.getD i [] → x ∈ s.getD j [] →
      Relation.ReflTransGen (Nb d) i j := by
    intro i j x hi hj h1 h2
    by_cases hij : i = j
    · rw [hij]
    · exact .single ((hnb' i j).2 ⟨hij, hi, hj, x, h1, h2⟩)
  have hltof : ∀ i x, x ∈ s.getD i [] → i < s.length := by
    intro i x h; rw [hlen]; exact ((hget i x).1 h).1
  refine ⟨R, hres, ?_, ?_, fun x => ?_, fun x y => ?_, ?_⟩
  · intro r hr
    rcases List.mem_append.1 hr with hr | hr
    · obtain ⟨c, _, rfl⟩ := List.mem_map.1 hr
      exact sorted_strict (pySet_nodup _)
    · obtain ⟨i, _, rfl⟩ := List.mem_map.1 hr
      exact sorted_strict (hnod i)
  · refine List.pairwise_append.2 ⟨?_, ?_, ?_⟩
    · rw [List.pairwise_map]
      refine q2.imp_of_mem (fun {c c'} hc hc' hdis x hx hx' => ?_)
      obtain ⟨i, h1, h2⟩ := (hmemF c x).1 hx
      obtain ⟨j, h3, h4⟩ := (hmemF c' x).1 hx'
      obtain ⟨v, _, hv⟩ := q1 c hc
      exact hdis j ((hv j).2 (((hv i).1 h1).trans (hstep i j x (hltof i x h2) (hltof j x h4) h2 h4))) h3
    · rw [List.pairwise_map]
      have hnd : un.Nodup := List.nodup_range.filter _
      refine hnd.imp_of_mem (fun {i j} hi hj hne x hx hx' => ?_)
      rw [mem_sorted] at hx hx'
      exact hne (hiso i ((hunmem i).1 hi).2 j (hstep i j x (hltof i x hx) (hltof j x hx') hx hx')).symm
    · intro r hr r' hr' x hx hx'
      obtain ⟨c, hc, rfl⟩ := List.mem_map.1 hr
      obtain ⟨j, hj, rfl⟩ := List.mem_map.1 hr'
      obtain ⟨i, h1, h2⟩ := (hmemF c x).1 hx
      rw [mem_sorted] at hx'
      have := hiso j ((hunmem j).1 hj).2 i (hstep j i x (hltof j x hx') (hltof i x h2) hx' h2)
      subst this
      rw [hun, List.mem_filter] at hj
      have := hj.2
      simp only [decide_eq_true_eq] at this
      exact this c hc h1
  · constructor
    · rintro ⟨r, hr, hx⟩
      obtain ⟨v, _, hv⟩ := hclass r hr
      obtain ⟨i, _, h2⟩ := (hv x).1 hx
      rw [hget] at h2
      exact ⟨_, (hmemL _).2 ⟨i, h2.1, rfl⟩, h2.2⟩
    · rintro ⟨c, hc, hx⟩
      obtain ⟨i, hi, rfl⟩ := (hmemL c).1 hc
      obtain ⟨r, hr, hv⟩ := hcover i (by rw [hlen]; exact hi)
      exact ⟨r, hr, (hv x).2 ⟨i, .refl, (hget i x).2 ⟨hi, hx⟩⟩⟩
  · constructor
    · rintro ⟨r, hr, hx, hy⟩
      obtain ⟨v, _, hv⟩ := hclass r hr
      obtain ⟨i, hi, hxi⟩ := (hv x).1 hx
      obtain ⟨j, hj, hyj⟩ := (hv y).1 hy
      have hij := (reach_symm hsymm hi).trans hj
      have hc : ∀ i x y, x ∈ s.getD i [] → y ∈ s.getD i [] → ∃ c ∈ L, x ∈ c ∧ y ∈ c := by
        intro i x y h1 h2
        rw [hget] at h1 h2
        exact ⟨_, (hmemL _).2 ⟨i, h1.1, rfl⟩, h1.2, h2.2⟩
      clear hj hy
      induction hij generalizing y with
      | refl => exact .single (hc i x y hxi hyj)
      | tail _ h2 ih =>
        obtain ⟨_, _, _, z, hz1, hz2⟩ := (hnb' _ _).1 h2
        exact (ih z hz1).tail (hc _ z y hz2 hyj)
    · intro h
      have : ∃ i j, x ∈ s.getD i [] ∧ y ∈ s.getD j [] ∧ Relation.ReflTransGen (Nb d) i j := by
        induction h with
        | single h1 =>
          obtain ⟨c, hc, hx, hy⟩ := h1
          obtain ⟨i, hi, rfl⟩ := (hmemL c).1 hc
          exact ⟨i, i, (hget i _).2 ⟨hi, hx⟩, (hget i _).2 ⟨hi, hy⟩, .refl⟩
        | tail _ h2 ih =>
          obtain ⟨i, j, h3, h4, h5⟩ := ih
          obtain ⟨c, hc, hx, hy⟩ := h2
          obtain ⟨k, hk, rfl⟩ := (hmemL c).1 hc
          have hbk := (hget k _).2 ⟨hk, hx⟩
          exact ⟨i, k, h3, (hget k _).2 ⟨hk, hy⟩, h5.trans (hstep j k _ (hltof j _ h4) (hltof k _ hbk) h4 hbk)⟩
      obtain ⟨i, j, h1, h2, h3⟩ := this
      obtain ⟨r, hr, hv⟩ := hcover i (hltof i x h1)
      exact ⟨r, hr, (hv x).2 ⟨i, .refl, h1⟩, (hv y).2 ⟨j, h3, h2⟩⟩
  · have hempty : ∀ i, i < L.length → (s.getD i [] = [] ↔ L.getD i [] = []) := by
      intro i hi
      simp only [List.eq_nil_iff_forall_not_mem, hget, hi, true_and]
    have e1 : (cs.map F).count [] = 0 := by
      rw [List.count_eq_zero]
      intro hc
      obtain ⟨c, hc, h0⟩ := List.mem_map.1 hc
      obtain ⟨v, hv, hcv⟩ := q1 c hc
      obtain ⟨x, hx⟩ := (hkey' v).1 hv
      obtain ⟨_, _, _, z, hz, _⟩ := (hnb' v x).1 hx
      have : z ∈ F c := (hmemF c z).2 ⟨v, (hcv v).2 .refl, hz⟩
      rw [h0] at this
      cases this
    rw [hR, List.count_append, e1, Nat.zero_add]
    have e2 : (un.map (fun i => sorted (s.getD i []))).count [] = un.countP (fun i => s.getD i [] = []) := by
      rw [List.count, List.countP_map]
      apply List.countP_congr
      intro i _
      simp only [Function.comp, beq_iff_eq, decide_eq_true_eq]
      simp only [List.eq_nil_iff_forall_not_mem, mem_sorted]
    have e3 : L.count [] = (List.range s.length).countP (fun i => s.getD i [] = []) := by
      have : L = (List.range L.length).map (fun i => L.getD i []) := by
        apply List.ext_getElem
        · simp
        · intro i h1 h2; simp [List.getD, h1]
      conv_lhs => rw [this]
      rw [List.count, List.countP_map, hlen]
      apply List.countP_congr
      intro i hi
      simp only [Function.comp, beq_iff_eq, decide_eq_true_eq]
      exact (hempty i (List.mem_range.1 hi)).symm
    rw [e2, e3, hun, List.countP_filter]
    apply List.countP_congr
    intro i hi
    simp only [Bool.and_eq_true, decide_eq_true_eq, and_iff_left_iff_imp]
    intro h0
    have : i ∈ un := by
      rw [hunmem]
      refine ⟨List.mem_range.1 hi, fun hc => ?_⟩
      obtain ⟨x, hx⟩ := (hkey' i).1 hc
      obtain ⟨_, _, _, z, hz, _⟩ := (hnb' i x).1 hx
      rw [h0] at hz
      cases hz
    rw [hun, List.mem_filter] at this
    simpa using this.2

end

section examples

/-- Clusters in which 1-2, 2-3 and 9-3 overlap in a chain, and 7 is alone. -/
def exClusters : List (List Nat) := [[2, 1], [7, 7], [3, 2], [], [9, 3]]

example := c40_merge_list id (fun _ => .refl _) exClusters
example : mergeList id exClusters = .ok [[1, 2, 3, 9], [7], []] := by decide +kernel

end examples
end Cdmir.Merge
