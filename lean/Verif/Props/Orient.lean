import Verif.Model.Orient
import Verif.Props.HierFind

/-! C158: the helpers of LearningHierarchicalStructure that the main procedure does not reach. -/

namespace Cdmir.Orient
open Cdmir.Hier
open Cdmir.Tetrad (allE)

variable {V Col : Type} [LinearOrder V]

theorem properSub_iff {S T : List V} : properSub S T = true ↔ (∀ x ∈ S, x ∈ T) ∧ ∃ x ∈ T, x ∉ S := by simp [properSub]

theorem setEq_iff' {S T : List V} : setEq S T = true ↔ ∀ x, x ∈ S ↔ x ∈ T := by
  simp only [setEq, Bool.and_eq_true, List.all_eq_true, decide_eq_true_eq]
  exact ⟨fun h x => ⟨h.1 x, h.2 x⟩, fun h => ⟨fun x => (h x).1, fun x => (h x).2⟩⟩

theorem contains_iff' {S : List V} {sets : List (List V)} : contains S sets = true ↔ ∃ T ∈ sets, ∀ x, x ∈ S ↔ x ∈ T := by
  simp only [contains, List.any_eq_true, setEq_iff']

/-! ### The set operators -/

/-- C158: the operators ask whether the given set stands in the relation to one of the sets; another operator is silently false. -/
theorem c158_operators (S : List V) (sets : List (List V)) :
    (setOperator S sets "<=" = true ↔ ∃ T ∈ sets, S ⊆ T) ∧ (setOperator S sets ">=" = true ↔ ∃ T ∈ sets, T ⊆ S) ∧
    (setOperator S sets "=" = true ↔ ∃ T ∈ sets, S ⊆ T ∧ T ⊆ S) ∧
    (setOperator S sets "<" = true ↔ ∃ T ∈ sets, S ⊆ T ∧ ¬ T ⊆ S) ∧ (setOperator S sets ">" = true ↔ ∃ T ∈ sets, T ⊆ S ∧ ¬ S ⊆ T) ∧
    (setCover S sets = true ↔ ∃ T ∈ sets, S ⊆ T) ∧ (setStrictCover S sets = true ↔ ∃ T ∈ sets, S ⊆ T ∧ ¬ T ⊆ S) ∧
    ∀ op, op ∉ ["<=", ">=", "=", "<", ">"] → setOperator S sets op = false := by
  have hs : ∀ S T : List V, properSub S T = true ↔ S ⊆ T ∧ ¬ T ⊆ S := by
    intro S T
    rw [properSub_iff]
    refine and_congr Iff.rfl ?_
    rw [List.subset_def]
    push Not
    rfl
  have he : ∀ S T : List V, setEq S T = true ↔ S ⊆ T ∧ T ⊆ S := by
    intro S T
    simp only [setEq, Bool.and_eq_true, List.all_eq_true, decide_eq_true_eq]
    rfl
  have ha : ∀ S T : List V, (S.all fun x => decide (x ∈ T)) = true ↔ S ⊆ T := by
    intro S T
    simp only [List.all_eq_true, decide_eq_true_eq]
    rfl
  refine ⟨?_, ?_, ?_, ?_, ?_, ?_, ?_, ?_⟩
  · simp only [setOperator, List.any_eq_true]
    simp [ha]
  · simp only [setOperator, List.any_eq_true]
    simp
    rfl
  · simp only [setOperator, List.any_eq_true]
    simp [he]
  · simp only [setOperator, List.any_eq_true]
    simp [hs]
  · simp only [setOperator, List.any_eq_true]
    simp [hs]
  · simp only [setCover, List.any_eq_true, ha]
  · simp only [setStrictCover, List.any_eq_true, hs]
  · intro op hop
    simp only [List.mem_cons, List.not_mem_nil, not_or, or_false] at hop
    simp [setOperator, hop.1, hop.2.1, hop.2.2.1, hop.2.2.2.1, hop.2.2.2.2]

/-- C158: `ExtendList` keeps what there is, adds every new cluster that is not there as a set, and nothing else. -/
theorem c158_extend (all new : List (List V)) :
    all <+: extendList all new ∧ (∀ C ∈ extendList all new, C ∈ all ∨ C ∈ new) ∧
    (∀ C ∈ new, ∃ D ∈ extendList all new, ∀ x, x ∈ C ↔ x ∈ D) ∧
    (all.Pairwise (fun C D => ¬ ∀ x, x ∈ C ↔ x ∈ D) → (extendList all new).Pairwise fun C D => ¬ ∀ x, x ∈ C ↔ x ∈ D) := by
  induction new generalizing all with
  | nil => exact ⟨List.prefix_rfl, fun C h => .inl h, fun C h => by simp at h, fun h => h⟩
  | cons C rest ih =>
    unfold extendList
    by_cases hc : contains C all = true
    · rw [if_pos hc]
      obtain ⟨h1, h2, h3, h4⟩ := ih all
      refine ⟨h1, fun D hD => (h2 D hD).imp id (List.mem_cons_of_mem _), fun D hD => ?_, h4⟩
      rcases List.mem_cons.1 hD with rfl | hD
      · obtain ⟨T, hT, e⟩ := contains_iff'.1 hc
        exact ⟨T, h1.subset hT, e⟩
      · exact h3 D hD
    · rw [if_neg hc]
      obtain ⟨h1, h2, h3, h4⟩ := ih (all ++ [C])
      refine ⟨(List.prefix_append _ _).trans h1, fun D hD => ?_, fun D hD => ?_, fun hp => h4 ?_⟩
      · rcases h2 D hD with h | h
        · rcases List.mem_append.1 h with h | h
          · exact .inl h
          · exact .inr (by simp [List.mem_singleton.1 h])
        · exact .inr (List.mem_cons_of_mem _ h)
      · rcases List.mem_cons.1 hD with rfl | hD
        · exact ⟨D, h1.subset (by simp), fun _ => Iff.rfl⟩
        · exact h3 D hD
      · rw [List.pairwise_append]
        refine ⟨hp, by simp, fun D hD E hE => ?_⟩
        rw [List.mem_singleton.1 hE]
        intro h
        exact hc (contains_iff'.2 ⟨D, hD, fun x => (h x).symm⟩)

/-- C158: `TestOverlap` asks for a common variable. -/
theorem c158_overlap (C1 C2 : List V) : testOverlap C1 C2 = true ↔ ∃ v, v ∈ C1 ∧ v ∈ C2 := by
  simp only [testOverlap, decide_eq_true_eq, List.length_pos_iff_exists_mem, List.mem_filter]

/-! ### General purity -/

/-- C158, "the tests of general purity take the clusters as lists" (as the main procedure holds them, and as they are indexed) is false:
they raise as soon as there is a cluster. Without one they are the test of two impure clusters. -/
theorem c158_lists_false (env : Env V Col) (d : Frame V Col) (l : List V) (C2 : Coll V) {all : List (List V)} (h : all ≠ []) :
    generalPurity env d all (.list l) C2 = .error .type ∧ withPurity env d all (.list l) C2 = .error .type ∧
    (∀ C1, withPurity env d all C1 (.list l) = .error .type) ∧
    ∀ l', generalPurity env d [] (.list l) (.list l') = testImpureWithImpure env d l l' ∧
      withPurity env d [] (.list l) (.list l') = testImpureWithImpure env d l l' := by
  obtain ⟨S, rest, rfl⟩ := List.exists_cons_of_ne_nil h
  have hf : firstBelow (.list l) (S :: rest) = .error .type := rfl
  have hset : ∀ (T : List V) (all : List (List V)), ∃ o, firstBelow (.set T) all = .ok o := by
    intro T all
    induction all with
    | nil => exact ⟨none, rfl⟩
    | cons S rest ih =>
      unfold firstBelow below
      by_cases hb : properSub S T = true
      · exact ⟨some S, by simp [hb, bind, Except.bind, pure, Except.pure]⟩
      · obtain ⟨o, ho⟩ := ih
        exact ⟨o, by simp [hb, bind, Except.bind, pure, Except.pure, ho]⟩
  refine ⟨?_, ?_, ?_, ?_⟩
  · unfold generalPurity
    rw [hf]
    rfl
  · unfold withPurity
    rw [hf]
    rfl
  · intro C1
    unfold withPurity
    cases C1 with
    | list l1 => rfl
    | set T =>
      obtain ⟨o, ho⟩ := hset T (S :: rest)
      rw [ho, hf]
      rfl
  · intro l'
    have hi : impure env d (.list l) (.list l') = testImpureWithImpure env d l l' := by
      unfold impure testImpureWithImpure
      cases l with
      | nil => rfl
      | cons i l =>
        cases l' with
        | nil => rfl
        | cons j l' => rfl
    refine ⟨?_, ?_⟩
    · unfold generalPurity
      exact hi
    · unfold withPurity
      exact hi

theorem firstBelow_set (T : List V) (all : List (List V)) : firstBelow (.set T) all = .ok (all.find? fun S => properSub S T) := by
  induction all with
  | nil => rfl
  | cons S rest ih =>
    unfold firstBelow below
    by_cases hb : properSub S T = true
    · simp [hb, bind, Except.bind, pure, Except.pure]
    · simp [hb, bind, Except.bind, pure, Except.pure, ih]

/-- C158: given as a set, the first cluster must contain an earlier one; the test then is whether all tetrads of a variable of the first such
cluster, one of the rest, the first variable of `C2` and every variable outside vanish. -/
theorem c158_purity (env : Env V Col) (d : Frame V Col) (T : List V) (k : V) (C2 : List V) (all : List (List V)) :
    ((∀ S ∈ all, ¬ properSub S T) → generalPurity env d all (.set T) (.list (k :: C2)) = .error .type) ∧
    ∀ S, all.find? (fun S => properSub S T) = some S → ∀ i S', S = i :: S' → ∀ j r, env.order (T.filter fun v => v ∉ S) = j :: r →
      (generalPurity env d all (.set T) (.list (k :: C2)) = .ok true ↔
        ∀ s ∈ env.order ((dkeys d).filter fun v => v ∉ T ∧ v ∉ k :: C2), vanE env d i k j s = .ok true) := by
  refine ⟨fun h => ?_, fun S hS i S' hi j r hj => ?_⟩
  · unfold generalPurity
    rw [firstBelow_set, List.find?_eq_none.2 (by simpa using h)]
    rfl
  · unfold generalPurity
    rw [firstBelow_set, hS]
    subst hi
    change (do
      let i' ← head (i :: S')
      let j ← head (env.order (T.filter fun v => v ∉ i :: S'))
      let k' ← (Coll.list (k :: C2)).get 0
      allE (fun s => vanE env d i' k' j s) (env.order ((dkeys d).filter fun v => v ∉ T ∧ v ∉ k :: C2))) = _ ↔ _
    rw [hj]
    exact allE_true

/-- C158, "if only `C1` contains an earlier cluster, two variables of `C2` are tested" is false: line 465 asks for `C1` twice, and the variable for
`C2` is the first one of the last cluster of the list, which need not have to do with `C2`. If `C1` contains no earlier cluster, two
sets always raise. -/
theorem c158_with_false (env : Env V Col) (d : Frame V Col) (T1 T2 : List V) (all : List (List V)) :
    ((∀ S ∈ all, ¬ properSub S T1) → ∃ e, withPurity env d all (.set T1) (.set T2) = .error e) ∧
    ∀ S, all.find? (fun S => properSub S T1) = some S → (∀ S ∈ all, ¬ properSub S T2) → ∀ i S', S = i :: S' →
      ∀ j r, env.order (T1.filter fun v => v ∉ S) = j :: r → ∀ k L, all.getLast? = some (k :: L) →
      ∀ s r', env.order (T2.filter fun v => v ∉ k :: L) = s :: r' →
      withPurity env d all (.set T1) (.set T2) = vanE env d i k j s := by
  refine ⟨fun h1 => ?_, fun S hS h2 i S' hi j r hj k L hL s r' hs => ?_⟩
  · unfold withPurity
    rw [firstBelow_set, firstBelow_set, List.find?_eq_none.2 (by simpa using h1)]
    cases hf : all.find? (fun S => properSub S T2) with
    | none => exact ⟨.type, rfl⟩
    | some S2 =>
      cases S2 with
      | nil => exact ⟨.index, rfl⟩
      | cons i S' =>
        cases ho : env.order (T2.filter fun v => v ∉ i :: S') with
        | nil =>
          refine ⟨.index, ?_⟩
          change (do
            let i' ← head (i :: S')
            let j ← head (env.order (T2.filter fun v => v ∉ i :: S'))
            let k ← (Coll.set T1).get 0
            let s ← (Coll.set T1).get 1
            vanE env d i' k j s) = _
          rw [ho]
          rfl
        | cons j r =>
          refine ⟨.type, ?_⟩
          change (do
            let i' ← head (i :: S')
            let j ← head (env.order (T2.filter fun v => v ∉ i :: S'))
            let k ← (Coll.set T1).get 0
            let s ← (Coll.set T1).get 1
            vanE env d i' k j s) = _
          rw [ho]
          rfl
  · unfold withPurity
    rw [firstBelow_set, firstBelow_set, hS, List.find?_eq_none.2 (by simpa using h2)]
    subst hi
    change (do
      let i' ← head (i :: S')
      let j ← head (env.order (T1.filter fun v => v ∉ i :: S'))
      let k' ← head (all.getLast?.getD [])
      let s ← head (env.order (T2.filter fun v => v ∉ all.getLast?.getD []))
      vanE env d i' k' j s) = _
    rw [hj, hL, Option.getD_some, hs]
    rfl

/-! ### Orientation -/

theorem measuredLoop_ok {clu : List V} {pures all : List (List V)} {M : List V} : measuredLoop clu pures all = .ok M ↔
    (∀ C ∈ all, properSub C clu → contains C pures = true ∧ 2 ≤ C.length) ∧ M = (all.filter fun C => properSub C clu).flatMap (·.take 2) := by
  induction all generalizing M with
  | nil =>
    constructor
    · intro h; cases h; exact ⟨by simp, rfl⟩
    · intro h; rw [h.2]; rfl
  | cons C rest ih =>
    unfold measuredLoop
    by_cases hb : properSub C clu = true
    · rw [if_pos hb]
      by_cases hp : contains C pures = true
      · rw [if_pos hp]
        match C, hb, hp with
        | [], hb, hp =>
          constructor
          · intro h; cases h
          · intro h; have := (h.1 [] (by simp) hb).2; simp at this
        | [a], hb, hp =>
          constructor
          · intro h; cases h
          · intro h; have := (h.1 [a] (by simp) hb).2; simp at this
        | a :: b :: C, hb, hp =>
          change (do
            let M ← measuredLoop clu pures rest
            pure (a :: b :: M)) = _ ↔ _
          cases hr : measuredLoop clu pures rest with
          | error e =>
            constructor
            · intro h; cases h
            · intro h
              have := ih.2 ⟨fun D hD => h.1 D (List.mem_cons_of_mem _ hD), rfl⟩
              rw [hr] at this
              cases this
          | ok M' =>
            obtain ⟨h1, h2⟩ := ih.1 hr
            constructor
            · intro h
              cases h
              refine ⟨fun D hD hb' => ?_, ?_⟩
              · rcases List.mem_cons.1 hD with rfl | hD
                · exact ⟨hp, by simp⟩
                · exact h1 D hD hb'
              · rw [List.filter_cons_of_pos (by exact hb), List.flatMap_cons, h2]
                simp
            · intro h
              rw [h.2, List.filter_cons_of_pos (by exact hb), List.flatMap_cons, ← h2]
              simp [bind, Except.bind, pure, Except.pure]
      · rw [if_neg hp]
        constructor
        · intro h
          cases C <;> cases h
        · intro h
          exact absurd (h.1 C (by simp) hb).1 hp
    · rw [if_neg hb, ih, List.filter_cons_of_neg (by simpa using hb)]
      refine and_congr ⟨fun h D hD hb' => ?_, fun h D hD => h D (List.mem_cons_of_mem _ hD)⟩ Iff.rfl
      rcases List.mem_cons.1 hD with rfl | hD
      · exact absurd hb' hb
      · exact h D hD hb'

theorem mapM_observed {latent : Dict V (List V)} {M M' : List V} : M.mapM (observed latent) = .ok M' ↔ (∀ j ∈ M, j ∉ dkeys latent) ∧ M' = M := by
  induction M generalizing M' with
  | nil => simp [pure, Except.pure, eq_comm]
  | cons j M ih =>
    rw [List.mapM_cons]
    by_cases h : j ∈ dkeys latent
    · have ho : observed latent j = .error .type := if_pos h
      rw [ho]
      constructor
      · intro h'; cases h'
      · intro h'; exact absurd h (h'.1 j (by simp))
    · have ho : observed latent j = .ok j := if_neg h
      rw [ho]
      change (do let N ← M.mapM (observed latent); pure (j :: N)) = _ ↔ _
      cases hr : M.mapM (observed latent) with
      | error e =>
        constructor
        · intro h'; cases h'
        · intro h'
          have := ih.2 ⟨fun x hx => h'.1 x (List.mem_cons_of_mem _ hx), rfl⟩
          rw [hr] at this
          cases this
      | ok N =>
        obtain ⟨h1, rfl⟩ := ih.1 hr
        constructor
        · intro h'; cases h'; exact ⟨List.forall_mem_cons.2 ⟨h, h1⟩, rfl⟩
        · intro h'; rw [h'.2]; rfl

/-- C158: when `GetMeasuredVariables` returns: the variable is latent, its cluster contains an earlier cluster, all such clusters are pure, and their
first two variables are observed. It returns these. In all other cases it raises. -/
theorem c158_measured {latent : Dict V (List V)} {pures all : List (List V)} {i : V} {M : List V} :
    getMeasured latent pures all i = .ok M ↔ ∃ clu, dgetE latent i = .ok clu ∧
      (∃ C ∈ all, properSub C clu = true) ∧
      (∀ C ∈ all, properSub C clu = true → contains C pures = true ∧ 2 ≤ C.length ∧ ∀ v ∈ C.take 2, v ∉ dkeys latent) ∧
      M = (all.filter fun C => properSub C clu).flatMap (·.take 2) := by
  unfold getMeasured
  cases hc : dgetE latent i with
  | error e => simp [bind, Except.bind]
  | ok clu =>
    simp only [Except.ok.injEq, exists_eq_left']
    change (do
      let M ← measuredLoop clu pures all
      if M = [] then do
        let _ ← (Coll.list clu).get 0
        throw Err.type
      else M.mapM (observed latent)) = _ ↔ _
    cases hm : measuredLoop clu pures all with
    | error e =>
      constructor
      · intro h; cases h
      · rintro ⟨-, h, -⟩
        have := measuredLoop_ok.2 ⟨fun C hC hb => ⟨(h C hC hb).1, (h C hC hb).2.1⟩, rfl⟩
        rw [hm] at this
        cases this
    | ok N =>
      obtain ⟨h1, h2⟩ := measuredLoop_ok.1 hm
      by_cases hN : N = []
      · constructor
        · intro h
          subst hN
          exfalso
          cases clu <;> cases h
        · rintro ⟨⟨C, hC, hb⟩, -, -⟩
          exfalso
          have h3 : C.take 2 = [] := by
            have := List.flatMap_eq_nil_iff.1 (h2.symm.trans hN) C (List.mem_filter.2 ⟨hC, hb⟩)
            exact this
          have := (h1 C hC hb).2
          rw [List.take_eq_nil_iff] at h3
          rcases h3 with h3 | h3
          · omega
          · rw [h3] at this; simp at this
      · change (if N = [] then do
            let _ ← (Coll.list clu).get 0
            throw Err.type
          else N.mapM (observed latent)) = _ ↔ _
        rw [if_neg hN]
        rw [mapM_observed, ← h2]
        constructor
        · rintro ⟨h3, rfl⟩
          refine ⟨?_, fun C hC hb => ⟨(h1 C hC hb).1, (h1 C hC hb).2, fun v hv => h3 v ?_⟩, rfl⟩
          · by_contra hno
            push Not at hno
            refine hN (h2.trans ?_)
            rw [List.filter_eq_nil_iff.2 (by simpa using hno)]
            rfl
          · rw [h2]
            exact List.mem_flatMap.2 ⟨C, List.mem_filter.2 ⟨hC, hb⟩, hv⟩
        · rintro ⟨-, h3, rfl⟩
          refine ⟨fun v hv => ?_, rfl⟩
          rw [h2] at hv
          obtain ⟨C, hC, hv⟩ := List.mem_flatMap.1 hv
          exact (h3 C (List.mem_filter.1 hC).1 (List.mem_filter.1 hC).2).2.2 v hv

/-- C158, "`Orientation_ImpureCluster` returns an order of the variables of each impure cluster" is false: it raises for every list of impure
clusters that is not empty. -/
theorem c158_orientation_false (latent : Dict V (List V)) (pures all imps : List (List V)) :
    (∃ r, orientImpure latent pures all imps = .ok r) ↔ imps = [] := by
  constructor
  · rintro ⟨r, h⟩
    cases imps with
    | nil => rfl
    | cons C rest =>
      unfold orientImpure at h
      dsimp only at h
      cases hm : C.mapM (getMeasured latent pures all) with
      | error e => rw [hm] at h; cases h
      | ok N => rw [hm] at h; cases h
  · rintro rfl
    exact ⟨[], rfl⟩

/-- A case of each kind: names are numbers, 9 is a latent variable for 1, 2, 3, of which 1 and 2 are a pure cluster. -/
example : getMeasured [(9, [1, 2, 3])] [[2, 1]] [[1, 2], [4, 5]] 9 = .ok [1, 2] ∧
    getMeasured [(9, [1, 2, 3])] [] [[1, 2], [4, 5]] 9 = .error .type ∧
    getMeasured [(9, [1, 2, 3])] [[1, 2]] [[4, 5]] 9 = .error .type ∧
    getMeasured [(9, [8, 2, 3]), (8, [1, 4])] [[8, 2]] [[8, 2]] 9 = .error .type := by decide +kernel

/-- The typing error at work: the tetrad test is asked about variable 7, which is in neither cluster. -/
example : let env : Env Nat Nat := { van := fun _ k _ _ => .ok (k == 7), order := id, idxOrder := id, lname := id, rows := 0 }
    withPurity env [(1, 1), (2, 2), (3, 3), (4, 4), (5, 5), (7, 7), (8, 8)] [[1, 2], [7, 8]] (.set [1, 2, 3]) (.set [4, 5]) = .ok true ∧
    withPurity env [(1, 1), (2, 2), (3, 3), (4, 4), (5, 5), (7, 7), (8, 8)] [[1, 2], [8, 7]] (.set [1, 2, 3]) (.set [4, 5]) = .ok false := by decide +kernel

/-- Extending a list of clusters. -/
example : extendList [[1, 2]] [[2, 1], [3], [3, 3]] = [[1, 2], [3]] ∧ setOperator [1, 2] [[1, 2, 3]] "<" = true ∧ setOperator [1, 2] [[1, 2]] "<" = false ∧
    testOverlap [1, 2] [2, 3] = true := by decide +kernel

end Cdmir.Orient
