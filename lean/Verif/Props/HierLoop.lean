import Verif.Props.HierUpdate

/-! C97: the loop of Causal_Discovery_in_LHM.py. -/

set_option linter.unusedSectionVars false

namespace Cdmir.Hier

variable {V Col : Type} [LinearOrder V]

theorem record_frame {env : Env V Col} {d : Frame V Col} {l : List (List V)} {st st' : List (List V) × List (List V)} (p i : List (List V))
    (h : record env d l st = .ok st') : record env d l (p ++ st.1, i ++ st.2) = .ok (p ++ st'.1, i ++ st'.2) := by
  induction l generalizing st with
  | nil =>
    cases h
    rfl
  | cons S l ih =>
    unfold record at h ⊢
    split at h
    · rename_i hS
      rw [if_pos hS]
      have := ih h
      simpa only [List.append_assoc] using this
    · rename_i hS
      rw [if_neg hS]
      obtain ⟨b, hb, h⟩ := bind_ok h
      rw [hb]
      cases b with
      | true =>
        rw [if_pos rfl] at h
        have := ih h
        rw [← List.append_assoc] at this
        exact this
      | false =>
        rw [if_neg (by simp)] at h
        have := ih h
        rw [← List.append_assoc] at this
        exact this

/-- The clusters found do not depend on what was recorded before. -/
theorem find_frame {env : Env V Col} {d : Frame V Col} {f : Found V} (p i : List (List V)) (h : findCausalCluster env d [] [] = .ok f) :
    findCausalCluster env d p i = .ok ⟨f.learned, p ++ f.pures, i ++ f.impures⟩ := by
  unfold findCausalCluster at h ⊢
  obtain ⟨ps, hps, h⟩ := bind_ok h
  obtain ⟨merged, hm, h⟩ := bind_ok h
  obtain ⟨⟨p', i'⟩, hr, h⟩ := bind_ok h
  obtain ⟨big, hb, h⟩ := bind_ok h
  cases h
  have := record_frame p i hr
  simp only [List.append_nil] at this
  simp only [hps, hm, this, hb, bind, Except.bind, pure, Except.pure, List.append_assoc]

/-- C97. If no cluster is found, the loop ends in this pass. -/
theorem c97_stop {env : Env V Col} {ora : Frame V Col} {s : State V Col} {f : Found V} (h : findCausalCluster env s.data s.pures s.impures = .ok f)
    (hn : f.learned = []) (fuel : Nat) :
    run env ora (fuel + 1) s = .ok { s with pures := f.pures, impures := f.impures ++ [dkeys s.data] } := by
  obtain ⟨l, p, i⟩ := f
  cases hn
  unfold run pass mergeCausalCluster
  rw [h]
  rfl

theorem outer_nil {env : Env V Col} {ora d : Frame V Col} {pures : List (List V)} {C l : List V} :
    outerEarly env ora d [] pures C l = .ok none := by
  induction l with
  | nil => rfl
  | cons L l ih =>
    unfold outerEarly
    exact ih

theorem inner_nil {env : Env V Col} {ora d : Frame V Col} {pures : List (List V)} {C l : List V} :
    innerEarly env ora d [] pures C l = .ok none := by
  induction l with
  | nil => rfl
  | cons L l ih =>
    unfold innerEarly
    exact ih

theorem select_keys {d : Frame V Col} (hd : (dkeys d).Nodup) : select d (dkeys d) = .ok (d.map Prod.snd) := by
  unfold select
  have : ∀ l : Frame V Col, (∀ e ∈ l, dget d e.1 = some e.2) → List.mapM (dgetE d) (dkeys l) = .ok (l.map Prod.snd) := by
    intro l
    induction l with
    | nil => intro _; rfl
    | cons e l ih =>
      intro h
      change List.mapM (dgetE d) (e.1 :: dkeys l) = _
      rw [List.mapM_cons, ih fun e he => h e (List.mem_cons_of_mem _ he)]
      unfold dgetE
      rw [h e List.mem_cons_self]
      rfl
  refine this d fun e he => ?_
  obtain ⟨i, hi, hie⟩ := List.getElem_of_mem he
  have h1 : (dkeys d)[i]? = some e.1 := by
    unfold dkeys
    rw [List.getElem?_map, List.getElem?_eq_getElem hi, hie]
    rfl
  have := dget_pos hd h1
  rw [List.getElem?_map, List.getElem?_eq_getElem hi, hie] at this
  exact Option.some.inj this

/-- The full statement of C97: the loop ends. -/
def Ends (env : Env V Col) (d : Frame V Col) : Prop := ∃ fuel, run env d fuel { data := d } ≠ .error .fuel

theorem hang_pass {env : Env V Col} {ora d : Frame V Col} (hd : (dkeys d).Nodup) (hrows : 1 < env.rows) (hord : env.order (dkeys d) = dkeys d)
    {S : List V} (hf : findCausalCluster env d [] [] = .ok ⟨[S], [], [S]⟩)
    (hrem : 3 < (env.order ((dkeys d).filter fun v => v ∉ S)).length) (i : List (List V)) :
    pass env ora { data := d, impures := i } = .ok ({ data := d, impures := i ++ [S] }, true) := by
  have hfind := find_frame [] i hf
  have hmerge : mergeCausalCluster env ora d [] ⟨[S], [], i ++ [S]⟩ =
      .ok ({ earlyImpure := [S], remaining := env.order ((dkeys d).filter fun v => v ∉ S) }, i ++ [S]) := by
    have hc : contains S (i ++ [S]) = true := contains_mem (by simp)
    have hdet : ∀ r, detect env ora d [] [] (i ++ [S]) r [S] {} = .ok {} := by
      intro r
      unfold detect outerOf
      rw [hc, if_pos rfl, outer_nil]
      simp only [bind, Except.bind]
      rw [inner_nil]
      rfl
    have hloop : ∀ r, mergeLoop env d [] (i ++ [S]) {} 1 [S] { remaining := r } = .ok { earlyImpure := [S], remaining := r } := by
      intro r
      have hsing : single env [] (i ++ [S]) {} S { remaining := r } = .ok { earlyImpure := [S], remaining := r } := by
        unfold single
        have hcp : contains S [] = false := rfl
        simp only [byDict, List.find?_nil, Option.map_none, hcp, hc, Bool.false_eq_true, if_false, if_true]
        rfl
      unfold mergeLoop
      simp only [List.reverse_nil, hope, pure, Except.pure, bind, Except.bind, List.isEmpty_nil, if_true, hsing]
      rfl
    unfold mergeCausalCluster
    simp only [List.isEmpty_cons, Bool.false_eq_true, if_false, List.flatten_cons, List.flatten_nil, List.append_nil]
    rw [hdet]
    simp only [bind, Except.bind, List.length_cons, List.length_nil, List.reverse_cons, List.reverse_nil, List.nil_append]
    rw [hloop]
    rfl
  have hne : (env.order ((dkeys d).filter fun v => v ∉ S)).isEmpty = false := by
    cases h : env.order ((dkeys d).filter fun v => v ∉ S) with
    | nil =>
      rw [h] at hrem
      simp at hrem
    | cons => rfl
  have hup : updateData env { earlyImpure := [S], remaining := env.order ((dkeys d).filter fun v => v ∉ S) } 1 d = .ok (d, 1, []) := by
    unfold updateData
    simp only [List.map_nil, List.flatten_nil, List.append_nil, introduce, pure, Except.pure, bind, Except.bind, List.not_mem_nil, not_false_eq_true,
      and_self, decide_true, List.filter_true, hord]
    rw [select_keys hd]
    simp only [select, List.mapM_nil, pure, Except.pure, List.nil_append]
    refine congrArg (fun x => Except.ok (x, 1, [])) ?_
    rw [dkeys, ← List.unzip_fst, ← List.unzip_snd]
    exact List.zip_unzip d
  unfold pass
  simp only [hfind, bind, Except.bind, List.nil_append]
  rw [hmerge]
  simp only [List.isEmpty_nil, Bool.and_self, if_true, hne, Bool.false_and, Bool.false_eq_true, if_false]
  rw [if_neg (by omega)]
  simp only [pure, Except.pure]
  rw [hup]
  simp only [hrows, decide_true]

/-- C97 is false: if one cluster is found, it is recorded as impure and more than three variables remain, then nothing changes and the loop never
ends. (The order in which the set of the columns is read is taken to be that of the columns.) -/
theorem c97_false {env : Env V Col} {d : Frame V Col} (hd : (dkeys d).Nodup) (hrows : 1 < env.rows) (hord : env.order (dkeys d) = dkeys d)
    {S : List V} (hf : findCausalCluster env d [] [] = .ok ⟨[S], [], [S]⟩)
    (hrem : 3 < (env.order ((dkeys d).filter fun v => v ∉ S)).length) : ¬ Ends env d := by
  have : ∀ fuel i, run env d fuel { data := d, impures := i } = .error .fuel := by
    intro fuel
    induction fuel with
    | zero => intro i; rfl
    | succ fuel ih =>
      intro i
      unfold run
      rw [hang_pass hd hrows hord hf hrem i]
      exact ih (i ++ [S])
  rintro ⟨fuel, h⟩
  exact h (this fuel [])

/-! ## Progress -/

theorem single_shape {env : Env V Col} {pures impures : List (List V)} {e : Early V} {C : List V} {st st' : Parts V}
    (h : single env pures impures e C st = .ok st') : st'.merge = st.merge ∧ (st'.intro = st.intro ∨ st'.intro = st.intro ++ [C]) := by
  unfold single at h
  split at h
  · split at h
    · cases h
    · obtain ⟨latent, -, h⟩ := bind_ok h
      cases h
      exact ⟨rfl, Or.inl rfl⟩
  · split at h
    · obtain ⟨latent, -, h⟩ := bind_ok h
      cases h
      exact ⟨rfl, Or.inl rfl⟩
    · split at h
      · cases h
        exact ⟨rfl, Or.inr rfl⟩
      · split at h
        · cases h
          exact ⟨rfl, Or.inl rfl⟩
        · cases h
          exact ⟨rfl, Or.inl rfl⟩

theorem moveEarly_shape {env : Env V Col} {e : Early V} {l ms : List (List V)} {st st' : Parts V} (h : moveEarly env e l st = .ok (ms, st')) :
    st'.merge = st.merge ∧ st'.intro = st.intro := by
  induction l generalizing ms st st' with
  | nil =>
    cases h
    exact ⟨rfl, rfl⟩
  | cons C l ih =>
    unfold moveEarly at h
    split at h
    · obtain ⟨⟨r, st1⟩, hr, h⟩ := bind_ok h
      cases h
      exact ih hr
    · obtain ⟨latent, -, h⟩ := bind_ok h
      obtain ⟨⟨r, st1⟩, hr, h⟩ := bind_ok h
      cases h
      have := ih hr
      exact this

/-- The variable leaves the data. -/
def Leaves (p : Parts V) (x : V) : Prop := x ∈ (p.earlyRemove.map List.tail).flatten ∨ x ∈ (p.merge ++ p.intro).flatten

/-- At least twice as many variables of the clusters `P` leave the data as latent variables are introduced. -/
def Used (P : List (List V)) (p : Parts V) : Prop :=
  ∃ used : List V, used.Nodup ∧ (∀ x ∈ used, (∃ C ∈ P, x ∈ C) ∧ Leaves p x) ∧ 2 * (p.merge ++ p.intro).length ≤ used.length

theorem Leaves.mono {p q : Parts V} (h : Grows p q) {x : V} (hx : Leaves p x) : Leaves q x := by
  rcases hx with hx | hx
  · left
    obtain ⟨R, hR, hx⟩ := List.mem_flatten.1 hx
    obtain ⟨T, hT, rfl⟩ := List.mem_map.1 hR
    exact List.mem_flatten.2 ⟨_, List.mem_map.2 ⟨T, h.remove T hT, rfl⟩, hx⟩
  · right
    obtain ⟨R, hR, hx⟩ := List.mem_flatten.1 hx
    refine List.mem_flatten.2 ⟨R, ?_, hx⟩
    rcases List.mem_append.1 hR with hR | hR
    · exact List.mem_append_left _ (h.merge R hR)
    · exact List.mem_append_right _ (h.intro R hR)

theorem two_elems {S : List V} (hn : S.Nodup) (hl : 2 ≤ S.length) : ∃ x y, x ∈ S ∧ y ∈ S ∧ x ≠ y := by
  match S, hn, hl with
  | x :: y :: S, hn, _ =>
    refine ⟨x, y, by simp, by simp, ?_⟩
    rintro rfl
    simp at hn

theorem below_leaves {p : Parts V} {L : V} {S : List V} (hn : S.Nodup) (hl : 2 ≤ S.length) (h : Below p L S) : ∃ x ∈ S, Leaves p x := by
  obtain ⟨x, y, hx, hy, hne⟩ := two_elems hn hl
  obtain ⟨R, t, h1, h2, h3, -⟩ := h
  have : ∃ z ∈ S, z ≠ L := by
    by_cases hxL : x = L
    · exact ⟨y, hy, fun h => hne (hxL.trans h.symm)⟩
    · exact ⟨x, hx, hxL⟩
  obtain ⟨z, hz, hzL⟩ := this
  exact ⟨z, hz, Or.inl (List.mem_flatten.2 ⟨R, List.mem_map.2 ⟨L :: R, h1, rfl⟩, (h2 z hz).resolve_left hzL⟩)⟩

theorem foldl_erase_not {h l : List (List V)} (hn : l.Nodup) {C : List V} (hC : C ∈ h.foldl (fun l C2 => l.erase C2) l) : C ∉ h := by
  induction h generalizing l with
  | nil => simp
  | cons D h ih =>
    have h1 : C ∈ l.erase D := foldl_erase_sub.subset hC
    rw [List.mem_cons, not_or]
    refine ⟨?_, ih (hn.erase D) hC⟩
    rintro rfl
    exact hn.not_mem_erase h1

/-- Two variables, of two clusters not counted so far or of one, are added to the count. -/
theorem Used.add {A P : List (List V)} (hdis : ∀ S ∈ A, ∀ T ∈ A, S ≠ T → ∀ x ∈ S, x ∉ T) (hPA : ∀ C ∈ P, C ∈ A) {p q : Parts V} (hu : Used P p)
    (hg : Grows p q) (hlen : (q.merge ++ q.intro).length ≤ (p.merge ++ p.intro).length + 1) {C D : List V} (hC : C ∈ A) (hD : D ∈ A) (hCP : C ∉ P)
    (hDP : D ∉ P) {x y : V} (hx : x ∈ C) (hy : y ∈ D) (hne : x ≠ y) (hxl : Leaves q x) (hyl : Leaves q y) {P' : List (List V)}
    (hP' : ∀ E, E ∈ P → E ∈ P') (hC' : C ∈ P') (hD' : D ∈ P') : Used P' q := by
  obtain ⟨used, h1, h2, h3⟩ := hu
  have hnot : ∀ E ∈ A, E ∉ P → ∀ z ∈ E, z ∉ used := by
    intro E hE hEP z hz hzu
    obtain ⟨F, hF, hzF⟩ := (h2 z hzu).1
    exact hdis E hE F (hPA F hF) (fun h => hEP (h ▸ hF)) z hz hzF
  refine ⟨x :: y :: used, ?_, ?_, ?_⟩
  · rw [List.nodup_cons, List.nodup_cons, List.mem_cons, not_or]
    exact ⟨⟨hne, hnot C hC hCP x hx⟩, hnot D hD hDP y hy, h1⟩
  · intro z hz
    rcases List.mem_cons.1 hz with rfl | hz
    · exact ⟨⟨C, hC', hx⟩, hxl⟩
    · rcases List.mem_cons.1 hz with rfl | hz
      · exact ⟨⟨D, hD', hy⟩, hyl⟩
      · obtain ⟨⟨E, hE, hzE⟩, hl⟩ := h2 z hz
        exact ⟨⟨E, hP' E hE, hzE⟩, hl.mono hg⟩
  · simp only [List.length_cons]
    omega

theorem Used.keep {P : List (List V)} {p q : Parts V} (hu : Used P p) (hg : Grows p q)
    (hlen : (q.merge ++ q.intro).length ≤ (p.merge ++ p.intro).length) {P' : List (List V)} (hP' : ∀ E, E ∈ P → E ∈ P') : Used P' q := by
  obtain ⟨used, h1, h2, h3⟩ := hu
  refine ⟨used, h1, fun z hz => ?_, by omega⟩
  obtain ⟨⟨E, hE, hzE⟩, hl⟩ := h2 z hz
  exact ⟨⟨E, hP' E hE, hzE⟩, hl.mono hg⟩

theorem mergeLoop_used {env : Env V Col} (ho : ∀ l, (env.order l).Perm l) {d : Frame V Col} {pures impures A : List (List V)} {K : List V}
    {e : Early V} (hrec : ∀ C ∈ A, C ∈ pures ∨ C ∈ impures) (hA : ∀ S ∈ A, S.Nodup ∧ 2 ≤ S.length)
    (hdis : ∀ S ∈ A, ∀ T ∈ A, S ≠ T → ∀ x ∈ S, x ∉ T) {fuel : Nat} {l P : List (List V)} (hl : ∀ C ∈ l, C ∈ A) (hn : l.Nodup)
    (hPA : ∀ C ∈ P, C ∈ A) (hP : ∀ C ∈ l, C ∉ P) {st st' : Parts V} (hs : Sound A K st) (hu : Used P st)
    (h : mergeLoop env d pures impures e fuel l st = .ok st') : ∃ P', (∀ C ∈ P', C ∈ A) ∧ Used P' st' := by
  induction fuel generalizing l P st with
  | zero =>
    cases l with
    | nil =>
      cases h
      exact ⟨P, hPA, hu⟩
    | cons => cases h
  | succ fuel ih =>
    cases l with
    | nil =>
      cases h
      exact ⟨P, hPA, hu⟩
    | cons C1 rest =>
      unfold mergeLoop at h
      have hC1 := hl C1 List.mem_cons_self
      have hC1P := hP C1 List.mem_cons_self
      rw [List.nodup_cons] at hn
      have hl' : ∀ C ∈ rest, C ∈ A := fun C hC => hl C (List.mem_cons_of_mem _ hC)
      have hP' : ∀ C ∈ rest, C ∉ P := fun C hC => hP C (List.mem_cons_of_mem _ hC)
      obtain ⟨hm, hhm, h⟩ := bind_ok h
      split at h
      · obtain ⟨st1, hst1, h⟩ := bind_ok h
        obtain ⟨g1, g2, -⟩ := single_spec ho hC1 (hrec _ hC1) hs hst1
        obtain ⟨s1, s2⟩ := single_shape hst1
        have hPA' : ∀ C ∈ C1 :: P, C ∈ A := fun C hC => by
          rcases List.mem_cons.1 hC with rfl | hC
          · exact hC1
          · exact hPA C hC
        have hP2 : ∀ C ∈ rest, C ∉ C1 :: P := fun C hC hC' => by
          rcases List.mem_cons.1 hC' with rfl | hC'
          · exact hn.1 hC
          · exact hP' C hC hC'
        refine ih hl' hn.2 hPA' hP2 g1 ?_ h
        rcases s2 with s2 | s2
        · exact hu.keep g2 (by rw [s1, s2]) fun E hE => List.mem_cons_of_mem _ hE
        · obtain ⟨x, y, hx, hy, hne⟩ := two_elems (hA C1 hC1).1 (hA C1 hC1).2
          have hleave : ∀ z ∈ C1, Leaves st1 z := fun z hz => Or.inr (List.mem_flatten.2 ⟨C1, by rw [s2]; simp, hz⟩)
          refine hu.add hdis hPA g2 ?_ hC1 hC1 hC1P hC1P hx hy hne (hleave x hx) (hleave y hy) (fun E hE => List.mem_cons_of_mem _ hE)
            List.mem_cons_self List.mem_cons_self
          rw [s1, s2]
          simp only [List.length_append, List.length_cons, List.length_nil]
          omega
      · rename_i hmne
        obtain ⟨⟨ms, st1⟩, hst1, h⟩ := bind_ok h
        have hsub := hope_sub hhm
        have hmrest : ∀ C ∈ hm, C ∈ rest := fun C hC => List.mem_reverse.1 (hsub.subset hC)
        have hmA : ∀ C ∈ C1 :: hm, C ∈ A := by
          intro C hC
          rcases List.mem_cons.1 hC with rfl | hC
          · exact hC1
          · exact hl' C (hmrest C hC)
        obtain ⟨g1, g2, g4, g5, -⟩ := moveEarly_spec ho hmA hs hst1
        obtain ⟨s1, s2⟩ := moveEarly_shape hst1
        have hmem : ∀ v, v ∈ env.order (pySet ms.flatten) ↔ v ∈ ms.flatten := by
          intro v
          rw [(ho _).mem_iff, mem_pySet]
        have hs2 : Sound A K { st1 with merge := st1.merge ++ [env.order (pySet ms.flatten)] } := by
          refine ⟨g1.keys, ?_, g1.impure, g1.intro, g1.remove⟩
          intro M hM v hv
          rcases List.mem_append.1 hM with hM | hM
          · exact g1.merge M hM v hv
          · rw [List.mem_singleton.1 hM, hmem] at hv
            obtain ⟨m, hm', hv⟩ := List.mem_flatten.1 hv
            exact g4 m hm' v hv
        have hg2 : Grows st1 { st1 with merge := st1.merge ++ [env.order (pySet ms.flatten)] } :=
          ⟨fun M hM => List.mem_append_left _ hM, fun _ h => h, fun _ h => h, fun _ h => h, fun L t ht => ⟨t, ht, fun _ h => h⟩⟩
        have hleave : ∀ C ∈ C1 :: hm, ∃ x ∈ C, Leaves { st1 with merge := st1.merge ++ [env.order (pySet ms.flatten)] } x := by
          intro C hC
          obtain ⟨n1, n2⟩ := hA C (hmA C hC)
          rcases g5 C hC with h' | ⟨L, h'⟩
          · obtain ⟨x, _, hx, _⟩ := two_elems n1 n2
            refine ⟨x, hx, Or.inr (List.mem_flatten.2 ⟨env.order (pySet ms.flatten), by simp, ?_⟩)⟩
            rw [hmem]
            exact List.mem_flatten.2 ⟨C, h', hx⟩
          · exact below_leaves n1 n2 (hg2.below h')
        obtain ⟨D, hD⟩ : ∃ D, D ∈ hm := by
          cases hm with
          | nil => exact absurd rfl hmne
          | cons D _ => exact ⟨D, List.mem_cons_self⟩
        have hCD : C1 ≠ D := fun h => hn.1 (h ▸ hmrest D hD)
        obtain ⟨x, hx, hxl⟩ := hleave C1 List.mem_cons_self
        obtain ⟨y, hy, hyl⟩ := hleave D (List.mem_cons_of_mem _ hD)
        have hDA := hmA D (List.mem_cons_of_mem _ hD)
        have hne : x ≠ y := by
          rintro rfl
          exact hdis C1 hC1 D hDA hCD x hx hy
        have hleft : ∀ C ∈ (hm.foldl (fun l C2 => l.erase C2) rest.reverse).reverse, C ∈ rest ∧ C ∉ hm := fun C hC => by
          rw [List.mem_reverse] at hC
          exact ⟨List.mem_reverse.1 (foldl_erase_sub.subset hC), foldl_erase_not (List.nodup_reverse.2 hn.2) hC⟩
        refine ih (P := (C1 :: hm) ++ P) (fun C hC => hl' C (hleft C hC).1)
          (List.nodup_reverse.2 ((List.nodup_reverse.2 hn.2).sublist foldl_erase_sub)) ?_ ?_ hs2 ?_ h
        · intro C hC
          rcases List.mem_append.1 hC with hC | hC
          · exact hmA C hC
          · exact hPA C hC
        · intro C hC hC'
          obtain ⟨k1, k2⟩ := hleft C hC
          rcases List.mem_append.1 hC' with hC' | hC'
          · rcases List.mem_cons.1 hC' with rfl | hC'
            · exact hn.1 k1
            · exact k2 hC'
          · exact hP' C k1 hC'
        · refine hu.add hdis hPA (g2.trans hg2) ?_ hC1 hDA hC1P (hP' D (hmrest D hD)) hx hy hne hxl hyl (fun E hE => List.mem_append_right _ hE)
            (List.mem_append_left _ List.mem_cons_self) (List.mem_append_left _ (List.mem_cons_of_mem _ hD))
          rw [s1, s2]
          simp only [List.length_append, List.length_cons, List.length_nil]
          omega

theorem dkeys_length (d : Frame V Col) : (dkeys d).length = d.length := List.length_map _

/-- The size of the data after the update. -/
theorem update_size {env : Env V Col} (ho : ∀ l, (env.order l).Perm l) {p : Parts V} {n n' : Nat} {d d' : Frame V Col} (hd : (dkeys d).Nodup)
    {latent : Dict V (List V)} (h : updateData env p n d = .ok (d', n', latent)) {P : List (List V)} (hP : ∀ C ∈ P, ∀ v ∈ C, v ∈ dkeys d)
    (hu : Used P p) : n ≤ n' ∧ d'.length + (n' - n) ≤ d.length := by
  obtain ⟨h1, h2, -⟩ := update_parts h
  obtain ⟨used, u1, u2, u3⟩ := hu
  have hlen := congrArg List.length h2
  rw [dkeys_length, List.length_append, List.length_map, List.length_range] at hlen
  have hst : (stays env p d).length + used.length ≤ d.length := by
    rw [← dkeys_length, ← List.length_append]
    refine (List.subperm_of_subset ?_ ?_).length_le
    · refine List.nodup_append.2 ⟨(ho _).nodup_iff.2 (hd.filter _), u1, ?_⟩
      rintro a ha b hb rfl
      have := (List.mem_filter.1 ((ho _).mem_iff.1 ha)).2
      simp only [decide_eq_true_eq] at this
      rcases (u2 a hb).2 with h | h
      · exact this.1 h
      · exact this.2 h
    · intro a ha
      rcases List.mem_append.1 ha with ha | ha
      · exact (List.mem_filter.1 ((ho _).mem_iff.1 ha)).1
      · obtain ⟨⟨C, hC, haC⟩, -⟩ := u2 a ha
        exact hP C hC a haC
  omega

/-- What one pass does to the data, if the learned clusters are disjoint. -/
theorem pass_progress {env : Env V Col} (ho : ∀ l, (env.order l).Perm l) (hi : ∀ l, (env.idxOrder l).Perm l) (hln : Function.Injective env.lname)
    {ora : Frame V Col} {s s' : State V Col} {go : Bool} (hd : (dkeys s.data).Nodup) (hnew : ∀ t, env.lname (s.num + t) ∉ dkeys s.data)
    (hdisj : Disjoint env s.data) (h : pass env ora s = .ok (s', go)) :
    s.num ≤ s'.num ∧ s'.data.length + (s'.num - s.num) ≤ s.data.length ∧ (dkeys s'.data).Nodup ∧ ∀ t, env.lname (s'.num + t) ∉ dkeys s'.data := by
  unfold pass at h
  obtain ⟨f, hf, h⟩ := bind_ok h
  obtain ⟨⟨p, imp⟩, hm, h⟩ := bind_ok h
  have hfound := c91_found ho hi hd hf
  have hpw := hdisj _ _ _ hf
  have key : ∀ d' n' latent, updateData env p s.num s.data = .ok (d', n', latent) → s.num ≤ n' ∧ d'.length + (n' - s.num) ≤ s.data.length := by
    intro d' n' latent hup
    obtain ⟨np, ni, e1, e2, e3, -⟩ := hfound.2.2
    unfold mergeCausalCluster at hm
    obtain ⟨e, -, hm⟩ := bind_ok hm
    obtain ⟨st, hst, hm⟩ := bind_ok hm
    cases hm
    have hs0 : ∀ r, Sound f.learned (dkeys s.latent) ({ remaining := r, latent := s.latent } : Parts V) := fun r =>
      ⟨rfl, by simp, by simp, by simp, by simp⟩
    have hrec : ∀ C ∈ f.learned, C ∈ f.pures ∨ C ∈ (if f.learned.isEmpty then f.impures ++ [dkeys s.data] else f.impures) := by
      intro C hC
      rcases List.mem_append.1 (e3.mem_iff.2 hC) with h | h
      · exact Or.inl (e1 ▸ List.mem_append_right _ h)
      · right
        have : C ∈ f.impures := e2 ▸ List.mem_append_right _ h
        split
        · exact List.mem_append_left _ this
        · exact this
    have hdis : ∀ S ∈ f.learned, ∀ T ∈ f.learned, S ≠ T → ∀ x ∈ S, x ∉ T := fun S hS T hT hne x hx hxT =>
      hne (pairwise_same hpw hS hT hx hxT)
    have hnodup : f.learned.Nodup := by
      refine List.Pairwise.imp_of_mem (R := fun S T => ∀ x ∈ S, x ∉ T) ?_ hpw
      rintro S T hS hT hST rfl
      obtain ⟨x, -, hx, -⟩ := two_elems (hfound.1 S hS).1 (hfound.1 S hS).2.1
      exact hST x hx hx
    obtain ⟨P, hP, hu⟩ := mergeLoop_used ho (K := dkeys s.latent) hrec (fun S hS => ⟨(hfound.1 S hS).1, (hfound.1 S hS).2.1⟩) hdis (P := [])
      (fun C hC => List.mem_reverse.1 hC) (List.nodup_reverse.2 hnodup) (by simp) (by simp) (hs0 _)
      ⟨[], List.nodup_nil, by simp, by simp⟩ hst
    exact update_size ho hd hup (fun C hC v hv => (hfound.1 C (hP C hC)).2.2.1 v hv) hu
  have fin : ∀ r : State V Col × Bool,
      (do let (data, n, latent) ← updateData env p s.num s.data
          pure (({ data := data, pures := f.pures, impures := imp, num := n, latent := latent } : State V Col), decide (1 < env.rows))) = .ok r →
        s.num ≤ r.1.num ∧ r.1.data.length + (r.1.num - s.num) ≤ s.data.length ∧ (dkeys r.1.data).Nodup ∧
          ∀ t, env.lname (r.1.num + t) ∉ dkeys r.1.data := by
    intro r hr
    obtain ⟨⟨d', n', latent⟩, hup, hr⟩ := bind_ok hr
    cases hr
    obtain ⟨k1, k2⟩ := key _ _ _ hup
    obtain ⟨k3, k4⟩ := update_nodup ho hln hd hnew hup
    exact ⟨k1, k2, k3, k4⟩
  by_cases hc : (p.merge.isEmpty && p.intro.isEmpty) = true
  · simp only [hc, if_true] at h
    by_cases hc2 : (p.remaining.isEmpty && !p.earlyImpure.isEmpty) = true
    · simp only [hc2, if_true] at h
      cases h
    · simp only [hc2] at h
      by_cases hc3 : p.remaining.length ≤ 3
      · simp only [hc3, if_true] at h
        cases h
        exact ⟨le_rfl, by simp, hd, hnew⟩
      · simp only [hc3, if_false] at h
        exact fin _ h
  · simp only [hc] at h
    exact fin _ h

/-- C97, partly: if the clusters learned in a pass are disjoint (C93), then every pass takes away at least twice as many columns as it introduces latent
variables. So no more latent variables are introduced than there are columns. Missing: the end of the loop itself (`c97_false`). -/
theorem c97_progress_partial {env : Env V Col} (ho : ∀ l, (env.order l).Perm l) (hi : ∀ l, (env.idxOrder l).Perm l)
    (hln : Function.Injective env.lname) {ora : Frame V Col} (hdisj : ∀ d : Frame V Col, (dkeys d).Nodup → Disjoint env d) {fuel : Nat}
    {s s' : State V Col} (hd : (dkeys s.data).Nodup) (hnew : ∀ t, env.lname (s.num + t) ∉ dkeys s.data) (h : run env ora fuel s = .ok s') :
    s.num ≤ s'.num ∧ s'.data.length + (s'.num - s.num) ≤ s.data.length := by
  induction fuel generalizing s with
  | zero => cases h
  | succ fuel ih =>
    unfold run at h
    obtain ⟨⟨s1, go⟩, hp, h⟩ := bind_ok h
    obtain ⟨k1, k2, k3, k4⟩ := pass_progress ho hi hln hd hnew (hdisj _ hd) hp
    cases go with
    | true =>
      obtain ⟨m1, m2⟩ := ih k3 k4 h
      omega
    | false =>
      cases h
      exact ⟨k1, k2⟩

/-! Cases that meet the hypotheses. -/

/-- One impure pair of six columns: the loop never ends. -/
example : ¬ Ends (wenv [[0, 1]]) (wdata 6) :=
  c97_false (by decide) (by decide) rfl (S := [0, 1]) (by decide +kernel) (by decide +kernel)

/-- Nothing is found. -/
example : run (wenv []) (wdata 6) 1 { data := wdata 6 } = .ok { data := wdata 6, impures := [[0, 1, 2, 3, 4, 5]] } :=
  c97_stop (f := ⟨[], [], []⟩) (by decide +kernel) rfl 0

/-- An environment in which every tetrad vanishes. -/
def allEnv : Env Nat Nat := { wenv [] with van := fun _ _ _ _ => .ok true }

theorem sizeLoop_empty {env : Env V Col} {d : Frame V Col} {fuel k : Nat} {acc res : List (List V)} {B : List V}
    (hk : B.length < k ∨ (dkeys d).length ≤ k + 2) (h : sizeLoop env d fuel k acc B = .ok res) : res = acc := by
  cases fuel with
  | zero =>
    cases h
    rfl
  | succ fuel =>
    unfold sizeLoop at h
    rw [if_neg (by omega)] at h
    cases h
    rfl

theorem allEnv_disjoint (d : Frame Nat Nat) (hd : (dkeys d).Nodup) : Disjoint allEnv d := by
  intro p i f h
  have ho : ∀ l, (allEnv.order l).Perm l := fun l => List.Perm.refl l
  obtain ⟨ps, merged, B, np, ni, big, h1, h3, -, h5, h6, h7, -, -, -, -, rfl⟩ := find_parts ho hd h
  have hps := pair_mem ho h1
  have htwo : ∀ c ∈ ps, c.Nodup ∧ c.length = 2 := by
    intro c hc
    obtain ⟨x, y, rfl, hs, -⟩ := (hps c).1 hc
    exact ⟨hd.sublist hs, rfl⟩
  obtain ⟨-, m2, -, -⟩ := merge_two (fun l => List.Perm.refl l) htwo h3
  have hbig : big = [] := by
    refine sizeLoop_empty ?_ h5
    by_cases hn : (dkeys d).length ≤ 5
    · exact Or.inr hn
    · left
      have hB : B = [] := by
        rw [List.eq_nil_iff_forall_not_mem]
        intro v hv
        obtain ⟨hv1, hv2⟩ := (h7 v).1 hv
        apply hv2
        obtain ⟨w, hw, hne⟩ : ∃ w ∈ dkeys d, v ≠ w := by
          obtain ⟨x, y, hx, hy, hxy⟩ := two_elems hd (by omega)
          by_cases hvx : v = x
          · exact ⟨y, hy, hvx ▸ hxy⟩
          · exact ⟨x, hx, hvx⟩
        have hpass : ∀ a b, [a, b].Sublist (dkeys d) → Passes allEnv d [a, b] := by
          intro a b hab
          have hget : ∀ z ∈ dkeys d, ∃ c, dgetE d z = .ok c := by
            intro z hz
            cases hg : dget d z with
            | none => exact absurd hz ((dget_none_iff d z).1 hg)
            | some c => exact ⟨c, by unfold dgetE; rw [hg]⟩
          refine ⟨?_, fun i j hij k l hkl => ?_⟩
          · have hsub : (dkeys d).length ≤ ((dkeys d).filter fun v => v ∉ [a, b]).length + [a, b].length := by
              rw [← List.length_append]
              refine (List.subperm_of_subset hd fun z hz => ?_).length_le
              by_cases hzz : z ∈ [a, b]
              · exact List.mem_append_right _ hzz
              · exact List.mem_append_left _ (List.mem_filter.2 ⟨hz, by simpa using hzz⟩)
            simp only [List.length_cons, List.length_nil] at hsub
            omega
          · have hkl' : ∀ z ∈ [k, l], z ∈ dkeys d := fun z hz => (List.mem_filter.1 (hkl.subset hz)).1
            obtain ⟨c1, e1⟩ := hget i (hab.subset (hij.subset (by simp)))
            obtain ⟨c2, e2⟩ := hget j (hab.subset (hij.subset (by simp)))
            obtain ⟨c3, e3⟩ := hget k (hkl' k (by simp))
            obtain ⟨c4, e4⟩ := hget l (hkl' l (by simp))
            unfold vanE
            rw [e1, e2, e3, e4]
            rfl
        rcases two_order hv1 hw hne with h' | h'
        · exact List.mem_flatten.2 ⟨[v, w], (hps _).2 ⟨v, w, rfl, h', hpass v w h'⟩, by simp⟩
        · exact List.mem_flatten.2 ⟨[w, v], (hps _).2 ⟨w, v, rfl, h', hpass w v h'⟩, by simp⟩
      rw [hB]
      simp
  rw [hbig, List.append_nil]
  exact m2

/-- One cluster of all columns: one latent variable, and then the loop ends. -/
example : run allEnv (wdata 6) 2 { data := wdata 6 } =
    .ok { data := [(101, 0)], pures := [[0, 1, 2, 3, 4, 5]], impures := [[101]], num := 2, latent := [(101, [0, 1, 2, 3, 4, 5])] } := by
  decide +kernel

example (s' : State Nat Nat) (h : run allEnv (wdata 6) 2 { data := wdata 6 } = .ok s') : s'.data.length + (s'.num - 1) ≤ 6 :=
  (c97_progress_partial (env := allEnv) (fun l => List.Perm.refl l) (fun l => List.Perm.refl l) (wenv_lname []) allEnv_disjoint (s := { data := wdata 6 })
    (by decide) (fun t => by simp [wdata, allEnv, wenv, dkeys]; omega) h).2

end Cdmir.Hier
