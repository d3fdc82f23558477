import Verif.Props.HierFind

/-! C94, C95: what `MergeCausalCluster` does with the learned clusters. -/

set_option linter.unusedSectionVars false

namespace Cdmir.Hier

variable {V Col : Type} [LinearOrder V]

/-- The variables of `S` other than `L` have been put below the early latent variable `L`. -/
def Below (p : Parts V) (L : V) (S : List V) : Prop :=
  ∃ R t, (L :: R) ∈ p.earlyRemove ∧ (∀ v ∈ S, v = L ∨ v ∈ R) ∧ (∀ v ∈ R, v ∈ S) ∧ dget p.latent L = some t ∧ ∀ v ∈ S, v = L ∨ v ∈ t

/-- The cluster `S` lies in one of the four parts: inside a merged cluster, as an impure cluster, as a pure cluster, or below an early latent
variable. -/
def Placed (p : Parts V) (S : List V) : Prop := (∃ M ∈ p.merge, ∀ v ∈ S, v ∈ M) ∨ S ∈ p.earlyImpure ∨ S ∈ p.intro ∨ ∃ L, Below p L S

/-- Every part of `p` comes from the clusters `A` and the known latent variables. -/
structure Sound (A : List (List V)) (K : List V) (p : Parts V) : Prop where
  keys : dkeys p.latent = K
  merge : ∀ M ∈ p.merge, ∀ v ∈ M, v ∈ A.flatten ∨ v ∈ K
  impure : ∀ S ∈ p.earlyImpure, S ∈ A
  intro : ∀ S ∈ p.intro, S ∈ A
  remove : ∀ R ∈ p.earlyRemove, ∃ L S, S ∈ A ∧ L ∈ K ∧ ∃ T, R = L :: T ∧ ∀ v ∈ T, v ∈ S

theorem contains_mem {S : List V} {sets : List (List V)} (h : S ∈ sets) : contains S sets = true := by
  unfold contains
  rw [List.any_eq_true]
  exact ⟨S, h, by simp [setEq]⟩

/-- One state is at least as good as the other for the placing. -/
structure Grows (p q : Parts V) : Prop where
  merge : ∀ M ∈ p.merge, M ∈ q.merge
  impure : ∀ M ∈ p.earlyImpure, M ∈ q.earlyImpure
  intro : ∀ M ∈ p.intro, M ∈ q.intro
  remove : ∀ M ∈ p.earlyRemove, M ∈ q.earlyRemove
  latent : ∀ L t, dget p.latent L = some t → ∃ t', dget q.latent L = some t' ∧ ∀ v ∈ t, v ∈ t'

theorem Grows.refl (p : Parts V) : Grows p p := ⟨fun _ h => h, fun _ h => h, fun _ h => h, fun _ h => h, fun _ t h => ⟨t, h, fun _ h => h⟩⟩

theorem Grows.trans {p q r : Parts V} (h : Grows p q) (h' : Grows q r) : Grows p r :=
  ⟨fun M hM => h'.merge M (h.merge M hM), fun M hM => h'.impure M (h.impure M hM), fun M hM => h'.intro M (h.intro M hM),
    fun M hM => h'.remove M (h.remove M hM), fun L t ht => by
      obtain ⟨t1, h1, h2⟩ := h.latent L t ht
      obtain ⟨t2, h3, h4⟩ := h'.latent L t1 h1
      exact ⟨t2, h3, fun v hv => h4 v (h2 v hv)⟩⟩

theorem Grows.below {p q : Parts V} (h : Grows p q) {L : V} {S : List V} (hS : Below p L S) : Below q L S := by
  obtain ⟨R, t, h1, h2, h3, h4, h5⟩ := hS
  obtain ⟨t', h6, h7⟩ := h.latent L t h4
  exact ⟨R, t', h.remove _ h1, h2, h3, h6, fun v hv => (h5 v hv).imp id (h7 v)⟩

theorem Grows.placed {p q : Parts V} (h : Grows p q) {S : List V} (hS : Placed p S) : Placed q S := by
  rcases hS with ⟨M, hM, hv⟩ | hS | hS | ⟨L, hL⟩
  · exact Or.inl ⟨M, h.merge M hM, hv⟩
  · exact Or.inr (Or.inl (h.impure S hS))
  · exact Or.inr (Or.inr (Or.inl (h.intro S hS)))
  · exact Or.inr (Or.inr (Or.inr ⟨L, h.below hL⟩))

theorem update_spec {env : Env V Col} (ho : ∀ l, (env.order l).Perm l) {L : V} {C : List V} {latent latent' : Dict V (List V)}
    (h : updateLatentIndex env L C latent = .ok latent') :
    dkeys latent' = dkeys latent ∧ L ∈ dkeys latent ∧ (∃ t, dget latent' L = some t ∧ ∀ v ∈ C, v = L ∨ v ∈ t) ∧
      ∀ K t, dget latent K = some t → ∃ t', dget latent' K = some t' ∧ ∀ v ∈ t, v ∈ t' := by
  unfold updateLatentIndex at h
  cases hg : dget latent L with
  | none =>
    rw [hg] at h
    cases h
  | some t =>
    rw [hg] at h
    cases h
    have hL : L ∈ dkeys latent := by
      by_contra hc
      rw [(dget_none_iff _ _).2 hc] at hg
      cases hg
    refine ⟨by rw [dkeys_dset, if_pos hL], hL, ⟨_, by rw [dget_dset, if_pos rfl], fun v hv => ?_⟩, fun K t' hK => ?_⟩
    · rcases eq_or_ne v L with h | h
      · exact Or.inl h
      · right
        rw [(ho _).mem_iff, mem_pyUnion]
        exact Or.inr ((List.mem_erase_of_ne h).2 hv)
    · rw [dget_dset]
      split
      · rename_i hKL
        subst hKL
        rw [hg] at hK
        cases hK
        refine ⟨_, rfl, fun v hv => ?_⟩
        rw [(ho _).mem_iff, mem_pyUnion, mem_pySet]
        exact Or.inl hv
      · exact ⟨t', hK, fun _ h => h⟩

theorem hope_sub {env : Env V Col} {d : Frame V Col} {pures impures : List (List V)} {C1 : List V} {l h : List (List V)}
    (hh : hope env d pures impures C1 l = .ok h) : h.Sublist l := by
  induction l generalizing h with
  | nil =>
    cases hh
    exact List.nil_sublist _
  | cons C2 l ih =>
    unfold hope at hh
    obtain ⟨b, -, hh⟩ := bind_ok hh
    split at hh
    · obtain ⟨r, hr, hh⟩ := bind_ok hh
      cases hh
      exact (ih hr).cons_cons _
    · exact (ih hh).cons _

theorem erase_spec {C : List V} {L : V} : (∀ v ∈ C, v = L ∨ v ∈ C.erase L) ∧ ∀ v ∈ C.erase L, v ∈ C := by
  refine ⟨fun v hv => ?_, fun v hv => List.mem_of_mem_erase hv⟩
  rcases eq_or_ne v L with h | h
  · exact Or.inl h
  · exact Or.inr ((List.mem_erase_of_ne h).2 hv)

/-- The step that puts the cluster below its early latent variable. -/
theorem put_spec {env : Env V Col} (ho : ∀ l, (env.order l).Perm l) {A : List (List V)} {K : List V} {st : Parts V} (hs : Sound A K st) {L : V}
    {C R : List V} (hC : C ∈ A) (hR : (∀ v ∈ C, v = L ∨ v ∈ R) ∧ ∀ v ∈ R, v ∈ C) {latent : Dict V (List V)}
    (h : updateLatentIndex env L C st.latent = .ok latent) (rem : List V) :
    Sound A K { st with latent := latent, earlyRemove := st.earlyRemove ++ [L :: R], remaining := rem } ∧
      Grows st { st with latent := latent, earlyRemove := st.earlyRemove ++ [L :: R], remaining := rem } ∧
      Below { st with latent := latent, earlyRemove := st.earlyRemove ++ [L :: R], remaining := rem } L C ∧ L ∈ K := by
  obtain ⟨h1, h2, ⟨t, h3, h4⟩, h5⟩ := update_spec ho h
  rw [hs.keys] at h2
  refine ⟨⟨h1.trans hs.keys, hs.merge, hs.impure, hs.intro, ?_⟩, ⟨fun _ h => h, fun _ h => h, fun _ h => h, fun M hM => List.mem_append_left _ hM, h5⟩,
    ⟨R, t, by simp, hR.1, hR.2, h3, h4⟩, h2⟩
  intro M hM
  rcases List.mem_append.1 hM with hM | hM
  · exact hs.remove M hM
  · rw [List.mem_singleton.1 hM]
    exact ⟨L, C, hC, h2, R, rfl, hR.2⟩

theorem moveEarly_spec {env : Env V Col} (ho : ∀ l, (env.order l).Perm l) {e : Early V} {A : List (List V)} {K : List V} {l ms : List (List V)}
    {st st' : Parts V} (hl : ∀ C ∈ l, C ∈ A) (hs : Sound A K st) (h : moveEarly env e l st = .ok (ms, st')) :
    Sound A K st' ∧ Grows st st' ∧ (∀ m ∈ ms, ∀ v ∈ m, v ∈ A.flatten ∨ v ∈ K) ∧ (∀ C ∈ l, C ∈ ms ∨ ∃ L, Below st' L C) ∧
      ∀ C ∈ l, ∀ L, earlyOf e C = some L → Below st' L C := by
  induction l generalizing ms st st' with
  | nil =>
    cases h
    exact ⟨hs, Grows.refl _, by simp, by simp, by simp⟩
  | cons C l ih =>
    unfold moveEarly at h
    have hCA := hl C List.mem_cons_self
    have hl' : ∀ C ∈ l, C ∈ A := fun C hC => hl C (List.mem_cons_of_mem _ hC)
    split at h
    · rename_i hnone
      obtain ⟨⟨r, st1⟩, hr, h⟩ := bind_ok h
      cases h
      obtain ⟨h1, h2, h4, h5, h6⟩ := ih hl' hs hr
      refine ⟨h1, h2, ?_, ?_, ?_⟩
      · intro m hm v hv
        rcases List.mem_cons.1 hm with rfl | hm
        · exact Or.inl (List.mem_flatten.2 ⟨_, hCA, hv⟩)
        · exact h4 m hm v hv
      · intro C' hC'
        rcases List.mem_cons.1 hC' with rfl | hC'
        · exact Or.inl List.mem_cons_self
        · exact (h5 C' hC').imp (List.mem_cons_of_mem _) id
      · intro C' hC' L hL
        rcases List.mem_cons.1 hC' with rfl | hC'
        · rw [hnone] at hL
          cases hL
        · exact h6 C' hC' L hL
    · rename_i L hL
      obtain ⟨latent, hlat, h⟩ := bind_ok h
      obtain ⟨⟨r, st1⟩, hr, h⟩ := bind_ok h
      cases h
      obtain ⟨hs', hg, hb, hLK⟩ := put_spec ho hs hCA erase_spec hlat (st.remaining.erase L)
      obtain ⟨h1, h2, h4, h5, h6⟩ := ih hl' hs' hr
      refine ⟨h1, hg.trans h2, ?_, ?_, ?_⟩
      · intro m hm v hv
        rcases List.mem_cons.1 hm with rfl | hm
        · rw [List.mem_singleton.1 hv]
          exact Or.inr hLK
        · exact h4 m hm v hv
      · intro C' hC'
        rcases List.mem_cons.1 hC' with rfl | hC'
        · exact Or.inr ⟨L, h2.below hb⟩
        · exact (h5 C' hC').imp (List.mem_cons_of_mem _) id
      · intro C' hC' L' hL'
        rcases List.mem_cons.1 hC' with rfl | hC'
        · rw [hL] at hL'
          cases hL'
          exact h2.below hb
        · exact h6 C' hC' L' hL'

theorem single_spec {env : Env V Col} (ho : ∀ l, (env.order l).Perm l) {pures impures A : List (List V)} {K : List V} {e : Early V} {C : List V}
    {st st' : Parts V} (hC : C ∈ A) (hrec : C ∈ pures ∨ C ∈ impures) (hs : Sound A K st) (h : single env pures impures e C st = .ok st') :
    Sound A K st' ∧ Grows st st' ∧ Placed st' C ∧ ∀ L, earlyOf e C = some L → Below st' L C := by
  unfold single at h
  split at h
  · rename_i L hbd
    split at h
    · cases h
    · obtain ⟨latent, hlat, h⟩ := bind_ok h
      cases h
      obtain ⟨hs', hg, hb, -⟩ := put_spec ho hs hC erase_spec hlat st.remaining
      refine ⟨hs', hg, Or.inr (Or.inr (Or.inr ⟨L, hb⟩)), fun L' hL' => ?_⟩
      unfold earlyOf at hL'
      rw [hbd] at hL'
      cases hL'
      exact hb
  · rename_i hin
    split at h
    · rename_i L hbd
      obtain ⟨latent, hlat, h⟩ := bind_ok h
      cases h
      obtain ⟨hs', hg, hb, -⟩ := put_spec ho hs hC ⟨fun v hv => Or.inr hv, fun v hv => hv⟩ hlat st.remaining
      refine ⟨hs', hg, Or.inr (Or.inr (Or.inr ⟨L, hb⟩)), fun L' hL' => ?_⟩
      unfold earlyOf at hL'
      rw [hin, hbd] at hL'
      cases hL'
      exact hb
    · rename_i hbd
      have hno : earlyOf e C = none := by
        unfold earlyOf
        rw [hin, hbd]
        rfl
      split at h
      · cases h
        refine ⟨⟨hs.keys, hs.merge, hs.impure, ?_, hs.remove⟩, ⟨fun _ h => h, fun _ h => h, fun M hM => List.mem_append_left _ hM, fun _ h => h,
          fun L t ht => ⟨t, ht, fun _ h => h⟩⟩, Or.inr (Or.inr (Or.inl (by simp))), fun L hL => ?_⟩
        · intro S hS
          rcases List.mem_append.1 hS with hS | hS
          · exact hs.intro S hS
          · rw [List.mem_singleton.1 hS]
            exact hC
        · rw [hno] at hL
          cases hL
      · rename_i hp
        rw [if_pos (contains_mem (hrec.resolve_left fun h => hp (contains_mem h)))] at h
        cases h
        refine ⟨⟨hs.keys, hs.merge, ?_, hs.intro, hs.remove⟩, ⟨fun _ h => h, fun M hM => List.mem_append_left _ hM, fun _ h => h, fun _ h => h,
          fun L t ht => ⟨t, ht, fun _ h => h⟩⟩, Or.inr (Or.inl (by simp)), fun L hL => ?_⟩
        · intro S hS
          rcases List.mem_append.1 hS with hS | hS
          · exact hs.impure S hS
          · rw [List.mem_singleton.1 hS]
            exact hC
        · rw [hno] at hL
          cases hL

theorem foldl_erase {h l : List (List V)} {C : List V} (hC : C ∈ l) : C ∈ h ∨ C ∈ h.foldl (fun l C2 => l.erase C2) l := by
  induction h generalizing l with
  | nil => exact Or.inr hC
  | cons D h ih =>
    rcases eq_or_ne C D with rfl | hne
    · exact Or.inl List.mem_cons_self
    · rcases ih ((List.mem_erase_of_ne hne).2 hC) with h' | h'
      · exact Or.inl (List.mem_cons_of_mem _ h')
      · exact Or.inr h'

theorem foldl_erase_sub {h l : List (List V)} : (h.foldl (fun l C2 => l.erase C2) l).Sublist l := by
  induction h generalizing l with
  | nil => exact List.Sublist.refl _
  | cons D h ih => exact ih.trans List.erase_sublist

theorem mergeLoop_spec {env : Env V Col} (ho : ∀ l, (env.order l).Perm l) {d : Frame V Col} {pures impures A : List (List V)} {K : List V}
    {e : Early V} (hrec : ∀ C ∈ A, C ∈ pures ∨ C ∈ impures) {fuel : Nat} {l : List (List V)} (hl : ∀ C ∈ l, C ∈ A) {st st' : Parts V}
    (hs : Sound A K st) (h : mergeLoop env d pures impures e fuel l st = .ok st') : Sound A K st' ∧ Grows st st' ∧
      ∀ C ∈ l, Placed st' C ∧ ∀ L, earlyOf e C = some L → Below st' L C := by
  induction fuel generalizing l st with
  | zero =>
    cases l with
    | nil =>
      cases h
      exact ⟨hs, Grows.refl _, by simp⟩
    | cons => cases h
  | succ fuel ih =>
    cases l with
    | nil =>
      cases h
      exact ⟨hs, Grows.refl _, by simp⟩
    | cons C1 rest =>
      unfold mergeLoop at h
      have hl' : ∀ C ∈ rest, C ∈ A := fun C hC => hl C (List.mem_cons_of_mem _ hC)
      obtain ⟨hm, hhm, h⟩ := bind_ok h
      split at h
      · obtain ⟨st1, hst1, h⟩ := bind_ok h
        obtain ⟨g1, g2, g3, g4⟩ := single_spec ho (hl C1 List.mem_cons_self) (hrec _ (hl C1 List.mem_cons_self)) hs hst1
        obtain ⟨k1, k2, k3⟩ := ih hl' g1 h
        refine ⟨k1, g2.trans k2, ?_⟩
        intro C hC
        rcases List.mem_cons.1 hC with rfl | hC
        · exact ⟨k2.placed g3, fun L hL => k2.below (g4 L hL)⟩
        · exact k3 C hC
      · obtain ⟨⟨ms, st1⟩, hst1, h⟩ := bind_ok h
        have hsub := hope_sub hhm
        have hmA : ∀ C ∈ C1 :: hm, C ∈ A := by
          intro C hC
          rcases List.mem_cons.1 hC with rfl | hC
          · exact hl _ List.mem_cons_self
          · exact hl' C (List.mem_reverse.1 (hsub.subset hC))
        obtain ⟨g1, g2, g4, g5, g6⟩ := moveEarly_spec ho hmA hs hst1
        have hmem : ∀ v, v ∈ env.order (pySet ms.flatten) ↔ v ∈ ms.flatten := by
          intro v
          rw [(ho _).mem_iff, mem_pySet]
        have hs2 : Sound A K { st1 with merge := st1.merge ++ [env.order (pySet ms.flatten)] } := by
          refine ⟨g1.keys, ?_, g1.impure, g1.intro, g1.remove⟩
          intro M hM v hv
          rcases List.mem_append.1 hM with hM | hM
          · exact g1.merge M hM v hv
          · rw [List.mem_singleton.1 hM, hmem] at hv
            obtain ⟨m, hm', hv⟩ := List.mem_flatten.1 hv
            exact g4 m hm' v hv
        have hg2 : Grows st1 { st1 with merge := st1.merge ++ [env.order (pySet ms.flatten)] } :=
          ⟨fun M hM => List.mem_append_left _ hM, fun _ h => h, fun _ h => h, fun _ h => h, fun L t ht => ⟨t, ht, fun _ h => h⟩⟩
        have hplaced : ∀ C ∈ C1 :: hm, Placed { st1 with merge := st1.merge ++ [env.order (pySet ms.flatten)] } C ∧
            ∀ L, earlyOf e C = some L → Below { st1 with merge := st1.merge ++ [env.order (pySet ms.flatten)] } L C := by
          intro C hC
          refine ⟨?_, fun L hL => hg2.below (g6 C hC L hL)⟩
          rcases g5 C hC with h' | ⟨L, h'⟩
          · refine Or.inl ⟨env.order (pySet ms.flatten), by simp, fun v hv => ?_⟩
            rw [hmem]
            exact List.mem_flatten.2 ⟨C, h', hv⟩
          · exact Or.inr (Or.inr (Or.inr ⟨L, hg2.below h'⟩))
        obtain ⟨k1, k2, k3⟩ := ih (fun C hC => hl' C (List.mem_reverse.1 (foldl_erase_sub.subset (List.mem_reverse.1 hC)))) hs2 h
        refine ⟨k1, (g2.trans hg2).trans k2, ?_⟩
        intro C hC
        rcases List.mem_cons.1 hC with rfl | hC
        · have := hplaced _ List.mem_cons_self
          exact ⟨k2.placed this.1, fun L hL => k2.below (this.2 L hL)⟩
        · rcases foldl_erase (h := hm) (List.mem_reverse.2 hC) with h' | h'
          · have := hplaced C (List.mem_cons_of_mem _ h')
            exact ⟨k2.placed this.1, fun L hL => k2.below (this.2 L hL)⟩
          · exact k3 C (List.mem_reverse.2 h')

/-- C94. If every learned cluster is recorded as pure or as impure (`c91_found`), then each lies in one of the four parts that are returned, and the
parts contain nothing else: the merged clusters consist of variables of learned clusters and of known latent variables, the impure and the pure
clusters are learned clusters, and below an early latent variable, which is known, lie variables of a learned cluster. No latent variable is added or
lost. -/
theorem c94_covered {env : Env V Col} (ho : ∀ l, (env.order l).Perm l) {ora d : Frame V Col} {latent : Dict V (List V)} {f : Found V}
    (hrec : ∀ S ∈ f.learned, S ∈ f.pures ∨ S ∈ f.impures) {p : Parts V} {imp : List (List V)}
    (h : mergeCausalCluster env ora d latent f = .ok (p, imp)) :
    (∀ S ∈ f.learned, Placed p S) ∧ dkeys p.latent = dkeys latent ∧ (∀ M ∈ p.merge, ∀ v ∈ M, v ∈ f.learned.flatten ∨ v ∈ dkeys latent) ∧
      (∀ S ∈ p.earlyImpure, S ∈ f.learned) ∧ (∀ S ∈ p.intro, S ∈ f.learned) ∧
      ∀ R ∈ p.earlyRemove, ∃ L S, S ∈ f.learned ∧ L ∈ dkeys latent ∧ ∃ T, R = L :: T ∧ ∀ v ∈ T, v ∈ S := by
  unfold mergeCausalCluster at h
  obtain ⟨e, -, h⟩ := bind_ok h
  obtain ⟨st, hst, h⟩ := bind_ok h
  cases h
  have hs0 : ∀ r, Sound f.learned (dkeys latent) ({ remaining := r, latent := latent } : Parts V) := fun r =>
    ⟨rfl, by simp, by simp, by simp, by simp⟩
  have hrec' : ∀ C ∈ f.learned, C ∈ f.pures ∨ C ∈ (if f.learned.isEmpty then f.impures ++ [dkeys d] else f.impures) := by
    intro C hC
    rcases hrec C hC with h | h
    · exact Or.inl h
    · right
      split
      · exact List.mem_append_left _ h
      · exact h
  obtain ⟨h1, -, h3⟩ := mergeLoop_spec ho (A := f.learned) (K := dkeys latent) hrec' (fun C hC => List.mem_reverse.1 hC) (hs0 _) hst
  exact ⟨fun S hS => (h3 S (List.mem_reverse.2 hS)).1, h1.keys, h1.merge, h1.impure, h1.intro, h1.remove⟩

/-! ## Early learning -/

theorem mem_dset {κ ν : Type} [DecidableEq κ] {d : Dict κ ν} {k : κ} {w : ν} {x : κ × ν} (h : x ∈ dset d k w) : x ∈ d ∨ x = (k, w) := by
  induction d with
  | nil =>
    rw [dset, List.mem_singleton] at h
    exact Or.inr h
  | cons y d ih =>
    obtain ⟨k', v⟩ := y
    rw [dset] at h
    split at h
    · rename_i hk
      rcases List.mem_cons.1 h with h | h
      · exact Or.inr (by rw [h, hk])
      · exact Or.inl (List.mem_cons_of_mem _ h)
    · rcases List.mem_cons.1 h with h | h
      · exact Or.inl (h ▸ List.mem_cons_self)
      · exact (ih h).imp (List.mem_cons_of_mem _) id

theorem dget_mem {κ ν : Type} [DecidableEq κ] {d : Dict κ ν} {k : κ} {w : ν} (h : dget d k = some w) : (k, w) ∈ d := by
  induction d with
  | nil => cases h
  | cons y d ih =>
    rw [dget_cons] at h
    split at h
    · rename_i hk
      cases h
      rw [← hk]
      exact List.mem_cons_self
    · exact List.mem_cons_of_mem _ (ih h)

theorem detect_spec {env : Env V Col} {ora d : Frame V Col} {latent : Dict V (List V)} {pures impures : List (List V)} {remaining : List V}
    {l : List (List V)} {e e' : Early V} (h : detect env ora d latent pures impures remaining l e = .ok e') :
    (∀ x ∈ e'.inner, x ∈ e.inner ∨ (x.2 ∈ l ∧ outerOf env ora d latent pures impures remaining x.2 = .ok none)) ∧
    (∀ x ∈ e'.outer, x ∈ e.outer ∨ (x.2 ∈ l ∧ outerOf env ora d latent pures impures remaining x.2 = .ok (some x.1))) ∧
    (∀ L S, (∀ T ∈ l, T ≠ S → outerOf env ora d latent pures impures remaining T ≠ .ok (some L)) →
      (dget e.outer L = some S ∨ (S ∈ l ∧ outerOf env ora d latent pures impures remaining S = .ok (some L))) → dget e'.outer L = some S) := by
  induction l generalizing e with
  | nil =>
    cases h
    exact ⟨fun x hx => Or.inl hx, fun x hx => Or.inl hx, fun L S _ h => h.resolve_right (by simp)⟩
  | cons S l ih =>
    unfold detect at h
    obtain ⟨o, ho, h⟩ := bind_ok h
    have ho' : outerOf env ora d latent pures impures remaining S = .ok o := ho
    cases o with
    | some L =>
      obtain ⟨h1, h2, h3⟩ := ih h
      refine ⟨fun x hx => (h1 x hx).imp id fun h => ⟨List.mem_cons_of_mem _ h.1, h.2⟩, fun x hx => ?_, fun K T hT hK => ?_⟩
      · rcases h2 x hx with h' | h'
        · rcases mem_dset h' with h' | h'
          · exact Or.inl h'
          · right
            subst h'
            exact ⟨List.mem_cons_self, ho'⟩
        · exact Or.inr ⟨List.mem_cons_of_mem _ h'.1, h'.2⟩
      · refine h3 K T (fun U hU => hT U (List.mem_cons_of_mem _ hU)) ?_
        by_cases hST : S = T
        · subst hST
          left
          rcases hK with hK | hK
          · rw [dget_dset]
            split
            · rfl
            · exact hK
          · rw [ho'] at hK
            cases hK.2
            rw [dget_dset, if_pos rfl]
        · have hne := hT S List.mem_cons_self hST
          have hLK : L ≠ K := by
            rintro rfl
            exact hne ho'
          rcases hK with hK | ⟨hK1, hK2⟩
          · left
            rw [dget_dset, if_neg hLK]
            exact hK
          · right
            exact ⟨(List.mem_cons.1 hK1).resolve_left (Ne.symm hST), hK2⟩
    | none =>
      obtain ⟨i, hi, h⟩ := bind_ok h
      have key : ∀ e1 : Early V, e1.outer = e.outer → (∀ x ∈ e1.inner, x ∈ e.inner ∨ x.2 = S) →
          detect env ora d latent pures impures remaining l e1 = .ok e' → _ := fun e1 he1 he2 h => by
        obtain ⟨h1, h2, h3⟩ := ih h
        refine (⟨fun x hx => ?_, fun x hx => ?_, fun K T hT hK => ?_⟩ :
          (∀ x ∈ e'.inner, x ∈ e.inner ∨ (x.2 ∈ S :: l ∧ outerOf env ora d latent pures impures remaining x.2 = .ok none)) ∧
          (∀ x ∈ e'.outer, x ∈ e.outer ∨ (x.2 ∈ S :: l ∧ outerOf env ora d latent pures impures remaining x.2 = .ok (some x.1))) ∧
          (∀ L T, (∀ U ∈ S :: l, U ≠ T → outerOf env ora d latent pures impures remaining U ≠ .ok (some L)) →
            (dget e.outer L = some T ∨ (T ∈ S :: l ∧ outerOf env ora d latent pures impures remaining T = .ok (some L))) →
              dget e'.outer L = some T))
        · rcases h1 x hx with h' | h'
          · rcases he2 x h' with h' | h'
            · exact Or.inl h'
            · right
              rw [h']
              exact ⟨List.mem_cons_self, ho'⟩
          · exact Or.inr ⟨List.mem_cons_of_mem _ h'.1, h'.2⟩
        · rcases h2 x hx with h' | h'
          · exact Or.inl (he1 ▸ h')
          · exact Or.inr ⟨List.mem_cons_of_mem _ h'.1, h'.2⟩
        · refine h3 K T (fun U hU => hT U (List.mem_cons_of_mem _ hU)) ?_
          rcases hK with hK | ⟨hK1, hK2⟩
          · left
            rw [he1]
            exact hK
          · right
            refine ⟨(List.mem_cons.1 hK1).resolve_left ?_, hK2⟩
            rintro rfl
            rw [ho'] at hK2
            cases hK2
      cases i with
      | some L =>
        refine key { e with inner := dset e.inner L S } rfl (fun x hx => ?_) h
        rcases mem_dset hx with h' | h'
        · exact Or.inl h'
        · right
          rw [h']
      | none => exact key e rfl (fun x hx => Or.inl hx) h

/-- The full statement of C95: an impure cluster for which the tests find an early latent variable is put below this variable. -/
def EarlyKept (env : Env V Col) (ora d : Frame V Col) (latent : Dict V (List V)) (f : Found V) : Prop :=
  ∀ p imp, mergeCausalCluster env ora d latent f = .ok (p, imp) → ∀ S ∈ f.learned, ∀ L,
    outerOf env ora d latent f.pures imp (env.order ((dkeys d).filter fun v => v ∉ f.learned.flatten)) S = .ok (some L) → Below p L S

/-- C95, partly: so it is if the tests find this latent variable for no other learned cluster. Missing: two clusters with one early latent variable;
the dictionary keeps the last one only (`c95_false`). -/
theorem c95_early_partial {env : Env V Col} (ho : ∀ l, (env.order l).Perm l) {ora d : Frame V Col} {latent : Dict V (List V)} {f : Found V}
    (hrec : ∀ S ∈ f.learned, S ∈ f.pures ∨ S ∈ f.impures) (hdist : ∀ S ∈ f.learned, ∀ T ∈ f.learned, (∀ v, v ∈ S ↔ v ∈ T) → S = T)
    {p : Parts V} {imp : List (List V)} (h : mergeCausalCluster env ora d latent f = .ok (p, imp)) {S : List V} (hS : S ∈ f.learned) {L : V}
    (hL : outerOf env ora d latent f.pures imp (env.order ((dkeys d).filter fun v => v ∉ f.learned.flatten)) S = .ok (some L))
    (hu : ∀ T ∈ f.learned, T ≠ S →
      outerOf env ora d latent f.pures imp (env.order ((dkeys d).filter fun v => v ∉ f.learned.flatten)) T ≠ .ok (some L)) : Below p L S := by
  have hne : f.learned.isEmpty = false := by
    cases hf : f.learned with
    | nil =>
      rw [hf] at hS
      cases hS
    | cons => rfl
  unfold mergeCausalCluster at h
  rw [hne] at h
  obtain ⟨e, he, h⟩ := bind_ok h
  obtain ⟨st, hst, h⟩ := bind_ok h
  cases h
  rw [if_neg (by simp), if_neg (by simp)] at he
  rw [if_neg (by simp), if_neg (by simp)] at hst
  rw [if_neg (by simp)] at hL hu
  have hs0 : ∀ r, Sound f.learned (dkeys latent) ({ remaining := r, latent := latent } : Parts V) := fun r =>
    ⟨rfl, by simp, by simp, by simp, by simp⟩
  obtain ⟨-, -, h3⟩ := mergeLoop_spec ho (A := f.learned) (K := dkeys latent) hrec (fun C hC => List.mem_reverse.1 hC) (hs0 _) hst
  refine (h3 S (List.mem_reverse.2 hS)).2 L ?_
  obtain ⟨d1, d2, d3⟩ := detect_spec he
  have hin : byDict S e.inner = none := by
    unfold byDict
    rw [Option.map_eq_none_iff, List.find?_eq_none]
    intro x hx hSx
    obtain ⟨h1, h2⟩ := (d1 x hx).resolve_left (by simp)
    have : S = x.2 := hdist S hS x.2 h1 fun v => by
      simp only [setEq, Bool.and_eq_true, List.all_eq_true, decide_eq_true_eq] at hSx
      exact ⟨fun h => hSx.1 v h, fun h => hSx.2 v h⟩
    rw [← this, hL] at h2
    cases h2
  have hout : byDict S e.outer = some L := by
    have hget := d3 L S hu (Or.inr ⟨hS, hL⟩)
    have hmem := dget_mem hget
    unfold byDict
    cases hf : e.outer.find? (fun x => setEq S x.2) with
    | none =>
      rw [List.find?_eq_none] at hf
      exact absurd (by simp [setEq]) (hf _ hmem)
    | some x =>
      have hx := List.mem_of_find?_eq_some hf
      have hSx := List.find?_some hf
      obtain ⟨h1, h2⟩ := (d2 x hx).resolve_left (by simp)
      have : S = x.2 := hdist S hS x.2 h1 fun v => by
        simp only [setEq, Bool.and_eq_true, List.all_eq_true, decide_eq_true_eq] at hSx
        exact ⟨fun h => hSx.1 v h, fun h => hSx.2 v h⟩
      rw [← this, hL] at h2
      cases h2
      rfl
  unfold earlyOf
  rw [hin, hout]
  rfl

/-! A latent variable 50 with the pure children 10 and 11; two impure clusters, `{0, 1}` and `{2, 3}`, pass the test for being below it. -/

/-- The tetrad vanishes if 10 and 11 are in the first and third place. -/
def eenv : Env Nat Nat where
  van i _ k _ := .ok (i == 10 && k == 11)
  order l := l
  idxOrder l := l
  lname n := 100 + n
  rows := 10

/-- The current data. -/
def edata : Frame Nat Nat := [0, 1, 2, 3, 4, 5, 50].map fun i => (i, i)

/-- The original data. -/
def eora : Frame Nat Nat := [0, 1, 2, 3, 4, 5, 10, 11].map fun i => (i, i)

/-- C95 is false: both clusters are found to be below 50, only the second is put there. -/
theorem c95_false : ¬ EarlyKept eenv eora edata [(50, [10, 11])] ⟨[[0, 1], [2, 3]], [[10, 11]], [[0, 1], [2, 3]]⟩ := by
  intro h
  have := h { merge := [], earlyImpure := [[0, 1]], earlyRemove := [[50, 2, 3]], intro := [], remaining := [4, 5, 50],
              latent := [(50, [10, 11, 2, 3])] } [[0, 1], [2, 3]] (by decide +kernel) [0, 1] (by decide) 50 (by decide +kernel)
  obtain ⟨R, t, h1, h2, -⟩ := this
  simp only [List.mem_singleton, List.cons.injEq] at h1
  have := h2 0 (by simp)
  rw [h1.2] at this
  revert this
  decide

theorem hope_pure {env : Env V Col} {d : Frame V Col} {pures impures : List (List V)} {C1 : List V} (h1 : contains C1 pures = true)
    {l : List (List V)} (hl : ∀ C ∈ l, contains C pures = true) : hope env d pures impures C1 l = .ok [] := by
  induction l with
  | nil => rfl
  | cons C l ih =>
    have h : mayMerge env d pures impures C1 C = .ok false := by
      unfold mayMerge
      rw [h1, hl C (List.mem_cons_self ..)]
      rfl
    unfold hope
    rw [h]
    exact ih fun C hC => hl C (List.mem_cons_of_mem _ hC)

theorem single_merge {env : Env V Col} {pures impures : List (List V)} {e : Early V} {C1 : List V} {st st' : Parts V}
    (h : single env pures impures e C1 st = .ok st') : st'.merge = st.merge := by
  unfold single at h
  split at h
  · split at h
    · cases h
    · obtain ⟨a, -, h⟩ := bind_ok h
      cases h
      rfl
  · split at h
    · obtain ⟨a, -, h⟩ := bind_ok h
      cases h
      rfl
    · split_ifs at h <;> cases h <;> rfl

theorem mergeLoop_pure {env : Env V Col} {d : Frame V Col} {pures impures : List (List V)} {e : Early V} {fuel : Nat} {l : List (List V)}
    (hl : ∀ C ∈ l, contains C pures = true) {st st' : Parts V} (h : mergeLoop env d pures impures e fuel l st = .ok st') :
    st'.merge = st.merge := by
  induction fuel generalizing l st with
  | zero =>
    cases l with
    | nil => cases h; rfl
    | cons C l => cases h
  | succ fuel ih =>
    cases l with
    | nil => cases h; rfl
    | cons C l =>
      unfold mergeLoop at h
      rw [hope_pure (hl C (List.mem_cons_self ..)) fun C' hC' => hl C' (List.mem_cons_of_mem _ (List.mem_reverse.1 hC'))] at h
      obtain ⟨x, hx, h⟩ := bind_ok h
      cases hx
      simp only [List.isEmpty_nil, if_true] at h
      obtain ⟨st1, h1, h2⟩ := bind_ok h
      rw [ih (fun C' hC' => hl C' (List.mem_cons_of_mem _ hC')) h2, single_merge h1]

/-- C94, pure clusters. If every learned cluster is recorded as pure, nothing is merged: two pure clusters have different latent variables. -/
theorem c94_pure {env : Env V Col} {ora d : Frame V Col} {latent : Dict V (List V)} {f : Found V}
    (hp : ∀ S ∈ f.learned, ∃ P ∈ f.pures, ∀ v, v ∈ S ↔ v ∈ P) {p : Parts V} {imp : List (List V)}
    (h : mergeCausalCluster env ora d latent f = .ok (p, imp)) : p.merge = [] := by
  unfold mergeCausalCluster at h
  obtain ⟨e, -, h⟩ := bind_ok h
  obtain ⟨st, hst, h⟩ := bind_ok h
  cases h
  refine mergeLoop_pure (fun C hC => ?_) hst
  obtain ⟨P, hP, hv⟩ := hp C (List.mem_reverse.1 hC)
  simp only [contains, List.any_eq_true, setEq, Bool.and_eq_true, List.all_eq_true, decide_eq_true_eq]
  exact ⟨P, hP, fun v h => (hv v).1 h, fun v h => (hv v).2 h⟩

/-! Cases that meet the hypotheses: the same with one cluster; a cluster below a latent variable among its own; two clusters that are merged. -/

example : mergeCausalCluster eenv eora edata [(50, [10, 11])] ⟨[[2, 3]], [[10, 11]], [[2, 3]]⟩ =
    .ok ({ merge := [], earlyImpure := [], earlyRemove := [[50, 2, 3]], intro := [], remaining := [0, 1, 4, 5, 50],
           latent := [(50, [10, 11, 2, 3])] }, [[2, 3]]) := by decide +kernel

example : mergeCausalCluster eenv eora edata [(50, [10, 11])] ⟨[[2, 50]], [[10, 11]], [[2, 50]]⟩ =
    .ok ({ merge := [], earlyImpure := [], earlyRemove := [[50, 2]], intro := [], remaining := [0, 1, 3, 4, 5],
           latent := [(50, [10, 11, 2])] }, [[2, 50]]) := by decide +kernel

example : mergeCausalCluster (wenv [[0, 1, 2, 3]]) (wdata 6) (wdata 6) [] ⟨[[0, 1], [2, 3]], [], [[0, 1], [2, 3]]⟩ =
    .ok ({ merge := [[2, 3, 0, 1]], earlyImpure := [], earlyRemove := [], intro := [], remaining := [4, 5],
           latent := [] }, [[0, 1], [2, 3]]) := by decide +kernel

/-- Two pure clusters that the tests would let merge stay apart. -/
example : mergeCausalCluster (wenv [[0, 1, 2, 3]]) (wdata 6) (wdata 6) [] ⟨[[0, 1], [2, 3]], [[1, 0], [2, 3]], []⟩ =
    .ok ({ merge := [], earlyImpure := [], earlyRemove := [], intro := [[2, 3], [0, 1]], remaining := [4, 5],
           latent := [] }, []) := by decide +kernel

end Cdmir.Hier
