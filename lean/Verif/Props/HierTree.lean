import Verif.Props.HierModel
import Verif.Spec.Hierarchy
import Verif.Lemmas.HierPass

/-! Property C166: what the loop over the levels finds in data of a hierarchical model. -/

set_option linter.unusedSectionVars false

namespace Cdmir.Hier

variable {V Col N : Type} [LinearOrder V] [DecidableEq N]

/-- What holds before the pass for level `k`. `φ` is the variable of the model behind a name, `sur` the observed variable whose column is used. -/
structure Inv (H : Hierarchy N) (obs : V → N) (env : Env V Col) (ora : Frame V Col) (k : Nat) (s : State V Col) (φ : V → N) (sur : V → V) : Prop where
  obs_eq : ∀ v ∈ dkeys ora, φ v = obs v ∧ sur v = v
  lat_nodup : (dkeys s.latent).Nodup
  fresh : ∀ v ∈ dkeys s.latent, ∃ m < s.num, v = env.lname m
  lat : ((dkeys s.latent).map φ).Perm (H.nodes.filter fun a => 0 < H.level a ∧ H.level a ≤ k)
  kids : ∀ L cs, dget s.latent L = some cs → (cs.map φ).Perm (H.children (φ L)) ∧ (∀ c ∈ cs, c ∈ dkeys ora ∨ c ∈ dkeys s.latent) ∧ cs ∈ s.pures ∧
    ∃ w t, cs = w :: t ∧ sur L = sur w
  sur_ok : ∀ v, v ∈ dkeys ora ∨ v ∈ dkeys s.latent → sur v ∈ dkeys ora ∧ H.anc (H.level (φ v)) (obs (sur v)) = φ v
  data : ((dkeys s.data).map φ).Perm (H.at k)
  known : ∀ v ∈ dkeys s.data, v ∈ dkeys ora ∨ v ∈ dkeys s.latent
  col : ∀ v ∈ dkeys s.data, dgetE s.data v = dgetE ora (sur v)
  impures : s.impures = []
  depth : k ≤ s.latent.length

section step

variable {H : Hierarchy N} {D k : Nat} {obs : V → N} {env : Env V Col} {ora : Frame V Col} {s : State V Col} {φ : V → N} {sur : V → V}

theorem at_nodup (hH : H.Good D) (j : Nat) : (H.at j).Nodup := hH.nodup.filter _

theorem children_nodup (hH : H.Good D) (p : N) : (H.children p).Nodup := hH.nodup.filter _

theorem Inv.keys_nodup (hI : Inv H obs env ora k s φ sur) (hH : H.Good D) : (dkeys s.data).Nodup :=
  List.Nodup.of_map φ (hI.data.nodup_iff.2 (at_nodup hH k))

theorem Inv.inj (hI : Inv H obs env ora k s φ sur) (hH : H.Good D) {u v : V} (hu : u ∈ dkeys s.data) (hv : v ∈ dkeys s.data) (h : φ u = φ v) : u = v :=
  List.inj_on_of_nodup_map (hI.data.nodup_iff.2 (at_nodup hH k)) hu hv h

theorem Inv.key_at (hI : Inv H obs env ora k s φ sur) {v : V} (hv : v ∈ dkeys s.data) : φ v ∈ H.at k := hI.data.mem_iff.1 (List.mem_map_of_mem hv)

theorem Inv.key_of (hI : Inv H obs env ora k s φ sur) {a : N} (ha : a ∈ H.at k) : ∃ v ∈ dkeys s.data, φ v = a := by
  simpa using hI.data.mem_iff.2 ha

theorem Inv.key_anc (hI : Inv H obs env ora k s φ sur) {v : V} (hv : v ∈ dkeys s.data) :
    sur v ∈ dkeys ora ∧ H.anc k (obs (sur v)) = φ v := by
  obtain ⟨h1, h2⟩ := hI.sur_ok v (hI.known v hv)
  rw [(mem_at.1 (hI.key_at hv)).2] at h2
  exact ⟨h1, h2⟩

theorem Inv.level_lat (hI : Inv H obs env ora k s φ sur) {v : V} (hv : v ∈ dkeys s.latent) : φ v ∈ H.nodes ∧ 0 < H.level (φ v) ∧ H.level (φ v) ≤ k := by
  have := hI.lat.mem_iff.1 (List.mem_map_of_mem hv)
  simpa using this

/-- The names of latent variables are not those of columns. -/
theorem Inv.lat_ora (hI : Inv H obs env ora k s φ sur) (hnames : ∀ m, env.lname m ∉ dkeys ora) {v : V} (hv : v ∈ dkeys s.latent) : v ∉ dkeys ora := by
  obtain ⟨m, -, rfl⟩ := hI.fresh v hv
  exact hnames m

theorem Inv.observed (hI : Inv H obs env ora k s φ sur) (hnames : ∀ m, env.lname m ∉ dkeys ora)
    {v : V} (hv : v ∈ dkeys ora ∨ v ∈ dkeys s.latent) {fuel : Nat} (hf : H.level (φ v) < fuel) : getObserved s.latent fuel v = .ok (sur v) := by
  induction fuel generalizing v with
  | zero => omega
  | succ fuel ih =>
    unfold getObserved
    rcases hv with hv | hv
    · have : dget s.latent v = none := (dget_none_iff _ _).2 fun h => hI.lat_ora hnames h hv
      rw [this, (hI.obs_eq v hv).2]
      rfl
    · obtain ⟨cs, hcs⟩ := Option.isSome_iff_exists.1 ((mem_dkeys_iff _ v).1 hv)
      obtain ⟨h1, h2, h3, w, t, rfl, h4⟩ := hI.kids v cs hcs
      rw [hcs]
      have hw : φ w ∈ H.children (φ v) := h1.mem_iff.1 (by simp)
      have := (mem_children.1 hw).2.1
      simp only
      rw [ih (h2 w (by simp)) (by omega), h4]

/-- The frame as a measurement model. -/
def levelModel (H : Hierarchy N) (obs : V → N) (k : Nat) (sur : V → V) : Measured V N where
  latent v := H.anc (k + 1) (obs (sur v))
  load v := H.lam (k + 1) (obs (sur v))
  lcov := H.cov
  noise u v := if u = v then H.cov (obs (sur u)) (obs (sur u)) -
    H.lam (k + 1) (obs (sur u)) * H.lam (k + 1) (obs (sur u)) * H.cov (H.anc (k + 1) (obs (sur u))) (H.anc (k + 1) (obs (sur u))) else 0

variable (hH : H.Good D) (hk : k < D) (hobs : ((dkeys ora).map obs).Perm (H.at 0)) (hI : Inv H obs env ora k s φ sur)

include hobs in
theorem obs_at {v : V} (hv : v ∈ dkeys ora) : obs v ∈ H.at 0 := hobs.mem_iff.1 (List.mem_map_of_mem hv)

include hH hk hobs hI in
theorem level_cov {u v : V} (hu : u ∈ dkeys s.data) (hv : v ∈ dkeys s.data) :
    (levelModel H obs k sur).cov u v = H.cov (obs (sur u)) (obs (sur v)) := by
  obtain ⟨u1, u2⟩ := hI.key_anc hu
  obtain ⟨v1, v2⟩ := hI.key_anc hv
  unfold Measured.cov levelModel
  by_cases huv : u = v
  · subst huv
    simp
  · simp only [if_neg huv]
    rw [hH.cov_anc_succ hk (obs_at hobs u1) (obs_at hobs v1), add_zero]
    rw [u2, v2]
    exact fun e => huv (hI.inj hH hu hv e)

include hH hI in
theorem sur_nodup {i j p l : V} (hi : i ∈ dkeys s.data) (hj : j ∈ dkeys s.data) (hp : p ∈ dkeys s.data) (hl : l ∈ dkeys s.data)
    (h : [i, j, p, l].Nodup) : [sur i, sur j, sur p, sur l].Nodup := by
  have key : ∀ u ∈ dkeys s.data, ∀ v ∈ dkeys s.data, sur u = sur v → u = v := by
    intro u hu v hv e
    apply hI.inj hH hu hv
    rw [← (hI.key_anc hu).2, ← (hI.key_anc hv).2, e]
  have : ([i, j, p, l].map sur).Nodup := List.Nodup.map_on (by
    intro u hu v hv
    apply key
    · simp only [List.mem_cons, List.not_mem_nil, or_false] at hu
      rcases hu with rfl | rfl | rfl | rfl <;> assumption
    · simp only [List.mem_cons, List.not_mem_nil, or_false] at hv
      rcases hv with rfl | rfl | rfl | rfl <;> assumption) h
  simpa using this

include hH hk hobs hI in
theorem level_exact (hE : Exact env ora fun u v => H.cov (obs u) (obs v)) : Exact env s.data (levelModel H obs k sur).cov := by
  intro i hi j hj p hp l hl hnd
  obtain ⟨b, h1, h2⟩ := hE (sur i) (hI.key_anc hi).1 (sur j) (hI.key_anc hj).1 (sur p) (hI.key_anc hp).1 (sur l) (hI.key_anc hl).1
    (sur_nodup hH hI hi hj hp hl hnd)
  refine ⟨b, ?_, ?_⟩
  · rw [← h1]
    unfold vanE
    rw [hI.col i hi, hI.col j hj, hI.col p hp, hI.col l hl]
  · rw [h2, level_cov hH hk hobs hI hi hp, level_cov hH hk hobs hI hj hl, level_cov hH hk hobs hI hi hl, level_cov hH hk hobs hI hj hp]

include hH hk hobs hI in
theorem level_latent {v : V} (hv : v ∈ dkeys s.data) : (levelModel H obs k sur).latent v = H.parent (φ v) ∧ H.parent (φ v) ∈ H.at (k + 1) := by
  obtain ⟨v1, v2⟩ := hI.key_anc hv
  have h1 : (levelModel H obs k sur).latent v = H.parent (φ v) := by
    change H.anc (k + 1) _ = _
    rw [anc_succ, v2]
  have h2 := hH.anc_at (j := k + 1) (by omega) (obs_at hobs v1)
  change (levelModel H obs k sur).latent v ∈ _ at h2
  rw [h1] at h2
  exact ⟨h1, h2⟩

include hH hk hobs hI in
theorem level_pure : (levelModel H obs k sur).Pure (dkeys s.data) where
  load v hv := hH.lam_ne (by omega) (obs_at hobs (hI.key_anc hv).1)
  lsymm u hu v hv := by
    rw [(level_latent hH hk hobs hI hu).1, (level_latent hH hk hobs hI hv).1]
    exact (hH.regular (k := k + 1) (j := D - (k + 1)) (by omega)).1 _ (level_latent hH hk hobs hI hu).2 _ (level_latent hH hk hobs hI hv).2
  corr u hu v hv := by
    rw [(level_latent hH hk hobs hI hu).1, (level_latent hH hk hobs hI hv).1]
    exact (hH.regular (k := k + 1) (j := D - (k + 1)) (by omega)).2.2 _ (level_latent hH hk hobs hI hu).2 _ (level_latent hH hk hobs hI hv).2
  two v hv := by
    obtain ⟨h1, h2⟩ := level_latent hH hk hobs hI hv
    obtain ⟨h3, h4⟩ := mem_at.1 h2
    have hc := hH.three _ h3 (by omega)
    obtain ⟨a, ha, hne⟩ : ∃ a ∈ H.children (H.parent (φ v)), a ≠ φ v := by
      by_contra hcon
      push Not at hcon
      have : (H.children (H.parent (φ v))).Subperm [φ v] := List.subperm_of_subset (children_nodup hH _) fun a ha => by simp [hcon a ha]
      have := this.length_le
      simp at this
      omega
    obtain ⟨a1, a2, a3⟩ := mem_children.1 ha
    obtain ⟨w, hw, rfl⟩ := hI.key_of (a := a) (mem_at.2 ⟨a1, by omega⟩)
    refine ⟨w, hw, fun e => hne (by rw [e]), ?_⟩
    rw [(level_latent hH hk hobs hI hw).1, a3, h1]
  noise u _ v _ huv := if_neg huv

include hH hk hobs hI in
/-- The clusters are the children of the variables of the next level. -/
theorem level_cluster {learned : List (List V)} (hS : ∀ S ∈ learned, S.Nodup ∧ 2 ≤ S.length ∧ ∀ v ∈ S, v ∈ dkeys s.data)
    (hdis : learned.Pairwise (fun S T => ∀ x, x ∈ S → x ∉ T))
    (hcl : ∀ x ∈ dkeys s.data, ∀ y ∈ dkeys s.data, (∃ S ∈ learned, x ∈ S ∧ y ∈ S) ↔ (levelModel H obs k sur).latent x = (levelModel H obs k sur).latent y)
    {S : List V} (h : S ∈ learned) {v : V} (hv : v ∈ S) : (S.map φ).Perm (H.children (H.parent (φ v))) := by
  obtain ⟨hn, -, hsub⟩ := hS S h
  have hvd := hsub v hv
  obtain ⟨-, hlv⟩ := level_latent hH hk hobs hI hvd
  refine (List.perm_ext_iff_of_nodup ?_ (children_nodup hH _)).2 fun a => ?_
  · exact hn.map_on fun x hx y hy e => hI.inj hH (hsub x hx) (hsub y hy) e
  · rw [mem_children, List.mem_map]
    constructor
    · rintro ⟨u, hu, rfl⟩
      obtain ⟨u1, u2⟩ := mem_at.1 (hI.key_at (hsub u hu))
      have := (hcl u (hsub u hu) v hvd).1 ⟨S, h, hu, hv⟩
      rw [(level_latent hH hk hobs hI (hsub u hu)).1, (level_latent hH hk hobs hI hvd).1] at this
      exact ⟨u1, by rw [u2, (mem_at.1 hlv).2], this⟩
    · rintro ⟨a1, a2, a3⟩
      rw [(mem_at.1 hlv).2] at a2
      obtain ⟨u, hu, rfl⟩ := hI.key_of (a := a) (mem_at.2 ⟨a1, by omega⟩)
      have : (levelModel H obs k sur).latent u = (levelModel H obs k sur).latent v := by
        rw [(level_latent hH hk hobs hI hu).1, (level_latent hH hk hobs hI hvd).1, a3]
      obtain ⟨T, hT, huT, hvT⟩ := (hcl u hu v hvd).2 this
      rw [pairwise_same hdis h hT hv hvT]
      exact ⟨u, huT, rfl⟩

include hH hk hobs hI in
/-- No cluster is learned early. -/
theorem inner_false (ho : ∀ l, (env.order l).Perm l) (hnames : ∀ m, env.lname m ∉ dkeys ora) (hE : Exact env ora fun u v => H.cov (obs u) (obs v))
    {S : List V} {pures : List (List V)} (hSp : S ∈ pures) (hsp : ∀ T ∈ s.pures, T ∈ pures) (hSn : S.Nodup) (hsub : ∀ v ∈ S, v ∈ dkeys s.data)
    (h3 : 3 ≤ S.length) (hpar : ∀ u ∈ S, ∀ v ∈ S, H.parent (φ u) = H.parent (φ v)) {L : V} (hL : L ∈ S) :
    innerTest env ora s.data s.latent pures S L = .ok false := by
  have hora : ∀ v ∈ dkeys ora, H.level (φ v) = 0 := fun v hv => by
    rw [(hI.obs_eq v hv).1]
    exact (mem_at.1 (obs_at hobs hv)).2
  have hlev : ∀ v ∈ dkeys s.data, H.level (φ v) = k := fun v hv => (mem_at.1 (hI.key_at hv)).2
  unfold innerTest
  by_cases hLl : L ∈ dkeys s.latent
  swap
  · have : dhas s.latent L = false := by
      by_contra h
      exact hLl ((mem_dkeys_iff _ _).2 (by simpa [dhas, Option.isSome_iff_ne_none] using h))
    rw [this]
    rfl
  have hhas : dhas s.latent L = true := (mem_dkeys_iff _ _).1 hLl
  rw [hhas, if_pos rfl]
  have hLd := hsub L hL
  obtain ⟨l1, l2, l3⟩ := hI.level_lat hLl
  rw [hlev L hLd] at l2
  obtain ⟨j, rfl⟩ : ∃ j, k = j + 1 := ⟨k - 1, by omega⟩
  obtain ⟨cs, hcs⟩ := Option.isSome_iff_exists.1 ((mem_dkeys_iff _ L).1 hLl)
  obtain ⟨c1, c2, c3, -⟩ := hI.kids L cs hcs
  have hchild : ∀ c ∈ cs, H.level (φ c) = j ∧ H.parent (φ c) = φ L := fun c hc => by
    have := mem_children.1 (c1.mem_iff.1 (List.mem_map_of_mem hc))
    rw [hlev L hLd] at this
    exact ⟨by omega, this.2.2⟩
  obtain ⟨p, q, td, hp, hq, hpq, hrb, htd, htc⟩ := rollBack_ok ho (ora := ora) (d := s.data) (pures := pures) (sur := sur) hcs
    (List.Nodup.of_map φ (c1.nodup_iff.2 (children_nodup hH _)))
    (by
      have := hH.three _ l1 (by rw [hlev L hLd]; omega)
      rw [← c1.length_eq, List.length_map] at this
      omega)
    (hsp cs c3)
    (fun c hc => ⟨(hI.sur_ok c (c2 c hc)).1, fun h => (hI.obs_eq c h).2, fun _ => hI.observed hnames (c2 c hc) (by
      have := (hchild c hc).1
      have := hI.depth
      omega)⟩)
    hLd (hI.lat_ora hnames hLl) (fun v hv hvd => by
      have h1 := hora v hv
      have h2 := hlev v hvd
      omega)
  obtain ⟨K, K2, rest, hTC⟩ : ∃ K K2 rest, S.erase L = K :: K2 :: rest := by
    have hlen : 2 ≤ (S.erase L).length := by
      rw [List.length_erase_of_mem hL]
      omega
    match S.erase L, hlen with
    | K :: K2 :: rest, _ => exact ⟨K, K2, rest, rfl⟩
  have hen : (S.erase L).Nodup := hSn.erase L
  have hKm : K ∈ S.erase L := by rw [hTC]; simp
  have hK2m : K2 ∈ S.erase L := by rw [hTC]; simp
  obtain ⟨hKL, hKS⟩ := (hSn.mem_erase_iff).1 hKm
  obtain ⟨hK2L, hK2S⟩ := (hSn.mem_erase_iff).1 hK2m
  have hKK : K ≠ K2 := by
    rw [hTC] at hen
    simp only [List.nodup_cons, List.mem_cons, not_or] at hen
    exact hen.1.1
  obtain ⟨p1, p2⟩ := hI.sur_ok p (c2 p hp)
  obtain ⟨q1, q2⟩ := hI.sur_ok q (c2 q hq)
  rw [(hchild p hp).1] at p2
  rw [(hchild q hq).1] at q2
  have p3 : H.anc (j + 1) (obs (sur p)) = φ L := by rw [anc_succ, p2, (hchild p hp).2]
  have q3 : H.anc (j + 1) (obs (sur q)) = φ L := by rw [anc_succ, q2, (hchild q hq).2]
  obtain ⟨k1, k2⟩ := hI.key_anc (hsub K hKS)
  obtain ⟨m1, m2⟩ := hI.key_anc (hsub K2 hK2S)
  have hφpq : φ p ≠ φ q := fun e => hpq (List.inj_on_of_nodup_map (c1.nodup_iff.2 (children_nodup hH _)) hp hq e)
  have hφK : φ L ≠ φ K := fun e => hKL (hI.inj hH hLd (hsub K hKS) e).symm
  have hφK2 : φ L ≠ φ K2 := fun e => hK2L (hI.inj hH hLd (hsub K2 hK2S) e).symm
  have hφKK : φ K ≠ φ K2 := fun e => hKK (hI.inj hH (hsub K hKS) (hsub K2 hK2S) e)
  have hne := hH.inner (j := j) hk (obs_at hobs p1) (obs_at hobs q1) (obs_at hobs k1) (obs_at hobs m1) (by rw [p2, q2]; exact hφpq) (by rw [p3, q3])
    (by rw [k2, m2]; exact hφKK) (by rw [p3, k2]; exact hφK) (by rw [p3, m2]; exact hφK2)
    (by rw [anc_succ (j + 1), anc_succ (j + 1), p3, k2]; exact hpar L hL K hKS)
    (by rw [anc_succ (j + 1), anc_succ (j + 1), p3, m2]; exact hpar L hL K2 hK2S)
  have d1 : sur p ≠ sur q := fun e => hφpq (by rw [← p2, ← q2, e])
  have d2 : sur p ≠ sur K := fun e => hφK (by rw [← p3, ← k2, e])
  have d3 : sur p ≠ sur K2 := fun e => hφK2 (by rw [← p3, ← m2, e])
  have d4 : sur q ≠ sur K := fun e => hφK (by rw [← q3, ← k2, e])
  have d5 : sur q ≠ sur K2 := fun e => hφK2 (by rw [← q3, ← m2, e])
  have d6 : sur K ≠ sur K2 := fun e => hφKK (by rw [← k2, ← m2, e])
  have gK : dgetE td K = dgetE ora (sur K) := by rw [htd K (hsub K hKS) hKL, hI.col K (hsub K hKS)]
  have gK2 : dgetE td K2 = dgetE ora (sur K2) := by rw [htd K2 (hsub K2 hK2S) hK2L, hI.col K2 (hsub K2 hK2S)]
  obtain ⟨b1, e1, f1⟩ := hE _ p1 _ k1 _ q1 _ m1 (by simp [d1, d2, d3, d4.symm, d5, d6])
  obtain ⟨b2, e2, -⟩ := hE _ p1 _ q1 _ k1 _ m1 (by simp [d1, d2, d3, d4, d5, d6])
  obtain ⟨b3, e3, -⟩ := hE _ p1 _ m1 _ q1 _ k1 (by simp [d1, d2, d3, d4, d5.symm, d6.symm])
  have hb1 : b1 = false := by
    cases b1 with
    | false => rfl
    | true => exact absurd (f1.1 rfl) hne
  have v1 : vanE env td (sur p) K (sur q) K2 = .ok b1 := by
    rw [← e1]
    unfold vanE
    rw [gK, gK2, htc p hp, htc q hq]
  have v2 : vanE env td (sur p) (sur q) K K2 = .ok b2 := by
    rw [← e2]
    unfold vanE
    rw [gK, gK2, htc p hp, htc q hq]
  have v3 : vanE env td (sur p) K2 (sur q) K = .ok b3 := by
    rw [← e3]
    unfold vanE
    rw [gK, gK2, htc p hp, htc q hq]
  simp only [hrb, bind, Except.bind]
  by_cases hrows : env.rows < 4
  · rw [if_pos hrows]
    rfl
  · rw [if_neg hrows, contains_mem hSp, Bool.true_or, if_pos rfl, hTC]
    unfold testPureWithPure
    simp only [v1, v2, v3, bind, Except.bind, hb1, Bool.false_and]
    rfl

include hH hk hobs hI in
/-- One pass adds the variables of the next level. -/
theorem tree_step (ho : ∀ l, (env.order l).Perm l) (hi : ∀ l, (env.idxOrder l).Perm l) (hln : Function.Injective env.lname)
    (hnames : ∀ m, env.lname m ∉ dkeys ora) (hE : Exact env ora fun u v => H.cov (obs u) (obs v)) :
    ∃ s' φ' sur', pass env ora s = .ok (s', decide (1 < env.rows)) ∧ Inv H obs env ora (k + 1) s' φ' sur' := by
  have h4 : 4 ≤ (dkeys s.data).length := by
    have := hI.data.length_eq
    rw [List.length_map] at this
    rw [this]
    exact hH.wide k hk
  have hP := level_pure hH hk hobs hI
  obtain ⟨f, np, ni, hf, hS, hdis, hcl, hpu, him, hperm, hni⟩ :=
    c165_find ho hi (hI.keys_nodup hH) hP.good (level_exact hH hk hobs hI hE) h4 s.pures s.impures
  have hclus : ∀ S ∈ f.learned, ∀ v ∈ S, (S.map φ).Perm (H.children (H.parent (φ v))) := fun S h v hv =>
    level_cluster hH hk hobs hI hS hdis hcl h hv
  have hne : ∀ S ∈ f.learned, S ≠ [] := fun S h e => by
    have := (hS S h).2.1
    rw [e] at this
    simp at this
  have h3 : ∀ S ∈ f.learned, 3 ≤ S.length := by
    intro S h
    obtain ⟨v, t, e⟩ := List.exists_cons_of_ne_nil (hne S h)
    have hv : v ∈ S := by rw [e]; simp
    have h1 := (hclus S h v hv).length_eq
    obtain ⟨-, h2⟩ := level_latent hH hk hobs hI ((hS S h).2.2 v hv)
    obtain ⟨h5, h6⟩ := mem_at.1 h2
    have := hH.three _ h5 (by omega)
    rw [List.length_map] at h1
    omega
  have hni0 : ni = [] := by
    rw [List.eq_nil_iff_forall_not_mem]
    intro S hSn
    have hSl : S ∈ f.learned := hperm.mem_iff.1 (by simp [hSn])
    obtain ⟨x, y, e, -⟩ := (hni S hSl).1 hSn
    have := h3 S hSl
    rw [e] at this
    simp at this
  subst hni0
  rw [List.append_nil] at hperm him
  rw [hI.impures] at him
  have hSp : ∀ S ∈ f.learned, S ∈ f.pures := fun S h => by
    rw [hpu]
    exact List.mem_append_right _ (hperm.mem_iff.2 h)
  have hall : ∀ v ∈ dkeys s.data, v ∈ f.learned.reverse.flatten := by
    intro v hv
    obtain ⟨S, h1, h2, -⟩ := (hcl v hv v hv).2 rfl
    exact List.mem_flatten.2 ⟨S, List.mem_reverse.2 h1, h2⟩
  have hlne : f.learned ≠ [] := by
    intro e
    obtain ⟨v, hv⟩ := List.exists_mem_of_length_pos (by omega : 0 < (dkeys s.data).length)
    have := hall v hv
    simp [e] at this
  set l := f.learned.reverse with hl
  have hlmem : ∀ S, S ∈ l ↔ S ∈ f.learned := fun S => List.mem_reverse
  have hfr : ∀ m ≥ s.num, env.lname m ∉ dkeys s.latent := by
    intro m hm hin
    obtain ⟨m', hm', e⟩ := hI.fresh _ hin
    have := hln e
    omega
  obtain ⟨cs, hcs, hup⟩ := update_ok ho hln (l := l) (fun S h => hne S ((hlmem S).1 h)) (n := s.num) (latent := s.latent) hfr (d := s.data) hall
    (fun S h => (hS S ((hlmem S).1 h)).2.2) []
  set names := newNames env s.num l.length with hnm
  have hnl : names.length = l.length := newNames_length _ _ _
  have hnn : names.Nodup := newNames_nodup hln _ _
  have hmerge : mergeCausalCluster env ora s.data s.latent f = .ok ({ intro := l, latent := s.latent }, []) := by
    have hrem : env.order ((dkeys s.data).filter fun v => v ∉ f.learned.flatten) = [] := by
      have : (dkeys s.data).filter (fun v => decide (v ∉ f.learned.flatten)) = [] := by
        rw [List.filter_eq_nil_iff]
        intro v hv
        have := hall v hv
        rw [List.mem_flatten] at this
        obtain ⟨S, h1, h2⟩ := this
        simp only [decide_eq_true_eq, not_not]
        exact List.mem_flatten.2 ⟨S, (hlmem S).1 h1, h2⟩
      rw [this]
      exact List.perm_nil.1 (ho [])
    unfold mergeCausalCluster
    have hemp : f.learned.isEmpty = false := by
      cases hfl : f.learned with
      | nil => exact absurd hfl hlne
      | cons a t => rfl
    simp only [hemp, hrem, him, Bool.false_eq_true, if_false]
    rw [detect_none fun S h L hL => inner_false hH hk hobs hI ho hnames hE (hSp S h) (fun T hT => by rw [hpu]; exact List.mem_append_left _ hT)
      (hS S h).1 (hS S h).2.2 (h3 S h) (fun u hu v hv => by
        have := (hcl u ((hS S h).2.2 u hu) v ((hS S h).2.2 v hv)).1 ⟨S, h, hu, hv⟩
        rwa [(level_latent hH hk hobs hI ((hS S h).2.2 u hu)).1, (level_latent hH hk hobs hI ((hS S h).2.2 v hv)).1] at this) hL]
    simp only [bind, Except.bind]
    rw [mergeLoop_all (fun C hC => contains_mem (hSp C ((hlmem C).1 hC))) (by rw [hl, List.length_reverse])]
    simp [pure, Except.pure]
  have hpass : pass env ora s = .ok (⟨names.zip cs, f.pures, [], s.num + l.length, s.latent ++ names.zip l⟩, decide (1 < env.rows)) := by
    unfold pass
    rw [hf]
    have hle : l.isEmpty = false := by
      cases hll : l with
      | nil => exact absurd (by simpa [hl] using hll) hlne
      | cons a t => rfl
    simp only [bind, Except.bind, hmerge, hup, hle, List.isEmpty_nil, Bool.true_and, Bool.false_eq_true, if_false]
    rfl
  have hl_nodup : l.Nodup := by
    rw [hl, List.nodup_reverse]
    refine hdis.imp_of_mem fun {S T} hSm hTm h e => ?_
    obtain ⟨v, t, e'⟩ := List.exists_cons_of_ne_nil (hne S hSm)
    have hv : v ∈ S := by rw [e']; simp
    exact h v hv (e ▸ hv)
  have hcsl : names.length = cs.length := by
    have h1 := congrArg List.length (select_spec hcs)
    rw [List.length_map, List.length_map, heads_mem fun S h => hne S ((hlmem S).1 h)] at h1
    omega
  have hzk : dkeys (names.zip l) = names := dkeys_zip hnl
  have hznd : (dkeys (names.zip l)).Nodup := by rw [hzk]; exact hnn
  let φ' : V → N := fun v => match dget (names.zip l) v with
    | some (w :: _) => H.parent (φ w)
    | _ => φ v
  let sur' : V → V := fun v => match dget (names.zip l) v with
    | some (w :: _) => sur w
    | _ => sur v
  have hnew : ∀ {v w : V} {t : List V}, (v, w :: t) ∈ names.zip l → φ' v = H.parent (φ w) ∧ sur' v = sur w := by
    intro v w t h
    have := dget_of_mem hznd h
    constructor
    · simp only [φ', this]
    · simp only [sur', this]
  have hold : ∀ {v : V}, v ∉ names → φ' v = φ v ∧ sur' v = sur v := by
    intro v h
    have : dget (names.zip l) v = none := (dget_none_iff _ _).2 (by rw [hzk]; exact h)
    constructor
    · simp only [φ', this]
    · simp only [sur', this]
  have hname : ∀ {v : V}, v ∈ names → ∃ m ≥ s.num, m < s.num + l.length ∧ v = env.lname m := by
    intro v hv
    obtain ⟨t, ht, e⟩ := mem_newNames.1 hv
    exact ⟨s.num + t, by omega, by omega, e⟩
  have hno : ∀ v, v ∈ dkeys ora ∨ v ∈ dkeys s.latent → v ∉ names := by
    rintro v hv hn
    obtain ⟨m, hm, -, rfl⟩ := hname hn
    rcases hv with hv | hv
    · exact hnames m hv
    · exact hfr m hm hv
  have hent : ∀ {v : V} {S : List V}, (v, S) ∈ names.zip l → ∃ w t, S = w :: t ∧ S ∈ f.learned ∧ φ' v = H.parent (φ w) ∧ sur' v = sur w := by
    intro v S h
    have hm := (hlmem S).1 (List.of_mem_zip h).2
    obtain ⟨w, t, rfl⟩ := List.exists_cons_of_ne_nil (hne S hm)
    exact ⟨w, t, rfl, hm, (hnew h).1, (hnew h).2⟩
  have hnent : ∀ {v : V}, v ∈ names → ∃ S, (v, S) ∈ names.zip l := by
    intro v hv
    rw [← hzk] at hv
    obtain ⟨e, he, rfl⟩ := List.mem_map.1 hv
    exact ⟨e.2, he⟩
  have hlent : ∀ {S : List V}, S ∈ l → ∃ v, (v, S) ∈ names.zip l := by
    intro S h
    rw [← List.map_snd_zip (l₁ := names) hnl.ge] at h
    obtain ⟨e, he, rfl⟩ := List.mem_map.1 h
    exact ⟨e.1, he⟩
  have hSk : ∀ {S : List V}, S ∈ f.learned → ∀ c ∈ S, c ∈ dkeys ora ∨ c ∈ dkeys s.latent := fun h c hc => hI.known c ((hS _ h).2.2 c hc)
  have hSφ : ∀ {S : List V}, S ∈ f.learned → S.map φ' = S.map φ := fun h => List.map_congr_left fun c hc => (hold (hno c (hSk h c hc))).1
  have hmapn : names.map (fun v => some (φ' v)) = l.map fun S => S.head?.map fun w => H.parent (φ w) :=
    zip_map_eq hnl fun e he => by
      obtain ⟨v, S⟩ := e
      obtain ⟨w, t, rfl, -, h, -⟩ := hent he
      simp [h]
  have hnodup' : (names.map φ').Nodup := by
    apply List.Nodup.of_map some
    rw [List.map_map]
    change (names.map (fun v => some (φ' v))).Nodup
    rw [hmapn]
    refine hl_nodup.map_on fun S h1 T h2 e => ?_
    rw [hlmem] at h1 h2
    obtain ⟨w, t, rfl⟩ := List.exists_cons_of_ne_nil (hne S h1)
    obtain ⟨x, r, rfl⟩ := List.exists_cons_of_ne_nil (hne T h2)
    simp only [List.head?_cons, Option.map_some, Option.some.injEq] at e
    have p1 := hclus _ h1 w (by simp)
    have p2 := hclus _ h2 x (by simp)
    rw [e] at p1
    have hw : φ w ∈ (x :: r).map φ := (p1.trans p2.symm).mem_iff.1 (by simp)
    obtain ⟨y, hy, e2⟩ := List.mem_map.1 hw
    have : y = w := hI.inj hH ((hS _ h2).2.2 y hy) ((hS _ h1).2.2 w (by simp)) e2
    subst this
    exact pairwise_same hdis h1 h2 (by simp) hy
  have hatn : (names.map φ').Perm (H.at (k + 1)) := by
    refine (List.perm_ext_iff_of_nodup hnodup' (at_nodup hH _)).2 fun a => ?_
    rw [List.mem_map]
    constructor
    · rintro ⟨v, hv, rfl⟩
      obtain ⟨S, hvS⟩ := hnent hv
      obtain ⟨w, t, rfl, hm, e, -⟩ := hent hvS
      rw [e]
      exact (level_latent hH hk hobs hI ((hS _ hm).2.2 w (by simp))).2
    · intro ha
      obtain ⟨a1, a2⟩ := mem_at.1 ha
      have h3a := hH.three a a1 (by omega)
      obtain ⟨c, hc⟩ := List.exists_mem_of_length_pos (by omega : 0 < (H.children a).length)
      obtain ⟨c1, c2, c3⟩ := mem_children.1 hc
      obtain ⟨u, hu, rfl⟩ := hI.key_of (a := c) (mem_at.2 ⟨c1, by omega⟩)
      obtain ⟨S, hSl, huS⟩ := List.mem_flatten.1 (hall u hu)
      obtain ⟨v, hvS⟩ := hlent hSl
      obtain ⟨w, t, rfl, hm, e, -⟩ := hent hvS
      refine ⟨v, (List.of_mem_zip hvS).1, ?_⟩
      rw [e]
      have := (mem_children.1 ((hclus _ hm u huS).mem_iff.1 (List.mem_map_of_mem (f := φ) (List.mem_cons_self (a := w) (l := t))))).2.2
      rw [this, c3]
  have hdk : dkeys (s.latent ++ names.zip l) = dkeys s.latent ++ names := by
    have : dkeys (s.latent ++ names.zip l) = dkeys s.latent ++ dkeys (names.zip l) := List.map_append
    rw [this, hzk]
  refine ⟨_, φ', sur', hpass, ?_⟩
  constructor
  case obs_eq =>
    intro v hv
    obtain ⟨h1, h2⟩ := hold (hno v (Or.inl hv))
    rw [h1, h2]
    exact hI.obs_eq v hv
  case lat_nodup =>
    rw [hdk]
    exact hI.lat_nodup.append hnn fun v hv hn => hno v (Or.inr hv) hn
  case fresh =>
    intro v hv
    rw [hdk, List.mem_append] at hv
    rcases hv with hv | hv
    · obtain ⟨m, hm, e⟩ := hI.fresh v hv
      exact ⟨m, by dsimp only; omega, e⟩
    · obtain ⟨m, -, hm, e⟩ := hname hv
      exact ⟨m, hm, e⟩
  case lat =>
    rw [hdk, List.map_append]
    have h1 : (dkeys s.latent).map φ' = (dkeys s.latent).map φ := List.map_congr_left fun v hv => (hold (hno v (Or.inr hv))).1
    rw [h1]
    refine (hI.lat.append hatn).trans ?_
    refine (List.perm_ext_iff_of_nodup ?_ (hH.nodup.filter _)).2 fun a => ?_
    · refine (hH.nodup.filter _).append (at_nodup hH _) fun a h1 h2 => ?_
      have h3 := (mem_at.1 h2).2
      have h4 := (List.mem_filter.1 h1).2
      simp only [decide_eq_true_eq] at h4
      omega
    · rw [List.mem_append, List.mem_filter, List.mem_filter, mem_at]
      simp only [decide_eq_true_eq]
      constructor
      · rintro (⟨h1, h2⟩ | ⟨h1, h2⟩)
        · exact ⟨h1, by omega⟩
        · exact ⟨h1, by omega⟩
      · rintro ⟨h1, h2⟩
        by_cases h : H.level a = k + 1
        · exact Or.inr ⟨h1, h⟩
        · exact Or.inl ⟨h1, by omega⟩
  case kids =>
    intro L C hL
    dsimp only at hL ⊢
    rw [dget_append'] at hL
    cases hLl : dget s.latent L with
    | some C' =>
      rw [hLl] at hL
      simp only [Option.some_or, Option.some.injEq] at hL
      subst hL
      obtain ⟨h1, h2, h3', w, t, h4', h5⟩ := hI.kids L C' hLl
      have hLk : L ∈ dkeys s.latent := (mem_dkeys_iff _ _).2 (by rw [hLl]; rfl)
      have e1 := hold (hno L (Or.inr hLk))
      have e2 : C'.map φ' = C'.map φ := List.map_congr_left fun c hc => (hold (hno c (h2 c hc))).1
      refine ⟨by rw [e1.1, e2]; exact h1, fun c hc => ?_, by rw [hpu]; exact List.mem_append_left _ h3', w, t, h4', ?_⟩
      · rw [hdk, List.mem_append]
        rcases h2 c hc with h | h
        · exact Or.inl h
        · exact Or.inr (Or.inl h)
      · rw [e1.2, h5, (hold (hno w (h2 w (by rw [h4']; simp)))).2]
    | none =>
      rw [hLl] at hL
      simp only [Option.none_or] at hL
      obtain ⟨w, t, rfl, hm, e1, e2⟩ := hent (dget_mem hL)
      refine ⟨?_, fun c hc => ?_, hSp _ hm, w, t, rfl, ?_⟩
      · rw [hSφ hm, e1]
        exact hclus _ hm w (by simp)
      · rw [hdk, List.mem_append]
        rcases hSk hm c hc with h | h
        · exact Or.inl h
        · exact Or.inr (Or.inl h)
      · rw [e2, (hold (hno w (hSk hm w (by simp)))).2]
  case sur_ok =>
    intro v hv
    dsimp only at hv
    rw [hdk, List.mem_append, ← or_assoc] at hv
    rcases hv with hv | hv
    · obtain ⟨h1, h2⟩ := hold (hno v hv)
      rw [h1, h2]
      exact hI.sur_ok v hv
    · obtain ⟨S, hvS⟩ := hnent hv
      obtain ⟨w, t, rfl, hm, e1, e2⟩ := hent hvS
      have hw := (hS _ hm).2.2 w (by simp)
      obtain ⟨w1, w2⟩ := hI.key_anc hw
      rw [e1, e2, (mem_at.1 (level_latent hH hk hobs hI hw).2).2, anc_succ, w2]
      exact ⟨w1, rfl⟩
  case data =>
    dsimp only
    rw [dkeys_zip hcsl]
    exact hatn
  case known =>
    intro v hv
    dsimp only at hv ⊢
    rw [dkeys_zip hcsl] at hv
    right
    rw [hdk]
    exact List.mem_append_right _ hv
  case col =>
    intro v hv
    dsimp only at hv ⊢
    rw [dkeys_zip hcsl] at hv
    obtain ⟨S, hvS⟩ := hnent hv
    obtain ⟨w, t, rfl, hm, e1, e2⟩ := hent hvS
    rw [(zip_col hcs hnn hnl (fun S h => hne S ((hlmem S).1 h)) hvS).2, e2, hI.col w ((hS _ hm).2.2 w (by simp))]
  case impures => rfl
  case depth =>
    dsimp only
    rw [List.length_append, List.length_zip, hnl]
    have : 0 < l.length := by
      rw [hl, List.length_reverse]
      exact List.length_pos_of_ne_nil hlne
    have := hI.depth
    simp
    omega

/-- With at most three columns nothing is found. -/
theorem find_few {env : Env V Col} (ho : ∀ l, (env.order l).Perm l) {d : Frame V Col} (h : (dkeys d).length ≤ 3) (p i : List (List V)) :
    findCausalCluster env d p i = .ok ⟨[], p, i⟩ := by
  have hc : ∀ S ∈ combinations (dkeys d) 2, check env d S = .ok false := by
    intro S hS
    obtain ⟨h1, h2⟩ := mem_combinations_iff.1 hS
    unfold check Tetrad.checkCausalCluster
    have hl : ((dkeys d).filter fun v => decide (v ∉ S)).length < 2 := by
      have e1 : S.Sublist ((dkeys d).filter fun v => decide (v ∈ S)) := by
        have := h1.filter fun v => decide (v ∈ S)
        rwa [List.filter_eq_self.2 (by simp)] at this
      have e2 := e1.length_le
      have e3 := (List.filter_append_perm (fun v => decide (v ∈ S)) (dkeys d)).length_eq
      rw [List.length_append] at e3
      simp only [decide_not]
      omega
    simp only [(ho _).length_eq, if_pos hl]
    rfl
  have hp : ∀ l : List (List V), (∀ S ∈ l, check env d S = .ok false) → pairPass env d l = .ok [] := by
    intro l
    induction l with
    | nil => intro _; rfl
    | cons S l ih =>
      intro hl
      unfold pairPass
      rw [hl S List.mem_cons_self]
      exact ih fun T hT => hl T (List.mem_cons_of_mem _ hT)
  have hz : ∀ n B, sizeLoop env d n 3 [] B = .ok [] := by
    intro n B
    cases n with
    | zero => rfl
    | succ n =>
      unfold sizeLoop
      rw [if_neg (by omega)]
      rfl
  unfold findCausalCluster
  have hm : Merge.mergeList env.idxOrder ([] : List (List V)) = .ok [] := by
    simp [Merge.mergeList, Merge.connectedComponents, Merge.graphOf, Merge.overlapEdges, dkeys, bind, Except.bind, pure, Except.pure]
  simp only [hp _ hc, hm, bind, Except.bind, hz, record]
  simp [pure, Except.pure]

end step

/-- The loop from level `k` on. -/
theorem tree_run {H : Hierarchy N} {D : Nat} {obs : V → N} {env : Env V Col} {ora : Frame V Col} (hH : H.Good D) (hobs : ((dkeys ora).map obs).Perm (H.at 0))
    (ho : ∀ l, (env.order l).Perm l) (hi : ∀ l, (env.idxOrder l).Perm l) (hln : Function.Injective env.lname)
    (hnames : ∀ m, env.lname m ∉ dkeys ora) (hE : Exact env ora fun u v => H.cov (obs u) (obs v)) (hrows : 1 < env.rows)
    {j k : Nat} (hkj : k + j = D) {fuel : Nat} (hf : j < fuel) {s : State V Col} {φ : V → N} {sur : V → V} (hI : Inv H obs env ora k s φ sur) :
    ∃ s' φ' sur' R, run env ora fuel s = .ok s' ∧ Inv H obs env ora D { s' with impures := [] } φ' sur' ∧ s'.impures = [R] ∧ R = dkeys s'.data := by
  induction j generalizing k fuel s φ sur with
  | zero =>
    obtain rfl : k = D := by omega
    obtain ⟨fuel, rfl⟩ : ∃ m, fuel = m + 1 := ⟨fuel - 1, by omega⟩
    have hl : (dkeys s.data).length ≤ 3 := by
      have := hI.data.length_eq
      rw [List.length_map] at this
      rw [this]
      exact hH.narrow
    refine ⟨_, φ, sur, _, c97_stop (find_few ho hl s.pures s.impures) rfl fuel, ?_, ?_, rfl⟩
    · have := hI.impures
      obtain ⟨d, p, i, n, lt⟩ := s
      cases this
      exact hI
    · rw [hI.impures]
      rfl
  | succ j ih =>
    obtain ⟨fuel, rfl⟩ : ∃ m, fuel = m + 1 := ⟨fuel - 1, by omega⟩
    obtain ⟨s1, φ1, sur1, h1, h2⟩ := tree_step hH (by omega) hobs hI ho hi hln hnames hE
    obtain ⟨s2, φ2, sur2, R, h3, h4⟩ := ih (k := k + 1) (by omega) (fuel := fuel) (by omega) h2
    refine ⟨s2, φ2, sur2, R, ?_, h4⟩
    unfold run
    rw [h1, ← h3]
    simp [bind, Except.bind, hrows]

/-- C166. On data of a hierarchical model on which the tests are exact the loop ends, and it finds every latent variable, once, with its children: `φ` is
the variable of the model behind a name. The highest level is reported as one impure cluster. -/
theorem c166_tree {H : Hierarchy N} {D : Nat} {obs : V → N} {env : Env V Col} {ora : Frame V Col} (hH : H.Good D) (hobs : ((dkeys ora).map obs).Perm (H.at 0))
    (ho : ∀ l, (env.order l).Perm l) (hi : ∀ l, (env.idxOrder l).Perm l) (hln : Function.Injective env.lname)
    (hnames : ∀ m, env.lname m ∉ dkeys ora) (hE : Exact env ora fun u v => H.cov (obs u) (obs v)) (hrows : 1 < env.rows) {fuel : Nat} (hf : D < fuel) :
    ∃ (s : State V Col) (φ : V → N) (R : List V), run env ora fuel { data := ora } = .ok s ∧ (∀ v ∈ dkeys ora, φ v = obs v) ∧
      (dkeys s.latent).Nodup ∧ ((dkeys s.latent).map φ).Perm (H.nodes.filter fun a => 0 < H.level a) ∧
      (∀ L cs, dget s.latent L = some cs → (∀ c ∈ cs, c ∈ dkeys ora ∨ c ∈ dkeys s.latent) ∧ (cs.map φ).Perm (H.children (φ L))) ∧
      s.impures = [R] ∧ (R.map φ).Perm (H.at D) := by
  have hI : Inv H obs env ora 0 { data := ora } obs id := by
    have h0 : ∀ v ∈ dkeys ora, H.level (obs v) = 0 := fun v hv => (mem_at.1 (obs_at hobs hv)).2
    constructor
    case obs_eq => exact fun v _ => ⟨rfl, rfl⟩
    case lat_nodup => exact List.nodup_nil
    case fresh => exact fun v hv => absurd hv List.not_mem_nil
    case lat =>
      have : H.nodes.filter (fun a => decide (0 < H.level a ∧ H.level a ≤ 0)) = [] := by
        rw [List.filter_eq_nil_iff]
        intro a _
        simp only [decide_eq_true_eq]
        omega
      rw [this]
      exact List.Perm.refl _
    case kids => exact fun L cs h => by cases h
    case sur_ok =>
      rintro v (hv | hv)
      · refine ⟨hv, ?_⟩
        rw [h0 v hv]
        rfl
      · exact absurd hv List.not_mem_nil
    case data => exact hobs
    case known => exact fun v hv => Or.inl hv
    case col => exact fun v _ => rfl
    case impures => rfl
    case depth => exact Nat.le_refl _
  obtain ⟨s, φ, sur, R, h1, h2, h3, h4⟩ := tree_run hH hobs ho hi hln hnames hE hrows (k := 0) (j := D) (by omega) hf hI
  refine ⟨s, φ, R, h1, fun v hv => (h2.obs_eq v hv).1, h2.lat_nodup, ?_, fun L cs h => ⟨(h2.kids L cs h).2.1, (h2.kids L cs h).1⟩, h3, ?_⟩
  · have e : H.nodes.filter (fun a => decide (0 < H.level a)) = H.nodes.filter fun a => decide (0 < H.level a ∧ H.level a ≤ D) := by
      apply List.filter_congr
      intro a ha
      have := hH.bound a ha
      simp only [decide_eq_decide]
      omega
    rw [e]
    exact h2.lat
  · rw [h4]
    exact h2.data

/-- C166. Two latent variables with two measured variables each are reported as one latent variable with four. -/
theorem c166_two_false {L : Type} {env : Env V Col} (ho : ∀ l, (env.order l).Perm l) (hi : ∀ l, (env.idxOrder l).Perm l) {d : Frame V Col}
    (hd : (dkeys d).Nodup) {M : Measured V L} (hM : M.Pure (dkeys d)) (hE : Exact env d M.cov) (h4 : (dkeys d).length = 4) {q r : L}
    (hqr : ∃ u ∈ dkeys d, ∃ v ∈ dkeys d, M.latent u = q ∧ M.latent v = r ∧ q ≠ r) (hL : ∀ v ∈ dkeys d, M.latent v = q ∨ M.latent v = r)
    (hrows : 1 < env.rows) (fuel : Nat) :
    ∃ s C, run env d (fuel + 2) { data := d } = .ok s ∧ s.latent = [(env.lname 1, C)] ∧ C.Perm (dkeys d) := by
  obtain ⟨f, np, ni, hf, hS, hdis, hcl, hpu, him, hperm, -⟩ := c165_find ho hi hd hM.good hE h4.ge [] []
  obtain ⟨f', ni', hf', him', hall'⟩ := c165_two_false ho hi hd hM hE h4.ge hL [] []
  rw [hf] at hf'
  cases hf'
  rw [List.nil_append] at hpu him him'
  have hnd : f.learned.Nodup := by
    refine hdis.imp_of_mem fun {S T} hSm hTm h e => ?_
    obtain ⟨v, hv⟩ := List.exists_mem_of_length_pos (by have := (hS S hSm).2.1; omega : 0 < S.length)
    exact h v hv (e ▸ hv)
  have hfl : f.learned.flatten.Perm (dkeys d) := by
    refine (List.perm_ext_iff_of_nodup (List.nodup_flatten.2 ⟨fun S h => (hS S h).1, hdis.imp fun h x hx hy => h x hx hy⟩) hd).2 fun v => ?_
    rw [List.mem_flatten]
    constructor
    · rintro ⟨S, h, hv⟩
      exact (hS S h).2.2 v hv
    · intro hv
      obtain ⟨S, h, h1, -⟩ := (hcl v hv v hv).2 rfl
      exact ⟨S, h, h1⟩
  have hlen := hfl.length_eq
  rw [h4] at hlen
  obtain ⟨u, hu, v, hv, e1, e2, e3⟩ := hqr
  obtain ⟨S, hSm, huS, -⟩ := (hcl u hu u hu).2 rfl
  obtain ⟨T, hTm, hvT, -⟩ := (hcl v hv v hv).2 rfl
  have hST : S ≠ T := fun e => e3 (by
    have := (hcl u hu v hv).1 ⟨S, hSm, huS, e ▸ hvT⟩
    rwa [e1, e2] at this)
  obtain ⟨A, B, hAB⟩ : ∃ A B, f.learned = [A, B] := by
    have h2 : ∀ X ∈ f.learned, 2 ≤ X.length := fun X h => (hS X h).2.1
    match hl : f.learned with
    | [] => rw [hl] at hSm; cases hSm
    | [X] =>
      rw [hl] at hSm hTm
      simp only [List.mem_singleton] at hSm hTm
      exact absurd (hSm.trans hTm.symm) hST
    | [A, B] => exact ⟨A, B, rfl⟩
    | X :: Y :: Z :: l =>
      rw [hl] at h2 hlen
      have g1 := h2 X (by simp)
      have g2 := h2 Y (by simp)
      have g3 := h2 Z (by simp)
      simp only [List.flatten_cons, List.length_append] at hlen
      omega
  have hAl : A.length = 2 ∧ B.length = 2 := by
    have g1 := (hS A (by rw [hAB]; simp)).2.1
    have g2 := (hS B (by rw [hAB]; simp)).2.1
    rw [hAB] at hlen
    simp only [List.flatten_cons, List.flatten_nil, List.length_append, List.length_nil] at hlen
    omega
  have hAi : A ∈ f.impures := by rw [him']; exact hall' A (by rw [hAB]; simp) hAl.1
  have hBi : B ∈ f.impures := by rw [him']; exact hall' B (by rw [hAB]; simp) hAl.2
  have hp0 : f.pures = [] := by
    have h1 : [A, B].Subperm ni := by
      refine List.subperm_of_subset (hAB ▸ hnd) fun X hX => ?_
      rw [← him]
      rcases List.mem_cons.1 hX with rfl | hX
      · exact hAi
      · rw [List.mem_singleton.1 hX]
        exact hBi
    have h2 := h1.length_le
    have h3 := hperm.length_eq
    rw [hAB, List.length_append] at h3
    rw [hpu]
    apply List.eq_nil_of_length_eq_zero
    simp at h2 h3
    omega
  rw [hAB] at hfl
  simp only [List.flatten_cons, List.flatten_nil, List.append_nil] at hfl
  have hrest : ∀ p : V → Prop, [DecidablePred p] → (∀ v, p v → v ∉ A ++ B) → env.order ((dkeys d).filter fun v => p v) = [] := by
    intro p _ hp
    have : (dkeys d).filter (fun v => decide (p v)) = [] := by
      rw [List.filter_eq_nil_iff]
      intro v hv
      rw [decide_eq_true_eq]
      exact fun h => hp v h (hfl.mem_iff.2 hv)
    rw [this]
    exact List.perm_nil.1 (ho [])
  obtain ⟨a, a', rfl⟩ := List.length_eq_two.1 hAl.1
  obtain ⟨b, b', rfl⟩ := List.length_eq_two.1 hAl.2
  have hcA : contains [a, a'] f.impures = true := contains_mem hAi
  have hcB : contains [b, b'] f.impures = true := contains_mem hBi
  have hdet : ∀ l e, detect env d d [] f.pures f.impures [] l e = .ok e := by
    intro l
    induction l with
    | nil => intro e; rfl
    | cons S l ih =>
      intro e
      unfold detect outerOf
      rw [inner_nil]
      split <;> exact ih e
  set C := env.order (pySet ([b, b'] ++ [a, a'])) with hC
  have hCp : C.Perm (dkeys d) := by
    have hn : ([b, b'] ++ [a, a']).Nodup := (List.perm_append_comm.trans hfl).nodup_iff.2 hd
    rw [hC, pySet_of_nodup _ hn]
    exact (ho _).trans (List.perm_append_comm.trans hfl)
  have hmerge : mergeCausalCluster env d d [] f = .ok ({ merge := [C] }, f.impures) := by
    have hrem : env.order ((dkeys d).filter fun v => v ∉ f.learned.flatten) = [] := hrest _ fun v h => by
      simpa [hAB] using h
    have hm : mayMerge env d [] f.impures [b, b'] [a, a'] = .ok true := by
      unfold mayMerge
      rw [hcA, hcB]
      have h0 : ∀ X : List V, contains X [] = false := fun X => rfl
      simp only [h0, Bool.false_and, Bool.false_eq_true, if_false, Bool.and_self, if_true]
      unfold testImpureWithImpure
      have h1 := hrest (fun v => v ∉ [b, b'] ∧ v ∉ [a, a']) fun v h => by
        simp only [List.mem_append, not_or]
        exact ⟨h.2, h.1⟩
      dsimp only
      rw [h1]
      rfl
    unfold mergeCausalCluster
    have hemp : f.learned.isEmpty = false := by rw [hAB]; rfl
    simp only [hemp, hrem, Bool.false_eq_true, if_false, hdet, bind, Except.bind]
    rw [hAB, hp0]
    have hh : hope env d [] f.impures [b, b'] [[a, a']] = .ok [[a, a']] := by
      unfold hope
      rw [hm]
      rfl
    simp only [List.reverse_cons, List.reverse_nil, List.nil_append, List.cons_append, List.length_cons, List.length_nil]
    unfold mergeLoop
    simp only [List.reverse_cons, List.reverse_nil, List.nil_append, hh, bind, Except.bind, List.isEmpty_cons, Bool.false_eq_true, if_false]
    simp [moveEarly, earlyOf, byDict, bind, Except.bind, pure, Except.pure, mergeLoop, hC]
  obtain ⟨w, t, hw⟩ := List.exists_cons_of_ne_nil (l := C) (by
    intro e
    rw [e] at hCp
    have := hCp.length_eq
    simp [h4] at this)
  obtain ⟨c, hc⟩ : ∃ c, dget d w = some c := Option.isSome_iff_exists.1 ((mem_dkeys_iff d w).1 (hCp.mem_iff.1 (by rw [hw]; simp)))
  have hup : updateData env { merge := [C] } 1 d = .ok ([(env.lname 1, c)], 2, [(env.lname 1, C)]) := by
    have h1 := hrest (fun v => v ∉ ([] : List V) ∧ v ∉ C) fun v h h' => h.2 (hCp.mem_iff.2 (hfl.mem_iff.1 h'))
    unfold updateData
    simp only [List.map_nil, List.flatten_nil, List.append_nil, List.flatten_cons, h1]
    rw [hw]
    simp [introduce, select, hc, dgetE, dset, bind, Except.bind, pure, Except.pure]
  have hpass : pass env d { data := d } = .ok (⟨[(env.lname 1, c)], [], f.impures, 2, [(env.lname 1, C)]⟩, true) := by
    unfold pass
    simp only [hf, hmerge, bind, Except.bind, hup, hp0, List.isEmpty_cons, Bool.false_and, Bool.false_eq_true, if_false, hrows, decide_true]
    rfl
  have hrun := c97_stop (ora := d) (s := ⟨[(env.lname 1, c)], [], f.impures, 2, [(env.lname 1, C)]⟩) (find_few ho (by simp [dkeys]) _ _) rfl fuel
  refine ⟨⟨[(env.lname 1, c)], [], f.impures ++ [[env.lname 1]], 2, [(env.lname 1, C)]⟩, C, ?_, rfl, hCp⟩
  unfold run
  rw [hpass]
  exact hrun

end Cdmir.Hier
