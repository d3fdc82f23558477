import Verif.Props.HierFind
import Verif.Spec.Measured

/-! Property C165: what `FindCausalCluster` finds in data of a measurement model. -/

set_option linter.unusedSectionVars false

namespace Cdmir.Hier
open Cdmir.Tetrad (allE anyE)

variable {V Col L : Type} [LinearOrder V]

theorem rest_mem {env : Env V Col} (ho : ∀ l, (env.order l).Perm l) {d : Frame V Col} {S : List V} {k l : V}
    (hd : (dkeys d).Nodup) (h : [k, l].Sublist (env.order ((dkeys d).filter fun v => v ∉ S))) :
    k ∈ dkeys d ∧ l ∈ dkeys d ∧ k ∉ S ∧ l ∉ S ∧ k ≠ l := by
  have hk : k ∈ (dkeys d).filter fun v => v ∉ S := (ho _).mem_iff.1 (h.subset (by simp))
  have hl : l ∈ (dkeys d).filter fun v => v ∉ S := (ho _).mem_iff.1 (h.subset (by simp))
  rw [List.mem_filter] at hk hl
  exact ⟨hk.1, hl.1, by simpa using hk.2, by simpa using hl.2, two_ne ((ho _).nodup_iff.2 (hd.filter _)) h⟩

/-- C165: a pair of columns passes exactly if both measure the same latent variable. -/
theorem c165_pair {env : Env V Col} (ho : ∀ l, (env.order l).Perm l) {d : Frame V Col} (hd : (dkeys d).Nodup) {M : Measured V L}
    (hM : M.Good (dkeys d)) (hE : Exact env d M.cov) (h4 : 4 ≤ (dkeys d).length) {x y : V} (hx : x ∈ dkeys d) (hy : y ∈ dkeys d) (hxy : x ≠ y) :
    ∃ b, check env d [x, y] = .ok b ∧ (b = true ↔ M.latent x = M.latent y) := by
  have hsub : [x, y].Subperm (dkeys d) := List.subperm_of_subset (by simp [hxy]) (by simp [hx, hy])
  have hlen : 2 ≤ ((dkeys d).filter fun v => v ∉ [x, y]).length := by
    have h1 := List.length_eq_length_filter_add (l := dkeys d) (fun v => decide (v ∉ [x, y]))
    have h2 : ((dkeys d).filter fun v => !decide (v ∉ [x, y])).length ≤ 2 := by
      have : ((dkeys d).filter fun v => !decide (v ∉ [x, y])).Subperm [x, y] :=
        List.subperm_of_subset (hd.filter _) fun v hv => by
          have := (List.mem_filter.1 hv).2
          simpa using this
      exact this.length_le
    omega
  have hok : ∃ b, check env d [x, y] = .ok b := by
    unfold check Tetrad.checkCausalCluster
    simp only [(ho _).length_eq]
    rw [if_neg (by omega)]
    have hp : pairs [x, y] = [(x, y)] := by simp [pairs]
    rw [hp]
    have : ∃ g : V × V → Bool, ∀ t ∈ pairs (env.order ((dkeys d).filter fun v => v ∉ [x, y])), vanE env d x y t.1 t.2 = .ok (g t) := by
      classical
      refine ⟨fun t => if vanE env d x y t.1 t.2 = .ok true then true else false, fun t ht => ?_⟩
      obtain ⟨h1, h2, h3, h5, h6⟩ := rest_mem ho hd (pairs_sublist.1 ht)
      simp only [List.mem_cons, List.not_mem_nil, or_false, not_or] at h3 h5
      obtain ⟨b, hb, -⟩ := hE x hx y hy t.1 h1 t.2 h2 (by simp [hxy, h6, Ne.symm h3.1, Ne.symm h3.2, Ne.symm h5.1, Ne.symm h5.2])
      rw [hb]
      cases b <;> simp [hb]
    obtain ⟨g, hg⟩ := this
    refine ⟨(pairs (env.order ((dkeys d).filter fun v => v ∉ [x, y]))).all g && true, ?_⟩
    unfold allE
    simp only [Tetrad.allE_ok hg]
    cases (pairs (env.order ((dkeys d).filter fun v => v ∉ [x, y]))).all g <;> rfl
  obtain ⟨b, hb⟩ := hok
  refine ⟨b, hb, ?_⟩
  have e : b = true ↔ Passes env d [x, y] := by
    rw [← check_iff ho, hb]
    simp
  rw [e]
  constructor
  · rintro ⟨-, h⟩
    by_contra hne
    obtain ⟨k, hk, hkx, hlk⟩ := hM.two x hx
    obtain ⟨l, hl, hly, hll⟩ := hM.two y hy
    have hkl : k ≠ l := fun e => hne (by rw [← hlk, ← hll, e])
    have hky : k ≠ y := fun e => hne (by rw [← hlk, e])
    have hlx : l ≠ x := fun e => hne (by rw [← hll, e])
    have hk' : k ∈ env.order ((dkeys d).filter fun v => v ∉ [x, y]) := (ho _).mem_iff.2 (by simp [hk, hkx, hky])
    have hl' : l ∈ env.order ((dkeys d).filter fun v => v ∉ [x, y]) := (ho _).mem_iff.2 (by simp [hl, hlx, hly])
    have hap := hM.apart x hx k hk y hy l hl hkx.symm hly.symm hlk hll hne
    rcases two_order hk' hl' hkl with hs | hs
    · have h1 := h x y (List.Sublist.refl _) k l hs
      obtain ⟨b', hb', hiff⟩ := hE x hx y hy k hk l hl (by simp [hxy, hkl, Ne.symm hkx, Ne.symm hky, Ne.symm hlx, Ne.symm hly])
      rw [h1] at hb'
      cases hb'
      exact hap (hiff.1 rfl)
    · have h1 := h x y (List.Sublist.refl _) l k hs
      obtain ⟨b', hb', hiff⟩ := hE x hx y hy l hl k hk (by simp [hxy, Ne.symm hkl, Ne.symm hkx, Ne.symm hky, Ne.symm hlx, Ne.symm hly])
      rw [h1] at hb'
      cases hb'
      exact hap (hiff.1 rfl).symm
  · intro he
    refine ⟨hlen, fun i j hij k l hkl => ?_⟩
    obtain ⟨h1, h2, h3, h5, h6⟩ := rest_mem ho hd hkl
    simp only [List.mem_cons, List.not_mem_nil, or_false, not_or] at h3 h5
    have hij' : i = x ∧ j = y := by
      have := hij.eq_of_length (by simp)
      simpa using this
    obtain ⟨rfl, rfl⟩ := hij'
    obtain ⟨b', hb', hiff⟩ := hE i hx j hy k h1 l h2 (by simp [hxy, h6, Ne.symm h3.1, Ne.symm h3.2, Ne.symm h5.1, Ne.symm h5.2])
    have hno : ∀ u ∈ dkeys d, ∀ w ∈ dkeys d, (u = i ∨ u = j) → w ≠ i → w ≠ j → M.noise u w = 0 := by
      intro u hu w hw huu hwi hwj
      by_contra hn
      obtain ⟨e1, e2⟩ := hM.noise u hu w hw (by rcases huu with rfl | rfl; exacts [hwi.symm, hwj.symm]) hn
      rcases huu with rfl | rfl
      · rcases e2 j hy he.symm with e3 | e3
        · exact hxy e3.symm
        · exact hwj e3.symm
      · rcases e2 i hx he with e3 | e3
        · exact hxy e3
        · exact hwi e3.symm
    have : M.cov i k * M.cov j l = M.cov i l * M.cov j k := by
      unfold Measured.cov
      rw [hno i hx k h1 (Or.inl rfl) h3.1 h3.2, hno j hy l h2 (Or.inr rfl) h5.1 h5.2, hno i hx l h2 (Or.inl rfl) h5.1 h5.2,
        hno j hy k h1 (Or.inr rfl) h3.1 h3.2, he]
      ring
    rw [hb', hiff.2 this]

theorem pairPass_ok {env : Env V Col} {d : Frame V Col} {l : List (List V)} (h : ∀ S ∈ l, ∃ b, check env d S = .ok b) :
    ∃ ps, pairPass env d l = .ok ps := by
  induction l with
  | nil => exact ⟨[], rfl⟩
  | cons S l ih =>
    obtain ⟨b, hb⟩ := h S (by simp)
    obtain ⟨ps, hps⟩ := ih fun T hT => h T (List.mem_cons_of_mem _ hT)
    unfold pairPass
    rw [hb, hps]
    cases b
    · exact ⟨ps, rfl⟩
    · exact ⟨S :: ps, rfl⟩

theorem record_ok {env : Env V Col} {d : Frame V Col} {l : List (List V)} (h : ∀ S ∈ l, S.length ≤ 2 → ∃ b, judge env d S = .ok b)
    (st : List (List V) × List (List V)) : ∃ st', record env d l st = .ok st' := by
  induction l generalizing st with
  | nil => exact ⟨st, rfl⟩
  | cons S l ih =>
    have ih' := fun st => ih (fun T hT => h T (List.mem_cons_of_mem _ hT)) st
    unfold record
    by_cases hS : 2 < S.length
    · rw [if_pos hS]
      exact ih' _
    · rw [if_neg hS]
      obtain ⟨b, hb⟩ := h S (by simp) (by omega)
      rw [hb]
      cases b
      · exact ih' _
      · exact ih' _

/-- The verdict on the purity of a pair. -/
theorem judge_exact {env : Env V Col} (ho : ∀ l, (env.order l).Perm l) {d : Frame V Col} (hd : (dkeys d).Nodup) {σ : V → V → ℝ}
    (hE : Exact env d σ) {x y : V} (hx : x ∈ dkeys d) (hy : y ∈ dkeys d) (hxy : x ≠ y) :
    ∃ b, judge env d [x, y] = .ok b ∧ (b = true ↔ ∃ k s, [k, s].Sublist (env.order ((dkeys d).filter fun v => v ∉ [x, y])) ∧
      σ x y * σ k s = σ x s * σ k y) := by
  have key : ∀ k s, [k, s].Sublist (env.order ((dkeys d).filter fun v => v ∉ [x, y])) →
      ∃ b, vanE env d x k y s = .ok b ∧ (b = true ↔ σ x y * σ k s = σ x s * σ k y) := by
    intro k s hks
    obtain ⟨h1, h2, h3, h5, h6⟩ := rest_mem ho hd hks
    simp only [List.mem_cons, List.not_mem_nil, or_false, not_or] at h3 h5
    exact hE x hx k h1 y hy s h2 (by simp [hxy, h6, h3.2, Ne.symm h3.1, Ne.symm h5.1, Ne.symm h5.2])
  unfold judge Tetrad.judgePureCluster
  simp only
  have : ∃ g : V × V → Bool, ∀ t ∈ pairs (env.order ((dkeys d).filter fun v => v ∉ [x, y])), vanE env d x t.1 y t.2 = .ok (g t) ∧
      (g t = true ↔ σ x y * σ t.1 t.2 = σ x t.2 * σ t.1 y) := by
    classical
    refine ⟨fun t => if vanE env d x t.1 y t.2 = .ok true then true else false, fun t ht => ?_⟩
    obtain ⟨b, hb, hi⟩ := key t.1 t.2 (pairs_sublist.1 ht)
    rw [hb, ← hi]
    cases b <;> simp [hb]
  obtain ⟨g, hg⟩ := this
  refine ⟨_, Tetrad.anyE_ok fun t ht => (hg t ht).1, ?_⟩
  rw [List.any_eq_true]
  constructor
  · rintro ⟨t, ht, h⟩
    exact ⟨t.1, t.2, pairs_sublist.1 ht, (hg t ht).2.1 h⟩
  · rintro ⟨k, s, hks, h⟩
    exact ⟨(k, s), pairs_sublist.2 hks, (hg _ (pairs_sublist.2 hks)).2.2 h⟩

/-- **C165: `FindCausalCluster` finds the clusters.** With exact tests and at least four columns it returns. The clusters it learns are the sets of columns that
measure one latent variable, each once. A cluster is recorded as impure exactly if it has two variables and no tetrad difference that pairs them vanishes. -/
theorem c165_find {env : Env V Col} (ho : ∀ l, (env.order l).Perm l) (hi : ∀ l, (env.idxOrder l).Perm l) {d : Frame V Col} (hd : (dkeys d).Nodup)
    {M : Measured V L} (hM : M.Good (dkeys d)) (hE : Exact env d M.cov) (h4 : 4 ≤ (dkeys d).length) (p i : List (List V)) :
    ∃ f np ni, findCausalCluster env d p i = .ok f ∧
      (∀ S ∈ f.learned, S.Nodup ∧ 2 ≤ S.length ∧ ∀ v ∈ S, v ∈ dkeys d) ∧ f.learned.Pairwise (fun S T => ∀ x, x ∈ S → x ∉ T) ∧
      (∀ x ∈ dkeys d, ∀ y ∈ dkeys d, (∃ S ∈ f.learned, x ∈ S ∧ y ∈ S) ↔ M.latent x = M.latent y) ∧
      f.pures = p ++ np ∧ f.impures = i ++ ni ∧ (np ++ ni).Perm f.learned ∧
      ∀ S ∈ f.learned, S ∈ ni ↔ ∃ x y, S = [x, y] ∧ ∀ k ∈ dkeys d, ∀ s ∈ dkeys d, k ∉ S → s ∉ S → k ≠ s →
        M.cov x y * M.cov k s ≠ M.cov x s * M.cov k y := by
  have hpair := fun {x y} hx hy hxy => c165_pair ho hd hM hE h4 (x := x) (y := y) hx hy hxy
  obtain ⟨ps, hps⟩ : ∃ ps, pairPass env d (combinations (dkeys d) 2) = .ok ps := by
    refine pairPass_ok fun S hS => ?_
    obtain ⟨hs, hl⟩ := mem_combinations_iff.1 hS
    obtain ⟨x, y, rfl⟩ := List.length_eq_two.1 hl
    obtain ⟨b, hb, -⟩ := hpair (hs.subset (by simp)) (hs.subset (by simp)) (two_ne hd hs)
    exact ⟨b, hb⟩
  have hmem := pair_mem ho hps
  have hmem' : ∀ x y, [x, y] ∈ ps ↔ [x, y].Sublist (dkeys d) ∧ M.latent x = M.latent y := by
    intro x y
    rw [hmem]
    have : ∀ {x y}, [x, y].Sublist (dkeys d) → (Passes env d [x, y] ↔ M.latent x = M.latent y) := by
      intro x y hs
      obtain ⟨b, hb, h⟩ := hpair (hs.subset (by simp)) (hs.subset (by simp)) (two_ne hd hs)
      rw [← check_iff ho, hb, ← h]
      simp
    constructor
    · rintro ⟨a, b, e, hs, hp⟩
      cases e
      exact ⟨hs, (this hs).1 hp⟩
    · rintro ⟨hs, he⟩
      exact ⟨x, y, rfl, hs, (this hs).2 he⟩
  have htwo : ∀ c ∈ ps, c.Nodup ∧ c.length = 2 := by
    intro c hc
    obtain ⟨x, y, rfl, hs, -⟩ := (hmem c).1 hc
    exact ⟨hd.sublist hs, rfl⟩
  obtain ⟨merged, hm, -⟩ := Merge.c40_merge_list env.idxOrder hi ps
  obtain ⟨m1, m2, m3, m4⟩ := merge_two hi htwo hm
  have hlink : ∀ a b, (∃ c ∈ ps, a ∈ c ∧ b ∈ c) → a ∈ dkeys d ∧ b ∈ dkeys d ∧ M.latent a = M.latent b := by
    rintro a b ⟨c, hc, ha, hb⟩
    obtain ⟨x, y, rfl, hs, -⟩ := (hmem c).1 hc
    have he := ((hmem' x y).1 hc).2
    refine ⟨hs.subset ha, hs.subset hb, ?_⟩
    simp only [List.mem_cons, List.not_mem_nil, or_false] at ha hb
    rcases ha with rfl | rfl <;> rcases hb with rfl | rfl
    exacts [rfl, he, he.symm, rfl]
  have hlink' : ∀ a ∈ dkeys d, ∀ b ∈ dkeys d, a ≠ b → M.latent a = M.latent b → ∃ c ∈ ps, a ∈ c ∧ b ∈ c := by
    intro a ha b hb hab he
    rcases two_order ha hb hab with hs | hs
    · exact ⟨[a, b], (hmem' a b).2 ⟨hs, he⟩, by simp, by simp⟩
    · exact ⟨[b, a], (hmem' b a).2 ⟨hs, he.symm⟩, by simp, by simp⟩
  have hcols : ∀ S ∈ merged, ∀ v ∈ S, v ∈ dkeys d := by
    intro S hS v hv
    obtain ⟨c, hc, hvc⟩ := (m3 v).1 ⟨S, hS, hv⟩
    exact (hlink v v ⟨c, hc, hvc, hvc⟩).1
  have hclass : ∀ x ∈ dkeys d, ∀ y ∈ dkeys d, (∃ S ∈ merged, x ∈ S ∧ y ∈ S) ↔ M.latent x = M.latent y := by
    intro x hx y hy
    rw [m4]
    constructor
    · intro h
      clear hy
      induction h with
      | single h => exact (hlink _ _ h).2.2
      | tail _ h ih => exact ih.trans (hlink _ _ h).2.2
    · intro he
      by_cases hxy : x = y
      · subst hxy
        obtain ⟨w, hw, hwx, hl⟩ := hM.two x hx
        exact .tail (.single (hlink' x hx w hw hwx.symm hl.symm)) (hlink' w hw x hx hwx hl)
      · exact .single (hlink' x hx y hy hxy he)
  have hjudge : ∀ S ∈ merged, S.length ≤ 2 → ∃ x y, S = [x, y] ∧ x ∈ dkeys d ∧ y ∈ dkeys d ∧ x ≠ y := by
    intro S hS hl
    obtain ⟨hn, h2⟩ := m1 S hS
    obtain ⟨x, y, rfl⟩ := List.length_eq_two.1 (by omega : S.length = 2)
    exact ⟨x, y, rfl, hcols _ hS x (by simp), hcols _ hS y (by simp), by simpa using hn⟩
  obtain ⟨⟨p', i'⟩, hr⟩ := record_ok (env := env) (d := d) (l := merged) (fun S hS hl => by
    obtain ⟨x, y, rfl, hx, hy, hxy⟩ := hjudge S hS hl
    obtain ⟨b, hb, -⟩ := judge_exact ho hd hE hx hy hxy
    exact ⟨b, hb⟩) (p, i)
  obtain ⟨np, ni, h1, h2, h3, h5⟩ := record_spec hr
  cases h1
  have hB : (if ps.isEmpty then dkeys d else env.order ((dkeys d).filter fun v => v ∉ ps.flatten)) = [] := by
    have hall : ∀ v ∈ dkeys d, v ∈ ps.flatten := by
      intro v hv
      obtain ⟨w, hw, hwv, hl⟩ := hM.two v hv
      obtain ⟨c, hc, h, -⟩ := hlink' v hv w hw hwv.symm hl.symm
      exact List.mem_flatten.2 ⟨c, hc, h⟩
    have hne : ps ≠ [] := by
      rintro rfl
      obtain ⟨v, hv⟩ := List.exists_mem_of_length_pos (by omega : 0 < (dkeys d).length)
      simpa using hall v hv
    rw [if_neg (by simpa [List.isEmpty_iff] using hne)]
    have : (dkeys d).filter (fun v => v ∉ ps.flatten) = [] := by
      rw [List.filter_eq_nil_iff]
      intro v hv
      simpa using hall v hv
    rw [this]
    exact List.Perm.eq_nil (ho [])
  have hfind : findCausalCluster env d p i = .ok ⟨merged, p ++ np, i ++ ni⟩ := by
    unfold findCausalCluster
    change (pairPass env d (combinations (dkeys d) 2) >>= _) = _
    rw [hps]
    change (Merge.mergeList env.idxOrder ps >>= _) = _
    rw [hm]
    change (record env d merged (p, i) >>= _) = _
    rw [hr]
    change (sizeLoop env d (dkeys d).length 3 [] (if ps.isEmpty then dkeys d else env.order ((dkeys d).filter fun v => v ∉ ps.flatten)) >>= _) = _
    rw [hB]
    have : sizeLoop env d (dkeys d).length 3 [] [] = .ok [] := by
      cases hl : (dkeys d).length with
      | zero => rfl
      | succ n =>
        unfold sizeLoop
        rw [if_neg (by simp)]
        rfl
    rw [this]
    change Except.ok _ = _
    simp
  refine ⟨_, np, ni, hfind, fun S hS => ⟨(m1 S hS).1, (m1 S hS).2, hcols S hS⟩, m2, hclass, rfl, rfl, h2, fun S hS => ?_⟩
  constructor
  · intro hni
    obtain ⟨hl, hj⟩ := h5 S hni
    obtain ⟨x, y, rfl, hx, hy, hxy⟩ := hjudge S hS hl
    refine ⟨x, y, rfl, fun k hk s hs hkS hsS hks => ?_⟩
    obtain ⟨b, hb, hiff⟩ := judge_exact ho hd hE hx hy hxy
    rw [hj] at hb
    cases hb
    intro he
    have hk' : k ∈ env.order ((dkeys d).filter fun v => v ∉ [x, y]) := (ho _).mem_iff.2 (List.mem_filter.2 ⟨hk, by simpa using hkS⟩)
    have hs' : s ∈ env.order ((dkeys d).filter fun v => v ∉ [x, y]) := (ho _).mem_iff.2 (List.mem_filter.2 ⟨hs, by simpa using hsS⟩)
    rcases two_order hk' hs' hks with h | h
    · exact absurd (hiff.2 ⟨k, s, h, he⟩) (by simp)
    · refine absurd (hiff.2 ⟨s, k, h, ?_⟩) (by simp)
      simp only [List.mem_cons, List.not_mem_nil, or_false, not_or] at hkS hsS
      have hsame : M.latent x = M.latent y := (hclass x hx y hy).1 ⟨_, hS, by simp, by simp⟩
      have hno : ∀ u w, u ∈ dkeys d → w ∈ dkeys d → (u = x ∨ u = y) → w ≠ x → w ≠ y → M.noise u w = 0 := by
        intro u w hu hw huu hwx hwy
        by_contra hn
        obtain ⟨e1, e2⟩ := hM.noise u hu w hw (by rcases huu with rfl | rfl; exacts [hwx.symm, hwy.symm]) hn
        rcases huu with rfl | rfl
        · rcases e2 y hy hsame.symm with e3 | e3
          exacts [hxy e3.symm, hwy e3.symm]
        · rcases e2 x hx hsame with e3 | e3
          exacts [hxy e3, hwx e3.symm]
      have hc : ∀ w ∈ dkeys d, w ≠ x → w ≠ y → M.cov x w = M.load x * M.load w * M.lcov (M.latent x) (M.latent w) ∧
          M.cov w y = M.load y * M.load w * M.lcov (M.latent x) (M.latent w) := by
        intro w hw hwx hwy
        rw [hM.symm w hw y hy]
        unfold Measured.cov
        rw [hno x w hx hw (Or.inl rfl) hwx hwy, hno y w hy hw (Or.inr rfl) hwx hwy, ← hsame]
        constructor <;> ring
      rw [hM.symm s hs k hk, he, (hc s hs hsS.1 hsS.2).1, (hc k hk hkS.1 hkS.2).1, (hc s hs hsS.1 hsS.2).2, (hc k hk hkS.1 hkS.2).2]
      ring
  · rintro ⟨x, y, rfl, hno⟩
    have hmem : [x, y] ∈ np ++ ni := h2.mem_iff.2 hS
    rcases List.mem_append.1 hmem with h | h
    · exfalso
      obtain ⟨b, hb, hiff⟩ := judge_exact ho hd hE (hcols _ hS x (by simp)) (hcols _ hS y (by simp)) (by simpa using (m1 _ hS).1)
      rw [h3 _ h (by simp)] at hb
      cases hb
      obtain ⟨k, s, hks, he⟩ := hiff.1 rfl
      obtain ⟨g1, g2, g3, g5, g6⟩ := rest_mem ho hd hks
      exact hno k g1 s g2 g3 g5 g6 he
    · exact h

/-- C165 without correlated noise: a pure cluster is recorded as impure exactly if it has two variables and its latent variable separates no two of the
other columns. -/
theorem c165_pure {env : Env V Col} (ho : ∀ l, (env.order l).Perm l) (hi : ∀ l, (env.idxOrder l).Perm l) {d : Frame V Col} (hd : (dkeys d).Nodup)
    {M : Measured V L} (hM : M.Pure (dkeys d)) (hE : Exact env d M.cov) (h4 : 4 ≤ (dkeys d).length) (p i : List (List V)) :
    ∃ f np ni, findCausalCluster env d p i = .ok f ∧ f.pures = p ++ np ∧ f.impures = i ++ ni ∧ (np ++ ni).Perm f.learned ∧
      (∀ x ∈ dkeys d, ∀ y ∈ dkeys d, (∃ S ∈ f.learned, x ∈ S ∧ y ∈ S) ↔ M.latent x = M.latent y) ∧
      ∀ S ∈ f.learned, S ∈ ni ↔ S.length = 2 ∧ ∀ x ∈ S, ∀ k ∈ dkeys d, ∀ s ∈ dkeys d, k ∉ S → s ∉ S → k ≠ s →
        M.lcov (M.latent x) (M.latent x) * M.lcov (M.latent k) (M.latent s) ≠ M.lcov (M.latent x) (M.latent k) * M.lcov (M.latent x) (M.latent s) := by
  obtain ⟨f, np, ni, h1, h2, -, h3, h5, h6, h7, h8⟩ := c165_find ho hi hd hM.good hE h4 p i
  refine ⟨f, np, ni, h1, h5, h6, h7, h3, fun S hS => ?_⟩
  rw [h8 S hS]
  have key : ∀ x y k s, S = [x, y] → k ∈ dkeys d → s ∈ dkeys d → k ∉ S → s ∉ S → k ≠ s → (M.cov x y * M.cov k s = M.cov x s * M.cov k y ↔
      M.lcov (M.latent x) (M.latent x) * M.lcov (M.latent k) (M.latent s) = M.lcov (M.latent x) (M.latent k) * M.lcov (M.latent x) (M.latent s)) := by
    rintro x y k s rfl hk hs hkS hsS hks
    obtain ⟨hn, -, hc⟩ := h2 _ hS
    have hx := hc x (by simp)
    have hy := hc y (by simp)
    have hxy : x ≠ y := by simpa using hn
    have hsame := (h3 x hx y hy).1 ⟨_, hS, by simp, by simp⟩
    simp only [List.mem_cons, List.not_mem_nil, or_false, not_or] at hkS hsS
    rw [hM.cov hx hy hxy, hM.cov hk hs hks, hM.cov hx hs (Ne.symm hsS.1), hM.cov hk hy hkS.2, ← hsame, hM.lsymm k hk x hx]
    have hne : M.load x * M.load y * M.load k * M.load s ≠ 0 :=
      mul_ne_zero (mul_ne_zero (mul_ne_zero (hM.load x hx) (hM.load y hy)) (hM.load k hk)) (hM.load s hs)
    constructor
    · intro e
      apply mul_left_cancel₀ hne
      linear_combination e
    · intro e
      linear_combination (M.load x * M.load y * M.load k * M.load s) * e
  constructor
  · rintro ⟨x, y, rfl, h⟩
    refine ⟨rfl, fun z hz k hk s hs hkS hsS hks => ?_⟩
    have hzx : M.latent z = M.latent x := by
      have hc := (h2 _ hS).2.2
      exact (h3 z (hc z hz) x (hc x (by simp))).1 ⟨_, hS, hz, by simp⟩
    rw [hzx]
    exact fun e => h k hk s hs hkS hsS hks ((key x y k s rfl hk hs hkS hsS hks).2 e)
  · rintro ⟨hl, h⟩
    obtain ⟨x, y, rfl⟩ := List.length_eq_two.1 hl
    exact ⟨x, y, rfl, fun k hk s hs hkS hsS hks e => h x (by simp) k hk s hs hkS hsS hks ((key x y k s rfl hk hs hkS hsS hks).1 e)⟩

/-- **C165: pure clusters may be recorded as impure.** With two latent variables every cluster of two variables is, whatever the loads and covariances. -/
theorem c165_two_false {env : Env V Col} (ho : ∀ l, (env.order l).Perm l) (hi : ∀ l, (env.idxOrder l).Perm l) {d : Frame V Col} (hd : (dkeys d).Nodup)
    {M : Measured V L} (hM : M.Pure (dkeys d)) (hE : Exact env d M.cov) (h4 : 4 ≤ (dkeys d).length) {q r : L}
    (hL : ∀ v ∈ dkeys d, M.latent v = q ∨ M.latent v = r) (p i : List (List V)) :
    ∃ f ni, findCausalCluster env d p i = .ok f ∧ f.impures = i ++ ni ∧ ∀ S ∈ f.learned, S.length = 2 → S ∈ ni := by
  obtain ⟨f, np, ni, h1, h5, h6, h7, h3, h8⟩ := c165_pure ho hi hd hM hE h4 p i
  refine ⟨f, ni, h1, h6, fun S hS hl => (h8 S hS).2 ⟨hl, fun x hx k hk s hs hkS hsS hks => ?_⟩⟩
  obtain ⟨f', np', ni', g1, g2, g3, -⟩ := c165_find ho hi hd hM.good hE h4 p i
  rw [h1] at g1
  cases g1
  have hxd := (g2 S hS).2.2 x hx
  have hne : ∀ v ∈ dkeys d, v ∉ S → M.latent v ≠ M.latent x := by
    intro v hv hvS e
    obtain ⟨T, hT, hvT, hxT⟩ := (h3 v hv x hxd).2 e
    rw [pairwise_same g3 hS hT hx hxT] at hvS
    exact hvS hvT
  have hkk := hne k hk hkS
  have hss := hne s hs hsS
  have hk' : M.latent k = M.latent s := by
    rcases hL x hxd with e | e <;> rcases hL k hk with e1 | e1 <;> rcases hL s hs with e2 | e2 <;> rw [e] at hkk hss <;>
      first | exact absurd e1 hkk | exact absurd e2 hss | rw [e1, e2]
  have := hM.corr x hxd s hs hss.symm
  rw [hk']
  nlinarith

end Cdmir.Hier
