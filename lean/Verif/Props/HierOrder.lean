import Verif.Props.HierGraph
import Mathlib.Algebra.BigOperators.Group.List.Basic
import Mathlib.Algebra.Order.Field.Basic

/-! C101-C103: `Transfer2Index`, `LearnCausalOrder`, and the graph that is drawn from both. -/

set_option linter.unusedSectionVars false

namespace Cdmir.Hier

variable {V : Type} [DecidableEq V]

/-- The clusters of a dictionary, each with its number of latent variables. -/
def numbered (cluster : List (Nat × List (List V))) : List (Nat × List V) := cluster.flatMap fun e => e.2.map fun c => (e.1, c)

theorem dset_new (d : Dict V (List V)) (x : V) (w : List V) (h : x ∉ dkeys d) : dset d x w = d ++ [(x, w)] := by
  induction d with
  | nil => rfl
  | cons e t ih =>
    obtain ⟨k, v⟩ := e
    have h' : x ≠ k ∧ x ∉ dkeys t := by simpa [dkeys] using h
    unfold dset
    rw [if_neg (fun e => h'.1 e.symm), ih h'.2]
    rfl

theorem factor_spec {lname : Nat → V} (hl : Function.Injective lname) (clu : List V) (n i : Nat) (d : Dict V (List V))
    (h : ∀ j, i ≤ j → lname j ∉ dkeys d) :
    factor lname clu n i d = (i + n, d ++ ((List.range' i n).map lname).map (fun L => (L, clu)), (List.range' i n).map lname) := by
  induction n generalizing i d with
  | zero => simp [factor]
  | succ n ih =>
    unfold factor
    rw [ih (i + 1), dset_new d _ _ (h i le_rfl)]
    · simp [List.range'_succ, Nat.add_assoc, Nat.add_comm 1 n]
    · intro j hj
      rw [dset_new d _ _ (h i le_rfl)]
      unfold dkeys
      rw [List.map_append, List.mem_append]
      rintro (hm | hm)
      · exact h j (by omega) hm
      · simp only [List.map_cons, List.map_nil, List.mem_singleton] at hm
        have := hl hm
        omega

theorem factors_spec {lname : Nat → V} (hl : Function.Injective lname) (l : List (Nat × List V)) (i : Nat) (d : Dict V (List V))
    (share : List (List V)) (h : ∀ j, i ≤ j → lname j ∉ dkeys d) :
    ∃ D S, factors lname l i d share = (d ++ D, share ++ S) ∧ dkeys D = (List.range' i (l.map Prod.fst).sum).map lname ∧ S.flatten = dkeys D ∧
      List.Forall₂ (fun p (e : Nat × List V) => p.length = e.1 ∧ ∀ L ∈ p, (L, e.2) ∈ D) S l := by
  induction l generalizing i d share with
  | nil => exact ⟨[], [], by simp [factors], by simp [dkeys], rfl, .nil⟩
  | cons e l ih =>
    obtain ⟨n, clu⟩ := e
    have hf := factor_spec hl clu n i d h
    unfold factors
    rw [hf]
    obtain ⟨D, S, h1, h2, h3, h4⟩ := ih (i + n) (d ++ ((List.range' i n).map lname).map (fun L => (L, clu))) (share ++ [(List.range' i n).map lname]) (by
      intro j hj
      unfold dkeys
      rw [List.map_append, List.mem_append]
      rintro (hm | hm)
      · exact h j (by omega) hm
      · simp only [List.map_map, List.mem_map, List.mem_range'_1, Function.comp] at hm
        obtain ⟨a, ha, he⟩ := hm
        have := hl he
        omega)
    refine ⟨((List.range' i n).map lname).map (fun L => (L, clu)) ++ D, (List.range' i n).map lname :: S, ?_, ?_, ?_, ?_⟩
    · simp only
      rw [h1]
      simp
    · rw [dkeys, List.map_append, ← dkeys, ← dkeys, h2]
      have : dkeys (((List.range' i n).map lname).map (fun L => (L, clu))) = (List.range' i n).map lname := by
        unfold dkeys
        simp [Function.comp_def]
      rw [this, List.map_cons, List.sum_cons, ← List.map_append, List.range'_append_1]
    · rw [List.flatten_cons, h3]
      unfold dkeys
      simp [Function.comp_def]
    · refine .cons ⟨by simp, fun L hL => ?_⟩ (h4.imp fun a b hab => ⟨hab.1, fun L hL => List.mem_append_right _ (hab.2 L hL)⟩)
      exact List.mem_append_left _ (List.mem_map.2 ⟨L, hL, rfl⟩)

theorem dget_of_mem {d : Dict V (List V)} (h : (dkeys d).Nodup) {L : V} {w : List V} (hm : (L, w) ∈ d) : dget d L = some w := by
  induction d with
  | nil => cases hm
  | cons e t ih =>
    obtain ⟨k, v⟩ := e
    rw [dget_cons]
    have hk' : k ∉ dkeys t ∧ (dkeys t).Nodup := List.nodup_cons.1 h
    rcases List.mem_cons.1 hm with he | hm
    · cases he
      simp
    · have : L ∈ dkeys t := List.mem_map.2 ⟨_, hm, rfl⟩
      rw [if_neg, ih hk'.2 hm]
      rintro rfl
      exact hk'.1 this

theorem sameSet_iff (S T : List V) : sameSet S T = true ↔ ∀ x, x ∈ S ↔ x ∈ T := by
  unfold sameSet
  simp only [Bool.and_eq_true, List.all_eq_true, decide_eq_true_eq]
  exact ⟨fun h x => ⟨h.1 x, h.2 x⟩, fun h => ⟨fun x => (h x).1, fun x => (h x).2⟩⟩

/-- C101. `Transfer2Index` gives each cluster as many latent variables as its key says, with the names `L1`, `L2` and so on, all different. Each of them
has the cluster as its children. The variables of each cluster are listed together in `ShareCommonChild`, in the order of the clusters. -/
theorem c101_index {lname : Nat → V} (hl : Function.Injective lname) (cluster : List (Nat × List (List V))) (ord : List (List V)) :
    dkeys (transfer lname cluster ord).1 = (List.range' 1 ((numbered cluster).map Prod.fst).sum).map lname ∧
    (transfer lname cluster ord).2.2.flatten = dkeys (transfer lname cluster ord).1 ∧
    List.Forall₂ (fun p (e : Nat × List V) => p.length = e.1 ∧ ∀ L ∈ p, dget (transfer lname cluster ord).1 L = some e.2)
      (transfer lname cluster ord).2.2 (numbered cluster) := by
  obtain ⟨D, S, h1, h2, h3, h4⟩ := factors_spec hl (numbered cluster) 1 [] [] (by simp [dkeys])
  have e1 : (transfer lname cluster ord).1 = D := by
    unfold transfer
    rw [show (cluster.flatMap fun e => e.2.map fun c => (e.1, c)) = numbered cluster from rfl, h1]
    rfl
  have e2 : (transfer lname cluster ord).2.2 = S := by
    unfold transfer
    rw [show (cluster.flatMap fun e => e.2.map fun c => (e.1, c)) = numbered cluster from rfl, h1]
    rfl
  rw [e1, e2]
  refine ⟨h2, h3, h4.imp fun a b hab => ⟨hab.1, fun L hL => dget_of_mem ?_ (hab.2 L hL)⟩⟩
  rw [h2]
  exact List.Nodup.map hl List.nodup_range'

/-- C101. The list of roots holds the latent variables whose cluster is, as a set, one of the given order. -/
theorem c101_roots (lname : Nat → V) (cluster : List (Nat × List (List V))) (ord : List (List V)) (L : V) :
    L ∈ (transfer lname cluster ord).2.1 ↔ L ∈ dkeys (transfer lname cluster ord).1 ∧
      ∃ root ∈ ord, ∀ x, x ∈ kids (transfer lname cluster ord).1 L ↔ x ∈ root := by
  unfold transfer
  simp only [List.mem_flatMap, List.mem_filter, sameSet_iff]
  unfold kids
  constructor
  · rintro ⟨r, hr, h, h'⟩
    exact ⟨h, r, hr, h'⟩
  · rintro ⟨h, r, hr, h'⟩
    exact ⟨r, hr, h, h'⟩

/-- The clusters and the order of `main23` in MakeGraph.py. -/
example : transfer (fun n => 100 + n) [(1, [[1, 2, 3]]), (2, [[4, 5, 6]])] [[4, 5, 6], [1, 2, 3]] =
    ([(101, [1, 2, 3]), (102, [4, 5, 6]), (103, [4, 5, 6])], [102, 103, 101], [[101], [102, 103]]) := by decide +kernel

section order
variable {R : Type} [Field R] [LinearOrder R]

theorem places_take (l : List V) (m : Nat) : places (fun i => decide (i < m)) l = l.take m := by
  have : ∀ k, ((l.zipIdx k).filter fun e => decide (e.2 < m)).map Prod.fst = l.take (m - k) := by
    induction l with
    | nil => simp
    | cons a l ih =>
      intro k
      rw [List.zipIdx_cons, List.filter_cons]
      by_cases hk : k < m
      · have : m - k = (m - (k + 1)) + 1 := by omega
        simp [hk, ih, this]
      · have h0 : m - k = 0 := by omega
        have h1 : m - (k + 1) = 0 := by omega
        simp [hk, ih, h0, h1]
  exact this 0

theorem places_drop (l : List V) (m : Nat) : places (fun i => !decide (i < m)) l = l.drop m := by
  have : ∀ k, ((l.zipIdx k).filter fun e => !decide (e.2 < m)).map Prod.fst = l.drop (m - k) := by
    induction l with
    | nil => simp
    | cons a l ih =>
      intro k
      rw [List.zipIdx_cons, List.filter_cons]
      by_cases hk : k < m
      · have : m - k = (m - (k + 1)) + 1 := by omega
        simp [hk, ih, this]
      · have h0 : m - k = 0 := by omega
        have h1 : m - (k + 1) = 0 := by omega
        simp [hk, ih, h0, h1]
  exact this 0

theorem half (l : List V) : (fun i => decide (2 * i < l.length)) = fun i => decide (i < (l.length + 1) / 2) := by
  funext i
  congr 1
  apply propext
  omega

/-- `X` consists of the first half of the cluster, the first half of the other one (both rounded up), and the first halves of the roots found before
(rounded down). -/
theorem setX_eq (clu o : List V) (K : List (List V)) :
    setX clu o K = clu.take ((clu.length + 1) / 2) ++ o.take ((o.length + 1) / 2) ++ K.flatMap fun k => k.take (k.length / 2) := by
  unfold setX
  rw [half, half, places_take, places_take]
  simp only [places_take]

/-- `Z` consists of what is left of the cluster and of the roots found before. -/
theorem setZ_eq (clu : List V) (K : List (List V)) :
    setZ clu K = clu.drop ((clu.length + 1) / 2) ++ K.flatMap fun k => k.drop (k.length / 2) := by
  unfold setZ
  have : (fun i => !decide (2 * i < clu.length)) = fun i => !decide (i < (clu.length + 1) / 2) := by
    funext i
    rw [congrFun (half clu) i]
  rw [this, places_drop]
  simp only [places_drop]

theorem bindOk {ε α β : Type} {x : Except ε α} {f : α → Except ε β} {b : β} (h : (x >>= f) = .ok b) : ∃ a, x = .ok a ∧ f a = .ok b := by
  cases x with
  | error e => cases h
  | ok a => exact ⟨a, rfl, h⟩

/-- The sum that decides: over the other clusters, the value for `X` and `Z`. -/
def total (g : List V → List V → R) (K rest : List (List V)) (c : List V) : R :=
  ((rest.erase c).map fun o => g (c.take ((c.length + 1) / 2) ++ o.take ((o.length + 1) / 2) ++ K.flatMap fun k => k.take (k.length / 2))
    (c.drop ((c.length + 1) / 2) ++ K.flatMap fun k => k.drop (k.length / 2))).sum

theorem score_eq {gin : List V → List V → Except Err R} {g : List V → List V → R} (hg : ∀ X Z r, gin X Z = .ok r → r = g X Z)
    {K : List (List V)} {c : List V} {l : List (List V)} {r : R} (h : score gin K c l = .ok r) :
    r = (l.map fun o => g (setX c o K) (setZ c K)).sum := by
  induction l generalizing r with
  | nil =>
    cases h
    rfl
  | cons o l ih =>
    unfold score at h
    obtain ⟨m, hm, h⟩ := bindOk h
    obtain ⟨s, hs, h⟩ := bindOk h
    cases h
    rw [List.map_cons, List.sum_cons, ← hg _ _ _ hm, ← ih hs]

theorem firstMin_spec {l : List (R × List V)} {e : R × List V} (h : firstMin l = some e) :
    ∃ pre suf, l = pre ++ e :: suf ∧ (∀ f ∈ pre, e.1 < f.1) ∧ ∀ f ∈ suf, e.1 ≤ f.1 := by
  induction l generalizing e with
  | nil => cases h
  | cons a l ih =>
    unfold firstMin at h
    rcases hf : firstMin l with _ | f
    · rw [hf] at h
      cases h
      have : l = [] := by
        cases l with
        | nil => rfl
        | cons b l =>
          unfold firstMin at hf
          rcases h2 : firstMin l with _ | g
          · rw [h2] at hf
            cases hf
          · rw [h2] at hf
            simp only at hf
            split at hf <;> cases hf
      exact ⟨[], l, rfl, by simp, by simp [this]⟩
    · rw [hf] at h
      obtain ⟨pre, suf, h1, h2, h3⟩ := ih hf
      simp only at h
      split at h
      · rename_i hlt
        cases h
        exact ⟨a :: pre, suf, by rw [h1]; rfl, by simpa using ⟨hlt, fun x y h => h2 (x, y) h⟩, h3⟩
      · rename_i hge
        cases h
        have hge := le_of_not_gt hge
        refine ⟨[], l, rfl, by simp, fun x hx => ?_⟩
        rw [h1] at hx
        rcases List.mem_append.1 hx with hx | hx
        · exact hge.trans (h2 x hx).le
        · rcases List.mem_cons.1 hx with rfl | hx
          · exact hge
          · exact hge.trans (h3 x hx)

theorem mapM_pair {f : List V → Except Err R} {l : List (List V)} {ms : List (R × List V)}
    (h : (l.mapM fun c => do pure ((← f c), c)) = Except.ok ms) : ms.map Prod.snd = l ∧ ∀ e ∈ ms, f e.2 = .ok e.1 := by
  induction l generalizing ms with
  | nil =>
    cases h
    simp
  | cons c l ih =>
    rw [List.mapM_cons] at h
    obtain ⟨a, ha, h⟩ := bindOk h
    obtain ⟨r, hr, ha⟩ := bindOk ha
    cases ha
    obtain ⟨b, hb, h⟩ := bindOk h
    cases h
    obtain ⟨h1, h2⟩ := ih hb
    refine ⟨by simp [h1], fun e he => ?_⟩
    rcases List.mem_cons.1 he with rfl | he
    · exact hr
    · exact h2 e he

theorem findRoot_spec {gin : List V → List V → Except Err R} {g : List V → List V → R} (hg : ∀ X Z r, gin X Z = .ok r → r = g X Z)
    {cs K : List (List V)} {r : List V} (h : findRoot gin cs K = .ok r) :
    ∃ pre suf, cs = pre ++ r :: suf ∧ (∀ c ∈ pre, total g K cs r < total g K cs c) ∧ ∀ c ∈ suf, total g K cs r ≤ total g K cs c := by
  have main : ∀ ms, (cs.mapM fun c => do pure ((← score gin K c (cs.erase c)), c)) = Except.ok ms → ∀ e, firstMin ms = some e →
      ∃ pre suf, cs = pre ++ e.2 :: suf ∧ (∀ c ∈ pre, total g K cs e.2 < total g K cs c) ∧ ∀ c ∈ suf, total g K cs e.2 ≤ total g K cs c := by
    intro ms hms e he
    obtain ⟨h1, h2⟩ := mapM_pair hms
    obtain ⟨pre, suf, h3, h4, h5⟩ := firstMin_spec he
    have hv : ∀ f ∈ ms, f.1 = total g K cs f.2 := by
      intro f hf
      have := score_eq hg (h2 f hf)
      rw [this]
      unfold total
      simp only [setX_eq, setZ_eq]
    refine ⟨pre.map Prod.snd, suf.map Prod.snd, by rw [← h1, h3]; simp, ?_, ?_⟩
    · intro c hc
      obtain ⟨f, hf, rfl⟩ := List.mem_map.1 hc
      rw [← hv e (by rw [h3]; simp), ← hv f (by rw [h3]; simp [hf])]
      exact h4 f hf
    · intro c hc
      obtain ⟨f, hf, rfl⟩ := List.mem_map.1 hc
      rw [← hv e (by rw [h3]; simp), ← hv f (by rw [h3]; simp [hf])]
      exact h5 f hf
  unfold findRoot at h
  split at h
  · cases h
    exact ⟨[], [], rfl, by simp, by simp⟩
  · obtain ⟨ms, hms, h⟩ := bindOk h
    split at h
    · cases h
    · rename_i e he
      cases h
      exact main ms hms e he

theorem total_perm (g : List V → List V → R) (K : List (List V)) {l l' : List (List V)} (h : l.Perm l') (c : List V) :
    total g K l c = total g K l' c := ((h.erase c).map _).sum_eq

theorem orderLoop_spec {gin : List V → List V → Except Err R} {g : List V → List V → R} (hg : ∀ X Z r, gin X Z = .ok r → r = g X Z)
    (fuel : Nat) (cs K0 K : List (List V)) (h : orderLoop gin fuel cs K0 = .ok K) :
    ∃ K1, K = K0 ++ K1 ∧ K1.Perm cs ∧ ∀ pre r suf, K1 = pre ++ r :: suf → ∀ c ∈ suf,
      total g (K0 ++ pre) (r :: suf) r ≤ total g (K0 ++ pre) (r :: suf) c ∧
      (cs.Nodup → [c, r].Sublist cs → total g (K0 ++ pre) (r :: suf) r < total g (K0 ++ pre) (r :: suf) c) := by
  induction fuel generalizing cs K0 K with
  | zero =>
    cases cs with
    | nil =>
      cases h
      exact ⟨[], by simp, .nil, by simp⟩
    | cons _ _ => cases h
  | succ fuel ih =>
    cases hcs : cs with
    | nil =>
      rw [hcs] at h
      cases h
      exact ⟨[], by simp, .nil, by simp⟩
    | cons c0 cs0 =>
      rw [hcs] at h
      unfold orderLoop at h
      rw [← hcs] at h ⊢
      obtain ⟨root, hr, h⟩ := bindOk h
      obtain ⟨p0, s0, e0, l0, g0⟩ := findRoot_spec hg hr
      obtain ⟨K1, hK, hp, hmin⟩ := ih _ _ _ h
      have hmem : root ∈ cs := by rw [e0]; simp
      have hperm : (root :: K1).Perm cs := (List.Perm.cons root hp).trans (List.perm_cons_erase hmem).symm
      refine ⟨root :: K1, by rw [hK]; simp, hperm, ?_⟩
      intro pre r suf hsplit c hc
      cases pre with
      | nil =>
        rw [List.nil_append] at hsplit
        cases hsplit
        rw [List.append_nil, total_perm g K0 hperm, total_perm g K0 hperm]
        have hc' : c ∈ cs := hperm.mem_iff.1 (List.mem_cons_of_mem _ hc)
        rw [e0, List.mem_append, List.mem_cons] at hc'
        refine ⟨?_, fun hnd hs => ?_⟩
        · rcases hc' with hc' | rfl | hc'
          · exact (l0 c hc').le
          · exact le_rfl
          · exact g0 c hc'
        · rcases hc' with hc' | rfl | hc'
          · exact l0 c hc'
          · exact absurd (hs.nodup hnd) (by simp)
          · exfalso
            have h1 : [root, c].Sublist cs := by
              rw [e0]
              exact ((List.singleton_sublist.2 hc').cons_cons root).trans (List.sublist_append_right _ _)
            exact pairs_asymm hnd (mem_pairs_sublist.2 h1) (mem_pairs_sublist.2 hs)
      | cons a pre =>
        rw [List.cons_append] at hsplit
        obtain ⟨rfl, hsp⟩ := List.cons.inj hsplit
        have hsplit := hsp
        have := hmin pre r suf hsplit c hc
        rw [List.append_assoc, List.singleton_append] at this
        refine ⟨this.1, fun hnd hs => this.2 (hnd.erase root) ?_⟩
        have hc1 : c ∈ cs.erase root := hp.mem_iff.1 (by rw [hsplit]; simp [hc])
        have hr1 : r ∈ cs.erase root := hp.mem_iff.1 (by rw [hsplit]; simp)
        have hne : c ≠ r := by
          rintro rfl
          exact absurd (hs.nodup hnd) (by simp)
        rcases pairs_complete hc1 hr1 hne with h | h
        · exact mem_pairs_sublist.1 h
        · exfalso
          have h2 : [r, c].Sublist cs := (mem_pairs_sublist.1 h).trans List.erase_sublist
          exact pairs_asymm hnd (mem_pairs_sublist.2 h2) (mem_pairs_sublist.2 hs)

/-- C102. `LearnCausalOrder` orders all clusters, each once. -/
theorem c102_perm {gin : List V → List V → Except Err R} {cluster : List (Nat × List (List V))} {K : List (List V)}
    (h : learnOrder gin cluster = .ok K) : K.Perm (cluster.flatMap Prod.snd) := by
  have hg : ∀ X Z r, gin X Z = .ok r → r = (fun X Z => match gin X Z with | .ok r => r | .error _ => 0) X Z := fun X Z r h => by simp [h]
  obtain ⟨K1, hK, hp, _⟩ := orderLoop_spec hg _ _ _ _ h
  rw [List.nil_append] at hK
  subst hK
  exact hp

/-- C102. Each cluster in the order has the least value among those that come after it; of several with the least value it is the first in the
dictionary. -/
theorem c102_min {gin : List V → List V → Except Err R} {g : List V → List V → R} (hg : ∀ X Z r, gin X Z = .ok r → r = g X Z)
    {cluster : List (Nat × List (List V))} {K : List (List V)} (h : learnOrder gin cluster = .ok K) (pre : List (List V)) (r : List V)
    (suf : List (List V)) (hK : K = pre ++ r :: suf) (c : List V) (hc : c ∈ suf) :
    total g pre (r :: suf) r ≤ total g pre (r :: suf) c ∧
      ((cluster.flatMap Prod.snd).Nodup → [c, r].Sublist (cluster.flatMap Prod.snd) → total g pre (r :: suf) r < total g pre (r :: suf) c) := by
  obtain ⟨K1, hK1, _, hmin⟩ := orderLoop_spec hg _ _ _ _ h
  rw [List.nil_append] at hK1
  subst hK1
  have := hmin pre r suf hK c hc
  rw [List.nil_append] at this
  exact this

theorem score_ok {gin : List V → List V → Except Err R} (hg : ∀ X Z, X ≠ [] → Z ≠ [] → ∃ r, gin X Z = .ok r) {K : List (List V)} {c : List V}
    (hc : 2 ≤ c.length) (l : List (List V)) : ∃ r, score gin K c l = .ok r := by
  induction l with
  | nil => exact ⟨0, rfl⟩
  | cons o l ih =>
    obtain ⟨s, hs⟩ := ih
    obtain ⟨m, hm⟩ := hg (setX c o K) (setZ c K) (by
      rw [setX_eq]
      intro h
      have := (List.append_eq_nil_iff.1 (List.append_eq_nil_iff.1 h).1).1
      rw [List.take_eq_nil_iff] at this
      rcases this with h | h
      · omega
      · rw [h] at hc
        simp at hc) (by
      rw [setZ_eq]
      intro h
      have := (List.append_eq_nil_iff.1 h).1
      rw [List.drop_eq_nil_iff] at this
      omega)
    refine ⟨m + s, ?_⟩
    unfold score
    rw [hm, hs]
    rfl

theorem findRoot_ok {gin : List V → List V → Except Err R} (hg : ∀ X Z, X ≠ [] → Z ≠ [] → ∃ r, gin X Z = .ok r) {cs K : List (List V)}
    (hne : cs ≠ []) (hc : ∀ c ∈ cs, 2 ≤ c.length) : ∃ r, findRoot gin cs K = .ok r := by
  have hm : ∀ l : List (List V), (∀ c ∈ l, 2 ≤ c.length) → ∃ ms : List (R × List V),
      (l.mapM fun c => do pure ((← score gin K c (cs.erase c)), c)) = Except.ok ms ∧ ms.length = l.length := by
    intro l hl
    induction l with
    | nil => exact ⟨[], rfl, rfl⟩
    | cons c l ih =>
      obtain ⟨ms, hms, hlen⟩ := ih fun x hx => hl x (List.mem_cons_of_mem _ hx)
      obtain ⟨r, hr⟩ := score_ok hg (K := K) (hl c List.mem_cons_self) (cs.erase c)
      refine ⟨(r, c) :: ms, ?_, by simp [hlen]⟩
      rw [List.mapM_cons, hr, hms]
      rfl
  obtain ⟨ms, hms, hlen⟩ := hm cs hc
  unfold findRoot
  split
  · exact ⟨_, rfl⟩
  · rw [hms]
    rcases hf : firstMin ms with _ | e
    · exfalso
      cases ms with
      | nil => exact hne (List.length_eq_zero_iff.1 hlen.symm)
      | cons a l =>
        unfold firstMin at hf
        rcases h2 : firstMin l with _ | g
        · rw [h2] at hf
          cases hf
        · rw [h2] at hf
          simp only at hf
          split at hf <;> cases hf
    · refine ⟨e.2, ?_⟩
      simp only [bind, Except.bind, hf, pure, Except.pure]

/-- C102, the part that holds: with clusters of at least two variables the order is found. Missing: clusters of one variable, for which it may fail. -/
theorem c102_returns_partial {gin : List V → List V → Except Err R} (hg : ∀ X Z, X ≠ [] → Z ≠ [] → ∃ r, gin X Z = .ok r)
    {cluster : List (Nat × List (List V))} (hc : ∀ c ∈ cluster.flatMap Prod.snd, 2 ≤ c.length) : ∃ K, learnOrder gin cluster = .ok K := by
  have : ∀ fuel (cs K0 : List (List V)), cs.length ≤ fuel → (∀ c ∈ cs, 2 ≤ c.length) → ∃ K, orderLoop gin fuel cs K0 = .ok K := by
    intro fuel
    induction fuel with
    | zero =>
      intro cs K0 hl _
      cases cs with
      | nil => exact ⟨K0, rfl⟩
      | cons _ _ => simp at hl
    | succ fuel ih =>
      intro cs K0 hl hc
      cases cs with
      | nil => exact ⟨K0, rfl⟩
      | cons c cs =>
        obtain ⟨r, hr⟩ := findRoot_ok hg (K := K0) (List.cons_ne_nil c cs) hc
        obtain ⟨p0, s0, e0, -⟩ := findRoot_spec (gin := gin) (g := fun X Z => match gin X Z with | .ok r => r | .error _ => 0)
          (fun X Z r h => by simp [h]) hr
        have hmem : r ∈ c :: cs := by rw [e0]; simp
        obtain ⟨K, hK⟩ := ih ((c :: cs).erase r) (K0 ++ [r]) (by
          rw [List.length_erase_of_mem hmem]
          simp at hl ⊢
          omega) (fun x hx => hc x (List.mem_of_mem_erase hx))
        refine ⟨K, ?_⟩
        unfold orderLoop
        rw [hr]
        exact hK
  exact this _ _ _ le_rfl hc

/-- C102 is false in general: a cluster of one variable leaves `Z` empty, and the mean over `Z` is a division by zero. -/
theorem c102_false (mi : List Nat → List Nat → Nat → ℚ) : learnOrder (ginMI mi) [(1, [[0], [1, 2]])] = .error .exception := rfl

/-- C102: the value that is compared lies between the least and the greatest mutual information of the surrogate with a variable of `Z`, so that
the size of `Z` does not count; it is there exactly if `Z` is not empty. -/
theorem c102_mean [IsStrictOrderedRing R] (mi : List V → List V → V → R) (X Z : List V) : ((∃ r, ginMI mi X Z = .ok r) ↔ Z ≠ []) ∧
    ∀ r a b, ginMI mi X Z = .ok r → (∀ z ∈ Z, a ≤ mi X Z z ∧ mi X Z z ≤ b) → a ≤ r ∧ r ≤ b := by
  unfold ginMI
  cases hZ : Z with
  | nil => exact ⟨by simp [throw, throwThe, MonadExceptOf.throw], fun r a b h => by cases h⟩
  | cons z l =>
    refine ⟨⟨fun _ => by simp, fun _ => ⟨_, rfl⟩⟩, fun r a b h hb => ?_⟩
    rw [← hZ] at h hb
    have h : (Z.map (mi X Z)).sum / (Z.length : R) = r := by
      rw [hZ] at h ⊢
      cases h
      rfl
    have hp : (0 : R) < Z.length := by rw [hZ]; exact_mod_cast Nat.succ_pos _
    have l1 := List.card_nsmul_le_sum (Z.map (mi X Z)) a (by simpa using fun z hz => (hb z hz).1)
    have l2 := List.sum_le_card_nsmul (Z.map (mi X Z)) b (by simpa using fun z hz => (hb z hz).2)
    rw [List.length_map, nsmul_eq_mul] at l1 l2
    rw [← h, le_div_iff₀ hp, div_le_iff₀ hp]
    constructor
    · linarith
    · linarith

/-- A stand-in for the mutual information in the examples. -/
def exMI (X Z : List Nat) (z : Nat) : ℚ := (X.sum + Z.sum * z : Nat)

/-- Three clusters. -/
example : learnOrder (ginMI exMI) [(1, [[5, 6], [1, 2], [3, 4]])] = .ok [[1, 2], [3, 4], [5, 6]] := by decide +kernel

end order

theorem sublist_idx {l : List V} (h : l.Nodup) {a b : V} (hs : [a, b].Sublist l) : l.idxOf a < l.idxOf b := by
  induction l with
  | nil => cases hs
  | cons x l ih =>
    have hx := List.nodup_cons.1 h
    cases hs with
    | cons _ hs =>
      have ha : a ∈ l := hs.subset (by simp)
      have hb : b ∈ l := hs.subset (by simp)
      rw [List.idxOf_cons_ne _ (by rintro rfl; exact hx.1 ha), List.idxOf_cons_ne _ (by rintro rfl; exact hx.1 hb)]
      have := ih hx.2 hs
      omega
    | cons_cons _ hs =>
      have hb : b ∈ l := List.singleton_sublist.1 hs
      rw [List.idxOf_cons_self, List.idxOf_cons_ne _ (by rintro rfl; exact hx.1 hb)]
      omega

theorem kids_key {d : Dict V (List V)} {L x : V} (h : x ∈ kids d L) : L ∈ dkeys d := by
  rw [mem_dkeys_iff]
  unfold kids at h
  cases hd : dget d L with
  | none =>
    rw [hd] at h
    cases h
  | some _ => rfl

/-- A graph of latent variables over observed ones has no cycle, if the list of roots has no repetition. -/
theorem acyclic_of {d : Dict V (List V)} {root : List V} {share : List (List V)} (hk : (dkeys d).Nodup) (hr : root.Nodup)
    (hsub : ∀ L ∈ root, L ∈ dkeys d) (hobs : ∀ L x, x ∈ kids d L → x ∉ dkeys d) : Acyclic (makeGraph d root share) := by
  have key : ∀ a b, (a, b) ∈ (makeGraph d root share).edges → a ∈ dkeys d ∧ (b ∉ dkeys d ∨ root.idxOf a < root.idxOf b) := by
    intro a b h
    rcases (makeGraph_edges hk root share a b).1 h with h | ⟨h, _⟩
    · exact ⟨kids_key h, .inl (hobs a b h)⟩
    · exact ⟨hsub a (h.subset (by simp)), .inr (sublist_idx hr h)⟩
  have all : ∀ a b, Relation.TransGen (fun a b => (a, b) ∈ (makeGraph d root share).edges) a b →
      a ∈ dkeys d ∧ (b ∉ dkeys d ∨ root.idxOf a < root.idxOf b) := by
    intro a b h
    induction h with
    | single h => exact key _ _ h
    | tail _ h ih =>
      obtain ⟨h1, h2⟩ := key _ _ h
      refine ⟨ih.1, ?_⟩
      rcases ih.2 with h3 | h3
      · exact absurd h1 h3
      · exact h2.imp id fun h => h3.trans h
  intro v h
  obtain ⟨h1, h2⟩ := all v v h
  rcases h2 with h2 | h2
  · exact h2 h1
  · exact lt_irrefl _ h2

section pipeline
variable {R : Type} [Field R] [LinearOrder R]

theorem sublist_flatMap {α β : Type} {l l' : List α} (h : l.Sublist l') (f : α → List β) : (l.flatMap f).Sublist (l'.flatMap f) := by
  induction h with
  | slnil => exact List.Sublist.refl _
  | cons a _ ih =>
    rw [List.flatMap_cons]
    exact ih.trans (List.sublist_append_right _ _)
  | cons_cons a _ ih =>
    rw [List.flatMap_cons, List.flatMap_cons]
    exact (List.Sublist.refl _).append ih

/-- Each latent variable of the index belongs to a cluster of the dictionary. -/
theorem key_cluster {lname : Nat → V} (hl : Function.Injective lname) (cluster : List (Nat × List (List V))) (ord : List (List V)) {L : V}
    (h : L ∈ dkeys (transfer lname cluster ord).1) :
    ∃ c ∈ cluster.flatMap Prod.snd, dget (transfer lname cluster ord).1 L = some c := by
  obtain ⟨_, h2, h3⟩ := c101_index hl cluster ord
  rw [← h2, List.mem_flatten] at h
  obtain ⟨p, hp, hL⟩ := h
  generalize (transfer lname cluster ord).2.2 = S at h3 hp
  have : ∀ {S : List (List V)} {l : List (Nat × List V)}, List.Forall₂ (fun p (e : Nat × List V) => p.length = e.1 ∧
      ∀ L ∈ p, dget (transfer lname cluster ord).1 L = some e.2) S l → p ∈ S → ∃ e ∈ l, dget (transfer lname cluster ord).1 L = some e.2 := by
    intro S l hf hp
    induction hf with
    | nil => cases hp
    | cons hab _ ih =>
      rcases List.mem_cons.1 hp with rfl | hp
      · exact ⟨_, List.mem_cons_self, hab.2 L hL⟩
      · obtain ⟨e, he, h⟩ := ih hp
        exact ⟨e, List.mem_cons_of_mem _ he, h⟩
  obtain ⟨e, he, h⟩ := this h3 hp
  refine ⟨e.2, ?_, h⟩
  unfold numbered at he
  obtain ⟨q, hq, he⟩ := List.mem_flatMap.1 he
  obtain ⟨c, hc, rfl⟩ := List.mem_map.1 he
  exact List.mem_flatMap.2 ⟨q, hq, hc⟩

theorem one_cluster {lname : Nat → V} (hl : Function.Injective lname) (cluster : List (Nat × List (List V))) (ord : List (List V)) {p : List V}
    (hp : p ∈ (transfer lname cluster ord).2.2) {L M : V} (hL : L ∈ p) (hM : M ∈ p) :
    dget (transfer lname cluster ord).1 L = dget (transfer lname cluster ord).1 M := by
  obtain ⟨_, _, h3⟩ := c101_index hl cluster ord
  have : ∀ {S : List (List V)} {l : List (Nat × List V)}, List.Forall₂ (fun p (e : Nat × List V) => p.length = e.1 ∧
      ∀ L ∈ p, dget (transfer lname cluster ord).1 L = some e.2) S l → p ∈ S →
      dget (transfer lname cluster ord).1 L = dget (transfer lname cluster ord).1 M := by
    intro S l hf hp
    induction hf with
    | nil => cases hp
    | cons hab _ ih =>
      rcases List.mem_cons.1 hp with rfl | hp
      · rw [hab.2 L hL, hab.2 M hM]
      · exact ih hp
  exact this h3 hp

/-- The clusters are different sets. -/
def Distinct (l : List (List V)) : Prop := l.Pairwise fun S T => ¬ ∀ x, x ∈ S ↔ x ∈ T

theorem Distinct.perm {l l' : List (List V)} (h : Distinct l) (hp : l.Perm l') : Distinct l' :=
  (hp.pairwise_iff (fun {_ _} h h' => h fun x => (h' x).symm)).1 h

theorem roots_nodup {lname : Nat → V} (hl : Function.Injective lname) (cluster : List (Nat × List (List V))) {ord : List (List V)}
    (hd : Distinct ord) : (transfer lname cluster ord).2.1.Nodup := by
  have hk : (dkeys (transfer lname cluster ord).1).Nodup := by
    rw [(c101_index hl cluster ord).1]
    exact List.Nodup.map hl List.nodup_range'
  unfold transfer at hk ⊢
  simp only at hk ⊢
  rw [List.nodup_flatMap]
  refine ⟨fun r _ => hk.filter _, ?_⟩
  refine List.Pairwise.imp ?_ hd
  intro S T hST L hS hT
  have h1 := (sameSet_iff _ _).1 (List.mem_filter.1 hS).2
  have h2 := (sameSet_iff _ _).1 (List.mem_filter.1 hT).2
  exact hST fun x => (h1 x).symm.trans (h2 x)

/-- C103. If the clusters are different sets, and none of their variables has the name of a latent variable, then the graph drawn from
`LearnCausalOrder` and `Transfer2Index` has no cycle. -/
theorem c103_acyclic_partial {lname : Nat → V} (hl : Function.Injective lname) {gin : List V → List V → Except Err R}
    {cluster : List (Nat × List (List V))} {K : List (List V)} (h : learnOrder gin cluster = .ok K)
    (hd : Distinct (cluster.flatMap Prod.snd)) (hn : ∀ c ∈ cluster.flatMap Prod.snd, ∀ x ∈ c, ∀ j, x ≠ lname j) :
    Acyclic (makeGraph (transfer lname cluster K).1 (transfer lname cluster K).2.1 (transfer lname cluster K).2.2) := by
  have hkeys := (c101_index hl cluster K).1
  refine acyclic_of ?_ (roots_nodup hl cluster (hd.perm (c102_perm h).symm)) (fun L hL => ((c101_roots lname cluster K L).1 hL).1) ?_
  · rw [hkeys]
    exact List.Nodup.map hl List.nodup_range'
  · intro L x hx
    obtain ⟨c, hc, hg⟩ := key_cluster hl cluster K (kids_key hx)
    unfold kids at hx
    rw [hg] at hx
    rw [hkeys]
    intro hm
    obtain ⟨j, _, rfl⟩ := List.mem_map.1 hm
    exact hn c hc _ hx j rfl

/-- C103. Under the same conditions, the graph holds exactly these edges between latent variables: from each latent variable of a cluster to each latent
variable of every cluster that comes later in the order. -/
theorem c103_edges_partial {lname : Nat → V} (hl : Function.Injective lname) {gin : List V → List V → Except Err R}
    {cluster : List (Nat × List (List V))} {K : List (List V)} (h : learnOrder gin cluster = .ok K)
    (hd : Distinct (cluster.flatMap Prod.snd)) (hn : ∀ c ∈ cluster.flatMap Prod.snd, ∀ x ∈ c, ∀ j, x ≠ lname j) {L M : V} {r c : List V}
    (hL : dget (transfer lname cluster K).1 L = some r) (hM : dget (transfer lname cluster K).1 M = some c) :
    (L, M) ∈ (makeGraph (transfer lname cluster K).1 (transfer lname cluster K).2.1 (transfer lname cluster K).2.2).edges ↔ [r, c].Sublist K := by
  have hkeys := (c101_index hl cluster K).1
  have hk : (dkeys (transfer lname cluster K).1).Nodup := by
    rw [hkeys]
    exact List.Nodup.map hl List.nodup_range'
  have hdK := hd.perm (c102_perm h).symm
  have hLk : L ∈ dkeys (transfer lname cluster K).1 := (mem_dkeys_iff _ _).2 (by rw [hL]; rfl)
  have hMk : M ∈ dkeys (transfer lname cluster K).1 := (mem_dkeys_iff _ _).2 (by rw [hM]; rfl)
  have hmemK : ∀ {N : V} {e : List V}, dget (transfer lname cluster K).1 N = some e → e ∈ K := by
    intro N e hN
    obtain ⟨c', hc', h'⟩ := key_cluster hl cluster K ((mem_dkeys_iff _ _).2 (by rw [hN]; rfl))
    rw [hN] at h'
    cases h'
    exact (c102_perm h).mem_iff.2 hc'
  have fwd : ∀ {A B : V} {a b : List V}, dget (transfer lname cluster K).1 A = some a → dget (transfer lname cluster K).1 B = some b →
      [a, b].Sublist K → [A, B].Sublist (transfer lname cluster K).2.1 := by
    intro A B a b hA hB hs
    have hAk : A ∈ dkeys (transfer lname cluster K).1 := (mem_dkeys_iff _ _).2 (by rw [hA]; rfl)
    have hBk : B ∈ dkeys (transfer lname cluster K).1 := (mem_dkeys_iff _ _).2 (by rw [hB]; rfl)
    have hs' := sublist_flatMap hs fun root => (dkeys (transfer lname cluster K).1).filter fun k =>
      sameSet ((dget (transfer lname cluster K).1 k).getD []) root
    refine List.Sublist.trans ?_ hs'
    simp only [List.flatMap_cons, List.flatMap_nil, List.append_nil]
    have e1 : A ∈ (dkeys (transfer lname cluster K).1).filter fun k => sameSet ((dget (transfer lname cluster K).1 k).getD []) a := by
      rw [List.mem_filter, hA]
      exact ⟨hAk, (sameSet_iff _ _).2 fun _ => Iff.rfl⟩
    have e2 : B ∈ (dkeys (transfer lname cluster K).1).filter fun k => sameSet ((dget (transfer lname cluster K).1 k).getD []) b := by
      rw [List.mem_filter, hB]
      exact ⟨hBk, (sameSet_iff _ _).2 fun _ => Iff.rfl⟩
    exact (List.singleton_sublist.2 e1).append (List.singleton_sublist.2 e2)
  rw [makeGraph_edges hk]
  constructor
  · rintro (hx | ⟨hs, hno⟩)
    · exfalso
      unfold kids at hx
      rw [hL] at hx
      rw [hkeys] at hMk
      obtain ⟨j, _, rfl⟩ := List.mem_map.1 hMk
      exact hn r ((c102_perm h).mem_iff.1 (hmemK hL)) _ hx j rfl
    · by_cases hrc : r = c
      · exfalso
        subst hrc
        apply hno
        have hshare := c101_index hl cluster K
        have hflat := hshare.2.1
        rw [← hflat, List.mem_flatten] at hLk hMk
        obtain ⟨p, hp, hLp⟩ := hLk
        obtain ⟨q, hq, hMq⟩ := hMk
        have hpq : p = q := by
          have hf := hshare.2.2
          have hnd : ((numbered cluster).map Prod.snd).Nodup := by
            have : (numbered cluster).map Prod.snd = cluster.flatMap Prod.snd := by
              unfold numbered
              rw [List.map_flatMap]
              congr 1
              funext e
              simp [Function.comp_def]
            rw [this]
            exact hd.imp fun {a b} hab => by
              rintro rfl
              exact hab fun _ => Iff.rfl
          have gen : ∀ {S : List (List V)} {l : List (Nat × List V)}, List.Forall₂ (fun p (e : Nat × List V) => p.length = e.1 ∧
              ∀ L ∈ p, dget (transfer lname cluster K).1 L = some e.2) S l → (l.map Prod.snd).Nodup → p ∈ S → q ∈ S → p = q := by
            intro S l hf hnd hp hq
            have pick : ∀ {S : List (List V)} {l : List (Nat × List V)} {t : List V} {N : V}, List.Forall₂ (fun p (e : Nat × List V) => p.length = e.1 ∧
                ∀ L ∈ p, dget (transfer lname cluster K).1 L = some e.2) S l → t ∈ S → N ∈ t → dget (transfer lname cluster K).1 N = some r →
                r ∈ l.map Prod.snd := by
              intro S l t N hf ht hN hr
              induction hf with
              | nil => cases ht
              | cons hab _ ih =>
                rcases List.mem_cons.1 ht with rfl | ht
                · have := hab.2 N hN
                  rw [hr] at this
                  cases this
                  simp
                · simp [ih ht]
            induction hf with
            | nil => cases hp
            | cons hab hrest ih =>
              have hnd' := List.nodup_cons.1 hnd
              rcases List.mem_cons.1 hp with rfl | hp' <;> rcases List.mem_cons.1 hq with rfl | hq'
              · rfl
              · exfalso
                have h1 := hab.2 L hLp
                rw [hL] at h1
                cases h1
                exact hnd'.1 (pick hrest hq' hMq hM)
              · exfalso
                have h1 := hab.2 M hMq
                rw [hM] at h1
                cases h1
                exact hnd'.1 (pick hrest hp' hLp hL)
              · exact ih hnd'.2 hp' hq'
          exact gen hf hnd hp hq
        subst hpq
        exact ⟨p, hp, hLp, hMq⟩
      · rcases pairs_complete (hmemK hL) (hmemK hM) hrc with h' | h'
        · exact mem_pairs_sublist.1 h'
        · exfalso
          have h2 := fwd hM hL (mem_pairs_sublist.1 h')
          exact pairs_asymm (roots_nodup hl cluster hdK) (mem_pairs_sublist.2 hs) (mem_pairs_sublist.2 h2)
  · intro hs
    refine .inr ⟨fwd hL hM hs, ?_⟩
    rintro ⟨p, hp, h1, h2⟩
    have := one_cluster hl cluster K hp h1 h2
    rw [hL, hM] at this
    cases this
    exact List.rel_of_pairwise_cons (hdK.sublist hs) List.mem_cons_self fun _ => Iff.rfl

/-- The conditions hold for three clusters, one of which has two latent variables. -/
example : learnOrder (ginMI exMI) [(1, [[5, 6], [1, 2]]), (2, [[3, 4]])] = .ok [[1, 2], [3, 4], [5, 6]] ∧
    (makeGraph (transfer (fun n => 100 + n) [(1, [[5, 6], [1, 2]]), (2, [[3, 4]])] [[1, 2], [3, 4], [5, 6]]).1
      (transfer (fun n => 100 + n) [(1, [[5, 6], [1, 2]]), (2, [[3, 4]])] [[1, 2], [3, 4], [5, 6]]).2.1
      (transfer (fun n => 100 + n) [(1, [[5, 6], [1, 2]]), (2, [[3, 4]])] [[1, 2], [3, 4], [5, 6]]).2.2).edges.filter (fun e => 100 < e.2) =
      [(102, 103), (102, 104), (102, 101), (103, 101), (104, 101)] := by decide +kernel

/-- C103 is false in general: if the same set is given twice, with one and with two latent variables, the graph has a cycle. -/
theorem c103_false : ∃ K, learnOrder (ginMI exMI) [(1, [[1, 2, 3]]), (2, [[1, 2, 3]])] = .ok K ∧
    ¬ Acyclic (makeGraph (transfer (fun n => 100 + n) [(1, [[1, 2, 3]]), (2, [[1, 2, 3]])] K).1
      (transfer (fun n => 100 + n) [(1, [[1, 2, 3]]), (2, [[1, 2, 3]])] K).2.1
      (transfer (fun n => 100 + n) [(1, [[1, 2, 3]]), (2, [[1, 2, 3]])] K).2.2) := by
  refine ⟨[[1, 2, 3], [1, 2, 3]], by decide +kernel, fun h => ?_⟩
  refine h 101 (.tail (.single (b := 102) ?_) ?_)
  · decide +kernel
  · decide +kernel

end pipeline

end Cdmir.Hier
