import Verif.Spec.DSep
import Verif.Lemmas.Topo
import Mathlib.Data.List.Perm.Basic
import Mathlib.Data.List.Nodup

/-! Completeness of orientation rules, over relations: `M` directed edges, `U` undirected edges. If the rules are closed and
every direction has a reason, each undirected edge can be directed either way. -/

namespace Cdmir
namespace Complete
open Spec
variable {α : Type} [DecidableEq α]

/-- Adjacent in a partially directed graph. -/
def C (M U : α → α → Prop) (a b : α) : Prop := M a b ∨ M b a ∨ U a b

/-- Closed partially directed graph in which every directed edge has a reason: proof device. -/
structure Closed (N : List α) (M U : α → α → Prop) : Prop where
  finM : ∀ a b, M a b → a ∈ N
  finU : ∀ a b, U a b → a ∈ N
  symm : ∀ a b, U a b → U b a
  irrefl : ∀ a, ¬ U a a
  excl : ∀ a b, M a b → ¬ U a b
  r1 : ∀ u a b, M u a → U a b → u ≠ b → C M U u b
  r2 : ∀ a v b, M a v → M v b → ¬ U a b
  r3 : ∀ a v x b, v ≠ x → ¬ C M U v x → U a v → M v b → U a x → M x b → ¬ U a b
  acyclic : Acyclic M
  prov : ∀ a b, M a b → (∃ d, d ≠ a ∧ M d b ∧ ¬ C M U d a) ∨ (∃ d, d ≠ b ∧ M d a ∧ ¬ C M U d b) ∨
    (∃ d, M a d ∧ M d b) ∨
    ∃ v x, v ≠ x ∧ ¬ C M U v x ∧ C M U a v ∧ C M U a x ∧ M v b ∧ M x b ∧ ¬ (M v a ∧ M x a)

variable {N : List α} {M U : α → α → Prop}

omit [DecidableEq α] in
theorem Closed.csymm (h : Closed N M U) {a b : α} (k : C M U a b) : C M U b a := by
  rcases k with k | k | k
  · exact Or.inr (Or.inl k)
  · exact Or.inl k
  · exact Or.inr (Or.inr (h.symm _ _ k))

/-- Key lemma: a directed edge into one end of an undirected edge comes with a directed edge into the other end. -/
theorem Closed.key (h : Closed N M U) {a b c : α} (hm : M a b) (hu : U b c) : M a c := by
  have hviol : ∀ b, ¬ ∃ a c, M a b ∧ U b c ∧ U a c := by
    intro b0 hb0
    obtain ⟨b, ⟨a, c, hab, hbc, hac⟩, hmin⟩ := Graph.exists_minimal (R := M) N (fun u v k => h.finM u v k) h.acyclic
      (fun b => ∃ a c, M a b ∧ U b c ∧ U a c) ⟨b0, hb0⟩
    have hne : ∀ d, M d b → d ≠ c := fun d hd e => by
      subst e; exact h.excl _ _ hd (h.symm _ _ hbc)
    rcases h.prov a b hab with ⟨d, hda, hdb, hn⟩ | ⟨d, hdb, hda, hn⟩ | ⟨d, had, hdb⟩ |
      ⟨v, x, hvx, hn, hav, hax, hvb, hxb, hnot⟩
    · rcases h.r1 d b c hdb hbc (hne d hdb) with k | k | k
      · exact hn (h.r1 d c a k (h.symm _ _ hac) hda)
      · exact h.r2 c d b k hdb (h.symm _ _ hbc)
      · exact h.r3 c a d b (Ne.symm hda) (fun q => hn (h.csymm q)) (h.symm _ _ hac) hab (h.symm _ _ k) hdb (h.symm _ _ hbc)
    · have hdc : d ≠ c := fun e => by subst e; exact h.excl _ _ hda (h.symm _ _ hac)
      rcases h.r1 d a c hda hac hdc with k | k | k
      · exact hn (h.r1 d c b k (h.symm _ _ hbc) hdb)
      · exact h.r2 c d a k hda (h.symm _ _ hac)
      · exact hmin a hab ⟨d, c, hda, hac, k⟩
    · rcases h.r1 d b c hdb hbc (hne d hdb) with k | k | k
      · exact h.r2 a d c had k hac
      · exact h.r2 c d b k hdb (h.symm _ _ hbc)
      · exact hmin d hdb ⟨a, c, had, k, hac⟩
    · have hcb := h.symm _ _ hbc
      have hn' : ¬ C M U x v := fun q => hn (h.csymm q)
      have kv : M v c ∨ U v c := by
        rcases h.r1 v b c hvb hbc (hne v hvb) with k | k | k
        · exact Or.inl k
        · exact absurd hcb (h.r2 c v b k hvb)
        · exact Or.inr k
      have kx : M x c ∨ U x c := by
        rcases h.r1 x b c hxb hbc (hne x hxb) with k | k | k
        · exact Or.inl k
        · exact absurd hcb (h.r2 c x b k hxb)
        · exact Or.inr k
      rcases kv with kv | kv <;> rcases kx with kx | kx
      · have av : M v a ∨ U a v := by
          rcases hav with k | k | k
          · exact absurd hac (h.r2 a v c k kv)
          · exact Or.inl k
          · exact Or.inr k
        have ax : M x a ∨ U a x := by
          rcases hax with k | k | k
          · exact absurd hac (h.r2 a x c k kx)
          · exact Or.inl k
          · exact Or.inr k
        rcases av with av | av <;> rcases ax with ax | ax
        · exact hnot ⟨av, ax⟩
        · exact hn (h.r1 v a x av ax hvx)
        · exact hn' (h.r1 x a v ax av hvx.symm)
        · exact h.r3 a v x c hvx hn av kv ax kx hac
      · exact hn (h.r1 v c x kv (h.symm _ _ kx) hvx)
      · exact hn' (h.r1 x c v kx (h.symm _ _ kv) hvx.symm)
      · exact h.r3 c v x b hvx hn (h.symm _ _ kv) hvb (h.symm _ _ kx) hxb hcb
  have hne : a ≠ c := fun e => by subst e; exact h.excl _ _ hm (h.symm _ _ hu)
  rcases h.r1 a b c hm hu hne with k | k | k
  · exact k
  · exact absurd (h.symm _ _ hu) (h.r2 c a b k hm)
  · exact absurd ⟨a, c, hm, hu, k⟩ (hviol b)

/-- A perfect elimination order of the undirected graph `U`, first eliminated node first: proof device. -/
inductive PEO (U : α → α → Prop) : List α → Prop
  | nil : PEO U []
  | cons {x : α} {l : List α} (hx : x ∉ l) (hs : ∀ y ∈ l, ∀ z ∈ l, U x y → U x z → y ≠ z → U y z) (hl : PEO U l) :
      PEO U (x :: l)

omit [DecidableEq α] in
theorem PEO.nodup {l : List α} (h : PEO U l) : l.Nodup := by
  induction h with
  | nil => exact List.nodup_nil
  | cons hx _ _ ih => exact List.nodup_cons.2 ⟨hx, ih⟩

omit [DecidableEq α] in
theorem PEO.sublist {l l' : List α} (h : PEO U l) (hs : l'.Sublist l) : PEO U l' := by
  induction h generalizing l' with
  | nil => rw [List.sublist_nil.1 hs]; exact .nil
  | cons hx hsi _ ih =>
    cases hs with
    | cons _ hs => exact ih hs
    | cons_cons _ hs =>
      exact .cons (fun k => hx (hs.subset k)) (fun y hy z hz => hsi y (hs.subset hy) z (hs.subset hz)) (ih hs)

/-- `x` is simplicial in `l`. -/
def Simp (U : α → α → Prop) (l : List α) (x : α) : Prop := ∀ y ∈ l, ∀ z ∈ l, U x y → U x z → y ≠ z → U y z

omit [DecidableEq α] in
/-- Dirac: a graph with an elimination order is complete or has two simplicial nodes that are not adjacent. -/
theorem PEO.dirac (hsym : ∀ a b, U a b → U b a) (hir : ∀ a, ¬ U a a) {l : List α} (h : PEO U l) :
    (∀ a ∈ l, ∀ b ∈ l, a ≠ b → U a b) ∨ ∃ a ∈ l, ∃ b ∈ l, a ≠ b ∧ ¬ U a b ∧ Simp U l a ∧ Simp U l b := by
  induction h with
  | nil => left; simp
  | @cons x l hx hs hl ih =>
    have sx : Simp U (x :: l) x := by
      intro y hy z hz hxy hxz hyz
      have hy' : y ∈ l := by
        rcases List.mem_cons.1 hy with rfl | k
        · exact absurd hxy (hir _)
        · exact k
      have hz' : z ∈ l := by
        rcases List.mem_cons.1 hz with rfl | k
        · exact absurd hxz (hir _)
        · exact k
      exact hs y hy' z hz' hxy hxz hyz
    have up : ∀ w ∈ l, ¬ U x w → Simp U l w → Simp U (x :: l) w := by
      intro w _ hxw hw y hy z hz hwy hwz hyz
      have hy' : y ∈ l := by
        rcases List.mem_cons.1 hy with rfl | k
        · exact absurd (hsym _ _ hwy) hxw
        · exact k
      have hz' : z ∈ l := by
        rcases List.mem_cons.1 hz with rfl | k
        · exact absurd (hsym _ _ hwz) hxw
        · exact k
      exact hw y hy' z hz' hwy hwz hyz
    have done : ∀ w ∈ l, ¬ U x w → Simp U l w →
        ∃ a ∈ x :: l, ∃ b ∈ x :: l, a ≠ b ∧ ¬ U a b ∧ Simp U (x :: l) a ∧ Simp U (x :: l) b := fun w hw hxw hsw =>
      ⟨x, by simp, w, by simp [hw], fun e => hx (e ▸ hw), hxw, sx, up w hw hxw hsw⟩
    rcases ih with hc | ⟨a, ha, b, hb, hab, hn, sa, sb⟩
    · by_cases hall : ∀ w ∈ l, U x w
      · left
        intro a ha b hb hab
        rcases List.mem_cons.1 ha with ka | ka <;> rcases List.mem_cons.1 hb with kb | kb
        · exact absurd (ka.trans kb.symm) hab
        · subst ka; exact hall b kb
        · subst kb; exact hsym _ _ (hall a ka)
        · exact hc a ka b kb hab
      · right
        simp only [not_forall] at hall
        obtain ⟨w, hw, hxw⟩ := hall
        exact done w hw hxw (fun y hy z hz _ _ hyz => hc y hy z hz hyz)
    · right
      by_cases hxa : U x a
      · by_cases hxb : U x b
        · exact absurd (hs a ha b hb hxa hxb hab) hn
        · exact done b hb hxb sb
      · exact done a ha hxa sa

omit [DecidableEq α] in
/-- The nodes of a clique may be eliminated in any order. -/
theorem PEO.of_clique {K : List α} (hn : K.Nodup) (hK : ∀ a ∈ K, ∀ b ∈ K, a ≠ b → U a b) : PEO U K := by
  induction K with
  | nil => exact .nil
  | cons a t ih =>
    rw [List.nodup_cons] at hn
    exact .cons hn.1 (fun y hy z hz _ _ hyz => hK y (by simp [hy]) z (by simp [hz]) hyz)
      (ih hn.2 (fun x hx y hy => hK x (by simp [hx]) y (by simp [hy])))

/-- An elimination order can be chosen to end with any given clique. -/
theorem PEO.reroot_clique (hsym : ∀ a b, U a b → U b a) (hir : ∀ a, ¬ U a a) {K : List α} (hn : K.Nodup)
    (hK : ∀ a ∈ K, ∀ b ∈ K, a ≠ b → U a b) (n : Nat) : ∀ {l : List α}, PEO U l → l.length = n →
    (∀ u ∈ K, u ∈ l) → ∃ l', PEO U (l' ++ K) ∧ (l' ++ K).Perm l := by
  induction n with
  | zero =>
    intro l h hl hu
    have : l = [] := List.length_eq_zero_iff.1 hl
    subst this
    have : K = [] := List.eq_nil_iff_forall_not_mem.2 (fun a ha => by simpa using hu a ha)
    subst this
    exact ⟨[], h, List.Perm.refl _⟩
  | succ n ih =>
    intro l h hl hu
    by_cases hone : ∀ w ∈ l, w ∈ K
    · exact ⟨[], .of_clique hn hK, (List.perm_ext_iff_of_nodup hn h.nodup).2 (fun a => ⟨hu a, hone a⟩)⟩
    · have hx : ∃ x ∈ l, x ∉ K ∧ Simp U l x := by
        rcases h.dirac hsym hir with hc | ⟨a, ha, b, hb, hab, hnu, sa, sb⟩
        · simp only [not_forall] at hone
          obtain ⟨w, hw, hwu⟩ := hone
          exact ⟨w, hw, hwu, fun y hy z hz _ _ hyz => hc y hy z hz hyz⟩
        · by_cases hau : a ∈ K
          · exact ⟨b, hb, fun e => hnu (hK a hau b e hab), sb⟩
          · exact ⟨a, ha, hau, sa⟩
      obtain ⟨x, hx, hxu, sx⟩ := hx
      have hlen : (l.erase x).length = n := by
        rw [List.length_erase_of_mem hx]; omega
      obtain ⟨l', p', q'⟩ := ih (h.sublist List.erase_sublist) hlen
        (fun u k => (List.mem_erase_of_ne (fun (e : u = x) => hxu (e ▸ k))).2 (hu u k))
      have hsub : ∀ y ∈ l' ++ K, y ∈ l := fun y hy => List.mem_of_mem_erase ((q'.mem_iff).1 hy)
      refine ⟨x :: l', ?_, ?_⟩
      · show PEO U (x :: (l' ++ K))
        refine .cons ?_ ?_ p'
        · intro k
          exact (List.Nodup.not_mem_erase h.nodup) ((q'.mem_iff).1 k)
        · exact fun y hy z hz => sx y (hsub y hy) z (hsub z hz)
      · show (x :: (l' ++ K)).Perm l
        exact (q'.cons x).trans (List.perm_cons_erase hx).symm

/-- An acyclic orientation of `U` without unshielded colliders gives an elimination order. -/
theorem exists_peo {D : α → α → Prop} (ac : Acyclic D) (hD : ∀ a b, D a b → b ∈ N) (hU : ∀ a b, U a b → D a b ∨ D b a)
    (hcol : ∀ x y z, U x y → U x z → D y x → D z x → y ≠ z → U y z) (n : Nat) : ∀ l : List α, l.Nodup → l.length = n →
    ∃ l', PEO U l' ∧ l'.Perm l := by
  induction n with
  | zero => intro l _ hl; rw [List.length_eq_zero_iff.1 hl]; exact ⟨[], .nil, List.Perm.refl _⟩
  | succ n ih =>
    intro l hnd hl
    have hne : ∃ u, u ∈ l := List.exists_mem_of_length_pos (by omega)
    have acr : Acyclic (fun u v => D v u) := by
      intro u hu
      exact ac u (Relation.transGen_swap.1 hu)
    obtain ⟨x, hx, hmin⟩ := Graph.exists_minimal (R := fun u v => D v u) N (fun u v k => hD v u k) acr (fun u => u ∈ l) hne
    obtain ⟨l', p', q'⟩ := ih (l.erase x) (hnd.erase x) (by rw [List.length_erase_of_mem hx]; omega)
    have into : ∀ y ∈ l', U x y → D y x := by
      intro y hy k
      rcases hU x y k with k | k
      · exact absurd (List.mem_of_mem_erase ((q'.mem_iff).1 hy)) (hmin y k)
      · exact k
    refine ⟨x :: l', .cons ?_ ?_ p', (q'.cons x).trans (List.perm_cons_erase hx).symm⟩
    · intro k
      exact (List.Nodup.not_mem_erase hnd) ((q'.mem_iff).1 k)
    · intro y hy z hz hxy hxz hyz
      exact hcol x y z hxy hxz (into y hy hxy) (into z hz hxz) hyz

/-- Directed edges plus the undirected ones pointing at the node eliminated first. -/
def Orient (M U : α → α → Prop) (l : List α) (a b : α) : Prop := M a b ∨ (U a b ∧ l.idxOf b < l.idxOf a)

theorem PEO.collider {l : List α} (h : PEO U l) {x y z : α} (hy : y ∈ l) (hz : z ∈ l)
    (hxy : U x y) (hxz : U x z) (hyz : y ≠ z) (h1 : l.idxOf x < l.idxOf y) (h2 : l.idxOf x < l.idxOf z) : U y z := by
  induction h with
  | nil => simp at hy
  | @cons w l hx hs hl ih =>
    by_cases hwx : w = x
    · subst hwx
      have hy' : y ∈ l := by
        rcases List.mem_cons.1 hy with rfl | k
        · omega
        · exact k
      have hz' : z ∈ l := by
        rcases List.mem_cons.1 hz with rfl | k
        · omega
        · exact k
      exact hs y hy' z hz' hxy hxz hyz
    · have hwy : w ≠ y := by rintro rfl; simp at h1
      have hwz : w ≠ z := by rintro rfl; simp at h2
      rw [List.idxOf_cons_ne _ hwx, List.idxOf_cons_ne _ hwy] at h1
      rw [List.idxOf_cons_ne _ hwx, List.idxOf_cons_ne _ hwz] at h2
      refine ih ?_ ?_ (by omega) (by omega)
      · rcases List.mem_cons.1 hy with rfl | k
        · exact absurd rfl hwy
        · exact k
      · rcases List.mem_cons.1 hz with rfl | k
        · exact absurd rfl hwz
        · exact k

theorem Closed.absorb (h : Closed N M U) {a b c : α} (hm : Relation.TransGen M a b) (hu : U b c) : Relation.TransGen M a c := by
  cases hm with
  | single k => exact .single (h.key k hu)
  | tail k1 k2 => exact .tail k1 (h.key k2 hu)

theorem Closed.orient_acyclic (h : Closed N M U) (l : List α) : Acyclic (Orient M U l) := by
  let Uo : α → α → Prop := fun a b => U a b ∧ l.idxOf b < l.idxOf a
  have split : ∀ a b, Relation.TransGen (Orient M U l) a b → Relation.TransGen Uo a b ∨
      ∃ a', Relation.ReflTransGen Uo a a' ∧ Relation.TransGen M a' b := by
    intro a b k
    induction k with
    | single k =>
      rcases k with k | k
      · exact Or.inr ⟨a, .refl, .single k⟩
      · exact Or.inl (.single k)
    | @tail b c _ k ih =>
      rcases k with k | k
      · rcases ih with ih | ⟨a', h1, h2⟩
        · exact Or.inr ⟨b, ih.to_reflTransGen, .single k⟩
        · exact Or.inr ⟨a', h1, h2.tail k⟩
      · rcases ih with ih | ⟨a', h1, h2⟩
        · exact Or.inl (ih.tail k)
        · exact Or.inr ⟨a', h1, h.absorb h2 k.1⟩
  have dec : ∀ a b, Relation.TransGen Uo a b → l.idxOf b < l.idxOf a := by
    intro a b k
    induction k with
    | single k => exact k.2
    | tail _ k ih => exact k.2.trans ih
  intro x hx
  rcases split x x hx with k | ⟨a', h1, h2⟩
  · exact lt_irrefl _ (dec x x k)
  · have : ∀ y, Relation.ReflTransGen Uo x y → Relation.TransGen M a' y := by
      intro y k
      induction k with
      | refl => exact h2
      | tail _ k ih => exact h.absorb ih k.1
    exact h.acyclic a' (this a' h1)

/-- Orientations along an elimination order have no new unshielded colliders. -/
theorem Closed.orient_class (h : Closed N M U) {l : List α} (p : PEO U l) (hmem : ∀ a, a ∈ l ↔ a ∈ N) :
    Acyclic (Orient M U l) ∧ (∀ a b, Adj (Orient M U l) a b ↔ C M U a b) ∧ (∀ a b, M a b → Orient M U l a b) ∧
      ∀ x w y, x ≠ y → Orient M U l x w → Orient M U l y w → ¬ C M U x y → M x w ∧ M y w := by
  have hne : ∀ a b, U a b → a ≠ b := fun a b k e => by subst e; exact h.irrefl _ k
  have hadj' : ∀ a b, Adj (Orient M U l) a b ↔ C M U a b := by
    intro a b
    constructor
    · rintro ((k | k) | (k | k))
      · exact Or.inl k
      · exact Or.inr (Or.inr k.1)
      · exact Or.inr (Or.inl k)
      · exact Or.inr (Or.inr (h.symm _ _ k.1))
    · rintro (k | k | k)
      · exact Or.inl (Or.inl k)
      · exact Or.inr (Or.inl k)
      · have : l.idxOf a ≠ l.idxOf b :=
          fun e => hne a b k ((List.idxOf_inj ((hmem a).2 (h.finU _ _ k))).1 e)
        rcases Nat.lt_or_gt_of_ne this with m | m
        · exact Or.inr (Or.inr ⟨h.symm _ _ k, m⟩)
        · exact Or.inl (Or.inr ⟨k, m⟩)
  have one : ∀ x w y, x ≠ y → Orient M U l x w → Orient M U l y w → ¬ C M U x y → M x w := by
    intro x w y hxy k1 k2 hn
    rcases k1 with k1 | ⟨k1, k1'⟩
    · exact k1
    · exfalso
      apply hn
      rcases k2 with k2 | ⟨k2, k2'⟩
      · exact Or.inr (Or.inl (h.key k2 (h.symm _ _ k1)))
      · exact Or.inr (Or.inr (p.collider ((hmem x).2 (h.finU _ _ k1)) ((hmem y).2 (h.finU _ _ k2))
          (h.symm _ _ k1) (h.symm _ _ k2) hxy k1' k2'))
  refine ⟨h.orient_acyclic _, hadj', fun a b k => Or.inl k, ?_⟩
  intro x w y hxy k1 k2 hn
  exact ⟨one x w y hxy k1 k2 hn, one y w x hxy.symm k2 k1 (fun k => hn (h.csymm k))⟩

/-- An elimination order of the undirected part exists, ending with any given clique. -/
theorem Closed.order (h : Closed N M U) (hN : N.Nodup) {D : α → α → Prop} (ac : Acyclic D) (hD : ∀ a b, D a b → b ∈ N)
    (hadj : ∀ a b, Adj D a b ↔ C M U a b)
    (hcol : ∀ u w v, u ≠ v → D u w → D v w → ¬ C M U u v → M u w) {K : List α} (hn : K.Nodup)
    (hK : ∀ a ∈ K, ∀ b ∈ K, a ≠ b → U a b) (hKN : ∀ a ∈ K, a ∈ N) :
    ∃ l', PEO U (l' ++ K) ∧ ∀ a, a ∈ l' ++ K ↔ a ∈ N := by
  have hU : ∀ a b, U a b → D a b ∨ D b a := fun a b k => (hadj a b).2 (Or.inr (Or.inr k))
  have hc : ∀ x y z, U x y → U x z → D y x → D z x → y ≠ z → U y z := by
    intro x y z hxy hxz hy hz hyz
    by_cases hC : C M U y z
    · rcases hC with k | k | k
      · exact absurd (h.symm _ _ hxy) (h.excl _ _ (h.key k (h.symm _ _ hxz)))
      · exact absurd (h.symm _ _ hxz) (h.excl _ _ (h.key k (h.symm _ _ hxy)))
      · exact k
    · exact absurd (h.symm _ _ hxy) (h.excl _ _ (hcol y x z hyz hy hz hC))
  obtain ⟨l0, p0, q0⟩ := exists_peo ac hD hU hc N.length N hN rfl
  obtain ⟨l1, p, q⟩ := p0.reroot_clique h.symm h.irrefl hn hK l0.length rfl (fun u k => (q0.mem_iff).2 (hKN u k))
  exact ⟨l1, p, fun a => (q.trans q0).mem_iff⟩

/-- Nodes of the final part of an order come after the others. -/
theorem idxOf_final {l K : List α} (hnd : (l ++ K).Nodup) {w u : α} (hw : w ∈ l) (hu : u ∈ K) :
    (l ++ K).idxOf w < (l ++ K).idxOf u := by
  have hul : u ∉ l := fun k => (List.nodup_append.1 hnd).2.2 u k u hu rfl
  rw [List.idxOf_append_of_mem hw, List.idxOf_append_of_notMem hul]
  have := List.idxOf_lt_length_iff.2 hw
  omega

/-- Each undirected edge can be directed either way by an acyclic orientation without new unshielded colliders. -/
theorem Closed.either_way (h : Closed N M U) (hN : N.Nodup) {D : α → α → Prop} (ac : Acyclic D) (hD : ∀ a b, D a b → b ∈ N)
    (hadj : ∀ a b, Adj D a b ↔ C M U a b)
    (hcol : ∀ u w v, u ≠ v → D u w → D v w → ¬ C M U u v → M u w) {u v : α} (huv : U u v) :
    ∃ D' : α → α → Prop, D' u v ∧ Acyclic D' ∧ (∀ a b, Adj D' a b ↔ C M U a b) ∧ (∀ a b, M a b → D' a b) ∧
      ∀ x w y, x ≠ y → D' x w → D' y w → ¬ C M U x y → M x w ∧ M y w := by
  obtain ⟨l1, p, hmem⟩ := h.order hN ac hD hadj hcol (K := [u]) (by simp)
    (fun a ha b hb hab => absurd ((List.mem_singleton.1 ha).trans (List.mem_singleton.1 hb).symm) hab)
    (fun a ha => by rw [List.mem_singleton.1 ha]; exact h.finU _ _ huv)
  refine ⟨Orient M U (l1 ++ [u]), Or.inr ⟨huv, idxOf_final p.nodup ?_ (by simp)⟩, h.orient_class p hmem⟩
  rcases List.mem_append.1 ((hmem v).2 (h.finU _ _ (h.symm _ _ huv))) with m | m
  · exact m
  · rw [List.mem_singleton.1 m] at huv; exact absurd huv (h.irrefl _)

end Complete
end Cdmir
