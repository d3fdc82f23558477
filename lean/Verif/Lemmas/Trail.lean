import Verif.Spec.DSep
import Mathlib.Data.List.Nodup

/-!
Active trails and paths over an arbitrary asymmetric relation: the states visited by phase II of
`get_reachable_nodes` (digraph.py L54-83) are exactly the ends of unblocked paths.
-/

namespace Cdmir
namespace Spec
variable {α : Type} {R : α → α → Prop} {Z : α → Prop}

theorem Adj.symm {u v : α} (h : Adj R u v) : Adj R v u := h.elim Or.inr Or.inl

theorem pair_infix_cons {a b c : α} {l : List α} :
    [a, b] <:+: c :: l ↔ (a = c ∧ l.head? = some b) ∨ [a, b] <:+: l := by
  rw [List.infix_cons_iff]
  cases l with
  | nil => simp
  | cons d t => simp [List.cons_prefix_cons, eq_comm]

theorem triple_infix_cons {a b c d : α} {l : List α} :
    [a, b, c] <:+: d :: l ↔ (a = d ∧ ∃ t, l = b :: c :: t) ∨ [a, b, c] <:+: l := by
  rw [List.infix_cons_iff]
  constructor
  · rintro (h | h)
    · left
      rw [List.cons_prefix_cons] at h
      obtain ⟨h1, t, h2⟩ := h
      exact ⟨h1, t, by simpa using h2.symm⟩
    · exact Or.inr h
  · rintro (⟨rfl, t, rfl⟩ | h)
    · left; simp [List.cons_prefix_cons]
    · exact Or.inr h

/-- Ancestors-or-self of members of `Z`: what phase I collects (digraph.py L38-52). -/
def AncZ (R : α → α → Prop) (Z : α → Prop) (u : α) : Prop := ∃ w, Z w ∧ Desc R u w

theorem AncZ.of_edge {u v : α} (h : AncZ R Z v) (e : R u v) : AncZ R Z u := by
  obtain ⟨w, hw, hd⟩ := h
  exact ⟨w, hw, Relation.ReflTransGen.head e hd⟩

theorem AncZ.of_desc {u v : α} (h : AncZ R Z v) (e : Desc R u v) : AncZ R Z u := by
  obtain ⟨w, hw, hd⟩ := h
  exact ⟨w, hw, e.trans hd⟩

/-- One move of phase II (digraph.py L71-83); `true` is direction 1. -/
inductive Move (R : α → α → Prop) (Z : α → Prop) : α × Bool → α × Bool → Prop
  | up_pa {y p} (hz : ¬ Z y) (e : R p y) : Move R Z (y, true) (p, true)
  | up_ch {y c} (hz : ¬ Z y) (e : R y c) : Move R Z (y, true) (c, false)
  | down_ch {y c} (hz : ¬ Z y) (e : R y c) : Move R Z (y, false) (c, false)
  | down_pa {y p} (ha : AncZ R Z y) (e : R p y) : Move R Z (y, false) (p, true)

/-- Triple condition of an unblocked path. -/
def TripleOk (R : α → α → Prop) (Z : α → Prop) (a b c : α) : Prop :=
  (Collider R a b c → AncZ R Z b) ∧ (¬ Collider R a b c → ¬ Z b)

theorem TripleOk.symm {a b c : α} (h : TripleOk R Z a b c) : TripleOk R Z c b a :=
  ⟨fun hc => h.1 ⟨hc.2, hc.1⟩, fun hc => h.2 (fun hh => hc ⟨hh.2, hh.1⟩)⟩

/-- All inner nodes of the list are open. -/
def Open (R : α → α → Prop) (Z : α → Prop) (p : List α) : Prop := ∀ a b c, [a, b, c] <:+: p → TripleOk R Z a b c

theorem open_iff_not_blocked (p : List α) : Open R Z p ↔ ¬ Blocked R Z p := by
  unfold Open Blocked TripleOk AncZ
  constructor
  · rintro h ⟨a, b, c, hi, ⟨h1, h2⟩ | ⟨h1, h2⟩⟩
    · exact (h a b c hi).2 h1 h2
    · obtain ⟨w, hw, hd⟩ := (h a b c hi).1 h1
      exact h2 w hw hd
  · intro h a b c hi
    constructor
    · intro hc
      by_contra hn
      exact h ⟨a, b, c, hi, Or.inr ⟨hc, fun w hw hd => hn ⟨w, hw, hd⟩⟩⟩
    · intro hc hz
      exact h ⟨a, b, c, hi, Or.inl ⟨hc, hz⟩⟩

theorem Open.tail {a : α} {p : List α} (h : Open R Z (a :: p)) : Open R Z p :=
  fun x y z hi => h x y z (List.infix_cons hi)

theorem Open.suffix {s p : List α} (h : Open R Z (s ++ p)) : Open R Z p :=
  fun x y z hi => h x y z (hi.trans (List.suffix_append s p).isInfix)

/-- Consecutive adjacency. -/
def Linked (R : α → α → Prop) (p : List α) : Prop := ∀ a b, [a, b] <:+: p → Adj R a b

theorem Linked.suffix {s p : List α} (h : Linked R (s ++ p)) : Linked R p :=
  fun x y hi => h x y (hi.trans (List.suffix_append s p).isInfix)

theorem infix_reverse {l p : List α} : l.reverse <:+: p.reverse ↔ l <:+: p := List.reverse_infix

theorem Open.reverse {p : List α} (h : Open R Z p) : Open R Z p.reverse := by
  intro a b c hi
  have : [c, b, a] <:+: p := by
    rw [← List.reverse_infix]; simpa using hi
  exact (h c b a this).symm

theorem Linked.reverse {p : List α} (h : Linked R p) : Linked R p.reverse := by
  intro a b hi
  have : [b, a] <:+: p := by
    rw [← List.reverse_infix]; simpa using hi
  exact (h b a this).symm

/-- Going back along an open list from `w`, entered from `prev -> w`: either `w` is an ancestor of `Z`, or the list goes
down from `w` to its head. -/
theorem down_or_anc {prev w : α} {t : List α} (hpw : R prev w) (s : List α)
    (ho : Open R Z (s ++ w :: prev :: t)) (hl : Linked R (s ++ w :: prev :: t)) :
    AncZ R Z w ∨ ∃ y y' r, s ++ w :: prev :: t = y :: y' :: r ∧ R y' y ∧ Desc R w y := by
  induction s with
  | nil => exact Or.inr ⟨w, prev, t, rfl, hpw, Relation.ReflTransGen.refl⟩
  | cons c s ih =>
    have ho' : Open R Z (s ++ w :: prev :: t) := Open.tail ho
    have hl' : Linked R (s ++ w :: prev :: t) := fun a b hi => hl a b (List.infix_cons hi)
    rcases ih ho' hl' with h | ⟨y, y', r, he, h1, h2⟩
    · exact Or.inl h
    · rw [List.cons_append, he] at ho hl ⊢
      have hadj : Adj R c y := hl c y (pair_infix_cons.2 (Or.inl ⟨rfl, rfl⟩))
      rcases hadj with hcy | hyc
      · have := (ho c y y' (triple_infix_cons.2 (Or.inl ⟨rfl, r, rfl⟩))).1 ⟨hcy, h1⟩
        exact Or.inl (this.of_desc h2)
      · exact Or.inr ⟨c, y, y' :: r, rfl, hyc, h2.tail hyc⟩

/-- Invariant of phase II: the state `(y, d)` is witnessed by a simple open list from `y` back to `x`. -/
def Wit (R : α → α → Prop) (Z : α → Prop) (x y : α) (d : Bool) : Prop :=
  ∃ t, (y :: t).Nodup ∧ (y :: t).getLast? = some x ∧ Linked R (y :: t) ∧ Open R Z (y :: t) ∧
    ∀ prev r, t = prev :: r → (d = true → R prev y → AncZ R Z y) ∧ (d = false → R y prev → ¬ Z y)

theorem Wit.move (asym : ∀ u v, R u v → ¬ R v u) {x : α} {s s' : α × Bool}
    (h : Wit R Z x s.1 s.2) (m : Move R Z s s') : Wit R Z x s'.1 s'.2 := by
  obtain ⟨t, hn, hx, hl, ho, hinv⟩ := h
  obtain ⟨y, d⟩ := s
  obtain ⟨w, dw⟩ := s'
  simp only at hn hx hl ho hinv ⊢
  -- direction of the new edge, and the condition at y
  have key : Adj R w y ∧ (dw = true → R w y) ∧ (dw = false → R y w) ∧
      (∀ prev r, t = prev :: r → TripleOk R Z w y prev) ∧ (dw = true → (∀ prev r, t = prev :: r → R prev y → AncZ R Z y)) := by
    have adjp : ∀ prev r, t = prev :: r → Adj R y prev := by
      rintro prev r rfl
      exact hl y prev (pair_infix_cons.2 (Or.inl ⟨rfl, rfl⟩))
    cases m with
    | up_pa hz e =>
      refine ⟨Or.inl e, fun _ => e, by simp, ?_, ?_⟩
      · intro prev r ht
        refine ⟨fun hc => (hinv prev r ht).1 rfl hc.2, fun _ => hz⟩
      · intro _ prev r ht hp
        exact (hinv prev r ht).1 rfl hp
    | up_ch hz e =>
      refine ⟨Or.inr e, by simp, fun _ => e, ?_, by simp⟩
      intro prev r ht
      exact ⟨fun hc => absurd hc.1 (asym _ _ e), fun _ => hz⟩
    | down_ch hz e =>
      refine ⟨Or.inr e, by simp, fun _ => e, ?_, by simp⟩
      intro prev r ht
      exact ⟨fun hc => absurd hc.1 (asym _ _ e), fun _ => hz⟩
    | down_pa ha e =>
      refine ⟨Or.inl e, fun _ => e, by simp, ?_, fun _ _ _ _ _ => ha⟩
      intro prev r ht
      refine ⟨fun _ => ha, fun hc => ?_⟩
      rcases adjp prev r ht with h1 | h1
      · exact (hinv prev r ht).2 rfl h1
      · exact absurd ⟨e, h1⟩ hc
  obtain ⟨hadj, hup, hdn, htri, hanc⟩ := key
  by_cases hw : w ∈ y :: t
  · -- splice
    rw [List.mem_iff_append] at hw
    obtain ⟨s, r, hsr⟩ := hw
    rw [hsr] at hn hx hl ho
    refine ⟨r, hn.sublist (List.sublist_append_right _ _), ?_, hl.suffix, ho.suffix, ?_⟩
    · rw [← hx, List.getLast?_append]
      simp [List.getLast?_cons]
    · intro prev r' hr
      subst hr
      have hwy : w ≠ y := by
        rintro rfl
        rcases hadj with h1 | h1 <;> exact asym _ _ h1 h1
      cases s with
      | nil => simp at hsr; exact absurd hsr.1.symm hwy
      | cons c s =>
        simp only [List.cons_append, List.cons.injEq] at hsr
        obtain ⟨rfl, ht⟩ := hsr
        constructor
        · intro hd hp
          rcases down_or_anc hp (y :: s) ho hl with h1 | ⟨y1, y2, r2, he, h2, h3⟩
          · exact h1
          · simp only [List.cons_append, List.cons.injEq] at he
            obtain ⟨rfl, he⟩ := he
            exact (hanc hd y2 r2 (by rw [ht, he]) h2).of_edge (hup hd)
        · intro hd hp
          have hmid : ∃ a, [a, w, prev] <:+: (y :: s) ++ w :: prev :: r' := by
            rcases List.eq_nil_or_concat (y :: s) with h0 | ⟨s0, a, h0⟩
            · simp at h0
            · refine ⟨a, s0, r', ?_⟩
              rw [h0]; simp
          obtain ⟨a, ha⟩ := hmid
          exact (ho a w prev ha).2 (fun hc => asym _ _ hp hc.2)
  · refine ⟨y :: t, List.nodup_cons.2 ⟨hw, hn⟩, ?_, ?_, ?_, ?_⟩
    · rw [List.getLast?_cons_cons]; exact hx
    · intro a b hi
      rcases pair_infix_cons.1 hi with ⟨rfl, hb⟩ | hi
      · simp at hb; subst hb; exact hadj
      · exact hl a b hi
    · intro a b c hi
      rcases triple_infix_cons.1 hi with ⟨rfl, t', ht⟩ | hi
      · simp only [List.cons.injEq] at ht
        obtain ⟨rfl, ht⟩ := ht
        exact htri _ _ ht
      · exact ho a b c hi
    · intro prev r hr
      simp only [List.cons.injEq] at hr
      obtain ⟨rfl, _⟩ := hr
      exact ⟨fun hd hp => absurd hp (asym _ _ (hup hd)), fun hd hp => absurd hp (asym _ _ (hdn hd))⟩

theorem wit_of_reach (asym : ∀ u v, R u v → ¬ R v u) {x : α} {s : α × Bool}
    (h : Relation.ReflTransGen (Move R Z) (x, true) s) : Wit R Z x s.1 s.2 := by
  induction h with
  | refl =>
    refine ⟨[], by simp, by simp, ?_, ?_, by simp⟩
    · intro a b hi
      have := hi.length_le
      simp at this
    · intro a b c hi
      have := hi.length_le
      simp at this
  | tail _ m ih => exact ih.move asym m

/-- Soundness: a state reached by phase II is the end of an unblocked path. -/
theorem path_of_reach (asym : ∀ u v, R u v → ¬ R v u) {x y : α} {d : Bool}
    (h : Relation.ReflTransGen (Move R Z) (x, true) (y, d)) : ∃ p, IsPath R p x y ∧ ¬ Blocked R Z p := by
  obtain ⟨t, hn, hx, hl, ho, _⟩ := wit_of_reach asym h
  refine ⟨(y :: t).reverse, ⟨List.nodup_reverse.2 hn, ?_, ?_, hl.reverse⟩, (open_iff_not_blocked _).1 ho.reverse⟩
  · rw [List.head?_reverse]; exact hx
  · rw [List.getLast?_reverse]; rfl

/-- Completeness, for a path given back to front. -/
theorem reach_of_open (asym : ∀ u v, R u v → ¬ R v u) {x : α} (hx : ¬ Z x) :
    ∀ (t : List α) (y : α), (y :: t).getLast? = some x → Linked R (y :: t) → Open R Z (y :: t) →
      ∃ d, Relation.ReflTransGen (Move R Z) (x, true) (y, d) ∧
        (t = [] → d = true) ∧ ∀ prev r, t = prev :: r → (d = true ↔ R y prev) := by
  intro t
  induction t with
  | nil =>
    intro y hy _ _
    simp at hy
    subst hy
    exact ⟨true, Relation.ReflTransGen.refl, fun _ => rfl, by simp⟩
  | cons b t ih =>
    intro y hy hl ho
    have hy' : (b :: t).getLast? = some x := by rwa [List.getLast?_cons_cons] at hy
    obtain ⟨d, hd, hnil, hinv⟩ := ih b hy' (fun a b hi => hl a b (List.infix_cons hi)) ho.tail
    have hadj : Adj R y b := hl y b (pair_infix_cons.2 (Or.inl ⟨rfl, rfl⟩))
    have hnc : ∀ prev r, t = prev :: r → TripleOk R Z y b prev := by
      rintro prev r rfl
      exact ho y b prev (triple_infix_cons.2 (Or.inl ⟨rfl, r, rfl⟩))
    have hadj' : ∀ prev r, t = prev :: r → Adj R b prev := by
      rintro prev r rfl
      exact hl b prev (List.infix_cons (pair_infix_cons.2 (Or.inl ⟨rfl, rfl⟩)))
    -- not in Z unless collider
    have hz : (∀ prev r, t = prev :: r → ¬ Collider R y b prev) → ¬ Z b := by
      intro hc
      cases t with
      | nil => simp at hy'; rw [hy']; exact hx
      | cons prev r => exact (hnc prev r rfl).2 (hc prev r rfl)
    rcases hadj with hyb | hby
    · -- y -> b : the next move goes up
      refine ⟨true, ?_, by simp, ?_⟩
      · refine hd.tail ?_
        cases d with
        | true =>
          refine Move.up_pa (hz ?_) hyb
          intro prev r ht hc
          exact asym _ _ hc.2 ((hinv prev r ht).1 rfl)
        | false =>
          refine Move.down_pa ?_ hyb
          cases t with
          | nil =>
            have := hnil rfl
            simp at this
          | cons prev r =>
            have hpb : R prev b := by
              rcases hadj' prev r rfl with h1 | h1
              · have := (hinv prev r rfl).2 h1; simp at this
              · exact h1
            exact (hnc prev r rfl).1 ⟨hyb, hpb⟩
      · intro prev r ht
        simp only [List.cons.injEq] at ht
        obtain ⟨rfl, _⟩ := ht
        simp [hyb]
    · refine ⟨false, ?_, by simp, ?_⟩
      · refine hd.tail ?_
        have : ¬ Z b := hz (fun prev r ht hc => asym _ _ hby hc.1)
        cases d with
        | true => exact Move.up_ch this hby
        | false => exact Move.down_ch this hby
      · intro prev r ht
        simp only [List.cons.injEq] at ht
        obtain ⟨rfl, _⟩ := ht
        simp [asym _ _ hby]

/-- Phase II reaches exactly the ends of unblocked paths. -/
theorem reach_iff_path (asym : ∀ u v, R u v → ¬ R v u) {x y : α} (hx : ¬ Z x) :
    (∃ d, Relation.ReflTransGen (Move R Z) (x, true) (y, d)) ↔ ∃ p, IsPath R p x y ∧ ¬ Blocked R Z p := by
  constructor
  · rintro ⟨d, h⟩; exact path_of_reach asym h
  · rintro ⟨p, ⟨_, h2, h3, h4⟩, hb⟩
    have ho := ((open_iff_not_blocked (R := R) (Z := Z) p).2 hb).reverse
    have hl : Linked R p.reverse := Linked.reverse h4
    have hh : p.reverse.head? = some y := by rw [List.head?_reverse]; exact h3
    have hlast : p.reverse.getLast? = some x := by rw [List.getLast?_reverse]; exact h2
    cases hp : p.reverse with
    | nil => rw [hp] at hh; simp at hh
    | cons y' t =>
      rw [hp] at hh hlast ho hl
      simp at hh
      subst hh
      obtain ⟨d, hd, _⟩ := reach_of_open asym hx t y' hlast hl ho
      exact ⟨d, hd⟩

end Spec
end Cdmir
