import Verif.Lemmas.DSepFacts
import Mathlib.Data.Set.List

/-! d-separation under a renaming of the nodes. -/

namespace Cdmir
namespace Spec
variable {α β : Type} {R : α → α → Prop} {R' : β → β → Prop} {f : β → α} {Z : α → Prop}

theorem infix_map {l s : List β} (h : s <:+: l) : s.map f <:+: l.map f := by
  obtain ⟨a, b, rfl⟩ := h
  exact ⟨a.map f, b.map f, by simp⟩

theorem of_infix_map {l : List β} {s : List α} (h : s <:+: l.map f) : ∃ s', s' <:+: l ∧ s'.map f = s := by
  obtain ⟨a, b, e⟩ := h
  obtain ⟨l1, l2, rfl, h1, h2⟩ := List.map_eq_append_iff.1 e.symm
  obtain ⟨l3, l4, rfl, h3, h4⟩ := List.map_eq_append_iff.1 h1
  exact ⟨l4, ⟨l3, l2, rfl⟩, h4⟩

theorem desc_map (hR : ∀ i j, R' i j ↔ R (f i) (f j)) (hr : ∀ u v, R u v → ∃ j, f j = v) {b : β} {w : α} :
    Desc R (f b) w ↔ ∃ w', f w' = w ∧ Desc R' b w' := by
  constructor
  · intro h
    induction h with
    | refl => exact ⟨b, rfl, Relation.ReflTransGen.refl⟩
    | tail _ e ih =>
      obtain ⟨c, rfl, hc⟩ := ih
      obtain ⟨d, rfl⟩ := hr _ _ e
      exact ⟨d, rfl, hc.tail ((hR _ _).2 e)⟩
  · rintro ⟨w', rfl, h⟩
    exact Relation.ReflTransGen.lift f (fun a c h => (hR a c).1 h) _ _ h

/-- Renaming the nodes does not change d-separation. -/
theorem dsep_map (hf : Function.Injective f) (hR : ∀ i j, R' i j ↔ R (f i) (f j)) (hr : ∀ u v, R u v → (∃ i, f i = u) ∧ ∃ j, f j = v)
    (i j : β) : DSep R (f i) (f j) Z ↔ DSep R' i j (fun w => Z (f w)) := by
  have hcol : ∀ a b c, Collider R (f a) (f b) (f c) ↔ Collider R' a b c := fun a b c => by simp only [Collider, hR]
  have hbl : ∀ p : List β, Blocked R Z (p.map f) ↔ Blocked R' (fun w => Z (f w)) p := by
    intro p
    constructor
    · rintro ⟨a, b, c, h, hb⟩
      obtain ⟨s, hs, e⟩ := of_infix_map h
      obtain ⟨a', s, rfl, rfl, e1⟩ := List.map_eq_cons_iff.1 e
      obtain ⟨b', s, rfl, rfl, e2⟩ := List.map_eq_cons_iff.1 e1
      obtain ⟨c', s, rfl, rfl, e3⟩ := List.map_eq_cons_iff.1 e2
      rw [List.map_eq_nil_iff.1 e3] at hs
      refine ⟨a', b', c', hs, ?_⟩
      rw [hcol] at hb
      refine hb.imp id fun hb => ⟨hb.1, fun w hw hd => hb.2 (f w) hw ?_⟩
      exact (desc_map hR fun u v e => (hr u v e).2).2 ⟨w, rfl, hd⟩
    · rintro ⟨a, b, c, h, hb⟩
      refine ⟨f a, f b, f c, infix_map h, ?_⟩
      rw [hcol]
      refine hb.imp id fun hb => ⟨hb.1, fun w hw hd => ?_⟩
      obtain ⟨w', rfl, hd'⟩ := (desc_map hR fun u v e => (hr u v e).2).1 hd
      exact hb.2 w' hw hd'
  have hpath : ∀ p : List β, IsPath R (p.map f) (f i) (f j) ↔ IsPath R' p i j := by
    intro p
    unfold IsPath
    rw [List.nodup_map_iff hf, List.head?_map, List.getLast?_map]
    have e1 : Option.map f p.head? = some (f i) ↔ p.head? = some i := by
      cases p.head? <;> simp [hf.eq_iff]
    have e2 : Option.map f p.getLast? = some (f j) ↔ p.getLast? = some j := by
      cases p.getLast? <;> simp [hf.eq_iff]
    rw [e1, e2]
    refine and_congr Iff.rfl (and_congr Iff.rfl (and_congr Iff.rfl ⟨fun h a b hab => ?_, fun h a b hab => ?_⟩))
    · have := h (f a) (f b) (infix_map hab)
      simpa only [Adj, hR] using this
    · obtain ⟨s, hs, e⟩ := of_infix_map hab
      obtain ⟨a', s, rfl, rfl, e1⟩ := List.map_eq_cons_iff.1 e
      obtain ⟨b', s, rfl, rfl, e2⟩ := List.map_eq_cons_iff.1 e1
      rw [List.map_eq_nil_iff.1 e2] at hs
      have := h a' b' hs
      simpa only [Adj, hR] using this
  constructor
  · intro h p hp
    exact (hbl p).1 (h _ ((hpath p).2 hp))
  · intro h p hp
    have hrange : ∀ (l : List α) (a : α), (∃ k, f k = a) → (∀ u v, [u, v] <:+: a :: l → Adj R u v) → ∀ u ∈ a :: l, u ∈ Set.range f := by
      intro l
      induction l with
      | nil => rintro a ⟨k, rfl⟩ _ u hu; rw [List.mem_singleton.1 hu]; exact ⟨k, rfl⟩
      | cons b l ih =>
        intro a ha had u hu
        rcases List.mem_cons.1 hu with rfl | hu
        · exact ha
        · refine ih b ?_ (fun u v huv => had u v (huv.trans (List.suffix_cons _ _).isInfix)) u hu
          rcases had a b ⟨[], l, rfl⟩ with e | e
          · exact (hr _ _ e).2
          · exact (hr _ _ e).1
    have hall : ∀ u ∈ p, u ∈ Set.range f := by
      obtain ⟨_, h1, _, h2⟩ := hp
      cases p with
      | nil => simp at h1
      | cons a l =>
        simp only [List.head?_cons, Option.some.injEq] at h1
        exact hrange l a ⟨i, h1.symm⟩ h2
    obtain ⟨p', rfl⟩ : p ∈ Set.range (List.map f) := by rw [Set.range_list_map]; exact hall
    exact (hbl p').2 (h p' ((hpath p').1 hp))

end Spec
end Cdmir
