import Verif.Model.Py

/-! Loops (`List.foldlM` in `Except`) and invariants. -/

namespace Cdmir
variable {σ β : Type}

/-- The outcome of a computation is a value satisfying `P`. -/
def OkP (P : σ → Prop) (m : Except Err σ) : Prop := ∃ s, m = .ok s ∧ P s

theorem foldlM_inv {P : σ → Prop} {f : σ → β → Except Err σ} (l : List β)
    (h : ∀ s x, x ∈ l → P s → OkP P (f s x)) : ∀ s, P s → OkP P (l.foldlM f s) := by
  induction l with
  | nil => intro s hs; exact ⟨s, rfl, hs⟩
  | cons x t ih =>
    intro s hs
    obtain ⟨s1, e1, h1⟩ := h s x (by simp) hs
    obtain ⟨s2, e2, h2⟩ := ih (fun s y hy => h s y (by simp [hy])) s1 h1
    refine ⟨s2, ?_, h2⟩
    rw [List.foldlM_cons, e1]
    exact e2

/-- A step that establishes `P` for good. -/
theorem foldlM_est {I P : σ → Prop} {f : σ → β → Except Err σ} (l : List β) (x0 : β) (hx : x0 ∈ l)
    (hI : ∀ s x, x ∈ l → I s → OkP I (f s x)) (h0 : ∀ s, I s → OkP P (f s x0))
    (hP : ∀ s x, x ∈ l → I s → P s → OkP P (f s x)) : ∀ s, I s → OkP (fun s => I s ∧ P s) (l.foldlM f s) := by
  induction l with
  | nil => simp at hx
  | cons x t ih =>
    intro s hs
    obtain ⟨s1, e1, h1⟩ := hI s x (by simp) hs
    rw [List.foldlM_cons, e1]
    by_cases hxx : x0 = x
    · subst hxx
      obtain ⟨s1', e1', h1'⟩ := h0 s hs
      rw [e1] at e1'
      cases e1'
      exact foldlM_inv (P := fun s => I s ∧ P s) t (fun s y hy hs => by
        obtain ⟨a, ea, ha⟩ := hI s y (by simp [hy]) hs.1
        obtain ⟨b, eb, hb⟩ := hP s y (by simp [hy]) hs.1 hs.2
        rw [ea] at eb
        cases eb
        exact ⟨a, ea, ha, hb⟩) s1 ⟨h1, h1'⟩
    · have hx' : x0 ∈ t := by
        rcases List.mem_cons.1 hx with h | h
        · exact absurd h hxx
        · exact h
      exact ih hx' (fun s y hy => hI s y (by simp [hy])) (fun s y hy => hP s y (by simp [hy])) s1 h1

/-- Loops that carry a flag `changed`: either nothing happened at all, or the flag is set and something happened. -/
def Flagged {γ : Type} (P : γ → Prop) (St : γ → γ → Prop) (Q : Prop) (g : γ) (b : Bool) (m : Except Err (γ × Bool)) : Prop :=
  ∃ g' b', m = .ok (g', b') ∧ P g' ∧ ((b' = b ∧ g' = g ∧ Q) ∨ (b' = true ∧ St g g'))

theorem flagFold {γ : Type} {P : γ → Prop} {St : γ → γ → Prop} {Q : γ → β → Prop}
    (tr : ∀ a b c, P a → St a b → P b → St b c → P c → St a c)
    {f : γ × Bool → β → Except Err (γ × Bool)} (l : List β)
    (h : ∀ g b x, x ∈ l → P g → Flagged P St (Q g x) g b (f (g, b) x)) :
    ∀ g b, P g → Flagged P St (∀ x ∈ l, Q g x) g b (l.foldlM f (g, b)) := by
  induction l with
  | nil => intro g b hg; exact ⟨g, b, rfl, hg, Or.inl ⟨rfl, rfl, by simp⟩⟩
  | cons x t ih =>
    intro g b hg
    obtain ⟨g1, b1, e1, p1, d1⟩ := h g b x (by simp) hg
    obtain ⟨g2, b2, e2, p2, d2⟩ := ih (fun g b y hy => h g b y (by simp [hy])) g1 b1 p1
    refine ⟨g2, b2, by rw [List.foldlM_cons, e1]; exact e2, p2, ?_⟩
    rcases d1 with ⟨rfl, rfl, q1⟩ | ⟨rfl, s1⟩
    · rcases d2 with ⟨rfl, rfl, q2⟩ | ⟨rfl, s2⟩
      · left
        refine ⟨rfl, rfl, ?_⟩
        intro y hy
        rcases List.mem_cons.1 hy with rfl | hy
        · exact q1
        · exact q2 y hy
      · exact Or.inr ⟨rfl, s2⟩
    · rcases d2 with ⟨rfl, rfl, q2⟩ | ⟨rfl, s2⟩
      · exact Or.inr ⟨rfl, s1⟩
      · exact Or.inr ⟨rfl, tr _ _ _ hg s1 p1 s2 p2⟩

end Cdmir
