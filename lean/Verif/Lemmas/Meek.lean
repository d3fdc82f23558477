import Verif.Lemmas.PDAG

/-! The loops of the four orientation rules. -/

namespace Cdmir
namespace Graph
open Spec
variable {α : Type} [DecidableEq α] {N : List α}

theorem Steps.trans' {J : Graph α → α → α → Prop} {P : Graph α → Prop} :
    ∀ a b c, P a → Steps J a b → P b → Steps J b c → P c → Steps J a c :=
  fun _ _ _ _ h1 _ h2 _ => Relation.TransGen.trans h1 h2

theorem flag_same {γ : Type} {P : γ → Prop} {St : γ → γ → Prop} {Q : Prop} {g : γ} {b : Bool} (hp : P g) (hq : Q) :
    Flagged P St Q g b (pure (g, b)) := ⟨g, b, rfl, hp, Or.inl ⟨rfl, rfl, hq⟩⟩

theorem flag_weaken {γ : Type} {P P' : γ → Prop} {St : γ → γ → Prop} {Q Q' : Prop} {g : γ} {b : Bool}
    {m : Except Err (γ × Bool)} (h : Flagged P St Q g b m) (hp : ∀ g, P g → P' g) (hq : Q → Q') :
    Flagged P' St Q' g b m := by
  obtain ⟨g', b', h1, h2, h3⟩ := h
  refine ⟨g', b', h1, hp _ h2, ?_⟩
  rcases h3 with h | h
  · exact Or.inl ⟨h.1, h.2.1, hq h.2.2⟩
  · exact Or.inr h

/-- Outer invariant of the rule loops: proof device. -/
def NG (N : List α) (g : Graph α) : Prop := g.PG ∧ g.nodeList = N

theorem rule1Body_spec {u v w : α} (hu : u ∈ N) (hv : v ∈ N) (hw : w ∈ N) (g : Graph α) (b : Bool)
    (hg : NG N g ∧ Dir g u v) :
    Flagged (fun g => NG N g ∧ Dir g u v) (Steps Pat1) (w ≠ u → w ≠ v → ¬ Conn g u w → ¬ Und g v w) g b
      (rule1Body u v (g, b) w) := by
  classical
  obtain ⟨⟨hp, rfl⟩, hd⟩ := hg
  unfold rule1Body
  by_cases h1 : w = u ∨ w = v
  · rw [if_pos h1]
    exact flag_same ⟨⟨hp, rfl⟩, hd⟩ (fun a b => by tauto)
  · rw [if_neg h1]
    simp only [ic_dec hp.wf hu hw, fu_dec hp.wf hv hw, bind, Except.bind]
    by_cases h2 : Conn g u w
    · simp only [h2, decide_true, if_true]
      exact flag_same ⟨⟨hp, rfl⟩, hd⟩ (by simp)
    · by_cases h3 : Und g v w
      · have hvw : v ≠ w := fun h => h1 (Or.inr h.symm)
        obtain ⟨g', e, o⟩ := orient_ok hp hv hw hvw
        simp only [h2, h3, decide_false, decide_true, if_true, e]
        refine ⟨g', true, rfl, ⟨⟨o.PG hp, o.nodes⟩, o.dir_keep hp hvw h3 hd⟩, Or.inr ⟨rfl, .single ⟨v, w, hvw, h3, ?_, o⟩⟩⟩
        exact ⟨u, fun h => h1 (Or.inl h.symm), hd, h2, h3⟩
      · simp only [h2, h3, decide_false]
        exact flag_same ⟨⟨hp, rfl⟩, hd⟩ (by simp)

theorem rule1_spec {g : Graph α} (hg : NG N g) :
    Flagged (NG N) (Steps Pat1) (∀ a b, ¬ Pat1 g a b) g false g.rule1 := by
  classical
  unfold rule1
  have hn : g.nodes = N := hg.2
  rw [hn]
  have hN : N.Nodup := by rw [← hg.2]; exact hg.1.wf.nodup
  refine flag_weaken (flagFold (P := NG N) (St := Steps Pat1)
    (Q := fun g p => Dir g p.1 p.2 → ∀ w ∈ N, w ≠ p.1 → w ≠ p.2 → ¬ Conn g p.1 w → ¬ Und g p.2 w)
    Steps.trans' (perms2 N) ?_ g false hg) (fun _ h => h) ?_
  · rintro g b ⟨u, v⟩ hx hg
    rw [mem_perms2 hN] at hx
    obtain ⟨hu, hv, huv⟩ := hx
    obtain ⟨hp, rfl⟩ := hg
    simp only [fd_dec hp.wf hu hv, bind, Except.bind]
    by_cases hd : Dir g u v
    · simp only [hd, decide_true, if_true]
      exact flag_weaken (flagFold (P := fun g' => NG g.nodeList g' ∧ Dir g' u v) Steps.trans' g.nodeList
        (fun g' b w hw h => rule1Body_spec hu hv hw g' b h) g b ⟨⟨hp, rfl⟩, hd⟩) (fun _ h => h.1) (fun h _ => h)
    · simp only [hd, decide_false]
      exact flag_same ⟨hp, rfl⟩ (by simp)
  · intro h a b hp
    obtain ⟨u, hub, hd, hc, hu⟩ := hp
    have hw := hg.1.wf
    have hm := Conn.mem hw (hu.conn hw)
    rw [hg.2] at hm
    have hm2 := Conn.mem hw (Dir.conn hw hd)
    rw [hg.2] at hm2
    refine h (u, a) ((mem_perms2 hN _ _).2 ⟨hm2.1, hm2.2, Dir.ne hw hd⟩) hd b hm.2 (Ne.symm hub) ?_ hc hu
    rintro rfl
    exact hc (Dir.conn hw hd)

theorem rule2Body_spec {u v w : α} (hu : u ∈ N) (hv : v ∈ N) (hw : w ∈ N) (g : Graph α) (b : Bool)
    (hg : NG N g ∧ Dir g u v) :
    Flagged (fun g => NG N g ∧ Dir g u v) (Steps Pat2) (w ≠ u → w ≠ v → Dir g v w → ¬ Und g u w) g b
      (rule2Body u v (g, b) w) := by
  classical
  obtain ⟨⟨hp, rfl⟩, hd⟩ := hg
  unfold rule2Body
  by_cases h1 : w = u ∨ w = v
  · rw [if_pos h1]
    exact flag_same ⟨⟨hp, rfl⟩, hd⟩ (fun a b => by tauto)
  · rw [if_neg h1]
    simp only [fd_dec hp.wf hv hw, fu_dec hp.wf hu hw, bind, Except.bind]
    by_cases h2 : Dir g v w
    · by_cases h3 : Und g u w
      · have huw : u ≠ w := fun h => h1 (Or.inl h.symm)
        obtain ⟨g', e, o⟩ := orient_ok hp hu hw huw
        simp only [h2, h3, decide_true, Bool.not_true, if_true, e]
        exact ⟨g', true, rfl, ⟨⟨o.PG hp, o.nodes⟩, o.dir_keep hp huw h3 hd⟩,
          Or.inr ⟨rfl, .single ⟨u, w, huw, h3, ⟨v, hd, h2, h3⟩, o⟩⟩⟩
      · simp only [h2, h3, decide_false, decide_true, Bool.not_true]
        exact flag_same ⟨⟨hp, rfl⟩, hd⟩ (by simp)
    · simp only [h2, decide_false, Bool.not_false, if_true]
      exact flag_same ⟨⟨hp, rfl⟩, hd⟩ (by simp)

theorem rule2_spec {g : Graph α} (hg : NG N g) :
    Flagged (NG N) (Steps Pat2) (∀ a b, a ≠ b → ¬ Pat2 g a b) g false g.rule2 := by
  classical
  unfold rule2
  have hn : g.nodes = N := hg.2
  rw [hn]
  have hN : N.Nodup := by rw [← hg.2]; exact hg.1.wf.nodup
  refine flag_weaken (flagFold (P := NG N) (St := Steps Pat2)
    (Q := fun g p => Dir g p.1 p.2 → ∀ w ∈ N, w ≠ p.1 → w ≠ p.2 → Dir g p.2 w → ¬ Und g p.1 w)
    Steps.trans' (perms2 N) ?_ g false hg) (fun _ h => h) ?_
  · rintro g b ⟨u, v⟩ hx hg
    rw [mem_perms2 hN] at hx
    obtain ⟨hu, hv, huv⟩ := hx
    obtain ⟨hp, rfl⟩ := hg
    simp only [fd_dec hp.wf hu hv, bind, Except.bind]
    by_cases hd : Dir g u v
    · simp only [hd, decide_true, if_true]
      exact flag_weaken (flagFold (P := fun g' => NG g.nodeList g' ∧ Dir g' u v) Steps.trans' g.nodeList
        (fun g' b w hw h => rule2Body_spec hu hv hw g' b h) g b ⟨⟨hp, rfl⟩, hd⟩) (fun _ h => h.1) (fun h _ => h)
    · simp only [hd, decide_false]
      exact flag_same ⟨hp, rfl⟩ (by simp)
  · intro h a b hab hp
    obtain ⟨v, hd, hd2, hu⟩ := hp
    have hw := hg.1.wf
    have hm := Conn.mem hw (hu.conn hw)
    rw [hg.2] at hm
    have hm2 := Conn.mem hw (Dir.conn hw hd)
    rw [hg.2] at hm2
    exact h (a, v) ((mem_perms2 hN _ _).2 ⟨hm2.1, hm2.2, Dir.ne hw hd⟩) hd b hm.2 (Ne.symm hab)
      (Dir.ne hw hd2).symm hd2 hu

/-- The part of `Pat3` that does not mention the edge to be oriented: proof device. -/
def Pre3 (g : Graph α) (a b : α) : Prop :=
  ∃ v x, v ≠ a ∧ x ≠ a ∧ v ≠ x ∧ Und g a v ∧ Dir g v b ∧ Und g a x ∧ Dir g x b

/-- What the inner loops of `rule3` for the pair `(a, b)` do: proof device. -/
def St3 (a b : α) (g g' : Graph α) : Prop := Pre3 g a b ∧ OTo g g' a b

theorem St3.trans {a b : α} {P : Graph α → Prop} :
    ∀ g1 g2 g3, P g1 → St3 a b g1 g2 → P g2 → St3 a b g2 g3 → P g3 → St3 a b g1 g3 := by
  rintro g1 g2 g3 _ ⟨h1, o1⟩ _ ⟨_, o2⟩ _
  refine ⟨h1, o1.via.trans o2.via, o2.nodes.trans o1.nodes, fun x y => ?_⟩
  rw [o2.mark, o1.mark]
  split_ifs <;> rfl

theorem rule3X_spec {u w v x : α} (hu : u ∈ N) (hw : w ∈ N) (hx : x ∈ N) (huw : u ≠ w) (hvu : v ≠ u) (hvw : v ≠ w)
    (g : Graph α) (b : Bool) (hg : NG N g ∧ Und g u v ∧ Dir g v w) :
    Flagged (fun g => NG N g ∧ Und g u v ∧ Dir g v w) (St3 u w)
      (x ≠ u → x ≠ v → x ≠ w → ¬ (Und g u x ∧ Dir g x w)) g b (rule3X u w v (g, b) x) := by
  classical
  obtain ⟨⟨hp, rfl⟩, hd⟩ := hg
  unfold rule3X
  by_cases h1 : x = u ∨ x = v ∨ x = w
  · rw [if_pos h1]
    exact flag_same ⟨⟨hp, rfl⟩, hd⟩ (fun a b => by tauto)
  · rw [if_neg h1]
    push Not at h1
    simp only [utd_dec hp.wf hu hx hw, bind, Except.bind]
    by_cases h2 : Und g u x ∧ Dir g x w
    · obtain ⟨g', e, o⟩ := orient_ok hp hu hw huw
      simp only [h2, and_self, decide_true, Bool.not_true, e]
      refine ⟨g', true, rfl, ⟨⟨o.PG hp, o.nodes⟩, ?_, ?_⟩, Or.inr ⟨rfl, ⟨v, x, hvu, h1.1, Ne.symm h1.2.1, hd.1, hd.2, h2.1, h2.2⟩, o⟩⟩
      · rw [o.und_other hp (by rintro ⟨_, h⟩; exact hvw h) (by rintro ⟨h, _⟩; exact huw h)]; exact hd.1
      · rw [o.dir_other hp (by rintro ⟨h, _⟩; exact hvu h) (by rintro ⟨h, _⟩; exact hvw h)]; exact hd.2
    · simp only [h2, decide_false, Bool.not_false, if_true]
      exact flag_same ⟨⟨hp, rfl⟩, hd⟩ (by simp)

theorem rule3V_spec {u w v : α} (hu : u ∈ N) (hw : w ∈ N) (hv : v ∈ N) (huw : u ≠ w)
    (g : Graph α) (b : Bool) (hg : NG N g) :
    Flagged (NG N) (St3 u w)
      (v ≠ u → v ≠ w → Und g u v → Dir g v w → ∀ x ∈ N, x ≠ u → x ≠ v → x ≠ w → ¬ (Und g u x ∧ Dir g x w)) g b
      (rule3V u w (g, b) v) := by
  classical
  obtain ⟨hp, rfl⟩ := hg
  unfold rule3V
  by_cases h1 : v = u ∨ v = w
  · rw [if_pos h1]
    exact flag_same ⟨hp, rfl⟩ (fun a b => by tauto)
  · rw [if_neg h1]
    push Not at h1
    simp only [utd_dec hp.wf hu hv hw, bind, Except.bind]
    by_cases h2 : Und g u v ∧ Dir g v w
    · simp only [h2, and_self, decide_true, Bool.not_true]
      exact flag_weaken (flagFold (P := fun g' => NG g.nodeList g' ∧ Und g' u v ∧ Dir g' v w) St3.trans g.nodeList
        (fun g' b x hx h => rule3X_spec hu hw hx huw h1.1 h1.2 g' b h) g b ⟨⟨hp, rfl⟩, h2⟩)
        (fun _ h => h.1) (fun h _ _ _ _ => h)
    · simp only [h2, decide_false, Bool.not_false, if_true]
      exact flag_same ⟨hp, rfl⟩ (fun _ _ h3 h4 => absurd ⟨h3, h4⟩ h2)

theorem rule3_spec {g : Graph α} (hg : NG N g) :
    Flagged (NG N) (Steps Pat3) (∀ a b, a ≠ b → ¬ Pat3 g a b) g false g.rule3 := by
  classical
  unfold rule3
  have hn : g.nodes = N := hg.2
  rw [hn]
  have hN : N.Nodup := by rw [← hg.2]; exact hg.1.wf.nodup
  refine flag_weaken (flagFold (P := NG N) (St := Steps Pat3)
    (Q := fun g p => Und g p.1 p.2 → ∀ v ∈ N, v ≠ p.1 → v ≠ p.2 → Und g p.1 v → Dir g v p.2 →
      ∀ x ∈ N, x ≠ p.1 → x ≠ v → x ≠ p.2 → ¬ (Und g p.1 x ∧ Dir g x p.2))
    Steps.trans' (perms2 N) ?_ g false hg) (fun _ h => h) ?_
  · rintro g b ⟨u, w⟩ hx hg
    rw [mem_perms2 hN] at hx
    obtain ⟨hu, hw, huw⟩ := hx
    obtain ⟨hp, rfl⟩ := hg
    simp only [fu_dec hp.wf hu hw, bind, Except.bind]
    by_cases hd : Und g u w
    · simp only [hd, decide_true, if_true]
      obtain ⟨g', b', e, p', d⟩ := flagFold (P := NG g.nodeList) St3.trans g.nodeList
        (fun g' b v hv h => rule3V_spec hu hw hv huw g' b h) g b ⟨hp, rfl⟩
      refine ⟨g', b', e, p', ?_⟩
      rcases d with ⟨d1, d2, d3⟩ | ⟨d1, ⟨v, x, k1, k2, k3, k4, k5, k6, k7⟩, o⟩
      · exact Or.inl ⟨d1, d2, fun _ => d3⟩
      · exact Or.inr ⟨d1, .single ⟨u, w, huw, hd, ⟨v, x, k1, k2, k3, k4, k5, k6, k7, hd⟩, o⟩⟩
    · simp only [hd, decide_false]
      exact flag_same ⟨hp, rfl⟩ (by simp)
  · intro h a b hab hp
    obtain ⟨v, x, k1, k2, k3, k4, k5, k6, k7, hu⟩ := hp
    have hw := hg.1.wf
    have hm := Conn.mem hw (hu.conn hw)
    rw [hg.2] at hm
    have hm2 := Conn.mem hw (k4.conn hw)
    rw [hg.2] at hm2
    have hm3 := Conn.mem hw (k6.conn hw)
    rw [hg.2] at hm3
    exact h (a, b) ((mem_perms2 hN _ _).2 ⟨hm.1, hm.2, hab⟩) hu v hm2.2 k1 (Dir.ne hw k5) k4 k5 x hm3.2 k2
      (Ne.symm k3) (Dir.ne hw k7) ⟨k6, k7⟩

theorem rule4X_spec {u w v x : α} (hu : u ∈ N) (hw : w ∈ N) (hv : v ∈ N) (hx : x ∈ N) (huw : u ≠ w) (hvu : v ≠ u)
    (_hvw : v ≠ w) (g : Graph α) (b : Bool) (hg : NG N g ∧ ¬ Conn g u w ∧ Und g u v ∧ Dir g v w) :
    Flagged (fun g => NG N g ∧ ¬ Conn g u w ∧ Und g u v ∧ Dir g v w) (Steps Pat4)
      (x ≠ u → x ≠ v → x ≠ w → ¬ (Und g u x ∧ Und g x w ∧ Conn g v x)) g b (rule4X u w v (g, b) x) := by
  classical
  obtain ⟨⟨hp, rfl⟩, hd⟩ := hg
  unfold rule4X
  by_cases h1 : x = u ∨ x = v ∨ x = w
  · rw [if_pos h1]
    exact flag_same ⟨⟨hp, rfl⟩, hd⟩ (fun a b => by tauto)
  · rw [if_neg h1]
    push Not at h1
    simp only [fu_dec hp.wf hu hx, fu_dec hp.wf hx hw, ic_dec hp.wf hv hx, bind, Except.bind]
    by_cases h2 : Und g u x
    · by_cases h3 : Und g x w
      · by_cases h4 : Conn g v x
        · obtain ⟨g', e, o⟩ := orient_ok hp hx hw h1.2.2
          simp only [h2, h3, h4, decide_true, Bool.not_true, if_true, e]
          refine ⟨g', true, rfl, ⟨⟨o.PG hp, o.nodes⟩, ?_, ?_, ?_⟩, Or.inr ⟨rfl, .single ⟨x, w, h1.2.2, h3, ?_, o⟩⟩⟩
          · rw [o.conn hp (h3.conn hp.wf)]; exact hd.1
          · rw [o.und_other hp (by rintro ⟨h, _⟩; exact h1.1 h.symm) (by rintro ⟨h, _⟩; exact huw h)]; exact hd.2.1
          · exact o.dir_keep hp h1.2.2 h3 hd.2.2
          · exact ⟨u, v, huw, Ne.symm hvu, Ne.symm h1.1, Ne.symm h1.2.1, hd.1, hd.2.1, hd.2.2, h2, h4, h3⟩
        · simp only [h2, h3, h4, decide_true, decide_false, Bool.not_true]
          exact flag_same ⟨⟨hp, rfl⟩, hd⟩ (by simp)
      · simp only [h2, h3, decide_true, decide_false, Bool.not_true, Bool.not_false, if_true]
        exact flag_same ⟨⟨hp, rfl⟩, hd⟩ (by simp)
    · simp only [h2, decide_false, Bool.not_false, if_true]
      exact flag_same ⟨⟨hp, rfl⟩, hd⟩ (by simp)

theorem rule4V_spec {u w v : α} (hu : u ∈ N) (hw : w ∈ N) (hv : v ∈ N) (huw : u ≠ w)
    (g : Graph α) (b : Bool) (hg : NG N g ∧ ¬ Conn g u w) :
    Flagged (fun g => NG N g ∧ ¬ Conn g u w) (Steps Pat4)
      (v ≠ u → v ≠ w → Und g u v → Dir g v w → ∀ x ∈ N, x ≠ u → x ≠ v → x ≠ w → ¬ (Und g u x ∧ Und g x w ∧ Conn g v x))
      g b (rule4V u w (g, b) v) := by
  classical
  obtain ⟨⟨hp, rfl⟩, hc⟩ := hg
  unfold rule4V
  by_cases h1 : v = u ∨ v = w
  · rw [if_pos h1]
    exact flag_same ⟨⟨hp, rfl⟩, hc⟩ (fun a b => by tauto)
  · rw [if_neg h1]
    push Not at h1
    simp only [utd_dec hp.wf hu hv hw, bind, Except.bind]
    by_cases h2 : Und g u v ∧ Dir g v w
    · simp only [h2, and_self, decide_true, Bool.not_true]
      exact flag_weaken (flagFold (P := fun g' => NG g.nodeList g' ∧ ¬ Conn g' u w ∧ Und g' u v ∧ Dir g' v w)
        Steps.trans' g.nodeList (fun g' b x hx h => rule4X_spec hu hw hv hx huw h1.1 h1.2 g' b h) g b ⟨⟨hp, rfl⟩, hc, h2⟩)
        (fun _ h => ⟨h.1, h.2.1⟩) (fun h _ _ _ _ => h)
    · simp only [h2, decide_false, Bool.not_false, if_true]
      exact flag_same ⟨⟨hp, rfl⟩, hc⟩ (fun _ _ h3 h4 => absurd ⟨h3, h4⟩ h2)

theorem rule4_spec {g : Graph α} (hg : NG N g) :
    Flagged (NG N) (Steps Pat4) (∀ a b, a ≠ b → ¬ Pat4 g a b) g false g.rule4 := by
  classical
  unfold rule4
  have hn : g.nodes = N := hg.2
  rw [hn]
  have hN : N.Nodup := by rw [← hg.2]; exact hg.1.wf.nodup
  refine flag_weaken (flagFold (P := NG N) (St := Steps Pat4)
    (Q := fun g p => ¬ Conn g p.1 p.2 → ∀ v ∈ N, v ≠ p.1 → v ≠ p.2 → Und g p.1 v → Dir g v p.2 →
      ∀ x ∈ N, x ≠ p.1 → x ≠ v → x ≠ p.2 → ¬ (Und g p.1 x ∧ Und g x p.2 ∧ Conn g v x))
    Steps.trans' (perms2 N) ?_ g false hg) (fun _ h => h) ?_
  · rintro g b ⟨u, w⟩ hx hg
    rw [mem_perms2 hN] at hx
    obtain ⟨hu, hw, huw⟩ := hx
    obtain ⟨hp, rfl⟩ := hg
    simp only [ic_dec hp.wf hu hw, bind, Except.bind]
    by_cases hd : Conn g u w
    · simp only [hd, decide_true, if_true]
      exact flag_same ⟨hp, rfl⟩ (by simp)
    · simp only [hd, decide_false]
      exact flag_weaken (flagFold (P := fun g' => NG g.nodeList g' ∧ ¬ Conn g' u w) Steps.trans' g.nodeList
        (fun g' b v hv h => rule4V_spec hu hw hv huw g' b h) g b ⟨⟨hp, rfl⟩, hd⟩) (fun _ h => h.1) (fun h _ => h)
  · intro h a b hab hp
    obtain ⟨u, v, k1, k2, k3, k4, k5, k6, k7, k8, k9, hu⟩ := hp
    have hw := hg.1.wf
    have hm := Conn.mem hw (hu.conn hw)
    rw [hg.2] at hm
    have hm2 := Conn.mem hw (k6.conn hw)
    rw [hg.2] at hm2
    exact h (u, b) ((mem_perms2 hN _ _).2 ⟨hm2.1, hm.2, k1⟩) k5 v hm2.2 (Ne.symm k2) (Dir.ne hw k7) k6 k7 a hm.1
      (Ne.symm k3) (Ne.symm k4) hab ⟨k8, hu, k9⟩

/-- Any of the four patterns. -/
def PatAny (g : Graph α) (a b : α) : Prop := Pat1 g a b ∨ Pat2 g a b ∨ Pat3 g a b ∨ Pat4 g a b

theorem meekPass_spec {g : Graph α} (hg : NG N g) :
    Flagged (NG N) (Steps PatAny) (∀ a b, a ≠ b → ¬ PatAny g a b) g false g.meekPass := by
  obtain ⟨g1, c1, e1, p1, d1⟩ := rule1_spec hg
  obtain ⟨g2, c2, e2, p2, d2⟩ := rule2_spec p1
  obtain ⟨g3, c3, e3, p3, d3⟩ := rule3_spec p2
  obtain ⟨g4, c4, e4, p4, d4⟩ := rule4_spec p3
  refine ⟨g4, c1 || c2 || c3 || c4, ?_, p4, ?_⟩
  · unfold meekPass
    simp only [e1, e2, e3, e4, bind, Except.bind, pure, Except.pure]
  · have m1 : ∀ {g g' : Graph α}, Steps Pat1 g g' → Steps PatAny g g' := fun h => h.mono (fun _ _ _ h => Or.inl h)
    have m2 : ∀ {g g' : Graph α}, Steps Pat2 g g' → Steps PatAny g g' := fun h => h.mono (fun _ _ _ h => Or.inr (Or.inl h))
    have m3 : ∀ {g g' : Graph α}, Steps Pat3 g g' → Steps PatAny g g' := fun h => h.mono (fun _ _ _ h => Or.inr (Or.inr (Or.inl h)))
    have m4 : ∀ {g g' : Graph α}, Steps Pat4 g g' → Steps PatAny g g' := fun h => h.mono (fun _ _ _ h => Or.inr (Or.inr (Or.inr h)))
    rcases d1 with ⟨rfl, rfl, q1⟩ | ⟨rfl, s1⟩ <;> rcases d2 with ⟨rfl, rfl, q2⟩ | ⟨rfl, s2⟩ <;>
    rcases d3 with ⟨rfl, rfl, q3⟩ | ⟨rfl, s3⟩ <;> rcases d4 with ⟨rfl, rfl, q4⟩ | ⟨rfl, s4⟩
    · left
      refine ⟨rfl, rfl, fun a b hab h => ?_⟩
      rcases h with h | h | h | h
      · exact q1 a b h
      · exact q2 a b hab h
      · exact q3 a b hab h
      · exact q4 a b hab h
    · exact Or.inr ⟨rfl, m4 s4⟩
    · exact Or.inr ⟨rfl, m3 s3⟩
    · exact Or.inr ⟨rfl, (m3 s3).trans (m4 s4)⟩
    · exact Or.inr ⟨rfl, m2 s2⟩
    · exact Or.inr ⟨rfl, (m2 s2).trans (m4 s4)⟩
    · exact Or.inr ⟨rfl, (m2 s2).trans (m3 s3)⟩
    · exact Or.inr ⟨rfl, ((m2 s2).trans (m3 s3)).trans (m4 s4)⟩
    · exact Or.inr ⟨rfl, m1 s1⟩
    · exact Or.inr ⟨rfl, (m1 s1).trans (m4 s4)⟩
    · exact Or.inr ⟨rfl, (m1 s1).trans (m3 s3)⟩
    · exact Or.inr ⟨rfl, ((m1 s1).trans (m3 s3)).trans (m4 s4)⟩
    · exact Or.inr ⟨rfl, (m1 s1).trans (m2 s2)⟩
    · exact Or.inr ⟨rfl, ((m1 s1).trans (m2 s2)).trans (m4 s4)⟩
    · exact Or.inr ⟨rfl, ((m1 s1).trans (m2 s2)).trans (m3 s3)⟩
    · exact Or.inr ⟨rfl, (((m1 s1).trans (m2 s2)).trans (m3 s3)).trans (m4 s4)⟩

theorem meekLoop_spec (n : Nat) : ∀ (g : Graph α), NG N g → g.undCount < n →
    ∃ g', meekLoop n g = .ok g' ∧ NG N g' ∧ Relation.ReflTransGen (Step PatAny) g g' ∧
      (∀ a b, a ≠ b → ¬ PatAny g' a b) ∧ g'.meekPass = .ok (g', false) ∧ ∀ m, g.undCount < m → meekLoop m g = .ok g' := by
  induction n with
  | zero => intro g _ h; omega
  | succ n ih =>
    intro g hg hn
    obtain ⟨g1, c, e, p, d⟩ := meekPass_spec hg
    rcases d with ⟨rfl, rfl, q⟩ | ⟨rfl, s⟩
    · have hl : ∀ m, g1.undCount < m → meekLoop m g1 = .ok g1 := by
        intro m hm
        cases m with
        | zero => omega
        | succ m =>
          unfold meekLoop
          rw [e]; rfl
      exact ⟨g1, hl _ hn, hg, .refl, q, e, hl⟩
    · have hlt := Steps.undCount_lt hg.1 s
      obtain ⟨g', e', p', s', q', c', m'⟩ := ih g1 p (by omega)
      have hl : ∀ m, g.undCount < m → meekLoop m g = .ok g' := by
        intro m hm
        cases m with
        | zero => omega
        | succ m =>
          have := m' m (by omega)
          unfold meekLoop
          rw [e]
          exact this
      exact ⟨g', hl _ hn, p', s.to_reflTransGen.trans s', q', c', hl⟩

theorem undCount_le (g : Graph α) : g.undCount ≤ (pairs g.nodeList).length := List.length_filter_le _ _

theorem orientByMeekRules_spec {g : Graph α} (hg : NG N g) :
    ∃ g', g.orientByMeekRules = .ok g' ∧ NG N g' ∧ Relation.ReflTransGen (Step PatAny) g g' ∧
      (∀ a b, a ≠ b → ¬ PatAny g' a b) ∧ g'.meekPass = .ok (g', false) ∧ ∀ m, g.undCount < m → meekLoop m g = .ok g' :=
  meekLoop_spec _ g hg (Nat.lt_succ_of_le (undCount_le g))

theorem ReflSteps.oriented {J : Graph α → α → α → Prop} {g g' : Graph α} (hg : g.PG)
    (h : Relation.ReflTransGen (Step J) g g') : Oriented g g' := by
  rcases Relation.reflTransGen_iff_eq_or_transGen.1 h with rfl | h
  · exact Oriented.refl _
  · exact Steps.oriented hg h

end Graph
end Cdmir
