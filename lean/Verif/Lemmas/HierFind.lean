import Verif.Model.Hier
import Verif.Lemmas.Dict
import Verif.Props.Merge

/-! The loops of `FindCausalCluster`. -/

set_option linter.unusedSectionVars false

namespace Cdmir.Hier

theorem bind_ok {β γ : Type} {a : Except Err β} {f : β → Except Err γ} {y : γ} (h : (a >>= f) = .ok y) : ∃ x, a = .ok x ∧ f x = .ok y := by
  cases a with
  | error e => cases h
  | ok x => exact ⟨x, rfl, h⟩

variable {V Col : Type} [LinearOrder V]

theorem pairPass_spec {env : Env V Col} {d : Frame V Col} {l ps : List (List V)} (h : pairPass env d l = .ok ps) :
    ps.Sublist l ∧ ∀ S, S ∈ ps ↔ S ∈ l ∧ check env d S = .ok true := by
  induction l generalizing ps with
  | nil =>
    cases h
    simp
  | cons S l ih =>
    unfold pairPass at h
    obtain ⟨b, hb, h⟩ := bind_ok h
    cases b with
    | true =>
      rw [if_pos rfl] at h
      obtain ⟨qs, hq, h⟩ := bind_ok h
      cases h
      obtain ⟨h1, h2⟩ := ih hq
      refine ⟨h1.cons_cons S, fun T => ?_⟩
      rw [List.mem_cons, List.mem_cons, h2]
      constructor
      · rintro (rfl | ⟨h3, h4⟩)
        · exact ⟨Or.inl rfl, hb⟩
        · exact ⟨Or.inr h3, h4⟩
      · rintro ⟨rfl | h3, h4⟩
        · exact Or.inl rfl
        · exact Or.inr ⟨h3, h4⟩
    | false =>
      rw [if_neg (by simp)] at h
      obtain ⟨h1, h2⟩ := ih h
      refine ⟨h1.cons S, fun T => ?_⟩
      rw [List.mem_cons, h2]
      constructor
      · rintro ⟨h3, h4⟩
        exact ⟨Or.inr h3, h4⟩
      · rintro ⟨rfl | h3, h4⟩
        · rw [hb] at h4
          cases h4
        · exact ⟨h3, h4⟩

theorem sizePass_spec {env : Env V Col} (ho : ∀ l, (env.order l).Perm l) {d : Frame V Col} {l : List (List V)} {st st' : List (List V) × List V}
    (h : sizePass env d l st = .ok st') :
    ∃ new, st'.1 = st.1 ++ new ∧ new.Sublist l ∧ (∀ S ∈ new, check env d S = .ok true) ∧ (∀ v, v ∈ st'.2 ↔ v ∈ st.2 ∧ ∀ S ∈ new, v ∉ S) ∧
      (st.2.Nodup → st'.2.Nodup) := by
  induction l generalizing st with
  | nil =>
    cases h
    exact ⟨[], by simp, List.nil_sublist _, by simp, by simp, id⟩
  | cons S l ih =>
    unfold sizePass at h
    obtain ⟨b, hb, h⟩ := bind_ok h
    cases b with
    | true =>
      rw [if_pos rfl] at h
      obtain ⟨new, h1, h2, h3, h4, h5⟩ := ih h
      refine ⟨S :: new, by simp [h1], h2.cons_cons S, ?_, fun v => ?_, fun hn => ?_⟩
      · intro T hT
        rcases List.mem_cons.1 hT with rfl | hT
        · exact hb
        · exact h3 T hT
      · rw [h4, (ho _).mem_iff]
        simp only [List.mem_filter, decide_eq_true_eq, List.forall_mem_cons, and_assoc]
      · exact h5 ((ho _).nodup_iff.2 (hn.filter _))
    | false =>
      rw [if_neg (by simp)] at h
      obtain ⟨new, h1, h2, h3, h4, h5⟩ := ih h
      exact ⟨new, h1, h2.cons S, h3, h4, h5⟩

/-- Two clusters of the second stage are disjoint or of the same size. -/
def Apart (S T : List V) : Prop := (∀ x ∈ S, x ∉ T) ∨ (S.length = T.length ∧ 3 ≤ S.length)

theorem sizeLoop_spec {env : Env V Col} (ho : ∀ l, (env.order l).Perm l) {d : Frame V Col} {fuel k : Nat} (hk : 3 ≤ k) {acc res : List (List V)}
    {B : List V} (hB : B.Nodup) (h : sizeLoop env d fuel k acc B = .ok res) :
    ∃ new, res = acc ++ new ∧ (∀ S ∈ new, S.Nodup ∧ k ≤ S.length ∧ (∀ v ∈ S, v ∈ B) ∧ check env d S = .ok true) ∧ new.Pairwise Apart := by
  induction fuel generalizing k acc B with
  | zero =>
    cases h
    exact ⟨[], by simp, by simp, List.Pairwise.nil⟩
  | succ fuel ih =>
    unfold sizeLoop at h
    split at h
    · obtain ⟨st, hst, h⟩ := bind_ok h
      obtain ⟨new1, a1, a2, a3, a4, a5⟩ := sizePass_spec ho hst
      obtain ⟨new2, b1, b2, b3⟩ := ih (by omega) (a5 hB) h
      have hcomb : ∀ S ∈ new1, S.Sublist B ∧ S.length = k := fun S hS => mem_combinations_iff.1 (a2.subset hS)
      refine ⟨new1 ++ new2, ?_, ?_, ?_⟩
      · rw [b1, a1, List.append_assoc]
      · intro S hS
        rcases List.mem_append.1 hS with hS | hS
        · obtain ⟨c1, c2⟩ := hcomb S hS
          exact ⟨hB.sublist c1, by omega, fun v hv => c1.subset hv, a3 S hS⟩
        · obtain ⟨c1, c2, c3, c4⟩ := b2 S hS
          exact ⟨c1, by omega, fun v hv => ((a4 v).1 (c3 v hv)).1, c4⟩
      · refine List.pairwise_append.2 ⟨?_, b3, ?_⟩
        · refine List.Pairwise.imp_of_mem (R := fun _ _ => True) ?_ (List.pairwise_of_forall fun _ _ => trivial)
          intro S T hS hT _
          right
          exact ⟨by rw [(hcomb S hS).2, (hcomb T hT).2], by rw [(hcomb S hS).2]; exact hk⟩
        · intro S hS T hT
          left
          intro x hx hxT
          exact ((a4 x).1 ((b2 T hT).2.2.1 x hxT)).2 S hS hx
    · cases h
      exact ⟨[], by simp, by simp, List.Pairwise.nil⟩

theorem record_spec {env : Env V Col} {d : Frame V Col} {l : List (List V)} {st st' : List (List V) × List (List V)}
    (h : record env d l st = .ok st') : ∃ np ni, st' = (st.1 ++ np, st.2 ++ ni) ∧ (np ++ ni).Perm l ∧
      (∀ S ∈ np, S.length ≤ 2 → judge env d S = .ok true) ∧ (∀ S ∈ ni, S.length ≤ 2 ∧ judge env d S = .ok false) := by
  induction l generalizing st with
  | nil =>
    cases h
    exact ⟨[], [], by simp, List.Perm.refl _, by simp, by simp⟩
  | cons S l ih =>
    unfold record at h
    split at h
    · rename_i hS
      obtain ⟨np, ni, h1, h2, h3, h4⟩ := ih h
      refine ⟨S :: np, ni, by simp [h1], h2.cons S, ?_, h4⟩
      intro T hT hl
      rcases List.mem_cons.1 hT with rfl | hT
      · omega
      · exact h3 T hT hl
    · rename_i hS
      obtain ⟨b, hb, h⟩ := bind_ok h
      cases b with
      | true =>
        rw [if_pos rfl] at h
        obtain ⟨np, ni, h1, h2, h3, h4⟩ := ih h
        refine ⟨S :: np, ni, by simp [h1], h2.cons S, ?_, h4⟩
        intro T hT hl
        rcases List.mem_cons.1 hT with rfl | hT
        · exact hb
        · exact h3 T hT hl
      | false =>
        rw [if_neg (by simp)] at h
        obtain ⟨np, ni, h1, h2, h3, h4⟩ := ih h
        refine ⟨np, S :: ni, by simp [h1], (List.perm_middle).trans (h2.cons S), h3, ?_⟩
        intro T hT
        rcases List.mem_cons.1 hT with rfl | hT
        · exact ⟨by omega, hb⟩
        · exact h4 T hT

theorem pairwise_same {α : Type} {res : List (List α)} (h : res.Pairwise (fun r r' => ∀ x, x ∈ r → x ∉ r')) {r r' : List α} (hr : r ∈ res)
    (hr' : r' ∈ res) {x : α} (h1 : x ∈ r) (h2 : x ∈ r') : r = r' := by
  induction res with
  | nil => cases hr
  | cons a res ih =>
    rw [List.pairwise_cons] at h
    rcases List.mem_cons.1 hr with rfl | hra
    · rcases List.mem_cons.1 hr' with rfl | hra'
      · rfl
      · exact absurd h2 (h.1 r' hra' x h1)
    · rcases List.mem_cons.1 hr' with rfl | hra'
      · exact absurd h1 (h.1 r hra x h2)
      · exact ih h.2 hra hra'

/-- The clusters that `mergeList` makes of pairs have at least two elements. -/
theorem merge_two {setOrder : List Nat → List Nat} (hso : ∀ l, (setOrder l).Perm l) {L res : List (List V)} (hL : ∀ c ∈ L, c.Nodup ∧ c.length = 2)
    (h : Merge.mergeList setOrder L = .ok res) :
    (∀ r ∈ res, r.Nodup ∧ 2 ≤ r.length) ∧ res.Pairwise (fun r r' => ∀ x, x ∈ r → x ∉ r') ∧ (∀ x, (∃ r ∈ res, x ∈ r) ↔ ∃ c ∈ L, x ∈ c) ∧
      (∀ x y, (∃ r ∈ res, x ∈ r ∧ y ∈ r) ↔ Relation.TransGen (fun a b => ∃ c ∈ L, a ∈ c ∧ b ∈ c) x y) := by
  obtain ⟨res', h0, h1, h2, h3, h4, h5⟩ := Merge.c40_merge_list setOrder hso L
  rw [h0] at h
  cases h
  refine ⟨fun r hr => ⟨(h1 r hr).imp (fun h => ne_of_lt h), ?_⟩, h2, h3, h4⟩
  have hne : r ≠ [] := by
    rintro rfl
    have : 0 < res.count [] := List.count_pos_iff.2 hr
    rw [h5] at this
    have := (hL [] (List.count_pos_iff.1 this)).2
    simp at this
  obtain ⟨x, hx⟩ := List.exists_mem_of_ne_nil r hne
  obtain ⟨c, hc, hxc⟩ := (h3 x).1 ⟨r, hr, hx⟩
  obtain ⟨hnd, hlen⟩ := hL c hc
  have hsub : ∀ y ∈ c, y ∈ r := by
    intro y hy
    obtain ⟨r', hr', hx', hy'⟩ := (h4 x y).2 (Relation.TransGen.single ⟨c, hc, hxc, hy⟩)
    rw [pairwise_same h2 hr hr' hx hx']
    exact hy'
  have := (List.subperm_of_subset hnd hsub).length_le
  omega

end Cdmir.Hier
