import Verif.Props.HierLoop
import Mathlib.Logic.Relation

/-! C98: putting the children of a latent variable back into the data (`roll_back`). -/

set_option linter.unusedSectionVars false

namespace Cdmir.Hier

variable {V Col : Type} [LinearOrder V]

/-- The full statement of C98: for a latent variable in the data, two of its pure measured variables are found. -/
def RollsBack (env : Env V Col) (ora d : Frame V Col) (latent : Dict V (List V)) (pures : List (List V)) (L : V) : Prop :=
  ∃ td a b, rollBack env ora d latent pures L = .ok (td, [a, b])

/-- C98 is false: if no pure cluster lies among the children of the variable, Python raises `IndexError`. So it is for every latent variable that
comes from merging impure clusters. -/
theorem c98_false {env : Env V Col} (ho : ∀ l, (env.order l).Perm l) {ora d : Frame V Col} {latent : Dict V (List V)} {pures : List (List V)} {L : V}
    {lm : List V} (hL : dget latent L = some lm) (hd : L ∈ dkeys d) (hno : ∀ S ∈ pures, (∀ x ∈ S, x ∈ lm) → S = []) :
    rollBack env ora d latent pures L = .error .index ∧ ¬ RollsBack env ora d latent pures L := by
  have key : rollBack env ora d latent pures L = .error .index := by
    unfold rollBack
    have hnil : env.order (pySet (pures.filter fun S => S.all fun x => x ∈ lm).flatten) = [] := by
      rw [← List.perm_nil]
      refine (ho _).trans ?_
      rw [List.perm_nil, List.eq_nil_iff_forall_not_mem]
      intro v hv
      rw [mem_pySet] at hv
      obtain ⟨S, hS, hv⟩ := List.mem_flatten.1 hv
      rw [List.mem_filter] at hS
      simp only [List.all_eq_true, decide_eq_true_eq] at hS
      rw [hno S hS.1 hS.2] at hv
      cases hv
    have hdh : dhas d L = true := by
      cases hg : dget d L with
      | none => exact absurd hd ((dget_none_iff d L).1 hg)
      | some c => simp [dhas, hg]
    rw [hL]
    simp only [hnil]
    simp only [List.filter_nil, List.mapM_nil, pure, Except.pure, bind, Except.bind, List.append_nil, select, hdh]
    rfl
  refine ⟨key, ?_⟩
  rintro ⟨td, a, b, h⟩
  rw [key] at h
  cases h

theorem dget_filter_ne {d : Frame V Col} {L x : V} (hx : x ≠ L) : dget (d.filter fun e => e.1 ≠ L) x = dget d x := by
  induction d with
  | nil => rfl
  | cons e d ih =>
    obtain ⟨w, c⟩ := e
    by_cases hw : w = L
    · rw [List.filter_cons_of_neg (by simpa using hw), ih, dget_cons, if_neg (fun h => hx (h.symm.trans hw))]
    · rw [List.filter_cons_of_pos (by simpa using hw), dget_cons, dget_cons, ih]

theorem dget_append' {d z : Frame V Col} {x : V} : dget (d ++ z) x = (dget d x).or (dget z x) := by
  induction d with
  | nil => rfl
  | cons e d ih =>
    obtain ⟨w, c⟩ := e
    rw [List.cons_append, dget_cons, dget_cons, ih]
    split <;> rfl

theorem dget_zip {ora : Frame V Col} {l : List V} {cs : List Col} (h : select ora l = .ok cs) {x : V} :
    dget (l.zip cs) x = if x ∈ l then dget ora x else none := by
  replace h := select_spec h
  induction l generalizing cs with
  | nil => rfl
  | cons v l ih =>
    cases cs with
    | nil => cases h
    | cons c cs =>
      simp only [List.map_cons, List.cons.injEq] at h
      rw [List.zip_cons_cons, dget_cons, ih h.2]
      by_cases hv : v = x
      · subst hv
        rw [if_pos rfl, if_pos List.mem_cons_self, h.1]
      · rw [if_neg hv]
        have : x ∈ v :: l ↔ x ∈ l := by
          rw [List.mem_cons]
          exact ⟨fun h => h.resolve_left (Ne.symm hv), Or.inr⟩
        simp only [this]

theorem keys_get {d : Frame V Col} {x : V} : x ∈ dkeys d ↔ dget d x ≠ none := by
  rw [Ne, dget_none_iff, not_not]

/-- C98, partly: if a pure cluster of at least two variables lies among the children, and all such clusters are measured, then two different pure
measured children are returned; the data keep their columns without the latent variable, and the two children come with their original columns. Missing:
latent variables with fewer than two pure children, and children that are latent themselves. -/
theorem c98_partial {env : Env V Col} (ho : ∀ l, (env.order l).Perm l) {ora d : Frame V Col} {latent : Dict V (List V)} {pures : List (List V)} {L : V}
    {lm : List V} (hL : dget latent L = some lm) (hd : L ∈ dkeys d) {S : List V} (hS : S ∈ pures) (hSl : ∀ x ∈ S, x ∈ lm) (hn : S.Nodup)
    (h2 : 2 ≤ S.length) (hmeas : ∀ T ∈ pures, (∀ x ∈ T, x ∈ lm) → ∀ x ∈ T, x ∈ dkeys ora) :
    ∃ td a b, rollBack env ora d latent pures L = .ok (td, [a, b]) ∧ a ≠ b ∧
      (∀ x ∈ [a, b], x ∈ dkeys ora ∧ ∃ T ∈ pures, (∀ y ∈ T, y ∈ lm) ∧ x ∈ T) ∧
      (∀ x, x ∈ dkeys td ↔ x ≠ L ∧ (x ∈ dkeys d ∨ ∃ T ∈ pures, (∀ y ∈ T, y ∈ lm) ∧ x ∈ T)) ∧
      (∀ x ∈ dkeys d, x ≠ L → dget td x = dget d x) ∧ ∀ x ∈ dkeys td, x ∉ dkeys d → dget td x = dget ora x := by
  have hmem : ∀ v, v ∈ env.order (pySet (pures.filter fun S => S.all fun x => x ∈ lm).flatten) ↔ ∃ T ∈ pures, (∀ y ∈ T, y ∈ lm) ∧ v ∈ T := by
    intro v
    rw [(ho _).mem_iff, mem_pySet, List.mem_flatten]
    simp only [List.mem_filter, List.all_eq_true, decide_eq_true_eq, and_assoc]
  have hnd : (env.order (pySet (pures.filter fun S => S.all fun x => x ∈ lm).flatten)).Nodup := by
    rw [(ho _).nodup_iff]
    exact pySet_nodup _
  unfold rollBack
  rw [hL]
  simp only
  generalize env.order (pySet (pures.filter fun S => S.all fun x => x ∈ lm).flatten) = lp at hmem hnd ⊢
  have hall : ∀ v ∈ lp, v ∈ dkeys ora := by
    intro v hv
    obtain ⟨T, hT, h1, h3⟩ := (hmem v).1 hv
    exact hmeas T hT h1 v h3
  have hf1 : lp.filter (fun s => s ∈ dkeys ora) = lp := List.filter_eq_self.2 fun v hv => by simpa using hall v hv
  have hf2 : lp.filter (fun s => s ∉ dkeys ora) = [] := List.filter_eq_nil_iff.2 fun v hv => by simpa using hall v hv
  have hsel : ∀ l : List V, (∀ v ∈ l, v ∈ dkeys ora) → ∃ cs, select ora l = .ok cs := by
    intro l
    induction l with
    | nil => exact fun _ => ⟨[], rfl⟩
    | cons v l ih =>
      intro h
      obtain ⟨cs, hcs⟩ := ih fun v hv => h v (List.mem_cons_of_mem _ hv)
      cases hg : dget ora v with
      | none => exact absurd (h v List.mem_cons_self) ((dget_none_iff ora v).1 hg)
      | some c =>
        refine ⟨c :: cs, ?_⟩
        unfold select at hcs ⊢
        rw [List.mapM_cons, hcs]
        unfold dgetE
        rw [hg]
        rfl
  obtain ⟨cs, hcs⟩ := hsel lp hall
  have hdh : dhas d L = true := by
    cases hg : dget d L with
    | none => exact absurd hd ((dget_none_iff d L).1 hg)
    | some c => simp [dhas, hg]
  rw [hf1, hf2]
  simp only [List.mapM_nil, pure, Except.pure, bind, Except.bind, List.append_nil, hcs, hdh]
  have hlen : 2 ≤ lp.length := h2.trans (List.subperm_of_subset hn fun v hv => (hmem v).2 ⟨S, hS, hSl, hv⟩).length_le
  match lp, hlen, hcs, hmem, hnd, hall with
  | a :: b :: lp, _, hcs, hmem, hnd, hall =>
    refine ⟨_, a, b, rfl, ?_, ?_, ?_, ?_, ?_⟩
    · rintro rfl
      simp at hnd
    · intro x hx
      have hx' : x ∈ a :: b :: lp := by
        simp only [List.mem_cons, List.not_mem_nil, or_false] at hx ⊢
        tauto
      exact ⟨hall x hx', (hmem x).1 hx'⟩
    · intro x
      by_cases hx : x = L
      · simp [hx, dkeys]
      · rw [keys_get, dget_filter_ne hx, dget_append', dget_zip hcs, ← hmem x, keys_get]
        cases hg : dget d x with
        | some c => simp [hx]
        | none =>
          by_cases hxl : x ∈ a :: b :: lp
          · rw [if_pos hxl, Option.none_or]
            exact ⟨fun _ => ⟨hx, Or.inr hxl⟩, fun _ => keys_get.1 (hall x hxl)⟩
          · rw [if_neg hxl]
            simp [hxl]
    · intro x hxd hx
      rw [dget_filter_ne hx, dget_append']
      cases hg : dget d x with
      | some c => rfl
      | none => exact absurd hg (keys_get.1 hxd)
    · intro x hx hxd
      have hxL : x ≠ L := by
        rintro rfl
        exact hxd hd
      have hnone : dget d x = none := by
        by_contra h
        exact hxd (keys_get.2 h)
      rw [keys_get] at hx
      rw [dget_filter_ne hxL, dget_append', dget_zip hcs, hnone, Option.none_or] at hx ⊢
      by_cases hxl : x ∈ a :: b :: lp
      · rw [if_pos hxl]
      · rw [if_neg hxl] at hx
        exact absurd rfl hx

theorem getObserved_spec {latent : Dict V (List V)} {rank : V → Nat}
    (h : ∀ L lm, dget latent L = some lm → lm ≠ [] ∧ ∀ x ∈ lm, rank x < rank L) (fuel : Nat) (v : V)
    (hf : ((dkeys latent).filter fun k => rank k ≤ rank v).length < fuel) :
    ∃ w, getObserved latent fuel v = .ok w ∧ w ∉ dkeys latent ∧ Relation.ReflTransGen (fun a b => ∃ t, dget latent a = some (b :: t)) v w := by
  induction fuel generalizing v with
  | zero => omega
  | succ fuel ih =>
    unfold getObserved
    cases hg : dget latent v with
    | none => exact ⟨v, rfl, (dget_none_iff latent v).1 hg, .refl⟩
    | some lm =>
      obtain ⟨hne, hr⟩ := h v lm hg
      cases lm with
      | nil => exact absurd rfl hne
      | cons w t =>
        have hw := hr w List.mem_cons_self
        have hv : v ∈ dkeys latent := (mem_dkeys_iff latent v).2 (by rw [hg]; rfl)
        have hlt : ((dkeys latent).filter fun k => rank k ≤ rank w).length < ((dkeys latent).filter fun k => rank k ≤ rank v).length := by
          have hle : ∀ l : List V, (l.filter fun k => rank k ≤ rank w).length ≤ (l.filter fun k => rank k ≤ rank v).length := by
            intro l
            refine (List.monotone_filter_right l ?_).length_le
            intro k hk
            simp only [decide_eq_true_eq] at hk ⊢
            omega
          generalize dkeys latent = l at hv
          induction l with
          | nil => cases hv
          | cons a l ih =>
            have hl := hle l
            rcases List.mem_cons.1 hv with rfl | hv
            · rw [List.filter_cons_of_neg (by simpa using hw), List.filter_cons_of_pos (by simp), List.length_cons]
              omega
            · have := ih hv
              by_cases ha : rank a ≤ rank w
              · rw [List.filter_cons_of_pos (by simpa using ha), List.filter_cons_of_pos (by simp only [decide_eq_true_eq]; omega), List.length_cons,
                  List.length_cons]
                omega
              · rw [List.filter_cons_of_neg (by simpa using ha), List.filter_cons]
                split
                · rw [List.length_cons]
                  omega
                · exact this
        obtain ⟨u, h1, h2, h3⟩ := ih w (by omega)
        exact ⟨u, h1, h2, .head ⟨t, hg⟩ h3⟩

/-- C98. The variable that stands for a latent child: if the index has no cycle and no empty entry, the `while` loop ends, and it ends with a
variable that is not latent, reached by taking the first child over and over. -/
theorem c98_observed_partial {latent : Dict V (List V)} {rank : V → Nat}
    (h : ∀ L lm, dget latent L = some lm → lm ≠ [] ∧ ∀ x ∈ lm, rank x < rank L) (v : V) :
    ∃ w, getObserved latent (latent.length + 1) v = .ok w ∧ w ∉ dkeys latent ∧
      Relation.ReflTransGen (fun a b => ∃ t, dget latent a = some (b :: t)) v w := by
  refine getObserved_spec h _ v ?_
  have := List.length_filter_le (fun k => decide (rank k ≤ rank v)) (dkeys latent)
  have h2 : (dkeys latent).length = latent.length := List.length_map _
  omega

/-- An index of three levels. -/
example : getObserved [(101, [102, 7]), (102, [103, 8]), (103, [4, 5])] 4 101 = .ok 4 := by decide

/-! Cases that meet the hypotheses. The first pass merges the impure clusters `{0, 1}` and `{2, 3}` into a latent variable without pure children; in
the second pass the cluster of the columns 5 and 6 is tested against it, and Python raises `IndexError`. -/

example : run (wenv [[0, 1], [2, 3], [0, 1, 2, 3], [5, 6]]) (wdata 10) 2 { data := wdata 10 } = .error .index := by decide +kernel

example : ¬ RollsBack (wenv []) (wdata 10) [(4, 2), (5, 4), (101, 9)] [(101, [0, 1, 2, 3])] [[7, 8, 9]] 101 :=
  (c98_false (fun l => List.Perm.refl l) (lm := [0, 1, 2, 3]) rfl (by decide) (by decide)).2

example : ∃ td a b, rollBack (wenv []) (wdata 10) [(4, 2), (5, 4), (101, 9)] [(101, [0, 1, 2, 3])] [[1, 3]] 101 = .ok (td, [a, b]) ∧ a ≠ b := by
  obtain ⟨td, a, b, h1, h2, -⟩ := c98_partial (env := wenv []) (fun l => List.Perm.refl l) (ora := wdata 10) (d := [(4, 2), (5, 4), (101, 9)])
    (latent := [(101, [0, 1, 2, 3])]) (pures := [[1, 3]]) (L := 101) (lm := [0, 1, 2, 3]) rfl (by decide) (S := [1, 3]) (by decide) (by decide)
    (by decide) (by decide) (by decide)
  exact ⟨td, a, b, h1, h2⟩

end Cdmir.Hier
