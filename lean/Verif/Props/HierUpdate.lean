import Verif.Props.HierMerge

/-! C96: the data after one pass. -/

set_option linter.unusedSectionVars false

namespace Cdmir.Hier

variable {V Col : Type} [LinearOrder V]

theorem introduce_spec {env : Env V Col} {l : List (List V)} {n n' : Nat} {latent latent' : Dict V (List V)} {sur sur' names names' : List V}
    (h : introduce env l (n, latent, sur, names) = .ok (n', latent', sur', names')) :
    n' = n + l.length ∧ names' = names ++ (List.range l.length).map (fun t => env.lname (n + t)) ∧
      ∃ hs, sur' = sur ++ hs ∧ List.Forall₂ (fun v S => S.head? = some v) hs l := by
  induction l generalizing n latent sur names with
  | nil =>
    cases h
    exact ⟨rfl, by simp, [], by simp, List.Forall₂.nil⟩
  | cons S l ih =>
    cases S with
    | nil => cases h
    | cons v S =>
      unfold introduce at h
      obtain ⟨h1, h2, hs, h3, h4⟩ := ih h
      refine ⟨by rw [h1, List.length_cons]; omega, ?_, v :: hs, by rw [h3]; simp, List.Forall₂.cons rfl h4⟩
      rw [h2, List.length_cons, List.range_succ_eq_map]
      simp only [List.append_assoc, List.map_cons, List.map_map, List.cons_append, List.nil_append, Nat.add_zero]
      congr 2
      refine List.map_congr_left fun t _ => ?_
      simp only [Function.comp]
      congr 1
      omega

theorem select_spec {d : Frame V Col} {names : List V} {cs : List Col} (h : select d names = .ok cs) :
    names.map (dget d) = cs.map some := by
  unfold select at h
  induction names generalizing cs with
  | nil =>
    cases h
    rfl
  | cons v names ih =>
    rw [List.mapM_cons] at h
    obtain ⟨c, hc, h⟩ := bind_ok h
    obtain ⟨cs', hcs, h⟩ := bind_ok h
    cases h
    rw [List.map_cons, List.map_cons, ih hcs]
    congr 1
    unfold dgetE at hc
    split at hc
    · cases hc
      assumption
    · cases hc

/-- The variables that stay: neither put below an early latent variable nor in a cluster that gets a new latent variable. -/
def stays (env : Env V Col) (p : Parts V) (d : Frame V Col) : List V :=
  env.order ((dkeys d).filter fun v => v ∉ (p.earlyRemove.map List.tail).flatten ∧ v ∉ (p.merge ++ p.intro).flatten)

/-- The names and the columns of the new data. The names are those of the variables that stay and then those of the new latent variables; the columns
are the first columns of the clusters and then those of the variables that stay. -/
theorem update_parts {env : Env V Col} {p : Parts V} {n n' : Nat} {d d' : Frame V Col} {latent : Dict V (List V)}
    (h : updateData env p n d = .ok (d', n', latent)) :
    n' = n + (p.merge ++ p.intro).length ∧
      dkeys d' = stays env p d ++ (List.range (p.merge ++ p.intro).length).map (fun t => env.lname (n + t)) ∧
      ∃ sur, List.Forall₂ (fun v S => S.head? = some v) sur (p.merge ++ p.intro) ∧
        d'.map (fun e => some e.2) = (sur ++ stays env p d).map (dget d) := by
  unfold updateData at h
  obtain ⟨⟨n1, latent1, sur, names⟩, hi, h⟩ := bind_ok h
  obtain ⟨tdata, ht, h⟩ := bind_ok h
  obtain ⟨t2data, ht2, h⟩ := bind_ok h
  cases h
  obtain ⟨h1, h2, hs, h3, h4⟩ := introduce_spec hi
  rw [List.nil_append] at h2 h3
  subst h3
  have e1 := select_spec ht
  have e2 := select_spec ht2
  have l1 : tdata.length = sur.length := by simpa using (congrArg List.length e1).symm
  have l2 := congrArg List.length e2
  simp only [List.length_map] at l2
  have l3 : names.length = sur.length := by rw [h2, List.length_map, List.length_range, h4.length_eq]
  refine ⟨h1, ?_, sur, h4, ?_⟩
  · change List.map Prod.fst _ = _
    rw [List.map_fst_zip, h2]
    · rfl
    · simp only [List.length_append]
      omega
  · have : ∀ l : List (V × Col), l.map (fun e => some e.2) = (l.map Prod.snd).map some := fun l => by rw [List.map_map]; rfl
    rw [this, List.map_snd_zip, List.map_append, List.map_append, ← e1, ← e2]
    · rfl
    · simp only [List.length_append]
      omega

theorem dget_pos {d : Frame V Col} (hn : (dkeys d).Nodup) {v : V} {i : Nat} (hi : (dkeys d)[i]? = some v) :
    some (dget d v) = (d.map (fun e => some e.2))[i]? := by
  induction d generalizing i with
  | nil => simp [dkeys] at hi
  | cons e d ih =>
    obtain ⟨w, c⟩ := e
    simp only [dkeys, List.map_cons, List.nodup_cons] at hn hi
    cases i with
    | zero =>
      simp only [List.getElem?_cons_zero, Option.some.injEq] at hi
      subst hi
      simp [dget_cons]
    | succ i =>
      rw [List.getElem?_cons_succ] at hi
      have hne : w ≠ v := by
        rintro rfl
        exact hn.1 (List.mem_of_getElem? hi)
      rw [dget_cons, if_neg hne, ih hn.2 hi, List.map_cons, List.getElem?_cons_succ]

/-- The names after the pass are all different, if the names of the latent variables are and are new. -/
theorem update_nodup {env : Env V Col} (ho : ∀ l, (env.order l).Perm l) (hln : Function.Injective env.lname) {p : Parts V} {n n' : Nat}
    {d d' : Frame V Col} (hd : (dkeys d).Nodup) (hnew : ∀ t, env.lname (n + t) ∉ dkeys d) {latent : Dict V (List V)}
    (h : updateData env p n d = .ok (d', n', latent)) : (dkeys d').Nodup ∧ ∀ t, env.lname (n' + t) ∉ dkeys d' := by
  obtain ⟨h1, h2, -⟩ := update_parts h
  have hst : ∀ v ∈ stays env p d, v ∈ dkeys d := fun v hv => (List.mem_filter.1 ((ho _).mem_iff.1 hv)).1
  rw [h2]
  constructor
  · refine List.nodup_append.2 ⟨(ho _).nodup_iff.2 (hd.filter _), ?_, ?_⟩
    · exact List.Nodup.map (fun a b hab => by have := hln hab; omega) List.nodup_range
    · rintro a ha b hb rfl
      obtain ⟨t, -, rfl⟩ := List.mem_map.1 hb
      exact hnew t (hst _ ha)
  · intro t hm
    rcases List.mem_append.1 hm with hm | hm
    · have := hst _ hm
      rw [h1, Nat.add_assoc] at this
      exact hnew _ this
    · obtain ⟨t', ht', he⟩ := List.mem_map.1 hm
      have := hln he
      rw [List.mem_range] at ht'
      omega

/-- The full statement of C96: a variable that stays keeps its column, and a new latent variable gets the column of the first variable of its
cluster. -/
def Labelled (env : Env V Col) (p : Parts V) (n : Nat) (d d' : Frame V Col) : Prop :=
  (∀ v ∈ stays env p d, dget d' v = dget d v) ∧
    ∀ (t : Nat) (S : List V) (v : V), (p.merge ++ p.intro)[t]? = some S → S.head? = some v → dget d' (env.lname (n + t)) = dget d v

/-- C96 is false in every pass that introduces a latent variable and keeps a variable: the first variable that stays gets the column of the first
variable of the first cluster. -/
theorem c96_false {env : Env V Col} (ho : ∀ l, (env.order l).Perm l) (hln : Function.Injective env.lname) {p : Parts V} {n n' : Nat}
    {d d' : Frame V Col} (hd : (dkeys d).Nodup) (hnew : ∀ t, env.lname (n + t) ∉ dkeys d) {latent : Dict V (List V)}
    (h : updateData env p n d = .ok (d', n', latent)) {S : List V} {u v : V} (hS : (p.merge ++ p.intro).head? = some S) (hv : S.head? = some v)
    (hu : (stays env p d).head? = some u) : dget d' u = dget d v ∧ (dget d u ≠ dget d v → ¬ Labelled env p n d d') := by
  have hn' := (update_nodup ho hln hd hnew h).1
  obtain ⟨h1, h2, sur, h3, h4⟩ := update_parts h
  have key : dget d' u = dget d v := by
    cases hst : stays env p d with
    | nil =>
      rw [hst] at hu
      cases hu
    | cons a st =>
      rw [hst] at hu h2
      cases hu
      have hd0 : some (dget d' u) = (d'.map (fun e => some e.2))[0]? := dget_pos hn' (by rw [h2]; rfl)
      cases hmi : p.merge ++ p.intro with
      | nil =>
        rw [hmi] at hS
        cases hS
      | cons T l =>
        rw [hmi] at hS h3
        cases hS
        cases h3 with
        | cons hh _ =>
          rename_i w sur
          rw [hv] at hh
          cases hh
          rw [h4] at hd0
          simpa using hd0
  refine ⟨key, fun hne hl => hne ?_⟩
  rw [← key]
  refine (hl.1 u ?_).symm
  cases hst : stays env p d with
  | nil =>
    rw [hst] at hu
    cases hu
  | cons a st =>
    rw [hst] at hu
    cases hu
    exact List.mem_cons_self

/-- C96, partly: the labels are right if no variable stays, or if no latent variable is introduced. Missing: all other passes. -/
theorem c96_partial {env : Env V Col} (ho : ∀ l, (env.order l).Perm l) (hln : Function.Injective env.lname) {p : Parts V} {n n' : Nat}
    {d d' : Frame V Col} (hd : (dkeys d).Nodup) (hnew : ∀ t, env.lname (n + t) ∉ dkeys d) {latent : Dict V (List V)}
    (h : updateData env p n d = .ok (d', n', latent)) (hor : stays env p d = [] ∨ p.merge ++ p.intro = []) : Labelled env p n d d' := by
  have hn' := (update_nodup ho hln hd hnew h).1
  obtain ⟨h1, h2, sur, h3, h4⟩ := update_parts h
  rcases hor with hor | hor
  · rw [hor] at h2 h4
    rw [List.nil_append] at h2
    rw [List.append_nil] at h4
    refine ⟨by rw [hor]; simp, fun t S v hS hv => ?_⟩
    have hlt : t < (p.merge ++ p.intro).length := (List.getElem?_eq_some_iff.1 hS).1
    have hpos := dget_pos hn' (v := env.lname (n + t)) (i := t) (by rw [h2, List.getElem?_map, List.getElem?_range hlt]; rfl)
    rw [h4, List.getElem?_map] at hpos
    have hsur : sur[t]? = some v := by
      have hlen := h3.length_eq
      obtain ⟨w, hw⟩ : ∃ w, sur[t]? = some w := ⟨sur[t]'(by omega), List.getElem?_eq_getElem _⟩
      have := List.forall₂_iff_get.1 h3
      have h5 := this.2 t (by omega) hlt
      rw [List.getElem?_eq_getElem hlt] at hS
      rw [List.getElem?_eq_getElem (by omega)] at hw ⊢
      simp only [Option.some.injEq] at hS
      simp only [List.get_eq_getElem] at h5
      rw [hS, hv] at h5
      rw [Option.some.inj h5]
    rw [hsur] at hpos
    exact Option.some.inj hpos
  · rw [hor] at h2 h3
    cases h3
    rw [List.nil_append] at h4
    rw [List.length_nil, List.range_zero, List.map_nil, List.append_nil] at h2
    refine ⟨fun v hv => ?_, fun t S v hS => by rw [hor] at hS; cases hS⟩
    obtain ⟨i, hi, hiv⟩ := List.getElem_of_mem hv
    have hpos := dget_pos hn' (v := v) (i := i) (by rw [h2, List.getElem?_eq_getElem hi, hiv])
    rw [h4, List.getElem?_map, List.getElem?_eq_getElem hi, hiv] at hpos
    exact Option.some.inj hpos

/-! Cases that meet the hypotheses: of five columns the cluster `{0, 1}` gets the latent variable 101; the variable 2 then has the column 0, and the
new variable 101 has the column 4. -/

example : updateData (wenv []) { intro := [[0, 1]] } 1 (wdata 5) = .ok ([(2, 0), (3, 2), (4, 3), (101, 4)], 2, [(101, [0, 1])]) := by
  decide +kernel

theorem wenv_lname (sets : List (List Nat)) : Function.Injective (wenv sets).lname := fun a b h => by
  have : 100 + a = 100 + b := h
  omega

example : ¬ Labelled (wenv []) { intro := [[0, 1]] } 1 (wdata 5) [(2, 0), (3, 2), (4, 3), (101, 4)] :=
  (c96_false (fun _ => List.Perm.refl _) (wenv_lname []) (by decide) (fun t => by simp [wdata, wenv, dkeys]; omega)
    (by decide +kernel : updateData (wenv []) { intro := [[0, 1]] } 1 (wdata 5) = .ok ([(2, 0), (3, 2), (4, 3), (101, 4)], 2, [(101, [0, 1])]))
    (S := [0, 1]) (u := 2) (v := 0) rfl rfl (by decide +kernel)).2 (by decide)

example : Labelled (wenv []) { intro := [[0, 1], [3, 2, 4]] } 1 (wdata 5) [(101, 0), (102, 3)] :=
  c96_partial (fun _ => List.Perm.refl _) (wenv_lname []) (by decide) (fun t => by simp [wdata, wenv, dkeys]; omega)
    (by decide +kernel : updateData (wenv []) { intro := [[0, 1], [3, 2, 4]] } 1 (wdata 5) =
      .ok ([(101, 0), (102, 3)], 3, [(101, [0, 1]), (102, [3, 2, 4])])) (Or.inl (by decide +kernel))

end Cdmir.Hier
