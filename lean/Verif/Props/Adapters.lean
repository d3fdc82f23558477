import Verif.Model.Adapters
import Mathlib.Tactic.SplitIfs
import Mathlib.Tactic.Push
import Mathlib.Data.List.Basic

/-! Property C42: the decorator for data arguments and Python's calling convention. -/

namespace Cdmir

section
variable {V : Type} [DecidableEq V]

omit [DecidableEq V] in
theorem bind_three (dflt : List (String × V)) (s d n : V) (rest : List V) (kw : List (String × V)) :
    bindCall ["self", "data", "var_names"] dflt (s :: d :: n :: rest) kw =
      if kw.any (fun a => a.1 ∈ ["self", "data", "var_names"]) then .error .type
      else .ok ⟨[("self", s), ("data", d), ("var_names", n)], rest, kw⟩ := by
  unfold bindCall
  have e : ((kw.filter (fun a => a.1 ∈ ["self", "data", "var_names"])).any
      (fun a => (dget (["self", "data", "var_names"].zip (s :: d :: n :: rest)) a.1).isSome)) =
      kw.any (fun a => a.1 ∈ ["self", "data", "var_names"]) := by
    rw [List.any_filter]
    congr 1
    funext a
    by_cases h1 : a.1 = "self"
    · simp [h1, dget]
    · by_cases h2 : a.1 = "data"
      · simp [h2, dget]
      · by_cases h3 : a.1 = "var_names"
        · simp [h3, dget]
        · simp [h1, h2, h3]
  simp only [e]
  split_ifs with h
  · rfl
  · have hf : kw.filter (fun a => decide (¬ a.1 ∈ ["self", "data", "var_names"])) = kw := by
      rw [List.filter_eq_self]
      intro a ha
      simp only [List.any_eq_true, not_exists, not_and] at h
      have := h a ha
      simpa using this
    simp only [bind, Except.bind, pure, Except.pure, hf]
    simp [dget, List.mapM_cons, bind, Except.bind, pure, Except.pure]

/-- **C42 is false.** A decorated method never accepts a fourth positional argument: whatever the objects, the call
`PC().fit(data, var_names, indep_cls)` raises. -/
theorem c42_positional_false (o : DataOps V) (ps : List String) (s d n a : V) (rest : List V) (kw : List (String × V)) :
    ∃ e, decorated o ("self" :: ps) (s :: d :: n :: a :: rest) kw = .error e ∧
      (convertData o d n ≠ .error .assertion → e = .type) := by
  unfold decorated
  rw [bind_three]
  split_ifs with h
  · exact ⟨_, rfl, fun _ => rfl⟩
  · simp only [bind, Except.bind]
    cases hc : convertData o d n with
    | error e =>
      refine ⟨e, rfl, fun hne => ?_⟩
      exfalso
      apply hne
      unfold convertData at hc
      repeat' split at hc
      all_goals first | (cases hc; rfl) | cases hc
    | ok r =>
      refine ⟨.type, ?_, fun _ => rfl⟩
      simp only
      unfold bindCall
      rw [if_pos]
      · rfl
      · simp [dget]

theorem decorated_ok (o : DataOps V) (ps : List String) (hps : ∀ p ∈ ps, p ∉ ["self", "data", "var_names"]) (s d0 n0 d n : V)
    (kw : List (String × V)) (hkw : ∀ a ∈ kw, a.1 ∉ ["self", "data", "var_names"]) (hc : convertData o d0 n0 = .ok (d, n)) :
    decorated o ("self" :: "data" :: "var_names" :: ps) [s, d0, n0] kw =
      bindCall ("self" :: "data" :: "var_names" :: ps) [] [s, d, n] kw := by
  unfold decorated
  rw [bind_three, if_neg (by simpa using hkw)]
  simp only [bind, Except.bind, hc]
  have hkw' : ∀ a ∈ kw, a.1 ≠ "self" ∧ a.1 ≠ "data" ∧ a.1 ≠ "var_names" := fun a ha => by simpa using hkw a ha
  have hps' : ∀ p ∈ ps, p ≠ "self" ∧ p ≠ "data" ∧ p ≠ "var_names" := fun a ha => by simpa using hps a ha
  have hf : kw.filter (fun a => decide (a.1 ∈ "self" :: "data" :: "var_names" :: ps)) = kw.filter (fun a => decide (a.1 ∈ ps)) := by
    apply List.filter_congr
    intro a ha
    obtain ⟨h1, h2, h3⟩ := hkw' a ha
    simp [h1, h2, h3]
  have hf' : kw.filter (fun a => decide (¬ a.1 ∈ "self" :: "data" :: "var_names" :: ps)) =
      kw.filter (fun a => decide (¬ a.1 ∈ ps)) := by
    apply List.filter_congr
    intro a ha
    obtain ⟨h1, h2, h3⟩ := hkw' a ha
    simp [h1, h2, h3]
  have hany : ((kw.filter (fun a => decide (a.1 ∈ ps))).any
      (fun a => (dget [("self", s), ("data", d), ("var_names", n)] a.1).isSome)) = false := by
    rw [List.any_eq_false]
    intro a ha
    obtain ⟨h1, h2, h3⟩ := hkw' a (List.mem_filter.1 ha).1
    simp [dget, Ne.symm h1, Ne.symm h2, Ne.symm h3]
  have hnil : ∀ p : String, dget ([] : List (String × V)) p = none := fun _ => rfl
  unfold bindCall
  simp only [List.filter_append, List.zip_nil_right, hnil, hf, hf', List.zip_cons_cons, hany]
  have hself : ([("self", s), ("data", d), ("var_names", n)].filter
      (fun a => decide (a.1 ∈ "self" :: "data" :: "var_names" :: ps))) = [("self", s), ("data", d), ("var_names", n)] := by
    simp
  have hself' : ([("self", s), ("data", d), ("var_names", n)].filter
      (fun a => decide (¬ a.1 ∈ "self" :: "data" :: "var_names" :: ps))) = [] := by
    simp
  simp only [hself, hself', List.any_append, Option.isSome_none, Bool.false_eq_true,
    if_false, List.nil_append, List.drop_nil, bind, Except.bind, pure, Except.pure]
  have hm : ∀ f g : String → Except Err (String × V), (∀ p ∈ ps, f p = g p) → f "self" = g "self" → f "data" = g "data" →
      f "var_names" = g "var_names" →
      List.mapM f ("self" :: "data" :: "var_names" :: ps) = List.mapM g ("self" :: "data" :: "var_names" :: ps) := by
    intro f g h h1 h2 h3
    have : List.mapM f ps = List.mapM g ps := by
      clear hps hps' hf hf' hany hself hself'
      induction ps with
      | nil => rfl
      | cons p ps ih =>
        rw [List.mapM_cons, List.mapM_cons, h p (by simp), ih (fun q hq => h q (by simp [hq]))]
    simp only [List.mapM_cons, h1, h2, h3, this]
  rw [hm _ (fun p =>
    match (dget [("self", s), ("data", d), ("var_names", n)] p).or (dget (kw.filter (fun a => decide (a.1 ∈ ps))) p) with
    | some v => .ok (p, v)
    | none => throw .type)]
  · simp; rfl
  · intro p hp
    obtain ⟨h1, h2, h3⟩ := hps' p hp
    simp [dget, Ne.symm h1, Ne.symm h2, Ne.symm h3]
    cases dget (kw.filter (fun a => decide (a.1 ∈ ps))) p <;> rfl
  · simp [dget]
  · simp [dget]
  · simp [dget]

/-- **C42, what holds.** The full claim is that the decorator passes the arguments on unchanged, apart from converting the
data. It does when everything after `var_names` is given by keyword: a list of names of the right length is passed on with the
data as they are; with `None` for the names a DataFrame is replaced by its array and its labels, and an array gets the
numbers of its columns. Data of another type and a list of names of another length are refused. -/
theorem c42_keyword_partial (o : DataOps V) (ps : List String) (hps : ∀ p ∈ ps, p ∉ ["self", "data", "var_names"]) (s d n : V)
    (kw : List (String × V)) (hkw : ∀ a ∈ kw, a.1 ∉ ["self", "data", "var_names"]) :
    (o.cols d = none → decorated o ("self" :: "data" :: "var_names" :: ps) [s, d, n] kw = .error .assertion) ∧
    ∀ k, o.cols d = some k →
      (n ≠ o.none → o.len n = k → decorated o ("self" :: "data" :: "var_names" :: ps) [s, d, n] kw =
        bindCall ("self" :: "data" :: "var_names" :: ps) [] [s, d, n] kw) ∧
      (n ≠ o.none → o.len n ≠ k → decorated o ("self" :: "data" :: "var_names" :: ps) [s, d, n] kw = .error .assertion) ∧
      (∀ labels array, n = o.none → o.frame d = some (labels, array) →
        decorated o ("self" :: "data" :: "var_names" :: ps) [s, d, n] kw =
          bindCall ("self" :: "data" :: "var_names" :: ps) [] [s, array, labels] kw) ∧
      (n = o.none → o.frame d = none → decorated o ("self" :: "data" :: "var_names" :: ps) [s, d, n] kw =
        bindCall ("self" :: "data" :: "var_names" :: ps) [] [s, d, o.range k] kw) ∧
      decorated o ("self" :: "data" :: "var_names" :: ps) [s, d] kw =
        decorated o ("self" :: "data" :: "var_names" :: ps) [s, d, o.none] kw := by
  have err : ∀ e, convertData o d n = .error e → decorated o ("self" :: "data" :: "var_names" :: ps) [s, d, n] kw = .error e := by
    intro e he
    unfold decorated
    rw [bind_three, if_neg (by simpa using hkw)]
    simp only [bind, Except.bind, he]
  refine ⟨fun h => err _ (by unfold convertData; rw [h]), fun k hk => ⟨fun h1 h2 => ?_, fun h1 h2 => ?_, fun l a h1 h2 => ?_,
    fun h1 h2 => ?_, ?_⟩⟩
  · exact decorated_ok o ps hps s d n d n kw hkw (by unfold convertData; rw [hk]; simp [h1, h2])
  · exact err _ (by unfold convertData; rw [hk]; simp [h1, h2])
  · exact decorated_ok o ps hps s d n a l kw hkw (by unfold convertData; rw [hk]; simp [h1, h2])
  · exact decorated_ok o ps hps s d n d (o.range k) kw hkw (by unfold convertData; rw [hk]; simp [h1, h2])
  · unfold decorated
    rw [bind_three, if_neg (by simpa using hkw)]
    have hkw' : ∀ a ∈ kw, a.1 ≠ "self" ∧ a.1 ≠ "data" ∧ a.1 ≠ "var_names" := fun a ha => by simpa using hkw a ha
    have hf : kw.filter (fun a => decide (a.1 ∈ ["self", "data", "var_names"])) = [] := by
      rw [List.filter_eq_nil_iff]
      intro a ha
      obtain ⟨h1, h2, h3⟩ := hkw' a ha
      simp [h1, h2, h3]
    have hf' : kw.filter (fun a => decide (¬ a.1 ∈ ["self", "data", "var_names"])) = kw := by
      rw [List.filter_eq_self]
      intro a ha
      obtain ⟨h1, h2, h3⟩ := hkw' a ha
      simp [h1, h2, h3]
    have e : bindCall ["self", "data", "var_names"] [("var_names", o.none)] [s, d] kw =
        .ok ⟨[("self", s), ("data", d), ("var_names", o.none)], [], kw⟩ := by
      unfold bindCall
      simp only [hf, hf']
      simp [dget, List.mapM_cons, bind, Except.bind, pure, Except.pure]
    rw [e]

end

section examples

/-- Objects as strings; every object is a matrix with two columns, every list of names has two entries. -/
def exOps' : DataOps String := ⟨fun _ => some 2, fun _ => none, fun _ => "[0, 1]", fun _ => 2, "None"⟩

def pcParams : List String := ["self", "data", "var_names", "indep_cls"]

example : decorated exOps' pcParams ["pc", "data", "names", "Dsep"] [("true_graph", "G")] = .error .type := by decide +kernel
example : decorated exOps' pcParams ["pc", "data", "names"] [("indep_cls", "Dsep"), ("true_graph", "G")] =
    .ok ⟨[("self", "pc"), ("data", "data"), ("var_names", "names"), ("indep_cls", "Dsep")], [], [("true_graph", "G")]⟩ := by
  decide +kernel
example : decorated exOps' pcParams ["pc", "data"] [("indep_cls", "Dsep")] =
    .ok ⟨[("self", "pc"), ("data", "data"), ("var_names", "[0, 1]"), ("indep_cls", "Dsep")], [], []⟩ := by
  decide +kernel
example := c42_keyword_partial exOps' ["indep_cls"] (by decide) "pc" "data" "names" [("indep_cls", "Dsep"), ("true_graph", "G")]
  (by decide)
example := ((c42_keyword_partial exOps' ["indep_cls"] (by decide) "pc" "data" "names" [("indep_cls", "Dsep")] (by decide)).2
  2 rfl).1 (by decide) rfl
example := ((c42_keyword_partial exOps' ["indep_cls"] (by decide) "pc" "data" "None" [("indep_cls", "Dsep")] (by decide)).2
  2 rfl).2.2.2.1 rfl rfl

end examples
end Cdmir
