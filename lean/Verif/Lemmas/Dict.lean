import Verif.Model.Py
import Mathlib.Data.List.Nodup
import Mathlib.Data.List.Basic
import Mathlib.Data.List.Perm.Subperm
import Mathlib.Tactic.Ring
import Mathlib.Tactic.Tauto
import Mathlib.Tactic.SplitIfs

/-! Facts about the dictionary, set and itertools models of `Verif.Model.Py`. -/

namespace Cdmir

section
variable {κ ν : Type _} [DecidableEq κ]

@[simp] theorem dget_nil (x : κ) : dget ([] : Dict κ ν) x = none := rfl

theorem dget_cons (k : κ) (v : ν) (t : Dict κ ν) (x : κ) :
    dget ((k, v) :: t) x = if k = x then some v else dget t x := rfl

theorem dget_dset (d : Dict κ ν) (x y : κ) (w : ν) :
    dget (dset d x w) y = if x = y then some w else dget d y := by
  induction d with
  | nil => simp [dset, dget_cons]
  | cons p t ih =>
    obtain ⟨k, v⟩ := p
    simp only [dset]
    split_ifs with h1 h2 h2
    · subst h1; simp [dget_cons, h2]
    · subst h1; simp [dget_cons, h2]
    · subst h2; simp [dget_cons, h1, ih]
    · simp [dget_cons, ih, h2]

theorem mem_dkeys_iff (d : Dict κ ν) (x : κ) : x ∈ dkeys d ↔ (dget d x).isSome := by
  induction d with
  | nil => simp [dkeys]
  | cons p t ih =>
    obtain ⟨k, v⟩ := p
    simp only [dkeys, List.map_cons, List.mem_cons] at *
    rw [dget_cons]
    split_ifs with h
    · simp [h]
    · rw [ih]; constructor
      · rintro (h' | h')
        · exact absurd h'.symm h
        · exact h'
      · exact Or.inr

theorem dget_none_iff (d : Dict κ ν) (x : κ) : dget d x = none ↔ x ∉ dkeys d := by
  rw [mem_dkeys_iff]; simp

theorem dkeys_dset (d : Dict κ ν) (x : κ) (w : ν) :
    dkeys (dset d x w) = if x ∈ dkeys d then dkeys d else dkeys d ++ [x] := by
  induction d with
  | nil => simp [dset, dkeys]
  | cons p t ih =>
    obtain ⟨k, v⟩ := p
    simp only [dset]
    split_ifs with h1 h2 h2
    · simp [dkeys]
    · exact absurd (by simp [dkeys, h1]) h2
    · have : x ∈ dkeys t := by
        simp only [dkeys, List.map_cons, List.mem_cons] at h2
        rcases h2 with h2 | h2
        · exact absurd h2.symm h1
        · exact h2
      have e : dkeys ((k, v) :: dset t x w) = k :: dkeys (dset t x w) := rfl
      rw [e, ih, if_pos this]; rfl
    · have : x ∉ dkeys t := fun h => h2 (by simp only [dkeys, List.map_cons, List.mem_cons] at *; exact Or.inr h)
      have e : dkeys ((k, v) :: dset t x w) = k :: dkeys (dset t x w) := rfl
      rw [e, ih, if_neg this]; rfl

theorem dkeys_dset_nodup (d : Dict κ ν) (x : κ) (w : ν) (h : (dkeys d).Nodup) : (dkeys (dset d x w)).Nodup := by
  rw [dkeys_dset]
  split_ifs with hx
  · exact h
  · rw [List.nodup_append]
    refine ⟨h, by simp, ?_⟩
    intro a ha b hb
    simp at hb
    subst hb
    rintro rfl
    exact hx ha

theorem dkeys_ddel (d : Dict κ ν) (x : κ) : dkeys (ddel d x) = (dkeys d).erase x := by
  induction d with
  | nil => simp [ddel, dkeys]
  | cons p t ih =>
    obtain ⟨k, v⟩ := p
    simp only [ddel]
    split_ifs with h
    · subst h; simp [dkeys]
    · simp only [dkeys, List.map_cons] at *
      rw [ih, List.erase_cons_tail (by simpa using h)]

theorem dkeys_ddel_nodup (d : Dict κ ν) (x : κ) (h : (dkeys d).Nodup) : (dkeys (ddel d x)).Nodup := by
  rw [dkeys_ddel]; exact h.erase x

theorem dget_ddel (d : Dict κ ν) (x y : κ) (h : (dkeys d).Nodup) :
    dget (ddel d x) y = if x = y then none else dget d y := by
  induction d with
  | nil => simp [ddel]
  | cons p t ih =>
    obtain ⟨k, v⟩ := p
    simp only [dkeys, List.map_cons, List.nodup_cons] at h
    simp only [ddel]
    split_ifs with h1 h2 h2
    · subst h1; subst h2; exact (dget_none_iff t k).2 h.1
    · subst h1; simp [dget_cons, h2]
    · subst h2; simp [dget_cons, h1, ih h.2]
    · simp [dget_cons, ih h.2, h2]

theorem dgetE_eq (d : Dict κ ν) (x : κ) (v : ν) : dgetE d x = .ok v ↔ dget d x = some v := by
  unfold dgetE
  split <;> simp_all

theorem dgetE_of (d : Dict κ ν) (x : κ) (v : ν) (h : dget d x = some v) : dgetE d x = .ok v :=
  (dgetE_eq d x v).2 h

end

section
variable {α : Type _} [DecidableEq α]

theorem pyUnion_aux (t s : List α) :
    (∀ a, a ∈ pyUnion s t ↔ a ∈ s ∨ a ∈ t) ∧ (s.Nodup → (pyUnion s t).Nodup) := by
  induction t generalizing s with
  | nil => simp [pyUnion]
  | cons x t ih =>
    have hstep : pyUnion s (x :: t) = pyUnion (if x ∈ s then s else s ++ [x]) t := by
      simp [pyUnion]
    rw [hstep]
    obtain ⟨h1, h2⟩ := ih (if x ∈ s then s else s ++ [x])
    constructor
    · intro a
      rw [h1]
      split_ifs with h
      · simp only [List.mem_cons]
        constructor
        · rintro (h' | h') <;> simp [h']
        · rintro (h' | h' | h')
          · exact Or.inl h'
          · subst h'; exact Or.inl h
          · exact Or.inr h'
      · simp [or_assoc]
    · intro hs
      apply h2
      split_ifs with h
      · exact hs
      · rw [List.nodup_append]
        refine ⟨hs, by simp, ?_⟩
        intro a ha b hb
        simp at hb
        subst hb
        rintro rfl
        exact h ha

@[simp] theorem mem_pyUnion (s t : List α) (a : α) : a ∈ pyUnion s t ↔ a ∈ s ∨ a ∈ t := (pyUnion_aux t s).1 a

theorem pyUnion_nodup (s t : List α) (h : s.Nodup) : (pyUnion s t).Nodup := (pyUnion_aux t s).2 h

theorem pySet_eq (l : List α) : pySet l = pyUnion [] l := rfl

@[simp] theorem mem_pySet (l : List α) (a : α) : a ∈ pySet l ↔ a ∈ l := by simp [pySet_eq]

theorem pySet_nodup (l : List α) : (pySet l).Nodup := by rw [pySet_eq]; exact pyUnion_nodup _ _ List.nodup_nil

theorem pyUnion_of_nodup (s t : List α) (h : (s ++ t).Nodup) : pyUnion s t = s ++ t := by
  induction t generalizing s with
  | nil => simp [pyUnion]
  | cons x t ih =>
    have hx : x ∉ s := by
      rw [List.nodup_append] at h
      intro hx
      exact h.2.2 x hx x (by simp) rfl
    have hstep : pyUnion s (x :: t) = pyUnion (s ++ [x]) t := by
      simp [pyUnion, hx]
    rw [hstep, ih]
    · simp
    · simpa using h

theorem pySet_of_nodup (l : List α) (h : l.Nodup) : pySet l = l := by
  rw [pySet_eq, pyUnion_of_nodup] <;> simp [h]

theorem pyUnion_length_le (s t : List α) : (pyUnion s t).length ≤ s.length + t.length := by
  induction t generalizing s with
  | nil => simp [pyUnion]
  | cons x t ih =>
    have hstep : pyUnion s (x :: t) = pyUnion (if x ∈ s then s else s ++ [x]) t := by
      simp [pyUnion]
    rw [hstep]
    have := ih (if x ∈ s then s else s ++ [x])
    split_ifs at this ⊢ <;> simp at this ⊢ <;> omega

/-- The duplicate check of `Graph.__init__` is exact. -/
theorem pySet_length_iff (l : List α) : (pySet l).length = l.length ↔ l.Nodup := by
  constructor
  · intro h
    have hsub : pySet l ⊆ l := fun a ha => by simpa using ha
    have hsp : (pySet l).Subperm l := List.Nodup.subperm (pySet_nodup l) hsub
    have hp : (pySet l).Perm l := hsp.perm_of_length_le (by omega)
    exact hp.nodup_iff.1 (pySet_nodup l)
  · intro h; rw [pySet_of_nodup l h]

end

section
variable {α : Type _}

theorem mem_pairs_mem {l : List α} {a b : α} (h : (a, b) ∈ pairs l) : a ∈ l ∧ b ∈ l := by
  induction l with
  | nil => simp [pairs] at h
  | cons x xs ih =>
    simp only [pairs, List.mem_append, List.mem_map, Prod.mk.injEq] at h
    rcases h with ⟨y, hy, rfl, rfl⟩ | h
    · simp [hy]
    · have := ih h; simp [this]

theorem mem_pairs_ne {l : List α} (hl : l.Nodup) {a b : α} (h : (a, b) ∈ pairs l) : a ≠ b := by
  induction l with
  | nil => simp [pairs] at h
  | cons x xs ih =>
    simp only [pairs, List.mem_append, List.mem_map, Prod.mk.injEq] at h
    rw [List.nodup_cons] at hl
    rcases h with ⟨y, hy, rfl, rfl⟩ | h
    · rintro rfl; exact hl.1 hy
    · exact ih hl.2 h

theorem pairs_complete {l : List α} {a b : α} (ha : a ∈ l) (hb : b ∈ l) (hab : a ≠ b) :
    (a, b) ∈ pairs l ∨ (b, a) ∈ pairs l := by
  induction l with
  | nil => simp at ha
  | cons x xs ih =>
    simp only [pairs, List.mem_append, List.mem_map, Prod.mk.injEq]
    rcases List.mem_cons.1 ha with ha | ha <;> rcases List.mem_cons.1 hb with hb | hb
    · exact absurd (ha.trans hb.symm) hab
    · exact Or.inl (Or.inl ⟨b, hb, ha.symm, rfl⟩)
    · exact Or.inr (Or.inl ⟨a, ha, hb.symm, rfl⟩)
    · rcases ih ha hb with h | h
      · exact Or.inl (Or.inr h)
      · exact Or.inr (Or.inr h)

theorem pairs_asymm {l : List α} (hl : l.Nodup) {a b : α} (h : (a, b) ∈ pairs l) : (b, a) ∉ pairs l := by
  induction l with
  | nil => simp [pairs] at h
  | cons x xs ih =>
    rw [List.nodup_cons] at hl
    intro h'
    simp only [pairs, List.mem_append, List.mem_map, Prod.mk.injEq] at h h'
    rcases h with ⟨y, hy, rfl, rfl⟩ | h
    · rcases h' with ⟨y', hy', rfl, rfl⟩ | h'
      · exact hl.1 hy
      · exact hl.1 (mem_pairs_mem h').2
    · rcases h' with ⟨y', hy', rfl, rfl⟩ | h'
      · exact hl.1 (mem_pairs_mem h).2
      · exact ih hl.2 h h'

theorem pairs_nodup {l : List α} (hl : l.Nodup) : (pairs l).Nodup := by
  induction l with
  | nil => simp [pairs]
  | cons x xs ih =>
    rw [List.nodup_cons] at hl
    simp only [pairs]
    rw [List.nodup_append]
    refine ⟨?_, ih hl.2, ?_⟩
    · exact hl.2.map (fun a b h => by simpa using h)
    · rintro ⟨a, b⟩ h ⟨c, d⟩ h' heq
      simp only [List.mem_map, Prod.mk.injEq] at h
      obtain ⟨y, hy, rfl, rfl⟩ := h
      rw [← heq] at h'
      exact hl.1 (mem_pairs_mem h').1

theorem pairs_length (l : List α) : (pairs l).length = l.length * (l.length - 1) / 2 := by
  have key : 2 * (pairs l).length = l.length * (l.length - 1) := by
    induction l with
    | nil => simp [pairs]
    | cons x xs ih =>
      simp only [pairs, List.length_append, List.length_map, List.length_cons, Nat.mul_add, ih]
      cases h : xs.length with
      | zero => simp
      | succ n => simp; ring
  rw [← key]; omega

theorem mem_perms2Aux (l pre : List α) (a b : α) (h : (pre ++ l).Nodup) :
    (a, b) ∈ perms2Aux pre l ↔ a ∈ l ∧ (b ∈ pre ∨ b ∈ l) ∧ a ≠ b := by
  induction l generalizing pre with
  | nil => simp [perms2Aux]
  | cons x xs ih =>
    have h2 : (pre ++ [x] ++ xs).Nodup := by simpa using h
    simp only [perms2Aux, List.mem_append, List.mem_map, Prod.mk.injEq, ih _ h2, List.mem_cons,
      List.not_mem_nil, or_false]
    have hx : x ∉ xs := by
      rw [List.nodup_append] at h; exact (List.nodup_cons.1 h.2.1).1
    have hx' : x ∉ pre := by
      rw [List.nodup_append] at h; intro hp; exact h.2.2 x hp x (by simp) rfl
    constructor
    · rintro (⟨y, hy, rfl, rfl⟩ | ⟨ha, hb, hne⟩)
      · refine ⟨Or.inl rfl, ?_, ?_⟩
        · tauto
        · rintro rfl; tauto
      · tauto
    · rintro ⟨rfl | ha, hb, hne⟩
      · left; exact ⟨b, by tauto, rfl, rfl⟩
      · right; exact ⟨ha, by tauto, hne⟩

theorem mem_perms2 {l : List α} (hl : l.Nodup) (a b : α) :
    (a, b) ∈ perms2 l ↔ a ∈ l ∧ b ∈ l ∧ a ≠ b := by
  unfold perms2
  rw [mem_perms2Aux _ _ _ _ (by simpa using hl)]
  simp

theorem mem_combinations_iff {l : List α} {k : Nat} {c : List α} :
    c ∈ combinations l k ↔ c.Sublist l ∧ c.length = k := by
  induction l generalizing k c with
  | nil =>
    cases k with
    | zero => simp [combinations]
    | succ k => 
      simp only [combinations, List.not_mem_nil, List.sublist_nil, false_iff]
      rintro ⟨rfl, h⟩; simp at h
  | cons x xs ih =>
    cases k with
    | zero => 
      simp only [combinations, List.mem_singleton, List.length_eq_zero_iff]
      constructor
      · rintro rfl; simp
      · exact fun h => h.2
    | succ k =>
      simp only [combinations, List.mem_append, List.mem_map, ih]
      constructor
      · rintro (⟨d, ⟨hd, hl⟩, rfl⟩ | ⟨hs, hl⟩)
        · exact ⟨hd.cons_cons x, by simp [hl]⟩
        · exact ⟨hs.cons x, hl⟩
      · rintro ⟨hs, hl⟩
        cases hs with
        | cons _ h => exact Or.inr ⟨h, hl⟩
        | cons_cons _ h => exact Or.inl ⟨_, ⟨h, by simpa using hl⟩, rfl⟩

end

section
variable {ε σ ι : Type _}

/-- A loop whose body never raises (under an invariant) is a pure fold. -/
theorem foldlM_eq_ok {f : σ → ι → Except ε σ} {f' : σ → ι → σ} (I : σ → Prop) (l : List ι)
    (h : ∀ s x, x ∈ l → I s → f s x = .ok (f' s x) ∧ I (f' s x)) (s : σ) (hs : I s) :
    l.foldlM f s = .ok (l.foldl f' s) ∧ I (l.foldl f' s) := by
  induction l generalizing s with
  | nil => exact ⟨rfl, hs⟩
  | cons x xs ih =>
    obtain ⟨h1, h2⟩ := h s x (by simp) hs
    have := ih (fun s y hy => h s y (by simp [hy])) (f' s x) h2
    rw [List.foldlM_cons, List.foldl_cons, h1]
    exact this

/-- Invariant rule for pure folds. -/
theorem foldl_inv {f : σ → ι → σ} (I : σ → Prop) (l : List ι)
    (h : ∀ s x, x ∈ l → I s → I (f s x)) (s : σ) (hs : I s) : I (l.foldl f s) := by
  induction l generalizing s with
  | nil => exact hs
  | cons x xs ih => exact ih (fun s y hy => h s y (by simp [hy])) _ (h s x (by simp) hs)

end

end Cdmir
