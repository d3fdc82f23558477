import Verif.Model.EventTable
import Verif.Lemmas.SHPFit
import Verif.Props.SHP
import Mathlib.Tactic.Linarith
import Mathlib.Tactic.NormNum
import Mathlib.Algebra.Order.Floor.Semiring

/-! C153: the tables SHP builds from events. -/

namespace Cdmir.SHP
open BigOperators

section
variable {K : Type} [Field K] [LinearOrder K] [IsStrictOrderedRing K] [FloorRing K]

instance : IsTrans (Key K) keyLe := ⟨by
  rintro ⟨a, b, c⟩ ⟨a', b', c'⟩ ⟨a'', b'', c''⟩ h1 h2
  simp only [keyLe] at *
  rcases h1 with h1 | ⟨rfl, h1 | ⟨rfl, h1⟩⟩
  · rcases h2 with h2 | ⟨rfl, h2⟩
    · exact Or.inl (h1.trans h2)
    · exact Or.inl h1
  · rcases h2 with h2 | ⟨rfl, h2 | ⟨rfl, h2⟩⟩
    · exact Or.inl h2
    · exact Or.inr ⟨rfl, Or.inl (h1.trans h2)⟩
    · exact Or.inr ⟨rfl, Or.inl h1⟩
  · rcases h2 with h2 | ⟨rfl, h2 | ⟨rfl, h2⟩⟩
    · exact Or.inl h2
    · exact Or.inr ⟨rfl, Or.inl h2⟩
    · exact Or.inr ⟨rfl, Or.inr ⟨rfl, h1.trans h2⟩⟩⟩

instance : Std.Total (keyLe (K := K)) := ⟨by
  rintro ⟨a, b, c⟩ ⟨a', b', c'⟩
  simp only [keyLe]
  rcases lt_trichotomy a a' with h | h | h
  · exact Or.inl (Or.inl h)
  · subst h
    rcases lt_trichotomy b b' with h | h | h
    · exact Or.inl (Or.inr ⟨rfl, Or.inl h⟩)
    · subst h
      rcases le_total c c' with h | h
      · exact Or.inl (Or.inr ⟨rfl, Or.inr ⟨rfl, h⟩⟩)
      · exact Or.inr (Or.inr ⟨rfl, Or.inr ⟨rfl, h⟩⟩)
    · exact Or.inr (Or.inr ⟨rfl, Or.inl h⟩)
  · exact Or.inr (Or.inl h)⟩

variable {dt : Option K} {E : List (Event K)}

omit [IsStrictOrderedRing K] in
theorem mem_grouped {r : Key K × Nat} : r ∈ grouped dt E ↔ r.1 ∈ keys dt E ∧ r.2 = (keys dt E).count r.1 := by
  unfold grouped
  rw [List.mem_map]
  constructor
  · rintro ⟨k, hk, rfl⟩
    exact ⟨by simpa using hk, rfl⟩
  · rintro ⟨h1, h2⟩
    exact ⟨r.1, by simpa using h1, by rw [← h2]⟩

omit [IsStrictOrderedRing K] in
theorem mem_keys {k : Key K} : k ∈ keys dt E ↔ ∃ e ∈ E, e.seq = k.1 ∧ bin dt e.time = k.2.1 ∧ e.type = k.2.2 := by
  unfold keys
  rw [List.mem_map]
  constructor
  · rintro ⟨e, he, rfl⟩; exact ⟨e, he, rfl, rfl, rfl⟩
  · rintro ⟨e, he, h1, h2, h3⟩; exact ⟨e, he, by rw [h1, h2, h3]⟩

omit [IsStrictOrderedRing K] in
theorem count_keys (k : Key K) :
    (keys dt E).count k = (E.filter fun e => decide (e.seq = k.1 ∧ bin dt e.time = k.2.1 ∧ e.type = k.2.2)).length := by
  unfold keys
  rw [List.count, List.countP_map, List.countP_eq_length_filter]
  congr 1
  apply List.filter_congr
  intro e _
  obtain ⟨a, b, c⟩ := k
  rw [Bool.eq_iff_iff]
  simp

omit [IsStrictOrderedRing K] in
theorem start_spec {e : Event K} (he : e ∈ E) : start dt E e.seq ≤ bin dt e.time ∧ ∃ e' ∈ E, e'.seq = e.seq ∧ bin dt e'.time = start dt E e.seq := by
  unfold start
  set l := ((grouped dt E).filter fun r => r.1.1 == e.seq).map fun r => r.1.2.1 with hl
  have hmem : ∀ x, x ∈ l ↔ ∃ e' ∈ E, e'.seq = e.seq ∧ bin dt e'.time = x := by
    intro x
    rw [hl, List.mem_map]
    constructor
    · rintro ⟨r, hr, rfl⟩
      rw [List.mem_filter] at hr
      obtain ⟨e', h1, h2, h3, h4⟩ := mem_keys.1 (mem_grouped.1 hr.1).1
      exact ⟨e', h1, by rw [h2]; simpa using hr.2, h3⟩
    · rintro ⟨e', h1, h2, h3⟩
      exact ⟨((e'.seq, bin dt e'.time, e'.type), (keys dt E).count (e'.seq, bin dt e'.time, e'.type)), List.mem_filter.2 ⟨mem_grouped.2 ⟨mem_keys.2 ⟨e', h1, rfl, rfl, rfl⟩, rfl⟩, by simp [h2]⟩, h3⟩
  obtain ⟨x, hx⟩ : ∃ x, l.min? = some x := by
    rcases h : l.min? with _ | x
    · rw [List.min?_eq_none_iff] at h
      have := (hmem (bin dt e.time)).2 ⟨e, he, rfl, rfl⟩
      rw [h] at this
      simp at this
    · exact ⟨x, rfl⟩
  have hx' := List.min?_eq_some_iff.1 hx
  rw [hx]
  exact ⟨hx'.2 _ ((hmem _).2 ⟨e, he, rfl, rfl⟩), (hmem x).1 hx'.1⟩

omit [IsStrictOrderedRing K] in
theorem mem_shifted {r : (Nat × K) × Nat × Nat} : r ∈ shifted dt E ↔
    ∃ e ∈ E, r = ((e.seq, bin dt e.time - start dt E e.seq), (names E).idxOf e.type, (keys dt E).count (e.seq, bin dt e.time, e.type)) := by
  unfold shifted
  rw [List.mem_map]
  constructor
  · rintro ⟨k, hk, rfl⟩
    obtain ⟨h1, h2⟩ := mem_grouped.1 hk
    obtain ⟨e, he, e1, e2, e3⟩ := mem_keys.1 h1
    obtain ⟨⟨a, b, c⟩, n⟩ := k
    simp only at *
    subst e1 e2 e3 h2
    exact ⟨e, he, rfl⟩
  · rintro ⟨e, he, rfl⟩
    exact ⟨((e.seq, bin dt e.time, e.type), _), mem_grouped.2 ⟨mem_keys.2 ⟨e, he, rfl, rfl, rfl⟩, rfl⟩, rfl⟩

omit [Field K] [LinearOrder K] [IsStrictOrderedRing K] [FloorRing K] in
theorem mem_names {x : Nat} : x ∈ names E ↔ ∃ e ∈ E, e.type = x := by
  unfold names
  simp

omit [Field K] [LinearOrder K] [IsStrictOrderedRing K] [FloorRing K] in
theorem names_nodup : (names E).Nodup := by
  unfold names
  exact (List.perm_insertionSort _ _).nodup_iff.2 (List.nodup_dedup _)

/-- The order of the rows. -/
def rowLe (a b : Nat × K) : Prop := a.1 < b.1 ∨ a.1 = b.1 ∧ a.2 ≤ b.2

/-- The strict order of the rows. -/
def rowLt (a b : Nat × K) : Prop := a.1 < b.1 ∨ a.1 = b.1 ∧ a.2 < b.2

theorem shifted_sorted : (shifted dt E).Pairwise fun a b => rowLe a.1 b.1 := by
  unfold shifted grouped
  rw [List.map_map, List.pairwise_map]
  refine (List.pairwise_insertionSort keyLe _).imp fun {a b} h => ?_
  rcases h with h | ⟨h, h' | ⟨h', -⟩⟩
  · exact Or.inl h
  · refine Or.inr ⟨h, ?_⟩
    simp only [Function.comp_apply, h]
    exact sub_le_sub_right h'.le _
  · refine Or.inr ⟨h, ?_⟩
    simp only [Function.comp_apply, h, h']
    exact le_rfl

omit [Field K] [IsStrictOrderedRing K] [FloorRing K] in
theorem addRow_keys (tbl : List ((Nat × K) × (Nat → Nat))) (r : (Nat × K) × Nat × Nat) :
    (addRow tbl r).map Prod.fst = if r.1 ∈ tbl.map Prod.fst then tbl.map Prod.fst else tbl.map Prod.fst ++ [r.1] := by
  unfold addRow
  rw [List.map_map]
  have : ∀ l : List ((Nat × K) × (Nat → Nat)), l.map (Prod.fst ∘ fun p => if p.1 = r.1 then (p.1, fun i => if i = r.2.1 then r.2.2 else p.2 i) else p) = l.map Prod.fst := by
    intro l
    apply List.map_congr_left
    intro p _
    simp only [Function.comp_apply]
    split <;> rfl
  rw [this]
  split <;> simp

omit [Field K] [IsStrictOrderedRing K] [FloorRing K] in
theorem fold_keys (R : List ((Nat × K) × Nat × Nat)) (k : Nat × K) : k ∈ (R.foldl addRow []).map Prod.fst ↔ k ∈ R.map Prod.fst := by
  induction R using List.reverseRecOn with
  | nil => simp
  | append_singleton R r ih =>
    rw [List.foldl_append, List.foldl_cons, List.foldl_nil, addRow_keys, List.map_append, List.mem_append, ← ih]
    split
    · rename_i h
      constructor
      · exact Or.inl
      · rintro (h' | h')
        · exact h'
        · simp only [List.map_cons, List.map_nil, List.mem_singleton] at h'
          rw [h']; exact h
    · rw [List.mem_append]; simp

omit [Field K] [IsStrictOrderedRing K] [FloorRing K] in
theorem fold_sorted {R : List ((Nat × K) × Nat × Nat)} (h : R.Pairwise fun a b => rowLe a.1 b.1) :
    ((R.foldl addRow []).map Prod.fst).Pairwise rowLt := by
  induction R using List.reverseRecOn with
  | nil => simp
  | append_singleton R r ih =>
    obtain ⟨h1, -, h2⟩ := List.pairwise_append.1 h
    rw [List.foldl_append, List.foldl_cons, List.foldl_nil, addRow_keys]
    split
    · exact ih h1
    · rename_i hn
      refine List.pairwise_append.2 ⟨ih h1, List.pairwise_singleton _ _, fun a ha b hb => ?_⟩
      rw [List.mem_singleton.1 hb]
      have ha' := ha
      rw [fold_keys] at ha'
      obtain ⟨q, hq, rfl⟩ := List.mem_map.1 ha'
      rcases h2 q hq r (List.mem_singleton.2 rfl) with h | ⟨h, h'⟩
      · exact Or.inl h
      · refine Or.inr ⟨h, lt_of_le_of_ne h' fun e => hn ?_⟩
        rw [← show q.1 = r.1 from Prod.ext h e]
        exact ha

omit [Field K] [IsStrictOrderedRing K] [FloorRing K] in
theorem fold_value (R : List ((Nat × K) × Nat × Nat)) (i : Nat) {p : (Nat × K) × (Nat → Nat)} (hp : p ∈ R.foldl addRow []) :
    (∃ r ∈ R, r.1 = p.1 ∧ r.2.1 = i ∧ p.2 i = r.2.2) ∨ (∀ r ∈ R, ¬(r.1 = p.1 ∧ r.2.1 = i)) ∧ p.2 i = 0 := by
  induction R using List.reverseRecOn generalizing p with
  | nil => simp at hp
  | append_singleton R r ih =>
    rw [List.foldl_append, List.foldl_cons, List.foldl_nil] at hp
    have hkeys := fold_keys R r.1
    generalize R.foldl addRow [] = T at hp ih hkeys
    unfold addRow at hp
    obtain ⟨q, hq, rfl⟩ := List.mem_map.1 hp
    -- the row before the entry is set
    have hq' : (∃ r ∈ R, r.1 = q.1 ∧ r.2.1 = i ∧ q.2 i = r.2.2) ∨ (∀ r ∈ R, ¬(r.1 = q.1 ∧ r.2.1 = i)) ∧ q.2 i = 0 := by
      split at hq
      · exact ih hq
      · rename_i hn
        rcases List.mem_append.1 hq with hq | hq
        · exact ih hq
        · rw [List.mem_singleton.1 hq]
          refine Or.inr ⟨fun a ha h => hn ?_, rfl⟩
          rw [hkeys, ← show a.1 = r.1 from h.1]
          exact List.mem_map_of_mem ha
    by_cases hk : q.1 = r.1
    · rw [if_pos hk]
      simp only
      by_cases hi : i = r.2.1
      · exact Or.inl ⟨r, by simp, hk.symm, hi.symm, by rw [if_pos hi]⟩
      · rw [if_neg hi]
        rcases hq' with ⟨a, ha, h1, h2, h3⟩ | ⟨h1, h2⟩
        · exact Or.inl ⟨a, by simp [ha], h1, h2, h3⟩
        · refine Or.inr ⟨fun a ha h => ?_, h2⟩
          rcases List.mem_append.1 ha with ha | ha
          · exact h1 a ha h
          · rw [List.mem_singleton.1 ha] at h
            exact hi h.2.symm
    · rw [if_neg hk]
      rcases hq' with ⟨a, ha, h1, h2, h3⟩ | ⟨h1, h2⟩
      · exact Or.inl ⟨a, by simp [ha], h1, h2, h3⟩
      · refine Or.inr ⟨fun a ha h => ?_, h2⟩
        rcases List.mem_append.1 ha with ha | ha
        · exact h1 a ha h
        · rw [List.mem_singleton.1 ha] at h
          exact hk h.1.symm

omit [IsStrictOrderedRing K] in
theorem table_value {p : (Nat × K) × (Nat → Nat)} (hp : p ∈ table dt E) {j : Nat} (hj : j < (names E).length) :
    p.2 j = (keys dt E).count (p.1.1, p.1.2 + start dt E p.1.1, (names E)[j]) := by
  have hidx : ∀ x ∈ names E, (names E).idxOf x = j → x = (names E)[j] := by
    intro x hx h
    have := List.getElem_idxOf (List.idxOf_lt_length_of_mem hx)
    simp only [h] at this
    exact this.symm
  rcases fold_value (shifted dt E) j hp with ⟨r, hr, h1, h2, h3⟩ | ⟨h1, h2⟩
  · obtain ⟨e, he, rfl⟩ := mem_shifted.1 hr
    rw [h3, ← h1]
    simp only at h2 ⊢
    rw [sub_add_cancel, ← hidx e.type (mem_names.2 ⟨e, he, rfl⟩) h2]
  · rw [h2, eq_comm, List.count_eq_zero]
    intro hk
    obtain ⟨e, he, e1, e2, e3⟩ := mem_keys.1 hk
    simp only at e1 e2 e3
    refine h1 _ (mem_shifted.2 ⟨e, he, rfl⟩) ⟨Prod.ext e1 ?_, ?_⟩
    · simp only
      rw [e2, e1, add_sub_cancel_right]
    · simp only
      rw [e3]
      exact names_nodup.idxOf_getElem j hj

omit [IsStrictOrderedRing K] in
theorem row_spec (decay : K) (t : Fin (table dt E).length) :
    ∃ e ∈ E, e.seq = (tables dt decay E).seq t ∧ bin dt e.time = (tables dt decay E).time t + start dt E e.seq := by
  have h : (table dt E)[t].1 ∈ (table dt E).map Prod.fst := List.mem_map_of_mem (List.getElem_mem _)
  unfold table at h
  rw [fold_keys] at h
  obtain ⟨r, hr, hrt⟩ := List.mem_map.1 h
  obtain ⟨e, he, rfl⟩ := mem_shifted.1 hr
  refine ⟨e, he, congrArg Prod.fst hrt, ?_⟩
  have : bin dt e.time - start dt E e.seq = (tables dt decay E).time t := congrArg Prod.snd hrt
  rw [← this, sub_add_cancel]

omit [IsStrictOrderedRing K] in
/-- C153: with the first time stamp of each sequence at zero, there is a row for the sequence and time stamp of each event and for
nothing else, and the entry of a row and a type is the number of its events. -/
theorem c153_table (dt : Option K) (decay : K) (E : List (Event K)) : ∃ first : Nat → K,
    (∀ e ∈ E, first e.seq ≤ bin dt e.time ∧ ∃ e' ∈ E, e'.seq = e.seq ∧ bin dt e'.time = first e.seq) ∧
    (∀ e ∈ E, ∃ t, (tables dt decay E).seq t = e.seq ∧ (tables dt decay E).time t = bin dt e.time - first e.seq) ∧
    (∀ t, ∃ e ∈ E, (tables dt decay E).seq t = e.seq ∧ (tables dt decay E).time t = bin dt e.time - first e.seq) ∧
    ∀ t j, (tables dt decay E).X t j = ((E.filter fun e => decide (e.seq = (tables dt decay E).seq t ∧
      bin dt e.time - first e.seq = (tables dt decay E).time t ∧ e.type = (names E)[j])).length : K) := by
  refine ⟨start dt E, fun e he => start_spec he, fun e he => ?_, fun t => ?_, fun t j => ?_⟩
  · have h : (e.seq, bin dt e.time - start dt E e.seq) ∈ (table dt E).map Prod.fst := by
      unfold table
      rw [fold_keys]
      exact List.mem_map.2 ⟨_, mem_shifted.2 ⟨e, he, rfl⟩, rfl⟩
    obtain ⟨p, hp, hpe⟩ := List.mem_map.1 h
    obtain ⟨t, ht, rfl⟩ := List.getElem_of_mem hp
    exact ⟨⟨t, ht⟩, congrArg Prod.fst hpe, congrArg Prod.snd hpe⟩
  · obtain ⟨e, he, h1, h2⟩ := row_spec decay t
    exact ⟨e, he, h1.symm, by rw [h2, add_sub_cancel_right]⟩
  · change (((table dt E)[t].2 j : Nat) : K) = _
    rw [table_value (p := (table dt E)[t]) (List.getElem_mem _) j.2, count_keys]
    congr 2
    apply List.filter_congr
    intro e _
    rw [decide_eq_decide]
    change e.seq = (tables dt decay E).seq t ∧ bin dt e.time = (tables dt decay E).time t + start dt E ((tables dt decay E).seq t) ∧ _ ↔ _
    constructor
    · rintro ⟨h1, h2, h3⟩
      exact ⟨h1, by rw [h2, h1, add_sub_cancel_right], h3⟩
    · rintro ⟨h1, h2, h3⟩
      exact ⟨h1, by rw [← h2, ← h1, sub_add_cancel], h3⟩

omit [Field K] [LinearOrder K] [IsStrictOrderedRing K] [FloorRing K] in
/-- C153: the columns are the types that occur, each once and in order. -/
theorem c153_names (E : List (Event K)) : (names E).Pairwise (· < ·) ∧ ∀ x, x ∈ names E ↔ ∃ e ∈ E, e.type = x := by
  refine ⟨?_, fun x => mem_names⟩
  have h := List.pairwise_insertionSort (· ≤ ·) (E.map fun e => e.type).dedup
  exact (h.and names_nodup).imp fun {a b} h => lt_of_le_of_ne h.1 h.2

/-- C153: the rows are in the order of sequence and time, no two alike. -/
theorem c153_rows (dt : Option K) (decay : K) (E : List (Event K)) {a b : Fin (table dt E).length} (h : a < b) :
    (tables dt decay E).seq a < (tables dt decay E).seq b ∨
      (tables dt decay E).seq a = (tables dt decay E).seq b ∧ (tables dt decay E).time a < (tables dt decay E).time b := by
  have hs : ((table dt E).map Prod.fst).Pairwise rowLt := fold_sorted shifted_sorted
  rw [List.pairwise_map, List.pairwise_iff_getElem] at hs
  exact hs a b a.2 b.2 h

/-- C65, C153: the tables meet the conditions of `c65_influence`. -/
theorem c153_influence (dt : Option K) (decay : K) (E : List (Event K)) {kappa : K → K} (hk : ∀ x y, x ≤ y → kappa y ≤ kappa x)
    (t : Fin (table dt E).length) (j : Fin (names E).length) :
    influence (tables dt decay E) kappa t j =
      ∑ s with s ≤ t ∧ (tables dt decay E).seq s = (tables dt decay E).seq t ∧
        1 / 10000 ≤ kappa ((tables dt decay E).time t - (tables dt decay E).time s),
        (tables dt decay E).X s j * kappa ((tables dt decay E).time t - (tables dt decay E).time s) := by
  have hseq : ∀ a b : Fin (table dt E).length, a ≤ b → (tables dt decay E).seq a ≤ (tables dt decay E).seq b := by
    intro a b h
    rcases h.eq_or_lt with rfl | h
    · exact le_rfl
    · rcases c153_rows dt decay E h with h | h
      · exact h.le
      · exact h.1.le
  refine c65_influence (fun a b c hab hbc hac => ?_) (fun a b hab he => ?_) hk t j
  · exact le_antisymm (hac ▸ hseq b c hbc) (hseq a b hab)
  · rcases hab.eq_or_lt with rfl | h
    · exact le_rfl
    · rcases c153_rows dt decay E h with h | h
      · exact absurd he h.ne
      · exact h.2.le

omit [IsStrictOrderedRing K] in
theorem last_spec {e : Event K} (he : e ∈ E) : bin dt e.time - start dt E e.seq ≤ lastTime dt E e.seq ∧
    ∃ e' ∈ E, e'.seq = e.seq ∧ bin dt e'.time - start dt E e.seq = lastTime dt E e.seq := by
  unfold lastTime
  set l := ((shifted dt E).filter fun r => r.1.1 == e.seq).map fun r => r.1.2 with hl
  have hmem : ∀ x, x ∈ l ↔ ∃ e' ∈ E, e'.seq = e.seq ∧ bin dt e'.time - start dt E e.seq = x := by
    intro x
    rw [hl, List.mem_map]
    constructor
    · rintro ⟨r, hr, rfl⟩
      rw [List.mem_filter] at hr
      obtain ⟨e', h1, rfl⟩ := mem_shifted.1 hr.1
      have h2 : e'.seq = e.seq := by simpa using hr.2
      exact ⟨e', h1, h2, by rw [h2]⟩
    · rintro ⟨e', h1, h2, h3⟩
      exact ⟨_, List.mem_filter.2 ⟨mem_shifted.2 ⟨e', h1, rfl⟩, by simp [h2]⟩, by simp only [h2]; exact h3⟩
  obtain ⟨x, hx⟩ : ∃ x, l.max? = some x := by
    rcases h : l.max? with _ | x
    · rw [List.max?_eq_none_iff] at h
      have := (hmem _).2 ⟨e, he, rfl, rfl⟩
      rw [h] at this
      simp at this
    · exact ⟨x, rfl⟩
  have hx' := List.max?_eq_some_iff.1 hx
  rw [hx]
  exact ⟨hx'.2 _ ((hmem _).2 ⟨e, he, rfl, rfl⟩), (hmem x).1 hx'.1⟩

/-- C153: no row is after the last time of its sequence, and the last time is that of one of its rows. -/
theorem c153_last (dt : Option K) (decay : K) (E : List (Event K)) (t : Fin (table dt E).length) :
    let D := tables dt decay E
    0 ≤ D.time t ∧ D.time t ≤ D.last (D.seq t) ∧ ∃ s, D.seq s = D.seq t ∧ D.time s = D.last (D.seq t) := by
  intro D
  obtain ⟨e, he, h1, h2⟩ := row_spec decay t
  obtain ⟨k1, e', he', k2, k3⟩ := last_spec (dt := dt) he
  have h3 : D.time t = bin dt e.time - start dt E e.seq := by rw [h2, add_sub_cancel_right]
  refine ⟨?_, ?_, ?_⟩
  · rw [h3]
    exact sub_nonneg.2 (start_spec he).1
  · rw [h3, ← h1]
    exact k1
  · have h : (e'.seq, bin dt e'.time - start dt E e'.seq) ∈ (table dt E).map Prod.fst := by
      unfold table
      rw [fold_keys]
      exact List.mem_map.2 ⟨_, mem_shifted.2 ⟨e', he', rfl⟩, rfl⟩
    obtain ⟨p, hp, hpe⟩ := List.mem_map.1 h
    obtain ⟨s, hs, rfl⟩ := List.getElem_of_mem hp
    have hs1 : D.seq ⟨s, hs⟩ = e'.seq := congrArg Prod.fst hpe
    have hs2 : D.time ⟨s, hs⟩ = bin dt e'.time - start dt E e'.seq := congrArg Prod.snd hpe
    exact ⟨⟨s, hs⟩, by rw [hs1, k2, h1], by rw [hs2, k2, k3, h1]; rfl⟩

/-- C153: the total time is never negative, and positive exactly if some sequence has events at two time stamps. -/
theorem c153_time (dt : Option K) (decay : K) (E : List (Event K)) :
    0 ≤ (tables dt decay E).T ∧ (0 < (tables dt decay E).T ↔ ∃ e ∈ E, ∃ e' ∈ E, e.seq = e'.seq ∧ bin dt e.time ≠ bin dt e'.time) := by
  have h0 : ∀ e ∈ E, 0 ≤ lastTime dt E e.seq := fun e he => (sub_nonneg.2 (start_spec he).1).trans (last_spec he).1
  have hall : ∀ x ∈ (E.map fun e => e.seq).dedup.map (lastTime dt E), 0 ≤ x := by
    intro x hx
    obtain ⟨s, hs, rfl⟩ := List.mem_map.1 hx
    obtain ⟨e, he, rfl⟩ := List.mem_map.1 (List.mem_dedup.1 hs)
    exact h0 e he
  have hT : (tables dt decay E).T = ((E.map fun e => e.seq).dedup.map (lastTime dt E)).sum := rfl
  have hnn : 0 ≤ (tables dt decay E).T := by rw [hT]; exact List.sum_nonneg hall
  refine ⟨hnn, ⟨fun h => ?_, ?_⟩⟩
  · by_contra hc
    push Not at hc
    have : (tables dt decay E).T = 0 := by
      rw [hT]
      refine List.sum_eq_zero fun x hx => ?_
      obtain ⟨s, hs, rfl⟩ := List.mem_map.1 hx
      obtain ⟨e, he, rfl⟩ := List.mem_map.1 (List.mem_dedup.1 hs)
      obtain ⟨-, e1, h1, h2, h3⟩ := last_spec (dt := dt) he
      obtain ⟨-, e2, k1, k2, k3⟩ := start_spec (dt := dt) he
      rw [← h3, ← k3, hc e1 h1 e2 k1 (h2.trans k2.symm), sub_self]
    exact h.ne' this
  · rintro ⟨e, he, e', he', hs, hb⟩
    have hpos : 0 < lastTime dt E e.seq := by
      have a1 := (start_spec (dt := dt) he).1
      have a2 := (start_spec (dt := dt) he').1
      have b1 := (last_spec (dt := dt) he).1
      have b2 := (last_spec (dt := dt) he').1
      rw [← hs] at a2 b2
      rcases lt_or_gt_of_ne hb with h | h <;> linarith
    rw [hT]
    refine lt_of_lt_of_le hpos (List.single_le_sum hall _ (List.mem_map.2 ⟨e.seq, List.mem_dedup.2 (List.mem_map.2 ⟨e, he, rfl⟩), rfl⟩))

/-- C153: the entries of a column add up to the number of events of its type. -/
theorem c153_total (dt : Option K) (decay : K) (E : List (Event K)) (j : Fin (names E).length) :
    ∑ t, (tables dt decay E).X t j = ((E.filter fun e => decide (e.type = (names E)[j])).length : K) := by
  obtain ⟨first, -, h2, -, h4⟩ := c153_table dt decay E
  simp only [h4]
  rw [← Nat.cast_sum]
  congr 1
  have key : ∀ l : List (Event K), (∀ e ∈ l, e ∈ E) → ∑ t, (l.filter fun e => decide (e.seq = (tables dt decay E).seq t ∧
      bin dt e.time - first e.seq = (tables dt decay E).time t ∧ e.type = (names E)[j])).length =
      (l.filter fun e => decide (e.type = (names E)[j])).length := by
    intro l hl
    induction l with
    | nil => simp
    | cons e l ih =>
      have ih := ih fun e' he' => hl e' (List.mem_cons_of_mem _ he')
      obtain ⟨t0, ht1, ht2⟩ := h2 e (hl e List.mem_cons_self)
      have uniq : ∀ t, e.seq = (tables dt decay E).seq t ∧ bin dt e.time - first e.seq = (tables dt decay E).time t → t = t0 := by
        rintro t ⟨a, b⟩
        rcases lt_trichotomy t t0 with h | h | h
        · rcases c153_rows dt decay E h with c | c
          · exact absurd (a.symm.trans ht1.symm) c.ne
          · exact absurd (b.symm.trans ht2.symm) c.2.ne
        · exact h
        · rcases c153_rows dt decay E h with c | c
          · exact absurd (ht1.trans a) c.ne
          · exact absurd (ht2.trans b) c.2.ne
      simp only [List.filter_cons]
      by_cases hty : e.type = (names E)[j]
      · have : ∀ t, (if decide (e.seq = (tables dt decay E).seq t ∧ bin dt e.time - first e.seq = (tables dt decay E).time t ∧ e.type = (names E)[j]) = true then
            e :: l.filter fun e => decide (e.seq = (tables dt decay E).seq t ∧ bin dt e.time - first e.seq = (tables dt decay E).time t ∧ e.type = (names E)[j])
          else l.filter fun e => decide (e.seq = (tables dt decay E).seq t ∧ bin dt e.time - first e.seq = (tables dt decay E).time t ∧ e.type = (names E)[j])).length =
          (l.filter fun e => decide (e.seq = (tables dt decay E).seq t ∧ bin dt e.time - first e.seq = (tables dt decay E).time t ∧ e.type = (names E)[j])).length +
            if t = t0 then 1 else 0 := by
          intro t
          by_cases ht : t = t0
          · subst ht
            rw [if_pos (by simp only [decide_eq_true_eq]; exact ⟨ht1.symm, ht2.symm, hty⟩), if_pos rfl, List.length_cons]
          · rw [if_neg (by simp only [decide_eq_true_eq]; exact fun h => ht (uniq t ⟨h.1, h.2.1⟩)), if_neg ht, add_zero]
        rw [Finset.sum_congr rfl fun t _ => this t, Finset.sum_add_distrib, ih]
        simp [hty]
      · simp only [hty, and_false, decide_false, Bool.false_eq_true, if_false]
        simpa [hty] using ih
  exact key E fun e he => he

/-- C153: for times that are not negative the time stamp is the start of the interval the time lies in. -/
theorem c153_bin {d : K} (hd : 0 < d) {t : K} (ht : 0 ≤ t) : bin (some d) t ≤ t ∧ t < bin (some d) t + d ∧ ∃ k : Nat, bin (some d) t = k * d := by
  have h0 : 0 ≤ t / d := div_nonneg ht hd.le
  simp only [bin, trunc, if_pos h0]
  refine ⟨?_, ?_, ⌊t / d⌋.toNat, ?_⟩
  · rw [← le_div_iff₀ hd]
    exact Int.floor_le _
  · rw [← add_one_mul, ← div_lt_iff₀ hd]
    exact Int.lt_floor_add_one _
  · congr 1
    rw [← Int.cast_natCast, Int.toNat_of_nonneg (Int.floor_nonneg.2 h0)]

/-- C153: "all intervals have the same length" is false where times are negative: the time stamp zero stands for all times between
minus one and one interval. -/
theorem c153_bin_false {d : K} (hd : 0 < d) (t : K) : bin (some d) t = 0 ↔ |t| < d := by
  simp only [bin, trunc]
  rw [mul_eq_zero, or_iff_left hd.ne']
  split
  · rename_i h
    have ht : 0 ≤ t := by
      by_contra hc
      exact absurd h (not_le.2 (div_neg_of_neg_of_pos (not_le.1 hc) hd))
    rw [Int.cast_eq_zero, Int.floor_eq_zero_iff, Set.mem_Ico, abs_of_nonneg ht, div_lt_one hd]
    exact ⟨fun h => h.2, fun h' => ⟨h, h'⟩⟩
  · rename_i h
    have ht : t < 0 := by
      by_contra hc
      exact h (div_nonneg (not_lt.1 hc) hd.le)
    rw [Int.cast_eq_zero, Int.ceil_eq_iff, abs_of_neg ht]
    constructor
    · rintro ⟨h1, -⟩
      rw [Int.cast_zero, zero_sub, lt_div_iff₀ hd] at h1
      linarith
    · intro h1
      refine ⟨?_, by simpa using (not_le.1 h).le⟩
      rw [Int.cast_zero, zero_sub, lt_div_iff₀ hd]
      linarith

end

/-- C153: the tables of events some sequence of which has two time stamps meet the conditions under which the fits end (C60, C65). -/
theorem c153_valid {dt : Option ℝ} (hdt : ∀ d, dt = some d → 0 < d) {decay : ℝ} (hdecay : 0 < decay) {E : List (Event ℝ)}
    (h : ∃ e ∈ E, ∃ e' ∈ E, e.seq = e'.seq ∧ bin dt e.time ≠ bin dt e'.time) : Valid (tables dt decay E) where
  nonneg t j := Nat.cast_nonneg _
  occurs j := by
    rw [c153_total]
    obtain ⟨e, he, hj⟩ := mem_names.1 (List.getElem_mem j.2)
    exact Nat.cast_pos.2 (List.length_pos_of_mem (List.mem_filter.2 ⟨he, by simpa using hj⟩))
  last t := (c153_last dt decay E t).2.1
  T := (c153_time dt decay E).2.2 h
  decay := hdecay
  dt := hdt

/-- Two sequences. The first has three events of type 7 and two of type 3; two of them share the interval from 2 to 4. -/
def exEvents : List (Event ℚ) := [⟨1, 7/2, 7⟩, ⟨1, 2, 7⟩, ⟨1, 9, 3⟩, ⟨0, 5, 3⟩, ⟨1, 11/2, 7⟩, ⟨1, 3, 3⟩]

example : names exEvents = [3, 7] ∧ (table (some 2) exEvents).map Prod.fst = [(0, 0), (1, 0), (1, 2), (1, 6)] ∧
    (table (some 2) exEvents).map (fun p => [p.2 0, p.2 1]) = [[1, 0], [1, 2], [0, 1], [1, 0]] ∧
    (tables (some 2) 1 exEvents).T = 6 := by
  decide +kernel

/-- With one event in each sequence the total time, by which `mu` is divided, is zero. -/
example : (tables none 1 [⟨0, 5, 3⟩, ⟨1, 2, 7⟩] : Data ℚ _ _).T = 0 := by
  decide +kernel

end Cdmir.SHP
