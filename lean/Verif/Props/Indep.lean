import Verif.Model.Indep
import Verif.Props.Search

/-! Properties C34, C35, and C32 with the d-separation oracle of the library. -/

namespace Cdmir
open Graph Spec

/-! ### keys -/

/-- Characters of a rendered number. -/
def isNum (c : Char) : Bool := c.isDigit || c = '-'

theorem pyStr_num (n : Int) : ∀ c ∈ pyStr n, isNum c = true := by
  intro c hc
  unfold pyStr at hc
  unfold isNum
  have hd : ∀ c ∈ Nat.toDigits 10 n.natAbs, c.isDigit = true := fun c h =>
    Nat.isDigit_of_mem_toDigits (by decide) (by decide) h
  split_ifs at hc
  · rcases List.mem_cons.1 hc with rfl | hc
    · rfl
    · rw [hd c hc]; rfl
  · rw [hd c hc]; rfl

theorem pyStr_ne_nil (n : Int) : pyStr n ≠ [] := by
  unfold pyStr
  split_ifs <;> simp

theorem toDigits_inj {m n : Nat} (h : Nat.toDigits 10 m = Nat.toDigits 10 n) : m = n := by
  rw [← Nat.ofDigitChars_toDigits (b := 10) (n := m) (by decide) (by decide), h,
    Nat.ofDigitChars_toDigits (by decide) (by decide)]

theorem pyStr_inj {m n : Int} (h : pyStr m = pyStr n) : m = n := by
  unfold pyStr at h
  have neg : ∀ k : Nat, '-' ∉ Nat.toDigits 10 k := by
    intro k hk
    have := Nat.isDigit_of_mem_toDigits (b := 10) (by decide) (by decide) hk
    revert this; decide
  split_ifs at h with h1 h2 h2
  · have := toDigits_inj (List.cons.inj h).2; omega
  · exact absurd (h ▸ List.mem_cons_self) (neg _)
  · exact absurd (h.symm ▸ List.mem_cons_self) (neg _)
  · have := toDigits_inj h; omega

theorem split_num {a b s t : List Char} {c d : Char} (ha : ∀ x ∈ a, isNum x = true) (hb : ∀ x ∈ b, isNum x = true)
    (hc : isNum c = false) (hd : isNum d = false) (h : a ++ c :: s = b ++ d :: t) : a = b ∧ c = d ∧ s = t := by
  induction a generalizing b with
  | nil =>
    cases b with
    | nil => simpa using h
    | cons y b =>
      simp only [List.nil_append, List.cons_append, List.cons.injEq] at h
      have := hb y (by simp)
      rw [← h.1, hc] at this; cases this
  | cons x a ih =>
    cases b with
    | nil =>
      simp only [List.nil_append, List.cons_append, List.cons.injEq] at h
      have := ha x (by simp)
      rw [h.1, hd] at this; cases this
    | cons y b =>
      simp only [List.cons_append, List.cons.injEq] at h
      obtain ⟨h1, h2⟩ := ih (fun z hz => ha z (by simp [hz])) (fun z hz => hb z (by simp [hz])) h.2
      exact ⟨by rw [h.1, h1], h2⟩

theorem joinComma_inj {l l' : List Int} (h : joinComma (l.map pyStr) ++ [')'] = joinComma (l'.map pyStr) ++ [')']) : l = l' := by
  have nonnil : ∀ (a : Int) (t : List Char), pyStr a ++ t ≠ [')'] := by
    intro a t ht
    have hn := pyStr_num a
    cases e : pyStr a with
    | nil => exact pyStr_ne_nil a e
    | cons c r =>
      rw [e] at ht hn
      simp only [List.cons_append, List.cons.injEq] at ht
      have := hn c (by simp)
      rw [ht.1] at this
      revert this; decide
  induction l generalizing l' with
  | nil =>
    cases l' with
    | nil => rfl
    | cons b l' =>
      exfalso
      cases l' with
      | nil => exact nonnil b [')'] h.symm
      | cons c l' =>
        simp only [List.map_cons, List.map_nil, joinComma, List.nil_append, List.append_assoc] at h
        exact nonnil b _ h.symm
  | cons a l ih =>
    cases l' with
    | nil =>
      exfalso
      cases l with
      | nil => exact nonnil a [')'] h
      | cons c l =>
        simp only [List.map_cons, List.map_nil, joinComma, List.nil_append, List.append_assoc] at h
        exact nonnil a _ h
    | cons b l' =>
      cases l with
      | nil =>
        cases l' with
        | nil =>
          simp only [List.map_cons, List.map_nil, joinComma] at h
          rw [pyStr_inj (List.append_cancel_right h)]
        | cons c l' =>
          simp only [List.map_cons, List.map_nil, joinComma, List.append_assoc, List.cons_append] at h
          have := (split_num (pyStr_num a) (pyStr_num b) rfl rfl h).2.1
          exact absurd this (by decide)
      | cons c l =>
        cases l' with
        | nil =>
          simp only [List.map_cons, List.map_nil, joinComma, List.append_assoc, List.cons_append] at h
          have := (split_num (pyStr_num a) (pyStr_num b) rfl rfl h).2.1
          exact absurd this (by decide)
        | cons d l' =>
          simp only [List.map_cons, joinComma, List.append_assoc, List.cons_append] at h
          obtain ⟨h1, _, h2⟩ := split_num (pyStr_num a) (pyStr_num b) rfl rfl h
          simp only [List.cons.injEq, true_and] at h2
          rw [pyStr_inj h1, ih (l' := d :: l') h2]

/-- Two queries with the same unordered pair and the same conditioning multiset. -/
def SameQuery (x y : Int) (z : Option (List Int)) (x' y' : Int) (z' : Option (List Int)) : Prop :=
  ((x = x' ∧ y = y') ∨ (x = y' ∧ y = x')) ∧
    match z, z' with
    | none, none => True
    | some z, some z' => z.Perm z'
    | _, _ => False

/-- **C34, keys.** Equal keys exactly for the same unordered pair and the same conditioning multiset. -/
theorem c34_key_iff (x y : Int) (z : Option (List Int)) (x' y' : Int) (z' : Option (List Int)) :
    cacheKey x y z = cacheKey x' y' z' ↔ SameQuery x y z x' y' z' := by
  have sw : ∀ a b : Int, (if a > b then (b, a) else (a, b)) = (min a b, max a b) := by
    intro a b; split_ifs <;> simp <;> omega
  have mm : (min x y = min x' y' ∧ max x y = max x' y') ↔ ((x = x' ∧ y = y') ∨ (x = y' ∧ y = x')) := by omega
  have parse : ∀ {p q p' q' : Int} {s t : List Char} {c d : Char} (_ : isNum c = false) (_ : isNum d = false),
      'I' :: '(' :: pyStr p ++ ',' :: ' ' :: pyStr q ++ c :: s = 'I' :: '(' :: pyStr p' ++ ',' :: ' ' :: pyStr q' ++ d :: t →
      p = p' ∧ q = q' ∧ c = d ∧ s = t := by
    intro p q p' q' s t c d hc hd h
    simp only [List.cons_append, List.append_assoc, List.cons.injEq, true_and] at h
    obtain ⟨h1, _, h2⟩ := split_num (pyStr_num p) (pyStr_num p') rfl rfl h
    simp only [List.cons.injEq, true_and] at h2
    obtain ⟨h3, h4, h5⟩ := split_num (pyStr_num q) (pyStr_num q') hc hd h2
    exact ⟨pyStr_inj h1, pyStr_inj h3, h4, h5⟩
  unfold cacheKey SameQuery
  rw [sw, sw, ← mm]
  cases z with
  | none =>
    cases z' with
    | none =>
      simp only [and_true]
      constructor
      · intro h
        obtain ⟨h1, h2, _⟩ := parse rfl rfl h
        exact ⟨h1, h2⟩
      · rintro ⟨h1, h2⟩; rw [h1, h2]
    | some z' =>
      simp only [and_false, iff_false]
      intro h
      have h : 'I' :: '(' :: pyStr (min x y) ++ ',' :: ' ' :: pyStr (max x y) ++ ')' :: [] =
        'I' :: '(' :: pyStr (min x' y') ++ ',' :: ' ' :: pyStr (max x' y') ++ ' ' :: ('|' :: ' ' ::
          stringizeList (some (z'.insertionSort (· ≤ ·))) ++ [')']) := by simpa using h
      have := (parse rfl rfl h).2.2.1
      revert this; decide
  | some z =>
    cases z' with
    | none =>
      simp only [and_false, iff_false]
      intro h
      have h : 'I' :: '(' :: pyStr (min x y) ++ ',' :: ' ' :: pyStr (max x y) ++ ' ' :: ('|' :: ' ' ::
          stringizeList (some (z.insertionSort (· ≤ ·))) ++ [')']) =
        'I' :: '(' :: pyStr (min x' y') ++ ',' :: ' ' :: pyStr (max x' y') ++ ')' :: [] := by simpa using h
      have := (parse rfl rfl h).2.2.1
      revert this; decide
    | some z' =>
      constructor
      · intro h
        have h : 'I' :: '(' :: pyStr (min x y) ++ ',' :: ' ' :: pyStr (max x y) ++ ' ' :: ('|' :: ' ' ::
            stringizeList (some (z.insertionSort (· ≤ ·))) ++ [')']) =
          'I' :: '(' :: pyStr (min x' y') ++ ',' :: ' ' :: pyStr (max x' y') ++ ' ' :: ('|' :: ' ' ::
            stringizeList (some (z'.insertionSort (· ≤ ·))) ++ [')']) := by simpa using h
        obtain ⟨h1, h2, _, h3⟩ := parse rfl rfl h
        simp only [List.cons_append, List.cons.injEq, true_and, stringizeList] at h3
        have h4 := joinComma_inj h3
        exact ⟨⟨h1, h2⟩, (List.perm_insertionSort (· ≤ ·) z).symm.trans (h4 ▸ List.perm_insertionSort (· ≤ ·) z')⟩
      · rintro ⟨⟨h1, h2⟩, h3⟩
        have : z.insertionSort (· ≤ ·) = z'.insertionSort (· ≤ ·) :=
          (((List.perm_insertionSort (· ≤ ·) z).trans h3).trans (List.perm_insertionSort (· ≤ ·) z').symm).eq_of_pairwise'
            (List.pairwise_insertionSort _ z) (List.pairwise_insertionSort _ z')
        simp only [h1, h2, this]

/-! ### the cache -/

section
variable {α V : Type} [DecidableEq α] {truthy : V → Bool} {cal : Int → Int → Option (List Int) → Except Err V}
variable {names : List α} {c c' : Cache V}

/-- Every entry of the cache is an answer of `cal` to a query with that key. -/
def CacheInv (cal : Int → Int → Option (List Int) → Except Err V) (c : Cache V) : Prop :=
  ∀ key v, dget c key = some v → ∃ x y z, key = cacheKey x y z ∧ cal x y z = .ok v

theorem CacheInv.nil : CacheInv cal [] := by intro key v h; simp [dget] at h

omit [DecidableEq α] in
theorem CacheInv.set (hc : CacheInv cal c) {x y : Int} {z : Option (List Int)} {v : V} (hv : cal x y z = .ok v) :
    CacheInv cal (dset c (cacheKey x y z) v) := by
  intro key w hw
  rw [dget_dset] at hw
  split_ifs at hw with he
  · cases hw; exact ⟨x, y, z, he.symm, hv⟩
  · exact hc key w hw

omit [DecidableEq α] in
/-- An answer comes from `cal` on a query with the same key; an exception comes from `cal` on this very query. -/
theorem itest_spec (hc : CacheInv cal c) (x y : Int) (z : Option (List Int)) :
    (∃ v c' x' y' z', itest truthy cal c x y (z.map ZArg.reiterable) = .ok (v, c') ∧ CacheInv cal c' ∧
      cacheKey x' y' z' = cacheKey x y z ∧ cal x' y' z' = .ok v) ∨
    ∃ e, itest truthy cal c x y (z.map ZArg.reiterable) = .error e ∧ cal x y z = .error e := by
  have e1 : (z.map ZArg.reiterable).map ZArg.first = z := by cases z <;> rfl
  have e2 : (z.map ZArg.reiterable).map ZArg.later = z := by cases z <;> rfl
  have miss : (∃ v c' x' y' z', (do let v ← cal x y z; pure (v, dset c (cacheKey x y z) v) : Except Err (V × Cache V)) = .ok (v, c') ∧
        CacheInv cal c' ∧ cacheKey x' y' z' = cacheKey x y z ∧ cal x' y' z' = .ok v) ∨
      ∃ e, (do let v ← cal x y z; pure (v, dset c (cacheKey x y z) v) : Except Err (V × Cache V)) = .error e ∧
        cal x y z = .error e := by
    cases hv : cal x y z with
    | error e => exact Or.inr ⟨e, rfl, rfl⟩
    | ok v => exact Or.inl ⟨v, _, x, y, z, rfl, hc.set hv, rfl, hv⟩
  unfold itest
  simp only [e1, e2]
  cases hd : dget c (cacheKey x y z) with
  | none => exact miss
  | some v =>
    simp only
    split_ifs with ht
    · obtain ⟨x', y', z', hk, hv⟩ := hc _ _ hd
      exact Or.inl ⟨v, c, x', y', z', rfl, hc, hk.symm, hv⟩
    · exact miss

/-- The answer of the class without its cache: `cal_stats` on the ids of the names. -/
def uncached (cal : Int → Int → Option (List Int) → Except Err V) (names : List α) (x y : α) (z : Option (List α)) :
    Except Err V := do
  let i ← dgetE (nameId names) x
  let j ← dgetE (nameId names) y
  match z with
  | none => cal i j none
  | some z =>
    let zs ← z.mapM (dgetE (nameId names))
    cal i j (some zs)

/-- A call on the object: by names through `test`, or by ids through `itest` (with a re-iterable `z_ids`). -/
inductive Call (α : Type) where
  | test (x y : α) (z : Option (List α))
  | itest (x y : Int) (z : Option (List Int))

/-- The cache after a call; a raising call leaves it as it is. -/
def Call.run (truthy : V → Bool) (cal : Int → Int → Option (List Int) → Except Err V) (names : List α) (c : Cache V) :
    Call α → Cache V
  | .test x y z => match citTest truthy cal names c x y z with
    | .ok r => r.2
    | .error _ => c
  | .itest x y z => match Cdmir.itest truthy cal c x y (z.map ZArg.reiterable) with
    | .ok r => r.2
    | .error _ => c

/-- The ids of the conditioning names. -/
def Resolved (names : List α) (z : Option (List α)) (zs : Option (List Int)) : Prop :=
  match z, zs with
  | none, none => True
  | some z, some zs => z.mapM (dgetE (nameId names)) = .ok zs
  | _, _ => False

theorem citTest_eq (c : Cache V) (x y : α) (z : Option (List α)) {i j : Int} {zs : Option (List Int)}
    (hi : dgetE (nameId names) x = .ok i) (hj : dgetE (nameId names) y = .ok j) (hz : Resolved names z zs) :
    citTest truthy cal names c x y z = Cdmir.itest truthy cal c i j (zs.map ZArg.reiterable) ∧
    uncached cal names x y z = cal i j zs := by
  unfold citTest uncached
  rw [hi, hj]
  unfold Resolved at hz
  cases z with
  | none =>
    cases zs with
    | none => exact ⟨rfl, rfl⟩
    | some zs => exact hz.elim
  | some z =>
    cases zs with
    | none => exact hz.elim
    | some zs =>
      simp only at hz
      simp only [bind, Except.bind, hz, Option.map_some, and_self]

/-- Either the names resolve, or both the cached and the uncached call raise the same exception. -/
theorem resolve (names : List α) (x y : α) (z : Option (List α)) :
    (∃ i j zs, dgetE (nameId names) x = .ok i ∧ dgetE (nameId names) y = .ok j ∧ Resolved names z zs) ∨
    ∃ e, ∀ (truthy : V → Bool) (cal : Int → Int → Option (List Int) → Except Err V) (c : Cache V),
      citTest truthy cal names c x y z = .error e ∧ uncached cal names x y z = .error e := by
  cases hi : dgetE (nameId names) x with
  | error e =>
    right
    refine ⟨e, fun _ _ _ => ?_⟩
    unfold citTest uncached
    rw [hi]
    exact ⟨rfl, rfl⟩
  | ok i =>
    cases hj : dgetE (nameId names) y with
    | error e =>
      right
      refine ⟨e, fun _ _ _ => ?_⟩
      unfold citTest uncached
      rw [hi, hj]
      exact ⟨rfl, rfl⟩
    | ok j =>
      cases z with
      | none => exact Or.inl ⟨i, j, none, rfl, rfl, trivial⟩
      | some z =>
        cases hz : z.mapM (dgetE (nameId names)) with
        | error e =>
          right
          refine ⟨e, fun _ _ _ => ?_⟩
          unfold citTest uncached
          rw [hi, hj]
          simp only [bind, Except.bind, hz, and_self]
        | ok zs => exact Or.inl ⟨i, j, some zs, rfl, rfl, hz⟩

theorem CacheInv.run (hc : CacheInv cal c) (a : Call α) : CacheInv cal (a.run truthy cal names c) := by
  have ht : ∀ (x y : Int) (z : Option (List Int)), CacheInv cal (match Cdmir.itest truthy cal c x y (z.map ZArg.reiterable) with
      | .ok r => r.2
      | .error _ => c) := by
    intro x y z
    rcases itest_spec (truthy := truthy) hc x y z with ⟨v, c', _, _, _, e, h, _⟩ | ⟨e, h, _⟩
    · rw [e]; exact h
    · rw [h]; exact hc
  cases a with
  | test x y z =>
    unfold Call.run
    simp only
    rcases resolve (V := V) names x y z with ⟨i, j, zs, hi, hj, hz⟩ | ⟨e, h⟩
    · rw [(citTest_eq c x y z hi hj hz).1]; exact ht i j zs
    · rw [(h _ _ _).1]; exact hc
  | itest x y z => exact ht x y z

theorem CacheInv.history (hc : CacheInv cal c) (hist : List (Call α)) :
    CacheInv cal (hist.foldl (Call.run truthy cal names) c) := by
  induction hist generalizing c with
  | nil => exact hc
  | cons a t ih => exact ih (hc.run a)

/-- **C34.** After any history of calls a symmetric statistic answers (or raises) as it would without the cache. -/
theorem c34_cache_transparent (hsym : ∀ x y z x' y' z', SameQuery x y z x' y' z' → cal x y z = cal x' y' z')
    (hist : List (Call α)) (x y : α) (z : Option (List α)) :
    (citTest truthy cal names (hist.foldl (Call.run truthy cal names) []) x y z).map Prod.fst = uncached cal names x y z := by
  have hc := (CacheInv.nil (cal := cal)).history (truthy := truthy) (names := names) hist
  rcases resolve (V := V) names x y z with ⟨i, j, zs, hi, hj, hz⟩ | ⟨e, h⟩
  · rw [(citTest_eq _ x y z hi hj hz).1, (citTest_eq (truthy := truthy) [] x y z hi hj hz).2]
    rcases itest_spec (truthy := truthy) hc i j zs with ⟨v, c', x', y', z', e, _, hk, hv⟩ | ⟨e, h, hv⟩
    · rw [e, ← hsym _ _ _ _ _ _ ((c34_key_iff _ _ _ _ _ _).1 hk), hv]; rfl
    · rw [h, hv]; rfl
  · rw [(h _ _ _).1, (h truthy _ []).2]; rfl

/-- **C34, any statistic.** Without symmetry the answer is still the answer of `cal_stats` to a query with the same
unordered pair and the same conditioning multiset. -/
theorem c34_cache_any (hist : List (Call α)) (x y : Int) (z : Option (List Int)) {v : V} {c' : Cache V}
    (h : itest truthy cal (hist.foldl (Call.run truthy cal names) []) x y (z.map ZArg.reiterable) = .ok (v, c')) :
    ∃ x' y' z', SameQuery x' y' z' x y z ∧ cal x' y' z' = .ok v := by
  have hc := (CacheInv.nil (cal := cal)).history (truthy := truthy) (names := names) hist
  rcases itest_spec (truthy := truthy) hc x y z with ⟨v', c'', x', y', z', e, _, hk, hv⟩ | ⟨e, he, _⟩
  · rw [h] at e; cases e
    exact ⟨x', y', z', (c34_key_iff _ _ _ _ _ _).1 hk, hv⟩
  · rw [h] at he; cases he

end

/-- **C41, what holds.** The full claim is that `itest` answers as `cal_stats` on the members of `z_ids`, whatever kind of
iterable is passed (false for one-shot iterators, `c41_itest_iterator_false`); for re-iterable ones it does. -/
theorem c41_itest_partial {α V : Type} [DecidableEq α] {truthy : V → Bool} {cal : Int → Int → Option (List Int) → Except Err V}
    {names : List α} (hsym : ∀ x y z x' y' z', SameQuery x y z x' y' z' → cal x y z = cal x' y' z')
    (hist : List (Call α)) (x y : Int) (z : List Int) :
    (itest truthy cal (hist.foldl (Call.run truthy cal names) []) x y (some (.reiterable z))).map Prod.fst = cal x y (some z) := by
  have hc := (CacheInv.nil (cal := cal)).history (truthy := truthy) (names := names) hist
  rcases itest_spec (truthy := truthy) hc x y (some z) with ⟨v, c', x', y', z', e, _, hk, hv⟩ | ⟨e, h, hv⟩
  · rw [Option.map_some] at e
    rw [e, ← hsym _ _ _ _ _ _ ((c34_key_iff _ _ _ _ _ _).1 hk), hv]; rfl
  · rw [Option.map_some] at h
    rw [h, hv]; rfl

/-! ### Dsep -/

section
variable {α : Type} [DecidableEq α] {names : List α} {G : Graph α}

/-- The id of a name is a position of that name. -/
theorem nameId_spec (names : List α) (x : α) :
    (x ∈ names → ∃ i : Nat, dgetE (nameId names) x = .ok (i : Int) ∧ names[i]? = some x) ∧
    (x ∉ names → dgetE (nameId names) x = .error .key) := by
  have key : ∀ (l : List α) (k : Nat) (d : Dict α Int),
      dget ((l.zipIdx k).foldl (fun d p => dset d p.1 (p.2 : Int)) d) x =
        if x ∈ l then some ((k + (l.length - 1 - l.reverse.idxOf x) : Nat) : Int) else dget d x := by
    intro l
    induction l using List.reverseRecOn with
    | nil => intro k d; simp
    | append_singleton l a ih =>
      intro k d
      rw [List.zipIdx_append, List.foldl_append, List.zipIdx_singleton]
      simp only [List.foldl_cons, List.foldl_nil, dget_dset, ih, List.mem_append, List.mem_singleton]
      by_cases ha : a = x
      · subst ha
        simp
      · have ha' : ¬ x = a := fun h => ha h.symm
        simp only [ha, ha', if_false, or_false, List.reverse_append, List.reverse_cons, List.reverse_nil, List.nil_append,
          List.singleton_append]
        split_ifs with hx
        · rw [List.idxOf_cons_ne _ ha]
          simp
          omega
        · rfl
  unfold dgetE nameId
  rw [key names 0 []]
  constructor
  · intro hx
    rw [if_pos hx]
    refine ⟨_, rfl, ?_⟩
    have hlt : names.reverse.idxOf x < names.length := by
      rw [← List.length_reverse]; exact List.idxOf_lt_length_iff.2 (by simpa using hx)
    have h1 : names.reverse[names.reverse.idxOf x]? = some x := by
      rw [List.getElem?_eq_getElem (by simpa using hlt), List.getElem_idxOf]
    rw [List.getElem?_reverse hlt] at h1
    rw [Nat.zero_add]; exact h1
  · intro hx
    rw [if_neg hx]; rfl

omit [DecidableEq α] in
theorem pyIndex_nat {i : Nat} {x : α} (h : names[i]? = some x) : pyIndex names (i : Int) = .ok x := by
  unfold pyIndex
  rw [if_neg (by omega : ¬ ((i : Int) < 0)), if_neg (by omega : ¬ ((i : Int) < 0))]
  simp [h]

theorem mapM_nameId {z : List α} (hz : ∀ w ∈ z, w ∈ names) :
    ∃ zs, z.mapM (dgetE (nameId names)) = .ok zs ∧ zs.mapM (pyIndex names) = .ok z := by
  induction z with
  | nil => exact ⟨[], rfl, rfl⟩
  | cons a z ih =>
    obtain ⟨zs, h1, h2⟩ := ih (fun w hw => hz w (by simp [hw]))
    obtain ⟨i, h3, h4⟩ := (nameId_spec names a).1 (hz a (by simp))
    refine ⟨(i : Int) :: zs, ?_, ?_⟩
    · rw [List.mapM_cons, h3, h1]; rfl
    · rw [List.mapM_cons, pyIndex_nat h4, h2]; rfl

omit [DecidableEq α] in
theorem mapM_perm {β : Type} {f : β → Except Err α} {l l' : List β} (hp : l.Perm l') {r : List α} (h : l.mapM f = .ok r) :
    ∃ r', l'.mapM f = .ok r' ∧ r.Perm r' := by
  have key : ∀ (l : List β) (r : List α), l.mapM f = .ok r ↔ List.Forall₂ (fun a b => f a = .ok b) l r := by
    intro l
    induction l with
    | nil => intro r; cases r <;> simp [pure, Except.pure]
    | cons a l ih =>
      intro r
      rw [List.mapM_cons]
      cases ha : f a with
      | error e => cases r <;> simp [bind, Except.bind, ha]
      | ok b =>
        cases hl : l.mapM f with
        | error e =>
          cases r with
          | nil => simp [bind, Except.bind]
          | cons c r =>
            have := (ih r).not
            rw [hl] at this
            simp [bind, Except.bind, ← ih r, hl]
        | ok bs =>
          cases r with
          | nil => simp [bind, Except.bind, pure, Except.pure]
          | cons c r =>
            simp [bind, Except.bind, pure, Except.pure, ha, ← ih r, hl]
  rw [key] at h
  obtain ⟨r', h1, h2⟩ := List.perm_comp_forall₂ hp.symm h
  exact ⟨r', (key _ _).2 h1, h2.symm⟩

/-- The number `Dsep.cal_stats` returns for a truth value. -/
noncomputable def dsepAnswer (p : Prop) : ℚ × ℚ := by classical exact if p then (1, 1) else (0, 0)

/-- `cal_stats` of `Dsep` on positions of known nodes. -/
theorem dsepCal_spec (hG : Reachable .digraph G) {x y : Int} {z : List Int} {a b : α} {l : List α}
    (hx : pyIndex names x = .ok a) (hy : pyIndex names y = .ok b) (hz : z.mapM (pyIndex names) = .ok l)
    (ha : a ∈ G.nodes) (hl : ∀ w ∈ l, w ∈ G.nodes) (hal : a ∉ l) (hbl : b ∉ l) :
    dsepCal names G x y (some z) = .ok (dsepAnswer (DSep (Dir G) a b (fun w => w ∈ l))) := by
  obtain ⟨r, hr, hi⟩ := c09_dsep hG a b l ha hl hal hbl
  unfold dsepCal dsepAnswer
  simp only [hx, hy, hz, bind, Except.bind, hr]
  cases r with
  | true => rw [if_pos (hi.1 rfl)]; rfl
  | false =>
    simp only [Bool.false_eq_true, if_false]
    rw [if_neg (fun h => by have := hi.2 h; simp at this)]; rfl

/-- **C35.** In any state of the cache that calls can produce, `test` of a `Dsep` object answers d-separation. -/
theorem dsep_answers (hG : Reachable .digraph G) {c : Cache (ℚ × ℚ)} (hc : CacheInv (dsepCal names G) c) (x y : α) (z : List α)
    (hx : x ∈ names) (hy : y ∈ names) (hz : ∀ w ∈ z, w ∈ names) (hx' : x ∈ G.nodes) (hy' : y ∈ G.nodes)
    (hz' : ∀ w ∈ z, w ∈ G.nodes) (hxz : x ∉ z) (hyz : y ∉ z) :
    ∃ c', citTest (fun _ => true) (dsepCal names G) names c x y (some z) =
        .ok (dsepAnswer (DSep (Dir G) x y (fun w => w ∈ z)), c') ∧ CacheInv (dsepCal names G) c' := by
  obtain ⟨i, i1, i2⟩ := (nameId_spec names x).1 hx
  obtain ⟨j, j1, j2⟩ := (nameId_spec names y).1 hy
  obtain ⟨zs, z1, z2⟩ := mapM_nameId hz
  rw [(citTest_eq c x y (some z) i1 j1 (zs := some zs) z1).1]
  have hself := dsepCal_spec hG (pyIndex_nat i2) (pyIndex_nat j2) z2 hx' hz' hxz hyz
  rcases itest_spec (truthy := fun _ => true) hc i j (some zs) with ⟨v, c', x', y', z', e, hc', hk, hv⟩ | ⟨e, he, hv⟩
  · refine ⟨c', ?_, hc'⟩
    rw [e]
    congr 2
    have hs := (c34_key_iff _ _ _ _ _ _).1 hk
    cases z' with
    | none => exact hs.2.elim
    | some z' =>
      obtain ⟨hp, hperm⟩ := hs
      obtain ⟨l, hl, hlp⟩ := mapM_perm (hperm.symm) z2
      have hcong : ∀ a b, DSep (Dir G) a b (fun w => w ∈ l) ↔ DSep (Dir G) a b (fun w => w ∈ z) :=
        fun a b => dsep_congr (fun w => hlp.mem_iff.symm) a b
      rcases hp with ⟨rfl, rfl⟩ | ⟨rfl, rfl⟩
      · rw [dsepCal_spec hG (pyIndex_nat i2) (pyIndex_nat j2) hl hx' (fun w hw => hz' w (hlp.mem_iff.2 hw))
          (fun h => hxz (hlp.mem_iff.2 h)) (fun h => hyz (hlp.mem_iff.2 h))] at hv
        rw [← Except.ok.inj hv, hcong]
      · rw [dsepCal_spec hG (pyIndex_nat j2) (pyIndex_nat i2) hl hy' (fun w hw => hz' w (hlp.mem_iff.2 hw))
          (fun h => hyz (hlp.mem_iff.2 h)) (fun h => hxz (hlp.mem_iff.2 h))] at hv
        rw [← Except.ok.inj hv, hcong]
        congr 1
        exact propext ⟨DSep.symm, DSep.symm⟩
  · rw [hself] at hv; cases hv

theorem c35_dsep_test (hG : Reachable .digraph G) (hist : List (Call α)) (x y : α) (z : List α)
    (hx : x ∈ names) (hy : y ∈ names) (hz : ∀ w ∈ z, w ∈ names) (hx' : x ∈ G.nodes) (hy' : y ∈ G.nodes)
    (hz' : ∀ w ∈ z, w ∈ G.nodes) (hxz : x ∉ z) (hyz : y ∉ z) :
    ∃ v c', citTest (fun _ => true) (dsepCal names G) names
        (hist.foldl (Call.run (fun _ => true) (dsepCal names G) names) []) x y (some z) = .ok (v, c') ∧
      (DSep (Dir G) x y (fun w => w ∈ z) → v = (1, 1)) ∧ (¬ DSep (Dir G) x y (fun w => w ∈ z) → v = (0, 0)) := by
  obtain ⟨c', h, _⟩ := dsep_answers hG ((CacheInv.nil (cal := dsepCal names G)).history (truthy := fun _ => true) (names := names) hist)
    x y z hx hy hz hx' hy' hz' hxz hyz
  refine ⟨_, c', h, fun hd => ?_, fun hd => ?_⟩
  · unfold dsepAnswer; rw [if_pos hd]
  · unfold dsepAnswer; rw [if_neg hd]

/-- A new `Dsep` object is a perfect oracle for every significance level in `(0, 1]`. -/
theorem dsep_perfect (hG : Reachable .digraph G) {N : List α} (h1 : ∀ w ∈ N, w ∈ names) (h2 : ∀ w ∈ N, w ∈ G.nodes)
    {alpha : ℚ} (ha : 0 < alpha) (ha' : alpha ≤ 1) :
    Perfect (Dir G) N alpha (dsepTest names G) (CacheInv (dsepCal names G)) := by
  rintro u v z ⟨l1, l2, _, l4, _, l6, l7⟩ s hs
  obtain ⟨c', hc, hi⟩ := dsep_answers hG hs u v z (h1 u l1) (h1 v l2) (fun w hw => h1 w (l4 w hw)) (h2 u l1) (h2 v l2)
    (fun w hw => h2 w (l4 w hw)) l6 l7
  refine ⟨(dsepAnswer (DSep (Dir G) u v (fun w => w ∈ z))).1, c', ?_, hi, ?_⟩
  · unfold dsepTest; rw [hc]; rfl
  · unfold dsepAnswer
    split_ifs with hd
    · simp [hd, ha']
    · simp [hd, not_le.2 ha]

/-- **C32.** `PC.fit` with the d-separation test of a DAG, on its nodes, with either search method and any significance
level in `(0, 1]`, leaves the graph that `dag2cpdag` computes. -/
theorem c32_pc_dsep (hG : Reachable .digraph G) (ac : Acyclic (Dir G)) {so : List α → List α} (hso : ∀ l, (so l).Perm l)
    {alpha : ℚ} (ha : 0 < alpha) (ha' : alpha ≤ 1)
    (search : CITest α (Cache (ℚ × ℚ)) ℚ → List α → ℚ → Cache (ℚ × ℚ) → Except Err (Graph α × Sep α × Cache (ℚ × ℚ)))
    (hsearch : search = adjacencySearch ∨ search = fastAdjacencySearch) :
    ∃ r st' c, pcFit search (dsepTest G.nodes G) G.nodes alpha [] = .ok (r, st') ∧ dag2cpdag so G = .ok c ∧
      r.causal.graphEqual c = .ok true ∧ ∀ u v, r.causal.getEdge u v = c.getEdge u v :=
  c32_pc_oracle hG ac hso (dsep_perfect hG (fun _ h => h) (fun _ h => h) ha ha') CacheInv.nil search hsearch

end

section examples

example : cacheKey 12 3 (some [7, -1, 10]) = "I(3, 12 | -1, 7, 10)".toList ∧ cacheKey 3 12 none = "I(3, 12)".toList ∧
    cacheKey 1 2 (some []) = "I(1, 2 | )".toList := by decide +kernel

/-- A symmetric statistic whose results are sometimes false in Python's sense, so that the cache is by-passed. -/
example := c34_cache_transparent (names := ["a", "b", "c"]) (truthy := fun v : Int => v ≠ 0)
  (cal := fun x y z => match z with | none => .error .type | some z => .ok (x + y - z.length))
  (by
    rintro x y z x' y' z' ⟨hp, hz⟩
    cases z <;> cases z' <;> simp only at hz ⊢
    rw [hz.length_eq]
    rcases hp with ⟨rfl, rfl⟩ | ⟨rfl, rfl⟩
    · rfl
    · rw [Int.add_comm])
  [.test "a" "b" (some ["c"]), .itest 1 0 (some [2]), .test "a" "z" none, .test "b" "a" none] "b" "a" (some ["c"])

example := c35_dsep_test (names := [1, 2, 3, 4, 3]) exCollDag_reachable [.test 1 2 (some []), .itest (-1) 7 none, .itest 4 0 (some [1])]
  4 1 [3] (by decide) (by decide) (by decide) (by decide) (by decide) (by decide) (by decide) (by decide)
example : (citTest (fun _ => true) (dsepCal [1, 2, 3, 4] exCollDag) [1, 2, 3, 4] [] 1 4 (some [3])).map Prod.fst = .ok (1, 1) ∧
    (citTest (fun _ => true) (dsepCal [1, 2, 3, 4] exCollDag) [1, 2, 3, 4] [] 1 2 (some [4])).map Prod.fst = .ok (0, 0) := by
  decide +kernel
example := c32_pc_dsep exCollDag_reachable exCollDag_acyclic (so := List.reverse) (fun l => List.reverse_perm l)
  (alpha := 1 / 20) (by decide +kernel) (by decide +kernel) adjacencySearch (Or.inl rfl)

/-- **C41 is false.** `itest` with a one-shot iterator makes the key from its members and then calls `cal_stats` with
nothing left: a wrong answer, and one that stays in the cache for later calls of `test` with a list. -/
theorem c41_itest_iterator_false : ∃ (names : List Nat) (G : Graph Nat) (c : Cache (ℚ × ℚ)),
    Reachable .digraph G ∧ DSep (Dir G) 1 4 (fun w => w ∈ [3]) ∧
    (itest (fun _ => true) (dsepCal names G) [] 0 3 (some (.reiterable [2]))).map Prod.fst = .ok (1, 1) ∧
    itest (fun _ => true) (dsepCal names G) [] 0 3 (some (.iterator [2])) = .ok ((0, 0), c) ∧
    (citTest (fun _ => true) (dsepCal names G) names c 1 4 (some [3])).map Prod.fst = .ok (0, 0) := by
  have hd : DSep (Dir exCollDag) 1 4 (fun w => w ∈ [3]) := by
    obtain ⟨b, hb, hi⟩ := c09_dsep exCollDag_reachable 1 4 [3] (by decide) (by decide) (by decide) (by decide)
    have : exCollDag.isDSeparate 1 4 (.reiterable [3]) = .ok true := by decide +kernel
    rw [this] at hb
    exact hi.1 (Except.ok.inj hb).symm
  exact ⟨[1, 2, 3, 4], exCollDag, [("I(0, 3 | 2)".toList, (0, 0))], exCollDag_reachable, hd, by decide +kernel,
    by decide +kernel, by decide +kernel⟩

end examples
end Cdmir
