import Verif.Model.Cache
import Verif.Props.Indep
import Mathlib.Data.Fintype.Pigeonhole
import Mathlib.Data.Rat.Defs

/-! C64, C66, C67: the caches keyed by `hash(str(...))`. -/

namespace Cdmir
open Cached

section
variable {Q H R : Type} [DecidableEq H] {key : Q → H} {f : Q → Except Err R}

theorem answers_iff (cache : List (H × R)) (qs : List Q) :
    answers key f cache qs = qs.map f ↔ (∀ q ∈ qs, ∀ r, cache.lookup (key q) = some r → f q = .ok r) ∧
      qs.Pairwise fun a b => ∀ r, key a = key b → f a = .ok r → f b = .ok r := by
  induction qs generalizing cache with
  | nil => simp [answers]
  | cons q qs ih =>
    simp only [answers, List.map_cons, List.cons.injEq, List.pairwise_cons, List.forall_mem_cons]
    rw [ih]
    unfold call
    cases hl : cache.lookup (key q) with
    | some r =>
      simp only [Option.some.injEq]
      constructor
      · rintro ⟨h1, h2, h3⟩
        exact ⟨⟨fun r' e => e ▸ h1.symm, h2⟩, fun b hb r' hk hf => h2 b hb r' (by rw [← hk, hl, ← Except.ok.inj (h1.trans hf)]), h3⟩
      · rintro ⟨⟨h1, h2⟩, _, h3⟩
        exact ⟨(h1 r rfl).symm, h2, h3⟩
    | none =>
      cases hf : f q with
      | error e =>
        simp only [true_and]
        constructor
        · rintro ⟨h2, h3⟩
          exact ⟨⟨by simp, h2⟩, by simp, h3⟩
        · rintro ⟨⟨_, h2⟩, _, h3⟩
          exact ⟨h2, h3⟩
      | ok r =>
        simp only [true_and, List.lookup_cons]
        constructor
        · rintro ⟨h2, h3⟩
          refine ⟨⟨by simp, fun b hb r' hr => ?_⟩, fun b hb r' hk he => ?_, h3⟩
          · have := h2 b hb r'
            by_cases k : key b = key q
            · rw [k, hl] at hr; cases hr
            · rw [show (key b == key q) = false from by simpa using k] at this
              exact this hr
          · have := h2 b hb r'
            rw [show (key b == key q) = true from by simpa using hk.symm] at this
            exact this (by rw [Except.ok.inj he])
        · rintro ⟨⟨_, h2⟩, h4, h3⟩
          refine ⟨fun b hb r' hr => ?_, h3⟩
          by_cases k : key b = key q
          · rw [show (key b == key q) = true from by simpa using k] at hr
            exact h4 b hb r' k.symm (by rw [Option.some.inj hr])
          · rw [show (key b == key q) = false from by simpa using k] at hr
            exact h2 b hb r' hr

/-- C64: a cached object answers every call of a sequence like the function itself exactly when no call has the key of an earlier
successful call with another value. -/
theorem c64_exact (qs : List Q) :
    answers key f [] qs = qs.map f ↔ qs.Pairwise fun a b => ∀ r, key a = key b → f a = .ok r → f b = .ok r := by
  rw [answers_iff]
  simp

end

/-! ### the printed keys -/

theorem strList_inj {l l' : List Int} {s t : List Char} (h : strList l ++ s = strList l' ++ t) : l = l' ∧ s = t := by
  unfold strList at h
  simp only [List.cons_append, List.cons.injEq, true_and, List.append_assoc] at h
  have nb : ∀ (l : List Int), ∀ c ∈ joinComma (l.map pyStr), c ≠ ']' := by
    intro l
    induction l with
    | nil => simp [joinComma]
    | cons a l ih =>
      have ha : ∀ c ∈ pyStr a, c ≠ ']' := fun c hc e => by
        have := pyStr_num a c hc
        rw [e] at this
        revert this; decide
      cases l with
      | nil => simpa [joinComma] using ha
      | cons b l =>
        intro c hc
        simp only [List.map_cons, joinComma, List.mem_append, List.mem_cons] at hc
        rcases hc with hc | rfl | rfl | hc
        · exact ha c hc
        · decide
        · decide
        · exact ih c hc
  have cut : ∀ {a b s t : List Char}, (∀ c ∈ a, c ≠ ']') → (∀ c ∈ b, c ≠ ']') → a ++ ']' :: s = b ++ ']' :: t → a = b ∧ s = t := by
    intro a
    induction a with
    | nil =>
      intro b s t _ hb h
      cases b with
      | nil => simpa using h
      | cons y b =>
        simp only [List.nil_append, List.cons_append, List.cons.injEq] at h
        exact absurd h.1.symm (hb y (by simp))
    | cons x a ih =>
      intro b s t ha hb h
      cases b with
      | nil =>
        simp only [List.nil_append, List.cons_append, List.cons.injEq] at h
        exact absurd h.1 (ha x (by simp))
      | cons y b =>
        simp only [List.cons_append, List.cons.injEq] at h
        obtain ⟨h1, h2⟩ := ih (fun c hc => ha c (by simp [hc])) (fun c hc => hb c (by simp [hc])) h.2
        exact ⟨by rw [h.1, h1], h2⟩
  obtain ⟨h1, h2⟩ := cut (nb l) (nb l') (by simpa using h)
  exact ⟨joinComma_inj (by rw [h1]), h2⟩

/-- C64: different requests for a local score print differently. -/
theorem c64_key_inj {q q' : Int × List Int} (h : localKey q = localKey q') : q = q' := by
  unfold localKey at h
  simp only [List.cons_append, List.cons.injEq, true_and, List.append_assoc] at h
  obtain ⟨h1, -, h2⟩ := split_num (pyStr_num q.1) (pyStr_num q'.1) rfl rfl h
  simp only [List.cons.injEq, true_and] at h2
  exact Prod.ext (pyStr_inj h1) (strList_inj h2).1

/-- C64: as long as no two printed requests have the same hash, every answer is the score asked for. (The hash is a 64-bit number, so
this cannot hold for all requests, `c64_false`.) -/
theorem c64_local_partial {H R : Type} [DecidableEq H] (hash : List Char → H) (f : Int × List Int → Except Err R) (qs : List (Int × List Int))
    (hh : ∀ a ∈ qs, ∀ b ∈ qs, hash (localKey a) = hash (localKey b) → localKey a = localKey b) :
    answers (fun q => hash (localKey q)) f [] qs = qs.map f :=
  (c64_exact qs).2 (List.pairwise_of_forall_mem_list fun a ha b hb _ h e => c64_key_inj (hh a ha b hb h) ▸ e)

/-- C64, the full statement is false: for every hash with finitely many values there are two requests and a score function for which the
second answer is the score of the first. -/
theorem c64_false {H : Type} [DecidableEq H] [Finite H] (hash : List Char → H) :
    ∃ (q q' : Int × List Int) (f : Int × List Int → Except Err Nat), q ≠ q' ∧ q'.2.Nodup ∧ q'.1 ∉ q'.2 ∧ f q' ≠ f q ∧
      answers (fun q => hash (localKey q)) f [] [q, q'] = [f q, f q] := by
  obtain ⟨a, b, hab, h⟩ := Finite.exists_ne_map_eq_of_infinite fun n : Nat => hash (localKey ((n : Int), []))
  have hne : (((b : Int), []) : Int × List Int) ≠ ((a : Int), []) := fun e => hab (by simpa using (Prod.mk.inj e).1.symm)
  refine ⟨((a : Int), []), ((b : Int), []), fun q => .ok (if q = ((a : Int), []) then 1 else 0), hne.symm, List.nodup_nil, by simp, ?_, ?_⟩
  · simp [hne]
  · simp [answers, call, h]

example : localKey (3, [0, 12]) = "(3, [0, 12])".toList ∧ localKey (3, []) = "(3, [])".toList := by decide +kernel

/-- Three calls, the last one repeated: the second computation is not made. -/
example : answers (fun q => localKey q) (fun q => if q.1 = 7 then .error .value else .ok (q.1 + q.2.sum)) [] [(1, [2]), (7, []), (1, [2, 3]), (1, [2])] =
    [.ok 3, .error .value, .ok 6, .ok 3] := by decide +kernel

/-! ### the independence tests -/

theorem strOpt_inj {l l' : Option (List Int)} {s t : List Char} (h : strOpt l ++ s = strOpt l' ++ t) : l = l' ∧ s = t := by
  cases l with
  | none =>
    cases l' with
    | none => exact ⟨rfl, List.append_cancel_left h⟩
    | some l' => simp [strOpt, strList] at h
  | some l =>
    cases l' with
    | none => simp [strOpt, strList] at h
    | some l' =>
      obtain ⟨h1, h2⟩ := strList_inj h
      exact ⟨by rw [h1], h2⟩

/-- C67: different requests print differently. -/
theorem c67_key_inj {q q' : Option (List Int) × Option (List Int) × Option (List Int)} (h : testKey q = testKey q') : q = q' := by
  unfold testKey at h
  simp only [List.cons_append, List.cons.injEq, true_and, List.append_assoc] at h
  obtain ⟨h1, h⟩ := strOpt_inj h
  simp only [List.cons.injEq, true_and] at h
  obtain ⟨h2, h⟩ := strOpt_inj h
  simp only [List.cons.injEq, true_and] at h
  obtain ⟨h3, -⟩ := strOpt_inj h
  exact Prod.ext h1 (Prod.ext h2 h3)

section
variable {α : Type} [DecidableEq α]

theorem nameIndex_ok {names : List α} (hn : names.Nodup) {k : Nat} (hk : k < names.length) : nameIndex names names[k] = .ok (k : Int) := by
  unfold nameIndex
  have hk' : names.length - 1 - k < names.reverse.length := by simp; omega
  have e : names[k] = names.reverse[names.length - 1 - k] := by
    rw [List.getElem_reverse]
    congr 1
    omega
  rw [e, List.idxOf?_eq_some_iff.2 ⟨hk', by simp, ?_⟩]
  · simp only [pure, Except.pure]
    congr 1
    omega
  · intro j hj h
    have hr : names.reverse.Nodup := List.nodup_reverse.2 hn
    have := (hr.getElem_inj_iff (hi := lt_trans hj hk') (hj := hk')).1 h
    omega

/-- C67: the number of a column, its name, a list or array of one of these mean the same variable; an empty list or array means None. -/
theorem c67_spelling {names : List α} (hn : names.Nodup) {k : Nat} (hk : k < names.length) :
    (∀ i ∈ ([.int k, .name names[k], .ints [(k : Int)], .names [names[k]], .array [(k : Int)]] : List (Input α)),
      inputToList names i = .ok (some [(k : Int)])) ∧
    ∀ i ∈ ([.none, .ints [], .names [], .array []] : List (Input α)), inputToList names i = .ok none := by
  constructor
  · intro i hi
    simp only [List.mem_cons, List.not_mem_nil, or_false] at hi
    rcases hi with rfl | rfl | rfl | rfl | rfl
    · rfl
    · simp [inputToList, nameIndex_ok hn hk, bind, Except.bind, pure, Except.pure]
    · rfl
    · simp [inputToList, nameIndex_ok hn hk, bind, Except.bind, pure, Except.pure]
    · rfl
  · intro i hi
    simp only [List.mem_cons, List.not_mem_nil, or_false] at hi
    rcases hi with rfl | rfl | rfl | rfl <;> rfl

/-- An unknown name raises. -/
theorem c67_unknown {names : List α} {s : α} (hs : s ∉ names) : inputToList names (.name s) = .error .key := by
  have : names.reverse.idxOf? s = none := List.idxOf?_eq_none_iff.2 (by simpa using hs)
  simp [inputToList, nameIndex, this, bind, Except.bind, throw, throwThe, MonadExceptOf.throw]

/-- The cache of an object after a sequence of calls. -/
def afterCalls {H R : Type} [DecidableEq H] (hash : List Char → H) (names : List α)
    (without : Option (List Int) → Option (List Int) → Except Err R) (cond : Option (List Int) → Option (List Int) → List Int → Except Err R)
    (calls : List (Input α × Input α × Input α)) : List (H × R) :=
  calls.foldl (fun c q => (computeP hash names without cond c q.1 q.2.1 q.2.2).2) []

/-- C67: after any sequence of calls, a call returns what the test function computes for the ids meant, provided that the hash
separates the printed requests (no assumption on the hash is possible for all requests at once: `c67_false`). -/
theorem c67_call_partial {H R : Type} [DecidableEq H] (hash : List Char → H) {names : List α}
    (without : Option (List Int) → Option (List Int) → Except Err R) (cond : Option (List Int) → Option (List Int) → List Int → Except Err R)
    (calls : List (Input α × Input α × Input α)) (xs ys zs : Input α) {x y z : Option (List Int)}
    (hx : inputToList names xs = .ok x) (hy : inputToList names ys = .ok y) (hz : inputToList names zs = .ok z)
    (hh : ∀ q ∈ calls, ∀ x' y' z', inputToList names q.1 = .ok x' → inputToList names q.2.1 = .ok y' → inputToList names q.2.2 = .ok z' →
      hash (testKey (x', y', z')) = hash (testKey (x, y, z)) → testKey (x', y', z') = testKey (x, y, z)) :
    (computeP hash names without cond (afterCalls hash names without cond calls) xs ys zs).1 =
      z.elim (without x y) (cond x y) := by
  let F : Option (List Int) × Option (List Int) × Option (List Int) → Except Err R :=
    fun q => q.2.2.elim (without q.1 q.2.1) (cond q.1 q.2.1)
  have step : ∀ (c : List (H × R)) (q : Input α × Input α × Input α), (computeP hash names without cond c q.1 q.2.1 q.2.2).2 = c ∨ ∃ x' y' z' r, inputToList names q.1 = .ok x' ∧
      inputToList names q.2.1 = .ok y' ∧ inputToList names q.2.2 = .ok z' ∧ F (x', y', z') = .ok r ∧
      (computeP hash names without cond c q.1 q.2.1 q.2.2).2 = (hash (testKey (x', y', z')), r) :: c := by
    intro c q
    unfold computeP
    cases e1 : inputToList names q.1 with
    | error e => left; simp [bind, Except.bind]
    | ok x' =>
      cases e2 : inputToList names q.2.1 with
      | error e => left; simp [bind, Except.bind]
      | ok y' =>
        cases e3 : inputToList names q.2.2 with
        | error e => left; simp [bind, Except.bind]
        | ok z' =>
          simp only [bind, Except.bind, pure, Except.pure]
          unfold call
          cases hl : c.lookup (hash (testKey (x', y', z'))) with
          | some r => left; rfl
          | none =>
            simp only
            cases hf : F (x', y', z') with
            | error e => left; cases z' <;> simp only [F, Option.elim_none, Option.elim_some] at hf <;> simp only [hf]
            | ok r => right; refine ⟨x', y', z', r, rfl, rfl, rfl, hf, ?_⟩; cases z' <;> simp only [F, Option.elim_none, Option.elim_some] at hf <;> simp only [hf]
  have inv : ∀ (calls : List (Input α × Input α × Input α)) (c : List (H × R)),
      (∀ q ∈ calls, ∀ x' y' z', inputToList names q.1 = .ok x' → inputToList names q.2.1 = .ok y' → inputToList names q.2.2 = .ok z' →
      hash (testKey (x', y', z')) = hash (testKey (x, y, z)) → testKey (x', y', z') = testKey (x, y, z)) →
      (∀ r, c.lookup (hash (testKey (x, y, z))) = some r → F (x, y, z) = .ok r) →
      ∀ r, (calls.foldl (fun c q => (computeP hash names without cond c q.1 q.2.1 q.2.2).2) c).lookup (hash (testKey (x, y, z))) = some r →
        F (x, y, z) = .ok r := by
    intro calls
    induction calls with
    | nil => exact fun c _ h => h
    | cons q calls ih =>
      intro c hh h
      simp only [List.foldl_cons]
      refine ih _ (fun q' hq' => hh q' (List.mem_cons_of_mem _ hq')) fun r hr => ?_
      rcases step c q with e | ⟨x', y', z', r', e1, e2, e3, e4, e5⟩
      · rw [e] at hr; exact h r hr
      · rw [e5, List.lookup_cons] at hr
        by_cases k : hash (testKey (x, y, z)) = hash (testKey (x', y', z'))
        · rw [show (hash (testKey (x, y, z)) == hash (testKey (x', y', z'))) = true from by simpa using k] at hr
          have := c67_key_inj (hh q List.mem_cons_self x' y' z' e1 e2 e3 k.symm)
          rw [← this, e4, Option.some.inj hr]
        · rw [show (hash (testKey (x, y, z)) == hash (testKey (x', y', z'))) = false from by simpa using k] at hr
          exact h r hr
  have := inv calls [] hh (by simp)
  unfold computeP
  rw [hx, hy, hz]
  simp only [bind, Except.bind, pure, Except.pure]
  unfold call
  cases hl : (afterCalls hash names without cond calls).lookup (hash (testKey (x, y, z))) with
  | some r => exact (this r hl).symm
  | none =>
    simp only
    cases hf : F (x, y, z) with
    | error e => cases z <;> simp only [F, Option.elim_none, Option.elim_some] at hf <;> simp only [hf, Option.elim_none, Option.elim_some]
    | ok r => cases z <;> simp only [F, Option.elim_none, Option.elim_some] at hf <;> simp only [hf, Option.elim_none, Option.elim_some]

/-- C67, the full statement is false, as `c64_false`. -/
theorem c67_false {H : Type} [DecidableEq H] [Finite H] (hash : List Char → H) (names : List α) :
    ∃ (a b : Nat) (without : Option (List Int) → Option (List Int) → Except Err Nat) (cond : Option (List Int) → Option (List Int) → List Int → Except Err Nat),
      (computeP hash names without cond (afterCalls hash names without cond [(.int 0, .int a, .none)]) (.int 0) (.int b) .none).1 ≠
        without (some [0]) (some [(b : Int)]) := by
  obtain ⟨a, b, hab, h⟩ := Finite.exists_ne_map_eq_of_infinite fun n : Nat => hash (testKey (some [0], some [(n : Int)], none))
  refine ⟨a, b, fun _ y => .ok (if y = some [(a : Int)] then 1 else 0), fun _ _ _ => .ok 0, ?_⟩
  have hne : b ≠ a := fun e => hab e.symm
  simp [afterCalls, computeP, inputToList, bind, Except.bind, pure, Except.pure, call, h, hne]

end

example : testKey (some [0], some [2], none) = "([0], [2], None)".toList := by decide +kernel
example : inputToList ["a", "b", "c"] (.names ["c", "a"]) = .ok (some [2, 0]) ∧ inputToList ["a", "b", "c"] (.name "d") = .error .key := by
  decide +kernel

/-! ### the kernels -/

section
variable {H T : Type} [DecidableEq H]

/-- C66: the linear kernel is right as long as text and hash separate the arrays of the calls. -/
theorem c66_linear_partial {K : Type} [Semiring K] (text : Rows K → T) (hash : T × T → H) (qs : List (Rows K × Rows K))
    (hh : ∀ a ∈ qs, ∀ b ∈ qs, hash (text a.1, text a.2) = hash (text b.1, text b.2) → a = b) :
    linearCalls text hash qs = qs.map fun q => .ok (linearKernel q) :=
  (c64_exact qs).2 (List.pairwise_of_forall_mem_list fun a ha b hb _ h e => hh a ha b hb h ▸ e)

/-- A column of 1001 numbers that differs from zero only in the middle. -/
def exColumn (x : ℚ) : Rows ℚ := List.replicate 500 [0] ++ [x] :: List.replicate 500 [0]

/-- C66, the full statement is false: numpy prints only the ends of an array of more than 1000 numbers, so two samples that differ in the
middle have the same key and the second call returns the kernel of the first sample. For every hash, also one without collisions. -/
theorem c66_false (text : Rows ℚ → T) (hash : T × T → H)
    (ht : ∀ A B : Rows ℚ, 1000 < (A.map List.length).sum → 1000 < (B.map List.length).sum → summary A = summary B → text A = text B) :
    ∃ A B : Rows ℚ, linearKernel (B, B) ≠ linearKernel (A, A) ∧
      linearCalls text hash [(A, A), (B, B)] = [.ok (linearKernel (A, A)), .ok (linearKernel (A, A))] := by
  refine ⟨exColumn 0, exColumn 1, ?_, ?_⟩
  · intro h
    have e : ∀ x : ℚ, (linearKernel (exColumn x, exColumn x))[500]?.bind (fun r => r[500]?) = some (x * x) := by
      intro x
      have e1 : (exColumn x)[500]? = some [x] := by
        unfold exColumn
        rw [List.getElem?_append_right (by rw [List.length_replicate])]
        rw [List.length_replicate]
        rfl
      unfold linearKernel
      simp [List.getElem?_map, e1]
    have := e 1
    rw [h, e 0] at this
    simp at this
  · have e : text (exColumn 1) = text (exColumn 0) := ht _ _ (by decide +kernel) (by decide +kernel) (by decide +kernel)
    simp [linearCalls, answers, call, e]

/-- C66: the Gaussian kernel with a rule for the width: every answer is the kernel with the width of its own first sample, whatever was
computed before, as long as text and hash separate the calls. -/
theorem c66_gauss_partial {K : Type} [Field K] (exp : K → K) (text : Rows K → T) (hash : T × T × K → H) (rule : Rows K → K) (w0 : K)
    (qs : List (Option K × Rows K × Rows K))
    (hh : ∀ a ∈ qs, ∀ b ∈ qs, hash (text a.2.1, text a.2.2, rule a.2.1) = hash (text b.2.1, text b.2.2, rule b.2.1) → a.2 = b.2) :
    gaussAnswers exp text hash (some rule) (w0, []) qs = qs.map fun q => gaussKernel exp (rule q.2.1) q.2 := by
  have main : ∀ (qs : List (Option K × Rows K × Rows K)) (s : K × List (H × Rows K)),
      (∀ a ∈ qs, ∀ b ∈ qs, hash (text a.2.1, text a.2.2, rule a.2.1) = hash (text b.2.1, text b.2.2, rule b.2.1) → a.2 = b.2) →
      (∀ q ∈ qs, ∀ r, s.2.lookup (hash (text q.2.1, text q.2.2, rule q.2.1)) = some r → r = gaussKernel exp (rule q.2.1) q.2) →
      gaussAnswers exp text hash (some rule) s qs = qs.map fun q => gaussKernel exp (rule q.2.1) q.2 := by
    intro qs
    induction qs with
    | nil => intros; rfl
    | cons q qs ih =>
      intro s hh hs
      obtain ⟨w, q⟩ := q
      have hh' := fun a ha b hb => hh a (List.mem_cons_of_mem _ ha) b (List.mem_cons_of_mem _ hb)
      simp only [gaussAnswers, List.map_cons, gaussCall]
      cases hl : s.2.lookup (hash (text q.1, text q.2, rule q.1)) with
      | some r =>
        simp only
        rw [hs (w, q) List.mem_cons_self r hl]
        congr 1
        exact ih _ hh' fun q' hq' r' hr' => hs q' (List.mem_cons_of_mem _ hq') r' hr'
      | none =>
        simp only
        congr 1
        refine ih _ hh' fun q' hq' r' hr' => ?_
        rw [List.lookup_cons] at hr'
        by_cases k : hash (text q'.2.1, text q'.2.2, rule q'.2.1) = hash (text q.1, text q.2, rule q.1)
        · rw [show (hash (text q'.2.1, text q'.2.2, rule q'.2.1) == hash (text q.1, text q.2, rule q.1)) = true from by simpa using k] at hr'
          have := hh q' (List.mem_cons_of_mem _ hq') (w, q) List.mem_cons_self k
          rw [this, ← Option.some.inj hr']
        · rw [show (hash (text q'.2.1, text q'.2.2, rule q'.2.1) == hash (text q.1, text q.2, rule q.1)) = false from by simpa using k] at hr'
          exact hs q' (List.mem_cons_of_mem _ hq') r' hr'
  exact main qs _ hh (by simp)

/-- C66: the Gaussian kernel with `manual` width, the width assigned before each call: every answer is the kernel with the width assigned,
because the width is part of the key. -/
theorem c66_manual_partial {K : Type} [Field K] (exp : K → K) (text : Rows K → T) (hash : T × T × K → H) (w0 : K) (qs : List (K × Rows K × Rows K))
    (hh : ∀ a ∈ qs, ∀ b ∈ qs, hash (text a.2.1, text a.2.2, a.1) = hash (text b.2.1, text b.2.2, b.1) → a = b) :
    gaussAnswers exp text hash none (w0, []) (qs.map fun q => (some q.1, q.2)) = qs.map fun q => gaussKernel exp q.1 q.2 := by
  have main : ∀ (qs : List (K × Rows K × Rows K)) (s : K × List (H × Rows K)),
      (∀ a ∈ qs, ∀ b ∈ qs, hash (text a.2.1, text a.2.2, a.1) = hash (text b.2.1, text b.2.2, b.1) → a = b) →
      (∀ q ∈ qs, ∀ r, s.2.lookup (hash (text q.2.1, text q.2.2, q.1)) = some r → r = gaussKernel exp q.1 q.2) →
      gaussAnswers exp text hash none s (qs.map fun q => (some q.1, q.2)) = qs.map fun q => gaussKernel exp q.1 q.2 := by
    intro qs
    induction qs with
    | nil => intros; rfl
    | cons q qs ih =>
      intro s hh hs
      have hh' := fun a ha b hb => hh a (List.mem_cons_of_mem _ ha) b (List.mem_cons_of_mem _ hb)
      simp only [gaussAnswers, List.map_cons, gaussCall, Option.getD_some]
      cases hl : s.2.lookup (hash (text q.2.1, text q.2.2, q.1)) with
      | some r =>
        simp only
        rw [hs q List.mem_cons_self r hl]
        congr 1
        exact ih _ hh' fun q' hq' r' hr' => hs q' (List.mem_cons_of_mem _ hq') r' hr'
      | none =>
        simp only
        congr 1
        refine ih _ hh' fun q' hq' r' hr' => ?_
        rw [List.lookup_cons] at hr'
        by_cases k : hash (text q'.2.1, text q'.2.2, q'.1) = hash (text q.2.1, text q.2.2, q.1)
        · rw [show (hash (text q'.2.1, text q'.2.2, q'.1) == hash (text q.2.1, text q.2.2, q.1)) = true from by simpa using k] at hr'
          rw [hh q' (List.mem_cons_of_mem _ hq') q List.mem_cons_self k, ← Option.some.inj hr']
        · rw [show (hash (text q'.2.1, text q'.2.2, q'.1) == hash (text q.2.1, text q.2.2, q.1)) = false from by simpa using k] at hr'
          exact hs q' (List.mem_cons_of_mem _ hq') r' hr'
  exact main qs _ hh (by simp)

/-- C66, finding: the key of the polynomial kernel does not contain `degree`: after a change of the degree the old kernel is returned. -/
theorem c66_poly_stale (text : Rows ℚ → T) (hash : T × T → H) :
    polyAnswers text hash [((1, 1), [[2]], [[2]]), ((2, 1), [[2]], [[2]])] = [.ok [[5]], .ok [[5]]] ∧
      polyKernel 2 (1 : ℚ) ([[2]], [[2]]) = [[25]] := by
  constructor
  · have : polyKernel 1 (1 : ℚ) ([[2]], [[2]]) = [[5]] := by decide +kernel
    simp [polyAnswers, answers, call, this]
  · decide +kernel

/-- With its parameters unchanged the polynomial kernel is right as long as text and hash separate the arrays. -/
theorem c66_poly_partial {K : Type} [Semiring K] (text : Rows K → T) (hash : T × T → H) (degree : Nat) (const : K) (qs : List (Rows K × Rows K))
    (hh : ∀ a ∈ qs, ∀ b ∈ qs, hash (text a.1, text a.2) = hash (text b.1, text b.2) → a = b) :
    polyAnswers text hash (qs.map fun q => ((degree, const), q)) = qs.map fun q => .ok (polyKernel degree const q) := by
  unfold polyAnswers
  rw [(c64_exact _).2]
  · rw [List.map_map]; rfl
  · refine List.pairwise_map.2 (List.pairwise_of_forall_mem_list fun a ha b hb r h e => ?_)
    rw [← hh a ha b hb h]
    exact e

end

example : linearCalls (fun A : Rows ℚ => A) (fun p => p) [([[1, 2]], [[3, 4], [0, 1]]), ([[1, 2]], [[3, 4], [0, 1]])] =
    [.ok [[11, 2]], .ok [[11, 2]]] := by decide +kernel
example : gaussAnswers (fun x : ℚ => 1 + x) (fun A => A) (fun p => p) (some fun A => A.length) (1, [])
    [(none, [[1], [3]], [[1], [3]]), (none, [[1]], [[4]])] = [[[1, -3], [-3, 1]], [[-7 / 2]]] := by decide +kernel

end Cdmir
