import Verif.Props.HierTree
import Verif.Props.HierSample

/-! Property C166: the loop over the levels on large samples of a hierarchical model. -/

set_option linter.unusedSectionVars false

namespace Cdmir.Hier

variable {V N : Type} [LinearOrder V] [DecidableEq N]

open Fisher (normCdf)

/-- C166: `c165_exact` where only the covariances of the columns are given. -/
theorem c166_exact {names : List V} {σ : V → V → ℝ} (hS : (Matrix.of fun u v : { v // v ∈ names } => σ u v).PosDef) {alpha : ℝ} (ha : 0 < alpha)
    (ha' : alpha < 1) : ∃ N : Nat, ∀ n ≥ N, ∀ x : V → Fin n → ℝ, (∀ u ∈ names, ∀ v ∈ names, Tetrad.cov (x u) (x v) = σ u v) →
      ∀ env : Env V (Fin n → ℝ), env.van = Tetrad.vanishes normCdf alpha → Exact env (table names x) σ := by
  obtain ⟨N, hN⟩ := c165_exact hS ha ha'
  refine ⟨N, fun n hn x hx env henv => ?_⟩
  intro i hi j hj p hp l hl hnd
  rw [table_keys] at hi hj hp hl
  have := hN n hn (fun u => x u) (fun u v => hx u u.2 v v.2) names.attach ⟨Tetrad.vanishes normCdf alpha, id, id, fun _ => ⟨i, hi⟩, 0⟩ rfl
  obtain ⟨b, h1, h2⟩ := this ⟨i, hi⟩ (by rw [table_keys]; simp) ⟨j, hj⟩ (by rw [table_keys]; simp) ⟨p, hp⟩ (by rw [table_keys]; simp) ⟨l, hl⟩
    (by rw [table_keys]; simp) (by simpa using hnd)
  refine ⟨b, ?_, h2⟩
  rw [← h1]
  unfold vanE
  rw [table_get x hi, table_get x hj, table_get x hp, table_get x hl, table_get _ (by simp), table_get _ (by simp), table_get _ (by simp),
    table_get _ (by simp), henv]

/-- The covariances of every level are positive definite. -/
theorem Hierarchy.Good.posDef {H : Hierarchy N} {D : Nat} (hH : H.Good D) (hT : (Matrix.of fun p q : { a // a ∈ H.at D } => H.cov p q).PosDef)
    {k j : Nat} (hkj : k + j = D) : (Matrix.of fun p q : { a // a ∈ H.at k } => H.cov p q).PosDef := by
  induction j generalizing k with
  | zero =>
    obtain rfl : k = D := by omega
    exact hT
  | succ j ih =>
    have hup : ∀ a ∈ H.at k, H.parent a ∈ H.at (k + 1) := fun a ha => by
      obtain ⟨h1, h2⟩ := mem_at.1 ha
      obtain ⟨e1, e2⟩ := hH.up a h1 (by omega)
      exact mem_at.2 ⟨e1, by omega⟩
    let M : Measured { a // a ∈ H.at k } { a // a ∈ H.at (k + 1) } :=
      ⟨fun a => ⟨H.parent a, hup a a.2⟩, fun a => H.load a, fun p q => H.cov p q, fun a b => if a = b then H.noise a else 0⟩
    have e : (Matrix.of fun p q : { a // a ∈ H.at k } => H.cov p q) = Matrix.of M.cov := by
      ext a b
      obtain ⟨a1, a2⟩ := mem_at.1 a.2
      obtain ⟨b1, b2⟩ := mem_at.1 b.2
      simp only [Matrix.of_apply, Measured.cov, M]
      rw [hH.law a a1 b b1 (by omega) (by omega)]
      simp only [Subtype.ext_iff]
    rw [e]
    refine Measured.posDef (ih (k := k + 1) (by omega)).posSemidef (fun u v h => if_neg h) fun v => ?_
    obtain ⟨v1, v2⟩ := mem_at.1 v.2
    simp only [M, if_true]
    exact hH.noise v v1 (by omega)

/-- C166. On every large enough sample of a hierarchical model, with exactly its covariances, the loop finds every latent variable and its children; and
there are such samples. -/
theorem c166_sample {H : Hierarchy N} {D : Nat} (hH : H.Good D) (hT : (Matrix.of fun p q : { a // a ∈ H.at D } => H.cov p q).PosDef)
    {names : List V} {obs : V → N} (hobs : (names.map obs).Perm (H.at 0)) {alpha : ℝ} (ha : 0 < alpha) (ha' : alpha < 1) :
    ∃ M : Nat, ∀ n ≥ M, (∃ x : V → Fin n → ℝ, ∀ u ∈ names, ∀ v ∈ names, Tetrad.cov (x u) (x v) = H.cov (obs u) (obs v)) ∧
      ∀ x : V → Fin n → ℝ, (∀ u ∈ names, ∀ v ∈ names, Tetrad.cov (x u) (x v) = H.cov (obs u) (obs v)) →
        ∀ env : Env V (Fin n → ℝ), env.van = Tetrad.vanishes normCdf alpha → env.rows = n → (∀ l, (env.order l).Perm l) →
          (∀ l, (env.idxOrder l).Perm l) → Function.Injective env.lname → (∀ m, env.lname m ∉ names) → ∀ fuel > D,
          ∃ (s : State V (Fin n → ℝ)) (φ : V → N) (R : List V), run env (table names x) fuel { data := table names x } = .ok s ∧
            (∀ v ∈ names, φ v = obs v) ∧ (dkeys s.latent).Nodup ∧ ((dkeys s.latent).map φ).Perm (H.nodes.filter fun a => 0 < H.level a) ∧
            (∀ L cs, dget s.latent L = some cs → (∀ c ∈ cs, c ∈ names ∨ c ∈ dkeys s.latent) ∧ (cs.map φ).Perm (H.children (φ L))) ∧
            s.impures = [R] ∧ (R.map φ).Perm (H.at D) := by
  have hS : (Matrix.of fun u v : { v // v ∈ names } => H.cov (obs u) (obs v)).PosDef := by
    have h0 := hH.posDef hT (k := 0) (j := D) (by omega)
    have hin : Function.Injective fun u : { v // v ∈ names } => (⟨obs u, hobs.mem_iff.1 (List.mem_map_of_mem u.2)⟩ : { a // a ∈ H.at 0 }) := by
      intro u v e
      exact Subtype.ext (List.inj_on_of_nodup_map (hobs.nodup_iff.2 (at_nodup hH 0)) u.2 v.2 (Subtype.ext_iff.1 e))
    exact h0.submatrix hin
  obtain ⟨M, hM⟩ := c166_exact (σ := fun u v => H.cov (obs u) (obs v)) hS ha ha'
  refine ⟨max (max M 2) (Fintype.card { v // v ∈ names } + 1), fun n hn => ⟨?_, fun x hx env henv hrows ho hi hln hnm fuel hf => ?_⟩⟩
  · obtain ⟨x, hx⟩ := Tetrad.exists_sample (n := n) hS.posSemidef ((le_max_right _ _).trans hn)
    refine ⟨fun v => if h : v ∈ names then x ⟨v, h⟩ else 0, fun u hu v hv => ?_⟩
    simp only [dif_pos hu, dif_pos hv]
    exact hx _ _
  · have hE := hM n ((le_max_left _ _).trans ((le_max_left _ _).trans hn)) x hx env henv
    have hk := table_keys names x
    have h2 : 2 ≤ n := (le_max_right _ _).trans ((le_max_left _ _).trans hn)
    have := c166_tree (env := env) (ora := table names x) hH (by rw [hk]; exact hobs) ho hi hln (by rw [hk]; exact hnm) hE (by omega) hf
    rw [hk] at this
    exact this

section examples

/-- The names of the latent variables follow those of 50 columns; sets are read backwards. -/
noncomputable def exLoop (n : Nat) : Env Nat (Fin n → ℝ) := ⟨Tetrad.vanishes normCdf (1 / 100), List.reverse, id, fun m => 50 + m, n⟩

/-- A variable with four children, which have three measured variables each. All loads and variances of noise are 1. -/
def exT : Hierarchy Nat where
  nodes := List.range 17
  level a := if a < 12 then 0 else if a < 16 then 1 else 2
  parent a := if a < 12 then 12 + a / 3 else 16
  load _ := 1
  noise _ := 1
  cov a b := ((if a = b then if a < 12 then 3 else if a < 16 then 2 else 1 else if a < 12 ∧ a / 3 = b / 3 then 2 else 1 : Nat) : ℝ)

theorem exT_good : exT.Good 2 where
  nodup := List.nodup_range
  bound a _ := by
    change (if a < 12 then 0 else if a < 16 then 1 else 2) ≤ 2
    split_ifs <;> omega
  up := by decide +kernel
  three := by decide +kernel
  load _ _ _ := one_ne_zero
  noise _ _ _ := one_pos
  law a ha b hb hab hl := by
    have key : ∀ a ∈ List.range 17, ∀ b ∈ List.range 17, exT.level a = exT.level b → exT.level a < 2 →
        (if a = b then if a < 12 then 3 else if a < 16 then 2 else 1 else if a < 12 ∧ a / 3 = b / 3 then 2 else 1 : Nat) =
          (if exT.parent a = exT.parent b then if exT.parent a < 12 then 3 else if exT.parent a < 16 then 2 else 1 else
            if exT.parent a < 12 ∧ exT.parent a / 3 = exT.parent b / 3 then 2 else 1) + if a = b then 1 else 0 := by decide +kernel
    have := key a ha b hb hab hl
    change ((_ : Nat) : ℝ) = 1 * 1 * ((_ : Nat) : ℝ) + if a = b then 1 else 0
    rw [this, one_mul, one_mul]
    push_cast
    split_ifs <;> rfl
  top_symm p hp q hq := by
    have : exT.at 2 = [16] := by decide +kernel
    rw [this] at hp hq
    rw [List.mem_singleton.1 hp, List.mem_singleton.1 hq]
  top_pos p hp := by
    have : exT.at 2 = [16] := by decide +kernel
    rw [this] at hp
    rw [List.mem_singleton.1 hp]
    simp [exT]
  top_corr p hp q hq h := by
    have : exT.at 2 = [16] := by decide +kernel
    rw [this] at hp hq
    rw [List.mem_singleton.1 hp, List.mem_singleton.1 hq] at h
    exact absurd rfl h
  wide := by decide +kernel
  narrow := by decide +kernel

theorem exT_top : (Matrix.of fun p q : { a // a ∈ exT.at 2 } => exT.cov p q).PosDef := by
  have h2 : exT.at 2 = [16] := by decide +kernel
  have : (Matrix.of fun p q : { a // a ∈ exT.at 2 } => exT.cov p q) = 1 := by
    ext p q
    have hp : p.1 = 16 := by simpa [h2] using p.2
    have hq : q.1 = 16 := by simpa [h2] using q.2
    have e : p = q := Subtype.ext (hp.trans hq.symm)
    subst e
    rw [Matrix.of_apply, Matrix.one_apply_eq, hp]
    simp [exT]
  rw [this]
  exact Matrix.PosDef.one

/-- c166_sample (and with it c166_tree, c166_exact): five latent variables are found. -/
example : ∃ M : Nat, ∀ n ≥ M, ∃ (x : Nat → Fin n → ℝ) (s : State Nat (Fin n → ℝ)) (φ : Nat → Nat),
    run (exLoop n) (table (List.range 12) x) 3 { data := table (List.range 12) x } = .ok s ∧ (∀ v < 12, φ v = v) ∧
    ((dkeys s.latent).map φ).Perm [12, 13, 14, 15, 16] ∧ ∀ L, φ L = 13 → ∀ cs, dget s.latent L = some cs → (cs.map φ).Perm [3, 4, 5] := by
  obtain ⟨M, hM⟩ := c166_sample exT_good exT_top (names := List.range 12) (obs := id) (by decide +kernel) (alpha := 1 / 100) (by norm_num) (by norm_num)
  refine ⟨M, fun n hn => ?_⟩
  obtain ⟨⟨x, hx⟩, h⟩ := hM n hn
  obtain ⟨s, φ, R, h1, h2, -, h3, h4, -⟩ := h x hx (exLoop n) rfl rfl (fun l => List.reverse_perm l) (fun _ => List.Perm.refl _)
    (fun a b e => by simpa [exLoop] using e) (fun m => by simp [exLoop]; omega) 3 (by omega)
  refine ⟨x, s, φ, h1, fun v hv => h2 v (by simpa using hv), ?_, fun L hL cs hc => ?_⟩
  · have : exT.nodes.filter (fun a => decide (0 < exT.level a)) = [12, 13, 14, 15, 16] := by decide +kernel
    rwa [this] at h3
  · have := (h4 L cs hc).2
    rw [hL] at this
    have e : exT.children 13 = [3, 4, 5] := by decide +kernel
    rwa [e] at this

/-- Three variables with three measured variables each. Their covariances, 1, and variances, 2, are those of three children of a further variable. -/
def exR : Hierarchy Nat where
  nodes := List.range 12
  level a := if a < 9 then 0 else 1
  parent a := 9 + a / 3
  load _ := 1
  noise _ := 1
  cov a b := ((if a = b then if a < 9 then 3 else 2 else if a < 9 ∧ a / 3 = b / 3 then 2 else 1 : Nat) : ℝ)

theorem exR_good : exR.Good 1 where
  nodup := List.nodup_range
  bound a _ := by
    change (if a < 9 then 0 else 1) ≤ 1
    split_ifs <;> omega
  up := by decide +kernel
  three := by decide +kernel
  load _ _ _ := one_ne_zero
  noise _ _ _ := one_pos
  law a ha b hb hab hl := by
    have key : ∀ a ∈ List.range 12, ∀ b ∈ List.range 12, exR.level a = exR.level b → exR.level a < 1 →
        (if a = b then if a < 9 then 3 else 2 else if a < 9 ∧ a / 3 = b / 3 then 2 else 1 : Nat) =
          (if exR.parent a = exR.parent b then if exR.parent a < 9 then 3 else 2 else
            if exR.parent a < 9 ∧ exR.parent a / 3 = exR.parent b / 3 then 2 else 1) + if a = b then 1 else 0 := by decide +kernel
    have := key a ha b hb hab hl
    change ((_ : Nat) : ℝ) = 1 * 1 * ((_ : Nat) : ℝ) + if a = b then 1 else 0
    rw [this, one_mul, one_mul]
    push_cast
    split_ifs <;> rfl
  top_symm p hp q hq := by
    have : exR.at 1 = [9, 10, 11] := by decide +kernel
    rw [this] at hp hq
    simp only [List.mem_cons, List.not_mem_nil, or_false] at hp hq
    rcases hp with rfl | rfl | rfl <;> rcases hq with rfl | rfl | rfl <;> simp [exR]
  top_pos p hp := by
    have : exR.at 1 = [9, 10, 11] := by decide +kernel
    rw [this] at hp
    simp only [List.mem_cons, List.not_mem_nil, or_false] at hp
    rcases hp with rfl | rfl | rfl <;> simp [exR]
  top_corr p hp q hq h := by
    have : exR.at 1 = [9, 10, 11] := by decide +kernel
    rw [this] at hp hq
    simp only [List.mem_cons, List.not_mem_nil, or_false] at hp hq
    rcases hp with rfl | rfl | rfl <;> rcases hq with rfl | rfl | rfl <;> first | exact absurd rfl h | (simp [exR]; norm_num)
  wide := by decide +kernel
  narrow := by decide +kernel

theorem exR_top : (Matrix.of fun p q : { a // a ∈ exR.at 1 } => exR.cov p q).PosDef := by
  have h1 : exR.at 1 = [9, 10, 11] := by decide +kernel
  let M : Measured { a // a ∈ exR.at 1 } Unit := ⟨fun _ => (), fun _ => 1, fun _ _ => 1, fun a b => if a = b then 1 else 0⟩
  have e : (Matrix.of fun p q : { a // a ∈ exR.at 1 } => exR.cov p q) = Matrix.of M.cov := by
    ext p q
    have hp : ¬ p.1 < 9 := by
      have := p.2
      simp only [h1, List.mem_cons, List.not_mem_nil, or_false] at this
      omega
    rw [Matrix.of_apply, Matrix.of_apply]
    have hc : ∀ c d : Nat, ¬ c < 9 → exR.cov c d = 1 + if c = d then 1 else 0 := by
      intro c d hcd
      simp only [exR, hcd, if_false, false_and]
      split_ifs <;> norm_num
    rw [hc _ _ hp]
    simp only [Measured.cov, M, Subtype.ext_iff]
    norm_num
  rw [e]
  refine Measured.posDef ?_ (fun u v h => if_neg h) fun v => by simp [M]
  have : Matrix.of M.lcov = 1 := by
    ext
    simp [M]
  rw [this]
  exact Matrix.PosSemidef.one

/-- c166_tree where a variable above three latent variables is not found: its three children are reported as an impure cluster. -/
example : ∃ (n : Nat) (x : Nat → Fin n → ℝ) (s : State Nat (Fin n → ℝ)) (φ : Nat → Nat) (R : List Nat),
    run (exLoop n) (table (List.range 9) x) 2 { data := table (List.range 9) x } = .ok s ∧
    ((dkeys s.latent).map φ).Perm [9, 10, 11] ∧ s.impures = [R] ∧ (R.map φ).Perm [9, 10, 11] := by
  obtain ⟨M, hM⟩ := c166_sample exR_good exR_top (names := List.range 9) (obs := id) (by decide +kernel) (alpha := 1 / 100) (by norm_num) (by norm_num)
  obtain ⟨⟨x, hx⟩, h⟩ := hM M le_rfl
  obtain ⟨s, φ, R, h1, h2, -, h3, -, h4, h5⟩ := h x hx (exLoop M) rfl rfl (fun l => List.reverse_perm l) (fun _ => List.Perm.refl _)
    (fun a b e => by simpa [exLoop] using e) (fun m => by simp [exLoop]; omega) 2 (by omega)
  have e1 : exR.nodes.filter (fun a => decide (0 < exR.level a)) = [9, 10, 11] := by decide +kernel
  have e2 : exR.at 1 = [9, 10, 11] := by decide +kernel
  rw [e1] at h3
  rw [e2] at h5
  exact ⟨M, x, s, φ, R, h1, h3, h4, h5⟩

/-- c166_two_false on a sample. -/
example : ∃ (n : Nat) (x : Fin 4 → Fin n → ℝ) (s : State (Fin 4) (Fin n → ℝ)) (C : List (Fin 4)), (∀ u v, Tetrad.cov (x u) (x v) = exM2.cov u v) ∧
    run (exEnv 3 n) (table (List.finRange 4) x) 2 { data := table (List.finRange 4) x } = .ok s ∧ s.latent = [(0, C)] ∧
    C.Perm (List.finRange 4) := by
  obtain ⟨N, hN⟩ := c165_exact exM2_posDef (alpha := 1 / 100) (by norm_num) (by norm_num)
  obtain ⟨x, hx⟩ := Tetrad.exists_sample (n := max N (Fintype.card (Fin 4) + 1)) exM2_posDef.posSemidef (le_max_right _ _)
  have hE := hN _ (le_max_left _ _) x hx (List.finRange 4) (exEnv 3 _) rfl
  have hk := table_keys (List.finRange 4) x
  obtain ⟨s, C, h1, h2, h3⟩ := c166_two_false (env := exEnv 3 _) (fun l => List.reverse_perm l) (fun _ => List.Perm.refl _)
    (d := table (List.finRange 4) x) (by rw [hk]; exact List.nodup_finRange 4) (M := exM2) (by rw [hk]; exact exM2_pure) hE (by rw [hk]; simp)
    (q := 0) (r := 1) ⟨0, by rw [hk]; simp, 2, by rw [hk]; simp, rfl, rfl, by decide⟩ (by
      intro v _
      fin_cases v <;> simp [exM2]) (by
      change 1 < max N (Fintype.card (Fin 4) + 1)
      simp) 0
  rw [hk] at h3
  exact ⟨_, x, s, C, hx, h1, h2, h3⟩

end examples

end Cdmir.Hier
