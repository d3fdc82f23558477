import Verif.Props.HierRoll
import Verif.Props.HierOrder

/-! One pass of the loop over the levels when all clusters are pure and none is learned early. -/

set_option linter.unusedSectionVars false

namespace Cdmir.Hier

variable {V Col : Type} [LinearOrder V]

theorem innerEarly_none {env : Env V Col} {ora d : Frame V Col} {latent : Dict V (List V)} {pures : List (List V)} {C l : List V}
    (h : ∀ L ∈ l, innerTest env ora d latent pures C L = .ok false) : innerEarly env ora d latent pures C l = .ok none := by
  induction l with
  | nil => rfl
  | cons L l ih =>
    unfold innerEarly
    rw [h L List.mem_cons_self]
    exact ih fun L' hL' => h L' (List.mem_cons_of_mem _ hL')

theorem detect_none {env : Env V Col} {ora d : Frame V Col} {latent : Dict V (List V)} {pures : List (List V)} {rem : List V} {l : List (List V)}
    (h : ∀ S ∈ l, ∀ L ∈ S, innerTest env ora d latent pures S L = .ok false) (e : Early V) :
    detect env ora d latent pures [] rem l e = .ok e := by
  induction l with
  | nil => rfl
  | cons S l ih =>
    unfold detect outerOf
    rw [innerEarly_none (h S List.mem_cons_self)]
    exact ih fun S' hS' => h S' (List.mem_cons_of_mem _ hS')

theorem mergeLoop_all {env : Env V Col} {d : Frame V Col} {pures : List (List V)} {l : List (List V)} (hl : ∀ C ∈ l, contains C pures = true)
    {fuel : Nat} (hf : l.length ≤ fuel) (st : Parts V) :
    mergeLoop env d pures [] {} fuel l st = .ok { st with intro := st.intro ++ l } := by
  induction l generalizing fuel st with
  | nil =>
    cases fuel <;> simp [mergeLoop, pure, Except.pure]
  | cons C l ih =>
    cases fuel with
    | zero => simp at hf
    | succ fuel =>
      unfold mergeLoop
      rw [hope_pure (hl C List.mem_cons_self) fun C' hC' => hl C' (List.mem_cons_of_mem _ (List.mem_reverse.1 hC'))]
      have hs : single env pures [] {} C st = .ok { st with intro := st.intro ++ [C] } := by
        unfold single byDict
        simp [hl C List.mem_cons_self, pure, Except.pure]
      simp only [bind, Except.bind, List.isEmpty_nil, if_true, hs]
      rw [ih (fun C' hC' => hl C' (List.mem_cons_of_mem _ hC')) (by simpa using hf)]
      simp

/-- The names of so many new latent variables. -/
def newNames (env : Env V Col) (n m : Nat) : List V := (List.range m).map fun t => env.lname (n + t)

theorem newNames_succ (env : Env V Col) (n m : Nat) : newNames env n (m + 1) = env.lname n :: newNames env (n + 1) m := by
  unfold newNames
  rw [List.range_succ_eq_map, List.map_cons, List.map_map]
  simp only [Nat.add_zero]
  congr 1
  refine List.map_congr_left fun t _ => ?_
  simp only [Function.comp_apply, Nat.succ_eq_add_one]
  congr 1
  omega

theorem newNames_length (env : Env V Col) (n m : Nat) : (newNames env n m).length = m := by simp [newNames]

theorem mem_newNames {env : Env V Col} {n m : Nat} {v : V} : v ∈ newNames env n m ↔ ∃ t < m, v = env.lname (n + t) := by
  simp [newNames, eq_comm]

theorem newNames_nodup {env : Env V Col} (h : Function.Injective env.lname) (n m : Nat) : (newNames env n m).Nodup :=
  List.nodup_range.map fun a b e => by
    have := h e
    omega

theorem introduce_ok {env : Env V Col} (hln : Function.Injective env.lname) {l : List (List V)} (hl : ∀ S ∈ l, S ≠ []) (n : Nat) (latent : Dict V (List V))
    (sur names : List V) (hfr : ∀ m ≥ n, env.lname m ∉ dkeys latent) : introduce env l (n, latent, sur, names) =
      .ok (n + l.length, latent ++ (newNames env n l.length).zip l, sur ++ l.filterMap List.head?, names ++ newNames env n l.length) := by
  induction l generalizing n latent sur names with
  | nil => simp [introduce, newNames, pure, Except.pure]
  | cons S l ih =>
    obtain ⟨v, S, rfl⟩ := List.exists_cons_of_ne_nil (hl S List.mem_cons_self)
    unfold introduce
    rw [dset_new _ _ _ (hfr n le_rfl), ih (fun S' hS' => hl S' (List.mem_cons_of_mem _ hS'))]
    · rw [List.length_cons, newNames_succ]
      simp only [List.zip_cons_cons, List.append_assoc, List.singleton_append, List.filterMap_cons, List.head?_cons, Nat.add_assoc, Nat.add_comm 1]
    · intro m hm
      simp only [dkeys, List.map_append, List.map_cons, List.map_nil, List.mem_append, List.mem_singleton, not_or]
      refine ⟨hfr m (by omega), fun e => ?_⟩
      have := hln e
      omega

theorem heads_mem {l : List (List V)} (hl : ∀ S ∈ l, S ≠ []) : (l.filterMap List.head?).length = l.length := by
  induction l with
  | nil => rfl
  | cons S l ih =>
    obtain ⟨v, S, rfl⟩ := List.exists_cons_of_ne_nil (hl S List.mem_cons_self)
    simp [ih fun S' hS' => hl S' (List.mem_cons_of_mem _ hS')]

theorem select_ok {d : Frame V Col} {l : List V} (h : ∀ v ∈ l, v ∈ dkeys d) : ∃ cs, select d l = .ok cs := by
  induction l with
  | nil => exact ⟨[], rfl⟩
  | cons v l ih =>
    obtain ⟨cs, hcs⟩ := ih fun w hw => h w (List.mem_cons_of_mem _ hw)
    obtain ⟨c, hc⟩ := Option.isSome_iff_exists.1 ((mem_dkeys_iff d v).1 (h v List.mem_cons_self))
    refine ⟨c :: cs, ?_⟩
    unfold select at hcs ⊢
    rw [List.mapM_cons, dgetE_of _ _ _ hc, hcs]
    rfl

theorem update_ok {env : Env V Col} (ho : ∀ l, (env.order l).Perm l) (hln : Function.Injective env.lname) {l : List (List V)} (hl : ∀ S ∈ l, S ≠ [])
    {n : Nat} {latent : Dict V (List V)} (hfr : ∀ m ≥ n, env.lname m ∉ dkeys latent) {d : Frame V Col} (hall : ∀ v ∈ dkeys d, v ∈ l.flatten)
    (hsub : ∀ S ∈ l, ∀ v ∈ S, v ∈ dkeys d) (rem : List V) : ∃ cs, select d (l.filterMap List.head?) = .ok cs ∧
      updateData env { intro := l, remaining := rem, latent := latent } n d =
        .ok ((newNames env n l.length).zip cs, n + l.length, latent ++ (newNames env n l.length).zip l) := by
  obtain ⟨cs, hcs⟩ := select_ok (d := d) (l := l.filterMap List.head?) fun v hv => by
    obtain ⟨S, hS, e⟩ := List.mem_filterMap.1 hv
    exact hsub S hS v (List.mem_of_mem_head? e)
  refine ⟨cs, hcs, ?_⟩
  have hidx : env.order ((dkeys d).filter fun v => v ∉ ([] : List V) ∧ v ∉ ([] ++ l).flatten) = [] := by
    have : (dkeys d).filter (fun v => decide (v ∉ ([] : List V) ∧ v ∉ ([] ++ l).flatten)) = [] := by
      rw [List.filter_eq_nil_iff]
      intro v hv
      simpa using hall v hv
    rw [this]
    exact List.perm_nil.1 (ho [])
  unfold updateData
  simp only [List.map_nil, List.flatten_nil, List.nil_append] at hidx ⊢
  rw [introduce_ok hln hl n latent [] [] hfr]
  simp only [bind, Except.bind, List.nil_append, hcs, hidx]
  simp [select, pure, Except.pure]

theorem mapM_ok {α β : Type} {f : α → Except Err β} {g : α → β} {l : List α} (h : ∀ x ∈ l, f x = .ok (g x)) : l.mapM f = .ok (l.map g) := by
  induction l with
  | nil => rfl
  | cons x l ih =>
    rw [List.mapM_cons, h x List.mem_cons_self, ih fun y hy => h y (List.mem_cons_of_mem _ hy)]
    rfl

/-- `roll_back` of a latent variable with a pure cluster: two of its measures, and data with its measures in its place. -/
theorem rollBack_ok {env : Env V Col} (ho : ∀ l, (env.order l).Perm l) {ora d : Frame V Col} {latent : Dict V (List V)} {pures : List (List V)} {L : V}
    {lm : List V} {sur : V → V} (hL : dget latent L = some lm) (hn : lm.Nodup) (h2 : 2 ≤ lm.length) (hp : lm ∈ pures)
    (hs : ∀ c ∈ lm, sur c ∈ dkeys ora ∧ (c ∈ dkeys ora → sur c = c) ∧ (c ∉ dkeys ora → getObserved latent (latent.length + 1) c = .ok (sur c)))
    (hLd : L ∈ dkeys d) (hLo : L ∉ dkeys ora) (hdis : ∀ v ∈ dkeys ora, v ∉ dkeys d) :
    ∃ p q td, p ∈ lm ∧ q ∈ lm ∧ p ≠ q ∧ rollBack env ora d latent pures L = .ok (td, [sur p, sur q]) ∧
      (∀ v ∈ dkeys d, v ≠ L → dgetE td v = dgetE d v) ∧ ∀ c ∈ lm, dgetE td (sur c) = dgetE ora (sur c) := by
  set lpure := env.order (pySet (pures.filter fun S => S.all fun x => x ∈ lm).flatten) with hlp
  have hmem : ∀ v, v ∈ lpure ↔ v ∈ lm := by
    intro v
    rw [hlp, (ho _).mem_iff, mem_pySet, List.mem_flatten]
    constructor
    · rintro ⟨S, hS, hv⟩
      have := (List.mem_filter.1 hS).2
      rw [List.all_eq_true] at this
      simpa using this v hv
    · intro hv
      exact ⟨lm, List.mem_filter.2 ⟨hp, by simp⟩, hv⟩
  have hnd : lpure.Nodup := (ho _).nodup_iff.2 (pySet_nodup _)
  have hperm : lpure.Perm lm := (List.perm_ext_iff_of_nodup hnd hn).2 hmem
  set P := (lpure.filter fun s => s ∈ dkeys ora) ++ lpure.filter fun s => s ∉ dkeys ora with hP
  have hPp : P.Perm lm := by
    refine (List.Perm.trans ?_ hperm)
    have := List.filter_append_perm (fun s => decide (s ∈ dkeys ora)) lpure
    simpa [hP] using this
  have hPmem : ∀ c ∈ P, c ∈ lm := fun c hc => hPp.mem_iff.1 hc
  have hlen : 2 ≤ P.length := by rw [hPp.length_eq]; exact h2
  obtain ⟨p, q, rest, hPe⟩ : ∃ p q rest, P = p :: q :: rest := by
    match P, hlen with
    | p :: q :: rest, _ => exact ⟨p, q, rest, rfl⟩
  have hrb : (lpure.filter fun s => s ∈ dkeys ora) ++ (lpure.filter fun s => s ∉ dkeys ora).map sur = P.map sur := by
    rw [hP, List.map_append]
    congr 1
    symm
    refine (List.map_congr_left (g := id) fun c hc => ?_).trans (List.map_id _)
    have := List.mem_filter.1 hc
    exact (hs c ((hmem c).1 this.1)).2.1 (by simpa using this.2)
  obtain ⟨cs, hcs⟩ := select_ok (d := ora) (l := P.map sur) fun v hv => by
    obtain ⟨c, hc, rfl⟩ := List.mem_map.1 hv
    exact (hs c (hPmem c hc)).1
  refine ⟨p, q, (d ++ (P.map sur).zip cs).filter fun e => e.1 ≠ L, hPmem p (by simp [hPe]), hPmem q (by simp [hPe]), ?_, ?_, ?_, ?_⟩
  · have := hPp.nodup_iff.2 hn
    rw [hPe] at this
    simp only [List.nodup_cons, List.mem_cons, not_or] at this
    exact this.1.1
  · unfold rollBack
    rw [hL]
    simp only
    rw [← hlp, mapM_ok (g := sur) fun c hc => (hs c ((hmem c).1 (List.mem_filter.1 hc).1)).2.2 (by simpa using (List.mem_filter.1 hc).2)]
    simp only [bind, Except.bind, hrb, hcs]
    have hh : dhas d L = true := (mem_dkeys_iff d L).1 hLd
    rw [hh, hPe]
    rfl
  · intro v hv hvL
    have : dget ((d ++ (P.map sur).zip cs).filter fun e => e.1 ≠ L) v = dget d v := by
      rw [dget_filter_ne hvL, dget_append']
      obtain ⟨c, hc⟩ := Option.isSome_iff_exists.1 ((mem_dkeys_iff d v).1 hv)
      rw [hc]
      rfl
    unfold dgetE
    rw [this]
  · intro c hc
    have hco := (hs c hc).1
    have : dget ((d ++ (P.map sur).zip cs).filter fun e => e.1 ≠ L) (sur c) = dget ora (sur c) := by
      rw [dget_filter_ne (fun e : sur c = L => hLo (by rw [← e]; exact hco)), dget_append', (dget_none_iff d (sur c)).2 (hdis _ hco), dget_zip hcs,
        if_pos (List.mem_map.2 ⟨c, hPp.mem_iff.2 hc, rfl⟩)]
      rfl
    unfold dgetE
    rw [this]

theorem zip_map_eq {α β γ : Type} {f : α → γ} {g : β → γ} {l : List α} {l' : List β} (hl : l.length = l'.length) (h : ∀ e ∈ l.zip l', f e.1 = g e.2) :
    l.map f = l'.map g := by
  induction l generalizing l' with
  | nil =>
    cases l' with
    | nil => rfl
    | cons b l' => simp at hl
  | cons a l ih =>
    cases l' with
    | nil => simp at hl
    | cons b l' =>
      rw [List.map_cons, List.map_cons, h (a, b) (by simp), ih (by simpa using hl) fun e he => h e (by simp [he])]

theorem dkeys_zip {κ ν : Type} {l : List κ} {l' : List ν} (hl : l.length = l'.length) : dkeys (l.zip l') = l := List.map_fst_zip hl.le

theorem zip_col {d : Frame V Col} {names : List V} {l : List (List V)} {cs : List Col} (hcs : select d (l.filterMap List.head?) = .ok cs)
    (hn : names.Nodup) (hl : names.length = l.length) (hne : ∀ S ∈ l, S ≠ []) {v w : V} {t : List V} (h : (v, w :: t) ∈ names.zip l) :
    names.length = cs.length ∧ dgetE (names.zip cs) v = dgetE d w := by
  induction l generalizing names cs with
  | nil => simp at h
  | cons S l ih =>
    cases names with
    | nil => simp at h
    | cons u names =>
      obtain ⟨a, S, rfl⟩ := List.exists_cons_of_ne_nil (hne S List.mem_cons_self)
      have hcs' := hcs
      rw [List.filterMap_cons, List.head?_cons] at hcs'
      simp only at hcs'
      unfold select at hcs'
      rw [List.mapM_cons] at hcs'
      obtain ⟨c, hc, hcs'⟩ := bind_ok hcs'
      obtain ⟨cs', hcs'', e⟩ := bind_ok hcs'
      cases e
      simp only [List.zip_cons_cons, List.mem_cons, Prod.mk.injEq] at h
      have hn' := List.nodup_cons.1 hn
      have hl' : names.length = l.length := by simpa using hl
      rcases h with ⟨rfl, h⟩ | h
      · obtain ⟨rfl, rfl⟩ := List.cons.inj h
        constructor
        · have h1 : cs'.length = (l.filterMap List.head?).length := by
            have := select_spec (d := d) hcs''
            simpa using (congrArg List.length this).symm
          rw [heads_mem fun S' hS' => hne S' (List.mem_cons_of_mem _ hS')] at h1
          simp [h1, hl']
        · rw [hc]
          exact dgetE_of _ _ _ (by simp [dget_cons])
      · obtain ⟨h1, h2⟩ := ih (cs := cs') hcs'' hn'.2 hl' (fun S' hS' => hne S' (List.mem_cons_of_mem _ hS')) h
        refine ⟨by simp [h1], ?_⟩
        rw [← h2]
        have hne' : u ≠ v := fun e => hn'.1 (e ▸ (List.of_mem_zip h).1)
        unfold dgetE
        rw [List.zip_cons_cons, dget_cons, if_neg hne']

end Cdmir.Hier
