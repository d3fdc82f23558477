import Verif.Model.Network
import Verif.Lemmas.Notears
import Mathlib.Tactic.Ring
import Mathlib.Tactic.Linarith

/-! Lemmas for Props/Network: slices of flat parameter vectors, positions in nested lists, local layers. -/

namespace Cdmir.Net
open BigOperators Finset

section
variable {K : Type}

theorem distributeFrom_ok (v : List K) (numel : Nat) : ∀ (sizes : List Nat) (off : Nat), off + sizes.sum = numel → numel ≤ v.length →
    ∃ ts, distributeFrom numel v off sizes = .ok ts ∧ ts.flatten = (v.drop off).take sizes.sum ∧ ts.map List.length = sizes
  | [], off, h, _ => ⟨[], by
      have : off = numel := by simpa using h
      simp [distributeFrom, this, pure, Except.pure], by simp, rfl⟩
  | n :: ns, off, h, hl => by
    simp only [List.sum_cons] at h
    obtain ⟨ts, e, hf, hm⟩ := distributeFrom_ok v numel ns (off + n) (by omega) hl
    have hn : ((v.drop off).take n).length = n := by simp; omega
    refine ⟨(v.drop off).take n :: ts, ?_, ?_, by simp [hm, hn]⟩
    · rw [distributeFrom, if_pos hn, e]
      rfl
    · rw [List.flatten_cons, hf, List.sum_cons, List.take_add, List.drop_drop]

theorem distributeFrom_short (v : List K) (numel : Nat) : ∀ (sizes : List Nat) (off : Nat), off + sizes.sum = numel →
    off ≤ v.length → v.length < numel → distributeFrom numel v off sizes = .error .exception
  | [], off, h, h1, h2 => by simp at h; omega
  | n :: ns, off, h, h1, h2 => by
    simp only [List.sum_cons] at h
    rw [distributeFrom]
    by_cases hn : off + n ≤ v.length
    · rw [if_pos (by simp; omega), distributeFrom_short v numel ns (off + n) (by omega) hn h2]
      rfl
    · rw [if_neg (by simp; omega)]
      rfl

theorem distribute_ok {sizes : List Nat} {v : List K} (h : sizes.sum ≤ v.length) :
    ∃ ts, distribute sizes v = .ok ts ∧ ts.flatten = v.take sizes.sum ∧ ts.map List.length = sizes := by
  simpa [distribute] using distributeFrom_ok v sizes.sum sizes 0 (by omega) h

theorem flatten_inj {β : Type} : ∀ {ts us : List (List β)}, ts.map List.length = us.map List.length → ts.flatten = us.flatten → ts = us
  | [], [], _, _ => rfl
  | [], _ :: _, h, _ => by simp at h
  | _ :: _, [], h, _ => by simp at h
  | t :: ts, u :: us, h, hf => by
    simp only [List.map_cons, List.cons.injEq] at h
    simp only [List.flatten_cons] at hf
    obtain ⟨h1, h2⟩ := List.append_inj hf h.1
    rw [h1, flatten_inj h.2 h2]

/-- What holds between two flat lists holds between their pieces. -/
theorem forall₂_pieces {β γ : Type} {R : β → γ → Prop} : ∀ {bs : List (List β)} {ts : List (List γ)},
    bs.map List.length = ts.map List.length → List.Forall₂ R bs.flatten ts.flatten → List.Forall₂ (List.Forall₂ R) bs ts
  | [], [], _, _ => .nil
  | [], _ :: _, h, _ => by simp at h
  | _ :: _, [], h, _ => by simp at h
  | b :: bs, t :: ts, h, hf => by
    simp only [List.map_cons, List.cons.injEq] at h
    simp only [List.flatten_cons] at hf
    refine .cons ?_ (forall₂_pieces h.2 ?_)
    · have := List.forall₂_take b.length hf
      rwa [List.take_left, h.1, List.take_left] at this
    · have := List.forall₂_drop b.length hf
      rwa [List.drop_left, h.1, List.drop_left] at this

/-- Position `j * L + r` of a concatenation of lists of length `L` is position `r` of the `j`-th. -/
theorem flatMap_getElem? {β : Type} (g : Nat → List β) (L : Nat) : ∀ (n : Nat) (s : Nat), (∀ j, (g j).length = L) → ∀ {j r : Nat}, j < n →
    r < L → ((List.range' s n).flatMap g)[j * L + r]? = (g (s + j))[r]?
  | 0, _, _, _, _, hj, _ => absurd hj (by omega)
  | n + 1, s, hg, j, r, hj, hr => by
    rw [List.range'_succ, List.flatMap_cons]
    rcases j with _ | j
    · rw [List.getElem?_append_left (by rw [hg]; omega)]
      simp
    · rw [List.getElem?_append_right (by rw [hg]; nlinarith)]
      rw [hg, show (j + 1) * L + r - L = j * L + r by rw [Nat.add_mul]; omega, flatMap_getElem? g L n (s + 1) hg (by omega) hr]
      congr 2; omega

theorem flatMap_length {β : Type} (g : Nat → List β) (L n : Nat) (hg : ∀ j, (g j).length = L) : ((List.range n).flatMap g).length = n * L := by
  simp [List.length_flatMap, hg, List.sum_replicate]

theorem range_flatMap_getElem? {β : Type} {g : Nat → List β} {L n j r : Nat} (hg : ∀ j, (g j).length = L) (hj : j < n) (hr : r < L) :
    ((List.range n).flatMap g)[j * L + r]? = (g j)[r]? := by
  rw [List.range_eq_range', flatMap_getElem? g L n 0 hg hj hr, Nat.zero_add]

variable [Field K]

/-- What two networks make of two inputs agrees at `j` if the hidden values do. -/
theorem layersForward_congr (act : K → K) (j : Nat) : ∀ (ls : List ((Nat × Nat) × List K × List K)) {z z' : Nat → Nat → K},
    (∀ l, z j l = z' j l) → ∀ c, layersForward act ls z j c = layersForward act ls z' j c
  | [], _, _, h, c => h c
  | ((a, b), w, e) :: ls, z, z', h, c => by
    refine layersForward_congr act j ls (fun l => ?_) c
    unfold localForward
    simp only [h]

end
end Cdmir.Net
