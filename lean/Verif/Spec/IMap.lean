import Verif.Spec.DSep
import Mathlib.Order.Defs.LinearOrder

/-! Independence maps, and scores that tell d-separation. -/

namespace Cdmir
namespace Spec
variable {α : Type}

/-- `G` is an independence map of `R`: every d-separation of `G` holds in `R`. -/
def IMap (R G : α → α → Prop) : Prop := ∀ (x y : α) (Z : α → Prop), ¬ Z x → ¬ Z y → DSep G x y Z → DSep R x y Z

/-- The local score tells the d-separations of `R` among the variables `N` (local consistency): one more parent `i` of `j` lowers the score if the
other parents d-separate `i` from `j`, and raises it if they do not. -/
def LocallyConsistent {K : Type} [LinearOrder K] (score : α → List α → K) (N : List α) (R : α → α → Prop) : Prop :=
  ∀ i ∈ N, ∀ j ∈ N, i ≠ j → ∀ l : List α, l.Nodup → (∀ x ∈ l, x ∈ N) → i ∉ l → j ∉ l →
    (DSep R i j (fun x => x ∈ l) → score j (i :: l) < score j l) ∧ (¬ DSep R i j (fun x => x ∈ l) → score j l < score j (i :: l))

end Spec
end Cdmir
