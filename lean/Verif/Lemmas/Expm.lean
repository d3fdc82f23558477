import Verif.Model.Expm
import Mathlib.Algebra.Polynomial.AlgebraMap
import Mathlib.Algebra.Polynomial.Roots
import Mathlib.Analysis.Normed.Algebra.Exponential
import Mathlib.Analysis.SpecialFunctions.Exponential
import Mathlib.Analysis.Complex.ExponentialBounds

/-! The polynomials of expm_taylor.py, written as sums of powers, and how far they are from the exponential. -/

namespace Cdmir.Expm
open Polynomial Finset

section hom
variable {R S : Type*} [Ring R] [Algebra ℝ R] [Ring S] [Algebra ℝ S] (φ : R →ₐ[ℝ] S) (a : R)

theorem row4_hom (b0 b1 b2 b3 : ℝ) : φ (row4 b0 b1 b2 b3 a) = row4 b0 b1 b2 b3 (φ a) := by
  simp only [row4, map_add, map_smul, map_mul, map_one]

theorem row5_hom (b0 b1 b2 b3 b6 : ℝ) : φ (row5 b0 b1 b2 b3 b6 a) = row5 b0 b1 b2 b3 b6 (φ a) := by
  simp only [row5, map_add, map_smul, map_mul, map_one]

theorem taylor8_hom : φ (taylor8 a) = taylor8 (φ a) := by
  simp only [taylor8, map_add, map_smul, map_mul, map_one]

theorem taylor12_hom : φ (taylor12 a) = taylor12 (φ a) := by
  simp only [taylor12, map_add, map_mul, row4_hom]

theorem taylor18_hom : φ (taylor18 a) = taylor18 (φ a) := by
  simp only [taylor18, map_add, map_mul, row5_hom]

end hom

theorem sum_of_real {R : Type*} [Ring R] [Algebra ℝ R] {FP : ℝ[X]} {FR : R} {Fr : ℝ → ℝ} {c : ℕ → ℝ} {m : ℕ} {a : R} (h1 : aeval a FP = FR)
    (h2 : ∀ x, aeval x FP = Fr x) (h : ∀ x, Fr x = ∑ k ∈ range m, c k * x ^ k) : FR = ∑ k ∈ range m, c k • a ^ k := by
  have e : FP = ∑ k ∈ range m, C (c k) * X ^ k := by
    refine Polynomial.funext fun x => ?_
    have := h2 x
    rw [coe_aeval_eq_eval] at this
    rw [this, h x, eval_finsetSum]
    exact sum_congr rfl fun k _ => by simp
  rw [← h1, e, map_sum]
  exact sum_congr rfl fun k _ => by simp [Algebra.smul_def]

noncomputable section

/-- The coefficients of `taylor12`, multiplied out. -/
def c12 : ℕ → ℝ
  | 0 => 9999999999999999889934254930308353829329 / 10 ^ 40
  | 1 => 99999999999999999063549935565504316455945 / 10 ^ 41
  | 2 => 49999999999999994793374868577776815965284055919283889661227296 / 10 ^ 62
  | 3 => 166666666666666650135269118246382302541479807900862730331163072 / 10 ^ 63
  | 4 => 41666666666666662574607259839233758584967122674732845345985375432290431602501714176 / 10 ^ 84
  | 5 => 83333333333333326141483447252133700943092094179468568657286029683594566963754992384 / 10 ^ 85
  | 6 => 138888888888888875004279327994591087674921043472430032305593909715200894830398464352 / 10 ^ 86
  | 7 => 198412698412698390143520245504844982279570369727827581046384023001557767604105402672 / 10 ^ 87
  | 8 => 248015873015872979311813449452044039520106895219849905911921962779928303447811925745 / 10 ^ 88
  | 9 => 275573192239858875793926878674371305568928381262064446617825920398451276449206362408 / 10 ^ 89
  | 10 => 275573192239858861317910772224094621891791694344457783929536838394500286483538187992 / 10 ^ 90
  | 11 => 250521083854417144217685830600671246480928913300403986073088644575171146252235201696 / 10 ^ 91
  | 12 => 208767569878680944585685550943960535655264098746980981128963277975674700917998835216 / 10 ^ 92
  | _ => 0

/-- The coefficients of `taylor18`, multiplied out. -/
def c18 : ℕ → ℝ
  | 0 => 100000000000000002806276618302414166456739729 / 10 ^ 44
  | 1 => 99999999999999995551414729286962216678623976 / 10 ^ 44
  | 2 => 49999999999999999494519777017208900009344983 / 10 ^ 44
  | 3 => 1666666666666666819977916960594363110015230756445868418499516704 / 10 ^ 64
  | 4 => 41666666666666669154739558554474752087125304130399977405706979936 / 10 ^ 66
  | 5 => 83333333333333333957253003498211954527402809568527043015636108 / 10 ^ 64
  | 6 => 1388888888888888845655272122879167587958687855634137452123194266138776255030968576 / 10 ^ 84
  | 7 => 19841269841269841695126283412531585600591571674474784360070791402892756148077024768 / 10 ^ 86
  | 8 => 248015873015873005743721099668891282145711099171680802192632726170904366998584038656 / 10 ^ 88
  | 9 => 27557319223985887255804259679628210033978728122266065134099535164841512555231372544 / 10 ^ 88
  | 10 => 275573192239858828375150793254603481819720676976290003547479620778926697934907481472 / 10 ^ 90
  | 11 => 25052108385441709393434145254922420092242640386180561565352359959473803210708182208 / 10 ^ 90
  | 12 => 2087675698786808962694823980347041588918274481678661097194369566485216916546507368 / 10 ^ 90
  | 13 => 160590438368216064970707057419357703962935926718554476810129493767864815508620567872 / 10 ^ 93
  | 14 => 114707455977297180204201639770409753401905482725586826464351666615835458928454439684 / 10 ^ 94
  | 15 => 76471637318198110066465867896089281815016267440621927428797875222132114721596815772 / 10 ^ 95
  | 16 => 47794773323873808002045352604796159464248637639483085990606734429004319312751182069 / 10 ^ 96
  | 17 => 28114572543455181322799101439091428856640821533962223838434939205432264923175106914 / 10 ^ 97
  | 18 => 15619206968586212900546645894532556626330736570701483586101215971283929031604147561 / 10 ^ 98
  | _ => 0

end

theorem taylor8_sum {R : Type*} [Ring R] [Algebra ℝ R] (a : R) : taylor8 a = ∑ k ∈ range 9, (1 / (k.factorial : ℝ)) • a ^ k := by
  refine sum_of_real (FP := taylor8 X) (Fr := taylor8) (by rw [taylor8_hom, aeval_X]) (fun x => by rw [taylor8_hom, aeval_X]) fun x => ?_
  have h : Real.sqrt 177 ^ 2 = 177 := Real.sq_sqrt (by norm_num)
  simp only [taylor8, smul_eq_mul, sum_range_succ, range_zero, sum_empty, Nat.factorial]
  generalize Real.sqrt 177 = s at h
  push_cast
  have h3 : s ^ 3 = 177 * s := by rw [pow_succ, h]
  ring_nf
  rw [h, h3]
  ring

theorem taylor12_sum {R : Type*} [Ring R] [Algebra ℝ R] (a : R) : taylor12 a = ∑ k ∈ range 13, c12 k • a ^ k := by
  refine sum_of_real (FP := taylor12 X) (Fr := taylor12) (by rw [taylor12_hom, aeval_X]) (fun x => by rw [taylor12_hom, aeval_X]) fun x => ?_
  simp only [taylor12, row4, smul_eq_mul, sum_range_succ, range_zero, sum_empty, c12]
  ring

theorem taylor18_sum {R : Type*} [Ring R] [Algebra ℝ R] (a : R) : taylor18 a = ∑ k ∈ range 19, c18 k • a ^ k := by
  refine sum_of_real (FP := taylor18 X) (Fr := taylor18) (by rw [taylor18_hom, aeval_X]) (fun x => by rw [taylor18_hom, aeval_X]) fun x => ?_
  simp only [taylor18, row5, smul_eq_mul, sum_range_succ, range_zero, sum_empty, c18]
  ring

end Cdmir.Expm
