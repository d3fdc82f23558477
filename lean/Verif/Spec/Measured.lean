import Verif.Model.Hier
import Mathlib.LinearAlgebra.Matrix.PosDef

/-! Linear models in which every observed variable measures one latent variable, and the tetrad conditions. -/

namespace Cdmir.Hier

/-- A measurement model: every observed variable is its load times one latent variable plus noise. -/
structure Measured (V L : Type) where
  /-- The latent variable that is measured. -/
  latent : V → L
  load : V → ℝ
  /-- The covariances of the latent variables. -/
  lcov : L → L → ℝ
  /-- The covariances of the noise. -/
  noise : V → V → ℝ

variable {V L : Type}

/-- The covariances of the observed variables. -/
def Measured.cov (M : Measured V L) (u v : V) : ℝ := M.load u * M.load v * M.lcov (M.latent u) (M.latent v) + M.noise u v

/-- What is asked of a measurement model. Every latent variable that is measured is measured twice, with a load that is not zero. Noise is correlated at most
between two variables that are the only ones to measure their latent variable. Two variables of one latent variable and two of another have a tetrad
difference that is not zero. -/
structure Measured.Good (M : Measured V L) (cols : List V) : Prop where
  load : ∀ v ∈ cols, M.load v ≠ 0
  symm : ∀ u ∈ cols, ∀ v ∈ cols, M.cov u v = M.cov v u
  two : ∀ v ∈ cols, ∃ w ∈ cols, w ≠ v ∧ M.latent w = M.latent v
  noise : ∀ u ∈ cols, ∀ v ∈ cols, u ≠ v → M.noise u v ≠ 0 → M.latent u = M.latent v ∧ ∀ w ∈ cols, M.latent w = M.latent u → w = u ∨ w = v
  apart : ∀ x ∈ cols, ∀ k ∈ cols, ∀ y ∈ cols, ∀ l ∈ cols, x ≠ k → y ≠ l → M.latent k = M.latent x → M.latent l = M.latent y →
    M.latent x ≠ M.latent y → M.cov x k * M.cov y l ≠ M.cov x l * M.cov y k

/-- The noise is uncorrelated, and no latent variable is a multiple of another. -/
structure Measured.Pure (M : Measured V L) (cols : List V) : Prop where
  load : ∀ v ∈ cols, M.load v ≠ 0
  lsymm : ∀ u ∈ cols, ∀ v ∈ cols, M.lcov (M.latent u) (M.latent v) = M.lcov (M.latent v) (M.latent u)
  corr : ∀ u ∈ cols, ∀ v ∈ cols, M.latent u ≠ M.latent v →
    M.lcov (M.latent u) (M.latent v) ^ 2 < M.lcov (M.latent u) (M.latent u) * M.lcov (M.latent v) (M.latent v)
  two : ∀ v ∈ cols, ∃ w ∈ cols, w ≠ v ∧ M.latent w = M.latent v
  noise : ∀ u ∈ cols, ∀ v ∈ cols, u ≠ v → M.noise u v = 0

theorem Measured.Pure.cov {M : Measured V L} {cols : List V} (h : M.Pure cols) {u v : V} (hu : u ∈ cols) (hv : v ∈ cols) (huv : u ≠ v) :
    M.cov u v = M.load u * M.load v * M.lcov (M.latent u) (M.latent v) := by
  unfold Measured.cov
  rw [h.noise u hu v hv huv, add_zero]

theorem Measured.Pure.good {M : Measured V L} {cols : List V} (h : M.Pure cols) : M.Good cols where
  load := h.load
  symm u hu v hv := by
    by_cases huv : u = v
    · rw [huv]
    · rw [h.cov hu hv huv, h.cov hv hu (Ne.symm huv), h.lsymm u hu v hv]
      ring
  two := h.two
  noise u hu v hv huv hn := absurd (h.noise u hu v hv huv) hn
  apart x hx k hk y hy l hl hxk hyl hkx hly hxy := by
    have hxl : x ≠ l := fun e => hxy (by rw [e, hly])
    have hyk : y ≠ k := fun e => hxy (by rw [e, hkx])
    rw [h.cov hx hk hxk, h.cov hy hl hyl, h.cov hx hl hxl, h.cov hy hk hyk, hkx, hly, h.lsymm y hy x hx]
    intro e
    have hne : M.load x * M.load k * M.load y * M.load l ≠ 0 :=
      mul_ne_zero (mul_ne_zero (mul_ne_zero (h.load x hx) (h.load k hk)) (h.load y hy)) (h.load l hl)
    have : M.lcov (M.latent x) (M.latent x) * M.lcov (M.latent y) (M.latent y) = M.lcov (M.latent x) (M.latent y) ^ 2 := by
      apply mul_left_cancel₀ hne
      linear_combination e
    exact (h.corr x hx y hy hxy).ne this.symm

/-- The tests say exactly which tetrad differences of the covariances `σ` are zero. -/
def Exact {V Col : Type} [LinearOrder V] (env : Env V Col) (d : Frame V Col) (σ : V → V → ℝ) : Prop :=
  ∀ i ∈ dkeys d, ∀ j ∈ dkeys d, ∀ k ∈ dkeys d, ∀ l ∈ dkeys d, [i, j, k, l].Nodup →
    ∃ b, vanE env d i j k l = .ok b ∧ (b = true ↔ σ i k * σ j l = σ i l * σ j k)

end Cdmir.Hier
