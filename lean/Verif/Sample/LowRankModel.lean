import Verif.Lipschitz.BoundModel

/-!
# Model of the reduction of `L` to full row rank

Source: `/repo/psdr/sample/util.py` 6-31 (`low_rank_L`).

The singular value decomposition is a parameter: the singular values `s` and the corresponding rows of `VT`.
-/

namespace Verif.Samp

open Verif Matrix

variable {k m : ℕ}

/-- `atol` of `np.isclose(s, 0)`. -/
noncomputable def svTol : ℝ := 1 / 10 ^ 8

/-- The part of `scipy.linalg.svd(L)` the code uses: the singular values and the first rows of `VT`. -/
structure Svd (p m : ℕ) where
  s : Fin p → ℝ
  VT : Matrix (Fin p) (Fin m) ℝ

/-- `U, s, VT` is a singular value decomposition of `L`, with `U` reduced to its first columns. -/
def IsSvd {p : ℕ} (L : Matrix (Fin k) (Fin m) ℝ) (d : Svd p m) : Prop :=
  (∃ U : Matrix (Fin k) (Fin p) ℝ, Uᵀ * U = 1 ∧ L = U * Matrix.diagonal d.s * d.VT) ∧ d.VT * d.VTᵀ = 1 ∧ (∀ i, 0 ≤ d.s i) ∧ ∀ i j, i ≤ j → d.s j ≤ d.s i

open Classical in
/-- `np.argwhere(~np.isclose(s, 0))`, util.py 23. -/
noncomputable def keptIdx {p : ℕ} (d : Svd p m) : List (Fin p) := (List.finRange p).filter (fun i => ¬ |d.s i - 0| ≤ svTol)

/-- `np.diag(s[I]).dot(VT.T[:,I].T)`, util.py 27-30. -/
noncomputable def reducedL {p : ℕ} (d : Svd p m) (I : List (Fin p)) : Matrix (Fin I.length) (Fin m) ℝ := fun a j => d.s I[a] * d.VT I[a] j

open Classical in
/-- `low_rank_L(L)`, util.py 6-31. The test `np.all(I)` is about the indices themselves: it holds when the index zero is not among them. -/
noncomputable def lowRankL {p : ℕ} (L : Matrix (Fin k) (Fin m) ℝ) (d : Svd p m) : Σ n : ℕ, Matrix (Fin n) (Fin m) ℝ :=
  if ∀ i ∈ keptIdx d, i.val ≠ 0 then ⟨k, L⟩ else ⟨_, reducedL d (keptIdx d)⟩

end Verif.Samp
