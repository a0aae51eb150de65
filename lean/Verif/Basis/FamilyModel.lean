import Verif.Basis.TensorModel

/-!
# The scalar polynomials of the basis classes

`/repo/psdr/basis.py` 360-410 selects from `numpy.polynomial` the Vandermonde and derivative routines of five
families.  Those routines are not part of the repository; here they are modelled after their documentation
and published source: the three-term recurrences of `polyvander`, `legvander`, `chebvander`, `lagvander` and
`hermvander`, and the loops of `polyder`, `legder`, `chebder`, `lagder` and `hermder`.
-/

namespace Verif.Basis

open Verif

/-- `polyvander`. -/
noncomputable def monoPhi (n : ℕ) (x : ℝ) : ℝ := x ^ n

/-- `legvander`. -/
noncomputable def legPhi : ℕ → ℝ → ℝ
  | 0, _ => 1
  | 1, x => x
  | n + 2, x => (legPhi (n + 1) x * x * (2 * (n + 2) - 1) - legPhi n x * (n + 1)) / (n + 2)

/-- `chebvander`. -/
noncomputable def chebPhi : ℕ → ℝ → ℝ
  | 0, _ => 1
  | 1, x => x
  | n + 2, x => chebPhi (n + 1) x * (2 * x) - chebPhi n x

/-- `lagvander`. -/
noncomputable def lagPhi : ℕ → ℝ → ℝ
  | 0, _ => 1
  | 1, x => 1 - x
  | n + 2, x => (lagPhi (n + 1) x * (2 * (n + 2) - 1 - x) - lagPhi n x * (n + 1)) / (n + 2)

/-- `hermvander`. -/
noncomputable def hermPhi : ℕ → ℝ → ℝ
  | 0, _ => 1
  | 1, x => 2 * x
  | n + 2, x => hermPhi (n + 1) x * (2 * x) - hermPhi n x * (2 * (n + 1))

/-- The common form of the derivative loops, from the highest coefficient down (the list is reversed): coefficient `j`
gives entry `j - 1` of the result, multiplied by `k j`, and adds to the coefficients `j - 1` and `j - 2`. -/
noncomputable def derRev (k s1 s2 : ℕ → ℝ) : List ℝ → List ℝ
  | [] => []
  | [_] => []
  | [c1, _] => [k 1 * c1]
  | cj :: cj1 :: cj2 :: rest =>
    k (rest.length + 2) * cj ::
      derRev k s1 s2 ((cj1 + s1 (rest.length + 2) * cj) :: (cj2 + s2 (rest.length + 2) * cj) :: rest)
  termination_by l => l.length

/-- One derivative. -/
noncomputable def derOnce (k s1 s2 : ℕ → ℝ) (c : List ℝ) : List ℝ := (derRev k s1 s2 c.reverse).reverse

/-- `der(c, m)`: with at least as many derivatives as coefficients the result is `c[:1]*0`. -/
noncomputable def derMany (k s1 s2 : ℕ → ℝ) (c : List ℝ) (m : ℕ) : List ℝ :=
  if c.length ≤ m then (c.take 1).map (fun a => a * 0) else (derOnce k s1 s2)^[m] c

/-- `MonomialTensorBasis`, basis.py 360-366: `polyder`. -/
noncomputable def monoFamily : Family := ⟨monoPhi, derMany (fun j => j) (fun _ => 0) (fun _ => 0)⟩

/-- `LegendreTensorBasis`, basis.py 369-377: `legder`. -/
noncomputable def legFamily : Family := ⟨legPhi, derMany (fun j => 2 * j - 1) (fun _ => 0) (fun _ => 1)⟩

/-- `ChebyshevTensorBasis`, basis.py 379-387: `chebder`. -/
noncomputable def chebFamily : Family :=
  ⟨chebPhi, derMany (fun j => if j = 1 then 1 else 2 * j) (fun _ => 0) (fun j => if j ≤ 2 then 0 else j / (j - 2))⟩

/-- `LaguerreTensorBasis`, basis.py 391-399: `lagder`. -/
noncomputable def lagFamily : Family := ⟨lagPhi, derMany (fun _ => -1) (fun _ => 1) (fun _ => 0)⟩

/-- `HermiteTensorBasis`, basis.py 401-409: `hermder`. -/
noncomputable def hermFamily : Family := ⟨hermPhi, derMany (fun j => 2 * j) (fun _ => 0) (fun _ => 0)⟩

end Verif.Basis
