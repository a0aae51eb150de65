import Verif.Geometry.VsampleModel

/-!
# Model of `initial_sample` and of the convex combination coefficients of a hull

Sources: `/repo/psdr/sample/initial.py` 8-85, `/repo/psdr/domains/convexhull.py` 203-211 (`coefficients`), 144-146 (duplicates).

`low_rank_L` is C48, the samples of the hull C22, `unique_points` C49; QR, `nnls`, `corner` and the random directions are parameters.
-/

namespace Verif.Samp

open Verif Verif.Domain Verif.Geo Matrix

variable {k m p : ℕ}

/-- `cs.T @ alpha`. -/
def combo (pts : List (Lip.Pt m)) (α : List ℝ) : Lip.Pt m := (List.zipWith (fun x a => a • x) pts α).sum

/-- `normalize(x)` of a hull: an affine function of every coordinate (C05, C06). -/
def hullNorm (w c : Lip.Pt p) (x : Lip.Pt p) : Lip.Pt p := fun i => w i * (x i - c i)

/-- `scipy.optimize.nnls(A, b)` where `A` has the normalized points as columns and a last row of ones. -/
abbrev Nnls (p : ℕ) := List (Lip.Pt p) → Lip.Pt p → List ℝ

/-- `coefficients(x)`, convexhull.py 203-211. -/
def hullCoef (nnls : Nnls p) (w c : Lip.Pt p) (pts : List (Lip.Pt p)) (x : Lip.Pt p) : List ℝ := nnls (pts.map (hullNorm w c)) (hullNorm w c x)

/-- The directions, initial.py 57-60. -/
def directions (p : ℕ) (sphere : List (Lip.Pt p)) : List (Lip.Pt p) := if p = 1 then [fun _ => -1, fun _ => 1] else sphere

/-- The points of the hull, initial.py 62-70, and the points of the domain they come from. -/
noncomputable def hullPoints (corner : Lip.Pt m → Except Err (Lip.Pt m)) (J : Matrix (Fin p) (Fin m) ℝ) (U : Matrix (Fin m) (Fin p) ℝ) (zs : List (Lip.Pt p)) :
    Except Err (List (Lip.Pt m) × List (Lip.Pt p)) :=
  match mapE (fun z => corner (U *ᵥ z)) zs with
  | .error e => .error e
  | .ok cs =>
    let I := uniquePoints (cs.map (J *ᵥ ·))
    .ok (select cs I, select (cs.map (J *ᵥ ·)) I)

/-- `initial_sample(domain, L, Nsamp, Nboundary)` for a metric that is not a multiple of the identity, initial.py 50-85; `J` is `low_rank_L(L)`, `hull pts n` is
`ConvexHullDomain(pts).sample(n)`, where `pts` has no duplicates, with the scaling of the normalization of that domain in `nw`, `nc`. -/
noncomputable def initialLow (corner : Lip.Pt m → Except Err (Lip.Pt m)) (nnls : Nnls p) (nw nc : List (Lip.Pt p) → Lip.Pt p)
    (hull : List (Lip.Pt p) → ℕ → Except Err (List (Lip.Pt p))) (J : Matrix (Fin p) (Fin m) ℝ) (U : Matrix (Fin m) (Fin p) ℝ) (sphere : List (Lip.Pt p)) (Nsamp : ℕ) :
    Except Err (List (Lip.Pt m)) :=
  match hullPoints corner J U (directions p sphere) with
  | .error e => .error e
  | .ok (cs, Lcs) =>
    let pts := select Lcs (uniquePoints Lcs)
    match hull pts Nsamp with
    | .error e => .error e
    | .ok Y =>
      mapE (fun y =>
        let α := hullCoef nnls (nw pts) (nc pts) pts y
        if α.length = cs.length then .ok (combo cs α) else .error .valueError) Y

open Classical in
/-- `initial_sample`, initial.py 39-42: a multiple of the identity is recognized first. -/
noncomputable def initialSample (sample : ℕ → Except Err (List (Lip.Pt m))) (L : Matrix (Fin k) (Fin m) ℝ) (low : Except Err (List (Lip.Pt m))) (Nsamp : ℕ) :
    Except Err (List (Lip.Pt m)) :=
  if k = m ∧ ∃ a : ℝ, (∀ (i : Fin k) (j : Fin m), i.val = 0 → j.val = 0 → L i j = a) ∧
      |Real.sqrt (∑ i : Fin k, ∑ j : Fin m, ((if i.val = j.val then a else 0) - L i j) ^ 2) - 0| ≤ 1 / 10 ^ 8 then sample Nsamp
  else low

end Verif.Samp
