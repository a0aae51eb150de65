import Verif.Sample.ClusterModel

/-!
# Model of `minimax_scale`

Source: `/repo/psdr/sample/minimax_scale.py` 8-79.

The Voronoi vertices are those of the design passed in, whatever the scale (minimax_scale.py 44, 54: `Xhat`, not `Xtmp`); they are a parameter, as they do not depend on the scale
(with sampled vertices the calls draw new random numbers; this is only modelled with the same vertices in every call).  `minimize_scalar` is a parameter.  The center of the domain is a
parameter.
-/

namespace Verif.Samp

open Verif Verif.Domain Verif.Geo Matrix

variable {k m : ℕ}

/-- `minimize_scalar(score, (a, b, c), bounds = [0, 1])`. -/
abbrev ScalarMin := (ℝ → ℝ) → ℝ × ℝ × ℝ → Except Err ℝ

/-- `scale_design(alpha)`, minimax_scale.py 38-39. -/
def scaleDesign (c : Lip.Pt m) (Xhat : List (Lip.Pt m)) (α : ℝ) : List (Lip.Pt m) := Xhat.map fun x => α • (x - c) + c

/-- `score_design(alpha)`, minimax_scale.py 41-59. -/
noncomputable def scaleScore (L : Matrix (Fin k) (Fin m) ℝ) (V : List (Lip.Pt m)) (c : Lip.Pt m) (Xhat : List (Lip.Pt m)) (α : ℝ) : ℝ :=
  fillOver L (scaleDesign c Xhat α) V

/-- `np.linspace(0.5, 1, npoints)`. -/
noncomputable def alphaVec (npoints : ℕ) : List ℝ := (List.range npoints).map fun (i : ℕ) => 1 / 2 + (i : ℝ) * (1 / 2 / ((npoints - 1 : ℕ) : ℝ))

/-- The scale, minimax_scale.py 66-77.  `alpha_vec[k-1]` is the last entry for `k = 0`; `alpha_vec[k+1]` raises IndexError at the end, which is caught. -/
noncomputable def pickScale (mins : ScalarMin) (score : ℝ → ℝ) (g : List ℝ) : Except Err ℝ :=
  let i := argminFrom (fun j => score (g.getD j 0)) 0 (List.range g.length)
  match g[i]? with
  | none => .error .valueError
  | some b =>
    match g[if i = 0 then g.length - 1 else i - 1]?, g[i + 1]? with
    | some a, some c =>
      match mins score (a, b, c) with
      | .ok x => .ok x
      | .error .valueError => .ok b
      | .error .indexError => .ok b
      | .error e => .error e
    | _, _ => .ok b

/-- `minimax_scale(domain, Xhat, L, npoints = npoints)`. -/
noncomputable def minimaxScale (mins : ScalarMin) (L : Matrix (Fin k) (Fin m) ℝ) (V : List (Lip.Pt m)) (c : Lip.Pt m) (npoints : ℕ) (Xhat : List (Lip.Pt m)) :
    Except Err (List (Lip.Pt m)) :=
  match pickScale mins (scaleScore L V c Xhat) (alphaVec npoints) with
  | .error e => .error e
  | .ok α => .ok (scaleDesign c Xhat α)

end Verif.Samp
