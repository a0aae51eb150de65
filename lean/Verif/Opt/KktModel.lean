import Verif.Opt.SeqLPModel

/-!
# Model of the stationarity measure of the sequential linear program

Source: `/repo/psdr/seqlp.py` 86-122 (`kkt_norm`, printed in every iteration when `verbose`). `scipy.optimize.nnls` is a
parameter that returns the residual norm; its columns are the rows of `con_grad` that the mask `I` selects, indexed by the
numbers of the selected rows (`Sum.inl i`: row `i`, `Sum.inr i`: row `len(fx) + i`), its rows are the columns of `con_grad`.
-/

namespace Verif.Opt

open Classical Verif.Domain Verif.Lip Matrix

variable {m q : ℕ}

/-- `scipy.optimize.nnls(A, b)[1]`, where `A` has one column per `ι` and one row per `κ`. -/
abbrev NnlsRes := ∀ (ι κ : Type) [Fintype ι] [Fintype κ], (ι → κ → ℝ) → (κ → ℝ) → ℝ

/-- `t = objfun(fx)` for `norm = inf`; `np.max(np.abs(fx))`, seqlp.py 90. -/
noncomputable def maxAbs (hq : 0 < q) (fx : Pt q) : ℝ := Finset.univ.sup' ⟨⟨0, hq⟩, Finset.mem_univ _⟩ fun i => |fx i|

/-- `con = np.hstack([fx - t, -fx - t])`, seqlp.py 93. -/
def conInf (t : ℝ) (fx : Pt q) : Fin q ⊕ Fin q → ℝ
  | .inl i => fx i - t
  | .inr i => -fx i - t

/-- `con_grad` for `norm = inf`, seqlp.py 94-98; the last column belongs to `t`. -/
def gradInf (J : Matrix (Fin q) (Fin m) ℝ) : Fin q ⊕ Fin q → Fin m ⊕ Unit → ℝ
  | .inl i, .inl j => J i j
  | .inr i, .inl j => -J i j
  | _, .inr _ => -1

/-- `-obj_grad` for `norm = inf`, seqlp.py 91-92. -/
def rhsInf : Fin m ⊕ Unit → ℝ
  | .inl _ => 0
  | .inr _ => -1

/-- `con` for `norm = 1`, seqlp.py 104-107 (`t = np.abs(fx)`). -/
def conOne (fx : Pt q) : Fin q ⊕ Fin q → ℝ
  | .inl i => fx i - |fx i|
  | .inr i => -fx i - |fx i|

/-- `con_grad` for `norm = 1`, seqlp.py 108-112: the assignments in 110 and 112 fill all of the last `len(fx)` columns. -/
def gradOne (J : Matrix (Fin q) (Fin m) ℝ) : Fin q ⊕ Fin q → Fin m ⊕ Fin q → ℝ
  | .inl i, .inl j => J i j
  | .inr i, .inl j => -J i j
  | _, .inr _ => -1

/-- `-obj_grad` for `norm = 1`, seqlp.py 105-106. -/
def rhsOne : Fin m ⊕ Fin q → ℝ
  | .inl _ => 0
  | .inr _ => -1

/-- `kkt_norm(fx, jacx)`, seqlp.py 86-122; `none` is `nan`. For `norm = inf` an empty `fx` raises `ValueError`. -/
noncomputable def kktNorm (nnls : NnlsRes) (n : SNorm) (fx : Pt q) (J : Matrix (Fin q) (Fin m) ℝ) : Except Exn (Option ℝ) :=
  match n with
  | .inf =>
    if hq : 0 < q then
      .ok (some (nnls {s // |conInf (maxAbs hq fx) fx s| < 1e-10} (Fin m ⊕ Unit) (fun s => gradInf J s.1) rhsInf))
    else .error (.err .valueError)
  | .one => .ok (some (nnls {s // |conOne fx s| = 0} (Fin m ⊕ Fin q) (fun s => gradOne J s.1) rhsOne))
  | .two => .ok (some (nrm (Jᵀ *ᵥ fx)))
  | _ => .ok none

end Verif.Opt
