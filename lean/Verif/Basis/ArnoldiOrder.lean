import Verif.Basis.ArnoldiModel

/-!
# The Arnoldi basis does not depend on the order of the points
-/

namespace Verif.Basis

open Verif

/-- Two columns given by one function of the point (or both empty, for a column looked up outside the list). -/
def SameCol (X X' : List Vec) (q q' : Vec) : Prop := (q = [] ∧ q' = []) ∨ ∃ F : Vec → ℝ, q = X.map F ∧ q' = X'.map F

variable {X X' : List Vec}

theorem SameCol.dot (h : X.Perm X') {p p' q q' : Vec} (hp : SameCol X X' p p') (hq : SameCol X X' q q') : Vec.dot p q = Vec.dot p' q' := by
  rcases hp with ⟨rfl, rfl⟩ | ⟨F, rfl, rfl⟩
  · simp
  rcases hq with ⟨rfl, rfl⟩ | ⟨G, rfl, rfl⟩
  · simp
  simp only [Vec.dot, List.zipWith_map, List.zipWith_self]
  exact (h.map _).sum_eq

theorem SameCol.norm (h : X.Perm X') {q q' : Vec} (hq : SameCol X X' q q') : Vec.norm q = Vec.norm q' := by
  rcases hq with ⟨rfl, rfl⟩ | ⟨G, rfl, rfl⟩
  · rfl
  simp only [Vec.norm, Vec.sumSq, List.map_map, (h.map _).sum_eq]

theorem SameCol.zip (f : ℝ → ℝ → ℝ) {p p' q q' : Vec} (hp : SameCol X X' p p') (hq : SameCol X X' q q') :
    SameCol X X' (List.zipWith f p q) (List.zipWith f p' q') := by
  rcases hp with ⟨rfl, rfl⟩ | ⟨F, rfl, rfl⟩
  · left; simp
  rcases hq with ⟨rfl, rfl⟩ | ⟨G, rfl, rfl⟩
  · left; simp
  right
  exact ⟨fun x => f (F x) (G x), by simp [List.zipWith_map, List.zipWith_self], by simp [List.zipWith_map, List.zipWith_self]⟩

theorem SameCol.map (f : ℝ → ℝ) {q q' : Vec} (hq : SameCol X X' q q') : SameCol X X' (q.map f) (q'.map f) := by
  rcases hq with ⟨rfl, rfl⟩ | ⟨G, rfl, rfl⟩
  · left; simp
  right
  exact ⟨fun x => f (G x), by simp, by simp⟩

theorem mgs_same (h : X.Perm X') (c : ℝ) {Q Q' : List Vec} (hQ : List.Forall₂ (SameCol X X') Q Q') {q q' : Vec} (hq : SameCol X X' q q') (l : List ℝ) :
    (Q.foldl (mgsStep c) (l, q)).1 = (Q'.foldl (mgsStep c) (l, q')).1 ∧
      SameCol X X' (Q.foldl (mgsStep c) (l, q)).2 (Q'.foldl (mgsStep c) (l, q')).2 := by
  induction hQ generalizing l q q' with
  | nil => exact ⟨rfl, hq⟩
  | cons hc _ ih =>
    simp only [List.foldl_cons, mgsStep, hc.dot h hq]
    exact ih (hq.zip _ (hc.map _)) _

theorem finishCol_same (h : X.Perm X') (c : ℝ) {s s' : List Vec × List (List ℝ)} (hs : List.Forall₂ (SameCol X X') s.1 s'.1 ∧ s.2 = s'.2) {q q' : Vec}
    (hq : SameCol X X' q q') : List.Forall₂ (SameCol X X') (finishCol c s q).1 (finishCol c s' q').1 ∧ (finishCol c s q).2 = (finishCol c s' q').2 := by
  obtain ⟨h1, h2⟩ := mgs_same h c hs.1 hq []
  simp only [finishCol, mgs, h1, h2.norm h, hs.2, and_true]
  exact List.rel_append hs.1 (.cons (h2.map _) .nil)

theorem arnoldi_same (h : X.Perm X') (c : ℝ) (P : List (ℕ × ℕ)) :
    List.Forall₂ (SameCol X X') (arnoldi c X P).1 (arnoldi c X' P).1 ∧ (arnoldi c X P).2 = (arnoldi c X' P).2 := by
  have h0 : SameCol X X' (List.replicate X.length 1) (List.replicate X'.length 1) := by
    right
    exact ⟨fun _ => 1, by simp, by simp⟩
  have key : ∀ (P : List (ℕ × ℕ)) (s s' : List Vec × List (List ℝ)), List.Forall₂ (SameCol X X') s.1 s'.1 ∧ s.2 = s'.2 →
      List.Forall₂ (SameCol X X') (P.foldl (colStep c X) s).1 (P.foldl (colStep c X') s').1 ∧ (P.foldl (colStep c X) s).2 = (P.foldl (colStep c X') s').2 := by
    intro P
    induction P with
    | nil => intro s s' hs; exact hs
    | cons ij P ih =>
      intro s s' hs
      refine ih _ _ (finishCol_same h c hs (SameCol.zip _ (Or.inr ⟨fun x => x.getD ij.1 0, rfl, rfl⟩) ?_))
      have : ∀ (l l' : List Vec) (n : ℕ), List.Forall₂ (SameCol X X') l l' → SameCol X X' (l.getD n []) (l'.getD n []) := by
        intro l l' n hl
        induction hl generalizing n with
        | nil => left; simp
        | cons hc _ ih' =>
          cases n with
          | zero => simpa using hc
          | succ n => simpa using ih' n
      exact this _ _ _ hs.1
  exact key P _ _ (finishCol_same h c ⟨.nil, rfl⟩ h0)

/-- The basis built from reordered points has the same recurrence coefficients, so the same values and derivatives everywhere,
for every degree, also for points in special position. -/
theorem arnoldiBasis_order (h : X.Perm X') (degree dim : ℕ) :
    (arnoldiBasis degree dim X).map Prod.snd = (arnoldiBasis degree dim X').map Prod.snd := by
  simp only [arnoldiBasis, Option.map_map]
  congr 1
  funext P
  exact (arnoldi_same h 1 P).2

/-- The same for `vandermonde_arnoldi`, with the polynomial of given coefficients that `polyvalA` evaluates. -/
theorem vandermondeArnoldi_order (h : X.Perm X') (p dim : ℕ) :
    (vandermondeArnoldi X p dim).map Prod.snd = (vandermondeArnoldi X' p dim).map Prod.snd := by
  simp only [vandermondeArnoldi, Option.map_map, h.length_eq]
  congr 1
  funext P
  exact (arnoldi_same h _ P).2

example : [[(1 : ℝ)], [2], [2]].Perm [[2], [1], [2]] := .swap _ _ _

end Verif.Basis
