import Verif.Lipschitz.OptProps
import Verif.Lipschitz.SignProps
import Verif.Lipschitz.BoundProps
import Verif.Lipschitz.ConstProps

/-!
# The order of the samples does not matter for Lipschitz constants, matrices and bounds
-/

namespace Verif.Lip

open Verif Matrix

variable {m k : ℕ}

/-! ### Pairs -/

/-- A symmetric function takes the same values on the pairs of a reordered list. -/
theorem pairsOf_perm {α β : Type*} {f : α × α → β} (hf : ∀ a b, f (a, b) = f (b, a)) {l l' : List α} (h : l.Perm l') :
    ((pairsOf l).map f).Perm ((pairsOf l').map f) := by
  induction h with
  | nil => exact .refl _
  | cons a h ih =>
    simp only [pairsOf, List.map_append, List.map_map]
    exact (h.map _).append ih
  | swap a b l =>
    simp only [pairsOf, List.map_append, List.map_map, List.map_cons, List.cons_append, Function.comp_apply, hf b a]
    refine List.Perm.cons _ ?_
    rw [← List.append_assoc, ← List.append_assoc]
    exact List.Perm.append_right _ List.perm_append_comm
  | trans _ _ h1 h2 => exact h1.trans h2

/-! ### The uncertainty interval -/

/-- The interval depends on the set of samples only: neither order nor repetition matters. -/
theorem uncertainty_order (L : Matrix (Fin k) (Fin m) ℝ) (eps : Option ℝ) {data data' : List (Pt m × ℝ)} (h : ∀ d, d ∈ data ↔ d ∈ data') (x : Pt m) :
    uncertainty L eps data x = uncertainty L eps data' x := by
  by_cases hne : data = []
  · have : data' = [] := List.eq_nil_iff_forall_not_mem.2 fun d hd => by simpa [hne] using (h d).2 hd
    rw [hne, this]
  · have hne' : data' ≠ [] := by
      obtain ⟨d, hd⟩ := List.exists_mem_of_ne_nil _ hne
      exact List.ne_nil_of_mem ((h d).1 hd)
    obtain ⟨lo, hi, h1, ⟨d1, hd1, e1⟩, h2, ⟨d2, hd2, e2⟩, h3⟩ := uncertainty_spec L eps x hne
    obtain ⟨lo', hi', h1', ⟨d1', hd1', e1'⟩, h2', ⟨d2', hd2', e2'⟩, h3'⟩ := uncertainty_spec L eps x hne'
    have hlo : lo = lo' := le_antisymm (e1 ▸ h2' d1 ((h d1).1 hd1)) (e1' ▸ h2 d1' ((h d1').2 hd1'))
    have hhi : hi = hi' := le_antisymm (e2' ▸ h3 d2' ((h d2').2 hd2')) (e2 ▸ h3' d2 ((h d2).1 hd2))
    rw [h1, h1', hlo, hhi]

/-! ### Scales and signs -/

theorem lmax_perm {a b : ℝ} {l l' : List ℝ} (h : (a :: l).Perm (b :: l')) : lmax a l = lmax b l' := by
  obtain ⟨h1, h2⟩ := lmax_spec a l
  obtain ⟨h3, h4⟩ := lmax_spec b l'
  exact le_antisymm (h4 _ (h.subset h1)) (h2 _ (h.symm.subset h3))

theorem lmin_perm {a b : ℝ} {l l' : List ℝ} (h : (a :: l).Perm (b :: l')) : lmin a l = lmin b l' := by
  have hspec : ∀ (l : List ℝ) (a : ℝ), lmin a l ∈ a :: l ∧ ∀ x ∈ a :: l, lmin a l ≤ x := by
    intro l
    induction l with
    | nil => intro a; simp [lmin]
    | cons c l ih =>
      intro a
      have h := ih (min a c)
      have he : lmin a (c :: l) = lmin (min a c) l := rfl
      rw [he]
      refine ⟨?_, fun x hx => ?_⟩
      · rcases List.mem_cons.1 h.1 with h' | h'
        · rw [h']
          rcases min_choice a c with e | e <;> simp [e]
        · simp [h']
      · have h0 := h.2 _ List.mem_cons_self
        rcases List.mem_cons.1 hx with rfl | hx
        · exact h0.trans (min_le_left _ _)
        · rcases List.mem_cons.1 hx with rfl | hx
          · exact h0.trans (min_le_right _ _)
          · exact h.2 _ (List.mem_cons_of_mem _ hx)
  obtain ⟨h1, h2⟩ := hspec l a
  obtain ⟨h3, h4⟩ := hspec l' b
  exact le_antisymm (h2 _ (h.symm.subset h3)) (h4 _ (h.subset h1))

theorem fitScale_perm {data data' : List (Pt m × ℝ)} {grads grads' : List (Pt m)} (hd : data.Perm data') (hg : grads.Perm grads') :
    fitScale data grads = fitScale data' grads' := by
  have h1 : scale1 data = scale1 data' := by
    cases data with
    | nil => rw [List.nil_perm.1 hd]
    | cons d l =>
      cases data' with
      | nil => exact absurd hd.symm (by simp)
      | cons d' l' =>
        have := hd.map Prod.snd
        simp only [List.map_cons] at this
        rw [scale1, scale1, lmax_perm this, lmin_perm this]
  have h2 : scale2 grads = scale2 grads' := by
    cases grads with
    | nil => rw [List.nil_perm.1 hg]
    | cons d l =>
      cases grads' with
      | nil => exact absurd hg.symm (by simp)
      | cons d' l' =>
        have := hg.map nrm
        simp only [List.map_cons] at this
        rw [scale2, scale2, lmax_perm this]
  rw [fitScale, fitScale, h1, h2]

theorem fixSigns_perm {n : ℕ} (U : Matrix (Fin m) (Fin n) ℝ) {data data' : List (Pt m × ℝ)} {grads grads' : List (Pt m)} (hd : data.Perm data') (hg : grads.Perm grads') :
    fixSigns U data grads = fixSigns U data' grads' := by
  have h1 : ∀ u : Pt m, slopeSum data u = slopeSum data' u := fun u => (pairsOf_perm (slope_symm u) hd).sum_eq
  have h2 : ∀ u : Pt m, meanGrad grads u = meanGrad grads' u := fun u => by
    rw [meanGrad, meanGrad, (hg.map _).sum_eq, hg.length_eq]
  simp only [fixSigns, fixGrads, fixSamps, h1, h2, hg.length_eq]

/-- The attributes of a fitted Lipschitz matrix do not depend on the order of samples and gradients, given the matrix found by the solver. -/
theorem finishFit_order (eigh : EighFn m) {data data' : List (Pt m × ℝ)} {grads grads' : List (Pt m)} (hd : data.Perm data') (hg : grads.Perm grads')
    (H : Matrix (Fin m) (Fin m) ℝ) : finishFit eigh data grads (fitScale data grads) H = finishFit eigh data' grads' (fitScale data' grads') H := by
  simp only [finishFit, fitScale_perm hd hg, fixSigns_perm _ (hd.map fun d => (d.1, d.2 / fitScale data' grads')) (hg.map fun g => (fitScale data' grads')⁻¹ • g), scaleData,
    scaleGrads]

theorem zip_pairs {α β : Type*} (data : List (α × β)) : (data.map Prod.fst).zip (data.map Prod.snd) = data := by
  induction data with
  | nil => rfl
  | cons d l ih => simp [ih]

theorem prepare_pairs {data : List (Pt m × ℝ)} (hne : data ≠ []) (g : Option (List (Pt m))) :
    prepare (some (data.map Prod.fst)) (some (data.map Prod.snd)) g = .ok (data, g.getD []) := by
  cases data with
  | nil => exact absurd rfl hne
  | cons d data =>
    have : (d.1 :: List.map Prod.fst data).zip (d.2 :: List.map Prod.snd data) = d :: data := by
      have := zip_pairs (d :: data)
      simpa using this
    simp only [prepare, initDim, pairUp, List.map_cons, List.length_cons, List.length_map, if_true, this]

/-- Fits of reordered samples by exact solvers are smallest matrices of the same constraints, so have the same trace. -/
theorem lipFit_order {build build' : Build m} (hb : BuildOpt build) (hb' : BuildOpt build') {eigh eigh' : EighFn m} (he : EighSpec eigh) (he' : EighSpec eigh')
    {data data' : List (Pt m × ℝ)} (hd : ∀ d, d ∈ data ↔ d ∈ data') {r r' : LipFit m}
    (h : lipFit build eigh none (some (data.map Prod.fst)) (some (data.map Prod.snd)) none = .ok r)
    (h' : lipFit build' eigh' none (some (data'.map Prod.fst)) (some (data'.map Prod.snd)) none = .ok r') :
    IsLipMatrix 0 data [] r.H ∧ IsLipMatrix 0 data [] r'.H ∧ trace r.H = trace r'.H := by
  have h1 := fit_minimal_samples hb he h
  have h2 := fit_minimal_samples hb' he' h'
  rw [zip_pairs] at h1 h2
  have h3 : IsLipMatrix 0 data [] r'.H := (lipMatrix_same hd (fun _ => Iff.rfl) _).2 h2
  exact ⟨h1, h3, le_antisymm (h1.2 _ h3.1) (h3.2 _ h1.1)⟩

/-! ### The Lipschitz constant -/

theorem XRmax_comm (a b : XR) : XR.max a b = XR.max b a := by
  cases a <;> cases b <;> simp [XR.max, max_comm]

theorem XRmax_assoc (a b c : XR) : XR.max (XR.max a b) c = XR.max a (XR.max b c) := by
  cases a <;> cases b <;> cases c <;> simp [XR.max, max_assoc]

theorem npMax_cons (a : XR) (l : List XR) : npMax a l = (a :: l).foldl XR.max .ninf := by
  have : XR.max .ninf a = a := by cases a <;> rfl
  simp [npMax, this]

theorem npMax_perm {a b : XR} {l l' : List XR} (h : (a :: l).Perm (b :: l')) : npMax a l = npMax b l' := by
  rw [npMax_cons, npMax_cons]
  have : RightCommutative XR.max := ⟨fun x y z => by rw [XRmax_assoc, XRmax_comm y z, ← XRmax_assoc]⟩
  exact h.foldl_eq _

theorem ratio_symm (e : XR) (a b : Pt m × ℝ) : ratio e (a, b) = ratio e (b, a) := by
  have h1 : |a.2 - b.2| = |b.2 - a.2| := abs_sub_comm _ _
  have h2 : nrm (a.1 - b.1) = nrm (b.1 - a.1) := by
    rw [nrm, nrm, ← neg_sub b.1 a.1, neg_dotProduct_neg]
  simp only [ratio, h1, h2]

theorem constFit_perm (e : XR) {data data' : List (Pt m × ℝ)} {grads grads' : List (Pt m)} (hd : data.Perm data') (hg : grads.Perm grads') :
    constFit e data grads = constFit e data' grads' := by
  have h1 : constSamp e data = constSamp e data' := by
    simp only [constSamp, hd.length_eq]
    split
    · have hp := pairsOf_perm (ratio_symm e) hd
      cases hl : (pairsOf data).map (ratio e) with
      | nil =>
        rw [hl] at hp
        rw [List.nil_perm.1 hp]
      | cons r rs =>
        cases hl' : (pairsOf data').map (ratio e) with
        | nil => rw [hl, hl'] at hp; exact absurd hp.symm (by simp)
        | cons r' rs' =>
          rw [hl, hl'] at hp
          simp only [npMax_perm hp]
    · rfl
  rw [constFit, constFit, h1]
  cases constSamp e data' with
  | error _ => rfl
  | ok L =>
    cases grads with
    | nil => cases List.nil_perm.1 hg; rfl
    | cons g gs =>
      cases grads' with
      | nil => exact absurd hg.symm (by simp)
      | cons g' gs' =>
        have := hg.map nrm
        simp only [List.map_cons] at this
        simp only [lmax_perm this]

/-- The Lipschitz constant (or the exception) is the same for reordered samples and gradients, including samples that coincide. -/
theorem constantFit_order (eps : Option ℝ) {data data' : List (Pt m × ℝ)} {grads grads' : List (Pt m)} (hne : data ≠ []) (hd : data.Perm data') (hg : grads.Perm grads') :
    constantFit eps (some (data.map Prod.fst)) (some (data.map Prod.snd)) (some grads) =
      constantFit eps (some (data'.map Prod.fst)) (some (data'.map Prod.snd)) (some grads') := by
  have hne' : data' ≠ [] := fun h => hne (by simpa [h] using hd)
  simp only [constantFit, prepare_pairs hne, prepare_pairs hne', Option.getD_some, fitScale_perm hd hg, constFit_perm _ hd hg]

example : [((fun _ => 0 : Pt 1), (1 : ℝ)), (fun _ => 1, 2), (fun _ => 1, 3)].Perm [(fun _ => 1, 3), (fun _ => 0, 1), (fun _ => 1, 2)] :=
  (List.perm_append_comm (l₁ := [((fun _ => 0 : Pt 1), (1 : ℝ)), (fun _ => 1, 2)]) (l₂ := [(fun _ => 1, 3)]))

end Verif.Lip
