import Verif.Domain.Exact

/-!
# C07 for the exact sets
-/

namespace Verif.Domain

open Classical Verif

/-- **C07** for one factor, exact sets. -/
theorem base_normalized_holds (fb : CornerOracle) (ho : OracleLen fb) (d : Base) (hd : d.WF)
    (hg : NormGood fb d) (R : Base) (h : d.normalizedDomain fb = .ok R) (x : Vec) (hx : x.length = d.len) :
    R.Holds (d.normalize fb x) ↔ d.Holds x := by
  obtain ⟨l2, l1⟩ := uslopes_length ho hd
  have lc := center_length ho hd
  have hi := base_slopes_inv fb d
  have hxn := (base_inverse ho hd x hx).2.2.1
  have hlen : R.len = d.len := (base_normalized_mem (fun _ _ => []) fb ho d hd hg R h x hx).1
  have hne : ∀ n, d ≠ .unbounded n := by rintro n rfl; cases h
  have key : R.acc.Holds (d.normalize fb x) ↔ d.acc.Holds x := by
    rw [holds_iff, holds_iff]
    have hb := bounds_norm ho hd hg.toNormScaled x hx
    rw [base_normalize_eq hne]
    have gen : (∀ m L c, d ≠ .normal m L c) →
        (inBounds (d.normData fb).lb (d.normData fb).ub 0 (Vec.mul (d.nslopes fb) (Vec.sub x (d.center fb))) ∧
        inIneq (d.normData fb).A (d.normData fb).b 0 (Vec.mul (d.nslopes fb) (Vec.sub x (d.center fb))) ∧
        (∀ tol > 0, inEq (d.normData fb).Aeq (d.normData fb).beq tol (Vec.mul (d.nslopes fb) (Vec.sub x (d.center fb)))) ∧
        inQuad (d.normData fb).Ls (d.normData fb).ys (d.normData fb).rhos 0
          (Vec.mul (d.nslopes fb) (Vec.sub x (d.center fb))) ↔
        inBounds d.acc.lb d.acc.ub 0 x ∧ inIneq d.acc.A d.acc.b 0 x ∧ (∀ tol > 0, inEq d.acc.Aeq d.acc.beq tol x) ∧
          inQuad d.acc.Ls d.acc.ys d.acc.rhos 0 x) := by
      intro hn
      have hq : ∀ y ∈ d.acc.ys, Vec.mul (d.uslopes fb) (Vec.sub y (d.center fb)) = Vec.sub y (d.center fb) := by
        rcases hg.quad with ⟨m, L, c, h⟩ | h
        · exact absurd h (hn m L c)
        · exact h
      simp only [Base.normData]
      rw [hb, ineq_norm _ _ _ _ _ _ hi (by omega) (by omega),
        quad_norm _ _ _ _ _ _ _ hi (by omega) (by omega) (fun y hy => by rw [l2]; exact (base_wf_acc hd).ys_w y hy) hq]
      simp only [eq_norm _ _ _ _ _ _ hi (show (d.center fb).length = (d.uslopes fb).length by omega)
        (show x.length = (d.uslopes fb).length by omega)]
    cases d with
    | linquad q => cases h; exact gen (by simp)
    | linineq q => cases h; exact gen (by simp)
    | box l u =>
      cases h
      refine and_congr hb ?_
      exact iff_of_true ⟨inIneq_nil _ _ _, fun _ _ => inEq_nil _ _ _, inQuad_nil _ _ _ _⟩
        ⟨inIneq_nil _ _ _, fun _ _ => inEq_nil _ _ _, inQuad_nil _ _ _ _⟩
    | point p =>
      cases h
      refine and_congr hb ?_
      exact iff_of_true ⟨inIneq_nil _ _ _, fun _ _ => inEq_nil _ _ _, inQuad_nil _ _ _ _⟩
        ⟨inIneq_nil _ _ _, fun _ _ => inEq_nil _ _ _, inQuad_nil _ _ _ _⟩
    | normal m L c =>
      have hm := (base_normalized_mem (fun _ _ => []) fb ho _ hd hg R h x hx).2
      rw [← base_normalize_eq hne]
      cases h
      refine and_congr (iff_of_true (inBounds_inf _ _ _ _) (inBounds_inf _ _ _ _)) ?_
      refine and_congr (iff_of_true (inIneq_nil _ _ _) (inIneq_nil _ _ _)) ?_
      refine and_congr (iff_of_true (fun _ _ => inEq_nil _ _ _) (fun _ _ => inEq_nil _ _ _)) ?_
      unfold Base.isInside at hm
      have h2 : (Base.normalize fb (Base.normal m L c) x).length =
        (Base.normal ((Base.normal m L c).normalize fb m) (colScale ((Base.normal m L c).uslopes fb) L) c).len :=
        hxn.trans hlen.symm
      simpa only [h2, hx, true_and, Base.inside] using hm
    | hull X q => exact absurd rfl (hg.noHull X q)
    | unbounded n => cases h
  unfold Base.Holds
  rw [key, hxn, hlen, hx]
  have hR : ∀ X q, R ≠ .hull X q := by
    rintro X q rfl
    cases d <;> simp [Base.normalizedDomain] at h
  have n1 : ∀ X q, R = .hull X q → InHull q.n X (d.normalize fb x) := fun X q e => absurd e (hR X q)
  have n2 : ∀ X q, d = .hull X q → InHull q.n X x := fun X q e => absurd e (hg.noHull X q)
  exact ⟨fun h => ⟨rfl, h.2.1, n2⟩, fun h => ⟨rfl, h.2.1, n1⟩⟩

theorem mapM_forall₂ {fb : CornerOracle} {ds rs : List Base} (hr : ds.mapM (Base.normalizedDomain fb) = .ok rs) :
    List.Forall₂ (fun d r => d.normalizedDomain fb = Except.ok r) ds rs := by
  induction ds generalizing rs with
  | nil => simp [pure, Except.pure] at hr; subst hr; exact .nil
  | cons d ds ih =>
    rw [List.mapM_cons] at hr
    obtain ⟨r, h1, hr⟩ := bind_ok hr
    obtain ⟨rs', h2, hr⟩ := bind_ok hr
    cases hr
    exact .cons h1 (ih h2)

theorem flatten_inj_pieces {ds : List Base} {xs ys : List Vec} (hx : Pieces ds xs) (hy : Pieces ds ys)
    (h : xs.flatten = ys.flatten) : xs = ys := by
  induction hx generalizing ys with
  | nil => cases hy; rfl
  | @cons d x ds xs hx _ ih => cases hy with
    | @cons _ y _ ys hy hys =>
      simp only [List.flatten_cons] at h
      obtain ⟨e1, e2⟩ := List.append_inj h (hx.trans hy.symm)
      rw [e1, ih hys e2]

/-- **C07** (exact sets), the part that holds: if every factor is good in the sense of `NormGood`, a
point of the right length satisfies the constraints of the domain exactly when its normalization
satisfies the constraints of the normalized domain.  Equality constraints are included. -/
theorem normalized_domain_holds_partial (fb : CornerOracle) (ho : OracleLen fb) (D : Dom) (hD : D.WF)
    (hg : ∀ d ∈ D.factors, NormGood fb d) (R : Dom) (h : D.normalizedDomain fb = .ok R) (x : Vec)
    (hx : x.length = D.len) : R.Holds (D.normalize fb x) ↔ D.Holds x := by
  cases D with
  | base d =>
    simp only [Dom.normalizedDomain] at h
    rcases hr : d.normalizedDomain fb with e | r
    · rw [hr] at h; cases h
    · rw [hr] at h; cases h
      exact base_normalized_holds fb ho d hD (hg d (by simp [Dom.factors])) r hr x hx
  | tensor ds =>
    simp only [Dom.normalizedDomain] at h
    rcases hr : ds.mapM (Base.normalizedDomain fb) with e | rs
    · rw [hr] at h; cases h
    · rw [hr] at h; cases h
      obtain ⟨xs, hp, rfl⟩ := pieces_exist ds x hx
      rw [(tensor_normalize_pieces hp fb).1]
      have hF := mapM_forall₂ hr
      have hgood : ∀ d ∈ ds, NormGood fb d := hg
      have hwf : ∀ d ∈ ds, d.WF := hD.2
      have hP : Pieces rs (List.zipWith (fun d x => d.normalize fb x) ds xs) ∧
          (List.Forall₂ Base.Holds rs (List.zipWith (fun d x => d.normalize fb x) ds xs) ↔
          List.Forall₂ Base.Holds ds xs) := by
        clear hx hg hr hD
        induction hF generalizing xs with
        | nil => cases hp; exact ⟨.nil, by simp⟩
        | @cons d r ds rs hdr _ ih =>
          cases hp with
          | @cons _ x _ xs hx hxs =>
            obtain ⟨i1, i2⟩ := ih xs hxs (fun d hd => hgood d (by simp [hd])) (fun d hd => hwf d (by simp [hd]))
            have k1 := (base_normalized_mem (fun _ _ => []) fb ho d (hwf d (by simp)) (hgood d (by simp)) r hdr x hx).1
            have k2 := base_normalized_holds fb ho d (hwf d (by simp)) (hgood d (by simp)) r hdr x hx
            have k3 := (base_inverse ho (hwf d (by simp)) x hx).2.2.1
            refine ⟨.cons (by rw [k1]; exact k3) i1, ?_⟩
            simp only [List.zipWith_cons_cons, List.forall₂_cons]
            rw [k2, i2]
      have unfl : ∀ (es : List Base) (zs : List Vec), Pieces es zs →
          ((Dom.tensor es).Holds zs.flatten ↔ List.Forall₂ Base.Holds es zs) := by
        intro es zs hz
        constructor
        · rintro ⟨ws, e, hw⟩
          have hw' : Pieces es ws := hw.imp (fun _ _ h => h.1)
          rw [flatten_inj_pieces hz hw' e]; exact hw
        · intro hw; exact ⟨zs, rfl, hw⟩
      rw [unfl rs _ hP.1, unfl ds xs hp, hP.2]

end Verif.Domain
