import Verif.Domain.NamesModel
import Verif.Domain.MembershipProps
import Verif.Domain.NormProps

/-!
# Property C20: coordinate names
-/

namespace Verif.Domain

open Classical Verif

theorem fmtD_inj {a b : ℕ} (h : fmtD a = fmtD b) : a = b := by
  unfold fmtD Nat.repr at h
  have h' : Nat.toDigits 10 a = Nat.toDigits 10 b := by
    simpa only [String.toList_ofList] using congrArg String.toList h
  have := congrArg (fun l => Nat.ofDigitChars 10 l 0) h'
  simpa [Nat.ofDigitChars_toDigits] using this

theorem append_left_inj (s a b : String) (h : s ++ a = s ++ b) : a = b := by
  have := congrArg String.toList h
  simp only [String.toList_append, List.append_cancel_left_eq] at this
  exact String.toList_injective this

/-- The names of an object match its dimension. -/
def NBase.Ok (N : NBase) : Prop := N.names.length = N.dom.len

/-- The names of all factors match their dimensions. -/
def NDom.Ok : NDom → Prop
  | .base d => d.Ok
  | .tensor ds => ∀ d ∈ ds, d.Ok

/-- **C20**: whatever is passed as `names`, a constructed domain has one name per coordinate: the list passed, the
string itself in one dimension, the string followed by the coordinate number otherwise. -/
theorem names_count {d : Base} {a : NameArg} {N : NBase} (h : mkNamed d a = .ok N) :
    N.dom = d ∧ N.names.length = d.len ∧ (∀ l, a = .list l → N.names = l) ∧
      (∀ s, a = .str s → d.len = 1 → N.names = [s]) ∧
      (∀ s, a = .str s → d.len ≠ 1 → ∀ i, i < d.len → N.names[i]? = some (s ++ (" " ++ toString (i + 1)))) ∧
      (a = .none → ∀ i, i < d.len → N.names[i]? = some ("x" ++ toString i)) := by
  cases a with
  | none =>
    cases h
    refine ⟨rfl, by simp [NBase.names, defaultNames], by simp, by simp, by simp, fun _ i hi => ?_⟩
    simp [NBase.names, defaultNames, hi]; rfl
  | str s =>
    by_cases h1 : d.len = 1
    · simp only [mkNamed, initNames, h1, if_true] at h
      cases h
      exact ⟨rfl, by simp [NBase.names, h1], by simp, fun _ hs _ => by cases hs; rfl, fun _ _ h => absurd h1 h, by simp⟩
    · simp only [mkNamed, initNames, h1, if_false] at h
      cases h
      refine ⟨rfl, by simp [NBase.names], by simp, fun _ _ h => absurd h h1, fun _ hs _ i hi => ?_, by simp⟩
      cases hs
      simp [NBase.names, hi]; rfl
  | list l =>
    by_cases h1 : d.len = l.length
    · simp only [mkNamed, initNames, h1, if_true] at h
      cases h
      exact ⟨rfl, by simp [NBase.names, h1], fun _ hl => by cases hl; rfl, by simp, by simp, by simp⟩
    · simp only [mkNamed, initNames, h1, if_false] at h
      cases h

/-- **C20**: the constructor raises exactly for a list of the wrong length. -/
theorem names_ok_iff (d : Base) (a : NameArg) :
    (∃ N, mkNamed d a = .ok N) ↔ ∀ l, a = .list l → l.length = d.len := by
  cases a with
  | none => simp [mkNamed, initNames, bind, Except.bind, pure, Except.pure]
  | str s => by_cases h1 : d.len = 1 <;> simp [mkNamed, initNames, bind, Except.bind, pure, Except.pure, h1]
  | list l =>
    by_cases h1 : d.len = l.length
    · simp [mkNamed, initNames, bind, Except.bind, pure, Except.pure, h1]
    · simp [mkNamed, initNames, bind, Except.bind, h1]
      exact fun h => h1 h.symm

/-- **C20**: the default names, and those built from one string, are pairwise distinct. -/
theorem names_nodup {d : Base} {a : NameArg} {N : NBase} (h : mkNamed d a = .ok N) (ha : ∀ l, a ≠ .list l) : N.names.Nodup := by
  cases a with
  | none =>
    cases h
    exact List.Nodup.map (fun i j hij => fmtD_inj (append_left_inj _ _ _ hij)) List.nodup_range
  | str s =>
    by_cases h1 : d.len = 1
    · simp only [mkNamed, initNames, h1, if_true] at h
      cases h
      simp [NBase.names]
    · simp only [mkNamed, initNames, h1, if_false] at h
      cases h
      refine List.Nodup.map (fun i j hij => ?_) List.nodup_range
      have := fmtD_inj (append_left_inj _ _ _ (append_left_inj _ _ _ hij))
      omega
  | list l => exact absurd rfl (ha l)

theorem ndom_len (N : NDom) (h : N.Ok) : N.names.length = N.dom.len := by
  cases N with
  | base d => exact h
  | tensor ds =>
    simp only [NDom.names, NDom.dom, Dom.len, List.length_flatten, List.map_map]
    congr 1
    exact List.map_congr_left (fun d hd => h d hd)

/-- **C20**: a tensor product of domains has one name per coordinate. -/
theorem tensor_names_count (ds : List NBase) (h : ∀ d ∈ ds, d.names.length = d.dom.len) :
    (NDom.tensor ds).names.length = (NDom.tensor ds).dom.len := ndom_len _ h

theorem normalizedDomain_len {fb : CornerOracle} (ho : OracleLen fb) {d r : Base} (hd : d.WF) (h : d.normalizedDomain fb = .ok r) :
    r.len = d.len := by
  cases d with
  | linquad q => cases h; rfl
  | linineq q => cases h; rfl
  | box l u =>
    cases h
    exact (lbNorm_length ho hd).1
  | point x =>
    cases h
    exact (lbNorm_length ho hd).1
  | normal m Li c =>
    cases h
    have h1 := (uslopes_length ho hd).2
    have h2 := center_length ho hd
    simp only [Base.len, Base.acc, Base.normalize] at *
    simp [Vec.length_mul, Vec.length_sub, h1, h2]
  | hull X q => cases h; rfl
  | unbounded n => cases h

theorem nbase_normalized {fb : CornerOracle} (ho : OracleLen fb) {N : NBase} (hN : N.Ok) (hw : N.dom.WF) {r : Base}
    (h : N.dom.normalizedDomain fb = .ok r) :
    ∃ R, N.normalized fb = .ok R ∧ R.dom = r ∧ R.Ok ∧ R.names = N.names.map (· ++ " (normalized)") := by
  have hl := normalizedDomain_len ho hw h
  have hlen : r.len = (N.names.map (· ++ " (normalized)")).length := by rw [List.length_map, hN, hl]
  refine ⟨⟨r, some (N.names.map (· ++ " (normalized)"))⟩, ?_, rfl, ?_, rfl⟩
  · unfold NBase.normalized
    rw [h]
    simp only [bind, Except.bind, mkNamed, initNames]
    rw [if_pos hlen]
    rfl
  · exact hlen.symm

theorem nbase_mapM {fb : CornerOracle} (ho : OracleLen fb) (ds : List NBase) (hN : ∀ d ∈ ds, d.Ok) (hw : ∀ d ∈ ds, d.dom.WF) {rs : List Base}
    (h : (ds.map NBase.dom).mapM (Base.normalizedDomain fb) = .ok rs) :
    ∃ Rs, ds.mapM (NBase.normalized fb) = .ok Rs ∧ Rs.map NBase.dom = rs ∧ (∀ R ∈ Rs, R.Ok) ∧
      (Rs.map NBase.names).flatten = ((ds.map NBase.names).flatten).map (· ++ " (normalized)") := by
  induction ds generalizing rs with
  | nil =>
    simp [pure, Except.pure] at h
    subst h
    exact ⟨[], rfl, rfl, by simp, rfl⟩
  | cons d ds ih =>
    rw [List.map_cons, List.mapM_cons] at h
    obtain ⟨r, h1, h⟩ := bind_ok h
    obtain ⟨rs', h2, h⟩ := bind_ok h
    cases h
    obtain ⟨R, e1, e2, e3, e4⟩ := nbase_normalized ho (hN d (by simp)) (hw d (by simp)) h1
    obtain ⟨Rs, f1, f2, f3, f4⟩ := ih (fun d hd => hN d (by simp [hd])) (fun d hd => hw d (by simp [hd])) h2
    refine ⟨R :: Rs, ?_, by simp [e2, f2], ?_, ?_⟩
    · rw [List.mapM_cons, e1]
      simp only [bind, Except.bind, f1]
      rfl
    · intro T hT
      rcases List.mem_cons.1 hT with rfl | hT
      · exact e3
      · exact f3 T hT
    · simp [e4, f4, List.map_append]

/-- **C20**: the normalized domain exists whenever normalization does, with one name per coordinate, each the old
name with a suffix. -/
theorem normalized_names {fb : CornerOracle} (ho : OracleLen fb) {N : NDom} (hN : N.Ok) (hw : N.dom.WF) {r : Dom}
    (h : N.dom.normalizedDomain fb = .ok r) :
    ∃ R, N.normalized fb = .ok R ∧ R.dom = r ∧ R.Ok ∧ R.names.length = N.dom.len ∧
      R.names = N.names.map (· ++ " (normalized)") := by
  have key : ∃ R, N.normalized fb = .ok R ∧ R.dom = r ∧ R.Ok ∧ R.names = N.names.map (· ++ " (normalized)") := by
    cases N with
    | base d =>
      simp only [NDom.dom, Dom.normalizedDomain] at h
      rcases hb : d.dom.normalizedDomain fb with e | r'
      · rw [hb] at h; cases h
      · rw [hb] at h
        cases h
        obtain ⟨R, e1, e2, e3, e4⟩ := nbase_normalized ho hN hw hb
        exact ⟨.base R, by simp [NDom.normalized, e1, Except.map], by simp [NDom.dom, e2], e3, e4⟩
    | tensor ds =>
      simp only [NDom.dom, Dom.normalizedDomain] at h
      rcases hb : (ds.map NBase.dom).mapM (Base.normalizedDomain fb) with e | rs
      · rw [hb] at h; cases h
      · rw [hb] at h
        cases h
        have hw' : ∀ d ∈ ds, d.dom.WF := fun d hd => hw.2 d.dom (List.mem_map.2 ⟨d, hd, rfl⟩)
        obtain ⟨Rs, f1, f2, f3, f4⟩ := nbase_mapM ho ds hN hw' hb
        exact ⟨.tensor Rs, by simp [NDom.normalized, f1, Except.map], by simp [NDom.dom, f2], f3, f4⟩
  obtain ⟨R, e1, e2, e3, e4⟩ := key
  refine ⟨R, e1, e2, e3, ?_, e4⟩
  rw [e4, List.length_map, ndom_len N hN]

theorem addConstraintsLQ_len {s : LQ} (hw : s.WF) {a : Args} {R : Base} (h : addConstraintsLQ s a = .ok R) : R.len = s.n := by
  unfold addConstraintsLQ at h
  obtain ⟨d, h1, h⟩ := bind_ok h
  obtain ⟨lb, ub, A, b, Aeq, beq, Ls, ys, rhos, e1, e2, e3, e4, e5, rfl⟩ := merge_spec h1
  have hlb : lb.length = s.n := by
    cases hl : a.lb with
    | none => rw [hl] at e1; cases e1; simp
    | some l =>
      rw [hl] at e1
      simp only [initLb] at e1
      by_cases hl' : l.length = s.n
      · rw [if_pos hl'] at e1; cases e1; exact hl'
      · rw [if_neg hl'] at e1; cases e1
  split at h
  · split at h
    · cases h; rfl
    · cases h
  · split at h
    · cases h; rfl
    · cases h
      simp [Base.len, Base.acc, hlb, hw.lb_len]

theorem addConstraints_len {D : Dom} (hw : D.WF) {a : Args} {R : Base} (h : D.addConstraints a = .ok R) : R.len = D.len := by
  unfold Dom.addConstraints at h
  split at h
  · obtain ⟨d, h1, h⟩ := bind_ok h
    obtain ⟨lb, ub, A, b, Aeq, beq, Ls, ys, rhos, e1, e2, e3, e4, e5, rfl⟩ := merge_spec h1
    split at h
    · cases h; rfl
    · cases h
  · cases h
  · rw [dom_len_acc]
    exact addConstraintsLQ_len (dom_wf_acc hw) h
  · cases h
  · rw [dom_len_acc]
    exact addConstraintsLQ_len (dom_wf_acc hw) h

/-- **C20**: adding constraints keeps the names. -/
theorem add_constraints_names {N : NDom} (hN : N.Ok) (hw : N.dom.WF) {a : Args} {R : Base} (h : N.dom.addConstraints a = .ok R) :
    N.addConstraints a = .ok ⟨R, some N.names⟩ ∧ N.names.length = R.len := by
  have hl : R.len = N.names.length := by rw [ndom_len N hN]; exact addConstraints_len hw h
  refine ⟨?_, hl.symm⟩
  unfold NDom.addConstraints
  rw [h]
  simp only [bind, Except.bind, mkNamed, initNames]
  rw [if_pos hl]
  rfl

/-- **C20**: the intersection of two domains, when it exists, has one name per coordinate, those of one of the
operands. -/
theorem and_names {a b : NDom} (ha : a.Ok) (hb : b.Ok) (wa : a.dom.WF) (wb : b.dom.WF) {R : Base} (h : a.dom.and b.dom = .ok R) :
    ∃ N, a.and b = .ok N ∧ N.dom = R ∧ N.names.length = R.len ∧ R.len = a.dom.len ∧ (N.names = a.names ∨ N.names = b.names) := by
  have h0 := h
  unfold Dom.and at h
  have core : ∀ {nm : List String}, nm = (if a.dom.isLinQuadClass then a.names else b.names) → R.len = nm.length → R.len = a.dom.len →
      (nm = a.names ∨ nm = b.names) →
      ∃ N, a.and b = .ok N ∧ N.dom = R ∧ N.names.length = R.len ∧ R.len = a.dom.len ∧ (N.names = a.names ∨ N.names = b.names) := by
    intro nm hnm hl hla hor
    refine ⟨⟨R, some nm⟩, ?_, rfl, hl.symm, hla, hor⟩
    unfold NDom.and
    rw [h0, ← hnm]
    simp only [bind, Except.bind, mkNamed, initNames]
    rw [if_pos hl]
    rfl
  by_cases hq : a.dom.isLinQuadClass = true
  · rw [if_pos hq] at h
    have hl := addConstraints_len wa (andLQ_eq h)
    exact core (nm := a.names) (by rw [if_pos hq]) (by rw [ndom_len a ha]; exact hl) hl (.inl rfl)
  · rw [if_neg hq] at h
    split at h
    · have hl := addConstraints_len wb (andLQ_eq h)
      have hd := andLQ_dim wa h wb
      exact core (nm := b.names) (by rw [if_neg hq]) (by rw [ndom_len b hb]; exact hl) (by rw [hl, hd]) (.inr rfl)
    · cases h

/-- The default names of a tensor product are not distinct: every factor starts again with `x0`. -/
theorem tensor_default_names_false : ∃ N : NDom, (∃ d1 d2, N = .tensor [d1, d2] ∧ mkNamed d1.dom .none = .ok d1 ∧
    mkNamed d2.dom .none = .ok d2) ∧ N.Ok ∧ ¬ N.names.Nodup := by
  refine ⟨.tensor [⟨.box [.fin 0] [.fin 1], none⟩, ⟨.box [.fin 0] [.fin 1], none⟩], ⟨_, _, rfl, rfl, rfl⟩, ?_, ?_⟩
  · intro d hd
    simp at hd
    subst hd
    simp [NBase.Ok, NBase.names, defaultNames]
  · simp [NDom.names, NBase.names, defaultNames, Base.len, Base.acc, List.range, List.range.loop]

/-- The hypotheses are met: a box with a string as name, in a product with a point with a list of names. -/
example : ∃ d1 d2, mkNamed (.box [.fin 0, .fin 1] [.fin 2, .fin 3]) (.str "w") = .ok d1 ∧ mkNamed (.point [1]) (.list ["p"]) = .ok d2 ∧
    (NDom.tensor [d1, d2]).Ok ∧ (NDom.tensor [d1, d2]).dom.WF := by
  obtain ⟨d1, h1⟩ := (names_ok_iff (.box [.fin 0, .fin 1] [.fin 2, .fin 3]) (.str "w")).2 (by simp)
  obtain ⟨d2, h2⟩ := (names_ok_iff (.point [1]) (.list ["p"])).2 (by simp [Base.len, Base.acc])
  obtain ⟨a1, a2, -⟩ := names_count h1
  obtain ⟨b1, b2, -⟩ := names_count h2
  refine ⟨d1, d2, h1, h2, ?_, ?_⟩
  · intro d hd
    simp at hd
    rcases hd with rfl | rfl
    · rw [NBase.Ok, a1]; exact a2
    · rw [NBase.Ok, b1]; exact b2
  · refine ⟨by simp, ?_⟩
    simp only [List.map_cons, List.map_nil, a1, b1]
    intro d hd
    simp at hd
    rcases hd with rfl | rfl <;> constructor <;> simp [Base.acc, XR.okLower, XR.okUpper]

end Verif.Domain
