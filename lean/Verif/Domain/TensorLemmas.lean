import Verif.Domain.Lemmas

namespace Verif.Domain

open Classical Verif

/-- Pieces of the right sizes, one per factor. -/
def Pieces (ds : List Base) (xs : List Vec) : Prop := List.Forall₂ (fun d x => x.length = d.len) ds xs

theorem slicesFrom_eq (ds : List Base) (xs : List Vec) (pre : Vec) (h : Pieces ds xs) :
    slicesFrom pre.length ds (pre ++ xs.flatten) = ds.zip xs := by
  induction h generalizing pre with
  | nil => rfl
  | @cons d x ds xs hx hxs ih =>
    have e := ih (pre ++ x)
    simp only [slicesFrom, List.flatten_cons, List.zip_cons_cons]
    congr 1
    · congr 1
      rw [List.drop_left, ← hx, List.take_left]
    · rw [← hx]; simpa [List.append_assoc] using e

theorem pieces_flatten_length {ds : List Base} {xs : List Vec} (h : Pieces ds xs) :
    xs.flatten.length = (ds.map Base.len).sum := by
  induction h with
  | nil => rfl
  | cons hx _ ih => simp only [List.flatten_cons, List.length_append, List.map_cons, List.sum_cons, hx, ih]

theorem pieces_exist (ds : List Base) (x : Vec) (h : x.length = (ds.map Base.len).sum) :
    ∃ xs, Pieces ds xs ∧ x = xs.flatten := by
  induction ds generalizing x with
  | nil => exact ⟨[], .nil, by simpa using h⟩
  | cons d ds ih =>
    simp only [List.map_cons, List.sum_cons] at h
    obtain ⟨xs, h1, h2⟩ := ih (x.drop d.len) (by simp [h])
    refine ⟨x.take d.len :: xs, .cons (by simp [h]) h1, ?_⟩
    simp [← h2]

theorem forall_zip_iff_forall₂ {α β : Type*} (R : α → β → Prop) (l : List α) (m : List β)
    (h : l.length = m.length) : (∀ q ∈ l.zip m, R q.1 q.2) ↔ List.Forall₂ R l m := by
  induction l generalizing m with
  | nil => cases m with
    | nil => simp
    | cons => simp at h
  | cons a as ih => cases m with
    | nil => simp at h
    | cons b bs =>
      simp only [List.zip_cons_cons, List.forall_mem_cons, List.forall₂_cons]
      rw [ih bs (by simpa using h)]

theorem dot_pad (s t : ℕ) (r pre x post : Vec) (hs : pre.length = s) (hr : r.length = x.length) :
    Vec.dot (List.replicate s 0 ++ r ++ List.replicate t 0) (pre ++ (x ++ post)) = Vec.dot r x := by
  rw [List.append_assoc, Vec.dot_append _ _ _ _ (by simp [hs]), Vec.dot_append _ _ _ _ hr,
    Vec.dot_replicate_zero, Vec.dot_replicate_zero]
  ring

theorem mulVec_pad (A : List Vec) (start total len : ℕ) (pre x post : Vec) (hs : pre.length = start)
    (hA : ∀ r ∈ A, r.length = x.length) :
    Vec.mulVec (padRows start total len A) (pre ++ (x ++ post)) = Vec.mulVec A x := by
  unfold Vec.mulVec padRows
  rw [List.map_map]
  apply List.map_congr_left
  intro r hr
  exact dot_pad _ _ r pre x post hs (hA r hr)

theorem tensorA_rows (ds : List Base) (hw : ∀ b ∈ ds, b.acc.WF) (start total : ℕ)
    (h : start + (ds.map Base.len).sum ≤ total) :
    (∀ r ∈ tensorA start total ds, r.length = total) ∧
    (tensorA start total ds).length = (ds.flatMap (fun d => d.acc.b)).length ∧
    (∀ r ∈ tensorAeq start total ds, r.length = total) ∧
    (tensorAeq start total ds).length = (ds.flatMap (fun d => d.acc.beq)).length := by
  induction ds generalizing start with
  | nil => simp [tensorA, tensorAeq]
  | cons d ds ih =>
    simp only [List.map_cons, List.sum_cons] at h
    obtain ⟨h1, h2, h3, h4⟩ := ih (fun b hb => hw b (List.mem_cons_of_mem _ hb)) (start + d.len) (by omega)
    have hd := hw d List.mem_cons_self
    refine ⟨?_, ?_, ?_, ?_⟩
    · intro r hr
      simp only [tensorA, List.mem_append] at hr
      rcases hr with hr | hr
      · simp only [padRows, List.mem_map] at hr
        obtain ⟨a, ha, rfl⟩ := hr
        have := hd.A_w a ha
        simp only [List.length_append, List.length_replicate, this]
        unfold Base.len at *
        omega
      · exact h1 r hr
    · simp only [tensorA, List.length_append, List.flatMap_cons, h2, padRows, List.length_map, hd.A_len]
    · intro r hr
      simp only [tensorAeq, List.mem_append] at hr
      rcases hr with hr | hr
      · simp only [padRows, List.mem_map] at hr
        obtain ⟨a, ha, rfl⟩ := hr
        have := hd.Aeq_w a ha
        simp only [List.length_append, List.length_replicate, this]
        unfold Base.len at *
        omega
      · exact h3 r hr
    · simp only [tensorAeq, List.length_append, List.flatMap_cons, h4, padRows, List.length_map, hd.Aeq_len]

/-- Checking the padded inequality rows on the concatenated point checks every factor. -/
theorem tensor_inIneq {ds : List Base} {xs : List Vec} (h : Pieces ds xs) (hw : ∀ b ∈ ds, b.acc.WF)
    (pre : Vec) (total : ℕ) (tol : ℝ) :
    inIneq (tensorA pre.length total ds) (ds.flatMap (fun d => d.acc.b)) tol (pre ++ xs.flatten) ↔
      List.Forall₂ (fun d x => inIneq d.acc.A d.acc.b tol x) ds xs := by
  induction h generalizing pre with
  | nil => simp [tensorA, inIneq_nil]
  | @cons d x ds xs hx hxs ih =>
    have hd := hw d List.mem_cons_self
    have ih := ih (fun b hb => hw b (List.mem_cons_of_mem _ hb)) (pre ++ x)
    simp only [tensorA, List.flatMap_cons, List.flatten_cons, List.forall₂_cons]
    rw [inIneq_append _ _ _ _ (by simp [padRows, hd.A_len])]
    apply and_congr
    · unfold inIneq
      rw [mulVec_pad _ _ _ _ _ _ _ rfl (fun r hr => by rw [hd.A_w r hr, hx]; rfl)]
    · rw [← ih]
      simp only [List.length_append, hx, List.append_assoc]

theorem tensor_inEq {ds : List Base} {xs : List Vec} (h : Pieces ds xs) (hw : ∀ b ∈ ds, b.acc.WF)
    (pre : Vec) (total : ℕ) (tol : ℝ) :
    inEq (tensorAeq pre.length total ds) (ds.flatMap (fun d => d.acc.beq)) tol (pre ++ xs.flatten) ↔
      List.Forall₂ (fun d x => inEq d.acc.Aeq d.acc.beq tol x) ds xs := by
  induction h generalizing pre with
  | nil => simp [tensorAeq, inEq_nil]
  | @cons d x ds xs hx hxs ih =>
    have hd := hw d List.mem_cons_self
    have ih := ih (fun b hb => hw b (List.mem_cons_of_mem _ hb)) (pre ++ x)
    simp only [tensorAeq, List.flatMap_cons, List.flatten_cons, List.forall₂_cons]
    rw [inEq_append _ _ _ _ (by simp [padRows, hd.Aeq_len])]
    apply and_congr
    · unfold inEq
      rw [mulVec_pad _ _ _ _ _ _ _ rfl (fun r hr => by rw [hd.Aeq_w r hr, hx]; rfl)]
    · rw [← ih]
      simp only [List.length_append, hx, List.append_assoc]

theorem tensor_inBounds {ds : List Base} {xs : List Vec} (h : Pieces ds xs) (hw : ∀ b ∈ ds, b.acc.WF)
    (tol : ℝ) :
    inBounds (ds.flatMap (fun d => d.acc.lb)) (ds.flatMap (fun d => d.acc.ub)) tol xs.flatten ↔
      List.Forall₂ (fun d x => inBounds d.acc.lb d.acc.ub tol x) ds xs := by
  induction h with
  | nil => simp [inBounds]
  | @cons d x ds xs hx hxs ih =>
    have hd := hw d List.mem_cons_self
    have ih := ih (fun b hb => hw b (List.mem_cons_of_mem _ hb))
    simp only [List.flatMap_cons, List.flatten_cons, List.forall₂_cons]
    rw [← ih]
    have e1 : d.acc.lb.length = x.length := by rw [hd.lb_len, hx]; rfl
    have e2 : d.acc.ub.length = x.length := by rw [hd.ub_len, hx]; rfl
    unfold inBounds
    rw [List.zip_append e1, List.zip_append e2]
    simp only [List.forall_mem_append]
    tauto

theorem forall₂_and {α β : Type*} (R S : α → β → Prop) (l : List α) (m : List β) :
    List.Forall₂ R l m ∧ List.Forall₂ S l m ↔ List.Forall₂ (fun a b => R a b ∧ S a b) l m := by
  constructor
  · rintro ⟨h1, h2⟩
    induction h1 with
    | nil => exact .nil
    | cons h _ ih => cases h2 with | cons h' h2 => exact .cons ⟨h, h'⟩ (ih h2)
  · intro h
    exact ⟨h.imp (fun _ _ h => h.1), h.imp (fun _ _ h => h.2)⟩

theorem tensor_acc_wf {ds : List Base} (hw : ∀ b ∈ ds, b.acc.WF) : (Dom.tensor ds).acc.WF := by
  obtain ⟨h1, h2, h3, h4⟩ := tensorA_rows ds hw 0 (ds.map Base.len).sum (by omega)
  have hl : ∀ f : Base → List XR, (∀ b ∈ ds, (f b).length = b.len) →
      (ds.flatMap f).length = (ds.map Base.len).sum := by
    intro f hf
    rw [List.length_flatMap]
    congr 1
    apply List.map_congr_left
    exact hf
  constructor
  · exact hl _ (fun b hb => (hw b hb).lb_len)
  · exact hl _ (fun b hb => (hw b hb).ub_len)
  · intro v hv
    simp only [Dom.acc, List.mem_flatMap] at hv
    obtain ⟨b, hb, hv⟩ := hv
    exact (hw b hb).lb_ok v hv
  · intro v hv
    simp only [Dom.acc, List.mem_flatMap] at hv
    obtain ⟨b, hb, hv⟩ := hv
    exact (hw b hb).ub_ok v hv
  · exact h1
  · exact h2
  · exact h3
  · exact h4
  all_goals simp [Dom.acc]

theorem tensor_inside_pieces (nnls : NNLS) (tol : ℝ) {ds : List Base} {xs : List Vec} (h : Pieces ds xs) :
    (Dom.tensor ds).inside nnls tol xs.flatten ↔ List.Forall₂ (fun d x => d.isInside nnls tol x) ds xs := by
  have e := slicesFrom_eq ds xs [] h
  simp only [List.length_nil, List.nil_append] at e
  unfold Dom.inside
  simp only
  rw [e]
  exact forall_zip_iff_forall₂ (fun d x => d.isInside nnls tol x) ds xs h.length_eq

theorem tensor_acc_inAll (tol : ℝ) {ds : List Base} {xs : List Vec} (h : Pieces ds xs)
    (hw : ∀ b ∈ ds, b.acc.WF) :
    (Dom.tensor ds).acc.inAll tol xs.flatten ↔
      List.Forall₂ (fun d x => inBounds d.acc.lb d.acc.ub tol x ∧ inIneq d.acc.A d.acc.b tol x ∧
        inEq d.acc.Aeq d.acc.beq tol x) ds xs := by
  unfold LQ.inAll
  simp only [Dom.acc]
  have e1 := tensor_inIneq h hw [] (ds.map Base.len).sum tol
  have e2 := tensor_inEq h hw [] (ds.map Base.len).sum tol
  simp only [List.length_nil, List.nil_append] at e1 e2
  rw [e1, e2, tensor_inBounds h hw tol, ← forall₂_and, ← forall₂_and]
  have := inQuad_nil [] [] tol xs.flatten
  tauto

theorem forall₂_congr_mem {α β : Type*} {R S : α → β → Prop} {l : List α} {m : List β}
    (h : ∀ a ∈ l, ∀ b ∈ m, R a b ↔ S a b) : List.Forall₂ R l m ↔ List.Forall₂ S l m := by
  constructor
  · intro h1
    induction h1 with
    | nil => exact .nil
    | cons h' _ ih =>
      refine .cons ((h _ (by simp) _ (by simp)).1 h') (ih ?_)
      intro a ha b hb; exact h a (by simp [ha]) b (by simp [hb])
  · intro h1
    induction h1 with
    | nil => exact .nil
    | cons h' _ ih =>
      refine .cons ((h _ (by simp) _ (by simp)).2 h') (ih ?_)
      intro a ha b hb; exact h a (by simp [ha]) b (by simp [hb])

theorem dom_wf_acc {D : Dom} (h : D.WF) : D.acc.WF := by
  cases D with
  | base b => exact base_wf_acc h
  | tensor ds => exact tensor_acc_wf (fun b hb => base_wf_acc (h.2 b hb))

theorem dom_len_acc (D : Dom) : D.len = D.acc.n := by
  cases D <;> rfl

/-- A plain domain's membership is decided by its exported constraint properties. -/
theorem dom_isInside_iff (nnls : NNLS) (tol : ℝ) {D : Dom} (hw : D.WF) (hp : D.Plain) (x : Vec) :
    D.isInside nnls tol x ↔ x.length = D.acc.n ∧ D.acc.inAll tol x := by
  unfold Dom.isInside
  rw [dom_len_acc]
  refine and_congr_right (fun hx => ?_)
  cases D with
  | base b => exact base_inside_iff nnls tol hp x
  | tensor ds =>
    obtain ⟨xs, h1, rfl⟩ := pieces_exist ds x hx
    rw [tensor_inside_pieces nnls tol h1, tensor_acc_inAll tol h1 (fun b hb => base_wf_acc (hw.2 b hb))]
    have hP : List.Forall₂ (fun d x => d.isInside nnls tol x) ds xs ↔
        List.Forall₂ (fun d x => x.length = d.len ∧ d.inside nnls tol x) ds xs := Iff.rfl
    rw [hP, ← forall₂_and]
    have h1' : List.Forall₂ (fun (d : Base) (x : Vec) => x.length = d.len) ds xs := h1
    rw [and_iff_right h1']
    apply forall₂_congr_mem
    intro d hd x _
    rw [base_inside_iff nnls tol (hp d hd).1 x]
    unfold LQ.inAll
    rw [(hp d hd).2]
    have := inQuad_nil d.acc.ys d.acc.rhos tol x
    tauto

end Verif.Domain
