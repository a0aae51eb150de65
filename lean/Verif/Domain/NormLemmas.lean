import Verif.Domain.NormModel
import Verif.Domain.TensorLemmas

namespace Verif.Domain

open Classical Verif

/-- The corner oracle answers one number per coordinate. -/
def OracleLen (fb : CornerOracle) : Prop := ∀ b : Base, (fb b).1.length = b.len ∧ (fb b).2.length = b.len

/-- The normalization bounds are ordered where both are finite (true when the corner answers come
from points of the domain; automatic for boxes and hulls). -/
def NormOrdered (fb : CornerOracle) (d : Base) : Prop :=
  ∀ (i : ℕ) (a b : ℝ), (d.normLb fb)[i]? = some (.fin a) → (d.normUb fb)[i]? = some (.fin b) → a ≤ b

theorem uslope_mul_nslope (l u : XR) : uslope l u * nslope l u = 1 := by
  cases l <;> cases u <;> simp only [uslope, nslope, one_mul]
  rename_i a b
  split
  · rename_i h
    have : b - a ≠ 0 := sub_ne_zero.2 h
    field_simp
  · norm_num

theorem nslope_pos (l u : XR) (h : ∀ a b, l = .fin a → u = .fin b → a ≤ b) : 0 < nslope l u := by
  cases l <;> cases u <;> simp only [nslope, zero_lt_one]
  rename_i a b
  split
  · rename_i hne
    have := h a b rfl rfl
    have : 0 < b - a := sub_pos.2 (lt_of_le_of_ne this (Ne.symm hne))
    positivity
  · norm_num

theorem slopes_inv (nl nu : List XR) : List.Forall₂ (fun a b => a * b = 1) (uslopes nl nu) (nslopes nl nu) := by
  unfold uslopes nslopes
  induction nl generalizing nu with
  | nil => simp
  | cons a as ih => cases nu with
    | nil => simp
    | cons b bs => simp only [List.zipWith_cons_cons, List.forall₂_cons]; exact ⟨uslope_mul_nslope a b, ih bs⟩

theorem vec_inv_left {su sn : Vec} (h : List.Forall₂ (fun a b => a * b = 1) su sn) (c x : Vec)
    (hc : c.length = su.length) (hx : x.length = su.length) :
    Vec.add (Vec.mul su (Vec.mul sn (Vec.sub x c))) c = x := by
  induction h generalizing c x with
  | nil =>
    have : x = [] := List.eq_nil_of_length_eq_zero hx
    subst this; simp
  | @cons a b as bs hab _ ih =>
    cases c with
    | nil => simp at hc
    | cons c cs => cases x with
      | nil => simp at hx
      | cons x xs =>
        simp only [Vec.sub_cons, Vec.mul_cons, Vec.add_cons]
        rw [ih cs xs (by simpa using hc) (by simpa using hx)]
        congr 1
        rw [← mul_assoc, hab]; ring

theorem vec_inv_right {su sn : Vec} (h : List.Forall₂ (fun a b => a * b = 1) su sn) (c z : Vec)
    (hc : c.length = su.length) (hz : z.length = su.length) :
    Vec.mul sn (Vec.sub (Vec.add (Vec.mul su z) c) c) = z := by
  induction h generalizing c z with
  | nil =>
    have : z = [] := List.eq_nil_of_length_eq_zero hz
    subst this; simp
  | @cons a b as bs hab _ ih =>
    cases c with
    | nil => simp at hc
    | cons c cs => cases z with
      | nil => simp at hz
      | cons z zs =>
        simp only [Vec.sub_cons, Vec.mul_cons, Vec.add_cons]
        rw [ih cs zs (by simpa using hc) (by simpa using hz)]
        congr 1
        have : b * (a * z + c - c) = (a * b) * z := by ring
        rw [this, hab, one_mul]

/-- `su * (sn * (x - c)) = x - c`. -/
theorem vec_inv_mid {su sn : Vec} (h : List.Forall₂ (fun a b => a * b = 1) su sn) (w : Vec)
    (hw : w.length = su.length) : Vec.mul su (Vec.mul sn w) = w := by
  induction h generalizing w with
  | nil =>
    have : w = [] := List.eq_nil_of_length_eq_zero hw
    subst this; simp
  | @cons a b as bs hab _ ih =>
    cases w with
    | nil => simp at hw
    | cons w ws =>
      simp only [Vec.mul_cons]
      rw [ih ws (by simpa using hw)]
      congr 1
      rw [← mul_assoc, hab, one_mul]

theorem columns_length (n : ℕ) (X : List Vec) : (columns n X).length = n := by simp [columns]

theorem normLb_length {fb : CornerOracle} (ho : OracleLen fb) {d : Base} (hd : d.WF) :
    (d.normLb fb).length = d.len ∧ (d.normUb fb).length = d.len := by
  have hw := base_wf_acc hd
  have e : d.acc.n = d.len := rfl
  have h1 := hw.lb_len
  have h2 := hw.ub_len
  rw [e] at h1 h2
  cases d with
  | hull X q => simp [Base.normLb, Base.normUb, hullNormLb, hullNormUb, columns_length, Base.len, Base.acc]
  | linquad q => simp [Base.normLb, Base.normUb, h1, h2, (ho _).1, (ho _).2]
  | linineq q => simp [Base.normLb, Base.normUb, h1, h2, (ho _).1, (ho _).2]
  | box l u => simp [Base.normLb, Base.normUb, h1, h2, (ho _).1, (ho _).2]
  | point x => simp [Base.normLb, Base.normUb, h1, h2, (ho _).1, (ho _).2]
  | normal m L c => simp [Base.normLb, Base.normUb, h1, h2, (ho _).1, (ho _).2]
  | unbounded n => simp [Base.normLb, Base.normUb, h1, h2, (ho _).1, (ho _).2]

theorem uslopes_length {fb : CornerOracle} (ho : OracleLen fb) {d : Base} (hd : d.WF) :
    (d.uslopes fb).length = d.len ∧ (d.nslopes fb).length = d.len := by
  obtain ⟨h1, h2⟩ := normLb_length ho hd
  simp [Base.uslopes, Base.nslopes, uslopes, nslopes, h1, h2]

theorem center_length {fb : CornerOracle} (ho : OracleLen fb) {d : Base} (hd : d.WF) :
    (d.center fb).length = d.len := by
  obtain ⟨h1, h2⟩ := normLb_length ho hd
  cases d with
  | normal m L c => rfl
  | linquad q => simp [Base.center, center, h1, h2]
  | linineq q => simp [Base.center, center, h1, h2]
  | box l u => simp [Base.center, center, h1, h2]
  | point x => simp [Base.center, center, h1, h2]
  | hull X q => simp [Base.center, center, h1, h2]
  | unbounded n => simp [Base.center, center, h1, h2]

theorem base_slopes_inv (fb : CornerOracle) (d : Base) :
    List.Forall₂ (fun a b => a * b = 1) (d.uslopes fb) (d.nslopes fb) := slopes_inv _ _

theorem base_normalize_eq {fb : CornerOracle} {d : Base} (h : ∀ n, d ≠ .unbounded n) (x : Vec) :
    d.normalize fb x = Vec.mul (d.nslopes fb) (Vec.sub x (d.center fb)) := by
  cases d <;> first | rfl | (rename_i n; exact absurd rfl (h n))

theorem base_unnormalize_eq {fb : CornerOracle} {d : Base} (h : ∀ n, d ≠ .unbounded n) (x : Vec) :
    d.unnormalize fb x = Vec.add (Vec.mul (d.uslopes fb) x) (d.center fb) := by
  cases d <;> first | rfl | (rename_i n; exact absurd rfl (h n))

theorem base_inverse {fb : CornerOracle} (ho : OracleLen fb) {d : Base} (hd : d.WF) (x : Vec)
    (hx : x.length = d.len) :
    d.unnormalize fb (d.normalize fb x) = x ∧ d.normalize fb (d.unnormalize fb x) = x ∧
    (d.normalize fb x).length = d.len ∧ (d.unnormalize fb x).length = d.len := by
  by_cases h : ∃ n, d = .unbounded n
  · obtain ⟨n, rfl⟩ := h
    exact ⟨rfl, rfl, hx, hx⟩
  · push Not at h
    obtain ⟨l1, l2⟩ := uslopes_length ho hd
    have lc := center_length ho hd
    rw [base_normalize_eq h, base_unnormalize_eq h, base_normalize_eq h, base_unnormalize_eq h]
    refine ⟨vec_inv_left (base_slopes_inv fb d) _ _ (by omega) (by omega),
      vec_inv_right (base_slopes_inv fb d) _ _ (by omega) (by omega), ?_, ?_⟩
    · simp [Vec.length_mul, Vec.length_sub, l2, lc, hx]
    · simp [Vec.length_mul, Vec.length_add, l1, lc, hx]

/-! ### Diagonal matrices -/

theorem dot_zero_of_all {l w : Vec} (h : ∀ v ∈ l, v = 0) : Vec.dot l w = 0 := by
  induction l generalizing w with
  | nil => simp
  | cons a as ih => cases w with
    | nil => simp
    | cons b bs =>
      simp only [List.forall_mem_cons] at h
      simp only [Vec.dot_cons, h.1, ih h.2]; ring

theorem dot_single (l w : Vec) (i : ℕ) (a b : ℝ) (ha : l[i]? = some a) (hb : w[i]? = some b)
    (hz : ∀ (j : ℕ) (c : ℝ), j ≠ i → l[j]? = some c → c = 0) : Vec.dot l w = a * b := by
  induction l generalizing w i with
  | nil => simp at ha
  | cons x xs ih => cases w with
    | nil => simp at hb
    | cons y ys =>
      cases i with
      | zero =>
        simp only [List.getElem?_cons_zero, Option.some.injEq] at ha hb
        subst ha; subst hb
        have : ∀ v ∈ xs, v = 0 := by
          intro v hv
          obtain ⟨j, hj⟩ := List.mem_iff_getElem?.1 hv
          exact hz (j + 1) v (by omega) (by simpa using hj)
        simp only [Vec.dot_cons, dot_zero_of_all this]; ring
      | succ i =>
        have hx : x = 0 := hz 0 x (by omega) (by simp)
        simp only [Vec.dot_cons, hx]
        rw [ih ys i (by simpa using ha) (by simpa using hb)
          (fun j c hj hc => hz (j + 1) c (by omega) (by simpa using hc))]
        ring

theorem diagRow_getElem? (s : Vec) (i j : ℕ) :
    (diagRow s i)[j]? = if j < s.length then some (if j = i then s.getD i 0 else 0) else none := by
  unfold diagRow
  rw [List.getElem?_map]
  by_cases h : j < s.length
  · simp [h]
  · simp [h]

theorem foldl_add_fin (row w : Vec) (a : ℝ) :
    (List.zipWith XR.smul row (w.map XR.fin)).foldl XR.add (.fin a) = .fin (a + Vec.dot row w) := by
  induction row generalizing w a with
  | nil => simp
  | cons r rs ih => cases w with
    | nil => simp
    | cons x xs =>
      simp only [List.map_cons, List.zipWith_cons_cons, List.foldl_cons, XR.smul, XR.add, Vec.dot_cons]
      rw [ih]; congr 1; ring

theorem foldl_add_nan (l : List XR) : l.foldl XR.add .nan = .nan := by
  induction l with
  | nil => rfl
  | cons a as ih => rw [List.foldl_cons]; cases a <;> exact ih

theorem foldl_add_mem_nan (l : List XR) (h : XR.nan ∈ l) (a : XR) : l.foldl XR.add a = .nan := by
  induction l generalizing a with
  | nil => simp at h
  | cons b bs ih =>
    rw [List.foldl_cons]
    rcases List.mem_cons.1 h with h | h
    · subst h
      have : XR.add a .nan = .nan := by cases a <;> rfl
      rw [this, foldl_add_nan]
    · exact ih h _

theorem zipWith_sub_fin (v c : Vec) :
    List.zipWith (fun a b => XR.sub a (.fin b)) (v.map XR.fin) c = (Vec.sub v c).map XR.fin := by
  induction v generalizing c with
  | nil => simp
  | cons a as ih => cases c with
    | nil => simp
    | cons b bs =>
      simp only [List.map_cons, List.zipWith_cons_cons, Vec.sub_cons, ih]; rfl

theorem normalizeX_fin (s c v : Vec) (hc : c.length = s.length) (hv : v.length = s.length) :
    normalizeX s c (v.map XR.fin) = (Vec.mul s (Vec.sub v c)).map XR.fin := by
  apply List.ext_getElem?
  intro i
  unfold normalizeX
  rw [zipWith_sub_fin, List.getElem?_map, List.getElem?_map]
  by_cases h : i < s.length
  · have hs : s[i]? = some (s.getD i 0) := by simp [h]
    have hw : i < (Vec.sub v c).length := by simp [Vec.length_sub, hc, hv, h]
    have hw' : (Vec.sub v c)[i]? = some ((Vec.sub v c)[i]) := by simp [hw]
    have hm : (Vec.mul s (Vec.sub v c))[i]? = some (s.getD i 0 * (Vec.sub v c)[i]) := by
      unfold Vec.mul
      rw [List.getElem?_zipWith, hs, hw']
    rw [hm]
    simp only [List.getElem?_range h, Option.map_some]
    unfold dotX
    rw [foldl_add_fin, zero_add]
    congr 2
    apply dot_single _ _ i
    · rw [diagRow_getElem?, if_pos h, if_pos rfl]
    · exact hw'
    · intro j c hj hjc
      rw [diagRow_getElem?] at hjc
      split at hjc
      · cases hjc; rfl
      · cases hjc
  · have h1 : (List.range s.length)[i]? = none := by simp; omega
    have h2 : (Vec.mul s (Vec.sub v c))[i]? = none := by
      rw [List.getElem?_eq_none_iff]; simp [Vec.length_mul, Vec.length_sub, hc, hv]; omega
    rw [h1, h2]; rfl

/-- Every entry is finite. -/
def AllFin (l : List XR) : Prop := ∃ v : Vec, l = v.map XR.fin
/-- No entry is finite. -/
def AllInf (l : List XR) : Prop := ∀ v ∈ l, ¬ v.isFinite

theorem zipWith_fin_pick {α : Type*} (v : Vec) (z : List α) (f : XR → α → α) (hf : ∀ r a, f (.fin r) a = a)
    (h : v.length = z.length) : List.zipWith f (v.map XR.fin) z = z := by
  induction v generalizing z with
  | nil => cases z with
    | nil => rfl
    | cons => simp at h
  | cons a as ih => cases z with
    | nil => simp at h
    | cons b bs => simp [hf, ih bs (by simpa using h)]

theorem lbNorm_allFin {fb : CornerOracle} (ho : OracleLen fb) {d : Base} (hd : d.WF) (v : Vec)
    (hv : d.acc.lb = v.map XR.fin) :
    d.lbNorm fb = (Vec.mul (d.nslopes fb) (Vec.sub v (d.center fb))).map XR.fin := by
  have l1 := (uslopes_length ho hd).2
  have lc := center_length ho hd
  have lv : v.length = d.len := by
    have := (base_wf_acc hd).lb_len; rw [hv, List.length_map] at this; exact this
  unfold Base.lbNorm
  rw [hv, normalizeX_fin _ _ _ (by omega) (by omega)]
  apply zipWith_fin_pick
  · intro r a; rfl
  · simp [Vec.length_mul, Vec.length_sub, l1, lc, lv]

theorem ubNorm_allFin {fb : CornerOracle} (ho : OracleLen fb) {d : Base} (hd : d.WF) (v : Vec)
    (hv : d.acc.ub = v.map XR.fin) :
    d.ubNorm fb = (Vec.mul (d.nslopes fb) (Vec.sub v (d.center fb))).map XR.fin := by
  have l1 := (uslopes_length ho hd).2
  have lc := center_length ho hd
  have lv : v.length = d.len := by
    have := (base_wf_acc hd).ub_len; rw [hv, List.length_map] at this; exact this
  unfold Base.ubNorm
  rw [hv, normalizeX_fin _ _ _ (by omega) (by omega)]
  apply zipWith_fin_pick
  · intro r a; rfl
  · simp [Vec.length_mul, Vec.length_sub, l1, lc, lv]

theorem lbNorm_length {fb : CornerOracle} (ho : OracleLen fb) {d : Base} (hd : d.WF) :
    (d.lbNorm fb).length = d.len ∧ (d.ubNorm fb).length = d.len := by
  have l1 := (uslopes_length ho hd).2
  have hw := base_wf_acc hd
  have h1 : d.acc.lb.length = d.len := hw.lb_len
  have h2 : d.acc.ub.length = d.len := hw.ub_len
  simp [Base.lbNorm, Base.ubNorm, normalizeX, l1, h1, h2]

/-- **If one lower bound is infinite, the normalized domain has no finite lower bound at all.** -/
theorem lbNorm_lost {fb : CornerOracle} (ho : OracleLen fb) {d : Base} (hd : d.WF)
    (hinf : XR.ninf ∈ d.acc.lb) : AllInf (d.lbNorm fb) := by
  have l1 := (uslopes_length ho hd).2
  have lc := center_length ho hd
  have lv : d.acc.lb.length = d.len := (base_wf_acc hd).lb_len
  intro v hv
  obtain ⟨i, hi⟩ := List.mem_iff_getElem?.1 hv
  unfold Base.lbNorm at hi
  rw [List.getElem?_zipWith] at hi
  rcases hl : d.acc.lb[i]? with _ | l
  · rw [hl] at hi; simp at hi
  · have hil : i < d.len := by rw [← lv]; exact (List.getElem?_eq_some_iff.1 hl).1
    rw [hl] at hi
    unfold normalizeX at hi
    rw [List.getElem?_map, List.getElem?_range (by omega)] at hi
    simp only [Option.map_some, Option.some.injEq] at hi
    obtain ⟨j, hj⟩ := List.mem_iff_getElem?.1 hinf
    have hjl : j < d.len := by rw [← lv]; exact (List.getElem?_eq_some_iff.1 hj).1
    cases l with
    | fin r =>
      simp only at hi
      have hne : j ≠ i := by rintro rfl; rw [hl] at hj; cases hj
      have : dotX (diagRow (d.nslopes fb) i)
          (List.zipWith (fun a b => XR.sub a (.fin b)) d.acc.lb (d.center fb)) = .nan := by
        unfold dotX
        apply foldl_add_mem_nan
        rw [List.mem_iff_getElem?]
        refine ⟨j, ?_⟩
        rw [List.getElem?_zipWith, diagRow_getElem?, if_pos (by omega), if_neg hne, List.getElem?_zipWith, hj]
        have : (d.center fb)[j]? = some ((d.center fb)[j]'(by omega)) := by simp [lc, hjl]
        rw [this]
        simp [XR.sub, XR.smul]
      rw [this] at hi
      rw [← hi]; simp
    | pinf => simp only at hi; rw [← hi]; simp
    | ninf => simp only at hi; rw [← hi]; simp
    | nan => simp only at hi; rw [← hi]; simp

theorem ubNorm_lost {fb : CornerOracle} (ho : OracleLen fb) {d : Base} (hd : d.WF)
    (hinf : XR.pinf ∈ d.acc.ub) : AllInf (d.ubNorm fb) := by
  have l1 := (uslopes_length ho hd).2
  have lc := center_length ho hd
  have lv : d.acc.ub.length = d.len := (base_wf_acc hd).ub_len
  intro v hv
  obtain ⟨i, hi⟩ := List.mem_iff_getElem?.1 hv
  unfold Base.ubNorm at hi
  rw [List.getElem?_zipWith] at hi
  rcases hl : d.acc.ub[i]? with _ | l
  · rw [hl] at hi; simp at hi
  · have hil : i < d.len := by rw [← lv]; exact (List.getElem?_eq_some_iff.1 hl).1
    rw [hl] at hi
    unfold normalizeX at hi
    rw [List.getElem?_map, List.getElem?_range (by omega)] at hi
    simp only [Option.map_some, Option.some.injEq] at hi
    obtain ⟨j, hj⟩ := List.mem_iff_getElem?.1 hinf
    have hjl : j < d.len := by rw [← lv]; exact (List.getElem?_eq_some_iff.1 hj).1
    cases l with
    | fin r =>
      simp only at hi
      have hne : j ≠ i := by rintro rfl; rw [hl] at hj; cases hj
      have : dotX (diagRow (d.nslopes fb) i)
          (List.zipWith (fun a b => XR.sub a (.fin b)) d.acc.ub (d.center fb)) = .nan := by
        unfold dotX
        apply foldl_add_mem_nan
        rw [List.mem_iff_getElem?]
        refine ⟨j, ?_⟩
        rw [List.getElem?_zipWith, diagRow_getElem?, if_pos (by omega), if_neg hne, List.getElem?_zipWith, hj]
        have : (d.center fb)[j]? = some ((d.center fb)[j]'(by omega)) := by simp [lc, hjl]
        rw [this]
        simp [XR.sub, XR.smul]
      rw [this] at hi
      rw [← hi]; simp
    | pinf => simp only at hi; rw [← hi]; simp
    | ninf => simp only at hi; rw [← hi]; simp
    | nan => simp only at hi; rw [← hi]; simp

theorem lower_allInf {l : List XR} (h : AllInf l) (tol : ℝ) (x : Vec) :
    ∀ q ∈ l.zip x, ∀ r, q.1 = XR.fin r → q.2 ≥ r - tol := by
  intro q hq r hr
  have := h _ (List.of_mem_zip hq).1
  rw [hr] at this; simp at this

theorem upper_allInf {l : List XR} (h : AllInf l) (tol : ℝ) (x : Vec) :
    ∀ q ∈ l.zip x, ∀ r, q.1 = XR.fin r → q.2 ≤ r + tol := by
  intro q hq r hr
  have := h _ (List.of_mem_zip hq).1
  rw [hr] at this; simp at this

theorem lower_fin_scaled (s c v x : Vec) (hs : ∀ t ∈ s, 0 < t) (hc : c.length = s.length)
    (hv : v.length = s.length) (hx : x.length = s.length) :
    (∀ q ∈ ((Vec.mul s (Vec.sub v c)).map XR.fin).zip (Vec.mul s (Vec.sub x c)),
      ∀ r, q.1 = XR.fin r → q.2 ≥ r - 0) ↔
    (∀ q ∈ (v.map XR.fin).zip x, ∀ r, q.1 = XR.fin r → q.2 ≥ r - 0) := by
  induction s generalizing c v x with
  | nil =>
    have : x = [] := List.eq_nil_of_length_eq_zero hx
    subst this; simp
  | cons s ss ih =>
    cases c with
    | nil => simp at hc
    | cons c cs => cases v with
      | nil => simp at hv
      | cons v vs => cases x with
        | nil => simp at hx
        | cons x xs =>
          simp only [List.forall_mem_cons] at hs
          have ih := ih cs vs xs hs.2 (by simpa using hc) (by simpa using hv) (by simpa using hx)
          simp only [Vec.sub_cons, Vec.mul_cons, List.map_cons, List.zip_cons_cons, List.forall_mem_cons, ih]
          apply and_congr_left; intro _
          constructor
          · intro h r hr
            cases hr
            have := h _ rfl
            simp only [sub_zero, ge_iff_le] at this ⊢
            have := le_of_mul_le_mul_left this hs.1
            linarith
          · intro h r hr
            cases hr
            have := h _ rfl
            simp only [sub_zero, ge_iff_le] at this ⊢
            exact mul_le_mul_of_nonneg_left (by linarith) hs.1.le

theorem upper_fin_scaled (s c v x : Vec) (hs : ∀ t ∈ s, 0 < t) (hc : c.length = s.length)
    (hv : v.length = s.length) (hx : x.length = s.length) :
    (∀ q ∈ ((Vec.mul s (Vec.sub v c)).map XR.fin).zip (Vec.mul s (Vec.sub x c)),
      ∀ r, q.1 = XR.fin r → q.2 ≤ r + 0) ↔
    (∀ q ∈ (v.map XR.fin).zip x, ∀ r, q.1 = XR.fin r → q.2 ≤ r + 0) := by
  induction s generalizing c v x with
  | nil =>
    have : x = [] := List.eq_nil_of_length_eq_zero hx
    subst this; simp
  | cons s ss ih =>
    cases c with
    | nil => simp at hc
    | cons c cs => cases v with
      | nil => simp at hv
      | cons v vs => cases x with
        | nil => simp at hx
        | cons x xs =>
          simp only [List.forall_mem_cons] at hs
          have ih := ih cs vs xs hs.2 (by simpa using hc) (by simpa using hv) (by simpa using hx)
          simp only [Vec.sub_cons, Vec.mul_cons, List.map_cons, List.zip_cons_cons, List.forall_mem_cons, ih]
          apply and_congr_left; intro _
          constructor
          · intro h r hr
            cases hr
            have := h _ rfl
            simp only [add_zero] at this ⊢
            have := le_of_mul_le_mul_left this hs.1
            linarith
          · intro h r hr
            cases hr
            have := h _ rfl
            simp only [add_zero] at this ⊢
            exact mul_le_mul_of_nonneg_left (by linarith) hs.1.le

theorem nslopes_pos {fb : CornerOracle} {d : Base} (ho : NormOrdered fb d) :
    ∀ t ∈ d.nslopes fb, 0 < t := by
  intro t ht
  unfold Base.nslopes nslopes at ht
  obtain ⟨i, hi⟩ := List.mem_iff_getElem?.1 ht
  rw [List.getElem?_zipWith] at hi
  rcases h1 : (d.normLb fb)[i]? with _ | l
  · rw [h1] at hi; simp at hi
  · rcases h2 : (d.normUb fb)[i]? with _ | u
    · rw [h1, h2] at hi; simp at hi
    · rw [h1, h2] at hi
      simp only [Option.some.injEq] at hi
      rw [← hi]
      apply nslope_pos
      rintro a b rfl rfl
      exact ho i a b h1 h2

/-- The scaled constraint rows have the same residuals. -/
theorem mulVec_colScale (A : List Vec) (su sn c x : Vec) (h : List.Forall₂ (fun a b => a * b = 1) su sn)
    (hc : c.length = su.length) (hx : x.length = su.length) :
    Vec.mulVec (colScale su A) (Vec.mul sn (Vec.sub x c)) = Vec.mulVec A (Vec.sub x c) := by
  unfold Vec.mulVec colScale
  rw [List.map_map]
  apply List.map_congr_left
  intro r _
  simp only [Function.comp]
  rw [Vec.dot_mul, vec_inv_mid h _ (by simp [Vec.length_sub, hc, hx])]

theorem ineq_norm (A : List Vec) (b : List ℝ) (su sn c x : Vec)
    (h : List.Forall₂ (fun a b => a * b = 1) su sn)
    (hc : c.length = su.length) (hx : x.length = su.length) (tol : ℝ) :
    inIneq (colScale su A) (shiftRhs A c b) tol (Vec.mul sn (Vec.sub x c)) ↔ inIneq A b tol x := by
  unfold inIneq
  rw [mulVec_colScale A su sn c x h hc hx]
  unfold shiftRhs
  induction A generalizing b with
  | nil => simp [Vec.mulVec]
  | cons r rs ih => cases b with
    | nil => simp
    | cons b bs =>
      simp only [Vec.mulVec, List.map_cons, Vec.sub_cons, List.zip_cons_cons, List.forall_mem_cons] at ih ⊢
      rw [ih bs, Vec.dot_sub_right _ _ _ (by omega)]
      apply and_congr_left; intro _
      constructor <;> intro h <;> linarith

theorem eq_norm (A : List Vec) (b : List ℝ) (su sn c x : Vec)
    (h : List.Forall₂ (fun a b => a * b = 1) su sn)
    (hc : c.length = su.length) (hx : x.length = su.length) (tol : ℝ) :
    inEq (colScale su A) (shiftRhs A c b) tol (Vec.mul sn (Vec.sub x c)) ↔ inEq A b tol x := by
  unfold inEq
  rw [mulVec_colScale A su sn c x h hc hx]
  unfold shiftRhs
  induction A generalizing b with
  | nil => simp [Vec.mulVec]
  | cons r rs ih => cases b with
    | nil => simp
    | cons b bs =>
      simp only [Vec.mulVec, List.map_cons, Vec.sub_cons, List.zip_cons_cons, List.forall_mem_cons] at ih ⊢
      rw [ih bs, Vec.dot_sub_right _ _ _ (by omega)]
      have : Vec.dot r x - Vec.dot r c - (b - Vec.dot r c) = Vec.dot r x - b := by ring
      rw [this]

theorem sub_sub_vec (x y c : Vec) (h1 : x.length = c.length) (h2 : y.length = c.length) :
    Vec.sub (Vec.sub x c) (Vec.sub y c) = Vec.sub x y := by
  induction c generalizing x y with
  | nil =>
    have : x = [] := List.eq_nil_of_length_eq_zero h1
    subst this; simp
  | cons c cs ih => cases x with
    | nil => simp at h1
    | cons x xs => cases y with
      | nil => simp at h2
      | cons y ys =>
        simp only [Vec.sub_cons]
        rw [ih xs ys (by simpa using h1) (by simpa using h2)]
        congr 1; ring

theorem mul_sub_vec (s x y : Vec) : Vec.mul s (Vec.sub x y) = Vec.sub (Vec.mul s x) (Vec.mul s y) := by
  induction s generalizing x y with
  | nil => simp
  | cons s ss ih => cases x with
    | nil => simp
    | cons x xs => cases y with
      | nil => simp
      | cons y ys => simp only [Vec.sub_cons, Vec.mul_cons, ih]; congr 1; ring

/-- The normalized quadratic constraint agrees with the original where the center of the quadratic
is not moved by the scaling. -/
theorem quad_residual (L : List Vec) (su sn c x y : Vec) (h : List.Forall₂ (fun a b => a * b = 1) su sn)
    (hc : c.length = su.length) (hx : x.length = su.length) (hy : y.length = su.length)
    (hq : Vec.mul su (Vec.sub y c) = Vec.sub y c) :
    Vec.mulVec (colScale su L) (Vec.sub (Vec.mul sn (Vec.sub x c)) (Vec.sub y c))
      = Vec.mulVec L (Vec.sub x y) := by
  unfold Vec.mulVec colScale
  rw [List.map_map]
  apply List.map_congr_left
  intro r _
  simp only [Function.comp]
  rw [Vec.dot_mul, mul_sub_vec, vec_inv_mid h _ (by simp [Vec.length_sub, hc, hx]), hq,
    sub_sub_vec _ _ _ (by omega) (by omega)]

theorem quad_norm (Ls : List (List Vec)) (ys : List Vec) (rhos : List ℝ) (su sn c x : Vec)
    (h : List.Forall₂ (fun a b => a * b = 1) su sn)
    (hc : c.length = su.length) (hx : x.length = su.length) (hy : ∀ y ∈ ys, y.length = su.length)
    (hq : ∀ y ∈ ys, Vec.mul su (Vec.sub y c) = Vec.sub y c) (tol : ℝ) :
    inQuad (Ls.map (colScale su)) (ys.map (fun y => Vec.sub y c)) rhos tol (Vec.mul sn (Vec.sub x c)) ↔
      inQuad Ls ys rhos tol x := by
  unfold inQuad
  induction Ls generalizing ys rhos with
  | nil => simp
  | cons L Ls ih => cases ys with
    | nil => simp
    | cons y ys => cases rhos with
      | nil => simp
      | cons r rs =>
        simp only [List.forall_mem_cons] at hy hq
        simp only [List.map_cons, List.zip_cons_cons, List.forall_mem_cons]
        rw [ih ys rs hy.2 hq.2, quad_residual L su sn c x y h hc hx hy.1 hq.1]

end Verif.Domain
