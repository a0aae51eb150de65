import Verif.Func.StartModel
import Verif.Func.VarproProps
import Verif.Misc.LocalProps
import Verif.Misc.LstsqExists
import Mathlib.LinearAlgebra.AffineSpace.FiniteDimensional

/-!
# C102: the initial subspace
-/

namespace Verif.Func

open Verif.Domain Verif.Lip Verif.Misc Matrix

variable {m n : ℕ}

/-! ## Specification -/

/-- How much of the vectors lies in the directions `Q`. -/
def mass (G : List (Pt m)) (Q : Matrix (Fin m) (Fin n) ℝ) : ℝ := (G.map fun g => (Qᵀ *ᵥ g) ⬝ᵥ (Qᵀ *ᵥ g)).sum

/-- The leading `n` columns. -/
def lead {k : ℕ} (U : Matrix (Fin m) (Fin k) ℝ) (hn : n ≤ k) : Matrix (Fin m) (Fin n) ℝ := Matrix.of fun i j => U i (Fin.castLE hn j)

/-! ## The checks -/

/-- **C102**: which arguments are accepted. -/
theorem checkInputs_ok_iff (X : Option Rows) (fX : Option (List ℝ)) (grads : Option Rows) : (∃ s, checkInputs X fX grads = .ok s) ↔
    (∃ a Xs f, X = some ⟨a, Xs⟩ ∧ fX = some f ∧ Xs.length = f.length ∧ ∀ g, grads = some g → g.1 = a) ∨ ((X = none ∨ fX = none) ∧ grads ≠ none) := by
  constructor
  · rintro ⟨s, h⟩
    unfold checkInputs at h
    split at h
    · rename_i a Xs f
      split at h
      · rename_i hl
        refine Or.inl ⟨a, Xs, f, rfl, rfl, hl, ?_⟩
        rintro ⟨b, G⟩ rfl
        simp only [checkGrads] at h
        split at h
        · rename_i e; exact e.symm
        · cases h
      · cases h
    · rename_i hx
      right
      split at h
      · cases h
      · refine ⟨?_, by simp⟩
        cases X with
        | none => exact Or.inl rfl
        | some x =>
          cases fX with
          | none => exact Or.inr rfl
          | some f => exact absurd rfl (hx x.1 x.2 f rfl)
  · rintro (⟨a, Xs, f, rfl, rfl, hl, hg⟩ | ⟨hx, hg⟩)
    · cases grads with
      | none => exact ⟨_, by simp only [checkInputs, if_pos hl, checkGrads]; rfl⟩
      | some g =>
        obtain ⟨b, G⟩ := g
        obtain rfl : b = a := hg _ rfl
        exact ⟨_, by simp only [checkInputs, if_pos hl, checkGrads, dif_pos]; rfl⟩
    · obtain ⟨⟨b, G⟩, rfl⟩ := Option.ne_none_iff_exists'.1 hg
      refine ⟨⟨b, [], [], G⟩, ?_⟩
      rcases hx with rfl | rfl
      · rfl
      · cases X <;> rfl

/-- **C102**: what is used: complete sample data and all gradients. -/
theorem checkInputs_spec (X : Option Rows) (fX : Option (List ℝ)) (grads : Option Rows) (s : Samples) (h : checkInputs X fX grads = .ok s) :
    s.X.length = s.fX.length ∧
      (∀ a Xs f, X = some ⟨a, Xs⟩ → fX = some f → s.fX = f ∧ (⟨s.m, s.X⟩ : Rows) = ⟨a, Xs⟩) ∧
      ((X = none ∨ fX = none) → s.X = [] ∧ s.fX = []) ∧
      (∀ g, grads = some g → (⟨s.m, s.grads⟩ : Rows) = g) ∧ (grads = none → s.grads = []) := by
  unfold checkInputs at h
  split at h
  · rename_i a Xs f
    split at h
    · rename_i hl
      cases grads with
      | none =>
        cases h
        refine ⟨hl, ?_, by simp, by simp, fun _ => rfl⟩
        intro a' Xs' f' e1 e2
        cases e1; cases e2
        exact ⟨rfl, rfl⟩
      | some g =>
        obtain ⟨b, G⟩ := g
        simp only [checkGrads] at h
        split at h
        · rename_i e
          subst e
          cases h
          refine ⟨hl, ?_, by simp, ?_, by simp⟩
          · intro a' Xs' f' e1 e2
            cases e1; cases e2
            exact ⟨rfl, rfl⟩
          · intro g e
            cases e
            rfl
        · cases h
    · cases h
  · rename_i hx
    split at h
    · cases h
    · cases h
      refine ⟨rfl, ?_, fun _ => ⟨rfl, rfl⟩, ?_, by simp⟩
      · rintro a Xs f rfl rfl
        exact absurd rfl (hx a Xs f rfl)
      · intro g e
        cases e
        rfl

/-! ## The subspace -/

theorem gradCols_mem {G : List (Pt m)} {g : Pt m} (h : g ∈ G) : ∃ j, ∀ i, gradCols G i j = g i := by
  obtain ⟨j, hj, rfl⟩ := List.getElem_of_mem h
  exact ⟨⟨j, hj⟩, fun i => rfl⟩

/-- The left singular vectors span the columns. -/
theorem tsvd_span {k : ℕ} {A : Matrix (Fin m) (Fin k) ℝ} {d : TSvd m k} (hd : IsTSvd A d) (j : Fin k) :
    (fun i => A i j) = d.Y *ᵥ (fun a => d.s a * d.ZT a j) := by
  funext i
  conv_lhs => rw [hd.eq]
  rw [Matrix.mul_apply]
  simp only [Matrix.mul_diagonal, mulVec, dotProduct]
  exact Finset.sum_congr rfl fun a _ => mul_assoc _ _ _

/-- The linear programming step behind Ky Fan's theorem, with nonnegative weights. -/
theorem head_le {p : ℕ} (a c : Fin p → ℝ) (ha : Antitone a) (hpos : ∀ k, 0 ≤ a k) (h0 : ∀ k, 0 ≤ c k) (h1 : ∀ k, c k ≤ 1) (hn : n ≤ p) (hs : ∑ k, c k ≤ n) :
    ∑ k, a k * c k ≤ ∑ j : Fin n, a (Fin.castLE hn j) := by
  have e : ∑ j : Fin n, a (Fin.castLE hn j) = ∑ k : Fin p, if (k : ℕ) < n then a k else 0 := by
    obtain ⟨q, rfl⟩ := Nat.exists_eq_add_of_le hn
    rw [Fin.sum_univ_add]
    simp only [Fin.val_castAdd, Fin.is_lt, if_true, Fin.val_natAdd]
    rw [Finset.sum_eq_zero (s := Finset.univ (α := Fin q)), add_zero]
    · rfl
    · intro i _
      rw [if_neg (by omega)]
  rw [e]
  rcases Nat.eq_zero_or_pos n with rfl | hn0
  · have hz : ∀ k, c k = 0 := by
      have : ∑ k, c k = 0 := le_antisymm (by simpa using hs) (Finset.sum_nonneg fun k _ => h0 k)
      intro k
      exact (Finset.sum_eq_zero_iff_of_nonneg fun k _ => h0 k).1 this k (Finset.mem_univ k)
    simp [hz]
  · set t := a ⟨n - 1, by omega⟩ with ht
    have key : ∑ k, (a k - t) * c k ≤ ∑ k : Fin p, if (k : ℕ) < n then a k - t else 0 := by
      refine Finset.sum_le_sum fun k _ => ?_
      split
      · rename_i hk
        have : t ≤ a k := ha (by show (k : ℕ) ≤ n - 1; omega)
        nlinarith [h0 k, h1 k]
      · rename_i hk
        have : a k ≤ t := ha (by show n - 1 ≤ (k : ℕ); omega)
        nlinarith [h0 k]
    have e1 : ∑ k, (a k - t) * c k = ∑ k, a k * c k - t * ∑ k, c k := by
      rw [Finset.mul_sum, ← Finset.sum_sub_distrib]
      exact Finset.sum_congr rfl fun k _ => sub_mul _ _ _
    have e2 : (∑ k : Fin p, if (k : ℕ) < n then a k - t else 0) = (∑ k : Fin p, if (k : ℕ) < n then a k else 0) - t * n := by
      have : t * n = ∑ k : Fin p, if (k : ℕ) < n then t else 0 := by
        obtain ⟨q, rfl⟩ := Nat.exists_eq_add_of_le hn
        rw [Fin.sum_univ_add]
        simp [mul_comm]
      rw [this, ← Finset.sum_sub_distrib]
      refine Finset.sum_congr rfl fun k _ => ?_
      split <;> simp
    rw [e1, e2] at key
    have : t * ∑ k, c k ≤ t * n := mul_le_mul_of_nonneg_left hs (hpos _)
    linarith

theorem mass_eq (G : List (Pt m)) (Q : Matrix (Fin m) (Fin n) ℝ) : mass G Q = ∑ j : Fin G.length, ∑ l, (∑ i, Q i l * gradCols G i j) ^ 2 := by
  unfold mass
  rw [← Fin.sum_univ_getElem (l := G.map _)]
  have e : ∑ i : Fin (G.map fun g => (Qᵀ *ᵥ g) ⬝ᵥ (Qᵀ *ᵥ g)).length, (G.map fun g => (Qᵀ *ᵥ g) ⬝ᵥ (Qᵀ *ᵥ g))[(i : ℕ)] =
      ∑ j : Fin G.length, (Qᵀ *ᵥ G[j]) ⬝ᵥ (Qᵀ *ᵥ G[j]) := by
    refine Fintype.sum_equiv (finCongr (by simp)) _ _ fun i => ?_
    simp
  rw [e]
  refine Finset.sum_congr rfl fun j _ => Finset.sum_congr rfl fun l _ => ?_
  rw [← pow_two]
  rfl

/-- The mass in terms of the decomposition. -/
theorem mass_svd {G : List (Pt m)} {d : TSvd m G.length} (hd : IsTSvd (gradCols G) d) (Q : Matrix (Fin m) (Fin n) ℝ) :
    mass G Q = ∑ a, d.s a ^ 2 * ∑ l, (∑ i, Q i l * d.Y i a) ^ 2 := by
  rw [mass_eq, Finset.sum_comm]
  have hZ : ∀ a b, ∑ j, d.ZT a j * d.ZT b j = if a = b then 1 else 0 := by
    intro a b
    have := congrFun (congrFun hd.orthZ a) b
    rw [Matrix.mul_apply, Matrix.one_apply] at this
    exact this
  have key : ∀ l, ∑ j : Fin G.length, (∑ i, Q i l * gradCols G i j) ^ 2 = ∑ a, d.s a ^ 2 * (∑ i, Q i l * d.Y i a) ^ 2 := by
    intro l
    set w : Fin (min m G.length) → ℝ := fun a => d.s a * ∑ i, Q i l * d.Y i a with hw
    have e1 : ∀ j, ∑ i, Q i l * gradCols G i j = ∑ a, w a * d.ZT a j := by
      intro j
      have hc : ∀ i, gradCols G i j = ∑ a, d.Y i a * (d.s a * d.ZT a j) := fun i => congrFun (tsvd_span hd j) i
      simp only [hc, hw, Finset.mul_sum, Finset.sum_mul]
      rw [Finset.sum_comm]
      refine Finset.sum_congr rfl fun a _ => Finset.sum_congr rfl fun i _ => ?_
      ring
    have e2 : ∑ j : Fin G.length, (∑ a, w a * d.ZT a j) ^ 2 = ∑ a, w a ^ 2 := by
      simp only [pow_two, Finset.sum_mul_sum]
      rw [Finset.sum_comm]
      refine Finset.sum_congr rfl fun a _ => ?_
      rw [Finset.sum_comm]
      have : ∀ b, ∑ j, w a * d.ZT a j * (w b * d.ZT b j) = w a * w b * if a = b then 1 else 0 := by
        intro b
        rw [← hZ a b, Finset.mul_sum]
        exact Finset.sum_congr rfl fun j _ => by ring
      simp only [this]
      simp
    rw [Finset.sum_congr rfl fun j _ => congrArg (· ^ 2) (e1 j)]
    refine e2.trans (Finset.sum_congr rfl fun a _ => ?_)
    rw [hw]
    exact mul_pow _ _ _
  rw [Finset.sum_congr rfl fun l _ => key l, Finset.sum_comm]
  exact Finset.sum_congr rfl fun a _ => (Finset.mul_sum _ _ _).symm

/-- Bessel's inequality for orthonormal columns. -/
theorem bessel {k : ℕ} {Y : Matrix (Fin m) (Fin k) ℝ} (hY : Yᵀ * Y = 1) (v : Pt m) : ∑ a, (∑ i, v i * Y i a) ^ 2 ≤ v ⬝ᵥ v := by
  set c : Pt k := Yᵀ *ᵥ v with hc
  have h1 : (∑ a, (∑ i, v i * Y i a) ^ 2) = c ⬝ᵥ c := by
    refine Finset.sum_congr rfl fun a _ => ?_
    rw [pow_two]
    have : ∑ i, v i * Y i a = c a := Finset.sum_congr rfl fun i _ => mul_comm _ _
    rw [this]
  have h2 : (Y *ᵥ c) ⬝ᵥ (Y *ᵥ c) = c ⬝ᵥ c := by
    rw [dotProduct_mulVec, ← mulVec_transpose, mulVec_mulVec, hY, one_mulVec]
  have h3 : v ⬝ᵥ (Y *ᵥ c) = c ⬝ᵥ c := by
    rw [dotProduct_mulVec, ← mulVec_transpose]
  have h4 : 0 ≤ (v - Y *ᵥ c) ⬝ᵥ (v - Y *ᵥ c) := by
    rw [← nrm_sq]; exact sq_nonneg _
  rw [sub_dotProduct, dotProduct_sub, dotProduct_sub, h2, h3, dotProduct_comm (Y *ᵥ c) v, h3] at h4
  rw [h1]
  linarith

/-- The leading left singular vectors capture as much as any orthonormal columns. -/
theorem lead_optimal {G : List (Pt m)} {d : TSvd m G.length} (hd : IsTSvd (gradCols G) d) (hn : n ≤ min m G.length) (Q : Matrix (Fin m) (Fin n) ℝ)
    (hQ : Qᵀ * Q = 1) : mass G Q ≤ mass G (lead d.Y hn) := by
  have hlead : mass G (lead d.Y hn) = ∑ j : Fin n, d.s (Fin.castLE hn j) ^ 2 := by
    rw [mass_svd hd]
    have hY : ∀ a b, ∑ i, d.Y i a * d.Y i b = if a = b then 1 else 0 := by
      intro a b
      have := congrFun (congrFun hd.orthY a) b
      rw [Matrix.mul_apply, Matrix.one_apply] at this
      exact this
    simp only [lead, Matrix.of_apply, hY]
    simp only [Finset.mul_sum]
    rw [Finset.sum_comm]
    refine Finset.sum_congr rfl fun j _ => ?_
    rw [Finset.sum_eq_single (Fin.castLE hn j)]
    · simp
    · intro a _ ha
      simp [Ne.symm ha]
    · simp
  rw [hlead, mass_svd hd]
  refine head_le (fun a => d.s a ^ 2) _ ?_ (fun _ => sq_nonneg _) (fun a => Finset.sum_nonneg fun l _ => sq_nonneg _) ?_ hn ?_
  · intro a b hab
    exact pow_le_pow_left₀ (hd.nonneg b) (hd.sorted hab) 2
  · intro a
    have := bessel hQ (fun i => d.Y i a)
    have e : (fun i => d.Y i a) ⬝ᵥ (fun i => d.Y i a) = 1 := by
      have := congrFun (congrFun hd.orthY a) a
      rwa [Matrix.mul_apply, Matrix.one_apply_eq] at this
    rw [e] at this
    refine le_trans (le_of_eq (Finset.sum_congr rfl fun l _ => ?_)) this
    congr 1
    exact Finset.sum_congr rfl fun i _ => mul_comm _ _
  · rw [Finset.sum_comm]
    have : ∀ l, ∑ a, (∑ i, Q i l * d.Y i a) ^ 2 ≤ 1 := by
      intro l
      have := bessel hd.orthY (fun i => Q i l)
      have e : (fun i => Q i l) ⬝ᵥ (fun i => Q i l) = 1 := by
        have := congrFun (congrFun hQ l) l
        rwa [Matrix.mul_apply, Matrix.one_apply_eq] at this
      rwa [e] at this
    calc ∑ l, ∑ a, (∑ i, Q i l * d.Y i a) ^ 2 ≤ ∑ _l : Fin n, (1 : ℝ) := Finset.sum_le_sum fun l _ => this l
      _ = n := by simp


/-- **C102**: the result has orthonormal columns, its span contains every gradient that was given (and every one that was estimated), and its leading columns
capture at least as much of them as any other orthonormal columns.  Gradients are estimated only if fewer than asked for were given, and then there are at least
two more samples than coordinates. -/
theorem initSubspace_spec (svd : ∀ a b, Matrix (Fin a) (Fin b) ℝ → TSvd a b) (hsvd : ∀ a b A, IsTSvd A (svd a b A)) (ls : ∀ m, LstsqFn m)
    (pb : List ℝ → ℝ → Except Err ℝ) (X : Option Rows) (fX : Option (List ℝ)) (grads : Option Rows) (nGrads : ℕ) (perm : List ℕ) (R : Basis0)
    (h : initSubspace svd ls pb X fX grads nGrads perm = .ok R) :
    R.Uᵀ * R.U = 1 ∧ ∃ G est : List (Pt R.m), (∀ g, grads = some g → g = ⟨R.m, G⟩) ∧ (grads = none → G = []) ∧ R.k = min R.m (G.length + est.length) ∧
      (∀ g ∈ G ++ est, ∃ w, g = R.U *ᵥ w) ∧
      (∀ n (hn : n ≤ R.k) (Q : Matrix (Fin R.m) (Fin n) ℝ), Qᵀ * Q = 1 → mass (G ++ est) Q ≤ mass (G ++ est) (lead R.U hn)) ∧
      (est = [] ∨ (G.length < nGrads ∧ 1 ≤ R.m ∧ R.m + 2 ≤ est.length ∧ R.k = R.m ∧ ∃ Xs : List (Pt R.m), X = some ⟨R.m, Xs⟩ ∧ est.length = Xs.length)) := by
  unfold initSubspace at h
  split at h
  · cases h
  rename_i s hs
  obtain ⟨hl, hX, hX0, hg, hg0⟩ := checkInputs_spec X fX grads s hs
  unfold allGrads at h
  split at h
  · rename_i hc
    unfold localLinearGrads at h
    split at h
    · cases h
    rename_i A hA
    cases h
    have hlen := (localLinear_length _ _ _ _ _ _ _ A hA).1
    obtain ⟨hm, hM⟩ := localLinear_default _ _ _ _ _ A hA
    refine ⟨(hsvd _ _ _).orthY, s.grads, A.map Fin.tail, fun g e => (hg g e).symm, hg0, by simp, ?_, ?_, Or.inr ⟨hc.1, hm, ?_, ?_, s.X, ?_, by simp [hlen]⟩⟩
    · intro g hgm
      obtain ⟨j, hj⟩ := gradCols_mem hgm
      exact ⟨_, (funext hj).symm.trans (tsvd_span (hsvd _ _ _) j)⟩
    · intro n hn Q hQ
      exact lead_optimal (hsvd _ _ _) hn Q hQ
    · rw [List.length_map, hlen]
      show s.m + 2 ≤ _
      omega
    · show min s.m (s.grads ++ A.map Fin.tail).length = s.m
      rw [List.length_append, List.length_map, hlen]
      omega
    · cases X with
      | none =>
        have := (hX0 (Or.inl rfl)).1
        rw [this] at hM
        simp at hM
      | some x =>
        cases fX with
        | none =>
          have := (hX0 (Or.inr rfl)).1
          rw [this] at hM
          simp at hM
        | some f => exact congrArg some (hX x.1 x.2 f rfl rfl).2.symm
  · cases h
    refine ⟨(hsvd _ _ _).orthY, s.grads, [], fun g e => (hg g e).symm, hg0, by simp, ?_, ?_, Or.inl rfl⟩
    · intro g hgm
      rw [List.append_nil] at hgm
      obtain ⟨j, hj⟩ := gradCols_mem hgm
      exact ⟨_, (funext hj).symm.trans (tsvd_span (hsvd _ _ _) j)⟩
    · intro n hn Q hQ
      rw [List.append_nil]
      exact lead_optimal (hsvd _ _ _) hn Q hQ

/-- A matrix of rank one: the first left singular vector is its direction. -/
theorem rank_one_svd {k : ℕ} {A : Matrix (Fin m) (Fin k) ℝ} {d : TSvd m k} (hd : IsTSvd A d) (g : Pt m) (c : Pt k) (hA : ∀ i j, A i j = g i * c j) (hg : g ≠ 0) (hc : c ≠ 0) :
    ∃ (h0 : 0 < min m k) (t : ℝ), t ≠ 0 ∧ (fun i => d.Y i ⟨0, h0⟩) = t • g := by
  obtain ⟨i0, hi0⟩ := Function.ne_iff.1 hg
  obtain ⟨j0, hj0⟩ := Function.ne_iff.1 hc
  have h0 : 0 < min m k := lt_min (Fin.pos i0) (Fin.pos j0)
  have hs : d.s ⟨0, h0⟩ ≠ 0 := by
    intro hz
    have hall : ∀ a, d.s a = 0 := fun a => le_antisymm (hz ▸ hd.sorted (Fin.mk_le_of_le_val (Nat.zero_le _))) (hd.nonneg a)
    have : A i0 j0 = 0 := by
      rw [hd.eq, Matrix.mul_apply]
      simp [Matrix.mul_diagonal, hall]
    rw [hA] at this
    exact (mul_ne_zero hi0 hj0) this
  have e : A * d.ZTᵀ = d.Y * Matrix.diagonal d.s := by
    conv_lhs => rw [hd.eq]
    rw [Matrix.mul_assoc, hd.orthZ, Matrix.mul_one]
  have hcol : ∀ i, d.Y i ⟨0, h0⟩ * d.s ⟨0, h0⟩ = g i * ∑ j, c j * d.ZT ⟨0, h0⟩ j := by
    intro i
    have := congrFun (congrFun e i) ⟨0, h0⟩
    rw [Matrix.mul_diagonal, Matrix.mul_apply] at this
    rw [← this, Finset.mul_sum]
    refine Finset.sum_congr rfl fun j _ => ?_
    rw [hA, Matrix.transpose_apply]
    ring
  set t := (∑ j, c j * d.ZT ⟨0, h0⟩ j) / d.s ⟨0, h0⟩ with ht
  have hY : (fun i => d.Y i ⟨0, h0⟩) = t • g := by
    funext i
    have := hcol i
    simp only [Pi.smul_apply, smul_eq_mul, ht]
    field_simp
    linarith
  refine ⟨h0, t, ?_, hY⟩
  intro hz
  have h1 := congrFun (congrFun hd.orthY ⟨0, h0⟩) ⟨0, h0⟩
  rw [Matrix.mul_apply, Matrix.one_apply_eq] at h1
  rw [hz, zero_smul] at hY
  simp [Matrix.transpose_apply, fun i => congrFun hY i] at h1

/-- Points that span the space are at least one more than the dimension. -/
theorem le_of_affineSpan (X : List (Pt m)) (hX : affineSpan ℝ {x | x ∈ X} = ⊤) (hne : X ≠ []) : m + 1 ≤ X.length := by
  have hr : {x | x ∈ X} = Set.range X.get := by
    ext x
    simp [List.mem_iff_get]
  have hpos : 0 < X.length := List.length_pos_iff.2 hne
  have h1 := finrank_vectorSpan_range_le ℝ X.get (n := X.length - 1) (by simp; omega)
  rw [← hr, AffineSubspace.vectorSpan_eq_top_of_affineSpan_eq_top ℝ (Pt m) (Pt m) hX, finrank_top, Module.finrank_fin_fun] at h1
  omega

/-- **C102**: from samples of an affine function that span the space, with no gradients given, the first column of the result is along its gradient. -/
theorem initSubspace_affine (svd : ∀ a b, Matrix (Fin a) (Fin b) ℝ → TSvd a b) (hsvd : ∀ a b A, IsTSvd A (svd a b A)) (ls : ∀ m, LstsqFn m)
    (hls : LstsqSpec (ls m)) (htot : ∀ rows, ls m rows ≠ none) (pb : List ℝ → ℝ → Except Err ℝ) (X : List (Pt m)) (hX : affineSpan ℝ {x | x ∈ X} = ⊤)
    (c : ℝ) (g : Pt m) (hg : g ≠ 0) (nGrads : ℕ) (hn : 1 ≤ nGrads) (perm : List ℕ) (hperm : perm.Perm (List.range X.length)) (R : Basis0)
    (h : initSubspace svd ls pb (some ⟨m, X⟩) (some (X.map fun x => c + x ⬝ᵥ g)) none nGrads perm = .ok R) :
    R.m = m ∧ R.k = m ∧ ∃ (h0 : 0 < R.k) (t : ℝ), t ≠ 0 ∧ ∀ (i : Fin R.m) (j : Fin m), (i : ℕ) = j → R.U i ⟨0, h0⟩ = t * g j := by
  have hne : X ≠ [] := by
    rintro rfl
    have : affineSpan ℝ {x : Pt m | x ∈ ([] : List (Pt m))} = ⊥ := by simp
    rw [this] at hX
    exact bot_ne_top hX
  unfold initSubspace at h
  have hck : checkInputs (some ⟨m, X⟩) (some (X.map fun x => c + x ⬝ᵥ g)) none = .ok ⟨m, X, X.map fun x => c + x ⬝ᵥ g, []⟩ := by
    simp only [checkInputs, List.length_map, if_true, checkGrads]
    rfl
  rw [hck] at h
  simp only at h
  unfold allGrads at h
  have hM : m + 1 ≤ X.length := by
    exact le_of_affineSpan X hX hne
  rw [if_pos ⟨hn, hM⟩] at h
  unfold localLinearGrads at h
  split at h
  · cases h
  rename_i A hA
  cases h
  have hlen := (localLinear_length _ _ _ _ _ _ _ A hA).1
  have hk : min m ([] ++ A.map Fin.tail : List (Pt m)).length = m := by
    rw [List.nil_append, List.length_map, hlen]
    omega
  refine ⟨rfl, hk, ?_⟩
  -- the rows of the estimate
  have hpick : 0 < (pick X perm (nGrads - ([] : List (Pt m)).length)).length := by
    obtain ⟨i, p, rfl⟩ : ∃ i p, perm = i :: p := by
      cases perm with
      | nil =>
        have := hperm.length_eq
        simp only [List.length_nil, List.length_range] at this
        exact absurd (List.length_eq_zero_iff.1 this.symm) hne
      | cons i p => exact ⟨i, p, rfl⟩
    have hi : i < X.length := List.mem_range.1 (hperm.subset (List.mem_cons_self))
    obtain ⟨q, hq⟩ : ∃ q, nGrads - ([] : List (Pt m)).length = q + 1 := ⟨nGrads - 1, by simp; omega⟩
    rw [pick, hq, List.take_succ_cons, List.filterMap_cons, List.getElem?_eq_getElem hi]
    simp
  have hrow : ∀ (j : ℕ) (hj : j < A.length), A[j] = Fin.cons c g ∨ (A[j] = 0 ∧ 0 < j) := by
    intro j hj
    by_cases hjp : j < (pick X perm (nGrads - ([] : List (Pt m)).length)).length
    · rcases localLinear_exact_partial (ls m) hls pb X hX c g none none _ A hA j hjp with hh | ⟨_, rows, hr⟩
      · rw [List.getElem?_eq_getElem hj] at hh
        exact Or.inl (Option.some.inj hh)
      · exact absurd hr (htot rows)
    · obtain ⟨_, w, _, hh⟩ := localLinear_ok _ _ _ _ _ _ _ A hA
      obtain ⟨_, _, h3, _⟩ := llLoop_spec _ _ _ w _ _ _ _ hh
      have := h3 j (Or.inr (by simpa using hjp))
      rw [List.getElem?_eq_getElem hj, List.getElem?_replicate, if_pos (by omega)] at this
      exact Or.inr ⟨Option.some.inj this, by omega⟩
  classical
  let G : List (Pt m) := [] ++ A.map Fin.tail
  have hGlen : G.length = A.length := by simp [G]
  have hGget : ∀ (j : ℕ) (hj : j < G.length), G[j] = Fin.tail (A[j]'(hGlen ▸ hj)) := by
    intro j hj
    simp [G]
  let cc : Pt G.length := fun j => if G[j] = g then 1 else 0
  have hcols : ∀ i j, gradCols G i j = g i * cc j := by
    intro i j
    show G[j] i = g i * if G[j] = g then 1 else 0
    by_cases e : G[j] = g
    · rw [if_pos e, e, mul_one]
    · rw [if_neg e, mul_zero]
      rcases hrow j (hGlen ▸ j.2) with hh | ⟨hh, _⟩
      · exfalso
        apply e
        show G[(j : ℕ)] = g
        rw [hGget j j.2, hh, Fin.tail_cons]
      · show G[(j : ℕ)] i = 0
        rw [hGget j j.2, hh]
        rfl
  have hA0 : 0 < A.length := by omega
  have hcc : cc ≠ 0 := by
    rw [Function.ne_iff]
    refine ⟨⟨0, by omega⟩, ?_⟩
    show (if G[0]'(by omega) = g then (1 : ℝ) else 0) ≠ 0
    rw [if_pos]
    · exact one_ne_zero
    · rw [hGget 0 (by omega)]
      rcases hrow 0 hA0 with hh | ⟨_, hh⟩
      · rw [hh, Fin.tail_cons]
      · omega
  obtain ⟨h0, t, ht, hY⟩ := rank_one_svd (hsvd m G.length (gradCols G)) g cc hcols hg hcc
  refine ⟨h0, t, ht, ?_⟩
  intro i j hij
  obtain rfl : i = j := Fin.ext hij
  exact congrFun hY i


/-- **C102** is false as documented ⚠: one sample more than coordinates is let through to the estimate, whose default perplexity then equals the number of
samples and fails an assertion, even if gradients were given. -/
theorem initSubspace_few_false (svd : ∀ a b, Matrix (Fin a) (Fin b) ℝ → TSvd a b) (ls : ∀ m, LstsqFn m) (pb : List ℝ → ℝ → Except Err ℝ)
    (X : List (Pt m)) (fX : List ℝ) (G : List (Pt m)) (nGrads : ℕ) (perm : List ℕ) (hX : X.length = m + 1) (hf : fX.length = m + 1) (hG : G.length < nGrads) :
    initSubspace svd ls pb (some ⟨m, X⟩) (some fX) (some ⟨m, G⟩) nGrads perm = .error .assertion := by
  have hck : checkInputs (some ⟨m, X⟩) (some fX) (some ⟨m, G⟩) = .ok ⟨m, X, fX, G⟩ := by
    simp only [checkInputs, hX, hf, if_true, checkGrads, dif_pos]
    rfl
  unfold initSubspace
  rw [hck]
  simp only
  unfold allGrads
  rw [if_pos ⟨hG, hX.ge⟩]
  have : localLinear (ls m) pb X fX none none (some (pick X perm (nGrads - G.length))) = .error .assertion := by
    unfold localLinear
    rw [if_pos (by omega)]
    simp only [llWidth, llPerp, llChoose, hX, min_self]
    rw [if_neg (by simp)]
  unfold localLinearGrads
  rw [this]
  rfl

/-- Nothing is given: `AttributeError`. -/
theorem initSubspace_nothing (svd : ∀ a b, Matrix (Fin a) (Fin b) ℝ → TSvd a b) (ls : ∀ m, LstsqFn m) (pb : List ℝ → ℝ → Except Err ℝ) (nGrads : ℕ)
    (perm : List ℕ) : initSubspace svd ls pb none none none nGrads perm = .error .attributeError := rfl

/-- When the call succeeds. -/
theorem initSubspace_ok_iff (svd : ∀ a b, Matrix (Fin a) (Fin b) ℝ → TSvd a b) (ls : ∀ m, LstsqFn m) (pb : List ℝ → ℝ → Except Err ℝ)
    (hpb : ∀ d p, ∃ b, pb d p = .ok b) (X : Option Rows) (fX : Option (List ℝ)) (grads : Option Rows) (nGrads : ℕ) (perm : List ℕ)
    (hperm : ∀ a Xs, X = some ⟨a, Xs⟩ → perm.Perm (List.range Xs.length)) :
    (∃ R, initSubspace svd ls pb X fX grads nGrads perm = .ok R) ↔ ∃ s, checkInputs X fX grads = .ok s ∧
      (s.grads.length < nGrads → s.m + 1 ≤ s.X.length → 1 ≤ s.m ∧ s.X.length ≠ s.m + 1) := by
  constructor
  · rintro ⟨R, h⟩
    unfold initSubspace at h
    split at h
    · cases h
    rename_i s hs
    refine ⟨s, hs, fun h1 h2 => ?_⟩
    unfold allGrads at h
    rw [if_pos ⟨h1, h2⟩] at h
    unfold localLinearGrads at h
    split at h
    · cases h
    rename_i A hA
    have := localLinear_default _ _ _ _ _ A hA
    omega
  · rintro ⟨s, hs, hc⟩
    obtain ⟨hl, hX, hX0, _, _⟩ := checkInputs_spec X fX grads s hs
    unfold initSubspace
    rw [hs]
    simp only
    unfold allGrads
    split
    · rename_i h12
      obtain ⟨hm, hM⟩ := hc h12.1 h12.2
      have hw : llWidth s.X.length s.m none none = .ok (.perplexity ((s.m + 1 : ℕ) : ℝ)) := by
        simp only [llWidth, llPerp, llChoose]
        rw [min_eq_left h12.2, if_pos]
        constructor
        · have : 2 ≤ s.m + 1 := by omega
          exact_mod_cast this
        · have : s.m + 1 < s.X.length := by omega
          exact_mod_cast this
      have hpick : (pick s.X perm (nGrads - s.grads.length)).length ≤ s.X.length := by
        refine (List.length_filterMap_le _ _).trans ((List.length_take_le' _ _).trans ?_)
        cases X with
        | none =>
          have := (hX0 (Or.inl rfl)).1
          rw [this] at h12
          simp at h12
        | some x =>
          obtain ⟨a, Xs⟩ := x
          cases fX with
          | none =>
            have := (hX0 (Or.inr rfl)).1
            rw [this] at h12
            simp at h12
          | some f =>
            have e := (hX a Xs f rfl rfl).2
            have := (hperm a Xs rfl).length_eq
            rw [List.length_range] at this
            cases e
            exact this.le
      have hloop : ∀ (Xt : List (Pt s.m)) (A : List (Pt (s.m + 1))) (i : ℕ), i + Xt.length ≤ A.length →
          ∃ B, llLoop (ls s.m) pb (s.X.zip s.fX) (.perplexity ((s.m + 1 : ℕ) : ℝ)) A i Xt = .ok B := by
        intro Xt
        induction Xt with
        | nil => exact fun A i _ => ⟨A, rfl⟩
        | cons xt rest ih =>
          intro A i hi
          simp only [List.length_cons] at hi
          rw [llLoop]
          simp only [llBeta]
          obtain ⟨b, hb⟩ := hpb (((s.X.zip s.fX).map (·.1)).map fun x => sqDist x xt) ((s.m + 1 : ℕ) : ℝ)
          rw [hb]
          simp only
          rw [if_pos (by omega)]
          exact ih _ _ (by rw [List.length_set]; omega)
      obtain ⟨B, hB⟩ := hloop (pick s.X perm (nGrads - s.grads.length)) (List.replicate s.X.length 0) 0 (by simpa using hpick)
      have : localLinear (ls s.m) pb s.X s.fX none none (some (pick s.X perm (nGrads - s.grads.length))) = .ok B := by
        unfold localLinear
        rw [if_pos hl.symm, hw]
        exact hB
      unfold localLinearGrads
      rw [this]
      exact ⟨_, rfl⟩
    · exact ⟨_, rfl⟩

/-! ## Instances -/

/-- All the hypotheses of `initSubspace_affine` can hold, and the call then succeeds: three samples on the line. -/
example : ∃ (svd : ∀ a b, Matrix (Fin a) (Fin b) ℝ → TSvd a b) (ls : ∀ m, LstsqFn m) (R : Basis0), (∀ a b A, IsTSvd A (svd a b A)) ∧ LstsqSpec (ls 1) ∧
    (∀ rows, ls 1 rows ≠ none) ∧
    initSubspace svd ls (fun _ _ => .ok 1) (some ⟨1, [![0], ![1], ![2]]⟩) (some ([![0], ![1], ![2]].map fun x : Pt 1 => 3 + x ⬝ᵥ ![2])) none 100 [2, 0, 1] = .ok R ∧
    R.k = 1 := by
  classical
  have h1 := fun (a b : ℕ) (A : Matrix (Fin a) (Fin b) ℝ) => exists_tsvd A
  choose svd hsvd using h1
  choose ls hls htot using exists_lstsq
  have hperm : [2, 0, 1].Perm (List.range 3) := by decide
  have hspan : affineSpan ℝ {x : Pt 1 | x ∈ [![0], ![1], ![2]]} = ⊤ := by
    have hsub : ({![0], ![1]} : Set (Pt 1)) ⊆ {x | x ∈ [![0], ![1], ![2]]} := by
      rintro x (rfl | rfl) <;> simp
    refine top_le_iff.1 (le_trans (le_of_eq ?_) (affineSpan_mono ℝ hsub))
    symm
    rw [eq_top_iff]
    intro x _
    have : x = AffineMap.lineMap (![0] : Pt 1) (![1] : Pt 1) (x 0) := by
      funext i
      fin_cases i
      simp [AffineMap.lineMap_apply]
    rw [this]
    exact AffineMap.lineMap_mem _ (mem_affineSpan ℝ (by simp)) (mem_affineSpan ℝ (by simp))
  obtain ⟨R, hR⟩ := (initSubspace_ok_iff svd ls (fun _ _ => .ok 1) (fun _ _ => ⟨1, rfl⟩) (some ⟨1, [![0], ![1], ![2]]⟩)
    (some ([![0], ![1], ![2]].map fun x : Pt 1 => 3 + x ⬝ᵥ ![2])) none 100 [2, 0, 1] (by
      intro a Xs e
      cases e
      exact hperm)).2 ⟨⟨1, [![0], ![1], ![2]], [![0], ![1], ![2]].map fun x : Pt 1 => 3 + x ⬝ᵥ ![2], []⟩, rfl, by simp⟩
  exact ⟨svd, ls, R, hsvd, hls 1, htot 1, hR, (initSubspace_affine svd hsvd ls (hls 1) (htot 1) _ [![0], ![1], ![2]] hspan 3 ![2] (by
    intro h
    have := congrFun h 0
    simp at this) 100 (by omega) _ hperm R hR).2.1⟩

/-- Gradients only. -/
example : ∃ s, checkInputs none none (some ⟨2, [![1, 0]]⟩) = .ok s := (checkInputs_ok_iff _ _ _).2 (Or.inr ⟨Or.inl rfl, by simp⟩)

end Verif.Func
