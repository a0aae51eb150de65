import Verif.Misc.LocalProps
import Verif.Misc.PerplexityModel

/-!
# Local linear models do not depend on the order of the samples
-/

namespace Verif.Misc

open Verif Verif.Domain Verif.Lip Matrix

variable {m : ℕ}

theorem min?_perm {l l' : List ℝ} (h : l.Perm l') : l.min? = l'.min? := by
  cases hl : l'.min? with
  | none => rw [List.min?_eq_none_iff] at hl ⊢; rw [hl] at h; exact List.perm_nil.1 h
  | some a =>
    rw [List.min?_eq_some_iff] at hl ⊢
    exact ⟨h.mem_iff.2 hl.1, fun b hb => hl.2 b (h.mem_iff.1 hb)⟩

theorem max?_perm {l l' : List ℝ} (h : l.Perm l') : l.max? = l'.max? := by
  cases hl : l'.max? with
  | none => rw [List.max?_eq_none_iff] at hl ⊢; rw [hl] at h; exact List.perm_nil.1 h
  | some a =>
    rw [List.max?_eq_some_iff] at hl ⊢
    exact ⟨h.mem_iff.2 hl.1, fun b hb => hl.2 b (h.mem_iff.1 hb)⟩

/-- The bandwidth (or the exception) found from the distances does not depend on their order. -/
theorem perpBandwidth_order (root : RootFn) {d d' : List ℝ} (h : d.Perm d') (p : ℝ) : perpBandwidth root d p = perpBandwidth root d' p := by
  have h1 : minPos d = minPos d' := min?_perm (h.filter _)
  have h2 : ∀ d1 : ℝ, minPos (d.map fun x => x - d1) = minPos (d'.map fun x => x - d1) := fun d1 => min?_perm ((h.map _).filter _)
  have h3 : ∀ β, sumP β d = sumP β d' := fun β => (h.map _).sum_eq
  have h4 : ∀ β, logEntropy β d = logEntropy β d' := fun β => by
    rw [logEntropy, logEntropy, h3, (h.map _).sum_eq]
  simp only [perpBandwidth, h.length_eq, max?_perm h, h1, h2, h4]

theorem resid_mid {n : ℕ} (rows : List (Pt n × ℝ)) (a b : Pt n) :
    4 * resid rows ((1 / 2 : ℝ) • (a + b)) + (rows.map fun r => (r.1 ⬝ᵥ (a - b)) ^ 2).sum = 2 * resid rows a + 2 * resid rows b := by
  induction rows with
  | nil => simp [resid]
  | cons r l ih =>
    simp only [resid, List.map_cons, List.sum_cons, dotProduct_smul, dotProduct_add, dotProduct_sub, smul_eq_mul] at ih ⊢
    nlinarith [ih]

/-- Weighted least squares with positive weights at affinely spanning samples has at most one solution. -/
theorem llProblem_unique (data : List (Pt m × ℝ)) (hX : affineSpan ℝ {x | x ∈ data.map Prod.fst} = ⊤) (β : ℝ) (xt : Pt m) {a b : Pt (m + 1)}
    (ha : ∀ c, resid (llProblem data β xt) a ≤ resid (llProblem data β xt) c) (hb : ∀ c, resid (llProblem data β xt) b ≤ resid (llProblem data β xt) c) :
    a = b := by
  have hm := resid_mid (llProblem data β xt) a b
  have h1 := ha ((1 / 2 : ℝ) • (a + b))
  have h2 := hb ((1 / 2 : ℝ) • (a + b))
  have hs : ((llProblem data β xt).map fun r => (r.1 ⬝ᵥ (a - b)) ^ 2).sum ≤ 0 := by linarith
  have hz : resid ((llProblem data β xt).map fun r => (r.1, 0)) (a - b) = 0 := by
    refine le_antisymm ?_ (resid_nonneg _ _)
    simpa [resid, Function.comp_def] using hs
  rw [resid_zero] at hz
  have h3 : ∀ x ∈ {x | x ∈ data.map Prod.fst}, (a - b) 0 + x ⬝ᵥ Fin.tail (a - b) = 0 := by
    rintro x hx
    obtain ⟨d, hd, rfl⟩ := List.mem_map.1 hx
    have := hz (llWeight β xt d.1 • llRow d.1, 0) (List.mem_map.2 ⟨_, List.mem_map.2 ⟨d, hd, rfl⟩, rfl⟩)
    simp only [smul_dotProduct, smul_eq_mul, llRow_dot, mul_eq_zero] at this
    exact this.resolve_left (Real.exp_pos _).ne'
  obtain ⟨e1, e2⟩ := affine_zero _ hX _ _ h3
  refine sub_eq_zero.1 ?_
  rw [← Fin.cons_self_tail (a - b), e1, e2]
  funext i
  refine Fin.cases ?_ (fun j => ?_) i <;> simp

/-- For affinely spanning samples, the local linear models at given locations do not depend on the order of the samples,
nor on the least squares solver. -/
theorem localLinear_order {ls ls' : LstsqFn m} (hls : LstsqSpec ls) (hls' : LstsqSpec ls') (ht : ∀ rows, ls rows ≠ none) (ht' : ∀ rows, ls' rows ≠ none)
    (root : RootFn) {data data' : List (Pt m × ℝ)} (hd : data.Perm data') (hX : affineSpan ℝ {x | x ∈ data.map Prod.fst} = ⊤) (perp : Option ℝ) (bw : Option Bw)
    (Xt : List (Pt m)) :
    localLinear ls (perpBandwidth root) (data.map Prod.fst) (data.map Prod.snd) perp bw (some Xt) =
      localLinear ls' (perpBandwidth root) (data'.map Prod.fst) (data'.map Prod.snd) perp bw (some Xt) := by
  have hz : ∀ l : List (Pt m × ℝ), (l.map Prod.fst).zip (l.map Prod.snd) = l := fun l => by
    induction l with
    | nil => rfl
    | cons d l ih => simp [ih]
  have hβ : ∀ w xt, llBeta (perpBandwidth root) (data.map Prod.fst) w xt = llBeta (perpBandwidth root) (data'.map Prod.fst) w xt := by
    intro w xt
    cases w with
    | fixed b => rfl
    | perplexity p => exact perpBandwidth_order root ((hd.map _).map _) p
  have hls : ∀ β xt, ls (llProblem data β xt) = ls' (llProblem data' β xt) := by
    intro β xt
    obtain ⟨a, ha⟩ := Option.ne_none_iff_exists'.1 (ht (llProblem data β xt))
    obtain ⟨b, hb⟩ := Option.ne_none_iff_exists'.1 (ht' (llProblem data' β xt))
    have hr : ∀ c, resid (llProblem data β xt) c = resid (llProblem data' β xt) c := fun c => ((hd.map _).map _).sum_eq
    rw [ha, hb, llProblem_unique data hX β xt (hls _ _ ha) fun c => by rw [hr, hr]; exact hls' _ _ hb c]
  have hloop : ∀ w A i, llLoop ls (perpBandwidth root) data w A i Xt = llLoop ls' (perpBandwidth root) data' w A i Xt := by
    intro w
    induction Xt with
    | nil => intro A i; rfl
    | cons xt rest ih =>
      intro A i
      simp only [llLoop, hβ, hls, ih]
  simp only [localLinear, hz, List.length_map, if_true, hd.length_eq, Option.getD_some, hloop]

example : affineSpan ℝ {x | x ∈ [((fun _ => 0 : Pt 1), (1 : ℝ)), (fun _ => 1, 2)].map Prod.fst} = ⊤ := by
  have : {x | x ∈ [((fun _ => 0 : Pt 1), (1 : ℝ)), (fun _ => 1, 2)].map Prod.fst} = {(fun _ => 0 : Pt 1), (fun _ => 1 : Pt 1)} := by ext; simp
  rw [this, eq_top_iff]
  intro p _
  have h := AffineMap.lineMap_mem_affineSpan_pair (k := ℝ) (p 0) (fun _ => 0 : Pt 1) (fun _ => 1 : Pt 1)
  convert h using 1
  funext i
  fin_cases i
  simp [AffineMap.lineMap_apply]

end Verif.Misc
