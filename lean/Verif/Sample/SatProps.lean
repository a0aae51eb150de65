import Mathlib.Logic.Equiv.Fin.Basic
import Mathlib.Data.Fintype.EquivFin
import Mathlib.Data.Fintype.Perm
import Mathlib.Data.Fintype.BigOperators
import Mathlib.Data.Fintype.Pi
import Mathlib.Data.Finset.Card
import Mathlib.Tactic.Linarith
import Mathlib.Tactic.Ring
import Mathlib.Tactic.Push
import Verif.Sample.SatModel

/-!
# C39: the SAT encoding of projection designs is exact
-/

namespace Verif.Samp

/-- The natural number of a variable. -/
def varNo (N k o v : ℕ) : ℕ := k * N * N + o * N + v + 1

theorem encode_eq (N k o v : ℕ) : encode N k o v = (varNo N k o v : ℤ) := by unfold encode varNo; push_cast; ring

/-- Decoding an encoded triple gives the triple back. -/
theorem decode_encode {N k o v : ℕ} (ho : o < N) (hv : v < N) : decode N (encode N k o v) = ((k : ℤ), (o : ℤ), (v : ℤ)) := by
  have hN : 0 < N := by omega
  have h1 : encode N k o v - 1 = ((k * N ^ 2 + (o * N + v) : ℕ) : ℤ) := by unfold encode; push_cast; ring
  have hlt : o * N + v < N ^ 2 := by
    have : o * N + N ≤ N * N := by
      calc o * N + N = (o + 1) * N := by ring
        _ ≤ N * N := Nat.mul_le_mul_right _ ho
    rw [pow_two]; omega
  have hsq : 0 < N ^ 2 := by positivity
  unfold decode
  rw [h1]
  have c2 : ((N : ℤ) ^ 2) = ((N ^ 2 : ℕ) : ℤ) := by push_cast; ring
  have fd : ∀ a b : ℕ, Int.fdiv (a : ℤ) (b : ℤ) = ((a / b : ℕ) : ℤ) := fun a b => by
    rw [Int.fdiv_eq_ediv_of_nonneg _ (Int.natCast_nonneg b)]; exact (Int.natCast_ediv a b).symm
  have fm : ∀ a b : ℕ, Int.fmod (a : ℤ) (b : ℤ) = ((a % b : ℕ) : ℤ) := fun a b => by
    rw [Int.fmod_eq_emod_of_nonneg _ (Int.natCast_nonneg b)]; exact (Int.natCast_emod a b).symm
  rw [c2, fd, fm, fm, fd]
  have e1 : (k * N ^ 2 + (o * N + v)) / N ^ 2 = k := by
    rw [mul_comm, Nat.mul_add_div hsq, Nat.div_eq_of_lt hlt, add_zero]
  have e2 : (k * N ^ 2 + (o * N + v)) % N ^ 2 = o * N + v := by
    rw [mul_comm, Nat.mul_add_mod, Nat.mod_eq_of_lt hlt]
  have e3 : (o * N + v) / N = o := by rw [mul_comm, Nat.mul_add_div hN, Nat.div_eq_of_lt hv, add_zero]
  have e4 : (k * N ^ 2 + (o * N + v)) % N = v := by
    have : k * N ^ 2 + (o * N + v) = N * (k * N + o) + v := by ring
    rw [this, Nat.mul_add_mod, Nat.mod_eq_of_lt hv]
  rw [e1, e2, e3, e4]

/-- Encoded triples are positive literals between `1` and `K N²`. -/
theorem encode_range {N K k o v : ℕ} (hk : k < K) (ho : o < N) (hv : v < N) : 1 ≤ encode N k o v ∧ encode N k o v ≤ K * N ^ 2 := by
  rw [encode_eq]
  have hlt : o * N + v < N ^ 2 := by
    have : o * N + N ≤ N * N := by
      calc o * N + N = (o + 1) * N := by ring
        _ ≤ N * N := Nat.mul_le_mul_right _ ho
    rw [pow_two]; omega
  have hk' : (k + 1) * N ^ 2 ≤ K * N ^ 2 := Nat.mul_le_mul_right _ hk
  have : varNo N k o v = k * N ^ 2 + (o * N + v) + 1 := by unfold varNo; ring
  have h2 : varNo N k o v ≤ K * N ^ 2 := by rw [this]; nlinarith
  constructor
  · have : 1 ≤ varNo N k o v := by unfold varNo; omega
    exact_mod_cast this
  · exact_mod_cast h2

/-- Every literal between `1` and `K N²` is the encoding of exactly one triple, the one `decode` returns. -/
theorem encode_surj {N K : ℕ} {idx : ℤ} (h1 : 1 ≤ idx) (h2 : idx ≤ K * N ^ 2) :
    ∃ k o v : ℕ, k < K ∧ o < N ∧ v < N ∧ encode N k o v = idx ∧ decode N idx = ((k : ℤ), (o : ℤ), (v : ℤ)) := by
  obtain ⟨n, hn⟩ : ∃ n : ℕ, idx = n + 1 := ⟨(idx - 1).toNat, by omega⟩
  have hlt : n < K * N ^ 2 := by have : ((n : ℤ) + 1) ≤ ((K * N ^ 2 : ℕ) : ℤ) := by rw [← hn]; exact_mod_cast h2
                                 omega
  have hN : 0 < N := by
    rcases Nat.eq_zero_or_pos N with h | h
    · subst h; simp at hlt
    · exact h
  have hsq : 0 < N ^ 2 := by positivity
  have ho : n % N ^ 2 / N < N := by
    rw [Nat.div_lt_iff_lt_mul hN, ← pow_two]; exact Nat.mod_lt _ hsq
  have hv : n % N < N := Nat.mod_lt _ hN
  have hk : n / N ^ 2 < K := by rw [Nat.div_lt_iff_lt_mul hsq]; exact hlt
  have he : encode N (n / N ^ 2) (n % N ^ 2 / N) (n % N) = idx := by
    have a1 := Nat.div_add_mod n (N ^ 2)
    have a2 := Nat.div_add_mod (n % N ^ 2) N
    have a3 : n % N ^ 2 % N = n % N := Nat.mod_mod_of_dvd _ (Dvd.intro_left N (by ring))
    rw [a3] at a2
    rw [encode_eq, hn]
    have : varNo N (n / N ^ 2) (n % N ^ 2 / N) (n % N) = n + 1 := by
      unfold varNo
      have : n / N ^ 2 * N * N = N ^ 2 * (n / N ^ 2) := by ring
      rw [this]
      have b : n % N ^ 2 / N * N = N * (n % N ^ 2 / N) := by ring
      rw [b]; omega
    rw [this]; push_cast; ring
  exact ⟨_, _, _, hk, ho, hv, he, by rw [← he]; exact decode_encode ho hv⟩

theorem encode_inj {N k o v k' o' v' : ℕ} (ho : o < N) (hv : v < N) (ho' : o' < N) (hv' : v' < N)
    (h : encode N k o v = encode N k' o' v') : k = k' ∧ o = o' ∧ v = v' := by
  have h1 := decode_encode (k := k) ho hv
  rw [h, decode_encode ho' hv'] at h1
  have a := congrArg Prod.fst h1
  have b := congrArg (fun t => t.2.1) h1
  have c := congrArg (fun t => t.2.2) h1
  simp only [Nat.cast_inj] at a b c
  exact ⟨a.symm, b.symm, c.symm⟩

example : decode 3 (encode 3 2 1 2) = (2, 1, 2) := decode_encode (by norm_num) (by norm_num)

theorem mem_triu {N : ℕ} {p : ℕ × ℕ} : p ∈ triu N ↔ p.1 < p.2 ∧ p.2 < N := by
  unfold triu
  simp only [List.mem_flatMap, List.mem_range, List.mem_map, List.mem_filter, decide_eq_true_eq]
  constructor
  · rintro ⟨i, hi, j, ⟨hj, hij⟩, rfl⟩; exact ⟨hij, hj⟩
  · rintro ⟨h1, h2⟩; exact ⟨p.1, by omega, p.2, ⟨h2, h1⟩, rfl⟩

/-- The truth value an assignment gives to `(metric, row, value)`. -/
def on (N : ℕ) (σ : Assign) (k o v : ℕ) : Prop := σ (encode N k o v).toNat = true

theorem litSat_pos (N : ℕ) (σ : Assign) (k o v : ℕ) : litSat σ (encode N k o v) ↔ on N σ k o v := by
  have : 0 < encode N k o v := by rw [encode_eq]; unfold varNo; push_cast; positivity
  unfold litSat on
  constructor
  · rintro (h | h)
    · exact h.2
    · omega
  · intro h; exact Or.inl ⟨this, h⟩

theorem litSat_neg (N : ℕ) (σ : Assign) (k o v : ℕ) : litSat σ (-encode N k o v) ↔ ¬ on N σ k o v := by
  have : 0 < encode N k o v := by rw [encode_eq]; unfold varNo; push_cast; positivity
  unfold litSat on
  rw [Bool.not_eq_true]
  constructor
  · rintro (h | h)
    · omega
    · simpa using h.2
  · intro h; exact Or.inr ⟨by omega, by simpa using h⟩

theorem pair_sat (σ : Assign) (a b : ℤ) : clauseSat σ [a, b] ↔ litSat σ a ∨ litSat σ b := by
  unfold clauseSat; simp

theorem rowClauses_sat (N : ℕ) (σ : Assign) (k o : ℕ) :
    cnfSat σ (rowClauses N k o) ↔ (∃ v, v < N ∧ on N σ k o v) ∧ ∀ v1 v2, v1 < v2 → v2 < N → ¬ (on N σ k o v1 ∧ on N σ k o v2) := by
  unfold rowClauses cnfSat
  simp only [List.mem_append, List.mem_singleton, List.mem_map]
  constructor
  · intro h
    refine ⟨?_, fun v1 v2 h1 h2 => ?_⟩
    · obtain ⟨l, hl, hs⟩ := h _ (Or.inl rfl)
      obtain ⟨v, hv, rfl⟩ := List.mem_map.1 hl
      exact ⟨v, List.mem_range.1 hv, (litSat_pos ..).1 hs⟩
    · have := h _ (Or.inr ⟨(v1, v2), mem_triu.2 ⟨h1, h2⟩, rfl⟩)
      rw [pair_sat, litSat_neg, litSat_neg] at this
      tauto
  · rintro ⟨⟨v, hv, hon⟩, h2⟩ c (rfl | ⟨p, hp, rfl⟩)
    · exact ⟨_, List.mem_map.2 ⟨v, List.mem_range.2 hv, rfl⟩, (litSat_pos ..).2 hon⟩
    · rw [pair_sat, litSat_neg, litSat_neg]
      have := h2 _ _ (mem_triu.1 hp).1 (mem_triu.1 hp).2
      tauto

theorem valueClauses_sat (N : ℕ) (σ : Assign) (k v : ℕ) :
    cnfSat σ (valueClauses N k v) ↔ ∀ o1 o2, o1 < o2 → o2 < N → ¬ (on N σ k o1 v ∧ on N σ k o2 v) := by
  unfold valueClauses cnfSat
  simp only [List.mem_map]
  constructor
  · intro h o1 o2 h1 h2
    have := h _ ⟨(o1, o2), mem_triu.2 ⟨h1, h2⟩, rfl⟩
    rw [pair_sat, litSat_neg, litSat_neg] at this
    tauto
  · rintro h2 c ⟨p, hp, rfl⟩
    rw [pair_sat, litSat_neg, litSat_neg]
    have := h2 _ _ (mem_triu.1 hp).1 (mem_triu.1 hp).2
    tauto

theorem cnfSat_append (σ : Assign) (f g : List (List ℤ)) : cnfSat σ (f ++ g) ↔ cnfSat σ f ∧ cnfSat σ g := by
  unfold cnfSat; simp only [List.mem_append]
  constructor
  · intro h; exact ⟨fun c hc => h c (Or.inl hc), fun c hc => h c (Or.inr hc)⟩
  · rintro ⟨h1, h2⟩ c (hc | hc); exacts [h1 c hc, h2 c hc]

theorem cnfSat_flatMap {α : Type*} (σ : Assign) (l : List α) (f : α → List (List ℤ)) :
    cnfSat σ (l.flatMap f) ↔ ∀ a ∈ l, cnfSat σ (f a) := by
  unfold cnfSat; simp only [List.mem_flatMap]
  constructor
  · intro h a ha c hc; exact h c ⟨a, ha, hc⟩
  · rintro h c ⟨a, ha, hc⟩; exact h a ha c hc

/-- What the clauses say, in words: each row of each metric has exactly one value, no value is used twice, and the first metric
is the identity. -/
theorem geoCnf_sat (N K : ℕ) (σ : Assign) : cnfSat σ (geoCnf N K) ↔
    (∀ k < K, ∀ o < N, ∃ v, v < N ∧ on N σ k o v) ∧ (∀ k < K, ∀ o < N, ∀ v1 v2, v1 < v2 → v2 < N → ¬ (on N σ k o v1 ∧ on N σ k o v2)) ∧
    (∀ k < K, ∀ v < N, ∀ o1 o2, o1 < o2 → o2 < N → ¬ (on N σ k o1 v ∧ on N σ k o2 v)) ∧ ∀ v < N, on N σ 0 v v := by
  have hun : cnfSat σ ((List.range N).map (fun value => [encode N 0 value value])) ↔ ∀ v < N, on N σ 0 v v := by
    unfold cnfSat
    simp only [List.mem_map, List.mem_range]
    constructor
    · intro h v hv
      obtain ⟨l, hl, hs⟩ := h _ ⟨v, hv, rfl⟩
      rw [List.mem_singleton.1 hl, litSat_pos] at hs
      exact hs
    · rintro h c ⟨v, hv, rfl⟩
      exact ⟨_, List.mem_singleton.2 rfl, (litSat_pos ..).2 (h v hv)⟩
  unfold geoCnf
  rw [cnfSat_append, hun, cnfSat_flatMap]
  simp only [List.mem_range, cnfSat_append, cnfSat_flatMap, rowClauses_sat, valueClauses_sat]
  constructor
  · rintro ⟨h, h4⟩
    exact ⟨fun k hk o ho => ((h k hk).1 o ho).1, fun k hk o ho => ((h k hk).1 o ho).2, fun k hk => (h k hk).2, h4⟩
  · rintro ⟨h1, h2, h3, h4⟩
    exact ⟨fun k hk => ⟨fun o ho => ⟨h1 k hk o ho, h2 k hk o ho⟩, h3 k hk⟩, h4⟩

/-- A design assigns to each metric a permutation of the points, the first one being the identity. -/
abbrev Design (N K : ℕ) := {π : Fin (K + 1) → Equiv.Perm (Fin N) // π 0 = 1}

/-- The assignment `σ` represents the family of permutations `π`. -/
def Represents (N K : ℕ) (σ : Assign) (π : Fin K → Equiv.Perm (Fin N)) : Prop :=
  ∀ (k : Fin K) (o v : Fin N), on N σ k o v ↔ π k o = v

/-- C39: the satisfying assignments are exactly those representing a family of permutations, the first of which is the
identity (and the family is unique). -/
theorem sat_iff_permutations (N K : ℕ) (σ : Assign) : cnfSat σ (geoCnf N (K + 1)) ↔
    ∃! π : Fin (K + 1) → Equiv.Perm (Fin N), π 0 = 1 ∧ Represents N (K + 1) σ π := by
  rw [geoCnf_sat]
  constructor
  · rintro ⟨h1, h2, h3, h4⟩
    have hu : ∀ k < K + 1, ∀ o < N, ∀ v1 < N, ∀ v2 < N, on N σ k o v1 → on N σ k o v2 → v1 = v2 := by
      intro k hk o ho v1 hv1 v2 hv2 a b
      rcases lt_trichotomy v1 v2 with h | h | h
      · exact absurd ⟨a, b⟩ (h2 k hk o ho v1 v2 h hv2)
      · exact h
      · exact absurd ⟨b, a⟩ (h2 k hk o ho v2 v1 h hv1)
    have hex : ∀ (k : Fin (K + 1)) (o : Fin N), ∃ v : Fin N, on N σ k o v := fun k o => by
      obtain ⟨v, hv, hon⟩ := h1 k k.2 o o.2
      exact ⟨⟨v, hv⟩, hon⟩
    choose f hf using hex
    have hinj : ∀ k, Function.Injective (f k) := by
      intro k o1 o2 he
      have a := hf k o1
      have b := hf k o2
      rw [← he] at b
      rcases lt_trichotomy o1.1 o2.1 with h | h | h
      · exact absurd ⟨a, b⟩ (h3 k k.2 _ (f k o1).2 o1 o2 h o2.2)
      · exact Fin.ext h
      · exact absurd ⟨b, a⟩ (h3 k k.2 _ (f k o1).2 o2 o1 h o1.2)
    have hrep : Represents N (K + 1) σ (fun k => Equiv.ofBijective (f k) (Finite.injective_iff_bijective.1 (hinj k))) := by
      intro k o v
      rw [Equiv.ofBijective_apply]
      constructor
      · intro h; exact Fin.ext (hu k k.2 o o.2 _ (f k o).2 _ v.2 (hf k o) h)
      · intro h; rw [← h]; exact hf k o
    refine ⟨_, ⟨?_, hrep⟩, ?_⟩
    · refine Equiv.ext fun o => ?_
      exact (hrep 0 o o).1 (h4 o o.2)
    · rintro π ⟨_, hπ⟩
      funext k
      refine Equiv.ext fun o => ?_
      exact (hπ k o _).1 ((hrep k o _).2 rfl)
  · rintro ⟨π, ⟨h0, hr⟩, _⟩
    have key : ∀ k (hk : k < K + 1), ∀ o (ho : o < N), ∀ v (hv : v < N), on N σ k o v ↔ π ⟨k, hk⟩ ⟨o, ho⟩ = ⟨v, hv⟩ :=
      fun k hk o ho v hv => hr ⟨k, hk⟩ ⟨o, ho⟩ ⟨v, hv⟩
    refine ⟨fun k hk o ho => ⟨π ⟨k, hk⟩ ⟨o, ho⟩, Fin.is_lt _, (key k hk o ho _ (Fin.is_lt _)).2 rfl⟩, ?_, ?_, ?_⟩
    · rintro k hk o ho v1 v2 h12 hv2 ⟨a, b⟩
      rw [key k hk o ho v1 (by omega)] at a
      rw [key k hk o ho v2 hv2, a] at b
      have := congrArg Fin.val b
      simp only at this; omega
    · rintro k hk v hv o1 o2 h12 ho2 ⟨a, b⟩
      rw [key k hk o1 (by omega) v hv] at a
      rw [key k hk o2 ho2 v hv, ← a] at b
      have := congrArg Fin.val ((π ⟨k, hk⟩).injective b)
      simp only at this; omega
    · intro v hv
      rw [key 0 (Nat.succ_pos K) v hv v hv]
      have h0' : π ⟨0, Nat.succ_pos K⟩ = 1 := h0
      rw [h0']; rfl

/-- Every family of permutations starting with the identity is represented by a satisfying assignment: no design is excluded by
the clauses. -/
theorem design_satisfiable (N K : ℕ) (π : Fin (K + 1) → Equiv.Perm (Fin N)) (h0 : π 0 = 1) :
    ∃ σ, cnfSat σ (geoCnf N (K + 1)) ∧ Represents N (K + 1) σ π := by
  classical
  let σ : Assign := fun n => decide (∃ (k : Fin (K + 1)) (o v : Fin N), (n : ℤ) = encode N k o v ∧ π k o = v)
  have hr : Represents N (K + 1) σ π := by
    intro k o v
    have hnn : (((encode N k o v).toNat : ℕ) : ℤ) = encode N k o v := by rw [encode_eq]; rfl
    unfold on
    simp only [σ, decide_eq_true_eq, hnn]
    constructor
    · rintro ⟨k', o', v', he, hp⟩
      obtain ⟨a, b, c⟩ := encode_inj o.2 v.2 o'.2 v'.2 he
      rw [Fin.ext a, Fin.ext b, Fin.ext c]; exact hp
    · intro h; exact ⟨k, o, v, rfl, h⟩
  refine ⟨σ, (sat_iff_permutations N K σ).2 ⟨π, ⟨h0, hr⟩, ?_⟩, hr⟩
  rintro π' ⟨_, h'⟩
  funext k
  exact Equiv.ext fun o => ((h' k o _).1 ((hr k o _).2 rfl))

example : ∃ σ, cnfSat σ (geoCnf 2 2) ∧ Represents 2 2 σ ![1, Equiv.swap 0 1] := design_satisfiable 2 1 _ rfl

/-- Reading back: a fold that only ever writes the right value into each entry, and writes each entry at least once. -/
theorem foldl_perm (N : ℕ) (l : List ℤ) (p : Perms) (k o : ℤ) (v : ℤ)
    (h : ∀ x ∈ l, (decode N x).1 = k → (decode N x).2.1 = o → (decode N x).2.2 = v)
    (hw : p k o = v ∨ ∃ x ∈ l, (decode N x).1 = k ∧ (decode N x).2.1 = o) : l.foldl (permStep N) p k o = v := by
  induction l generalizing p with
  | nil =>
    rcases hw with h | ⟨x, hx, _⟩
    · exact h
    · cases hx
  | cons a l ih =>
    rw [List.foldl_cons]
    refine ih _ (fun x hx => h x (List.mem_cons_of_mem _ hx)) ?_
    by_cases ha : k = (decode N a).1 ∧ o = (decode N a).2.1
    · left
      unfold permStep
      rw [if_pos ha]
      exact h a List.mem_cons_self ha.1.symm ha.2.symm
    · rcases hw with hp | ⟨x, hx, h1, h2⟩
      · left; unfold permStep; rw [if_neg ha]; exact hp
      · rcases List.mem_cons.1 hx with rfl | hx
        · exact absurd ⟨h1.symm, h2.symm⟩ ha
        · exact Or.inr ⟨x, hx, h1, h2⟩

/-- C39: the integer array read from the solver's answer is the family of permutations represented by the assignment, for every
number of variables covering the encoding. -/
theorem readPerms_eq (N K : ℕ) (σ : Assign) (π : Fin K → Equiv.Perm (Fin N)) (h : Represents N K σ π)
    (k : Fin K) (o : Fin N) : readPerms N (solutionOf (K * N ^ 2) σ) (k : ℕ) (o : ℕ) = (π k o : ℕ) := by
  have hmem : ∀ l : ℤ, l ∈ (solutionOf (K * N ^ 2) σ).filter (fun l => decide (0 < l)) ↔
      1 ≤ l ∧ l ≤ K * N ^ 2 ∧ σ l.toNat = true := by
    intro l
    unfold solutionOf
    simp only [List.mem_filter, List.mem_map, List.mem_range, decide_eq_true_eq]
    constructor
    · rintro ⟨⟨v, hv, rfl⟩, hp⟩
      by_cases hs : σ (v + 1) = true
      · rw [if_pos hs] at hp ⊢
        have hv' : ((v : ℤ) + 1) ≤ ((K * N ^ 2 : ℕ) : ℤ) := by omega
        refine ⟨by omega, by push_cast at hv'; exact hv', ?_⟩
        have : ((v : ℤ) + 1).toNat = v + 1 := by omega
        rw [this]; exact hs
      · rw [if_neg hs] at hp; omega
    · rintro ⟨h1, h2, h3⟩
      have h2' : l ≤ ((K * N ^ 2 : ℕ) : ℤ) := by push_cast; exact h2
      refine ⟨⟨l.toNat - 1, by omega, ?_⟩, by omega⟩
      have : l.toNat - 1 + 1 = l.toNat := by omega
      rw [this, if_pos h3]; omega
  unfold readPerms
  refine foldl_perm N _ _ _ _ _ ?_ (Or.inr ?_)
  · intro x hx hk ho
    obtain ⟨h1, h2, h3⟩ := (hmem x).1 hx
    obtain ⟨k', o', v', hk', ho', hv', he, hd⟩ := encode_surj h1 h2
    rw [hd] at hk ho ⊢
    simp only [Nat.cast_inj] at hk ho ⊢
    have hon : on N σ k' o' v' := by unfold on; rw [he]; exact h3
    have := (h ⟨k', hk'⟩ ⟨o', ho'⟩ ⟨v', hv'⟩).1 hon
    have e1 : k = ⟨k', hk'⟩ := Fin.ext hk.symm
    have e2 : o = ⟨o', ho'⟩ := Fin.ext ho.symm
    rw [e1, e2, this]
  · have hon := (h k o (π k o)).2 rfl
    obtain ⟨r1, r2⟩ := encode_range (N := N) k.2 o.2 (π k o).2
    refine ⟨encode N k o (π k o), (hmem _).2 ⟨r1, r2, hon⟩, ?_⟩
    rw [decode_encode o.2 (π k o).2]
    exact ⟨rfl, rfl⟩

/-- C39: the clauses added for an empty cell remove exactly the designs which use that combination of values at some row. -/
theorem block_removes (N K : ℕ) (σ : Assign) (π : Fin K → Equiv.Perm (Fin N)) (h : Represents N K σ π) (cell : Fin K → Fin N) :
    cnfSat σ (blockClauses N K (fun k => if hk : k < K then (cell ⟨k, hk⟩ : ℕ) else 0)) ↔ ¬ ∃ o : Fin N, ∀ k, π k o = cell k := by
  unfold cnfSat blockClauses clauseSat
  simp only [List.mem_map, List.mem_range]
  constructor
  · rintro hs ⟨o, ho⟩
    obtain ⟨l, hm, hl⟩ := hs _ ⟨o, o.2, rfl⟩
    obtain ⟨k, hk, rfl⟩ := List.mem_map.1 hm
    have hk := List.mem_range.1 hk
    simp only [dif_pos hk] at hl
    rw [litSat_neg] at hl
    exact hl ((h ⟨k, hk⟩ o (cell ⟨k, hk⟩)).2 (ho _))
  · rintro hs c ⟨o, ho, rfl⟩
    push Not at hs
    obtain ⟨k, hk⟩ := hs ⟨o, ho⟩
    refine ⟨_, List.mem_map.2 ⟨k, List.mem_range.2 k.2, rfl⟩, ?_⟩
    simp only [dif_pos k.2]
    rw [litSat_neg]
    exact fun hon => hk ((h k ⟨o, ho⟩ (cell k)).1 hon)

/-- The designs which are left after blocking a list of cells. -/
def Allowed (N K : ℕ) (cells : List (Fin K → Fin N)) (π : Fin K → Equiv.Perm (Fin N)) : Prop :=
  ∀ cell ∈ cells, ¬ ∃ o : Fin N, ∀ k, π k o = cell k

/-- The clauses after blocking a list of cells one after the other. -/
def blockedCnf (N K : ℕ) (cells : List (Fin K → Fin N)) : List (List ℤ) :=
  geoCnf N K ++ cells.flatMap (fun cell => blockClauses N K (fun k => if hk : k < K then (cell ⟨k, hk⟩ : ℕ) else 0))

/-- C39: whatever sequence of empty cells is met, the satisfying assignments of the clauses are exactly the designs none of
whose points lies in a blocked cell. In particular the solver runs out of solutions only when no design avoids the empty cells. -/
theorem blocked_exact (N K : ℕ) (cells : List (Fin (K + 1) → Fin N)) (σ : Assign) : cnfSat σ (blockedCnf N (K + 1) cells) ↔
    ∃ π : Fin (K + 1) → Equiv.Perm (Fin N), π 0 = 1 ∧ Represents N (K + 1) σ π ∧ Allowed N (K + 1) cells π := by
  unfold blockedCnf
  rw [cnfSat_append, cnfSat_flatMap]
  constructor
  · rintro ⟨h1, h2⟩
    obtain ⟨π, ⟨h0, hr⟩, _⟩ := (sat_iff_permutations N K σ).1 h1
    exact ⟨π, h0, hr, fun cell hc => (block_removes N (K + 1) σ π hr cell).1 (h2 cell hc)⟩
  · rintro ⟨π, h0, hr, ha⟩
    refine ⟨(sat_iff_permutations N K σ).2 ⟨π, ⟨h0, hr⟩, ?_⟩, fun cell hc => (block_removes N (K + 1) σ π hr cell).2 (ha cell hc)⟩
    rintro π' ⟨_, h'⟩
    funext k
    exact Equiv.ext fun o => ((h' k o _).1 ((hr k o _).2 rfl))

/-- C39: the solver reports that no solution is left exactly when every design uses a blocked cell. -/
theorem unsat_iff (N K : ℕ) (cells : List (Fin (K + 1) → Fin N)) : (¬ ∃ σ, cnfSat σ (blockedCnf N (K + 1) cells)) ↔
    ∀ π : Fin (K + 1) → Equiv.Perm (Fin N), π 0 = 1 → ¬ Allowed N (K + 1) cells π := by
  constructor
  · intro h π h0 ha
    obtain ⟨σ, _, hr⟩ := design_satisfiable N K π h0
    exact h ⟨σ, (blocked_exact N K cells σ).2 ⟨π, h0, hr, ha⟩⟩
  · rintro h ⟨σ, hs⟩
    obtain ⟨π, h0, _, ha⟩ := (blocked_exact N K cells σ).1 hs
    exact h π h0 ha

example : Allowed 2 2 [![0, 0]] ![1, Equiv.swap 0 1] := by
  intro cell hc ⟨o, ho⟩
  rw [List.mem_singleton.1 hc] at ho
  have h0 := ho 0
  have h1 := ho 1
  simp at h0 h1
  subst h0
  simp at h1

end Verif.Samp
