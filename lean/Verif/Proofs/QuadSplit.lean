import Verif.Model.Quadratic
import Verif.Proofs.Bounding
import Verif.Proofs.QuadForm

/-!
# Helper lemmas: the quadratic part of a Chebyshev series
-/

set_option linter.unusedSectionVars false
set_option linter.unusedVariables false
set_option linter.unusedSimpArgs false

namespace YRoots

open Finset

variable {n : ℕ} {K : Type*}

theorem exists_single_add (k : Fin n → ℕ) (m : ℕ) (h : ∑ i, k i = m + 1) :
    ∃ (i : Fin n) (k' : Fin n → ℕ), k = Pi.single i 1 + k' ∧ ∑ i, k' i = m := by
  have : ∃ i, k i ≠ 0 := by
    by_contra hc
    push Not at hc
    simp [hc] at h
  obtain ⟨i, hi⟩ := this
  have e : k = Pi.single i 1 + (k - Pi.single i 1) := by
    funext j
    by_cases hj : j = i
    · subst hj; simp; omega
    · simp [Pi.single_eq_of_ne hj]
  generalize k - Pi.single i 1 = k' at e
  refine ⟨i, k', e, ?_⟩
  subst e
  simp only [Pi.add_apply, sum_add_distrib, sum_pi_single', mem_univ, if_true] at h
  omega

/-- Multi-indices of total degree at most 2. -/
def quadIdx (n : ℕ) : Finset (Fin n → ℕ) :=
  ({fun _ => 0} ∪ univ.image fun i : Fin n => (Pi.single i 1 : Fin n → ℕ)) ∪
    ((univ.image fun i : Fin n => spot2 i i) ∪
      (univ.filter fun p : Fin n × Fin n => p.1 < p.2).image fun p => spot2 p.1 p.2)

theorem sum_spot2 (i j : Fin n) : ∑ l, spot2 i j l = 2 := by
  simp [sum_add_distrib]

theorem mem_quadIdx (k : Fin n → ℕ) : k ∈ quadIdx n ↔ ∑ i, k i ≤ 2 := by
  simp only [quadIdx, mem_union, mem_singleton, mem_image, mem_univ, true_and, mem_filter, Prod.exists]
  constructor
  · rintro ((rfl | ⟨i, rfl⟩) | (⟨i, rfl⟩ | ⟨i, j, -, rfl⟩))
    · simp
    · simp
    · exact (sum_spot2 i i).le
    · exact (sum_spot2 i j).le
  · intro h
    have hz : ∀ k : Fin n → ℕ, ∑ i, k i = 0 → k = fun _ => 0 := by
      intro k hk; funext i; exact (sum_eq_zero_iff.1 hk) i (mem_univ i)
    rcases (by omega : ∑ i, k i = 0 ∨ ∑ i, k i = 0 + 1 ∨ ∑ i, k i = 1 + 1) with h | h | h
    · exact .inl (.inl (hz k h))
    · obtain ⟨i, k', rfl, hk'⟩ := exists_single_add k 0 h
      refine .inl (.inr ⟨i, ?_⟩)
      rw [hz k' hk']; funext j; simp
    · obtain ⟨i, k', rfl, hk'⟩ := exists_single_add k 1 h
      obtain ⟨j, k'', rfl, hk''⟩ := exists_single_add k' 0 hk'
      rw [hz k'' hk'']
      refine .inr ?_
      rcases lt_trichotomy i j with hij | rfl | hij
      · exact .inr ⟨i, j, hij, by funext l; simp⟩
      · exact .inl ⟨i, by funext l; simp⟩
      · exact .inr ⟨j, i, hij, by funext l; simp [add_comm]⟩

theorem spot2_inj {a b c d : Fin n} (h1 : a < b) (h2 : c < d) (h : spot2 a b = spot2 c d) : a = c ∧ b = d := by
  have ha := congrFun h a
  have hb := congrFun h b
  simp only [Pi.add_apply, Pi.single_apply] at ha hb
  rw [if_neg h1.ne] at ha
  rw [if_neg h1.ne'] at hb
  simp only [if_true] at ha hb
  split_ifs at ha hb <;> omega

theorem sum_quadIdx [AddCommMonoid K] (G : (Fin n → ℕ) → K) :
    ∑ k ∈ quadIdx n, G k = G (fun _ => 0) + ∑ i, G (Pi.single i 1) + ∑ i, G (spot2 i i)
      + ∑ i, ∑ j ∈ univ.filter (i < ·), G (spot2 i j) := by
  have hs : ∀ a b : Fin n, ∑ l, spot2 a b l = 2 := sum_spot2
  have hs1 : ∀ a : Fin n, ∑ l, (Pi.single a 1 : Fin n → ℕ) l = 1 := by intro a; simp
  unfold quadIdx
  rw [sum_union, sum_union, sum_union, sum_singleton, sum_image, sum_image, sum_image]
  · rw [add_assoc (_ + _)]
    congr 2
    rw [sum_sigma']
    refine sum_bij' (fun p _ => ⟨p.1, p.2⟩) (fun p _ => (p.1, p.2)) ?_ ?_ ?_ ?_ ?_ <;> simp
  · rintro ⟨a, b⟩ h1 ⟨c, d⟩ h2 h
    simp only [coe_filter, mem_univ, true_and, Set.mem_setOf_eq] at h1 h2
    obtain ⟨rfl, rfl⟩ := spot2_inj h1 h2 h
    rfl
  · intro a _ b _ h
    by_contra hne
    have := congrFun h a
    simp only [Pi.add_apply, Pi.single_apply, if_true, if_neg hne] at this
    omega
  · intro a _ b _ h
    by_contra hne
    have := congrFun h a
    simp only [Pi.single_apply, if_true, if_neg hne] at this
    omega
  · rw [disjoint_left]
    simp only [mem_image, mem_univ, true_and, mem_filter, Prod.exists]
    rintro _ ⟨a, rfl⟩ ⟨c, d, hcd, h⟩
    have := congrFun h a
    simp only [Pi.add_apply, Pi.single_apply, if_true] at this
    split_ifs at this with h1 h2 <;> first | omega | exact hcd.ne (h1.symm.trans h2)
  · rw [disjoint_left]
    simp only [mem_singleton, mem_image, mem_univ, true_and]
    rintro _ rfl ⟨a, h⟩
    have := congrArg (fun f => ∑ l, f l) h
    simp only [hs1] at this
    simp at this
  · rw [disjoint_left]
    simp only [mem_union, mem_singleton, mem_image, mem_univ, true_and, mem_filter, Prod.exists]
    rintro _ (rfl | ⟨a, rfl⟩) (⟨b, h⟩ | ⟨c, d, -, h⟩)
    all_goals
      have := congrArg (fun f => ∑ l, f l) h
      simp only [hs, hs1] at this
      simp at this

theorem mem_idx {M : Tensor n K} {k : Fin n → ℕ} : k ∈ M.idx ↔ ∀ i, k i < M.shape i := by
  simp [Tensor.idx, Fintype.mem_piFinset]

section
variable [Field K] [LinearOrder K]

theorem pad3_coef (M : Tensor n K) (k : Fin n → ℕ) : M.pad3.coef k = if k ∈ M.idx then M.coef k else 0 := by
  simp [Tensor.pad3, mem_idx]

theorem idx_subset_pad3 (M : Tensor n K) : M.idx ⊆ M.pad3.idx := by
  intro k hk
  rw [mem_idx] at hk ⊢
  intro i
  have := hk i
  show k i < M.shape i + (3 - M.shape i)
  omega

/-- Sums over the array restricted to total degree at most 2. -/
theorem sum_quad_part (M : Tensor n K) (F : (Fin n → ℕ) → K → K) (hF : ∀ k, F k 0 = 0) :
    ∑ k ∈ M.idx.filter (fun k => ∑ i, k i ≤ 2), F k (M.coef k)
      = F (fun _ => 0) (M.pad3.coef fun _ => 0) + ∑ i, F (Pi.single i 1) (quadB M i)
        + ∑ i, F (spot2 i i) (pureQuad M i)
        + ∑ i, ∑ j ∈ univ.filter (i < ·), F (spot2 i j) (M.pad3.coef (spot2 i j)) := by
  have h := sum_quadIdx (n := n) fun k => F k (M.pad3.coef k)
  rw [show quadB M = fun i => M.pad3.coef (Pi.single i 1) from rfl,
    show pureQuad M = fun i => M.pad3.coef (spot2 i i) from rfl, ← h]
  have e : M.idx.filter (fun k => ∑ i, k i ≤ 2) = (quadIdx n).filter (· ∈ M.idx) := by
    ext k; simp only [mem_filter, mem_quadIdx]; tauto
  rw [e, sum_filter]
  refine sum_congr rfl fun k _ => ?_
  rw [pad3_coef]
  split_ifs
  · rfl
  · exact (hF k).symm

/-- The absolute sum of the entries of total degree above 2. -/
def restAbs (M : Tensor n K) : K := ∑ k ∈ M.idx.filter (fun k => ¬ ∑ i, k i ≤ 2), |M.coef k|

variable [IsStrictOrderedRing K]

theorem absSum_split (M : Tensor n K) :
    M.absSum = |M.pad3.coef fun _ => 0| + ∑ i, |quadB M i| + ∑ i, |pureQuad M i|
        + ∑ i, ∑ j ∈ univ.filter (i < ·), |M.pad3.coef (spot2 i j)| + restAbs M := by
  unfold Tensor.absSum restAbs
  rw [← sum_filter_add_sum_filter_not M.idx (fun k => ∑ i, k i ≤ 2),
    sum_quad_part M (fun _ c => |c|) (fun _ => abs_zero)]

/-- The quadratic part in explicit form. -/
def evalQ (M : Tensor n K) (x : Fin n → K) : K :=
  (M.pad3.coef fun _ => 0) + ∑ i, quadB M i * x i + ∑ i, pureQuad M i * (2 * x i ^ 2 - 1)
    + ∑ i, ∑ j ∈ univ.filter (i < ·), M.pad3.coef (spot2 i j) * (x i * x j)

theorem prod_chebT_single (x : Fin n → K) (i : Fin n) :
    ∏ l, chebT ((Pi.single i 1 : Fin n → ℕ) l) (x l) = x i := by
  rw [prod_eq_single i]
  · simp
  · intro j _ hj; simp [Pi.single_eq_of_ne hj]
  · simp

theorem prod_chebT_spot2 (x : Fin n → K) (i j : Fin n) :
    ∏ l, chebT (spot2 i j l) (x l) = if i = j then 2 * x i ^ 2 - 1 else x i * x j := by
  split_ifs with h
  · subst h
    rw [prod_eq_single i]
    · simp only [Pi.add_apply, Pi.single_eq_same]; exact chebT_two _
    · intro j _ hj; simp [Pi.single_eq_of_ne hj]
    · simp
  · rw [prod_eq_mul i j h]
    · simp [Pi.single_eq_of_ne h, Pi.single_eq_of_ne (Ne.symm h)]
    · intro l _ hl; simp [Pi.single_eq_of_ne hl.1, Pi.single_eq_of_ne hl.2]
    · simp
    · simp

/-- A Chebyshev series differs from its quadratic part by at most the absolute sum of the other entries. -/
theorem eval_sub_evalQ (M : Tensor n K) (x : Fin n → K) (hx : InCube x) : |M.eval x - evalQ M x| ≤ restAbs M := by
  have h : M.eval x = evalQ M x
      + ∑ k ∈ M.idx.filter (fun k => ¬ ∑ i, k i ≤ 2), M.coef k * ∏ i, chebT (k i) (x i) := by
    unfold Tensor.eval
    rw [← sum_filter_add_sum_filter_not M.idx (fun k => ∑ i, k i ≤ 2)]
    congr 1
    rw [sum_quad_part M (fun k c => c * ∏ i, chebT (k i) (x i)) (fun k => zero_mul _)]
    simp only [prod_chebT_single, prod_chebT_spot2, chebT_zero, prod_const_one, mul_one, if_true]
    unfold evalQ
    congr 1
    refine sum_congr rfl fun i _ => sum_congr rfl fun j hj => ?_
    rw [mem_filter] at hj
    rw [if_neg hj.2.ne]
  rw [h, add_sub_cancel_left]
  refine (abs_sum_le_sum_abs _ _).trans (sum_le_sum fun k _ => ?_)
  rw [abs_mul]
  calc _ ≤ |M.coef k| * 1 := mul_le_mul_of_nonneg_left (prod_chebT_abs_le k hx) (abs_nonneg _)
    _ = _ := mul_one _

theorem quadA_symm (M : Tensor n K) : (quadA M).IsSymm := by
  ext i j
  simp only [quadA, Matrix.transpose_apply, Matrix.of_apply]
  by_cases h : i = j
  · subst h; rfl
  · rw [if_neg h, if_neg (Ne.symm h), spot2, spot2, add_comm]

theorem sum_symm_split (A : Matrix (Fin n) (Fin n) K) (hA : A.IsSymm) (x : Fin n → K) :
    ∑ i, ∑ j, A i j * x i * x j
      = ∑ i, A i i * x i ^ 2 + 2 * ∑ i, ∑ j ∈ univ.filter (i < ·), A i j * (x i * x j) := by
  have h1 : ∀ i, ∑ j, A i j * x i * x j = A i i * x i ^ 2 + ∑ j ∈ univ.filter (i < ·), A i j * (x i * x j)
      + ∑ j ∈ univ.filter (· < i), A i j * (x i * x j) := by
    intro i
    have e : (univ : Finset (Fin n)) = {i} ∪ (univ.filter (i < ·) ∪ univ.filter (· < i)) := by
      ext j; simp only [mem_univ, mem_union, mem_singleton, mem_filter, true_and, true_iff]
      rcases lt_trichotomy j i with h | h | h <;> simp [h]
    conv_lhs => rw [e]
    rw [sum_union, sum_union, sum_singleton, add_assoc]
    · congr 1
      · ring
      · congr 1 <;> exact sum_congr rfl fun j _ => by ring
    · rw [disjoint_left]; intro j; simp only [mem_filter, mem_univ, true_and]; exact fun h h' => lt_asymm h h'
    · rw [disjoint_left]; intro j; simp only [mem_singleton, mem_union, mem_filter, mem_univ, true_and]
      rintro rfl (h | h) <;> exact lt_irrefl _ h
  have h2 : ∑ i, ∑ j ∈ univ.filter (· < i), A i j * (x i * x j)
      = ∑ i, ∑ j ∈ univ.filter (i < ·), A i j * (x i * x j) := by
    simp only [sum_filter]
    rw [sum_comm]
    refine sum_congr rfl fun i _ => sum_congr rfl fun j _ => ?_
    split_ifs
    · rw [hA.apply i j]; ring
    · rfl
  rw [sum_congr rfl fun i _ => h1 i, sum_add_distrib, sum_add_distrib, h2]
  ring

/-- The explicit quadratic part as a quadratic function with the code's `A` and `B`. -/
theorem evalQ_eq_qf (M : Tensor n K) (x : Fin n → K) :
    evalQ M x = qf (quadA M) (quadB M) ((M.pad3.coef fun _ => 0) - ∑ i, pureQuad M i) x := by
  unfold evalQ qf
  rw [sum_symm_split _ (quadA_symm M)]
  have h1 : ∑ i, pureQuad M i * (2 * x i ^ 2 - 1) = ∑ i, quadA M i i * x i ^ 2 / 2 - ∑ i, pureQuad M i := by
    rw [← sum_sub_distrib]
    refine sum_congr rfl fun i _ => ?_
    simp only [quadA, Matrix.of_apply, if_true]; ring
  have h2 : ∑ i, ∑ j ∈ univ.filter (i < ·), M.pad3.coef (spot2 i j) * (x i * x j)
      = ∑ i, ∑ j ∈ univ.filter (i < ·), quadA M i j * (x i * x j) := by
    refine sum_congr rfl fun i _ => sum_congr rfl fun j hj => ?_
    rw [mem_filter] at hj
    simp only [quadA, Matrix.of_apply, if_neg hj.2.ne]
  rw [h1, h2, ← sum_div]
  ring

/-! ### The loop with the two flags -/

theorem checkLoop_true {s : K} {l : List K} {a b : Bool} (h : checkLoop s l a b = true) :
    l = [] ∨ ((a = false ∧ ∀ e ∈ l, s ≤ e) ∨ (b = false ∧ ∀ e ∈ l, e ≤ -s)) := by
  induction l generalizing a b with
  | nil => exact .inl rfl
  | cons e l ih =>
    refine .inr ?_
    unfold checkLoop at h
    dsimp only at h
    split_ifs at h with hc
    have hc' := hc
    simp only [Bool.and_eq_true, Bool.or_eq_true, decide_eq_true_eq, not_and_or, not_or, not_lt,
      Bool.not_eq_true] at hc'
    rcases ih h with rfl | h1 | h1
    · rcases hc' with ⟨h2, h3⟩ | ⟨h2, h3⟩
      · exact .inl ⟨h2, by simpa using h3⟩
      · exact .inr ⟨h2, by simpa using h3⟩
    · obtain ⟨h1, h2⟩ := h1
      simp only [Bool.or_eq_false_iff, decide_eq_false_iff_not, not_lt] at h1
      exact .inl ⟨h1.1, by simpa using ⟨h1.2, h2⟩⟩
    · obtain ⟨h1, h2⟩ := h1
      simp only [Bool.or_eq_false_iff, decide_eq_false_iff_not, not_lt] at h1
      exact .inr ⟨h1.1, by simpa using ⟨h1.2, h2⟩⟩

/-- Conversely, `False` means that both flags were set. -/
theorem checkLoop_false {s : K} {l : List K} {a b : Bool} (h : checkLoop s l a b = false) :
    (a = true ∨ ∃ e ∈ l, e < s) ∧ (b = true ∨ ∃ e ∈ l, -s < e) := by
  induction l generalizing a b with
  | nil => simp [checkLoop] at h
  | cons e l ih =>
    unfold checkLoop at h
    dsimp only at h
    split_ifs at h with hc
    · simp only [Bool.and_eq_true, Bool.or_eq_true, decide_eq_true_eq] at hc
      refine ⟨hc.1.imp_right fun h => ⟨e, by simp, h⟩, hc.2.imp_right fun h => ⟨e, by simp, h⟩⟩
    · have := ih h
      simp only [Bool.or_eq_true, decide_eq_true_eq] at this
      constructor
      · rcases this.1 with (h | h) | ⟨e', h1, h2⟩
        · exact .inl h
        · exact .inr ⟨e, by simp, h⟩
        · exact .inr ⟨e', by simp [h1], h2⟩
      · rcases this.2 with (h | h) | ⟨e', h1, h2⟩
        · exact .inl h
        · exact .inr ⟨e, by simp, h⟩
        · exact .inr ⟨e', by simp [h1], h2⟩

/-- Soundness of the check from a list of points that contains the critical points of all faces. -/
theorem check_sound (M : Tensor n K) (tol s : K) (points : List (Fin n → K)) (ev : (Fin n → K) → K)
    (hev : ∀ x, ev x = evalQ M x) (hs : s = restAbs M + tol)
    (hC : ∀ c, InCube c → (∀ i ∈ free c, grad (quadA M) (quadB M) c i = 0) → NonsingOn (quadA M) (free c) →
      ((∀ i ∈ free c, 0 ≤ quadA M i i) ∨ ∀ i ∈ free c, quadA M i i ≤ 0) → c ∈ points)
    (h : checkLoop s (points.map ev) false false = true)
    (f : (Fin n → K) → K) (hf : ∀ x, InCube x → |f x - M.eval x| < tol) (x : Fin n → K) (hx : InCube x) :
    f x ≠ 0 := by
  obtain ⟨⟨c1, hc1, hle1⟩, c2, hc2, hle2⟩ := quad_range (quadA M) (quadA_symm M) (quadB M)
    ((M.pad3.coef fun _ => 0) - ∑ i, pureQuad M i) (· ∈ points) hC x hx
  rw [← evalQ_eq_qf, ← evalQ_eq_qf] at hle1 hle2
  have hd : |f x - evalQ M x| < s := by
    rw [hs]
    calc |f x - evalQ M x| = |(f x - M.eval x) + (M.eval x - evalQ M x)| := by ring_nf
      _ ≤ |f x - M.eval x| + |M.eval x - evalQ M x| := abs_add_le _ _
      _ < tol + restAbs M := add_lt_add_of_lt_of_le (hf x hx) (eval_sub_evalQ M x hx)
      _ = _ := add_comm _ _
  rw [abs_lt] at hd
  rcases checkLoop_true h with h0 | ⟨-, h0⟩ | ⟨-, h0⟩
  · rw [List.map_eq_nil_iff] at h0
    rw [h0] at hc1
    simp at hc1
  · have := h0 _ (List.mem_map_of_mem hc1)
    rw [hev] at this
    intro h0
    linarith [hd.1]
  · have := h0 _ (List.mem_map_of_mem hc2)
    rw [hev] at this
    intro h0
    linarith [hd.2]

end

end YRoots
