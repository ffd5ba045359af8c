import Verif.Proofs.QuadND
import Verif.Proofs.EvalC
import Verif.Model.Solver
import Mathlib.Data.Rat.Floor
import Mathlib.Tactic.NormNum

/-!
# Properties C18, C19, C20, C45: the quadratic check

Specification: `quadPart M x` is the part of the defining Chebyshev sum with total degree at most 2, and
`quadRest M` the sum of the absolute values of the other coefficients.  `NoCrossing` says that the quadratic part stays
on one side, at distance at least `s`, on the whole cube.
-/

set_option linter.unusedSectionVars false
set_option linter.unusedVariables false
set_option linter.unusedSimpArgs false

namespace YRoots

open Finset

variable {n : ℕ} {K : Type*} [Field K] [LinearOrder K] [IsStrictOrderedRing K]

/-- Spec: the terms of total degree at most 2 of the Chebyshev series. -/
noncomputable def quadPart (M : Tensor n K) (x : Fin n → K) : K :=
  ∑ k ∈ M.idx.filter (fun k => ∑ i, k i ≤ 2), M.coef k * ∏ i, chebT (k i) (x i)

/-- Spec: absolute sum of the coefficients of total degree above 2. -/
def quadRest (M : Tensor n K) : K := ∑ k ∈ M.idx.filter (fun k => ¬ ∑ i, k i ≤ 2), |M.coef k|

/-- Spec: on the cube, the quadratic part is everywhere at least `s` or everywhere at most `-s`. -/
def NoCrossing (M : Tensor n K) (s : K) : Prop :=
  (∀ x, InCube x → s ≤ quadPart M x) ∨ ∀ x, InCube x → quadPart M x ≤ -s

theorem quadPart_eq (M : Tensor n K) (x : Fin n → K) : quadPart M x = evalQ M x := by
  unfold quadPart
  rw [sum_quad_part M (fun k c => c * ∏ i, chebT (k i) (x i)) (fun k => zero_mul _)]
  simp only [prod_chebT_single, prod_chebT_spot2, chebT_zero, prod_const_one, mul_one, if_true]
  unfold evalQ
  congr 1
  refine sum_congr rfl fun i _ => sum_congr rfl fun j hj => ?_
  rw [mem_filter] at hj
  rw [if_neg hj.2.ne]

/-- If the quadratic part stays away by the rest plus the tolerance, functions strictly within the tolerance have no
zero. -/
theorem noCrossing_no_zero (M : Tensor n K) (tol : K) (h : NoCrossing M (quadRest M + tol))
    (f : (Fin n → K) → K) (hf : ∀ x, InCube x → |f x - M.eval x| < tol) (x : Fin n → K) (hx : InCube x) : f x ≠ 0 := by
  have hd : |f x - quadPart M x| < quadRest M + tol := by
    rw [quadPart_eq]
    calc |f x - evalQ M x| = |(f x - M.eval x) + (M.eval x - evalQ M x)| := by ring_nf
      _ ≤ |f x - M.eval x| + |M.eval x - evalQ M x| := abs_add_le _ _
      _ < tol + restAbs M := add_lt_add_of_lt_of_le (hf x hx) (eval_sub_evalQ M x hx)
      _ = _ := add_comm _ _
  rw [abs_lt] at hd
  rcases h with h | h <;> have := h x hx <;> intro h0 <;> linarith [hd.1, hd.2]

theorem check_iff (M : Tensor n K) (tol s : K) (points : List (Fin n → K)) (ev : (Fin n → K) → K)
    (hev : ∀ x, ev x = evalQ M x) (hs : s = quadRest M + tol) (hin : ∀ p ∈ points, InCube p)
    (hC : ∀ c, InCube c → (∀ i ∈ free c, grad (quadA M) (quadB M) c i = 0) → NonsingOn (quadA M) (free c) →
      ((∀ i ∈ free c, 0 ≤ quadA M i i) ∨ ∀ i ∈ free c, quadA M i i ≤ 0) → c ∈ points) :
    checkLoop s (points.map ev) false false = true ↔ NoCrossing M (quadRest M + tol) := by
  rw [← hs]
  constructor
  · intro h
    have hr := quad_range (quadA M) (quadA_symm M) (quadB M)
      ((M.pad3.coef fun _ => 0) - ∑ i, pureQuad M i) (· ∈ points) hC
    simp only [← evalQ_eq_qf] at hr
    rcases checkLoop_true h with h0 | ⟨-, h0⟩ | ⟨-, h0⟩
    · rw [List.map_eq_nil_iff] at h0
      obtain ⟨⟨c, hc, -⟩, -⟩ := hr (fun _ => 0) (fun i => by simp)
      rw [h0] at hc; simp at hc
    · left
      intro x hx
      obtain ⟨⟨c, hc, hle⟩, -⟩ := hr x hx
      have := h0 _ (List.mem_map_of_mem hc)
      rw [hev] at this
      rw [quadPart_eq]; exact this.trans hle
    · right
      intro x hx
      obtain ⟨-, c, hc, hle⟩ := hr x hx
      have := h0 _ (List.mem_map_of_mem hc)
      rw [hev] at this
      rw [quadPart_eq]; exact hle.trans this
  · intro h
    by_contra hc
    rw [Bool.not_eq_true] at hc
    obtain ⟨h1, h2⟩ := checkLoop_false hc
    simp only [Bool.false_eq_true, false_or, List.mem_map] at h1 h2
    obtain ⟨_, ⟨p, hp, rfl⟩, h1⟩ := h1
    obtain ⟨_, ⟨q, hq, rfl⟩, h2⟩ := h2
    rw [hev] at h1 h2
    rcases h with h | h
    · have := h p (hin p hp); rw [quadPart_eq] at this; linarith
    · have := h q (hin q hq); rw [quadPart_eq] at this; linarith

theorem inCube_vec2 {x y : K} (hx : -1 ≤ x ∧ x ≤ 1) (hy : -1 ≤ y ∧ y ≤ 1) : InCube ![x, y] := by
  intro i; fin_cases i
  · exact abs_le.2 hx
  · exact abs_le.2 hy

theorem inCube_vec3 {x y z : K} (hx : -1 ≤ x ∧ x ≤ 1) (hy : -1 ≤ y ∧ y ≤ 1) (hz : -1 ≤ z ∧ z ≤ 1) :
    InCube ![x, y, z] := by
  intro i; fin_cases i
  · exact abs_le.2 hx
  · exact abs_le.2 hy
  · exact abs_le.2 hz

theorem pm_one {x : K} (h : x ∈ ([-1, 1] : List K)) : -1 ≤ x ∧ x ≤ 1 := by
  simp only [List.mem_cons, List.not_mem_nil, or_false] at h
  rcases h with rfl | rfl <;> constructor <;> linarith [zero_lt_one' K]

theorem inside_le {x : K} (h : inside x) : -1 ≤ x ∧ x ≤ 1 := ⟨h.1.le, h.2.le⟩

theorem points2D_inCube (c : Fin 6 → K) : ∀ p ∈ points2D c, InCube p := by
  have h1 : (1 : K) ∈ ([-1, 1] : List K) := by simp
  have h2 : (-1 : K) ∈ ([-1, 1] : List K) := by simp
  intro p hp
  unfold points2D at hp
  simp only [List.mem_append] at hp
  rcases hp with ((hp | hp) | hp) | hp
  · simp only [List.mem_cons, List.not_mem_nil, or_false] at hp
    rcases hp with rfl | rfl | rfl | rfl <;> exact inCube_vec2 (pm_one (by simp)) (pm_one (by simp))
  · split_ifs at hp
    · rw [List.mem_flatMap] at hp
      obtain ⟨x, hx, hp⟩ := hp
      split_ifs at hp with h
      · rw [List.mem_singleton] at hp; rw [hp]; exact inCube_vec2 (pm_one hx) (inside_le h)
      · simp at hp
    · simp at hp
  · split_ifs at hp
    · rw [List.mem_flatMap] at hp
      obtain ⟨x, hx, hp⟩ := hp
      split_ifs at hp with h
      · rw [List.mem_singleton] at hp; rw [hp]; exact inCube_vec2 (inside_le h) (pm_one hx)
      · simp at hp
    · simp at hp
  · split_ifs at hp with hd h
    · rw [List.mem_singleton] at hp; rw [hp]; exact inCube_vec2 (inside_le h.1) (inside_le h.2)
    · simp at hp
    · simp at hp

theorem points3D_inCube (c : Fin 10 → K) :
    ∀ p ∈ corners3D ++ edges3D c ++ faces3D c ++ interior3D c, InCube p := by
  intro p hp
  unfold corners3D edges3D faces3D interior3D at hp
  dsimp only at hp
  simp only [List.mem_append] at hp
  rcases hp with ((hp | (hp | hp) | hp) | (hp | hp) | hp) | hp
  · simp only [List.mem_cons, List.not_mem_nil, or_false] at hp
    rcases hp with rfl | rfl | rfl | rfl | rfl | rfl | rfl | rfl <;>
      exact inCube_vec3 (pm_one (by simp)) (pm_one (by simp)) (pm_one (by simp))
  iterate 3
    · split_ifs at hp
      · rw [List.mem_flatMap] at hp
        obtain ⟨x, hx, hp⟩ := hp
        rw [List.mem_flatMap] at hp
        obtain ⟨y, hy, hp⟩ := hp
        split_ifs at hp with h
        · rw [List.mem_singleton] at hp; rw [hp]
          apply inCube_vec3 <;> first | exact inside_le h | exact pm_one hx | exact pm_one hy
        · simp at hp
      · simp at hp
  iterate 3
    · split_ifs at hp
      · rw [List.mem_flatMap] at hp
        obtain ⟨x, hx, hp⟩ := hp
        split_ifs at hp with h
        · rw [List.mem_singleton] at hp; rw [hp]
          apply inCube_vec3 <;> first | exact inside_le h.1 | exact inside_le h.2 | exact pm_one hx
        · simp at hp
      · simp at hp
  · split_ifs at hp with hd h
    · rw [List.mem_singleton] at hp; rw [hp]; exact inCube_vec3 (inside_le h.1) (inside_le h.2.1) (inside_le h.2.2)
    · simp at hp
    · simp at hp

theorem sides_bound {l : List (Fin n)} {x : Fin n → K} (h : x ∈ sides l) : ∀ i, |x i| ≤ 1 := by
  induction l generalizing x with
  | nil =>
    rw [sides, List.mem_singleton] at h
    intro i; rw [h]; simp
  | cons a l ih =>
    rw [sides, List.mem_flatMap] at h
    obtain ⟨s, hs, h⟩ := h
    rw [List.mem_map] at h
    obtain ⟨y, hy, rfl⟩ := h
    intro i
    by_cases hi : i = a
    · subst hi; simpa using abs_le.2 (pm_one hs)
    · rw [Function.update_of_ne hi]; exact ih hy i

theorem pointsFixed_inCube (la : LinAlg n K) (M : Tensor n K) (fixed : List (Fin n)) :
    ∀ p ∈ pointsFixed la M fixed, InCube p := by
  intro p hp
  unfold pointsFixed at hp
  dsimp only at hp
  generalize signChange (K := K) (List.map _ _) = sc at hp
  split_ifs at hp
  · simp at hp
  · rw [List.mem_flatMap] at hp
    obtain ⟨X0, hX0, hp⟩ := hp
    split_ifs at hp with h
    · rw [List.mem_singleton] at hp
      subst hp
      intro i
      show |if i ∈ fixed then _ else _| ≤ 1
      split_ifs with hi
      · exact sides_bound hX0 i
      · exact abs_le.2 (h i (by simp [hi]))
    · simp at hp
  · simp at hp

theorem pointsND_inCube (la : LinAlg n K) (M : Tensor n K) :
    ∀ p ∈ sides (List.finRange n) ++ (getFixedVars n).flatMap (pointsFixed la M) ++ pointsFixed la M [],
      InCube p := by
  intro p hp
  rw [List.mem_append, List.mem_append, List.mem_flatMap] at hp
  rcases hp with (hp | ⟨f, -, hp⟩) | hp
  · exact sides_bound hp
  · exact pointsFixed_inCube la M f p hp
  · exact pointsFixed_inCube la M [] p hp

/-! ### C45: the checks decide exactly whether the quadratic part crosses the band -/

/-- **C45** in two variables: `quadratic_check_2D` returns `True` exactly if the quadratic part stays outside the band of
half-width "rest of the coefficients plus tolerance" on the whole square. -/
theorem C45_quad2D_iff (M : Tensor 2 K) (hM : M.Nonempty) (tol : K) :
    quadraticCheck2D M tol = true ↔ NoCrossing M (quadRest M + tol) :=
  check_iff M tol _ (points2D (coeffs2D M)) _ (evalFunc2D_eq M hM)
    (by rw [otherSum2D_eq M hM]; rfl) (points2D_inCube _)
    (fun c h1 h2 h3 _ => points2D_complete M hM c h1 h2 h3)

/-- **C45** in three variables. -/
theorem C45_quad3D_iff (M : Tensor 3 K) (hM : M.Nonempty) (tol : K) :
    quadraticCheck3D M tol = true ↔ NoCrossing M (quadRest M + tol) :=
  check_iff M tol _ (corners3D ++ edges3D (coeffs3D M) ++ faces3D (coeffs3D M) ++ interior3D (coeffs3D M)) _
    (evalFunc3D_eq M hM) (by rw [otherSum3D_eq M hM]; rfl) (points3D_inCube _)
    (fun c h1 h2 h3 _ => points3D_complete M hM c h1 h2 h3)

/-- C45 in any number of variables, for exact external linear algebra (`_partial`: see `C20_quadND_false` for what happens
with the rank tolerance of numpy). -/
theorem C45_quadND_iff_partial (la : LinAlg n K) (hla : ∀ S : Finset (Fin n), S.Nonempty → la.ExactOn S)
    (M : Tensor n K) (tol : K) :
    quadraticCheckND la M tol = true ↔ NoCrossing M (quadRest M + tol) :=
  check_iff M tol _ _ _ (evalFuncND_eq M) (by rw [otherSumND_eq]; rfl) (pointsND_inCube la M)
    (fun c h1 h2 h3 h4 => pointsND_complete la M c h1 (hla _) h2 h3 h4)

/-! ### C18, C19, C20 -/

/-- **C18**: if `quadratic_check_2D` returns `True`, every function strictly within `tol` of the series has no zero
on the square.  `_partial`: the claim for functions *at* distance `tol` is false, `C18_quad2D_false`. -/
theorem C18_quad2D_partial (M : Tensor 2 K) (hM : M.Nonempty) (tol : K) (h : quadraticCheck2D M tol = true)
    (f : (Fin 2 → K) → K) (hf : ∀ x, InCube x → |f x - M.eval x| < tol) (x : Fin 2 → K) (hx : InCube x) :
    f x ≠ 0 :=
  noCrossing_no_zero M tol ((C45_quad2D_iff M hM tol).1 h) f hf x hx

/-- **C19**: the same for `quadratic_check_3D`.  `_partial`: strict tolerance, `C19_quad3D_false`. -/
theorem C19_quad3D_partial (M : Tensor 3 K) (hM : M.Nonempty) (tol : K) (h : quadraticCheck3D M tol = true)
    (f : (Fin 3 → K) → K) (hf : ∀ x, InCube x → |f x - M.eval x| < tol) (x : Fin 3 → K) (hx : InCube x) :
    f x ≠ 0 :=
  noCrossing_no_zero M tol ((C45_quad3D_iff M hM tol).1 h) f hf x hx

/-- **C20**: the same for `quadratic_check_nd` in every dimension.  `_partial`: strict tolerance, and exact rank test
and linear solver. -/
theorem C20_quadND_partial (la : LinAlg n K) (hla : ∀ S : Finset (Fin n), S.Nonempty → la.ExactOn S)
    (M : Tensor n K) (tol : K) (h : quadraticCheckND la M tol = true)
    (f : (Fin n → K) → K) (hf : ∀ x, InCube x → |f x - M.eval x| < tol) (x : Fin n → K) (hx : InCube x) :
    f x ≠ 0 :=
  noCrossing_no_zero M tol ((C45_quadND_iff_partial la hla M tol).1 h) f hf x hx

/-! Concrete instances: `5 + T_2(x) + x y/2 + T_3(y)/4` with tolerance `1/10` passes; the hypotheses hold. -/

/-- `5 + T_2(x) + xy/2 + T_3(y)/4`. -/
def exQuad : Tensor 2 ℚ :=
  ⟨![3, 4], fun k => if k = ![0, 0] then 5 else if k = ![2, 0] then 1 else if k = ![1, 1] then 1 / 2 else
    if k = ![0, 3] then 1 / 4 else 0⟩

example : exQuad.Nonempty ∧ quadraticCheck2D exQuad (1 / 10) = true :=
  ⟨fun i => by fin_cases i <;> simp [exQuad], by decide +kernel⟩

/-- `x^2`-like: `1/2 + T_2(x)` crosses zero, the check returns `False`. -/
example : quadraticCheck2D (K := ℚ) ⟨![3, 1], fun k => if k = ![0, 0] then 1 / 2 else if k = ![2, 0] then 1 else 0⟩ 0
    = false := by decide +kernel

/-- A three-variable instance: `9 + T_2(x) + yz - T_2(z)`. -/
example : quadraticCheck3D (K := ℚ) ⟨![3, 2, 3], fun k => if k = ![0, 0, 0] then 9 else if k = ![2, 0, 0] then 1 else
    if k = ![0, 1, 1] then 1 else if k = ![0, 0, 2] then -1 else 0⟩ (1 / 10) = true := by decide +kernel

/-- A one-variable instance of the n-D check with any exact linear algebra. -/
example (la : LinAlg 1 ℚ) (hla : ∀ S : Finset (Fin 1), S.Nonempty → la.ExactOn S) :
    quadraticCheckND la ⟨fun _ => 2, fun k => if k 0 = 0 then 3 else 1⟩ (1 / 10) = true := by
  rw [C45_quadND_iff_partial la hla]
  left
  intro x hx
  have h := abs_le.1 (hx 0)
  have e : ∀ M : Tensor 1 ℚ, M = ⟨fun _ => 2, fun k => if k 0 = 0 then 3 else 1⟩ →
      quadRest M = 0 ∧ quadPart M x = 3 + x 0 := by
    intro M hMe
    have hr : quadRest M = 0 := by rw [hMe]; decide +kernel
    refine ⟨hr, ?_⟩
    have h1 := eval_sub_evalQ M x hx
    have h2 : restAbs M = 0 := hr
    rw [h2] at h1
    have h3 : M.eval x = evalQ M x := by
      have := abs_nonpos_iff.1 h1
      linarith
    rw [quadPart_eq, ← h3, Tensor.eval_eq_evalC, hMe]
    have hi : (⟨fun _ => 2, fun k => if k 0 = 0 then 3 else 1⟩ : Tensor 1 ℚ).idx
        = {(fun _ => 0), (fun _ => 1)} := by decide +kernel
    unfold Tensor.evalC
    rw [hi, sum_pair (by decide)]
    simp [chebPair]
  obtain ⟨e1, e2⟩ := e _ rfl
  rw [e1, e2]
  linarith [h.1]

/-- C18 at distance exactly `tol` is false: `9/8 + x` with tolerance `1/8` passes, although `1 + x` is within
the tolerance and vanishes at `x = -1`. -/
theorem C18_quad2D_false : ∃ (M : Tensor 2 ℚ) (tol : ℚ) (f : (Fin 2 → ℚ) → ℚ) (x : Fin 2 → ℚ),
    M.Nonempty ∧ 0 < tol ∧ quadraticCheck2D M tol = true ∧ (∀ x, InCube x → |f x - M.eval x| ≤ tol) ∧
      InCube x ∧ f x = 0 := by
  refine ⟨⟨![2, 1], fun k => if k = ![0, 0] then 9 / 8 else 1⟩, 1 / 8,
    fun x => Tensor.eval ⟨![2, 1], fun k => if k = ![0, 0] then 9 / 8 else 1⟩ x - 1 / 8, ![-1, 0],
    fun i => by fin_cases i <;> simp, by norm_num, by decide +kernel, fun x _ => ?_, ?_, ?_⟩
  · rw [sub_sub_cancel_left]; norm_num
  · intro i; fin_cases i <;> simp
  · show Tensor.eval _ _ - 1 / 8 = 0
    rw [Tensor.eval_eq_evalC]; decide +kernel

/-- C19 at distance exactly `tol` is false, with the same series in three variables. -/
theorem C19_quad3D_false : ∃ (M : Tensor 3 ℚ) (tol : ℚ) (f : (Fin 3 → ℚ) → ℚ) (x : Fin 3 → ℚ),
    M.Nonempty ∧ 0 < tol ∧ quadraticCheck3D M tol = true ∧ (∀ x, InCube x → |f x - M.eval x| ≤ tol) ∧
      InCube x ∧ f x = 0 := by
  refine ⟨⟨![2, 1, 1], fun k => if k = ![0, 0, 0] then 9 / 8 else 1⟩, 1 / 8,
    fun x => Tensor.eval ⟨![2, 1, 1], fun k => if k = ![0, 0, 0] then 9 / 8 else 1⟩ x - 1 / 8, ![-1, 0, 0],
    fun i => by fin_cases i <;> simp, by norm_num, by decide +kernel, fun x _ => ?_, ?_, ?_⟩
  · rw [sub_sub_cancel_left]; norm_num
  · intro i; fin_cases i <;> simp
  · show Tensor.eval _ _ - 1 / 8 = 0
    rw [Tensor.eval_eq_evalC]; decide +kernel

/-- What `np.linalg.matrix_rank` (singular values above `S.max() * max(M.shape) * eps`) and a linear solver do on a
*diagonal* matrix. -/
structure LinAlg.NumpyOnDiagonal (la : LinAlg n ℚ) : Prop where
  rank : ∀ (S : Finset (Fin n)) (A : Matrix (Fin n) (Fin n) ℚ), (∀ i ∈ S, ∀ j ∈ S, i ≠ j → A i j = 0) →
    (la.fullRank S A = true ↔ ∀ i ∈ S, ∀ j ∈ S, |A j j| * (S.card * (1 / 2 ^ 52)) < |A i i|)
  solve : ∀ (S : Finset (Fin n)) (A : Matrix (Fin n) (Fin n) ℚ) (b : Fin n → ℚ),
    (∀ i ∈ S, ∀ j ∈ S, i ≠ j → A i j = 0) → (∀ i ∈ S, A i i ≠ 0) → ∀ i ∈ S, la.solve S A b i = b i / A i i

/-- The behaviour on diagonal matrices, as a function. -/
def laDiag (n : ℕ) : LinAlg n ℚ :=
  ⟨fun S A => decide (∀ i ∈ S, ∀ j ∈ S, |A j j| * (S.card * (1 / 2 ^ 52)) < |A i i|), fun _ A b i => b i / A i i⟩

example : (laDiag 4).NumpyOnDiagonal :=
  ⟨fun S A _ => by simp [laDiag], fun S A b _ _ i _ => rfl⟩

theorem pointsFixed_diag (la : LinAlg n ℚ) (hla : la.NumpyOnDiagonal) (M : Tensor n ℚ)
    (hA : ∀ i j, i ≠ j → quadA M i j = 0) (fixed : List (Fin n)) :
    pointsFixed la M fixed = pointsFixed (laDiag n) M fixed := by
  have hr : ∀ S, la.fullRank S (quadA M) = (laDiag n).fullRank S (quadA M) := by
    intro S
    rw [Bool.eq_iff_iff, hla.rank S _ (fun i _ j _ h => hA i j h)]
    simp [laDiag]
  unfold pointsFixed
  dsimp only
  rw [hr]
  generalize signChange (K := ℚ) (List.map _ _) = sc
  split_ifs with h1 h2
  · rfl
  · have hne : ∀ i ∈ ((List.finRange n).filter (· ∉ fixed)).toFinset, quadA M i i ≠ 0 := by
      intro i hi h0
      have := of_decide_eq_true h2 i hi i hi
      rw [h0] at this
      simp at this
    have hs : ∀ b, ∀ i, i ∉ fixed → la.solve ((List.finRange n).filter (· ∉ fixed)).toFinset (quadA M) b i
        = (laDiag n).solve ((List.finRange n).filter (· ∉ fixed)).toFinset (quadA M) b i := by
      intro b i hi
      exact hla.solve _ _ _ (fun i _ j _ h => hA i j h) hne i (by simp [hi])
    congr 1
    funext X0
    have hc : ∀ b, (∀ i ∈ (List.finRange n).filter (· ∉ fixed),
          -1 ≤ la.solve ((List.finRange n).filter (· ∉ fixed)).toFinset (quadA M) b i ∧
          la.solve ((List.finRange n).filter (· ∉ fixed)).toFinset (quadA M) b i ≤ 1) ↔
        (∀ i ∈ (List.finRange n).filter (· ∉ fixed),
          -1 ≤ (laDiag n).solve ((List.finRange n).filter (· ∉ fixed)).toFinset (quadA M) b i ∧
          (laDiag n).solve ((List.finRange n).filter (· ∉ fixed)).toFinset (quadA M) b i ≤ 1) := by
      intro b
      refine forall₂_congr fun i hi => ?_
      rw [hs b i (by simpa using hi)]
    have hfun : ∀ b, (fun i => if i ∈ fixed then X0 i else
          la.solve ((List.finRange n).filter (· ∉ fixed)).toFinset (quadA M) b i)
        = fun i => if i ∈ fixed then X0 i else
          (laDiag n).solve ((List.finRange n).filter (· ∉ fixed)).toFinset (quadA M) b i := by
      intro b
      funext i
      split_ifs with hi
      · rfl
      · exact hs b i hi
    simp only [hc, hfun]
  · rfl

/-- `1 + δ/2 + T_2(x_0) + δ T_2(x_1)` with `δ = 10^-17`, in four variables. -/
def exRank : Tensor 4 ℚ :=
  ⟨fun _ => 3, fun k => if k = ![0, 0, 0, 0] then 1 + 1 / (2 * 10 ^ 17) else if k = ![2, 0, 0, 0] then 1 else
    if k = ![0, 2, 0, 0] then 1 / 10 ^ 17 else 0⟩

/-- C20 is false with the rank tolerance of numpy (exact arithmetic otherwise): a nonsingular Hessian that numpy calls
rank deficient makes the check skip the critical point that is the minimum.  In four variables (where the solver
uses the n-D check), the check returns `True` for a series that has a zero in the cube. -/
theorem C20_quadND_false (la : LinAlg 4 ℚ) (hla : la.NumpyOnDiagonal) :
    0 < (1 / 10 ^ 18 : ℚ) ∧ quadraticCheckND la exRank (1 / 10 ^ 18) = true ∧ InCube (![0, 1 / 2, 0, 0] : Fin 4 → ℚ) ∧
      exRank.eval ![0, 1 / 2, 0, 0] = 0 := by
  refine ⟨by norm_num, ?_, ?_, ?_⟩
  · have hA' : ∀ i j, decide (i = j ∨ quadA exRank i j = 0) = true := by decide +kernel
    have hA : ∀ i j, i ≠ j → quadA exRank i j = 0 := fun i j h => (of_decide_eq_true (hA' i j)).resolve_left h
    have e : quadraticCheckND la exRank (1 / 10 ^ 18) = quadraticCheckND (laDiag 4) exRank (1 / 10 ^ 18) := by
      unfold quadraticCheckND
      rw [show pointsFixed la exRank = pointsFixed (laDiag 4) exRank from
        funext fun f => pointsFixed_diag la hla exRank hA f]
    rw [e]
    decide +kernel
  · intro i; fin_cases i <;> norm_num [abs_le]
  · rw [Tensor.eval_eq_evalC]; decide +kernel

/-- C45 is false with the rank tolerance of numpy in four variables: the check of the same series returns `True` although its quadratic part meets the band. -/
theorem C45_quadND_false (la : LinAlg 4 ℚ) (hla : la.NumpyOnDiagonal) :
    quadraticCheckND la exRank (1 / 10 ^ 18) = true ∧ ¬ NoCrossing exRank (quadRest exRank + 1 / 10 ^ 18) := by
  obtain ⟨h0, h1, h2, h3⟩ := C20_quadND_false la hla
  exact ⟨h1, fun h => noCrossing_no_zero exRank _ h exRank.eval (fun x _ => by rw [sub_self, abs_zero]; exact h0) _ h2 h3⟩

end YRoots
