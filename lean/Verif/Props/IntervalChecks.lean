import Verif.Proofs.IntervalBounds
import Verif.Proofs.QuadBox
import Verif.Proofs.Subintervals
import Verif.Props.Quadratic

/-!
# Properties C50-C53: interval reduction, checks and subdivision of the legacy solver (`IntervalChecks.py`)

Specification: `Approximates fs approx` says that the functions are strictly within the given errors of the Chebyshev
series on the cube; `NoCrossingOn B M s` that the part of total degree at most 2 stays on one side, at distance at least
`s`, on the box `B`; `toBox a b t` is the point of `[a,b]` with normalised coordinates `t`; `volume` the product of the side
lengths.
-/

set_option linter.unusedSectionVars false
set_option linter.unusedVariables false
set_option linter.unusedSimpArgs false

namespace YRoots.Legacy

open Finset

variable {n : ℕ} {K : Type*} [Field K] [LinearOrder K] [IsStrictOrderedRing K]

/-- Spec: the functions are strictly within the errors of the series on the cube. -/
def Approximates (fs : List ((Fin n → K) → K)) (approx : List (Tensor n K × K)) : Prop :=
  List.Forall₂ (fun f p => ∀ y, InCube y → |f y - p.1.eval y| < p.2) fs approx

/-- Spec: the same with errors that may be attained. -/
def ApproximatesLe (fs : List ((Fin n → K) → K)) (approx : List (Tensor n K × K)) : Prop :=
  List.Forall₂ (fun f p => ∀ y, InCube y → |f y - p.1.eval y| ≤ p.2) fs approx

/-- Spec: common zero in the cube. -/
def CommonZero (fs : List ((Fin n → K) → K)) (x : Fin n → K) : Prop := InCube x ∧ ∀ f ∈ fs, f x = 0

/-- Spec: the part of total degree at most 2 stays on one side of the band on the box. -/
def NoCrossingOn (B : Box n K) (M : Tensor n K) (s : K) : Prop :=
  (∀ x, B.Mem x → s ≤ quadPart M x) ∨ ∀ x, B.Mem x → quadPart M x ≤ -s

/-- Spec: the point of the box `[a,b]` with normalised coordinates `t`. -/
def toBox (a b t : Fin n → K) : Fin n → K := fun i => (a i + b i) / 2 + t i * ((b i - a i) / 2)

/-- Spec: volume of a box. -/
def volume (B : Box n K) : K := ∏ i, (B.hi i - B.lo i)

theorem approx_eval {fs : List ((Fin n → K) → K)} {approx : List (Tensor n K × K)} (h : Approximates fs approx)
    {x : Fin n → K} (hx : CommonZero fs x) : ∀ p ∈ approx, |p.1.eval x| < p.2 := by
  obtain ⟨hx, h0⟩ := hx
  unfold Approximates at h
  induction h with
  | nil => simp
  | @cons f p fs approx hf hr ih =>
    intro q hq
    rcases List.mem_cons.1 hq with rfl | hq
    · have := hf x hx
      rwa [h0 f (by simp), zero_sub, abs_neg] at this
    · exact ih (fun g hg => h0 g (by simp [hg])) q hq

theorem approxLe_eval {fs : List ((Fin n → K) → K)} {approx : List (Tensor n K × K)} (h : ApproximatesLe fs approx)
    {x : Fin n → K} (hx : CommonZero fs x) : ∀ p ∈ approx, |p.1.eval x| ≤ p.2 := by
  obtain ⟨hx, h0⟩ := hx
  unfold ApproximatesLe at h
  induction h with
  | nil => simp
  | @cons f p fs approx hf hr ih =>
    intro q hq
    rcases List.mem_cons.1 hq with rfl | hq
    · have := hf x hx
      rwa [h0 f (by simp), zero_sub, abs_neg] at this
    · exact ih (fun g hg => h0 g (by simp [hg])) q hq

/-! ### C50: the bounding interval -/

/-- **C50**: the interval found by any list of reduction methods contains every common zero of functions strictly within
the errors, and it is a genuine box inside the cube (so it is not dropped as empty).  `_partial`: the claim for errors
that are attained is false, `C50_bounding_false`. -/
theorem C50_bounding_partial {S : LinSolve n K} (hS : S.Exact) {approx : List (Tensor n K × K)} {ms : List Reduction}
    {B : Box n K} (h : getBoundingInterval n S approx ms = .ok (some B)) (fs : List ((Fin n → K) → K))
    (hf : Approximates fs approx) (x : Fin n → K) (hx : CommonZero fs x) :
    B.Mem x ∧ (∀ i, B.lo i < B.hi i) ∧ B.Within (Box.unit n K) := by
  have he := approx_eval hf hx
  have hb := getBounding_sound hS h x hx.1 (fun p hp => (he p hp).le) True (fun _ => he)
  have hb' : ∀ i, B.lo i ≤ x i ∧ x i ≤ B.hi i ∧ B.lo i < B.hi i := fun i =>
    (hb i).resolve_right fun h0 => h0.1 trivial
  exact ⟨fun i => ⟨(hb' i).1, (hb' i).2.1⟩, fun i => (hb' i).2.2, (getBounding_unit h).2⟩

/-- C50 with errors that may be attained: each coordinate of a zero is inside, or that side has been replaced by
`[0,0]`. -/
theorem C50_bounding_closed_partial {S : LinSolve n K} (hS : S.Exact) {approx : List (Tensor n K × K)}
    {ms : List Reduction} {B : Box n K} (h : getBoundingInterval n S approx ms = .ok (some B))
    (fs : List ((Fin n → K) → K)) (hf : ApproximatesLe fs approx) (x : Fin n → K) (hx : CommonZero fs x) (i : Fin n) :
    (B.lo i ≤ x i ∧ x i ≤ B.hi i) ∨ (B.lo i = 0 ∧ B.hi i = 0) := by
  have hb := getBounding_sound hS h x hx.1 (approxLe_eval hf hx) False (fun h => h.elim) i
  exact hb.imp (fun h => ⟨h.1, h.2.1⟩) fun h => h.2

/-- The linear functions `x - 1/2` and `y - 1/2`. -/
def exLin (j : Fin 2) : Tensor 2 ℚ :=
  ⟨fun _ => 2, fun k => if k = ![0, 0] then -1 / 2 else if k = Pi.single j 1 then 1 else 0⟩

/-- C50 with attained errors is false: for `x = 1/2, y = 1/2`, known exactly, both sides shrink to a point, are
replaced by `[0,0]`, and the whole box is discarded although it contains the common zero. -/
theorem C50_bounding_false (S : LinSolve 2 ℚ) (la : LinAlg 2 ℚ) :
    ∃ (approx : List (Tensor 2 ℚ × ℚ)) (fs : List ((Fin 2 → ℚ) → ℚ)) (x : Fin 2 → ℚ) (B : Box 2 ℚ) (D : Data 2 ℚ),
      ApproximatesLe fs approx ∧ CommonZero fs x ∧
      getBoundingInterval 2 S approx [.improveBound, .getBoundingParallelogram] = .ok (some B) ∧ ¬ B.Mem x ∧
      ∃ D', getSubintervals S la D (fun _ => -1) (fun _ => 1) approx true = .ok ([], D') := by
  have e : boundingDispatch 2 S (fun i => exLin i) (fun _ => 0) [.improveBound, .getBoundingParallelogram]
      = .ok ⟨fun _ => 0, fun _ => 0⟩ := by
    have h1 : ∀ i j, 1 < (exLin i).shape j := fun i j => by simp [exLin]
    show getBoundingInterval2D _ _ _ = _
    unfold getBoundingInterval2D
    rw [if_pos h1]
    have hb : ∀ i, mergeIntervals ((([.improveBound, .getBoundingParallelogram] : List Reduction).foldl
        (reduce2D (fun i => linCoef (exLin i) 0) (fun i => linCoef (exLin i) 1) (fun i => (exLin i).const)
          fun i => errTerm (exLin i) 0) fun _ => []) i) = (1 / 2, 1 / 2) := by decide +kernel
    simp only [finish, hb]
    have hw : widthAndBoundCheck ((1 / 2, 1 / 2) : ℚ × ℚ) = (0, 0) := by decide +kernel
    simp only [hw]
  have e2 : getBoundingInterval 2 S [(exLin 0, 0), (exLin 1, 0)] [.improveBound, .getBoundingParallelogram]
      = .ok (some ⟨fun _ => 0, fun _ => 0⟩) := by
    unfold getBoundingInterval
    rw [if_neg (by simp), dif_pos (by simp)]
    have ep : (fun i : Fin 2 => (([(exLin 0, (0 : ℚ)), (exLin 1, 0)] : List (Tensor 2 ℚ × ℚ)).get
        (i.cast (by simp))).1) = fun i => exLin i := by
      funext i; fin_cases i <;> rfl
    have ee : (fun i : Fin 2 => (([(exLin 0, (0 : ℚ)), (exLin 1, 0)] : List (Tensor 2 ℚ × ℚ)).get
        (i.cast (by simp))).2) = fun _ => 0 := by
      funext i; fin_cases i <;> rfl
    rw [ep, ee, e]
  refine ⟨[(exLin 0, 0), (exLin 1, 0)], [(exLin 0).eval, (exLin 1).eval], fun _ => 1 / 2, ⟨fun _ => 0, fun _ => 0⟩,
    ⟨[.improveBound, .getBoundingParallelogram], [], 0, false⟩, ?_, ⟨?_, ?_⟩, e2, ?_, ?_⟩
  · refine .cons (fun y _ => by simp) (.cons (fun y _ => by simp) .nil)
  · intro i; norm_num [abs_le]
  · intro f hf
    simp only [List.mem_cons, List.not_mem_nil, or_false] at hf
    rcases hf with rfl | rfl <;> (rw [Tensor.eval_eq_evalC]; decide +kernel)
  · intro h
    have := (h 0).2
    norm_num at this
  · unfold getSubintervals
    simp only [List.length_cons, List.length_nil]
    rw [if_pos (by simp), e2]
    have : area (⟨fun _ => 0, fun _ => 0⟩ : Box 2 ℚ) = 0 := by simp [area]
    simp only [this, if_true]
    exact ⟨_, rfl⟩

theorem dispatch_of_ne (S : LinSolve n K) (P : Fin n → Tensor n K) (tols : Fin n → K) (ms : List Reduction) (hn : n ≠ 2) :
    boundingDispatch n S P tols ms = getBoundingIntervalND S P tols ms := by
  unfold boundingDispatch
  split
  · exact absurd rfl hn
  · rfl

/-- In other dimensions than two a singular linear part is not an empty reduction but an exception: `la.solve` raises
`LinAlgError` and the whole solve stops. -/
theorem C50_singular_raises {S : LinSolve n K} (hS : S.Exact) (hn : n ≠ 2) (P : Fin n → Tensor n K) (tols : Fin n → K)
    (hsh : ∀ i j, 1 < (P i).shape j) (hdet : (Matrix.of fun i j => (P i).coef (Pi.single j 1)).det = 0) :
    boundingDispatch n S P tols [.improveBound, .getBoundingParallelogram] = .error .linAlgError := by
  have hnone : ∀ b, S (Matrix.of fun i j => linCoef (P i) j) b = none := fun b => (hS _ b).2 hdet
  have hm : ∀ (l : List (Fin n → Bool)) (g : (Fin n → Bool) → Fin n → K), l ≠ [] →
      (l.mapM fun s => S (Matrix.of fun i j => linCoef (P i) j) (g s)) = none := by
    intro l g hl
    cases l with
    | nil => exact absurd rfl hl
    | cons a l => rw [List.mapM_cons, hnone]; rfl
  rw [dispatch_of_ne S P tols _ hn]
  unfold getBoundingIntervalND
  rw [if_pos hsh]
  simp only [List.foldlM_cons, List.foldlM_nil, reduceND, parallelogramND]
  rw [hm _ _ (by
    intro h0
    have := mem_boolProduct n fun _ => true
    rw [h0] at this
    simp at this)]
  rfl

/-- Exact solvers exist. -/
example : ∃ S : LinSolve n K, S.Exact := by
  classical
  refine ⟨fun A b => if A.det = 0 then none else some (A⁻¹.mulVec b), fun A b => ⟨fun h => ?_, fun h => if_pos h⟩⟩
  refine ⟨_, if_neg h, ?_⟩
  rw [Matrix.mulVec_mulVec, Matrix.mul_nonsing_inv _ (isUnit_iff_ne_zero.2 h), Matrix.one_mulVec]

/-- A reachable instance of `C50_bounding_partial`: errors `1/10`; the zero of `x - 1/2 + 1/20` and `y - 1/2`. -/
example (S : LinSolve 2 ℚ) : ∃ B, getBoundingInterval 2 S [(exLin 0, 1 / 10), (exLin 1, 1 / 10)]
      [.improveBound, .getBoundingParallelogram] = .ok (some B) ∧
    Approximates [fun y => (exLin 0).eval y + 1 / 20, (exLin 1).eval] [(exLin 0, 1 / 10), (exLin 1, 1 / 10)] ∧
    CommonZero [fun y => (exLin 0).eval y + 1 / 20, (exLin 1).eval] ![9 / 20, 1 / 2] := by
  have h1 : ∀ i j, 1 < ((([(exLin 0, (1 / 10 : ℚ)), (exLin 1, 1 / 10)] : List (Tensor 2 ℚ × ℚ)).get
        (Fin.cast (n := 2) (by simp) i)).1).shape j := by
    intro i j; fin_cases i <;> simp [exLin]
  have hB : ∃ B, getBoundingInterval 2 S [(exLin 0, 1 / 10), (exLin 1, 1 / 10)]
      [.improveBound, .getBoundingParallelogram] = .ok (some B) := by
    unfold getBoundingInterval
    rw [if_neg (by simp), dif_pos (by simp)]
    simp only [boundingDispatch, getBoundingInterval2D]
    rw [if_pos h1]
    exact ⟨_, rfl⟩
  obtain ⟨B, hB⟩ := hB
  refine ⟨B, hB, ?_, ?_, ?_⟩
  · exact .cons (fun y _ => by norm_num [abs_lt]) (.cons (fun y _ => by norm_num) .nil)
  · intro i; fin_cases i <;> norm_num [abs_le]
  · intro f hf
    simp only [List.mem_cons, List.not_mem_nil, or_false] at hf
    rcases hf with rfl | rfl <;> simp only [Tensor.eval_eq_evalC] <;> decide +kernel

/-! ### C51, C52: the checks on subintervals -/

/-- **C51**, constant term check: if it throws the interval out, no function within the tolerance has a zero. -/
theorem C51_constant_term (M : Tensor n K) (hM : M.Nonempty) (tol : K) (h : constantTermCheck M tol = false)
    (f : (Fin n → K) → K) (hf : ∀ x, InCube x → |f x - M.eval x| ≤ tol) (x : Fin n → K) (hx : InCube x) : f x ≠ 0 := by
  unfold constantTermCheck at h
  by_cases hc : |M.const| * 2 > M.absSum + tol
  · intro h0
    have h1 := eval_const_bound M hM hx
    have h2 := hf x hx
    rw [h0, zero_sub, abs_neg] at h2
    have h3 : |M.const| ≤ |M.eval x| + |M.eval x - M.const| := by
      have : M.const = M.eval x - (M.eval x - M.const) := by ring
      conv_lhs => rw [this]
      exact abs_sub _ _
    linarith
  · rw [if_neg hc] at h; exact absurd h (by simp)

example : constantTermCheck (⟨fun _ => 2, fun k => if k = ![0, 0] then 5 else 1⟩ : Tensor 2 ℚ) 1 = false := by
  decide +kernel

theorem check_iff_box (M : Tensor n K) (tol s : K) (B : Box n K) (hB : ∀ i, B.lo i < B.hi i) (points : List (Fin n → K))
    (ev : (Fin n → K) → K) (hev : ∀ x, ev x = evalQ M x) (hs : s = quadRest M + tol) (hin : ∀ p ∈ points, B.Mem p)
    (hC : ∀ c, B.Mem c → (∀ i ∈ freeB B c, grad (quadA M) (quadB M) c i = 0) → NonsingOn (quadA M) (freeB B c) →
      ((∀ i ∈ freeB B c, 0 ≤ quadA M i i) ∨ ∀ i ∈ freeB B c, quadA M i i ≤ 0) → c ∈ points) :
    checkLoop s (points.map ev) false false = true ↔ NoCrossingOn B M (quadRest M + tol) := by
  rw [← hs]
  constructor
  · intro h
    have hr := quad_range_box (quadA M) (quadA_symm M) (quadB M)
      ((M.pad3.coef fun _ => 0) - ∑ i, pureQuad M i) B hB (· ∈ points) hC
    simp only [← evalQ_eq_qf] at hr
    rcases checkLoop_true h with h0 | ⟨-, h0⟩ | ⟨-, h0⟩
    · rw [List.map_eq_nil_iff] at h0
      obtain ⟨⟨c, hc, -⟩, -⟩ := hr B.lo (fun i => ⟨le_rfl, (hB i).le⟩)
      rw [h0] at hc; simp at hc
    · left
      intro x hx
      obtain ⟨⟨c, hc, hle⟩, -⟩ := hr x hx
      have := h0 _ (List.mem_map_of_mem hc)
      rw [hev] at this
      rw [quadPart_eq]; exact this.trans hle
    · right
      intro x hx
      obtain ⟨-, c, hc, hle⟩ := hr x hx
      have := h0 _ (List.mem_map_of_mem hc)
      rw [hev] at this
      rw [quadPart_eq]; exact hle.trans this
  · intro h
    by_contra hc
    rw [Bool.not_eq_true] at hc
    obtain ⟨h1, h2⟩ := checkLoop_false hc
    simp only [Bool.false_eq_true, false_or, List.mem_map] at h1 h2
    obtain ⟨_, ⟨p, hp, rfl⟩, h1⟩ := h1
    obtain ⟨_, ⟨q, hq, rfl⟩, h2⟩ := h2
    rw [hev] at h1 h2
    rcases h with h | h
    · have := h p (hin p hp); rw [quadPart_eq] at this; linarith
    · have := h q (hin q hq); rw [quadPart_eq] at this; linarith

/-- If the quadratic part stays away, functions strictly within the tolerance have no zero in the box. -/
theorem noCrossingOn_no_zero (B : Box n K) (hB : B.Within (Box.unit n K)) (M : Tensor n K) (tol : K)
    (h : NoCrossingOn B M (quadRest M + tol)) (x : Fin n → K) (hx : B.Mem x) : tol ≤ |M.eval x| := by
  by_contra hlt
  push Not at hlt
  have hc : InCube x := fun i => abs_le.2 ⟨(hB i).1.trans (hx i).1, (hx i).2.trans (hB i).2⟩
  have hd : |quadPart M x| < quadRest M + tol := by
    rw [quadPart_eq]
    calc |evalQ M x| = |M.eval x - (M.eval x - evalQ M x)| := by ring_nf
      _ ≤ |M.eval x| + |M.eval x - evalQ M x| := abs_sub _ _
      _ < tol + restAbs M := add_lt_add_of_lt_of_le hlt (eval_sub_evalQ M x hc)
      _ = _ := add_comm _ _
  rw [abs_lt] at hd
  rcases h with h | h <;> have := h x hx <;> linarith [hd.1, hd.2]

/-- **C51** in two variables: on every subinterval with positive sides, `quadratic_check_2D` decides exactly whether
the quadratic part stays outside the band. -/
theorem C51_quad2D_iff (M : Tensor 2 K) (hM : M.Nonempty) (tol : K) (B : Box 2 K) (hB : ∀ i, B.lo i < B.hi i) :
    check2D M tol B = true ↔ NoCrossingOn B M (quadRest M + tol) :=
  check_iff_box M tol _ B hB (points2D (coeffs2D M) B) _ (evalFunc2D_eq M hM)
    (by rw [otherSum2D_eq M hM]; rfl) (points2D_memB _ B fun i => (hB i).le)
    (fun c h1 h2 h3 _ => points2D_completeB M hM B c h1 h2 h3)

/-- **C51** in three variables. -/
theorem C51_quad3D_iff (M : Tensor 3 K) (hM : M.Nonempty) (tol : K) (B : Box 3 K) (hB : ∀ i, B.lo i < B.hi i) :
    check3D M tol B = true ↔ NoCrossingOn B M (quadRest M + tol) :=
  check_iff_box M tol _ B hB (corners3D B ++ edges3D (coeffs3D M) B ++ faces3D (coeffs3D M) B ++ interior3D (coeffs3D M) B)
    _ (evalFunc3D_eq M hM) (by rw [otherSum3D_eq M hM]; rfl) (points3D_memB _ B fun i => (hB i).le)
    (fun c h1 h2 h3 _ => points3D_completeB M hM B c h1 h2 h3)

/-- **C52** in any number of variables: `quadratic_check_nd` is right on boxes whose sides are the same interval.
`_partial`: on other boxes it is wrong, `C52_quadND_false`. -/
theorem C52_quadND_iff_partial (la : LinAlg n K) (hla : ∀ S : Finset (Fin n), S.Nonempty → la.ExactOn S)
    (M : Tensor n K) (tol : K) (B : Box n K) (hB : ∀ i, B.lo i < B.hi i)
    (hu : ∀ i j, B.lo i = B.lo j ∧ B.hi i = B.hi j) :
    checkND la M tol B = true ↔ NoCrossingOn B M (quadRest M + tol) :=
  check_iff_box M tol _ B hB _ _ (evalFuncND_eq M) (by rw [otherSumND_eq]; rfl)
    (pointsND_memB la M (fun i => (hB i).le) hu)
    (fun c h1 h2 h3 h4 => pointsND_completeU la M B hu c h1 (hla _) h2 h3 h4)

example : check2D exQuad (1 / 10) ⟨![-1, 0], ![0, 1]⟩ = true ∧
    check2D (⟨![2, 1], fun k => if k = ![0, 0] then 0 else 1⟩ : Tensor 2 ℚ) (1 / 10) ⟨![1 / 2, -1], ![1, 0]⟩ = true ∧
    check2D (⟨![2, 1], fun k => if k = ![0, 0] then 0 else 1⟩ : Tensor 2 ℚ) (1 / 10) ⟨![-1 / 2, -1], ![1, 0]⟩ = false := by
  decide +kernel

/-- `x_0^2 + x_0 x_3 + 3/16` in four variables. -/
def exPos : Tensor 4 ℚ :=
  ⟨fun _ => 3, fun k => if k = ![0, 0, 0, 0] then 11 / 16 else if k = ![2, 0, 0, 0] then 1 / 2 else
    if k = ![1, 0, 0, 1] then 1 else 0⟩

theorem exPos_A : quadA exPos = !![2, 0, 0, 1; 0, 0, 0, 0; 0, 0, 0, 0; 1, 0, 0, 0] := by
  have h : ∀ i j : Fin 4, decide (quadA exPos i j = if i = 0 ∧ j = 0 then 2 else
      if (i = 0 ∧ j = 3) ∨ (i = 3 ∧ j = 0) then 1 else 0) = true := by decide +kernel
  ext i j; rw [of_decide_eq_true (h i j)]; fin_cases i <;> fin_cases j <;> rfl

theorem exPos_B : quadB exPos = fun _ => 0 := by
  have h : ∀ i, quadB exPos i = 0 := by decide +kernel
  funext i; exact h i

theorem exPos_eval (p : Fin 4 → ℚ) : evalFuncND exPos p = p 0 ^ 2 + p 0 * p 3 + 3 / 16 := by
  have hk : (exPos.pad3.coef fun _ => 0) - ∑ i, pureQuad exPos i = 3 / 16 := by decide +kernel
  rw [evalFuncND_eq, evalQ_eq_qf, hk]
  unfold qf
  rw [exPos_A, exPos_B]
  simp [Fin.sum_univ_four]
  ring

/-- The subinterval that is high in the last variable only. -/
def exSpot : Fin 4 → Bool := ![false, false, false, true]

theorem sidesAt_ends {B : Box n K} {l : List (Fin n × Fin n)} {x : Fin n → K} (hl : (l.map Prod.fst).Nodup)
    (h : x ∈ sidesAt B l) : ∀ p ∈ l, x p.1 ∈ ends B p.2 := by
  induction l generalizing x with
  | nil => simp
  | cons q l ih =>
    obtain ⟨a, b⟩ := q
    rw [List.map_cons, List.nodup_cons] at hl
    rw [sidesAt, List.mem_flatMap] at h
    obtain ⟨s, hs, h⟩ := h
    rw [List.mem_map] at h
    obtain ⟨y, hy, rfl⟩ := h
    intro p hp
    rcases List.mem_cons.1 hp with rfl | hp
    · simpa using hs
    · have hne : p.1 ≠ a := fun h0 => hl.1 (by show a ∈ _; rw [← h0]; exact List.mem_map_of_mem hp)
      rw [Function.update_of_ne hne]
      exact ih hl.2 hy p hp

/-- A principal submatrix with a zero row is singular. -/
theorem det_zero_row {A : Matrix (Fin n) (Fin n) K} {S : Finset (Fin n)} {i : Fin n} (hi : i ∈ S)
    (h : ∀ j ∈ S, A i j = 0) : (A.submatrix (Subtype.val : S → Fin n) (Subtype.val : S → Fin n)).det = 0 :=
  Matrix.det_eq_zero_of_row_eq_zero (⟨i, hi⟩ : S) fun j => h j.1 j.2

theorem exPos_points (la : LinAlg 4 ℚ) (hla : ∀ S : Finset (Fin 4), S.Nonempty → la.ExactOn S)
    (fixed : List (Fin 4)) (hf : fixed ∈ getFixedVars 4 ∨ fixed = []) (p : Fin 4 → ℚ)
    (hp : p ∈ pointsFixed la exPos (subinterval exSpot) fixed) : 1 / 100 ≤ evalFuncND exPos p := by
  have hm := middle_bounds (K := ℚ)
  have hm0 : (0 : ℚ) < middleVal ∧ (middleVal : ℚ) < 1 / 10 := by unfold middleVal; norm_num
  have hU : ∀ fixed : List (Fin 4), (fixed ∈ getFixedVars 4 ∨ fixed = []) →
      (((List.finRange 4).filter (· ∉ fixed)).toFinset).Nonempty := by
    have h1 : ∀ fixed ∈ getFixedVars 4, (((List.finRange 4).filter (· ∉ fixed)).toFinset).Nonempty := by decide +kernel
    rintro fixed (h | rfl)
    · exact h1 fixed h
    · decide
  unfold pointsFixed at hp
  dsimp only at hp
  generalize signChange (K := ℚ) (List.map _ _) = sc at hp
  have hex := hla _ (hU fixed hf)
  split_ifs at hp with h1 h2
  · simp at hp
  swap
  · simp at hp
  rw [hex.rank, exPos_A] at h2
  have hs := hex.solve (quadA exPos)
  rw [exPos_A] at hs hp
  have hmemU : ∀ i, i ∈ ((List.finRange 4).filter (· ∉ fixed)).toFinset ↔ i ∉ fixed := fun i => by simp
  have f1 : 1 ∈ fixed := by
    by_contra hc
    refine h2 (det_zero_row ((hmemU 1).2 hc) fun j _ => ?_)
    fin_cases j <;> rfl
  have f2 : 2 ∈ fixed := by
    by_contra hc
    refine h2 (det_zero_row ((hmemU 2).2 hc) fun j _ => ?_)
    fin_cases j <;> rfl
  have f3 : 0 ∈ fixed → 3 ∈ fixed := by
    intro h0
    by_contra hc
    refine h2 (det_zero_row ((hmemU 3).2 hc) fun j hj => ?_)
    have : j ≠ 0 := by rintro rfl; exact (hmemU 0).1 hj h0
    fin_cases j
    · exact absurd rfl this
    all_goals rfl
  have hcase : fixed = [1, 2, 3] ∨ fixed = [1, 2] := by
    have hd : ∀ fixed ∈ getFixedVars 4, 1 ∈ fixed → 2 ∈ fixed → (0 ∈ fixed → 3 ∈ fixed) →
        fixed = [1, 2, 3] ∨ fixed = [1, 2] := by decide +kernel
    rcases hf with hf | rfl
    · exact hd fixed hf f1 f2 f3
    · simp at f1
  rw [List.mem_flatMap] at hp
  obtain ⟨X0, hX0, hp⟩ := hp
  have hs' := hs (fun i => -quadB exPos i - ∑ j ∈ fixed.toFinset,
    (!![2, 0, 0, 1; 0, 0, 0, 0; 0, 0, 0, 0; 1, 0, 0, 0] : Matrix (Fin 4) (Fin 4) ℚ) i j * X0 j) h2
  split_ifs at hp with hin
  swap
  · simp at hp
  rw [List.mem_singleton] at hp
  generalize la.solve _ _ _ = X at hs' hin hp
  rcases hcase with rfl | rfl
  · -- variable 0 free
    have hz : ([1, 2, 3] : List (Fin 4)).zip (List.finRange 4) = [(1, 0), (2, 1), (3, 2)] := by decide
    rw [hz] at hX0
    have he := sidesAt_ends (by decide) hX0 (3, 2) (by simp)
    have hU0 : ((List.finRange 4).filter (· ∉ ([1, 2, 3] : List (Fin 4)))).toFinset = {0} := by decide
    rw [hU0] at hs'
    have e0 := hs' 0 (by simp)
    have ht : ([1, 2, 3] : List (Fin 4)).toFinset = {1, 2, 3} := by decide
    rw [exPos_B, ht] at e0
    simp at e0
    have hi := hin 0 (by decide)
    simp only [subinterval, exSpot] at hi
    have p0 : p 0 = X 0 := by rw [hp]; simp
    have p3 : p 3 = X0 3 := by rw [hp]; simp
    rw [exPos_eval, p0, p3]
    simp only [ends, subinterval, exSpot, List.mem_cons, List.not_mem_nil, or_false] at he
    have e3 : X0 3 = -2 * X 0 := by linarith
    have he' : X0 3 = -1 ∨ X0 3 = middleVal := he
    have hi' : X 0 ≤ middleVal := hi.2
    rcases he' with h | h
    · exfalso; rw [h] at e3; linarith [hm0.2]
    · rw [h] at e3 ⊢
      have : X 0 = -middleVal / 2 := by linarith
      rw [this]
      nlinarith [hm0.1, hm0.2]
  · -- variables 0 and 3 free
    have hU0 : ((List.finRange 4).filter (· ∉ ([1, 2] : List (Fin 4)))).toFinset = {0, 3} := by decide
    rw [hU0] at hs'
    have ht : ([1, 2] : List (Fin 4)).toFinset = {1, 2} := by decide
    have e0 := hs' 0 (by simp)
    have e3 := hs' 3 (by simp)
    rw [exPos_B, ht] at e0 e3
    simp at e0 e3
    have hi := (hin 3 (by decide)).1
    simp only [subinterval, exSpot] at hi
    have hi' : middleVal ≤ X 3 := hi
    exfalso
    rw [e3] at e0
    linarith [hm0.1]

/-- C52 is false on other boxes, with exact linear algebra: in four variables the check throws out a subinterval that
contains a zero, because `X0` takes the bound of variable `i` for the variable `fixed[i]`. -/
theorem C52_quadND_false (la : LinAlg 4 ℚ) (hla : ∀ S : Finset (Fin 4), S.Nonempty → la.ExactOn S) :
    quadraticCheck 4 la exPos (1 / 100) (subinterval exSpot) = true ∧
      (subinterval exSpot).Mem (![-1 / 4, 0, 0, 1] : Fin 4 → ℚ) ∧ exPos.eval ![-1 / 4, 0, 0, 1] = 0 := by
  have hm0 : (0 : ℚ) < middleVal ∧ (middleVal : ℚ) < 1 / 10 := by unfold middleVal; norm_num
  refine ⟨?_, ?_, ?_⟩
  · show checkND la exPos (1 / 100) _ = true
    unfold checkND
    dsimp only
    by_contra hc
    rw [Bool.not_eq_true] at hc
    obtain ⟨h1, -⟩ := checkLoop_false hc
    simp only [Bool.false_eq_true, false_or, List.mem_map] at h1
    obtain ⟨_, ⟨p, hp, rfl⟩, h1⟩ := h1
    have hos : otherSumND exPos (1 / 100) = 1 / 100 := by decide +kernel
    rw [hos] at h1
    refine absurd h1 (not_lt.2 ?_)
    rw [List.mem_append, List.mem_append, List.mem_flatMap] at hp
    rcases hp with (hp | ⟨f, hf, hp⟩) | hp
    · have hz : (List.finRange 4).zip (List.finRange 4) = [(0, 0), (1, 1), (2, 2), (3, 3)] := by decide
      rw [hz] at hp
      have h0 := sidesAt_ends (by decide) hp (0, 0) (by simp)
      have h3 := sidesAt_ends (by decide) hp (3, 3) (by simp)
      simp only [ends, List.mem_cons, List.not_mem_nil, or_false] at h0 h3
      have h0' : p 0 = -1 ∨ p 0 = middleVal := h0
      have h3' : p 3 = middleVal ∨ p 3 = 1 := h3
      rw [exPos_eval]
      rcases h0' with h0 | h0 <;> rcases h3' with h3 | h3 <;> rw [h0, h3] <;> nlinarith [hm0.1, hm0.2]
    · exact exPos_points la hla f (.inl hf) p hp
    · exact exPos_points la hla [] (.inr rfl) p hp
  · intro i
    fin_cases i
    · show (-1 : ℚ) ≤ -1 / 4 ∧ (-1 / 4 : ℚ) ≤ middleVal
      constructor <;> linarith [hm0.1]
    · show (-1 : ℚ) ≤ 0 ∧ (0 : ℚ) ≤ middleVal
      constructor <;> linarith [hm0.1]
    · show (-1 : ℚ) ≤ 0 ∧ (0 : ℚ) ≤ middleVal
      constructor <;> linarith [hm0.1]
    · show (middleVal : ℚ) ≤ 1 ∧ (1 : ℚ) ≤ 1
      constructor <;> linarith [hm0.2]
  · rw [Tensor.eval_eq_evalC]; decide +kernel

/-! ### C53: `get_subintervals` -/

theorem mem_transform {a b : Fin n → K} (hab : ∀ i, a i ≤ b i) {B : Box n K} {t : Fin n → K} (h : B.Mem t) :
    (transformBox a b B).Mem (toBox a b t) := by
  intro i
  have h1 := h i
  have h2 := hab i
  simp only [transformBox, toBox]
  constructor <;> nlinarith

theorem quadraticCheck_sound (hn : n ≤ 3) (la : LinAlg n K) (hla : ∀ S : Finset (Fin n), S.Nonempty → la.ExactOn S)
    (M : Tensor n K) (hM : M.Nonempty) (tol : K) (spot : Fin n → Bool)
    (h : quadraticCheck n la M tol (subinterval spot) = true) (x : Fin n → K) (hx : (subinterval spot).Mem x) :
    tol ≤ |M.eval x| := by
  have hnc : NoCrossingOn (subinterval spot) M (quadRest M + tol) := by
    have hl := subinterval_lt (K := K) spot
    match n, la, M, spot, hn with
    | 0, la, M, spot, _ =>
      exact (C52_quadND_iff_partial la hla M tol _ hl (fun i => i.elim0)).1 h
    | 1, la, M, spot, _ =>
      refine (C52_quadND_iff_partial la hla M tol _ hl (fun i j => ?_)).1 h
      rw [Subsingleton.elim i j]; exact ⟨rfl, rfl⟩
    | 2, la, M, spot, _ => exact (C51_quad2D_iff M hM tol _ hl).1 h
    | 3, la, M, spot, _ => exact (C51_quad3D_iff M hM tol _ hl).1 h
  exact noCrossingOn_no_zero _ (subinterval_within spot) M tol hnc x hx

theorem mask_keeps (la : LinAlg n K) (a b : Fin n → K) (approx : List (Tensor n K × K)) (spot : Fin n → Bool)
    (h : ∀ p ∈ approx, quadraticCheck n la p.1 p.2 (subinterval spot) = false) : (runChecks la a b approx).1 spot = true := by
  unfold runChecks
  have key : ∀ (l : List (Tensor n K × K)) (st : ((Fin n → Bool) → Bool) × List (Box n K)), st.1 spot = true →
      (∀ p ∈ l, quadraticCheck n la p.1 p.2 (subinterval spot) = false) →
      (l.foldl (checkStep la a b) st).1 spot = true := by
    intro l
    induction l with
    | nil => intro st h _; exact h
    | cons p l ih =>
      intro st h0 h1
      rw [List.foldl_cons]
      refine ih _ ?_ fun q hq => h1 q (by simp [hq])
      simp [checkStep, h0, h1 p (by simp)]
  exact key approx _ rfl h

/-- **C53**, cover: every common zero in the box lies in one of the returned boxes.  `_partial`: functions strictly within
the errors (`C50_bounding_false`), and at most three variables if the checks are run (`C52_quadND_false`). -/
theorem C53_cover_partial {S : LinSolve n K} (hS : S.Exact) (la : LinAlg n K)
    (hla : ∀ T : Finset (Fin n), T.Nonempty → la.ExactOn T) (D : Data n K) (a b : Fin n → K) (hab : ∀ i, a i ≤ b i)
    (approx : List (Tensor n K × K)) (hM : ∀ p ∈ approx, p.1.Nonempty) (checks : Bool) (hn : n ≤ 3 ∨ checks = false)
    (L : List (Box n K)) (D' : Data n K) (h : getSubintervals S la D a b approx checks = .ok (L, D'))
    (fs : List ((Fin n → K) → K)) (hf : Approximates fs approx) (t : Fin n → K) (ht : CommonZero fs t) :
    ∃ B ∈ L, B.Mem (toBox a b t) := by
  have he := approx_eval hf ht
  have hsub : ∀ bo : Option (Box n K), (∀ B, bo = some B → B.Mem t) →
      ∃ B ∈ (subdivide la D a b approx checks bo).1, B.Mem (toBox a b t) := by
    intro bo hbo
    have hcov := subinterval_cover ht.1
    generalize (fun i => decide (middleVal ≤ t i)) = spot at hcov
    have hkeep : (if checks then runChecks la a b approx else (fun _ => true, [])).1 spot = true := by
      cases checks with
      | false => rfl
      | true =>
        refine mask_keeps la a b approx spot fun p hp => ?_
        by_contra hc
        rw [Bool.not_eq_false] at hc
        have := quadraticCheck_sound (hn.resolve_right (by simp)) la hla p.1 (hM p hp) p.2 spot hc t hcov
        exact absurd (he p hp) (not_lt.2 this)
    unfold subdivide
    generalize (if checks then runChecks la a b approx else (fun _ => true, [])) = st at hkeep ⊢
    have hplain : ∃ B ∈ ((boolProduct n).filter st.1).map (fun spot => transformBox a b (subinterval spot)),
        B.Mem (toBox a b t) :=
      ⟨_, List.mem_map_of_mem (List.mem_filter.2 ⟨mem_boolProduct n spot, hkeep⟩), mem_transform hab hcov⟩
    cases bo with
    | none => exact hplain
    | some B =>
      simp only []
      by_cases hc : area B < (((boolProduct n).filter st.1).length : K) ∧ area B < 3
      · rw [if_pos hc]; exact ⟨_, by simp, mem_transform hab (hbo B rfl)⟩
      · rw [if_neg hc]; exact hplain
  unfold getSubintervals at h
  generalize hg : (if D.methods.length ≠ 0 then getBoundingInterval n S approx D.methods else .ok none) = r at h
  have hr : ∀ B, r = .ok (some B) → B.Mem t ∧ ∀ i, B.lo i < B.hi i := by
    intro B hB
    rw [← hg] at hB
    split_ifs at hB
    · have := C50_bounding_partial hS hB fs hf t ht
      exact ⟨this.1, this.2.1⟩
    · exact absurd hB (by simp)
  match r, h with
  | .ok none, h =>
    simp only [Except.ok.injEq] at h
    have := hsub none (by simp)
    rw [h] at this
    exact this
  | .ok (some B), h =>
    obtain ⟨h1, h2⟩ := hr B rfl
    have hpos : 0 < area B := prod_pos fun i _ => sub_pos.2 (h2 i)
    simp only [if_neg hpos.ne'] at h
    split_ifs at h
    · simp only [Except.ok.injEq, Prod.mk.injEq] at h
      rw [← h.1]
      exact ⟨_, by simp, mem_transform hab h1⟩
    · simp only [Except.ok.injEq] at h
      have := hsub (some B) (by rintro _ ⟨⟩; exact h1)
      rw [h] at this
      exact this

/-- **C53**, accounting: the volume of the returned boxes plus what is added to `current_area` is the volume of the box -
for every input, also when a check or a reduction is wrong. -/
theorem C53_area (S : LinSolve n K) (la : LinAlg n K) (D : Data n K) (a b : Fin n → K) (approx : List (Tensor n K × K))
    (checks : Bool) (L : List (Box n K)) (D' : Data n K) (h : getSubintervals S la D a b approx checks = .ok (L, D')) :
    (L.map volume).sum + (D'.current_area - D.current_area) = volume ⟨a, b⟩ := by
  have e : (volume : Box n K → K) = area := rfl
  rw [e]
  unfold getSubintervals at h
  generalize (if D.methods.length ≠ 0 then getBoundingInterval n S approx D.methods else .ok none) = r at h
  match r, h with
  | .ok none, h =>
    simp only [Except.ok.injEq] at h
    have := subdivide_area la D a b approx checks none
    rw [h] at this
    linear_combination this
  | .ok (some B), h =>
    simp only [] at h
    by_cases h0 : area B = 0
    · rw [if_pos h0] at h
      simp only [Except.ok.injEq, Prod.mk.injEq] at h
      obtain ⟨rfl, rfl⟩ := h
      simp [Data.trackBounded, area_transform', h0]
    · rw [if_neg h0] at h
      by_cases h1 : area B < 1 / 2
      · rw [if_pos h1] at h
        simp only [Except.ok.injEq, Prod.mk.injEq] at h
        obtain ⟨rfl, rfl⟩ := h
        simp [Data.trackBounded]
      · rw [if_neg h1] at h
        simp only [Except.ok.injEq] at h
        have := subdivide_area la D a b approx checks (some B)
        rw [h] at this
        linear_combination this

/-- A reachable instance of C53: without reduction methods three of the four subintervals of `x - 1/2 = y - 1/2 = 0` are
thrown out by the checks. -/
example (S : LinSolve 2 ℚ) (la : LinAlg 2 ℚ) : ∃ L D', getSubintervals S la ⟨[], [], 0, false⟩ (fun _ => -1) (fun _ => 1)
    [(exLin 0, 1 / 10), (exLin 1, 1 / 10)] true = .ok (L, D') ∧ L.length = 1 := by
  refine ⟨_, _, rfl, ?_⟩
  unfold runChecks
  simp only [if_true, List.length_map, List.foldl_cons, List.foldl_nil, checkStep, quadraticCheck]
  decide +kernel

theorem mask_dropped (la : LinAlg n K) (a b : Fin n → K) (p : Tensor n K × K) (rest : List (Tensor n K × K)) (spot : Fin n → Bool)
    (h : quadraticCheck n la p.1 p.2 (subinterval spot) = true) : (runChecks la a b (p :: rest)).1 spot = false := by
  have key : ∀ (l : List (Tensor n K × K)) (st : ((Fin n → Bool) → Bool) × List (Box n K)), st.1 spot = false →
      (l.foldl (checkStep la a b) st).1 spot = false := by
    intro l
    induction l with
    | nil => exact fun st h => h
    | cons q l ih =>
      intro st h0
      rw [List.foldl_cons]
      exact ih _ (by simp [checkStep, h0])
  unfold runChecks
  rw [List.foldl_cons]
  exact key rest _ (by simp [checkStep, h])

/-- `x_i - c` in four variables. -/
def exLin4 (i : Fin 4) (c : ℚ) : Tensor 4 ℚ :=
  ⟨fun _ => 2, fun k => if k = (fun _ => 0) then -c else if k = (fun j => if j = i then 1 else 0) then 1 else 0⟩

/-- **C53**, cover, **is false** in four variables when the checks are run, with exact linear algebra: the common zero of `x_0^2 + x_0 x_3 + 3/16`, `x_1`, `x_2`
and `x_3 - 1` lies in none of the boxes returned (`C52_quadND_false`). -/
theorem C53_cover_false (S : LinSolve 4 ℚ) (la : LinAlg 4 ℚ) (hla : ∀ T : Finset (Fin 4), T.Nonempty → la.ExactOn T) :
    ∃ (D D' : Data 4 ℚ) (approx : List (Tensor 4 ℚ × ℚ)) (L : List (Box 4 ℚ)) (t : Fin 4 → ℚ),
      getSubintervals S la D (fun _ => -1) (fun _ => 1) approx true = .ok (L, D') ∧ approx.length = 4 ∧
      Approximates (approx.map fun p => p.1.eval) approx ∧ CommonZero (approx.map fun p => p.1.eval) t ∧
      ∀ B ∈ L, ¬ B.Mem (toBox (fun _ => -1) (fun _ => 1) t) := by
  obtain ⟨h1, h2, h3⟩ := C52_quadND_false la hla
  refine ⟨⟨[], [], 0, false⟩, _, [(exPos, 1 / 100), (exLin4 1 0, 1 / 100), (exLin4 2 0, 1 / 100), (exLin4 3 1, 1 / 100)], _, ![-1 / 4, 0, 0, 1], rfl, rfl, ?_,
    ⟨by intro i; fin_cases i <;> norm_num [abs_le], ?_⟩, ?_⟩
  · unfold Approximates
    simp only [List.map_cons, List.map_nil]
    exact .cons (fun y _ => by norm_num) (.cons (fun y _ => by norm_num) (.cons (fun y _ => by norm_num) (.cons (fun y _ => by norm_num) .nil)))
  · intro f hf
    simp only [List.map_cons, List.map_nil, List.mem_cons, List.not_mem_nil, or_false] at hf
    rcases hf with rfl | rfl | rfl | rfl
    · exact h3
    · rw [Tensor.eval_eq_evalC]; decide +kernel
    · rw [Tensor.eval_eq_evalC]; decide +kernel
    · rw [Tensor.eval_eq_evalC]; decide +kernel
  · intro B hB hm
    obtain ⟨spot, hs, rfl⟩ := List.mem_map.1 hB
    have hk := (List.mem_filter.1 hs).2
    have hm0 : (0 : ℚ) < middleVal ∧ (middleVal : ℚ) < 1 / 10 := by unfold middleVal; norm_num
    have he : spot = exSpot := by
      funext i
      have := hm i
      simp only [transformBox, toBox, subinterval] at this
      fin_cases i
      all_goals
        simp only [exSpot, Fin.zero_eta, Fin.mk_one, Fin.reduceFinMk, Matrix.cons_val] at this ⊢
        split_ifs at this with hc
        · first
            | exact hc
            | (exfalso; linarith [this.1, hm0.1])
        · first
            | (simpa using hc)
            | (exfalso; linarith [this.2, hm0.2])
    rw [he] at hk
    have := mask_dropped la (fun _ => -1) (fun _ => 1) (exPos, 1 / 100) [(exLin4 1 0, 1 / 100), (exLin4 2 0, 1 / 100), (exLin4 3 1, 1 / 100)] exSpot h1
    simp only [if_true] at hk
    rw [this] at hk
    cases hk

end YRoots.Legacy
