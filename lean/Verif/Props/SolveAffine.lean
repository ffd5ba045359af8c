import Verif.Props.SolverAffine
import Verif.Props.SolvePoly
import Verif.Props.Polynomial

/-!
# C94: `solve` on affine systems

The whole run of `Combined_Solver.solve` on affine functions: approximation, subdivision solver (C93), transformation back to the box.
-/

namespace YRoots

open Finset

section General

variable {n : ℕ} {K : Type*} [Field K] [LinearOrder K] [IsStrictOrderedRing K] [FloorSemiring K]

theorem getD_finRange {α : Type*} (g : Fin n → α) (d : α) (i : Fin n) : ((List.finRange n).map g).getD i d = g i := by
  simp [List.getD]

/-- The coefficients of an affine array from its values on the cube. -/
theorem linMat_of_eval {Ms : Fin n → Tensor n K} (hM : ∀ i, Affine (Ms i)) {c : Fin n → K} {A : Matrix (Fin n) (Fin n) K} {a b : Fin n → K}
    (hv : ∀ i x, InCube x → (Ms i).eval x = c i + ∑ j, A i j * transformPt x a b j) :
    linMat Ms = Matrix.of fun i j => A i j * ((b j - a j) / 2) := by
  ext i j
  have h0 := hv i (fun _ => 0) (fun _ => by norm_num)
  have h1 := hv i (Pi.single j 1) (fun l => by
    by_cases h : l = j
    · subst h; simp
    · rw [Pi.single_eq_of_ne h]; norm_num)
  rw [(hM i).eval] at h0 h1
  simp only [mul_zero, sum_const_zero, add_zero] at h0
  have h2 : ∑ l, linCoef (Ms i) l * (Pi.single j 1 : Fin n → K) l = linCoef (Ms i) j := by
    rw [sum_eq_single j]
    · simp
    · intro l _ hl
      rw [Pi.single_eq_of_ne hl, mul_zero]
    · simp
  have h3 : ∑ l, A i l * transformPt (Pi.single j 1) a b l = ∑ l, A i l * transformPt (fun _ => 0) a b l + A i j * ((b j - a j) / 2) := by
    rw [← add_sum_erase univ _ (mem_univ j), ← add_sum_erase univ (fun l => A i l * transformPt (fun _ => 0) a b l) (mem_univ j)]
    have : ∑ l ∈ univ.erase j, A i l * transformPt (Pi.single j 1) a b l = ∑ l ∈ univ.erase j, A i l * transformPt (fun _ => 0) a b l := by
      refine sum_congr rfl fun l hl => ?_
      simp only [transformPt]
      rw [Pi.single_eq_of_ne (ne_of_mem_erase hl)]
    rw [this]
    simp only [transformPt, Pi.single_eq_same]
    ring
  rw [h2, h3, h0] at h1
  show linCoef (Ms i) j = A i j * ((b j - a j) / 2)
  linear_combination h1

/-- Only the approximations on the box matter. -/
theorem solve_core (env : Env n K) (la : LinAlg n K) (hok : env.OK la false) (approx : Approximator n K) (funcs : Fin n → Func n K)
    (exact : Bool) (minSize : K) (fuel : ℕ) (hfuel : 6 ≤ fuel) (a b : Fin n → K) (hab : ∀ j, a j < b j)
    (A G : Matrix (Fin n) (Fin n) K) (hG : G * A = 1) (c : Fin n → K)
    (y : Fin n → K) (hy : ∀ i, c i + ∑ j, A i j * y j = 0) (Ms : Fin n → Tensor n K) (e : Fin n → K)
    (happ : ∀ i, approxOne approx (funcs i) a b = .ok (Ms i, e i)) (hM : ∀ i, Affine (Ms i))
    (hv : ∀ i x, InCube x → (Ms i).eval x = c i + ∑ j, A i j * transformPt x a b j) (he : ∀ i, 0 ≤ e i)
    (w : Fin n → K) (hw : ∀ j, w j = ∑ k, |G j k| * e k + (b j - a j) / 2 ^ 52) (hin : ∀ j, a j ≤ y j - w j ∧ y j + w j ≤ b j)
    (hvol : ∏ j, 2 * w j < 99 / 100 * ∏ j, (b j - a j)) (hmin : ∃ j, 2 * w j ≤ minSize * max (max |a j| |b j|) 1)
    (hwc : env.svd.wellConditioned (equil (Matrix.of fun i j => A i j * ((b j - a j) / 2))) = true)
    (hwc' : env.svd.wellConditioned (equil (Matrix.of fun i j => A i j * w j)) = true) :
    solve env approx funcs exact minSize fuel a b = .ok ([y], [⟨fun j => y j - w j, fun j => y j + w j⟩]) := by
  obtain ⟨fuel, rfl⟩ : ∃ f, fuel = f + 1 := ⟨fuel - 1, by omega⟩
  have hd : ∀ j, 0 < b j - a j := fun j => sub_pos.2 (hab j)
  have hlin : linMat Ms = Matrix.of fun i j => A i j * ((b j - a j) / 2) :=
    linMat_of_eval hM (c := c) (a := a) (b := b) hv
  set z : Fin n → K := fun j => (2 * y j - (b j + a j)) / (b j - a j) with hz
  have htz : transformPt z a b = y := by
    funext j
    simp only [transformPt, hz]
    have := (hd j).ne'
    field_simp
    ring
  have hzc : ∀ j, |z j| ≤ 1 := by
    intro j
    have h1 := hin j
    have h2 : 0 ≤ w j := by
      rw [hw]
      exact add_nonneg (sum_nonneg fun k _ => mul_nonneg (abs_nonneg _) (he k)) (div_nonneg (hd j).le (by positivity))
    rw [hz]
    simp only
    rw [abs_div, abs_of_pos (hd j), div_le_one (hd j), abs_le]
    constructor <;> linarith [h1.1, h1.2, hd j]
  set h : Fin n → K := fun j => 2 * w j / (b j - a j) with hh
  set B : Matrix (Fin n) (Fin n) K := Matrix.of fun i j => 2 * G i j / (b i - a i) with hB
  have hBM : B * linMat Ms = 1 := by
    ext i j
    have h3 := congrFun (congrFun hG i) j
    rw [hlin]
    rw [Matrix.mul_apply] at h3 ⊢
    have : ∀ k, B i k * (Matrix.of fun i j => A i j * ((b j - a j) / 2)) k j = G i k * A k j * ((b j - a j) / (b i - a i)) := by
      intro k
      simp only [hB, Matrix.of_apply]
      ring
    simp only [this]
    rw [← sum_mul, h3]
    by_cases hij : i = j
    · subst hij
      rw [div_self (hd i).ne', mul_one]
    · simp [hij]
  have hmat : (Matrix.of fun i j => linMat Ms i j * h j) = Matrix.of fun i j => A i j * w j := by
    ext i j
    rw [hlin]
    simp only [Matrix.of_apply, hh]
    have := (hd j).ne'
    field_simp
  obtain ⟨t, ht, htF⟩ := C93_affine_root env la exact true true false hok fuel (by omega) Ms e hM he B hBM z
    (fun i => by rw [hv i z hzc, htz, hy]) h (fun j => by
      simp only [hh, hB, Matrix.of_apply, hw, abs_div, abs_mul, abs_of_pos (hd j), abs_two]
      have h1 := (hd j).ne'
      have : ∑ k, 2 * |G j k| / (b j - a j) * e k = 2 * (∑ k, |G j k| * e k) / (b j - a j) := by
        rw [mul_sum, sum_div]
        exact sum_congr rfl fun k _ => by ring
      rw [this]
      field_simp) (fun j => by
      have h1 := hin j
      have h2 : |z j| * (b j - a j) = |2 * y j - (b j + a j)| := by
        rw [hz]
        simp only
        rw [abs_div, abs_of_pos (hd j), div_mul_cancel₀ _ (hd j).ne']
      have h3 : (|z j| + h j) * (b j - a j) ≤ 1 * (b j - a j) := by
        rw [add_mul, h2]
        simp only [hh]
        rw [div_mul_cancel₀ _ (hd j).ne', one_mul]
        have : |2 * y j - (b j + a j)| ≤ b j - a j - 2 * w j := abs_le.2 ⟨by linarith, by linarith⟩
        linarith
      exact le_of_mul_le_mul_right h3 (hd j)) (by
      simp only [hh]
      rw [prod_div_distrib, div_lt_iff₀ (prod_pos fun j _ => hd j)]
      exact hvol) (by rw [hlin]; exact hwc) (by rw [hmat]; exact hwc')
  have hlo : transformPt t.getFinalInterval.lo a b = fun j => y j - w j := by
    rw [htF]
    funext j
    simp only [transformPt, hz, hh]
    have := (hd j).ne'
    field_simp
    ring
  have hhi : transformPt t.getFinalInterval.hi a b = fun j => y j + w j := by
    rw [htF]
    funext j
    simp only [transformPt, hz, hh]
    have := (hd j).ne'
    field_simp
    ring
  have hwhole : wholeBox [t] a b minSize = false := by
    unfold wholeBox
    simp only [Bool.and_eq_false_iff, decide_eq_false_iff_not]
    left
    intro hc
    have h1 : ∀ j, 2 * w j = b j - a j := by
      intro j
      have h2 := hc j
      unfold TrackedInterval.finalDimSize at h2
      rw [htF] at h2
      simp only [hh] at h2
      have h3 := (hd j).ne'
      have h4 : 2 * w j / (b j - a j) = 1 := by linarith
      rwa [div_eq_one_iff_eq h3] at h4
    rw [prod_congr rfl fun j _ => h1 j] at hvol
    have := prod_pos fun (j : Fin n) (_ : j ∈ univ) => hd j
    linarith
  have hrep : reportedRoots t = [z] := by
    unfold solveChebyshevSubdivision at ht
    simp only at ht
    split at ht
    · cases ht
    · rename_i bb _
      simp only [Except.ok.injEq, Prod.mk.injEq] at ht
      obtain ⟨h1, h2⟩ := ht
      rw [h2] at h1
      simpa using h1
  have hps : (List.finRange n).mapM (fun i => approxOne approx (funcs i) a b) = .ok ((List.finRange n).map fun i => (Ms i, e i)) :=
    mapM_ok _ _ _ fun i _ => happ i
  have hnar : ¬ ∀ i, (y i + w i) - (y i - w i) > minSize * max (max |a i| |b i|) 1 := by
    intro hc
    obtain ⟨j, hj⟩ := hmin
    have := hc j
    linarith
  have hfin : finishBox (solve env approx funcs exact minSize fuel) a b minSize t =
      .ok ([y], [⟨fun j => y j - w j, fun j => y j + w j⟩]) := by
    unfold finishBox
    simp only [hlo, hhi]
    rw [if_neg hnar]
    unfold reportedRoots at hrep
    split_ifs at hrep ⊢ with h1
    · rw [hrep]
      simp only [List.map_cons, List.map_nil, htz]
    · rw [List.cons.injEq] at hrep
      rw [hrep.1, htz]
  unfold solve
  rw [if_neg (by push Not; exact fun i => (hab i).le), hps]
  simp only [getD_finRange, ht, hwhole, Bool.false_eq_true, if_false, List.mapM_cons, List.mapM_nil, hfin]
  simp [stack, bind, Except.bind, pure, Except.pure]

/-- **C94**: `solve` on the system `c i + ∑ j, A i j * x j`.  `G` is the inverse of `A`, `y` the zero; `Ms` and `e` are the approximations and
errors used on the box `[a,b]`, which must be affine and exact with nonnegative errors.  Let `w j = ∑ k, |G j k| * e k + (b j - a j) / 2^52`.  If the box with
half-widths `w` around `y` lies in `[a,b]` and has less than 99% of its volume, is narrow enough in one direction that it is not solved
again, and the two matrices are well conditioned, then `solve` returns exactly the root `y` and this box. -/
theorem C94_solve (env : Env n K) (la : LinAlg n K) (hok : env.OK la false) (approx : Approximator n K) (funcs : Fin n → Func n K)
    (exact : Bool) (minSize : K) (fuel : ℕ) (hfuel : 6 ≤ fuel) (a b : Fin n → K) (hab : ∀ j, a j < b j)
    (A G : Matrix (Fin n) (Fin n) K) (hG : G * A = 1) (c : Fin n → K) (hf : ∀ i x, (funcs i).value x = c i + ∑ j, A i j * x j)
    (y : Fin n → K) (hy : ∀ i, (funcs i).value y = 0) (Ms : Fin n → Tensor n K) (e : Fin n → K)
    (happ : ∀ i, approxOne approx (funcs i) a b = .ok (Ms i, e i)) (hM : ∀ i, Affine (Ms i))
    (hv : ∀ i x, InCube x → (Ms i).eval x = (funcs i).value (transformPt x a b)) (he : ∀ i, 0 ≤ e i)
    (w : Fin n → K) (hw : ∀ j, w j = ∑ k, |G j k| * e k + (b j - a j) / 2 ^ 52) (hin : ∀ j, a j ≤ y j - w j ∧ y j + w j ≤ b j)
    (hvol : ∏ j, 2 * w j < 99 / 100 * ∏ j, (b j - a j)) (hmin : ∃ j, 2 * w j ≤ minSize * max (max |a j| |b j|) 1)
    (hwc : env.svd.wellConditioned (equil (Matrix.of fun i j => A i j * ((b j - a j) / 2))) = true)
    (hwc' : env.svd.wellConditioned (equil (Matrix.of fun i j => A i j * w j)) = true) :
    solve env approx funcs exact minSize fuel a b = .ok ([y], [⟨fun j => y j - w j, fun j => y j + w j⟩]) :=
  solve_core env la hok approx funcs exact minSize fuel hfuel a b hab A G hG c y (fun i => by rw [← hf, hy]) Ms e happ hM
    (fun i x hx => by rw [hv i x hx, hf]) he w hw hin hvol hmin hwc hwc'

/-- **C94**, the zero is outside of the box by more than `w` in some direction: nothing is returned. -/
theorem C94_none (env : Env n K) (hsvd : env.svd.Valid) (approx : Approximator n K) (funcs : Fin n → Func n K)
    (exact : Bool) (minSize : K) (fuel : ℕ) (hfuel : 3 ≤ fuel) (a b : Fin n → K) (hab : ∀ j, a j < b j)
    (A G : Matrix (Fin n) (Fin n) K) (hG : G * A = 1) (c : Fin n → K) (hf : ∀ i x, (funcs i).value x = c i + ∑ j, A i j * x j)
    (y : Fin n → K) (hy : ∀ i, (funcs i).value y = 0) (Ms : Fin n → Tensor n K) (e : Fin n → K)
    (happ : ∀ i, approxOne approx (funcs i) a b = .ok (Ms i, e i)) (hM : ∀ i, Affine (Ms i))
    (hv : ∀ i x, InCube x → (Ms i).eval x = (funcs i).value (transformPt x a b)) (he : ∀ i, 0 ≤ e i)
    (w : Fin n → K) (hw : ∀ j, w j = ∑ k, |G j k| * e k + (b j - a j) / 2 ^ 52) (hout : ∃ j, y j + w j < a j ∨ b j < y j - w j)
    (hwc : env.svd.wellConditioned (equil (Matrix.of fun i j => A i j * ((b j - a j) / 2))) = true) :
    solve env approx funcs exact minSize fuel a b = .ok ([], []) := by
  obtain ⟨fuel, rfl⟩ : ∃ f, fuel = f + 1 := ⟨fuel - 1, by omega⟩
  have hd : ∀ j, 0 < b j - a j := fun j => sub_pos.2 (hab j)
  have hlin : linMat Ms = Matrix.of fun i j => A i j * ((b j - a j) / 2) :=
    linMat_of_eval hM (c := c) (a := a) (b := b) fun i x hx => by rw [hv i x hx, hf]
  set z : Fin n → K := fun j => (2 * y j - (b j + a j)) / (b j - a j) with hz
  have htz : transformPt z a b = y := by
    funext j
    simp only [transformPt, hz]
    have := (hd j).ne'
    field_simp
    ring
  have hconst : ∀ i, (Ms i).const = c i + ∑ j, A i j * ((b j + a j) / 2) := by
    intro i
    have h0 := hv i (fun _ => 0) (fun _ => by norm_num)
    rw [(hM i).eval, hf] at h0
    simpa [transformPt] using h0
  have hzero : ∀ i, (Ms i).eval z = 0 := by
    intro i
    rw [(hM i).eval, hconst, ← hy i, hf, add_assoc, ← sum_add_distrib, ← htz]
    congr 1
    refine sum_congr rfl fun j _ => ?_
    have := congrFun (congrFun hlin i) j
    change linCoef (Ms i) j = A i j * ((b j - a j) / 2) at this
    rw [this]
    simp only [transformPt]
    ring
  set B : Matrix (Fin n) (Fin n) K := Matrix.of fun i j => 2 * G i j / (b i - a i) with hB
  have hBM : B * linMat Ms = 1 := by
    ext i j
    have h3 := congrFun (congrFun hG i) j
    rw [hlin]
    rw [Matrix.mul_apply] at h3 ⊢
    have : ∀ k, B i k * (Matrix.of fun i j => A i j * ((b j - a j) / 2)) k j = G i k * A k j * ((b j - a j) / (b i - a i)) := by
      intro k
      simp only [hB, Matrix.of_apply]
      ring
    simp only [this]
    rw [← sum_mul, h3]
    by_cases hij : i = j
    · subst hij
      rw [div_self (hd i).ne', mul_one]
    · simp [hij]
  have ht := C93_affine_none env hsvd exact true true false fuel (by omega) Ms e hM he B hBM z hzero (by
    obtain ⟨j, hj⟩ := hout
    refine ⟨j, ?_⟩
    have h1 : ∑ k, |B j k| * e k + 1 / 2 ^ 51 = 2 * w j / (b j - a j) := by
      simp only [hB, Matrix.of_apply, hw, abs_div, abs_mul, abs_of_pos (hd j), abs_two]
      have h1 := (hd j).ne'
      have : ∑ k, 2 * |G j k| / (b j - a j) * e k = 2 * (∑ k, |G j k| * e k) / (b j - a j) := by
        rw [mul_sum, sum_div]
        exact sum_congr rfl fun k _ => by ring
      rw [this]
      field_simp
    rw [add_assoc, h1, hz]
    simp only
    rw [abs_div, abs_of_pos (hd j), lt_div_iff₀ (hd j), add_mul, one_mul, div_mul_cancel₀ _ (hd j).ne', lt_abs]
    rcases hj with hj | hj
    · right
      linarith
    · left
      linarith) (by rw [hlin]; exact hwc)
  have hps : (List.finRange n).mapM (fun i => approxOne approx (funcs i) a b) = .ok ((List.finRange n).map fun i => (Ms i, e i)) :=
    mapM_ok _ _ _ fun i _ => happ i
  unfold solve
  rw [if_neg (by push Not; exact fun i => (hab i).le), hps]
  simp only [getD_finRange, ht, wholeBox, Bool.false_eq_true, if_false, List.mapM_nil]
  simp [stack, pure, Except.pure]

theorem unitBox_cube : unitBox (fun _ : Fin n => (-1 : K)) (fun _ => 1) = true := by
  simp [unitBox, closeTo]
  norm_num

/-- `2x - 3` on `[-1,1]`, any approximator (the arrays of polynomials are used as they are). -/
example (approx : Approximator 1 ℚ) (fuel : ℕ) (hf : 3 ≤ fuel) :
    solve exEnv approx (fun _ => .cheb (lin1 (-3) 2)) false (1 / 10 ^ 5) fuel (fun _ => -1) (fun _ => 1) = .ok ([], []) :=
  C94_none exEnv (exEnv_ok false).svd approx _ false _ fuel hf _ _ (fun _ => by norm_num) (Matrix.of fun _ _ => 2) (Matrix.of fun _ _ => 1 / 2) (by decide +kernel)
    (fun _ => -3) (fun _ x => by show (lin1 (-3) 2).eval x = _; rw [lin1_eval]; simp) (fun _ => 3 / 2) (fun _ => by show (lin1 (-3) 2).eval _ = _; rw [lin1_eval]; norm_num)
    (fun _ => lin1 (-3) 2) (fun _ => 1 / 2 ^ 52) (fun _ => by unfold approxOne; rw [unitBox_cube]) (fun _ => lin1_affine _ _)
    (fun _ x _ => by
      show (lin1 (-3) 2).eval x = (lin1 (-3) 2).eval _
      congr 1
      funext j
      simp only [transformPt]
      ring) (fun _ => by norm_num) (fun _ => 1 / 2 * (1 / 2 ^ 52) + 2 / 2 ^ 52) (by decide +kernel) ⟨0, by norm_num⟩ (by decide +kernel)

theorem solve_unit (env : Env n K) (la : LinAlg n K) (hok : env.OK la false) (approx : Approximator n K) (funcs : Fin n → Func n K)
    (Ms : Fin n → Tensor n K) (happ : ∀ i, approxOne approx (funcs i) (fun _ => -1) (fun _ => 1) = .ok (Ms i, 1 / 2 ^ 52))
    (hM : ∀ i, Affine (Ms i)) (hval : ∀ i x, (funcs i).value x = (Ms i).eval x) (exact : Bool) (minSize : K) (fuel : ℕ) (hfuel : 6 ≤ fuel)
    (G : Matrix (Fin n) (Fin n) K) (hG : G * linMat Ms = 1)
    (y : Fin n → K) (hy : ∀ i, (Ms i).eval y = 0) (w : Fin n → K) (hw : ∀ j, w j = (∑ k, |G j k| + 2) / 2 ^ 52)
    (hin : ∀ j, |y j| + w j ≤ 1) (hvol : ∏ j, w j < 99 / 100) (hmin : ∃ j, 2 * w j ≤ minSize)
    (hwc : env.svd.wellConditioned (equil (linMat Ms)) = true)
    (hwc' : env.svd.wellConditioned (equil (Matrix.of fun i j => linMat Ms i j * w j)) = true) :
    solve env approx funcs exact minSize fuel (fun _ => -1) (fun _ => 1) = .ok ([y], [⟨fun j => y j - w j, fun j => y j + w j⟩]) := by
  have ht : ∀ x : Fin n → K, transformPt x (fun _ => -1) (fun _ => 1) = x := fun x => by
    funext j
    simp only [transformPt]
    ring
  have hone : (fun i j => linMat Ms i j * (((1 : K) - -1) / 2)) = fun i j => linMat Ms i j := by
    funext i j
    ring
  refine C94_solve env la hok approx funcs exact minSize fuel hfuel _ _ (fun _ => by norm_num) (linMat Ms) G hG (fun i => (Ms i).const) (fun i x => ?_) y
    (fun i => by rw [hval, hy]) Ms
    (fun _ => 1 / 2 ^ 52) happ hM (fun i x _ => ?_) (fun _ => by positivity) w (fun j => ?_) (fun j => ?_) ?_ ?_ ?_ hwc'
  · rw [hval]
    exact (hM i).eval x
  · rw [ht, hval]
  · rw [hw, ← sum_mul]
    norm_num
    ring
  · have h1 := abs_le.1 (le_sub_iff_add_le.2 (hin j))
    constructor <;> linarith [h1.1, h1.2]
  · have h1 : ∏ j : Fin n, 2 * w j = 2 ^ n * ∏ j, w j := by
      rw [prod_mul_distrib, prod_const, card_univ, Fintype.card_fin]
    have h2 : ∏ _j : Fin n, ((1 : K) - -1) = 2 ^ n := by
      rw [prod_const, card_univ, Fintype.card_fin]
      norm_num
    rw [h1, h2]
    have : (0 : K) < 2 ^ n := by positivity
    nlinarith
  · obtain ⟨j, hj⟩ := hmin
    refine ⟨j, ?_⟩
    norm_num
    exact hj
  · rw [hone]
    exact hwc

/-- **C94**, polynomial objects in the Chebyshev basis: on the cube `[-1,1]^n` their arrays are used as they are, with error `2^-52`. -/
theorem C94_chebyshev_unit (env : Env n K) (la : LinAlg n K) (hok : env.OK la false) (approx : Approximator n K) (Ms : Fin n → Tensor n K)
    (hM : ∀ i, Affine (Ms i)) (exact : Bool) (minSize : K) (fuel : ℕ) (hfuel : 6 ≤ fuel) (G : Matrix (Fin n) (Fin n) K) (hG : G * linMat Ms = 1)
    (y : Fin n → K) (hy : ∀ i, (Ms i).eval y = 0) (w : Fin n → K) (hw : ∀ j, w j = (∑ k, |G j k| + 2) / 2 ^ 52)
    (hin : ∀ j, |y j| + w j ≤ 1) (hvol : ∏ j, w j < 99 / 100) (hmin : ∃ j, 2 * w j ≤ minSize)
    (hwc : env.svd.wellConditioned (equil (linMat Ms)) = true)
    (hwc' : env.svd.wellConditioned (equil (Matrix.of fun i j => linMat Ms i j * w j)) = true) :
    solve env approx (fun i => .cheb (Ms i)) exact minSize fuel (fun _ => -1) (fun _ => 1) =
      .ok ([y], [⟨fun j => y j - w j, fun j => y j + w j⟩]) :=
  solve_unit env la hok approx _ Ms (fun i => by unfold approxOne; rw [unitBox_cube]) hM (fun _ _ => rfl) exact minSize fuel hfuel G hG y hy w hw hin hvol hmin
    hwc hwc'

end General

/-! ### Reals: power basis and callables -/

section Real

variable {n : ℕ}

/-- An array with the values of an affine function has no coefficients of total degree above one. -/
theorem affine_of_eval {M : Tensor n ℝ} (h0 : M.Nonempty) {r : ℝ} {p : Fin n → ℝ} (hv : ∀ x, InCube x → M.eval x = r + ∑ i, p i * x i) : Affine M := by
  refine ⟨h0, fun k hk h2 => ?_⟩
  set N : Fin n → ℕ := fun i => max 1 (M.shape i - 1) with hN
  have hN1 : ∀ i, 1 ≤ N i := fun i => le_max_left _ _
  have hsub : M.idx ⊆ gridIdx N := by
    intro m hm
    rw [mem_gridIdx]
    intro i
    have := (mem_idx_iff M m).1 hm i
    simp only [hN]
    omega
  set v : (Fin n → ℕ) → ℝ := fun j => M.eval fun i => chebPt (N i) (j i) with hvd
  set c' : (Fin n → ℕ) → ℝ := fun m => if m ∈ M.idx then M.coef m else 0 with hc'
  have h1 := fullCoef_recover N hN1 c' v (fun j _ => by
    simp only [hvd, hc', Tensor.eval, ite_mul, zero_mul]
    rw [← sum_filter, filter_mem_eq_inter, inter_eq_right.2 hsub]) k (hsub hk)
  set c : (Fin n → ℕ) → ℝ := fun m => (if m = 0 then r else 0) + ∑ i, if m = Pi.single i 1 then p i else 0 with hc
  have h2' := fullCoef_recover N hN1 c v (fun j _ => by
    have e' : v j = r + ∑ i, p i * chebPt (N i) (j i) := hv _ fun i => abs_le.2 ⟨Real.neg_one_le_cos _, Real.cos_le_one _⟩
    have hz : (0 : Fin n → ℕ) ∈ gridIdx N := by rw [mem_gridIdx]; simp
    have hs : ∀ i : Fin n, (Pi.single i 1 : Fin n → ℕ) ∈ gridIdx N := by
      intro i
      rw [mem_gridIdx]
      intro l
      by_cases h : l = i
      · subst h; simpa using hN1 l
      · rw [Pi.single_eq_of_ne h]; omega
    rw [e']
    simp only [hc, add_mul, sum_add_distrib, ite_mul, zero_mul, sum_mul]
    rw [sum_ite_eq' (gridIdx _) (0 : Fin n → ℕ), if_pos hz, sum_comm]
    have : ∀ i : Fin n, ∑ m ∈ gridIdx N, (if m = Pi.single i 1 then p i * ∏ l, chebT (m l) (chebPt (N l) (j l)) else 0) =
        p i * chebPt (N i) (j i) := by
      intro i
      rw [sum_ite_eq' (gridIdx _) (Pi.single i 1 : Fin n → ℕ), if_pos (hs i)]
      congr 1
      rw [Finset.prod_eq_single i]
      · rw [Pi.single_eq_same]; exact chebT_one _
      · intro l _ hl
        rw [Pi.single_eq_of_ne hl]; exact chebT_zero _
      · simp
    rw [sum_congr rfl fun i _ => this i]
    simp only [Pi.zero_apply, chebT_zero, prod_const_one, mul_one]) k (hsub hk)
  have h3 : c' k = M.coef k := if_pos hk
  rw [← h3, ← h1, h2', hc]
  have hk0 : k ≠ 0 := by rintro rfl; simp at h2
  have hk1 : ∀ i, k ≠ Pi.single i 1 := by rintro i rfl; simp at h2
  simp [hk0, hk1]

/-- **C94**, callables: the approximation of an affine function by `chebApproximate` is as `C94_solve` needs it whenever the degrees found are
at least one in the directions in which the function is not constant. -/
theorem C94_callable (env : Env n ℝ) (la : LinAlg n ℝ) (hok : env.OK la false) (fuel' : ℕ) (rtol : ℝ)
    (exact : Bool) (minSize : ℝ) (fuel : ℕ) (hfuel : 6 ≤ fuel) (a b : Fin n → ℝ) (hab : ∀ j, a j < b j)
    (A G : Matrix (Fin n) (Fin n) ℝ) (hG : G * A = 1) (c y : Fin n → ℝ) (hy : ∀ i, c i + ∑ j, A i j * y j = 0) (Ms : Fin n → Tensor n ℝ) (e : Fin n → ℝ)
    (happ : ∀ i, chebApproximate fuel' (fun x => c i + ∑ j, A i j * x j) a b rtol = .ok (Ms i, e i))
    (hdeg : ∀ i j, 0 < (Ms i).shape j ∧ (A i j ≠ 0 → 2 ≤ (Ms i).shape j)) (he : ∀ i, 0 ≤ e i)
    (w : Fin n → ℝ) (hw : ∀ j, w j = ∑ k, |G j k| * e k + (b j - a j) / 2 ^ 52) (hin : ∀ j, a j ≤ y j - w j ∧ y j + w j ≤ b j)
    (hvol : ∏ j, 2 * w j < 99 / 100 * ∏ j, (b j - a j)) (hmin : ∃ j, 2 * w j ≤ minSize * max (max |a j| |b j|) 1)
    (hwc : env.svd.wellConditioned (equil (Matrix.of fun i j => A i j * ((b j - a j) / 2))) = true)
    (hwc' : env.svd.wellConditioned (equil (Matrix.of fun i j => A i j * w j)) = true) :
    solve env (chebApproximator fuel' rtol) (fun i => .call fun x => c i + ∑ j, A i j * x j) exact minSize fuel a b =
      .ok ([y], [⟨fun j => y j - w j, fun j => y j + w j⟩]) := by
  have hv : ∀ i x, (Ms i).eval x = c i + ∑ j, A i j * transformPt x a b j := by
    intro i x
    set p : MvPolynomial (Fin n) ℝ := MvPolynomial.C (c i) + ∑ j, MvPolynomial.C (A i j) * MvPolynomial.X j with hp
    have hfun : (fun x : Fin n → ℝ => c i + ∑ j, A i j * x j) = fun x => MvPolynomial.eval x p := by
      funext x
      simp [hp]
    have happ' := happ i
    rw [hfun] at happ'
    rw [C38_exact_partial p a b rtol fuel' (Ms i) (e i) happ' (fun j => ?_) x]
    · simp [hp, transformPt]
    · have h1 : p.degreeOf j ≤ if A i j = 0 then 0 else 1 := by
        refine (MvPolynomial.degreeOf_add_le _ _ _).trans (max_le (by simp) ((MvPolynomial.degreeOf_sum_le _ _ _).trans (Finset.sup_le fun l _ => ?_)))
        by_cases hA : A i l = 0
        · simp [hA]
        · refine (MvPolynomial.degreeOf_C_mul_le _ _ _).trans ?_
          rw [MvPolynomial.degreeOf_X]
          by_cases hjl : j = l
          · subst hjl; simp [hA]
          · simp [hjl]
      have h2 := hdeg i j
      split_ifs at h1 with h3
      · omega
      · have := h2.2 h3
        omega
  refine C94_solve env la hok (chebApproximator fuel' rtol) (fun i => .call fun x => c i + ∑ j, A i j * x j) exact minSize fuel hfuel a b hab A G hG c
    (fun _ _ => rfl) y hy Ms e happ (fun i => affine_of_eval (fun j => (hdeg i j).1) (r := c i + ∑ j, A i j * ((b j + a j) / 2))
      (p := fun j => A i j * ((b j - a j) / 2)) fun x _ => ?_) (fun i x _ => hv i x) he w hw hin hvol hmin hwc hwc'
  rw [hv, add_assoc, ← sum_add_distrib]
  congr 1
  refine sum_congr rfl fun j _ => ?_
  simp only [transformPt]
  ring

/-- **C94**, power basis on the cube: the arrays are converted to the Chebyshev basis, with error `2^-52`. -/
theorem C94_power_unit (env : Env n ℝ) (la : LinAlg n ℝ) (hok : env.OK la false) (approx : Approximator n ℝ) (Ms : Fin n → Tensor n ℝ)
    (h0 : ∀ i, (Ms i).Nonempty) (A G : Matrix (Fin n) (Fin n) ℝ) (hG : G * A = 1) (c : Fin n → ℝ)
    (hM : ∀ i x, (Ms i).evalPow x = c i + ∑ j, A i j * x j) (exact : Bool) (minSize : ℝ) (fuel : ℕ) (hfuel : 6 ≤ fuel)
    (y : Fin n → ℝ) (hy : ∀ i, (Ms i).evalPow y = 0) (w : Fin n → ℝ) (hw : ∀ j, w j = (∑ k, |G j k| + 2) / 2 ^ 52)
    (hin : ∀ j, |y j| + w j ≤ 1) (hvol : ∏ j, w j < 99 / 100) (hmin : ∃ j, 2 * w j ≤ minSize)
    (hwc : env.svd.wellConditioned (equil A) = true)
    (hwc' : env.svd.wellConditioned (equil (Matrix.of fun i j => A i j * w j)) = true) :
    solve env approx (fun i => .power (Ms i)) exact minSize fuel (fun _ => -1) (fun _ => 1) =
      .ok ([y], [⟨fun j => y j - w j, fun j => y j + w j⟩]) := by
  have hT : ∀ i, Affine (toCheb (Ms i)) := fun i => affine_of_eval (fun j => by rw [(C30_to_cheb (Ms i)).1]; exact h0 i j)
    fun x _ => ((C30_to_cheb (Ms i)).2 x).trans (hM i x)
  have hlin : linMat (fun i => toCheb (Ms i)) = A := by
    have hv : ∀ (i : Fin n) (x : Fin n → ℝ), InCube x → (toCheb (Ms i)).eval x = c i + ∑ j, A i j * transformPt x (fun _ => -1) (fun _ => 1) j := by
      intro i x _
      rw [(C30_to_cheb (Ms i)).2, hM i]
      congr 1
      refine sum_congr rfl fun j _ => ?_
      simp only [transformPt]
      ring
    rw [linMat_of_eval hT hv]
    ext i j
    rw [Matrix.of_apply]
    ring
  exact solve_unit env la hok approx (fun i => .power (Ms i)) (fun i => toCheb (Ms i)) (fun i => by unfold approxOne; rw [unitBox_cube]) hT
    (fun i x => ((C30_to_cheb (Ms i)).2 x).symm) exact minSize fuel hfuel G (by rw [hlin]; exact hG) y
    (fun i => by rw [(C30_to_cheb (Ms i)).2, hy]) w hw hin hvol hmin (by rw [hlin]; exact hwc) (by rw [hlin]; exact hwc')

/-! ### Examples -/

/-- Exact singular value decomposition of 1×1 matrices. -/
noncomputable def realSvd : SVD 1 ℝ where
  U A := fun _ _ => if A 0 0 < 0 then -1 else 1
  S A := fun _ => |A 0 0|
  Vh _ := 1

/-- No linear algebra is used in one variable by a quadratic check with exact answers. -/
noncomputable def realLA : LinAlg 1 ℝ where
  fullRank _ A := test (A 0 0 ≠ 0)
  solve _ A b := fun _ => b 0 / A 0 0

noncomputable def realEnv : Env 1 ℝ :=
  ⟨realSvd, fun l => List.range l.length, fun s => (List.finRange 1).filter (· ∈ s), quadraticCheck 1 realLA⟩

theorem realEnv_ok (all : Bool) : realEnv.OK realLA all where
  svd := by
    refine ⟨fun A i => abs_nonneg _, fun A i j _ => le_refl _, fun A _ => ?_, fun A _ => ?_, fun A _ => ?_⟩
    · ext i j
      rw [Subsingleton.elim i 0, Subsingleton.elim j 0, Matrix.mul_apply]
      rw [Fin.sum_univ_one, Matrix.transpose_apply, Matrix.one_apply_eq]
      change (if A 0 0 < 0 then (-1 : ℝ) else 1) * (if A 0 0 < 0 then (-1 : ℝ) else 1) = 1
      split_ifs <;> norm_num
    · simp [realEnv, realSvd]
    · ext i j
      rw [Subsingleton.elim i 0, Subsingleton.elim j 0]
      rw [show realEnv.svd.Vh A = 1 from rfl, Matrix.mul_one, Matrix.mul_diagonal]
      change A 0 0 = (if A 0 0 < 0 then (-1 : ℝ) else 1) * |A 0 0|
      split_ifs with h
      · rw [abs_of_neg h]; ring
      · rw [abs_of_nonneg (not_lt.1 h)]; ring
  argsort l := List.Perm.refl _
  setIter s := by
    constructor
    · exact List.Pairwise.filter _ (by decide)
    · intro d; simp [realEnv]
  quad := rfl
  linAlg S hS _ := by
    have hS1 : S = {0} := by
      obtain ⟨i, hi⟩ := hS
      ext j; rw [Subsingleton.elim j i, Subsingleton.elim (0 : Fin 1) i]; simp [hi]
    subst hS1
    have hd : ∀ A : Matrix (Fin 1) (Fin 1) ℝ,
        (A.submatrix (Subtype.val : ({0} : Finset (Fin 1)) → Fin 1) Subtype.val).det = A 0 0 := by
      intro A
      rw [Matrix.det_eq_elem_of_card_eq_one (by simp) ⟨0, by simp⟩]; rfl
    constructor
    · intro A; rw [hd]; simp [realLA]
    · intro A b h i hi
      rw [hd] at h
      rw [Subsingleton.elim i 0]
      simp only [Finset.sum_singleton, realLA]
      field_simp

theorem realSvd_wc {A : Matrix (Fin 1) (Fin 1) ℝ} (h : A 0 0 ≠ 0) : realEnv.svd.wellConditioned (equil A) = true := by
  have h1 : (equil A) 0 0 ≠ 0 := by
    unfold equil
    rw [Matrix.of_apply]
    exact mul_ne_zero (div_ne_zero h (rowScale_pos _).ne') (colS_pos A 0).ne'
  have h2 : 0 < |(equil A) 0 0| := abs_pos.2 h1
  unfold SVD.wellConditioned SVD.condNum
  rw [dif_pos (by norm_num), dif_pos (by norm_num), decide_eq_true_eq]
  change |(equil A) 0 0| > 0 ∧ |(equil A) 0 0| / |(equil A) 0 0| > 1 / 10 ^ 10
  rw [div_self h2.ne']
  exact ⟨h2, by norm_num⟩

/-- A complete run over the reals, approximation included: for `c ≥ 1`, `solve` returns the root 0 of the callable `c x` on `[-1,1]`. -/
example (c : ℝ) (hc : 1 ≤ c) (fuel : ℕ) (hf : 6 ≤ fuel) (exact : Bool) :
    ∃ w, 0 < w ∧ solve realEnv (chebApproximator 1 (1 / 10 ^ 10)) (fun _ => .call fun x => 0 + ∑ j, c * x j) exact (1 / 10 ^ 5) fuel (fun _ => -1) (fun _ => 1) =
      .ok ([fun _ => 0], [⟨fun _ => 0 - w, fun _ => 0 + w⟩]) := by
  have hc0 : 0 < c := by linarith
  obtain ⟨M, hM⟩ := linFun_run c hc0 1 le_rfl
  have hfun : (fun x : Fin 1 → ℝ => (0 : ℝ) + ∑ j, c * x j) = linFun c := by
    funext x
    simp [linFun]
  have hs : M.shape = fun _ => 2 := by
    have h1 := hM
    unfold chebApproximate at h1
    rw [if_neg (by simp), linFun_degrees c hc0 1 le_rfl] at h1
    simp only [Except.ok.injEq, Prod.mk.injEq] at h1
    rw [← h1.1]
    rfl
  set e : ℝ := 1 / (c / (2 / 2 ^ 52) - 1) * (2 / 2 ^ 52) with he
  have h1 : (2 : ℝ) ^ 50 ≤ c / (2 / 2 ^ 52) - 1 := by
    have : c / (2 / 2 ^ 52) = c * 2 ^ 51 := by ring
    rw [this]
    norm_num
    linarith
  have he0 : 0 ≤ e := mul_nonneg (div_nonneg zero_le_one ((by positivity : (0 : ℝ) ≤ 2 ^ 50).trans h1)) (by positivity)
  have he1 : e ≤ 1 / 2 ^ 50 := by
    have h2 : 1 / (c / (2 / 2 ^ 52) - 1) ≤ 1 / (2 : ℝ) ^ 50 := one_div_le_one_div_of_le (by positivity) h1
    calc e ≤ 1 / 2 ^ 50 * (2 / 2 ^ 52) := mul_le_mul_of_nonneg_right h2 (by positivity)
      _ ≤ 1 / 2 ^ 50 := by norm_num
  have hG : |1 / c| * e ≤ 1 / 2 ^ 50 := by
    have : |1 / c| ≤ 1 := by rw [abs_of_pos (by positivity), div_le_one hc0]; exact hc
    calc |1 / c| * e ≤ 1 * e := mul_le_mul_of_nonneg_right this he0
      _ ≤ _ := by linarith
  have hG0 : 0 ≤ |1 / c| * e := by positivity
  refine ⟨|1 / c| * e + 2 / 2 ^ 52, by positivity, ?_⟩
  refine C94_callable realEnv realLA (realEnv_ok false) 1 (1 / 10 ^ 10) exact (1 / 10 ^ 5) fuel hf _ _ (fun _ => by norm_num) (fun _ _ => c) (fun _ _ => 1 / c)
    ?_ (fun _ => 0) (fun _ => 0) (by simp) (fun _ => M) (fun _ => e) (fun _ => by rw [hfun]; exact hM) (fun _ _ => by rw [hs]; simp) (fun _ => he0)
    (fun _ => |1 / c| * e + 2 / 2 ^ 52) (fun _ => by simp; norm_num) (fun _ => ?_) ?_ ⟨0, ?_⟩ (realSvd_wc ?_) (realSvd_wc ?_)
  · show Matrix.of (fun _ _ : Fin 1 => 1 / c) * Matrix.of (fun _ _ : Fin 1 => c) = 1
    ext i j
    rw [Subsingleton.elim i 0, Subsingleton.elim j 0, Matrix.mul_apply, Matrix.one_apply_eq]
    simp [hc0.ne']
  · constructor <;> norm_num at hG hG0 ⊢ <;> linarith
  · simp only [univ_unique, prod_singleton]
    norm_num at hG hG0 ⊢
    linarith
  · norm_num at hG hG0 ⊢
    linarith
  · rw [Matrix.of_apply]
    norm_num
    exact hc0.ne'
  · rw [Matrix.of_apply]
    positivity

/-- Power basis: `-1 + 4 x` has the root `1/4`. -/
example (approx : Approximator 1 ℝ) (fuel : ℕ) (hf : 6 ≤ fuel) (exact : Bool) :
    solve realEnv approx (fun _ => .power ⟨fun _ => 2, fun k => if k 0 = 0 then -1 else 4⟩) exact (1 / 10 ^ 5) fuel (fun _ => -1) (fun _ => 1) =
      .ok ([fun _ => 1 / 4], [⟨fun _ => 1 / 4 - (1 / 4 + 2) / 2 ^ 52, fun _ => 1 / 4 + (1 / 4 + 2) / 2 ^ 52⟩]) := by
  have hM : ∀ x : Fin 1 → ℝ, (⟨fun _ => 2, fun k => if k 0 = 0 then -1 else 4⟩ : Tensor 1 ℝ).evalPow x = -1 + ∑ j, 4 * x j := by
    intro x
    have hi : ({fun _ => 0, fun _ => 1} : Finset (Fin 1 → ℕ)) = Fintype.piFinset fun _ => range 2 := by decide
    unfold Tensor.evalPow Tensor.idx
    rw [← hi, sum_pair (by intro h; have := congrFun h 0; simp at this)]
    simp
  refine C94_power_unit realEnv realLA (realEnv_ok false) approx (fun _ => ⟨fun _ => 2, fun k => if k 0 = 0 then -1 else 4⟩) (fun _ _ => by norm_num)
    (fun _ _ => 4) (fun _ _ => 1 / 4) ?_ (fun _ => -1) (fun _ => hM) exact _ fuel hf (fun _ => 1 / 4) (fun _ => ?_) (fun _ => (1 / 4 + 2) / 2 ^ 52)
    (fun _ => by norm_num) (fun _ => by norm_num) (by norm_num) ⟨0, by norm_num⟩ (realSvd_wc (by norm_num)) (realSvd_wc (by rw [Matrix.of_apply]; norm_num))
  · show Matrix.of (fun _ _ : Fin 1 => (1 : ℝ) / 4) * Matrix.of (fun _ _ : Fin 1 => (4 : ℝ)) = 1
    ext i j
    rw [Subsingleton.elim i 0, Subsingleton.elim j 0, Matrix.mul_apply, Matrix.one_apply_eq]
    norm_num
  · rw [hM]
    norm_num

/-- Two variables, Chebyshev basis: the system of the rotation (C93) with zero `(1/4, 1/2)`. -/
example (approx : Approximator 2 ℚ) (fuel : ℕ) (hf : 6 ≤ fuel) (exact : Bool) :
    solve exEnv2 approx (fun i => .cheb (exRotSys i)) exact (1 / 10 ^ 5) fuel (fun _ => -1) (fun _ => 1) =
      .ok ([![1 / 4, 1 / 2]], [⟨fun j => (![1 / 4, 1 / 2] : Fin 2 → ℚ) j - (7 / 5 + 2) / 2 ^ 52,
        fun j => (![1 / 4, 1 / 2] : Fin 2 → ℚ) j + (7 / 5 + 2) / 2 ^ 52⟩]) :=
  C94_chebyshev_unit exEnv2 _ exEnv2_ok approx exRotSys exRotSys_affine exact _ fuel hf !![3 / 5, 4 / 5; -4 / 5, 3 / 5] (by decide +kernel) _
    (fun i => by
      rw [(exRotSys_affine i).eval, Fin.sum_univ_two]
      revert i
      decide +kernel)
    (fun _ => (7 / 5 + 2) / 2 ^ 52) (by decide +kernel) (by decide +kernel) (by decide +kernel) ⟨0, by norm_num⟩ (by decide +kernel) (by decide +kernel)

end Real

end YRoots
