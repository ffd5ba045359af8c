import Verif.Proofs.SolverAffine
import Verif.Props.NoLostRootExample

/-!
# C93: the subdivision solver on affine systems

The whole run of `solveChebyshevSubdivision` on a system of affine polynomials: it returns (that is, the recursion and the loops end), with
exactly one root, the zero of the system, and one box, or with nothing if the zero is outside.
-/

namespace YRoots

open Finset

variable {n : ℕ} {K : Type*} [Field K] [LinearOrder K] [IsStrictOrderedRing K] [FloorSemiring K]

/-- Spec: the matrix of the linear coefficients. -/
def linMat (Ms : Fin n → Tensor n K) : Matrix (Fin n) (Fin n) K := Matrix.of fun i j => linCoef (Ms i) j

theorem affSys_of {Ms : Fin n → Tensor n K} (h : ∀ i, Affine (Ms i)) : AffSys Ms (linMat Ms) fun i => (Ms i).const :=
  fun i => ⟨h i, rfl, fun _ => rfl⟩

theorem zero_of_eval {Ms : Fin n → Tensor n K} (h : ∀ i, Affine (Ms i)) {z : Fin n → K} (hz : ∀ i, (Ms i).eval z = 0) (i : Fin n) :
    (Ms i).const + ∑ j, linMat Ms i j * z j = 0 := by
  rw [← hz i, (h i).eval]
  rfl

/-- **C93**: the zero `z` of an affine system is found.  `errors` are the given error bounds, `B` is the inverse of the matrix, so that the points at
which all polynomials are within the errors of zero fill a parallelepiped around `z` whose half-widths are `∑ k, |B j k| * errors k`.  If the
box with these half-widths plus `2^-51` around `z` lies in the cube and has less than 99% of its volume, and the matrices (scaled as the
code does) of the system on the cube and on this box are well conditioned, the run returns the root `z` (exactly) and this box. -/
theorem C93_affine_root (env : Env n K) (la : LinAlg n K) (exact constant_check low_dim all_dim : Bool) (hok : env.OK la all_dim)
    (fuel : ℕ) (hfuel : 5 ≤ fuel) (Ms : Fin n → Tensor n K) (errors : Fin n → K) (hM : ∀ i, Affine (Ms i)) (he : ∀ i, 0 ≤ errors i)
    (B : Matrix (Fin n) (Fin n) K) (hB : B * linMat Ms = 1) (z : Fin n → K) (hz : ∀ i, (Ms i).eval z = 0) (h : Fin n → K)
    (hh : ∀ j, h j = ∑ k, |B j k| * errors k + 1 / 2 ^ 51) (hin : ∀ j, |z j| + h j ≤ 1) (hvol : ∏ j, h j < 99 / 100)
    (hwc : env.svd.wellConditioned (equil (linMat Ms)) = true)
    (hwc' : env.svd.wellConditioned (equil (Matrix.of fun i j => linMat Ms i j * h j)) = true) :
    ∃ t, solveChebyshevSubdivision env fuel Ms errors exact constant_check low_dim all_dim = .ok ([z], [t]) ∧
      t.getFinalInterval = ⟨fun j => z j - h j, fun j => z j + h j⟩ := by
  have hm : (0 : K) < macheps := macheps_pos
  have hn := SVD.pos_of_wc hwc
  have hbw : h = boxWidth B errors := by
    funext j
    rw [hh, boxWidth, halfWidth]
    congr 1
    unfold macheps
    norm_num
  subst hbw
  have hA := affSys_of hM
  have hz' := zero_of_eval hM hz
  have hhw : ∀ j, 0 ≤ halfWidth B errors j := halfWidth_nonneg B he
  have hbp : ∀ j, 2 * macheps ≤ boxWidth B errors j := fun j => by unfold boxWidth; have := hhw j; linarith
  have hin' : ∀ j, |z j| < 1 := fun j => by have := hin j; have := hbp j; linarith
  obtain ⟨fuel, rfl⟩ : ∃ f, fuel = f + 1 := ⟨fuel - 1, by omega⟩
  set opts : Opts := ⟨exact, constant_check, low_dim, all_dim, 25, 0, true⟩ with hopts
  have hcc := constantCheck_affine hA hz' (fun j => (hin' j).le) he
  have hq : quadraticDiscard env { opts with level := 0 + 1, useFinalStep := true } Ms errors = false :=
    quadraticDiscard_affine (opts := { opts with level := 0 + 1, useFinalStep := true }) (la := la) hok hA hB hz' hin' he hn
  obtain ⟨T1, T2⟩ := hA.trim errors (1 / 10 ^ 3) 0
  have hp : (TrackedInterval.new (Box.unit n K)).isPoint = false := by
    unfold TrackedInterval.isPoint
    rw [decide_eq_false_iff_not]
    intro hc
    have := hc ⟨0, hn⟩
    simp only [TrackedInterval.new, Box.unit] at this
    norm_num at this
  have hcopy : (TrackedInterval.new (Box.unit n K)).copy = TrackedInterval.new (Box.unit n K) := rfl
  obtain ⟨r, hr, hrM, hrti, hrs, hre⟩ := zoomLoop_first hok.svd exact fuel (by omega) T1 hB hwc hwc' hz' he hin hvol
    (TrackedInterval.new (Box.unit n K)).dimSize
  set sub : Box n K := ⟨fun j => z j - boxWidth B errors j, fun j => z j + boxWidth B errors j⟩ with hsub
  have hso : sub.Ordered := fun j => by
    show z j - boxWidth B errors j ≤ z j + boxWidth B errors j
    have := hbp j
    linarith
  have hsw : sub.Within (Box.unit n K) := fun j => by
    have h1 := hin j
    have h3 := le_abs_self (z j)
    have h4 := neg_abs_le (z j)
    constructor
    · show -1 ≤ z j - boxWidth B errors j
      linarith
    · show z j + boxWidth B errors j ≤ 1
      linarith
  have hint : r.ti.interval = sub := by
    rw [hrti, TrackedInterval.applySub_interval _ _ hso hsw]
    show (⟨(Box.unit n K).map sub.lo, (Box.unit n K).map sub.hi⟩ : Box n K) = sub
    rw [TrackedInterval.unit_map, TrackedInterval.unit_map]
  have hrE : r.ti.empty = false := by rw [hrti]; rfl
  have hrF : r.ti.finalStep = false := by rw [hrti]; rfl
  have hB' : (Matrix.of fun i j => B i j / boxWidth B errors i) * (Matrix.of fun i j => linMat Ms i j * boxWidth B errors j) = 1 := by
    ext i j
    have h3 := congrFun (congrFun hB i) j
    rw [Matrix.mul_apply] at h3 ⊢
    have : ∀ k, (Matrix.of fun i j => B i j / boxWidth B errors i) i k * (Matrix.of fun i j => linMat Ms i j * boxWidth B errors j) k j =
        B i k * linMat Ms k j * (boxWidth B errors j / boxWidth B errors i) := by
      intro k
      simp only [Matrix.of_apply]
      ring
    simp only [this]
    rw [← sum_mul, h3]
    by_cases hij : i = j
    · subst hij
      rw [div_self (by have := hbp i; linarith), mul_one]
    · simp [hij]
  obtain ⟨b, s, hb, hbs, hsF, hsd, hsp, hsm⟩ := solve_final (env := env) (la := la) (opts := { opts with level := 0 + 1 }) hok fuel (by omega) hrM hB' hwc'
    (t := fun _ => 0) (by intro i; simp) (fun j => by rw [abs_zero]; unfold macheps; norm_num) hre r.ti.startFinalStep rfl hrE (by
      show r.ti.possibleDuplicateRoots = []
      rw [hrti]
      rfl) (fun j => by
      have e : r.ti.startFinalStep.dimSize j = 2 * boxWidth B errors j := by
        show r.ti.interval.hi j - r.ti.interval.lo j = _
        rw [hint]
        show z j + boxWidth B errors j - (z j - boxWidth B errors j) = _
        ring
      rw [e]
      have h1 := hbp j
      have h2 := hin j
      have h3 := abs_nonneg (z j)
      constructor <;> linarith)
  have hsol : solvePolyRecursive env (fuel + 1) opts Ms (TrackedInterval.new (Box.unit n K)) errors = .ok b := by
    unfold solvePolyRecursive
    have hr' : zoomLoop env.svd opts.exact opts.maxZoomCount fuel (trimMs Ms errors (1 / 10 ^ 3) 0).1 errors
        (TrackedInterval.new (Box.unit n K)) (TrackedInterval.new (Box.unit n K)).dimSize 0 = .ok r := hr
    have hu : opts.useFinalStep = true := rfl
    have hlev : opts.level = 0 := rfl
    simp only [hp, hcc, hq, Bool.and_false, Bool.false_eq_true, if_false, T2, hcopy, hr', hrE, hrs, hrF, hu, hlev, if_true, Bool.not_true,
      Bool.or_false]
    exact hb
  have hgood := (solve_struct env (fuel + 1) opts Ms _ errors Good.new hsol s (by rw [hbs]; simp)).good.tracks.final
  refine ⟨s, ?_, ?_⟩
  · unfold solveChebyshevSubdivision
    simp only
    rw [← hopts, hsol]
    simp only [hbs]
    congr 2
    simp only [List.flatMap_cons, List.flatMap_nil, List.append_nil, reportedRoots, hsd, List.length_nil, gt_iff_lt, lt_irrefl, if_false]
    rw [hgood.2]
    congr 1
    have h1 : r.ti.startFinalStep.interval.map (fun _ => 0) = z := by
      show r.ti.interval.map (fun _ => 0) = z
      rw [hint]
      funext j
      show (z j + boxWidth B errors j - (z j - boxWidth B errors j)) / 2 * 0 + (z j + boxWidth B errors j + (z j - boxWidth B errors j)) / 2 = z j
      ring
    rw [h1] at hsm
    rw [← hsm]
    funext j
    simp only [Box.map]
    ring
  · rw [hgood.1]
    unfold TrackedInterval.getIntervalForCombining
    rw [if_pos hsF, hsp]
    exact hint

/-- C93, polynomials without error: the zero of a well-conditioned affine system with `|z j| ≤ 1 - 2^-51` is the only root returned, and its box
has half-width `2^-51`. -/
theorem C93_affine_exact (env : Env n K) (la : LinAlg n K) (exact constant_check low_dim all_dim : Bool) (hok : env.OK la all_dim)
    (fuel : ℕ) (hfuel : 5 ≤ fuel) (Ms : Fin n → Tensor n K) (hM : ∀ i, Affine (Ms i)) (z : Fin n → K) (hz : ∀ i, (Ms i).eval z = 0)
    (hin : ∀ j, |z j| ≤ 1 - 1 / 2 ^ 51) (hdet : (linMat Ms).det ≠ 0) (hwc : env.svd.wellConditioned (equil (linMat Ms)) = true) :
    ∃ t, solveChebyshevSubdivision env fuel Ms (fun _ => 0) exact constant_check low_dim all_dim = .ok ([z], [t]) ∧
      t.getFinalInterval = ⟨fun j => z j - 1 / 2 ^ 51, fun j => z j + 1 / 2 ^ 51⟩ := by
  have hn := SVD.pos_of_wc hwc
  refine C93_affine_root env la exact constant_check low_dim all_dim hok fuel hfuel Ms (fun _ => 0) hM (fun _ => le_rfl) (linMat Ms)⁻¹
    (Matrix.nonsing_inv_mul _ (isUnit_iff_ne_zero.2 hdet)) z hz (fun _ => 1 / 2 ^ 51) (fun j => by simp) (fun j => by linarith [hin j]) ?_ hwc ?_
  · rw [prod_const, card_univ, Fintype.card_fin]
    calc ((1 : K) / 2 ^ 51) ^ n ≤ 1 / 2 ^ 51 := pow_le_of_le_one (by positivity) (by norm_num) (by omega)
      _ < 99 / 100 := by norm_num
  · have : (1 : K) / 2 ^ 51 = 2 ^ (-51 : ℤ) := by rw [zpow_neg]; norm_num
    simp only [this]
    rw [equil_scale]
    exact hwc

/-- C93, the zero is outside: if some coordinate of the zero of a well-conditioned affine system is outside `[-1,1]` by more than the half-width of
the parallelepiped plus `2^-51`, nothing is returned. -/
theorem C93_affine_none (env : Env n K) (hv : env.svd.Valid) (exact constant_check low_dim all_dim : Bool) (fuel : ℕ) (hfuel : 2 ≤ fuel)
    (Ms : Fin n → Tensor n K) (errors : Fin n → K) (hM : ∀ i, Affine (Ms i)) (he : ∀ i, 0 ≤ errors i)
    (B : Matrix (Fin n) (Fin n) K) (hB : B * linMat Ms = 1) (z : Fin n → K) (hz : ∀ i, (Ms i).eval z = 0)
    (hout : ∃ j, 1 + ∑ k, |B j k| * errors k + 1 / 2 ^ 51 < |z j|) (hwc : env.svd.wellConditioned (equil (linMat Ms)) = true) :
    solveChebyshevSubdivision env fuel Ms errors exact constant_check low_dim all_dim = .ok ([], []) := by
  have hn := SVD.pos_of_wc hwc
  have hA := affSys_of hM
  obtain ⟨T1, T2⟩ := hA.trim errors (1 / 10 ^ 3) 0
  have hb := bounding_out hv T1 hB hwc (zero_of_eval hM hz) he (by
    obtain ⟨j, hj⟩ := hout
    refine ⟨j, lt_of_le_of_lt (le_of_eq ?_) hj⟩
    rw [halfWidth]
    congr 1
    unfold macheps
    norm_num)
  obtain ⟨f, rfl⟩ : ∃ f, fuel = f + 1 + 1 := ⟨fuel - 2, by omega⟩
  have hp : (TrackedInterval.new (Box.unit n K)).isPoint = false := by
    unfold TrackedInterval.isPoint
    rw [decide_eq_false_iff_not]
    intro hc
    have := hc ⟨0, hn⟩
    simp only [TrackedInterval.new, Box.unit] at this
    norm_num at this
  have hcopy : (TrackedInterval.new (Box.unit n K)).copy = TrackedInterval.new (Box.unit n K) := rfl
  have hz1 : zoomInOnIntervalIter env.svd (trimMs Ms errors (1 / 10 ^ 3) 0).1 errors (TrackedInterval.new (Box.unit n K)) exact =
      .ok ⟨(trimMs Ms errors (1 / 10 ^ 3) 0).1, errors, { TrackedInterval.new (Box.unit n K) with empty := true }, true, true⟩ := by
    unfold zoomInOnIntervalIter
    have hf : (TrackedInterval.new (Box.unit n K)).finalStep = false := rfl
    have hc : (TrackedInterval.new (Box.unit n K)).canThrowOut = true := rfl
    simp only [hf, hb, hc, Bool.not_true, Bool.and_false, Bool.not_false, Bool.and_true, if_true]
  have hloop : ∀ ls, zoomLoop env.svd exact 25 (f + 1) (trimMs Ms errors (1 / 10 ^ 3) 0).1 errors (TrackedInterval.new (Box.unit n K)) ls 0 =
      .ok ⟨(trimMs Ms errors (1 / 10 ^ 3) 0).1, errors, { TrackedInterval.new (Box.unit n K) with empty := true }, true, true⟩ := by
    intro ls
    unfold zoomLoop
    rw [hz1]
    simp only [if_true]
  unfold solveChebyshevSubdivision
  simp only
  unfold solvePolyRecursive
  simp only [hp, Bool.false_eq_true, if_false, T2, hcopy, hloop, if_true]
  split_ifs <;> rfl

/-! ### Examples -/

theorem lin1_affine (c0 c1 : ℚ) : Affine (lin1 c0 c1) := by
  refine ⟨fun i => ?_, fun k _ hk => ?_⟩
  · simp [lin1]
  · have h2 : 2 ≤ k 0 := by simpa using hk
    have h0 : k 0 ≠ 0 := by omega
    have h1 : k 0 ≠ 1 := by omega
    simp [lin1, h0, h1]

/-- `2x - 1/2` with error `1/10`: root `1/4`, box of half-width `1/20 + 2^-51`. -/
example (fuel : ℕ) (hf : 5 ≤ fuel) : ∃ t, solveChebyshevSubdivision exEnv fuel (fun _ => lin1 (-1 / 2) 2) (fun _ => 1 / 10) false true true true =
      .ok ([fun _ => 1 / 4], [t]) ∧
    t.getFinalInterval = ⟨fun _ => 1 / 4 - (1 / 20 + 1 / 2 ^ 51), fun _ => 1 / 4 + (1 / 20 + 1 / 2 ^ 51)⟩ :=
  C93_affine_root exEnv exLA false true true true (exEnv_ok true) fuel hf _ _ (fun _ => lin1_affine _ _) (fun _ => by norm_num) (fun _ _ => 1 / 2)
    (by decide +kernel) (fun _ => 1 / 4) (fun _ => by rw [lin1_eval]; norm_num) (fun _ => 1 / 20 + 1 / 2 ^ 51) (by decide +kernel) (by decide +kernel)
    (by decide +kernel) (by decide +kernel) (by decide +kernel)

/-- `2x - 5/2` with error `1/10`: the zero `5/4` is outside by more than `1/20`. -/
example (fuel : ℕ) (hf : 2 ≤ fuel) :
    solveChebyshevSubdivision exEnv fuel (fun _ => lin1 (-5 / 2) 2) (fun _ => 1 / 10) false true true true = .ok ([], []) :=
  C93_affine_none exEnv (exEnv_ok true).svd false true true true fuel hf _ _ (fun _ => lin1_affine _ _) (fun _ => by norm_num) (fun _ _ => 1 / 2)
    (by decide +kernel) (fun _ => 5 / 4) (fun _ => by rw [lin1_eval]; norm_num) (by decide +kernel) (by decide +kernel)

/-- A rotation. -/
def exRot : Matrix (Fin 2) (Fin 2) ℚ := !![3 / 5, -4 / 5; 4 / 5, 3 / 5]

/-- A decomposition that knows the positive multiples of the rotation, and answers singular values 0 for all other matrices. -/
def exSvd2 : SVD 2 ℚ where
  U _ := exRot
  S A := fun _ => if 0 < A 0 0 ∧ A = (A 0 0 * (5 / 3)) • exRot then A 0 0 * (5 / 3) else 0
  Vh _ := 1

def exEnv2 : Env 2 ℚ :=
  ⟨exSvd2, fun l => List.range l.length, fun s => (List.finRange 2).filter (· ∈ s), quadraticCheck 2 ⟨fun _ _ => true, fun _ _ b => b⟩⟩

theorem exSvd2_wc {A : Matrix (Fin 2) (Fin 2) ℚ} (h : exSvd2.wellConditioned A = true) : 0 < A 0 0 ∧ A = (A 0 0 * (5 / 3)) • exRot := by
  by_contra hA
  simp only [SVD.wellConditioned, exSvd2, if_neg hA] at h
  simp at h

theorem exEnv2_ok : exEnv2.OK ⟨fun _ _ => true, fun _ _ b => b⟩ false where
  svd := by
    refine ⟨fun A i => ?_, fun A i j _ => le_refl _, fun A _ => ?_, fun A _ => ?_, fun A hA => ?_⟩
    · show (0 : ℚ) ≤ if _ then _ else 0
      split_ifs with h
      · exact mul_nonneg h.1.le (by norm_num)
      · exact le_rfl
    · show exRot.transpose * exRot = 1
      decide +kernel
    · show (1 : Matrix (Fin 2) (Fin 2) ℚ).transpose * 1 = 1
      simp
    · have h := exSvd2_wc hA
      have hS : exEnv2.svd.S A = fun _ => A 0 0 * (5 / 3) := funext fun _ => if_pos h
      rw [show exEnv2.svd.Vh A = 1 from rfl, Matrix.mul_one, hS]
      conv_lhs => rw [h.2]
      ext i j
      rw [Matrix.mul_diagonal, Matrix.smul_apply, smul_eq_mul, mul_comm]
      rfl
  argsort l := List.Perm.refl _
  setIter s := by
    constructor
    · exact List.Pairwise.filter _ (by decide)
    · intro d; simp [exEnv2]
  quad := rfl
  linAlg S _ h := by simp at h

/-- `c + a T_1(x) + b T_1(y)` as a 3×2 array. -/
def lin2 (c a b : ℚ) : Tensor 2 ℚ :=
  ⟨![3, 2], fun k => if k = ![0, 0] then c else if k = ![1, 0] then a else if k = ![0, 1] then b else 0⟩

theorem lin2_affine (c a b : ℚ) : Affine (lin2 c a b) := by
  refine ⟨fun i => ?_, fun k _ hk => ?_⟩
  · fin_cases i <;> simp [lin2]
  · rw [Fin.sum_univ_two] at hk
    have h0 : k ≠ ![0, 0] := by rintro rfl; simp at hk
    have h1 : k ≠ ![1, 0] := by rintro rfl; simp at hk
    have h2 : k ≠ ![0, 1] := by rintro rfl; simp at hk
    simp [lin2, h0, h1, h2]

/-- `1/4 + 3/5 x - 4/5 y` and `-1/2 + 4/5 x + 3/5 y`. -/
def exRotSys : Fin 2 → Tensor 2 ℚ := ![lin2 (1 / 4) (3 / 5) (-4 / 5), lin2 (-1 / 2) (4 / 5) (3 / 5)]

theorem exRotSys_affine (i : Fin 2) : Affine (exRotSys i) := by
  fin_cases i <;> exact lin2_affine _ _ _

/-- Two variables: the zero `(1/4, 1/2)` is found. -/
example (fuel : ℕ) (hf : 5 ≤ fuel) (exact cc low : Bool) :
    ∃ t, solveChebyshevSubdivision exEnv2 fuel exRotSys (fun _ => 0) exact cc low false = .ok ([![1 / 4, 1 / 2]], [t]) ∧
      t.getFinalInterval = ⟨fun j => (![1 / 4, 1 / 2] : Fin 2 → ℚ) j - 1 / 2 ^ 51, fun j => (![1 / 4, 1 / 2] : Fin 2 → ℚ) j + 1 / 2 ^ 51⟩ :=
  C93_affine_exact exEnv2 _ exact cc low false exEnv2_ok fuel hf exRotSys exRotSys_affine _
    (fun i => by
      rw [(exRotSys_affine i).eval, Fin.sum_univ_two]
      revert i
      decide +kernel)
    (by decide +kernel)
    (by rw [Matrix.det_fin_two]; decide +kernel) (by decide +kernel)

end YRoots
