import Verif.Props.SolveNDRoots

/-!
# Properties C83 and C84: counterexamples and examples
-/

set_option linter.unusedSectionVars false
set_option linter.unusedVariables false

namespace YRoots.Legacy

open Finset

/-- Half of the width of `[-10, 10]` with buffer. -/
def exHalf : ℚ := 10 * (1 + 1 / 10 ^ 9)

/-- `t - 12/25 + T_3(t)/50` with `t = x / exHalf`; zero at `t = 1/2`. -/
def exCubic (x : Fin 2 → ℚ) : ℚ :=
  x 0 / exHalf - 12 / 25 + (4 * (x 0 / exHalf) ^ 3 - 3 * (x 0 / exHalf)) / 50

/-- `y`. -/
def exY (x : Fin 2 → ℚ) : ℚ := x 1

/-- The coefficients of `exCubic` on the box with buffer. -/
def exCubicM : Tensor 2 ℚ :=
  ⟨fun _ => 4, fun k => if k 1 = 0 then (if k 0 = 0 then -12 / 25 else if k 0 = 1 then 1 else if k 0 = 3 then 1 / 50 else 0) else 0⟩

/-- The coefficients of `exY` on the box with buffer. -/
def exYM : Tensor 2 ℚ := ⟨fun _ => 4, fun k => if k 0 = 0 ∧ k 1 = 1 then exHalf else 0⟩

/-- Approximations on the box with buffer only, where they are exact; functions are told apart by their value at 0. -/
def exLib (S : LinSolve 2 ℚ) (la : LinAlg 2 ℚ) : NDLib 2 ℚ where
  approx := fun f B _ _ _ => if (∀ i, B.lo i = -exHalf) ∧ ∀ i, B.hi i = exHalf then
    (some (if f (fun _ => 0) = 0 then exYM else exCubicM), 20, 0) else (none, 0, 0)
  noise := fun _ _ => 0
  solve := S
  rank := la
  macaulay := fun _ => .ok none

def exNDTols : NDTols ℚ := ⟨1 / 10 ^ 12, 1 / 10 ^ 15, 1 / 10 ^ 15, 1 / 10 ^ 5, 100, false, 1⟩

def exState : NDState 2 ℚ := ⟨⟨[.improveBound, .getBoundingParallelogram], [], 0, false⟩, {}, 1 / 10 ^ 12, 1 / 10 ^ 15⟩

def exList : List (Tensor 2 ℚ × ℚ × ℚ) := [(exCubicM, 20, 0), (exYM, 20, 0)]

/-- The box. -/
def exTop : Box 2 ℚ := ⟨fun _ => -10, fun _ => 10⟩

theorem ex_trim : ((trimCoeffs exState.absTol exNDTols.relTol exList).1.map Prod.fst).any (fun c => decide (c.shape 0 > 1 + 1)) = true := by
  decide +kernel

/-- The answer of `get_subintervals` for the first box. -/
def exSub : Except Failure (List (Box 2 ℚ) × Data 2 ℚ) :=
  getSubintervals (fun _ _ => none) ⟨fun _ _ => true, fun _ _ _ => 0⟩ exState.data exTop.lo exTop.hi
    ((trimCoeffs exState.absTol exNDTols.relTol exList).1.map fun p => (p.1, floorErr false p.2)) true

theorem exSub_check : (match exSub with
    | .ok ([B], _) => decide (B.hi 0 ≤ 5 + 1 / 10 ^ 12) && decide (4 ≤ B.lo 0)
    | _ => false) = true := by
  decide +kernel

theorem exSub_eq (S : LinSolve 2 ℚ) (la : LinAlg 2 ℚ) : getSubintervals S la exState.data exTop.lo exTop.hi
    ((trimCoeffs exState.absTol exNDTols.relTol exList).1.map fun p => (p.1, floorErr false p.2)) true = exSub := rfl

/-- Where there are no approximations, the calls succeed. -/
theorem solveND_none {n : ℕ} {K : Type*} [Field K] [LinearOrder K] [IsStrictOrderedRing K] (lib : NDLib (n + 1) K) (T : NDTols K)
    (targetDeg : ℕ) (trust : Bool) (W : Box (n + 1) K)
    (hlib : ∀ f B deg tol g, B.Ordered → B.Within W → (lib.approx f (buffered B) deg tol g).1 = none) (k : ℕ) :
    ∀ lev fs B deg gd u st, fs ≠ [] → gd.length = fs.length → B.Ordered → B.Within W →
      ∃ st', solveND lib T targetDeg trust k lev fs B deg gd u st = .ok st' := by
  induction k with
  | zero => intro lev fs B deg gd u st _ _ _ _; exact ⟨_, rfl⟩
  | succ k ih =>
    intro lev fs B deg gd u st hfs hgd hB hW
    match fs, gd, hfs, hgd with
    | f :: fs, g :: gd, _, hgd =>
      have hdesc : ∀ (L : List (Box (n + 1) K)) (st : NDState (n + 1) K), (∀ C ∈ L, C.Ordered ∧ C.Within W) →
          ∃ st', descend (fun C => solveND lib T targetDeg trust k (lev + 1) (((f :: fs).eraseIdx 0) ++ ((f :: fs)[0]?).toList) C deg
            (List.replicate (((f :: fs).eraseIdx 0) ++ ((f :: fs)[0]?).toList).length none) false) L st = .ok st' := by
        intro L
        induction L with
        | nil => intro st _; exact ⟨st, rfl⟩
        | cons C L ihL =>
          intro st hL
          obtain ⟨s1, h1⟩ := ih (lev + 1) (((f :: fs).eraseIdx 0) ++ ((f :: fs)[0]?).toList) C deg
            (List.replicate (((f :: fs).eraseIdx 0) ++ ((f :: fs)[0]?).toList).length none) false st (by simp) (by simp)
            (hL C (by simp)).1 (hL C (by simp)).2
          obtain ⟨s2, h2⟩ := ihL s1 fun D hD => hL D (by simp [hD])
          exact ⟨s2, by rw [descend, h1]; exact h2⟩
      simp only [solveND]
      unfold ndBody
      simp only []
      generalize evalTols lib T lev deg (f :: fs) B u st = st1
      have ha : approxLoop lib (buffered B) deg (if u then st1.targetTol else st1.absTol) ((f :: fs).zip (g :: gd)) [] = .inl (0, []) := by
        have h0 := hlib f B deg (if u then st1.targetTol else st1.absTol) g hB hW
        simp only [List.zip_cons_cons, approxLoop]
        rcases ha : lib.approx f (buffered B) deg (if u then st1.targetTol else st1.absTol) g with ⟨_ | M, norm, err⟩
        · rfl
        · rw [ha] at h0; simp at h0
      rw [ha]
      simp only [List.map_nil]
      unfold ndSplit
      have hg : ∃ L D, getSubintervals lib.solve lib.rank st1.data B.lo B.hi [] false = .ok (L, D) := by
        refine ⟨(subdivide lib.rank st1.data B.lo B.hi [] false none).1, (subdivide lib.rank st1.data B.lo B.hi [] false none).2, ?_⟩
        unfold getSubintervals getBoundingInterval
        simp only [List.length_nil, if_true]
        split_ifs <;> rfl
      obtain ⟨L, D, hg⟩ := hg
      have hs := getSub_spec hB hg
      obtain ⟨s2, h2⟩ := hdesc L { st1 with data := D } fun C hC => ⟨(hs.1 C hC).1, within_trans (hs.1 C hC).2 hW⟩
      exact ⟨s2, by rw [hg]; exact h2⟩

/-- The zero. -/
def exRoot : Fin 2 → ℚ := ![exHalf / 2, 0]

theorem exCubicM_eval (t : Fin 2 → ℚ) : exCubicM.eval t = t 0 - 12 / 25 + (4 * t 0 ^ 3 - 3 * t 0) / 50 := by
  unfold Tensor.eval
  rw [← Finset.sum_subset (s₁ := {![0, 0], ![1, 0], ![3, 0]})]
  · rw [Finset.sum_insert (by decide), Finset.sum_insert (by decide), Finset.sum_singleton]
    have h3 : chebT 3 (t 0) = 4 * t 0 ^ 3 - 3 * t 0 := by
      rw [chebT_add_two, chebT_two, chebT_one]; ring
    simp [exCubicM, h3]
    ring
  · decide
  · intro k hk hn
    have : exCubicM.coef k = 0 := by
      by_contra h
      apply hn
      simp only [exCubicM] at h
      have hk2 : k = ![k 0, k 1] := by ext i; fin_cases i <;> rfl
      rw [hk2]
      split_ifs at h with h1 h2 h3 h4
      · rw [h1, h2]; simp
      · rw [h1, h3]; simp
      · rw [h1, h4]; simp
      · exact absurd rfl h
      · exact absurd rfl h
    rw [this, zero_mul]

theorem exYM_eval (t : Fin 2 → ℚ) : exYM.eval t = exHalf * t 1 := by
  unfold Tensor.eval
  rw [← Finset.sum_subset (s₁ := {![0, 1]})]
  · rw [Finset.sum_singleton]
    simp [exYM]
  · decide
  · intro k hk hn
    have : exYM.coef k = 0 := by
      simp only [exYM]
      refine if_neg fun h => hn ?_
      have hk2 : k = ![k 0, k 1] := by ext i; fin_cases i <;> rfl
      rw [hk2, h.1, h.2]; simp
    rw [this, zero_mul]

theorem ex_faithful (S : LinSolve 2 ℚ) (la : LinAlg 2 ℚ) : Faithful (exLib S la) exCubic ∧ Faithful (exLib S la) exY := by
  have hh : exHalf ≠ 0 := by decide +kernel
  constructor
  all_goals
    intro B deg tol g M norm err hB h
    simp only [exLib] at h
    split_ifs at h with h1 h2 h2
    all_goals first | (simp at h; done) | skip
    all_goals first | (exact absurd h2 (by decide +kernel)) | skip
    simp only [Prod.mk.injEq, Option.some.injEq] at h
    obtain ⟨rfl, rfl, rfl⟩ := h
    have e : ∀ t : Fin 2 → ℚ, ∀ i, toBox B.lo B.hi t i = t i * exHalf := by
      intro t i
      simp only [toBox, h1.1, h1.2]
      ring
    refine ⟨⟨fun i => by simp [exCubicM, exYM], .inl (by simp [exCubicM, exYM])⟩, fun t ht => ?_⟩
  · rw [exCubicM_eval]
    simp only [exCubic, e, mul_div_assoc, div_self hh, mul_one, sub_self, abs_zero, le_refl]
  · rw [exYM_eval]
    simp only [exY, e, mul_comm exHalf, sub_self, abs_zero, le_refl]

/-- **C83** (cover, counterexample).  For approximations that are exact on the boxes they are asked for, a zero in the box need not lie in any
of the tracked intervals, whatever the maximal level is: `get_subintervals` reads approximations made on the box with buffer in the coordinates
of the box without buffer.  No root and no potential root is found within `10^-9` of the zero. -/
theorem C83_cover_false (S : LinSolve 2 ℚ) (la : LinAlg 2 ℚ) : ∃ (lib : NDLib 2 ℚ) (T : NDTols ℚ) (fs : List ((Fin 2 → ℚ) → ℚ))
    (st : NDState 2 ℚ) (x : Fin 2 → ℚ),
    lib.solve = S ∧ lib.rank = la ∧ st.data.polishing = false ∧ (∀ f ∈ fs, Faithful lib f) ∧ fs.length = 2 ∧
    (∀ f ∈ fs, f x = 0) ∧ (∀ i, |x i| < 10) ∧
    ∀ k, ∃ st', solveND lib T 1 false (k + 1) 0 fs ⟨fun _ => -10, fun _ => 10⟩ 3 [none, none] false st = .ok st' ∧
      (∀ r ∈ st'.data.results, r.1 ∈ leafNames → ¬ ∀ i, r.2.lo i ≤ x i ∧ x i ≤ r.2.hi i) ∧
      (∀ y ∈ st'.tracker.keepDuplicates.roots, 1 / 10 ^ 9 < |y 0 - x 0|) ∧ ∀ y ∈ st'.tracker.potentialRoots, 1 / 10 ^ 9 < |y 0 - x 0| := by
  refine ⟨exLib S la, exNDTols, [exCubic, exY], exState, exRoot, rfl, rfl, rfl, ?_, rfl, ?_, ?_, fun k => ?_⟩
  · intro f hf
    simp only [List.mem_cons, List.not_mem_nil, or_false] at hf
    rcases hf with rfl | rfl
    · exact (ex_faithful S la).1
    · exact (ex_faithful S la).2
  · intro f hf
    simp only [List.mem_cons, List.not_mem_nil, or_false] at hf
    rcases hf with rfl | rfl
    · decide +kernel
    · decide +kernel
  · decide +kernel
  · obtain ⟨B, D, hsub, hhi, hlo⟩ : ∃ B D, exSub = .ok ([B], D) ∧ B.hi 0 ≤ 5 + 1 / 10 ^ 12 ∧ 4 ≤ B.lo 0 := by
      have := exSub_check
      rcases h : exSub with e | ⟨_ | ⟨B, _ | ⟨C, L⟩⟩, D⟩
      all_goals rw [h] at this
      all_goals simp only [Bool.and_eq_true, decide_eq_true_eq, Bool.false_eq_true] at this
      exact ⟨B, D, rfl, this⟩
    rw [← exSub_eq S la] at hsub
    have hs := getSub_spec (by decide) hsub
    have hB := hs.1 B (by simp)
    have ha : approxLoop (exLib S la) (buffered exTop) 3 exState.absTol (([exCubic, exY] : List ((Fin 2 → ℚ) → ℚ)).zip [none, none]) [] =
        .inr exList := by
      have h1 : (∀ i, (buffered exTop).lo i = -exHalf) ∧ ∀ i, (buffered exTop).hi i = exHalf := by decide +kernel
      have h2 : ¬ exCubic (fun _ => 0) = 0 := by decide +kernel
      have h3 : exY (fun _ => 0) = 0 := by decide +kernel
      simp only [List.zip_cons_cons, List.zip_nil_left, approxLoop, exLib, if_pos h1, if_neg h2, if_pos h3]
      rfl
    have hex : ∃ st', solveND (exLib S la) exNDTols 1 false k 1 [exCubic, exY] B 3
        (if (trimCoeffs exState.absTol exNDTols.relTol exList).2 then
          ((trimCoeffs exState.absTol exNDTols.relTol exList).1.map Prod.fst).map fun c => some (min (c.shape 0) 3) else [none, none]) true
        { exState with data := D } = .ok st' := by
      refine solveND_none (exLib S la) exNDTols 1 false B (fun f C deg tol g hC hCB => ?_) k 1 _ B 3 _ true _ (by simp) (by decide +kernel) hB.1
        fun i => ⟨le_rfl, le_rfl⟩
      have h1 := hCB 0
      have h2 := hC 0
      have : ¬ ((∀ i, (buffered C).lo i = -exHalf) ∧ ∀ i, (buffered C).hi i = exHalf) := by
        intro h
        have := h.2 0
        simp only [buffered, exHalf] at this
        linarith
      simp only [exLib, if_neg this]
    obtain ⟨st', hst⟩ := hex
    refine ⟨st', ?_, ?_⟩
    · change ndBody _ _ _ _ _ _ _ [exCubic, exY] exTop 3 [none, none] false exState = _
      unfold ndBody
      simp only [evalTols_off (exLib S la) exNDTols rfl, Bool.false_eq_true, if_false, ha]
      unfold ndGood
      simp only []
      rw [if_pos (by rw [Bool.or_eq_true]; exact .inl ex_trim)]
      unfold ndSplit
      rw [show (exLib S la).solve = S from rfl, show (exLib S la).rank = la from rfl, hsub]
      simp only [descend]
      rw [hst]
    · have hr := solveND_runs (exLib S la) exNDTols 1 false k 1 _ B 3 _ true _ st' trivial (by decide +kernel) hst [] st' .nil
      have hloc : Located (buffered B) { exState with data := D } :=
        located_data (st := exState) ⟨⟨by simp [exState], by simp [exState]⟩, by simp [exState], by simp [exState]⟩ rfl hs.2 rfl
      obtain ⟨⟨h1, h2⟩, h3, h4⟩ := runs_located hr (buffered B) (fun C hC => by rw [List.mem_singleton.1 hC]; exact hB.1)
        (fun C hC => by rw [List.mem_singleton.1 hC, if_neg (by decide)]; exact fun i => ⟨le_rfl, le_rfl⟩) hloc
      have hx : exRoot 0 = 5 + 5 / 10 ^ 9 := by decide +kernel
      have hw : (buffered B).hi 0 ≤ 5 + 6 / 10 ^ 10 := by simp only [buffered]; linarith
      have hwl : 3 ≤ (buffered B).lo 0 := by simp only [buffered]; linarith
      have hw2 : (buffered (buffered B)).hi 0 ≤ 5 + 2 / 10 ^ 9 := by
        have : (buffered (buffered B)).hi 0 = (buffered B).hi 0 + ((buffered B).hi 0 - (buffered B).lo 0) * (5 / 10 ^ 10) := rfl
        rw [this]; linarith
      have habs : ∀ y : ℚ, y ≤ 5 + 2 / 10 ^ 9 → 1 / 10 ^ 9 < |y - exRoot 0| := by
        intro y hy
        rw [abs_sub_comm, hx]
        refine lt_of_lt_of_le ?_ (le_abs_self _)
        linarith
      refine ⟨fun r hr hn h => ?_, fun y hy => habs _ ?_, fun y hy => habs _ ?_⟩
      · have := (h4 r hr hn 0).2
        have := (h 0).2
        rw [hx] at this
        linarith
      · rw [Tracker.keep_roots, List.mem_append] at hy
        rcases hy with hy | hy
        · have := (h1 y hy 0).2; linarith
        · obtain ⟨d, hd, rfl⟩ := List.mem_map.1 hy
          have := (h2 d hd 0).2; linarith
      · have := (h3 y hy 0).2; linarith

/-! ### Examples -/

/-- Exact linear algebra exists. -/
theorem exists_exactOn (n : ℕ) (K : Type*) [Field K] [LinearOrder K] : ∃ la : LinAlg n K, ∀ T : Finset (Fin n), T.Nonempty → la.ExactOn T := by
  classical
  refine ⟨⟨fun T A => decide ((A.submatrix (Subtype.val : T → Fin n) (Subtype.val : T → Fin n)).det ≠ 0), fun T A b j =>
    if h : j ∈ T then (A.submatrix (Subtype.val : T → Fin n) (Subtype.val : T → Fin n))⁻¹.mulVec (fun i => b i) ⟨j, h⟩ else 0⟩,
    fun T _ => ⟨fun A => by simp, fun A b h i hi => ?_⟩⟩
  have e : (A.submatrix (Subtype.val : T → Fin n) (Subtype.val : T → Fin n)).mulVec
      ((A.submatrix (Subtype.val : T → Fin n) (Subtype.val : T → Fin n))⁻¹.mulVec fun i => b i) = fun i : T => b i := by
    rw [Matrix.mulVec_mulVec, Matrix.mul_nonsing_inv _ (isUnit_iff_ne_zero.2 h), Matrix.one_mulVec]
  have e2 := congrFun e ⟨i, hi⟩
  rw [← e2, ← sum_coe_sort T]
  simp only [Matrix.mulVec, dotProduct, Matrix.submatrix_apply]
  refine sum_congr rfl fun j _ => ?_
  rw [dif_pos j.2]

/-- `x + y - 1/2` and `x - y`. -/
def exSum (x : Fin 2 → ℚ) : ℚ := x 0 + x 1 - 1 / 2
def exDiff (x : Fin 2 → ℚ) : ℚ := x 0 - x 1

/-- The coefficients of an affine function on a box, in an array for degree 2. -/
def exAffine (f : (Fin 2 → ℚ) → ℚ) (B : Box 2 ℚ) : Tensor 2 ℚ :=
  ⟨fun _ => 3, fun k => if k 0 = 0 ∧ k 1 = 0 then f (toBox B.lo B.hi ![0, 0])
    else if k 0 = 1 ∧ k 1 = 0 then f (toBox B.lo B.hi ![1, 0]) - f (toBox B.lo B.hi ![0, 0])
    else if k 0 = 0 ∧ k 1 = 1 then f (toBox B.lo B.hi ![0, 1]) - f (toBox B.lo B.hi ![0, 0]) else 0⟩

/-- Exact approximations of affine functions, with an error of `10^-6` for boxes that are not too large. -/
def exAffLib (S : LinSolve 2 ℚ) (la : LinAlg 2 ℚ) : NDLib 2 ℚ where
  approx := fun f B _ _ _ => if (∀ i, -3 ≤ B.lo i) ∧ ∀ i, B.hi i ≤ 3 then (some (exAffine f B), 1, 1 / 10 ^ 6) else (none, 0, 0)
  noise := fun _ _ => 0
  solve := S
  rank := la
  macaulay := fun _ => .ok none

def exAffTols : NDTols ℚ := ⟨1 / 10 ^ 5, 1 / 10 ^ 5, 1 / 10 ^ 15, 1 / 10 ^ 5, 100, false, 1⟩

def exAffState : NDState 2 ℚ := ⟨⟨[.improveBound, .getBoundingParallelogram], [], 0, false⟩, {}, 1 / 10 ^ 5, 1 / 10 ^ 5⟩

theorem exAffine_eval (f : (Fin 2 → ℚ) → ℚ) (B : Box 2 ℚ) (t : Fin 2 → ℚ) : (exAffine f B).eval t =
    f (toBox B.lo B.hi ![0, 0]) + (f (toBox B.lo B.hi ![1, 0]) - f (toBox B.lo B.hi ![0, 0])) * t 0 +
      (f (toBox B.lo B.hi ![0, 1]) - f (toBox B.lo B.hi ![0, 0])) * t 1 := by
  unfold Tensor.eval
  rw [← Finset.sum_subset (s₁ := {![0, 0], ![1, 0], ![0, 1]})]
  · rw [Finset.sum_insert (by decide), Finset.sum_insert (by decide), Finset.sum_singleton]
    simp [exAffine]
    ring
  · have : (exAffine f B).idx = (exAffine 0 ⟨0, 0⟩).idx := rfl
    rw [this]
    decide +kernel
  · intro k hk hn
    have : (exAffine f B).coef k = 0 := by
      have hk2 : k = ![k 0, k 1] := by ext i; fin_cases i <;> rfl
      simp only [exAffine]
      split_ifs with h1 h2 h3
      · exact absurd (by rw [hk2, h1.1, h1.2]; simp) hn
      · exact absurd (by rw [hk2, h2.1, h2.2]; simp) hn
      · exact absurd (by rw [hk2, h3.1, h3.2]; simp) hn
      · rfl
    rw [this, zero_mul]

theorem exAff_accurate (S : LinSolve 2 ℚ) (la : LinAlg 2 ℚ) :
    AccurateInside (exAffLib S la) exSum ∧ AccurateInside (exAffLib S la) exDiff := by
  constructor
  all_goals
    intro B deg tol g M norm err hB h
    simp only [exAffLib] at h
    split_ifs at h with h1
    · simp only [Prod.mk.injEq, Option.some.injEq] at h
      obtain ⟨rfl, rfl, rfl⟩ := h
      refine ⟨⟨fun i => by simp [exAffine], .inl (by simp [exAffine])⟩, fun t ht => ?_⟩
      rw [exAffine_eval]
      have a0 := h1.1 0
      have a1 := h1.1 1
      have b0 := h1.2 0
      have b1 := h1.2 1
      have o0 := hB 0
      have o1 := hB 1
      simp only [buffered] at a0 a1 b0 b1
      have t0 := abs_le.1 (ht 0)
      have t1 := abs_le.1 (ht 1)
      have w0 : |t 0 * (B.hi 0 - B.lo 0)| ≤ 6 := by
        rw [abs_mul]
        have : |B.hi 0 - B.lo 0| ≤ 6 := abs_le.2 ⟨by linarith, by linarith⟩
        nlinarith [ht 0, abs_nonneg (t 0), abs_nonneg (B.hi 0 - B.lo 0)]
      have w1 : |t 1 * (B.hi 1 - B.lo 1)| ≤ 6 := by
        rw [abs_mul]
        have : |B.hi 1 - B.lo 1| ≤ 6 := abs_le.2 ⟨by linarith, by linarith⟩
        nlinarith [ht 1, abs_nonneg (t 1), abs_nonneg (B.hi 1 - B.lo 1)]
      have w0 := abs_le.1 w0
      have w1 := abs_le.1 w1
      simp only [exSum, exDiff, toBox, buffered, Matrix.cons_val_zero, Matrix.cons_val_one]
      rw [abs_lt]
      constructor <;> ring_nf at w0 w1 ⊢ <;> linarith
    · simp at h

/-- The trimmed arrays on `[-1, 1]^2`. -/
def exAffTrim : List (Tensor 2 ℚ × ℚ) :=
  (trimCoeffs (1 / 10 ^ 5) (1 / 10 ^ 15) [(exAffine exSum (buffered (Box.unit 2 ℚ)), 1, 1 / 10 ^ 6),
    (exAffine exDiff (buffered (Box.unit 2 ℚ)), 1, 1 / 10 ^ 6)]).1

/-- The zero in the coordinates of the box with buffer. -/
def exAffZero : Fin 2 → ℚ := fun _ => 1 / 4 / (1 + 1 / 10 ^ 9)

theorem exAff_len : (exAffTrim.map Prod.fst).length = 1 + 1 := rfl

def exAffP (i : Fin 2) : Tensor 2 ℚ := (exAffTrim.map Prod.fst).get (i.cast exAff_len.symm)

theorem exAffP_shape : ¬ ∃ i j, (exAffP i).shape j = 0 ∨ (exAffP i).shape 0 ≠ 1 ∧ (exAffP i).shape j = 1 := by decide +kernel

theorem exAffP_A : linearA exAffP = !![1 + 1 / 10 ^ 9, 1 + 1 / 10 ^ 9; 1 + 1 / 10 ^ 9, -(1 + 1 / 10 ^ 9)] := by
  have : ∀ i j : Fin 2, (if (exAffP i).shape 0 = 1 then 0 else linCoef (exAffP i) j) =
      if i = 1 ∧ j = 1 then -(1 + 1 / 10 ^ 9) else 1 + 1 / 10 ^ 9 := by decide +kernel
  ext i j
  refine (this i j).trans ?_
  fin_cases i <;> fin_cases j <;> simp

theorem exAffP_b : (-fun row => (exAffP row).const) = ![1 / 2, 0] := by
  have : ∀ i, (-fun row => (exAffP row).const) i = (![1 / 2, 0] : Fin 2 → ℚ) i := by decide +kernel
  ext i; exact this i

theorem exAff_solve {S : LinSolve 2 ℚ} (hS : S.Exact) : solveLinearList S (exAffTrim.map Prod.fst) = .ok (some exAffZero) := by
  unfold solveLinearList
  rw [dif_pos exAff_len]
  change solveLinear S exAffP = _
  unfold solveLinear
  simp only []
  rw [if_neg exAffP_shape]
  have hdet : (linearA exAffP).det ≠ 0 := by rw [exAffP_A, Matrix.det_fin_two_of]; norm_num
  obtain ⟨x, hx, he⟩ := (hS (linearA exAffP) (-fun row => (exAffP row).const)).1 hdet
  rw [hx]
  have h2 : (linearA exAffP).mulVec exAffZero = -fun row => (exAffP row).const := by
    rw [exAffP_A, exAffP_b]
    ext i
    fin_cases i <;> simp [Matrix.mulVec, dotProduct, Fin.sum_univ_two, exAffZero] <;> norm_num
  have : x = exAffZero := Matrix.mulVec_injective_of_isUnit ((Matrix.isUnit_iff_isUnit_det _).2 (isUnit_iff_ne_zero.2 hdet)) (he.trans h2.symm)
  rw [this]

/-- A run that ends with "Base Case" and finds the root. -/
theorem exAff_run {S : LinSolve 2 ℚ} (hS : S.Exact) (la : LinAlg 2 ℚ) (k : ℕ) : ∃ st', solveND (exAffLib S la) exAffTols 1 false (k + 1) 0
      [exSum, exDiff] (Box.unit 2 ℚ) 2 [none, none] false exAffState = .ok st' ∧ st'.tracker.roots = [fun _ => 1 / 4] ∧
      st'.data.results.map Prod.fst = ["Base Case"] := by
  refine ⟨record exAffState "Base Case" ((some exAffZero).toList.map fun z i => (z i, 0))
    (max exAffTols.minGood (((exAffTrim.map fun p => floorErr false p.2).map fun e => |e|).sum * exAffTols.factor)) (Box.unit 2 ℚ)
    (buffered (Box.unit 2 ℚ)), ?_, by decide +kernel, by decide +kernel⟩
  change ndBody _ _ _ _ _ _ _ [exSum, exDiff] (Box.unit 2 ℚ) 2 [none, none] false exAffState = _
  unfold ndBody
  have ha : approxLoop (exAffLib S la) (buffered (Box.unit 2 ℚ)) 2 exAffState.absTol
      (([exSum, exDiff] : List ((Fin 2 → ℚ) → ℚ)).zip [none, none]) [] =
      .inr [(exAffine exSum (buffered (Box.unit 2 ℚ)), 1, 1 / 10 ^ 6), (exAffine exDiff (buffered (Box.unit 2 ℚ)), 1, 1 / 10 ^ 6)] := by
    have h1 : (∀ i, -3 ≤ (buffered (Box.unit 2 ℚ)).lo i) ∧ ∀ i, (buffered (Box.unit 2 ℚ)).hi i ≤ 3 := by decide +kernel
    simp only [List.zip_cons_cons, List.zip_nil_left, approxLoop, exAffLib, if_pos h1]
    rfl
  simp only [evalTols_off (exAffLib S la) exAffTols rfl, Bool.false_eq_true, if_false, ha]
  unfold ndGood
  simp only []
  rw [if_neg (by decide +kernel), if_neg (by decide +kernel), if_pos (by decide +kernel), if_neg (by decide)]
  have := exAff_solve hS
  unfold exAffTrim at this
  rw [show (exAffLib S la).solve = S from rfl]
  rw [show exAffState.absTol = 1 / 10 ^ 5 from rfl, show exAffTols.relTol = 1 / 10 ^ 15 from rfl, this]
  rfl

/-- `C83_location`, `C83_area` and `C83_cover_partial` are met by this run. -/
example : ∃ (S : LinSolve 2 ℚ) (la : LinAlg 2 ℚ) (st' : NDState 2 ℚ), S.Exact ∧ (∀ T : Finset (Fin 2), T.Nonempty → la.ExactOn T) ∧
    (∀ f ∈ [exSum, exDiff], AccurateInside (exAffLib S la) f) ∧
    solveND (exAffLib S la) exAffTols 1 false 52 0 [exSum, exDiff] ⟨fun _ => -1, fun _ => 1⟩ 2 [none, none] false exAffState = .ok st' ∧
    (∀ f ∈ [exSum, exDiff], f (fun _ => 1 / 4) = 0) ∧ st'.tracker.roots = [fun _ => 1 / 4] := by
  obtain ⟨S, hS⟩ : ∃ S : LinSolve 2 ℚ, S.Exact := by
    refine ⟨fun A b => if A.det = 0 then none else some (A⁻¹.mulVec b), fun A b => ⟨fun h => ?_, fun h => if_pos h⟩⟩
    refine ⟨_, if_neg h, ?_⟩
    rw [Matrix.mulVec_mulVec, Matrix.mul_nonsing_inv _ (isUnit_iff_ne_zero.2 h), Matrix.one_mulVec]
  obtain ⟨la, hla⟩ := exists_exactOn 2 ℚ
  obtain ⟨st', h1, h2, -⟩ := exAff_run hS la 51
  refine ⟨S, la, st', hS, hla, fun f hf => ?_, h1, by decide +kernel, h2⟩
  simp only [List.mem_cons, List.not_mem_nil, or_false] at hf
  rcases hf with rfl | rfl
  · exact (exAff_accurate S la).1
  · exact (exAff_accurate S la).2

theorem exAff_faithful (S : LinSolve 2 ℚ) (la : LinAlg 2 ℚ) : Faithful (exAffLib S la) exSum ∧ Faithful (exAffLib S la) exDiff := by
  constructor
  all_goals
    intro B deg tol g M norm err hB h
    simp only [exAffLib] at h
    split_ifs at h with h1
    · simp only [Prod.mk.injEq, Option.some.injEq] at h
      obtain ⟨rfl, rfl, rfl⟩ := h
      refine ⟨⟨fun i => by simp [exAffine], .inl (by simp [exAffine])⟩, fun t ht => ?_⟩
      rw [exAffine_eval]
      simp only [exSum, exDiff, toBox, Matrix.cons_val_zero, Matrix.cons_val_one]
      ring_nf
      norm_num
    · simp at h

/-- The hypotheses of `C84_roots` and `C84_residual_partial` are met by the same run, with `τ = 10^-5`. -/
example {S : LinSolve 2 ℚ} (hS : S.Exact) (la : LinAlg 2 ℚ) : ∃ st' : NDState 2 ℚ, st'.tracker.roots = [fun _ => 1 / 4] ∧
    ∀ x ∈ st'.tracker.roots, x ∈ exAffState.tracker.roots ∨ ∀ f ∈ [exSum, exDiff], ∃ B d tol g M norm err,
      (exAffLib S la).approx f B d tol g = (some M, norm, err) ∧ (∀ i, B.lo i ≤ x i ∧ x i ≤ B.hi i) ∧
      |f x| ≤ 1 / 10 ^ 5 + exAffTols.relTol * norm := by
  obtain ⟨st', h1, h2, -⟩ := exAff_run hS la 51
  refine ⟨st', h2, C84_residual_partial (exAffLib S la) hS exAffTols false 52 0 [exSum, exDiff] (fun f hf => ?_) (fun _ => -1) (fun _ => 1)
    (fun _ => by norm_num) 2 [none, none] rfl false exAffState st' (1 / 10 ^ 5) le_rfl le_rfl (fun d _ f _ B => ?_) h1⟩
  · simp only [List.mem_cons, List.not_mem_nil, or_false] at hf
    rcases hf with rfl | rfl
    · exact (exAff_faithful S la).1
    · exact (exAff_faithful S la).2
  · simp only [exAffLib, mul_zero]; norm_num

/-! ### C84, counterexample -/

/-- `t_0 + 5 T_2(t_0) T_2(t_1)` with `t = x / (1 + 10^-9)`. -/
def exCorner (x : Fin 2 → ℚ) : ℚ :=
  x 0 / (1 + 1 / 10 ^ 9) + 5 * (2 * (x 0 / (1 + 1 / 10 ^ 9)) ^ 2 - 1) * (2 * (x 1 / (1 + 1 / 10 ^ 9)) ^ 2 - 1)

/-- `t_1`. -/
def exSecond (x : Fin 2 → ℚ) : ℚ := x 1 / (1 + 1 / 10 ^ 9)

def exCornerM : Tensor 2 ℚ := ⟨fun _ => 3, fun k => if k 0 = 1 ∧ k 1 = 0 then 1 else if k 0 = 2 ∧ k 1 = 2 then 5 else 0⟩

def exSecondM : Tensor 2 ℚ := ⟨fun _ => 3, fun k => if k 0 = 0 ∧ k 1 = 1 then 1 else 0⟩

/-- Exact approximations on `[-1, 1]^2` with buffer; the functions are told apart by their value at 0. -/
def exCornerLib (S : LinSolve 2 ℚ) (la : LinAlg 2 ℚ) : NDLib 2 ℚ where
  approx := fun f B _ _ _ => if (∀ i, B.lo i = -(1 + 1 / 10 ^ 9)) ∧ ∀ i, B.hi i = 1 + 1 / 10 ^ 9 then
    (some (if f (fun _ => 0) = 0 then exSecondM else exCornerM), 6, 0) else (none, 0, 0)
  noise := fun _ _ => 0
  solve := S
  rank := la
  macaulay := fun _ => .ok none

def exCornerTols : NDTols ℚ := ⟨1 / 10 ^ 12, 101 / 100 * macheps, 1 / 10 ^ 15, 1 / 10 ^ 5, 100, true, 1⟩

def exCornerState : NDState 2 ℚ := ⟨⟨[.improveBound, .getBoundingParallelogram], [], 0, false⟩, {}, 1 / 10 ^ 12, 101 / 100 * macheps⟩

theorem exCornerM_eval (t : Fin 2 → ℚ) : exCornerM.eval t = t 0 + 5 * (2 * t 0 ^ 2 - 1) * (2 * t 1 ^ 2 - 1) := by
  unfold Tensor.eval
  rw [← Finset.sum_subset (s₁ := {![1, 0], ![2, 2]})]
  · rw [Finset.sum_insert (by decide), Finset.sum_singleton]
    simp [exCornerM, chebT_two]
    ring
  · decide
  · intro k hk hn
    have hk2 : k = ![k 0, k 1] := by ext i; fin_cases i <;> rfl
    have : exCornerM.coef k = 0 := by
      simp only [exCornerM]
      split_ifs with h1 h2
      · exact absurd (by rw [hk2, h1.1, h1.2]; simp) hn
      · exact absurd (by rw [hk2, h2.1, h2.2]; simp) hn
      · rfl
    rw [this, zero_mul]

theorem exSecondM_eval (t : Fin 2 → ℚ) : exSecondM.eval t = t 1 := by
  unfold Tensor.eval
  rw [← Finset.sum_subset (s₁ := {![0, 1]})]
  · rw [Finset.sum_singleton]
    simp [exSecondM]
  · decide
  · intro k hk hn
    have hk2 : k = ![k 0, k 1] := by ext i; fin_cases i <;> rfl
    have : exSecondM.coef k = 0 := by
      simp only [exSecondM]
      exact if_neg fun h => hn (by rw [hk2, h.1, h.2]; simp)
    rw [this, zero_mul]

theorem exCorner_exact (S : LinSolve 2 ℚ) (la : LinAlg 2 ℚ) : ∀ f ∈ [exCorner, exSecond],
    ∀ (B : Box 2 ℚ) (deg : ℕ) (tol : ℚ) (g : Option ℕ) (M : Tensor 2 ℚ) (norm err : ℚ), B.Ordered →
      (exCornerLib S la).approx f B deg tol g = (some M, norm, err) →
      (∀ j, 1 < M.shape j) ∧ ∀ t, InCube t → |f (toBox B.lo B.hi t) - M.eval t| ≤ err := by
  intro f hf B deg tol g M norm err hB h
  simp only [exCornerLib] at h
  by_cases h1 : (∀ i, B.lo i = -(1 + 1 / 10 ^ 9)) ∧ ∀ i, B.hi i = 1 + 1 / 10 ^ 9
  · rw [if_pos h1] at h
    simp only [Prod.mk.injEq, Option.some.injEq] at h
    obtain ⟨rfl, rfl, rfl⟩ := h
    have e : ∀ t : Fin 2 → ℚ, ∀ i, toBox B.lo B.hi t i = t i * (1 + 1 / 10 ^ 9) := by
      intro t i
      simp only [toBox, h1.1, h1.2]
      ring
    have hh : (1 + 1 / 10 ^ 9 : ℚ) ≠ 0 := by norm_num
    have h2 : ¬ exCorner (fun _ => 0) = 0 := by decide +kernel
    have h3 : exSecond (fun _ => 0) = 0 := by decide +kernel
    simp only [List.mem_cons, List.not_mem_nil, or_false] at hf
    rcases hf with rfl | rfl
    · rw [if_neg h2]
      refine ⟨fun i => by simp [exCornerM], fun t ht => ?_⟩
      rw [exCornerM_eval]
      simp only [exCorner, e, mul_div_assoc, div_self hh, mul_one, sub_self, abs_zero, le_refl]
    · rw [if_pos h3]
      refine ⟨fun i => by simp [exSecondM], fun t ht => ?_⟩
      rw [exSecondM_eval]
      simp only [exSecond, e, mul_div_assoc, div_self hh, mul_one, sub_self, abs_zero, le_refl]
  · rw [if_neg h1] at h
    simp at h

/-- The trimmed arrays on `[-1, 1]^2`. -/
def exCornerTrim : List (Tensor 2 ℚ × ℚ) := (trimCoeffs (1 / 10 ^ 12) (1 / 10 ^ 15) [(exCornerM, 6, 0), (exSecondM, 6, 0)]).1

theorem exCorner_len : (exCornerTrim.map Prod.fst).length = 1 + 1 := rfl

def exCornerP (i : Fin 2) : Tensor 2 ℚ := (exCornerTrim.map Prod.fst).get (i.cast exCorner_len.symm)

theorem exCornerP_shape : ¬ ∃ i j, (exCornerP i).shape j = 0 ∨ (exCornerP i).shape 0 ≠ 1 ∧ (exCornerP i).shape j = 1 := by decide +kernel

theorem exCornerP_A : linearA exCornerP = 1 := by
  have : ∀ i j : Fin 2, (if (exCornerP i).shape 0 = 1 then 0 else linCoef (exCornerP i) j) = if i = j then 1 else 0 := by decide +kernel
  ext i j
  refine (this i j).trans ?_
  rw [Matrix.one_apply]

theorem exCornerP_b : (-fun row => (exCornerP row).const) = fun _ => 0 := by
  have : ∀ i, (-fun row => (exCornerP row).const) i = (0 : ℚ) := by decide +kernel
  ext i; exact this i

theorem exCorner_solve {S : LinSolve 2 ℚ} (hS : S.Exact) : solveLinearList S (exCornerTrim.map Prod.fst) = .ok (some fun _ => 0) := by
  unfold solveLinearList
  rw [dif_pos exCorner_len]
  change solveLinear S exCornerP = _
  unfold solveLinear
  simp only []
  rw [if_neg exCornerP_shape]
  have hdet : (linearA exCornerP).det ≠ 0 := by rw [exCornerP_A, Matrix.det_one]; norm_num
  obtain ⟨x, hx, he⟩ := (hS (linearA exCornerP) (-fun row => (exCornerP row).const)).1 hdet
  rw [hx]
  rw [exCornerP_A, Matrix.one_mulVec, exCornerP_b] at he
  rw [he]

/-- **C84** (residual, counterexample).  Without the condition on the coefficient of the highest total degree it is false, even for
approximations without error and the default tolerances: `trim_coeffs` drops that coefficient without counting it, and a point with value 5 is
stored as a root. -/
theorem C84_residual_false {S : LinSolve 2 ℚ} (hS : S.Exact) (la : LinAlg 2 ℚ) : ∃ (lib : NDLib 2 ℚ) (T : NDTols ℚ)
    (fs : List ((Fin 2 → ℚ) → ℚ)) (st : NDState 2 ℚ), lib.solve = S ∧ lib.rank = la ∧ fs.length = 2 ∧ st.tracker.roots = [] ∧
    (∀ f ∈ fs, ∀ (B : Box 2 ℚ) (deg : ℕ) (tol : ℚ) (g : Option ℕ) (M : Tensor 2 ℚ) (norm err : ℚ), B.Ordered →
      lib.approx f B deg tol g = (some M, norm, err) →
      (∀ j, 1 < M.shape j) ∧ (∀ t, InCube t → |f (toBox B.lo B.hi t) - M.eval t| ≤ err) ∧ T.targetTol + T.relTol * norm ≤ 1 / 10 ^ 12) ∧
    (∀ f B, lib.noise f B = 0) ∧
    ∀ k, ∃ st', solveND lib T 1 false (k + 1) 0 fs ⟨fun _ => -1, fun _ => 1⟩ 2 [none, none] false st = .ok st' ∧
      ∃ x ∈ st'.tracker.roots, ∃ f ∈ fs, |f x| = 5 := by
  refine ⟨exCornerLib S la, exCornerTols, [exCorner, exSecond], exCornerState, rfl, rfl, rfl, rfl, ?_, fun _ _ => rfl, fun k => ?_⟩
  · intro f hf B deg tol g M norm err hB h
    have := exCorner_exact S la f hf B deg tol g M norm err hB h
    refine ⟨this.1, this.2, ?_⟩
    simp only [exCornerLib] at h
    by_cases h1 : (∀ i, B.lo i = -(1 + 1 / 10 ^ 9)) ∧ ∀ i, B.hi i = 1 + 1 / 10 ^ 9
    · rw [if_pos h1] at h
      simp only [Prod.mk.injEq] at h
      rw [← h.2.1]
      decide +kernel
    · rw [if_neg h1] at h
      simp at h
  · refine ⟨record exCornerState "Base Case" ((some fun _ => (0 : ℚ)).toList.map fun z i => (z i, 0))
      (max exCornerTols.minGood (((exCornerTrim.map fun p => floorErr false p.2).map fun e => |e|).sum * exCornerTols.factor)) (Box.unit 2 ℚ)
      (buffered (Box.unit 2 ℚ)), ?_, fun _ => 0, by decide +kernel, exCorner, by simp, by decide +kernel⟩
    change ndBody _ _ _ _ _ _ _ [exCorner, exSecond] (Box.unit 2 ℚ) 2 [none, none] false exCornerState = _
    unfold ndBody
    have hev : evalTols (exCornerLib S la) exCornerTols 0 2 [exCorner, exSecond] (Box.unit 2 ℚ) false exCornerState = exCornerState := by
      have : max (1 / 10 ^ 12 : ℚ) 0 = 1 / 10 ^ 12 := by decide +kernel
      simp only [evalTols, exCornerTols, exCornerLib, exCornerState, if_true, Nat.zero_mod, List.foldl_cons, List.foldl_nil, mul_zero,
        Bool.false_eq_true, if_false, this]
    have ha : approxLoop (exCornerLib S la) (buffered (Box.unit 2 ℚ)) 2 exCornerState.absTol
        (([exCorner, exSecond] : List ((Fin 2 → ℚ) → ℚ)).zip [none, none]) [] = .inr [(exCornerM, 6, 0), (exSecondM, 6, 0)] := by
      have h1 : (∀ i, (buffered (Box.unit 2 ℚ)).lo i = -(1 + 1 / 10 ^ 9)) ∧ ∀ i, (buffered (Box.unit 2 ℚ)).hi i = 1 + 1 / 10 ^ 9 := by
        decide +kernel
      have h2 : ¬ exCorner (fun _ => 0) = 0 := by decide +kernel
      have h3 : exSecond (fun _ => 0) = 0 := by decide +kernel
      simp only [List.zip_cons_cons, List.zip_nil_left, approxLoop, exCornerLib, if_pos h1, if_neg h2, if_pos h3]
      rfl
    simp only [hev, Bool.false_eq_true, if_false, ha]
    unfold ndGood
    simp only []
    rw [if_neg (by decide +kernel), if_neg (by decide +kernel), if_pos (by decide +kernel), if_neg (by decide)]
    have := exCorner_solve hS
    unfold exCornerTrim at this
    rw [show (exCornerLib S la).solve = S from rfl]
    rw [show exCornerState.absTol = 1 / 10 ^ 12 from rfl, show exCornerTols.relTol = 1 / 10 ^ 15 from rfl, this]
    rfl

end YRoots.Legacy
