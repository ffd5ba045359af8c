import Verif.Props.SubdivideTopExample

/-!
# Property C85: a root that is returned twice, and potential roots
-/

set_option linter.unusedSectionVars false
set_option linter.unusedVariables false

namespace YRoots.Legacy

open Finset

/-! ### A root on the line between two boxes -/

/-- `u + ε u^3` with `u = x - m`, where `m` is the place of the split of `[-1, 1]` and `ε = 4.08e-10`. -/
def exBend (x : Fin 2 → ℚ) : ℚ := (x 0 - middleVal) + 408 / 10 ^ 12 * (x 0 - middleVal) ^ 3

/-- `y - 1/2`. -/
def exHalfY (x : Fin 2 → ℚ) : ℚ := x 1 - 1 / 2

/-- The coefficients of `exBend` up to degree 2 on a box. -/
def exBendM (B : Box 2 ℚ) : Tensor 2 ℚ :=
  let w := (B.hi 0 - B.lo 0) / 2
  let p := (B.hi 0 + B.lo 0) / 2 - middleVal
  ⟨fun _ => 3, fun k => if k 1 = 0 then
    (if k 0 = 0 then p + 408 / 10 ^ 12 * (p ^ 3 + 3 / 2 * p * w ^ 2)
    else if k 0 = 1 then w + 408 / 10 ^ 12 * (3 * p ^ 2 * w + 3 / 4 * w ^ 3)
    else if k 0 = 2 then 408 / 10 ^ 12 * (3 / 2 * p * w ^ 2) else 0) else 0⟩

/-- The coefficient of degree 3. -/
def exBendErr (B : Box 2 ℚ) : ℚ := 408 / 10 ^ 12 * ((B.hi 0 - B.lo 0) / 2) ^ 3 / 4

/-- The Chebyshev series up to degree 2, with the rest as the error, unless it is larger than the tolerance; functions are told apart by their value
at 0. -/
def onceLib (S : LinSolve 2 ℚ) (la : LinAlg 2 ℚ) : NDLib 2 ℚ where
  approx := fun f B _ tol _ =>
    if f (fun _ => 0) = -1 / 2 then (some (exAffine f B), 1, 0)
    else if tol + 1 / 10 ^ 15 < exBendErr B then (none, 1, exBendErr B) else (some (exBendM B), 1, exBendErr B)
  noise := fun _ _ => 0
  solve := S
  rank := la
  macaulay := fun _ => .ok none

theorem exBendM_eval (B : Box 2 ℚ) (t : Fin 2 → ℚ) : (exBendM B).eval t =
    exBend (toBox B.lo B.hi t) - exBendErr B * (4 * t 0 ^ 3 - 3 * t 0) := by
  unfold Tensor.eval
  rw [← Finset.sum_subset (s₁ := {![0, 0], ![1, 0], ![2, 0]})]
  · rw [Finset.sum_insert (by decide), Finset.sum_insert (by decide), Finset.sum_singleton]
    simp only [exBendM, Fin.prod_univ_two, Matrix.cons_val_zero, Matrix.cons_val_one, exBend, exBendErr, toBox]
    simp [chebT_two]
    ring
  · have : (exBendM B).idx = (⟨fun _ => 3, fun _ => 0⟩ : Tensor 2 ℚ).idx := rfl
    rw [this]
    decide +kernel
  · intro k hk hn
    have : (exBendM B).coef k = 0 := by
      have hk2 : k = ![k 0, k 1] := by ext i; fin_cases i <;> rfl
      simp only [exBendM]
      split_ifs with h1 h2 h3 h4
      · exact absurd (by rw [hk2, h1, h2]; simp) hn
      · exact absurd (by rw [hk2, h1, h3]; simp) hn
      · exact absurd (by rw [hk2, h1, h4]; simp) hn
      · rfl
      · rfl
    rw [this, zero_mul]

theorem once_faithful (S : LinSolve 2 ℚ) (la : LinAlg 2 ℚ) : Faithful (onceLib S la) exBend ∧ Faithful (onceLib S la) exHalfY := by
  constructor
  · intro B deg tol g M norm err hB h
    have h0 : ¬ exBend (fun _ => 0) = -1 / 2 := by decide +kernel
    simp only [onceLib, if_neg h0] at h
    split_ifs at h with h1
    · simp at h
    · simp only [Prod.mk.injEq, Option.some.injEq] at h
      obtain ⟨rfl, rfl, rfl⟩ := h
      refine ⟨⟨fun i => by simp [exBendM], .inl (by simp [exBendM])⟩, fun t ht => ?_⟩
      have hw : 0 ≤ exBendErr B := by
        unfold exBendErr
        have : 0 ≤ (B.hi 0 - B.lo 0) / 2 := by have := hB 0; linarith
        positivity
      have t0 := abs_le.1 (ht 0)
      have h3 : |4 * t 0 ^ 3 - 3 * t 0| ≤ 1 := by
        rw [abs_le]
        constructor
        · have h4 := mul_nonneg (sub_nonneg.2 t0.1) (sq_nonneg (2 * t 0 - 1))
          have h5 : (t 0 - -1) * (2 * t 0 - 1) ^ 2 = 4 * t 0 ^ 3 - 3 * t 0 + 1 := by ring
          linarith
        · have h4 := mul_nonneg (sub_nonneg.2 t0.2) (sq_nonneg (2 * t 0 + 1))
          have h5 : (1 - t 0) * (2 * t 0 + 1) ^ 2 = 1 - (4 * t 0 ^ 3 - 3 * t 0) := by ring
          linarith
      rw [exBendM_eval, sub_sub_cancel, abs_mul, abs_of_nonneg hw]
      exact mul_le_of_le_one_right hw h3
  · intro B deg tol g M norm err hB h
    have h0 : exHalfY (fun _ => 0) = -1 / 2 := by decide +kernel
    simp only [onceLib, if_pos h0, Prod.mk.injEq, Option.some.injEq] at h
    obtain ⟨rfl, rfl, rfl⟩ := h
    refine ⟨⟨fun i => by simp [exAffine], .inl (by simp [exAffine])⟩, fun t ht => ?_⟩
    rw [exAffine_eval]
    simp only [exHalfY, toBox, Matrix.cons_val_zero, Matrix.cons_val_one]
    ring_nf
    norm_num

theorem descend_leaves {lib : NDLib 2 ℚ} (hS : lib.solve.Exact) {T : NDTols ℚ} (hT : T.checkEval = false) {f g : (Fin 2 → ℚ) → ℚ}
    {P Q : Box 2 ℚ → Tensor 2 ℚ × ℚ × ℚ} {a t : ℚ} (k lev : ℕ) (L : List (Box 2 ℚ))
    (hL : ∀ B ∈ L, lib.approx f (buffered B) 2 a none = (some (P B).1, (P B).2) ∧
      lib.approx g (buffered B) 2 a none = (some (Q B).1, (Q B).2) ∧ leafOk a t T false [P B, Q B] = true)
    (st : NDState 2 ℚ) (ha : st.absTol = a) (ht : st.targetTol = t) :
    descend (fun C => solveND lib T 1 false (k + 1) lev [f, g] C 2 [none, none] false) L st = .ok (L.foldl (fun s B => record s "Base Case"
      [fun i => (leafRoot a T [P B, Q B] i, 0)] (leafTol a T false [P B, Q B]) B (buffered B)) st) := by
  induction L generalizing st with
  | nil => rfl
  | cons B L ih =>
    obtain ⟨h1, h2, h3⟩ := hL B (by simp)
    subst ha ht
    rw [descend, leaf_run hS hT h1 h2 h3 k lev]
    simp only [List.foldl_cons]
    exact ih (fun C hC => hL C (by simp [hC])) _ rfl rfl

def onceArgs : TopArgs ℚ where
  deg := some 2
  first := ⟨1 / 10 ^ 10, 1 / 10 ^ 10, 1 / 10 ^ 15, 1 / 10 ^ 5, 100, false, 1⟩

def onceP (B : Box 2 ℚ) : Tensor 2 ℚ × ℚ × ℚ := (exAffine exHalfY (buffered B), 1, 0)
def onceQ (B : Box 2 ℚ) : Tensor 2 ℚ × ℚ × ℚ := (exBendM (buffered B), 1, exBendErr (buffered B))

/-- The four parts of `[-1, 1]^2`. -/
def onceBoxes : List (Box 2 ℚ) := (boolProduct 2).map fun spot => transformBox (fun _ => -1) (fun _ => 1) (subinterval spot)

theorem once_sub (S : LinSolve 2 ℚ) (la : LinAlg 2 ℚ) : getSubintervals S la (topState onceArgs : NDState 2 ℚ).data
    (fun _ => -1) (fun _ => 1) [] false = .ok (onceBoxes, (topState onceArgs : NDState 2 ℚ).data) := rfl

theorem once_boxes : onceBoxes.all (fun B => leafOk (1 / 10 ^ 10) (1 / 10 ^ 10) (clampTols onceArgs.first) false [onceP B, onceQ B] &&
    decide (¬ (1 / 10 ^ 10 + 1 / 10 ^ 15 < exBendErr (buffered B)))) = true := by decide +kernel

/-- After the four leaves. -/
def onceEnd : NDState 2 ℚ := onceBoxes.foldl (fun s B => record s "Base Case"
  [fun i => (leafRoot (1 / 10 ^ 10) (clampTols onceArgs.first) [onceP B, onceQ B] i, 0)]
  (leafTol (1 / 10 ^ 10) (clampTols onceArgs.first) false [onceP B, onceQ B]) B (buffered B)) (topState onceArgs)

theorem once_roots : onceEnd.tracker.keepDuplicates.roots.length = 2 := by decide +kernel

theorem once_tols : (topState onceArgs : NDState 2 ℚ).absTol = 1 / 10 ^ 10 ∧ (topState onceArgs : NDState 2 ℚ).targetTol = 1 / 10 ^ 10 := by
  decide +kernel

theorem once_err : (1 / 10 ^ 10 : ℚ) + 1 / 10 ^ 15 < exBendErr (buffered (Box.unit 2 ℚ)) := by decide +kernel

theorem once_bend : ¬ exBend (fun _ => 0) = -1 / 2 := by decide +kernel

theorem once_halfY : exHalfY (fun _ => 0) = -1 / 2 := by decide +kernel

theorem once_solve {S : LinSolve 2 ℚ} (hS : S.Exact) (la : LinAlg 2 ℚ) {T : NDTols ℚ} (hT : T = clampTols onceArgs.first) :
    solveND (onceLib S la) T 1 false 52 0 [exBend, exHalfY] (Box.unit 2 ℚ) 2 [none, none] false (topState onceArgs) = .ok onceEnd := by
  have hev : T.checkEval = false := by rw [hT]; rfl
  have hb := once_boxes
  have hd : descend (fun C => solveND (onceLib S la) T 1 false (50 + 1) (0 + 1) [exHalfY, exBend] C 2 [none, none] false) onceBoxes (topState onceArgs) =
      .ok onceEnd := by
    rw [descend_leaves (lib := onceLib S la) (P := onceP) (Q := onceQ) (a := 1 / 10 ^ 10) (t := 1 / 10 ^ 10) hS hev 50 (0 + 1) onceBoxes
      (fun B hB => ?_) _ once_tols.1 once_tols.2, hT]
    · rfl
    · have h := List.all_eq_true.1 hb B hB
      rw [Bool.and_eq_true, decide_eq_true_eq] at h
      refine ⟨?_, ?_, hT ▸ h.1⟩
      · simp only [onceLib, if_pos once_halfY, onceP]
      · simp only [onceLib, if_neg once_bend, if_neg h.2, onceQ]
  change ndBody (onceLib S la) T 1 false 0 (solveND (onceLib S la) T 1 false (50 + 1) (0 + 1)) _ [exBend, exHalfY] (Box.unit 2 ℚ) 2 [none, none] false
    (topState onceArgs) = _
  unfold ndBody
  have ha : approxLoop (onceLib S la) (buffered (Box.unit 2 ℚ)) 2 (topState onceArgs : NDState 2 ℚ).absTol
      ([exBend, exHalfY].zip [none, none]) [] = .inl (0, []) := by
    rw [once_tols.1]
    simp only [List.zip_cons_cons, approxLoop, onceLib, if_neg once_bend, if_pos once_err]
    rfl
  simp only [evalTols_off (onceLib S la) T hev, Bool.false_eq_true, if_false, ha]
  unfold ndSplit
  have hsub := once_sub (onceLib S la).solve (onceLib S la).rank
  change (match getSubintervals (onceLib S la).solve (onceLib S la).rank (topState onceArgs : NDState 2 ℚ).data (fun _ => -1) (fun _ => 1) [] false with
    | .error e => Except.error (NDError.checks e)
    | .ok (L, D) => descend (fun C => solveND (onceLib S la) T 1 false (50 + 1) (0 + 1) [exHalfY, exBend] C 2 [none, none] false) L
        { (topState onceArgs : NDState 2 ℚ) with data := D }) = _
  rw [hsub]
  exact hd

theorem solveKeep_of {lib : NDLib 2 ℚ} {T : NDTols ℚ} {targetDeg : ℕ} {trust : Bool} {fs : List ((Fin 2 → ℚ) → ℚ)} {deg : ℕ} {B : Box 2 ℚ}
    {st s : NDState 2 ℚ} (h : solveND lib T targetDeg trust 52 0 fs B deg (List.replicate fs.length none) false st = .ok s) :
    solveKeep lib T targetDeg trust fs deg B st = .ok { s with tracker := s.tracker.keepDuplicates } := by
  unfold solveKeep
  rw [h]

/-- **C85** (negation: every root is returned once).  The buffers of neighbouring boxes overlap, and `add_roots` only compares roots outside of their
box with what was found before.  For `x - m + ε (x - m)^3` and `y - 1/2`, where `m` is the place of the split, and approximations by Chebyshev series
of degree 2, there is one common zero and two roots are returned, with the default reductions. -/
theorem C85_once_false {S : LinSolve 2 ℚ} (hS : S.Exact) (la : LinAlg 2 ℚ) : ∃ (lib : NDLib 2 ℚ) (A : TopArgs ℚ) (fs : List ((Fin 2 → ℚ) → ℚ))
    (st : NDState 2 ℚ), lib.solve = S ∧ (∀ f ∈ fs, Faithful lib f) ∧ A.reductions = [.improveBound, .getBoundingParallelogram] ∧ A.targetDeg = 1 ∧
    subdivideTop lib A fs (fun _ => -1) (fun _ => 1) = .ok st ∧ (∃! x, ∀ f ∈ fs, f x = 0) ∧ st.tracker.roots.length = 2 := by
  refine ⟨onceLib S la, onceArgs, [exBend, exHalfY], { onceEnd with tracker := onceEnd.tracker.keepDuplicates }, rfl, fun f hf => ?_, rfl, rfl, ?_,
    ⟨![middleVal, 1 / 2], ?_, fun x hx => ?_⟩, once_roots⟩
  · simp only [List.mem_cons, List.not_mem_nil, or_false] at hf
    rcases hf with rfl | rfl
    · exact (once_faithful S la).1
    · exact (once_faithful S la).2
  · refine subdivideTop_eq (s := { onceEnd with tracker := onceEnd.tracker.keepDuplicates }) ?_ ?_
    · exact solveKeep_of (once_solve hS la rfl)
    · rw [show onceArgs.more.map clampTols = [] from rfl]; unfold polishLoop; rfl
  · intro f hf
    simp only [List.mem_cons, List.not_mem_nil, or_false] at hf
    rcases hf with rfl | rfl <;> simp [exBend, exHalfY]
  · have h0 : exBend x = 0 := hx _ (by simp)
    have h1 : exHalfY x = 0 := hx _ (by simp)
    have h2 : (x 0 - middleVal) * (1 + 408 / 10 ^ 12 * (x 0 - middleVal) ^ 2) = 0 := by
      rw [← h0]; unfold exBend; ring
    have h3 : x 0 = middleVal := by
      rcases mul_eq_zero.1 h2 with h | h
      · linarith
      · have := sq_nonneg (x 0 - middleVal)
        linarith
    have h4 : x 1 = 1 / 2 := by unfold exHalfY at h1; linarith
    ext i
    fin_cases i
    · exact h3
    · exact h4

/-! ### Potential roots -/

/-- No approximation is ever good enough. -/
def noneLib (S : LinSolve 2 ℚ) (la : LinAlg 2 ℚ) : NDLib 2 ℚ where
  approx := fun _ _ _ _ _ => (none, 1, 1)
  noise := fun _ _ => 0
  solve := S
  rank := la
  macaulay := fun _ => .ok none

theorem none_run (S : LinSolve 2 ℚ) (la : LinAlg 2 ℚ) {T : NDTols ℚ} {targetDeg : ℕ} {trust : Bool} (k : ℕ) :
    ∀ lev f g B g1 g2 deg u (st : NDState 2 ℚ), ∃ st', solveND (noneLib S la) T targetDeg trust k lev [f, g] B deg [g1, g2] u st = .ok st' ∧
      st.tracker.potentialRoots.length < st'.tracker.potentialRoots.length := by
  induction k with
  | zero =>
    intro lev f g B g1 g2 deg u st
    exact ⟨_, rfl, by simp [tooDeep, Tracker.addPotential]⟩
  | succ k ih =>
    intro lev f g B g1 g2 deg u st
    have hdesc : ∀ (L : List (Box 2 ℚ)) (st : NDState 2 ℚ), ∃ st', descend (fun C => solveND (noneLib S la) T targetDeg trust k (lev + 1)
        [g, f] C deg [none, none] false) L st = .ok st' ∧ st.tracker.potentialRoots.length + L.length ≤ st'.tracker.potentialRoots.length := by
      intro L
      induction L with
      | nil => intro st; exact ⟨st, rfl, le_rfl⟩
      | cons C L ihL =>
        intro st
        obtain ⟨s1, h1, a1⟩ := ih (lev + 1) g f C none none deg false st
        obtain ⟨s2, h2, a2⟩ := ihL s1
        exact ⟨s2, by rw [descend, h1]; exact h2, by simp only [List.length_cons]; omega⟩
    simp only [solveND]
    unfold ndBody
    simp only []
    have hev := (evalTols_data (noneLib S la) T lev deg [f, g] B u st).2
    generalize evalTols (noneLib S la) T lev deg [f, g] B u st = st1 at hev ⊢
    have ha : ∀ tol, approxLoop (noneLib S la) (buffered B) deg tol ([f, g].zip [g1, g2]) [] = .inl (0, []) := fun tol => rfl
    rw [ha]
    simp only [List.map_nil]
    unfold ndSplit
    have hg : getSubintervals (noneLib S la).solve (noneLib S la).rank st1.data B.lo B.hi [] false =
        .ok ((boolProduct 2).map fun spot => transformBox B.lo B.hi (subinterval spot), st1.data) := by
      unfold getSubintervals getBoundingInterval
      simp only [List.length_nil, if_true, ite_self]
      rfl
    rw [hg]
    obtain ⟨s, h1, h2⟩ := hdesc ((boolProduct 2).map fun spot => transformBox B.lo B.hi (subinterval spot)) { st1 with data := st1.data }
    refine ⟨s, h1, ?_⟩
    have hlen : ((boolProduct 2).map fun spot => transformBox B.lo B.hi (subinterval spot : Box 2 ℚ)).length = 4 := rfl
    rw [hlen] at h2
    simp only [hev] at h2
    omega

/-- `C85_potential` applies to a run of two rounds with potential roots. -/
example (S : LinSolve 2 ℚ) (la : LinAlg 2 ℚ) (f g : (Fin 2 → ℚ) → ℚ) (A : TopArgs ℚ) (T : NDTols ℚ) : ∃ st1 st : NDState 2 ℚ,
    subdivideTop (noneLib S la) { A with more := [] } [f, g] (fun _ => -1) (fun _ => 1) = .ok st1 ∧
    subdivideTop (noneLib S la) { A with more := [T] } [f, g] (fun _ => -1) (fun _ => 1) = .ok st ∧ st1.tracker.potentialRoots ≠ [] ∧
    st1.tracker.potentialRoots <+: st.tracker.potentialRoots := by
  have hk : ∀ (T : NDTols ℚ) (trust : Bool) (B : Box 2 ℚ) (s : NDState 2 ℚ), ∃ s', solveKeep (noneLib S la) T A.targetDeg trust [f, g]
      (A.deg.getD (defaultDeg [f, g].length)) B s = .ok s' ∧ s.tracker.potentialRoots.length < s'.tracker.potentialRoots.length := by
    intro T trust B s
    obtain ⟨s', h1, h2⟩ := none_run S la (T := T) (targetDeg := A.targetDeg) (trust := trust) 52 0 f g B none none
      (A.deg.getD (defaultDeg [f, g].length)) false s
    exact ⟨_, solveKeep_of h1, by rw [(Tracker.keep_eq _).2.1]; exact h2⟩
  obtain ⟨s1, h1, a1⟩ := hk (clampTols A.first) A.trust ⟨fun _ => -1, fun _ => 1⟩ (topState A)
  have hd : ∀ (L : List (Box 2 ℚ)) (s : NDState 2 ℚ), ∃ s', descend (polishOne (noneLib S la) (clampTols T) A.targetDeg [f, g]
      (A.deg.getD (defaultDeg [f, g].length))) L s = .ok s' := by
    intro L
    induction L with
    | nil => intro s; exact ⟨s, rfl⟩
    | cons B L ih =>
      intro s
      obtain ⟨s2, h2, -⟩ := hk (clampTols T) false B { s with data := { s.data with current_area := 0 } }
      obtain ⟨s3, h3⟩ := ih s2
      refine ⟨s3, ?_⟩
      have h2' : polishOne (noneLib S la) (clampTols T) A.targetDeg [f, g] (A.deg.getD (defaultDeg [f, g].length)) B s = .ok s2 := h2
      simp only [descend, h2', h3]
  obtain ⟨s2, h2⟩ := hd (s1.tracker.getPolish.1.map fun I => ⟨I.1, I.2⟩)
    { startRound (clampTols T) s1 with data := { s1.data with polishing := true }, tracker := s1.tracker.getPolish.2 }
  have e1 : subdivideTop (noneLib S la) { A with more := [] } [f, g] (fun _ => -1) (fun _ => 1) = .ok s1 := subdivideTop_eq h1 rfl
  have e2 : subdivideTop (noneLib S la) { A with more := [T] } [f, g] (fun _ => -1) (fun _ => 1) = .ok s2 := subdivideTop_two h1 h2
  refine ⟨s1, s2, e1, e2, fun h => ?_, (C85_potential (noneLib S la) { A with more := [T] } [f, g] (fun _ => -1) (fun _ => 1)
    (fun _ => by norm_num) s2 s1 e1 e2).1⟩
  rw [h] at a1
  simp at a1

end YRoots.Legacy
