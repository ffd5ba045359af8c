import Verif.Props.SubdivideTop
import Verif.Props.SolveNDExample

/-!
# Property C85: counterexamples and examples
-/

set_option linter.unusedSectionVars false
set_option linter.unusedVariables false

namespace YRoots.Legacy

open Finset

/-! ### Leaves in two variables -/

/-- The zero of two affine arrays. -/
def leafZero (c d : Tensor 2 ℚ) : Fin 2 → ℚ := fun i =>
  if i = 0 then (linCoef c 1 * d.const - linCoef d 1 * c.const) / (linCoef c 0 * linCoef d 1 - linCoef c 1 * linCoef d 0)
  else (linCoef d 0 * c.const - linCoef c 0 * d.const) / (linCoef c 0 * linCoef d 1 - linCoef c 1 * linCoef d 0)

theorem leafZero_solve {S : LinSolve 2 ℚ} (hS : S.Exact) {c d : Tensor 2 ℚ} (hc : ∀ i, c.shape i = 2) (hd : ∀ i, d.shape i = 2)
    (hdet : linCoef c 0 * linCoef d 1 - linCoef c 1 * linCoef d 0 ≠ 0) : solveLinearList S [c, d] = .ok (some (leafZero c d)) := by
  unfold solveLinearList
  have hl : [c, d].length = 1 + 1 := rfl
  rw [dif_pos hl]
  generalize hP : (fun i : Fin (1 + 1) => [c, d].get (i.cast hl.symm)) = P
  have h0 : P 0 = c := by rw [← hP]; rfl
  have h1 : P 1 = d := by rw [← hP]; rfl
  unfold solveLinear
  simp only []
  have hs : ∀ i j, (P i).shape j = 2 := by
    intro i j
    fin_cases i
    · exact h0 ▸ hc j
    · exact h1 ▸ hd j
  rw [if_neg (by push Not; intro i j; simp [hs])]
  have hA : ∀ i j, linearA P i j = linCoef (P i) j := fun i j => by simp [linearA, hs]
  have hdet' : (linearA P).det ≠ 0 := by
    rw [Matrix.det_fin_two]
    simp only [hA]
    rw [h0, h1]
    exact hdet
  obtain ⟨x, hx, he⟩ := (hS (linearA P) (-fun row => (P row).const)).1 hdet'
  rw [hx]
  have h2 : (linearA P).mulVec (leafZero c d) = -fun row => (P row).const := by
    ext i
    simp only [Matrix.mulVec, dotProduct, hA, Pi.neg_apply]
    refine (Fin.sum_univ_two (fun x : Fin 2 => linCoef (P i) x * leafZero c d x)).trans ?_
    fin_cases i
    · simp only [Fin.zero_eta, h0, leafZero, if_true, if_neg (show (1 : Fin 2) ≠ 0 by decide)]
      rw [← mul_div_assoc, ← mul_div_assoc, ← add_div, div_eq_iff hdet]
      ring
    · simp only [Fin.mk_one, h1, leafZero, if_true, if_neg (show (1 : Fin 2) ≠ 0 by decide)]
      rw [← mul_div_assoc, ← mul_div_assoc, ← add_div, div_eq_iff hdet]
      ring
  have : x = leafZero c d :=
    Matrix.mulVec_injective_of_isUnit ((Matrix.isUnit_iff_isUnit_det _).2 (isUnit_iff_ne_zero.2 hdet')) (he.trans h2.symm)
  rw [this]

/-- What makes a box a "Base Case": arrays `l` of degree 2, with norms and errors. -/
def leafOk (absTol targetTol : ℚ) (T : NDTols ℚ) (trust : Bool) (l : List (Tensor 2 ℚ × ℚ × ℚ)) : Bool :=
  let tr := trimCoeffs absTol T.relTol l
  tr.2 && (tr.1.zip l).all (fun p => decide (floorErr trust p.1.2 ≤ targetTol + T.relTol * p.2.2.1)) &&
    match tr.1 with
    | [(c, _), (d, _)] => decide ((∀ i, c.shape i = 2) ∧ (∀ i, d.shape i = 2) ∧ linCoef c 0 * linCoef d 1 - linCoef c 1 * linCoef d 0 ≠ 0)
    | _ => false

/-- The zero that is found then. -/
def leafRoot (absTol : ℚ) (T : NDTols ℚ) (l : List (Tensor 2 ℚ × ℚ × ℚ)) : Fin 2 → ℚ :=
  match (trimCoeffs absTol T.relTol l).1 with
  | [(c, _), (d, _)] => leafZero c d
  | _ => 0

/-- The tolerance for the zeros. -/
def leafTol (absTol : ℚ) (T : NDTols ℚ) (trust : Bool) (l : List (Tensor 2 ℚ × ℚ × ℚ)) : ℚ :=
  max T.minGood ((((trimCoeffs absTol T.relTol l).1.map fun p => floorErr trust p.2).map fun e => |e|).sum * T.factor)

theorem leaf_run {lib : NDLib 2 ℚ} (hS : lib.solve.Exact) {T : NDTols ℚ} (hT : T.checkEval = false) {trust : Bool} {f g : (Fin 2 → ℚ) → ℚ}
    {og : Box 2 ℚ} {st : NDState 2 ℚ} {p q : Tensor 2 ℚ × ℚ × ℚ} {g1 g2 : Option ℕ} {u : Bool}
    (hf : lib.approx f (buffered og) 2 (if u then st.targetTol else st.absTol) g1 = (some p.1, p.2))
    (hg : lib.approx g (buffered og) 2 (if u then st.targetTol else st.absTol) g2 = (some q.1, q.2))
    (h : leafOk st.absTol st.targetTol T trust [p, q] = true) (k lev : ℕ) :
    solveND lib T 1 trust (k + 1) lev [f, g] og 2 [g1, g2] u st = .ok (record st "Base Case"
      [fun i => (leafRoot st.absTol T [p, q] i, 0)] (leafTol st.absTol T trust [p, q]) og (buffered og)) := by
  change ndBody _ _ _ _ _ _ _ [f, g] og 2 [g1, g2] u st = _
  unfold ndBody
  have ha : approxLoop lib (buffered og) 2 (if u then st.targetTol else st.absTol) ([f, g].zip [g1, g2]) [] = .inr [p, q] := by
    simp only [List.zip_cons_cons, List.zip_nil_left, approxLoop, hf, hg]
    rfl
  simp only [evalTols_off lib T hT, ha]
  unfold leafOk at h
  unfold leafRoot leafTol ndGood
  simp only [] at h ⊢
  generalize htr : trimCoeffs st.absTol T.relTol [p, q] = tr at h ⊢
  obtain ⟨l, ok⟩ := tr
  simp only [Bool.and_eq_true] at h
  obtain ⟨⟨h1, h2⟩, h3⟩ := h
  match l, h2, h3 with
  | [(c, e1), (d, e2)], h2, h3 =>
    simp only [decide_eq_true_eq] at h3
    obtain ⟨hc, hd, hdet⟩ := h3
    subst h1
    simp only [List.zip_cons_cons, List.zip_nil_left, List.all_cons, List.all_nil, Bool.and_true, Bool.and_eq_true, decide_eq_true_eq] at h2
    rw [if_neg (by simp [hc, hd]), if_neg (by simp [h2.1, h2.2]), if_pos (by simp [hc, hd]), if_neg (by simp)]
    simp only [List.map_cons, List.map_nil, leafZero_solve hS hc hd hdet]
    rfl

theorem solveKeep_leaf {lib : NDLib 2 ℚ} (hS : lib.solve.Exact) {T : NDTols ℚ} (hT : T.checkEval = false) {trust : Bool} {f g : (Fin 2 → ℚ) → ℚ}
    {og : Box 2 ℚ} {st : NDState 2 ℚ} {p q : Tensor 2 ℚ × ℚ × ℚ}
    (hf : ∀ tol g, lib.approx f (buffered og) 2 tol g = (some p.1, p.2)) (hg : ∀ tol h, lib.approx g (buffered og) 2 tol h = (some q.1, q.2))
    (h : leafOk st.absTol st.targetTol T trust [p, q] = true) :
    solveKeep lib T 1 trust [f, g] 2 og st = .ok { record st "Base Case"
      [fun i => (leafRoot st.absTol T [p, q] i, 0)] (leafTol st.absTol T trust [p, q]) og (buffered og) with
      tracker := (record st "Base Case" [fun i => (leafRoot st.absTol T [p, q] i, 0)] (leafTol st.absTol T trust [p, q]) og
        (buffered og)).tracker.keepDuplicates } := by
  unfold solveKeep
  rw [show List.replicate [f, g].length (none : Option ℕ) = [none, none] from rfl,
    leaf_run hS hT (hf _ none) (hg _ none) h 51 0]

/-! ### Two rounds -/

theorem subdivideTop_eq {lib : NDLib 2 ℚ} {A : TopArgs ℚ} {fs : List ((Fin 2 → ℚ) → ℚ)} {a b : Fin 2 → ℚ} {s st : NDState 2 ℚ}
    (h : solveKeep lib (clampTols A.first) A.targetDeg A.trust fs (A.deg.getD (defaultDeg fs.length)) ⟨a, b⟩ (topState A) = .ok s)
    (h' : polishLoop lib A.targetDeg fs (A.deg.getD (defaultDeg fs.length)) (A.more.map clampTols) s = .ok st) :
    subdivideTop lib A fs a b = .ok st := by
  unfold subdivideTop
  simp only [h, h']

theorem subdivideTop_two {lib : NDLib 2 ℚ} {A : TopArgs ℚ} {fs : List ((Fin 2 → ℚ) → ℚ)} {a b : Fin 2 → ℚ} {s st : NDState 2 ℚ} {T : NDTols ℚ}
    (h : solveKeep lib (clampTols A.first) A.targetDeg A.trust fs (A.deg.getD (defaultDeg fs.length)) ⟨a, b⟩ (topState A) = .ok s)
    (h' : polishRound lib (clampTols T) A.targetDeg fs (A.deg.getD (defaultDeg fs.length)) s = .ok st) :
    subdivideTop lib { A with more := [T] } fs a b = .ok st := by
  refine subdivideTop_eq (s := s) h ?_
  simp only [List.map_cons, List.map_nil, polishLoop, h']

/-- Two rounds, the second one with a smaller target. -/
def exTopArgs : TopArgs ℚ where
  deg := some 2
  first := exAffTols
  more := [⟨1 / 10 ^ 5, 2 / 10 ^ 6, 1 / 10 ^ 15, 1 / 10 ^ 5, 100, false, 1⟩]

def exPair (B : Box 2 ℚ) : List (Tensor 2 ℚ × ℚ × ℚ) :=
  [(exAffine exSum (buffered B), 1, 1 / 10 ^ 6), (exAffine exDiff (buffered B), 1, 1 / 10 ^ 6)]

/-- After one leaf. -/
def exLeaf (T : NDTols ℚ) (trust : Bool) (l : List (Tensor 2 ℚ × ℚ × ℚ)) (og : Box 2 ℚ) (st : NDState 2 ℚ) : NDState 2 ℚ :=
  let s := record st "Base Case" [fun i => (leafRoot st.absTol T l i, 0)] (leafTol st.absTol T trust l) og (buffered og)
  { s with tracker := s.tracker.keepDuplicates }

def exTop1 : NDState 2 ℚ := exLeaf (clampTols exAffTols) false (exPair (Box.unit 2 ℚ)) (Box.unit 2 ℚ) (topState exTopArgs)

def exTopT : NDTols ℚ := clampTols ⟨1 / 10 ^ 5, 2 / 10 ^ 6, 1 / 10 ^ 15, 1 / 10 ^ 5, 100, false, 1⟩

def exTop2 : NDState 2 ℚ :=
  { startRound exTopT exTop1 with data := { exTop1.data with polishing := true, current_area := 0 }, tracker := exTop1.tracker.getPolish.2 }

def exTop3 : NDState 2 ℚ := exLeaf exTopT false (exPair (buffered (Box.unit 2 ℚ))) (buffered (Box.unit 2 ℚ)) exTop2

theorem exTop_run {S : LinSolve 2 ℚ} (hS : S.Exact) (la : LinAlg 2 ℚ) :
    subdivideTop (exAffLib S la) exTopArgs [exSum, exDiff] (fun _ => -1) (fun _ => 1) = .ok exTop3 := by
  have hap : ∀ (f : (Fin 2 → ℚ) → ℚ) (B : Box 2 ℚ), ((∀ i, -3 ≤ B.lo i) ∧ ∀ i, B.hi i ≤ 3) → ∀ d tol g,
      (exAffLib S la).approx f B d tol g = (some (exAffine f B), 1, 1 / 10 ^ 6) := fun f B h d tol g => if_pos h
  have h1 : (∀ i, -3 ≤ (buffered (Box.unit 2 ℚ)).lo i) ∧ ∀ i, (buffered (Box.unit 2 ℚ)).hi i ≤ 3 := by decide +kernel
  have h2 : (∀ i, -3 ≤ (buffered (buffered (Box.unit 2 ℚ))).lo i) ∧ ∀ i, (buffered (buffered (Box.unit 2 ℚ))).hi i ≤ 3 := by decide +kernel
  have r1 : solveKeep (exAffLib S la) (clampTols exAffTols) 1 false [exSum, exDiff] 2 (Box.unit 2 ℚ) (topState exTopArgs) = .ok exTop1 :=
    solveKeep_leaf (p := (exAffine exSum (buffered (Box.unit 2 ℚ)), 1, 1 / 10 ^ 6)) (q := (exAffine exDiff (buffered (Box.unit 2 ℚ)), 1, 1 / 10 ^ 6))
      hS rfl (fun tol g => hap _ _ h1 2 tol g) (fun tol g => hap _ _ h1 2 tol g) (by decide +kernel)
  have r2 : solveKeep (exAffLib S la) exTopT 1 false [exSum, exDiff] 2 (buffered (Box.unit 2 ℚ)) exTop2 = .ok exTop3 :=
    solveKeep_leaf (p := (exAffine exSum (buffered (buffered (Box.unit 2 ℚ))), 1, 1 / 10 ^ 6))
      (q := (exAffine exDiff (buffered (buffered (Box.unit 2 ℚ))), 1, 1 / 10 ^ 6))
      hS rfl (fun tol g => hap _ _ h2 2 tol g) (fun tol g => hap _ _ h2 2 tol g) (by decide +kernel)
  have r3 : exTop1.tracker.getPolish.1 = [((buffered (Box.unit 2 ℚ)).lo, (buffered (Box.unit 2 ℚ)).hi)] := by decide +kernel
  unfold subdivideTop
  rw [show exTopArgs.deg.getD (defaultDeg [exSum, exDiff].length) = 2 from rfl, show exTopArgs.targetDeg = 1 from rfl,
    show exTopArgs.trust = false from rfl, show exTopArgs.first = exAffTols from rfl,
    show (⟨fun _ => -1, fun _ => 1⟩ : Box 2 ℚ) = Box.unit 2 ℚ from rfl]
  simp only [r1]
  rw [show exTopArgs.more.map clampTols = [exTopT] from rfl]
  have r2' : polishOne (exAffLib S la) exTopT 1 [exSum, exDiff] 2 ⟨(buffered (Box.unit 2 ℚ)).lo, (buffered (Box.unit 2 ℚ)).hi⟩
      { startRound exTopT exTop1 with data := { exTop1.data with polishing := true }, tracker := exTop1.tracker.getPolish.2 } = .ok exTop3 := r2
  have r4 : polishRound (exAffLib S la) exTopT 1 [exSum, exDiff] 2 exTop1 = .ok exTop3 := by
    unfold polishRound
    simp only [r3, List.map_cons, List.map_nil, descend]
    rw [r2']
  simp only [polishLoop, r4]

theorem exTop_roots : exTop3.tracker.roots = [fun _ => 1 / 4] := by decide +kernel

/-- `C85_location`, `C85_cover_partial` and `C85_residual_partial` apply to this run with two rounds, which returns the zero. -/
example : ∃ (S : LinSolve 2 ℚ) (la : LinAlg 2 ℚ) (st : NDState 2 ℚ), S.Exact ∧ (∀ T : Finset (Fin 2), T.Nonempty → la.ExactOn T) ∧
    (∀ f ∈ [exSum, exDiff], AccurateInside (exAffLib S la) f) ∧ (∀ f ∈ [exSum, exDiff], Faithful (exAffLib S la) f) ∧
    exTopArgs.targetDeg = 1 ∧ (exTopArgs.more.getLastD exTopArgs.first).targetTol = 2 / 10 ^ 6 ∧
    (∀ d : ℕ, d = exTopArgs.deg.getD (defaultDeg [exSum, exDiff].length) ∨ d = 2 → ∀ f ∈ [exSum, exDiff], ∀ B,
      ((d * 2) ^ 2 - d ^ 2 : ℚ) * (exAffLib S la).noise f B ≤ 2 / 10 ^ 6) ∧
    subdivideTop (exAffLib S la) exTopArgs [exSum, exDiff] (fun _ => -1) (fun _ => 1) = .ok st ∧
    (∀ f ∈ [exSum, exDiff], f (fun _ => 1 / 4) = 0) ∧ st.tracker.roots = [fun _ => 1 / 4] := by
  obtain ⟨S, hS⟩ : ∃ S : LinSolve 2 ℚ, S.Exact := by
    refine ⟨fun A b => if A.det = 0 then none else some (A⁻¹.mulVec b), fun A b => ⟨fun h => ?_, fun h => if_pos h⟩⟩
    refine ⟨_, if_neg h, ?_⟩
    rw [Matrix.mulVec_mulVec, Matrix.mul_nonsing_inv _ (isUnit_iff_ne_zero.2 h), Matrix.one_mulVec]
  obtain ⟨la, hla⟩ := exists_exactOn 2 ℚ
  refine ⟨S, la, exTop3, hS, hla, fun f hf => ?_, fun f hf => ?_, rfl, rfl, fun d _ f _ B => ?_, exTop_run hS la, by decide +kernel, exTop_roots⟩
  · simp only [List.mem_cons, List.not_mem_nil, or_false] at hf
    rcases hf with rfl | rfl
    · exact (exAff_accurate S la).1
    · exact (exAff_accurate S la).2
  · simp only [List.mem_cons, List.not_mem_nil, or_false] at hf
    rcases hf with rfl | rfl
    · exact (exAff_faithful S la).1
    · exact (exAff_faithful S la).2
  · simp only [exAffLib, mul_zero]; norm_num

/-! ### `trust_small_evals` and polishing -/

/-- Without reductions, with approximations everywhere and a target below `macheps`, a call that does not trust small errors finds nothing. -/
theorem solveND_floor {lib : NDLib 2 ℚ} {T : NDTols ℚ} (hT : T.checkEval = false) {targetDeg : ℕ}
    (hlib : ∀ f B deg tol g, ∃ M err, lib.approx f B deg tol g = (some M, 1, err)) (k : ℕ) :
    ∀ lev f g B g1 g2 deg u (st : NDState 2 ℚ), st.targetTol + T.relTol < macheps → st.data.methods = [] →
      ∃ st', solveND lib T targetDeg false k lev [f, g] B deg [g1, g2] u st = .ok st' ∧ st'.tracker.roots = st.tracker.roots ∧
        st'.tracker.possibleDuplicates = st.tracker.possibleDuplicates ∧ st'.targetTol = st.targetTol ∧ st'.data.methods = [] := by
  induction k with
  | zero => intro lev f g B g1 g2 deg u st _ hm; exact ⟨_, rfl, rfl, rfl, rfl, hm⟩
  | succ k ih =>
    intro lev f g B g1 g2 deg u st ht hm
    simp only [solveND]
    unfold ndBody
    simp only [evalTols_off lib T hT]
    obtain ⟨M1, e1, h1⟩ := hlib f (buffered B) deg (if u then st.targetTol else st.absTol) g1
    obtain ⟨M2, e2, h2⟩ := hlib g (buffered B) deg (if u then st.targetTol else st.absTol) g2
    have ha : approxLoop lib (buffered B) deg (if u then st.targetTol else st.absTol) ([f, g].zip [g1, g2]) [] = .inr [(M1, 1, e1), (M2, 1, e2)] := by
      simp only [List.zip_cons_cons, List.zip_nil_left, approxLoop, h1, h2]
      rfl
    rw [ha]
    simp only []
    unfold ndGood
    simp only []
    have hgd : ∃ g1' g2', (if (trimCoeffs st.absTol T.relTol [(M1, 1, e1), (M2, 1, e2)]).2 = true then
        ((trimCoeffs st.absTol T.relTol [(M1, 1, e1), (M2, 1, e2)]).1.map Prod.fst).map fun c => some (min (c.shape 0) deg) else [g1, g2]) = [g1', g2'] := by
      split_ifs
      · exact ⟨_, _, rfl⟩
      · exact ⟨_, _, rfl⟩
    obtain ⟨g1', g2', hgd⟩ := hgd
    rw [hgd]
    have hdesc : ∀ (L : List (Box 2 ℚ)) (st : NDState 2 ℚ), st.targetTol + T.relTol < macheps → st.data.methods = [] →
        ∃ st', descend (fun C => solveND lib T targetDeg false k (lev + 1) [f, g] C deg [g1', g2'] true) L st = .ok st' ∧
          st'.tracker.roots = st.tracker.roots ∧ st'.tracker.possibleDuplicates = st.tracker.possibleDuplicates ∧
          st'.targetTol = st.targetTol ∧ st'.data.methods = [] := by
      intro L
      induction L with
      | nil => intro st ht hm; exact ⟨st, rfl, rfl, rfl, rfl, hm⟩
      | cons C L ihL =>
        intro st ht hm
        obtain ⟨s1, r1, a1, a2, a3, a4⟩ := ih (lev + 1) f g C g1' g2' deg true st ht hm
        obtain ⟨s2, r2, b1, b2, b3, b4⟩ := ihL s1 (by rw [a3]; exact ht) a4
        exact ⟨s2, by rw [descend, r1]; exact r2, b1.trans a1, b2.trans a2, b3.trans a3, b4⟩
    have hsplit : ∃ st', ndSplit lib B ((trimCoeffs st.absTol T.relTol [(M1, 1, e1), (M2, 1, e2)]).1.map fun p => (p.1, floorErr false p.2)) true
        (fun C => solveND lib T targetDeg false k (lev + 1) [f, g] C deg [g1', g2'] true) st = .ok st' ∧
          st'.tracker.roots = st.tracker.roots ∧ st'.tracker.possibleDuplicates = st.tracker.possibleDuplicates ∧
          st'.targetTol = st.targetTol ∧ st'.data.methods = [] := by
      unfold ndSplit getSubintervals
      simp only [hm, List.length_nil, ne_eq, not_true_eq_false, if_false]
      refine hdesc _ _ ht ?_
      have : ∀ (l : List (Box 2 ℚ)) (D : Data 2 ℚ), (l.foldl (fun D B => D.track "quadratic_check" B) D).methods = D.methods := by
        intro l
        induction l with
        | nil => intro D; rfl
        | cons C l ihl => intro D; exact (ihl _).trans rfl
      simp only [subdivide, this, hm]
    by_cases hc : ((((trimCoeffs st.absTol T.relTol [(M1, 1, e1), (M2, 1, e2)]).1.map Prod.fst).any fun c => decide (c.shape 0 > targetDeg + 1)) ||
        !(trimCoeffs st.absTol T.relTol [(M1, 1, e1), (M2, 1, e2)]).2) = true
    · rw [if_pos hc]; exact hsplit
    · rw [if_neg hc, if_pos]
      · exact hsplit
      · simp only [trimCoeffs, List.map_cons, List.map_nil, List.zip_cons_cons, List.zip_nil_left, List.any_cons, List.any_nil, Bool.or_false,
          Bool.or_eq_true, decide_eq_true_eq, floorErr, Bool.false_eq_true, if_false, mul_one]
        exact .inl (lt_of_lt_of_le ht (le_max_right _ _))

/-- Exact approximations of affine functions. -/
def exactLib (S : LinSolve 2 ℚ) (la : LinAlg 2 ℚ) : NDLib 2 ℚ where
  approx := fun f B _ _ _ => (some (exAffine f B), 1, 0)
  noise := fun _ _ => 0
  solve := S
  rank := la
  macaulay := fun _ => .ok none

/-- Tolerances below `macheps`. -/
def exSmall : NDTols ℚ := ⟨1 / 10 ^ 15, 1 / 10 ^ 17, 1 / 10 ^ 17, 1 / 10 ^ 5, 100, false, 1⟩

def exTrust : TopArgs ℚ where
  deg := some 2
  reductions := []
  trust := true
  first := exSmall

def exTrust1 : NDState 2 ℚ := exLeaf (clampTols exSmall) true [(exAffine exSum (buffered (Box.unit 2 ℚ)), 1, 0),
  (exAffine exDiff (buffered (Box.unit 2 ℚ)), 1, 0)] (Box.unit 2 ℚ) (topState exTrust)

def exTrust2 : NDState 2 ℚ :=
  { startRound (clampTols exSmall) exTrust1 with
    data := { exTrust1.data with polishing := true, current_area := 0 }
    tracker := exTrust1.tracker.getPolish.2 }

theorem exact_faithful (S : LinSolve 2 ℚ) (la : LinAlg 2 ℚ) : Faithful (exactLib S la) exSum ∧ Faithful (exactLib S la) exDiff := by
  constructor
  all_goals
    intro B deg tol g M norm err hB h
    simp only [exactLib, Prod.mk.injEq, Option.some.injEq] at h
    obtain ⟨rfl, rfl, rfl⟩ := h
    refine ⟨⟨fun i => by simp [exAffine], .inl (by simp [exAffine])⟩, fun t ht => ?_⟩
    rw [exAffine_eval]
    simp only [exSum, exDiff, toBox, Matrix.cons_val_zero, Matrix.cons_val_one]
    ring_nf
    norm_num

theorem exTrust_one {S : LinSolve 2 ℚ} (hS : S.Exact) (la : LinAlg 2 ℚ) :
    solveKeep (exactLib S la) (clampTols exSmall) 1 true [exSum, exDiff] 2 (Box.unit 2 ℚ) (topState exTrust) = .ok exTrust1 :=
  solveKeep_leaf (p := (exAffine exSum (buffered (Box.unit 2 ℚ)), 1, 0)) (q := (exAffine exDiff (buffered (Box.unit 2 ℚ)), 1, 0))
    hS rfl (fun tol g => rfl) (fun tol g => rfl) (by decide +kernel)

theorem exTrust_polish : exTrust1.tracker.getPolish.1 = [((buffered (Box.unit 2 ℚ)).lo, (buffered (Box.unit 2 ℚ)).hi)] := by decide +kernel

theorem exTrust2_tol : exTrust2.targetTol + (clampTols exSmall).relTol < macheps := by decide +kernel

theorem exTrust2_methods : exTrust2.data.methods = [] := rfl

theorem exTrust2_tracker : exTrust2.tracker.roots = [] ∧ exTrust2.tracker.possibleDuplicates = [] := ⟨rfl, rfl⟩

theorem solveKeep_of_ok {lib : NDLib 2 ℚ} {T : NDTols ℚ} {targetDeg deg : ℕ} {trust : Bool} {f g : (Fin 2 → ℚ) → ℚ} {B : Box 2 ℚ}
    {st s : NDState 2 ℚ} (h : solveND lib T targetDeg trust 52 0 [f, g] B deg [none, none] false st = .ok s) :
    solveKeep lib T targetDeg trust [f, g] deg B st = .ok { s with tracker := s.tracker.keepDuplicates } := by
  unfold solveKeep
  rw [show List.replicate [f, g].length (none : Option ℕ) = [none, none] from rfl, h]

theorem polishRound_one {lib : NDLib 2 ℚ} {T : NDTols ℚ} {targetDeg deg : ℕ} {fs : List ((Fin 2 → ℚ) → ℚ)} {B : Box 2 ℚ}
    {st s : NDState 2 ℚ} (hp : st.tracker.getPolish.1 = [(B.lo, B.hi)])
    (h : solveKeep lib T targetDeg false fs deg B { startRound T st with
      data := { st.data with polishing := true, current_area := 0 }
      tracker := st.tracker.getPolish.2 } = .ok s) : polishRound lib T targetDeg fs deg st = .ok s := by
  unfold polishRound
  simp only [hp, List.map_cons, List.map_nil, descend]
  have h' : polishOne lib T targetDeg fs deg ⟨B.lo, B.hi⟩
      { startRound T st with data := { st.data with polishing := true }, tracker := st.tracker.getPolish.2 } = .ok s := h
  rw [h']

theorem exTrust_two (S : LinSolve 2 ℚ) (la : LinAlg 2 ℚ) : ∃ s : NDState 2 ℚ,
    polishRound (exactLib S la) (clampTols exSmall) 1 [exSum, exDiff] 2 exTrust1 = .ok s ∧ s.tracker.roots = [] := by
  obtain ⟨s, r2, a1, a2, -⟩ := solveND_floor (lib := exactLib S la) (T := clampTols exSmall) rfl (targetDeg := 1)
    (fun f B deg tol g => ⟨_, _, rfl⟩) 52 0 exSum exDiff (buffered (Box.unit 2 ℚ)) none none 2 false exTrust2 exTrust2_tol exTrust2_methods
  have r4 : solveKeep (exactLib S la) (clampTols exSmall) 1 false [exSum, exDiff] 2 (buffered (Box.unit 2 ℚ)) exTrust2 =
      .ok { s with tracker := s.tracker.keepDuplicates } := solveKeep_of_ok r2
  refine ⟨{ s with tracker := s.tracker.keepDuplicates }, polishRound_one exTrust_polish r4, ?_⟩
  · rw [exTrust2_tracker.2] at a2
    rw [exTrust2_tracker.1] at a1
    simp only [Tracker.keepDuplicates, a2, List.foldl_nil]
    exact a1

theorem exTrust_top {S : LinSolve 2 ℚ} (hS : S.Exact) (la : LinAlg 2 ℚ) :
    subdivideTop (exactLib S la) exTrust [exSum, exDiff] (fun _ => -1) (fun _ => 1) = .ok exTrust1 :=
  subdivideTop_eq (exTrust_one hS la) (by rw [show exTrust.more.map clampTols = [] from rfl]; unfold polishLoop; rfl)

theorem exTrust_top2 {S : LinSolve 2 ℚ} (hS : S.Exact) (la : LinAlg 2 ℚ) {s : NDState 2 ℚ}
    (h : polishRound (exactLib S la) (clampTols exSmall) 1 [exSum, exDiff] 2 exTrust1 = .ok s) :
    subdivideTop (exactLib S la) { exTrust with more := [exTrust.first] } [exSum, exDiff] (fun _ => -1) (fun _ => 1) = .ok s := by
  exact subdivideTop_two (exTrust_one hS la) h

/-- **C85** (negation: further rounds keep the roots).  `trust_small_evals` is not passed on to the polishing rounds (line 185).  With approximations
that are exact, a target below `macheps` and `trust_small_evals=True`, one round returns the zero; a second round with the same tolerances returns
no root. -/
theorem C85_trust_false {S : LinSolve 2 ℚ} (hS : S.Exact) (la : LinAlg 2 ℚ) : ∃ (lib : NDLib 2 ℚ) (A : TopArgs ℚ) (fs : List ((Fin 2 → ℚ) → ℚ))
    (st st' : NDState 2 ℚ), lib.solve = S ∧ (∀ f ∈ fs, Faithful lib f) ∧ (∀ f ∈ fs, ∀ B d tol g, (lib.approx f B d tol g).2.2 = 0) ∧
    A.trust = true ∧ A.more = [] ∧
    subdivideTop lib A fs (fun _ => -1) (fun _ => 1) = .ok st ∧ st.tracker.roots = [fun _ => 1 / 4] ∧ (∀ f ∈ fs, f (fun _ => 1 / 4) = 0) ∧
    subdivideTop lib { A with more := [A.first] } fs (fun _ => -1) (fun _ => 1) = .ok st' ∧ st'.tracker.roots = [] := by
  have r1 := exTrust_one hS la
  obtain ⟨s, r6, hs⟩ := exTrust_two S la
  refine ⟨exactLib S la, exTrust, [exSum, exDiff], exTrust1, s, rfl, fun f hf => ?_,
    fun _ _ _ _ _ _ => rfl, rfl, rfl, ?_, by decide +kernel, by decide +kernel, ?_, hs⟩
  · simp only [List.mem_cons, List.not_mem_nil, or_false] at hf
    rcases hf with rfl | rfl
    · exact (exact_faithful S la).1
    · exact (exact_faithful S la).2
  · exact exTrust_top hS la
  · exact exTrust_top2 hS la r6

end YRoots.Legacy
