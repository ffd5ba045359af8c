import Verif.Proofs.SolveNDAffine
import Verif.Props.SolveNDExample

/-!
# Property C92: the legacy solver on systems of affine functions (`subdivision.py`)

Specification: `ExactAffine` and `NDTols.Usual` of `Proofs/SolveNDAffine`.
-/

set_option linter.unusedSectionVars false
set_option linter.unusedVariables false

namespace YRoots.Legacy

open Finset

variable {n : ℕ} {K : Type*} [Field K] [LinearOrder K] [IsStrictOrderedRing K]

theorem buffered_strict {B : Box n K} (h : ∀ i, B.lo i < B.hi i) : ∀ i, (buffered B).lo i < B.lo i ∧ B.hi i < (buffered B).hi i := fun i => by
  have := sub_pos.2 (h i)
  simp only [buffered]
  constructor <;> nlinarith

/-- One call with a zero inside of the box. -/
theorem solveKeep_inside (hn : 1 ≤ n) {lib : NDLib (n + 1) K} (hS : lib.solve.Exact) {T : NDTols K} (hT : T.Usual) {targetDeg : ℕ} (htd : 1 ≤ targetDeg)
    (trust : Bool) {fs : List ((Fin (n + 1) → K) → K)} (hlen : fs.length = n + 1) (hf : ∀ f ∈ fs, ExactAffine lib f) {deg : ℕ} (hd : 2 ≤ deg)
    {x : Fin (n + 1) → K} (hx : ∀ y, (∀ f ∈ fs, f y = 0) ↔ y = x) {og : Box (n + 1) K} (ho : ∀ i, og.lo i < x i ∧ x i < og.hi i)
    {st : NDState (n + 1) K} (hst : 0 ≤ st.absTol) (hst2 : macheps ≤ st.targetTol) (h1 : st.tracker.roots = []) (h2 : st.tracker.possibleDuplicates = [])
    (h3 : st.tracker.intervals = []) (h4 : st.tracker.potentialRoots = []) :
    ∃ st' B, solveKeep lib T targetDeg trust fs deg og st = .ok st' ∧ st'.tracker.roots = [x] ∧ st'.tracker.possibleDuplicates = [] ∧
      st'.tracker.intervals = [B] ∧ (∀ i, B.1 i < x i ∧ x i < B.2 i) ∧ st'.tracker.potentialRoots = [] := by
  have hlt : ∀ i, og.lo i < og.hi i := fun i => (ho i).1.trans (ho i).2
  obtain ⟨og2, cs, tol, s2, hog2, hcs, htol, hs2, hrun⟩ := solveND_affine hn (lib := lib) hT htd trust 51 0 hf (fun i => (hlt i).le) hd
    (gd := List.replicate fs.length none) (by simp) (fun g hg d hd => by rw [(List.mem_replicate.1 hg).2] at hd; simp at hd) false hst hst2
  have ho2 : ∀ i, og2.lo i < x i ∧ x i < og2.hi i := by
    intro i
    have := buffered_strict hlt i
    have := ho i
    rcases hog2 with rfl | rfl
    · exact this
    · constructor <;> linarith
  have hlt2 : ∀ i, og2.lo i < og2.hi i := fun i => (ho2 i).1.trans (ho2 i).2
  have hB : ∀ i, (buffered og2).lo i < x i ∧ x i < (buffered og2).hi i := by
    intro i
    have := buffered_strict hlt2 i
    have := ho2 i
    constructor <;> linarith
  obtain ⟨z, hz, hsol⟩ := (linear_solution hS (fun i => (hB i).1.trans (hB i).2) hlen hcs).1 x hx
  rw [hsol] at hrun
  simp only [] at hrun
  have hrec := record_inside (s := s2) (name := "Base Case") htol hz ho2 hB
  rw [hs2] at hrec
  unfold solveKeep
  rw [hrun]
  refine ⟨_, ((buffered og2).lo, (buffered og2).hi), rfl, ?_⟩
  simp only [Option.toList_some, List.map_cons, List.map_nil]
  rw [hrec]
  simp [Tracker.keepDuplicates, Tracker.addRoot, h1, h2, h3, h4, hB]

/-- One call without a zero near the box. -/
theorem solveKeep_outside (hn : 1 ≤ n) {lib : NDLib (n + 1) K} (hS : lib.solve.Exact) {T : NDTols K} (hT : T.Usual) {targetDeg : ℕ} (htd : 1 ≤ targetDeg)
    (trust : Bool) {fs : List ((Fin (n + 1) → K) → K)} (hlen : fs.length = n + 1) (hf : ∀ f ∈ fs, ExactAffine lib f) {deg : ℕ} (hd : 2 ≤ deg)
    {og : Box (n + 1) K} (hlt : ∀ i, og.lo i < og.hi i)
    (hx : (∃ x, (∀ y, (∀ f ∈ fs, f y = 0) ↔ y = x) ∧ ∃ i, x i < (buffered og).lo i - 1 / 10 ^ 9 ∨ (buffered og).hi i + 1 / 10 ^ 9 < x i) ∨
      ∀ y, ∃ f ∈ fs, f y ≠ 0)
    {st : NDState (n + 1) K} (hst : 0 ≤ st.absTol) (hst2 : macheps ≤ st.targetTol) (h1 : st.tracker = {}) :
    (∃ st', solveKeep lib T targetDeg trust fs deg og st = .ok st' ∧ st'.tracker = {}) ∨
      (∀ y, ∃ f ∈ fs, f y ≠ 0) ∧ solveKeep lib T targetDeg trust fs deg og st = .error (.linear .tooManyRoots) := by
  obtain ⟨og2, cs, tol, s2, hog2, hcs, htol, hs2, hrun⟩ := solveND_affine hn (lib := lib) hT htd trust 51 0 hf (fun i => (hlt i).le) hd
    (gd := List.replicate fs.length none) (by simp) (fun g hg d hd => by rw [(List.mem_replicate.1 hg).2] at hd; simp at hd) false hst hst2
  have hs := buffered_strict hlt
  have ho2 : ∀ i, (buffered og).lo i ≤ og2.lo i ∧ og2.hi i ≤ (buffered og).hi i := by
    intro i
    rcases hog2 with rfl | rfl
    · exact ⟨(hs i).1.le, (hs i).2.le⟩
    · exact ⟨le_rfl, le_rfl⟩
  have hlt2 : ∀ i, og2.lo i < og2.hi i := by
    intro i
    rcases hog2 with rfl | rfl
    · exact hlt i
    · exact (hs i).1.trans ((hlt i).trans (hs i).2)
  have hlt3 : ∀ i, (buffered og2).lo i < (buffered og2).hi i := fun i =>
    (buffered_strict hlt2 i).1.trans ((hlt2 i).trans (buffered_strict hlt2 i).2)
  have hL := linear_solution hS hlt3 hlen hcs
  have key : ∀ zero : Option (Fin (n + 1) → K), solveLinearList lib.solve cs = .ok zero →
      (∀ z ∈ zero.toList, ∃ i, toBox (buffered og2).lo (buffered og2).hi z i < og2.lo i - 1 / 10 ^ 9 ∨
        og2.hi i + 1 / 10 ^ 9 < toBox (buffered og2).lo (buffered og2).hi z i) →
      ∃ st', solveKeep lib T targetDeg trust fs deg og st = .ok st' ∧ st'.tracker = {} := by
    intro zero hz hout
    rw [hz] at hrun
    simp only [] at hrun
    unfold solveKeep
    rw [hrun]
    refine ⟨_, rfl, ?_⟩
    simp only []
    rw [record_outside (by rw [hs2, h1]) fun w hw => ?_, hs2, h1]
    · rfl
    · obtain ⟨z, hz, rfl⟩ := List.mem_map.1 hw
      exact hout z hz
  rcases hx with ⟨x, hx, i, hi⟩ | hno
  · obtain ⟨z, hz, hsol⟩ := hL.1 x hx
    refine .inl (key _ hsol fun w hw => ⟨i, ?_⟩)
    rw [Option.toList_some, List.mem_singleton] at hw
    rw [hw, hz]
    have := ho2 i
    rcases hi with hi | hi
    · left; linarith
    · right; linarith
  · rcases hL.2 hno with h | h
    · exact .inl (key _ h fun w hw => by simp at hw)
    · refine .inr ⟨hno, ?_⟩
      rw [h] at hrun
      unfold solveKeep
      rw [hrun]

theorem clampTols_usual {T : NDTols K} (h0 : 0 ≤ T.relTol) (h1 : macheps ≤ T.targetTol) (h2 : 0 ≤ T.minGood) : (clampTols T).Usual := by
  have : (0 : K) ≤ macheps := by unfold macheps; positivity
  exact ⟨h0, le_max_of_le_right (by positivity), h1, h2⟩

/-- A polishing round keeps the zero. -/
theorem polishLoop_inside (hn : 1 ≤ n) {lib : NDLib (n + 1) K} (hS : lib.solve.Exact) {targetDeg : ℕ} (htd : 1 ≤ targetDeg)
    {fs : List ((Fin (n + 1) → K) → K)} (hlen : fs.length = n + 1) (hf : ∀ f ∈ fs, ExactAffine lib f) {deg : ℕ} (hd : 2 ≤ deg)
    {x : Fin (n + 1) → K} (hx : ∀ y, (∀ f ∈ fs, f y = 0) ↔ y = x) : ∀ (l : List (NDTols K)), (∀ T ∈ l, T.Usual) →
      ∀ (st : NDState (n + 1) K) (B : (Fin (n + 1) → K) × (Fin (n + 1) → K)), st.tracker.roots = [x] → st.tracker.possibleDuplicates = [] →
      st.tracker.intervals = [B] → (∀ i, B.1 i < x i ∧ x i < B.2 i) → st.tracker.potentialRoots = [] →
      ∃ st', polishLoop lib targetDeg fs deg l st = .ok st' ∧ st'.tracker.roots = [x] ∧ st'.tracker.potentialRoots = [] := by
  intro l
  induction l with
  | nil => intro _ st B h1 _ _ _ h5; exact ⟨st, rfl, h1, h5⟩
  | cons T l ih =>
    intro hl st B h1 h2 h3 h4 h5
    have hT := hl T (by simp)
    obtain ⟨st', B', hs, r1, r2, r3, r4, r5⟩ := solveKeep_inside hn hS hT htd false hlen hf hd hx (og := ⟨B.1, B.2⟩) h4
      (st := { startRound T st with
        data := { st.data with polishing := true, current_area := 0 }, tracker := st.tracker.getPolish.2 }) hT.abs hT.target
      (by simp [Tracker.getPolish]) (by simpa [Tracker.getPolish] using h2) (by simp [Tracker.getPolish]) (by simpa [Tracker.getPolish] using h5)
    have hround : polishRound lib T targetDeg fs deg st = .ok st' := by
      unfold polishRound
      simp only [Tracker.getPolish, h3, List.dedup_cons_of_notMem (List.not_mem_nil), List.dedup_nil, List.map_cons, List.map_nil, descend]
      unfold polishOne
      simp only [Tracker.getPolish] at hs
      rw [hs]
    unfold polishLoop
    rw [hround]
    exact ih (fun T h => hl T (by simp [h])) st' B' r1 r2 r3 r4 r5

/-- Without intervals nothing is polished. -/
theorem polishLoop_empty {lib : NDLib (n + 1) K} {targetDeg : ℕ} {fs : List ((Fin (n + 1) → K) → K)} {deg : ℕ} : ∀ (l : List (NDTols K))
    (st : NDState (n + 1) K), st.tracker = {} → ∃ st', polishLoop lib targetDeg fs deg l st = .ok st' ∧ st'.tracker = {} := by
  intro l
  induction l with
  | nil => intro st h; exact ⟨st, rfl, h⟩
  | cons T l ih =>
    intro st h
    have hround : polishRound lib T targetDeg fs deg st = .ok { startRound T st with
        data := { st.data with polishing := true }, tracker := st.tracker.getPolish.2 } := by
      unfold polishRound
      simp [Tracker.getPolish, h, descend]
    unfold polishLoop
    rw [hround]
    exact ih _ (by simp [Tracker.getPolish, h])

/-- **C92** (zero inside).  A system of as many affine functions as variables, at least two, with exactly one common zero `x`: if `x` is strictly inside of
the box, `subdivide_to_linear` returns it and nothing else, for any number of polishing rounds. -/
theorem C92_inside (hn : 1 ≤ n) (lib : NDLib (n + 1) K) (hS : lib.solve.Exact) (A : TopArgs K) (htd : 1 ≤ A.targetDeg)
    (hA : ∀ T ∈ A.first :: A.more, 0 ≤ T.relTol ∧ macheps ≤ T.targetTol ∧ 0 ≤ T.minGood)
    (fs : List ((Fin (n + 1) → K) → K)) (hlen : fs.length = n + 1) (hf : ∀ f ∈ fs, ExactAffine lib f) (hd : ∀ d, A.deg = some d → 2 ≤ d)
    (x : Fin (n + 1) → K) (hx : ∀ y, (∀ f ∈ fs, f y = 0) ↔ y = x) (a b : Fin (n + 1) → K) (hab : ∀ i, a i < x i ∧ x i < b i) :
    ∃ st, subdivideTop lib A fs a b = .ok st ∧ st.tracker.roots = [x] ∧ st.tracker.potentialRoots = [] := by
  have hus : ∀ T ∈ A.first :: A.more, (clampTols T).Usual := fun T h => clampTols_usual (hA T h).1 (hA T h).2.1 (hA T h).2.2
  have hdeg : 2 ≤ A.deg.getD (defaultDeg fs.length) := by
    cases h : A.deg with
    | some d => exact hd d h
    | none =>
      rw [Option.getD_none, defaultDeg, hlen]
      by_cases h4 : n + 1 > 4
      · rw [if_pos h4]
      · rw [if_neg h4]
        obtain rfl | rfl | rfl : n = 1 ∨ n = 2 ∨ n = 3 := by omega
        all_goals simp
  obtain ⟨st, B, hs, r1, r2, r3, r4, r5⟩ := solveKeep_inside hn hS (hus A.first (by simp)) htd A.trust hlen hf hdeg hx (og := ⟨a, b⟩) hab
    (st := topState A) (hus A.first (by simp)).abs (hus A.first (by simp)).target rfl rfl rfl rfl
  unfold subdivideTop
  simp only [hs]
  exact polishLoop_inside hn hS htd hlen hf hdeg hx _ (fun T hT => by
    obtain ⟨T', hT', rfl⟩ := List.mem_map.1 hT
    exact hus T' (by simp [hT'])) st B r1 r2 r3 r4 r5

/-- **C92** (zero outside).  If the common zero is outside of the box by more than the tolerance, or there is no common zero, no root is returned
(in the second case an exception may be raised). -/
theorem C92_outside (hn : 1 ≤ n) (lib : NDLib (n + 1) K) (hS : lib.solve.Exact) (A : TopArgs K) (htd : 1 ≤ A.targetDeg)
    (hA : ∀ T ∈ A.first :: A.more, 0 ≤ T.relTol ∧ macheps ≤ T.targetTol ∧ 0 ≤ T.minGood)
    (fs : List ((Fin (n + 1) → K) → K)) (hlen : fs.length = n + 1) (hf : ∀ f ∈ fs, ExactAffine lib f) (hd : ∀ d, A.deg = some d → 2 ≤ d)
    (a b : Fin (n + 1) → K) (hab : ∀ i, a i < b i)
    (hx : (∃ x, (∀ y, (∀ f ∈ fs, f y = 0) ↔ y = x) ∧ ∃ i, x i < a i - (b i - a i) * (5 / 10 ^ 10) - 1 / 10 ^ 9 ∨
      b i + (b i - a i) * (5 / 10 ^ 10) + 1 / 10 ^ 9 < x i) ∨ ∀ y, ∃ f ∈ fs, f y ≠ 0) :
    (∃ st, subdivideTop lib A fs a b = .ok st ∧ st.tracker.roots = [] ∧ st.tracker.potentialRoots = []) ∨
      (∀ y, ∃ f ∈ fs, f y ≠ 0) ∧ subdivideTop lib A fs a b = .error (.linear .tooManyRoots) := by
  have hus : ∀ T ∈ A.first :: A.more, (clampTols T).Usual := fun T h => clampTols_usual (hA T h).1 (hA T h).2.1 (hA T h).2.2
  have hdeg : 2 ≤ A.deg.getD (defaultDeg fs.length) := by
    cases h : A.deg with
    | some d => exact hd d h
    | none =>
      rw [Option.getD_none, defaultDeg, hlen]
      by_cases h4 : n + 1 > 4
      · rw [if_pos h4]
      · rw [if_neg h4]
        obtain rfl | rfl | rfl : n = 1 ∨ n = 2 ∨ n = 3 := by omega
        all_goals simp
  unfold subdivideTop
  rcases solveKeep_outside hn hS (hus A.first (by simp)) htd A.trust hlen hf hdeg (og := ⟨a, b⟩) hab hx
    (st := topState A) (hus A.first (by simp)).abs (hus A.first (by simp)).target rfl with ⟨st, hs, h⟩ | ⟨hno, hs⟩
  · simp only [hs]
    obtain ⟨st', h1, h2⟩ := polishLoop_empty (lib := lib) (targetDeg := A.targetDeg) (fs := fs) (deg := A.deg.getD (defaultDeg fs.length))
      (A.more.map clampTols) st h
    exact .inl ⟨st', h1, by rw [h2], by rw [h2]⟩
  · simp only [hs]
    exact .inr ⟨hno, trivial⟩

/-! ### Non-vacuity -/

/-- Exact approximations. -/
def affineLib (S : LinSolve 2 ℚ) (la : LinAlg 2 ℚ) : NDLib 2 ℚ := { exAffLib S la with approx := fun f B _ _ _ => (some (exAffine f B), 1, 0) }

theorem affineLib_exact (S : LinSolve 2 ℚ) (la : LinAlg 2 ℚ) (p q r : ℚ) : ExactAffine (affineLib S la) fun y => p * y 0 + q * y 1 + r := by
  intro B deg tol g hB hd htol hg
  refine ⟨_, 1, rfl, by norm_num, fun i => le_rfl, fun k hk h => ?_, fun t => ?_⟩
  · rw [Fin.sum_univ_two] at h
    simp only [exAffine]
    rw [if_neg (by omega), if_neg (by omega), if_neg (by omega)]
  · rw [exAffine_eval]
    simp only [toBox, Matrix.cons_val_zero, Matrix.cons_val_one]
    ring

theorem exists_solve : ∃ S : LinSolve 2 ℚ, S.Exact := by
  refine ⟨fun A b => if A.det = 0 then none else some (A⁻¹.mulVec b), fun A b => ⟨fun h => ?_, fun h => if_pos h⟩⟩
  refine ⟨_, if_neg h, ?_⟩
  rw [Matrix.mulVec_mulVec, Matrix.mul_nonsing_inv _ (isUnit_iff_ne_zero.2 h), Matrix.one_mulVec]

/-- `x + y = 1/2`, `x - y = 0` on `[-1, 1]^2`, with two rounds of polishing; and on `[1, 2]^2`. -/
example : ∃ (lib : NDLib 2 ℚ) (A : TopArgs ℚ) (fs : List ((Fin 2 → ℚ) → ℚ)), A.more.length = 2 ∧ fs.length = 2 ∧
    (∃ st, subdivideTop lib A fs (fun _ => -1) (fun _ => 1) = .ok st ∧ st.tracker.roots = [fun _ => 1 / 4] ∧ st.tracker.potentialRoots = []) ∧
    ∃ st, subdivideTop lib A fs (fun _ => 1) (fun _ => 2) = .ok st ∧ st.tracker.roots = [] ∧ st.tracker.potentialRoots = [] := by
  obtain ⟨S, hS⟩ := exists_solve
  obtain ⟨la, -⟩ := exists_exactOn 2 ℚ
  have hA : ∀ T ∈ exAffTols :: [exAffTols, exAffTols], 0 ≤ T.relTol ∧ macheps ≤ T.targetTol ∧ 0 ≤ T.minGood := by
    intro T hT
    have : T = exAffTols := by simpa using hT
    rw [this]
    decide +kernel
  have hx : ∀ y : Fin 2 → ℚ, (∀ f ∈ [fun y : Fin 2 → ℚ => 1 * y 0 + 1 * y 1 + -(1 / 2), fun y => 1 * y 0 + (-1) * y 1 + 0], f y = 0) ↔
      y = fun _ => 1 / 4 := by
    intro y
    simp only [List.mem_cons, List.not_mem_nil, or_false, forall_eq_or_imp, forall_eq]
    constructor
    · rintro ⟨h1, h2⟩
      funext i
      fin_cases i
      · change y 0 = 1 / 4; linarith
      · change y 1 = 1 / 4; linarith
    · rintro rfl
      norm_num
  have hf : ∀ f ∈ [fun y : Fin 2 → ℚ => 1 * y 0 + 1 * y 1 + -(1 / 2), fun y => 1 * y 0 + (-1) * y 1 + 0], ExactAffine (affineLib S la) f := by
    intro f hf
    simp only [List.mem_cons, List.not_mem_nil, or_false] at hf
    rcases hf with rfl | rfl
    · exact affineLib_exact S la _ _ _
    · exact affineLib_exact S la _ _ _
  refine ⟨affineLib S la, { first := exAffTols, more := [exAffTols, exAffTols] }, _, rfl, rfl,
    C92_inside (n := 1) le_rfl (affineLib S la) hS _ le_rfl hA _ rfl hf (by simp) _ hx _ _ (fun _ => by norm_num), ?_⟩
  rcases C92_outside (n := 1) le_rfl (affineLib S la) hS { first := exAffTols, more := [exAffTols, exAffTols] } le_rfl hA _ rfl hf (by simp)
    (fun _ => 1) (fun _ => 2) (fun _ => by norm_num) (.inl ⟨_, hx, 0, .inl (by norm_num)⟩) with h | ⟨h, -⟩
  · exact h
  · obtain ⟨f, hf, hne⟩ := h fun _ => 1 / 4
    exact absurd ((hx _).2 rfl f hf) hne

end YRoots.Legacy
