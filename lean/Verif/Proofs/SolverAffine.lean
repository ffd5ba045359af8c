import Verif.Proofs.AffineBounding
import Verif.Props.NoLostRoot

/-!
# Helper lemmas: a run of the recursive solver on an affine system
-/

set_option linter.unusedSectionVars false

namespace YRoots

open Finset

variable {n : ℕ} {K : Type*} [Field K] [LinearOrder K] [IsStrictOrderedRing K] [FloorSemiring K]

/-! ### Transforming and trimming systems -/

theorem AffSys.transform {Ms : Fin n → Tensor n K} {A : Matrix (Fin n) (Fin n) K} {c : Fin n → K} (h : AffSys Ms A c)
    (α β e : Fin n → K) (exact : Bool) :
    AffSys (transformChebToInterval Ms α β e exact).1 (Matrix.of fun i j => A i j * α j) (fun i => c i + ∑ j, A i j * β j) ∧
      ∀ i, e i ≤ (transformChebToInterval Ms α β e exact).2 i ∧
        ∀ j, e i + 2 * macheps * |A i j| ≤ (transformChebToInterval Ms α β e exact).2 i := by
  have key := fun i => transformCheb_affine exact (Ms i) (h i).1 α β (e i)
  refine ⟨fun i => ⟨(key i).1, ?_, fun j => ?_⟩, fun i => ⟨(key i).2.2.2.1, fun j => ?_⟩⟩
  · have := (key i).2.1
    simp only [(h i).2.1, (h i).2.2] at this
    rw [show (transformChebToInterval Ms α β e exact).1 i = (transformCheb (Ms i) α β (e i) exact).1 from rfl, this]
    congr 1
    exact sum_congr rfl fun j _ => mul_comm _ _
  · have := (key i).2.2.1 j
    rw [(h i).2.2] at this
    rw [show (transformChebToInterval Ms α β e exact).1 i = (transformCheb (Ms i) α β (e i) exact).1 from rfl, this, Matrix.of_apply,
      mul_comm]
  · have := (key i).2.2.2.2 j
    rw [(h i).2.2] at this
    exact this

theorem AffSys.trim {Ms : Fin n → Tensor n K} {A : Matrix (Fin n) (Fin n) K} {c : Fin n → K} (h : AffSys Ms A c)
    (e : Fin n → K) (r a : K) : AffSys (trimMs Ms e r a).1 A c ∧ (trimMs Ms e r a).2 = e := by
  have key := fun i => trimPoly_affine (Ms i) (h i).1 (e i) r a
  refine ⟨fun i => ⟨(key i).1.affine, (key i).1.const.trans (h i).2.1, fun j => ((key i).1.lin j).trans ((h i).2.2 j)⟩, ?_⟩
  funext i
  exact (key i).2

/-! ### The checks -/

theorem constantCheck_affine {Ms : Fin n → Tensor n K} {A : Matrix (Fin n) (Fin n) K} {c z e : Fin n → K} (h : AffSys Ms A c)
    (hz : ∀ i, c i + ∑ j, A i j * z j = 0) (hin : InCube z) (he : ∀ i, 0 ≤ e i) : constantCheck Ms e = false := by
  unfold constantCheck
  rw [decide_eq_false_iff_not]
  rintro ⟨i, hi⟩
  rw [ravel_zero, (h i).1.absSum, (h i).2.1] at hi
  simp only [(h i).2.2] at hi
  have h1 : |c i| ≤ ∑ j, |A i j| := by
    rw [show c i = -∑ j, A i j * z j by linarith [hz i], abs_neg]
    refine (abs_sum_le_sum_abs _ _).trans (sum_le_sum fun j _ => ?_)
    rw [abs_mul]
    exact mul_le_of_le_one_right (abs_nonneg _) (hin j)
  have := he i
  linarith

theorem Affine.quadPart {M : Tensor n K} (h : Affine M) (x : Fin n → K) : quadPart M x = M.eval x := by
  show _ = ∑ k ∈ M.idx, M.coef k * ∏ i, chebT (k i) (x i)
  unfold YRoots.quadPart
  apply sum_subset (filter_subset _ _)
  intro k hk hk'
  rw [mem_filter, not_and] at hk'
  have := hk' hk
  rw [h.high k hk (by omega), zero_mul]

theorem Affine.quadRest {M : Tensor n K} (h : Affine M) : quadRest M = 0 := by
  apply sum_eq_zero
  intro k hk
  rw [mem_filter] at hk
  rw [h.high k hk.1 (by omega), abs_zero]

theorem crossing_affine {Ms : Fin n → Tensor n K} {A B : Matrix (Fin n) (Fin n) K} {c z e : Fin n → K} (h : AffSys Ms A c)
    (hB : B * A = 1) (hz : ∀ i, c i + ∑ j, A i j * z j = 0) (hin : ∀ j, |z j| < 1) (he : ∀ i, 0 ≤ e i) (i : Fin n) :
    ¬ NoCrossing (Ms i) (quadRest (Ms i) + e i) := by
  have hAB := mul_eq_one_comm.1 hB
  obtain ⟨j, hj⟩ : ∃ j, A i j ≠ 0 := by
    by_contra hc
    push Not at hc
    have := congrFun (congrFun hAB i) i
    rw [Matrix.mul_apply, Matrix.one_apply_eq] at this
    simp [hc] at this
  have hval : ∀ δ : K, (Ms i).eval (Function.update z j (z j + δ)) = A i j * δ := by
    intro δ
    rw [(h i).1.eval, (h i).2.1]
    simp only [(h i).2.2]
    have : ∑ l, A i l * Function.update z j (z j + δ) l = ∑ l, A i l * z l + A i j * δ := by
      rw [← add_sum_erase _ _ (mem_univ j), ← add_sum_erase univ (fun l => A i l * z l) (mem_univ j), Function.update_self]
      have : ∑ l ∈ univ.erase j, A i l * Function.update z j (z j + δ) l = ∑ l ∈ univ.erase j, A i l * z l := by
        apply sum_congr rfl
        intro l hl
        rw [Function.update_of_ne (ne_of_mem_erase hl)]
      rw [this]
      ring
    rw [this]
    linarith [hz i]
  have hcube : ∀ δ : K, |δ| ≤ 1 - |z j| → InCube (Function.update z j (z j + δ)) := by
    intro δ hδ l
    by_cases hl : l = j
    · subst hl
      rw [Function.update_self]
      have := abs_add_le (z l) δ
      linarith
    · rw [Function.update_of_ne hl]; exact (hin l).le
  have hε : 0 < 1 - |z j| := by linarith [hin j]
  have hp : ∃ x, InCube x ∧ (Ms i).eval x < 0 := by
    rcases lt_or_gt_of_ne hj with hj | hj
    · exact ⟨_, hcube (1 - |z j|) (abs_of_pos hε).le, by rw [hval]; exact mul_neg_of_neg_of_pos hj hε⟩
    · exact ⟨_, hcube (-(1 - |z j|)) (by rw [abs_neg, abs_of_pos hε]), by rw [hval]; nlinarith⟩
  have hq : ∃ x, InCube x ∧ 0 < (Ms i).eval x := by
    rcases lt_or_gt_of_ne hj with hj | hj
    · exact ⟨_, hcube (-(1 - |z j|)) (by rw [abs_neg, abs_of_pos hε]), by rw [hval]; nlinarith⟩
    · exact ⟨_, hcube (1 - |z j|) (abs_of_pos hε).le, by rw [hval]; positivity⟩
  rw [(h i).1.quadRest, zero_add]
  rintro (hc | hc)
  · obtain ⟨x, hx, hv⟩ := hp
    have := hc x hx
    rw [(h i).1.quadPart] at this
    linarith [he i]
  · obtain ⟨x, hx, hv⟩ := hq
    have := hc x hx
    rw [(h i).1.quadPart] at this
    linarith [he i]

theorem quadraticCheck_noCrossing (la : LinAlg n K) (hla : n ≠ 2 → n ≠ 3 → ∀ S : Finset (Fin n), S.Nonempty → la.ExactOn S)
    (M : Tensor n K) (hM : M.Nonempty) (e : K) (h : quadraticCheck n la M e = true) : NoCrossing M (quadRest M + e) := by
  match n, la, hla, M, hM, h with
  | 0, la, hla, M, hM, h => exact (C45_quadND_iff_partial la (hla (by omega) (by omega)) M e).1 h
  | 1, la, hla, M, hM, h => exact (C45_quadND_iff_partial la (hla (by omega) (by omega)) M e).1 h
  | 2, _, _, M, hM, h => exact (C45_quad2D_iff M hM e).1 h
  | 3, _, _, M, hM, h => exact (C45_quad3D_iff M hM e).1 h
  | n + 4, la, hla, M, hM, h => exact (C45_quadND_iff_partial la (hla (by omega) (by omega)) M e).1 h

theorem quadraticDiscard_affine {env : Env n K} {la : LinAlg n K} {opts : Opts} (hok : env.OK la opts.all_dim_quadratic_check)
    {Ms : Fin n → Tensor n K} {A B : Matrix (Fin n) (Fin n) K} {c z e : Fin n → K} (h : AffSys Ms A c)
    (hB : B * A = 1) (hz : ∀ i, c i + ∑ j, A i j * z j = 0) (hin : ∀ j, |z j| < 1) (he : ∀ i, 0 ≤ e i) (hn : 0 < n) :
    quadraticDiscard env opts Ms e = false := by
  unfold quadraticDiscard
  by_contra hc
  rw [Bool.not_eq_false, Bool.and_eq_true, decide_eq_true_eq] at hc
  obtain ⟨h1, i, hi⟩ := hc
  rw [hok.quad] at hi
  refine crossing_affine h hB hz hin he i (quadraticCheck_noCrossing la (fun h2 h3 S hS => ?_) (Ms i) (h i).1.nonempty (e i) hi)
  apply hok.linAlg S hS
  rw [Bool.or_eq_true, Bool.and_eq_true, decide_eq_true_eq] at h1
  rcases h1 with h1 | h1
  · left; omega
  · exact .inr h1

/-! ### Zooms in the final step -/

theorem two_macheps : (2 * macheps : K) = (2 : K) ^ (-51 : ℤ) := by
  unfold macheps
  rw [zpow_neg]
  norm_num

theorem bounding_final {svd : SVD n K} {Ms : Fin n → Tensor n K} {A : Matrix (Fin n) (Fin n) K} {c : Fin n → K} (h : AffSys Ms A c)
    (hwc : svd.wellConditioned (equil A) = true) (e : Fin n → K) :
    boundingIntervalLinearSystem svd Ms e true = boundingIntervalLinearSystem svd Ms (fun _ => 0) false := by
  have hwc' : svd.wellConditioned (linSys Ms (fun _ => 0) false).A = true := by rw [linSys_affine h]; exact hwc
  unfold boundingIntervalLinearSystem
  rw [linSys_final]
  generalize linSys Ms (fun _ => 0) false = L at hwc' ⊢
  simp only [hwc', Bool.not_true, Bool.and_false]

theorem zoom_final {svd : SVD n K} (hv : svd.Valid) {Ms : Fin n → Tensor n K} {A B : Matrix (Fin n) (Fin n) K} {c t : Fin n → K}
    (h : AffSys Ms A c) (hB : B * A = 1) (hwc : svd.wellConditioned (equil A) = true) (hz : ∀ i, c i + ∑ j, A i j * t j = 0)
    (hin : ∀ j, |t j| + 2 * macheps ≤ 1) (e : Fin n → K) (ti : TrackedInterval n K) (exact : Bool) (hf : ti.finalStep = true)
    (hI : ∀ j, ti.interval.lo j < ti.interval.hi j) :
    ∃ r, zoomInOnIntervalIter svd Ms e ti exact = .ok r ∧ AffSys r.Ms (Matrix.of fun i j => A i j * (2 : K) ^ (-51 : ℤ)) (fun _ => 0) ∧
      r.ti = ti.applySub ⟨fun j => t j - 2 * macheps, fun j => t j + 2 * macheps⟩ ∧ r.changed = !r.ti.isPoint ∧
      r.shouldStop = r.ti.isPoint ∧ ∀ i, e i ≤ r.errors i := by
  have hm : (0 : K) < macheps := macheps_pos
  have hn := SVD.pos_of_wc hwc
  have hw0 : ∀ j, halfWidth B (fun _ => (0 : K)) j = 0 := fun j => by simp [halfWidth]
  have hb := bounding_cut hv h hB hwc hz (e := fun _ => 0) (fun _ => le_rfl) (fun j => by rw [hw0, add_zero]; exact hin j) (by
    simp only [hw0, zero_add]
    rw [prod_const, card_univ, Fintype.card_fin]
    have h1 : (2 * macheps : K) ≤ 1 / 2 := by unfold macheps; norm_num
    calc (2 * macheps : K) ^ n ≤ 2 * macheps := pow_le_of_le_one (by positivity) (by linarith) (by omega)
      _ < 99 / 100 := by linarith)
  simp only [hw0, sub_zero, add_zero] at hb
  have hsk : skipPointDims ti.interval ⟨fun j => t j - 2 * macheps, fun j => t j + 2 * macheps⟩ =
      ⟨fun j => t j - 2 * macheps, fun j => t j + 2 * macheps⟩ := by
    unfold skipPointDims
    simp only [fun j => (hI j).ne, if_false]
  have hno : ¬ ∃ i, t i - 2 * macheps > t i + 2 * macheps := by
    rintro ⟨i, hi⟩
    linarith
  have hadd : ti.addTransform ⟨fun j => t j - 2 * macheps, fun j => t j + 2 * macheps⟩ =
      ti.applySub ⟨fun j => t j - 2 * macheps, fun j => t j + 2 * macheps⟩ := by
    unfold TrackedInterval.addTransform
    rw [if_neg (fun h => hno h.1), if_neg hno]
  have hα : (fun i => (t i + 2 * macheps - (t i - 2 * macheps)) / 2) = fun _ : Fin n => (2 : K) ^ (-51 : ℤ) := by
    funext i
    rw [← two_macheps]
    ring
  have hβ : (fun i => (t i + 2 * macheps + (t i - 2 * macheps)) / 2) = t := by
    funext i
    ring
  have hff : (ti.applySub ⟨fun j => t j - 2 * macheps, fun j => t j + 2 * macheps⟩).finalStep = true := hf
  obtain ⟨T1, T2⟩ := h.transform (fun _ => (2 : K) ^ (-51 : ℤ)) t e exact
  simp only [hz] at T1
  unfold zoomInOnIntervalIter
  simp only [hf, bounding_final h hwc, hb, hsk, hadd, applySub_last, hff, hα, hβ, Bool.false_and, Bool.or_false, Bool.not_true,
    Bool.true_and, Bool.false_eq_true, if_false]
  cases hp : (ti.applySub ⟨fun j => t j - 2 * macheps, fun j => t j + 2 * macheps⟩).isPoint
  · refine ⟨_, rfl, T1, rfl, ?_, ?_, fun i => (T2 i).1⟩
    · simp [hp]
    · simp [hp]
  · refine ⟨_, rfl, T1, rfl, ?_, ?_, fun i => (T2 i).1⟩
    · simp [hp]
    · simp [hp]

/-- What the zoom loop of the final step returns. -/
structure FinalRes (ti : TrackedInterval n K) (z : Fin n → K) (r : ZoomResult n K) : Prop where
  empty : r.ti.empty = false
  stop : r.shouldStop = true
  final : r.ti.finalStep = true
  dup : r.ti.possibleDuplicateRoots = ti.possibleDuplicateRoots
  pre : r.ti.preFinalInterval = ti.preFinalInterval
  mid : r.ti.interval.map (fun _ => 0) = z

theorem applySub_size (ti : TrackedInterval n K) (t : Fin n → K) (hin : ∀ j, |t j| + 2 * macheps ≤ 1) :
    (∀ j, (ti.applySub ⟨fun j => t j - 2 * macheps, fun j => t j + 2 * macheps⟩).dimSize j = ti.dimSize j * (2 * macheps)) ∧
      (ti.applySub ⟨fun j => t j - 2 * macheps, fun j => t j + 2 * macheps⟩).interval.map (fun _ => 0) = ti.interval.map t := by
  have hm : (0 : K) < macheps := macheps_pos
  have ho : (⟨fun j => t j - 2 * macheps, fun j => t j + 2 * macheps⟩ : Box n K).Ordered := fun j => by
    show t j - 2 * macheps ≤ t j + 2 * macheps
    linarith
  have hw : (⟨fun j => t j - 2 * macheps, fun j => t j + 2 * macheps⟩ : Box n K).Within (Box.unit n K) := fun j => by
    have h1 := hin j
    have h3 := le_abs_self (t j)
    have h4 := neg_abs_le (t j)
    constructor
    · show -1 ≤ t j - 2 * macheps
      linarith
    · show t j + 2 * macheps ≤ 1
      linarith
  constructor
  · intro j
    unfold TrackedInterval.dimSize
    rw [TrackedInterval.applySub_interval ti _ ho hw]
    simp only [Box.map]
    ring
  · rw [TrackedInterval.applySub_map ti _ ho hw]
    congr 1
    funext j
    simp only [Box.map]
    ring

theorem zoomLoop_final {svd : SVD n K} (hv : svd.Valid) (exact : Bool) (mz k fuel : ℕ) (hk : k < fuel)
    {Ms : Fin n → Tensor n K} {A B : Matrix (Fin n) (Fin n) K} {c t : Fin n → K}
    (h : AffSys Ms A c) (hB : B * A = 1) (hwc : svd.wellConditioned (equil A) = true) (hz : ∀ i, c i + ∑ j, A i j * t j = 0)
    (hin : ∀ j, |t j| + 2 * macheps ≤ 1) (e : Fin n → K) (ti : TrackedInterval n K) (hf : ti.finalStep = true) (hem : ti.empty = false)
    (hI : ∀ j, ti.interval.lo j < ti.interval.hi j) (hsize : ∀ j, ti.dimSize j * (2 * macheps) ^ (k + 1) < 1 / 10 ^ 32) :
    ∃ r, zoomLoop svd exact mz fuel Ms e ti ti.dimSize 0 = .ok r ∧ FinalRes ti (ti.interval.map t) r := by
  have hm : (0 : K) < macheps := macheps_pos
  have hn := SVD.pos_of_wc hwc
  have hm1 : (2 * macheps : K) < 1 / 2 := by unfold macheps; norm_num
  induction k generalizing fuel Ms A B c t e ti with
  | zero =>
    obtain ⟨fuel, rfl⟩ : ∃ f, fuel = f + 1 := ⟨fuel - 1, by omega⟩
    obtain ⟨r, hr, hM, hti, hch, hst, -⟩ := zoom_final hv h hB hwc hz hin e ti exact hf hI
    obtain ⟨hs, hmid⟩ := applySub_size ti t hin
    have hp : r.ti.isPoint = true := by
      unfold TrackedInterval.isPoint
      rw [decide_eq_true_eq]
      intro j
      have h1 := hs j
      have h2 := hsize j
      rw [← hti] at h1
      unfold TrackedInterval.dimSize at h1 h2
      have h3 := hI j
      rw [abs_sub_comm, h1, abs_of_pos (by nlinarith)]
      simpa using h2
    have hre : r.ti.empty = false := by rw [hti]; exact hem
    refine ⟨r, ?_, hre, by rw [hst, hp], by rw [hti]; exact hf, by rw [hti]; rfl, by rw [hti]; rfl, by rw [hti]; exact hmid⟩
    unfold zoomLoop
    rw [hr]
    simp [hre, hch, hp]
  | succ k ih =>
    obtain ⟨fuel, rfl⟩ : ∃ f, fuel = f + 1 := ⟨fuel - 1, by omega⟩
    obtain ⟨r, hr, hM, hti, hch, hst, -⟩ := zoom_final hv h hB hwc hz hin e ti exact hf hI
    obtain ⟨hs, hmid⟩ := applySub_size ti t hin
    have hre : r.ti.empty = false := by rw [hti]; exact hem
    have hrf : r.ti.finalStep = true := by rw [hti]; exact hf
    have hsz : ∀ j, r.ti.dimSize j = ti.dimSize j * (2 * macheps) := by rw [hti]; exact hs
    have hpos : ∀ j, 0 < ti.dimSize j := fun j => sub_pos.2 (hI j)
    have hzc : ¬ ∀ i, r.ti.dimSize i ≥ ti.dimSize i / 2 := by
      intro hc
      have h1 := hc ⟨0, hn⟩
      rw [hsz] at h1
      have := hpos ⟨0, hn⟩
      nlinarith
    cases hp : r.ti.isPoint
    · have hrI : ∀ j, r.ti.interval.lo j < r.ti.interval.hi j := by
        intro j
        have := hsz j
        have h2 := hpos j
        have h3 : 0 < r.ti.dimSize j := by rw [this]; positivity
        exact sub_pos.1 h3
      have hB' : (Matrix.of fun i j => B i j * (2 : K) ^ (51 : ℤ)) * (Matrix.of fun i j => A i j * (2 : K) ^ (-51 : ℤ)) = 1 := by
        rw [← hB]
        ext i j
        rw [Matrix.mul_apply, Matrix.mul_apply]
        apply sum_congr rfl
        intro l _
        simp only [Matrix.of_apply]
        rw [zpow_neg]
        field_simp
      obtain ⟨r', hr', hfin⟩ := ih fuel (by omega) hM hB' (by rw [equil_scale]; exact hwc) (t := fun _ => 0) (by intro i; simp)
        (fun j => by rw [abs_zero]; linarith) r.errors r.ti hrf hre hrI (fun j => by
          have := hsize j
          rw [hsz j]
          calc ti.dimSize j * (2 * macheps) * (2 * macheps) ^ (k + 1) = ti.dimSize j * (2 * macheps) ^ (k + 1 + 1) := by ring
            _ < _ := this)
      refine ⟨r', ?_, hfin.empty, hfin.stop, hfin.final, ?_, ?_, ?_⟩
      · unfold zoomLoop
        rw [hr]
        simp only [hre, hch, hp, hzc, Bool.false_eq_true, if_false, Bool.not_false, true_and, Nat.zero_le, if_true]
        exact hr'
      · rw [hfin.dup, hti]; rfl
      · rw [hfin.pre, hti]; rfl
      · rw [hfin.mid, hti, hmid]
    · refine ⟨r, ?_, hre, by rw [hst, hp], hrf, by rw [hti]; rfl, by rw [hti]; rfl, by rw [hti]; exact hmid⟩
      unfold zoomLoop
      rw [hr]
      simp [hre, hch, hp]

/-! ### The call of the final step -/

theorem copy_final {ti : TrackedInterval n K} (hf : ti.finalStep = true) :
    ti.copy.finalStep = true ∧ ti.copy.empty = ti.empty ∧ ti.copy.interval = ti.interval ∧
      ti.copy.possibleDuplicateRoots = ti.possibleDuplicateRoots ∧ ti.copy.preFinalInterval = ti.preFinalInterval := by
  unfold TrackedInterval.copy
  simp [hf]

theorem solve_final {env : Env n K} {la : LinAlg n K} {opts : Opts} (hok : env.OK la opts.all_dim_quadratic_check) (fuel : ℕ) (hfu : 4 ≤ fuel)
    {Ms : Fin n → Tensor n K} {A B : Matrix (Fin n) (Fin n) K} {c t : Fin n → K}
    (h : AffSys Ms A c) (hB : B * A = 1) (hwc : env.svd.wellConditioned (equil A) = true) (hz : ∀ i, c i + ∑ j, A i j * t j = 0)
    (hin : ∀ j, |t j| + 2 * macheps ≤ 1) {e : Fin n → K} (he : ∀ i, 0 ≤ e i) (ti : TrackedInterval n K) (hf : ti.finalStep = true)
    (hem : ti.empty = false) (hdup : ti.possibleDuplicateRoots = []) (hI : ∀ j, 2 * macheps ≤ ti.dimSize j ∧ ti.dimSize j ≤ 2) :
    ∃ b s, solvePolyRecursive env fuel opts Ms ti e = .ok b ∧ b.1 ++ b.2 = [s] ∧ s.finalStep = true ∧ s.possibleDuplicateRoots = [] ∧
      s.preFinalInterval = ti.preFinalInterval ∧ s.interval.map (fun _ => 0) = ti.interval.map t := by
  have hm : (0 : K) < macheps := macheps_pos
  have hn := SVD.pos_of_wc hwc
  have hin' : ∀ j, |t j| < 1 := fun j => by linarith [hin j]
  obtain ⟨fuel, rfl⟩ : ∃ f, fuel = f + 1 := ⟨fuel - 1, by omega⟩
  have hp : ti.isPoint = false := by
    unfold TrackedInterval.isPoint
    rw [decide_eq_false_iff_not]
    intro hc
    have h1 := hc ⟨0, hn⟩
    have h2 := (hI ⟨0, hn⟩).1
    rw [abs_sub_comm] at h1
    have h3 : ti.dimSize ⟨0, hn⟩ < 1 / 10 ^ 32 := lt_of_le_of_lt (le_abs_self _) h1
    have h4 : (1 / 10 ^ 32 : K) < 2 * macheps := by unfold macheps; norm_num
    linarith
  obtain ⟨c1, c2, c3, c4, c5⟩ := copy_final hf
  obtain ⟨T1, T2⟩ := h.trim e (1 / 10 ^ 3) 0
  have hsize : ti.copy.dimSize = ti.dimSize := by funext j; simp only [TrackedInterval.dimSize, c3]
  obtain ⟨r, hr, hfin⟩ := zoomLoop_final hok.svd opts.exact opts.maxZoomCount 2 fuel (by omega) T1 hB hwc hz hin e ti.copy c1
    (c2.trans hem) (fun j => by rw [c3]; exact sub_pos.1 (lt_of_lt_of_le (by positivity) (hI j).1)) (fun j => by
      rw [hsize]
      have h1 := (hI j).2
      calc ti.dimSize j * (2 * macheps) ^ (2 + 1) ≤ 2 * (2 * macheps) ^ (2 + 1) := by gcongr
        _ < 1 / 10 ^ 32 := by unfold macheps; norm_num)
  have hcc := constantCheck_affine h hz (fun j => (hin' j).le) he
  have hq : ∀ l : ℕ, quadraticDiscard env { opts with level := l } Ms e = false := fun l =>
    quadraticDiscard_affine (opts := { opts with level := l }) hok h hB hz hin' he hn
  unfold solvePolyRecursive
  simp only [hp, hcc, hq, Bool.and_false, Bool.false_eq_true, if_false, T2, hr, hfin.empty, hfin.stop, if_true, hfin.final, Bool.true_or]
  refine ⟨_, r.ti, rfl, ?_, hfin.final, by rw [hfin.dup, c4, hdup], by rw [hfin.pre, c5], by rw [hfin.mid, c3]⟩
  unfold returnOne
  split_ifs <;> rfl

/-! ### The first call -/

/-- Half-widths of the box the first zoom leaves. -/
def boxWidth (B : Matrix (Fin n) (Fin n) K) (e : Fin n → K) (j : Fin n) : K := halfWidth B e j + 2 * macheps

theorem row_le {A B : Matrix (Fin n) (Fin n) K} (hB : B * A = 1) {e : Fin n → K} (he : ∀ i, 0 ≤ e i) (i j : Fin n) :
    |A i j| * halfWidth B e j ≤ e i + ∑ l ∈ univ.erase j, |A i l| * halfWidth B e l := by
  obtain ⟨x, h1, h2, h3⟩ := exists_extreme hB he j
  have h4 : A i j * x j = ∑ l, A i l * x l - ∑ l ∈ univ.erase j, A i l * x l := by
    rw [← add_sum_erase univ (fun l => A i l * x l) (mem_univ j)]
    ring
  have h5 : |A i j| * halfWidth B e j = |A i j * x j| := by
    rw [abs_mul, h1, abs_of_nonneg (halfWidth_nonneg B he j)]
  rw [h5, h4]
  refine (abs_sub _ _).trans (add_le_add (h3 i) ((abs_sum_le_sum_abs _ _).trans (sum_le_sum fun l _ => ?_)))
  rw [abs_mul]
  exact mul_le_mul_of_nonneg_left (h2 l) (abs_nonneg _)

theorem zoomLoop_first {svd : SVD n K} (hv : svd.Valid) (exact : Bool) (fuel : ℕ) (hfu : 2 ≤ fuel)
    {Ms : Fin n → Tensor n K} {A B : Matrix (Fin n) (Fin n) K} {c z e : Fin n → K}
    (h : AffSys Ms A c) (hB : B * A = 1) (hwc : svd.wellConditioned (equil A) = true)
    (hwc' : svd.wellConditioned (equil (Matrix.of fun i j => A i j * boxWidth B e j)) = true) (hz : ∀ i, c i + ∑ j, A i j * z j = 0)
    (he : ∀ i, 0 ≤ e i) (hin : ∀ j, |z j| + boxWidth B e j ≤ 1) (hvol : ∏ j, boxWidth B e j < 99 / 100) (ls : Fin n → K) :
    ∃ r, zoomLoop svd exact 25 fuel Ms e (TrackedInterval.new (Box.unit n K)) ls 0 = .ok r ∧
      AffSys r.Ms (Matrix.of fun i j => A i j * boxWidth B e j) (fun _ => 0) ∧
      r.ti = (TrackedInterval.new (Box.unit n K)).applySub ⟨fun j => z j - boxWidth B e j, fun j => z j + boxWidth B e j⟩ ∧
      r.shouldStop = true ∧ ∀ i, 0 ≤ r.errors i := by
  have hm : (0 : K) < macheps := macheps_pos
  have hhw : ∀ j, 0 ≤ halfWidth B e j := halfWidth_nonneg B he
  have hbp : ∀ j, 0 < boxWidth B e j := fun j => by unfold boxWidth; have := hhw j; linarith
  have hb := bounding_cut hv h hB hwc hz he (fun j => by have := hin j; unfold boxWidth at this; linarith) hvol
  have hbox : (⟨fun j => z j - halfWidth B e j - 2 * macheps, fun j => z j + halfWidth B e j + 2 * macheps⟩ : Box n K) =
      ⟨fun j => z j - boxWidth B e j, fun j => z j + boxWidth B e j⟩ := by
    unfold boxWidth
    congr 1 <;> funext j <;> ring
  rw [hbox] at hb
  set sub : Box n K := ⟨fun j => z j - boxWidth B e j, fun j => z j + boxWidth B e j⟩ with hsub
  set t0 : TrackedInterval n K := TrackedInterval.new (Box.unit n K) with ht0
  have hsk : skipPointDims t0.interval sub = sub := by
    unfold skipPointDims
    have : ∀ j : Fin n, ¬ (t0.interval.lo j = t0.interval.hi j) := fun j => by
      show ¬ ((-1 : K) = 1)
      norm_num
    simp only [this, if_false]
  have hno : ¬ ∃ i, sub.lo i > sub.hi i := by
    rintro ⟨i, hi⟩
    simp only [hsub] at hi
    linarith [hbp i]
  have hadd : t0.addTransform sub = t0.applySub sub := by
    unfold TrackedInterval.addTransform
    rw [if_neg (fun h => hno h.1), if_neg hno]
  have hα : (fun i => (sub.hi i - sub.lo i) / 2) = boxWidth B e := by
    funext i
    simp only [hsub]
    ring
  have hβ : (fun i => (sub.hi i + sub.lo i) / 2) = z := by
    funext i
    simp only [hsub]
    ring
  have hf : t0.finalStep = false := rfl
  have hff : (t0.applySub sub).finalStep = false := rfl
  obtain ⟨T1, T2⟩ := h.transform (boxWidth B e) z e exact
  simp only [hz] at T1
  set q := transformChebToInterval Ms (boxWidth B e) z e exact with hq
  have hz1 : zoomInOnIntervalIter svd Ms e t0 exact = .ok ⟨q.1, q.2, t0.applySub sub, true, false⟩ := by
    unfold zoomInOnIntervalIter
    simp only [hf, hb, hsk, hadd, applySub_last, hff, hα, hβ, Bool.false_and, Bool.or_false, Bool.not_true,
      Bool.false_eq_true, if_false, ← hq]
  have hB' : (Matrix.of fun i j => B i j / boxWidth B e i) * (Matrix.of fun i j => A i j * boxWidth B e j) = 1 := by
    ext i j
    have h3 := congrFun (congrFun hB i) j
    rw [Matrix.mul_apply] at h3 ⊢
    have : ∀ k, (Matrix.of fun i j => B i j / boxWidth B e i) i k * (Matrix.of fun i j => A i j * boxWidth B e j) k j =
        B i k * A k j * (boxWidth B e j / boxWidth B e i) := by
      intro k
      simp only [Matrix.of_apply]
      ring
    simp only [this]
    rw [← sum_mul, h3]
    by_cases hij : i = j
    · subst hij
      rw [div_self (hbp i).ne', mul_one]
    · simp [hij]
  have he2 : ∀ i, 0 ≤ q.2 i := fun i => (he i).trans (T2 i).1
  have hst := bounding_stall hv T1 hB' hwc' he2 (fun j => by
    have h1 : halfWidth (Matrix.of fun i j => B i j / boxWidth B e i) q.2 j = (∑ k, |B j k| * q.2 k) / boxWidth B e j := by
      unfold halfWidth
      rw [sum_div]
      apply sum_congr rfl
      intro k _
      rw [Matrix.of_apply, abs_div, abs_of_pos (hbp j)]
      ring
    rw [h1, one_le_div (hbp j)]
    have h2 : ∑ k, |B j k| * (e k + 2 * macheps * |A k j|) ≤ ∑ k, |B j k| * q.2 k :=
      sum_le_sum fun k _ => mul_le_mul_of_nonneg_left ((T2 k).2 j) (abs_nonneg _)
    have h3 : (1 : K) ≤ ∑ k, |B j k| * |A k j| := by
      have h4 := congrFun (congrFun hB j) j
      rw [Matrix.mul_apply, Matrix.one_apply_eq] at h4
      calc (1 : K) = |∑ k, B j k * A k j| := by rw [h4, abs_one]
        _ ≤ ∑ k, |B j k * A k j| := abs_sum_le_sum_abs _ _
        _ = _ := sum_congr rfl fun k _ => abs_mul _ _
    have h4 : ∑ k, |B j k| * (e k + 2 * macheps * |A k j|) = halfWidth B e j + 2 * macheps * ∑ k, |B j k| * |A k j| := by
      unfold halfWidth
      rw [mul_sum, ← sum_add_distrib]
      apply sum_congr rfl
      intro k _
      ring
    unfold boxWidth
    nlinarith) (fun i j => by
    simp only [Matrix.of_apply, abs_mul, abs_of_pos (hbp _)]
    have h1 := row_le hB he i j
    have h2 := (T2 i).2 j
    have h3 : ∑ l ∈ univ.erase j, |A i l| * halfWidth B e l ≤ ∑ l ∈ univ.erase j, |A i l| * boxWidth B e l :=
      sum_le_sum fun l _ => mul_le_mul_of_nonneg_left (by unfold boxWidth; linarith) (abs_nonneg _)
    have h4 : |A i j| * boxWidth B e j = |A i j| * halfWidth B e j + 2 * macheps * |A i j| := by unfold boxWidth; ring
    rw [h4]
    linarith)
  have hz2 : zoomInOnIntervalIter svd q.1 q.2 (t0.applySub sub) exact = .ok ⟨q.1, q.2, t0.applySub sub, false, true⟩ := by
    unfold zoomInOnIntervalIter
    simp only [hff, hst, Bool.false_and, Bool.or_false, Bool.not_false, Bool.false_eq_true, if_false, if_true]
  obtain ⟨f, rfl⟩ : ∃ f, fuel = f + 1 + 1 := ⟨fuel - 2, by omega⟩
  refine ⟨⟨q.1, q.2, t0.applySub sub, false, true⟩, ?_, T1, rfl, rfl, he2⟩
  have hem : (t0.applySub sub).empty = false := rfl
  have hle : ∀ (p : Prop) [Decidable p], (if p then 0 + 1 else 0) ≤ 25 := by
    intro p _
    split_ifs <;> omega
  unfold zoomLoop
  rw [hz1]
  simp only [hem, Bool.false_eq_true, if_false, true_and]
  rw [if_pos (hle _)]
  unfold zoomLoop
  rw [hz2]
  simp only [hem, Bool.false_eq_true, if_false, false_and]

end YRoots
