import Verif.Proofs.Solve1D

/-!
# C75: the one-dimensional solver of `subdivision.py`; C76: the filters for roots
-/

namespace YRoots.Legacy

open Polynomial

/-! ### Specification -/

/-- The affine map of `[-1, 1]` onto `[a, b]`. -/
noncomputable def toInterval (a b x : ℝ) : ℝ := ((b - a) * x + (b + a)) / 2

/-- `q` has degree at most `N` and interpolates `f`, moved to `[-1, 1]`, at the `N + 1` Chebyshev extrema. -/
structure Interp1D (f : ℝ → ℝ) (a b : ℝ) (N : ℕ) (q : ℝ[X]) : Prop where
  degree : q.natDegree ≤ N
  values : ∀ j ≤ N, q.eval (Real.cos (j * Real.pi / N)) = f (toInterval a b (Real.cos (j * Real.pi / N)))

/-- The largest value of `|f|` at these points. -/
structure Norm1D (f : ℝ → ℝ) (a b : ℝ) (N : ℕ) (norm : ℝ) : Prop where
  upper : ∀ j ≤ N, |f (toInterval a b (Real.cos (j * Real.pi / N)))| ≤ norm
  attained : ∃ j ≤ N, norm = |f (toInterval a b (Real.cos (j * Real.pi / N)))|

/-- All complex roots of `p` (with multiplicity) within `tol` of `[-1, 1]` in the sense of the solver; their real parts are moved to `[a, b]`. -/
noncomputable def rootsNear (p : ℝ[X]) (tol a b : ℝ) : Multiset ℝ := by
  classical
  exact ((p.map (algebraMap ℝ ℂ)).roots.filter fun z => ‖z‖ ≤ 1 + tol ∧ |z.im| < tol).map fun z => toInterval a b z.re

/-- The tolerance for roots that belongs to a bound for the error of the approximation. -/
noncomputable def rootTol (T : Tols1D) (trust : Bool) (err : ℝ) : ℝ := max T.minGood ((if trust then err else max err T.macheps) * T.factor)

/-- What is known of a tracked interval and the roots added for it: none if it is too small; else those of a polynomial that differs
from the interpolant of degree `2 deg` by at most `err`, and `err` is within the tolerance. -/
def LeafOK (T : Tols1D) (f : ℝ → ℝ) (deg : ℕ) (trust : Bool) (t : Tracked) (roots : List ℝ) : Prop :=
  match t.label with
  | .tooDeep => roots = []
  | .macaulay => ∃ (q q2 p : ℝ[X]) (norm err : ℝ), Interp1D f t.lo t.hi deg q ∧ Interp1D f t.lo t.hi (2 * deg) q2 ∧
      Norm1D f t.lo t.hi (2 * deg) norm ∧ err ≤ T.absTol + T.relTol * norm ∧ p.natDegree ≤ deg ∧
      (∀ x, |x| ≤ 1 → |q2.eval x - p.eval x| ≤ err) ∧ (∀ x, |x| ≤ 1 → |q2.eval x - q.eval x| ≤ err) ∧
      (roots : Multiset ℝ) = rootsNear p (rootTol T trust err) t.lo t.hi

/-- The intervals follow each other from `a` to `b`. -/
def Tiles : ℝ → List Tracked → ℝ → Prop
  | a, [], b => a = b
  | a, t :: ts, b => t.lo = a ∧ t.lo ≤ t.hi ∧ Tiles t.hi ts b

/-! ### Helper lemmas -/

theorem Tiles.append {a m b : ℝ} {s t : List Tracked} (hs : Tiles a s m) (ht : Tiles m t b) : Tiles a (s ++ t) b := by
  induction s generalizing a with
  | nil => have : a = m := hs; rw [this]; exact ht
  | cons x s ih => exact ⟨hs.1, hs.2.1, ih hs.2.2⟩

theorem Tiles.cover {a b x : ℝ} {s : List Tracked} (hs : Tiles a s b) (hne : s ≠ []) (h1 : a ≤ x) (h2 : x ≤ b) :
    ∃ t ∈ s, t.lo ≤ x ∧ x ≤ t.hi := by
  induction s generalizing a with
  | nil => exact absurd rfl hne
  | cons t s ih =>
    obtain ⟨e, -, h⟩ := hs
    by_cases hx : x ≤ t.hi
    · exact ⟨t, List.mem_cons_self, e.trans_le h1, hx⟩
    · cases s with
      | nil =>
        have e2 : t.hi = b := h
        exact absurd (h2.trans_eq e2.symm) hx
      | cons u s =>
        obtain ⟨v, hv, h3⟩ := ih h (by simp) (not_le.1 hx).le
        exact ⟨v, List.mem_cons_of_mem _ hv, h3⟩

theorem interp1D_approx (f : ℝ → ℝ) (a b : ℝ) {deg : ℕ} (hd : 1 ≤ deg) : Interp1D f a b deg (chebReal (approx1D f a b deg)) := by
  refine ⟨(chebReal_natDegree _).trans (by rw [approx1D_length]; omega), fun j hj => ?_⟩
  rw [approx1D_eval f a b hd]
  exact (interp_interpolates (asMaker f a b) (fun _ => deg) fun _ => hd).interpolates (fun _ => j) fun _ => hj

theorem norm1D_infNorm (f : ℝ → ℝ) (a b : ℝ) {deg : ℕ} (hd : 1 ≤ deg) : Norm1D f a b deg (infNorm1D f a b deg) :=
  ⟨(infNorm1D_spec f a b hd).1, (infNorm1D_spec f a b hd).2⟩

theorem goodZeros1D_eq (l : List (Option ℂ)) (p : ℝ[X]) (tol a b : ℝ)
    (h : ((l.filterMap id : List ℂ) : Multiset ℂ) = (p.map (algebraMap ℝ ℂ)).roots) :
    (((goodZeros1D l tol tol).map fun z => transform1 z a b : List ℝ) : Multiset ℝ) = rootsNear p tol a b := by
  classical
  unfold rootsNear goodZeros1D
  rw [← h, Multiset.filter_coe, Multiset.map_coe, List.filter_filter, List.map_map]
  congr 2
  apply List.filter_congr
  intro z _
  unfold test
  by_cases h1 : ‖z‖ ≤ 1 + tol <;> by_cases h2 : |z.im| < tol <;> simp [h1, h2]

theorem leaf_macaulay {E : OneD.Eigen} (hE : E.OK) (T : Tols1D) (f : ℝ → ℝ) {deg : ℕ} (hd : 1 ≤ deg) (trust : Bool) (a b : ℝ)
    (zeros : List (Option ℂ)) (herr : ¬ error1D (approx1D f a b deg) (approx1D f a b (deg * 2)) > T.absTol + T.relTol * infNorm1D f a b (deg * 2))
    (hz : OneD.multCheb E (trimLoop1D (T.absTol + T.relTol * infNorm1D f a b (deg * 2)) (approx1D f a b deg).reverse
      (error1D (approx1D f a b deg) (approx1D f a b (deg * 2)))).1.reverse true = .ok zeros) :
    LeafOK T f deg trust ⟨.macaulay, a, b⟩ ((goodZeros1D zeros
      (rootTol T trust (trimLoop1D (T.absTol + T.relTol * infNorm1D f a b (deg * 2)) (approx1D f a b deg).reverse
        (error1D (approx1D f a b deg) (approx1D f a b (deg * 2)))).2)
      (rootTol T trust (trimLoop1D (T.absTol + T.relTol * infNorm1D f a b (deg * 2)) (approx1D f a b deg).reverse
        (error1D (approx1D f a b deg) (approx1D f a b (deg * 2)))).2)).map fun z => transform1 z a b) := by
  have hd2 : 1 ≤ deg * 2 := by omega
  set allowed := T.absTol + T.relTol * infNorm1D f a b (deg * 2) with hallowed
  set err := error1D (approx1D f a b deg) (approx1D f a b (deg * 2)) with herr'
  obtain ⟨d, h1, h2, h3, h4, -⟩ := trimLoop1D_spec allowed (approx1D f a b deg).reverse err
    (by rw [Ne, List.reverse_eq_nil_iff]; intro h0; have := approx1D_length f a b deg; rw [h0] at this; simp at this) (not_lt.1 herr)
  set r := trimLoop1D allowed (approx1D f a b deg).reverse err with hr
  have hc : approx1D f a b deg = r.1.reverse ++ d.reverse := by
    rw [← List.reverse_append, ← h1, List.reverse_reverse]
  have hq : ∀ x, |x| ≤ 1 → |(chebReal (approx1D f a b (deg * 2))).eval x - (chebReal (approx1D f a b deg)).eval x| ≤ err := by
    intro x hx
    rw [approx1D_eval f a b hd2, approx1D_eval f a b hd, mul_comm deg 2, herr', error1D_eq f a b hd]
    exact abs_sub_le_getErr _ _ (fun i => by rw [interp_shape, interp_shape]; dsimp only; omega) _ fun _ => hx
  have hs0 : 0 ≤ (d.map abs).sum := List.sum_nonneg fun x hx => by
    obtain ⟨y, -, rfl⟩ := List.mem_map.1 hx
    exact abs_nonneg y
  refine ⟨chebReal (approx1D f a b deg), chebReal (approx1D f a b (deg * 2)), chebReal r.1.reverse, infNorm1D f a b (deg * 2), r.2,
    interp1D_approx f a b hd, mul_comm deg 2 ▸ interp1D_approx f a b hd2, mul_comm deg 2 ▸ norm1D_infNorm f a b hd2, h4, ?_, fun x hx => ?_,
    fun x hx => ?_, ?_⟩
  · refine (chebReal_natDegree _).trans ?_
    have := congrArg List.length hc
    rw [approx1D_length, List.length_append] at this
    omega
  · have e1 := chebReal_append r.1.reverse d.reverse x hx
    rw [← hc, List.map_reverse, List.sum_reverse] at e1
    have e2 := hq x hx
    rw [h2]
    have := abs_add_le ((chebReal (approx1D f a b (deg * 2))).eval x - (chebReal (approx1D f a b deg)).eval x)
      ((chebReal (approx1D f a b deg)).eval x - (chebReal r.1.reverse).eval x)
    rw [sub_add_sub_cancel] at this
    linarith
  · have := hq x hx
    rw [h2]
    linarith
  · refine goodZeros1D_eq zeros _ _ a b ?_
    exact multCheb_ok hE _ (by simpa using h3) zeros hz

theorem rand1D_pos : 0 < RAND1D := by unfold RAND1D; norm_num

theorem rand1D_lt : RAND1D < 1 := by unfold RAND1D; norm_num

/-! ### The solver -/

/-- **C75.** Whenever `subdivision_solve_1d` returns, the intervals it has tracked follow each other from `a` to `b` and cover `[a, b]`; those
that are "Too Deep" are at most `0.514^left (b - a)` long, and contribute no roots; for every other one the roots added are exactly the roots
near the interval, with multiplicity, of a polynomial that is within the tolerance of the interpolant of `f`. -/
theorem C75_solve {E : OneD.Eigen} (hE : E.OK) (T : Tols1D) (f : ℝ → ℝ) {deg : ℕ} (hd : 1 ≤ deg) (left : ℕ) (trust : Bool) (a b : ℝ)
    (hab : a ≤ b) (ts : List Tracked) (rs : List ℝ) (h : solve1D E T f deg left trust a b = .ok (ts, rs)) :
    Tiles a ts b ∧ (∀ x, a ≤ x → x ≤ b → ∃ t ∈ ts, t.lo ≤ x ∧ x ≤ t.hi) ∧
      (∀ t ∈ ts, t.label = .tooDeep → t.hi - t.lo ≤ RAND1D ^ left * (b - a)) ∧
      ∃ rss : List (List ℝ), rs = rss.flatten ∧ List.Forall₂ (LeafOK T f deg (trust && decide (ts.length = 1))) ts rss := by
  suffices H : ts ≠ [] ∧ Tiles a ts b ∧ (∀ t ∈ ts, t.label = .tooDeep → t.hi - t.lo ≤ RAND1D ^ left * (b - a)) ∧
      ∃ rss : List (List ℝ), rs = rss.flatten ∧ List.Forall₂ (LeafOK T f deg (trust && decide (ts.length = 1))) ts rss from
    ⟨H.2.1, fun x h1 h2 => H.2.1.cover H.1 h1 h2, H.2.2⟩
  induction left generalizing trust a b ts rs with
  | zero =>
    simp only [solve1D, Except.ok.injEq, Prod.mk.injEq] at h
    obtain ⟨rfl, rfl⟩ := h
    exact ⟨by simp, ⟨rfl, hab, rfl⟩, by simp, [[]], by simp, .cons rfl .nil⟩
  | succ left ih =>
    simp only [solve1D] at h
    by_cases herr : error1D (approx1D f a b deg) (approx1D f a b (deg * 2)) > T.absTol + T.relTol * infNorm1D f a b (deg * 2)
    · rw [if_pos herr] at h
      set m := a + (b - a) * RAND1D with hm
      have hR := rand1D_pos
      have hR1 := rand1D_lt
      have h1 : a ≤ m := by rw [hm]; nlinarith
      have h2 : m ≤ b := by rw [hm]; nlinarith
      have h3 : m - a ≤ RAND1D * (b - a) := by rw [hm]; linarith
      have h4 : b - m ≤ RAND1D * (b - a) := by
        have : (1 : ℝ) - RAND1D ≤ RAND1D := by unfold RAND1D; norm_num
        rw [hm]
        nlinarith
      match e1 : solve1D E T f deg left false a m, e2 : solve1D E T f deg left false m b, h with
      | .ok (t1, r1), .ok (t2, r2), h =>
        simp only [Except.ok.injEq, Prod.mk.injEq] at h
        obtain ⟨rfl, rfl⟩ := h
        obtain ⟨n1, tile1, deep1, rss1, f1, all1⟩ := ih false a m h1 t1 r1 e1
        obtain ⟨n2, tile2, deep2, rss2, f2, all2⟩ := ih false m b h2 t2 r2 e2
        have hlen : decide ((t1 ++ t2).length = 1) = false := by
          have := List.length_pos_iff.2 n1
          have := List.length_pos_iff.2 n2
          rw [decide_eq_false_iff_not, List.length_append]
          omega
        refine ⟨by simp [n1], tile1.append tile2, fun t ht hl => ?_, rss1 ++ rss2, ?_, ?_⟩
        · have hp : 0 ≤ RAND1D ^ left := pow_nonneg hR.le _
          rw [pow_succ, mul_assoc]
          rcases List.mem_append.1 ht with ht | ht
          · exact (deep1 t ht hl).trans (mul_le_mul_of_nonneg_left h3 hp)
          · exact (deep2 t ht hl).trans (mul_le_mul_of_nonneg_left h4 hp)
        · rw [List.flatten_append, f1, f2]
        · rw [hlen, Bool.and_false]
          rw [Bool.false_and] at all1 all2
          exact List.rel_append all1 all2
    · rw [if_neg herr] at h
      split at h
      · exact absurd h (by simp)
      · rename_i zeros hz
        simp only [Except.ok.injEq, Prod.mk.injEq] at h
        obtain ⟨rfl, rfl⟩ := h
        refine ⟨by simp, ⟨rfl, hab, rfl⟩, by simp, [_], by simp; rfl, .cons ?_ .nil⟩
        have := leaf_macaulay hE T f hd trust a b zeros herr hz
        simpa [rootTol] using this

/-- Instance: the function `0` on `[0, 1]`. -/
example : ∃ ts rs, solve1D OneD.exists_eigen.choose ⟨1, 0, 1, 1, 1⟩ (fun _ => 0) 1 0 false 0 1 = .ok (ts, rs) ∧ Tiles 0 ts 1 :=
  ⟨_, _, rfl, (C75_solve OneD.exists_eigen.choose_spec ⟨1, 0, 1, 1, 1⟩ (fun _ => 0) le_rfl 0 false 0 1 zero_le_one _ _ rfl).1⟩

theorem solve1D_poly (E : OneD.Eigen) (T : Tols1D) (P : ℝ[X]) {deg : ℕ} (hd : 1 ≤ deg) (hP : P.natDegree ≤ deg) (left : ℕ) (trust : Bool)
    (a b : ℝ) (h0 : 0 ≤ T.absTol + T.relTol * infNorm1D (fun x => P.eval x) a b (deg * 2)) :
    solve1D E T (fun x => P.eval x) deg (left + 1) trust a b =
      match OneD.multCheb E (trimLoop1D (T.absTol + T.relTol * infNorm1D (fun x => P.eval x) a b (deg * 2))
        (approx1D (fun x => P.eval x) a b deg).reverse 0).1.reverse true with
      | .error e => .error e
      | .ok zeros => .ok ([⟨.macaulay, a, b⟩], (goodZeros1D zeros
          (rootTol T trust (trimLoop1D (T.absTol + T.relTol * infNorm1D (fun x => P.eval x) a b (deg * 2))
            (approx1D (fun x => P.eval x) a b deg).reverse 0).2)
          (rootTol T trust (trimLoop1D (T.absTol + T.relTol * infNorm1D (fun x => P.eval x) a b (deg * 2))
            (approx1D (fun x => P.eval x) a b deg).reverse 0).2)).map fun z => transform1 z a b) := by
  rw [solve1D]
  simp only [error1D_poly P a b hd hP]
  rw [if_neg (not_lt.2 h0)]
  rfl

/-- **C75, when it raises.** The only exception is that of the eigenvalue routine for a vanishing leading coefficient.  It can only be raised if
on some subinterval the sum of the differences of the Chebyshev coefficients equals the tolerance exactly. -/
theorem C75_raises {E : OneD.Eigen} (T : Tols1D) (f : ℝ → ℝ) {deg : ℕ} (hd : 1 ≤ deg) (left : ℕ) (trust : Bool) (a b : ℝ) (hab : a ≤ b)
    (e : OneD.Failure) (h : solve1D E T f deg left trust a b = .error e) :
    e = .nonFinite ∧ ∃ a' b', a ≤ a' ∧ a' ≤ b' ∧ b' ≤ b ∧ ∃ (c c2 : ℕ → ℝ) (norm : ℝ),
      Interp1D f a' b' deg (∑ k ∈ Finset.range (deg + 1), C (c k) * Chebyshev.T ℝ (k : ℤ)) ∧
      Interp1D f a' b' (2 * deg) (∑ k ∈ Finset.range (2 * deg + 1), C (c2 k) * Chebyshev.T ℝ (k : ℤ)) ∧ Norm1D f a' b' (2 * deg) norm ∧
      ∑ k ∈ Finset.range (2 * deg + 1), |if k ≤ deg then c2 k - c k else c2 k| = T.absTol + T.relTol * norm := by
  induction left generalizing trust a b with
  | zero => simp [solve1D] at h
  | succ left ih =>
    simp only [solve1D] at h
    by_cases herr : error1D (approx1D f a b deg) (approx1D f a b (deg * 2)) > T.absTol + T.relTol * infNorm1D f a b (deg * 2)
    · rw [if_pos herr] at h
      set m := a + (b - a) * RAND1D with hm
      have hR := rand1D_pos
      have hR1 := rand1D_lt
      have h1 : a ≤ m := by rw [hm]; nlinarith
      have h2 : m ≤ b := by rw [hm]; nlinarith
      match e1 : solve1D E T f deg left false a m, e2 : solve1D E T f deg left false m b, h with
      | .error e', _, h =>
        simp only [Except.error.injEq] at h
        subst h
        obtain ⟨h3, a', b', h4, h5, h6, h7⟩ := ih false a m h1 e1
        exact ⟨h3, a', b', h4, h5, h6.trans h2, h7⟩
      | .ok _, .error e', h =>
        simp only [Except.error.injEq] at h
        subst h
        obtain ⟨h3, a', b', h4, h5, h6, h7⟩ := ih false m b h2 e2
        exact ⟨h3, a', b', h1.trans h4, h5, h6, h7⟩
      | .ok _, .ok _, h => simp at h
    · rw [if_neg herr] at h
      have hd2 : 1 ≤ deg * 2 := by omega
      set allowed := T.absTol + T.relTol * infNorm1D f a b (deg * 2) with hallowed
      set err := error1D (approx1D f a b deg) (approx1D f a b (deg * 2)) with herr'
      obtain ⟨d, -, -, h3, h4, h5⟩ := trimLoop1D_spec allowed (approx1D f a b deg).reverse err
        (by rw [Ne, List.reverse_eq_nil_iff]; intro h0; have := approx1D_length f a b deg; rw [h0] at this; simp at this) (not_lt.1 herr)
      have h6 := trimLoop1D_strict allowed (approx1D f a b deg).reverse err
      set r := trimLoop1D allowed (approx1D f a b deg).reverse err with hr
      cases hz : OneD.multCheb E r.1.reverse true with
      | ok l => rw [hz] at h; simp at h
      | error e' =>
        rw [hz] at h
        simp only [Except.error.injEq] at h
        subst h
        unfold OneD.multCheb at hz
        by_cases l1 : r.1.reverse.length ≤ 1
        · simp only [l1, if_true] at hz
          simp at hz
        by_cases l2 : r.1.reverse.length - 1 = 1
        · simp only [l1, l2, if_true, if_false] at hz
          simp at hz
        by_cases l3 : r.1.reverse.getD (r.1.reverse.length - 1) 0 = 0
        · simp only [l1, l2, l3, if_true, if_false, Except.error.injEq] at hz
          have hlen : r.1.length ≠ 1 := by
            rw [List.length_reverse] at l1
            omega
          have hhead := (h5.resolve_left hlen) h3
          have hlast : r.1.head h3 = 0 := by
            rw [← l3]
            obtain ⟨x, l, hx⟩ := List.exists_cons_of_ne_nil h3
            simp [hx]
          rw [hlast, abs_zero, add_zero] at hhead
          have heq : err = allowed := by
            rcases h6 with h6 | h6
            · rw [← h6]; exact le_antisymm h4 hhead
            · exact absurd hhead (not_le.2 h6)
          have hcheb : ∀ N, chebReal (approx1D f a b N) = ∑ k ∈ Finset.range (N + 1), C ((approx1D f a b N).getD k 0) * Chebyshev.T ℝ (k : ℤ) :=
            fun N => by unfold chebReal; rw [approx1D_length]
          have hi1 := interp1D_approx f a b hd
          have hi2 := interp1D_approx f a b hd2
          rw [hcheb] at hi1 hi2
          rw [mul_comm deg 2] at hi2
          refine ⟨hz.symm, a, b, le_rfl, hab, le_rfl, fun k => (approx1D f a b deg).getD k 0, fun k => (approx1D f a b (2 * deg)).getD k 0,
            infNorm1D f a b (deg * 2), hi1, hi2, mul_comm deg 2 ▸ norm1D_infNorm f a b hd2, ?_⟩
          rw [← hallowed, ← heq, herr', error1D, approx1D_length, approx1D_length, sum_list_range, mul_comm deg 2]
          refine Finset.sum_congr rfl fun k _ => ?_
          congr 1
          by_cases hk : k ≤ deg
          · rw [if_pos hk, if_pos (by omega)]
          · rw [if_neg hk, if_neg (by omega)]
        · simp only [l1, l2, l3, if_true, if_false] at hz
          simp at hz

/-- Instance with tolerance 0: the square of `x` with degree 3 is reproduced exactly, and its last coefficient is 0. -/
example (E : OneD.Eigen) : ∃ e, solve1D E ⟨0, 0, 1, 1, 1⟩ (fun x => (X ^ 2 : ℝ[X]).eval x) 3 1 false (-1) 1 = .error e := by
  have hn : (X ^ 2 : ℝ[X]).natDegree = 2 := natDegree_X_pow 2
  rw [solve1D_poly E ⟨0, 0, 1, 1, 1⟩ (X ^ 2) (by norm_num) (by rw [hn]; norm_num) 0 false (-1) 1 (by simp)]
  obtain ⟨u, x, m, h, hu, -⟩ := approx1D_split (X ^ 2) (a := -1) (b := 1) (deg := 3) (by norm_num) (by norm_num) (by rw [hn]; norm_num)
    (by rw [hn]; norm_num)
  have hl := approx1D_length (fun x => (X ^ 2 : ℝ[X]).eval x) (-1) 1 3
  rw [h, List.length_append, List.length_append, hu, hn, List.length_replicate, List.length_singleton] at hl
  have hm : m = 1 := by omega
  subst hm
  rw [hn] at hu
  obtain ⟨v, w, rfl⟩ := List.length_eq_two.1 hu
  rw [h]
  refine ⟨.nonFinite, ?_⟩
  simp [trimLoop1D, OneD.multCheb]

/-- **C75 for polynomials.** A polynomial of degree at most `deg` is solved without subdividing.  If its leading Chebyshev coefficient on
`[a, b]` is not below the tolerance, the roots added are exactly its roots near the interval, with multiplicity; all its real roots in `[a, b]`
are among them. -/
theorem C75_poly {E : OneD.Eigen} (hE : E.OK) (T : Tols1D) (P : ℝ[X]) {deg : ℕ} (hd1 : 1 ≤ P.natDegree) (hP : P.natDegree ≤ deg) (left : ℕ)
    (trust : Bool) {a b : ℝ} (hab : a < b) (habs : 0 < T.absTol) (hrel : 0 ≤ T.relTol) (M : ℝ) (hM : ∀ x, a ≤ x → x ≤ b → |P.eval x| ≤ M)
    (hlead : T.absTol + T.relTol * M ≤ |P.leadingCoeff| * ((b - a) / 2) ^ P.natDegree / 2 ^ (P.natDegree - 1)) :
    ∃ rs, solve1D E T (fun x => P.eval x) deg (left + 1) trust a b = .ok ([⟨.macaulay, a, b⟩], rs) ∧
      (rs : Multiset ℝ) = rootsNear (P.comp (C ((b - a) / 2) * X + C ((b + a) / 2))) (rootTol T trust 0) a b ∧
      (0 < T.minGood → ∀ x, a ≤ x → x ≤ b → P.eval x = 0 → x ∈ rs) := by
  have hd : 1 ≤ deg := hd1.trans hP
  have hpos : 0 < b - a := sub_pos.2 hab
  obtain ⟨-, j, hj, hnorm⟩ := infNorm1D_spec (fun x => P.eval x) a b (deg := deg * 2) (by omega)
  have hN0 : 0 ≤ infNorm1D (fun x => P.eval x) a b (deg * 2) := hnorm ▸ abs_nonneg _
  have hNM : infNorm1D (fun x => P.eval x) a b (deg * 2) ≤ M := by
    rw [hnorm]
    have h1 := Real.cos_le_one (j * Real.pi / ((deg * 2 : ℕ) : ℝ))
    have h2 := Real.neg_one_le_cos (j * Real.pi / ((deg * 2 : ℕ) : ℝ))
    refine hM _ ?_ ?_ <;> unfold transform1 <;> nlinarith
  have hallow : 0 < T.absTol + T.relTol * infNorm1D (fun x => P.eval x) a b (deg * 2) := by positivity
  have hle : T.absTol + T.relTol * infNorm1D (fun x => P.eval x) a b (deg * 2) ≤ T.absTol + T.relTol * M :=
    add_le_add_right (mul_le_mul_of_nonneg_left hNM hrel) _
  rw [solve1D_poly E T P hd hP left trust a b hallow.le]
  set allowed := T.absTol + T.relTol * infNorm1D (fun x => P.eval x) a b (deg * 2) with hal
  obtain ⟨u, x, m, hc, hu, hx⟩ := approx1D_split P hab hd hd1 hP
  have hxabs : |x| = |P.leadingCoeff| * ((b - a) / 2) ^ P.natDegree / 2 ^ (P.natDegree - 1) := by
    rw [hx, abs_div, abs_mul, abs_of_nonneg (a := ((b - a) / 2) ^ P.natDegree) (by positivity),
      abs_of_pos (a := (2 : ℝ) ^ (P.natDegree - 1)) (by positivity)]
  have hxge : allowed ≤ |x| := by rw [hxabs]; exact hle.trans hlead
  have hx0 : x ≠ 0 := abs_pos.1 (hallow.trans_le hxge)
  have htrim : trimLoop1D allowed (approx1D (fun x => P.eval x) a b deg).reverse 0 = ((u ++ [x]).reverse, 0) := by
    rw [hc, List.reverse_append, List.reverse_replicate, List.reverse_append, List.reverse_singleton, List.singleton_append,
      trimLoop1D_zeros hallow, trimLoop1D.eq_def]
    simp only [zero_add, not_lt.2 hxge, if_false]
  rw [htrim]
  simp only [List.reverse_reverse]
  obtain ⟨l, e, -⟩ := OneD.multCheb_finds hE (u ++ [x]) true (by simp) (by simpa using hx0)
  rw [e]
  have hpoly : chebReal (u ++ [x]) = P.comp (C ((b - a) / 2) * X + C ((b + a) / 2)) := by
    rw [← chebReal_zeros (u ++ [x]) m, ← hc]
    exact approx1D_poly P a b hd hP
  have hroots := multCheb_ok hE (u ++ [x]) (by simp) l e
  rw [hpoly] at hroots
  have hrs := goodZeros1D_eq l _ (rootTol T trust 0) a b hroots
  refine ⟨_, rfl, hrs, fun hg y hy1 hy2 hy => ?_⟩
  rw [← Multiset.mem_coe, hrs]
  classical
  unfold rootsNear
  set t : ℝ := (2 * y - (b + a)) / (b - a) with ht
  have hty : toInterval a b t = y := by
    unfold toInterval
    rw [ht]
    field_simp
    ring
  have htabs : |t| ≤ 1 := by
    rw [abs_le, ht]
    constructor
    · rw [le_div_iff₀ hpos]; linarith
    · rw [div_le_iff₀ hpos]; linarith
  have htol : 0 < rootTol T trust 0 := lt_max_of_lt_left hg
  have hne : P.comp (C ((b - a) / 2) * X + C ((b + a) / 2)) ≠ 0 := by
    rw [← hpoly]
    intro h0
    have := (chebReal_lead u x hx0).1
    rw [h0, natDegree_zero, hu] at this
    omega
  refine Multiset.mem_map.2 ⟨(t : ℂ), Multiset.mem_filter.2 ⟨?_, ?_, ?_⟩, hty⟩
  · rw [mem_roots_map_of_injective (algebraMap ℝ ℂ).injective hne]
    have h1 : (P.comp (C ((b - a) / 2) * X + C ((b + a) / 2))).eval t = 0 := by
      rw [← hy, ← hty]
      exact moved_eval P a b t
    have h2 : ((t : ℝ) : ℂ) = algebraMap ℝ ℂ t := rfl
    rw [h2, eval₂_at_apply, h1, map_zero]
  · rw [Complex.norm_real, Real.norm_eq_abs]
    linarith
  · rw [Complex.ofReal_im, abs_zero]
    exact htol

/-- Instance: `x² - 1/4` on `[0, 1]` with degree 3; the root `1/2` is found. -/
example : ∃ rs, solve1D OneD.exists_eigen.choose ⟨1 / 100, 1 / 100, 1 / 100, 100, 1 / 10 ^ 16⟩ (fun x => (X ^ 2 + C (-1 / 4) : ℝ[X]).eval x) 3 53 false 0 1 =
    .ok ([⟨.macaulay, 0, 1⟩], rs) ∧ (1 / 2 : ℝ) ∈ rs := by
  have hn : (X ^ 2 + C (-1 / 4) : ℝ[X]).natDegree = 2 := natDegree_X_pow_add_C
  have hl : (X ^ 2 + C (-1 / 4) : ℝ[X]).leadingCoeff = 1 := leadingCoeff_X_pow_add_C (by norm_num)
  obtain ⟨rs, h1, -, h2⟩ := C75_poly OneD.exists_eigen.choose_spec ⟨1 / 100, 1 / 100, 1 / 100, 100, 1 / 10 ^ 16⟩ (X ^ 2 + C (-1 / 4)) (deg := 3)
    (by rw [hn]; norm_num) (by rw [hn]; norm_num) 52 false (a := 0) (b := 1) one_pos (by norm_num) (by norm_num) 2
    (fun x hx1 hx2 => by simp only [eval_add, eval_pow, eval_X, eval_C]; rw [abs_le]; constructor <;> nlinarith)
    (by rw [hl, hn]; norm_num)
  exact ⟨rs, h1, h2 (by norm_num) (1 / 2) (by norm_num) (by norm_num) (by simp; norm_num)⟩

/-- **Not every root is found.** A linear function whose coefficient is below the tolerance is taken for a constant: the root `0` of `c x` in
`[-1, 1]` is lost. -/
theorem C75_small_false (E : OneD.Eigen) (T : Tols1D) (c : ℝ) (hc : c ≠ 0) (habs : |c| < T.absTol) (hrel : 0 ≤ T.relTol) {deg : ℕ} (hd : 1 ≤ deg)
    (left : ℕ) (trust : Bool) :
    solve1D E T (fun x => c * x) deg (left + 1) trust (-1) 1 = .ok ([⟨.macaulay, -1, 1⟩], []) := by
  have hf : (fun x => c * x) = fun x => (C c * X : ℝ[X]).eval x := by
    funext x
    simp
  have hn : (C c * X : ℝ[X]).natDegree = 1 := natDegree_C_mul_X c hc
  have hl : (C c * X : ℝ[X]).leadingCoeff = c := leadingCoeff_C_mul_X c
  rw [hf]
  obtain ⟨-, j, hj, hnorm⟩ := infNorm1D_spec (fun x => (C c * X : ℝ[X]).eval x) (-1) 1 (deg := deg * 2) (by omega)
  have hN0 : 0 ≤ infNorm1D (fun x => (C c * X : ℝ[X]).eval x) (-1) 1 (deg * 2) := hnorm ▸ abs_nonneg _
  have hallow : |c| < T.absTol + T.relTol * infNorm1D (fun x => (C c * X : ℝ[X]).eval x) (-1) 1 (deg * 2) :=
    habs.trans_le (le_add_of_nonneg_right (mul_nonneg hrel hN0))
  have hpos := (abs_nonneg c).trans_lt hallow
  rw [solve1D_poly E T _ hd (by rw [hn]; exact hd) left trust (-1) 1 hpos.le]
  set allowed := T.absTol + T.relTol * infNorm1D (fun x => (C c * X : ℝ[X]).eval x) (-1) 1 (deg * 2)
  obtain ⟨u, x, m, hcoef, hu, hx⟩ := approx1D_split (C c * X : ℝ[X]) (a := -1) (b := 1) (by norm_num) hd (by rw [hn]) (by rw [hn]; exact hd)
  rw [hn] at hu
  rw [hn, hl] at hx
  have hxc : x = c := by rw [hx]; norm_num
  obtain ⟨v, rfl⟩ := List.length_eq_one_iff.1 hu
  have htrim : (trimLoop1D allowed (approx1D (fun x => (C c * X : ℝ[X]).eval x) (-1) 1 deg).reverse 0).1 = [v] := by
    rw [hcoef, List.reverse_append, List.reverse_replicate, List.reverse_append, List.reverse_singleton, List.singleton_append,
      trimLoop1D_zeros hpos, trimLoop1D.eq_def]
    simp only [zero_add, hxc, hallow, if_true, List.reverse_singleton]
    rw [trimLoop1D.eq_def]
    by_cases h : |c| + |v| < allowed <;> simp [h]
  rw [htrim]
  simp [OneD.multCheb, goodZeros1D]

/-- Instance: `1e-13 x` with the default tolerance `1e-12`. -/
example : solve1D OneD.exists_eigen.choose ⟨1 / 10 ^ 12, 1 / 10 ^ 15, 1 / 10 ^ 5, 100, 1 / 10 ^ 16⟩ (fun x => 1 / 10 ^ 13 * x) 100 53 false (-1) 1 =
    .ok ([⟨.macaulay, -1, 1⟩], []) :=
  C75_small_false _ ⟨1 / 10 ^ 12, 1 / 10 ^ 15, 1 / 10 ^ 5, 100, 1 / 10 ^ 16⟩ _ (by norm_num) (by rw [abs_of_pos] <;> norm_num) (by norm_num)
    (by norm_num) 52 false

end YRoots.Legacy
