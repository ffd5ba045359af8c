import Verif.Proofs.DegDPolys
import Mathlib.Data.Finsupp.MonomialOrder.DegLex

/-!
# C88: the rows of one degree

`deg_d_polys` selects multiples of the polynomials by monomials; the documentation claims that doing so for each needed degree
creates a full rank matrix and gets rid of the extra rows.
-/

namespace YRoots.Legacy

open MvPolynomial

/-- **C88**, the selection.  The rows of degree `deg` correspond to the monomials of degree `deg` that are divisible by the power
`x_v ^ d_v` of a variable, where `d_v` is the degree of the `v`-th polynomial: multiplying the monomial of the row by that power is
a bijection. -/
theorem C88_selection (degrees : List ℕ) (deg dim : ℕ) (hd : 1 ≤ dim) (hlen : degrees.length ≤ dim) :
    ((degDRows degrees deg dim).map fun r => raise r.1 (degrees.getD r.1 0) r.2).Nodup ∧
    ∀ m, m ∈ (degDRows degrees deg dim).map (fun r => raise r.1 (degrees.getD r.1 0) r.2) ↔
      m.length = dim ∧ m.sum = deg ∧ ∃ v < degrees.length, degrees.getD v 0 ≤ m.getD v 0 := by
  constructor
  · refine (nodup_degDRows degrees deg hd).map_on fun p hp q hq h => ?_
    obtain ⟨h1, h2, h3, h4⟩ := (mem_degDRows degrees deg hd p.1 p.2).1 hp
    obtain ⟨k1, k2, k3, k4⟩ := (mem_degDRows degrees deg hd q.1 q.2).1 hq
    obtain ⟨e1, e2⟩ := raise_rows hlen h1 k1 h2 k2 h4 k4 h
    exact Prod.ext e1 e2
  · intro m
    simp only [List.mem_map, Prod.exists]
    constructor
    · rintro ⟨v, a, ha, rfl⟩
      obtain ⟨h1, h2, h3, h4⟩ := (mem_degDRows degrees deg hd v a).1 ha
      refine ⟨by rw [length_raise, h2], by rw [sum_raise _ _ _ (by omega), h3], v, h1, ?_⟩
      rw [getD_raise _ _ _ (by omega), if_pos rfl]
      omega
    · rintro ⟨h1, h2, h3⟩
      classical
      have hv := Nat.find_spec h3
      set v := Nat.find h3 with hvdef
      have hmin : ∀ i < v, m.getD i 0 < degrees.getD i 0 := by
        intro i hi
        have := Nat.find_min h3 (hvdef ▸ hi)
        push Not at this
        exact this (by omega)
      set a : List ℕ := (List.range dim).map fun i => m.getD i 0 - if i = v then degrees.getD v 0 else 0 with ha
      have hal : a.length = dim := by simp [ha]
      have hag : ∀ i < dim, a.getD i 0 = m.getD i 0 - if i = v then degrees.getD v 0 else 0 := fun i hi => by
        rw [List.getD_eq_getElem _ _ (by omega)]; simp [ha]
      have har : raise v (degrees.getD v 0) a = m := by
        refine List.ext_getElem (by rw [length_raise, hal, h1]) fun i hi1 hi2 => ?_
        rw [← List.getD_eq_getElem _ 0 hi1, ← List.getD_eq_getElem _ 0 hi2, getD_raise _ _ _ (by omega), hag i (by omega)]
        split_ifs with hiv
        · have := hv.2; rw [hiv]; omega
        · omega
      refine ⟨v, a, (mem_degDRows degrees deg hd v a).2 ⟨hv.1, hal, ?_, fun i hi => ?_⟩, har⟩
      · rw [← h2, ← har, sum_raise _ _ _ (by omega)]
      · rw [hag i (by omega), if_neg (by omega)]
        have := hmin i hi
        omega

/-- Non-vacuity: two polynomials of degrees 2 and 1; of the four rows of degree 2 three are kept, one for each monomial. -/
example : degDRows [2, 1] 2 2 = [(0, [0, 0]), (1, [0, 1]), (1, [1, 0])] ∧
    ((degDRows [2, 1] 2 2).map fun r => raise r.1 (([2, 1] : List ℕ).getD r.1 0) r.2) = [[2, 0], [0, 2], [1, 1]] := by decide

/-- **C88**, the number of rows.  With as many polynomials as variables, from degree `1 + ∑ (d_v - 1)` on there are as many rows as
monomials of the degree. -/
theorem C88_count (degrees : List ℕ) (deg dim : ℕ) (hd : 1 ≤ dim) (hlen : degrees.length = dim)
    (hdeg : (degrees.map (· - 1)).sum + 1 ≤ deg) :
    (degDRows degrees deg dim).length = numMons deg dim := by
  obtain ⟨h1, h2⟩ := C88_selection degrees deg dim hd hlen.le
  obtain ⟨⟨k1, k2, k3⟩, -⟩ := C56_monomials deg dim hd
  rw [← k3, ← List.length_map (f := fun r : ℕ × List ℕ => raise r.1 (degrees.getD r.1 0) r.2) (as := degDRows degrees deg dim)]
  refine (List.perm_of_nodup_nodup_toFinset_eq h1 k2 ?_).length_eq
  ext m
  rw [List.mem_toFinset, List.mem_toFinset, h2, k1]
  constructor
  · rintro ⟨a, b, -⟩; exact ⟨a, b⟩
  · rintro ⟨a, b⟩
    refine ⟨a, b, ?_⟩
    by_contra hno
    push Not at hno
    have : m.sum ≤ (degrees.map (· - 1)).sum := by
      rw [sum_eq_getD, sum_eq_getD, List.length_map, a, hlen]
      refine Finset.sum_le_sum fun i hi => ?_
      have hi' : i < degrees.length := by rw [hlen]; exact Finset.mem_range.1 hi
      have h := hno i hi'
      rw [List.getD_eq_getElem _ _ hi'] at h
      rw [List.getD_eq_getElem (degrees.map (· - 1)) _ (by simpa using hi'), List.getElem_map]
      omega
    omega

/-- Non-vacuity: degrees 2, 1 and 2; in degree 3 there are ten rows. -/
example : (degDRows [2, 1, 2] 3 3).length = 10 ∧ numMons 3 3 = 10 := by decide +kernel

/-- The rows obtained by calling `deg_d_polys` for every degree up to `D`. -/
noncomputable def allRows {K : Type*} [Field K] {dim : ℕ} (polys : List (MvPolynomial (Fin dim) K)) (D : ℕ) :
    List (MvPolynomial (Fin dim) K) :=
  (List.range (D + 1)).flatMap fun deg => degDPolys totalDegree monTimes polys deg dim

/-- All multiples of the polynomials by monomials up to degree `D`. -/
def multiples {K : Type*} [Field K] {dim : ℕ} (polys : List (MvPolynomial (Fin dim) K)) (D : ℕ) :
    Set (MvPolynomial (Fin dim) K) :=
  {g | ∃ f ∈ polys, ∃ m : List ℕ, m.length = dim ∧ m.sum + f.totalDegree ≤ D ∧ g = monTimes f m}

/-- The matrix has full rank and the rows that are left out are not needed: the rows are linearly independent and span the same
space as all multiples. -/
def FullRank {K : Type*} [Field K] {dim : ℕ} (polys : List (MvPolynomial (Fin dim) K)) (D : ℕ) : Prop :=
  LinearIndependent K (fun j : Fin (allRows polys D).length => (allRows polys D).get j) ∧
    Submodule.span K {g | g ∈ allRows polys D} = Submodule.span K (multiples polys D)

theorem allRows_eq {K : Type*} [Field K] {dim : ℕ} (polys : List (MvPolynomial (Fin dim) K)) (D : ℕ) :
    allRows polys D = ((List.range (D + 1)).flatMap fun deg => degDRows (polys.map totalDegree) deg dim).map
      fun r => monTimes (polys.getD r.1 default) r.2 := by
  unfold allRows degDPolys
  rw [List.map_flatMap]

/-- **C88**, the rank.  If the leading monomial of the `v`-th polynomial, for some monomial order, is the power of the `v`-th
variable of the degree of the polynomial, then the rows of all degrees up to `D` are linearly independent and span the same space as
all multiples up to degree `D`. -/
theorem C88_rank_partial {K : Type*} [Field K] {dim : ℕ} (hd : 1 ≤ dim) (o : MonomialOrder (Fin dim))
    (polys : List (MvPolynomial (Fin dim) K)) (hlen : polys.length ≤ dim)
    (hp : ∀ (v : ℕ) (hv : v < polys.length), polys[v] ≠ 0 ∧
      o.degree polys[v] = Finsupp.single ⟨v, hv.trans_le hlen⟩ polys[v].totalDegree) (D : ℕ) :
    FullRank polys D := by
  classical
  set degrees := polys.map totalDegree with hdeg
  set f : ℕ → MvPolynomial (Fin dim) K := fun v => polys.getD v default with hfdef
  have hlen' : degrees.length ≤ dim := by simpa [hdeg] using hlen
  have hget : ∀ v (hv : v < polys.length), f v = polys[v] ∧ degrees.getD v 0 = polys[v].totalDegree := fun v hv => by
    constructor
    · simp only [hfdef]; rw [List.getD_eq_getElem _ _ hv]
    · rw [List.getD_eq_getElem _ _ (by simpa [hdeg] using hv)]; simp [hdeg]
  have hf : ∀ (v : ℕ) (hv : v < degrees.length), f v ≠ 0 ∧
      o.degree (f v) = Finsupp.single ⟨v, hv.trans_le hlen'⟩ (degrees.getD v 0) ∧ (f v).totalDegree ≤ degrees.getD v 0 := by
    intro v hv
    have hv' : v < polys.length := by simpa [hdeg] using hv
    rw [(hget v hv').1, (hget v hv').2]
    exact ⟨(hp v hv').1, (hp v hv').2, le_rfl⟩
  set pairs := (List.range (D + 1)).flatMap fun deg => degDRows degrees deg dim with hpairs
  have hrows : allRows polys D = pairs.map fun r => monTimes (f r.1) r.2 := allRows_eq polys D
  have hmem : ∀ v m, (v, m) ∈ pairs ↔ v < degrees.length ∧ m.length = dim ∧ m.sum + degrees.getD v 0 ≤ D ∧
      ∀ i < v, m.getD i 0 < degrees.getD i 0 := by
    intro v m
    simp only [hpairs, List.mem_flatMap, List.mem_range]
    constructor
    · rintro ⟨d, hdD, h⟩
      obtain ⟨h1, h2, h3, h4⟩ := (mem_degDRows degrees d hd v m).1 h
      exact ⟨h1, h2, by omega, h4⟩
    · rintro ⟨h1, h2, h3, h4⟩
      exact ⟨_, by omega, (mem_degDRows degrees _ hd v m).2 ⟨h1, h2, rfl, h4⟩⟩
  have hnd : pairs.Nodup := by
    rw [hpairs, List.nodup_flatMap]
    refine ⟨fun d _ => nodup_degDRows degrees d hd, List.Pairwise.imp ?_ (List.nodup_range (n := D + 1))⟩
    intro a b hab
    simp only [Function.onFun]
    rintro ⟨v, m⟩ h1 h2
    have e1 := ((mem_degDRows degrees a hd v m).1 h1).2.2.1
    have e2 := ((mem_degDRows degrees b hd v m).1 h2).2.2.1
    exact hab (e1.symm.trans e2)
  have hlead : ∀ p ∈ pairs, monTimes (f p.1) p.2 ≠ 0 ∧
      o.degree (monTimes (f p.1) p.2) = expo dim (raise p.1 (degrees.getD p.1 0) p.2) := by
    intro p hpp
    obtain ⟨h1, h2, h3, h4⟩ := (hmem p.1 p.2).1 hpp
    obtain ⟨g1, g2⟩ := degree_monTimes o (hf p.1 h1).1 p.2
    refine ⟨g1, ?_⟩
    rw [g2, (hf p.1 h1).2.1, expo_raise (h1.trans_le hlen') h2]
  constructor
  · rw [hrows]
    refine linearIndependent_of_degree o _ (fun j => ?_) fun j k hjk => ?_
    · obtain ⟨p, hpp, he⟩ := List.mem_map.1 (List.get_mem _ j)
      rw [← he]; exact (hlead p hpp).1
    · have hl : (pairs.map fun r => monTimes (f r.1) r.2).length = pairs.length := List.length_map ..
      have hj : j.1 < pairs.length := hl ▸ j.2
      have hk : k.1 < pairs.length := hl ▸ k.2
      simp only [List.get_eq_getElem, List.getElem_map] at hjk
      rw [(hlead _ (List.getElem_mem hj)).2, (hlead _ (List.getElem_mem hk)).2] at hjk
      obtain ⟨h1, h2, h3, h4⟩ := (hmem _ _).1 (List.getElem_mem hj)
      obtain ⟨k1, k2, k3, k4⟩ := (hmem _ _).1 (List.getElem_mem hk)
      have := expo_inj ((length_raise ..).trans h2) ((length_raise ..).trans k2) hjk
      obtain ⟨e1, e2⟩ := raise_rows hlen' h1 k1 h2 k2 h4 k4 this
      exact Fin.ext ((List.Nodup.getElem_inj_iff hnd).1 (Prod.ext e1 e2))
  · refine le_antisymm (Submodule.span_mono ?_) (Submodule.span_le.2 ?_)
    · intro g hg
      rw [Set.mem_setOf_eq, hrows] at hg
      obtain ⟨p, hpp, rfl⟩ := List.mem_map.1 hg
      obtain ⟨h1, h2, h3, h4⟩ := (hmem p.1 p.2).1 hpp
      have hv' : p.1 < polys.length := by simpa [hdeg] using h1
      refine ⟨polys[p.1], List.getElem_mem _, p.2, h2, ?_, ?_⟩
      · rw [← (hget p.1 hv').2]; exact h3
      · rw [(hget p.1 hv').1]
    · rintro g ⟨q, hq, m, hm1, hm2, rfl⟩
      obtain ⟨v, hv, rfl⟩ := List.getElem_of_mem hq
      have := multiples_mem o degrees hlen' f hf D (Submodule.span K {g | g ∈ allRows polys D}) (fun v m h1 h2 h3 h4 =>
        Submodule.subset_span (by
          rw [Set.mem_setOf_eq, hrows]
          exact List.mem_map.2 ⟨(v, m), (hmem v m).2 ⟨h1, h2, h3, h4⟩, rfl⟩)) v (by simpa [hdeg] using hv) (expo dim m) (by
            have hs : (expo dim m).degree = m.sum := by
              rw [Finsupp.degree_eq_sum, sum_eq_getD, hm1, Finset.sum_range]
              simp [expo]
            rw [hs, (hget v hv).2]; exact hm2)
      rw [(hget v hv).1] at this
      exact this

/-- Non-vacuity: the system `x² + 1`, `y` in two variables. -/
example : FullRank ([X 0 ^ 2 + C 1, X 1] : List (MvPolynomial (Fin 2) ℚ)) 3 := by
  have h0 : (MonomialOrder.degLex (σ := Fin 2)).degree (X 0 ^ 2 + C 1 : MvPolynomial (Fin 2) ℚ) = Finsupp.single 0 2 := by
    rw [MonomialOrder.degree_add_of_lt]
    · rw [X_pow_eq_monomial, MonomialOrder.degree_monomial, if_neg one_ne_zero]
    · rw [X_pow_eq_monomial, MonomialOrder.degree_monomial, if_neg one_ne_zero, MonomialOrder.degree_C, map_zero]
      refine lt_of_le_of_ne (MonomialOrder.zero_le _ _) fun h => ?_
      have := (MonomialOrder.degLex (σ := Fin 2)).toSyn.injective ((map_zero _).trans h)
      simpa using DFunLike.congr_fun this 0
  have hne : (X 0 ^ 2 + C 1 : MvPolynomial (Fin 2) ℚ) ≠ 0 := by
    intro h; rw [h] at h0; simpa using DFunLike.congr_fun h0 0
  have ht : (X 0 ^ 2 + C 1 : MvPolynomial (Fin 2) ℚ).totalDegree = 2 := by
    rw [totalDegree_add_eq_left_of_totalDegree_lt] <;> simp
  refine C88_rank_partial (by norm_num) MonomialOrder.degLex _ (by simp) (fun v hv => ?_) 3
  match v, hv with
  | 0, _ => exact ⟨hne, by simp only [List.getElem_cons_zero]; rw [ht, h0]; rfl⟩
  | 1, _ =>
    refine ⟨by simp, ?_⟩
    simp only [List.getElem_cons_succ, List.getElem_cons_zero]
    rw [totalDegree_X, MonomialOrder.degree_X]; rfl

/-- The claim of the documentation is false without the assumption on the leading monomials: for the system `y, x, z²`, whose only
common zero is the origin, two of the rows up to the degree `∑ d_v - 3 + 1 = 2` are equal and the multiple `x²` is not a combination of
the rows. -/
theorem C88_rank_false : ¬ ∀ polys : List (MvPolynomial (Fin 3) ℚ), polys.length = 3 →
    {x : Fin 3 → ℚ | ∀ f ∈ polys, eval x f = 0}.Finite →
    LinearIndependent ℚ (fun j : Fin (allRows polys ((polys.map totalDegree).sum - 3 + 1)).length =>
      (allRows polys ((polys.map totalDegree).sum - 3 + 1)).get j) ∨
    Submodule.span ℚ {g | g ∈ allRows polys ((polys.map totalDegree).sum - 3 + 1)} =
      Submodule.span ℚ (multiples polys ((polys.map totalDegree).sum - 3 + 1)) := by
  intro h
  have hdeg : ([X 1, X 0, X 2 ^ 2] : List (MvPolynomial (Fin 3) ℚ)).map totalDegree = [1, 1, 2] := by simp
  have h := h [X 1, X 0, X 2 ^ 2] rfl (by
    refine (Set.finite_singleton (0 : Fin 3 → ℚ)).subset fun x hx => ?_
    simp only [List.mem_cons, List.not_mem_nil, or_false, forall_eq_or_imp, forall_eq, eval_X, eval_pow, Set.mem_setOf_eq] at hx
    rw [Set.mem_singleton_iff]
    ext i
    fin_cases i
    · exact hx.2.1
    · exact hx.1
    · exact pow_eq_zero_iff (two_ne_zero) |>.1 hx.2.2)
  rw [hdeg] at h
  have hrows := allRows_eq ([X 1, X 0, X 2 ^ 2] : List (MvPolynomial (Fin 3) ℚ)) ((([1, 1, 2] : List ℕ)).sum - 3 + 1)
  rw [hdeg] at hrows
  have hx0 : expo 3 [1, 0, 0] = Finsupp.single (0 : Fin 3) 1 := by
    ext i
    fin_cases i <;> simp [expo]
  have hxy : expo 3 [1, 0, 0] + Finsupp.single (1 : Fin 3) 1 = expo 3 [0, 1, 0] + Finsupp.single (0 : Fin 3) 1 := by
    ext i
    fin_cases i <;> simp [expo]
  rcases h with h | h
  · have hn : (allRows ([X 1, X 0, X 2 ^ 2] : List (MvPolynomial (Fin 3) ℚ)) (([1, 1, 2] : List ℕ).sum - 3 + 1)).Nodup :=
      List.nodup_iff_injective_get.2 h.injective
    rw [hrows] at hn
    have := List.inj_on_of_nodup_map hn (x := (0, [1, 0, 0])) (by decide) (y := (1, [0, 1, 0])) (by decide) (by
      simp only [monTimes, List.getD_cons_zero, List.getD_cons_succ]
      rw [X, X, monomial_mul, monomial_mul, hxy])
    simp at this
  · have hx : (X 0 ^ 2 : MvPolynomial (Fin 3) ℚ) ∈ Submodule.span ℚ
        (multiples ([X 1, X 0, X 2 ^ 2] : List (MvPolynomial (Fin 3) ℚ)) (([1, 1, 2] : List ℕ).sum - 3 + 1)) := by
      refine Submodule.subset_span ⟨X 0, by simp, [1, 0, 0], rfl, by simp, ?_⟩
      rw [monTimes, pow_two]
      rw [X, hx0]
    rw [← h] at hx
    have hle : Submodule.span ℚ {g | g ∈ allRows ([X 1, X 0, X 2 ^ 2] : List (MvPolynomial (Fin 3) ℚ))
        (([1, 1, 2] : List ℕ).sum - 3 + 1)} ≤ LinearMap.ker (lcoeff ℚ (Finsupp.single (0 : Fin 3) 2)) := by
      refine Submodule.span_le.2 fun g hg => ?_
      rw [Set.mem_setOf_eq, hrows] at hg
      obtain ⟨p, hp, rfl⟩ := List.mem_map.1 hg
      have hcases : p ∈ [(0, [0, 0, 0]), (1, [0, 0, 0]), (0, [0, 0, 1]), (0, [0, 1, 0]), (0, [1, 0, 0]), (1, [0, 0, 1]),
          (1, [0, 1, 0]), (2, [0, 0, 0])] := by
        have : ((List.range (([1, 1, 2] : List ℕ).sum - 3 + 1 + 1)).flatMap fun deg => degDRows [1, 1, 2] deg 3) =
          [(0, [0, 0, 0]), (1, [0, 0, 0]), (0, [0, 0, 1]), (0, [0, 1, 0]), (0, [1, 0, 0]), (1, [0, 0, 1]),
          (1, [0, 1, 0]), (2, [0, 0, 0])] := by decide
        rw [← this]; exact hp
      have key : ∀ (s : Fin 3 →₀ ℕ) (m : List ℕ) (i : Fin 3), expo 3 m i + s i ≠ Finsupp.single (0 : Fin 3) 2 i →
          monTimes (monomial s (1 : ℚ)) m ∈ LinearMap.ker (lcoeff ℚ (Finsupp.single (0 : Fin 3) 2)) := by
        intro s m i hne
        rw [LinearMap.mem_ker, lcoeff_apply, monTimes, monomial_mul, coeff_monomial, if_neg]
        intro he
        exact hne (DFunLike.congr_fun he i)
      simp only [List.mem_cons, List.not_mem_nil, or_false] at hcases
      rcases hcases with rfl | rfl | rfl | rfl | rfl | rfl | rfl | rfl
      · exact key _ _ 1 (by simp [expo])
      · exact key _ _ 0 (by simp [expo])
      · exact key _ _ 1 (by simp [expo])
      · exact key _ _ 1 (by simp [expo])
      · exact key _ _ 1 (by simp [expo])
      · exact key _ _ 0 (by simp [expo])
      · exact key _ _ 0 (by simp [expo])
      · simp only [List.getD_cons_zero, List.getD_cons_succ]
        rw [X_pow_eq_monomial]
        exact key _ _ 2 (by simp [expo])
    have := hle hx
    rw [LinearMap.mem_ker, lcoeff_apply, X_pow_eq_monomial, coeff_monomial, if_pos rfl] at this
    exact one_ne_zero this

end YRoots.Legacy
