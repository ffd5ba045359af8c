import Verif.Props.MacEigen
import Verif.Proofs.Schur

/-!
# C81: the Macaulay matrix solver
-/

namespace YRoots.Legacy

open Matrix Finset

variable {dim : ℕ}

/-! ### Helper lemmas -/

theorem matrixOfRows_null {power : Bool} {rows : List (List ℝ)} {terms : List (List ℕ)} {z : Fin dim → ℂ} {p q : ℕ} (hp : p = rows.length)
    (hq : q = terms.length) (h : ∀ row ∈ rows, rowAt power terms row z = 0) :
    NullVec (matrixOfRows rows p q) fun j => basisAt power (asMon (terms.getD j [])) z := by
  subst hp hq
  intro i
  have h1 := h _ (List.getElem_mem i.2)
  rw [rowAt, Finset.sum_range] at h1
  rw [← h1]
  refine Finset.sum_congr rfl fun j _ => ?_
  rw [matrixOfRows, List.getD_eq_getElem _ _ i.2]

/-- The number of roots of a square system is smaller than the number of monomials of degree less than `D`. -/
theorem prod_lt_low (ds : List ℕ) (hd : 2 ≤ ds.length) (h1 : ∀ d ∈ ds, 1 ≤ d) {D : ℕ} (hD : D + ds.length = ds.sum + 1) (hD2 : 2 ≤ D) :
    (sortedMatrixTerms D ds.length).2 + ds.prod < (sortedMatrixTerms D ds.length).1.length := by
  set dim := ds.length with hdim
  have hcle : (sortedMatrixTerms D dim).2 ≤ (sortedMatrixTerms D dim).1.length := by
    have h2 := C76_terms D dim (by omega) (by omega)
    rw [h2.2.2.1, h2.2.2.2.2.2.1, if_neg (by omega), show D + dim - 1 = D + (dim - 1) by omega]
    calc (D + (dim - 1)).choose D ≤ (D + dim).choose D := Nat.choose_le_choose _ (by omega)
      _ = _ := by rw [Nat.choose_symm_add]
  have hterms := termsOK_sorted (dim := dim) (D := D) (by omega) hD2 rfl
    (show _ + ((sortedMatrixTerms D dim).1.length - (sortedMatrixTerms D dim).2) = (sortedMatrixTerms D dim).1.length by omega)
  set c := (sortedMatrixTerms D dim).2
  set q := (sortedMatrixTerms D dim).1.length - c with hq
  -- the monomials with exponents below the degrees
  let deg : Fin dim → ℕ := fun i => ds[i]
  have hdeg1 : ∀ i, 1 ≤ deg i := fun i => h1 _ (List.getElem_mem i.2)
  have hsum : ∑ i, deg i = ds.sum := by
    rw [← List.sum_ofFn]
    congr 1
    exact List.ofFn_getElem
  have hprod : ∏ i, deg i = ds.prod := by
    rw [← List.prod_ofFn]
    congr 1
    exact List.ofFn_getElem
  have hsum' : ∑ i, (deg i - 1) = D - 1 := by
    have : ∑ i, (deg i - 1) + ∑ _i : Fin dim, 1 = ∑ i, deg i := by
      rw [← Finset.sum_add_distrib]
      exact Finset.sum_congr rfl fun i _ => by have := hdeg1 i; omega
    simp at this
    omega
  obtain ⟨i, hi⟩ : ∃ i, 2 ≤ deg i := by
    by_contra hno
    push Not at hno
    have : ∑ i, (deg i - 1) = 0 := Finset.sum_eq_zero fun i _ => by have := hno i; omega
    omega
  obtain ⟨j, hj⟩ : ∃ j : Fin dim, j ≠ i := by
    haveI : Nontrivial (Fin dim) := Fin.nontrivial_iff_two_le.2 hd
    exact exists_ne i
  have hij : deg j ≤ D - 1 := by
    rw [← hsum', ← Finset.add_sum_erase _ _ (mem_univ j)]
    have := Finset.single_le_sum (f := fun i => deg i - 1) (fun _ _ => Nat.zero_le _) (Finset.mem_erase.2 ⟨hj.symm, mem_univ i⟩)
    have := hdeg1 j
    omega
  -- an injection into the lower columns
  have hcol : ∀ t : Fin dim → ℕ, ∑ i, t i ≤ D - 1 → ∃ a : Fin q, (asMon ((sortedMatrixTerms D dim).1.getD (Fin.natAdd c a) []) : Fin dim → ℕ) = t := by
    intro t ht
    obtain ⟨a, ha⟩ := hterms.all t (by omega)
    have hlt : c ≤ a.1 := by
      by_contra hlt
      have h2 := C76_terms D dim (by omega) (by omega)
      have hlen : a.1 < (sortedMatrixTerms D dim).1.length := by have := a.2; omega
      have h3 := (h2.2.2.2.2.2.2 hD2 a.1 hlen).1 (not_le.1 hlt)
      have h4 := (h2.1 _).1 (List.getElem_mem hlen)
      beta_reduce at ha
      rw [List.getD_eq_getElem _ _ hlen] at ha
      have h5 := sum_asMon (dim := dim) h4.1
      rw [ha, h3] at h5
      omega
    refine ⟨⟨a.1 - c, by have := a.2; omega⟩, ?_⟩
    rw [← ha]
    simp only [Fin.natAdd_mk, Nat.add_sub_cancel' hlt]
  set S : Finset (Fin dim → ℕ) := insert (Pi.single j (D - 1)) (Fintype.piFinset fun i => range (deg i)) with hS
  have hcard : S.card = ds.prod + 1 := by
    rw [hS, Finset.card_insert_of_notMem, Fintype.card_piFinset]
    · simp only [card_range, hprod]
    · intro h
      have := mem_range.1 (Fintype.mem_piFinset.1 h j)
      rw [Pi.single_eq_same] at this
      omega
  have hle : ∀ t ∈ S, ∑ i, t i ≤ D - 1 := by
    intro t ht
    rcases Finset.mem_insert.1 ht with rfl | ht
    · rw [Finset.sum_pi_single' ]; simp
    · rw [← hsum']
      exact Finset.sum_le_sum fun i _ => by have := mem_range.1 (Fintype.mem_piFinset.1 ht i); omega
  have hsub : S ⊆ univ.image fun a : Fin q => (asMon ((sortedMatrixTerms D dim).1.getD (Fin.natAdd c a) []) : Fin dim → ℕ) := by
    intro t ht
    obtain ⟨a, ha⟩ := hcol t (hle t ht)
    exact Finset.mem_image.2 ⟨a, mem_univ a, ha⟩
  have h3 := (Finset.card_le_card hsub).trans Finset.card_image_le
  rw [hcard, Finset.card_univ, Fintype.card_fin] at h3
  omega

/-! ### The properties -/

section
variable {L : MacLib} (hL : L.Correct) {S : MsLib} (hS : S.Correct) {argsort : List ℕ → List ℕ} (hsort : IsArgsort argsort)
  (Q : Matrix (Fin dim) (Fin dim) ℝ) (hQ : Qᵀ * Q = 1) (cs : Fin dim → ℝ) {power : Bool}
  {mult : Tensor dim ℝ → (Fin dim → ℕ) → Option (Tensor dim ℝ)} (hm : MultOK power mult)
include hL hS hsort hQ

/-- The solver after the construction of the matrix. -/
theorem solveReduced_roots {c b k n D : ℕ} (method : MacMethod) (t : ℝ) (M : Matrix (Fin (c + b)) (Fin (c + (k + n))) ℝ) (hr : c + k ≤ M.rank)
    (terms : Fin (c + (k + n)) → Fin dim → ℕ) (ht : TermsOK D terms) (z : Fin n → Fin dim → ℂ)
    (hz : ∀ r, NullVec M fun j => basisAt power (terms j) (z r))
    (hgen : Function.Injective fun r => ∑ i, (cs i : ℂ) * ∑ j, (Q i j : ℂ) * z r j) (roots : List (Fin dim → ℂ))
    (h : solveReduced L S argsort Q cs power method t M terms = .ok roots) : roots.Perm (List.ofFn z) := by
  cases method with
  | col m =>
    simp only [solveReduced] at h
    rcases hred : reduceCols L m t M with e | ⟨E, P⟩
    · rw [hred] at h; cases h
    · rw [hred] at h
      have h' := Except.ok.inj h
      rw [← h']
      choose u h0 _hx hu using fun r => C79_cols hL m t M hr E P hred power terms ht (z r) (hz r)
      exact C80_msroots hS hsort Q hQ cs _ z u h0 hu hgen
  | tvb =>
    simp only [solveReduced] at h
    rcases hred : reduceTvb L t M with e | ⟨E, P⟩
    · rw [hred] at h; cases h
    · rw [hred] at h
      have h' := Except.ok.inj h
      rw [← h']
      choose u h0 _hx hu using fun r => C79_tvb hL t M E P hred power terms ht (z r) (hz r)
      exact C80_msroots hS hsort Q hQ cs _ z u h0 hu hgen

end

/-- **C81**, the Macaulay matrix solver.  Let `n` be the product of the degrees, `D ≥ 2` the degree of the matrix and suppose that the null space of the
matrix has dimension at most `n`.  If the system has `n` common zeros in complex space that the fixed random combination of the rotated coordinates separates,
then every successful run, by any of the three methods, in the power basis or in the Chebyshev basis, returns exactly these zeros - or, without
`return_all_roots`, exactly those all of whose coordinates have absolute value at most one. -/
theorem C81_roots {L : MacLib} (hL : L.Correct) {S : MsLib} (hS : S.Correct) {argsort : List ℕ → List ℕ} (hsort : IsArgsort argsort)
    (Q : Matrix (Fin dim) (Fin dim) ℝ) (hQ : Qᵀ * Q = 1) (cs : Fin dim → ℝ) {power : Bool}
    {mult : Tensor dim ℝ → (Fin dim → ℕ) → Option (Tensor dim ℝ)} (hm : MultOK power mult) (linear : Except MacError (List (Fin dim → ℂ)))
    (hdim : 1 ≤ dim) (polys : List (Tensor dim ℝ × ℕ)) (hne : polys ≠ []) (hfit : ∀ p ∈ polys, Fits p.1 p.2 ∧ 1 ≤ p.2) (D : ℕ)
    (hD : D + polys.length = (polys.map Prod.snd).sum + 1) (hD2 : 2 ≤ D) {n : ℕ} (hn : (polys.map Prod.snd).prod = n)
    (hrank : ∀ rows, buildMacaulay argsort mult polys = .ok rows →
      (D + dim).choose dim ≤ (matrixOfRows rows rows.length ((D + dim).choose dim)).rank + n)
    (z : Fin n → Fin dim → ℂ) (hz : ∀ r, ∀ p ∈ polys, valueAt power p.1 (z r) = 0)
    (hgen : Function.Injective fun r => ∑ i, (cs i : ℂ) * ∑ j, (Q i j : ℂ) * z r j)
    (method : MacMethod) (t : ℝ) (all : Bool) (roots : List (Fin dim → ℂ))
    (h : multiplication L S argsort Q cs mult linear power method t all polys = .ok roots) :
    roots.Perm (if all then List.ofFn z else (List.ofFn z).filter fun x => decide (∀ i, ‖x i‖ ≤ 1)) := by
  obtain ⟨rows, hrows, -, -, hspec, -⟩ := C77_build hsort hdim hm polys hne hfit D hD
  have hfd : findDegree (polys.map Prod.snd) = D := by rw [findDegree, List.length_map]; omega
  subst hfd hn
  set D := findDegree (polys.map Prod.snd) with hDdef
  have hC := C76_terms D dim (by omega) hdim
  have hr := hrank rows hrows
  rw [← hC.2.2.1] at hr
  rw [multiplication] at h
  split_ifs at h with hone
  simp only [hrows, ← hDdef] at h
  have hcut : (sortedMatrixTerms D dim).2 ≠ 0 := by
    rw [hC.2.2.2.2.2.1, if_neg (by omega)]
    exact (Nat.choose_pos (by omega)).ne'
  rw [if_neg hcut] at h
  split_ifs at h with hrl hbad
  push Not at hrl hbad
  set st := sortedMatrixTerms D dim with hst
  have hcols : st.2 + (st.1.length - st.2 - (polys.map Prod.snd).prod + (polys.map Prod.snd).prod) = st.1.length := by omega
  have hrowsn : st.2 + (rows.length - st.2) = rows.length := by omega
  have hzero : ∀ r, ∀ row ∈ rows, rowAt power st.1 row (z r) = 0 := by
    intro r row hrow
    obtain ⟨p, hp, mon, -, he⟩ := hspec row hrow
    rw [he, hz r p hp, zero_mul]
  rcases hs : solveReduced L S argsort Q cs power method t (matrixOfRows rows (st.2 + (rows.length - st.2)) (st.2 + (st.1.length - st.2 - (polys.map Prod.snd).prod + (polys.map Prod.snd).prod)))
      (fun j => asMon (st.1.getD j [])) with e | rs
  · rw [hs] at h; cases h
  rw [hs] at h
  have h' : unitBox all rs = roots := Except.ok.inj h
  have hperm := solveReduced_roots hL hS hsort Q hQ cs (D := D) method t _
    (by
      have : ∀ p q, p = rows.length → q = st.1.length → st.2 + (st.1.length - st.2 - (polys.map Prod.snd).prod) ≤ (matrixOfRows rows p q).rank := by
        rintro p q rfl rfl; omega
      exact this _ _ hrowsn hcols) _ (termsOK_sorted hdim hD2 rfl hcols) z
    (fun r => matrixOfRows_null hrowsn hcols (hzero r)) hgen rs hs
  rw [← h', unitBox]
  split_ifs
  · exact hperm
  · exact hperm.filter _

/-- **C81**, success.  For a square system (as many polynomials as variables, at least two) satisfying the assumptions of `C81_roots`, the methods `svd` and
`qrt` succeed if the condition number of the first columns is accepted. -/
theorem C81_total {L : MacLib} (hL : L.Correct) (S : MsLib) {argsort : List ℕ → List ℕ} (hsort : IsArgsort argsort)
    (Q : Matrix (Fin dim) (Fin dim) ℝ) (cs : Fin dim → ℝ) {power : Bool}
    {mult : Tensor dim ℝ → (Fin dim → ℕ) → Option (Tensor dim ℝ)} (hm : MultOK power mult) (linear : Except MacError (List (Fin dim → ℂ)))
    (hdim : 2 ≤ dim) (polys : List (Tensor dim ℝ × ℕ)) (hsq : polys.length = dim) (hfit : ∀ p ∈ polys, Fits p.1 p.2 ∧ 1 ≤ p.2) (D : ℕ)
    (hD : D + polys.length = (polys.map Prod.snd).sum + 1) (hD2 : 2 ≤ D)
    (hrank : ∀ rows, buildMacaulay argsort mult polys = .ok rows →
      (D + dim).choose dim ≤ (matrixOfRows rows rows.length ((D + dim).choose dim)).rank + (polys.map Prod.snd).prod)
    (t : ℝ) (hcond : ∀ rows, buildMacaulay argsort mult polys = .ok rows →
      L.condExceeds (matrixOfRows rows rows.length ((D + dim - 1).choose D)) t = false)
    (m : ColMethod) (all : Bool) :
    ∃ roots, multiplication L S argsort Q cs mult linear power (.col m) t all polys = .ok roots := by
  have hne : polys ≠ [] := by rintro rfl; simp at hsq; omega
  obtain ⟨rows, hrows, -⟩ := C77_build hsort (by omega) hm polys hne hfit D hD
  have hfd : findDegree (polys.map Prod.snd) = D := by rw [findDegree, List.length_map]; omega
  subst hfd
  set D := findDegree (polys.map Prod.snd) with hDdef
  have hC := C76_terms D dim (by omega) (by omega)
  have hr := hrank rows hrows
  have hc := hcond rows hrows
  have hcut : (sortedMatrixTerms D dim).2 = (D + dim - 1).choose D := by rw [hC.2.2.2.2.2.1, if_neg (by omega)]
  have hlt : (sortedMatrixTerms D dim).2 + (polys.map Prod.snd).prod < (sortedMatrixTerms D dim).1.length := by
    have := prod_lt_low (polys.map Prod.snd) (by rw [List.length_map]; omega)
      (fun d hd => by obtain ⟨p, hp, rfl⟩ := List.mem_map.1 hd; exact (hfit p hp).2) (D := D) (by rw [List.length_map]; exact hD) hD2
    rwa [List.length_map, hsq] at this
  have hpos : (polys.map Prod.snd).prod ≠ 0 := by
    refine List.prod_ne_zero fun h0 => ?_
    obtain ⟨p, hp, hp0⟩ := List.mem_map.1 h0
    have := (hfit p hp).2
    omega
  rw [← hC.2.2.1] at hr
  have hrl := (Matrix.rank_le_height (matrixOfRows rows rows.length (sortedMatrixTerms D dim).1.length))
  rw [← hcut] at hc
  have hcut0 : (sortedMatrixTerms D dim).2 ≠ 0 := by
    rw [hcut]
    exact (Nat.choose_pos (by omega)).ne'
  rw [multiplication, if_neg (by omega)]
  simp only [hrows, ← hDdef]
  set n := (polys.map Prod.snd).prod
  set st := sortedMatrixTerms D dim with hst
  rw [if_neg hcut0, if_neg (by omega), if_neg (by push Not; exact ⟨hpos, by omega⟩)]
  have htot := C78_cols_total hL m t (matrixOfRows rows (st.2 + (rows.length - st.2)) (st.2 + (st.1.length - st.2 - n + n)))
    (by
      have : ∀ p, p = rows.length → L.condExceeds (matrixOfRows rows p st.2) t = false := by rintro p rfl; exact hc
      exact this _ (by omega))
  rw [if_neg (by omega)] at htot
  obtain ⟨r, hr'⟩ := htot
  simp only [solveReduced, hr']
  exact ⟨_, rfl⟩


/-! ### Non-vacuity -/

/-- A rational array read as a real one. -/
noncomputable def realArr (T : Tensor dim ℚ) : Tensor dim ℝ := ⟨T.shape, fun k => (T.coef k : ℝ)⟩

theorem flatPolys_real (degree : ℕ) (terms : List (List ℕ)) (l : List (Tensor dim ℚ)) (z : (Fin dim → ℕ) → ℚ) (rows : List (List ℚ))
    (h : flatPolys degree terms l z = .ok rows) :
    flatPolys degree terms (l.map realArr) (fun k => (z k : ℝ)) = .ok (rows.map (List.map ((↑) : ℚ → ℝ))) := by
  induction l generalizing z rows with
  | nil => cases h; rfl
  | cons T l ih =>
    rw [flatPolys] at h
    split_ifs at h with hs
    rw [List.map_cons, flatPolys, if_neg (by exact hs)]
    simp only at h ⊢
    rcases hl : flatPolys degree terms l (fun k => if ∀ i, k i < T.shape i then 0 else if ∀ i, k i < T.shape i then T.coef k else z k) with e | rows'
    · rw [hl] at h; cases h
    rw [hl] at h
    have h1 := ih _ _ hl
    have e : (fun k : Fin dim → ℕ => (((if ∀ i, k i < T.shape i then 0 else if ∀ i, k i < T.shape i then T.coef k else z k) : ℚ) : ℝ)) =
        fun k => if ∀ i, k i < (realArr T).shape i then 0 else if ∀ i, k i < (realArr T).shape i then (realArr T).coef k else (z k : ℝ) := by
      funext k
      by_cases hk : ∀ i, k i < T.shape i
      · rw [if_pos hk, if_pos (show ∀ i, k i < (realArr T).shape i from hk), Rat.cast_zero]
      · have hk' : ¬ ∀ i, k i < (realArr T).shape i := hk
        rw [if_neg hk, if_neg hk, if_neg hk', if_neg hk']
    rw [e] at h1
    rw [h1]
    cases h
    simp only [List.map_cons, List.map_map]
    congr 2
    refine List.map_congr_left fun t _ => ?_
    simp only [Function.comp_apply]
    by_cases hk : ∀ i, (asMon t : Fin dim → ℕ) i < T.shape i
    · rw [if_pos hk, if_pos (show ∀ i, (asMon t : Fin dim → ℕ) i < (realArr T).shape i from hk)]; rfl
    · have hk' : ¬ ∀ i, (asMon t : Fin dim → ℕ) i < (realArr T).shape i := hk
      rw [if_neg hk, if_neg hk']

theorem rowSwap_real (argsort : List ℕ → List ℕ) (rows out : List (List ℚ)) (h : rowSwap argsort rows = .ok out) :
    rowSwap argsort (rows.map (List.map ((↑) : ℚ → ℝ))) = .ok (out.map (List.map ((↑) : ℚ → ℝ))) := by
  rw [rowSwap] at h ⊢
  have e : ∀ r : List ℚ, (r.map ((↑) : ℚ → ℝ)).findIdx? (· ≠ 0) = r.findIdx? (· ≠ 0) := by
    intro r
    rw [List.findIdx?_map]
    congr 1
    funext x
    simp
  have e2 : (rows.map (List.map ((↑) : ℚ → ℝ))).mapM (fun r => r.findIdx? (· ≠ 0)) = rows.mapM fun r => r.findIdx? (· ≠ 0) := by
    clear h
    induction rows with
    | nil => rfl
    | cons r rows ih => rw [List.map_cons, List.mapM_cons, List.mapM_cons, e, ih]
  rw [e2]
  rcases hm : rows.mapM (fun r => r.findIdx? (· ≠ 0)) with _ | leading
  · rw [hm] at h; cases h
  · rw [hm] at h
    cases h
    simp only [hm]
    rw [List.map_map]
    congr 1
    refine List.map_congr_left fun i _ => ?_
    rw [Function.comp_apply, show ([] : List ℝ) = List.map ((↑) : ℚ → ℝ) [] from rfl, List.getD_map]

theorem addPolys_real (ls : List (Tensor dim ℚ × ℕ)) (D : ℕ) (out : List (List (Tensor dim ℚ)))
    (h : ls.mapM (addPolys (fun T mon => some (monMultPower T mon)) D) = some out) :
    (ls.map fun p => (realArr p.1, p.2)).mapM (addPolys (fun T mon => some (monMultPower T mon)) D) = some (out.map (List.map realArr)) := by
  have hmul : ∀ (T : Tensor dim ℚ) mon, monMultPower (realArr T) mon = realArr (monMultPower T mon) := by
    intro T mon
    simp only [monMultPower, realArr]
    congr 1
    funext k
    by_cases hk : ∀ i, mon i ≤ k i
    · rw [if_pos hk, if_pos hk]
    · rw [if_neg hk, if_neg hk, Rat.cast_zero]
  have h1 : ∀ p : Tensor dim ℚ × ℕ, ∃ l, addPolys (fun T mon => some (monMultPower T mon)) D p = some l ∧
      addPolys (fun T mon => some (monMultPower T mon)) D (realArr p.1, p.2) = some (l.map realArr) := by
    intro p
    refine ⟨p.1 :: (monCombos (dim - 1) (List.replicate dim 0) (D - p.2) 0).1.tail.map fun mon => monMultPower p.1 (asMon mon), ?_, ?_⟩
    · rw [addPolys, mapM_eq_some _ (fun mon => monMultPower p.1 (asMon mon)) _ fun _ _ => rfl]; rfl
    · simp only [addPolys]
      rw [mapM_eq_some _ (fun mon => monMultPower (realArr p.1) (asMon mon)) _ fun _ _ => rfl]
      simp only [Option.map_some, List.map_cons, List.map_map, hmul]
      rfl
  induction ls generalizing out with
  | nil => cases h; rfl
  | cons p ls ih =>
    obtain ⟨l, hl, hl'⟩ := h1 p
    rw [List.mapM_cons, hl] at h
    rw [List.map_cons, List.mapM_cons, hl']
    rcases hm : ls.mapM (addPolys (fun T mon => some (monMultPower T mon)) D) with _ | out'
    · rw [hm] at h; cases h
    · rw [hm] at h
      rw [ih out' hm]
      cases h
      rfl

theorem build_real (argsort : List ℕ → List ℕ) (polys : List (Tensor dim ℚ × ℕ)) (rows : List (List ℚ))
    (h : buildMacaulay argsort (fun T mon => some (monMultPower T mon)) polys = .ok rows) :
    buildMacaulay argsort (fun T mon => some (monMultPower T mon)) (polys.map fun p => (realArr p.1, p.2)) = .ok (rows.map (List.map ((↑) : ℚ → ℝ))) := by
  simp only [buildMacaulay] at h ⊢
  have e : (polys.map fun p => (realArr p.1, p.2)).map Prod.snd = polys.map Prod.snd := by simp
  rw [e]
  rcases hm : polys.mapM (addPolys (fun T mon => some (monMultPower T mon)) (findDegree (polys.map Prod.snd))) with _ | out
  · rw [hm] at h; cases h
  rw [hm] at h
  rw [addPolys_real polys _ out hm]
  simp only [createMatrix] at h ⊢
  rw [← List.map_flatten]
  rcases hf : flatPolys (findDegree (polys.map Prod.snd)) (sortedMatrixTerms (findDegree (polys.map Prod.snd)) dim).1 out.flatten (fun _ => 0) with er | rs
  · rw [hf] at h; cases h
  rw [hf] at h
  have h2 := flatPolys_real _ _ _ _ _ hf
  simp only [Rat.cast_zero] at h2
  rw [h2]
  exact rowSwap_real argsort rs rows h

/-- The system `x - y = 0`, `x² = 1`. -/
noncomputable def exSystem : List (Tensor 2 ℝ × ℕ) := [(exLine ℝ, 1), (exQuad ℝ, 2)]

def exRows : List (List ℚ) := [[1, -1, 0, 0, 0, 0], [1, 0, 0, 0, 0, -1], [0, 1, -1, 0, 0, 0], [0, 0, 0, 1, -1, 0]]

theorem toOption_ok {ε α : Type*} {x : Except ε α} {a : α} (h : x.toOption = some a) : x = .ok a := by
  cases x with
  | error e => cases h
  | ok b => cases h; rfl

theorem exSystem_rows : buildMacaulay argsortIns (fun T mon => some (monMultPower T mon)) exSystem = .ok (exRows.map (List.map ((↑) : ℚ → ℝ))) := by
  have h := build_real argsortIns [(exLine ℚ, 1), (exQuad ℚ, 2)] exRows (toOption_ok (by decide +kernel))
  have e1 : realArr (exLine ℚ) = exLine ℝ := by
    simp only [realArr, exLine]
    congr 1
    funext k
    split_ifs <;> simp
  have e2 : realArr (exQuad ℚ) = exQuad ℝ := by
    simp only [realArr, exQuad]
    congr 1
    funext k
    split_ifs <;> simp
  simpa only [List.map_cons, List.map_nil, e1, e2, exSystem] using h

theorem exSystem_fits : ∀ p ∈ exSystem, Fits p.1 p.2 ∧ 1 ≤ p.2 := by
  intro p hp
  simp only [exSystem, List.mem_cons, List.not_mem_nil, or_false] at hp
  rcases hp with rfl | rfl
  · exact ⟨exLine_fits, le_rfl⟩
  · exact ⟨exQuad_fits, by norm_num⟩

theorem exSystem_matrix : matrixOfRows (exRows.map (List.map ((↑) : ℚ → ℝ))) 4 6 = exMatrix := by
  ext i j
  fin_cases i <;> fin_cases j <;> simp [matrixOfRows, exRows, exMatrix]

theorem exSystem_zero (a : ℂ) (ha : a ^ 2 = 1) : ∀ p ∈ exSystem, valueAt true p.1 (fun _ => a) = 0 := by
  intro p hp
  simp only [exSystem, List.mem_cons, List.not_mem_nil, or_false] at hp
  have hterms : (sortedMatrixTerms 2 2).1 = [[2, 0], [1, 1], [0, 2], [1, 0], [0, 1], [0, 0]] := by decide
  rcases hp with rfl | rfl
  · rw [← rowAt_entry true (by norm_num) (D := 2) (by norm_num) _ fun k hk hne => (exLine_fits.degree k hk hne).trans (by norm_num)]
    rw [rowAt, hterms]
    simp [Finset.sum_range_succ, entry, asMon, Fin.forall_fin_two, exLine, basisAt, Fin.prod_univ_two]
  · rw [← rowAt_entry true (by norm_num) (D := 2) (by norm_num) _ exQuad_fits.degree]
    rw [rowAt, hterms]
    simp [Finset.sum_range_succ, entry, asMon, Fin.forall_fin_two, exQuad, basisAt, Fin.prod_univ_two, ha]

/-- The solver finds both zeros of the system, by all three methods if they succeed; `svd` and `qrt` do. -/
example (m : ColMethod) (all : Bool) (linear : Except MacError (List (Fin 2 → ℂ))) : ∃ roots,
    multiplication exactMacLib exactMsLib argsortIns !![0, 1; -1, 0] ![1, 2] (fun T mon => some (monMultPower T mon)) linear true (.col m) 10 all exSystem
      = .ok roots ∧ roots.Perm [fun _ => 1, fun _ => -1] := by
  have hrank : ∀ rows, buildMacaulay argsortIns (fun T mon => some (monMultPower T mon)) exSystem = .ok rows →
      (2 + 2).choose 2 ≤ (matrixOfRows rows rows.length ((2 + 2).choose 2)).rank + (exSystem.map Prod.snd).prod := by
    intro rows h
    rw [exSystem_rows] at h
    cases h
    show 6 ≤ (matrixOfRows (exRows.map (List.map ((↑) : ℚ → ℝ))) 4 6).rank + _
    rw [exSystem_matrix, exMatrix_rank]
    simp [exSystem]
  have hcond : ∀ rows, buildMacaulay argsortIns (fun T mon => some (monMultPower T mon)) exSystem = .ok rows →
      exactMacLib.condExceeds (matrixOfRows rows rows.length ((2 + 2 - 1).choose 2)) 10 = false := by
    intro rows h
    rw [exSystem_rows] at h
    cases h
    have h1 := exMatrix_cond 10
    rw [← exSystem_matrix] at h1
    exact h1
  obtain ⟨roots, h⟩ := C81_total exactMacLib_correct exactMsLib argsortIns_ok !![0, 1; -1, 0] ![1, 2] C77_mult_power linear le_rfl exSystem rfl exSystem_fits 2
    (by simp [exSystem]) le_rfl hrank 10 hcond m all
  refine ⟨roots, h, ?_⟩
  have h1 := C81_roots exactMacLib_correct exactMsLib_correct argsortIns_ok !![0, 1; -1, 0]
    (by ext i j; fin_cases i <;> fin_cases j <;> simp [mul_apply, Fin.sum_univ_two]) ![1, 2] C77_mult_power linear (by norm_num) exSystem (by simp [exSystem])
    exSystem_fits 2 (by simp [exSystem]) le_rfl (n := 2) (by simp [exSystem]) (fun rows hr => by simpa [exSystem] using hrank rows hr)
    ![fun _ => 1, fun _ => -1]
    (fun r => by
      fin_cases r
      · exact exSystem_zero 1 (by norm_num)
      · exact exSystem_zero (-1) (by norm_num))
    (fun r s hrs => by
      fin_cases r <;> fin_cases s <;> simp [Fin.sum_univ_two] at hrs ⊢
      · norm_num at hrs
      · norm_num at hrs)
    (.col m) 10 all roots h
  refine h1.trans (List.Perm.of_eq ?_)
  have e : List.ofFn ![fun _ : Fin 2 => (1 : ℂ), fun _ => -1] = [fun _ => 1, fun _ => -1] := by simp [List.ofFn_succ]
  rw [e]
  split_ifs
  · rfl
  · rw [List.filter_eq_self]
    intro x hx
    simp only [List.mem_cons, List.not_mem_nil, or_false] at hx
    rcases hx with rfl | rfl <;> simp

/-! ### One polynomial -/

/-- `x² - 1/4`. -/
noncomputable def exSquare : Tensor 1 ℝ := ⟨fun _ => 3, fun k => if k 0 = 2 then 1 else if k 0 = 0 then -1 / 4 else 0⟩

theorem idx_exSquare (k : Fin 1 → ℕ) : k ∈ exSquare.idx ↔ ∀ i, k i < exSquare.shape i := by
  simp only [Tensor.idx, Fintype.mem_piFinset, mem_range]

theorem exSquare_value (z : Fin 1 → ℂ) : valueAt true exSquare z = z 0 ^ 2 - 1 / 4 := by
  have hi : exSquare.idx = (range 3).image fun j => fun _ : Fin 1 => j := by
    ext k
    rw [idx_exSquare, Finset.mem_image]
    constructor
    · intro h
      exact ⟨k 0, mem_range.2 (h 0), funext fun i => by rw [Subsingleton.elim i 0]⟩
    · rintro ⟨j, hj, rfl⟩ i
      exact mem_range.1 hj
  rw [valueAt, hi, Finset.sum_image fun a _ b _ h => congrFun h 0]
  simp [Finset.sum_range_succ, exSquare, basisAt]
  ring

theorem exSquare_fits : Fits exSquare 2 := by
  refine ⟨fun i => le_refl 3, fun k hk _ => ?_, fun _ => 2, ?_, ?_⟩
  · have := (idx_exSquare k).1 hk 0
    simp [exSquare] at this
    simp
    omega
  · rw [idx_exSquare]
    intro i
    simp [exSquare]
  · simp [exSquare]

/-- **C81 is false** of the code for one polynomial in one variable: all assumptions of `C81_roots` hold for `x² - 1/4`, which has the two zeros ±1/2,
but a name that was never defined is used. -/
theorem C81_single_false {argsort : List ℕ → List ℕ} (hsort : IsArgsort argsort) {mult : Tensor 1 ℝ → (Fin 1 → ℕ) → Option (Tensor 1 ℝ)}
    (hm : MultOK true mult) : ∃ (polys : List (Tensor 1 ℝ × ℕ)) (z : Fin 2 → Fin 1 → ℂ),
    polys ≠ [] ∧ (∀ p ∈ polys, Fits p.1 p.2 ∧ 1 ≤ p.2) ∧ 2 + polys.length = (polys.map Prod.snd).sum + 1 ∧ (polys.map Prod.snd).prod = 2 ∧
    (∀ rows, buildMacaulay argsort mult polys = .ok rows →
      (2 + 1).choose 1 ≤ (matrixOfRows rows rows.length ((2 + 1).choose 1)).rank + 2) ∧
    (∀ r, ∀ p ∈ polys, valueAt true p.1 (z r) = 0) ∧ (∀ c q : ℂ, c ≠ 0 → q ≠ 0 → Function.Injective fun r => c * (q * z r 0)) ∧
    ∀ (L : MacLib) (S : MsLib) (Q : Matrix (Fin 1) (Fin 1) ℝ) (cs : Fin 1 → ℝ) (linear : Except MacError (List (Fin 1 → ℂ)))
      (method : MacMethod) (t : ℝ) (all : Bool),
      multiplication L S argsort Q cs mult linear true method t all polys = .error .nameError := by
  have hfit : ∀ p ∈ [(exSquare, 2)], Fits p.1 p.2 ∧ 1 ≤ p.2 := by
    intro p hp
    rw [List.mem_singleton] at hp
    subst hp
    exact ⟨exSquare_fits, by norm_num⟩
  refine ⟨[(exSquare, 2)], ![fun _ => 1 / 2, fun _ => -1 / 2], by simp, hfit, by simp, by simp, ?_, ?_, ?_, ?_⟩
  · intro rows hrows
    obtain ⟨rows', hrows', hlen, -, hspec, -⟩ := C77_build hsort le_rfl hm [(exSquare, 2)] (by simp) hfit 2 (by simp)
    rw [hrows] at hrows'
    cases hrows'
    have hpos : 0 < (matrixOfRows rows rows.length ((2 + 1).choose 1)).rank := by
      rw [pos_iff_ne_zero]
      intro hr0
      rw [Matrix.rank, Submodule.finrank_eq_zero, LinearMap.range_eq_bot] at hr0
      have h0 : matrixOfRows rows rows.length ((2 + 1).choose 1) = 0 := by
        refine Matrix.ext_of_mulVec_single fun j => ?_
        rw [Matrix.zero_mulVec]
        exact LinearMap.congr_fun hr0 _
      have hl1 : rows.length = 1 := by rw [hlen]; simp
      obtain ⟨row, hrow⟩ := List.length_eq_one_iff.1 hl1
      obtain ⟨p, hp, mon, hle, he⟩ := hspec row (by rw [hrow]; simp)
      rw [List.mem_singleton] at hp
      subst hp
      have h1 := he fun _ => 1
      rw [exSquare_value] at h1
      have hlt : (sortedMatrixTerms 2 1).1.length = 3 := by decide
      rw [rowAt, Finset.sum_eq_zero] at h1
      · have : basisAt true mon (fun _ => (1 : ℂ)) = 1 := by simp [basisAt]
        rw [this] at h1
        norm_num at h1
      · intro j hj
        have hj' : j < 3 := by rw [← hlt]; exact mem_range.1 hj
        have h2 := congrFun (congrFun h0 ⟨0, by omega⟩) ⟨j, by simpa using hj'⟩
        simp only [matrixOfRows, hrow, Matrix.zero_apply] at h2
        have h3 : row.getD j 0 = 0 := by simpa using h2
        rw [h3]
        simp
    have : (2 + 1).choose 1 = 3 := rfl
    omega
  · intro r p hp
    rw [List.mem_singleton] at hp
    subst hp
    rw [exSquare_value]
    fin_cases r <;> norm_num
  · intro c q hc hq r s h
    have h1 := mul_left_cancel₀ hq (mul_left_cancel₀ hc h)
    fin_cases r <;> fin_cases s
    · rfl
    · norm_num at h1
    · norm_num at h1
    · rfl
  · intro L S Q cs linear method t all
    rw [multiplication, if_pos (by simp)]

example : IsArgsort argsortIns ∧ MultOK true (fun (T : Tensor 1 ℝ) mon => some (monMultPower T mon)) := ⟨argsortIns_ok, C77_mult_power⟩

end YRoots.Legacy
