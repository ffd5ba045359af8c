import Verif.Proofs.MacMult
import Verif.Props.MacTerms

/-!
# C77: the rows of the Macaulay matrix
-/

namespace YRoots.Legacy

open Finset

variable {dim : ℕ}

/-! ### Specification -/

/-- The value of a basis polynomial: a monomial (power basis) or a product of Chebyshev polynomials. -/
noncomputable def basisAt (power : Bool) (t : Fin dim → ℕ) (z : Fin dim → ℂ) : ℂ :=
  ∏ i, if power then z i ^ t i else chebT (t i) (z i)

/-- The value of a polynomial with real coefficients at a point of complex space. -/
noncomputable def valueAt (power : Bool) (T : Tensor dim ℝ) (z : Fin dim → ℂ) : ℂ :=
  ∑ k ∈ T.idx, (T.coef k : ℂ) * basisAt power k z

/-- The array holds a nonzero polynomial of degree at most `d` and no axis is longer than necessary for that degree. -/
structure Fits (T : Tensor dim ℝ) (d : ℕ) : Prop where
  shape : ∀ i, T.shape i ≤ d + 1
  degree : ∀ k ∈ T.idx, T.coef k ≠ 0 → ∑ i, k i ≤ d
  nonzero : ∃ k ∈ T.idx, T.coef k ≠ 0

/-- `argsort` returns the positions of the entries in increasing order of the entries (in any order among equal ones). -/
def IsArgsort (argsort : List ℕ → List ℕ) : Prop :=
  ∀ l, (argsort l).Perm (List.range l.length) ∧ ((argsort l).map fun i => l.getD i 0).Pairwise (· ≤ ·)

/-- The polynomial in a row of the matrix. -/
noncomputable def rowAt (power : Bool) (terms : List (List ℕ)) (row : List ℝ) (z : Fin dim → ℂ) : ℂ :=
  ∑ j ∈ range terms.length, ((row.getD j 0 : ℝ) : ℂ) * basisAt power (asMon (terms.getD j [])) z

/-- `mult` multiplies a polynomial by a basis polynomial. -/
def MultOK (power : Bool) (mult : Tensor dim ℝ → (Fin dim → ℕ) → Option (Tensor dim ℝ)) : Prop :=
  ∀ T d mon, Fits T d → ∃ R, mult T mon = some R ∧ Fits R (d + ∑ i, mon i) ∧
    ∀ z, valueAt power R z = valueAt power T z * basisAt power mon z

/-! ### Helper lemmas -/

/-- The entry of an array at a multi-index, zero outside. -/
noncomputable def entry (T : Tensor dim ℝ) (k : Fin dim → ℕ) : ℝ := if ∀ i, k i < T.shape i then T.coef k else 0

theorem flatPolys_ok (degree : ℕ) (terms : List (List ℕ)) (l : List (Tensor dim ℝ)) (h : ∀ T ∈ l, ∀ i, T.shape i ≤ degree + 1) :
    flatPolys degree terms l (fun _ => 0) = .ok (l.map fun T => terms.map fun t => entry T (asMon t)) := by
  induction l with
  | nil => rfl
  | cons T l ih =>
    rw [flatPolys, if_neg (fun ⟨i, hi⟩ => by have := h T List.mem_cons_self i; omega)]
    have e : (fun k : Fin dim → ℕ => if ∀ i, k i < T.shape i then (0 : ℝ) else if ∀ i, k i < T.shape i then T.coef k else 0) = fun _ => 0 := by
      funext k; split_ifs <;> rfl
    simp only [e]
    rw [ih fun T' hT' => h T' (List.mem_cons_of_mem _ hT')]
    rfl

theorem asMon_inj {s t : List ℕ} (hs : s.length = dim) (ht : t.length = dim) (h : (asMon s : Fin dim → ℕ) = asMon t) : s = t := by
  refine List.ext_getElem (by omega) fun i h1 h2 => ?_
  have := congrFun h ⟨i, by omega⟩
  simp only [asMon] at this
  rwa [List.getD_eq_getElem _ _ h1, List.getD_eq_getElem _ _ h2] at this

theorem asMon_ofFn (k : Fin dim → ℕ) : asMon (List.ofFn k) = k := by
  funext i
  rw [asMon, List.getD_eq_getElem _ _ (by simp)]
  simp

theorem sum_asMon {t : List ℕ} (ht : t.length = dim) : ∑ i, (asMon t : Fin dim → ℕ) i = t.sum := by
  have h : t = List.ofFn (asMon t : Fin dim → ℕ) := by
    refine asMon_inj ht (by simp) ?_
    rw [asMon_ofFn]
  conv_rhs => rw [h]
  rw [List.sum_ofFn]

theorem sum_terms_range {α : Type*} (l : List α) (a : α) (f : α → ℂ) : ∑ j ∈ range l.length, f (l.getD j a) = (l.map f).sum := by
  induction l with
  | nil => simp
  | cons x l ih =>
    rw [List.length_cons, Finset.sum_range_succ']
    simp only [List.getD_cons_succ, List.getD_cons_zero, List.map_cons, List.sum_cons]
    rw [ih, add_comm]

theorem rowAt_entry (power : Bool) (hd : 1 ≤ dim) {D : ℕ} (hD : 1 ≤ D) (T : Tensor dim ℝ) (hdeg : ∀ k ∈ T.idx, T.coef k ≠ 0 → ∑ i, k i ≤ D)
    (z : Fin dim → ℂ) :
    rowAt power (sortedMatrixTerms D dim).1 ((sortedMatrixTerms D dim).1.map fun t => entry T (asMon t)) z = valueAt power T z := by
  have hmem := (C76_terms D dim hD hd).1
  have hnd := (C76_terms D dim hD hd).2.1
  generalize (sortedMatrixTerms D dim).1 = terms at *
  have e1 : rowAt power terms (terms.map fun t => entry T (asMon t)) z =
      ∑ j ∈ range terms.length, (fun t => ((entry T (asMon t) : ℝ) : ℂ) * basisAt power (asMon t) z) (terms.getD j []) := by
    refine Finset.sum_congr rfl fun j hj => ?_
    have hj' := mem_range.1 hj
    rw [List.getD_eq_getElem _ _ (by simpa using hj'), List.getD_eq_getElem _ _ hj', List.getElem_map]
  rw [e1, sum_terms_range terms [] fun t => ((entry T (asMon t) : ℝ) : ℂ) * basisAt power (asMon t) z, ← List.sum_toFinset _ hnd,
    ← Finset.sum_image (f := fun k => ((entry T k : ℝ) : ℂ) * basisAt power k z) (g := (asMon : List ℕ → Fin dim → ℕ))]
  · rw [valueAt]
    have hidx : ∀ k : Fin dim → ℕ, k ∈ T.idx ↔ ∀ i, k i < T.shape i := fun k => by simp [Tensor.idx]
    have himg : ∀ k : Fin dim → ℕ, k ∈ terms.toFinset.image asMon ↔ ∑ i, k i ≤ D := fun k => by
      rw [Finset.mem_image]
      constructor
      · rintro ⟨t, ht, rfl⟩
        have := (hmem t).1 (List.mem_toFinset.1 ht)
        rw [sum_asMon this.1]; exact this.2
      · intro h
        refine ⟨List.ofFn k, List.mem_toFinset.2 ((hmem _).2 ⟨by simp, ?_⟩), asMon_ofFn k⟩
        rw [List.sum_ofFn]; exact h
    have hL : ∑ k ∈ terms.toFinset.image asMon, ((entry T k : ℝ) : ℂ) * basisAt power k z =
        ∑ k ∈ terms.toFinset.image asMon ∪ T.idx, ((entry T k : ℝ) : ℂ) * basisAt power k z := by
      refine Finset.sum_subset Finset.subset_union_left fun k hk hk' => ?_
      have h1 : k ∈ T.idx := (Finset.mem_union.1 hk).resolve_left hk'
      rw [himg] at hk'
      have h0 : T.coef k = 0 := by
        by_contra h; exact hk' (hdeg k h1 h)
      rw [entry, if_pos ((hidx k).1 h1), h0, Complex.ofReal_zero, zero_mul]
    have hR : ∑ k ∈ T.idx, ((T.coef k : ℝ) : ℂ) * basisAt power k z =
        ∑ k ∈ terms.toFinset.image asMon ∪ T.idx, ((entry T k : ℝ) : ℂ) * basisAt power k z := by
      rw [← Finset.sum_subset (Finset.subset_union_right (s₁ := terms.toFinset.image asMon))]
      · exact Finset.sum_congr rfl fun k hk => by rw [entry, if_pos ((hidx k).1 hk)]
      · intro k _ hk
        rw [entry, if_neg (fun h => hk ((hidx k).2 h)), Complex.ofReal_zero, zero_mul]
    rw [hL, hR]
  · intro s hs t ht h
    exact asMon_inj ((hmem s).1 (List.mem_toFinset.1 hs)).1 ((hmem t).1 (List.mem_toFinset.1 ht)).1 h

theorem leading_some (hd : 1 ≤ dim) {D : ℕ} (hD : 1 ≤ D) (T : Tensor dim ℝ) (h : Fits T D) :
    ∃ j, ((sortedMatrixTerms D dim).1.map fun t => entry T (asMon t)).findIdx? (· ≠ 0) = some j := by
  rw [← Option.isSome_iff_exists, List.findIdx?_isSome, List.any_eq_true]
  obtain ⟨k, hk, hne⟩ := h.nonzero
  refine ⟨T.coef k, List.mem_map.2 ⟨List.ofFn k, ((C76_terms D dim hD hd).1 _).2 ⟨by simp, ?_⟩, ?_⟩, by simpa using hne⟩
  · rw [List.sum_ofFn]; exact h.degree k hk hne
  · rw [asMon_ofFn, entry, if_pos]
    simpa [Tensor.idx] using hk

theorem mapM_eq_some {α β : Type*} (f : α → Option β) (g : α → β) (l : List α) (h : ∀ a ∈ l, f a = some (g a)) : l.mapM f = some (l.map g) := by
  induction l with
  | nil => rfl
  | cons a l ih =>
    rw [List.mapM_cons, h a List.mem_cons_self, ih fun b hb => h b (List.mem_cons_of_mem _ hb)]
    rfl

theorem perm_getD {α : Type*} (rows : List α) (a : α) (p : List ℕ) (h : p.Perm (List.range rows.length)) : (p.map fun i => rows.getD i a).Perm rows := by
  refine (h.map _).trans (List.Perm.of_eq ?_)
  refine List.ext_getElem (by simp) fun i h1 h2 => ?_
  rw [List.getElem_map, List.getElem_range, List.getD_eq_getElem _ _ h2]

/-! ### The properties -/

/-- **C77**, `create_matrix`.  For arrays holding nonzero polynomials of degree at most `degree` the function succeeds; it
leaves no trace of one polynomial in the row of the next: up to order the rows are the polynomials, in the power basis as well as in the
Chebyshev basis, each row has one entry for each column, and the columns of the leading entries do not decrease. -/
theorem C77_create {argsort : List ℕ → List ℕ} (hsort : IsArgsort argsort) (hd : 1 ≤ dim) {degree : ℕ} (hD : 1 ≤ degree)
    (coeffs : List (Tensor dim ℝ)) (h : ∀ T ∈ coeffs, Fits T degree) :
    ∃ rows coeffs', createMatrix argsort coeffs degree = .ok rows ∧ coeffs'.Perm coeffs ∧
      List.Forall₂ (fun row T => row.length = (degree + dim).choose dim ∧
        ∀ power z, rowAt power (sortedMatrixTerms degree dim).1 row z = valueAt power T z) rows coeffs' ∧
      (rows.map fun row => row.findIdx (· ≠ 0)).Pairwise (· ≤ ·) := by
  set f : Tensor dim ℝ → List ℝ := fun T => (sortedMatrixTerms degree dim).1.map fun t => entry T (asMon t) with hf
  have h1 := flatPolys_ok degree (sortedMatrixTerms degree dim).1 coeffs fun T hT => (h T hT).shape
  have h2 : (coeffs.map f).mapM (fun r => r.findIdx? (· ≠ 0)) = some ((coeffs.map f).map fun r => r.findIdx (· ≠ 0)) := by
    refine mapM_eq_some _ _ _ fun r hr => ?_
    obtain ⟨T, hT, rfl⟩ := List.mem_map.1 hr
    obtain ⟨j, hj⟩ := leading_some hd hD T (h T hT)
    rw [hj]
    rw [List.findIdx?_eq_some_iff_findIdx_eq] at hj
    rw [hj.2]
  set leading := (coeffs.map f).map fun r => r.findIdx (· ≠ 0) with hlead
  obtain ⟨hp, hs⟩ := hsort leading
  have hlen : leading.length = coeffs.length := by simp [hlead]
  cases coeffs with
  | nil => 
    refine ⟨[], [], ?_, List.Perm.refl _, List.Forall₂.nil, List.Pairwise.nil⟩
    rw [createMatrix, h1]
    show rowSwap argsort (List.map f []) = _
    rw [rowSwap, h2]
    have : argsort leading = [] := by
      rw [hlen] at hp; exact List.Perm.eq_nil (by simpa using hp)
    simp only [this, List.map_nil]
  | cons T₀ l₀ =>
  set coeffs := T₀ :: l₀
  rw [hlen] at hp
  have hlt : ∀ i ∈ argsort leading, i < coeffs.length := fun i hi => List.mem_range.1 (hp.mem_iff.1 hi)
  have hget : ∀ i ∈ argsort leading, (coeffs.map f).getD i [] = f (coeffs.getD i T₀) := fun i hi => by
    rw [List.getD_eq_getElem _ _ (by simpa using hlt i hi), List.getElem_map, List.getD_eq_getElem _ _ (hlt i hi)]
  have hrows : (argsort leading).map (fun i => (coeffs.map f).getD i []) = ((argsort leading).map fun i => coeffs.getD i T₀).map f := by
    rw [List.map_map]
    exact List.map_congr_left fun i hi => hget i hi
  refine ⟨(argsort leading).map fun i => (coeffs.map f).getD i [], (argsort leading).map fun i => coeffs.getD i T₀, ?_, perm_getD _ _ _ hp, ?_, ?_⟩
  · rw [createMatrix, h1]
    show rowSwap argsort (coeffs.map f) = _
    rw [rowSwap, h2]
  · rw [hrows, List.forall₂_map_left_iff, List.forall₂_same]
    intro T hT
    have hfit := h T ((perm_getD coeffs T₀ _ hp).mem_iff.1 hT)
    refine ⟨?_, fun power z => rowAt_entry power hd hD T hfit.degree z⟩
    rw [hf]; simp only [List.length_map]; exact (C76_terms degree dim hD hd).2.2.1
  · have e : (((argsort leading).map fun i => (coeffs.map f).getD i []).map fun row => row.findIdx (· ≠ 0)) =
        (argsort leading).map fun i => leading.getD i 0 := by
      rw [List.map_map]
      refine List.map_congr_left fun i hi => ?_
      have hi' := hlt i hi
      rw [Function.comp_apply, List.getD_eq_getElem _ _ (by simpa using hi'), List.getD_eq_getElem _ _ (by rw [hlen]; exact hi')]
      simp only [hlead, List.getElem_map]
    rw [e]; exact hs

/-- An array with an axis that is too long (a zero coefficient that has not been removed) makes `create_matrix` raise. -/
theorem C77_long_axis (argsort : List ℕ → List ℕ) (degree : ℕ) (T : Tensor dim ℝ) (l : List (Tensor dim ℝ)) (i : Fin dim) (h : degree + 1 < T.shape i) :
    createMatrix argsort (T :: l) degree = .error .valueError := by
  rw [createMatrix, flatPolys, if_pos ⟨i, h⟩]

/-- The power basis. -/
theorem C77_mult_power : MultOK true (fun (T : Tensor dim ℝ) mon => some (monMultPower T mon)) := by
  intro T d mon h
  refine ⟨_, rfl, ⟨fun i => ?_, fun k hk hne => ?_, ?_⟩, fun z => ?_⟩
  · have h1 := h.shape i
    have h2 := Finset.single_le_sum (f := mon) (fun _ _ => Nat.zero_le _) (mem_univ i)
    simp only [monMultPower]; omega
  · simp only [monMultPower] at hne
    by_cases hle : ∀ i, mon i ≤ k i
    · rw [if_pos hle] at hne
      have h1 := h.degree (fun i => k i - mon i) (Fintype.mem_piFinset.2 fun i => mem_range.2 (by
        have h1 := mem_range.1 (Fintype.mem_piFinset.1 hk i)
        have h2 := hle i
        simp only [monMultPower] at h1; omega)) hne
      rw [← Finset.sum_add_distrib.symm.trans (Finset.sum_congr rfl fun i _ => Nat.sub_add_cancel (hle i))]
      omega
    · rw [if_neg hle] at hne; exact absurd rfl hne
  · obtain ⟨k, hk, hne⟩ := h.nonzero
    refine ⟨fun i => k i + mon i, Fintype.mem_piFinset.2 fun i => mem_range.2 ?_, ?_⟩
    · have h1 := mem_range.1 (Fintype.mem_piFinset.1 hk i)
      simp only [monMultPower]; omega
    · simp only [monMultPower]
      rw [if_pos fun i => Nat.le_add_left _ _]
      simpa using hne
  · have h1 := C64_power (toC T) mon z
    have e : monMultPower (toC T) mon = toC (monMultPower T mon) := by
      simp only [monMultPower, toC]
      congr 1
      funext k
      split_ifs <;> simp
    rw [e] at h1
    simpa [valueAt, basisAt, Tensor.evalPow, toC, Tensor.idx] using h1

/-- The Chebyshev basis, with the numpy of `requirements_dev.txt`. -/
theorem C77_mult_cheb : MultOK false (monMultCheb (n := dim) (K := ℝ) true) := by
  intro T d mon h
  have hne : T.Nonempty := fun i => by
    obtain ⟨k, hk, -⟩ := h.nonzero
    exact lt_of_le_of_lt (Nat.zero_le _) (mem_range.1 (Fintype.mem_piFinset.1 hk i))
  obtain ⟨R, hR, hs, -⟩ := C64_cheb_partial T hne mon
  obtain ⟨R', hR', -, he⟩ := C64_cheb_partial (toC T) hne mon
  rw [monMultCheb, monMultFold_toC, ← monMultCheb, hR, Option.map_some, Option.some_inj] at hR'
  subst hR'
  obtain ⟨h1, h2⟩ := monMultFold_fits mon (List.finRange dim) T R hR d h.degree h.nonzero
  have hsum : ((List.finRange dim).map mon).sum = ∑ i, mon i := by rw [← List.ofFn_eq_map, List.sum_ofFn]
  rw [hsum] at h1
  refine ⟨R, hR, ⟨fun i => ?_, h1, h2⟩, fun z => ?_⟩
  · have h3 := h.shape i
    have h4 := Finset.single_le_sum (f := mon) (fun _ _ => Nat.zero_le _) (mem_univ i)
    rw [hs]; omega
  · have := he z
    simpa [valueAt, basisAt, Tensor.eval, toC, Tensor.idx] using this

/-! ### `build_macaulay` -/

theorem mapM_forall {α β : Type*} (f : α → Option β) (P : α → β → Prop) (l : List α) (h : ∀ a ∈ l, ∃ b, f a = some b ∧ P a b) :
    ∃ l', l.mapM f = some l' ∧ List.Forall₂ P l l' := by
  induction l with
  | nil => exact ⟨[], rfl, List.Forall₂.nil⟩
  | cons a l ih =>
    obtain ⟨b, hb, hP⟩ := h a List.mem_cons_self
    obtain ⟨l', hl', hf⟩ := ih fun a' ha' => h a' (List.mem_cons_of_mem _ ha')
    exact ⟨b :: l', by rw [List.mapM_cons, hb, hl']; rfl, List.Forall₂.cons hP hf⟩

theorem mapM_none {α β : Type*} (f : α → Option β) (l : List α) (a : α) (ha : a ∈ l) (h : f a = none) : l.mapM f = none := by
  induction l with
  | nil => cases ha
  | cons x l ih =>
    rw [List.mapM_cons]
    rcases List.mem_cons.1 ha with e | ha'
    · subst e; rw [h]; rfl
    · rw [ih ha']
      cases f x <;> rfl

theorem forall₂_left {α β : Type*} {P : α → β → Prop} {l : List α} {l' : List β} (h : List.Forall₂ P l l') (a : α) (ha : a ∈ l) : ∃ b ∈ l', P a b := by
  induction h with
  | nil => cases ha
  | cons hP _ ih =>
    rcases List.mem_cons.1 ha with e | ha'
    · subst e; exact ⟨_, List.mem_cons_self, hP⟩
    · obtain ⟨b, hb, h⟩ := ih ha'; exact ⟨b, List.mem_cons_of_mem _ hb, h⟩

theorem forall₂_right {α β : Type*} {P : α → β → Prop} {l : List α} {l' : List β} (h : List.Forall₂ P l l') (b : β) (hb : b ∈ l') : ∃ a ∈ l, P a b :=
  forall₂_left (P := fun b a => P a b) h.flip b hb

theorem basisAt_zero (power : Bool) (z : Fin dim → ℂ) : basisAt power (asMon (List.replicate dim 0)) z = 1 := by
  rw [basisAt]
  refine Finset.prod_eq_one fun i _ => ?_
  rw [asMon, replicate_zero]
  cases power <;> simp

/-- What `add_polys` adds for one polynomial. -/
theorem addPolys_spec (hd : 1 ≤ dim) {power : Bool} {mult : Tensor dim ℝ → (Fin dim → ℕ) → Option (Tensor dim ℝ)} (hm : MultOK power mult)
    (D : ℕ) (p : Tensor dim ℝ × ℕ) (hp : Fits p.1 p.2) (hD : p.2 ≤ D) :
    ∃ l, addPolys mult D p = some l ∧ List.Forall₂ (fun mon T => Fits T D ∧
      ∀ z, valueAt power T z = valueAt power p.1 z * basisAt power (asMon mon) z)
      (monCombos (dim - 1) (List.replicate dim 0) (D - p.2) 0).1 l := by
  have hmem := (C56_monomials (D - p.2) dim hd).2.1
  obtain ⟨tl, htl⟩ := monCombos_head (dim - 1) (List.replicate dim 0) (D - p.2) 0 fun j _ => replicate_zero dim j
  have fits_mono : ∀ (T : Tensor dim ℝ) (d : ℕ), Fits T d → d ≤ D → Fits T D := fun T d h hd =>
    ⟨fun i => by have := h.shape i; omega, fun k hk hne => by have := h.degree k hk hne; omega, h.nonzero⟩
  obtain ⟨l', hl', hf⟩ := mapM_forall (fun mon => mult p.1 (asMon mon)) (fun mon T => Fits T D ∧
      ∀ z, valueAt power T z = valueAt power p.1 z * basisAt power (asMon mon) z) tl (fun mon hmon => by
    obtain ⟨R, hR, hfit, hv⟩ := hm p.1 p.2 (asMon mon) hp
    have h1 := (hmem mon).1 (by rw [htl]; exact List.mem_cons_of_mem _ hmon)
    refine ⟨R, hR, fits_mono R _ hfit ?_, hv⟩
    rw [sum_asMon h1.1]; omega)
  refine ⟨p.1 :: l', ?_, ?_⟩
  · rw [addPolys, htl, List.tail_cons, hl']; rfl
  · rw [htl]
    refine List.Forall₂.cons ⟨fits_mono _ _ hp hD, fun z => ?_⟩ hf
    rw [basisAt_zero, mul_one]

theorem findDegree_ge (ds : List ℕ) (h : ∀ d ∈ ds, 1 ≤ d) (d : ℕ) (hd : d ∈ ds) : d ≤ findDegree ds ∧ ds.length ≤ ds.sum := by
  induction ds with
  | nil => cases hd
  | cons x l ih =>
    have hx := h x List.mem_cons_self
    have hl : l.length ≤ l.sum := by
      cases l with
      | nil => simp
      | cons y l' => exact (ih (fun d hd => h d (List.mem_cons_of_mem _ hd)) |> fun f => by
          by_cases hdy : d ∈ y :: l'
          · exact (f hdy).2
          · clear f ih hd hdy
            have hall : ∀ l : List ℕ, (∀ d ∈ l, 1 ≤ d) → l.length ≤ l.sum := by
              intro l hl
              induction l with
              | nil => simp
              | cons a l ih =>
                have := hl a List.mem_cons_self
                have := ih fun d hd => hl d (List.mem_cons_of_mem _ hd)
                simp only [List.length_cons, List.sum_cons]; omega
            exact hall _ fun d hd => h d (List.mem_cons_of_mem _ hd))
    simp only [findDegree, List.length_cons, List.sum_cons]
    rcases List.mem_cons.1 hd with e | hd'
    · subst e; omega
    · have := ih (fun d hd => h d (List.mem_cons_of_mem _ hd)) hd'
      simp only [findDegree] at this
      omega

/-- **C77**, `build_macaulay`.  Let every polynomial have degree at least one and a fitting array, and let `D` be the sum of the degrees minus
their number plus one.  Then the matrix is built; its rows are exactly the multiples of the polynomials by the basis polynomials that do not exceed the degree
`D`, in the right number. -/
theorem C77_build {argsort : List ℕ → List ℕ} (hsort : IsArgsort argsort) (hd : 1 ≤ dim) {power : Bool}
    {mult : Tensor dim ℝ → (Fin dim → ℕ) → Option (Tensor dim ℝ)} (hm : MultOK power mult) (polys : List (Tensor dim ℝ × ℕ))
    (hne : polys ≠ []) (h : ∀ p ∈ polys, Fits p.1 p.2 ∧ 1 ≤ p.2) (D : ℕ) (hD : D + polys.length = (polys.map Prod.snd).sum + 1) :
    ∃ rows, buildMacaulay argsort mult polys = .ok rows ∧
      rows.length = (polys.map fun p => (D - p.2 + dim).choose dim).sum ∧
      (∀ row ∈ rows, row.length = (D + dim).choose dim) ∧
      (∀ row ∈ rows, ∃ p ∈ polys, ∃ mon : Fin dim → ℕ, p.2 + ∑ i, mon i ≤ D ∧
        ∀ z, rowAt power (sortedMatrixTerms D dim).1 row z = valueAt power p.1 z * basisAt power mon z) ∧
      ∀ p ∈ polys, ∀ mon : Fin dim → ℕ, p.2 + ∑ i, mon i ≤ D → ∃ row ∈ rows,
        ∀ z, rowAt power (sortedMatrixTerms D dim).1 row z = valueAt power p.1 z * basisAt power mon z := by
  have hfd : findDegree (polys.map Prod.snd) = D := by rw [findDegree, List.length_map]; omega
  have hle : ∀ p ∈ polys, p.2 ≤ D := fun p hp => by
    rw [← hfd]
    refine (findDegree_ge _ (fun d hd => ?_) _ (List.mem_map_of_mem hp)).1
    obtain ⟨q, hq, rfl⟩ := List.mem_map.1 hd
    exact (h q hq).2
  have hD1 : 1 ≤ D := by
    obtain ⟨p, hp⟩ := List.exists_mem_of_ne_nil _ hne
    exact (h p hp).2.trans (hle p hp)
  obtain ⟨ls, hls, hf⟩ := mapM_forall (addPolys mult D) (fun p l => List.Forall₂ (fun mon T => Fits T D ∧
      ∀ z, valueAt power T z = valueAt power p.1 z * basisAt power (asMon mon) z)
      (monCombos (dim - 1) (List.replicate dim 0) (D - p.2) 0).1 l) polys
    fun p hp => addPolys_spec hd hm D p (h p hp).1 (hle p hp)
  have hlen : ∀ {ps : List (Tensor dim ℝ × ℕ)} {ls : List (List (Tensor dim ℝ))}, List.Forall₂ (fun p l => List.Forall₂ (fun mon T => Fits T D ∧
      ∀ z, valueAt power T z = valueAt power p.1 z * basisAt power (asMon mon) z)
      (monCombos (dim - 1) (List.replicate dim 0) (D - p.2) 0).1 l) ps ls →
      ls.flatten.length = (ps.map fun p => (D - p.2 + dim).choose dim).sum := by
    intro ps ls hf
    induction hf with
    | nil => rfl
    | cons hP _ ih =>
      rw [List.flatten_cons, List.length_append, ih, List.map_cons, List.sum_cons, ← hP.length_eq, (C56_monomials _ dim hd).2.2.2]
      rfl
  obtain ⟨rows, coeffs', hc, hperm, hrows, -⟩ := C77_create hsort hd hD1 ls.flatten (fun T hT => by
    obtain ⟨l, hl, hTl⟩ := List.mem_flatten.1 hT
    obtain ⟨p, hp, hfl⟩ := forall₂_right hf l hl
    obtain ⟨mon, -, h1, -⟩ := forall₂_right hfl T hTl
    exact h1)
  refine ⟨rows, ?_, ?_, ?_, ?_, ?_⟩
  · simp only [buildMacaulay, hfd, hls]; exact hc
  · rw [hrows.length_eq, hperm.length_eq, hlen hf]
  · intro row hrow
    obtain ⟨T, -, h1⟩ := forall₂_left hrows row hrow
    exact h1.1
  · intro row hrow
    obtain ⟨T, hT, h1⟩ := forall₂_left hrows row hrow
    obtain ⟨l, hl, hTl⟩ := List.mem_flatten.1 (hperm.mem_iff.1 hT)
    obtain ⟨p, hp, hfl⟩ := forall₂_right hf l hl
    obtain ⟨mon, hmon, -, hv⟩ := forall₂_right hfl T hTl
    have h2 := ((C56_monomials (D - p.2) dim hd).2.1 mon).1 hmon
    refine ⟨p, hp, asMon mon, ?_, fun z => by rw [h1.2, hv]⟩
    have := hle p hp
    rw [sum_asMon h2.1]; omega
  · intro p hp mon hmon
    obtain ⟨l, hl, hfl⟩ := forall₂_left hf p hp
    obtain ⟨T, hT, -, hv⟩ := forall₂_left hfl (List.ofFn mon)
      (((C56_monomials (D - p.2) dim hd).2.1 _).2 ⟨by simp, by rw [List.sum_ofFn]; omega⟩)
    obtain ⟨row, hrow, h1⟩ := forall₂_right hrows T (hperm.mem_iff.2 (List.mem_flatten.2 ⟨l, hl, hT⟩))
    exact ⟨row, hrow, fun z => by rw [h1.2, hv, asMon_ofFn]⟩

/-- The matrix cannot be built from Chebyshev polynomials with the numpy of `requirements.txt` as soon as one of them has to be
multiplied. -/
theorem C77_build_false (argsort : List ℕ → List ℕ) (hd : 1 ≤ dim) (polys : List (Tensor dim ℝ × ℕ)) (p : Tensor dim ℝ × ℕ) (hp : p ∈ polys)
    (hlt : p.2 + polys.length ≤ (polys.map Prod.snd).sum) :
    buildMacaulay argsort (monMultCheb false) polys = .error .indexError := by
  have h : addPolys (monMultCheb false) (findDegree (polys.map Prod.snd)) p = none := by
    obtain ⟨tl, htl⟩ := monCombos_head (dim - 1) (List.replicate dim 0) (findDegree (polys.map Prod.snd) - p.2) 0 fun j _ => replicate_zero dim j
    have hmem := (C56_monomials (findDegree (polys.map Prod.snd) - p.2) dim hd).2.1
    have hfd : p.2 + 1 ≤ findDegree (polys.map Prod.snd) := by rw [findDegree, List.length_map]; omega
    have h1 : List.ofFn (Pi.single (⟨0, hd⟩ : Fin dim) 1 : Fin dim → ℕ) ∈ tl := by
      have h2 := (hmem (List.ofFn (Pi.single (⟨0, hd⟩ : Fin dim) 1 : Fin dim → ℕ))).2 ⟨by simp, by rw [List.sum_ofFn]; simp; omega⟩
      rw [htl] at h2
      refine (List.mem_cons.1 h2).resolve_left fun e => ?_
      have := congrFun (congrArg (asMon (dim := dim)) e) ⟨0, hd⟩
      rw [asMon_ofFn, asMon, replicate_zero] at this
      simp at this
    rw [addPolys, htl, List.tail_cons, mapM_none _ tl _ h1]
    · rfl
    · rw [asMon_ofFn]
      exact C64_cheb_false _ _ ⟨⟨0, hd⟩, by simp⟩
  simp only [buildMacaulay]
  rw [mapM_none _ polys p hp h]

/-! ### Non-vacuity -/

/-- A sorting routine. -/
def argsortIns (l : List ℕ) : List ℕ := (List.range l.length).insertionSort fun i j => l.getD i 0 ≤ l.getD j 0

theorem argsortIns_ok : IsArgsort argsortIns := by
  intro l
  refine ⟨List.perm_insertionSort _ _, ?_⟩
  rw [List.pairwise_map]
  haveI : Std.Total (fun i j : ℕ => l.getD i 0 ≤ l.getD j 0) := ⟨fun a b => le_total (l.getD a 0) (l.getD b 0)⟩
  haveI : IsTrans ℕ (fun i j : ℕ => l.getD i 0 ≤ l.getD j 0) := ⟨fun a b c h h' => le_trans h h'⟩
  exact List.pairwise_insertionSort _ _

/-- `x - y`. -/
def exLine (K : Type*) [Ring K] : Tensor 2 K := ⟨fun _ => 2, fun k => if k 0 = 1 ∧ k 1 = 0 then 1 else if k 0 = 0 ∧ k 1 = 1 then -1 else 0⟩

/-- `x^2 - 1`. -/
def exQuad (K : Type*) [Ring K] : Tensor 2 K := ⟨![3, 1], fun k => if k 0 = 2 then 1 else if k 0 = 0 then -1 else 0⟩

theorem exLine_fits : Fits (exLine ℝ) 1 := by
  refine ⟨fun i => le_rfl, fun k _ hne => ?_, ![1, 0], ?_, ?_⟩
  · rw [Fin.sum_univ_two]
    simp only [exLine] at hne
    split_ifs at hne with h1 h2
    · omega
    · omega
    · exact absurd rfl hne
  · exact Fintype.mem_piFinset.2 fun i => by fin_cases i <;> simp [exLine]
  · simp [exLine]

theorem exQuad_fits : Fits (exQuad ℝ) 2 := by
  refine ⟨fun i => by fin_cases i <;> simp [exQuad], fun k hk hne => ?_, ![2, 0], ?_, ?_⟩
  · rw [Fin.sum_univ_two]
    have h1 := mem_range.1 (Fintype.mem_piFinset.1 hk 0)
    have h2 := mem_range.1 (Fintype.mem_piFinset.1 hk 1)
    simp [exQuad] at h1 h2
    omega
  · exact Fintype.mem_piFinset.2 fun i => by fin_cases i <;> simp [exQuad]
  · simp [exQuad]

/-- The hypotheses of `C77_build` hold for the system `x - y = x^2 - 1 = 0`; the matrix has degree two and four rows. -/
example : ∃ rows, buildMacaulay argsortIns (fun T mon => some (monMultPower T mon)) [(exLine ℝ, 1), (exQuad ℝ, 2)] = .ok rows ∧ rows.length = 4 := by
  obtain ⟨rows, h, hl, -⟩ := C77_build argsortIns_ok (by norm_num) C77_mult_power [(exLine ℝ, 1), (exQuad ℝ, 2)] (by simp)
    (by
      intro p hp
      simp only [List.mem_cons, List.not_mem_nil, or_false] at hp
      rcases hp with rfl | rfl
      · exact ⟨exLine_fits, le_rfl⟩
      · exact ⟨exQuad_fits, by norm_num⟩) 2 (by simp)
  exact ⟨rows, h, hl.trans (by simp)⟩

/-- The same over the rational numbers, in full. -/
example : (buildMacaulay argsortIns (fun T mon => some (monMultPower T mon)) [(exLine ℚ, 1), (exQuad ℚ, 2)]).toOption =
    some [[1, -1, 0, 0, 0, 0], [1, 0, 0, 0, 0, -1], [0, 1, -1, 0, 0, 0], [0, 0, 0, 1, -1, 0]] := by decide +kernel

/-- The same in the Chebyshev basis: `x - y` and `T_2(x) - 1`. -/
example : (buildMacaulay argsortIns (monMultCheb true) [(exLine ℚ, 1), (exQuad ℚ, 2)]).toOption =
    some [[1 / 2, -1, 0, 0, 0, 1 / 2], [1, 0, 0, 0, 0, -1], [0, 1, -1 / 2, 0, 0, -1 / 2], [0, 0, 0, 1, -1, 0]] := by decide +kernel

/-- Non-vacuity of `C77_build_false`. -/
example : buildMacaulay argsortIns (monMultCheb false) [(exLine ℝ, 1), (exQuad ℝ, 2)] = .error .indexError :=
  C77_build_false _ (by norm_num) _ (exLine ℝ, 1) (by simp) (by simp)

/-- Non-vacuity of `C77_long_axis`. -/
example : createMatrix argsortIns [exQuad ℝ] 1 = .error .valueError := C77_long_axis _ 1 _ _ 0 (by simp [exQuad])

end YRoots.Legacy
