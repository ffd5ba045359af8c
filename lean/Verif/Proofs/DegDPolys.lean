import Verif.Model.DegDPolys
import Verif.Spec.MonRows
import Verif.Props.MonCombos
import Mathlib.LinearAlgebra.LinearIndependent.Basic

/-!
# Helper lemmas: rows of one degree
-/

namespace YRoots.Legacy

theorem mem_degDRows (degrees : List ℕ) (deg : ℕ) {dim : ℕ} (hd : 1 ≤ dim) (v : ℕ) (m : List ℕ) :
    (v, m) ∈ degDRows degrees deg dim ↔ v < degrees.length ∧ m.length = dim ∧ m.sum + degrees.getD v 0 = deg ∧
      ∀ i < v, m.getD i 0 < degrees.getD i 0 := by
  unfold degDRows
  simp only [List.mem_flatMap, List.mem_range]
  constructor
  · rintro ⟨w, hw, h⟩
    by_cases hle : degrees.getD w 0 ≤ deg
    · rw [if_pos hle] at h
      simp only [List.mem_map, List.mem_filter, Prod.mk.injEq, List.all_eq_true, List.mem_range, decide_eq_true_eq] at h
      obtain ⟨m', ⟨h1, h2⟩, rfl, rfl⟩ := h
      obtain ⟨h3, h4⟩ := ((C56_monomials _ dim hd).1.1 m').1 h1
      exact ⟨hw, h3, by omega, fun i hi => by have := h2 i hi; omega⟩
    · rw [if_neg hle] at h; simp at h
  · rintro ⟨h1, h2, h3, h4⟩
    refine ⟨v, h1, ?_⟩
    rw [if_pos (by omega)]
    simp only [List.mem_map, List.mem_filter, Prod.mk.injEq, List.all_eq_true, List.mem_range, decide_eq_true_eq]
    exact ⟨m, ⟨((C56_monomials _ dim hd).1.1 m).2 ⟨h2, by omega⟩, fun i hi => by have := h4 i hi; omega⟩, by simp⟩

theorem nodup_degDRows (degrees : List ℕ) (deg : ℕ) {dim : ℕ} (hd : 1 ≤ dim) : (degDRows degrees deg dim).Nodup := by
  unfold degDRows
  rw [List.nodup_flatMap]
  constructor
  · intro v _
    split_ifs
    · exact ((C56_monomials _ dim hd).1.2.1.filter _).map (fun a b h => by simpa using h)
    · simp
  · refine List.Pairwise.imp ?_ (List.nodup_range (n := degrees.length))
    intro a b hab
    simp only [Function.onFun]
    intro p h1 h2
    apply hab
    have key : ∀ (c : ℕ) , p ∈ (if degrees.getD c 0 ≤ deg then
      ((monCombosHighest (dim - 1) (List.replicate dim 0) (deg - degrees.getD c 0) 0).1.filter fun mon =>
        (List.range c).all fun i => decide (mon.getD i 0 + 1 ≤ degrees.getD i 0)).map fun mon => (c, mon)
      else []) → p.1 = c := by
      intro c hc
      split_ifs at hc
      · obtain ⟨_, _, rfl⟩ := List.mem_map.1 hc; rfl
      · simp at hc
    rw [← key a h1, ← key b h2]

theorem length_raise (v d : ℕ) (m : List ℕ) : (raise v d m).length = m.length := by simp [raise]

theorem getD_raise (v d : ℕ) (m : List ℕ) {i : ℕ} (hi : i < m.length) :
    (raise v d m).getD i 0 = m.getD i 0 + if i = v then d else 0 := by
  unfold raise
  rw [List.getD_eq_getElem _ _ (by simpa using hi)]
  simp

theorem sum_eq_getD : ∀ (m : List ℕ), m.sum = ∑ i ∈ Finset.range m.length, m.getD i 0
  | [] => by simp
  | a :: l => by
    rw [List.length_cons, Finset.sum_range_succ', List.sum_cons, sum_eq_getD l]
    simp [add_comm]

theorem sum_raise (v d : ℕ) (m : List ℕ) (hv : v < m.length) : (raise v d m).sum = m.sum + d := by
  rw [sum_eq_getD, length_raise, Finset.sum_congr rfl fun i hi => getD_raise v d m (Finset.mem_range.1 hi),
    Finset.sum_add_distrib, ← sum_eq_getD, Finset.sum_ite_eq' (Finset.range m.length) v, if_pos (Finset.mem_range.2 hv)]

theorem raise_inj {v d : ℕ} {a b : List ℕ} (hl : a.length = b.length) (h : raise v d a = raise v d b) : a = b := by
  refine List.ext_getElem hl fun i h1 h2 => ?_
  have := congrArg (fun l => l.getD i 0) h
  simp only [getD_raise v d a h1, getD_raise v d b h2] at this
  rw [List.getD_eq_getElem _ _ h1, List.getD_eq_getElem _ _ h2] at this
  omega

/-- Two rows with the same raised exponents are equal. -/
theorem raise_rows {degrees : List ℕ} {dim : ℕ} (hlen : degrees.length ≤ dim) {v w : ℕ} {a b : List ℕ}
    (hv : v < degrees.length) (hw : w < degrees.length) (ha : a.length = dim) (hb : b.length = dim)
    (hca : ∀ i < v, a.getD i 0 < degrees.getD i 0) (hcb : ∀ i < w, b.getD i 0 < degrees.getD i 0)
    (h : raise v (degrees.getD v 0) a = raise w (degrees.getD w 0) b) : v = w ∧ a = b := by
  have main : ∀ {v w : ℕ} {a b : List ℕ}, v < degrees.length → a.length = dim → b.length = dim →
      (∀ i < w, b.getD i 0 < degrees.getD i 0) →
      raise v (degrees.getD v 0) a = raise w (degrees.getD w 0) b → ¬ v < w := by
    intro v w a b hv ha hb hcb h hlt
    have := congrArg (fun l => l.getD v 0) h
    simp only [getD_raise _ _ a (show v < a.length by omega), getD_raise _ _ b (show v < b.length by omega)] at this
    rw [if_pos trivial, if_neg (by omega)] at this
    have := hcb v hlt
    omega
  have h1 := main hv ha hb hcb h
  have h2 := main hw hb ha hca h.symm
  obtain rfl : v = w := by omega
  exact ⟨rfl, raise_inj (ha.trans hb.symm) h⟩

/-- Polynomials with different leading exponents are linearly independent. -/
theorem linearIndependent_of_degree {ι σ K : Type*} [Field K] (o : MonomialOrder σ) (g : ι → MvPolynomial σ K)
    (h0 : ∀ i, g i ≠ 0) (hinj : Function.Injective fun i => o.degree (g i)) : LinearIndependent K g := by
  classical
  rw [linearIndependent_iff']
  intro s c hs
  by_contra hne
  push Not at hne
  obtain ⟨j, hj, hcj⟩ := hne
  obtain ⟨k, hk, hmax⟩ := Finset.exists_max_image (s.filter fun i => c i ≠ 0) (fun i => o.toSyn (o.degree (g i)))
    ⟨j, Finset.mem_filter.2 ⟨hj, hcj⟩⟩
  obtain ⟨hks, hck⟩ := Finset.mem_filter.1 hk
  have hco := congrArg (MvPolynomial.coeff (o.degree (g k))) hs
  rw [MvPolynomial.coeff_sum, MvPolynomial.coeff_zero, Finset.sum_eq_single k] at hco
  · rw [MvPolynomial.coeff_smul, smul_eq_mul, mul_eq_zero] at hco
    exact hco.elim hck (o.coeff_degree_ne_zero_iff.2 (h0 k))
  · intro i his hik
    rw [MvPolynomial.coeff_smul, smul_eq_mul]
    by_cases hci : c i = 0
    · rw [hci, zero_mul]
    · rw [o.coeff_eq_zero_of_lt, mul_zero]
      refine lt_of_le_of_ne (hmax i (Finset.mem_filter.2 ⟨his, hci⟩)) fun he => hik (hinj (o.toSyn.injective he))
  · intro h; exact absurd hks h

theorem expo_raise {dim v d : ℕ} (hv : v < dim) {m : List ℕ} (hm : m.length = dim) :
    expo dim (raise v d m) = expo dim m + Finsupp.single ⟨v, hv⟩ d := by
  ext i
  simp only [expo, Finsupp.equivFunOnFinite_symm_apply_apply, Finsupp.coe_add, Pi.add_apply]
  rw [getD_raise v d m (by rw [hm]; exact i.2), Finsupp.single_apply]
  simp only [Fin.ext_iff, eq_comm]

theorem expo_inj {dim : ℕ} {a b : List ℕ} (ha : a.length = dim) (hb : b.length = dim) (h : expo dim a = expo dim b) : a = b := by
  refine List.ext_getElem (ha.trans hb.symm) fun i h1 h2 => ?_
  have := DFunLike.congr_fun h ⟨i, by omega⟩
  simpa only [expo, Finsupp.equivFunOnFinite_symm_apply_apply, List.getD_eq_getElem _ _ h1, List.getD_eq_getElem _ _ h2] using this

theorem degree_monTimes {K : Type*} [Field K] {dim : ℕ} (o : MonomialOrder (Fin dim)) {f : MvPolynomial (Fin dim) K} (hf : f ≠ 0)
    (m : List ℕ) : monTimes f m ≠ 0 ∧ o.degree (monTimes f m) = expo dim m + o.degree f := by
  classical
  have h1 : MvPolynomial.monomial (expo dim m) (1 : K) ≠ 0 := by simp
  refine ⟨mul_ne_zero h1 hf, ?_⟩
  rw [monTimes, o.degree_mul h1 hf, o.degree_monomial, if_neg one_ne_zero]

theorem mul_expand {K : Type*} [Field K] {dim : ℕ} (a : Fin dim →₀ ℕ) (f g : MvPolynomial (Fin dim) K) :
    MvPolynomial.monomial a 1 * f * g = ∑ b ∈ f.support, f.coeff b • (MvPolynomial.monomial (a + b) 1 * g) := by
  conv_lhs => rw [f.as_sum, Finset.mul_sum, Finset.sum_mul]
  refine Finset.sum_congr rfl fun b _ => ?_
  rw [MvPolynomial.monomial_mul, one_mul, ← smul_mul_assoc, MvPolynomial.smul_monomial, smul_eq_mul, mul_one]

theorem expo_ofFn {dim : ℕ} (a : Fin dim →₀ ℕ) : expo dim (List.ofFn a) = a := by
  ext i
  simp only [expo, Finsupp.equivFunOnFinite_symm_apply_apply]
  rw [List.getD_eq_getElem _ _ (by simp)]
  simp

theorem sum_ofFn {dim : ℕ} (a : Fin dim →₀ ℕ) : (List.ofFn a).sum = a.degree := by
  rw [List.sum_ofFn, Finsupp.degree_eq_sum]

/-- All multiples are combinations of the rows that are kept. -/
theorem multiples_mem {K : Type*} [Field K] {dim : ℕ} (o : MonomialOrder (Fin dim)) (degrees : List ℕ) (hlen : degrees.length ≤ dim)
    (f : ℕ → MvPolynomial (Fin dim) K)
    (hf : ∀ (v : ℕ) (hv : v < degrees.length), f v ≠ 0 ∧
      o.degree (f v) = Finsupp.single ⟨v, hv.trans_le hlen⟩ (degrees.getD v 0) ∧ (f v).totalDegree ≤ degrees.getD v 0) (D : ℕ)
    (S : Submodule K (MvPolynomial (Fin dim) K))
    (hS : ∀ v m, v < degrees.length → m.length = dim → m.sum + degrees.getD v 0 ≤ D → (∀ i < v, m.getD i 0 < degrees.getD i 0) →
      monTimes (f v) m ∈ S) :
    ∀ (v : ℕ), v < degrees.length → ∀ (a : Fin dim →₀ ℕ), a.degree + degrees.getD v 0 ≤ D →
      MvPolynomial.monomial a 1 * f v ∈ S := by
  intro v
  induction v using Nat.strong_induction_on with
  | _ v ihv =>
    intro hv a
    induction a using (InvImage.wf o.toSyn (IsWellFounded.wf (r := ((· < ·) : o.syn → o.syn → Prop)))).induction with
    | _ a iha =>
      intro ha
      by_cases hrow : ∀ i < v, (List.ofFn a).getD i 0 < degrees.getD i 0
      · have := hS v (List.ofFn a) hv (by simp) (by rw [sum_ofFn]; exact ha) hrow
        rwa [monTimes, expo_ofFn] at this
      · push Not at hrow
        obtain ⟨i, hiv, hi⟩ := hrow
        have hil : i < degrees.length := hiv.trans hv
        have hid : i < dim := hil.trans_le hlen
        have hai : degrees.getD i 0 ≤ a ⟨i, hid⟩ := by
          have h := List.getD_eq_getElem (List.ofFn a) 0 (n := i) (by simpa using hid)
          rw [h] at hi
          simpa using hi
        obtain ⟨fi0, fid, fit⟩ := hf i hil
        obtain ⟨fv0, fvd, fvt⟩ := hf v hv
        set e : Fin dim →₀ ℕ := Finsupp.single ⟨i, hid⟩ (degrees.getD i 0) with he
        have hea : e ≤ a := by rw [he]; exact Finsupp.single_le_iff.2 hai
        have hsplit : a - e + e = a := tsub_add_cancel_of_le hea
        have hdeg : (a - e).degree + degrees.getD i 0 = a.degree := by
          conv_rhs => rw [← hsplit]
          rw [map_add, he, Finsupp.degree_single]
        have hA : MvPolynomial.monomial (a - e) 1 * f v * f i ∈ S := by
          rw [mul_expand]
          refine Submodule.sum_mem _ fun b hb => Submodule.smul_mem _ _ (ihv i hiv hil _ ?_)
          have : b.degree ≤ degrees.getD v 0 := (MvPolynomial.le_totalDegree hb).trans fvt
          rw [map_add]
          omega
        have hB : MvPolynomial.monomial (a - e) 1 * f i * f v ∈ S := by
          rwa [mul_right_comm] at hA
        rw [mul_expand] at hB
        have hemem : e ∈ (f i).support := by
          rw [MvPolynomial.mem_support_iff, ← fid]; exact o.coeff_degree_ne_zero_iff.2 fi0
        rw [← Finset.add_sum_erase _ _ hemem, hsplit] at hB
        have hrest : ∑ b ∈ (f i).support.erase e, (f i).coeff b • (MvPolynomial.monomial (a - e + b) 1 * f v) ∈ S := by
          refine Submodule.sum_mem _ fun b hb => Submodule.smul_mem _ _ (iha _ ?_ ?_)
          · obtain ⟨hne, hb⟩ := Finset.mem_erase.1 hb
            have h1 := o.le_degree hb
            rw [fid] at h1
            have h2 : o.toSyn b < o.toSyn e := lt_of_le_of_ne h1 fun h => hne (o.toSyn.injective h)
            show o.toSyn (a - e + b) < o.toSyn a
            conv_rhs => rw [← hsplit]
            rw [map_add, map_add]
            exact (add_lt_add_iff_left _).2 h2
          · have : b.degree ≤ degrees.getD i 0 := (MvPolynomial.le_totalDegree (Finset.mem_of_mem_erase hb)).trans fit
            rw [map_add]
            omega
        have hX := (Submodule.add_mem_iff_left S hrest).1 hB
        exact (Submodule.smul_mem_iff S (MvPolynomial.mem_support_iff.1 hemem)).1 hX

end YRoots.Legacy
