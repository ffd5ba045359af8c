import Verif.Proofs.PermutationsMul

/-!
# Helper lemmas: index arrays for the multiplication of Chebyshev rows
-/

set_option linter.unusedSectionVars false
set_option linter.unusedVariables false
set_option linter.unusedSimpArgs false

namespace YRoots.Legacy

variable {K : Type*} [CommRing K]

/-! ### The dictionary of positions -/

theorem lookup_isSome_of_mem {α β : Type*} [BEq α] [LawfulBEq α] {a : α} {b : β} : ∀ {l : List (α × β)}, (a, b) ∈ l → (l.lookup a).isSome
  | [], h => by simp at h
  | e :: l, h => by
    rcases List.mem_cons.1 h with rfl | h
    · exact lookup_isSome_self _ _ _
    · exact lookup_isSome_cons _ (lookup_isSome_of_mem h)

theorem monDict_eq (dim D : ℕ) : monDict dim D = (cols dim D).zipIdx.reverse := rfl

theorem length_monDict (dim D : ℕ) : (monDict dim D).length = (cols dim D).length := by simp [monDict_eq]

theorem lookup_monDict {dim D k : ℕ} {m : List ℕ} (h : (monDict dim D).lookup m = some k) :
    k < (cols dim D).length ∧ (cols dim D).getD k [] = m := by
  have := lookup_mem h
  rw [monDict_eq, List.mem_reverse, List.mem_zipIdx_iff_getElem?] at this
  obtain ⟨hk, he⟩ := List.getElem?_eq_some_iff.1 this
  exact ⟨hk, by rw [List.getD_eq_getElem _ _ hk]; exact he⟩

theorem lookup_monDict_isSome {dim D : ℕ} {m : List ℕ} (h : m ∈ cols dim D) : ((monDict dim D).lookup m).isSome := by
  obtain ⟨k, hk, rfl⟩ := List.getElem_of_mem h
  refine lookup_isSome_of_mem (b := k) ?_
  rw [monDict_eq, List.mem_reverse, List.mem_zipIdx_iff_getElem?]
  exact List.getElem?_eq_getElem hk

theorem cols_inj {dim D : ℕ} (hd : 1 ≤ dim) {j k : ℕ} (hj : j < (cols dim D).length) (hk : k < (cols dim D).length)
    (h : (cols dim D).getD j [] = (cols dim D).getD k []) : j = k := by
  rw [List.getD_eq_getElem _ _ hj, List.getD_eq_getElem _ _ hk] at h
  exact (List.Nodup.getElem_inj_iff (nodup_cols hd D)).1 h

theorem lookup_monDict_eq {dim D k : ℕ} (hd : 1 ≤ dim) (hk : k < (cols dim D).length) :
    (monDict dim D).lookup ((cols dim D).getD k []) = some k := by
  obtain ⟨j, hj⟩ := Option.isSome_iff_exists.1 (lookup_monDict_isSome (getD_mem_cols hk))
  obtain ⟨h1, h2⟩ := lookup_monDict hj
  rw [hj, cols_inj hd h1 hk h2]

/-! ### Sums over lists and ranges -/

theorem sum_range_list (f : ℕ → K) : ∀ n, ∑ k ∈ Finset.range n, f k = ((List.range n).map f).sum
  | 0 => by simp
  | n + 1 => by rw [Finset.sum_range_succ, sum_range_list f n, List.range_succ]; simp

theorem sum_map_columns (L : List (List ℕ)) (h : List ℕ → K) :
    (L.map h).sum = ∑ k ∈ Finset.range L.length, h (L.getD k []) := by
  rw [sum_range_list]
  conv_lhs => rw [← map_getD_range L, List.map_map]
  rfl

theorem rowSum_gather (L : List (List ℕ)) (r : List K) (P : List ℕ) (hP : P.length = L.length) (φ : List ℕ → K) :
    rowSum L (gather r P) φ = ∑ k ∈ Finset.range L.length, r.getD (P.getD k 0) 0 * φ (L.getD k []) := by
  refine Finset.sum_congr rfl fun k hk => ?_
  rw [getD_gather r P (by rw [hP]; exact Finset.mem_range.1 hk)]

theorem rowSum_set (L : List (List ℕ)) (r : List K) (φ : List ℕ → K) (P : List ℕ) (hP : P.length = L.length) (a b : ℕ)
    (ha : a < L.length) (h0 : P.getD a 0 = 0) (hr : r.getD 0 0 = 0) :
    rowSum L (gather r (P.set a b)) φ = rowSum L (gather r P) φ + r.getD b 0 * φ (L.getD a []) := by
  rw [rowSum_gather L r _ (by simpa using hP), rowSum_gather L r P hP]
  have : ∀ k ∈ Finset.range L.length, r.getD ((P.set a b).getD k 0) 0 * φ (L.getD k []) =
      r.getD (P.getD k 0) 0 * φ (L.getD k []) + if k = a then r.getD b 0 * φ (L.getD a []) else 0 := by
    intro k hk
    rw [getD_set]
    by_cases hka : k = a
    · subst hka
      rw [if_pos ⟨rfl, by omega⟩, if_pos rfl, h0, hr, zero_mul, zero_add]
    · rw [if_neg (by tauto), if_neg hka, add_zero]
  rw [Finset.sum_congr rfl this, Finset.sum_add_distrib, Finset.sum_ite_eq' , if_pos (Finset.mem_range.2 ha)]

/-- The loop of `cheb_perturbation2` and `cheb_perturbation3`. -/
theorem perturb_fold {dim D : ℕ} (hd : 1 ≤ dim) (c : List ℕ) (r : List K) (φ : List ℕ → K) (hr : r.getD 0 0 = 0) :
    ∀ (needed : List (List ℕ)) (acc : List ℕ), acc.length = (cols dim D).length → (∀ k ∈ acc, k < (cols dim D).length) →
      needed.Nodup → (∀ m ∈ needed, m ∈ cols dim D) →
      (∀ m ∈ needed, ∀ m' ∈ needed, absSub m c = absSub m' c → m = m') →
      (∀ m ∈ needed, ∀ k < (cols dim D).length, (cols dim D).getD k [] = absSub m c → acc.getD k 0 = 0) →
      (needed.foldl (fun perturb monomial =>
        match (monDict dim D).lookup monomial, (monDict dim D).lookup (absSub monomial c) with
        | some idx, some idx2 => perturb.set idx2 idx
        | _, _ => perturb) acc).length = (cols dim D).length ∧
      (∀ k ∈ needed.foldl (fun perturb monomial =>
        match (monDict dim D).lookup monomial, (monDict dim D).lookup (absSub monomial c) with
        | some idx, some idx2 => perturb.set idx2 idx
        | _, _ => perturb) acc, k < (cols dim D).length) ∧
      rowSum (cols dim D) (gather r (needed.foldl (fun perturb monomial =>
        match (monDict dim D).lookup monomial, (monDict dim D).lookup (absSub monomial c) with
        | some idx, some idx2 => perturb.set idx2 idx
        | _, _ => perturb) acc)) φ = rowSum (cols dim D) (gather r acc) φ +
          (needed.map fun m => if absSub m c ∈ cols dim D then r.getD (((monDict dim D).lookup m).getD 0) 0 * φ (absSub m c) else 0).sum
  | [], acc, hl, hlt, _, _, _, _ => by simp [hl]; exact hlt
  | m :: needed, acc, hl, hlt, hn, hm, hinj, hz => by
    obtain ⟨hn1, hn2⟩ := List.nodup_cons.1 hn
    obtain ⟨idx, hidx⟩ := Option.isSome_iff_exists.1 (lookup_monDict_isSome (hm m List.mem_cons_self))
    have hm' : ∀ x ∈ needed, x ∈ cols dim D := fun x hx => hm x (List.mem_cons_of_mem _ hx)
    have hinj' : ∀ x ∈ needed, ∀ y ∈ needed, absSub x c = absSub y c → x = y := fun x hx y hy =>
      hinj x (List.mem_cons_of_mem _ hx) y (List.mem_cons_of_mem _ hy)
    by_cases hmem : absSub m c ∈ cols dim D
    · obtain ⟨idx2, hidx2⟩ := Option.isSome_iff_exists.1 (lookup_monDict_isSome hmem)
      obtain ⟨a1, a2⟩ := lookup_monDict hidx2
      obtain ⟨b1, b2⟩ := lookup_monDict hidx
      obtain ⟨e1, e2, e3⟩ := perturb_fold hd c r φ hr needed (acc.set idx2 idx) (by simpa using hl)
        (fun k hk => by
          rcases List.mem_or_eq_of_mem_set hk with h | h
          · exact hlt k h
          · rw [h]; exact b1) hn2 hm' hinj'
        (fun x hx k hk hkx => by
          rw [getD_set]
          by_cases hki : k = idx2
          · exfalso
            subst hki
            have := hinj x (List.mem_cons_of_mem _ hx) m List.mem_cons_self (hkx.symm.trans a2)
            exact hn1 (this ▸ hx)
          · rw [if_neg (by tauto)]; exact hz x (List.mem_cons_of_mem _ hx) k hk hkx)
      simp only [List.foldl_cons, hidx, hidx2]
      refine ⟨e1, e2, ?_⟩
      rw [e3, rowSum_set (cols dim D) r φ acc hl idx2 idx a1 (hz m List.mem_cons_self idx2 a1 a2) hr, a2, List.map_cons,
        List.sum_cons, if_pos hmem, hidx, Option.getD_some, add_assoc]
    · have hnone : (monDict dim D).lookup (absSub m c) = none := by
        by_contra hne
        obtain ⟨k, hk⟩ := Option.ne_none_iff_exists'.1 hne
        obtain ⟨a1, a2⟩ := lookup_monDict hk
        exact hmem (a2 ▸ getD_mem_cols a1)
      obtain ⟨e1, e2, e3⟩ := perturb_fold hd c r φ hr needed acc hl hlt hn2 hm' hinj'
        (fun x hx => hz x (List.mem_cons_of_mem _ hx))
      simp only [List.foldl_cons, hidx, hnone]
      refine ⟨e1, e2, ?_⟩
      rw [e3, List.map_cons, List.sum_cons, if_neg hmem, zero_add]

/-! ### The index of `|m - c|` -/

theorem length_absSub {dim i c : ℕ} {m : List ℕ} (hm : m.length = dim) : (absSub m (varMon dim i c)).length = dim := by
  simp [absSub, varMon, hm]

theorem getD_absSub {dim i c : ℕ} (hi : i < dim) {m : List ℕ} (hm : m.length = dim) (k : ℕ) :
    (absSub m (varMon dim i c)).getD k 0 = if k = i then (m.getD i 0 - c) + (c - m.getD i 0) else m.getD k 0 := by
  by_cases hk : k < dim
  · rw [absSub, List.getD_eq_getElem _ _ (by simp [varMon, hm, hk]), List.getElem_zipWith, ← List.getD_eq_getElem m 0,
      ← List.getD_eq_getElem (varMon dim i c) 0, varMon_getD hi]
    by_cases hki : k = i
    · subst hki; rw [if_pos rfl, if_pos rfl]
    · rw [if_neg hki, if_neg hki]; omega
  · rw [getD_beyond _ _ (by rw [length_absSub hm]; omega), if_neg (by omega), getD_beyond _ _ (by omega)]

theorem sum_absSub_le : ∀ (m c : List ℕ), m.length = c.length → (absSub m c).sum ≤ m.sum + c.sum
  | [], [], _ => by simp [absSub]
  | a :: m, b :: c, h => by
    have := sum_absSub_le m c (by simpa using h)
    simp only [absSub, List.zipWith_cons_cons, List.sum_cons] at this ⊢
    omega

theorem getD_incAt {i c : ℕ} {m : List ℕ} (hi : i < m.length) (k : ℕ) :
    (incAt i c m).getD k 0 = if k = i then m.getD i 0 + c else m.getD k 0 := by
  unfold incAt
  rw [getD_set]
  by_cases hki : k = i
  · subst hki; rw [if_pos ⟨rfl, hi⟩, if_pos rfl]
  · rw [if_neg (by tauto), if_neg hki]

/-- The two index arrays for the lower terms of the product. -/
structure FoldPair (K : Type*) [CommRing K] (dim D i c : ℕ) (Q R : List ℕ) : Prop where
  lengthQ : Q.length = (cols dim D).length
  lengthR : R.length = (cols dim D).length
  ltQ : ∀ k ∈ Q, k < (cols dim D).length
  ltR : ∀ k ∈ R, k < (cols dim D).length
  sum : ∀ (r : List K) (φ : List ℕ → K), LowRow (cols dim D) D c r →
    rowSum (cols dim D) (gather r Q) φ + rowSum (cols dim D) (gather r R) φ =
      rowSum (cols dim D) r fun m => φ (absSub m (varMon dim i c))

theorem cols_length_pos {dim D : ℕ} (hd : 1 ≤ dim) : 0 < (cols dim D).length :=
  List.length_pos_of_mem ((mem_cols hd D (List.replicate dim 0)).2 ⟨by simp, by simp⟩)

theorem cols_head {dim D : ℕ} (hd : 1 ≤ dim) : ((cols dim D).getD 0 []).sum = D := by
  cases D with
  | zero => have := ((mem_cols hd 0 _).1 (getD_mem_cols (cols_length_pos hd))).2; omega
  | succ D =>
    have hne : 0 < (asc dim (D + 1)).reverse.length := by
      refine List.length_pos_of_mem (a := varMon dim 0 (D + 1)) ?_
      rw [List.mem_reverse, mem_asc]
      exact ⟨by simp [varMon], sum_varMon _ (by omega)⟩
    rw [cols_succ hd, List.getD_append _ _ _ _ hne, List.getD_eq_getElem _ _ hne]
    have := List.getElem_mem hne
    rw [List.mem_reverse, mem_asc] at this
    exact this.2

theorem LowRow.head {dim D c : ℕ} (hd : 1 ≤ dim) (hc : 1 ≤ c) {r : List K} (hr : LowRow (cols dim D) D c r) : r.getD 0 0 = 0 :=
  hr 0 (cols_length_pos hd) (by rw [cols_head hd]; omega)

theorem rowSum_zeros {dim D : ℕ} (r : List K) (φ : List ℕ → K) (hr : r.getD 0 0 = 0) :
    rowSum (cols dim D) (gather r (List.replicate (cols dim D).length 0)) φ = 0 := by
  rw [rowSum_gather _ _ _ (by simp)]
  refine Finset.sum_eq_zero fun k hk => ?_
  rw [getD_replicate_zero, hr, zero_mul]

/-- One of the two lists, `p` says which monomials are needed. -/
theorem perturbation_sum {dim D i c : ℕ} (hi : i < dim) (hD : 1 ≤ D) (hc : 1 ≤ c) (p : List ℕ → Bool)
    (hp : ∀ m m', m.length = dim → m'.length = dim → p m = true → p m' = true →
      absSub m (varMon dim i c) = absSub m' (varMon dim i c) → m = m') :
    (chebPerturbation ((monsOrdered dim (D - 1)).filter p) (varMon dim i c) (monDict dim D)).length = (cols dim D).length ∧
    (∀ k ∈ chebPerturbation ((monsOrdered dim (D - 1)).filter p) (varMon dim i c) (monDict dim D), k < (cols dim D).length) ∧
    ∀ (r : List K) (φ : List ℕ → K), LowRow (cols dim D) D c r →
      rowSum (cols dim D) (gather r (chebPerturbation ((monsOrdered dim (D - 1)).filter p) (varMon dim i c) (monDict dim D))) φ =
        ∑ k ∈ Finset.range (cols dim D).length, if p ((cols dim D).getD k []) = true then
          r.getD k 0 * φ (absSub ((cols dim D).getD k []) (varMon dim i c)) else 0 := by
  have hd : 1 ≤ dim := by omega
  obtain ⟨E, rfl⟩ : ∃ E, D = E + 1 := ⟨D - 1, by omega⟩
  rw [Nat.add_sub_cancel]
  have hmem : ∀ m, m ∈ (monsOrdered dim E).filter p ↔ (m.length = dim ∧ m.sum ≤ E) ∧ p m = true := fun m => by
    rw [List.mem_filter, ← mem_cols hd, cols, List.mem_reverse]
  have hnod : ((monsOrdered dim E).filter p).Nodup := (List.nodup_reverse.1 (nodup_cols hd E)).filter _
  have hfold := fun (r : List K) (φ : List ℕ → K) (hr : r.getD 0 0 = 0) =>
    perturb_fold (D := E + 1) hd (varMon dim i c) r φ hr ((monsOrdered dim E).filter p) (List.replicate (monDict dim (E + 1)).length 0)
      (by simp [length_monDict]) (fun k hk => by rw [List.eq_of_mem_replicate hk]; exact cols_length_pos hd) hnod
      (fun m hm => (mem_cols hd _ m).2 (by have := ((hmem m).1 hm).1; omega))
      (fun m hm m' hm' h => hp m m' ((hmem m).1 hm).1.1 ((hmem m').1 hm').1.1 ((hmem m).1 hm).2 ((hmem m').1 hm').2 h)
      (fun m hm k hk _ => getD_replicate_zero _ _)
  have h0 := hfold [] (fun _ => 0) rfl
  refine ⟨h0.1, h0.2.1, fun r φ hr => ?_⟩
  have hr0 := hr.head hd hc
  obtain ⟨-, -, h3⟩ := hfold r φ hr0
  refine Eq.trans h3 ?_
  rw [length_monDict, rowSum_zeros r φ hr0, zero_add]
  set g : List ℕ → K := fun m => if absSub m (varMon dim i c) ∈ cols dim (E + 1) then
    r.getD (((monDict dim (E + 1)).lookup m).getD 0) 0 * φ (absSub m (varMon dim i c)) else 0 with hg
  have hgk : ∀ k < (cols dim (E + 1)).length, g ((cols dim (E + 1)).getD k []) =
      r.getD k 0 * φ (absSub ((cols dim (E + 1)).getD k []) (varMon dim i c)) := by
    intro k hk
    simp only [hg, lookup_monDict_eq hd hk, Option.getD_some]
    split_ifs with h
    · rfl
    · obtain ⟨hl, hs⟩ := (mem_cols hd _ _).1 (getD_mem_cols hk)
      rw [hr k hk, zero_mul]
      by_contra hcon
      refine h ((mem_cols hd _ _).2 ⟨length_absSub hl, ?_⟩)
      have := sum_absSub_le ((cols dim (E + 1)).getD k []) (varMon dim i c) (by rw [hl]; simp [varMon])
      rw [sum_varMon c hi] at this
      omega
  have hperm : (((monsOrdered dim E).filter p).map g).sum = (((cols dim E).filter p).map g).sum := by
    refine List.Perm.sum_eq (List.Perm.map _ ?_)
    rw [cols, List.filter_reverse]
    exact (List.reverse_perm _).symm
  have htop : ((((asc dim (E + 1)).reverse).filter p).map g).sum = 0 := by
    refine List.sum_eq_zero fun x hx => ?_
    rw [List.mem_map] at hx
    obtain ⟨m, hm, rfl⟩ := hx
    rw [List.mem_filter, List.mem_reverse, mem_asc] at hm
    have hmc : m ∈ cols dim (E + 1) := (mem_cols hd _ m).2 (by omega)
    obtain ⟨k, hk, hkm⟩ := List.getElem_of_mem hmc
    have hkm' : (cols dim (E + 1)).getD k [] = m := by rw [List.getD_eq_getElem _ _ hk]; exact hkm
    rw [← hkm', hgk k hk, hr k hk (by rw [hkm']; omega), zero_mul]
  have hall : (((cols dim (E + 1)).filter p).map g).sum = (((cols dim E).filter p).map g).sum := by
    rw [cols_succ hd, List.filter_append, List.map_append, List.sum_append, htop, zero_add]
  rw [hperm, ← hall]
  have hite : ∀ l : List (List ℕ), ((l.filter p).map g).sum = (l.map fun m => if p m = true then g m else 0).sum := by
    intro l
    induction l with
    | nil => rfl
    | cons a l ih =>
      rw [List.filter_cons]
      split_ifs with h
      · simp [ih, h]
      · simp [ih, h]
  rw [hite, sum_map_columns]
  refine Finset.sum_congr rfl fun k hk => ?_
  rw [hgk k (Finset.mem_range.1 hk)]

theorem rowSum_split {L : List (List ℕ)} (r : List K) (ψ : List ℕ → K) (p q : List ℕ → Bool) (hpq : ∀ m, q m = !p m) :
    (∑ k ∈ Finset.range L.length, if p (L.getD k []) = true then r.getD k 0 * ψ (L.getD k []) else 0) +
      (∑ k ∈ Finset.range L.length, if q (L.getD k []) = true then r.getD k 0 * ψ (L.getD k []) else 0) = rowSum L r ψ := by
  rw [← Finset.sum_add_distrib]
  refine Finset.sum_congr rfl fun k _ => ?_
  rw [hpq]
  cases p (L.getD k []) <;> simp

theorem foldPair_step {dim D i c : ℕ} (hi : i < dim) (hD : 1 ≤ D) (hc : 1 ≤ c) :
    FoldPair K dim D i c (chebPerturbation2 (varMon dim i c) (monsOrdered dim (D - 1)) (monDict dim D) i)
      (chebPerturbation3 (varMon dim i c) (monsOrdered dim (D - 1)) (monDict dim D) i) := by
  have hci : (varMon dim i c).getD i 0 = c := by rw [varMon_getD hi, if_pos rfl]
  have hext : ∀ m m' : List ℕ, m.length = dim → m'.length = dim →
      (m.getD i 0 < c ∧ m'.getD i 0 < c ∨ c ≤ m.getD i 0 ∧ c ≤ m'.getD i 0) →
      absSub m (varMon dim i c) = absSub m' (varMon dim i c) → m = m' := by
    intro m m' hm hm' hcase h
    refine ext_getD (by omega) fun k => ?_
    have hk := congrArg (fun l => l.getD k 0) h
    simp only [getD_absSub hi hm, getD_absSub hi hm'] at hk
    by_cases hki : k = i
    · subst hki; rw [if_pos rfl, if_pos rfl] at hk; omega
    · rwa [if_neg hki, if_neg hki] at hk
  obtain ⟨a1, a2, a3⟩ := perturbation_sum (K := K) hi hD hc (fun m => decide ((varMon dim i c).getD i 0 ≤ m.getD i 0))
    (fun m m' hm hm' h1 h2 h => hext m m' hm hm' (.inr (by rw [hci] at h1 h2; exact ⟨by simpa using h1, by simpa using h2⟩)) h)
  obtain ⟨b1, b2, b3⟩ := perturbation_sum (K := K) hi hD hc (fun m => decide (m.getD i 0 < (varMon dim i c).getD i 0))
    (fun m m' hm hm' h1 h2 h => hext m m' hm hm' (.inl (by rw [hci] at h1 h2; exact ⟨by simpa using h1, by simpa using h2⟩)) h)
  refine ⟨a1, b1, a2, b2, fun r φ hr => ?_⟩
  unfold chebPerturbation2 chebPerturbation3
  rw [a3 r φ hr, b3 r φ hr]
  exact rowSum_split r (fun m => φ (absSub m (varMon dim i c))) (fun m => decide ((varMon dim i c).getD i 0 ≤ m.getD i 0))
      (fun m => decide (m.getD i 0 < (varMon dim i c).getD i 0)) fun m => by
    by_cases h : (varMon dim i c).getD i 0 ≤ m.getD i 0
    · rw [decide_eq_true h, decide_eq_false (by omega)]; rfl
    · rw [decide_eq_false h, decide_eq_true (by omega)]; rfl

/-! ### The first power -/

theorem MulPerm.eq_of {dim D : ℕ} (hd : 1 ≤ dim) {a P : List ℕ} (h : MulPerm dim D a P) (ha : a.length = dim) {j k : ℕ}
    (hj : j < (cols dim D).length) (hk : k < (cols dim D).length)
    (hjk : addMon a ((cols dim D).getD j []) = (cols dim D).getD k []) : P.getD k 0 = j := by
  have hjP : j ∈ P := h.perm.mem_iff.2 (List.mem_range.2 hj)
  obtain ⟨k', hk', hjk'⟩ := List.getElem_of_mem hjP
  have hk'' : k' < (cols dim D).length := by rw [← h.length]; exact hk'
  have hget : P.getD k' 0 = j := by rw [List.getD_eq_getElem _ _ hk']; exact hjk'
  have hlen := ((mem_cols hd D _).1 (getD_mem_cols hj)).1
  rcases h.mul k' hk'' with h1 | h1
  · rw [hget, hjk] at h1
    rw [cols_inj hd hk hk'' h1]
    exact hget
  · rw [hget] at h1
    have h2 := ((mem_cols hd D _).1 (getD_mem_cols hk)).2
    rw [← hjk, addMon_sum _ _ (by omega)] at h2
    omega

theorem top_iff {dim D : ℕ} (hd : 1 ≤ dim) (hD : 1 ≤ D) {j : ℕ} (hj : j < (cols dim D).length) :
    j < numMons D dim + numMons (D - 1) dim ↔ D ≤ ((cols dim D).getD j []).sum + 1 := by
  obtain ⟨n, rfl⟩ : ∃ n, dim = n + 1 := ⟨dim - 1, by omega⟩
  obtain ⟨E, rfl⟩ : ∃ E, D = E + 1 := ⟨D - 1, by omega⟩
  rw [Nat.add_sub_cancel]
  have hsum : ∀ (d k : ℕ) (hk : k < (asc (n + 1) d).reverse.length), (((asc (n + 1) d).reverse).getD k []).sum = d := by
    intro d k hk
    have := List.getElem_mem hk
    rw [List.mem_reverse, mem_asc] at this
    rw [List.getD_eq_getElem _ _ hk]; exact this.2
  have hl1 : (asc (n + 1) (E + 1)).reverse.length = numMons (E + 1) (n + 1) := by rw [List.length_reverse, length_asc]
  by_cases h1 : j < numMons (E + 1) (n + 1)
  · rw [cols_succ hd, List.getD_append _ _ _ _ (by omega), hsum _ _ (by omega)]
    omega
  · rw [cols_succ hd, List.length_append] at hj
    rw [cols_succ hd, List.getD_append_right _ _ _ _ (by omega), hl1]
    cases E with
    | zero =>
      have : (cols (n + 1) 0).length = 1 := by rw [cols_zero hd]; rfl
      have h2 : numMons 0 (n + 1) = 1 := by simp [numMons]
      omega
    | succ E =>
      have hl2 : (asc (n + 1) (E + 1)).reverse.length = numMons (E + 1) (n + 1) := by rw [List.length_reverse, length_asc]
      rw [cols_succ hd] at hj ⊢
      rw [List.length_append] at hj
      by_cases h2 : j < numMons (E + 1 + 1) (n + 1) + numMons (E + 1) (n + 1)
      · rw [List.getD_append _ _ _ _ (by omega), hsum _ _ (by omega)]
        omega
      · rw [List.getD_append_right _ _ _ _ (by omega)]
        have h3 : j - numMons (E + 1 + 1) (n + 1) - (asc (n + 1) (E + 1)).reverse.length < (cols (n + 1) E).length := by omega
        have := ((mem_cols hd E _).1 (getD_mem_cols h3)).2
        omega

theorem set_fold (h : ℕ → ℕ) (g : ℕ → ℕ) : ∀ (A : List ℕ) (Q : List ℕ) (k : ℕ),
    (A.foldl (fun Q a => Q.set (g a) (h (g a))) Q).length = Q.length ∧
    (A.foldl (fun Q a => Q.set (g a) (h (g a))) Q).getD k 0 = if k < Q.length ∧ ∃ a ∈ A, g a = k then h k else Q.getD k 0
  | [], Q, k => by simp
  | a :: A, Q, k => by
    obtain ⟨h1, h2⟩ := set_fold h g A (Q.set (g a) (h (g a))) k
    rw [List.foldl_cons]
    refine ⟨by simpa using h1, ?_⟩
    rw [h2, List.length_set, getD_set]
    by_cases hA : k < Q.length ∧ ∃ x ∈ A, g x = k
    · rw [if_pos hA, if_pos ⟨hA.1, by obtain ⟨x, hx, e⟩ := hA.2; exact ⟨x, List.mem_cons_of_mem _ hx, e⟩⟩]
    · rw [if_neg hA]
      by_cases hk : k = g a ∧ g a < Q.length
      · rw [if_pos hk, if_pos ⟨by omega, a, List.mem_cons_self, hk.1.symm⟩, hk.1]
      · rw [if_neg hk, if_neg]
        rintro ⟨h3, x, hx, e⟩
        rcases List.mem_cons.1 hx with rfl | hx
        · exact hk ⟨e.symm, by omega⟩
        · exact hA ⟨h3, x, hx, e⟩

theorem foldPair_first {dim D i : ℕ} (hi : i < dim) (hD : 1 ≤ D) :
    FoldPair K dim D i 1 (chebFirst dim D i).2.1 (chebFirst dim D i).2.2 := by
  have hd : 1 ≤ dim := by omega
  have hP := permutationArray_mul hi hD
  set L := cols dim D with hL
  set P := permutationArray D dim (dim - 1 - i) with hPdef
  have hPl : P.length = L.length := hP.length
  have hvl : (varMon dim i 1).length = dim := by simp [varMon]
  have hlenL : ∀ k < L.length, (L.getD k []).length = dim := fun k hk => ((mem_cols hd D _).1 (getD_mem_cols hk)).1
  have hsumL : ∀ k < L.length, (L.getD k []).sum ≤ D := fun k hk => ((mem_cols hd D _).1 (getD_mem_cols hk)).2
  set top := numMons D dim + numMons (D - 1) dim with htop
  obtain ⟨hv1, hv2, hv3⟩ := C62_inverse_P P (by rw [hPl]; exact hP.perm)
  have htopN : top ≤ L.length := by
    by_contra hcon
    rw [not_le] at hcon
    have : (L.length) < top := hcon
    have hl : L.length = ((List.range (D + 1)).map fun d => numMons d dim).sum := length_cols hd D
    obtain ⟨E, rfl⟩ : ∃ E, D = E + 1 := ⟨D - 1, by omega⟩
    rw [List.range_succ, List.range_succ] at hl
    simp only [List.map_append, List.map_cons, List.map_nil, List.sum_append, List.sum_cons, List.sum_nil] at hl
    simp only [Nat.add_sub_cancel] at htop
    omega
  set Q := List.replicate top 0 ++ (inverseP P).drop top with hQ
  have hQl : Q.length = L.length := by
    rw [hQ, List.length_append, List.length_replicate, List.length_drop, hv1, hPl]; omega
  have hQget : ∀ j, Q.getD j 0 = if j < top then 0 else (inverseP P).getD j 0 := by
    intro j
    by_cases hj : j < top
    · rw [if_pos hj, hQ, List.getD_append _ _ _ _ (by simpa using hj), getD_replicate_zero]
    · rw [if_neg hj, hQ, List.getD_append_right _ _ _ _ (by simpa using hj), List.length_replicate, getD_drop, show top + (j - top) = j by omega]
  set A := (List.range (monsOrdered dim D).length).filter fun k => ((monsOrdered dim D).getD k []).getD i 0 = 1 with hA
  set R := A.foldl (fun Q a => Q.set (P.length - 1 - a) (P.getD (P.length - 1 - a) 0)) (List.replicate P.length 0) with hR
  have hmonl : (monsOrdered dim D).length = L.length := by rw [hL, cols, List.length_reverse]
  have hmonget : ∀ a < L.length, (monsOrdered dim D).getD a [] = L.getD (L.length - 1 - a) [] := by
    intro a ha
    rw [List.getD_eq_getElem _ _ (by omega), List.getD_eq_getElem _ _ (by omega)]
    simp only [hL, cols, List.getElem_reverse, List.length_reverse]
    congr 1
    rw [← hmonl] at ha
    omega
  have hRl : R.length = L.length := by
    rw [hR, (set_fold (fun k => P.getD k 0) (fun a => P.length - 1 - a) A _ 0).1, List.length_replicate, hPl]
  have hRget : ∀ k < L.length, R.getD k 0 = if (L.getD k []).getD i 0 = 1 then P.getD k 0 else 0 := by
    intro k hk
    rw [hR, (set_fold (fun k => P.getD k 0) (fun a => P.length - 1 - a) A _ k).2, List.length_replicate, getD_replicate_zero]
    by_cases h1 : (L.getD k []).getD i 0 = 1
    · have hmemA : L.length - 1 - k ∈ A := by
        rw [hA, List.mem_filter, List.mem_range, hmonl, hmonget _ (by omega), show L.length - 1 - (L.length - 1 - k) = k by omega]
        exact ⟨by omega, decide_eq_true h1⟩
      rw [if_pos h1, if_pos ⟨by omega, L.length - 1 - k, hmemA, by omega⟩]
    · rw [if_neg h1, if_neg]
      rintro ⟨_, a, ha, hak⟩
      rw [hA, List.mem_filter, List.mem_range, hmonl] at ha
      rw [hmonget a ha.1, show L.length - 1 - a = k by omega] at ha
      exact h1 (by simpa using ha.2)
  have hinv_lt : ∀ j < L.length, (inverseP P).getD j 0 < L.length := fun j hj => by
    obtain ⟨h, -⟩ := hv3 j (by omega); omega
  show FoldPair K dim D i 1 Q R
  refine ⟨hQl, hRl, fun x hx => ?_, fun x hx => ?_, fun r φ hr => ?_⟩
  · obtain ⟨k, hk, rfl⟩ := List.getElem_of_mem hx
    rw [← List.getD_eq_getElem _ 0 hk, hQget]
    split_ifs with h
    · exact cols_length_pos hd
    · exact hinv_lt k (by omega)
  · obtain ⟨k, hk, rfl⟩ := List.getElem_of_mem hx
    rw [← List.getD_eq_getElem _ 0 hk, hRget k (by omega)]
    split_ifs with h
    · exact hP.lt (by rw [← hL]; omega)
    · exact cols_length_pos hd
  · have hr0 : r.getD 0 0 = 0 := hr.head hd le_rfl
    have hinc : ∀ j < L.length, addMon (varMon dim i 1) (L.getD j []) = incAt i 1 (L.getD j []) := fun j hj =>
      incAt_eq_addMon 1 hi _ (hlenL j hj)
    have hQsum : rowSum L (gather r Q) φ = ∑ k ∈ Finset.range L.length,
        if decide (1 ≤ (L.getD k []).getD i 0) = true then r.getD k 0 * φ (absSub (L.getD k []) (varMon dim i 1)) else 0 := by
      rw [rowSum_gather L r Q hQl, ← sum_perm hP.perm fun j => r.getD (Q.getD j 0) 0 * φ (L.getD j [])]
      refine Finset.sum_congr rfl fun k hk => ?_
      have hk := Finset.mem_range.1 hk
      have hPk : P.getD k 0 < L.length := hP.lt hk
      rw [hQget]
      by_cases hpos : 1 ≤ (L.getD k []).getD i 0
      · rw [if_pos (c := decide (1 ≤ (L.getD k []).getD i 0) = true) (decide_eq_true hpos)]
        -- the monomial divided by the variable
        have hdl : (absSub (L.getD k []) (varMon dim i 1)).length = dim := length_absSub (hlenL k hk)
        have hadd : addMon (varMon dim i 1) (absSub (L.getD k []) (varMon dim i 1)) = L.getD k [] := by
          rw [incAt_eq_addMon 1 hi _ hdl]
          refine ext_getD (by rw [incAt, List.length_set, hdl, hlenL k hk]) fun t => ?_
          rw [getD_incAt (by omega), getD_absSub hi (hlenL k hk), getD_absSub hi (hlenL k hk)]
          by_cases hti : t = i
          · subst hti; rw [if_pos rfl, if_pos rfl]; omega
          · rw [if_neg hti, if_neg hti]
        have hmem : absSub (L.getD k []) (varMon dim i 1) ∈ L := by
          refine (mem_cols hd D _).2 ⟨hdl, ?_⟩
          have h1 := congrArg List.sum hadd
          rw [addMon_sum _ _ (by omega), sum_varMon 1 hi] at h1
          have := hsumL k hk
          omega
        obtain ⟨j, hj, hje⟩ := List.getElem_of_mem hmem
        have hje' : L.getD j [] = absSub (L.getD k []) (varMon dim i 1) := by rw [List.getD_eq_getElem _ _ hj]; exact hje
        have hPkj : P.getD k 0 = j := hP.eq_of hd hvl hj hk (by rw [← hL, hje']; exact hadd)
        rw [hPkj, hje']
        by_cases hjt : j < top
        · rw [if_pos hjt, hr0, zero_mul]
          have h1 := (top_iff hd hD hj).1 hjt
          rw [← hL, hje'] at h1
          have h2 := congrArg List.sum hadd
          rw [addMon_sum _ _ (by omega), sum_varMon 1 hi] at h2
          rw [hr k hk (by rw [← hL]; omega), zero_mul]
        · rw [if_neg hjt]
          have hkP : k < P.length := by omega
          have h1 := hv2 k hkP
          have h2 : P[k] = j := by rw [← List.getD_eq_getElem _ 0 hkP]; exact hPkj
          rw [h2] at h1
          rw [h1]
      · rw [if_neg (c := decide (1 ≤ (L.getD k []).getD i 0) = true) (by rw [decide_eq_true_eq]; exact hpos)]
        rcases hP.mul k hk with h1 | h1
        · exfalso
          rw [← hL, hinc _ hPk] at h1
          have := congrArg (fun l => l.getD i 0) h1
          rw [getD_incAt (by rw [hlenL _ hPk]; exact hi), if_pos rfl] at this
          omega
        · rw [sum_varMon 1 hi] at h1
          rw [if_pos ((top_iff hd hD hPk).2 (by omega)), hr0, zero_mul]
    have hRsum : rowSum L (gather r R) φ = ∑ k ∈ Finset.range L.length,
        if decide ((L.getD k []).getD i 0 < 1) = true then r.getD k 0 * φ (absSub (L.getD k []) (varMon dim i 1)) else 0 := by
      rw [rowSum_gather L r R hRl, ← sum_perm hP.perm fun j => if decide ((L.getD j []).getD i 0 < 1) = true then
        r.getD j 0 * φ (absSub (L.getD j []) (varMon dim i 1)) else 0]
      refine Finset.sum_congr rfl fun k hk => ?_
      have hk := Finset.mem_range.1 hk
      have hPk : P.getD k 0 < L.length := hP.lt hk
      rw [hRget k hk]
      rcases hP.mul k hk with h1 | h1
      · rw [← hL, hinc _ hPk] at h1
        have h2 := congrArg (fun l => l.getD i 0) h1
        rw [getD_incAt (by rw [hlenL _ hPk]; exact hi), if_pos rfl] at h2
        by_cases h0 : (L.getD k []).getD i 0 = 1
        · rw [if_pos h0, if_pos (by simp only [decide_eq_true_eq]; omega)]
          congr 2
          rw [← h1]
          refine ext_getD (by rw [incAt, List.length_set, length_absSub (hlenL _ hPk), hlenL _ hPk]) fun t => ?_
          rw [getD_incAt (by rw [hlenL _ hPk]; exact hi), getD_absSub hi (hlenL _ hPk)]
          by_cases hti : t = i
          · subst hti; rw [if_pos rfl, if_pos rfl]; omega
          · rw [if_neg hti, if_neg hti]
        · rw [if_neg h0, if_neg (by simp only [decide_eq_true_eq]; omega), hr0, zero_mul]
      · rw [sum_varMon 1 hi] at h1
        have h2 := hr _ hPk h1
        split_ifs <;> simp only [hr0, h2, zero_mul]
    rw [hQsum, hRsum]
    exact rowSum_split r (fun m => φ (absSub m (varMon dim i 1))) (fun m => decide (1 ≤ m.getD i 0)) (fun m => decide (m.getD i 0 < 1))
      fun m => by
        by_cases h : 1 ≤ m.getD i 0
        · rw [decide_eq_true h, decide_eq_false (by omega)]; rfl
        · rw [decide_eq_false h, decide_eq_true (by omega)]; rfl

/-! ### The dictionary -/

/-- All entries of the dictionary are right. -/
def GoodCheb (K : Type*) [CommRing K] (dim D B : ℕ) (perms : List (List ℕ × List ℕ × List ℕ × List ℕ)) : Prop :=
  ∀ e ∈ perms, ∃ i < dim, ∃ c, 1 ≤ c ∧ c ≤ B ∧ e.1 = varMon dim i c ∧ MulPerm dim D e.1 e.2.1 ∧
    FoldPair K dim D i c e.2.2.1 e.2.2.2

theorem varMon_inj {dim i j c d : ℕ} (hi : i < dim) (hj : j < dim) (hc : 1 ≤ c) (h : varMon dim i c = varMon dim j d) :
    i = j ∧ c = d := by
  have h1 := congrArg (fun l => l.getD i 0) h
  simp only [varMon_getD hi, varMon_getD hj, if_true] at h1
  by_cases hij : i = j
  · rw [if_pos hij] at h1; exact ⟨hij, h1⟩
  · rw [if_neg hij] at h1; omega

theorem addMon_varMon {dim i c : ℕ} (hi : i < dim) : addMon (varMon dim i c) (varMon dim i 1) = varMon dim i (c + 1) := by
  rw [incAt_eq_addMon c hi _ (by simp [varMon])]
  refine ext_getD (by simp [incAt, varMon]) fun k => ?_
  rw [getD_incAt (by simp [varMon, hi]), varMon_getD hi, varMon_getD hi, varMon_getD hi]
  by_cases hki : k = i
  · simp [hki]; omega
  · simp [hki]

theorem chebStep_spec {dim D B i c : ℕ} (hi : i < dim) (hD : 1 ≤ D) (hc : 2 ≤ c) (hcB : c ≤ B)
    {perms : List (List ℕ × List ℕ × List ℕ × List ℕ)} (hg : GoodCheb K dim D B perms)
    (h1 : (perms.lookup (varMon dim i (c - 1))).isSome) (h2 : (perms.lookup (varMon dim i 1)).isSome) :
    GoodCheb K dim D B (chebStep dim D i perms c) ∧ ((chebStep dim D i perms c).lookup (varMon dim i c)).isSome ∧
    ∀ m, (perms.lookup m).isSome → ((chebStep dim D i perms c).lookup m).isSome := by
  obtain ⟨pd, hpd⟩ := Option.isSome_iff_exists.1 h1
  obtain ⟨pv, hpv⟩ := Option.isSome_iff_exists.1 h2
  unfold chebStep
  simp only [hpd, hpv]
  refine ⟨fun e he => ?_, lookup_isSome_self _ _ _, fun m h => lookup_isSome_cons _ h⟩
  rcases List.mem_cons.1 he with rfl | he
  · refine ⟨i, hi, c, by omega, hcB, rfl, ?_, foldPair_step hi hD (by omega)⟩
    obtain ⟨_, _, _, _, _, _, hd', _⟩ := hg _ (lookup_mem hpd)
    obtain ⟨_, _, _, _, _, _, hv', _⟩ := hg _ (lookup_mem hpv)
    have := MulPerm.comp (by omega) (by simp [varMon]) (by simp [varMon]) hv' hd'
    simp only at this
    rw [addMon_varMon hi, show c - 1 + 1 = c by omega] at this
    exact this
  · exact hg e he

theorem chebLoop_spec {dim D i : ℕ} (deg : ℕ) (hi : i < dim) (hD : 1 ≤ D)
    {perms : List (List ℕ × List ℕ × List ℕ × List ℕ)} (hg : GoodCheb K dim D (max 1 deg) perms)
    (h1 : (perms.lookup (varMon dim i 1)).isSome) : ∀ j, j ≤ deg - 1 →
    GoodCheb K dim D (max 1 deg) ((List.range' 2 j).foldl (chebStep dim D i) perms) ∧
    (∀ c, 1 ≤ c → c ≤ j + 1 → (((List.range' 2 j).foldl (chebStep dim D i) perms).lookup (varMon dim i c)).isSome) ∧
    ∀ m, (perms.lookup m).isSome → (((List.range' 2 j).foldl (chebStep dim D i) perms).lookup m).isSome := by
  intro j
  induction j with
  | zero => intro _; exact ⟨hg, fun c hc hc' => by rw [show c = 1 by omega]; exact h1, fun m h => h⟩
  | succ j ih =>
    intro hj
    obtain ⟨a, b, c⟩ := ih (by omega)
    rw [List.range'_concat, List.foldl_append, List.foldl_cons, List.foldl_nil]
    obtain ⟨a', b', c'⟩ := chebStep_spec (c := 2 + 1 * j) hi hD (by omega) (by omega) a
      (by rw [show 2 + 1 * j - 1 = j + 1 by omega]; exact b (j + 1) (by omega) le_rfl) (b 1 le_rfl (by omega))
    refine ⟨a', fun x hx hx' => ?_, fun m h => c' m (c m h)⟩
    by_cases hxj : x = 2 + 1 * j
    · rw [hxj]; exact b'
    · exact c' _ (b x hx (by omega))

theorem allPermutationsCheb_spec {dim D : ℕ} (deg : ℕ) (hD : 1 ≤ D) :
    GoodCheb K dim D (max 1 deg) (allPermutationsCheb deg dim D) ∧
    ∀ i < dim, ∀ c, 1 ≤ c → c ≤ max 1 deg → ((allPermutationsCheb deg dim D).lookup (varMon dim i c)).isSome := by
  unfold allPermutationsCheb
  have first : ∀ j, j ≤ dim →
      GoodCheb K dim D (max 1 deg) ((List.range j).foldl (fun perms i => (varMon dim i 1, chebFirst dim D i) :: perms) []) ∧
      ∀ i < j, (((List.range j).foldl (fun perms i => (varMon dim i 1, chebFirst dim D i) :: perms) []).lookup (varMon dim i 1)).isSome := by
    intro j
    induction j with
    | zero => intro _; exact ⟨fun e he => by simp at he, fun i hi => by omega⟩
    | succ j ih =>
      intro hj
      obtain ⟨a, b⟩ := ih (by omega)
      simp only [List.range_succ, List.foldl_append, List.foldl_cons, List.foldl_nil]
      refine ⟨fun e he => ?_, fun i hi => ?_⟩
      · rcases List.mem_cons.1 he with rfl | he
        · exact ⟨j, by omega, 1, le_rfl, le_max_left _ _, rfl, permutationArray_mul (by omega) hD, foldPair_first (by omega) hD⟩
        · exact a e he
      · by_cases hij : i = j
        · subst hij; exact lookup_isSome_self _ _ _
        · exact lookup_isSome_cons _ (b i (by omega))
  obtain ⟨f1, f2⟩ := first dim le_rfl
  simp only
  generalize (List.range dim).foldl (fun perms i => (varMon dim i 1, chebFirst dim D i) :: perms) [] = start at f1 f2
  have key : ∀ j, j ≤ dim →
      GoodCheb K dim D (max 1 deg) ((List.range j).foldl (fun perms i => (List.range' 2 (deg - 1)).foldl (chebStep dim D i) perms) start) ∧
      (∀ i < j, ∀ c, 1 ≤ c → c ≤ max 1 deg → (((List.range j).foldl (fun perms i =>
        (List.range' 2 (deg - 1)).foldl (chebStep dim D i) perms) start).lookup (varMon dim i c)).isSome) ∧
      ∀ m, (start.lookup m).isSome → (((List.range j).foldl (fun perms i =>
        (List.range' 2 (deg - 1)).foldl (chebStep dim D i) perms) start).lookup m).isSome := by
    intro j
    induction j with
    | zero => intro _; exact ⟨f1, fun i hi => by omega, fun m h => h⟩
    | succ j ih =>
      intro hj
      obtain ⟨a, b, c⟩ := ih (by omega)
      simp only [List.range_succ, List.foldl_append, List.foldl_cons, List.foldl_nil]
      obtain ⟨a', b', c'⟩ := chebLoop_spec (K := K) deg (i := j) (by omega) hD a (c _ (f2 j (by omega))) (deg - 1) le_rfl
      refine ⟨a', fun i hi x hx hx' => ?_, fun m h => c' m (c m h)⟩
      by_cases hij : i = j
      · subst hij; exact b' x hx (by omega)
      · exact c' _ (b i (by omega) x hx hx')
  obtain ⟨a, b, -⟩ := key dim le_rfl
  exact ⟨a, b⟩

end YRoots.Legacy
