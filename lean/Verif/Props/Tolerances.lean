import Verif.Model.Tolerances
import Mathlib.Algebra.Order.Ring.Int
import Mathlib.Algebra.Order.Ring.Cast
import Mathlib.Algebra.Order.Ring.Rat
import Mathlib.Data.List.Nodup

/-!
# C68: `Tolerances` walks through its lists of tolerances
-/

namespace YRoots.Legacy

variable {K : Type*}

/-! ### Specification -/

/-- The list of values a keyword argument stands for, if there are `N` of them. -/
def TolVal.toList (N : ℕ) : TolVal K → List (Scalar K)
  | .num x => List.replicate N x
  | .list l => l
  | .other => []

/-- Attributes and methods of the class with which a name may collide. -/
def reservedNames : List (List Char) :=
  ["currTol", "numTol", "numTols", "nextTol", "nextTols", "getTolDict"].map String.toList

/-- Keyword arguments the class can handle: `N` values each (one if there is no list); the names do not collide with each other or
with those of the class. -/
structure GoodTols (N : ℕ) (kw : List (List Char × TolVal K)) : Prop where
  noOther : ∀ p ∈ kw, p.2 ≠ .other
  length : ∀ p ∈ kw, ∀ l, p.2 = .list l → l.length = N
  single : (∀ p ∈ kw, ∃ x, p.2 = .num x) → N = 1
  nodup : (kw.map Prod.fst).Nodup
  plural : ∀ p ∈ kw, ∀ q ∈ kw, p.1 ≠ q.1 ++ ['s']
  reserved : ∀ p ∈ kw, p.1 ∉ reservedNames

/-! ### Helper lemmas -/

theorem getAttr_setAttr (d : PyDict K) (a b : List Char) (v : Attr K) :
    getAttr (setAttr d a v) b = if a = b then some v else getAttr d b := by
  induction d with
  | nil => simp [setAttr, getAttr]
  | cons p d ih =>
    by_cases h : p.1 = a
    · by_cases h' : a = b
      · simp [setAttr, getAttr, h, h']
      · simp [setAttr, getAttr, h, h']
    · by_cases h' : a = b
      · subst h'
        simp [setAttr, getAttr, h, ih]
      · simp only [setAttr, h, if_false, getAttr, ih, h']

theorem mem_iterAttrs {d : PyDict K} {a : List Char} {l : List (Scalar K)} : (a, l) ∈ iterAttrs d ↔ (a, .list l) ∈ d := by
  unfold iterAttrs
  rw [List.mem_filterMap]
  constructor
  · rintro ⟨⟨b, v⟩, hb, h⟩
    cases v with
    | num x => simp at h
    | list m =>
      simp only [Option.some.injEq, Prod.mk.injEq] at h
      rw [← h.1, ← h.2]
      exact hb
  · intro h
    exact ⟨_, h, rfl⟩

theorem iterAttrs_setAttr_num (d : PyDict K) (a : List Char) (x : Scalar K) (h : ∀ p ∈ iterAttrs d, p.1 ≠ a) :
    iterAttrs (setAttr d a (.num x)) = iterAttrs d := by
  induction d with
  | nil => rfl
  | cons p d ih =>
    obtain ⟨b, v⟩ := p
    by_cases hb : b = a
    · subst hb
      cases v with
      | num y => simp [setAttr, iterAttrs]
      | list l => exact absurd rfl (h (b, l) (mem_iterAttrs.2 (by simp)))
    · have ih' := ih fun p hp => h p (by
        obtain ⟨c, l⟩ := p
        exact mem_iterAttrs.2 (List.mem_cons_of_mem _ (mem_iterAttrs.1 hp)))
      simp only [setAttr, hb, if_false]
      cases v with
      | num y => simpa [iterAttrs] using ih'
      | list l => simpa [iterAttrs] using ih'

theorem setAttr_new (d : PyDict K) (a : List Char) (v : Attr K) (h : ∀ p ∈ d, p.1 ≠ a) : setAttr d a v = d ++ [(a, v)] := by
  induction d with
  | nil => rfl
  | cons p d ih =>
    rw [setAttr, if_neg (h p (by simp)), ih fun q hq => h q (List.mem_cons_of_mem _ hq)]
    rfl

theorem numTolsOf_eq (N : ℕ) : ∀ (kw : List (List Char × TolVal K)) (n : ℤ), (∀ p ∈ kw, p.2 ≠ .other) →
    (∀ p ∈ kw, ∀ l, p.2 = .list l → l.length = N) →
    numTolsOf kw n = .ok n ∧ (∀ p ∈ kw, ∃ x, p.2 = .num x) ∨ numTolsOf kw n = .ok (N : ℤ)
  | [], n, _, _ => Or.inl ⟨rfl, by simp⟩
  | (a, .num x) :: kw, n, h1, h2 => by
    rcases numTolsOf_eq N kw n (fun p hp => h1 p (List.mem_cons_of_mem _ hp)) (fun p hp => h2 p (List.mem_cons_of_mem _ hp)) with h | h
    · refine Or.inl ⟨h.1, fun p hp => ?_⟩
      rcases List.mem_cons.1 hp with rfl | hp
      · exact ⟨x, rfl⟩
      · exact h.2 p hp
    · exact Or.inr h
  | (a, .list l) :: kw, n, h1, h2 => by
    have hl : l.length = N := h2 (a, .list l) List.mem_cons_self l rfl
    rcases numTolsOf_eq N kw l.length (fun p hp => h1 p (List.mem_cons_of_mem _ hp)) (fun p hp => h2 p (List.mem_cons_of_mem _ hp))
      with h | h
    · exact Or.inr (by rw [numTolsOf, h.1, hl])
    · exact Or.inr (by rw [numTolsOf, h])
  | (a, .other) :: kw, n, h1, _ => absurd rfl (h1 (a, .other) List.mem_cons_self)

theorem storeTols_eq (N : ℕ) : ∀ (kw : List (List Char × TolVal K)) (d : PyDict K), (∀ p ∈ kw, p.2 ≠ .other) →
    (∀ p ∈ kw, ∀ l, p.2 = .list l → l.length = N) → (kw.map Prod.fst).Nodup → (∀ p ∈ kw, ∀ q ∈ d, q.1 ≠ p.1 ++ ['s']) →
    storeTols N kw d = .ok (d ++ kw.map fun p => (p.1 ++ ['s'], .list (p.2.toList N)))
  | [], d, _, _, _, _ => by simp [storeTols]
  | (a, v) :: kw, d, h1, h2, h3, h4 => by
    rw [List.map_cons, List.nodup_cons] at h3
    have hstep : ∀ l : List (Scalar K), storeTols N kw (setAttr d (a ++ ['s']) (.list l)) =
        .ok (d ++ (a ++ ['s'], .list l) :: kw.map fun p => (p.1 ++ ['s'], .list (p.2.toList N))) := fun l => by
      rw [setAttr_new d _ _ (h4 (a, v) List.mem_cons_self), storeTols_eq N kw _ (fun p hp => h1 p (List.mem_cons_of_mem _ hp))
        (fun p hp => h2 p (List.mem_cons_of_mem _ hp)) h3.2]
      · simp
      · intro p hp q hq
        rcases List.mem_append.1 hq with hq | hq
        · exact h4 p (List.mem_cons_of_mem _ hp) q hq
        · rw [List.mem_singleton.1 hq]
          intro e
          exact h3.1 (List.append_cancel_right e ▸ List.mem_map_of_mem hp)
    cases v with
    | num x => exact hstep _
    | list l =>
      rw [storeTols, if_neg (by rw [h2 (a, .list l) List.mem_cons_self l rfl]; simp), hstep]
      rfl
    | other => exact absurd rfl (h1 (a, .other) List.mem_cons_self)

theorem iterAttrs_map {α : Type*} (kw : List α) (f : α → List Char) (g : α → List (Scalar K)) :
    iterAttrs (kw.map fun p => (f p, Attr.list (g p))) = kw.map fun p => (f p, g p) := by
  induction kw with
  | nil => rfl
  | cons p kw ih => simpa [iterAttrs] using ih

theorem toList_length {N : ℕ} {v : TolVal K} (h1 : v ≠ .other) (h2 : ∀ l, v = .list l → l.length = N) : (v.toList N).length = N := by
  cases v with
  | num x => simp [TolVal.toList]
  | list l => exact h2 l rfl
  | other => exact absurd rfl h1

theorem nextVals_eq (k : ℕ) : ∀ (L : List (List Char × List (Scalar K))) (hL : ∀ p ∈ L, k < p.2.length),
    ∃ r, nextVals (.int k) L = .ok r ∧ r.map Prod.fst = L.map (fun p => p.1.dropLast) ∧
      ∀ q ∈ r, ∃ p ∈ L, q.1 = p.1.dropLast ∧ p.2[k]? = some q.2
  | [], _ => ⟨[], rfl, rfl, by simp⟩
  | (a, l) :: L, hL => by
    obtain ⟨r, h1, h2, h3⟩ := nextVals_eq k L fun p hp => hL p (List.mem_cons_of_mem _ hp)
    have hk : k < l.length := hL (a, l) (by simp)
    have hg : pyGet l (.int k) = .ok l[k] := by
      simp only [pyGet]
      rw [if_pos (by omega), Int.toNat_natCast, List.getElem?_eq_getElem hk]
    refine ⟨(a.dropLast, l[k]) :: r, ?_, ?_, ?_⟩
    · rw [nextVals, hg]
      simp only [h1]
    · simp [h2]
    · intro q hq
      rcases List.mem_cons.1 hq with rfl | hq
      · exact ⟨_, List.mem_cons_self, rfl, List.getElem?_eq_getElem hk⟩
      · obtain ⟨p, hp, h⟩ := h3 q hq
        exact ⟨p, List.mem_cons_of_mem _ hp, h⟩

theorem foldl_setAttr (r : List (List Char × Scalar K)) : ∀ (d : PyDict K), (∀ q ∈ r, ∀ p ∈ iterAttrs d, p.1 ≠ q.1) →
    (r.map Prod.fst).Nodup →
    iterAttrs (r.foldl (fun d p => setAttr d p.1 (.num p.2)) d) = iterAttrs d ∧
    (∀ q ∈ r, getAttr (r.foldl (fun d p => setAttr d p.1 (.num p.2)) d) q.1 = some (.num q.2)) ∧
    ∀ b ∉ r.map Prod.fst, getAttr (r.foldl (fun d p => setAttr d p.1 (.num p.2)) d) b = getAttr d b := by
  induction r with
  | nil => intro d _ _; simp
  | cons q r ih =>
    intro d h hn
    rw [List.map_cons, List.nodup_cons] at hn
    have h0 := iterAttrs_setAttr_num d q.1 q.2 (h q (by simp))
    obtain ⟨h1, h2, h3⟩ := ih (setAttr d q.1 (.num q.2)) (fun s hs => by rw [h0]; exact h s (List.mem_cons_of_mem _ hs)) hn.2
    simp only [List.foldl_cons]
    refine ⟨h1.trans h0, fun s hs => ?_, fun b hb => ?_⟩
    · rcases List.mem_cons.1 hs with rfl | hs
      · rw [h3 _ hn.1, getAttr_setAttr, if_pos rfl]
      · exact h2 s hs
    · simp only [List.map_cons, List.mem_cons, not_or] at hb
      rw [h3 b hb.2, getAttr_setAttr, if_neg (Ne.symm hb.1)]

/-- The state after `k` calls. -/
structure TolState (N : ℕ) (kw : List (List Char × TolVal K)) (k : ℕ) (d : PyDict K) : Prop where
  iter : iterAttrs d = kw.map fun p => (p.1 ++ ['s'], p.2.toList N)
  cur : getAttr d "currTol".toList = some (.num (.int ((k : ℤ) - 1)))
  num : getAttr d "numTols".toList = some (.num (.int N))
  next : getAttr d "nextTols".toList = none
  dict : getAttr d "getTolDict".toList = none
  vals : ∀ p ∈ kw, getAttr d p.1 = if min k N = 0 then none else ((p.2.toList N)[min k N - 1]?).map Attr.num

theorem tolState_step [Ring K] [LinearOrder K] [IsStrictOrderedRing K] {N : ℕ} {kw : List (List Char × TolVal K)} (hg : GoodTols N kw)
    {k : ℕ} {d : PyDict K} (hs : TolState N kw k d) :
    ∃ d', nextTols d = .ok (d', decide (k + 1 ≤ N)) ∧ TolState N kw (k + 1) d' := by
  have hres : ∀ p ∈ kw, ∀ s ∈ reservedNames, p.1 ≠ s := fun p hp s hs h => hg.reserved p hp (h ▸ hs)
  have hlast : ∀ p ∈ kw, p.1 ++ ['s'] ≠ "currTol".toList := fun p hp h => by
    have := congrArg List.getLast? h
    simp at this
  set d1 := setAttr d "currTol".toList (.num (.int (k : ℤ))) with hd1
  have hi1 : iterAttrs d1 = kw.map fun p => (p.1 ++ ['s'], p.2.toList N) := by
    rw [hd1, iterAttrs_setAttr_num, hs.iter]
    rw [hs.iter]
    intro q hq
    obtain ⟨p, hp, rfl⟩ := List.mem_map.1 hq
    exact hlast p hp
  have hget1 : ∀ b, b ≠ "currTol".toList → getAttr d1 b = getAttr d b := fun b hb => by
    rw [hd1, getAttr_setAttr, if_neg (Ne.symm hb)]
  have hcur1 : getAttr d1 "currTol".toList = some (.num (.int (k : ℤ))) := by rw [hd1, getAttr_setAttr, if_pos rfl]
  have hinc : incr (K := K) (.int ((k : ℤ) - 1)) = .int k := by simp [incr]
  unfold nextTols
  simp only [hs.next, hs.cur, hs.num, hinc, ← hd1]
  by_cases hk : N ≤ k
  · rw [if_pos (by simp only [Scalar.val]; exact_mod_cast hk)]
    refine ⟨d1, by simp; omega, hi1, ?_, ?_, ?_, ?_, fun p hp => ?_⟩
    · rw [hcur1]
      simp
    · rw [hget1 _ (by decide), hs.num]
    · rw [hget1 _ (by decide), hs.next]
    · rw [hget1 _ (by decide), hs.dict]
    · rw [hget1 _ (hres p hp _ (by decide)), hs.vals p hp, min_eq_right hk, min_eq_right (by omega)]
  · rw [if_neg (by simp only [Scalar.val]; exact_mod_cast hk)]
    obtain ⟨r, h1, h2, h3⟩ := nextVals_eq (K := K) k (iterAttrs d1) (by
      rw [hi1]
      intro q hq
      obtain ⟨p, hp, rfl⟩ := List.mem_map.1 hq
      simp only
      rw [toList_length (hg.noOther p hp) (hg.length p hp)]
      omega)
    have hr : r.map Prod.fst = kw.map Prod.fst := by
      rw [h2, hi1, List.map_map]
      apply List.map_congr_left
      intro p _
      simp
    obtain ⟨e1, e2, e3⟩ := foldl_setAttr r d1 (by
      intro q hq p hp
      rw [hi1] at hp
      obtain ⟨p', hp', rfl⟩ := List.mem_map.1 hp
      have : q.1 ∈ kw.map Prod.fst := hr ▸ List.mem_map_of_mem hq
      obtain ⟨q', hq', h⟩ := List.mem_map.1 this
      rw [← h]
      exact Ne.symm (hg.plural q' hq' p' hp')) (hr ▸ hg.nodup)
    have hother : ∀ b ∈ reservedNames, b ∉ r.map Prod.fst := fun b hb h => by
      rw [hr] at h
      obtain ⟨p, hp, rfl⟩ := List.mem_map.1 h
      exact hg.reserved p hp hb
    simp only [h1]
    refine ⟨_, ?_, e1.trans hi1, ?_, ?_, ?_, ?_, fun p hp => ?_⟩
    · rw [decide_eq_true (by omega)]
    · rw [e3 _ (hother _ (by decide)), hcur1]
      simp
    · rw [e3 _ (hother _ (by decide)), hget1 _ (by decide), hs.num]
    · rw [e3 _ (hother _ (by decide)), hget1 _ (by decide), hs.next]
    · rw [e3 _ (hother _ (by decide)), hget1 _ (by decide), hs.dict]
    · have : p.1 ∈ r.map Prod.fst := hr ▸ List.mem_map_of_mem hp
      obtain ⟨q, hq, hqp⟩ := List.mem_map.1 this
      rw [← hqp, e2 q hq, if_neg (by omega), min_eq_left (by omega), Nat.add_sub_cancel]
      obtain ⟨p', hp', h4, h5⟩ := h3 q hq
      rw [hi1] at hp'
      obtain ⟨p'', hp'', rfl⟩ := List.mem_map.1 hp'
      simp only [List.dropLast_concat] at h4 h5
      have : p'' = p := List.inj_on_of_nodup_map hg.nodup hp'' hp (by rw [← h4, hqp])
      rw [← this, h5]
      rfl

/-! ### The theorems -/

/-- **C68.**  The calls of `nextTols` walk through the lists: call number `k` returns whether `k ≤ N`, afterwards every attribute has the
value number `min k N`, and `getTolDict` gives the lists. -/
theorem C68_sequence_partial [Ring K] [LinearOrder K] [IsStrictOrderedRing K] {N : ℕ} {kw : List (List Char × TolVal K)}
    (hg : GoodTols N kw) :
    ∃ d, tolInit kw = .ok d ∧ ∀ k, ∃ d', nextTolsIter d k = .ok (d', if k = 0 then none else some (decide (k ≤ N))) ∧
      getTolDict d' = .ok (kw.map fun p => (p.1 ++ ['s'], p.2.toList N)) ∧
      ∀ p ∈ kw, getAttr d' p.1 = if min k N = 0 then none else ((p.2.toList N)[min k N - 1]?).map Attr.num := by
  have hnum : numTolsOf kw 1 = .ok (N : ℤ) := by
    rcases numTolsOf_eq N kw 1 hg.noOther hg.length with h | h
    · rw [h.1, hg.single h.2]
      rfl
    · exact h
  have hstore := storeTols_eq N kw [] hg.noOther hg.length hg.nodup (by simp)
  rw [List.nil_append] at hstore
  set d0 : PyDict K := kw.map fun p => (p.1 ++ ['s'], .list (p.2.toList N)) with hd0
  have hlast : ∀ (s : List Char), s.getLast? ≠ some 's' → ∀ p ∈ kw, p.1 ++ ['s'] ≠ s := fun s hs p hp h => by
    apply hs
    rw [← h]
    simp
  have hget0 : ∀ b, (∀ p ∈ kw, p.1 ++ ['s'] ≠ b) → getAttr d0 b = none := fun b hb => by
    rw [hd0]
    clear hd0 hstore hnum hlast hg
    induction kw with
    | nil => rfl
    | cons p kw ih =>
      rw [List.map_cons, getAttr, if_neg (hb p (by simp))]
      exact ih fun q hq => hb q (List.mem_cons_of_mem _ hq)
  have hplural : ∀ t : List Char, t ∈ reservedNames → ∀ p ∈ kw, p.1 ++ ['s'] ≠ t ++ ['s'] := fun t ht p hp h =>
    hg.reserved p hp (List.append_cancel_right h ▸ ht)
  have hcurT := hlast "currTol".toList (by decide)
  have hdictT := hlast "getTolDict".toList (by decide)
  have hnumT : ∀ p ∈ kw, p.1 ++ ['s'] ≠ "numTols".toList := hplural "numTol".toList (by decide)
  have hnextT : ∀ p ∈ kw, p.1 ++ ['s'] ≠ "nextTols".toList := hplural "nextTol".toList (by decide)
  have hi0 : iterAttrs d0 = kw.map fun p => (p.1 ++ ['s'], p.2.toList N) :=
    iterAttrs_map kw (fun p => p.1 ++ ['s']) fun p => p.2.toList N
  set d1 := setAttr d0 "currTol".toList (.num (.int (-1))) with hd1
  set d := setAttr d1 "numTols".toList (.num (.int (N : ℤ))) with hd
  have hi1 : iterAttrs d1 = iterAttrs d0 := iterAttrs_setAttr_num _ _ _ (by
    rw [hi0]
    intro q hq
    obtain ⟨p, hp, rfl⟩ := List.mem_map.1 hq
    exact hcurT p hp)
  have hi : iterAttrs d = iterAttrs d1 := iterAttrs_setAttr_num _ _ _ (by
    rw [hi1, hi0]
    intro q hq
    obtain ⟨p, hp, rfl⟩ := List.mem_map.1 hq
    exact hnumT p hp)
  have hgetd : ∀ b, b ≠ "currTol".toList → b ≠ "numTols".toList → getAttr d b = getAttr d0 b := fun b h1 h2 => by
    rw [hd, getAttr_setAttr, if_neg (Ne.symm h2), hd1, getAttr_setAttr, if_neg (Ne.symm h1)]
  have hstart : TolState N kw 0 d := by
    refine ⟨hi.trans (hi1.trans hi0), ?_, ?_, ?_, ?_, fun p hp => ?_⟩
    · rw [hd, getAttr_setAttr, if_neg (by decide), hd1, getAttr_setAttr, if_pos rfl]
      rfl
    · rw [hd, getAttr_setAttr, if_pos rfl]
    · rw [hgetd _ (by decide) (by decide), hget0 _ hnextT]
    · rw [hgetd _ (by decide) (by decide), hget0 _ hdictT]
    · rw [hgetd p.1 (fun h => hg.reserved p hp (by rw [h]; decide)) (fun h => hg.reserved p hp (by rw [h]; decide)),
        hget0 _ fun q hq => Ne.symm (hg.plural p hp q hq), if_pos (by simp)]
  refine ⟨d, ?_, fun k => ?_⟩
  · unfold tolInit
    simp only [hnum, hstore, ← hd1, ← hd]
  · have key : ∀ k, ∃ d', nextTolsIter d k = .ok (d', if k = 0 then none else some (decide (k ≤ N))) ∧ TolState N kw k d' := by
      intro k
      induction k with
      | zero => exact ⟨d, rfl, hstart⟩
      | succ k ih =>
        obtain ⟨d', h1, h2⟩ := ih
        obtain ⟨d'', h3, h4⟩ := tolState_step hg h2
        refine ⟨d'', ?_, h4⟩
        rw [nextTolsIter, h1]
        simp only [h3, Nat.succ_ne_zero, if_false]
    obtain ⟨d', h1, h2⟩ := key k
    refine ⟨d', h1, ?_, h2.vals⟩
    unfold getTolDict
    rw [h2.dict]
    simp only [h2.iter]

/-- The constructor raises `ValueError` exactly if two lists have different lengths (arguments without `len` raise `TypeError`). -/
theorem C68_lengths (kw : List (List Char × TolVal K)) (ho : ∀ p ∈ kw, p.2 ≠ .other) :
    tolInit kw = .error .valueError ↔ ∃ p ∈ kw, ∃ q ∈ kw, ∃ l m, p.2 = .list l ∧ q.2 = .list m ∧ l.length ≠ m.length := by
  have hnum : ∀ (kw : List (List Char × TolVal K)) (n : ℤ), (∀ p ∈ kw, p.2 ≠ .other) →
      numTolsOf kw n = .ok n ∧ (∀ p ∈ kw, ∃ x, p.2 = .num x) ∨ ∃ p ∈ kw, ∃ l, p.2 = .list l ∧ numTolsOf kw n = .ok (l.length : ℤ) := by
    intro kw
    induction kw with
    | nil => exact fun n _ => Or.inl ⟨rfl, by simp⟩
    | cons p kw ih =>
      intro n h
      obtain ⟨a, v⟩ := p
      have h' : ∀ p ∈ kw, p.2 ≠ .other := fun p hp => h p (List.mem_cons_of_mem _ hp)
      cases v with
      | num x =>
        rcases ih n h' with ⟨h1, h2⟩ | ⟨p, hp, l, h1, h2⟩
        · refine Or.inl ⟨h1, fun p hp => ?_⟩
          rcases List.mem_cons.1 hp with rfl | hp
          · exact ⟨x, rfl⟩
          · exact h2 p hp
        · exact Or.inr ⟨p, List.mem_cons_of_mem _ hp, l, h1, h2⟩
      | list l =>
        rcases ih l.length h' with ⟨h1, h2⟩ | ⟨p, hp, m, h1, h2⟩
        · exact Or.inr ⟨(a, .list l), List.mem_cons_self, l, rfl, h1⟩
        · exact Or.inr ⟨p, List.mem_cons_of_mem _ hp, m, h1, h2⟩
      | other => exact absurd rfl (h (a, .other) List.mem_cons_self)
  have hstore : ∀ (kw : List (List Char × TolVal K)) (n : ℤ) (d : PyDict K), (∀ p ∈ kw, p.2 ≠ .other) →
      (storeTols n kw d = .error .valueError ↔ ∃ p ∈ kw, ∃ l, p.2 = .list l ∧ (l.length : ℤ) ≠ n) ∧
      storeTols n kw d ≠ .error .typeError ∧ storeTols n kw d ≠ .error .indexError ∧ storeTols n kw d ≠ .error .attributeError := by
    intro kw n
    induction kw with
    | nil => intro d _; simp [storeTols]
    | cons p kw ih =>
      intro d h
      obtain ⟨a, v⟩ := p
      have h' : ∀ p ∈ kw, p.2 ≠ .other := fun p hp => h p (List.mem_cons_of_mem _ hp)
      cases v with
      | num x =>
        have := ih (setAttr d (a ++ ['s']) (.list (List.replicate n.toNat x))) h'
        simpa [storeTols] using this
      | list l =>
        by_cases hl : (l.length : ℤ) ≠ n
        · rw [storeTols, if_pos hl]
          refine ⟨⟨fun _ => ⟨(a, .list l), List.mem_cons_self, l, rfl, hl⟩, fun _ => rfl⟩, by simp⟩
        · rw [storeTols, if_neg hl]
          have := ih (setAttr d (a ++ ['s']) (.list l)) h'
          refine ⟨this.1.trans ?_, this.2⟩
          constructor
          · rintro ⟨p, hp, h⟩
            exact ⟨p, List.mem_cons_of_mem _ hp, h⟩
          · rintro ⟨p, hp, m, h1, h2⟩
            rcases List.mem_cons.1 hp with rfl | hp
            · cases h1
              exact absurd h2 hl
            · exact ⟨p, hp, m, h1, h2⟩
      | other => exact absurd rfl (h (a, .other) List.mem_cons_self)
  have hinit : ∀ n, numTolsOf kw 1 = .ok n → (tolInit kw = .error .valueError ↔ ∃ p ∈ kw, ∃ l, p.2 = .list l ∧ (l.length : ℤ) ≠ n) := by
    intro n hn
    have h1 := hstore kw n [] ho
    unfold tolInit
    rw [← h1.1]
    simp only [hn]
    cases h : storeTols n kw [] with
    | ok d => simp
    | error e => simp
  rcases hnum kw 1 ho with ⟨h1, h2⟩ | ⟨p, hp, l, h1, h2⟩
  · rw [hinit _ h1]
    constructor
    · rintro ⟨p, hp, l, h3, -⟩
      obtain ⟨x, hx⟩ := h2 p hp
      rw [hx] at h3
      cases h3
    · rintro ⟨p, hp, q, hq, l, m, h3, -⟩
      obtain ⟨x, hx⟩ := h2 p hp
      rw [hx] at h3
      cases h3
  · rw [hinit _ h2]
    constructor
    · rintro ⟨q, hq, m, h3, h4⟩
      exact ⟨p, hp, q, hq, l, m, h1, h3, fun e => h4 (by rw [e])⟩
    · rintro ⟨q, hq, r, hr, m, m', h3, h4, h5⟩
      by_cases h6 : m.length = l.length
      · exact ⟨r, hr, m', h4, fun e => h5 (by omega)⟩
      · exact ⟨q, hq, m, h3, fun e => h6 (by omega)⟩

/-! ### Examples and negations -/

/-- `Tolerances(rel=[1, 2], check=3)`. -/
def exTols : List (List Char × TolVal ℚ) := [("rel".toList, .list [.flt 1, .flt 2]), ("check".toList, .num (.int 3))]

theorem exTols_good : GoodTols 2 exTols where
  noOther p hp := by
    simp only [exTols, List.mem_cons, List.not_mem_nil, or_false] at hp
    rcases hp with rfl | rfl <;> simp
  length p hp l hl := by
    simp only [exTols, List.mem_cons, List.not_mem_nil, or_false] at hp
    rcases hp with rfl | rfl
    · cases hl
      rfl
    · cases hl
  single h := by
    obtain ⟨x, hx⟩ := h ("rel".toList, .list [.flt 1, .flt 2]) (by simp [exTols])
    cases hx
  nodup := by decide
  plural p hp q hq := by
    have h : ∀ a ∈ exTols.map Prod.fst, ∀ b ∈ exTols.map Prod.fst, a ≠ b ++ ['s'] := by decide
    exact h _ (List.mem_map_of_mem hp) _ (List.mem_map_of_mem hq)
  reserved p hp := by
    have h : ∀ a ∈ exTols.map Prod.fst, a ∉ reservedNames := by decide
    exact h _ (List.mem_map_of_mem hp)

/-- The hypotheses of `C68_sequence_partial` hold; after two calls the second values are current, the third call returns `False`. -/
example : ∃ d, tolInit exTols = .ok d ∧ (∃ d', nextTolsIter d 2 = .ok (d', some true) ∧
    getAttr d' "rel".toList = some (.num (.flt 2)) ∧ getAttr d' "check".toList = some (.num (.int 3))) ∧
    ∃ d', nextTolsIter d 3 = .ok (d', some false) := by
  obtain ⟨d, h, hk⟩ := C68_sequence_partial exTols_good
  obtain ⟨d2, h2, -, h3⟩ := hk 2
  obtain ⟨d3, h4, -⟩ := hk 3
  exact ⟨d, h, ⟨d2, h2, h3 ("rel".toList, .list [.flt 1, .flt 2]) (by simp [exTols]),
    h3 ("check".toList, .num (.int 3)) (by simp [exTols])⟩, d3, h4⟩

/-- A name which is another name with an `s`: `Tolerances(t=[1, 2], ts=[3, 4])`.  After two calls `t` is still 1. -/
theorem C68_plural_false : ∃ kw : List (List Char × TolVal ℚ), kw = [("t".toList, .list [.flt 1, .flt 2]), ("ts".toList, .list [.flt 3, .flt 4])] ∧
    ∃ d, tolInit kw = .ok d ∧ ∃ d', nextTolsIter d 2 = .ok (d', some true) ∧ getAttr d' "t".toList = some (.num (.flt 1)) :=
  ⟨_, rfl, _, rfl, _, rfl, rfl⟩

/-- A tolerance with the name `nextTol` hides the method `nextTols`: the first call raises `TypeError`. -/
theorem C68_method_false (x : K) [Ring K] [LinearOrder K] :
    ∃ d, tolInit [("nextTol".toList, .num (.flt x))] = .ok d ∧ nextTols d = .error .typeError :=
  ⟨_, rfl, rfl⟩

/-- A tolerance with the name `getTolDict` hides that method from the first call of `nextTols` on: then the lists cannot be read any
more (before, they can). -/
theorem C68_getTolDict_false (x : ℚ) : ∃ d, tolInit [("getTolDict".toList, .num (.flt x))] = .ok d ∧
    getTolDict d = .ok [("getTolDicts".toList, [.flt x])] ∧
    ∃ d', nextTols d = .ok (d', true) ∧ getTolDict d' = .error .typeError :=
  ⟨_, rfl, rfl, _, rfl, rfl⟩

end YRoots.Legacy
