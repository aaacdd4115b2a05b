import Verif.Model.Journal

namespace Fpki.Journal

/-! ## Specification vocabulary -/

/-- Index `n` lies in the (inclusive) interval. -/
def Interval.Has (x : Interval) (n : Nat) : Prop := x.start ≤ n ∧ n ≤ x.stop

/-- Index `n` is covered by the list. -/
def Covered (l : List Interval) (n : Nat) : Prop := ∃ i ∈ l, i.Has n

/-- A 64-bit, non-inverted interval. -/
def Interval.Valid (x : Interval) : Prop := x.start ≤ x.stop ∧ x.stop < W

/-- Sorted, pairwise disjoint, no two neighbours touch. -/
def Canonical (l : List Interval) : Prop :=
  (∀ i ∈ l, i.start ≤ i.stop) ∧ l.Pairwise (fun a b => a.stop + 1 < b.start)

/-! ## Helper lemmas -/

theorem inc64_le (x : Nat) : inc64 x ≤ x + 1 := Nat.mod_le _ _

theorem inc64_eq {x : Nat} (h : x + 1 < W) : inc64 x = x + 1 := Nat.mod_eq_of_lt h

theorem canMerge_touch {a b : Interval} (h : canMerge a b = true) :
    a.start ≤ b.stop + 1 ∧ b.start ≤ a.stop + 1 := by
  simp only [canMerge, Bool.and_eq_true, decide_eq_true_eq] at h
  have := inc64_le b.stop; have := inc64_le a.stop
  omega

theorem merge_has {a b : Interval} (_ha : a.start ≤ a.stop) (_hb : b.start ≤ b.stop)
    (h : canMerge a b = true) (n : Nat) : (mergeIntervals a b).Has n ↔ a.Has n ∨ b.Has n := by
  have := canMerge_touch h
  simp only [mergeIntervals, Interval.Has]
  omega

theorem merge_valid {a b : Interval} (ha : a.Valid) (hb : b.Valid) : (mergeIntervals a b).Valid := by
  simp only [mergeIntervals, Interval.Valid] at *
  omega

theorem covered_cons (x : Interval) (l : List Interval) (n : Nat) :
    Covered (x :: l) n ↔ x.Has n ∨ Covered l n := by
  simp [Covered]

theorem covered_append (l l' : List Interval) (n : Nat) :
    Covered (l ++ l') n ↔ Covered l n ∨ Covered l' n := by
  simp only [Covered, List.mem_append]
  constructor
  · rintro ⟨i, h | h, hi⟩
    · exact Or.inl ⟨i, h, hi⟩
    · exact Or.inr ⟨i, h, hi⟩
  · rintro (⟨i, h, hi⟩ | ⟨i, h, hi⟩)
    · exact ⟨i, Or.inl h, hi⟩
    · exact ⟨i, Or.inr h, hi⟩

theorem absorb_covered (x : Interval) (l : List Interval) (hx : x.Valid) (hl : ∀ i ∈ l, i.Valid)
    (n : Nat) : Covered ((absorb x l).1 :: (absorb x l).2) n ↔ x.Has n ∨ Covered l n := by
  induction l generalizing x with
  | nil => simp [absorb, covered_cons]
  | cons y ys ih =>
    simp only [absorb]
    split
    · next h =>
      have hy := hl y (by simp)
      rw [ih _ (merge_valid hx hy) (fun i hi => hl i (by simp [hi])),
        merge_has hx.1 hy.1 h, covered_cons]
      exact or_assoc
    · simp [covered_cons]

theorem absorb_valid (x : Interval) (l : List Interval) (hx : x.Valid) (hl : ∀ i ∈ l, i.Valid) :
    (absorb x l).1.Valid ∧ ∀ i ∈ (absorb x l).2, i.Valid := by
  induction l generalizing x with
  | nil => simp [absorb, hx]
  | cons y ys ih =>
    simp only [absorb]
    split
    · exact ih _ (merge_valid hx (hl y (by simp))) (fun i hi => hl i (by simp [hi]))
    · exact ⟨hx, hl⟩

theorem bsearch_le (l : List Interval) (t i j : Nat) (hij : i ≤ j) :
    i ≤ bsearch l t i j ∧ bsearch l t i j ≤ j := by
  fun_induction bsearch l t i j <;> omega

theorem searchIdx_le (l : List Interval) (x : Interval) : searchIdx l x ≤ l.length :=
  (bsearch_le l x.start 0 l.length (Nat.zero_le _)).2

theorem getD_mem_lt {l : List Interval} {k : Nat} (h : k < l.length) :
    l.getD k default = l[k] := by simp [List.getD_eq_getElem?_getD, h]

theorem eraseIdx_take_drop (l : List Interval) (k : Nat) (h : k < l.length) :
    (l.eraseIdx k).take k = l.take k ∧ (l.eraseIdx k).drop k = l.drop (k + 1) ∧
    l = l.take k ++ l.getD k default :: l.drop (k + 1) := by
  refine ⟨?_, ?_, ?_⟩
  · have hk : (l.take k).length = k := by rw [List.length_take]; omega
    rw [List.eraseIdx_eq_take_drop_succ]
    exact List.take_left' hk
  · have hk : (l.take k).length = k := by rw [List.length_take]; omega
    rw [List.eraseIdx_eq_take_drop_succ]
    exact List.drop_left' hk
  · have : l.getD k default = l[k] := by simp [List.getD_eq_getElem?_getD, h]
    rw [this]
    simp

/-- Shape of `appendInterval`, independent of the eraseIdx bookkeeping. -/
theorem appendInterval_eq (l : List Interval) (x : Interval) :
    appendInterval l x =
      if searchIdx l x > 0 && canMerge (l.getD (searchIdx l x - 1) default) x then
        l.take (searchIdx l x - 1) ++
          (absorb (mergeIntervals (l.getD (searchIdx l x - 1) default) x)
            (l.drop (searchIdx l x))).1 ::
          (absorb (mergeIntervals (l.getD (searchIdx l x - 1) default) x)
            (l.drop (searchIdx l x))).2
      else
        l.take (searchIdx l x) ++ (absorb x (l.drop (searchIdx l x))).1 ::
          (absorb x (l.drop (searchIdx l x))).2 := by
  by_cases h : (decide (searchIdx l x > 0) && canMerge (l.getD (searchIdx l x - 1) default) x) = true
  · unfold appendInterval
    simp only [h, if_true]
    simp only [Bool.and_eq_true, decide_eq_true_eq] at h
    have hle := searchIdx_le l x
    obtain ⟨h1, h2, _⟩ := eraseIdx_take_drop l (searchIdx l x - 1) (by omega)
    have : searchIdx l x - 1 + 1 = searchIdx l x := by omega
    rw [this] at h2
    rw [h1, h2]
  · unfold appendInterval
    rw [if_neg h]
    simp only [if_neg h]

theorem appendInterval_covered (l : List Interval) (x : Interval) (hx : x.Valid)
    (hl : ∀ i ∈ l, i.Valid) (n : Nat) :
    Covered (appendInterval l x) n ↔ Covered l n ∨ x.Has n := by
  rw [appendInterval_eq]
  have hle := searchIdx_le l x
  have hmd : ∀ k, ∀ i ∈ l.drop k, i.Valid := fun k i hi => hl i (List.mem_of_mem_drop hi)
  split
  · next h =>
    simp only [Bool.and_eq_true, decide_eq_true_eq] at h
    obtain ⟨_, _, h3⟩ := eraseIdx_take_drop l (searchIdx l x - 1) (by omega)
    have hk : searchIdx l x - 1 + 1 = searchIdx l x := by omega
    rw [hk] at h3
    have hp : (l.getD (searchIdx l x - 1) default).Valid := by
      apply hl
      rw [getD_mem_lt (by omega)]
      exact List.getElem_mem _
    rw [covered_append, absorb_covered _ _ (merge_valid hp hx) (hmd _),
      merge_has hp.1 hx.1 h.2]
    have hcl : Covered l n ↔ Covered (l.take (searchIdx l x - 1)) n ∨
        (l.getD (searchIdx l x - 1) default).Has n ∨ Covered (l.drop (searchIdx l x)) n := by
      rw [← covered_cons, ← covered_append, ← h3]
    rw [hcl]
    generalize (l.getD (searchIdx l x - 1) default).Has n = P
    constructor
    · rintro (h | (h | h) | h) <;> simp [h]
    · rintro ((h | h | h) | h) <;> simp [h]
  · rw [covered_append, absorb_covered _ _ hx (hmd _)]
    conv => rhs; rw [← List.take_append_drop (searchIdx l x) l]
    rw [covered_append]
    constructor
    · rintro (h | h | h) <;> simp [h]
    · rintro ((h | h) | h) <;> simp [h]

theorem appendInterval_valid (l : List Interval) (x : Interval) (hx : x.Valid)
    (hl : ∀ i ∈ l, i.Valid) : ∀ i ∈ appendInterval l x, i.Valid := by
  rw [appendInterval_eq]
  have hle := searchIdx_le l x
  have hmd : ∀ k, ∀ i ∈ l.drop k, i.Valid := fun k i hi => hl i (List.mem_of_mem_drop hi)
  have hmt : ∀ k, ∀ i ∈ l.take k, i.Valid := fun k i hi => hl i (List.mem_of_mem_take hi)
  split
  · next h =>
    simp only [Bool.and_eq_true, decide_eq_true_eq] at h
    obtain ⟨_, _, h3⟩ := eraseIdx_take_drop l (searchIdx l x - 1) (by omega)
    have hp : (l.getD (searchIdx l x - 1) default).Valid := by
      apply hl
      rw [getD_mem_lt (by omega)]
      exact List.getElem_mem _
    have := absorb_valid _ _ (merge_valid hp hx) (hmd (searchIdx l x))
    intro i hi
    simp only [List.mem_append, List.mem_cons] at hi
    rcases hi with hi | hi | hi
    · exact hmt _ i hi
    · exact hi ▸ this.1
    · exact this.2 i hi
  · have := absorb_valid _ _ hx (hmd (searchIdx l x))
    intro i hi
    simp only [List.mem_append, List.mem_cons] at hi
    rcases hi with hi | hi | hi
    · exact hmt _ i hi
    · exact hi ▸ this.1
    · exact this.2 i hi

/-! ### Sortedness -/

theorem Canonical.starts {l : List Interval} (h : Canonical l) :
    l.Pairwise (fun a b => a.start < b.start) := by
  obtain ⟨hv, hp⟩ := h
  rw [List.pairwise_iff_forall_sublist] at hp ⊢
  intro a b hab
  have := hp hab
  have := hv a (hab.subset (by simp))
  omega

theorem bsearch_spec (l : List Interval) (t : Nat)
    (hs : l.Pairwise (fun a b => a.start < b.start)) (i j : Nat) (hij : i ≤ j) (hj : j ≤ l.length)
    (hlo : ∀ k, (h : k < l.length) → k < i → l[k].start < t)
    (hhi : ∀ k, (h : k < l.length) → j ≤ k → t ≤ l[k].start) :
    (∀ k, (h : k < l.length) → k < bsearch l t i j → l[k].start < t) ∧
    (∀ k, (h : k < l.length) → bsearch l t i j ≤ k → t ≤ l[k].start) := by
  rw [List.pairwise_iff_getElem] at hs
  fun_induction bsearch l t i j with
  | case1 i j h m hlt ih =>
    have hm : m < l.length := by omega
    rw [getD_mem_lt hm] at hlt
    apply ih (by omega) hj _ hhi
    intro k hk hk'
    by_cases hkm : k = m
    · subst hkm; exact hlt
    · have := hs k m hk hm (by omega); omega
  | case2 i j h m hlt ih =>
    have hm : m < l.length := by omega
    rw [getD_mem_lt hm] at hlt
    apply ih (by omega) (by omega) hlo
    intro k hk hk'
    by_cases hkm : k = m
    · subst hkm; omega
    · have := hs m k hm hk (by omega); omega
  | case3 i j h =>
    have : i = j := by omega
    subst this
    exact ⟨hlo, hhi⟩

theorem searchIdx_spec {l : List Interval} (hc : Canonical l) (x : Interval) :
    (∀ i ∈ l.take (searchIdx l x), i.start < x.start) ∧
    (∀ i ∈ l.drop (searchIdx l x), x.start ≤ i.start) := by
  have := bsearch_spec l x.start hc.starts 0 l.length (Nat.zero_le _) (Nat.le_refl _)
    (by intro k _ h; omega) (by intro k h h'; omega)
  obtain ⟨h1, h2⟩ := this
  constructor
  · intro i hi
    rw [List.mem_take_iff_getElem] at hi
    obtain ⟨k, hk, rfl⟩ := hi
    exact h1 k (by omega) (by unfold searchIdx at hk; omega)
  · intro i hi
    rw [List.mem_drop_iff_getElem] at hi
    obtain ⟨k, hk, rfl⟩ := hi
    exact h2 _ (by omega) (by unfold searchIdx; omega)

theorem absorb_canonical (x : Interval) (l : List Interval) (hx : x.start ≤ x.stop)
    (hxb : x.stop + 1 < W) (hlb : ∀ i ∈ l, i.stop + 1 < W) (hc : Canonical l)
    (hs : ∀ i ∈ l, x.start ≤ i.start) :
    Canonical ((absorb x l).1 :: (absorb x l).2) ∧ (absorb x l).1.start = x.start := by
  induction l generalizing x with
  | nil =>
    refine ⟨⟨?_, ?_⟩, rfl⟩
    · intro i hi; simp [absorb] at hi; subst hi; exact hx
    · simp [absorb]
  | cons y ys ih =>
    obtain ⟨hv, hp⟩ := hc
    have hp' := List.pairwise_cons.1 hp
    have hy := hv y (by simp)
    have hyb := hlb y (by simp)
    have hxy := hs y (by simp)
    have hcys : Canonical ys := ⟨fun i hi => hv i (by simp [hi]), hp'.2⟩
    simp only [absorb]
    split
    · next hm =>
      have htouch := canMerge_touch hm
      have := ih (mergeIntervals x y) (by simp only [mergeIntervals]; omega)
        (by simp only [mergeIntervals]; omega) (fun i hi => hlb i (by simp [hi])) hcys
        (by
          intro i hi
          have := hs i (by simp [hi])
          simp only [mergeIntervals]; omega)
      refine ⟨this.1, this.2.trans ?_⟩
      simp only [mergeIntervals]; omega
    · next hm =>
      refine ⟨⟨?_, ?_⟩, rfl⟩
      · intro i hi
        rcases List.mem_cons.1 hi with rfl | hi
        · exact hx
        · exact hv i hi
      · rw [List.pairwise_cons]
        refine ⟨?_, hp⟩
        have hgap : x.stop + 1 < y.start := by
          simp only [canMerge, Bool.and_eq_true, decide_eq_true_eq, inc64_eq hxb, inc64_eq hyb] at hm
          omega
        intro i hi
        rcases List.mem_cons.1 hi with rfl | hi
        · exact hgap
        · have := hp'.1 i hi
          show x.stop + 1 < i.start
          omega

theorem canonical_append {a b : List Interval} (ha : Canonical a) (hb : Canonical b)
    (h : ∀ i ∈ a, ∀ j ∈ b, i.stop + 1 < j.start) : Canonical (a ++ b) := by
  refine ⟨?_, ?_⟩
  · intro i hi
    rcases List.mem_append.1 hi with hi | hi
    · exact ha.1 i hi
    · exact hb.1 i hi
  · rw [List.pairwise_append]
    exact ⟨ha.2, hb.2, h⟩

theorem Canonical.sublist {a b : List Interval} (hb : Canonical b) (h : a.Sublist b) : Canonical a :=
  ⟨fun i hi => hb.1 i (h.subset hi), hb.2.sublist h⟩

theorem appendInterval_canonical (l : List Interval) (x : Interval) (hc : Canonical l)
    (hx : x.start ≤ x.stop) (hxb : x.stop + 1 < W) (hlb : ∀ i ∈ l, i.stop + 1 < W) :
    Canonical (appendInterval l x) := by
  have hle := searchIdx_le l x
  have hsp := searchIdx_spec hc x
  have htd := hc.2
  rw [appendInterval_eq]
  split
  · next h =>
    simp only [Bool.and_eq_true, decide_eq_true_eq] at h
    obtain ⟨_, _, h3⟩ := eraseIdx_take_drop l (searchIdx l x - 1) (by omega)
    have hk : searchIdx l x - 1 + 1 = searchIdx l x := by omega
    rw [hk] at h3
    generalize hpd : l.getD (searchIdx l x - 1) default = p at *
    rw [h3, List.pairwise_append, List.pairwise_cons] at htd
    have hpm : p ∈ l := by rw [h3]; simp
    have hpv := hc.1 p hpm
    have hpb := hlb p hpm
    have hpx : p.start < x.start := by
      apply hsp.1
      have : p ∈ l.take (searchIdx l x) := by
        rw [List.mem_take_iff_getElem]
        refine ⟨searchIdx l x - 1, by omega, ?_⟩
        rw [← hpd, getD_mem_lt (by omega)]
      exact this
    have htouch := canMerge_touch h.2
    have hA := absorb_canonical (mergeIntervals p x) (l.drop (searchIdx l x))
      (by simp only [mergeIntervals]; omega) (by simp only [mergeIntervals]; omega)
      (fun i hi => hlb i (List.mem_of_mem_drop hi)) (hc.sublist (List.drop_sublist _ _))
      (by intro i hi; have := hsp.2 i hi; simp only [mergeIntervals]; omega)
    apply canonical_append (hc.sublist (List.take_sublist _ _)) hA.1
    intro i hi j hj
    have h1 := htd.2.2 i hi p (by simp)
    have hst : (mergeIntervals p x).start = p.start := by simp only [mergeIntervals]; omega
    have h2 : p.start ≤ j.start := by
      rw [← hst, ← hA.2]
      rcases List.mem_cons.1 hj with rfl | hj
      · exact Nat.le_refl _
      · have := (List.pairwise_cons.1 hA.1.2).1 j hj
        have := hA.1.1 _ (List.mem_cons_self)
        omega
    omega
  · next h =>
    have hA := absorb_canonical x (l.drop (searchIdx l x)) hx hxb
      (fun i hi => hlb i (List.mem_of_mem_drop hi)) (hc.sublist (List.drop_sublist _ _)) hsp.2
    apply canonical_append (hc.sublist (List.take_sublist _ _)) hA.1
    -- the elements of the prefix end before x.start - 1
    have key : ∀ i ∈ l.take (searchIdx l x), i.stop + 1 < x.start := by
      intro i hi
      have his := hsp.1 i hi
      by_cases h0 : searchIdx l x = 0
      · rw [h0] at hi; simp at hi
      · have hlt : searchIdx l x - 1 < l.length := by omega
        simp only [Bool.and_eq_true, decide_eq_true_eq, not_and, getD_mem_lt hlt] at h
        have h' := h (by omega)
        have hlast : l[searchIdx l x - 1].stop + 1 < x.start := by
          have hmem : l[searchIdx l x - 1] ∈ l := List.getElem_mem hlt
          have hb := hlb _ hmem
          have hs : l[searchIdx l x - 1].start < x.start := by
            apply hsp.1
            rw [List.mem_take_iff_getElem]
            exact ⟨searchIdx l x - 1, by omega, rfl⟩
          simp only [canMerge, Bool.and_eq_true, decide_eq_true_eq, inc64_eq hb, inc64_eq hxb] at h'
          omega
        rw [List.mem_take_iff_getElem] at hi
        obtain ⟨k, hk, rfl⟩ := hi
        by_cases hkk : k = searchIdx l x - 1
        · subst hkk; exact hlast
        · have := (List.pairwise_iff_getElem.1 hc.2) k (searchIdx l x - 1) (by omega) hlt (by omega)
          have := hc.1 _ (List.getElem_mem hlt)
          omega
    intro i hi j hj
    have h1 := key i hi
    have h2 : x.start ≤ j.start := by
      rw [← hA.2]
      rcases List.mem_cons.1 hj with rfl | hj
      · exact Nat.le_refl _
      · have := (List.pairwise_cons.1 hA.1.2).1 j hj
        have := hA.1.1 _ (List.mem_cons_self)
        omega
    omega

theorem appendInterval_bound (l : List Interval) (x : Interval) (hc : ∀ i ∈ l, i.Valid) (hx : x.Valid)
    (hxb : x.stop + 1 < W) (hlb : ∀ i ∈ l, i.stop + 1 < W) :
    ∀ i ∈ appendInterval l x, i.stop + 1 < W := by
  intro i hi
  have hiv := appendInterval_valid l x hx hc i hi
  have : Covered (appendInterval l x) i.stop := ⟨i, hi, hiv.1, Nat.le_refl _⟩
  rw [appendInterval_covered l x hx hc] at this
  rcases this with ⟨j, hj, hj'⟩ | h
  · have := hlb j hj; have := hj'.2; omega
  · have := h.2; omega

/-- Two canonical lists covering the same indices are equal. -/
theorem canonical_unique {a b : List Interval} (ha : Canonical a) (hb : Canonical b)
    (h : ∀ n, Covered a n ↔ Covered b n) : a = b := by
  induction a generalizing b with
  | nil =>
    cases b with
    | nil => rfl
    | cons y ys =>
      have : Covered (y :: ys) y.start := ⟨y, by simp, Nat.le_refl _, hb.1 y (by simp)⟩
      rw [← h] at this
      obtain ⟨i, hi, _⟩ := this
      simp at hi
  | cons x xs ih =>
    cases b with
    | nil =>
      have : Covered (x :: xs) x.start := ⟨x, by simp, Nat.le_refl _, ha.1 x (by simp)⟩
      rw [h] at this
      obtain ⟨i, hi, _⟩ := this
      simp at hi
    | cons y ys =>
      have hxv := ha.1 x (by simp)
      have hyv := hb.1 y (by simp)
      have hxp := (List.pairwise_cons.1 ha.2).1
      have hyp := (List.pairwise_cons.1 hb.2).1
      have hcx : ∀ n, n < x.start → ¬ Covered (x :: xs) n := by
        rintro n hn ⟨i, hi, hi'⟩
        rcases List.mem_cons.1 hi with rfl | hi
        · have := hi'.1; omega
        · have := hxp i hi; have := hi'.1; omega
      have hcy : ∀ n, n < y.start → ¬ Covered (y :: ys) n := by
        rintro n hn ⟨i, hi, hi'⟩
        rcases List.mem_cons.1 hi with rfl | hi
        · have := hi'.1; omega
        · have := hyp i hi; have := hi'.1; omega
      have hex : Covered (x :: xs) x.start := ⟨x, by simp, Nat.le_refl _, hxv⟩
      have hey : Covered (y :: ys) y.start := ⟨y, by simp, Nat.le_refl _, hyv⟩
      have hstart : x.start = y.start := by
        rcases Nat.lt_trichotomy x.start y.start with hlt | heq | hgt
        · exact absurd ((h _).1 hex) (hcy _ hlt)
        · exact heq
        · exact absurd ((h _).2 hey) (hcx _ hgt)
      have hnx : ¬ Covered (x :: xs) (x.stop + 1) := by
        rintro ⟨i, hi, hi'⟩
        rcases List.mem_cons.1 hi with rfl | hi
        · have := hi'.2; omega
        · have := hxp i hi; have := hi'.1; omega
      have hny : ¬ Covered (y :: ys) (y.stop + 1) := by
        rintro ⟨i, hi, hi'⟩
        rcases List.mem_cons.1 hi with rfl | hi
        · have := hi'.2; omega
        · have := hyp i hi; have := hi'.1; omega
      have hstop : x.stop = y.stop := by
        rcases Nat.lt_trichotomy x.stop y.stop with hlt | heq | hgt
        · exfalso; apply hnx; rw [h]; exact ⟨y, by simp, by omega, by omega⟩
        · exact heq
        · exfalso; apply hny; rw [← h]; exact ⟨x, by simp, by omega, by omega⟩
      have hxy : x = y := by cases x; cases y; simp_all
      subst hxy
      congr 1
      apply ih (ha.sublist (List.sublist_cons_self _ _)) (hb.sublist (List.sublist_cons_self _ _))
      intro n
      have hn := h n
      rw [covered_cons, covered_cons] at hn
      constructor
      · intro hc
        rcases hn.1 (Or.inr hc) with h1 | h1
        · obtain ⟨i, hi, hi'⟩ := hc
          have := hxp i hi; have := hi'.1; have := h1.2; omega
        · exact h1
      · intro hc
        rcases hn.2 (Or.inr hc) with h1 | h1
        · obtain ⟨i, hi, hi'⟩ := hc
          have := hyp i hi; have := hi'.1; have := h1.2; omega
        · exact h1

theorem normalizeList_spec (acc l r : List Interval) (hacc : ∀ i ∈ acc, i.Valid)
    (hl : ∀ i ∈ l, i.stop < W) (h : normalizeList acc l = some r) :
    (∀ i ∈ l, i.start ≤ i.stop) ∧ (∀ i ∈ r, i.Valid) ∧
    ∀ n, Covered r n ↔ Covered acc n ∨ Covered l n := by
  induction l generalizing acc with
  | nil =>
    simp only [normalizeList, Option.some.injEq] at h
    subst h
    exact ⟨by simp, hacc, by simp [Covered]⟩
  | cons x xs ih =>
    simp only [normalizeList] at h
    split at h
    · simp at h
    · next hx =>
      have hxv : x.Valid := ⟨by omega, hl x (by simp)⟩
      have := ih _ (appendInterval_valid acc x hxv hacc) (fun i hi => hl i (by simp [hi])) h
      refine ⟨?_, this.2.1, ?_⟩
      · intro i hi
        rcases List.mem_cons.1 hi with rfl | hi
        · exact hxv.1
        · exact this.1 i hi
      · intro n
        rw [this.2.2, appendInterval_covered _ _ hxv hacc, covered_cons, or_assoc]

theorem normalizeList_canonical (acc l r : List Interval) (hacc : Canonical acc)
    (hb : ∀ i ∈ acc, i.stop + 1 < W) (hl : ∀ i ∈ l, i.stop + 1 < W)
    (h : normalizeList acc l = some r) : Canonical r := by
  induction l generalizing acc with
  | nil =>
    simp only [normalizeList, Option.some.injEq] at h
    subst h; exact hacc
  | cons x xs ih =>
    simp only [normalizeList] at h
    split at h
    · simp at h
    · next hx =>
      have hxb := hl x (by simp)
      exact ih _ (appendInterval_canonical acc x hacc (by omega) hxb hb)
        (appendInterval_bound acc x (fun i hi => ⟨hacc.1 i hi, by have := hb i hi; omega⟩)
          ⟨by omega, by omega⟩ hxb hb) (fun i hi => hl i (by simp [hi])) h

theorem containsInterval_iff (l : List Interval) (hc : Canonical l) (x : Interval)
    (hx : x.start ≤ x.stop) :
    containsInterval l x = true ↔ ∀ n, x.Has n → Covered l n := by
  have hle := searchIdx_le l x
  have hsp := searchIdx_spec hc x
  -- containment of all indices is containment in a single interval
  have single : (∀ n, x.Has n → Covered l n) ↔ ∃ i ∈ l, i.start ≤ x.start ∧ x.stop ≤ i.stop := by
    constructor
    · intro h
      obtain ⟨i, hi, hi'⟩ := h x.start ⟨Nat.le_refl _, hx⟩
      refine ⟨i, hi, hi'.1, ?_⟩
      refine Nat.le_of_not_lt fun hlt => ?_
      obtain ⟨j, hj, hj'⟩ := h (i.stop + 1) ⟨by have := hi'.2; omega, by omega⟩
      obtain ⟨ki, hki, rfl⟩ := List.getElem_of_mem hi
      obtain ⟨kj, hkj, rfl⟩ := List.getElem_of_mem hj
      have hp := List.pairwise_iff_getElem.1 hc.2
      have hj1 := hj'.1; have hj2 := hj'.2
      have hvi := hc.1 _ hi; have hvj := hc.1 _ hj
      rcases Nat.lt_trichotomy ki kj with h1 | h1 | h1
      · have := hp ki kj hki hkj h1; omega
      · subst h1; omega
      · have := hp kj ki hkj hki h1; omega
    · rintro ⟨i, hi, h1, h2⟩ n hn
      exact ⟨i, hi, by have := hn.1; omega, by have := hn.2; omega⟩
  rw [single]
  unfold containsInterval
  simp only [Bool.and_eq_true, decide_eq_true_eq, beq_iff_eq]
  have hs := List.pairwise_iff_getElem.1 hc.starts
  have h1 : ∀ k, (h : k < l.length) → k < searchIdx l x → l[k].start < x.start := fun k h hk =>
    hsp.1 _ (by rw [List.mem_take_iff_getElem]; exact ⟨k, by omega, rfl⟩)
  have h2 : ∀ k, (h : k < l.length) → searchIdx l x ≤ k → x.start ≤ l[k].start := fun k h hk =>
    hsp.2 _ (by
      rw [List.mem_drop_iff_getElem]
      exact ⟨k - searchIdx l x, by omega, by congr 1; omega⟩)
  split
  · next h =>
    obtain ⟨hlt, heq⟩ := h
    rw [getD_mem_lt hlt] at heq ⊢
    simp only [decide_eq_true_eq]
    constructor
    · intro hge
      exact ⟨_, List.getElem_mem hlt, by omega, hge⟩
    · rintro ⟨i, hi, hi1, hi2⟩
      obtain ⟨k, hk, rfl⟩ := List.getElem_of_mem hi
      rcases Nat.lt_trichotomy k (searchIdx l x) with h3 | h3 | h3
      · have := List.pairwise_iff_getElem.1 hc.2 k _ hk hlt h3; omega
      · subst h3; exact hi2
      · have := hs _ k hlt hk h3; omega
  · next h =>
    have hno : ∀ k, (hk : k < l.length) → l[k].start ≤ x.start → k < searchIdx l x := by
      intro k hk hks
      refine Nat.lt_of_not_le fun hge => ?_
      have hk2 := h2 k hk hge
      rcases Nat.lt_or_eq_of_le hge with h3 | h3
      · have hsl : searchIdx l x < l.length := by omega
        have := hs _ k hsl hk h3
        have := h2 _ hsl (Nat.le_refl _)
        omega
      · apply h
        refine ⟨by omega, ?_⟩
        rw [getD_mem_lt (by omega)]
        have : l[searchIdx l x]'(by omega) = l[k] := by congr 1
        rw [this]; omega
    split
    · next h0 =>
      simp only [Bool.false_eq_true, false_iff]
      rintro ⟨i, hi, hi1, _⟩
      obtain ⟨k, hk, rfl⟩ := List.getElem_of_mem hi
      have := hno k hk hi1
      omega
    · next h0 =>
      have hlt : searchIdx l x - 1 < l.length := by omega
      rw [getD_mem_lt hlt]
      simp only [Bool.and_eq_true, decide_eq_true_eq]
      constructor
      · rintro ⟨h3, h4⟩
        exact ⟨_, List.getElem_mem hlt, h3, h4⟩
      · rintro ⟨i, hi, hi1, hi2⟩
        obtain ⟨k, hk, rfl⟩ := List.getElem_of_mem hi
        have hkl := hno k hk hi1
        have hst := h1 _ hlt (by omega)
        rcases Nat.lt_or_eq_of_le (show k ≤ searchIdx l x - 1 by omega) with h3 | h3
        · have := List.pairwise_iff_getElem.1 hc.2 k _ hk hlt h3; omega
        · subst h3; exact ⟨hi1, hi2⟩

end Fpki.Journal
