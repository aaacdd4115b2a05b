import Mathlib.Algebra.Order.Field.Rat
import Mathlib.Data.List.Sort
import Mathlib.Tactic.Linarith
import Mathlib.Tactic.FieldSimp
import Mathlib.Tactic.NormNum
import Mathlib.Tactic.Ring
import Verif.Model.BenchStats

/-!
# C194: the numbers printed by the benchmark
-/
namespace Fpki.BenchStats

/-! ## Percentiles -/

theorem sortNat_perm (l : List Nat) : (sortNat l).Perm l := List.mergeSort_perm _ _

theorem sortNat_sorted (l : List Nat) : (sortNat l).Pairwise (· ≤ ·) := by
  have := List.pairwise_mergeSort (le := fun a b : Nat => decide (a ≤ b)) (by intro a b c h1 h2; simp only [decide_eq_true_eq] at *; omega)
    (by intro a b; simp only [Bool.or_eq_true, decide_eq_true_eq]; omega) l
  exact this.imp (by intro a b h; simpa using h)

theorem countP_all {q : Nat → Bool} {l : List Nat} (h : ∀ x ∈ l, q x = true) : l.countP q = l.length := List.countP_eq_length.2 h

theorem below_index {s : List Nat} (hs : s.Pairwise (· ≤ ·)) {i : Nat} (hi : i < s.length) : i + 1 ≤ s.countP (fun v => decide (v ≤ s[i])) := by
  have h1 : (s.take (i + 1)).countP (fun v => decide (v ≤ s[i])) = i + 1 := by
    rw [countP_all, List.length_take]
    · omega
    · intro x hx
      obtain ⟨j, hj, rfl⟩ := List.mem_iff_getElem.1 hx
      rw [List.length_take] at hj
      rw [List.getElem_take, decide_eq_true_eq]
      rcases Nat.lt_or_ge j i with h | h
      · exact List.pairwise_iff_getElem.1 hs j i (by omega) hi h
      · have : j = i := by omega
        subst this; exact le_rfl
  have h2 := List.countP_append (p := fun v => decide (v ≤ s[i])) (l₁ := s.take (i + 1)) (l₂ := s.drop (i + 1))
  rw [List.take_append_drop] at h2
  omega

theorem above_index {s : List Nat} (hs : s.Pairwise (· ≤ ·)) {i : Nat} (hi : i < s.length) : s.length - i ≤ s.countP (fun v => decide (s[i] ≤ v)) := by
  have h1 : (s.drop i).countP (fun v => decide (s[i] ≤ v)) = s.length - i := by
    rw [countP_all, List.length_drop]
    intro x hx
    obtain ⟨j, hj, rfl⟩ := List.mem_iff_getElem.1 hx
    rw [List.length_drop] at hj
    rw [List.getElem_drop, decide_eq_true_eq]
    rcases Nat.eq_zero_or_pos j with rfl | h
    · exact le_rfl
    · exact List.pairwise_iff_getElem.1 hs i (i + j) hi (by omega) (by omega)
  have h2 := List.countP_append (p := fun v => decide (s[i] ≤ v)) (l₁ := s.take i) (l₂ := s.drop i)
  rw [List.take_append_drop] at h2
  omega

theorem between_index {s : List Nat} (hs : s.Pairwise (· ≤ ·)) {i j : Nat} (hij : i ≤ j) (hj : j < s.length) :
    j - i + 1 ≤ s.countP (fun v => decide (s[i]'(by omega) ≤ v ∧ v ≤ s[j])) := by
  have h1 : ((s.drop i).take (j - i + 1)).countP (fun v => decide (s[i]'(by omega) ≤ v ∧ v ≤ s[j])) = j - i + 1 := by
    rw [countP_all, List.length_take, List.length_drop]
    · omega
    · intro x hx
      obtain ⟨k, hk, rfl⟩ := List.mem_iff_getElem.1 hx
      rw [List.length_take, List.length_drop] at hk
      rw [List.getElem_take, List.getElem_drop, decide_eq_true_eq]
      constructor
      · rcases Nat.eq_zero_or_pos k with rfl | h
        · exact le_rfl
        · exact List.pairwise_iff_getElem.1 hs i (i + k) (by omega) (by omega) (by omega)
      · rcases Nat.lt_or_ge (i + k) j with h | h
        · exact List.pairwise_iff_getElem.1 hs (i + k) j (by omega) hj h
        · have : i + k = j := by omega
          subst this; exact le_rfl
  have h2 : ((s.drop i).take (j - i + 1)).Sublist s := (List.take_sublist _ _).trans (List.drop_sublist _ _)
  have := h2.countP_le (p := fun v => decide (s[i]'(by omega) ≤ v ∧ v ≤ s[j]))
  omega

theorem percentile_get {s : List Nat} (h : s ≠ []) (k : Nat) : ∃ hi : percentileIndex k s.length < s.length, percentileDuration s k = s[percentileIndex k s.length] := by
  have hl := List.length_pos_iff.2 h
  have hi : percentileIndex k s.length < s.length := by
    unfold percentileIndex
    dsimp only
    split <;> omega
  refine ⟨hi, ?_⟩
  match s, h with
  | [x], _ =>
    have : percentileIndex k [x].length = 0 := by unfold percentileIndex; dsimp only [List.length_cons, List.length_nil]; split <;> omega
    simp [this, percentileDuration]
  | x :: y :: s, _ =>
    unfold percentileDuration
    rw [List.getD_eq_getElem?_getD, List.getElem?_eq_getElem hi]
    rfl

theorem sortNat_ne {l : List Nat} (h : l ≠ []) : sortNat l ≠ [] := by
  intro e
  have := (sortNat_perm l).length_eq
  rw [e] at this
  exact h (List.length_eq_zero_iff.1 this.symm)

/-- C194: the median that is printed is one of the values, and at least half of the values are not above it and at least half not below it. -/
theorem C194_median (values : List Nat) (h : values ≠ []) : medianDuration values ∈ values ∧
    values.length ≤ 2 * values.countP (fun v => decide (v ≤ medianDuration values)) ∧ values.length ≤ 2 * values.countP (fun v => decide (medianDuration values ≤ v)) := by
  have hl := List.length_pos_iff.2 h
  obtain ⟨hi, he⟩ := percentile_get (sortNat_ne h) 2
  have hm : medianDuration values = (sortNat values)[percentileIndex 2 (sortNat values).length] := by
    unfold medianDuration
    rw [if_neg (by omega), he]
  have hlen := (sortNat_perm values).length_eq
  rw [hm]
  refine ⟨(sortNat_perm values).mem_iff.1 (List.getElem_mem hi), ?_, ?_⟩
  · rw [← (sortNat_perm values).countP_eq]
    have := below_index (sortNat_sorted values) hi
    have h2 : values.length ≤ 2 * (percentileIndex 2 (sortNat values).length + 1) := by
      rw [hlen]; unfold percentileIndex; dsimp only; split <;> omega
    omega
  · rw [← (sortNat_perm values).countP_eq]
    have := above_index (sortNat_sorted values) hi
    have h2 : values.length ≤ 2 * ((sortNat values).length - percentileIndex 2 (sortNat values).length) := by
      rw [hlen]; unfold percentileIndex; dsimp only; split <;> omega
    omega

example : medianDuration [9, 3, 5] = 5 ∧ medianDuration [4, 1] = 4 := by
  constructor <;> simp [medianDuration, sortNat, percentileDuration, percentileIndex, List.mergeSort, List.MergeSort.Internal.splitInTwo, List.merge]

/-- C194: the interquartile range is not negative and the difference of two of the values: at least a quarter of the values are not above the lower one, at least a quarter not below the upper one, and
half of the values (but for one half of a value) lie between them. -/
theorem C194_iqr (values : List Nat) (h : values ≠ []) : ∃ q1 ∈ values, ∃ q3 ∈ values, q1 ≤ q3 ∧ iqrDuration values = (q3 : Int) - q1 ∧
    values.length ≤ 4 * values.countP (fun v => decide (v ≤ q1)) ∧ values.length ≤ 4 * values.countP (fun v => decide (q3 ≤ v)) ∧
    values.length ≤ 2 * values.countP (fun v => decide (q1 ≤ v ∧ v ≤ q3)) + 1 := by
  have hl := List.length_pos_iff.2 h
  obtain ⟨hi, he⟩ := percentile_get (sortNat_ne h) 1
  obtain ⟨hj, hf⟩ := percentile_get (sortNat_ne h) 3
  have hlen := (sortNat_perm values).length_eq
  have e1 : percentileIndex 1 (sortNat values).length = (2 * (values.length - 1) + 4) / 8 := by
    rw [hlen]; unfold percentileIndex; dsimp only; split <;> omega
  have e3 : percentileIndex 3 (sortNat values).length = (6 * (values.length - 1) + 4) / 8 := by
    rw [hlen]; unfold percentileIndex; dsimp only; split <;> omega
  have hij : percentileIndex 1 (sortNat values).length ≤ percentileIndex 3 (sortNat values).length := by omega
  refine ⟨_, (sortNat_perm values).mem_iff.1 (List.getElem_mem hi), _, (sortNat_perm values).mem_iff.1 (List.getElem_mem hj), ?_, ?_, ?_, ?_, ?_⟩
  · rcases Nat.lt_or_ge (percentileIndex 1 (sortNat values).length) (percentileIndex 3 (sortNat values).length) with h | h
    · exact List.pairwise_iff_getElem.1 (sortNat_sorted values) _ _ hi hj h
    · simp only [Nat.le_antisymm hij h]; exact le_rfl
  · unfold iqrDuration
    rw [if_neg (by omega), he, hf]
  · rw [← (sortNat_perm values).countP_eq]
    have := below_index (sortNat_sorted values) hi
    omega
  · rw [← (sortNat_perm values).countP_eq]
    have := above_index (sortNat_sorted values) hj
    omega
  · rw [← (sortNat_perm values).countP_eq]
    have := between_index (sortNat_sorted values) hij hj
    omega

/-! ## The order of the runs -/

/-- The two results of a pair. -/
theorem pair_step (size : Bytes) (run : Nat → Nat → Which → Option Nat) (pair : Nat) (acc out : List Result) (v w : Which) (e : pairOrder pair = [v, w])
    (h : ((pairOrder pair).zipIdx).foldlM (fun results v => (run pair v.2 v.1).map (fun e => results ++ [(⟨size, v.1, e⟩ : Result)])) acc = some out) :
    ∃ x y, run pair 0 v = some x ∧ run pair 1 w = some y ∧ out = acc ++ [⟨size, v, x⟩, ⟨size, w, y⟩] := by
  rw [e] at h
  simp only [List.zipIdx_cons, List.zipIdx_nil, List.foldlM_cons, List.foldlM_nil] at h
  cases h1 : run pair 0 v with
  | none => rw [h1] at h; cases h
  | some x =>
    rw [h1] at h
    simp only [Option.map_some, Option.bind_eq_bind, Option.bind_some] at h
    cases h2 : run pair (0 + 1) w with
    | none => rw [h2] at h; cases h
    | some y =>
      rw [h2] at h
      simp only [Option.map_some, Option.bind_some, pure, Option.some.injEq] at h
      exact ⟨x, y, rfl, rfl, by rw [← h]; simp⟩

/-- C194: if no run fails, every variant has been measured exactly `pairs` times for the size, and the variant that goes first alternates, beginning with the old one; every result is that of
its own run. -/
theorem C194_pairs (size : Bytes) (run : Nat → Nat → Which → Option Nat) (pairs : Nat) (results : List Result) (h : runMeasuredPairs size run pairs = some results) :
    results.length = 2 * pairs ∧ (∀ v, (grouped results size v).length = pairs) ∧
    ∀ i < pairs, ∃ x y, run i 0 (if i % 2 = 0 then .old else .new) = some x ∧ run i 1 (if i % 2 = 0 then .new else .old) = some y ∧
      results[2 * i]? = some ⟨size, if i % 2 = 0 then .old else .new, x⟩ ∧ results[2 * i + 1]? = some ⟨size, if i % 2 = 0 then .new else .old, y⟩ := by
  unfold runMeasuredPairs at h
  induction pairs generalizing results with
  | zero => cases h; exact ⟨rfl, fun _ => rfl, fun i hi => absurd hi (Nat.not_lt_zero i)⟩
  | succ n ih =>
    rw [List.range_succ, List.foldlM_append] at h
    cases h1 : (List.range n).foldlM (fun results pair =>
        ((pairOrder pair).zipIdx).foldlM (fun results v => (run pair v.2 v.1).map (fun e => results ++ [(⟨size, v.1, e⟩ : Result)])) results) ([] : List Result) with
    | none => rw [h1] at h; cases h
    | some acc =>
      rw [h1] at h
      simp only [List.foldlM_cons, List.foldlM_nil, Option.bind_eq_bind, Option.bind_some, bind_pure] at h
      have ho : pairOrder n = [if n % 2 = 0 then .old else .new, if n % 2 = 0 then .new else .old] := by
        unfold pairOrder; split <;> rfl
      obtain ⟨x, y, hx, hy, rfl⟩ := pair_step size run n acc results _ _ ho h
      obtain ⟨i1, i2, i3⟩ := ih acc h1
      refine ⟨by rw [List.length_append, i1]; simp; omega, ?_, ?_⟩
      · intro v
        unfold grouped at i2 ⊢
        rw [List.filter_append, List.length_append, i2 v]
        by_cases h0 : n % 2 = 0 <;> cases v <;> simp [h0, List.filter_cons]
      · intro i hi
        rcases Nat.lt_or_ge i n with h | h
        · rw [List.getElem?_append_left (by omega), List.getElem?_append_left (by omega)]
          exact i3 i h
        · have : i = n := by omega
          subst this
          refine ⟨x, y, hx, hy, ?_, ?_⟩
          · rw [List.getElem?_append_right (by omega), i1, Nat.sub_self]
            rfl
          · rw [List.getElem?_append_right (by omega), i1]
            have e2 : 2 * i + 1 - 2 * i = 1 := by omega
            rw [e2]
            rfl

example : (runMeasuredPairs [0x73] (fun p s _ => some (p + s + 1)) 3).map List.length = some 6 := by decide

/-! ## The comparison -/

/-- C194: "new vs old" is positive exactly if the new median is smaller, and it is the part by which it is smaller, in percent. It is printed for exactly the sizes for which both medians are
known. -/
theorem C194_faster (results : List Result) (sizes : List Bytes) (size : Bytes) (o n : Nat) (q : Rat) (h : (size, o, n, q) ∈ buildPairDeltas results sizes) :
    o = groupMedian results size .old ∧ n = groupMedian results size .new ∧ 0 < o ∧ 0 < n ∧ (0 < q ↔ n < o) ∧ (n : Rat) = o * (1 - q / 100) := by
  unfold buildPairDeltas at h
  obtain ⟨s, hs, he⟩ := List.mem_filterMap.1 h
  dsimp only at he
  split at he
  · cases he
  · rename_i hne
    rw [not_or] at hne
    simp only [Option.some.injEq, Prod.mk.injEq] at he
    obtain ⟨rfl, rfl, rfl, rfl⟩ := he
    have hO : 0 < groupMedian results s .old := Nat.pos_of_ne_zero hne.1
    have hN : 0 < groupMedian results s .new := Nat.pos_of_ne_zero hne.2
    generalize groupMedian results s .old = O at hO
    generalize groupMedian results s .new = N at hN
    have hOq : (0 : Rat) < (O : Rat) := by exact_mod_cast hO
    refine ⟨rfl, rfl, hO, hN, ?_, ?_⟩
    · constructor
      · intro hq
        by_contra hc
        have hle : ((((O : Int) - (N : Int) : Int)) : Rat) ≤ 0 := by
          have : (O : Int) - N ≤ 0 := by omega
          exact_mod_cast this
        have := div_nonpos_of_nonpos_of_nonneg hle hOq.le
        linarith
      · intro hlt
        have hpos : (0 : Rat) < ((((O : Int) - (N : Int) : Int)) : Rat) := by
          have : (0 : Int) < (O : Int) - N := by omega
          exact_mod_cast this
        have := div_pos hpos hOq
        linarith
    · push_cast
      field_simp
      ring

/-- C194: and it is printed if both are known. -/
theorem C194_printed (results : List Result) (sizes : List Bytes) (size : Bytes) (hs : size ∈ sizes) (ho : 0 < groupMedian results size .old) (hn : 0 < groupMedian results size .new) :
    ∃ q, (size, groupMedian results size .old, groupMedian results size .new, q) ∈ buildPairDeltas results sizes := by
  refine ⟨(((groupMedian results size .old : Int) - (groupMedian results size .new : Int) : Int) : Rat) / (groupMedian results size .old : Rat) * 100, ?_⟩
  unfold buildPairDeltas
  refine List.mem_filterMap.2 ⟨size, hs, ?_⟩
  dsimp only
  rw [if_neg (by omega)]

/-- Non-vacuity: the old variant took 4, the new one 3; the new one is 25 percent faster. -/
example : buildPairDeltas [⟨[0x73], .old, 4⟩, ⟨[0x73], .new, 3⟩] [[0x73], [0x74]] = [([0x73], 4, 3, 25)] := by
  have h1 : groupMedian [⟨[0x73], .old, 4⟩, ⟨[0x73], .new, 3⟩] [0x73] .old = 4 := by
    simp [groupMedian, grouped, medianDuration, sortNat, percentileDuration]
  have h2 : groupMedian [⟨[0x73], .old, 4⟩, ⟨[0x73], .new, 3⟩] [0x73] .new = 3 := by
    simp [groupMedian, grouped, medianDuration, sortNat, percentileDuration]
  have h3 : groupMedian [⟨[0x73], .old, 4⟩, ⟨[0x73], .new, 3⟩] [0x74] .old = 0 := by
    simp [groupMedian, grouped, medianDuration]
  unfold buildPairDeltas
  simp only [List.filterMap_cons, List.filterMap_nil, h1, h2, h3]
  norm_num

end Fpki.BenchStats
