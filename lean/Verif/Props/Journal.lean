import Verif.Lemmas.Journal

/-!
# Properties C28, C29 (journal interval set)

Specification vocabulary (in `Verif/Lemmas/Journal.lean`): `Interval.Has x n` — index `n` lies in
`x`; `Covered l n` — some interval of `l` has `n`; `Interval.Valid` — non-inverted and 64 bit;
`Canonical l` — non-inverted, and every interval ends at least two before the next one starts.
-/
namespace Fpki.Journal

/-- C28, coverage: adding an interval covers exactly the union, for every stored list (sorted or
not) and every 64-bit interval. -/
theorem C28_append_covers_union (l : List Interval) (x : Interval)
    (hl : ∀ i ∈ l, i.start ≤ i.stop ∧ i.stop < 2 ^ 64) (hx : x.start ≤ x.stop ∧ x.stop < 2 ^ 64) :
    ∀ n, (∃ i ∈ appendInterval l x, i.start ≤ n ∧ n ≤ i.stop) ↔
      (∃ i ∈ l, i.start ≤ n ∧ n ≤ i.stop) ∨ (x.start ≤ n ∧ n ≤ x.stop) :=
  fun n => appendInterval_covered l x hx hl n

/-- C28, canonical form. Missing for the full statement: intervals ending at 2^64-1, see
`C28_canonical_violated`. -/
theorem C28_append_canonical_partial (l : List Interval) (x : Interval) (hc : Canonical l)
    (hx : x.start ≤ x.stop) (hxb : x.stop < 2 ^ 64 - 1) (hlb : ∀ i ∈ l, i.stop < 2 ^ 64 - 1) :
    Canonical (appendInterval l x) ∧ ∀ i ∈ appendInterval l x, i.stop < 2 ^ 64 - 1 := by
  have h1 : x.stop + 1 < W := by simp only [W]; omega
  have h2 : ∀ i ∈ l, i.stop + 1 < W := fun i hi => by have := hlb i hi; simp only [W]; omega
  refine ⟨appendInterval_canonical l x hc hx h1 h2, fun i hi => ?_⟩
  have := appendInterval_bound l x (fun i hi => ⟨hc.1 i hi, by have := h2 i hi; omega⟩)
    ⟨hx, by omega⟩ h1 h2 i hi
  simp only [W] at this
  omega

/-- C28, minimality: a canonical list is the only canonical list covering its indices, so no
shorter or differently ordered canonical list exists. -/
theorem C28_canonical_unique (a b : List Interval) (ha : Canonical a) (hb : Canonical b)
    (h : ∀ n, (∃ i ∈ a, i.start ≤ n ∧ n ≤ i.stop) ↔ (∃ i ∈ b, i.start ≤ n ∧ n ≤ i.stop)) : a = b :=
  canonical_unique ha hb h

/-- C28: the order in which intervals are added does not matter. -/
theorem C28_append_commutes (l : List Interval) (x y : Interval) (hc : Canonical l)
    (hlb : ∀ i ∈ l, i.stop < 2 ^ 64 - 1) (hx : x.start ≤ x.stop) (hxb : x.stop < 2 ^ 64 - 1)
    (hy : y.start ≤ y.stop) (hyb : y.stop < 2 ^ 64 - 1) :
    appendInterval (appendInterval l x) y = appendInterval (appendInterval l y) x := by
  obtain ⟨c1, b1⟩ := C28_append_canonical_partial l x hc hx hxb hlb
  obtain ⟨c2, b2⟩ := C28_append_canonical_partial l y hc hy hyb hlb
  obtain ⟨c3, _⟩ := C28_append_canonical_partial _ y c1 hy hyb b1
  obtain ⟨c4, _⟩ := C28_append_canonical_partial _ x c2 hx hxb b2
  have vl : ∀ i ∈ l, i.Valid := fun i hi => ⟨hc.1 i hi, by have := hlb i hi; simp only [W]; omega⟩
  have vx : x.Valid := ⟨hx, by simp only [W]; omega⟩
  have vy : y.Valid := ⟨hy, by simp only [W]; omega⟩
  apply canonical_unique c3 c4
  intro n
  rw [appendInterval_covered _ _ vy (appendInterval_valid l x vx vl), appendInterval_covered _ _ vx vl,
    appendInterval_covered _ _ vx (appendInterval_valid l y vy vl), appendInterval_covered _ _ vy vl]
  constructor <;> (rintro ((h | h) | h) <;> simp [h])

/-- C28, loading: normalization accepts exactly the lists without inverted interval. -/
theorem C28_normalize_accepts (l : List Interval) :
    (normalizeList [] l).isSome ↔ ∀ i ∈ l, i.start ≤ i.stop := by
  suffices ∀ acc, (normalizeList acc l).isSome ↔ ∀ i ∈ l, i.start ≤ i.stop from this []
  induction l with
  | nil => intro acc; simp [normalizeList]
  | cons x xs ih =>
    intro acc
    simp only [normalizeList]
    split
    · next h => simp; intro; omega
    · next h => rw [ih]; simp; omega

/-- C28, loading: the normalized list covers exactly what the stored list covers, and is canonical
whatever the stored order and overlaps (for ends below 2^64-1). -/
theorem C28_normalize_restores_partial (l r : List Interval) (hl : ∀ i ∈ l, i.stop < 2 ^ 64 - 1)
    (h : normalizeList [] l = some r) :
    Canonical r ∧ ∀ n, (∃ i ∈ r, i.start ≤ n ∧ n ≤ i.stop) ↔ (∃ i ∈ l, i.start ≤ n ∧ n ≤ i.stop) := by
  refine ⟨normalizeList_canonical [] l r ⟨by simp, .nil⟩ (by simp)
    (fun i hi => by have := hl i hi; simp only [W]; omega) h, fun n => ?_⟩
  have := (normalizeList_spec [] l r (by simp)
    (fun i hi => by have := hl i hi; simp only [W]; omega) h).2.2 n
  simpa [Covered, Interval.Has] using this

/-- C28 is false at the end of the 64-bit range: `End+1` wraps to 0, so an interval lying inside
`[5, 2^64-1]` is stored a second time. -/
theorem C28_canonical_violated : ∃ (l : List Interval) (x : Interval),
    Canonical l ∧ (∀ i ∈ l, i.Valid) ∧ x.Valid ∧ ¬ Canonical (appendInterval l x) := by
  refine ⟨[⟨5, 2 ^ 64 - 1⟩], ⟨10, 20⟩, ⟨by simp, by simp⟩, by simp [Interval.Valid, W],
    by simp [Interval.Valid, W], ?_⟩
  have : appendInterval [⟨5, 2 ^ 64 - 1⟩] ⟨10, 20⟩ = [⟨5, 2 ^ 64 - 1⟩, ⟨10, 20⟩] := by
    simp [appendInterval, searchIdx, bsearch, canMerge, inc64, absorb, W]
  rw [this]
  simp [Canonical]

/-- Hypotheses are met by a real case, with merging on both sides. -/
example : appendInterval [⟨0, 9⟩, ⟨20, 29⟩, ⟨40, 49⟩] ⟨10, 19⟩ = [⟨0, 29⟩, ⟨40, 49⟩] ∧
    Canonical [⟨0, 9⟩, ⟨20, 29⟩, ⟨40, 49⟩] ∧
    normalizeList [] [⟨20, 29⟩, ⟨0, 9⟩, ⟨5, 19⟩] = some [⟨0, 29⟩] := by
  refine ⟨?_, ?_, ?_⟩
  · simp [appendInterval, searchIdx, bsearch, canMerge, inc64, absorb, W, mergeIntervals]
  · simp [Canonical]
  · simp [normalizeList, appendInterval, searchIdx, bsearch, canMerge, inc64, absorb, W, mergeIntervals]

/-- C29: a range counts as completed exactly when each of its indices is covered. -/
theorem C29_contains_iff_covered (l : List Interval) (hc : Canonical l) (x : Interval)
    (hx : x.start ≤ x.stop) :
    containsInterval l x = true ↔
      ∀ n, x.start ≤ n → n ≤ x.stop → ∃ i ∈ l, i.start ≤ n ∧ n ≤ i.stop := by
  rw [containsInterval_iff l hc x hx]
  exact ⟨fun h n h1 h2 => h n ⟨h1, h2⟩, fun h n hn => h n hn.1 hn.2⟩

example : containsInterval [⟨0, 9⟩, ⟨20, 29⟩] ⟨22, 29⟩ = true ∧
    containsInterval [⟨0, 9⟩, ⟨20, 29⟩] ⟨5, 22⟩ = false := by
  constructor <;> simp [containsInterval, searchIdx, bsearch]

end Fpki.Journal
