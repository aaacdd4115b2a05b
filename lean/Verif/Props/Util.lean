import Verif.Lemmas.UtilRemove

/-!
# Properties C54 (errors), C55 (Qsort), C56 (deduplication), C57 (Log2, Pow), C58 (durations),
C63 (time of day), C64 (removing from slices), C67 (what ParseDuration accepts)

Specification vocabulary (`Verif/Lemmas/Util.lean`, `UtilRemove.lean`): `Err.leaves e`/`leavesAll errs` —
the messages of the non-nil errors inside, nested coalesced errors included; `StrictWeak lt` — `lt` is a
strict weak order; `keepOthers l idx` — the elements of `l` at positions not in `idx`.
-/
namespace Fpki.Util
open Fpki.Ingest (Str isDig digitsVal showNat)

/-! ## C54 -/

/-- C54: the result is nil exactly when the arguments contain no error. -/
theorem C54_nil_iff_no_error (errs : List Err) :
    errorsCoalesce errs = .nil ↔ leavesAll errs = [] := by
  unfold errorsCoalesce
  rw [addErrors_eq]
  cases h : firsts [] (leavesAll errs) with
  | nil => simp [firsts_nil h]
  | cons x xs =>
    simp only [reduceCtorEq, false_iff]
    intro e; rw [e] at h; simp [firsts] at h

/-- C54, first half as worded: nil iff every argument is nil. Missing: arguments that are themselves a
`CoalescedErrors` without errors, see `C54_nil_violated`. -/
theorem C54_nil_iff_all_nil_partial (errs : List Err) (h : ∀ e ∈ errs, e = .nil ∨ e.leaves ≠ []) :
    errorsCoalesce errs = .nil ↔ ∀ e ∈ errs, e = .nil := by
  rw [C54_nil_iff_no_error]
  induction errs with
  | nil => simp [leavesAll]
  | cons e es ih =>
    have ih := ih (fun e he => h e (by simp [he]))
    simp only [leavesAll, List.append_eq_nil_iff, List.mem_cons, forall_eq_or_imp, ih]
    refine and_congr_left fun _ => ?_
    rcases h e (by simp) with h | h
    · simp [h, Err.leaves]
    · constructor
      · exact fun h' => absurd h' h
      · rintro rfl; simp [Err.leaves]

/-- C54 as worded is false: a non-nil argument is turned into nil. -/
theorem C54_nil_violated : ∃ e : Err, e ≠ .nil ∧ errorsCoalesce [e] = .nil :=
  ⟨.coalesced [], by simp, by simp [errorsCoalesce, addErrors, addError]⟩

/-- C54: otherwise the result lists every distinct message of the arguments exactly once (and nothing
else), in the order of first occurrence, and is not nested. -/
theorem C54_lists_every_message_once (errs : List Err) (h : leavesAll errs ≠ []) :
    ∃ ms : List Str, errorsCoalesce errs = .coalesced (ms.map .plain) ∧ ms.Nodup ∧
      (∀ m, m ∈ ms ↔ m ∈ leavesAll errs) ∧ ms = firsts [] (leavesAll errs) := by
  refine ⟨firsts [] (leavesAll errs), ?_, (firsts_spec [] _ (by simp)).1, ?_, rfl⟩
  · unfold errorsCoalesce
    rw [addErrors_eq]
    cases h' : firsts [] (leavesAll errs) with
    | nil => exact absurd (firsts_nil h') h
    | cons x xs => rfl
  · intro m; rw [(firsts_spec [] _ (by simp)).2.1]; simp

theorem leaves_errorsCoalesce (errs : List Err) :
    (errorsCoalesce errs).leaves = firsts [] (leavesAll errs) := by
  unfold errorsCoalesce
  rw [addErrors_eq]
  cases h : firsts [] (leavesAll errs) with
  | nil => simp [Err.leaves]
  | cons x xs => simp only [Err.leaves]; exact leavesAll_plain (x :: xs)

theorem firsts_firsts (acc acc' l : List Str) : firsts acc (firsts acc' l) = firsts (firsts acc acc') l := by
  induction l generalizing acc' with
  | nil => rfl
  | cons x xs ih =>
    simp only [firsts]
    by_cases hx : x ∈ acc'
    · rw [if_pos hx, ih]
      congr 1
      have : x ∈ firsts acc acc' := by
        clear ih
        induction acc' generalizing acc with
        | nil => simp at hx
        | cons y ys ih =>
          simp only [firsts]
          rcases List.mem_cons.1 hx with rfl | h
          · have hmem : x ∈ (if x ∈ acc then acc else acc ++ [x]) := by
              by_cases hh : x ∈ acc <;> simp [hh]
            generalize (if x ∈ acc then acc else acc ++ [x]) = b at hmem
            clear ih hx
            induction ys generalizing b with
            | nil => exact hmem
            | cons z zs ih =>
              simp only [firsts]
              apply ih
              by_cases hz : z ∈ b <;> simp [hz, hmem]
          · exact ih _ h
      rw [if_pos this]
    · rw [if_neg hx, ih, firsts_append]
      rfl

/-- C54: coalescing in steps gives the same result as coalescing at once; nothing is nested or lost. -/
theorem C54_coalesce_assoc (a b c : List Err) :
    errorsCoalesce (a ++ errorsCoalesce b :: c) = errorsCoalesce (a ++ b ++ c) := by
  have h : addErrors [] (a ++ errorsCoalesce b :: c) = addErrors [] (a ++ b ++ c) := by
    simp only [addErrors_eq, leavesAll_append, leavesAll, leaves_errorsCoalesce, firsts_append]
    rw [firsts_firsts]; rfl
  generalize a ++ errorsCoalesce b :: c = x at h
  simp only [errorsCoalesce, h]

/-- A nested example with a repetition. -/
example : errorsCoalesce [.nil, .plain ['x'], .coalesced [.plain ['y'], .coalesced [.plain ['x']]], .plain ['z']] =
    .coalesced [.plain ['x'], .plain ['y'], .plain ['z']] ∧
    coalescedText [['x'], ['y']] = "multiple (2) errors:\nx\ny".toList := by
  constructor
  · simp [errorsCoalesce, addErrors, addError]
  · decide +kernel

/-! ## C55 -/

/-- C55: Qsort never panics and returns a sorted permutation of its input, whatever the pivots. -/
theorem C55_qsort_sorts (lt : α → α → Bool) (h : StrictWeak lt) (rnd : Nat → Nat) (a : List α) :
    ∃ r, qsort lt rnd a = some r ∧ r.Perm a ∧ r.Pairwise (fun x y => lt y x = false) := by
  obtain ⟨r, k, e, h1, h2⟩ := qsortAux_spec lt h rnd (a.length + 1) 0 a (by omega)
  exact ⟨r, by simp [qsort, e], h1, h2⟩

theorem strictWeak_nat : StrictWeak (fun a b : Nat => decide (a < b)) :=
  ⟨by simp, by simp; omega, by simp; omega⟩

example : qsort (fun a b : Nat => decide (a < b)) (fun k => 7 * k + 3) [5, 2, 9, 2, 1] = some [1, 2, 2, 5, 9] := by
  decide +kernel

/-! ## C56 -/

theorem map_some_range (c : List α) : c.map some = (List.range c.length).map (fun p => c[p]?) := by
  apply List.ext_getElem?
  intro n
  by_cases hn : n < c.length
  · simp [hn]
  · simp [hn]

/-- C56: DeduplicateSlice terminates without panic; there is one selection of positions, without
repetition, that produces the new master and every new companion slice; the new master has no repetition
and has the same elements as the old one. -/
theorem C56_dedup_aligned [DecidableEq κ] (m : List κ) (ss : List (List β)) (h : ∀ s ∈ ss, s.length = m.length) :
    ∃ m' ss', deduplicate m ss = some (m', ss') ∧ m'.Nodup ∧ (∀ k, k ∈ m' ↔ k ∈ m) ∧
      ∃ pos : List Nat, pos.Nodup ∧ (∀ p ∈ pos, p < m.length) ∧
        m'.map some = pos.map (fun p => m[p]?) ∧
        List.Forall₂ (fun s s' => s'.map some = pos.map (fun p => s[p]?)) ss ss' := by
  cases m with
  | nil =>
    refine ⟨[], ss, rfl, by simp, by simp, [], by simp, by simp, rfl, ?_⟩
    induction ss with
    | nil => exact .nil
    | cons s ss ih =>
      have := h s (by simp)
      exact .cons (by simpa using this) (ih (fun s hs => h s (by simp [hs])))
  | cons e es =>
    obtain ⟨m', ss', pos, e1, seen, inv⟩ := uniqLoop_spec (e :: es) ss ((e :: es).length + 1) 1 [e] (e :: es) ss
      (List.range (e :: es).length) (by simp; omega) (by
        refine ⟨List.nodup_range, by simp, map_some_range _, ?_, by simp, by simp, by simp, by simp⟩
        rw [List.forall₂_same]
        intro s hs
        have hl := h s hs
        exact ⟨by omega, by rw [← hl, List.take_length]; exact map_some_range s⟩)
    refine ⟨m', ss'.map (·.take m'.length), by simp only [deduplicate, e1], ?_, inv.all, pos, inv.nodup,
      inv.bound, inv.master, ?_⟩
    · have := inv.keys; rwa [List.take_length] at this
    · rw [List.forall₂_map_right_iff]
      exact inv.slaves.imp (fun _ _ h => h.2)

/-- The example of the doc comment (deduplicateSlice.go:74-75). -/
example : deduplicate [1, 2, 3, 1, 2] [['a', 'b', 'c', 'd', 'e']] = some ([1, 2, 3], [['a', 'b', 'c']]) ∧
    deduplicate [1, 1, 2, 3] [['a', 'b', 'c', 'd']] = some ([1, 3, 2], [['a', 'd', 'c']]) := by decide

/-! ## C57 -/

/-- C57: Log2(n) is the least k with n ≤ 2^k. -/
theorem C57_log2_least (n : Nat) (h : 0 < n) : n ≤ 2 ^ log2 n ∧ ∀ k, n ≤ 2 ^ k → log2 n ≤ k := by
  have := bitLen_spec (n - 1)
  simp only [log2, if_neg (Nat.pos_iff_ne_zero.1 h)]
  exact ⟨by omega, fun k hk => this.2 k (by omega)⟩

/-- C57: Pow is the power modulo 2^w; without overflow it is the power (unsigned). -/
theorem C57_pow_unsigned (x : BitVec w) (n : Nat) : (pow x n).toNat = x.toNat ^ n % 2 ^ w := by
  rw [pow_eq]
  induction n with
  | zero =>
    cases w with
    | zero => simp [Nat.mod_one]
    | succ w => simp
  | succ n ih =>
    rw [BitVec.pow_succ, BitVec.toNat_mul, ih, Nat.pow_succ, Nat.mod_mul_mod]

/-- C57: the same for signed integers: the power when it is representable. -/
theorem C57_pow_signed (x : BitVec w) (n : Nat) (h1 : -(2 ^ w : Int) ≤ 2 * x.toInt ^ n) (h2 : 2 * x.toInt ^ n < 2 ^ w) :
    (pow x n).toInt = x.toInt ^ n := by
  have key : (pow x n).toInt = (x.toInt ^ n).bmod (2 ^ w) := by
    rw [pow_eq]
    clear h1 h2
    induction n with
    | zero =>
      cases w with
      | zero => simp [BitVec.toInt, Int.bmod]
      | succ w => simp [BitVec.toInt_eq_toNat_bmod]
    | succ n ih =>
      rw [BitVec.pow_succ, BitVec.toInt_mul, ih, Int.pow_succ, Int.bmod_mul_bmod]
  rw [key]
  apply Int.bmod_eq_of_le_mul_two
  · push_cast; omega
  · push_cast; omega

example : log2 9 = 4 ∧ log2 16 = 4 ∧ pow (10 : BitVec 64) 6 = 1000000 ∧ pow (-2 : BitVec 64) 3 = -8 := by
  refine ⟨?_, ?_, ?_, ?_⟩ <;> decide +kernel

/-! ## C64 -/

/-- C64: RemoveElementsFromSlice keeps exactly the elements at positions not listed (as a multiset: the
order may change), never panics, and the order of the listed positions does not matter. -/
theorem C64_remove_elements (rnd : Nat → Nat) (l : List α) (indices : List Nat) (hn : indices.Nodup)
    (hb : ∀ x ∈ indices, x < l.length) :
    ∃ r, removeElements rnd l indices = some r ∧ r.Perm (keepOthers l indices) := by
  have hcl := compl_length l.length indices hn hb
  unfold removeElements
  by_cases h : indices.length ≥ l.length
  · rw [if_pos h]
    refine ⟨[], rfl, ?_⟩
    have : ((List.range l.length).filter (fun p => decide (p ∉ indices))) = [] :=
      List.eq_nil_of_length_eq_zero (by omega)
    rw [keepOthers, this]; exact List.Perm.refl _
  · rw [if_neg h]
    obtain ⟨idx, e1, p1, s1⟩ := C55_qsort_sorts _ strictWeak_nat rnd indices
    have hs : idx.Pairwise (· < ·) := by
      have hnd : idx.Nodup := p1.nodup_iff.2 hn
      refine (List.pairwise_and_iff.2 ⟨s1, hnd⟩).imp ?_
      intro a b hab
      have := hab.1
      simp at this
      have := hab.2
      omega
    have hlen := p1.length_eq
    have hb' : ∀ x ∈ idx, x < l.length := fun x hx => hb x (p1.subset hx)
    obtain ⟨r, i', j', t', e2, inv, hend⟩ := removeLoop_spec l idx hs hb' (l.length - idx.length) (by omega) (by omega)
      (idx.length + 1) 0 ((idx.length : Int) - 1) ((l.length : Int) - 0 - idx.length + ((idx.length : Int) - 1)) l
      (by omega) ⟨by omega, by omega, rfl, by intro x hx h; omega, .inl (by omega), by simp, ⟨id, by simp, by simp⟩⟩
    have hcast : ((l.length : Int) - idx.length) = ((l.length - idx.length : Nat) : Int) := by omega
    refine ⟨r.take (l.length - idx.length), ?_, ?_⟩
    · rw [← hcast] at e2
      simp only [e1, e2, Option.bind_eq_bind, Option.bind_some]
    · have := remInv_perm l idx hs hb' (l.length - idx.length) (by omega) i' j' t' r inv hend
      refine this.trans ?_
      have : keepOthers l idx = keepOthers l indices := by
        unfold keepOthers
        congr 1
        apply List.filter_congr
        intro x _
        simp [p1.mem_iff]
      rw [this]

/-- C64: RemoveElemFromSlice removes exactly one position. -/
theorem C64_remove_one (l : List α) (i : Nat) (h : i < l.length) :
    ∃ r, removeElem l i = some r ∧ r.Perm (l.eraseIdx i) := by
  have hl : l.length - 1 < l.length := by omega
  refine ⟨_, by simp only [removeElem, List.getElem?_eq_getElem hl, if_pos h]; rfl, ?_⟩
  exact moveLast_perm l i _ h (List.getElem?_eq_getElem hl)

example : removeElements (fun k => k) ['a', 'b', 'c', 'd', 'e', 'f'] [5, 0, 2] = some ['e', 'b', 'd'] ∧
    keepOthers ['a', 'b', 'c', 'd', 'e', 'f'] [5, 0, 2] = ['b', 'd', 'e'] := by decide +kernel

/-! ## C58, C67 -/

theorem fmtUnit_spec (ns : Int) : unitNs (fmtUnit ns).1 = some (fmtUnit ns).2 ∧ 0 < (fmtUnit ns).2 ∧
    ns.tdiv (fmtUnit ns).2 * (fmtUnit ns).2 = ns ∧
    ∃ c t, (fmtUnit ns).1 = c :: t ∧ isNumChar c = false := by
  have key : ∀ f : Int, ns.tmod f = 0 → ns.tdiv f * f = ns := fun f h => by
    have := Int.tdiv_mul_add_tmod ns f; omega
  unfold fmtUnit
  repeat' split
  all_goals first
    | exact ⟨rfl, by decide, key _ (by assumption), _, _, rfl, by decide⟩
    | exact ⟨rfl, by decide, by simp, _, _, rfl, by decide⟩

theorem isNumChar_of_isDig {c : Char} (h : isDig c = true) : isNumChar c = true := by simp [isNumChar, h]

theorem showInt_chars (i : Int) : ∀ c ∈ showInt i, isNumChar c = true := by
  unfold showInt
  split
  · intro c hc
    rcases List.mem_cons.1 hc with rfl | hc
    · decide
    · exact isNumChar_of_isDig (Ingest.showNat_dig _ c hc)
  · intro c hc; exact isNumChar_of_isDig (Ingest.showNat_dig _ c hc)

theorem span_append {l : Str} {c : Char} {t : Str} (h : ∀ x ∈ l, isNumChar x = true) (hc : isNumChar c = false) :
    (l ++ c :: t).takeWhile isNumChar = l ∧ (l ++ c :: t).dropWhile isNumChar = c :: t := by
  induction l with
  | nil => simp [hc]
  | cons x xs ih =>
    have := ih (fun y hy => h y (by simp [hy]))
    simp [List.takeWhile_cons, List.dropWhile_cons, h x (by simp), this]

theorem showNat_head (n : Nat) : ∃ c t, showNat n = c :: t ∧ isDig c = true := by
  cases h : showNat n with
  | nil => exact absurd h (Ingest.showNat_ne n)
  | cons c t => exact ⟨c, t, rfl, Ingest.showNat_dig n c (by rw [h]; simp)⟩

/-- `strconv.Atoi` inverts `%d` on the range of int64. -/
theorem atoi_showInt (i : Int) (h1 : -(2 ^ 63) ≤ i) (h2 : i < 2 ^ 63) : atoiValue (showInt i) = i := by
  have hall : ∀ n, (showNat n).all isDig = true := fun n => List.all_eq_true.2 (Ingest.showNat_dig n)
  have hne : ∀ n, (showNat n).isEmpty = false := fun n => by simp [Ingest.showNat_ne]
  unfold showInt
  split
  · simp only [atoiValue, hall, hne, Ingest.digitsVal_showNat, Bool.not_true, Bool.or_self, Bool.false_eq_true,
      if_false, if_true]
    rw [if_neg (by omega)]; omega
  · obtain ⟨c, t, e, hc⟩ := showNat_head i.natAbs
    have c1 : c ≠ '-' := by rintro rfl; revert hc; decide
    have c2 : c ≠ '+' := by rintro rfl; revert hc; decide
    have h3 := hall i.natAbs
    have h4 := Ingest.digitsVal_showNat i.natAbs
    rw [e] at h3 h4 ⊢
    unfold atoiValue
    split
    rename_i neg ds heq
    split at heq
    · rename_i h; exact absurd (List.cons.inj h).1 c1
    · rename_i h; exact absurd (List.cons.inj h).1 c2
    · simp only [Prod.mk.injEq] at heq
      obtain ⟨rfl, rfl⟩ := heq
      simp only [h3, h4, List.isEmpty_cons, Bool.not_true, Bool.or_self, Bool.false_eq_true, if_false]
      rw [if_neg (by omega)]; omega

/-- C58: formatting a duration and parsing it gives the same duration, for every int64 number of
nanoseconds (negative ones included). -/
theorem C58_duration_roundtrip (d : Int) (h1 : -(2 ^ 63) ≤ d) (h2 : d < 2 ^ 63) :
    parseDuration (fmtDuration d) = some d := by
  unfold fmtDuration
  split
  · rename_i h; subst h; decide
  · rename_i h0
    obtain ⟨u1, u2, u3, c, t, e, hc⟩ := fmtUnit_spec d
    rw [e]
    obtain ⟨s1, s2⟩ := span_append (t := t) (showInt_chars (d.tdiv (fmtUnit d).2)) hc
    simp only [parseDuration, s1, s2]
    have hne : (showInt (d.tdiv (fmtUnit d).2)).isEmpty = false := by
      unfold showInt; split <;> simp [Ingest.showNat_ne]
    rw [hne, ← e, u1]
    have hb : (d.tdiv (fmtUnit d).2).natAbs ≤ d.natAbs := by
      rw [Int.natAbs_tdiv]; exact Nat.div_le_self _ _
    simp only [Bool.false_eq_true, if_false, Option.map_some, Option.some.injEq]
    by_cases hbig : d.tdiv (fmtUnit d).2 = 2 ^ 63
    · -- impossible: quotient and dividend have the same sign
      exfalso
      rw [hbig] at u3
      have : (2 : Int) ^ 63 * (fmtUnit d).2 ≥ 2 ^ 63 * 1 := Int.mul_le_mul_of_nonneg_left u2 (by decide)
      omega
    · rw [atoi_showInt _ (by omega) (by omega), u3]
      unfold wrap64; omega

example : fmtDuration 5400000000000 = "90m".toList ∧ parseDuration "90m".toList = some 5400000000000 ∧
    fmtDuration (-1000000) = "-1ms".toList := by decide +kernel

/-- C67: when the number of an accepted text is an integer literal (optional minus sign, digits) and the
product fits in int64, ParseDuration returns number times unit. Missing: other texts, see
`C67_parse_violated`. -/
theorem C67_parse_denotes_partial (i : Int) (u : Str) (f : Int) (hu : unitNs u = some f)
    (h1 : -(2 ^ 63) ≤ i) (h2 : i < 2 ^ 63) (h3 : -(2 ^ 63) ≤ i * f) (h4 : i * f < 2 ^ 63) :
    parseDuration (showInt i ++ u) = some (i * f) := by
  obtain ⟨c, t, rfl, hc⟩ : ∃ c t, u = c :: t ∧ isNumChar c = false := by
    unfold unitNs at hu
    split at hu <;> first | cases hu; done | exact ⟨_, _, rfl, by decide⟩
  obtain ⟨s1, s2⟩ := span_append (t := t) (showInt_chars i) hc
  have hne : (showInt i).isEmpty = false := by
    unfold showInt; split <;> simp [Ingest.showNat_ne]
  simp only [parseDuration, s1, s2, hne, hu, Bool.false_eq_true, if_false, Option.map_some, Option.some.injEq]
  rw [atoi_showInt i h1 h2]; unfold wrap64; omega

/-- C67 is false in general: a malformed number is accepted as 0, and a number too large wraps around
into a negative duration; neither is an error. -/
theorem C67_parse_violated : parseDuration "1-2s".toList = some 0 ∧ parseDuration "--5h".toList = some 0 ∧
    parseDuration "300y".toList = some (-8985944073709551616) ∧
    parseDuration "99999999999999999999ns".toList = some (2 ^ 63 - 1) := by decide +kernel

/-! ## C63 -/

/-- C63: with a local zone at UTC, and a TimeOfDayWrap that lies in the past (as every one made by
NewTimeOfDay or parsed from text: year 0), the result is the first instant not before now with that time of
day; in particular it is less than 24 h away. -/
theorem C63_next_time_of_day_partial (t now : Int) (h : t < now) :
    now ≤ nextTimeOfDay 0 t now ∧ nextTimeOfDay 0 t now < now + dayNs ∧
    nextTimeOfDay 0 t now % dayNs = t % dayNs ∧
    ∀ x, now ≤ x → x % dayNs = t % dayNs → nextTimeOfDay 0 t now ≤ x := by
  have hr : nextTimeOfDay 0 t now = (if ¬ now / dayNs * dayNs + t % dayNs < now then
      now / dayNs * dayNs + t % dayNs else now / dayNs * dayNs + t % dayNs + dayNs) := by
    simp [nextTimeOfDay, h]
  rw [hr]
  simp only [dayNs]
  by_cases hb : now / 86400000000000 * 86400000000000 + t % 86400000000000 < now <;>
    simp only [hb, not_true_eq_false, not_false_eq_true, if_true, if_false] <;> refine ⟨by omega, by omega, by omega, fun x h1 h2 => by omega⟩

/-- For any zone offset the result misses the promised window by at most the offset. -/
theorem C63_next_any_zone_partial (off t now : Int) (h : t < now) :
    now - off.natAbs ≤ nextTimeOfDay off t now ∧ nextTimeOfDay off t now < now + dayNs + off.natAbs ∧
    nextTimeOfDay off t now % dayNs = t % dayNs := by
  have hr : nextTimeOfDay off t now = (if ¬ (now + off) / dayNs * dayNs + t % dayNs < now then
      (now + off) / dayNs * dayNs + t % dayNs else (now + off) / dayNs * dayNs + t % dayNs + dayNs) := by
    simp [nextTimeOfDay, h]
  rw [hr]
  simp only [dayNs]
  by_cases hb : (now + off) / 86400000000000 * 86400000000000 + t % 86400000000000 < now <;>
    simp only [hb, not_true_eq_false, not_false_eq_true, if_true, if_false] <;> refine ⟨by omega, by omega, by omega⟩

/-- C63 is false in other zones: at offset -5 h the next 01:00 at 02:00 UTC is returned one hour in the
past; at +2 h the next 23:30 at 22:00 UTC is returned 25.5 h away. -/
theorem C63_next_time_of_day_violated :
    (∃ t now, t < now ∧ nextTimeOfDay (-5 * 3600000000000) t now < now) ∧
    (∃ t now, t < now ∧ nextTimeOfDay (2 * 3600000000000) t now > now + dayNs) :=
  ⟨⟨3600000000000, 10 * dayNs + 2 * 3600000000000, by decide, by decide⟩,
   ⟨84600000000000, 10 * dayNs + 22 * 3600000000000, by decide, by decide⟩⟩

/-- C63 is also false for a TimeOfDayWrap holding a date in the future: it is returned as is. -/
theorem C63_future_violated : ∃ t now, nextTimeOfDay 0 t now > now + dayNs :=
  ⟨3 * dayNs, 0, by decide⟩

example : nextTimeOfDay 0 (-62167219200000000000 + 3600000000000) (20000 * dayNs + 7200000000000) =
    20001 * dayNs + 3600000000000 := by decide

end Fpki.Util
