import Verif.Model.FastCsv

/-!
# Property C32: the fast CSV parser

Specification: `fields row` — the row split at its commas; `IsExpiration f` — digits, a dot, digits.
-/
namespace Fpki.FastCsv

/-- The comma separated columns of a row (specification). -/
def fields : Bytes → List Bytes
  | [] => [[]]
  | c :: t =>
    if c = comma then [] :: fields t
    else match fields t with
      | f :: fs => (c :: f) :: fs
      | [] => [[c]]

/-- `digits.digits`, both not empty (specification). -/
def IsExpiration (f : Bytes) : Prop :=
  ∃ a b, f = a ++ dotB :: b ∧ a ≠ [] ∧ b ≠ [] ∧ (∀ x ∈ a, 48 ≤ x ∧ x ≤ 57) ∧ (∀ x ∈ b, 48 ≤ x ∧ x ≤ 57)

theorem fields_ne (b : Bytes) : fields b ≠ [] := by
  cases b with
  | nil => simp [fields]
  | cons c t =>
    simp only [fields]
    split
    · simp
    · split <;> simp

theorem indexByte_none {x : Byte} {b : Bytes} : indexByte x b = none ↔ x ∉ b := by
  induction b with
  | nil => simp [indexByte]
  | cons c t ih =>
    simp only [indexByte]
    by_cases h : c = x
    · simp [h]
    · rw [if_neg h]; simp [ih, Ne.symm h]

theorem indexByte_some {x : Byte} {b : Bytes} {n : Nat} (h : indexByte x b = some n) :
    b = b.take n ++ x :: b.drop (n + 1) ∧ x ∉ b.take n ∧ n < b.length := by
  induction b generalizing n with
  | nil => simp [indexByte] at h
  | cons c t ih =>
    simp only [indexByte] at h
    by_cases e : c = x
    · rw [if_pos e] at h
      obtain rfl : 0 = n := Option.some.inj h
      simp [e]
    · rw [if_neg e] at h
      obtain ⟨m, hm, rfl⟩ := Option.map_eq_some_iff.1 h
      obtain ⟨h1, h2, h3⟩ := ih hm
      refine ⟨?_, ?_, by simpa using h3⟩
      · simp only [List.take_succ_cons, List.drop_succ_cons, List.cons_append]; rw [← h1]
      · simp [h2, Ne.symm e]

theorem isDigit_iff (b : Byte) : isDigit b = true ↔ 48 ≤ b ∧ b ≤ 57 := by
  simp only [isDigit, Bool.not_eq_true', Bool.or_eq_false_iff, decide_eq_false_iff_not, gt_iff_lt,
    UInt8.not_lt]

theorem looksLike_iff (f : Bytes) : looksLikeExpiration f = true ↔ IsExpiration f := by
  unfold looksLikeExpiration IsExpiration
  constructor
  · intro h
    split at h
    · cases h
    · split at h
      · cases h
      · rename_i dot hd
        obtain ⟨h1, h2, h3⟩ := indexByte_some hd
        split at h
        · cases h
        · rename_i hne
          rw [Bool.and_eq_true, List.all_eq_true, List.all_eq_true] at h
          refine ⟨_, _, h1, ?_, ?_, fun x hx => (isDigit_iff x).1 (h.1 x hx), fun x hx => (isDigit_iff x).1 (h.2 x hx)⟩
          · intro e; have := congrArg List.length e; rw [List.length_take, List.length_nil] at this; omega
          · intro e; have := congrArg List.length e; rw [List.length_drop, List.length_nil] at this; omega
  · rintro ⟨a, b, rfl, ha, hb, h1, h2⟩
    have hal : 0 < a.length := List.length_pos_iff.2 ha
    have hbl : 0 < b.length := List.length_pos_iff.2 hb
    have hnd : dotB ∉ a := by
      intro h; have := h1 _ h; revert this; decide
    have hi : indexByte dotB (a ++ dotB :: b) = some a.length := by
      clear ha h1 hal
      induction a with
      | nil => simp [indexByte]
      | cons c t ih =>
        simp only [List.mem_cons, not_or] at hnd
        simp only [List.cons_append, indexByte]
        rw [if_neg (Ne.symm hnd.1), ih hnd.2]; rfl
    have hlen : (a ++ dotB :: b).length = a.length + (b.length + 1) := by simp
    rw [if_neg (by omega), hi]
    dsimp only
    rw [if_neg (by omega)]
    rw [Bool.and_eq_true, List.all_eq_true, List.all_eq_true]
    constructor
    · intro x hx; simp at hx; exact (isDigit_iff x).2 (h1 x hx)
    · intro x hx
      have : (a ++ dotB :: b).drop (a.length + 1) = b := by simp
      rw [this] at hx
      exact (isDigit_iff x).2 (h2 x hx)

/-- Loop invariant: `done` are the complete fields, `cur` the current one. -/
structure ScanInv (row : Bytes) (done : List Bytes) (s : Scan) : Prop where
  idx : s.fieldIndex = done.length
  cert : s.cert.map (slice row) = done[3]?
  chain : s.chain.map (slice row) = done[4]?
  last : s.last.map (slice row) = done.getLast?
  certLe : ∀ c, s.cert = some c → c.1 ≤ c.2 ∧ c.2 ≤ row.length

theorem slice_mid (a b c : Bytes) : slice (a ++ b ++ c) (a.length, a.length + b.length) = b := by
  simp only [slice]
  rw [List.take_append_of_le_length (by simp), List.take_of_length_le (by simp)]
  simp

theorem endField_inv {row : Bytes} {done : List Bytes} {s : Scan} (inv : ScanInv row done s)
    (pre cur post : Bytes) (hrow : row = pre ++ cur ++ post) (hs : s.fieldStart = pre.length) :
    ScanInv row (done ++ [cur]) (endField s (pre.length + cur.length)) := by
  have hsl : slice row (pre.length, pre.length + cur.length) = cur := by rw [hrow]; exact slice_mid ..
  refine ⟨by simp [endField, inv.idx], ?_, ?_, by simp [endField, hs, hsl], ?_⟩
  · simp only [endField, inv.idx, hs]
    by_cases h : done.length = 3
    · rw [if_pos h]; simp [hsl, h, List.getElem?_append]
    · rw [if_neg h, inv.cert]
      by_cases h2 : 3 < done.length
      · rw [List.getElem?_append_left h2]
      · rw [List.getElem?_eq_none (by omega), List.getElem?_eq_none (by simp; omega)]
  · simp only [endField, inv.idx, hs]
    by_cases h : done.length = 4
    · rw [if_pos h]; simp [hsl, h, List.getElem?_append]
    · rw [if_neg h, inv.chain]
      by_cases h2 : 4 < done.length
      · rw [List.getElem?_append_left h2]
      · rw [List.getElem?_eq_none (by omega), List.getElem?_eq_none (by simp; omega)]
  · intro c hc
    simp only [endField, inv.idx, hs] at hc
    split at hc
    · obtain rfl := Option.some.inj hc
      refine ⟨Nat.le_add_right .., ?_⟩
      rw [hrow]; simp
    · exact inv.certLe c hc

/-- `fields` of a row whose current field already holds `cur`. -/
def fieldsFrom (cur : Bytes) (rest : Bytes) : List Bytes :=
  match fields rest with
  | f :: fs => (cur ++ f) :: fs
  | [] => [cur]

theorem scan_spec (row : Bytes) : ∀ (rest : Bytes) (done : List Bytes) (s : Scan) (pre cur : Bytes),
    row = pre ++ cur ++ rest → s.fieldStart = pre.length → ScanInv row done s →
    ScanInv row (done ++ fieldsFrom cur rest) (scanLoop (pre.length + cur.length) s rest) := by
  intro rest
  induction rest with
  | nil =>
    intro done s pre cur hrow hs inv
    simpa [scanLoop, fieldsFrom, fields] using endField_inv inv pre cur [] hrow hs
  | cons c t ih =>
    intro done s pre cur hrow hs inv
    simp only [scanLoop]
    by_cases h : c = comma
    · rw [if_neg (by simpa using h)]
      have h1 := endField_inv inv pre cur (c :: t) hrow hs
      have := ih (done ++ [cur]) (endField s (pre.length + cur.length)) (pre ++ cur ++ [c]) []
        (by rw [hrow]; simp) (by simp [endField]; omega) h1
      have e1 : (pre ++ cur ++ [c]).length + ([] : Bytes).length = pre.length + cur.length + 1 := by simp; omega
      rw [e1] at this
      have e2 : done ++ [cur] ++ fieldsFrom [] t = done ++ fieldsFrom cur (c :: t) := by
        simp only [fieldsFrom, fields, h, if_true]
        cases hf : fields t with
        | nil => exact absurd hf (fields_ne t)
        | cons f fs => simp
      rw [e2] at this
      exact this
    · rw [if_pos h]
      have := ih done s pre (cur ++ [c]) (by rw [hrow]; simp) hs inv
      have e1 : pre.length + (cur ++ [c]).length = pre.length + cur.length + 1 := by simp; omega
      rw [e1] at this
      have e2 : fieldsFrom (cur ++ [c]) t = fieldsFrom cur (c :: t) := by
        simp only [fieldsFrom, fields, h, if_false]
        cases hf : fields t with
        | nil => exact absurd hf (fields_ne t)
        | cons f fs => simp
      rw [e2] at this
      exact this

theorem scan_row (row : Bytes) :
    ScanInv row (fields row) (scanLoop 0 ⟨0, 0, none, none, none⟩ row) := by
  have := scan_spec row row [] ⟨0, 0, none, none, none⟩ [] [] (by simp) rfl
    ⟨rfl, rfl, rfl, rfl, by simp⟩
  have e : fieldsFrom [] row = fields row := by
    simp only [fieldsFrom]
    cases hf : fields row with
    | nil => exact absurd hf (fields_ne row)
    | cons f fs => simp
  simpa [e] using this

/-- C32: exactly which rows the fast path accepts, and with which columns. -/
theorem C32_fast_ok_iff (row c ch e : Bytes) :
    parseRowFast row = .ok c ch e ↔
      quote ∉ row ∧ (fields row)[3]? = some c ∧ (fields row)[4]? = some ch ∧ (fields row).getLast? = some e ∧
      c ≠ [] ∧ IsExpiration e := by
  have inv := scan_row row
  unfold parseRowFast
  by_cases h0 : row.length = 0
  · rw [if_pos h0]
    have : row = [] := List.eq_nil_of_length_eq_zero h0
    subst this
    simp [fields]
  · rw [if_neg h0]
    by_cases hq : (indexByte quote row).isSome = true
    · rw [if_pos hq]
      have : quote ∈ row := by
        by_cases h : quote ∈ row
        · exact h
        · rw [indexByte_none.2 h] at hq; cases hq
      simp [this]
    · rw [if_neg hq]
      have hnq : quote ∉ row := indexByte_none.1 (by simpa using hq)
      simp only [hnq, not_false_eq_true, true_and]
      generalize hs : scanLoop 0 ⟨0, 0, none, none, none⟩ row = s at inv
      obtain ⟨_, i1, i2, i3, i4⟩ := inv
      rcases hc : s.cert with _ | cc
      · rw [hc] at i1
        simp only [Option.map_none] at i1
        simp [hc, ← i1]
      · rcases hch : s.chain with _ | chh
        · rw [hch] at i2
          simp only [Option.map_none] at i2
          simp [hc, hch, ← i2]
        · rcases hl : s.last with _ | ll
          · rw [hl] at i3
            simp only [Option.map_none] at i3
            simp [hc, hch, hl, ← i3]
          · rw [hc] at i1; rw [hch] at i2; rw [hl] at i3
            simp only [Option.map_some] at i1 i2 i3
            simp only [hc, hch, hl, ← i1, ← i2, ← i3, Option.some.injEq]
            have hle := i4 cc hc
            have hemp : slice row cc = [] ↔ cc.1 = cc.2 := by
              constructor
              · intro h
                have := congrArg List.length h
                simp [slice] at this; omega
              · intro h
                apply List.eq_nil_of_length_eq_zero
                simp [slice]; omega
            by_cases h1 : cc.1 = cc.2
            · rw [if_pos h1]
              constructor
              · intro h; cases h
              · rintro ⟨rfl, _, _, h, _⟩; exact absurd (hemp.2 h1) h
            · rw [if_neg h1]
              by_cases h2 : looksLikeExpiration (slice row ll) = true
              · rw [h2]
                simp only [Bool.not_true, Bool.false_eq_true, if_false, Result.ok.injEq]
                constructor
                · rintro ⟨rfl, rfl, rfl⟩
                  exact ⟨rfl, rfl, rfl, fun h => h1 (hemp.1 h), (looksLike_iff _).1 h2⟩
                · rintro ⟨rfl, rfl, rfl, _, _⟩; exact ⟨rfl, rfl, rfl⟩
              · rw [Bool.not_eq_true] at h2
                rw [h2]
                simp only [Bool.not_false, if_true]
                constructor
                · intro h; cases h
                · rintro ⟨_, _, rfl, _, h⟩
                  rw [(looksLike_iff _).2 h] at h2; cases h2

/-- C32: rows with a quote always go to the standard parser. -/
theorem C32_quotes_fall_back (row : Bytes) (h : quote ∈ row) : parseRowFast row = .fallback := by
  have h0 : row.length ≠ 0 := by rintro h0; rw [List.eq_nil_of_length_eq_zero h0] at h; simp at h
  unfold parseRowFast
  rw [if_neg h0, if_pos]
  cases hi : indexByte quote row with
  | none => exact absurd h (indexByte_none.1 hi)
  | some _ => rfl

/-- C32: a row is rejected outright exactly when it has no quotes and fewer than five columns or an empty
certificate column (the empty row has one empty column). -/
theorem C32_hard_error_iff (row : Bytes) :
    parseRowFast row = .hardError ↔ quote ∉ row ∧ ((fields row).length < 5 ∨ (fields row)[3]? = some []) := by
  have inv := scan_row row
  by_cases hq : quote ∈ row
  · rw [C32_quotes_fall_back row hq]; simp [hq]
  · unfold parseRowFast
    by_cases h0 : row.length = 0
    · rw [if_pos h0]
      have : row = [] := List.eq_nil_of_length_eq_zero h0
      subst this
      simp [fields]
    · rw [if_neg h0, if_neg (by simp [indexByte_none.2 hq])]
      simp only [hq, not_false_eq_true, true_and]
      generalize hs : scanLoop 0 ⟨0, 0, none, none, none⟩ row = s at inv
      obtain ⟨_, i1, i2, i3, i4⟩ := inv
      rcases hc : s.cert with _ | cc
      · rw [hc] at i1
        have := List.getElem?_eq_none_iff.1 i1.symm
        simp [hc]; left; omega
      · rcases hch : s.chain with _ | chh
        · rw [hch] at i2
          have := List.getElem?_eq_none_iff.1 i2.symm
          simp [hc, hch]; left; omega
        · rcases hl : s.last with _ | ll
          · rw [hl] at i3
            simp only [Option.map_none] at i3
            have := List.getLast?_eq_none_iff.1 i3.symm
            exact absurd this (fields_ne row)
          · rw [hc] at i1; rw [hch] at i2
            simp only [Option.map_some] at i1 i2
            have h5 : ¬ (fields row).length < 5 := by
              have := List.getElem?_eq_some_iff.1 i2.symm
              obtain ⟨h, _⟩ := this; omega
            simp only [hc, hch, hl, ← i1, Option.some.injEq, h5, false_or]
            have hle := i4 cc hc
            have hemp : slice row cc = [] ↔ cc.1 = cc.2 := by
              constructor
              · intro h
                have := congrArg List.length h
                simp [slice] at this; omega
              · intro h
                apply List.eq_nil_of_length_eq_zero
                simp [slice]; omega
            rw [hemp]
            by_cases h1 : cc.1 = cc.2
            · simp [h1]
            · rw [if_neg h1]; simp only [h1, iff_false]
              split <;> simp

/-- C32: with a standard parser that splits rows without quotes and line breaks at the commas (as
encoding/csv does), ParseLine returns exactly columns 4, 5 and the last, for every such row with at least
five columns, a certificate and an expiration; and an error for every other such row. The fast path is
unobservable. -/
theorem C32_line_equals_columns (csv : Bytes → Option (List Bytes)) (line : Bytes)
    (hq : quote ∉ trimRight line) (hn : 10 ∉ trimRight line)
    (hcsv : ∀ r : Bytes, quote ∉ r → 10 ∉ r → r ≠ [] → csv r = some (fields r)) (c ch e : Bytes) :
    parseLine csv line = some (c, ch, e) ↔
      (fields (trimRight line))[3]? = some c ∧ (fields (trimRight line))[4]? = some ch ∧
      (fields (trimRight line)).getLast? = some e ∧ c ≠ [] ∧ e ≠ [] := by
  unfold parseLine
  generalize trimRight line = row at *
  have hlen : 0 < (fields row).length := List.length_pos_iff.2 (fields_ne row)
  have hlast : (fields row).getLast? = some ((fields row).getD ((fields row).length - 1) []) := by
    rw [List.getLast?_eq_getElem?, List.getD_eq_getElem?_getD, List.getElem?_eq_getElem (by omega)]; rfl
  cases hr : parseRowFast row with
  | ok c' ch' e' =>
    simp only [hr]
    obtain ⟨_, h1, h2, h3, h4, h5⟩ := (C32_fast_ok_iff row c' ch' e').1 hr
    simp only [h1, h2, h3, Option.some.injEq, Prod.mk.injEq]
    constructor
    · rintro ⟨rfl, rfl, rfl⟩
      refine ⟨rfl, rfl, rfl, h4, ?_⟩
      obtain ⟨a, b, rfl, _⟩ := h5
      simp
    · rintro ⟨rfl, rfl, rfl, _, _⟩; exact ⟨rfl, rfl, rfl⟩
  | hardError =>
    simp only [hr]
    obtain ⟨_, h⟩ := (C32_hard_error_iff row).1 hr
    simp only [reduceCtorEq, false_iff]
    rintro ⟨h1, h2, _, h4, _⟩
    rcases h with h | h
    · obtain ⟨h', _⟩ := List.getElem?_eq_some_iff.1 h2; omega
    · rw [h] at h1; exact h4 (Option.some.inj h1).symm
  | fallback =>
    simp only [hr]
    have hne : row ≠ [] := by rintro rfl; simp [parseRowFast] at hr
    have hnh : ¬ ((fields row).length < 5 ∨ (fields row)[3]? = some []) := by
      intro h
      rw [(C32_hard_error_iff row).2 ⟨hq, h⟩] at hr; cases hr
    rw [not_or] at hnh
    simp only [parseRowSlow, hcsv row hq hn hne]
    rw [if_neg (by omega)]
    have h3 : (fields row)[3]? = some ((fields row).getD 3 []) := by
      rw [List.getD_eq_getElem?_getD, List.getElem?_eq_getElem (by omega)]; rfl
    have h4 : (fields row)[4]? = some ((fields row).getD 4 []) := by
      rw [List.getD_eq_getElem?_getD, List.getElem?_eq_getElem (by omega)]; rfl
    rw [hlast, h4]
    rw [h3] at hnh ⊢
    generalize (fields row).getD ((fields row).length - 1) [] = l at *
    generalize (fields row).getD 3 [] = x3 at *
    by_cases he : l = []
    · rw [if_pos he]
      simp only [reduceCtorEq, false_iff, Option.some.injEq]
      rintro ⟨_, _, rfl, _, h⟩; exact h he
    · rw [if_neg he]
      simp only [Option.some.injEq, Prod.mk.injEq] at hnh ⊢
      constructor
      · rintro ⟨rfl, rfl, rfl⟩; exact ⟨rfl, rfl, rfl, hnh.2, he⟩
      · rintro ⟨rfl, rfl, rfl, _, _⟩; exact ⟨rfl, rfl, rfl⟩

/-- A row `a,b,c,CERT,CHAIN,1.5` (`C`,`H` for the two fields) and its result; hypotheses of the theorems are
met. -/
example : parseRowFast [97, 44, 98, 44, 99, 44, 67, 44, 72, 44, 49, 46, 53] = .ok [67] [72] [49, 46, 53] ∧
    parseRowFast [97, 44, 98, 44, 99, 44, 67, 44, 72, 44, 49] = .fallback ∧
    parseRowFast [97, 44, 98, 44, 99, 44, 44, 72, 44, 49, 46, 53] = .hardError ∧
    fields [97, 44, 44, 98] = [[97], [], [98]] := by decide

end Fpki.FastCsv
