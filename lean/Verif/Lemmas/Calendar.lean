import Verif.Model.Calendar
import Verif.Props.Config
/-! Lemmas for C102: the calendar and the text of times. -/
namespace Fpki.Calendar

open Fpki.Json Fpki.Config Fpki.Policy

/-! ## The calendar -/

/-- A day of the calendar that exists. -/
structure Date.Valid (t : Date) : Prop where
  month : 1 ≤ t.month ∧ t.month ≤ 12
  day : 1 ≤ t.day ∧ t.day ≤ daysIn t.month t.year

theorem months : ∀ doy < 366, let mp := (5 * doy + 2) / 153
    mp ≤ 11 ∧ (153 * mp + 2) / 5 ≤ doy ∧
    doy - (153 * mp + 2) / 5 + 1 ≤ (if mp = 11 then 29 else if mp = 1 ∨ mp = 3 ∨ mp = 6 ∨ mp = 8 then 30 else 31) ∧ (mp = 11 → doy - (153 * mp + 2) / 5 + 1 = 29 → doy = 365) := by decide +kernel

/-- The parts of a day in the cycles. -/
theorem cycles (doe : Nat) (h : doe < 146097) : ∃ c q y1 doy, c ≤ 3 ∧ q ≤ 24 ∧ y1 ≤ 3 ∧ doy < 366 ∧ doe = c * 36524 + q * 1461 + y1 * 365 + doy ∧
    (doy = 365 → y1 = 3 ∧ (q = 24 → c = 3)) ∧ min (doe / 36524) 3 = c ∧ (doe - c * 36524) / 1461 = q ∧ min ((doe - c * 36524) % 1461 / 365) 3 = y1 ∧ (doe - c * 36524) % 1461 - y1 * 365 = doy := by
  refine ⟨min (doe / 36524) 3, (doe - min (doe / 36524) 3 * 36524) / 1461, min ((doe - min (doe / 36524) 3 * 36524) % 1461 / 365) 3,
    (doe - min (doe / 36524) 3 * 36524) % 1461 - min ((doe - min (doe / 36524) 3 * 36524) % 1461 / 365) 3 * 365, ?_, ?_, ?_, ?_, ?_, ?_, rfl, rfl, rfl, rfl⟩
  all_goals omega

/-- `civil`, for the parts of a day. -/
def ofParts (era : Int) (c q y1 doy : Nat) : Date :=
  let mp := (5 * doy + 2) / 153
  let m := if mp < 10 then mp + 3 else mp - 9
  ⟨era * 400 + ((100 * c + 4 * q + y1 : Nat) : Int) + (if m ≤ 2 then 1 else 0), m, doy - (153 * mp + 2) / 5 + 1⟩

theorem civil_parts (z : Int) : ∃ era c q y1 doy, civil z = ofParts era c q y1 doy ∧ c ≤ 3 ∧ q ≤ 24 ∧ y1 ≤ 3 ∧ doy < 366 ∧
    z = 146097 * era + ((c * 36524 + q * 1461 + y1 * 365 + doy : Nat) : Int) - 719468 ∧ (doy = 365 → y1 = 3 ∧ (q = 24 → c = 3)) := by
  have hdl : ((z + 719468) % 146097).toNat < 146097 := by omega
  obtain ⟨c, q, y1, doy, h1, h2, h3, h4, h5, h6, e1, e2, e3, e4⟩ := cycles _ hdl
  refine ⟨(z + 719468) / 146097, c, q, y1, doy, ?_, h1, h2, h3, h4, by omega, h6⟩
  unfold civil ofParts
  dsimp only
  rw [e1, e2, e3, e4]

theorem ofParts_valid (era : Int) (c q y1 doy : Nat) (hc : c ≤ 3) (hq : q ≤ 24) (hy : y1 ≤ 3) (hd : doy < 366) (h : doy = 365 → y1 = 3 ∧ (q = 24 → c = 3)) :
    (ofParts era c q y1 doy).Valid ∧ dayNumber (ofParts era c q y1 doy) = 146097 * era + ((c * 36524 + q * 1461 + y1 * 365 + doy : Nat) : Int) - 719468 := by
  have hm := months doy hd
  dsimp only at hm
  unfold ofParts
  dsimp only
  generalize (5 * doy + 2) / 153 = mp at hm ⊢
  obtain ⟨m1, m2, m3, m4⟩ := hm
  refine ⟨⟨?_, ?_⟩, ?_⟩
  · dsimp only
    split <;> omega
  · dsimp only
    refine ⟨by omega, ?_⟩
    by_cases h11 : mp = 11
    · subst h11
      have m3' : doy - (153 * 11 + 2) / 5 + 1 ≤ 29 := by simpa using m3
      by_cases hdoy : doy = 365
      · obtain ⟨hy3, hq24⟩ := h hdoy
        subst hy3
        have hl : isLeap (era * 400 + ((100 * c + 4 * q + 3 : Nat) : Int) + 1) = true := by
          unfold isLeap
          simp only [ne_eq, Bool.and_eq_true, Bool.or_eq_true, decide_eq_true_eq]
          omega
        simp only [daysIn, show ¬ (11 : Nat) < 10 by decide, if_false, if_true, show (11 - 9 : Nat) ≤ 2 by decide, show (11 - 9 : Nat) = 2 by decide, hl]
        omega
      · have : doy - (153 * 11 + 2) / 5 + 1 ≤ 28 := by
          have := m4 rfl
          omega
        simp only [daysIn, show ¬ (11 : Nat) < 10 by decide, if_false, if_true, show (11 - 9 : Nat) ≤ 2 by decide, show (11 - 9 : Nat) = 2 by decide]
        split <;> omega
    · rw [if_neg h11] at m3
      have hne : ¬ (if mp < 10 then mp + 3 else mp - 9) = 2 := by split <;> omega
      unfold daysIn
      rw [if_neg hne]
      by_cases h30 : mp = 1 ∨ mp = 3 ∨ mp = 6 ∨ mp = 8
      · rw [if_pos h30] at m3
        rw [if_pos (by rcases h30 with rfl | rfl | rfl | rfl <;> decide)]
        exact m3
      · rw [if_neg h30] at m3
        rw [if_neg (by split <;> omega)]
        exact m3
  · unfold dayNumber
    dsimp only
    by_cases h10 : mp < 10
    · simp only [if_pos h10]
      rw [if_neg (by omega), if_neg (by omega)]
      have : mp + 3 - 3 = mp := by omega
      rw [this]
      omega
    · simp only [if_neg h10]
      rw [if_pos (by omega), if_pos (by omega)]
      have : mp - 9 + 9 = mp := by omega
      rw [this]
      omega

theorem civil_valid (z : Int) : (civil z).Valid ∧ dayNumber (civil z) = z := by
  obtain ⟨era, c, q, y1, doy, e, hc, hq, hy, hd, hz, hl⟩ := civil_parts z
  obtain ⟨h1, h2⟩ := ofParts_valid era c q y1 doy hc hq hy hd hl
  rw [e]
  exact ⟨h1, h2.trans hz.symm⟩

/-- The next day. -/
def Date.next (t : Date) : Date :=
  if t.day < daysIn t.month t.year then ⟨t.year, t.month, t.day + 1⟩
  else if t.month < 12 then ⟨t.year, t.month + 1, 1⟩
  else ⟨t.year + 1, 1, 1⟩

theorem dayNumber_next (t : Date) (h : t.Valid) : t.next.Valid ∧ dayNumber t.next = dayNumber t + 1 := by
  obtain ⟨y, m, d⟩ := t
  obtain ⟨⟨hm1, hm2⟩, hd1, hd2⟩ := h
  dsimp only at hm1 hm2 hd1 hd2
  unfold Date.next
  dsimp only
  split
  · rename_i hlt
    refine ⟨⟨⟨hm1, hm2⟩, ⟨by dsimp only; omega, by dsimp only; omega⟩⟩, ?_⟩
    unfold dayNumber
    dsimp only
    omega
  · rename_i hge
    have hd : d = daysIn m y := by omega
    have hpos : ∀ m y, 1 ≤ daysIn m y := by
      intro m y
      unfold daysIn
      (repeat' split) <;> omega
    split
    · rename_i h12
      refine ⟨⟨⟨by dsimp only; omega, by dsimp only; omega⟩, ⟨by dsimp only; omega, hpos _ _⟩⟩, ?_⟩
      subst hd
      have hmm : m = 1 ∨ m = 2 ∨ m = 3 ∨ m = 4 ∨ m = 5 ∨ m = 6 ∨ m = 7 ∨ m = 8 ∨ m = 9 ∨ m = 10 ∨ m = 11 := by omega
      rcases hmm with rfl | rfl | rfl | rfl | rfl | rfl | rfl | rfl | rfl | rfl | rfl
      · simp [dayNumber, daysIn]; omega
      · cases hl : isLeap y with
        | true =>
          unfold isLeap at hl
          simp only [ne_eq, Bool.and_eq_true, Bool.or_eq_true, decide_eq_true_eq] at hl
          simp [dayNumber, daysIn, isLeap, hl]
          omega
        | false =>
          have hl' := hl
          unfold isLeap at hl'
          simp only [ne_eq, Bool.and_eq_false_iff, Bool.or_eq_false_iff, decide_eq_false_iff_not] at hl'
          simp [dayNumber, daysIn, hl]
          omega
      all_goals (simp [dayNumber, daysIn] <;> omega)
    · have : m = 12 := by omega
      subst this
      refine ⟨⟨⟨by dsimp only; omega, by dsimp only; omega⟩, ⟨by dsimp only; omega, hpos _ _⟩⟩, ?_⟩
      subst hd
      simp [dayNumber, daysIn]
      omega

theorem month_of_day (mp : Nat) (hm : mp < 12) (d : Nat) (hd : d < 31) (h : d < (if mp = 11 then 29 else if mp = 1 ∨ mp = 3 ∨ mp = 6 ∨ mp = 8 then 30 else 31)) :
    (5 * ((153 * mp + 2) / 5 + d) + 2) / 153 = mp ∧ (153 * mp + 2) / 5 + d < 366 ∧ ((153 * mp + 2) / 5 + d = 365 → mp = 11 ∧ d = 28) := by
  have : mp = 0 ∨ mp = 1 ∨ mp = 2 ∨ mp = 3 ∨ mp = 4 ∨ mp = 5 ∨ mp = 6 ∨ mp = 7 ∨ mp = 8 ∨ mp = 9 ∨ mp = 10 ∨ mp = 11 := by omega
  rcases this with rfl | rfl | rfl | rfl | rfl | rfl | rfl | rfl | rfl | rfl | rfl | rfl <;> simp at h ⊢ <;> omega

/-- The number of a day, in years that begin in March. -/
theorem dayNumber_parts (t : Date) (h : t.Valid) : ∃ (y : Int) (mp d : Nat), mp ≤ 11 ∧ d < (if mp = 11 then 29 else if mp = 1 ∨ mp = 3 ∨ mp = 6 ∨ mp = 8 then 30 else 31) ∧ d < 31 ∧
    (mp = 11 → d = 28 → isLeap (y + 1) = true) ∧ t = ⟨y + (if mp < 10 then 0 else 1), if mp < 10 then mp + 3 else mp - 9, d + 1⟩ ∧
    dayNumber t = 365 * y + y / 4 - y / 100 + y / 400 + ((153 * mp + 2) / 5 + d : Nat) - 719468 := by
  obtain ⟨y, m, d⟩ := t
  obtain ⟨⟨hm1, hm2⟩, hd1, hd2⟩ := h
  dsimp only at hm1 hm2 hd1 hd2
  by_cases h2 : m ≤ 2
  · refine ⟨y - 1, m + 9, d - 1, by omega, ?_, ?_, ?_, ?_, ?_⟩
    · unfold daysIn at hd2
      split
      · have : m = 2 := by omega
        subst this
        simp only [if_true] at hd2
        split at hd2 <;> omega
      · have : m = 1 := by omega
        subst this
        simp at hd2 ⊢
        omega
    · unfold daysIn at hd2
      split at hd2
      · split at hd2 <;> omega
      · split at hd2 <;> omega
    · intro e1 e2
      have : m = 2 := by omega
      subst this
      unfold daysIn at hd2
      simp only [if_true] at hd2
      cases hl : isLeap y with
      | true => rw [show y - 1 + 1 = y by omega, hl]
      | false =>
        rw [hl] at hd2
        simp at hd2
        omega
    · rw [if_neg (by omega), if_neg (by omega)]
      simp only [Date.mk.injEq]
      omega
    · unfold dayNumber
      simp only [if_pos h2]
      omega
  · refine ⟨y, m - 3, d - 1, by omega, ?_, ?_, ?_, ?_, ?_⟩
    · unfold daysIn at hd2
      rw [if_neg (by omega)] at hd2
      rw [if_neg (by omega)]
      split at hd2
      · rename_i h30
        rw [if_pos (by omega)]
        omega
      · split <;> omega
    · unfold daysIn at hd2
      split at hd2
      · split at hd2 <;> omega
      · split at hd2 <;> omega
    · intro e1
      omega
    · rw [if_pos (by omega), if_pos (by omega)]
      simp only [Date.mk.injEq]
      omega
    · unfold dayNumber
      simp only [if_neg h2]
      omega

/-- Different days have different numbers. -/
theorem dayNumber_inj (a b : Date) (ha : a.Valid) (hb : b.Valid) (h : dayNumber a = dayNumber b) : a = b := by
  obtain ⟨y, mp, d, h1, h2, h3, h4, e1, e2⟩ := dayNumber_parts a ha
  obtain ⟨y', mp', d', h1', h2', h3', h4', e1', e2'⟩ := dayNumber_parts b hb
  obtain ⟨t1, t2, t3⟩ := month_of_day mp (by omega) d h3 h2
  obtain ⟨t1', t2', t3'⟩ := month_of_day mp' (by omega) d' h3' h2'
  rw [e2, e2'] at h
  have l1 : (153 * mp + 2) / 5 + d = 365 → (y + 1) % 4 = 0 ∧ ((y + 1) % 100 ≠ 0 ∨ (y + 1) % 400 = 0) := by
    intro e
    have := h4 (t3 e).1 (t3 e).2
    unfold isLeap at this
    simpa only [ne_eq, Bool.and_eq_true, Bool.or_eq_true, decide_eq_true_eq] using this
  have l1' : (153 * mp' + 2) / 5 + d' = 365 → (y' + 1) % 4 = 0 ∧ ((y' + 1) % 100 ≠ 0 ∨ (y' + 1) % 400 = 0) := by
    intro e
    have := h4' (t3' e).1 (t3' e).2
    unfold isLeap at this
    simpa only [ne_eq, Bool.and_eq_true, Bool.or_eq_true, decide_eq_true_eq] using this
  have key : ∀ (x x' : Nat), x < 366 → x' < 366 → (x = 365 → (y + 1) % 4 = 0 ∧ ((y + 1) % 100 ≠ 0 ∨ (y + 1) % 400 = 0)) →
      (x' = 365 → (y' + 1) % 4 = 0 ∧ ((y' + 1) % 100 ≠ 0 ∨ (y' + 1) % 400 = 0)) →
      365 * y + y / 4 - y / 100 + y / 400 + (x : Int) - 719468 = 365 * y' + y' / 4 - y' / 100 + y' / 400 + (x' : Int) - 719468 → y = y' := by
    clear * -
    intro x x' hx hx' l1 l1' h
    rcases Int.lt_trichotomy y y' with hlt | rfl | hlt
    · exfalso
      rcases Int.lt_or_le (y + 1) y' with hlt2 | hge
      · omega
      · have : y' = y + 1 := by omega
        subst this
        omega
    · rfl
    · exfalso
      rcases Int.lt_or_le (y' + 1) y with hlt2 | hge
      · omega
      · have : y = y' + 1 := by omega
        subst this
        omega
  have hy : y = y' := key _ _ t2 t2' l1 l1' h
  subst hy
  have hdoy : (153 * mp + 2) / 5 + d = (153 * mp' + 2) / 5 + d' := by omega
  rw [hdoy, t1'] at t1
  subst t1
  have : d = d' := by omega
  subst this
  rw [e1, e1']

theorem civil_dayNumber (t : Date) (h : t.Valid) : civil (dayNumber t) = t :=
  dayNumber_inj _ _ (civil_valid _).1 h (civil_valid _).2

/-! ## The text of times -/

theorem frac_spec (w n : Nat) (h0 : 0 < n) (h : n < 10 ^ w) : ∃ k, 0 < k ∧ k ≤ w ∧ 10 ^ (w - k) ∣ n ∧ fracDigits w n = pad k (n / 10 ^ (w - k)) := by
  induction w generalizing n with
  | zero => simp at h; omega
  | succ w ih =>
    unfold fracDigits
    split
    · rename_i hm
      obtain ⟨k, h1, h2, h3, h4⟩ := ih (n / 10) (by omega) (by rw [Nat.pow_succ] at h; omega)
      refine ⟨k, h1, by omega, ?_, ?_⟩
      · rw [show w + 1 - k = (w - k) + 1 by omega, Nat.pow_succ]
        obtain ⟨q, hq⟩ := h3
        refine ⟨q, ?_⟩
        rw [Nat.mul_comm (10 ^ (w - k)) 10, Nat.mul_assoc, ← hq]
        omega
      · rw [h4, show w + 1 - k = (w - k) + 1 by omega, Nat.div_div_eq_div_mul, Nat.pow_succ, Nat.mul_comm]
    · refine ⟨w + 1, by omega, Nat.le_refl _, ?_, ?_⟩
      · simp
      · simp

theorem takeNum_pad (k lo hi n : Nat) (h : n < 10 ^ k) (hl : lo ≤ n) (hh : n ≤ hi) (t : Bytes) : takeNum k lo hi (pad k n ++ t) = some (n, t) := by
  have hlen := pad_length k n
  have ht : (pad k n ++ t).take k = pad k n := by
    rw [List.take_append_of_le_length (by omega), List.take_of_length_le (by omega)]
  have hd : (pad k n ++ t).drop k = t := by
    have := List.drop_left (l₁ := pad k n) (l₂ := t)
    rwa [hlen] at this
  unfold takeNum
  rw [ht, if_pos hlen, pad_value k n h]
  dsimp only
  rw [if_pos ⟨hl, hh⟩, hd]

theorem takeFraction_text (n : Nat) (h : n < 10 ^ 9) (t : Bytes) (ht : ∀ c u, t = c :: u → digit c = false ∧ c ≠ 46) :
    takeFraction ((if n = 0 then [] else 46 :: fracDigits 9 n) ++ t) = some (n, t) := by
  split
  · rename_i h0
    subst h0
    rw [List.nil_append]
    match t with
    | [] => rfl
    | [c] => rfl
    | c :: d :: u =>
      unfold takeFraction
      dsimp only
      rw [if_neg (fun e => (ht c _ rfl).2 e.1)]
  · rename_i h0
    obtain ⟨k, h1, h2, h3, h4⟩ := frac_spec 9 n (by omega) h
    rw [h4]
    have hl := pad_length k (n / 10 ^ (9 - k))
    have hdig := pad_digits k (n / 10 ^ (9 - k))
    have hval : Rows.digitsVal 0 (pad k (n / 10 ^ (9 - k))) = some (n / 10 ^ (9 - k)) := by
      refine pad_value _ _ ?_
      rw [Nat.div_lt_iff_lt_mul (Nat.pow_pos (by decide)), ← Nat.pow_add]
      rwa [show k + (9 - k) = 9 by omega]
    generalize pad k (n / 10 ^ (9 - k)) = p at hl hdig hval
    match p, hl with
    | [], hl => simp at hl; omega
    | d :: u, hl =>
      show takeFraction (46 :: d :: (u ++ t)) = _
      unfold takeFraction
      dsimp only
      rw [if_pos ⟨rfl, hdig d (by simp)⟩]
      have hw := takeWhile_app (p := digit) (l := d :: u) (rest := t) hdig (fun c u e => (ht c u e).1)
      rw [show d :: (u ++ t) = (d :: u) ++ t from rfl, hw.1, hw.2]
      unfold nanoseconds
      rw [List.take_of_length_le (by omega), hval, hl]
      simp only [Option.map_some]
      rw [Nat.div_mul_cancel h3]

/-- The times whose text is exact: the zone is a whole number of minutes. -/
def _root_.Fpki.Policy.Time.Whole (t : Time) : Prop := t.off % 60 = 0

theorem parseZone_text (off : Int) (h : off % 60 = 0) (h24 : (off.tdiv 60).natAbs / 60 < 24) :
    parseZone (if off = 0 then [90] else (if off.tdiv 60 < 0 then 45 else 43) :: pad 2 ((off.tdiv 60).natAbs / 60) ++ 58 :: pad 2 ((off.tdiv 60).natAbs % 60)) = some off := by
  split
  · rename_i h0
    subst h0
    rfl
  · have hz : off = 60 * off.tdiv 60 := (Int.mul_tdiv_cancel' (Int.dvd_of_emod_eq_zero h)).symm
    generalize off.tdiv 60 = z at hz h24
    subst hz
    have hs : ∀ u : Bytes, skipChar 58 (58 :: u) = some u := fun u => rfl
    have e1 := takeNum_pad 2 0 23 (z.natAbs / 60) (by omega) (by omega) (by omega) (58 :: pad 2 (z.natAbs % 60))
    have e2 := takeNum_pad 2 0 59 (z.natAbs % 60) (by omega) (by omega) (by omega) []
    rw [List.append_nil] at e2
    rw [List.cons_append]
    unfold parseZone
    rw [if_neg (by
      intro e
      have := congrArg List.length e
      simp [pad_length] at this)]
    dsimp only
    rw [e1]
    dsimp only
    rw [hs]
    dsimp only
    rw [e2]
    dsimp only
    rw [if_neg (fun e => e rfl)]
    split
    · rw [if_pos rfl]
      congr 1
      omega
    · rw [if_neg (by decide), if_pos rfl]
      congr 1
      omega

theorem daysIn_le (m : Nat) (y : Int) : daysIn m y ≤ 31 := by
  unfold daysIn
  (repeat' split) <;> omega

/-- What is written is read again, if the zone is a whole number of minutes. -/
theorem parse_timeText (t : Time) (ht : t.Whole) (x : Bytes) (h : timeText t = some x) : parseTime x = some t.norm := by
  unfold timeText at h
  dsimp only at h
  split at h
  · cases h
  rename_i hyear
  split at h
  · cases h
  rename_i h24
  cases h
  obtain ⟨hv, hday⟩ := civil_valid ((t.ns + t.off * 1000000000) / dayNs)
  generalize civil ((t.ns + t.off * 1000000000) / dayNs) = date at hyear hv hday
  have hns : t.ns + t.off * 1000000000 = (t.ns + t.off * 1000000000) / dayNs * dayNs + ((t.ns + t.off * 1000000000) % dayNs).toNat ∧ ((t.ns + t.off * 1000000000) % dayNs).toNat < 86400000000000 := by
    unfold dayNs
    omega
  generalize ((t.ns + t.off * 1000000000) % dayNs).toNat = n at hns
  rw [← hday] at hns
  have hd31 := daysIn_le date.month date.year
  have hy : ((date.year.toNat : Nat) : Int) = date.year := by omega
  have hskip : ∀ (c : Byte) (u : Bytes), skipChar c (c :: u) = some u := fun c u => by unfold skipChar; dsimp only; rw [if_pos rfl]
  simp only [List.append_assoc, List.cons_append]
  unfold parseTime
  rw [takeNum_pad 4 0 9999 _ (by omega) (by omega) (by omega)]
  dsimp only
  rw [hskip]
  dsimp only
  rw [takeNum_pad 2 1 12 _ (by have := hv.month; omega) hv.month.1 hv.month.2]
  dsimp only
  rw [hskip]
  dsimp only
  rw [hy, takeNum_pad 2 1 _ _ (by have := hv.day; omega) hv.day.1 hv.day.2]
  dsimp only
  rw [hskip]
  dsimp only
  rw [takeNum_pad 2 0 23 _ (by omega) (by omega) (by omega)]
  dsimp only
  rw [hskip]
  dsimp only
  rw [takeNum_pad 2 0 59 _ (by omega) (by omega) (by omega)]
  dsimp only
  rw [hskip]
  dsimp only
  rw [takeNum_pad 2 0 59 _ (by omega) (by omega) (by omega)]
  dsimp only
  rw [takeFraction_text _ (by omega)]
  · dsimp only
    have hz := parseZone_text t.off ht (by omega)
    rw [List.cons_append] at hz
    rw [hz]
    dsimp only [Policy.Time.norm]
    congr 2
    have : ((n / 1000000000 / 3600 * 60 + n / 1000000000 / 60 % 60) * 60 + n / 1000000000 % 60) * 1000000000 + n % 1000000000 = n := by omega
    rw [this]
    have : (⟨date.year, date.month, date.day⟩ : Date) = date := rfl
    rw [this]
    omega
  · intro c u e
    split at e
    · cases e; decide
    · cases e
      split <;> decide

/-- The instants whose local time is in the years 0 to 9999. -/
theorem civil_years (z : Int) : (0 ≤ (civil z).year ↔ -719528 ≤ z) ∧ ((civil z).year ≤ 9999 ↔ z < 2932897) := by
  obtain ⟨hv, hn⟩ := civil_valid z
  have h1 : 1 ≤ (civil z).month := hv.month.1
  have h2 : (civil z).month ≤ 12 := hv.month.2
  have h3 : 1 ≤ (civil z).day := hv.day.1
  have h5 : (civil z).day ≤ daysIn (civil z).month (civil z).year := hv.day.2
  clear hv
  have h6 := daysIn_le (civil z).month (civil z).year
  generalize civil z = t at *
  obtain ⟨y, m, d⟩ := t
  dsimp only at *
  simp only [dayNumber] at hn
  by_cases hm : m ≤ 2
  · rw [if_pos hm, if_pos hm] at hn
    have hd : m = 2 → d ≤ 29 := by
      intro h
      subst h
      have : daysIn 2 y ≤ 29 := by
        unfold daysIn
        rw [if_pos rfl]
        split <;> omega
      omega
    have hm' : m = 1 ∨ m = 2 := by omega
    rcases hm' with rfl | rfl
    · constructor
      · constructor
        · intro h
          by_cases hy : y = 0
          · subst hy; omega
          · omega
        · intro h; omega
      · constructor
        · intro h; omega
        · intro h
          by_cases hy : y = 10000
          · subst hy; omega
          · omega
    · have := hd rfl
      constructor
      · constructor
        · intro h; omega
        · intro h; omega
      · constructor
        · intro h; omega
        · intro h; omega
  · rw [if_neg hm, if_neg hm] at hn
    have hm3 : m = 3 ∨ m = 4 ∨ m = 5 ∨ m = 6 ∨ m = 7 ∨ m = 8 ∨ m = 9 ∨ m = 10 ∨ m = 11 ∨ m = 12 := by omega
    constructor
    · constructor
      · intro h; omega
      · intro h
        by_cases hy : y = -1
        · subst hy; rcases hm3 with rfl | rfl | rfl | rfl | rfl | rfl | rfl | rfl | rfl | rfl <;> omega
        · rcases hm3 with rfl | rfl | rfl | rfl | rfl | rfl | rfl | rfl | rfl | rfl <;> omega
    · constructor
      · intro h
        by_cases hy : y = 9999
        · subst hy; rcases hm3 with rfl | rfl | rfl | rfl | rfl | rfl | rfl | rfl | rfl | rfl <;> omega
        · rcases hm3 with rfl | rfl | rfl | rfl | rfl | rfl | rfl | rfl | rfl | rfl <;> omega
      · intro h; omega

/-- When the text of a time is made. -/
theorem timeText_some (t : Time) : timeText t ≠ none ↔
    -62167219200000000000 ≤ t.ns + t.off * 1000000000 ∧ t.ns + t.off * 1000000000 < 253402300800000000000 ∧ t.off.natAbs < 86400 := by
  unfold timeText
  dsimp only
  obtain ⟨h1, h2⟩ := civil_years ((t.ns + t.off * 1000000000) / dayNs)
  unfold dayNs at *
  have hz : (t.off.tdiv 60).natAbs / 60 = t.off.natAbs / 3600 := by
    rw [Int.natAbs_tdiv]
    exact Nat.div_div_eq_div_mul _ _ _
  rw [hz]
  split
  · rename_i h
    simp only [ne_eq, not_true_eq_false, false_iff]
    omega
  · rename_i h
    split
    · simp only [ne_eq, not_true_eq_false, false_iff]
      omega
    · simp only [ne_eq, reduceCtorEq, not_false_eq_true, true_iff]
      omega

/-- Only whole minutes are read. -/
theorem parseZone_whole {s : Bytes} {o : Int} (h : parseZone s = some o) : o % 60 = 0 := by
  unfold parseZone at h
  repeat' split at h
  all_goals first
    | cases h; done
    | (injection h with h; subst h; omega)

theorem parseTime_whole {s : Bytes} {t : Time} (h : parseTime s = some t) : t.Whole := by
  unfold parseTime at h
  repeat' split at h
  all_goals first
    | cases h; done
    | (rename_i o ho; injection h with h; subst h; exact parseZone_whole ho)

/-- What is shown of a time: the local time, and whole minutes of the zone. -/
theorem timeText_shown (t u : Time) (h1 : t.ns + t.off * 1000000000 = u.ns + u.off * 1000000000) (h2 : t.off.tdiv 60 = u.off.tdiv 60) (h3 : t.off = 0 ↔ u.off = 0) : timeText t = timeText u := by
  unfold timeText
  rw [h1, h2]
  simp only [h3]

theorem takeNum_range {k lo hi : Nat} {s : Bytes} {r : Nat × Bytes} (h : takeNum k lo hi s = some r) : lo ≤ r.1 ∧ r.1 ≤ hi := by
  unfold takeNum at h
  repeat' split at h
  all_goals first
    | cases h; done
    | (injection h with h; subst h; assumption)

theorem digitsVal_lt : ∀ (ds : Bytes) (acc n : Nat), Rows.digitsVal acc ds = some n → n < (acc + 1) * 10 ^ ds.length
  | [], acc, n, h => by
    unfold Rows.digitsVal at h
    cases h
    simp
  | d :: ds, acc, n, h => by
    unfold Rows.digitsVal at h
    split at h
    · rename_i hd
      have ih := digitsVal_lt ds _ n h
      have h9 : d.toNat - 48 ≤ 9 := by
        have : d.toNat ≤ 57 := by
          simp only [FastCsv.isDigit, Bool.not_eq_true', Bool.or_eq_false_iff, decide_eq_false_iff_not] at hd
          have h2 : ¬ (57 : UInt8) < d := hd.2
          rw [UInt8.lt_iff_toNat_lt] at h2
          exact Nat.le_of_not_lt h2
        omega
      have : (acc * 10 + (d.toNat - 48) + 1) * 10 ^ ds.length ≤ ((acc + 1) * 10) * 10 ^ ds.length := Nat.mul_le_mul_right _ (by omega)
      rw [List.length_cons, Nat.pow_succ, Nat.mul_comm (10 ^ ds.length) 10, ← Nat.mul_assoc]
      omega
    · cases h

theorem takeFraction_range {s : Bytes} {r : Nat × Bytes} (h : takeFraction s = some r) : r.1 < 1000000000 := by
  unfold takeFraction at h
  split at h
  · split at h
    · rename_i c d t _
      unfold nanoseconds at h
      generalize hds : ((d :: t).takeWhile digit).take 9 = ds at h
      have hl : ds.length ≤ 9 := by rw [← hds]; exact List.length_take_le _ _
      cases hv : Rows.digitsVal 0 ds with
      | none => rw [hv] at h; cases h
      | some n =>
        rw [hv] at h
        cases h
        have := digitsVal_lt ds 0 n hv
        show n * 10 ^ (9 - ds.length) < 1000000000
        have h2 : 10 ^ ds.length * 10 ^ (9 - ds.length) = 10 ^ 9 := by rw [← Nat.pow_add]; congr 1; omega
        have h3 : n * 10 ^ (9 - ds.length) < 10 ^ ds.length * 10 ^ (9 - ds.length) := Nat.mul_lt_mul_of_pos_right (by omega) (Nat.pow_pos (by omega))
        omega
    · cases h; exact Nat.succ_pos _
  · cases h; exact Nat.succ_pos _

theorem parseZone_range {s : Bytes} {o : Int} (h : parseZone s = some o) : o.natAbs < 86400 := by
  unfold parseZone at h
  split at h
  · cases h; decide
  · split at h
    · cases h
    · split at h
      · cases h
      · rename_i hr _ h1
        have := takeNum_range h1
        split at h
        · cases h
        · split at h
          · cases h
          · rename_i mm _ h2
            have := takeNum_range h2
            dsimp only at *
            repeat' split at h
            all_goals first
              | cases h; done
              | (injection h with h; omega)

/-- What was read can be written. -/
theorem parseTime_writes {s : Bytes} {t : Time} (h : parseTime s = some t) : timeText t ≠ none := by
  unfold parseTime at h
  split at h
  · cases h
  rename_i y _ h1
  have r1 := takeNum_range h1
  split at h
  · cases h
  split at h
  · cases h
  rename_i m _ h2
  have r2 := takeNum_range h2
  split at h
  · cases h
  split at h
  · cases h
  rename_i d _ h3
  have r3 := takeNum_range h3
  split at h
  · cases h
  split at h
  · cases h
  rename_i hh _ h4
  have r4 := takeNum_range h4
  split at h
  · cases h
  split at h
  · cases h
  rename_i mi _ h5
  have r5 := takeNum_range h5
  split at h
  · cases h
  split at h
  · cases h
  rename_i sec _ h6
  have r6 := takeNum_range h6
  split at h
  · cases h
  rename_i ns _ h7
  have r7 := takeFraction_range h7
  split at h
  · cases h
  rename_i off h8
  have r8 := parseZone_range h8
  injection h with h
  subst h
  rw [timeText_some]
  dsimp only at *
  have hv : (⟨(y : Int), m, d⟩ : Date).Valid := ⟨r2, r3⟩
  obtain ⟨c1, c2⟩ := civil_years (dayNumber ⟨(y : Int), m, d⟩)
  rw [civil_dayNumber _ hv] at c1 c2
  have c1 := c1.1 (by dsimp only; omega)
  have c2 := c2.1 (by dsimp only; omega)
  unfold dayNs
  generalize dayNumber ⟨(y : Int), m, d⟩ = z at *
  clear hv h1 h2 h3 h4 h5 h6 h7 h8 r1 r2 r3
  omega

end Fpki.Calendar
