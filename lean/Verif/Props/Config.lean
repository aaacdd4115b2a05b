import Verif.Lemmas.Config
import Verif.Props.Ticker
import Verif.Lemmas.Bytes
/-!
C100, C101: the texts of times of day, and the configuration file of the map server.
-/
namespace Fpki.Config

open Fpki.Json Fpki.Domain Fpki.Policy

/-! ## Specification -/

/-- A time of day that exists. -/
structure Tod.Valid (t : Tod) : Prop where
  hour : t.hour < 24
  minute : t.minute < 60
  second : t.second < 60
  ns : t.ns < 10 ^ 9

/-- The number that decimal digits stand for. -/
def Value (ds : Bytes) (n : Nat) : Prop := Rows.digitsVal 0 ds = some n

/-- What a text means as a time of day: hours (one or two digits), minutes and seconds (two digits), and maybe a fraction, of which nine digits count. -/
def Means (s : Bytes) (t : Tod) : Prop :=
  t.Valid ∧ ∃ hh mm ss frac : Bytes, s = hh ++ asc ":" ++ mm ++ asc ":" ++ ss ++ frac ∧
    (hh.length = 1 ∨ hh.length = 2) ∧ mm.length = 2 ∧ ss.length = 2 ∧ Value hh t.hour ∧ Value mm t.minute ∧ Value ss t.second ∧
    ((frac = [] ∧ t.ns = 0) ∨ ∃ sep ds n, frac = sep :: ds ∧ (asc "." = [sep] ∨ asc "," = [sep]) ∧ ds ≠ [] ∧ (∀ c ∈ ds, digit c = true) ∧
      Value (ds.take 9) n ∧ t.ns = n * 10 ^ (9 - (ds.take 9).length))

/-! ## C100 -/

/-- C100: the constructor makes a time of day that exists, the given one if it exists, else with the largest possible value for each part that is too large. -/
theorem C100_constructor (h m s n : Nat) : (newTimeOfDay h m s n).Valid ∧ newTimeOfDay h m s n = ⟨min h 23, min m 59, min s 59, min n 999999999⟩ := by
  have e : newTimeOfDay h m s n = ⟨min h 23, min m 59, min s 59, min n 999999999⟩ := by
    unfold newTimeOfDay
    simp only [Tod.mk.injEq]
    refine ⟨?_, ?_, ?_, ?_⟩ <;> (split <;> omega)
  refine ⟨?_, e⟩
  rw [e]
  constructor <;> (dsimp only; omega)

example : newTimeOfDay 24 60 59 0 = ⟨23, 59, 59, 0⟩ := by decide

theorem fraction_text (ns k : Nat) (h : ns < 10 ^ 9) (hk : 0 < k) (hk9 : k ≤ 9) (hd : 10 ^ (9 - k) ∣ ns) : parseFraction (46 :: (pad 9 ns).take k) = some ns := by
  have h9 : 9 = k + (9 - k) := by omega
  have ht : (pad 9 ns).take k = pad k (ns / 10 ^ (9 - k)) := by
    conv => lhs; rw [h9]
    exact pad_take k (9 - k) ns
  rw [ht]
  have hl := pad_length k (ns / 10 ^ (9 - k))
  have hdig := pad_digits k (ns / 10 ^ (9 - k))
  have hval : Rows.digitsVal 0 (pad k (ns / 10 ^ (9 - k))) = some (ns / 10 ^ (9 - k)) := by
    refine pad_value _ _ ?_
    rw [Nat.div_lt_iff_lt_mul (Nat.pow_pos (by decide)), ← Nat.pow_add]
    rwa [← h9]
  generalize pad k (ns / 10 ^ (9 - k)) = p at hl hdig hval
  match p, hl with
  | [], hl => simp at hl; omega
  | d :: t, hl =>
    unfold parseFraction
    dsimp only
    rw [if_pos ⟨.inl rfl, hdig d (by simp)⟩]
    have hw := takeWhile_app (p := digit) (l := d :: t) (rest := []) hdig (fun _ _ e => by cases e)
    rw [List.append_nil] at hw
    rw [hw.1, hw.2]
    unfold nanoseconds
    rw [List.take_of_length_le (by omega), hval, hl]
    dsimp only [Option.map_some]
    rw [if_pos rfl, Nat.div_mul_cancel hd]

/-- C100: the text of a time of day is read as that time of day. -/
theorem C100_roundtrip (t : Tod) (h : t.Valid) : parseTod (todText t) = some t := by
  have hf : parseFraction (if decimalLoop 4 t.ns 0 > 0 then 46 :: (pad 9 t.ns).take (decimalLoop 4 t.ns 0) else []) = some t.ns := by
    rw [decimalLoop_cases t.ns h.ns]
    have hn := h.ns
    by_cases h0 : t.ns = 0
    · simp [h0, parseFraction]
    · rw [if_neg h0]
      by_cases h6 : t.ns % 10 ^ 6 = 0
      · rw [if_pos h6, if_pos (by decide)]
        exact fraction_text t.ns 3 hn (by decide) (by decide) (Nat.dvd_of_mod_eq_zero h6)
      · rw [if_neg h6]
        by_cases h3 : t.ns % 10 ^ 3 = 0
        · rw [if_pos h3, if_pos (by decide)]
          exact fraction_text t.ns 6 hn (by decide) (by decide) (Nat.dvd_of_mod_eq_zero h3)
        · rw [if_neg h3, if_pos (by decide)]
          exact fraction_text t.ns 9 hn (by decide) (by decide) (by simp)
  unfold parseTod todText
  dsimp only
  simp only [List.append_assoc, List.cons_append]
  rw [getnum_pad _ _ (by have := h.hour; omega)]
  dsimp only
  rw [if_neg (by have := h.hour; omega)]
  have hs : ∀ u : Bytes, skipChar 58 (58 :: u) = some u := fun u => rfl
  rw [hs]
  dsimp only
  rw [getnum_pad _ _ (by have := h.minute; omega)]
  dsimp only
  rw [if_neg (by have := h.minute; omega), hs]
  dsimp only
  rw [getnum_pad _ _ (by have := h.second; omega)]
  dsimp only
  rw [if_neg (by have := h.second; omega), hf]

example : (⟨13, 5, 59, 120000000⟩ : Tod).Valid ∧ todText ⟨13, 5, 59, 120000000⟩ = asc "13:05:59.120" := by
  exact ⟨⟨by decide, by decide, by decide, by decide⟩, by decide +kernel⟩

/-- C100: no needless decimals: the text has 0, 3, 6 or 9 of them, the fewest with which nothing is lost. -/
theorem C100_shortest (t : Tod) (h : t.Valid) : ∃ k, (k = 0 ∨ k = 3 ∨ k = 6 ∨ k = 9) ∧ (todText t).length = (if k = 0 then 8 else 9 + k) ∧ 10 ^ (9 - k) ∣ t.ns ∧
    ∀ k', (k' = 0 ∨ k' = 3 ∨ k' = 6) → k' < k → ¬ 10 ^ (9 - k') ∣ t.ns := by
  have hn := h.ns
  have hl : ∀ k, k ≤ 9 → (todText t).length = (if k = 0 then 8 else 9 + k) ∨ decimalLoop 4 t.ns 0 ≠ k := by
    intro k hk
    by_cases e : decimalLoop 4 t.ns 0 = k
    · left
      unfold todText
      dsimp only
      rw [e]
      by_cases h0 : k = 0
      · subst h0
        simp [pad_length]
      · rw [if_pos (by omega), if_neg h0]
        simp only [List.length_append, List.length_cons, pad_length, List.length_take]
        omega
    · exact .inr e
  have hc := decimalLoop_cases t.ns hn
  by_cases h0 : t.ns = 0
  · rw [if_pos h0] at hc
    exact ⟨0, .inl rfl, (hl 0 (by decide)).resolve_right (fun n => n hc), by rw [h0]; exact Nat.dvd_zero _, fun k' _ hk => absurd hk (by omega)⟩
  · rw [if_neg h0] at hc
    by_cases h6 : t.ns % 10 ^ 6 = 0
    · rw [if_pos h6] at hc
      refine ⟨3, .inr (.inl rfl), (hl 3 (by decide)).resolve_right (fun n => n hc), Nat.dvd_of_mod_eq_zero h6, ?_⟩
      intro k' hk' hlt hd
      have : k' = 0 := by omega
      subst this
      have := Nat.mod_eq_zero_of_dvd hd
      omega
    · rw [if_neg h6] at hc
      by_cases h3 : t.ns % 10 ^ 3 = 0
      · rw [if_pos h3] at hc
        refine ⟨6, .inr (.inr (.inl rfl)), (hl 6 (by decide)).resolve_right (fun n => n hc), Nat.dvd_of_mod_eq_zero h3, ?_⟩
        intro k' hk' hlt hd
        have hm := Nat.mod_eq_zero_of_dvd hd
        rcases hk' with rfl | rfl | rfl
        · omega
        · exact h6 hm
        · omega
      · rw [if_neg h3] at hc
        refine ⟨9, .inr (.inr (.inr rfl)), (hl 9 (by decide)).resolve_right (fun n => n hc), by simp, ?_⟩
        intro k' hk' hlt hd
        have hm := Nat.mod_eq_zero_of_dvd hd
        rcases hk' with rfl | rfl | rfl
        · omega
        · exact h6 hm
        · exact h3 hm

/-! ### What is accepted -/

theorem digit_value (a : Byte) (h : digit a = true) : a.toNat - 48 < 10 := by
  revert h
  exact forall_byte (P := fun a => digit a = true → a.toNat - 48 < 10) (by decide +kernel) a

theorem value_one (a : Byte) (h : digit a = true) : Value [a] (a.toNat - 48) := by
  unfold Value
  rw [Rows.digitsVal, if_pos (by rw [← digit_eq]; exact h), Rows.digitsVal]
  congr 1
  omega

theorem value_two (a b : Byte) (ha : digit a = true) (hb : digit b = true) : Value [a, b] ((a.toNat - 48) * 10 + (b.toNat - 48)) := by
  unfold Value
  rw [Rows.digitsVal, if_pos (by rw [← digit_eq]; exact ha), Rows.digitsVal, if_pos (by rw [← digit_eq]; exact hb), Rows.digitsVal]
  congr 1
  omega

theorem value_digits : ∀ (ds : Bytes) (acc n : Nat), Rows.digitsVal acc ds = some n → ∀ c ∈ ds, digit c = true
  | [], _, _, _ => fun _ hc => by cases hc
  | d :: ds, acc, n, h => by
    rw [Rows.digitsVal] at h
    split at h
    · rename_i hd
      intro c hc
      rcases List.mem_cons.1 hc with rfl | hc
      · rw [digit_eq]; exact hd
      · exact value_digits ds _ n h c hc
    · cases h

theorem digits_value : ∀ (ds : Bytes) (acc : Nat), (∀ c ∈ ds, digit c = true) → ∃ n, Rows.digitsVal acc ds = some n
  | [], acc, _ => ⟨acc, rfl⟩
  | d :: ds, acc, h => by
    rw [Rows.digitsVal, if_pos (by rw [← digit_eq]; exact h d (by simp))]
    exact digits_value ds _ (fun c hc => h c (by simp [hc]))

theorem getnum_iff (fixed : Bool) (s : Bytes) (n : Nat) (t : Bytes) : getnum fixed s = some (n, t) ↔
    ∃ ds, s = ds ++ t ∧ Value ds n ∧ (ds.length = 2 ∨ (ds.length = 1 ∧ fixed = false ∧ ∀ c u, t = c :: u → digit c = false)) := by
  constructor
  · intro h
    match s with
    | [] => cases h
    | [a] =>
      unfold getnum at h
      dsimp only at h
      split at h
      · rename_i ha
        split at h
        · cases h
        · rename_i hf
          cases h
          exact ⟨[a], rfl, value_one a ha, .inr ⟨rfl, by simpa using hf, fun _ _ e => by cases e⟩⟩
      · cases h
    | a :: b :: u =>
      unfold getnum at h
      dsimp only at h
      split at h
      · rename_i ha
        split at h
        · rename_i hb
          cases h
          exact ⟨[a, b], rfl, value_two a b ha hb, .inl rfl⟩
        · rename_i hb
          split at h
          · cases h
          · rename_i hf
            cases h
            refine ⟨[a], rfl, value_one a ha, .inr ⟨rfl, by simpa using hf, ?_⟩⟩
            intro c u e
            cases e
            simpa using hb
      · cases h
  · rintro ⟨ds, rfl, hv, hl | ⟨hl, hf, ht⟩⟩
    · match ds, hl with
      | [a, b], _ =>
        have hd := value_digits _ _ _ hv
        have ha := hd a (by simp)
        have hb := hd b (by simp)
        have := value_two a b ha hb
        rw [Value] at this hv
        rw [this] at hv
        cases hv
        show getnum fixed (a :: b :: t) = _
        unfold getnum
        dsimp only
        rw [if_pos ha, if_pos hb]
    · match ds, hl with
      | [a], _ =>
        have ha := value_digits _ _ _ hv a (by simp)
        have := value_one a ha
        rw [Value] at this hv
        rw [this] at hv
        cases hv
        subst hf
        cases t with
        | nil =>
          show getnum false [a] = _
          unfold getnum
          dsimp only
          rw [if_pos ha]
          rfl
        | cons c u =>
          show getnum false (a :: c :: u) = _
          unfold getnum
          dsimp only
          rw [if_pos ha, if_neg (by rw [ht c u rfl]; decide)]
          rfl

theorem skipChar_iff (c : Byte) (s t : Bytes) : skipChar c s = some t ↔ s = c :: t := by
  cases s with
  | nil => exact ⟨(fun h => by cases h), (fun h => by cases h)⟩
  | cons b u =>
    unfold skipChar
    dsimp only
    constructor
    · intro h
      split at h
      · rename_i e; cases h; rw [e]
      · cases h
    · intro h
      cases h
      rw [if_pos rfl]

theorem fraction_iff (s : Bytes) (ns : Nat) : parseFraction s = some ns ↔
    (s = [] ∧ ns = 0) ∨ ∃ sep ds n, s = sep :: ds ∧ (asc "." = [sep] ∨ asc "," = [sep]) ∧ ds ≠ [] ∧ (∀ c ∈ ds, digit c = true) ∧
      Value (ds.take 9) n ∧ ns = n * 10 ^ (9 - (ds.take 9).length) := by
  have hsep : ∀ c : Byte, (c = 46 ∨ c = 44) ↔ (asc "." = [c] ∨ asc "," = [c]) := by
    intro c
    have e1 : asc "." = [46] := by decide +kernel
    have e2 : asc "," = [44] := by decide +kernel
    rw [e1, e2]
    simp only [List.cons.injEq, and_true]
    constructor <;> (rintro (h | h) <;> simp [h])
  constructor
  · intro h
    match s with
    | [] => cases h; exact .inl ⟨rfl, rfl⟩
    | [_] => cases h
    | c :: d :: t =>
      unfold parseFraction at h
      dsimp only at h
      split at h
      · rename_i hc
        split at h
        · cases h
        · rename_i n hn
          split at h
          · rename_i hd
            cases h
            have ht : (d :: t).takeWhile digit = d :: t := by
              have := List.takeWhile_append_dropWhile (p := digit) (l := d :: t)
              rw [hd, List.append_nil] at this
              exact this
            rw [ht] at hn
            unfold nanoseconds at hn
            cases hv : Rows.digitsVal 0 ((d :: t).take 9) with
            | none => rw [hv] at hn; cases hn
            | some m =>
              rw [hv] at hn
              cases hn
              refine .inr ⟨c, d :: t, m, rfl, (hsep c).1 hc.1, by simp, ?_, hv, rfl⟩
              intro x hx
              rw [← ht] at hx
              exact List.all_eq_true.1 (List.all_takeWhile (l := d :: t)) x hx
          · cases h
      · cases h
  · rintro (⟨rfl, rfl⟩ | ⟨sep, ds, n, rfl, hs, hne, hd, hv, rfl⟩)
    · rfl
    · match ds, hne with
      | d :: t, _ =>
        unfold parseFraction
        dsimp only
        rw [if_pos ⟨(hsep sep).2 hs, hd d (by simp)⟩]
        have hw := takeWhile_app (p := digit) (l := d :: t) (rest := []) hd (fun _ _ e => by cases e)
        rw [List.append_nil] at hw
        rw [hw.1, hw.2]
        unfold nanoseconds
        rw [show Rows.digitsVal 0 ((d :: t).take 9) = some n from hv]
        dsimp only [Option.map_some]
        rw [if_pos rfl]

theorem value_lt (ds : Bytes) (acc n k : Nat) (hk : ds.length = k) (h : Rows.digitsVal acc ds = some n) : n < (acc + 1) * 10 ^ k := by
  induction ds generalizing acc k with
  | nil =>
    subst hk
    cases h
    simp
  | cons d ds ih =>
    subst hk
    have hd := value_digits _ _ _ h d (by simp)
    rw [Rows.digitsVal, if_pos (by rw [← digit_eq]; exact hd)] at h
    have := ih _ _ rfl h
    have h10 := digit_value d hd
    refine Nat.lt_of_lt_of_le this ?_
    rw [List.length_cons, Nat.pow_succ, Nat.mul_comm (10 ^ ds.length) 10, ← Nat.mul_assoc]
    exact Nat.mul_le_mul_right _ (by omega)

/-- C100: a text is accepted exactly if it is a time of day in the given format, and then it gives the time it stands for (digits after the ninth are dropped). -/
theorem C100_accepts (s : Bytes) (t : Tod) : parseTod s = some t ↔ Means s t := by
  have e58 : asc ":" = [58] := by decide +kernel
  constructor
  · intro h
    unfold parseTod at h
    split at h
    · cases h
    rename_i hh s1 g1
    split at h
    · cases h
    rename_i h24
    split at h
    · cases h
    rename_i s2 k1
    split at h
    · cases h
    rename_i mm s3 g2
    split at h
    · cases h
    rename_i h60
    split at h
    · cases h
    rename_i s4 k2
    split at h
    · cases h
    rename_i ss s5 g3
    split at h
    · cases h
    rename_i h60'
    split at h
    · cases h
    rename_i n hf
    cases h
    obtain ⟨d1, rfl, v1, l1⟩ := (getnum_iff _ _ _ _).1 g1
    obtain rfl := (skipChar_iff _ _ _).1 k1
    obtain ⟨d2, rfl, v2, l2⟩ := (getnum_iff _ _ _ _).1 g2
    obtain rfl := (skipChar_iff _ _ _).1 k2
    obtain ⟨d3, rfl, v3, l3⟩ := (getnum_iff _ _ _ _).1 g3
    have hn := (fraction_iff _ _).1 hf
    have hlt : n < 10 ^ 9 := by
      rcases hn with ⟨_, rfl⟩ | ⟨sep, ds, m, _, _, _, _, hv, rfl⟩
      · decide
      · have := value_lt _ _ _ _ rfl hv
        have hl : (ds.take 9).length ≤ 9 := by rw [List.length_take]; omega
        rw [Nat.zero_add, Nat.one_mul] at this
        calc m * 10 ^ (9 - (ds.take 9).length) < 10 ^ (ds.take 9).length * 10 ^ (9 - (ds.take 9).length) := Nat.mul_lt_mul_of_pos_right this (Nat.pow_pos (by decide))
          _ = 10 ^ 9 := by rw [← Nat.pow_add]; congr 1; omega
    refine ⟨⟨by dsimp only; omega, by dsimp only; omega, by dsimp only; omega, hlt⟩, d1, d2, d3, s5, ?_, ?_, ?_, ?_, v1, v2, v3, hn⟩
    · rw [e58]
      simp
    · rcases l1 with l | l
      · exact .inr l
      · exact .inl l.1
    · exact l2.elim id (fun l => by cases l.2.1)
    · exact l3.elim id (fun l => by cases l.2.1)
  · rintro ⟨hv, hh, mm, ss, frac, rfl, l1, l2, l3, v1, v2, v3, hf⟩
    rw [e58]
    simp only [List.append_assoc, List.cons_append, List.nil_append]
    unfold parseTod
    have g1 : getnum false (hh ++ 58 :: (mm ++ 58 :: (ss ++ frac))) = some (t.hour, 58 :: (mm ++ 58 :: (ss ++ frac))) := by
      refine (getnum_iff _ _ _ _).2 ⟨hh, rfl, v1, ?_⟩
      rcases l1 with l | l
      · refine .inr ⟨l, rfl, fun c u e => ?_⟩
        cases e
        decide
      · exact .inl l
    have g2 : getnum true (mm ++ 58 :: (ss ++ frac)) = some (t.minute, 58 :: (ss ++ frac)) := (getnum_iff _ _ _ _).2 ⟨mm, rfl, v2, .inl l2⟩
    have g3 : getnum true (ss ++ frac) = some (t.second, frac) := (getnum_iff _ _ _ _).2 ⟨ss, rfl, v3, .inl l3⟩
    have hs : ∀ u : Bytes, skipChar 58 (58 :: u) = some u := fun u => rfl
    rw [g1]
    dsimp only
    rw [if_neg (by have := hv.hour; omega), hs]
    dsimp only
    rw [g2]
    dsimp only
    rw [if_neg (by have := hv.minute; omega), hs]
    dsimp only
    rw [g3]
    dsimp only
    rw [if_neg (by have := hv.second; omega), (fraction_iff _ _).2 hf]

example : parseTod (asc "7:05:09,5") = some ⟨7, 5, 9, 500000000⟩ ∧ parseTod (asc "24:00:00") = none ∧ parseTod (asc "7:5:09") = none ∧ parseTod (asc "07:05:09 ") = none ∧ parseTod [] = none := by
  decide +kernel

/-! ## C101: specification -/

/-- A map: the entries in the order of the keys, each key once; the texts are UTF-8. -/
def GoodMap : Option StrMap → Prop
  | none => True
  | some m => m.Pairwise (fun a b => bytesLt a.1 b.1 = true) ∧ ∀ p ∈ m, ValidUtf8 p.1 ∧ ValidUtf8 p.2

/-- The texts are UTF-8, the numbers fit their types, the time of day exists. -/
structure Conf.Valid (c : Conf) : Prop where
  urls : ∀ l, c.urls = some l → ∀ u ∈ l, ValidUtf8 u
  folders : GoodMap c.folders
  db : ∀ d, c.db = some d → ValidUtf8 d.dsn ∧ ValidUtf8 d.dbName ∧ GoodMap d.values
  certFile : ValidUtf8 c.certFile
  keyFile : ValidUtf8 c.keyFile
  port : -(2 ^ 63) ≤ c.port ∧ c.port < 2 ^ 63
  maxRows : c.maxRows < 2 ^ 64
  updateAt : c.updateAt.Valid
  updateTimer : -(2 ^ 63) ≤ c.updateTimer ∧ c.updateTimer < 2 ^ 63

/-! ## Lemmas -/

theorem fix_ascii : ∀ (s : Bytes), (∀ c ∈ s, c < 0x80) → ValidUtf8 s
  | [], _ => rfl
  | b :: t, h => by
    have ih := fix_ascii t (fun c hc => h c (by simp [hc]))
    unfold ValidUtf8 fixUtf8 at ih ⊢
    rw [fixUtf8From_zero, width_ascii (h b (by simp)) t]
    dsimp only
    rw [ih]

theorem ascii_of_digit {c : Byte} (h : digit c = true) : c < 0x80 := by
  revert h
  exact forall_byte (P := fun c => digit c = true → c < 0x80) (by decide +kernel) c

theorem todText_ascii (t : Tod) : ∀ c ∈ todText t, c < 0x80 := by
  intro c hc
  unfold todText at hc
  have h58 : (58 : Byte) < 0x80 := by decide
  have h46 : (46 : Byte) < 0x80 := by decide
  simp only [List.mem_append, List.mem_cons] at hc
  rcases hc with (h | rfl | h) | h
  · rcases h with h | rfl | h
    · exact ascii_of_digit (pad_digits _ _ c h)
    · exact h58
    · exact ascii_of_digit (pad_digits _ _ c h)
  · exact h58
  · exact ascii_of_digit (pad_digits _ _ c h)
  · split at h
    · rcases List.mem_cons.1 h with rfl | h
      · exact h46
      · exact ascii_of_digit (pad_digits _ _ c (List.mem_of_mem_take h))
    · cases h

/-- The text of a duration has ASCII characters only. -/
theorem fmt_ascii (d : Int) : ∀ c ∈ Util.fmtDuration d, c.toNat < 128 := by
  have hn : ∀ n, ∀ c ∈ Ingest.showNat n, c.toNat < 128 := by
    intro n c hc
    have := Ingest.showNat_dig n c hc
    unfold Ingest.isDig at this
    simp only [Bool.and_eq_true, decide_eq_true_eq] at this
    omega
  have hi : ∀ i, ∀ c ∈ Util.showInt i, c.toNat < 128 := by
    intro i c hc
    unfold Util.showInt at hc
    split at hc
    · rcases List.mem_cons.1 hc with rfl | hc
      · decide
      · exact hn _ c hc
    · exact hn _ c hc
  have hu : ∀ c ∈ (Util.fmtUnit d).1, c.toNat < 128 := by
    unfold Util.fmtUnit
    (repeat' split) <;> decide
  intro c hc
  unfold Util.fmtDuration at hc
  split at hc
  · revert hc; revert c; decide
  · rcases List.mem_append.1 hc with hc | hc
    · exact hi _ c hc
    · exact hu c hc

theorem charsOf_bytesOf : ∀ (s : Ingest.Str), (∀ c ∈ s, c.toNat < 128) → charsOf (bytesOf s) = s
  | [], _ => rfl
  | [a], h => by
    have ha := h a (by simp)
    have e : (UInt8.ofNat a.toNat).toNat = a.toNat := by
      rw [UInt8.toNat_ofNat']
      omega
    have hlt : UInt8.ofNat a.toNat < 0x80 := by
      rw [UInt8.lt_iff_toNat_lt, e]
      exact ha
    show charsOf [UInt8.ofNat a.toNat] = _
    unfold charsOf
    rw [if_pos hlt, e, Char.ofNat_toNat]
  | a :: b :: t, h => by
    have ha := h a (by simp)
    have e : (UInt8.ofNat a.toNat).toNat = a.toNat := by
      rw [UInt8.toNat_ofNat']
      omega
    have hlt : UInt8.ofNat a.toNat < 0x80 := by
      rw [UInt8.lt_iff_toNat_lt, e]
      exact ha
    have ih := charsOf_bytesOf (b :: t) (fun c hc => h c (by simp [hc]))
    show charsOf (UInt8.ofNat a.toNat :: UInt8.ofNat b.toNat :: bytesOf t) = _
    rw [charsOf]
    have hne : ¬ (UInt8.ofNat a.toNat = 0xC2 ∧ UInt8.ofNat b.toNat = 0xB5) := by
      rintro ⟨h1, -⟩
      rw [h1] at hlt
      exact absurd hlt (by decide)
    rw [if_neg hne, if_pos hlt, e, Char.ofNat_toNat]
    exact congrArg _ ih

theorem duration_text (d : Int) (h1 : -(2 ^ 63) ≤ d) (h2 : d < 2 ^ 63) : parseDurationText (durationText d) = some d := by
  unfold parseDurationText durationText
  rw [charsOf_bytesOf _ (fmt_ascii d)]
  exact Util.C58_duration_roundtrip d h1 h2

theorem durationText_ascii (d : Int) : ∀ c ∈ durationText d, c < 0x80 := by
  intro c hc
  obtain ⟨x, hx, rfl⟩ := List.mem_map.1 hc
  have := fmt_ascii d x hx
  rw [UInt8.lt_iff_toNat_lt, UInt8.toNat_ofNat']
  have e : (0x80 : Byte).toNat = 128 := rfl
  omega

theorem fixMembers_map : ∀ l : List (Bytes × J), fixMembers l = l.map (fun p => (fixUtf8 p.1, fix p.2))
  | [] => by rw [fixMembers]; rfl
  | (k, v) :: l => by rw [fixMembers, fixMembers_map l]; rfl

theorem fixElems_map : ∀ l : List J, fixElems l = l.map fix
  | [] => by rw [fixElems]; rfl
  | v :: l => by rw [fixElems, fixElems_map l]; rfl

theorem intsMembers_iff : ∀ l : List (Bytes × J), IntsMembers l ↔ ∀ p ∈ l, Ints p.2
  | [] => by rw [IntsMembers]; simp
  | (k, v) :: l => by rw [IntsMembers, intsMembers_iff l]; simp

theorem intsElems_iff : ∀ l : List J, IntsElems l ↔ ∀ p ∈ l, Ints p
  | [] => by rw [IntsElems]; simp
  | v :: l => by rw [IntsElems, intsElems_iff l]; simp

/-- A value without other numbers than integers that is not changed by the text. -/
def Stays (j : J) : Prop := Ints j ∧ fix j = j

theorem stays_str {s : Bytes} (h : ValidUtf8 s) : Stays (.str s) := by
  refine ⟨by unfold Ints; exact True.intro, ?_⟩
  unfold fix
  rw [h]

theorem stays_map {m : Option StrMap} (h : GoodMap m) : Stays (mapJ m) := by
  cases m with
  | none => exact ⟨by unfold mapJ Ints; exact True.intro, by unfold mapJ fix; rfl⟩
  | some m =>
    refine ⟨?_, ?_⟩
    · unfold mapJ Ints
      rw [intsMembers_iff]
      intro p hp
      obtain ⟨q, _, rfl⟩ := List.mem_map.1 hp
      unfold Ints
      exact True.intro
    · unfold mapJ fix
      rw [fixMembers_map, List.map_map]
      congr 1
      apply List.map_congr_left
      intro p hp
      have := h.2 p hp
      show (fixUtf8 p.1, fix (.str p.2)) = _
      rw [this.1, (stays_str this.2).2]

theorem stays_slice {o : Option (List Bytes)} (h : ∀ l, o = some l → ∀ u ∈ l, ValidUtf8 u) : Stays (sliceJ o) := by
  cases o with
  | none => exact ⟨by unfold sliceJ Ints; exact True.intro, by unfold sliceJ fix; rfl⟩
  | some l =>
    refine ⟨?_, ?_⟩
    · unfold sliceJ Ints
      rw [intsElems_iff]
      intro p hp
      obtain ⟨q, _, rfl⟩ := List.mem_map.1 hp
      unfold Ints
      exact True.intro
    · unfold sliceJ fix
      rw [fixElems_map, List.map_map]
      congr 1
      apply List.map_congr_left
      intro p hp
      exact (stays_str (h l rfl p hp)).2

theorem stays_obj {l : List (Bytes × J)} (h : ∀ p ∈ l, ValidUtf8 p.1 ∧ Stays p.2) : Stays (.obj l) := by
  refine ⟨?_, ?_⟩
  · unfold Ints
    rw [intsMembers_iff]
    exact fun p hp => (h p hp).2.1
  · unfold fix
    rw [fixMembers_map]
    congr 1
    conv => rhs; rw [← List.map_id l]
    apply List.map_congr_left
    intro p hp
    have := h p hp
    rw [this.1, this.2.2]
    rfl

theorem names_utf8 : ∀ n ∈ confNames ++ dbNames, ValidUtf8 n := by
  have : (confNames ++ dbNames).all (fun n => n.all (fun c => decide (c < 0x80))) = true := by decide +kernel
  intro n hn
  have h := List.all_eq_true.1 this n hn
  exact fix_ascii n (fun c hc => of_decide_eq_true (List.all_eq_true.1 h c hc))

theorem stays_db {o : Option DbConf} (h : ∀ d, o = some d → ValidUtf8 d.dsn ∧ ValidUtf8 d.dbName ∧ GoodMap d.values) : Stays (dbJ o) := by
  cases o with
  | none => exact ⟨by unfold dbJ Ints; exact True.intro, by unfold dbJ fix; rfl⟩
  | some d =>
    obtain ⟨h1, h2, h3⟩ := h d rfl
    apply stays_obj
    intro p hp
    have hn : ∀ n ∈ dbNames, ValidUtf8 n := fun n hn => names_utf8 n (List.mem_append_right _ hn)
    simp only [List.mem_cons, List.not_mem_nil, or_false] at hp
    rcases hp with rfl | rfl | rfl | rfl
    · exact ⟨hn _ (by simp [dbNames]), stays_str h1⟩
    · exact ⟨hn _ (by simp [dbNames]), stays_str h2⟩
    · exact ⟨hn _ (by simp [dbNames]), stays_map h3⟩
    · exact ⟨hn _ (by simp [dbNames]), by unfold Ints; exact True.intro, by unfold fix; rfl⟩

/-- The value of the field with a number. -/
def val (c : Conf) : Nat → J
  | 0 => sliceJ c.urls
  | 1 => mapJ c.folders
  | 2 => dbJ c.db
  | 3 => .str c.certFile
  | 4 => .str c.keyFile
  | 5 => .num (intText c.port)
  | 6 => .num (natText c.maxRows)
  | 7 => .str (todText c.updateAt)
  | _ => .str (durationText c.updateTimer)

theorem stays_val {c : Conf} (h : c.Valid) (i : Nat) : Stays (val c i) := by
  match i with
  | 0 => exact stays_slice h.urls
  | 1 => exact stays_map h.folders
  | 2 => exact stays_db h.db
  | 3 => exact stays_str h.certFile
  | 4 => exact stays_str h.keyFile
  | 5 => exact ⟨by unfold val Ints; exact intText_int _, by unfold val fix; rfl⟩
  | 6 => exact ⟨by unfold val Ints; exact natText_int _, by unfold val fix; rfl⟩
  | 7 => exact stays_str (fix_ascii _ (todText_ascii _))
  | (n + 8) => exact stays_str (fix_ascii _ (durationText_ascii _))

theorem fieldIndex_names : ∀ i < 9, ∃ k, confNames[i]? = some k ∧ fieldIndex confNames k = some i := by
  have : ∀ i < 9, (confNames[i]?).any (fun k => fieldIndex confNames k == some i) = true := by decide +kernel
  intro i hi
  have h := this i hi
  cases hk : confNames[i]? with
  | none => rw [hk] at h; cases h
  | some k =>
    rw [hk] at h
    exact ⟨k, rfl, by simpa using h⟩

theorem putKey_last (k v : Bytes) (m : StrMap) (h : ∀ p ∈ m, bytesLt p.1 k = true) : putKey k v m = m ++ [(k, v)] := by
  induction m with
  | nil => rfl
  | cons p m ih =>
    have hp := h p (by simp)
    obtain ⟨k', v'⟩ := p
    unfold putKey
    rw [if_neg (by rw [bytesLt_asymm hp]; decide), if_neg (Ne.symm (bytesLt_ne hp)), ih (fun q hq => h q (by simp [hq]))]
    rfl

theorem decEntries_sorted (m l : StrMap) (h : (m ++ l).Pairwise (fun a b => bytesLt a.1 b.1 = true)) :
    decEntries m (l.map fun p => (p.1, J.str p.2)) = some (m ++ l) := by
  induction l generalizing m with
  | nil => simp [decEntries]
  | cons p l ih =>
    have hp : ∀ q ∈ m, bytesLt q.1 p.1 = true := fun q hq => (List.pairwise_append.1 h).2.2 q hq p (by simp)
    show decEntries (putKey p.1 p.2 m) (l.map fun p => (p.1, J.str p.2)) = _
    rw [putKey_last _ _ _ hp]
    have e : m ++ p :: l = (m ++ [(p.1, p.2)]) ++ l := by simp
    rw [e] at h ⊢
    exact ih _ h

theorem decMap_mapJ (m : Option StrMap) (h : GoodMap m) : decMap none (mapJ m) = some m := by
  cases m with
  | none => rfl
  | some m =>
    unfold mapJ decMap
    dsimp only
    rw [show (none : Option StrMap).getD [] = [] from rfl, decEntries_sorted [] m h.1]
    rfl

theorem decElems_strs (l : List Bytes) : decElems [] (l.map J.str) = some l := by
  induction l with
  | nil => rfl
  | cons s l ih =>
    show (decElems [] (l.map J.str)).map (s :: ·) = _
    rw [ih]
    rfl

theorem decSlice_sliceJ (o : Option (List Bytes)) : decSlice none (sliceJ o) = some o := by
  cases o with
  | none => rfl
  | some l =>
    unfold sliceJ decSlice
    dsimp only
    rw [show (none : Option (List Bytes)).getD [] = [] from rfl, decElems_strs]
    rfl

theorem decDb_dbJ (o : Option DbConf) (h : ∀ d, o = some d → GoodMap d.values) : decDb none (dbJ o) = some o := by
  cases o with
  | none => rfl
  | some d =>
    have hi : fieldIndex dbNames (asc "Dsn") = some 0 ∧ fieldIndex dbNames (asc "DBName") = some 1 ∧ fieldIndex dbNames (asc "Values") = some 2 ∧ fieldIndex dbNames (asc "CheckSchema") = some 3 := by
      decide +kernel
    unfold dbJ decDb
    dsimp only
    simp only [decFields, hi.1, hi.2.1, hi.2.2.1, hi.2.2.2, setDb, decStr, decBool, Option.map_some, Option.getD_none, decMap_mapJ d.values (h d rfl)]

/-- The fields in `S` are those of `c`, the others have not been set. -/
def mix (c : Conf) (S : Nat → Bool) : Conf :=
  ⟨if S 0 then c.urls else none, if S 1 then c.folders else none, if S 2 then c.db else none, if S 3 then c.certFile else [], if S 4 then c.keyFile else [],
   if S 5 then c.port else 0, if S 6 then c.maxRows else 0, if S 7 then c.updateAt else ⟨0, 0, 0, 0⟩, if S 8 then c.updateTimer else 0⟩

theorem set_mix {c : Conf} (h : c.Valid) (S : Nat → Bool) (i : Nat) (hi : i < 9) (hS : S i = false) :
    setConf i (val c i) (mix c S) = some (mix c (fun j => j == i || S j)) := by
  match i, hi with
  | 0, _ => simp [setConf, val, mix, hS, decSlice_sliceJ]
  | 1, _ => simp [setConf, val, mix, hS, decMap_mapJ _ h.folders]
  | 2, _ => simp [setConf, val, mix, hS, decDb_dbJ _ (fun d hd => (h.db d hd).2.2)]
  | 3, _ => simp [setConf, val, mix, decStr]
  | 4, _ => simp [setConf, val, mix, decStr]
  | 5, _ => simp [setConf, val, mix, decInt, parseInt64_intText _ h.port.1 h.port.2]
  | 6, _ =>
    have hn : Rows.digitsVal 0 (natText c.maxRows) = some c.maxRows := by rw [natText_eq]; exact Rows.digitsVal_decimal _
    have hd : decUint (mix c S).maxRows (.num (natText c.maxRows)) = some c.maxRows := by
      unfold decUint
      dsimp only
      rw [hn]
      dsimp only
      rw [if_pos h.maxRows]
    show (decUint (mix c S).maxRows (.num (natText c.maxRows))).map _ = _
    rw [hd]
    simp [mix]
  | 7, _ => simp [setConf, val, mix, decTod, C100_roundtrip _ h.updateAt]
  | 8, _ => simp [setConf, val, mix, decDuration, duration_text _ h.updateTimer.1 h.updateTimer.2]

/-- Members for different fields, with the values of `c`, among unknown ones. -/
theorem dec_members {c : Conf} (h : c.Valid) (l : List (Bytes × J)) (hl : ∀ p ∈ l, ∀ i, fieldIndex confNames p.1 = some i → i < 9 ∧ p.2 = val c i)
    (hn : (l.filterMap (fun p => fieldIndex confNames p.1)).Nodup) (S : Nat → Bool) (hS : ∀ i ∈ l.filterMap (fun p => fieldIndex confNames p.1), S i = false) :
    decFields confNames setConf (mix c S) l = some (mix c (fun j => decide (j ∈ l.filterMap (fun p => fieldIndex confNames p.1)) || S j)) := by
  induction l generalizing S with
  | nil => simp [decFields]
  | cons p l ih =>
    obtain ⟨k, v⟩ := p
    unfold decFields
    cases hk : fieldIndex confNames k with
    | none =>
      have e : ((k, v) :: l).filterMap (fun p => fieldIndex confNames p.1) = l.filterMap (fun p => fieldIndex confNames p.1) := by
        rw [List.filterMap_cons]
        simp only [hk]
      rw [e] at hn hS ⊢
      exact ih (fun q hq => hl q (by simp [hq])) hn S hS
    | some i =>
      have e : ((k, v) :: l).filterMap (fun p => fieldIndex confNames p.1) = i :: l.filterMap (fun p => fieldIndex confNames p.1) := by
        rw [List.filterMap_cons]
        simp only [hk]
      rw [e] at hn hS ⊢
      obtain ⟨hi, rfl⟩ := hl (k, v) (by simp) i hk
      dsimp only
      rw [set_mix h S i hi (hS i (by simp))]
      dsimp only
      have hn' := List.nodup_cons.1 hn
      rw [ih (fun q hq => hl q (by simp [hq])) hn'.2]
      · congr 2
        funext j
        by_cases hj : j = i
        · subst hj; simp
        · have hb : (j == i) = false := by simpa using hj
          simp [hb, hj]
      · intro j hj
        have : j ≠ i := fun e => hn'.1 (e ▸ hj)
        simp [this, hS j (by simp [hj])]

theorem members_eq (c : Conf) : confMembers c = (List.range 9).map (fun i => (confNames.getD i [], val c i)) := rfl

theorem index_of_name : ∀ i < 9, fieldIndex confNames (confNames.getD i []) = some i := by decide +kernel

theorem mem_members {c : Conf} {p : Bytes × J} (hp : p ∈ confMembers c) : ∃ i, i < 9 ∧ p.1 = confNames.getD i [] ∧ p.2 = val c i := by
  rw [members_eq] at hp
  obtain ⟨i, hi, rfl⟩ := List.mem_map.1 hp
  exact ⟨i, List.mem_range.1 hi, rfl, rfl⟩

theorem members_index (c : Conf) : (confMembers c).filterMap (fun p => fieldIndex confNames p.1) = List.range 9 := by
  rw [members_eq, List.filterMap_map]
  have : ∀ l : List Nat, (∀ i ∈ l, i < 9) → l.filterMap ((fun p : Bytes × J => fieldIndex confNames p.1) ∘ fun i => (confNames.getD i [], val c i)) = l := by
    intro l hl
    induction l with
    | nil => rfl
    | cons i l ih =>
      rw [List.filterMap_cons]
      have : ((fun p : Bytes × J => fieldIndex confNames p.1) ∘ fun i => (confNames.getD i [], val c i)) i = some i := index_of_name i (hl i (by simp))
      rw [this]
      dsimp only
      rw [ih (fun j hj => hl j (by simp [hj]))]
  exact this _ (fun i hi => List.mem_range.1 hi)

/-! ## C101 -/

/-- A member that no field of the configuration has the name of, in any letter case. -/
def Unknown (p : Bytes × J) : Prop := ValidUtf8 p.1 ∧ Ints p.2 ∧ fieldIndex confNames p.1 = none

/-- Members of the configuration `c`, in some order, some left out, with unknown ones. -/
theorem read_some {c : Conf} (h : c.Valid) (I : List Nat) (hI : I.Nodup) (hI9 : ∀ i ∈ I, i < 9) (extra l : List (Bytes × J)) (he : ∀ p ∈ extra, Unknown p)
    (hl : l.Perm (I.map (fun i => (confNames.getD i [], val c i)) ++ extra)) : readConf (render (.obj l)) = some (mix c (fun j => decide (j ∈ I))) := by
  have hmem : ∀ p ∈ l, (∃ i, i < 9 ∧ i ∈ I ∧ p = (confNames.getD i [], val c i)) ∨ Unknown p := by
    intro p hp
    rcases List.mem_append.1 (hl.mem_iff.1 hp) with hp | hp
    · obtain ⟨i, hi, rfl⟩ := List.mem_map.1 hp
      exact .inl ⟨i, hI9 i hi, hi, rfl⟩
    · exact .inr (he p hp)
  have hname : ∀ i < 9, ValidUtf8 (confNames.getD i []) := by
    intro i hi
    refine names_utf8 _ (List.mem_append_left _ ?_)
    have : ∀ i < 9, confNames.getD i [] ∈ confNames := by decide +kernel
    exact this i hi
  have hints : Ints (.obj l) := by
    unfold Ints
    rw [intsMembers_iff]
    intro p hp
    rcases hmem p hp with ⟨i, hi, _, rfl⟩ | hu
    · exact (stays_val h i).1
    · exact hu.2.1
  unfold readConf
  rw [parse_render _ hints]
  unfold fix
  dsimp only
  unfold decConf
  dsimp only
  rw [fixMembers_map]
  have hidx : ∀ p ∈ l, fieldIndex confNames (fixUtf8 p.1) = fieldIndex confNames p.1 := by
    intro p hp
    rcases hmem p hp with ⟨i, hi, _, rfl⟩ | hu
    · rw [show fixUtf8 (confNames.getD i [], val c i).1 = confNames.getD i [] from hname i hi]
    · rw [show fixUtf8 p.1 = p.1 from hu.1]
  have hfm : (l.map (fun p => (fixUtf8 p.1, fix p.2))).filterMap (fun p => fieldIndex confNames p.1) = l.filterMap (fun p => fieldIndex confNames p.1) := by
    rw [List.filterMap_map]
    clear hl hints
    induction l with
    | nil => rfl
    | cons p l ih =>
      rw [List.filterMap_cons, List.filterMap_cons]
      have : ((fun p : Bytes × J => fieldIndex confNames p.1) ∘ fun p => (fixUtf8 p.1, fix p.2)) p = fieldIndex confNames p.1 := hidx p (by simp)
      rw [this, ih (fun q hq => hmem q (by simp [hq])) (fun q hq => hidx q (by simp [hq]))]
  have hperm : (l.filterMap (fun p => fieldIndex confNames p.1)).Perm I := by
    have h1 := hl.filterMap (fun p => fieldIndex confNames p.1)
    rw [List.filterMap_append] at h1
    have h2 : (I.map (fun i => (confNames.getD i [], val c i))).filterMap (fun p => fieldIndex confNames p.1) = I := by
      rw [List.filterMap_map]
      clear hl hI hmem h1
      induction I with
      | nil => rfl
      | cons i I ih =>
        rw [List.filterMap_cons]
        have : ((fun p : Bytes × J => fieldIndex confNames p.1) ∘ fun i => (confNames.getD i [], val c i)) i = some i := index_of_name i (hI9 i (by simp))
        rw [this]
        dsimp only
        rw [ih (fun j hj => hI9 j (by simp [hj]))]
    have h3 : extra.filterMap (fun p => fieldIndex confNames p.1) = [] := by
      rw [List.filterMap_eq_nil_iff]
      exact fun p hp => (he p hp).2.2
    rw [h2, h3, List.append_nil] at h1
    exact h1
  have hz : zeroConf = mix c (fun _ => false) := rfl
  rw [hz, dec_members h]
  · rw [hfm]
    congr 2
    funext j
    rw [Bool.or_false]
    exact decide_eq_decide.2 hperm.mem_iff
  · intro p hp i hi
    obtain ⟨q, hq, rfl⟩ := List.mem_map.1 hp
    have hi' : fieldIndex confNames q.1 = some i := by rw [← hidx q hq]; exact hi
    rcases hmem q hq with ⟨j, hj, _, rfl⟩ | hu
    · have hji : fieldIndex confNames (confNames.getD j []) = some i := hi'
      rw [index_of_name j hj] at hji
      cases hji
      exact ⟨hj, (stays_val h _).2⟩
    · rw [hu.2.2] at hi'
      cases hi'
  · rw [hfm]
    exact hperm.nodup_iff.2 hI
  · intro _ _
    rfl

theorem mix_all (c : Conf) : mix c (fun j => decide (j ∈ List.range 9)) = c := rfl

/-- C101: a configuration that is written to a file and read again is the same (if its texts are UTF-8). -/
theorem C101_roundtrip_partial (c : Conf) (h : c.Valid) : readConf (writeConf c) = some c := by
  have := read_some h (List.range 9) List.nodup_range (fun i hi => List.mem_range.1 hi) [] (confMembers c) (fun p hp => by cases hp) (by rw [members_eq, List.append_nil])
  rw [mix_all] at this
  exact this

/-- C101: the order of the entries of the file does not matter, and entries with other names are ignored. -/
theorem C101_any_order (c : Conf) (h : c.Valid) (extra l : List (Bytes × J)) (he : ∀ p ∈ extra, Unknown p) (hl : l.Perm (confMembers c ++ extra)) :
    readConf (render (.obj l)) = some c := by
  have := read_some h (List.range 9) List.nodup_range (fun i hi => List.mem_range.1 hi) extra l he (by rw [← members_eq]; exact hl)
  rw [mix_all] at this
  exact this

/-- C101 is violated: a file without the entry for the update interval is accepted, the interval is 0, and the server panics when it sets the timer (C80). -/
theorem C101_no_interval_violated (c : Conf) (h : c.Valid) (now whn : Nat) (cancel : Option Nat) (w : Ticker.World) :
    readConf (render (.obj ((confMembers c).take 8))) = some { c with updateTimer := 0 } ∧ Ticker.runWhen ⟨now, whn, (0 : Int).toNat, cancel⟩ w = none := by
  refine ⟨?_, Ticker.C80_zero_interval_violated now whn cancel w⟩
  have := read_some h (List.range 8) List.nodup_range (fun i hi => by have := List.mem_range.1 hi; omega) [] ((confMembers c).take 8) (fun p hp => by cases hp) (by rw [List.append_nil]; rfl)
  exact this

/-- A configuration as the server writes it for a sample (cmd/mapserver/main.go:134-155). -/
def exConf : Conf :=
  ⟨some [asc "https://ct.googleapis.com/logs/xenon2023/"], some [(asc "a<b>", asc "x/\"y\""), (asc "c", [])], some ⟨[], asc "fpki", some [(asc "DBNAME", asc "fpki")], true⟩,
   asc "tests/testdata/servercert.pem", [0xC3, 0xA9, 0xE2, 0x80, 0xA8, 10], -8443, 1000000, ⟨3, 0, 0, 0⟩, 86400000000000⟩

theorem exConf_valid : exConf.Valid where
  urls := by
    intro l hl
    cases hl
    intro u hu
    rw [List.mem_singleton.1 hu]
    exact (by decide +kernel : fixUtf8 (asc "https://ct.googleapis.com/logs/xenon2023/") = asc "https://ct.googleapis.com/logs/xenon2023/")
  folders := by
    refine ⟨?_, ?_⟩
    · have : bytesLt (asc "a<b>") (asc "c") = true := by decide +kernel
      simp [this]
    · intro p hp
      simp only [List.mem_cons, List.not_mem_nil, or_false] at hp
      unfold ValidUtf8
      rcases hp with rfl | rfl <;> decide +kernel
  db := by
    intro d hd
    cases hd
    refine ⟨?_, ?_, ?_, ?_⟩
    · unfold ValidUtf8; decide +kernel
    · unfold ValidUtf8; decide +kernel
    · simp
    · intro p hp
      rw [List.mem_singleton.1 hp]
      unfold ValidUtf8
      decide +kernel
  certFile := by unfold ValidUtf8; decide +kernel
  keyFile := by unfold ValidUtf8; decide +kernel
  port := by decide
  maxRows := by decide
  updateAt := ⟨by decide, by decide, by decide, by decide⟩
  updateTimer := by decide

example : exConf.Valid ∧ readConf (writeConf exConf) = some exConf := ⟨exConf_valid, C101_roundtrip_partial _ exConf_valid⟩

example : Unknown (asc "Comment", .str (asc "x")) := ⟨by unfold ValidUtf8; decide +kernel, by unfold Ints; exact True.intro, by decide +kernel⟩

/-- Names are also found in another letter case, and white space does not matter. -/
example : (readConf (asc "{ \"httpapiport\" : 80,\n\"UPDATEAT\":\"3:00:00\" }")).map (fun c => (c.port, c.updateAt)) = some (80, ⟨3, 0, 0, 0⟩) := by decide +kernel

/-- Wrong types, fractions for integers, missing quotes, text after the end, and null for the time of day are errors. -/
example : readConf (asc "{\"HttpAPIPort\":\"80\"}") = none ∧ readConf (asc "{\"HttpAPIPort\":80.0}") = none ∧ readConf (asc "{HttpAPIPort:80}") = none ∧
    readConf (asc "{} {}") = none ∧ readConf (asc "{\"UpdateAt\":null}") = none ∧ readConf (asc "{\"HttpAPIPort\":9223372036854775808}") = none ∧ readConf (asc "{\"CsvIngestionMaxRows\":-1}") = none := by
  decide +kernel

/-- C101 without UTF-8 is violated: a file name with another byte is not the same afterwards. -/
theorem C101_not_utf8_violated : ∃ c : Conf, (∃ c', readConf (writeConf c) = some c' ∧ c'.certFile ≠ c.certFile ∧ c'.certFile = [0xEF, 0xBF, 0xBD]) :=
  ⟨{ zeroConf with certFile := [0xFF] }, { zeroConf with certFile := [0xEF, 0xBF, 0xBD] }, by decide +kernel, by decide, rfl⟩

end Fpki.Config
