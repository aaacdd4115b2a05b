import Verif.Model.Json
/-! The text written for a JSON value is read as that value. -/
namespace Fpki.Json

open Fpki.Policy

theorem forall_byte {P : Byte → Prop} (h : ∀ n : Fin 256, P (UInt8.ofNat n.val)) (b : Byte) : P b := by
  have := h ⟨b.toNat, b.toNat_lt⟩
  simpa using this

/-! ## Strings -/

theorem quoteFrom_zero (b : Byte) (t : Bytes) : quoteFrom 0 0 (b :: t) =
    if b < 0x80 then quoteAscii b ++ quoteFrom 0 0 t
    else
      match runeWidth (b :: t) with
      | 0 => [0x5C, 0x75, 0x66, 0x66, 0x66, 0x64] ++ quoteFrom 0 0 t
      | n + 1 =>
        if b = 0xE2 ∧ t[0]? = some 0x80 ∧ t[1]? = some 0xA8 then [0x5C, 0x75, 0x32, 0x30, 0x32, 0x38] ++ quoteFrom 0 2 t
        else if b = 0xE2 ∧ t[0]? = some 0x80 ∧ t[1]? = some 0xA9 then [0x5C, 0x75, 0x32, 0x30, 0x32, 0x39] ++ quoteFrom 0 2 t
        else b :: quoteFrom n 0 t := by
  conv => lhs; unfold quoteFrom
  rfl

theorem quoteFrom_copy (k : Nat) (b : Byte) (t : Bytes) : quoteFrom (k + 1) 0 (b :: t) = b :: quoteFrom k 0 t := by
  conv => lhs; unfold quoteFrom

theorem quoteFrom_nil (k d : Nat) : quoteFrom k d [] = [] := by
  cases k <;> cases d <;> (unfold quoteFrom; rfl)

theorem quoteFrom_drop (k d : Nat) (b : Byte) (t : Bytes) : quoteFrom k (d + 1) (b :: t) = quoteFrom k d t := by
  cases k <;> (conv => lhs; unfold quoteFrom)

theorem parseStr_zero (b : Byte) (t : Bytes) : parseStr 0 0 (b :: t) =
    if b = 0x22 then some ([], t)
    else if b < 0x20 then none
    else if b = 0x5C then
      match t with
      | [] => none
      | c :: t1 =>
        if c = 0x75 then
          match t1 with
          | x :: y :: z :: w :: rest =>
            match u4 x y z w with
            | none => none
            | some r =>
              if (unicodeEscape r (nextU4 rest)).2 then (parseStr 0 11 t).map (fun p => ((unicodeEscape r (nextU4 rest)).1 ++ p.1, p.2))
              else (parseStr 0 5 t).map (fun p => ((unicodeEscape r (nextU4 rest)).1 ++ p.1, p.2))
          | _ => none
        else
          match simpleEscape c with
          | none => none
          | some e => (parseStr 0 1 t).map (fun p => (e :: p.1, p.2))
    else
      match runeWidth (b :: t) with
      | 0 => (parseStr 0 0 t).map (fun p => ([0xEF, 0xBF, 0xBD] ++ p.1, p.2))
      | n + 1 => (parseStr n 0 t).map (fun p => (b :: p.1, p.2)) := by
  conv => lhs; unfold parseStr
  rfl

theorem parseStr_copy (k : Nat) (b : Byte) (t : Bytes) : parseStr (k + 1) 0 (b :: t) = (parseStr k 0 t).map (fun p => (b :: p.1, p.2)) := by
  conv => lhs; unfold parseStr

theorem parseStr_drop (k d : Nat) (b : Byte) (t : Bytes) : parseStr k (d + 1) (b :: t) = parseStr k d t := by
  cases k <;> (conv => lhs; unfold parseStr)

theorem fixUtf8From_zero (b : Byte) (t : Bytes) : fixUtf8From 0 (b :: t) =
    match runeWidth (b :: t) with
    | 0 => 0xEF :: 0xBF :: 0xBD :: fixUtf8From 0 t
    | n + 1 => b :: fixUtf8From n t := by
  conv => lhs; unfold fixUtf8From
  rfl

theorem width_ascii {b : Byte} (h : b < 0x80) (t : Bytes) : runeWidth (b :: t) = 1 := by
  show (if b < 0x80 then 1 else _) = 1
  rw [if_pos h]

/-- An ASCII byte is read back. -/
theorem parse_quoteAscii (b : Byte) (h : b < 0x80) (t : Bytes) : parseStr 0 0 (quoteAscii b ++ t) = (parseStr 0 0 t).map (fun p => (b :: p.1, p.2)) := by
  by_cases e : quoteAscii b = [b]
  · rw [e]
    have hb : b ≠ 0x22 ∧ ¬ b < 0x20 ∧ b ≠ 0x5C := by
      revert e h
      exact forall_byte (P := fun b => b < 0x80 → quoteAscii b = [b] → b ≠ 0x22 ∧ ¬ b < 0x20 ∧ b ≠ 0x5C) (by decide +kernel) b
    show parseStr 0 0 (b :: t) = _
    rw [parseStr_zero, if_neg hb.1, if_neg hb.2.1, if_neg hb.2.2]
    have hw : runeWidth (b :: t) = 1 := width_ascii h t
    rw [hw]
  · have key : (∃ c, quoteAscii b = [0x5C, c] ∧ c ≠ 0x75 ∧ simpleEscape c = some b) ∨ (∃ x y z w r, quoteAscii b = [0x5C, 0x75, x, y, z, w] ∧ u4 x y z w = some r ∧ surrogate r = false ∧ encodeRune r = [b]) := by
      by_cases hx : b = 0x22 ∨ b = 0x5C ∨ b = 0x08 ∨ b = 0x0C ∨ b = 0x0A ∨ b = 0x0D ∨ b = 0x09
      · rcases hx with rfl | rfl | rfl | rfl | rfl | rfl | rfl
        · exact .inl ⟨0x22, by decide +kernel⟩
        · exact .inl ⟨0x5C, by decide +kernel⟩
        · exact .inl ⟨0x62, by decide +kernel⟩
        · exact .inl ⟨0x66, by decide +kernel⟩
        · exact .inl ⟨0x6E, by decide +kernel⟩
        · exact .inl ⟨0x72, by decide +kernel⟩
        · exact .inl ⟨0x74, by decide +kernel⟩
      · refine .inr ⟨0x30, 0x30, hexDigit (b.toNat / 16), hexDigit (b.toNat % 16), b.toNat, ?_⟩
        revert e h hx
        exact forall_byte (P := fun b => b < 0x80 → ¬ quoteAscii b = [b] → ¬(b = 0x22 ∨ b = 0x5C ∨ b = 0x08 ∨ b = 0x0C ∨ b = 0x0A ∨ b = 0x0D ∨ b = 0x09) →
          quoteAscii b = [0x5C, 0x75, 0x30, 0x30, hexDigit (b.toNat / 16), hexDigit (b.toNat % 16)] ∧ u4 0x30 0x30 (hexDigit (b.toNat / 16)) (hexDigit (b.toNat % 16)) = some b.toNat ∧
          surrogate b.toNat = false ∧ encodeRune b.toNat = [b]) (by decide +kernel) b
    rcases key with ⟨c, hq, hc, hs⟩ | ⟨x, y, z, w, r, hq, hu, hr, he⟩
    · rw [hq]
      show parseStr 0 0 (0x5C :: c :: t) = _
      rw [parseStr_zero, if_neg (by decide), if_neg (by decide), if_pos rfl]
      have hd : parseStr 0 1 (c :: t) = parseStr 0 0 t := parseStr_drop 0 0 c t
      dsimp only
      rw [if_neg hc, hs]
      dsimp only
      rw [hd]
    · rw [hq]
      show parseStr 0 0 (0x5C :: 0x75 :: x :: y :: z :: w :: t) = _
      rw [parseStr_zero, if_neg (by decide), if_neg (by decide), if_pos rfl]
      dsimp only
      rw [if_pos rfl, hu]
      have hue : unicodeEscape r (nextU4 t) = ([b], false) := by
        unfold unicodeEscape
        rw [hr, he]
        rfl
      dsimp only
      rw [hue, if_neg (fun h => Bool.false_ne_true h)]
      have hd : parseStr 0 5 (0x75 :: x :: y :: z :: w :: t) = parseStr 0 0 t := by
        rw [parseStr_drop, parseStr_drop, parseStr_drop, parseStr_drop, parseStr_drop]
      rw [hd]
      rfl

/-- An escape for a rune that is no surrogate is read as that rune. -/
theorem parse_escape (x y z w : Byte) (r : Nat) (s : Bytes) (hu : u4 x y z w = some r) (hr : surrogate r = false) (he : encodeRune r = s) (t : Bytes) :
    parseStr 0 0 ([0x5C, 0x75, x, y, z, w] ++ t) = (parseStr 0 0 t).map (fun p => (s ++ p.1, p.2)) := by
  show parseStr 0 0 (0x5C :: 0x75 :: x :: y :: z :: w :: t) = _
  rw [parseStr_zero, if_neg (by decide), if_neg (by decide), if_pos rfl]
  dsimp only
  rw [if_pos rfl, hu]
  have hue : unicodeEscape r (nextU4 t) = (s, false) := by
    unfold unicodeEscape
    rw [hr, he]
    rfl
  dsimp only
  rw [hue, if_neg (fun h => Bool.false_ne_true h)]
  have hd : parseStr 0 5 (0x75 :: x :: y :: z :: w :: t) = parseStr 0 0 t := by
    rw [parseStr_drop, parseStr_drop, parseStr_drop, parseStr_drop, parseStr_drop]
  rw [hd]

theorem any_some {o : Option Byte} {p : Byte → Bool} (h : o.any p = true) : ∃ c, o = some c ∧ p c = true := by
  cases o with
  | none => cases h
  | some c => exact ⟨c, rfl, h⟩

/-- The bytes of a rune. -/
inductive Rune : Bytes → Prop
  | two {a b : Byte} (h : ∀ t, runeWidth (a :: b :: t) = 2) (ha : ¬ a < 0x80) : Rune [a, b]
  | three {a b c : Byte} (h : ∀ t, runeWidth (a :: b :: c :: t) = 3) (ha : ¬ a < 0x80) : Rune [a, b, c]
  | four {a b c d : Byte} (h : ∀ t, runeWidth (a :: b :: c :: d :: t) = 4) (ha : ¬ a < 0x80) : Rune [a, b, c, d]

/-- The width of a rune does not depend on what follows it. -/
theorem rune_of_width {a : Byte} {t : Bytes} {n : Nat} (ha : ¬ a < 0x80) (h : runeWidth (a :: t) = n + 1) : ∃ r t', t = r ++ t' ∧ r.length = n ∧ Rune (a :: r) := by
  have hw : ∀ s, runeWidth (a :: s) = if between 0xC2 0xDF a && (s[0]?).any (between 0x80 0xBF) then 2
    else if ((a == 0xE0 && (s[0]?).any (between 0xA0 0xBF)) || ((between 0xE1 0xEC a || between 0xEE 0xEF a) && (s[0]?).any (between 0x80 0xBF)) ||
        (a == 0xED && (s[0]?).any (between 0x80 0x9F))) && (s[1]?).any (between 0x80 0xBF) then 3
    else if ((a == 0xF0 && (s[0]?).any (between 0x90 0xBF)) || (between 0xF1 0xF3 a && (s[0]?).any (between 0x80 0xBF)) || (a == 0xF4 && (s[0]?).any (between 0x80 0x8F))) &&
        (s[1]?).any (between 0x80 0xBF) && (s[2]?).any (between 0x80 0xBF) then 4
    else 0 := by
    intro s
    show (if a < 0x80 then 1 else _) = _
    rw [if_neg ha]
  rw [hw] at h
  split at h
  · rename_i h2
    have hn : n = 1 := by omega
    subst hn
    cases t with
    | nil => exact absurd h2 (by simp)
    | cons b t =>
      refine ⟨[b], t, rfl, rfl, Rune.two (fun s => ?_) ha⟩
      rw [hw]
      rw [if_pos (by simpa using h2)]
  · rename_i n2
    split at h
    · rename_i h3
      have hn : n = 2 := by omega
      subst hn
      match t with
      | [] => exact absurd h3 (by simp)
      | [b] => exact absurd h3 (by simp)
      | b :: c :: t =>
        refine ⟨[b, c], t, rfl, rfl, Rune.three (fun s => ?_) ha⟩
        rw [hw]
        rw [if_neg (by simpa using n2), if_pos (by simpa using h3)]
    · rename_i n3
      split at h
      · rename_i h4
        have hn : n = 3 := by omega
        subst hn
        match t with
        | [] => exact absurd h4 (by simp)
        | [b] => exact absurd h4 (by simp)
        | [b, c] => exact absurd h4 (by simp)
        | b :: c :: d :: t =>
          refine ⟨[b, c, d], t, rfl, rfl, Rune.four (fun s => ?_) ha⟩
          rw [hw]
          rw [if_neg (by simpa using n2), if_neg (by simpa using n3), if_pos (by simpa using h4)]
      · omega

theorem rune_width {a : Byte} {r : Bytes} (h : Rune (a :: r)) (t : Bytes) : runeWidth (a :: (r ++ t)) = r.length + 1 ∧ ¬ a < 0x80 := by
  cases h with
  | two h ha => exact ⟨h t, ha⟩
  | three h ha => exact ⟨h t, ha⟩
  | four h ha => exact ⟨h t, ha⟩

theorem quoteFrom_app (r t : Bytes) : quoteFrom r.length 0 (r ++ t) = r ++ quoteFrom 0 0 t := by
  induction r with
  | nil => rfl
  | cons b r ih =>
    show quoteFrom (r.length + 1) 0 (b :: (r ++ t)) = _
    rw [quoteFrom_copy, ih]
    rfl

theorem fixUtf8From_app (r t : Bytes) : fixUtf8From r.length (r ++ t) = r ++ fixUtf8From 0 t := by
  induction r with
  | nil => rfl
  | cons b r ih =>
    show b :: fixUtf8From r.length (r ++ t) = _
    rw [ih]
    rfl

theorem parseStr_app (r t : Bytes) : parseStr r.length 0 (r ++ t) = (parseStr 0 0 t).map (fun p => (r ++ p.1, p.2)) := by
  induction r with
  | nil => cases h : parseStr 0 0 t <;> simp [h]
  | cons b r ih =>
    show parseStr (r.length + 1) 0 (b :: (r ++ t)) = _
    rw [parseStr_copy, ih]
    cases parseStr 0 0 t <;> rfl

/-- What a rune and the rest of a string give. -/
theorem parse_rune {a : Byte} {r : Bytes} (h : Rune (a :: r)) (t : Bytes) : parseStr 0 0 (a :: (r ++ t)) = (parseStr 0 0 t).map (fun p => (a :: (r ++ p.1), p.2)) := by
  have ha := (rune_width h t).2
  have h1 : ¬ a = 0x22 ∧ ¬ a < 0x20 ∧ ¬ a = 0x5C := by
    clear h
    revert ha
    exact forall_byte (P := fun a => ¬ a < 0x80 → ¬ a = 0x22 ∧ ¬ a < 0x20 ∧ ¬ a = 0x5C) (by decide +kernel) a
  rw [parseStr_zero, if_neg h1.1, if_neg h1.2.1, if_neg h1.2.2, (rune_width h t).1]
  dsimp only
  rw [parseStr_app]
  cases parseStr 0 0 t <;> rfl

/-- A string is read as it was, with the bytes that are not UTF-8 replaced. -/
theorem parse_quoteFrom : ∀ (n : Nat) (s : Bytes), s.length ≤ n → ∀ rest, parseStr 0 0 (quoteFrom 0 0 s ++ 0x22 :: rest) = some (fixUtf8 s, rest)
  | _, [], _, rest => by
    rw [quoteFrom_nil]
    show parseStr 0 0 (0x22 :: rest) = _
    rw [parseStr_zero, if_pos rfl]
    rfl
  | n + 1, b :: t, hn, rest => by
    have hl : t.length ≤ n := Nat.le_of_succ_le_succ hn
    have ih := parse_quoteFrom n
    rw [quoteFrom_zero]
    by_cases h80 : b < 0x80
    · rw [if_pos h80, List.append_assoc, parse_quoteAscii b h80, ih t hl]
      have hw : runeWidth (b :: t) = 1 := width_ascii h80 t
      unfold fixUtf8
      rw [fixUtf8From_zero, hw]
      rfl
    · rw [if_neg h80]
      unfold fixUtf8
      rw [fixUtf8From_zero]
      cases hw : runeWidth (b :: t) with
      | zero =>
        dsimp only
        rw [List.append_assoc, parse_escape 0x66 0x66 0x66 0x64 0xFFFD [0xEF, 0xBF, 0xBD] (by decide +kernel) (by decide +kernel) (by decide +kernel), ih t hl]
        rfl
      | succ m =>
        dsimp only
        obtain ⟨r, t', ht, hm, hr⟩ := rune_of_width h80 hw
        subst hm
        have hl' : t'.length ≤ n := by rw [ht, List.length_append] at hl; omega
        have special : ∀ z : Byte, (b = 0xE2 ∧ t[0]? = some 0x80 ∧ t[1]? = some z) → (z = 0xA8 ∨ z = 0xA9) → quoteFrom 0 2 t = quoteFrom 0 0 t' ∧ r = [0x80, z] := by
          rintro z ⟨hb, h0, h1⟩ hz
          subst hb
          match t, h0, h1 with
          | c :: d :: t, h0, h1 =>
            cases h0
            cases h1
            have hr2 : r.length = 2 := by
              have : runeWidth (0xE2 :: 0x80 :: z :: t) = 3 := by
                rcases hz with rfl | rfl <;> rfl
              omega
            match r, hr2 with
            | [x, y], _ =>
              cases ht
              exact ⟨by rw [quoteFrom_drop, quoteFrom_drop]; rfl, rfl⟩
        split
        · rename_i hc
          obtain ⟨h1, h2⟩ := special _ hc (.inl rfl)
          rw [h1, List.append_assoc, parse_escape 0x32 0x30 0x32 0x38 0x2028 [0xE2, 0x80, 0xA8] (by decide +kernel) (by decide +kernel) (by decide +kernel), ih t' hl']
          rw [ht, fixUtf8From_app, h2, hc.1]
          rfl
        · split
          · rename_i hc
            obtain ⟨h1, h2⟩ := special _ hc (.inr rfl)
            rw [h1, List.append_assoc, parse_escape 0x32 0x30 0x32 0x39 0x2029 [0xE2, 0x80, 0xA9] (by decide +kernel) (by decide +kernel) (by decide +kernel), ih t' hl']
            rw [ht, fixUtf8From_app, h2, hc.1]
            rfl
          · rw [ht, quoteFrom_app, fixUtf8From_app]
            show parseStr 0 0 (b :: (r ++ quoteFrom 0 0 t' ++ 0x22 :: rest)) = _
            rw [List.append_assoc, parse_rune hr, ih t' hl']
            rfl

theorem parse_quote (s rest : Bytes) : ∃ t, quote s ++ rest = 0x22 :: t ∧ parseStr 0 0 t = some (fixUtf8 s, rest) := by
  refine ⟨quoteFrom 0 0 s ++ 0x22 :: rest, ?_, parse_quoteFrom s.length s (Nat.le_refl _) rest⟩
  unfold quote
  simp

/-! ## Numbers -/

/-- An integer as it is written in a JSON text: no leading zeros. -/
structure IntLit (lit : Bytes) : Prop where
  ex : ∃ (neg : Bool) (b : Byte) (t : Bytes), lit = (if neg then [0x2D] else []) ++ b :: t ∧ digit b = true ∧ (∀ c ∈ t, digit c = true) ∧ (b = 0x30 → t = [])

/-- The text cannot continue a number. -/
def Ends (rest : Bytes) : Prop := ∀ c t, rest = c :: t → digit c = false ∧ c ≠ 0x2E ∧ c ≠ 0x65 ∧ c ≠ 0x45

theorem takeWhile_app {p : Byte → Bool} {l rest : Bytes} (h : ∀ c ∈ l, p c = true) (hr : ∀ c t, rest = c :: t → p c = false) :
    (l ++ rest).takeWhile p = l ∧ (l ++ rest).dropWhile p = rest := by
  induction l with
  | nil =>
    cases rest with
    | nil => exact ⟨rfl, rfl⟩
    | cons c t =>
      have hc := hr c t rfl
      exact ⟨by simp [hc], by simp [hc]⟩
  | cons b l ih =>
    have hb := h b (by simp)
    have := ih (fun c hc => h c (by simp [hc]))
    simp [hb, this.1, this.2]

theorem parseFrac_ends {rest : Bytes} (h : Ends rest) : parseFrac rest = some ([], rest) := by
  cases rest with
  | nil => rfl
  | cons c t =>
    unfold parseFrac
    split
    · rename_i heq
      cases heq
      exact absurd rfl (h _ _ rfl).2.1
    · rfl

theorem parseExp_ends {rest : Bytes} (h : Ends rest) : parseExp rest = some ([], rest) := by
  cases rest with
  | nil => rfl
  | cons c t =>
    unfold parseExp
    dsimp only
    rw [if_neg (fun hc => hc.elim (h c t rfl).2.2.1 (h c t rfl).2.2.2)]

theorem parseNum_int {lit rest : Bytes} (h : IntLit lit) (hr : Ends rest) : parseNum (lit ++ rest) = some (lit, rest) := by
  obtain ⟨neg, b, t, rfl, hb, ht, h0⟩ := h.ex
  have hi : parseInt (b :: (t ++ rest)) = some (b :: t, rest) := by
    unfold parseInt
    dsimp only
    by_cases h30 : b = 0x30
    · have := h0 h30
      subst this
      rw [if_pos h30]
      rfl
    · rw [if_neg h30, if_pos hb]
      have := takeWhile_app (p := digit) (l := t) (rest := rest) ht (fun c t' e => (hr c t' e).1)
      rw [this.1, this.2]
  have hs : (if (((if neg then [0x2D] else []) ++ b :: t ++ rest : Bytes)).head? = some 0x2D then [0x2D] else [] : Bytes) = if neg then [0x2D] else [] := by
    cases neg with
    | true => rfl
    | false =>
      have : b ≠ 0x2D := by
        intro e
        subst e
        revert hb
        decide
      show (if some b = some 0x2D then [0x2D] else [] : Bytes) = []
      rw [if_neg (fun e => this (Option.some.inj e))]
  unfold parseNum
  simp only [hs]
  have hd : (((if neg then [0x2D] else []) ++ b :: t ++ rest : Bytes)).drop (if neg then [0x2D] else [] : Bytes).length = b :: (t ++ rest) := by
    cases neg <;> rfl
  rw [hd, hi]
  dsimp only
  rw [parseFrac_ends hr]
  dsimp only
  rw [parseExp_ends hr]
  dsimp only
  simp

/-! ## Values -/

mutual
/-- The numbers are integers. -/
def Ints : J → Prop
  | .num lit => IntLit lit
  | .arr l => IntsElems l
  | .obj l => IntsMembers l
  | _ => True
def IntsElems : List J → Prop
  | [] => True
  | v :: l => Ints v ∧ IntsElems l
def IntsMembers : List (Bytes × J) → Prop
  | [] => True
  | (_, v) :: l => Ints v ∧ IntsMembers l
end

mutual
/-- The bytes of texts that are not UTF-8 are replaced. -/
def fix : J → J
  | .null => .null
  | .bool b => .bool b
  | .num lit => .num lit
  | .str s => .str (fixUtf8 s)
  | .arr l => .arr (fixElems l)
  | .obj l => .obj (fixMembers l)
def fixElems : List J → List J
  | [] => []
  | v :: l => fix v :: fixElems l
def fixMembers : List (Bytes × J) → List (Bytes × J)
  | [] => []
  | (k, v) :: l => (fixUtf8 k, fix v) :: fixMembers l
end

mutual
/-- The calls the parser needs. -/
def cost : J → Nat
  | .arr l => 1 + costElems l
  | .obj l => 1 + costMembers l
  | _ => 1
def costElems : List J → Nat
  | [] => 0
  | v :: l => 1 + cost v + costElems l
def costMembers : List (Bytes × J) → Nat
  | [] => 0
  | (_, v) :: l => 1 + cost v + costMembers l
end

/-- A value does not begin with white space or a closing bracket. -/
theorem render_head (j : J) (h : Ints j) (rest : Bytes) : ∃ b t, render j ++ rest = b :: t ∧ space b = false ∧ b ≠ 0x5D ∧ b ≠ 0x7D := by
  cases j with
  | null => exact ⟨0x6E, _, rfl, by decide, by decide, by decide⟩
  | bool b => cases b <;> exact ⟨_, _, rfl, by decide, by decide, by decide⟩
  | num lit =>
    unfold Ints at h
    obtain ⟨neg, b, t, rfl, hb, ht, h0⟩ := h.ex
    cases neg with
    | true => exact ⟨0x2D, _, rfl, by decide, by decide, by decide⟩
    | false =>
      refine ⟨b, t ++ rest, rfl, ?_⟩
      revert hb
      exact forall_byte (P := fun b => digit b = true → space b = false ∧ b ≠ 0x5D ∧ b ≠ 0x7D) (by decide +kernel) b
  | str s =>
    obtain ⟨t, ht, _⟩ := parse_quote s rest
    exact ⟨0x22, t, ht, by decide, by decide, by decide⟩
  | arr l => exact ⟨0x5B, _, rfl, by decide, by decide, by decide⟩
  | obj l => exact ⟨0x7B, _, rfl, by decide, by decide, by decide⟩

theorem skipWs_cons {b : Byte} (t : Bytes) (h : space b = false) : skipWs (b :: t) = b :: t := by
  unfold skipWs
  rw [List.dropWhile_cons, h]
  rfl

theorem ends_of {c : Byte} {t : Bytes} (h : c = 0x2C ∨ c = 0x5D ∨ c = 0x7D) : Ends (c :: t) := by
  intro c' t' e
  cases e
  rcases h with rfl | rfl | rfl <;> decide

theorem ends_nil : Ends [] := fun _ _ e => by cases e

theorem parseValue_succ (n : Nat) (s : Bytes) : parseValue (n + 1) s =
    match skipWs s with
    | [] => none
    | b :: t =>
      if b = 0x22 then (parseStr 0 0 t).map (fun p => (.str p.1, p.2))
      else if b = 0x5B then
        match skipWs t with
        | [] => none
        | c :: t' => if c = 0x5D then some (.arr [], t') else (parseElems n t).map (fun p => (.arr p.1, p.2))
      else if b = 0x7B then
        match skipWs t with
        | [] => none
        | c :: t' => if c = 0x7D then some (.obj [], t') else (parseMembers n t).map (fun p => (.obj p.1, p.2))
      else if b = 0x74 then (if t.take 3 = [0x72, 0x75, 0x65] then some (.bool true, t.drop 3) else none)
      else if b = 0x66 then (if t.take 4 = [0x61, 0x6C, 0x73, 0x65] then some (.bool false, t.drop 4) else none)
      else if b = 0x6E then (if t.take 3 = [0x75, 0x6C, 0x6C] then some (.null, t.drop 3) else none)
      else (parseNum (b :: t)).map (fun p => (.num p.1, p.2)) := by
  conv => lhs; unfold parseValue
  rfl

theorem parseElems_succ (n : Nat) (s : Bytes) : parseElems (n + 1) s =
    match parseValue n s with
    | none => none
    | some (v, t) =>
      match skipWs t with
      | [] => none
      | c :: t' =>
        if c = 0x2C then (parseElems n t').map (fun p => (v :: p.1, p.2))
        else if c = 0x5D then some ([v], t')
        else none := by
  conv => lhs; unfold parseElems
  rfl

theorem parseMembers_succ (n : Nat) (s : Bytes) : parseMembers (n + 1) s =
    match skipWs s with
    | [] => none
    | q :: t =>
      if q = 0x22 then
        match parseStr 0 0 t with
        | none => none
        | some (k, t) =>
          match skipWs t with
          | [] => none
          | c :: t =>
            if c = 0x3A then
              match parseValue n t with
              | none => none
              | some (v, t) =>
                match skipWs t with
                | [] => none
                | c :: t' =>
                  if c = 0x2C then (parseMembers n t').map (fun p => ((k, v) :: p.1, p.2))
                  else if c = 0x7D then some ([(k, v)], t')
                  else none
            else none
      else none := by
  conv => lhs; unfold parseMembers
  rfl

mutual
theorem parse_value : ∀ (j : J), Ints j → ∀ (n : Nat), cost j ≤ n → ∀ (rest : Bytes), Ends rest → parseValue n (render j ++ rest) = some (fix j, rest)
  | j, hj, 0, hn, _, _ => by
    exfalso
    cases j <;> (unfold cost at hn; omega)
  | .null, _, n + 1, _, rest, _ => by
    rw [parseValue_succ]
    have he : render (.null) ++ rest = 0x6E :: 0x75 :: 0x6C :: 0x6C :: rest := by unfold render; rfl
    rw [he, skipWs_cons _ (by decide)]
    unfold fix
    rfl
  | .bool true, _, n + 1, _, rest, _ => by
    rw [parseValue_succ]
    have he : render (.bool true) ++ rest = 0x74 :: 0x72 :: 0x75 :: 0x65 :: rest := by unfold render; rfl
    rw [he, skipWs_cons _ (by decide)]
    unfold fix
    rfl
  | .bool false, _, n + 1, _, rest, _ => by
    rw [parseValue_succ]
    have he : render (.bool false) ++ rest = 0x66 :: 0x61 :: 0x6C :: 0x73 :: 0x65 :: rest := by unfold render; rfl
    rw [he, skipWs_cons _ (by decide)]
    unfold fix
    rfl
  | .num lit, hj, n + 1, _, rest, hr => by
    have hl : IntLit lit := by unfold Ints at hj; exact hj
    rw [parseValue_succ]
    obtain ⟨b, t, hb, hs, -, -⟩ := render_head (.num lit) hj rest
    have hp := parseNum_int hl hr
    have he : render (.num lit) ++ rest = lit ++ rest := by unfold render; rfl
    rw [← he, hb] at hp
    rw [hb, skipWs_cons _ hs]
    dsimp only
    have hd : b = 0x2D ∨ digit b = true := by
      obtain ⟨neg, c, t', hlit, hc, -, -⟩ := hl.ex
      rw [he, hlit] at hb
      cases neg with
      | true => cases hb; exact .inl rfl
      | false => cases hb; exact .inr hc
    have hne : b ≠ 0x22 ∧ b ≠ 0x5B ∧ b ≠ 0x7B ∧ b ≠ 0x74 ∧ b ≠ 0x66 ∧ b ≠ 0x6E := by
      revert hd
      exact forall_byte (P := fun b => b = 0x2D ∨ digit b = true → b ≠ 0x22 ∧ b ≠ 0x5B ∧ b ≠ 0x7B ∧ b ≠ 0x74 ∧ b ≠ 0x66 ∧ b ≠ 0x6E) (by decide +kernel) b
    rw [if_neg hne.1, if_neg hne.2.1, if_neg hne.2.2.1, if_neg hne.2.2.2.1, if_neg hne.2.2.2.2.1, if_neg hne.2.2.2.2.2, hp]
    unfold fix
    rfl
  | .str s, _, n + 1, _, rest, _ => by
    rw [parseValue_succ]
    obtain ⟨t, ht, hp⟩ := parse_quote s rest
    have he : render (.str s) ++ rest = 0x22 :: t := by unfold render; exact ht
    rw [he, skipWs_cons _ (by decide)]
    dsimp only
    rw [if_pos rfl, hp]
    unfold fix
    rfl
  | .arr [], _, n + 1, _, rest, _ => by
    rw [parseValue_succ]
    have he : render (.arr []) ++ rest = 0x5B :: 0x5D :: rest := by simp [render, renderElems]
    rw [he, skipWs_cons _ (by decide)]
    dsimp only
    rw [if_neg (by decide), if_pos rfl, skipWs_cons _ (by decide)]
    dsimp only
    rw [if_pos rfl]
    simp [fix, fixElems]
  | .arr (v :: l), hj, n + 1, hn, rest, hr => by
    rw [parseValue_succ]
    have he : render (.arr (v :: l)) ++ rest = 0x5B :: (renderElems (v :: l) ++ 0x5D :: rest) := by simp [render]
    have hj' : IntsElems (v :: l) := by unfold Ints at hj; exact hj
    have hn' : costElems (v :: l) ≤ n := by unfold cost at hn; omega
    have hv : Ints v := by unfold IntsElems at hj'; exact hj'.1
    have hh : ∃ b t, renderElems (v :: l) ++ 0x5D :: rest = b :: t ∧ space b = false ∧ b ≠ 0x5D ∧ b ≠ 0x7D := by
      unfold renderElems
      rw [List.append_assoc]
      exact render_head v hv _
    obtain ⟨b, t, hb, hs, h5, -⟩ := hh
    rw [he, skipWs_cons _ (by decide)]
    dsimp only
    rw [if_neg (by decide), if_pos rfl]
    have ih := parse_elems v l hj' n hn' rest
    rw [hb] at ih ⊢
    rw [skipWs_cons _ hs]
    dsimp only
    rw [if_neg h5, ih]
    simp [fix]
  | .obj [], _, n + 1, _, rest, _ => by
    rw [parseValue_succ]
    have he : render (.obj []) ++ rest = 0x7B :: 0x7D :: rest := by simp [render, renderMembers]
    rw [he, skipWs_cons _ (by decide)]
    dsimp only
    rw [if_neg (by decide), if_neg (by decide), if_pos rfl, skipWs_cons _ (by decide)]
    dsimp only
    rw [if_pos rfl]
    simp [fix, fixMembers]
  | .obj ((k, v) :: l), hj, n + 1, hn, rest, hr => by
    rw [parseValue_succ]
    have he : render (.obj ((k, v) :: l)) ++ rest = 0x7B :: (renderMembers ((k, v) :: l) ++ 0x7D :: rest) := by simp [render]
    have hj' : IntsMembers ((k, v) :: l) := by unfold Ints at hj; exact hj
    have hn' : costMembers ((k, v) :: l) ≤ n := by unfold cost at hn; omega
    have hh : ∃ t, renderMembers ((k, v) :: l) ++ 0x7D :: rest = 0x22 :: t := by
      unfold renderMembers quote
      exact ⟨_, rfl⟩
    obtain ⟨t, hb⟩ := hh
    rw [he, skipWs_cons _ (by decide)]
    dsimp only
    rw [if_neg (by decide), if_neg (by decide), if_pos rfl]
    have ih := parse_members k v l hj' n hn' rest
    rw [hb] at ih ⊢
    rw [skipWs_cons _ (by decide)]
    dsimp only
    rw [if_neg (by decide), ih]
    simp [fix]
theorem parse_elems : ∀ (v : J) (l : List J), IntsElems (v :: l) → ∀ (n : Nat), costElems (v :: l) ≤ n → ∀ (rest : Bytes),
    parseElems n (renderElems (v :: l) ++ 0x5D :: rest) = some (fixElems (v :: l), rest)
  | v, l, hj, 0, hn, _ => by
    exfalso
    unfold costElems at hn
    omega
  | v, [], hj, n + 1, hn, rest => by
    have hv : Ints v := by unfold IntsElems at hj; exact hj.1
    have hc : cost v ≤ n := by unfold costElems at hn; omega
    have he : renderElems [v] ++ 0x5D :: rest = render v ++ 0x5D :: rest := by simp [renderElems]
    rw [parseElems_succ, he, parse_value v hv n hc _ (ends_of (.inr (.inl rfl)))]
    dsimp only
    rw [skipWs_cons _ (by decide)]
    dsimp only
    rw [if_neg (by decide), if_pos rfl]
    simp [fixElems]
  | v, w :: l, hj, n + 1, hn, rest => by
    have hv : Ints v := by unfold IntsElems at hj; exact hj.1
    have hl : IntsElems (w :: l) := by unfold IntsElems at hj; exact hj.2
    have hc : cost v ≤ n := by unfold costElems at hn; omega
    have hcl : costElems (w :: l) ≤ n := by rw [costElems] at hn; omega
    have he : renderElems (v :: w :: l) ++ 0x5D :: rest = render v ++ 0x2C :: (renderElems (w :: l) ++ 0x5D :: rest) := by
      conv => lhs; unfold renderElems
      simp
    rw [parseElems_succ, he, parse_value v hv n hc _ (ends_of (.inl rfl))]
    dsimp only
    rw [skipWs_cons _ (by decide)]
    dsimp only
    rw [if_pos rfl, parse_elems w l hl n hcl rest]
    conv => rhs; unfold fixElems
    rfl
theorem parse_members : ∀ (k : Bytes) (v : J) (l : List (Bytes × J)), IntsMembers ((k, v) :: l) → ∀ (n : Nat), costMembers ((k, v) :: l) ≤ n → ∀ (rest : Bytes),
    parseMembers n (renderMembers ((k, v) :: l) ++ 0x7D :: rest) = some (fixMembers ((k, v) :: l), rest)
  | k, v, l, hj, 0, hn, _ => by
    exfalso
    unfold costMembers at hn
    omega
  | k, v, [], hj, n + 1, hn, rest => by
    have hv : Ints v := by unfold IntsMembers at hj; exact hj.1
    have hc : cost v ≤ n := by unfold costMembers at hn; omega
    have he : renderMembers [(k, v)] ++ 0x7D :: rest = quote k ++ 0x3A :: (render v ++ 0x7D :: rest) := by simp [renderMembers]
    obtain ⟨t, ht, hp⟩ := parse_quote k (0x3A :: (render v ++ 0x7D :: rest))
    rw [parseMembers_succ, he, ht, skipWs_cons _ (by decide)]
    dsimp only
    rw [if_pos rfl, hp]
    dsimp only
    rw [skipWs_cons _ (by decide)]
    dsimp only
    rw [if_pos rfl, parse_value v hv n hc _ (ends_of (.inr (.inr rfl)))]
    dsimp only
    rw [skipWs_cons _ (by decide)]
    dsimp only
    rw [if_neg (by decide), if_pos rfl]
    simp [fixMembers]
  | k, v, (k', w) :: l, hj, n + 1, hn, rest => by
    have hv : Ints v := by unfold IntsMembers at hj; exact hj.1
    have hl : IntsMembers ((k', w) :: l) := by rw [IntsMembers] at hj; exact hj.2
    have hc : cost v ≤ n := by unfold costMembers at hn; omega
    have hcl : costMembers ((k', w) :: l) ≤ n := by rw [costMembers] at hn; omega
    have he : renderMembers ((k, v) :: (k', w) :: l) ++ 0x7D :: rest = quote k ++ 0x3A :: (render v ++ 0x2C :: (renderMembers ((k', w) :: l) ++ 0x7D :: rest)) := by
      conv => lhs; unfold renderMembers
      simp
    obtain ⟨t, ht, hp⟩ := parse_quote k (0x3A :: (render v ++ 0x2C :: (renderMembers ((k', w) :: l) ++ 0x7D :: rest)))
    rw [parseMembers_succ, he, ht, skipWs_cons _ (by decide)]
    dsimp only
    rw [if_pos rfl, hp]
    dsimp only
    rw [skipWs_cons _ (by decide)]
    dsimp only
    rw [if_pos rfl, parse_value v hv n hc _ (ends_of (.inl rfl))]
    dsimp only
    rw [skipWs_cons _ (by decide)]
    dsimp only
    rw [if_pos rfl, parse_members k' w l hl n hcl rest]
    conv => rhs; unfold fixMembers
    rfl
end

mutual
theorem cost_le : ∀ (j : J), Ints j → cost j ≤ 2 * (render j).length
  | .null, _ => by decide
  | .bool true, _ => by decide
  | .bool false, _ => by decide
  | .num lit, h => by
    have hl : IntLit lit := by unfold Ints at h; exact h
    obtain ⟨neg, b, t, rfl, -⟩ := hl.ex
    unfold cost render
    simp only [List.length_append, List.length_cons]
    omega
  | .str s, _ => by
    unfold cost render quote
    simp only [List.length_append, List.length_cons]
    omega
  | .arr l, h => by
    have hl : IntsElems l := by unfold Ints at h; exact h
    have := costElems_le l hl
    unfold cost render
    simp only [List.length_append, List.length_cons, List.length_nil]
    omega
  | .obj l, h => by
    have hl : IntsMembers l := by unfold Ints at h; exact h
    have := costMembers_le l hl
    unfold cost render
    simp only [List.length_append, List.length_cons, List.length_nil]
    omega
theorem costElems_le : ∀ (l : List J), IntsElems l → costElems l ≤ 2 * (renderElems l).length + 1
  | [], _ => by simp [costElems]
  | [v], h => by
    have hv : Ints v := by unfold IntsElems at h; exact h.1
    have := cost_le v hv
    simp only [costElems, renderElems, List.length_append]
    omega
  | v :: w :: l, h => by
    have hv : Ints v := by unfold IntsElems at h; exact h.1
    have hl : IntsElems (w :: l) := by unfold IntsElems at h; exact h.2
    have h1 := cost_le v hv
    have h2 := costElems_le (w :: l) hl
    rw [costElems, renderElems]
    simp only [List.length_append, List.isEmpty_cons, Bool.false_eq_true, if_false, List.length_cons]
    omega
theorem costMembers_le : ∀ (l : List (Bytes × J)), IntsMembers l → costMembers l ≤ 2 * (renderMembers l).length + 1
  | [], _ => by simp [costMembers]
  | [(k, v)], h => by
    have hv : Ints v := by unfold IntsMembers at h; exact h.1
    have := cost_le v hv
    simp only [costMembers, renderMembers, List.length_append, List.length_cons]
    omega
  | (k, v) :: (k', w) :: l, h => by
    have hv : Ints v := by unfold IntsMembers at h; exact h.1
    have hl : IntsMembers ((k', w) :: l) := by rw [IntsMembers] at h; exact h.2
    have h1 := cost_le v hv
    have h2 := costMembers_le ((k', w) :: l) hl
    rw [costMembers, renderMembers]
    simp only [List.length_append, List.isEmpty_cons, Bool.false_eq_true, if_false, List.length_cons]
    omega
end

/-- The text written for a value is read as that value, up to bytes that are not UTF-8. -/
theorem parse_render (j : J) (h : Ints j) : parse (render j) = some (fix j) := by
  have hc := cost_le j h
  have := parse_value j h (2 * (render j).length + 2) (by omega) [] ends_nil
  rw [List.append_nil] at this
  unfold parse
  rw [this]
  rfl

end Fpki.Json
