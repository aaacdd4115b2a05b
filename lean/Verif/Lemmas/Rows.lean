import Verif.Model.Rows
import Verif.Lemmas.CsvLoad
import Verif.Props.FastCsv
import Mathlib.Data.List.Forall2
/-! Lemmas on reading CSV files. -/
namespace Fpki.Rows
open Fpki.FastCsv (comma quote indexByte fields trimRight)
open Fpki.Chains (X509)
open Fpki.CsvLoad (base64)

/-! ## Specification: how CSV files are written -/

/-- The text of a CSV column with the given value: as it is, if there is no comma and no quote in it, or in quotes, with quotes doubled. -/
inductive Written : Bytes → Bytes → Prop
  | plain (v : Bytes) : comma ∉ v → quote ∉ v → Written v v
  | quoted (v : Bytes) : Written v (quote :: (v.flatMap fun c => if c = quote then [quote, quote] else [c]) ++ [quote])

/-- A CSV row: the texts of its columns with commas in between. -/
def WrittenRow (columns : List Bytes) (row : Bytes) : Prop :=
  ∃ texts : List Bytes, List.Forall₂ Written columns texts ∧ row = List.intercalate [comma] texts

/-- A number in decimal. -/
def decimal (n : Nat) : Bytes := if n < 10 then [UInt8.ofNat (48 + n)] else decimal (n / 10) ++ [UInt8.ofNat (48 + n % 10)]

theorem intercalate_cons2 (s x y : Bytes) (r : List Bytes) : List.intercalate s (x :: y :: r) = x ++ s ++ List.intercalate s (y :: r) := by
  simp [List.intercalate]
theorem intercalate_one (s x : Bytes) : List.intercalate s [x] = x := by simp [List.intercalate]

/-! ## csv -/

theorem csvQuoted_end : ∀ v : Bytes, csvQuoted ((v.flatMap fun c => if c = quote then [quote, quote] else [c]) ++ [quote]) = some (v, none)
  | [] => by simp [csvQuoted]
  | c :: v => by
    by_cases hc : c = quote
    · subst hc
      simp only [List.flatMap_cons, if_true, List.cons_append, List.nil_append]
      rw [csvQuoted, if_pos rfl, if_pos rfl, csvQuoted_end v]; rfl
    · simp only [List.flatMap_cons, if_neg hc, List.cons_append, List.nil_append]
      have h := csvQuoted_end v
      cases hr : (v.flatMap fun c => if c = quote then [quote, quote] else [c]) ++ [quote] with
      | nil => simp at hr
      | cons d r => rw [hr] at h; rw [csvQuoted, if_neg hc, h]; rfl

theorem csvQuoted_comma (rest : Bytes) : ∀ v : Bytes,
    csvQuoted ((v.flatMap fun c => if c = quote then [quote, quote] else [c]) ++ [quote] ++ [comma] ++ rest) = some (v, some rest)
  | [] => by
    simp only [List.flatMap_nil, List.nil_append, List.cons_append]
    rw [csvQuoted, if_pos rfl, if_neg (by decide), if_pos rfl]
  | c :: v => by
    have h := csvQuoted_comma rest v
    by_cases hc : c = quote
    · subst hc
      simp only [List.flatMap_cons, if_true, List.cons_append, List.nil_append]
      rw [csvQuoted, if_pos rfl, if_pos rfl, h]; rfl
    · simp only [List.flatMap_cons, if_neg hc, List.cons_append, List.nil_append]
      cases hr : (v.flatMap fun c => if c = quote then [quote, quote] else [c]) ++ [quote] ++ [comma] ++ rest with
      | nil => simp at hr
      | cons d r => rw [hr] at h; rw [csvQuoted, if_neg hc, h]; rfl

theorem ne_comma {v : Bytes} (h : comma ∉ v) : ∀ a ∈ v, (a != comma) = true := by
  intro a ha
  simp only [bne_iff_ne]
  rintro rfl
  exact h ha
theorem takeWhile_no {v : Bytes} (h : comma ∉ v) (r : Bytes) : (v ++ comma :: r).takeWhile (· != comma) = v := by
  rw [List.takeWhile_append_of_pos (ne_comma h)]; simp
theorem dropWhile_no {v : Bytes} (h : comma ∉ v) (r : Bytes) : (v ++ comma :: r).dropWhile (· != comma) = comma :: r := by
  rw [List.dropWhile_append_of_pos (ne_comma h)]; simp
theorem takeWhile_all {v : Bytes} (h : comma ∉ v) : v.takeWhile (· != comma) = v := by
  have := List.takeWhile_append_of_pos (ne_comma h) (l₂ := [])
  simpa using this
theorem dropWhile_all {v : Bytes} (h : comma ∉ v) : v.dropWhile (· != comma) = [] := by
  have := List.dropWhile_append_of_pos (ne_comma h) (l₂ := [])
  simpa using this

theorem csvFields_plain_end {v : Bytes} (h : comma ∉ v) (hq : quote ∉ v) : csvFields v = some [v] := by
  rw [csvFields.eq_def]
  rw [if_neg (by intro h'; exact hq (List.mem_of_head? h')), takeWhile_all h, if_neg hq]
  split
  · rfl
  · rename_i hd; rw [dropWhile_all h] at hd; cases hd

theorem csvFields_plain_comma {v : Bytes} (h : comma ∉ v) (hq : quote ∉ v) (r : Bytes) :
    csvFields (v ++ comma :: r) = (csvFields r).map (v :: ·) := by
  rw [csvFields.eq_def]
  rw [if_neg (by
    intro h'
    cases v with
    | nil => simp at h'; exact absurd h' (by decide)
    | cons a v => simp at h'; exact hq (h' ▸ List.mem_cons_self)), takeWhile_no h, if_neg hq]
  split
  · rename_i hd; rw [dropWhile_no h] at hd; cases hd
  · rename_i hd
    rw [dropWhile_no h] at hd
    obtain ⟨-, rfl⟩ := List.cons.inj hd
    rfl

/-- The fields after a quoted one. -/
def csvNext (f : Bytes) : Option Bytes → Option (List Bytes)
  | none => some [f]
  | some r => (csvFields r).map (f :: ·)

theorem csvFields_quoted {b f : Bytes} {o : Option Bytes} (h : csvQuoted b = some (f, o)) :
    csvFields (quote :: b) = csvNext f o := by
  rw [csvFields.eq_def, if_pos (by rfl : (quote :: b).head? = some quote)]
  split
  · rename_i h'; rw [List.tail_cons, h] at h'; cases h'
  · rename_i h'; rw [List.tail_cons, h] at h'; cases h'; rfl
  · rename_i h'; rw [List.tail_cons, h] at h'; cases h'; rfl

/-- A standard CSV reader reads what a standard CSV writer wrote. -/
theorem csvFields_written : ∀ (vals texts : List Bytes), List.Forall₂ Written vals texts → texts ≠ [] →
    csvFields (List.intercalate [comma] texts) = some vals
  | _, _, .nil, h => absurd rfl h
  | [v], [t], .cons hw .nil, _ => by
    rw [intercalate_one]
    cases hw with
    | plain h1 h2 => exact csvFields_plain_end h1 h2
    | quoted => rw [List.cons_append, csvFields_quoted (csvQuoted_end v), csvNext]
  | v :: v2 :: vs, t :: t2 :: ts, .cons hw hws, _ => by
    have ih := csvFields_written (v2 :: vs) (t2 :: ts) hws (by simp)
    rw [intercalate_cons2]
    cases hw with
    | plain h1 h2 =>
      rw [List.append_assoc, List.singleton_append, csvFields_plain_comma h1 h2, ih]; rfl
    | quoted =>
      have : ∀ X : Bytes, quote :: X ++ [quote] ++ [comma] ++ List.intercalate [comma] (t2 :: ts) =
        quote :: (X ++ [quote] ++ [comma] ++ List.intercalate [comma] (t2 :: ts)) := by intro X; simp
      rw [this, csvFields_quoted (csvQuoted_comma _ v)]
      rw [csvNext, ih]; rfl

theorem fields_append {v : Bytes} (h : comma ∉ v) (r : Bytes) : fields (v ++ comma :: r) = v :: fields r := by
  induction v with
  | nil => simp [fields]
  | cons c v ih =>
    simp only [List.mem_cons, not_or] at h
    rw [List.cons_append, fields, if_neg (Ne.symm h.1), ih h.2]

theorem fields_single {v : Bytes} (h : comma ∉ v) : fields v = [v] := by
  induction v with
  | nil => rfl
  | cons c v ih =>
    simp only [List.mem_cons, not_or] at h
    rw [fields, if_neg (Ne.symm h.1), ih h.2]

/-- On rows without quotes, the standard reader splits at the commas. -/
theorem csvFields_fields (n : Nat) : ∀ row : Bytes, row.length ≤ n → quote ∉ row → csvFields row = some (fields row) := by
  induction n with
  | zero =>
    intro row hl _
    obtain rfl := List.eq_nil_of_length_eq_zero (Nat.le_zero.1 hl)
    rw [csvFields_plain_end (by simp) (by simp)]; rfl
  | succ n ih =>
    intro row hl hq
    by_cases hc : comma ∈ row
    · obtain ⟨v, r, rfl, hv⟩ := List.eq_append_cons_of_mem hc
      simp only [List.mem_append, List.mem_cons, not_or] at hq
      simp only [List.length_append, List.length_cons] at hl
      rw [csvFields_plain_comma hv hq.1, ih r (by omega) hq.2.2, fields_append hv]; rfl
    · rw [csvFields_plain_end hc hq, fields_single hc]

theorem csvRead_fields (r : Bytes) (hq : quote ∉ r) (_ : (10 : Byte) ∉ r) (hne : r ≠ []) : csvRead r = some (fields r) := by
  rw [csvRead, if_neg hne, csvFields_fields _ r (Nat.le_refl _) hq]

/-! ## Line ends -/

theorem trimRight_append {row nl : Bytes} (hnl : ∀ c ∈ nl, c = 13 ∨ c = 10) (hrow : ∀ c, row.getLast? = some c → c ≠ 13 ∧ c ≠ 10) :
    trimRight (row ++ nl) = row := by
  unfold trimRight
  rw [List.reverse_append, List.dropWhile_append_of_pos (by
    intro a ha
    rcases hnl a (List.mem_reverse.1 ha) with h | h <;> subst h <;> decide)]
  have : row.reverse.dropWhile (fun b => b == 13 || b == 10) = row.reverse := by
    cases h : row.reverse with
    | nil => rfl
    | cons c r =>
      have hl : row.getLast? = some c := by rw [← List.head?_reverse, h]; rfl
      obtain ⟨h1, h2⟩ := hrow c hl
      rw [List.dropWhile_cons, if_neg (by simp [h1, h2])]
  rw [this, List.reverse_reverse]

theorem written_mem {v t : Bytes} (h : Written v t) {c : Byte} (hc : c ∈ t) : c ∈ v ∨ c = quote := by
  cases h with
  | plain _ _ => exact Or.inl hc
  | quoted =>
    simp only [List.cons_append, List.mem_cons, List.mem_append, List.mem_flatMap, List.not_mem_nil, or_false] at hc
    rcases hc with rfl | ⟨a, ha, hca⟩ | rfl
    · exact Or.inr rfl
    · split at hca
      · simp at hca; exact Or.inr hca
      · simp at hca; exact Or.inl (hca ▸ ha)
    · exact Or.inr rfl

theorem written_getLast {v t : Bytes} (h : Written v t) {c : Byte} (hc : t.getLast? = some c) : v.getLast? = some c ∨ c = quote := by
  cases h with
  | plain _ _ => exact Or.inl hc
  | quoted =>
    right
    rw [List.getLast?_append] at hc
    simpa using hc.symm

theorem mem_intercalate {texts : List Bytes} {c : Byte} (h : c ∈ List.intercalate [comma] texts) : c = comma ∨ ∃ t ∈ texts, c ∈ t := by
  induction texts with
  | nil => simp [List.intercalate] at h
  | cons x r ih =>
    cases r with
    | nil => rw [intercalate_one] at h; exact Or.inr ⟨x, List.mem_cons_self, h⟩
    | cons y r =>
      rw [intercalate_cons2] at h
      simp only [List.mem_append, List.mem_singleton] at h
      rcases h with (h | h) | h
      · exact Or.inr ⟨x, List.mem_cons_self, h⟩
      · exact Or.inl h
      · rcases ih h with h | ⟨t, ht, hc⟩
        · exact Or.inl h
        · exact Or.inr ⟨t, List.mem_cons_of_mem _ ht, hc⟩

theorem forall2_mem_right {α β : Type} {R : α → β → Prop} {l1 : List α} {l2 : List β} (h : List.Forall₂ R l1 l2) {b : β} (hb : b ∈ l2) : ∃ a ∈ l1, R a b := by
  induction h with
  | nil => cases hb
  | cons hr _ ih =>
    rcases List.mem_cons.1 hb with rfl | hb
    · exact ⟨_, List.mem_cons_self, hr⟩
    · obtain ⟨a, ha, h⟩ := ih hb
      exact ⟨a, List.mem_cons_of_mem _ ha, h⟩

/-- A row has a line break only if a column has. -/
theorem row_no_newline {cols : List Bytes} {row : Bytes} (h : WrittenRow cols row) (hn : ∀ v ∈ cols, (10 : Byte) ∉ v) : (10 : Byte) ∉ row := by
  obtain ⟨texts, ht, rfl⟩ := h
  intro hc
  rcases mem_intercalate hc with h | ⟨t, htm, hct⟩
  · exact absurd h (by decide)
  · obtain ⟨v, hv, hw⟩ := forall2_mem_right ht htm
    rcases written_mem hw hct with h | h
    · exact hn v hv h
    · exact absurd h (by decide)

theorem row_last : ∀ (cols texts : List Bytes), List.Forall₂ Written cols texts → ∀ e, cols.getLast? = some e → e ≠ [] → ∀ c,
    (List.intercalate [comma] texts).getLast? = some c → e.getLast? = some c ∨ c = quote
  | _, _, .nil, e, he, _, c, _ => by cases he
  | [v], [t], .cons hw .nil, e, he, _, c, hc => by
    rw [intercalate_one] at hc
    simp only [List.getLast?_singleton, Option.some.injEq] at he
    subst he
    exact written_getLast hw hc
  | v :: v2 :: vs, t :: t2 :: ts, .cons hw hws, e, he, hne, c, hc => by
    rw [List.getLast?_cons_cons] at he
    rw [intercalate_cons2, List.getLast?_append] at hc
    cases h : (List.intercalate [comma] (t2 :: ts)).getLast? with
    | none =>
      -- an empty last column would be empty
      exfalso
      have hnil := List.getLast?_eq_none_iff.1 h
      have hf := csvFields_written (v2 :: vs) (t2 :: ts) hws (by simp)
      rw [hnil] at hf
      rw [csvFields_plain_end (by simp) (by simp)] at hf
      simp only [Option.some.injEq] at hf
      rw [← hf] at he
      simp at he
      exact hne he
    | some d =>
      rw [h] at hc
      simp only [Option.some_or, Option.some.injEq] at hc
      subst hc
      exact row_last (v2 :: vs) (t2 :: ts) hws e he hne d h

/-- A row parsed by `ParseLine`: the values of columns 4, 5 and the last. -/
theorem parseLine_row {cols : List Bytes} {row nl c ch e : Bytes} (hrow : WrittenRow cols row) (hn : ∀ v ∈ cols, (10 : Byte) ∉ v)
    (h3 : cols[3]? = some c) (h4 : cols[4]? = some ch) (hl : cols.getLast? = some e) (hc : c ≠ []) (he : e ≠ [])
    (hlast : ∀ b, e.getLast? = some b → b ≠ 13 ∧ b ≠ 10) (hnl : ∀ b ∈ nl, b = 13 ∨ b = 10) :
    FastCsv.parseLine csvRead (row ++ nl) = some (c, ch, e) := by
  have hno := row_no_newline hrow hn
  obtain ⟨texts, ht, rfl⟩ := hrow
  have hlen : cols.length = texts.length := ht.length_eq
  have h5 : 5 ≤ cols.length := by obtain ⟨h, _⟩ := List.getElem?_eq_some_iff.1 h4; omega
  have htne : texts ≠ [] := by rintro rfl; rw [List.length_nil] at hlen; omega
  have hread := csvFields_written cols texts ht htne
  have htrim : trimRight (List.intercalate [comma] texts ++ nl) = List.intercalate [comma] texts := by
    apply trimRight_append hnl
    intro b hb
    rcases row_last cols texts ht e hl he b hb with h | h
    · exact hlast b h
    · subst h; decide
  have hne : List.intercalate [comma] texts ≠ [] := by
    intro h
    rw [h, csvFields_plain_end (by simp) (by simp)] at hread
    simp only [Option.some.injEq] at hread
    rw [← hread] at h5; simp at h5
  by_cases hq : quote ∈ List.intercalate [comma] texts
  · have hf : FastCsv.parseRowFast (List.intercalate [comma] texts) = .fallback := FastCsv.C32_quotes_fall_back _ hq
    unfold FastCsv.parseLine
    simp only [htrim, hf, FastCsv.parseRowSlow, csvRead, if_neg hne, hread]
    rw [if_neg (by omega)]
    have hg : cols.getD (cols.length - 1) [] = e := by
      rw [List.getD_eq_getElem?_getD, ← List.getLast?_eq_getElem?, hl]; rfl
    rw [hg, if_neg he, List.getD_eq_getElem?_getD, h3, List.getD_eq_getElem?_getD, h4]; rfl
  · have hfe : fields (List.intercalate [comma] texts) = cols := by
      have := csvFields_fields _ _ (Nat.le_refl _) hq
      rw [hread] at this
      exact (Option.some.inj this).symm
    exact (FastCsv.C32_line_equals_columns csvRead _ (by rw [htrim]; exact hq) (by rw [htrim]; exact hno) csvRead_fields c ch e).2
      (by rw [htrim, hfe]; exact ⟨h3, h4, hl, hc, he⟩)

theorem indexByte_append {x : Byte} {a : Bytes} (h : x ∉ a) (r : Bytes) : indexByte x (a ++ x :: r) = some a.length := by
  induction a with
  | nil => simp [indexByte]
  | cons c a ih =>
    simp only [List.mem_cons, not_or] at h
    rw [List.cons_append, indexByte, if_neg (Ne.symm h.1), ih h.2]; rfl

/-! ## Fields -/

theorem base64_forall {P : Byte → Prop} (h : ∀ n < 64, P (CsvLoad.b64char n)) (h61 : P 61) : ∀ b : Bytes, ∀ c ∈ base64 b, P c
  | [], _, hc => by cases hc
  | [a], c, hc => by
    have ha := a.toNat_lt
    simp only [base64, List.mem_cons, List.not_mem_nil, or_false] at hc
    rcases hc with rfl | rfl | rfl | rfl
    · exact h _ (by omega)
    · exact h _ (by omega)
    · exact h61
    · exact h61
  | [a, b], c, hc => by
    have ha := a.toNat_lt
    have hb := b.toNat_lt
    simp only [base64, List.mem_cons, List.not_mem_nil, or_false] at hc
    rcases hc with rfl | rfl | rfl | rfl
    · exact h _ (by omega)
    · exact h _ (by omega)
    · exact h _ (by omega)
    · exact h61
  | a :: b :: d :: r, c, hc => by
    have ha := a.toNat_lt
    have hb := b.toNat_lt
    have hd := d.toNat_lt
    simp only [base64, List.mem_cons] at hc
    rcases hc with rfl | rfl | rfl | rfl | hc
    · exact h _ (by omega)
    · exact h _ (by omega)
    · exact h _ (by omega)
    · exact h _ (by omega)
    · exact base64_forall h h61 r c hc

theorem base64_no (b : Bytes) : ∀ c ∈ base64 b, c ≠ 59 ∧ c ≠ 13 ∧ c ≠ 10 := base64_forall (by decide) (by decide) b

theorem decodeField_base64 (b : Bytes) : decodeField (base64 b) = some b := by
  unfold decodeField
  rw [List.filter_eq_self.2 (by intro c hc; have := base64_no b c hc; simp [this.2.1, this.2.2]), CsvLoad.decode_base64]

theorem base64_ne_nil {b : Bytes} (h : b ≠ []) : base64 b ≠ [] := by
  intro h'
  have := CsvLoad.decode_base64 b
  rw [h'] at this
  exact h (Option.some.inj this).symm

theorem splitLoop_end {v : Bytes} (h : (59 : Byte) ∉ v) : ∀ cur : Bytes, splitLoop cur v = [cur ++ v] := by
  induction v with
  | nil => intro cur; simp [splitLoop]
  | cons c v ih =>
    intro cur
    simp only [List.mem_cons, not_or] at h
    rw [splitLoop, if_neg (Ne.symm h.1), ih h.2]; simp

theorem splitLoop_sep {v : Bytes} (h : (59 : Byte) ∉ v) (r : Bytes) : ∀ cur : Bytes, splitLoop cur (v ++ 59 :: r) = (cur ++ v) :: splitLoop [] r := by
  induction v with
  | nil => intro cur; simp [splitLoop]
  | cons c v ih =>
    intro cur
    simp only [List.mem_cons, not_or] at h
    rw [List.cons_append, splitLoop, if_neg (Ne.symm h.1), ih h.2]; simp

theorem splitSemicolon_join : ∀ parts : List Bytes, parts ≠ [] → (∀ p ∈ parts, (59 : Byte) ∉ p) → splitSemicolon (List.intercalate [59] parts) = parts
  | [], h, _ => absurd rfl h
  | [p], _, hp => by
    rw [intercalate_one, splitSemicolon, splitLoop_end (hp p List.mem_cons_self)]; rfl
  | p :: q :: ps, _, hp => by
    rw [intercalate_cons2, List.append_assoc, List.singleton_append, splitSemicolon, splitLoop_sep (hp p List.mem_cons_self)]
    have := splitSemicolon_join (q :: ps) (by simp) (fun x hx => hp x (List.mem_cons_of_mem _ hx))
    rw [splitSemicolon] at this
    rw [this]; rfl

theorem digit_toNat : ∀ n < 10, FastCsv.isDigit (UInt8.ofNat (48 + n)) = true ∧ (UInt8.ofNat (48 + n)).toNat - 48 = n := by decide

theorem decimal_digits (n : Nat) : ∀ c ∈ decimal n, FastCsv.isDigit c = true := by
  induction n using Nat.strongRecOn with
  | ind n ih =>
    intro c hc
    rw [decimal] at hc
    split at hc
    · rw [List.mem_singleton.1 hc]; exact (digit_toNat n ‹_›).1
    · rcases List.mem_append.1 hc with hc | hc
      · exact ih (n / 10) (by omega) c hc
      · rw [List.mem_singleton.1 hc]; exact (digit_toNat (n % 10) (by omega)).1

theorem decimal_ne_nil (n : Nat) : decimal n ≠ [] := by
  rw [decimal]; split <;> simp

theorem digitsVal_append (a : Bytes) (d : Byte) (hd : FastCsv.isDigit d = true) : ∀ acc,
    digitsVal acc (a ++ [d]) = (digitsVal acc a).map fun v => v * 10 + (d.toNat - 48) := by
  induction a with
  | nil => intro acc; simp [digitsVal, hd]
  | cons c a ih =>
    intro acc
    rw [List.cons_append, digitsVal, digitsVal]
    split
    · exact ih _
    · rfl

theorem digitsVal_decimal (n : Nat) : digitsVal 0 (decimal n) = some n := by
  induction n using Nat.strongRecOn with
  | ind n ih =>
    rw [decimal]
    split
    · have := digit_toNat n ‹_›
      rw [digitsVal, if_pos this.1, digitsVal, this.2, Nat.zero_mul, Nat.zero_add]
    · have := digit_toNat (n % 10) (by omega)
      rw [digitsVal_append _ _ this.1, ih (n / 10) (by omega), this.2]
      simp only [Option.map_some, Option.some.injEq]
      omega

theorem parseInt64_decimal {n : Nat} (h : n < 2 ^ 63) : parseInt64 (decimal n) = some (n : Int) := by
  have hd : ∀ c, (decimal n).head? = some c → c ≠ 43 ∧ c ≠ 45 := by
    intro c hc
    have := decimal_digits n c (List.mem_of_head? hc)
    rw [FastCsv.isDigit_iff] at this
    constructor <;> (rintro rfl; exact absurd this (by decide))
  have h43 : (decimal n).head? ≠ some 43 := fun h' => (hd _ h').1 rfl
  have h45 : (decimal n).head? ≠ some 45 := fun h' => (hd _ h').2 rfl
  unfold parseInt64
  simp only [h43, h45, or_self, if_false, decimal_ne_nil, digitsVal_decimal, if_pos h]

theorem getExpiration_decimal {n : Nat} (h : n < 2 ^ 63) {frac : Bytes} (hf : frac ≠ []) : getExpiration (decimal n ++ 46 :: frac) = some (n : Int) := by
  have hno : (46 : Byte) ∉ decimal n := by
    intro hc
    have := decimal_digits n _ hc
    exact absurd this (by decide)
  unfold getExpiration
  rw [indexByte_append hno]
  have h1 := List.length_pos_iff.2 (decimal_ne_nil n)
  have h2 := List.length_pos_iff.2 hf
  simp only [List.length_append, List.length_cons]
  rw [if_neg (by omega), List.take_left' rfl, parseInt64_decimal h]

/-! ## Time -/

/-- Now, in seconds, rounded up: a time in whole seconds is over exactly if it is below. -/
def Now.ceil (now : Now) : Nat := if 0 < now.nsec then now.sec + 1 else now.sec

theorem wrap64_small {x : Int} (h1 : -2 ^ 63 ≤ x) (h2 : x < 2 ^ 63) : wrap64 x = x := by
  unfold wrap64
  rw [Int.emod_eq_of_lt (by omega) (by omega)]
  omega

/-- For times of the next 146 thousand million years, the comparison is the expected one. -/
theorem after_iff (now : Now) {n : Nat} (h : n < 2 ^ 62) : after now n = true ↔ n < now.ceil := by
  unfold after
  simp only [wrap64_small (x := (n : Int) + epoch) (by unfold epoch; omega) (by unfold epoch; omega)]
  unfold Now.ceil
  simp only [Bool.or_eq_true, Bool.and_eq_true, decide_eq_true_eq, beq_iff_eq]
  split <;> omega

/-! ## The worker and the model of C35 -/

/-- A line as it arrives at the worker and the certificates written in it. -/
def Decodes (parse : Bytes → Option X509) (l : RawLine) (L : Chains.Line) : Prop :=
  (getExpiration l.exp = some (L.exp : Int) ∧ L.exp < 2 ^ 62) ∧
  (decodeField l.cert = some L.leaf.raw ∧ parse L.leaf.raw = some L.leaf ∧ L.leaf.notAfter < 2 ^ 62) ∧
  List.Forall₂ (fun s (c : X509) => decodeField s = some c.raw ∧ parse c.raw = some c) (splitSemicolon l.chain) L.chain

theorem chainLoop_decodes (H : Bytes → Bytes) (parse : Bytes → Option X509) (size : Nat) : ∀ (ss : List Bytes) (cs : List X509) (w : W),
    List.Forall₂ (fun s (c : X509) => decodeField s = some c.raw ∧ parse c.raw = some c) ss cs →
    (chainLoop H parse size w ss).1.cache = (Chains.chainLoop H size w.cache cs).1 ∧
    (chainLoop H parse size w ss).2 = some ((Chains.chainLoop H size w.cache cs).2, cs.map fun c => H c.raw)
  | _, _, w, .nil => ⟨rfl, rfl⟩
  | s :: ss, c :: cs, w, .cons hd hs => by
    unfold chainLoop Chains.chainLoop
    simp only [hd.1, hd.2]
    split
    · have ih := chainLoop_decodes H parse size ss cs
        ⟨w.cache, { w.stats with readBytes := w.stats.readBytes + c.raw.length, readCerts := w.stats.readCerts + 1 }⟩ hs
      exact ⟨ih.1, by rw [ih.2]; rfl⟩
    · have ih := chainLoop_decodes H parse size ss cs
        ⟨Batch.lruAdd size w.cache (H c.raw), { w.stats with readBytes := w.stats.readBytes + c.raw.length, readCerts := w.stats.readCerts + 1, uncached := w.stats.uncached + 1 }⟩ hs
      exact ⟨ih.1, by rw [ih.2]; rfl⟩

/-- The result of the model of C35 as a result of `parseLine`. -/
def outcomeOf (H : Bytes → Bytes) (L : Chains.Line) : Option (List (Option X509)) → Outcome
  | none => .skip
  | some ps => .chain L.leaf ps (L.chain.map fun c => H c.raw)

theorem parseLine_decodes (H : Bytes → Bytes) (parse : Bytes → Option X509) (size : Nat) (now : Now) (w : W) {l : RawLine} {L : Chains.Line}
    (h : Decodes parse l L) :
    (parseLine H parse size now w l).1.cache = (Chains.parseLine H size now.ceil w.cache L).1 ∧
    (parseLine H parse size now w l).2 = outcomeOf H L (Chains.parseLine H size now.ceil w.cache L).2 := by
  obtain ⟨⟨h1, h2⟩, ⟨h3, h4, h5⟩, h6⟩ := h
  unfold parseLine Chains.parseLine
  simp only [h1, h3]
  by_cases e1 : L.exp < now.ceil
  · simp only [(after_iff now h2).2 e1, e1, if_true]; refine ⟨?_, ?_⟩ <;> first | exact True.intro | rfl
  · have : after now (L.exp : Int) = false := by
      rw [Bool.eq_false_iff]; exact fun h => e1 ((after_iff now h2).1 h)
    simp only [this, e1, if_false, Bool.false_eq_true]
    by_cases e2 : Batch.lruContains w.cache (H L.leaf.raw) = true
    · simp only [e2, if_true]; refine ⟨?_, ?_⟩ <;> first | exact True.intro | rfl
    · simp only [e2, if_false, Bool.false_eq_true]
      unfold parseRest
      simp only [h4]
      by_cases e3 : L.leaf.notAfter < now.ceil
      · simp only [(after_iff now h5).2 e3, e3, if_true]; refine ⟨?_, ?_⟩ <;> first | exact True.intro | rfl
      · have : after now (L.leaf.notAfter : Int) = false := by
          rw [Bool.eq_false_iff]; exact fun h => e3 ((after_iff now h5).1 h)
        simp only [this, e3, if_false, Bool.false_eq_true]
        have := chainLoop_decodes H parse size _ _
          ⟨w.cache, ⟨w.stats.readRows + 1, w.stats.expired, w.stats.readBytes + L.leaf.raw.length, w.stats.readCerts + 1, w.stats.uncached + 1⟩⟩ h6
        exact ⟨this.1, by rw [this.2]; rfl⟩

theorem worker_decodes (H : Bytes → Bytes) (parse : Bytes → Option X509) (size : Nat) (now : Now) : ∀ (ls : List RawLine) (Ls : List Chains.Line) (w : W),
    List.Forall₂ (Decodes parse) ls Ls → worker H parse size now w ls = (Chains.ingestAll H size now.ceil w.cache Ls, false)
  | _, _, w, .nil => rfl
  | l :: ls, L :: Ls, w, .cons hd hs => by
    have h := parseLine_decodes H parse size now w hd
    unfold worker Chains.ingestAll Chains.ingestLine
    cases hp : parseLine H parse size now w l with
    | mk w' o =>
      rw [hp] at h
      obtain ⟨hc, ho⟩ := h
      dsimp only at hc ho
      have ih := worker_decodes H parse size now ls Ls w' hs
      cases hr : (Chains.parseLine H size now.ceil w.cache L).2 with
      | none =>
        rw [hr] at ho
        subst ho
        simp only [outcomeOf]
        rw [ih, hc, hr]; rfl
      | some ps =>
        rw [hr] at ho
        subst ho
        simp only [outcomeOf]
        rw [ih, hc, hr]

theorem Decodes.unique {parse : Bytes → Option X509} {l : RawLine} {L M : Chains.Line} (h : Decodes parse l L) (h' : Decodes parse l M) : L = M := by
  obtain ⟨⟨h1, _⟩, ⟨h3, h4, _⟩, h6⟩ := h
  obtain ⟨⟨k1, _⟩, ⟨k3, k4, _⟩, k6⟩ := h'
  cases L with | mk e c ch => cases M with | mk e' c' ch' =>
  dsimp only at *
  rw [h1] at k1
  rw [h3] at k3
  have hr := Option.some.inj k3
  rw [hr, k4] at h4
  have he : e = e' := by have := Option.some.inj k1; omega
  have hl : ch = ch' := by
    clear h4 k4 hr
    generalize splitSemicolon l.chain = ss at h6 k6
    induction h6 generalizing ch' with
    | nil => cases k6; rfl
    | cons hd _ ih =>
      cases k6 with
      | cons kd ks =>
        have h := Option.some.inj (hd.1.symm.trans kd.1)
        have h2 := hd.2
        rw [h, kd.2] at h2
        rw [ih _ ks, Option.some.inj h2]
  rw [he, hl, Option.some.inj h4]

theorem exists_forall2 {α β : Type} {R : α → β → Prop} : ∀ l : List α, (∀ a ∈ l, ∃ b, R a b) → ∃ m : List β, List.Forall₂ R l m
  | [], _ => ⟨[], .nil⟩
  | a :: l, h => by
    obtain ⟨b, hb⟩ := h a List.mem_cons_self
    obtain ⟨m, hm⟩ := exists_forall2 l (fun a ha => h a (List.mem_cons_of_mem _ ha))
    exact ⟨b :: m, .cons hb hm⟩

theorem forall2_mem_left {α β : Type} {R : α → β → Prop} {l1 : List α} {l2 : List β} (h : List.Forall₂ R l1 l2) {a : α} (ha : a ∈ l1) : ∃ b ∈ l2, R a b := by
  induction h with
  | nil => cases ha
  | cons hr _ ih =>
    rcases List.mem_cons.1 ha with rfl | ha
    · exact ⟨_, List.mem_cons_self, hr⟩
    · obtain ⟨b, hb, h⟩ := ih ha
      exact ⟨b, List.mem_cons_of_mem _ hb, h⟩

end Fpki.Rows
