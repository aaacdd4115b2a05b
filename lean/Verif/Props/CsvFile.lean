import Verif.Model.CsvFile
import Verif.Props.Rows
import Verif.Props.PolicyJson
/-!
# Properties C126, C127: reading a CSV file of certificates, and a list of policies

Specification: `Text`, `RowText`, `FileOf` (how a CSV file is written), `Says` (what its columns say), `Denotes` (what columns mean when read), `Document`.
-/
namespace Fpki.CsvFile
open Fpki.FastCsv (comma quote)
open Fpki.Chains (X509 Unfolded)
open Fpki.CsvLoad (base64)

/-! ## Specification -/

/-- The text of a column: as it is, without comma, quote and line break, or in quotes, with quotes doubled. No carriage returns. -/
inductive Text : Bytes → Bytes → Prop
  | plain (v : Bytes) : comma ∉ v → quote ∉ v → (10 : Byte) ∉ v → (13 : Byte) ∉ v → Text v v
  | quoted (v : Bytes) : (13 : Byte) ∉ v → Text v (quote :: (v.flatMap fun c => if c = quote then [quote, quote] else [c]) ++ [quote])

/-- A row: the texts of its columns with commas in between. -/
inductive RowText : List Bytes → Bytes → Prop
  | one {v t : Bytes} : Text v t → RowText [v] t
  | more {v t : Bytes} {vs : List Bytes} {row : Bytes} : Text v t → RowText vs row → RowText (v :: vs) (t ++ comma :: row)

/-- A file: rows that are not empty lines, each followed by LF or CRLF, the last one possibly by nothing; there may be empty lines. -/
inductive FileOf : List (List Bytes) → Bytes → Prop
  | empty : FileOf [] []
  | blank {rows : List (List Bytes)} {text : Bytes} : FileOf rows text → FileOf rows (10 :: text)
  | blankCr {rows : List (List Bytes)} {text : Bytes} : FileOf rows text → FileOf rows (13 :: 10 :: text)
  | last {columns : List Bytes} {row : Bytes} : RowText columns row → row ≠ [] → FileOf [columns] row
  | lf {columns : List Bytes} {row : Bytes} {rows : List (List Bytes)} {text : Bytes} : RowText columns row → row ≠ [] → FileOf rows text →
      FileOf (columns :: rows) (row ++ 10 :: text)
  | crlf {columns : List Bytes} {row : Bytes} {rows : List (List Bytes)} {text : Bytes} : RowText columns row → row ≠ [] → FileOf rows text →
      FileOf (columns :: rows) (row ++ 13 :: 10 :: text)

/-- The columns of a certificate with its chain: the fourth is the certificate in base64, the fifth the certificates of the chain in base64 with
semicolons in between. -/
def Says (parse : Bytes → Option X509) (columns : List Bytes) (p : X509 × List X509) : Prop :=
  columns[3]? = some (base64 p.1.raw) ∧ columns[4]? = some (List.intercalate [59] (p.2.map fun c => base64 c.raw)) ∧ p.2 ≠ [] ∧
    parse p.1.raw = some p.1 ∧ ∀ c ∈ p.2, parse c.raw = some c

/-- The text of a column (or part of it) is base64 of bytes that are the certificate. -/
def Means (parse : Bytes → Option X509) (f : Bytes) (c : X509) : Prop := ∃ raw, Rows.decodeField f = some raw ∧ parse raw = some c

/-- What columns mean when they are read. -/
def Denotes (parse : Bytes → Option X509) (columns : List Bytes) (p : X509 × List X509) : Prop :=
  ∃ f g, columns[3]? = some f ∧ Means parse f p.1 ∧ columns[4]? = some g ∧ List.Forall₂ (Means parse) (Rows.splitSemicolon g) p.2

/-! ## The CSV reader -/

theorem plain_line : ∀ (v r : Bytes), comma ∉ v → quote ∉ v → (10 : Byte) ∉ v → plain (v ++ 10 :: r) = some (v, .line, r)
  | [], r, _, _, _ => by rw [List.nil_append, plain, if_neg (by decide), if_pos rfl]
  | c :: v, r, hc, hq, hn => by
    simp only [List.mem_cons, not_or] at hc hq hn
    rw [List.cons_append, plain, if_neg (fun h => hc.1 h.symm), if_neg (fun h => hn.1 h.symm), if_neg (fun h => hq.1 h.symm),
      plain_line v r hc.2 hq.2 hn.2]
    rfl

theorem plain_eof : ∀ (v : Bytes), comma ∉ v → quote ∉ v → (10 : Byte) ∉ v → plain v = some (v, .line, [])
  | [], _, _, _ => rfl
  | c :: v, hc, hq, hn => by
    simp only [List.mem_cons, not_or] at hc hq hn
    rw [plain, if_neg (fun h => hc.1 h.symm), if_neg (fun h => hn.1 h.symm), if_neg (fun h => hq.1 h.symm), plain_eof v hc.2 hq.2 hn.2]
    rfl

theorem plain_comma : ∀ (v r : Bytes), comma ∉ v → quote ∉ v → (10 : Byte) ∉ v → plain (v ++ comma :: r) = some (v, .comma, r)
  | [], r, _, _, _ => by rw [List.nil_append, plain, if_pos rfl]
  | c :: v, r, hc, hq, hn => by
    simp only [List.mem_cons, not_or] at hc hq hn
    rw [List.cons_append, plain, if_neg (fun h => hc.1 h.symm), if_neg (fun h => hn.1 h.symm), if_neg (fun h => hq.1 h.symm),
      plain_comma v r hc.2 hq.2 hn.2]
    rfl

/-- The text of a quoted column without its first quote. -/
def inner (v : Bytes) : Bytes := v.flatMap fun c => if c = quote then [quote, quote] else [c]

theorem quoted_step (c : Byte) (r : Bytes) (hc : c ≠ quote) (hr : r ≠ []) : quoted (c :: r) = (quoted r).map fun p => (c :: p.1, p.2) := by
  cases r with
  | nil => exact absurd rfl hr
  | cons d r => rw [quoted, if_neg hc]

theorem quoted_inner (tail : Bytes) (s : Sep) (r : Bytes) (h : quoted (quote :: tail) = some ([], s, r)) : ∀ v : Bytes,
    quoted (inner v ++ quote :: tail) = some (v, s, r)
  | [] => h
  | c :: v => by
    have ih := quoted_inner tail s r h v
    by_cases hc : c = quote
    · subst hc
      have : inner (quote :: v) ++ quote :: tail = quote :: quote :: (inner v ++ quote :: tail) := by simp [inner]
      rw [this, quoted, if_pos rfl, if_pos rfl, ih]
      rfl
    · have : inner (c :: v) ++ quote :: tail = c :: (inner v ++ quote :: tail) := by simp [inner, hc]
      rw [this, quoted_step c _ hc (by simp), ih]
      rfl

theorem field_line {v t : Bytes} (h : Text v t) (r : Bytes) : field (t ++ 10 :: r) = some (v, .line, r) := by
  cases h with
  | plain hc hq hn _ =>
    unfold field
    rw [if_neg, plain_line v r hc hq hn]
    cases v with
    | nil => simp [quote]
    | cons c v =>
      simp only [List.mem_cons, not_or] at hq
      simp only [List.cons_append, List.head?_cons, Option.some.injEq]
      exact fun h => hq.1 h.symm
  | quoted _ =>
    unfold field
    rw [if_pos (by simp)]
    have := quoted_inner (10 :: r) .line r (by rw [quoted, if_pos rfl, if_neg (by decide), if_neg (by decide), if_pos rfl]) v
    simpa [inner, List.append_assoc] using this

theorem field_comma {v t : Bytes} (h : Text v t) (r : Bytes) : field (t ++ comma :: r) = some (v, .comma, r) := by
  cases h with
  | plain hc hq hn _ =>
    unfold field
    rw [if_neg, plain_comma v r hc hq hn]
    cases v with
    | nil => simp [quote, comma]
    | cons c v =>
      simp only [List.mem_cons, not_or] at hq
      simp only [List.cons_append, List.head?_cons, Option.some.injEq]
      exact fun h => hq.1 h.symm
  | quoted _ =>
    unfold field
    rw [if_pos (by simp)]
    have := quoted_inner (comma :: r) .comma r (by rw [quoted, if_pos rfl, if_neg (by decide), if_pos rfl]) v
    simpa [inner, List.append_assoc] using this

theorem field_eof {v t : Bytes} (h : Text v t) : field t = some (v, .line, []) := by
  cases h with
  | plain hc hq hn _ =>
    unfold field
    rw [if_neg, plain_eof v hc hq hn]
    cases v with
    | nil => simp
    | cons c v =>
      simp only [List.mem_cons, not_or] at hq
      simp only [List.head?_cons, Option.some.injEq]
      exact fun h => hq.1 h.symm
  | quoted _ =>
    unfold field
    rw [if_pos (by simp)]
    have := quoted_inner [] .line [] (by rw [quoted, if_pos rfl]) v
    simpa [inner, List.append_assoc] using this

theorem record_line {t v r : Bytes} (h : field t = some (v, .line, r)) : record t = some ([v], r) := by
  rw [record]
  split <;> rename_i h' <;> rw [h] at h' <;> simp only [Option.some.injEq, Prod.mk.injEq, reduceCtorEq, false_and, and_false] at h'
  obtain ⟨rfl, _, rfl⟩ := h'
  rfl

theorem record_comma {t v r : Bytes} (h : field t = some (v, .comma, r)) : record t = (record r).map fun p => (v :: p.1, p.2) := by
  rw [record]
  split <;> rename_i h' <;> rw [h] at h' <;> simp only [Option.some.injEq, Prod.mk.injEq, reduceCtorEq, false_and, and_false] at h'
  obtain ⟨rfl, _, rfl⟩ := h'
  rfl

theorem record_row {columns : List Bytes} {row : Bytes} (h : RowText columns row) (r : Bytes) : record (row ++ 10 :: r) = some (columns, r) := by
  induction h with
  | one ht => exact record_line (field_line ht r)
  | more ht _ ih =>
    rw [List.append_assoc, List.cons_append, record_comma (field_comma ht _), ih]
    rfl

theorem record_last {columns : List Bytes} {row : Bytes} (h : RowText columns row) : record row = some (columns, []) := by
  induction h with
  | one ht => exact record_line (field_eof ht)
  | more ht _ ih =>
    rw [record_comma (field_comma ht _), ih]
    rfl

/-- No carriage return in a row. -/
theorem row_no_cr {columns : List Bytes} {row : Bytes} (h : RowText columns row) : (13 : Byte) ∉ row := by
  have text : ∀ {v t : Bytes}, Text v t → (13 : Byte) ∉ t := by
    intro v t ht
    cases ht with
    | plain _ _ _ h => exact h
    | quoted h =>
      intro hm
      simp only [List.cons_append, List.mem_cons, List.mem_append, List.mem_flatMap, List.not_mem_nil, or_false] at hm
      rcases hm with hm | ⟨c, hc, hm⟩ | hm
      · exact absurd hm (by decide)
      · split at hm
        · exact absurd hm (by decide)
        · rw [List.mem_singleton] at hm; exact h (hm ▸ hc)
      · exact absurd hm (by decide)
  induction h with
  | one ht => exact text ht
  | more ht _ ih =>
    simp only [List.mem_append, List.mem_cons, not_or]
    exact ⟨text ht, by decide, ih⟩

/-- The first byte of a row is no line break. -/
theorem row_head {columns : List Bytes} {row : Bytes} (h : RowText columns row) (c : Byte) (t : Bytes) (hrow : row = c :: t) : c ≠ 10 := by
  have text : ∀ {v t : Bytes} {c : Byte} {r : Bytes}, Text v t → t = c :: r → c ≠ 10 := by
    intro v t c r ht he
    cases ht with
    | plain _ _ hn _ => rintro rfl; exact hn (he ▸ List.mem_cons_self)
    | quoted _ => simp only [List.cons_append, List.cons.injEq] at he; rw [← he.1]; decide
  cases h with
  | one ht => exact text ht hrow
  | @more v t' vs row' ht _ =>
    cases t' with
    | nil => simp only [List.nil_append, List.cons.injEq] at hrow; rw [← hrow.1]; decide
    | cons d t' =>
      simp only [List.cons_append, List.cons.injEq] at hrow
      rw [← hrow.1]; exact text ht rfl

theorem normalise_cons {c : Byte} (h : c ≠ 13) (r : Bytes) : normalise (c :: r) = c :: normalise r := by
  cases r with
  | nil => simp only [normalise, if_neg h]
  | cons d r => rw [normalise, if_neg (fun hh => h hh.1)]

theorem normalise_append : ∀ (a r : Bytes), (13 : Byte) ∉ a → normalise (a ++ r) = a ++ normalise r
  | [], _, _ => rfl
  | c :: a, r, h => by
    simp only [List.mem_cons, not_or] at h
    rw [List.cons_append, normalise_cons (fun he => h.1 he.symm), normalise_append a r h.2]
    rfl

theorem normalise_crlf (r : Bytes) : normalise (13 :: 10 :: r) = 10 :: normalise r := by rw [normalise, if_pos ⟨rfl, rfl⟩]

theorem records_lf (r : Bytes) : records (10 :: r) = records r := by rw [records, if_pos rfl]

theorem records_row {row t r : Bytes} {vs : List Bytes} (ht : row = t) (hne : t ≠ []) (hh : ∀ c u, t = c :: u → c ≠ 10) (h : record t = some (vs, r)) :
    records row = (records r).map (vs :: ·) := by
  subst ht
  cases row with
  | nil => exact absurd rfl hne
  | cons c u =>
    rw [records, if_neg (hh c u rfl)]
    split <;> rename_i h' <;> rw [h] at h' <;> simp only [Option.some.injEq, Prod.mk.injEq, reduceCtorEq] at h'
    obtain ⟨rfl, rfl⟩ := h'
    rfl

/-- C126, the CSV reader: a CR at the very end of a file, after a byte that is no CR, is not part of the last field. -/
theorem C126_final_cr : ∀ t : Bytes, t.getLast? ≠ some 13 → readAll (t ++ [13]) = readAll t := by
  have key : ∀ (n : Nat) (t : Bytes), t.length ≤ n → t.getLast? ≠ some 13 → normalise (t ++ [13]) = normalise t := by
    intro n
    induction n with
    | zero => intro t hl _; rw [List.eq_nil_of_length_eq_zero (Nat.le_zero.1 hl)]; rfl
    | succ n ih =>
      intro t hl h
      match t with
      | [] => rfl
      | [c] =>
        have hc : c ≠ 13 := fun e => h (by rw [e]; rfl)
        rw [List.singleton_append, normalise_cons hc, normalise_cons hc]
        rfl
      | c :: d :: r =>
        rw [List.getLast?_cons_cons] at h
        by_cases hcd : c = 13 ∧ d = 10
        · rw [List.cons_append, List.cons_append, normalise, if_pos hcd, normalise, if_pos hcd, ih r (by simp at hl; omega)]
          cases r with
          | nil => simp
          | cons e r => rw [List.getLast?_cons_cons] at h; exact h
        · have := ih (d :: r) (by simpa using hl) h
          rw [List.cons_append, List.cons_append, normalise, if_neg hcd, ← List.cons_append, this]
          conv => rhs; rw [normalise, if_neg hcd]
  intro t h
  unfold readAll
  rw [key _ t (Nat.le_refl _) h]

/-- C126, the CSV reader: a file that was written with any choice of quotes, line ends and empty lines is read as its rows. -/
theorem C126_csv {rows : List (List Bytes)} {text : Bytes} (h : FileOf rows text) : readAll text = some rows := by
  unfold readAll
  have mid : ∀ {columns : List Bytes} {row : Bytes} {rows : List (List Bytes)} {t : Bytes}, RowText columns row → row ≠ [] →
      records t = some rows → records (row ++ 10 :: t) = some (columns :: rows) := by
    intro columns row rows t hr hne ih
    rw [records_row rfl (by simp) ?_ (record_row hr t), ih]
    · rfl
    · intro c u hcu
      cases row with
      | nil => exact absurd rfl hne
      | cons d row =>
        simp only [List.cons_append, List.cons.injEq] at hcu
        rw [← hcu.1]; exact row_head hr d row rfl
  induction h with
  | empty => rw [normalise, records]
  | blank _ ih => rw [normalise_cons (by decide), records_lf, ih]
  | blankCr _ ih => rw [normalise_crlf, records_lf, ih]
  | @last columns row hr hne =>
    have hn : normalise row = row := by simpa [normalise] using normalise_append row [] (row_no_cr hr)
    rw [hn, records_row rfl hne (row_head hr) (record_last hr), records]
    rfl
  | lf hr hne _ ih =>
    rw [normalise_append _ _ (row_no_cr hr), normalise_cons (by decide)]
    exact mid hr hne ih
  | crlf hr hne _ ih =>
    rw [normalise_append _ _ (row_no_cr hr), normalise_crlf]
    exact mid hr hne ih

/-! ## The certificates -/

theorem parseField_iff (parse : Bytes → Option X509) (f : Bytes) (c : X509) : parseField parse f = some c ↔ Means parse f c := by
  unfold parseField Means
  rw [Option.bind_eq_some_iff]

theorem parseChain_iff (parse : Bytes → Option X509) : ∀ (ss : List Bytes) (cs : List X509),
    parseChain parse ss = some cs ↔ List.Forall₂ (Means parse) ss cs
  | [], cs => by
    rw [parseChain, List.forall₂_nil_left_iff, Option.some.injEq, eq_comm]
  | s :: ss, cs => by
    rw [parseChain, List.forall₂_cons_left_iff]
    constructor
    · intro h
      split at h
      · cases h
      · rename_i c hc
        cases hr : parseChain parse ss with
        | none => rw [hr] at h; cases h
        | some l =>
          rw [hr] at h
          cases h
          exact ⟨c, l, (parseField_iff _ _ _).1 hc, (parseChain_iff parse ss l).1 hr, rfl⟩
    · rintro ⟨c, l, h1, h2, rfl⟩
      rw [(parseField_iff _ _ _).2 h1]
      simp only [(parseChain_iff parse ss l).2 h2, Option.map_some]

theorem loadRecord_iff (parse : Bytes → Option X509) (columns : List Bytes) (p : X509 × List X509) :
    loadRecord parse columns = .ok p ↔ Denotes parse columns p := by
  obtain ⟨leaf, chain⟩ := p
  unfold loadRecord Denotes
  constructor
  · intro h
    split at h
    · cases h
    · rename_i f hf
      split at h
      · cases h
      · rename_i l hl
        split at h
        · cases h
        · rename_i g hg
          split at h
          · cases h
          · rename_i cs hcs
            simp only [Out.ok.injEq, Prod.mk.injEq] at h
            obtain ⟨rfl, rfl⟩ := h
            exact ⟨f, g, hf, (parseField_iff _ _ _).1 hl, hg, (parseChain_iff _ _ _).1 hcs⟩
  · rintro ⟨f, g, h1, h2, h3, h4⟩
    simp only [h1, (parseField_iff _ _ _).2 h2, h3, (parseChain_iff _ _ _).2 h4]

/-- A record has at least one column. -/
theorem record_nonempty (n : Nat) : ∀ (t : Bytes) (vs : List Bytes) (r : Bytes), t.length ≤ n → record t = some (vs, r) → vs ≠ [] := by
  induction n with
  | zero =>
    intro t vs r hn h
    have := List.eq_nil_of_length_eq_zero (Nat.le_zero.1 hn)
    subst this
    rw [record_line (show field [] = some ([], .line, []) from rfl)] at h
    cases h
    simp
  | succ n ih =>
    intro t vs r hn h
    rw [record] at h
    split at h
    · cases h
    · cases h; simp
    · rename_i r' _
      cases hr : record r' with
      | none => rw [hr] at h; cases h
      | some p => rw [hr] at h; cases h; simp

theorem records_nonempty (n : Nat) : ∀ (t : Bytes) (rs : List (List Bytes)), t.length ≤ n → records t = some rs → [] ∉ rs := by
  induction n with
  | zero =>
    intro t rs hn h
    have := List.eq_nil_of_length_eq_zero (Nat.le_zero.1 hn)
    subst this
    rw [records] at h
    cases h
    simp
  | succ n ih =>
    intro t rs hn h
    cases t with
    | nil => rw [records] at h; cases h; simp
    | cons c t =>
      rw [records] at h
      split at h
      · exact ih t rs (by simpa using hn) h
      · split at h
        · cases h
        · rename_i vs r hr
          cases hrs : records r with
          | none => rw [hrs] at h; cases h
          | some l =>
            rw [hrs] at h
            cases h
            have hl := record_length _ _ _ _ (Nat.le_refl _) (by simp) hr
            simp only [List.mem_cons, not_or]
            exact ⟨fun he => record_nonempty _ _ _ _ (Nat.le_refl _) hr he.symm, ih r l (by omega) hrs⟩

theorem loadRecords_iff (parse : Bytes → Option X509) : ∀ (rs : List (List Bytes)) (ls : List X509) (cs : List (List X509)), [] ∉ rs →
    (loadRecords parse rs = .ok (ls, cs) ↔ ∃ ps, List.Forall₂ (Denotes parse) rs ps ∧ ls = ps.map (·.1) ∧ cs = ps.map (·.2))
  | [], ls, cs, _ => by
    rw [loadRecords]
    constructor
    · intro h; cases h; exact ⟨[], .nil, rfl, rfl⟩
    · rintro ⟨ps, h, rfl, rfl⟩
      cases h
      rfl
  | r :: rs, ls, cs, hne => by
    simp only [List.mem_cons, not_or] at hne
    rw [loadRecords, if_neg (fun h => hne.1 h.symm)]
    constructor
    · intro h
      split at h
      · cases h
      · cases h
      · rename_i leaf chain hl
        split at h
        · cases h
        · cases h
        · rename_i ls' cs' hr
          simp only [Out.ok.injEq, Prod.mk.injEq] at h
          obtain ⟨ps, h1, h2, h3⟩ := (loadRecords_iff parse rs ls' cs' hne.2).1 hr
          refine ⟨(leaf, chain) :: ps, .cons ((loadRecord_iff _ _ _).1 hl) h1, ?_, ?_⟩
          · rw [← h.1, h2]; rfl
          · rw [← h.2, h3]; rfl
    · rintro ⟨ps, h, rfl, rfl⟩
      cases h with
      | @cons _ p _ ps h1 h2 =>
        rw [(loadRecord_iff _ _ _).2 h1]
        dsimp only
        rw [(loadRecords_iff parse rs _ _ hne.2).2 ⟨ps, h2, rfl, rfl⟩]
        rfl

/-- C126, exactly: the call returns certificates if and only if the text is a CSV text all of whose rows denote a certificate and its chain; they
are then the unfolding of these (C19). -/
theorem C126_exact (H : Bytes → Bytes) (parse : Bytes → Option X509) (text : Bytes) (u : Unfolded) :
    loadCertsAndChains H parse text = .ok u ↔
      ∃ rows ps, readAll text = some rows ∧ List.Forall₂ (Denotes parse) rows ps ∧ u = Chains.unfoldCerts H (ps.map (·.1)) (ps.map (·.2)) := by
  unfold loadCertsAndChains
  constructor
  · intro h
    split at h
    · cases h
    · rename_i rs hrs
      split at h
      · cases h
      · cases h
      · rename_i ls cs hl
        cases h
        obtain ⟨ps, h1, h2, h3⟩ := (loadRecords_iff parse rs ls cs (records_nonempty _ _ _ (Nat.le_refl _) hrs)).1 hl
        exact ⟨rs, ps, hrs, h1, by rw [h2, h3]⟩
  · rintro ⟨rows, ps, h1, h2, rfl⟩
    rw [h1]
    dsimp only
    rw [(loadRecords_iff parse rows _ _ (records_nonempty _ _ _ (Nat.le_refl _) h1)).2 ⟨ps, h2, rfl, rfl⟩]

theorem says_denotes {parse : Bytes → Option X509} {columns : List Bytes} {p : X509 × List X509} (h : Says parse columns p) :
    Denotes parse columns p := by
  obtain ⟨h1, h2, h3, h4, h5⟩ := h
  refine ⟨_, _, h1, ⟨_, Rows.decodeField_base64 _, h4⟩, h2, ?_⟩
  rw [Rows.splitSemicolon_join]
  · rw [List.forall₂_map_left_iff, List.forall₂_same]
    exact fun c hc => ⟨_, Rows.decodeField_base64 _, h5 c hc⟩
  · simpa using h3
  · intro q hq
    obtain ⟨c, _, rfl⟩ := List.mem_map.1 hq
    exact fun hc => (Rows.base64_no _ _ hc).1 rfl

/-- C126 (partial: each row has at least five columns and a chain): from the file of any CSV writer the call returns every certificate of every
row, with the ID, the parent and the names it has in this row, the leaves first and in their order; only they have names. -/
theorem C126_contents_partial (H : Bytes → Bytes) (parse : Bytes → Option X509) {rows : List (List Bytes)} {text : Bytes} (hf : FileOf rows text)
    {ps : List (X509 × List X509)} (hs : List.Forall₂ (Says parse) rows ps) :
    ∃ out : List Chains.Row, loadCertsAndChains H parse text = .ok (Chains.ofRows out) ∧
      out.Perm (ps.flatMap fun p => Chains.pathRows H (some p.1.names) p.1 p.2) ∧
      (out.take ps.length).map (·.1) = ps.map (·.1) ∧ (out.take ps.length).map (·.2.2.2) = ps.map (fun p => some p.1.names) ∧
      ∀ r ∈ out.drop ps.length, r.2.2.2 = none := by
  obtain ⟨out, h1, h2, h3, h4, h5⟩ := Chains.C19_unfold_complete H (ps.map (·.1)) (ps.map (·.2)) (by simp)
  have hz : (ps.map (·.1)).zip (ps.map (·.2)) = ps := by rw [← List.unzip_fst, ← List.unzip_snd, List.zip_unzip]
  rw [hz] at h2
  simp only [List.length_map] at h3 h4 h5
  refine ⟨out, ?_, h2, h3, by rw [h4, List.map_map]; rfl, h5⟩
  rw [C126_exact]
  exact ⟨rows, ps, C126_csv hf, hs.imp fun _ _ => says_denotes, h1.symm⟩

theorem loadRecord_panic (parse : Bytes → Option X509) (columns : List Bytes) : loadRecord parse columns = .panic ↔
    columns.length < 4 ∨ (columns.length = 4 ∧ ∃ f c, columns[3]? = some f ∧ Means parse f c) := by
  unfold loadRecord
  constructor
  · intro h
    split at h
    · rename_i hf; exact Or.inl (by have := List.getElem?_eq_none_iff.1 hf; omega)
    · rename_i f hf
      split at h
      · cases h
      · rename_i c hc
        split at h
        · rename_i hg
          have := List.getElem?_eq_none_iff.1 hg
          have := (List.getElem?_eq_some_iff.1 hf).1
          exact Or.inr ⟨by omega, f, c, hf, (parseField_iff _ _ _).1 hc⟩
        · split at h <;> cases h
  · rintro (h | ⟨h, f, c, hf, hc⟩)
    · rw [List.getElem?_eq_none_iff.2 (by omega)]
    · rw [hf]
      dsimp only
      rw [(parseField_iff _ _ _).2 hc]
      dsimp only
      rw [List.getElem?_eq_none_iff.2 (by omega)]

theorem forall2_mem {α β : Type} {R : α → β → Prop} {l1 : List α} {l2 : List β} (h : List.Forall₂ R l1 l2) (a : α) (ha : a ∈ l1) : ∃ b ∈ l2, R a b := by
  induction h with
  | nil => cases ha
  | cons h1 _ ih =>
    rcases List.mem_cons.1 ha with rfl | ha
    · exact ⟨_, List.mem_cons_self, h1⟩
    · obtain ⟨b, hb, hr⟩ := ih ha; exact ⟨b, List.mem_cons_of_mem _ hb, hr⟩

theorem loadRecords_err (parse : Bytes → Option X509) : ∀ (before after : List (List Bytes)) (r : List Bytes), r ≠ [] → loadRecord parse r = .err →
    (∀ x ∈ before, ∃ p, Denotes parse x p) → loadRecords parse (before ++ r :: after) = .err
  | [], after, r, hr, he, _ => by rw [List.nil_append, loadRecords, if_neg hr, he]
  | x :: before, after, r, hr, he, hb => by
    obtain ⟨p, hp⟩ := hb x List.mem_cons_self
    have hx : x ≠ [] := by
      rintro rfl
      obtain ⟨f, g, hf, _⟩ := hp
      simp at hf
    rw [List.cons_append, loadRecords, if_neg hx, (loadRecord_iff _ _ _).2 hp]
    dsimp only
    rw [loadRecords_err parse before after r hr he (fun y hy => hb y (List.mem_cons_of_mem _ hy))]

theorem loadRecords_panic (parse : Bytes → Option X509) : ∀ (rs : List (List Bytes)), [] ∉ rs → (loadRecords parse rs = .panic ↔
    ∃ pre r post, rs = pre ++ r :: post ∧ (∀ x ∈ pre, ∃ p, Denotes parse x p) ∧ loadRecord parse r = .panic)
  | [], _ => by
    rw [loadRecords]
    constructor
    · intro h; cases h
    · rintro ⟨pre, r, post, h, _⟩; simp at h
  | r :: rs, hne => by
    simp only [List.mem_cons, not_or] at hne
    rw [loadRecords, if_neg (fun h => hne.1 h.symm)]
    constructor
    · intro h
      split at h
      · cases h
      · rename_i hp
        exact ⟨[], r, rs, rfl, by simp, hp⟩
      · rename_i leaf chain hl
        split at h
        · cases h
        · rename_i hr
          obtain ⟨pre, q, post, h1, h2, h3⟩ := (loadRecords_panic parse rs hne.2).1 hr
          refine ⟨r :: pre, q, post, by rw [h1]; rfl, ?_, h3⟩
          intro x hx
          rcases List.mem_cons.1 hx with rfl | hx
          · exact ⟨_, (loadRecord_iff _ _ _).1 hl⟩
          · exact h2 x hx
        · cases h
    · rintro ⟨pre, q, post, h1, h2, h3⟩
      cases pre with
      | nil =>
        simp only [List.nil_append, List.cons.injEq] at h1
        rw [h1.1, h3]
      | cons x pre =>
        simp only [List.cons_append, List.cons.injEq] at h1
        obtain ⟨p, hp⟩ := h2 x List.mem_cons_self
        rw [h1.1, (loadRecord_iff _ _ _).2 hp]
        dsimp only
        rw [(loadRecords_panic parse rs hne.2).2 ⟨pre, q, post, h1.2, fun y hy => h2 y (List.mem_cons_of_mem _ hy), h3⟩]

/-- C126: the call panics exactly if the first row that does not denote a certificate and its chain has fewer than four columns, or has four of which the
last is a certificate. -/
theorem C126_panics (H : Bytes → Bytes) (parse : Bytes → Option X509) (text : Bytes) : loadCertsAndChains H parse text = .panic ↔
    ∃ rows pre r post, readAll text = some rows ∧ rows = pre ++ r :: post ∧ (∀ x ∈ pre, ∃ p, Denotes parse x p) ∧
      (r.length < 4 ∨ (r.length = 4 ∧ ∃ f c, r[3]? = some f ∧ Means parse f c)) := by
  unfold loadCertsAndChains
  constructor
  · intro h
    split at h
    · cases h
    · rename_i rs hrs
      split at h
      · cases h
      · rename_i hp
        obtain ⟨pre, r, post, h1, h2, h3⟩ := (loadRecords_panic parse rs (records_nonempty _ _ _ (Nat.le_refl _) hrs)).1 hp
        exact ⟨rs, pre, r, post, hrs, h1, h2, (loadRecord_panic _ _).1 h3⟩
      · cases h
  · rintro ⟨rs, pre, r, post, hrs, h1, h2, h3⟩
    rw [hrs]
    dsimp only
    rw [(loadRecords_panic parse rs (records_nonempty _ _ _ (Nat.le_refl _) hrs)).2 ⟨pre, r, post, h1, h2, (loadRecord_panic _ _).2 h3⟩]

/-- C126 fails: a file with one short row, such as `a,b,c`, makes the call panic instead of returning an error. -/
theorem C126_short_row_violated (H : Bytes → Bytes) (parse : Bytes → Option X509) :
    FileOf [[[97], [98], [99]]] [97, 44, 98, 44, 99, 10] ∧ loadCertsAndChains H parse [97, 44, 98, 44, 99, 10] = .panic := by
  have t : ∀ b : Byte, b = 97 ∨ b = 98 ∨ b = 99 → Text [b] [b] := by
    rintro b (rfl | rfl | rfl) <;> exact .plain _ (by decide) (by decide) (by decide) (by decide)
  have hf : FileOf [[[97], [98], [99]]] [97, 44, 98, 44, 99, 10] :=
    FileOf.lf (row := [97, 44, 98, 44, 99]) (text := []) (RowText.more (t := [97]) (row := [98, 44, 99]) (t 97 (Or.inl rfl))
      (RowText.more (t := [98]) (row := [99]) (t 98 (Or.inr (Or.inl rfl))) (RowText.one (t 99 (Or.inr (Or.inr rfl)))))) (by simp) .empty
  exact ⟨hf, (C126_panics H parse _).2 ⟨_, [], _, [], C126_csv hf, rfl, by simp, Or.inl (by decide)⟩⟩

/-- C126 fails: one row without a chain (a root certificate) makes the call return an error and no certificates, whatever the other rows are. -/
theorem C126_no_chain_violated (H : Bytes → Bytes) (parse : Bytes → Option X509) (hempty : parse [] = none) (leaf : X509) (hl : parse leaf.raw = some leaf)
    (before after : List (List Bytes)) (ps : List (X509 × List X509)) (hs : List.Forall₂ (Says parse) before ps)
    (text : Bytes) (hf : FileOf (before ++ [[], [], [], base64 leaf.raw, []] :: after) text) : loadCertsAndChains H parse text = .err := by
  have hbad : loadRecord parse [[], [], [], base64 leaf.raw, []] = .err := by
    unfold loadRecord
    simp only [List.getElem?_cons_succ, List.getElem?_cons_zero]
    rw [(parseField_iff parse _ leaf).2 ⟨_, Rows.decodeField_base64 _, hl⟩]
    dsimp only
    rw [show Rows.splitSemicolon [] = [[]] from rfl, parseChain, show parseField parse [] = none from by
      rw [parseField, show Rows.decodeField [] = some [] by decide]; exact hempty]
  unfold loadCertsAndChains
  rw [C126_csv hf]
  dsimp only
  rw [loadRecords_err parse before after _ (by simp) hbad]
  intro x hx
  obtain ⟨p, _, hp⟩ := forall2_mem hs x hx
  exact ⟨p, says_denotes hp⟩

/-! ## Policies -/
section Policies
open Fpki.PolicyJson (Val Lib Json Kind Same SameAll supported supportedAll)
variable {C P : Type}

/-- A policy document: a policy certificate, a request for one, or a revocation, or a pointer to one. -/
def Document (v : Val C P) : Prop := ∃ o, (v = .obj o ∨ v = .ptr (.obj o)) ∧ (o.kind = .pc ∨ o.kind = .pcsr ∨ o.kind = .pcrev)

theorem isDocument_iff (v : Val C P) : isDocument v = true ↔ Document v := by
  have hk : ∀ k : Kind, docKind k = true ↔ (k = .pc ∨ k = .pcsr ∨ k = .pcrev) := by intro k; cases k <;> decide
  constructor
  · intro h
    unfold isDocument at h
    split at h
    · rename_i o; exact ⟨o, Or.inl rfl, (hk _).1 h⟩
    · rename_i o; exact ⟨o, Or.inr rfl, (hk _).1 h⟩
    · cases h
  · rintro ⟨o, rfl | rfl, h⟩ <;> exact (hk _).2 h

theorem sliceToTyped_spec {α : Type} (is : α → Bool) : ∀ s : List α, sliceToTyped is s = (s.filter is, s.filter fun e => !is e)
  | [] => rfl
  | e :: s => by
    rw [sliceToTyped, sliceToTyped_spec is s]
    cases h : is e <;> simp [h]

/-- C127: `SliceToTypedSlice` splits a slice into the elements of the type and the others, both in their order; nothing is lost. -/
theorem C127_split {α : Type} (is : α → Bool) (s : List α) : (∀ e ∈ (sliceToTyped is s).1, is e = true) ∧ (∀ e ∈ (sliceToTyped is s).2, is e = false) ∧
    (sliceToTyped is s).1.Sublist s ∧ (sliceToTyped is s).2.Sublist s ∧ s.Perm ((sliceToTyped is s).1 ++ (sliceToTyped is s).2) := by
  rw [sliceToTyped_spec]
  refine ⟨fun e he => (List.mem_filter.1 he).2, fun e he => by simpa using (List.mem_filter.1 he).2, List.filter_sublist, List.filter_sublist, ?_⟩
  exact (List.filter_append_perm is s).symm

/-- C127: `LoadPoliciesFromRaw` returns policies exactly if the text is read as a list all of whose elements are policy documents; they are its elements, in
their order. -/
theorem C127_exact (L : Lib C P) (j : Json P) (ds : List (Val C P)) :
    loadPolicies L j = some ds ↔ PolicyJson.fromJSON L false j = some (.slice true ds) ∧ ∀ d ∈ ds, Document d := by
  unfold loadPolicies
  cases h : PolicyJson.fromJSON L false j with
  | none => simp
  | some obj =>
    dsimp only
    unfold toTypedSlice
    split
    · rename_i vs
      rw [sliceToTyped_spec]
      dsimp only
      constructor
      · intro h
        split at h
        · cases h
        · rename_i hn
          have hn : vs.filter (fun e => !isDocument e) = [] := List.eq_nil_of_length_eq_zero (by omega)
          have hall : ∀ e ∈ vs, isDocument e = true := by
            intro e he
            have := List.filter_eq_nil_iff.1 hn e he
            simpa using this
          rw [List.filter_eq_self.2 hall, Option.some.injEq] at h
          subst h
          exact ⟨rfl, fun d hd => (isDocument_iff d).1 (hall d hd)⟩
      · rintro ⟨h1, h2⟩
        simp only [Option.some.injEq, Val.slice.injEq, true_and] at h1
        subst h1
        have hall : ∀ e ∈ vs, isDocument e = true := fun e he => (isDocument_iff e).2 (h2 e he)
        rw [if_neg, List.filter_eq_self.2 hall]
        rw [List.filter_eq_nil_iff.2 (fun e he => by simp [hall e he])]
        simp
    · rename_i hne
      constructor
      · intro h; cases h
      · rintro ⟨h1, _⟩
        simp only [Option.some.injEq] at h1
        exact absurd h1 (hne ds)

theorem same_document {R : Kind → C → C → Prop} {v w : Val C P} (h : Same R v w) (hd : Document v) : Document w := by
  obtain ⟨o, rfl | rfl, hk⟩ := hd
  · cases h with
    | obj k c c' r r' hr => exact ⟨_, Or.inl rfl, hk⟩
  · cases h with
    | ptr _ _ h => cases h with
      | obj k c c' r r' hr => exact ⟨_, Or.inr rfl, hk⟩

theorem sameAll_document {R : Kind → C → C → Prop} {vs ws : List (Val C P)} (h : SameAll R vs ws) (hd : ∀ v ∈ vs, Document v) : ∀ w ∈ ws, Document w := by
  intro w hw
  induction vs generalizing ws with
  | nil => cases h; cases hw
  | cons v vs ih =>
    cases h with
    | cons _ v' _ vs' h hs =>
      rcases List.mem_cons.1 hw with rfl | hw
      · exact same_document h (hd v List.mem_cons_self)
      · exact ih hs (fun x hx => hd x (List.mem_cons_of_mem _ hx)) hw

theorem documents_supported {vs : List (Val C P)} (hd : ∀ v ∈ vs, Document v) : supportedAll vs = true := by
  induction vs with
  | nil => rfl
  | cons v vs ih =>
    rw [supportedAll, ih fun x hx => hd x (List.mem_cons_of_mem _ hx), Bool.and_true]
    obtain ⟨o, rfl | rfl, _⟩ := hd v List.mem_cons_self <;> rfl

/-- C127 (partial: the list itself, not a pointer to it): what `ToJSON` writes for a list of policy documents, of any element type, is read back by
`LoadPoliciesFromRaw` as the same documents. -/
theorem C127_roundtrip_partial {R : Kind → C → C → Prop} {L : Lib C P} (hL : L.RoundTrips R) (b : Bool) (vs : List (Val C P)) (hd : ∀ v ∈ vs, Document v)
    (j : Json P) (h : PolicyJson.toJSON L (.slice b vs) = .ok j) : ∃ ds, loadPolicies L j = some ds ∧ SameAll R vs ds := by
  have he : PolicyJson.toJSON L (.slice b vs) = PolicyJson.toJSON L (.slice false vs) := by
    simp only [PolicyJson.toJSON, PolicyJson.marshal]
  rw [he] at h
  obtain ⟨ds, h1, h2⟩ := PolicyJson.C60_typed_slice_violated hL false vs (documents_supported hd) j h
  exact ⟨ds, (C127_exact L j ds).2 ⟨h1, sameAll_document h2 hd⟩, h2⟩

/-- C127 fails for a pointer to a list: `ToJSON(&policies)` is written, but never read back by `LoadPoliciesFromRaw`. -/
theorem C127_pointer_violated {R : Kind → C → C → Prop} {L : Lib C P} (hL : L.RoundTrips R) (vs : List (Val C P)) (hd : ∀ v ∈ vs, Document v)
    (j : Json P) (h : PolicyJson.toJSON L (.ptr (.slice false vs)) = .ok j) : loadPolicies L j = none := by
  obtain ⟨v', h1, h2⟩ := PolicyJson.C60_roundtrip_partial hL false (.ptr (.slice false vs)) (documents_supported hd) j h
  cases h2 with
  | ptr _ w _ =>
    unfold loadPolicies
    rw [h1]
    rfl

/-- One element that is no policy document, such as a time stamp, and nothing is returned. -/
theorem C127_all_or_nothing (L : Lib C P) (j : Json P) (vs : List (Val C P)) (h : PolicyJson.fromJSON L false j = some (.slice true vs)) (v : Val C P) (hv : v ∈ vs)
    (hd : ¬ Document v) : loadPolicies L j = none := by
  cases hl : loadPolicies L j with
  | none => rfl
  | some ds =>
    obtain ⟨h1, h2⟩ := (C127_exact L j ds).1 hl
    rw [h, Option.some.injEq, Val.slice.injEq] at h1
    exact absurd (h2 v (h1.2 ▸ hv)) hd

/-! ### A concrete case -/

def exDocs : List (Val Nat (Kind × Nat)) := [.obj ⟨.pc, 1, none⟩, .ptr (.obj ⟨.pcrev, 2, none⟩)]

theorem exDocs_docs : ∀ v ∈ exDocs, Document v := by
  intro v hv
  rw [← isDocument_iff]
  revert v
  simp only [exDocs, List.mem_cons, List.not_mem_nil, or_false, forall_eq_or_imp, forall_eq]
  exact ⟨rfl, rfl⟩

example : ∃ j ds, PolicyJson.toJSON PolicyJson.exLib (.slice true exDocs) = .ok j ∧ loadPolicies PolicyJson.exLib j = some ds ∧ SameAll (fun _ c c' => c = c') exDocs ds := by
  obtain ⟨j, hj⟩ := PolicyJson.C60_writes PolicyJson.exLib (by intro k c h; cases h) (.slice true exDocs) (documents_supported exDocs_docs)
  obtain ⟨ds, h1, h2⟩ := C127_roundtrip_partial (R := fun _ c c' => c = c') (L := PolicyJson.exLib) (by intro k c p h; cases h; exact ⟨c, by simp [PolicyJson.exLib], rfl⟩)
    true exDocs exDocs_docs j hj
  exact ⟨j, ds, hj, h1, h2⟩

example : ∃ j, PolicyJson.toJSON PolicyJson.exLib (.ptr (.slice false exDocs)) = .ok j :=
  PolicyJson.C60_writes PolicyJson.exLib (by intro k c h; cases h) _ (documents_supported exDocs_docs)

example : ¬ Document (.obj ⟨.spct, 1, none⟩ : Val Nat (Kind × Nat)) := by
  rw [← isDocument_iff]; decide

end Policies

/-! ## A concrete file -/

/-- A file with an empty line, a quoted column with a line break in it, CRLF, and no line end after the last row. -/
def exRow1 : List Bytes := [[97], [98, 10, 34], [], base64 Rows.exLeaf.raw, base64 Rows.exRoot.raw]
def exRow2 : List Bytes := [[], [], [], base64 Rows.exLeaf.raw, base64 Rows.exRoot.raw ++ 59 :: base64 Rows.exRoot.raw, [53]]

theorem exRow1_says : Says Rows.exParse exRow1 (Rows.exLeaf, [Rows.exRoot]) :=
  ⟨rfl, rfl, by simp, by decide, by decide⟩
theorem exRow2_says : Says Rows.exParse exRow2 (Rows.exLeaf, [Rows.exRoot, Rows.exRoot]) :=
  ⟨rfl, rfl, by simp, by decide, by decide⟩

theorem exFile : ∃ text, FileOf [exRow1, exRow2] text := by
  have p : ∀ v : Bytes, (comma ∉ v ∧ quote ∉ v ∧ (10 : Byte) ∉ v ∧ (13 : Byte) ∉ v) → Text v v := fun v h => .plain v h.1 h.2.1 h.2.2.1 h.2.2.2
  exact ⟨_, FileOf.blank (FileOf.crlf (RowText.more (p [97] (by decide)) (RowText.more (Text.quoted [98, 10, 34] (by decide)) (RowText.more (p [] (by decide))
      (RowText.more (p _ (by decide)) (RowText.one (p _ (by decide))))))) (by simp)
    (FileOf.last (RowText.more (p [] (by decide)) (RowText.more (p [] (by decide)) (RowText.more (p [] (by decide)) (RowText.more (p _ (by decide))
      (RowText.more (p _ (by decide)) (RowText.one (p [53] (by decide)))))))) (by simp)))⟩

example (H : Bytes → Bytes) : ∃ text out, loadCertsAndChains H Rows.exParse text = .ok (Chains.ofRows out) ∧ out.length = 5 := by
  obtain ⟨text, hf⟩ := exFile
  obtain ⟨out, h1, h2, _⟩ := C126_contents_partial H Rows.exParse hf (.cons exRow1_says (.cons exRow2_says .nil))
  refine ⟨text, out, h1, ?_⟩
  rw [h2.length_eq]
  rfl

/-- The hypotheses of `C126_no_chain_violated`: a good row, then the row of a root certificate. -/
example : ∃ text, FileOf ([exRow1] ++ [[], [], [], base64 Rows.exRoot.raw, []] :: []) text ∧ Rows.exParse [] = none ∧ Rows.exParse Rows.exRoot.raw = some Rows.exRoot := by
  have p : ∀ v : Bytes, (comma ∉ v ∧ quote ∉ v ∧ (10 : Byte) ∉ v ∧ (13 : Byte) ∉ v) → Text v v := fun v h => .plain v h.1 h.2.1 h.2.2.1 h.2.2.2
  exact ⟨_, FileOf.crlf (RowText.more (p [97] (by decide)) (RowText.more (Text.quoted [98, 10, 34] (by decide)) (RowText.more (p [] (by decide))
      (RowText.more (p _ (by decide)) (RowText.one (p _ (by decide))))))) (by simp)
    (FileOf.last (RowText.more (p [] (by decide)) (RowText.more (p [] (by decide)) (RowText.more (p [] (by decide)) (RowText.more (p _ (by decide))
      (RowText.one (p [] (by decide))))))) (by simp)), by decide, by decide⟩

end Fpki.CsvFile
