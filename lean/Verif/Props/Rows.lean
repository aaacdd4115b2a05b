import Verif.Lemmas.Rows
import Verif.Props.Chains
/-!
# Property C86: from the bytes of CSV files to certificates

Specification: `Written`, `WrittenRow` (how CSV columns and rows are written, in Lemmas/Rows), `decimal`, `Entry` (what a row says),
`FileText` (rows with line ends), `physical` (the lines of a text).
-/
namespace Fpki.Rows
open Fpki.FastCsv (comma quote indexByte trimRight)
open Fpki.Chains (X509 Accepted Consistent path)
open Fpki.CsvLoad (base64)

/-! ## Specification -/

/-- What a row of a CSV file says. -/
structure Entry where
  first : List Bytes   -- the first three columns
  leaf : X509
  chain : List X509
  more : List Bytes    -- columns between the chain and the last one
  exp : Nat
  frac : Bytes

/-- The columns: the certificate is the fourth, in base64; the chain is the fifth, in base64 with semicolons in between; the expiration is the last,
in seconds with a fraction. -/
def Entry.columns (e : Entry) : List Bytes :=
  e.first ++ [base64 e.leaf.raw, List.intercalate [59] (e.chain.map fun c => base64 c.raw)] ++ e.more ++ [decimal e.exp ++ 46 :: e.frac]

/-- An entry with three columns before the certificate, at least one certificate in the chain, a fraction of digits, no line breaks in its columns,
times that fit, and certificates that X.509 parsing accepts. -/
structure Entry.Good (parse : Bytes → Option X509) (e : Entry) : Prop where
  first : e.first.length = 3
  noBreak : ∀ v ∈ e.first ++ e.more, (10 : Byte) ∉ v
  frac : e.frac ≠ [] ∧ ∀ c ∈ e.frac, FastCsv.isDigit c = true
  exp : e.exp < 2 ^ 62
  chain : e.chain ≠ []
  parses : parse e.leaf.raw = some e.leaf ∧ ∀ c ∈ e.chain, parse c.raw = some c
  leaf : e.leaf.raw ≠ [] ∧ e.leaf.notAfter < 2 ^ 62

/-- The line of the model of C35. -/
def Entry.line (e : Entry) : Chains.Line := ⟨e.exp, e.leaf, e.chain⟩

/-- The text of a file with the given rows: each is followed by LF or CRLF, the last one may be followed by nothing. -/
inductive FileText : List Bytes → Bytes → Prop
  | empty : FileText [] []
  | last (row : Bytes) : row ≠ [] → FileText [row] row
  | lf (row : Bytes) (rows : List Bytes) (text : Bytes) : FileText rows text → FileText (row :: rows) (row ++ 10 :: text)
  | crlf (row : Bytes) (rows : List Bytes) (text : Bytes) : FileText rows text → FileText (row :: rows) (row ++ 13 :: 10 :: text)

/-- The lines of a text, with their line ends. -/
def physical : Bytes → List Bytes
  | [] => []
  | c :: r =>
    if c = 10 then [10] :: physical r
    else match physical r with
      | [] => [[c]]
      | l :: ls => (c :: l) :: ls

/-! ## Rows and files -/

/-- A standard CSV reader: what is written with any choice of quoting is read back. -/
theorem C86_csv_reader (columns : List Bytes) (row : Bytes) (h : WrittenRow columns row) (hr : row ≠ []) : csvRead row = some columns := by
  obtain ⟨texts, ht, rfl⟩ := h
  rw [csvRead, if_neg hr]
  apply csvFields_written _ _ ht
  rintro rfl
  exact hr rfl

theorem Entry.Good.columns {parse : Bytes → Option X509} {e : Entry} (h : e.Good parse) :
    (∀ v ∈ e.columns, (10 : Byte) ∉ v) ∧ e.columns[3]? = some (base64 e.leaf.raw) ∧
    e.columns[4]? = some (List.intercalate [59] (e.chain.map fun c => base64 c.raw)) ∧ e.columns.getLast? = some (decimal e.exp ++ 46 :: e.frac) := by
  refine ⟨?_, ?_, ?_, ?_⟩
  · intro v hv
    simp only [Entry.columns, List.mem_append, List.mem_cons, List.not_mem_nil, or_false] at hv
    rcases hv with ((hv | rfl | rfl) | hv) | rfl
    · exact h.noBreak v (List.mem_append_left _ hv)
    · intro hc; exact (base64_no _ _ hc).2.2 rfl
    · intro hc
      have : ∀ parts : List Bytes, (∀ p ∈ parts, (10 : Byte) ∉ p) → (10 : Byte) ∉ List.intercalate [59] parts := by
        intro parts
        induction parts with
        | nil => intro _; simp [List.intercalate]
        | cons p parts ih =>
          intro hp
          cases parts with
          | nil => rw [intercalate_one]; exact hp p List.mem_cons_self
          | cons q parts =>
            rw [intercalate_cons2]
            simp only [List.mem_append, List.mem_singleton, not_or]
            exact ⟨⟨hp p List.mem_cons_self, by decide⟩, ih (fun x hx => hp x (List.mem_cons_of_mem _ hx))⟩
      exact this _ (by
        intro p hp
        obtain ⟨c, _, rfl⟩ := List.mem_map.1 hp
        intro hc; exact (base64_no _ _ hc).2.2 rfl) hc
    · exact h.noBreak v (List.mem_append_right _ hv)
    · simp only [List.mem_append, List.mem_cons, not_or]
      refine ⟨fun hc => absurd (decimal_digits _ _ hc) (by decide), by decide, fun hc => absurd (h.frac.2 _ hc) (by decide)⟩
  · simp only [Entry.columns, List.append_assoc]
    rw [List.getElem?_append_right (Nat.le_of_eq h.first)]
    simp [h.first]
  · simp only [Entry.columns, List.append_assoc]
    rw [List.getElem?_append_right (by rw [h.first]; decide)]
    simp [h.first]
  · simp only [Entry.columns]
    rw [List.getLast?_append]; rfl

/-- C86, one row: `ParseLine` finds the certificate, the chain and the expiration in a row written with any quoting, with any line end. -/
theorem C86_row (parse : Bytes → Option X509) (e : Entry) (he : e.Good parse) (row nl : Bytes) (hrow : WrittenRow e.columns row)
    (hnl : ∀ b ∈ nl, b = 13 ∨ b = 10) : FastCsv.parseLine csvRead (row ++ nl) =
      some (base64 e.leaf.raw, List.intercalate [59] (e.chain.map fun c => base64 c.raw), decimal e.exp ++ 46 :: e.frac) := by
  obtain ⟨h1, h2, h3, h4⟩ := he.columns
  refine parseLine_row hrow h1 h2 h3 h4 (base64_ne_nil he.leaf.1) (by simp) ?_ hnl
  intro b hb
  have : b ∈ e.frac := by
    rw [List.getLast?_append, List.getLast?_cons_of_ne_nil he.frac.1] at hb
    cases hl : e.frac.getLast? with
    | none => exact absurd (List.getLast?_eq_none_iff.1 hl) he.frac.1
    | some d =>
      rw [hl] at hb
      simp only [Option.some_or, Option.some.injEq] at hb
      subst hb
      exact List.mem_of_getLast? hl
  have := he.frac.2 b this
  rw [FastCsv.isDigit_iff] at this
  constructor <;> (rintro rfl; exact absurd this (by decide))

theorem readLines_cons (csv : Bytes → Option (List Bytes)) (bad : Bool) (no : Nat) {raw : Bytes} (h : (10 : Byte) ∉ raw) (rest : Bytes) :
    readLines csv bad no (raw ++ 10 :: rest) =
      match FastCsv.parseLine csv (raw ++ [10]) with
      | none => ([], (if bad then [.read] else []) ++ [.row no])
      | some f => (⟨f.1, f.2.1, f.2.2, no⟩ :: (readLines csv bad (no + 1) rest).1, (readLines csv bad (no + 1) rest).2) := by
  have h1 : (raw ++ 10 :: rest).take (raw.length + 1) = raw ++ [10] := by
    rw [List.take_append, List.take_of_length_le (Nat.le_succ _)]; simp
  have h2 : (raw ++ 10 :: rest).drop (raw.length + 1) = rest := by
    rw [List.drop_append, List.drop_of_length_le (Nat.le_succ _)]; simp
  rw [readLines.eq_def]
  split
  · rename_i i hi
    rw [indexByte_append h] at hi
    cases hi
    rw [h1, h2]
    cases FastCsv.parseLine csv (raw ++ [10]) <;> rfl
  · rename_i hi
    rw [indexByte_append h] at hi
    cases hi

theorem readLines_last (csv : Bytes → Option (List Bytes)) (bad : Bool) (no : Nat) {raw : Bytes} (h : (10 : Byte) ∉ raw) :
    readLines csv bad no raw =
      if bad then ([], [.read]) else if raw = [] then ([], [])
      else match FastCsv.parseLine csv raw with
        | none => ([], [.unexpectedEOF, .row no])
        | some f => ([⟨f.1, f.2.1, f.2.2, no⟩], []) := by
  rw [readLines.eq_def]
  split
  · rename_i i hi
    rw [FastCsv.indexByte_none.2 h] at hi
    cases hi
  · rfl

/-- The line a worker gets for an entry. -/
def Entry.raw (e : Entry) (no : Nat) : RawLine :=
  ⟨base64 e.leaf.raw, List.intercalate [59] (e.chain.map fun c => base64 c.raw), decimal e.exp ++ 46 :: e.frac, no⟩

theorem readLines_text (parse : Bytes → Option X509) : ∀ (es : List Entry) (rows : List Bytes) (text : Bytes) (no : Nat), (∀ e ∈ es, e.Good parse) →
    List.Forall₂ (fun (e : Entry) row => WrittenRow e.columns row) es rows → FileText rows text →
    readLines csvRead false no text = (es.mapIdx (fun i e => e.raw (no + i)), [])
  | [], _, _, no, _, .nil, .empty => by
    rw [readLines_last _ _ _ (by simp)]; rfl
  | [e], [row], _, no, hg, .cons hr .nil, .last _ hne => by
    have hg' := hg e List.mem_cons_self
    rw [readLines_last _ _ _ (row_no_newline hr hg'.columns.1)]
    have := C86_row parse e hg' row [] hr (by simp)
    rw [List.append_nil] at this
    simp only [Bool.false_eq_true, if_false, if_neg hne, this]
    rfl
  | e :: es, row :: rows, _, no, hg, .cons hr hrs, .lf _ _ text ht => by
    have hg' := hg e List.mem_cons_self
    rw [readLines_cons _ _ _ (row_no_newline hr hg'.columns.1), C86_row parse e hg' row [10] hr (by simp)]
    dsimp only
    rw [readLines_text parse es rows text (no + 1) (fun x hx => hg x (List.mem_cons_of_mem _ hx)) hrs ht, List.mapIdx_cons]
    have hf : (fun i (e : Entry) => e.raw (no + 1 + i)) = fun i e => e.raw (no + (i + 1)) := by
      funext i e; rw [show no + 1 + i = no + (i + 1) by omega]
    rw [hf]; rfl
  | e :: es, row :: rows, _, no, hg, .cons hr hrs, .crlf _ _ text ht => by
    have hg' := hg e List.mem_cons_self
    have hno : (10 : Byte) ∉ row ++ [13] := by
      simp only [List.mem_append, List.mem_singleton, not_or]
      exact ⟨row_no_newline hr hg'.columns.1, by decide⟩
    have : row ++ 13 :: 10 :: text = (row ++ [13]) ++ 10 :: text := by simp
    rw [this, readLines_cons _ _ _ hno, List.append_assoc, C86_row parse e hg' row ([13] ++ [10]) hr (by simp)]
    dsimp only
    rw [readLines_text parse es rows text (no + 1) (fun x hx => hg x (List.mem_cons_of_mem _ hx)) hrs ht, List.mapIdx_cons]
    have hf : (fun i (e : Entry) => e.raw (no + 1 + i)) = fun i e => e.raw (no + (i + 1)) := by
      funext i e; rw [show no + 1 + i = no + (i + 1) by omega]
    rw [hf]; rfl

/-- C86, one file: a file written for good entries is read without error, one line for each entry, in order, numbered from 1, each with the certificate,
chain and expiration of its entry. -/
theorem C86_file (parse : Bytes → Option X509) (es : List Entry) (hg : ∀ e ∈ es, e.Good parse) (rows : List Bytes) (text : Bytes)
    (hrows : List.Forall₂ (fun (e : Entry) row => WrittenRow e.columns row) es rows) (ht : FileText rows text) :
    readFile csvRead false false text = (es.mapIdx (fun i e => e.raw (i + 1)), []) := by
  unfold readFile
  rw [readLines_text parse es rows text 1 hg hrows ht]
  simp only [Bool.false_eq_true, if_false, List.append_nil]
  have hf : (fun i (e : Entry) => e.raw (1 + i)) = fun i e => e.raw (i + 1) := by
    funext i e; rw [Nat.add_comm]
  rw [hf]

theorem Entry.Good.decodes {parse : Bytes → Option X509} {e : Entry} (h : e.Good parse) (no : Nat) : Decodes parse (e.raw no) e.line := by
  refine ⟨⟨getExpiration_decimal (Nat.lt_trans h.exp (by decide)) h.frac.1, h.exp⟩, ⟨decodeField_base64 _, h.parses.1, h.leaf.2⟩, ?_⟩
  show List.Forall₂ _ (splitSemicolon (List.intercalate [59] (e.chain.map fun c => base64 c.raw))) e.chain
  rw [splitSemicolon_join _ (by simpa using h.chain) (by
    intro p hp hc
    obtain ⟨c, _, rfl⟩ := List.mem_map.1 hp
    exact (base64_no _ _ hc).1 rfl)]
  have hp := h.parses.2
  generalize e.chain = ch at hp
  induction ch with
  | nil => exact .nil
  | cons c cs ih =>
    exact .cons ⟨decodeField_base64 _, hp c List.mem_cons_self⟩ (ih (fun x hx => hp x (List.mem_cons_of_mem _ hx)))

/-- C86, one line: for a line of a good entry the worker does what the model of C35 does with the certificates of the entry: the same line is skipped,
the same certificates are kept for the DB, with the same IDs, and the cache is the same. In particular there is no error. -/
theorem C86_line (H : Bytes → Bytes) (parse : Bytes → Option X509) (size : Nat) (now : Now) (w : W) (e : Entry) (he : e.Good parse) (no : Nat) :
    (parseLine H parse size now w (e.raw no)).2 =
      (match (Chains.parseLine H size now.ceil w.cache e.line).2 with
        | none => .skip
        | some ps => .chain e.leaf ps (e.chain.map fun c => H c.raw)) ∧
    (parseLine H parse size now w (e.raw no)).1.cache = (Chains.parseLine H size now.ceil w.cache e.line).1 := by
  have h := parseLine_decodes H parse size now w (he.decodes no)
  refine ⟨?_, h.1⟩
  rw [h.2]
  cases (Chains.parseLine H size now.ceil w.cache e.line).2 <;> rfl

/-- C86, all files: any number of files, whose lines reach any number of workers in any distribution and any order, each worker with its own cache
of any size. No worker reports an error; every row a worker emits is one of a certificate of an entry; and if the chain after a certificate is the
same wherever it occurs in entries that have not expired, then every certificate of every such entry is emitted by one of the workers. -/
theorem C86_files_partial (H : Bytes → Bytes) (parse : Bytes → Option X509) (size : Nat) (now : Now) (files : List (List Entry × Bytes))
    (hfiles : ∀ f ∈ files, (∀ e ∈ f.1, e.Good parse) ∧
      ∃ rows, List.Forall₂ (fun (e : Entry) row => WrittenRow e.columns row) f.1 rows ∧ FileText rows f.2)
    (parts : List (List RawLine)) (hparts : parts.flatten.Perm (files.flatMap fun f => (readFile csvRead false false f.2).1)) (stats : Stats) :
    (∀ p ∈ parts, (worker H parse size now ⟨[], stats⟩ p).2 = false) ∧
    (∀ p ∈ parts, ∀ o ∈ (worker H parse size now ⟨[], stats⟩ p).1, ∃ f ∈ files, ∃ e ∈ f.1, now.ceil ≤ e.exp ∧ now.ceil ≤ e.leaf.notAfter ∧
      ∃ (c : X509) (a t : List X509), e.leaf :: e.chain = a ++ c :: t ∧ o.id = H c.raw ∧ o.raw = c.raw ∧ o.notAfter = c.notAfter ∧
        o.parent = t.head?.map (fun c => H c.raw) ∧ o.names = (if a = [] then some c.names else none)) ∧
    (Consistent H now.ceil (files.flatMap fun f => f.1.map Entry.line) →
      ∀ f ∈ files, ∀ e ∈ f.1, now.ceil ≤ e.exp → now.ceil ≤ e.leaf.notAfter → ∀ c ∈ e.leaf :: e.chain,
        ∃ p ∈ parts, ∃ o ∈ (worker H parse size now ⟨[], stats⟩ p).1, o.id = H c.raw) := by
  -- the lines of a file
  have hlines : ∀ f ∈ files, (readFile csvRead false false f.2).1 = f.1.mapIdx (fun i e => e.raw (i + 1)) := by
    intro f hf
    obtain ⟨hg, rows, hr, ht⟩ := hfiles f hf
    rw [C86_file parse f.1 hg rows f.2 hr ht]
  have hmem : ∀ l, l ∈ parts.flatten ↔ ∃ f ∈ files, ∃ (i : Nat) (e : Entry), f.1[i]? = some e ∧ l = e.raw (i + 1) := by
    intro l
    rw [hparts.mem_iff, List.mem_flatMap]
    constructor
    · rintro ⟨f, hf, hl⟩
      rw [hlines f hf, List.mem_mapIdx] at hl
      obtain ⟨i, hi, rfl⟩ := hl
      exact ⟨f, hf, i, f.1[i], List.getElem?_eq_getElem hi, rfl⟩
    · rintro ⟨f, hf, i, e, he, rfl⟩
      refine ⟨f, hf, ?_⟩
      rw [hlines f hf, List.mem_mapIdx]
      obtain ⟨hi, rfl⟩ := List.getElem?_eq_some_iff.1 he
      exact ⟨i, hi, rfl⟩
  have hdec : ∀ p ∈ parts, ∃ Ls : List Chains.Line, List.Forall₂ (Decodes parse) p Ls ∧ ∀ L ∈ Ls, ∃ f ∈ files, ∃ e ∈ f.1, L = e.line := by
    intro p hp
    have : ∀ l ∈ p, ∃ L : Chains.Line, Decodes parse l L ∧ ∃ f ∈ files, ∃ e ∈ f.1, L = e.line := by
      intro l hl
      obtain ⟨f, hf, i, e, he, rfl⟩ := (hmem l).1 (List.mem_flatten.2 ⟨p, hp, hl⟩)
      have hem := List.mem_of_getElem? he
      exact ⟨e.line, ((hfiles f hf).1 e hem).decodes _, f, hf, e, hem, rfl⟩
    obtain ⟨Ls, hLs⟩ := exists_forall2 p this
    refine ⟨Ls, hLs.imp (fun _ _ h => h.1), ?_⟩
    intro L hL
    obtain ⟨l, _, h⟩ := forall2_mem_right hLs hL
    exact h.2
  refine ⟨?_, ?_, ?_⟩
  · intro p hp
    obtain ⟨Ls, hLs, _⟩ := hdec p hp
    rw [worker_decodes H parse size now p Ls _ hLs]
  · intro p hp o ho
    obtain ⟨Ls, hLs, hfrom⟩ := hdec p hp
    rw [worker_decodes H parse size now p Ls _ hLs] at ho
    obtain ⟨L, hL, h⟩ := Chains.C35_rows_are_real H size now.ceil Ls o ho
    obtain ⟨f, hf, e, he, rfl⟩ := hfrom L hL
    exact ⟨f, hf, e, he, h.1.1, h.1.2, h.2⟩
  · intro hcons f hf e he h1 h2 c hc
    obtain ⟨i, hi⟩ := List.getElem?_of_mem he
    obtain ⟨p, hp, hl⟩ := List.mem_flatten.1 ((hmem (e.raw (i + 1))).2 ⟨f, hf, i, e, hi, rfl⟩)
    obtain ⟨Ls, hLs, hfrom⟩ := hdec p hp
    obtain ⟨L, hL, hd⟩ := forall2_mem_left hLs hl
    have hLe := hd.unique (((hfiles f hf).1 e he).decodes (i + 1))
    subst hLe
    refine ⟨p, hp, ?_⟩
    rw [worker_decodes H parse size now p Ls _ hLs]
    have hc2 : Consistent H now.ceil Ls := by
      have hin : ∀ L ∈ Ls, L ∈ files.flatMap fun f => f.1.map Entry.line := by
        intro L hL
        obtain ⟨f, hf, e, he, rfl⟩ := hfrom L hL
        exact List.mem_flatMap.2 ⟨f, hf, List.mem_map.2 ⟨e, he, rfl⟩⟩
      intro l1 k1 l2 k2
      exact hcons l1 (hin _ k1) l2 (hin _ k2)
    exact Chains.C35_every_certificate_emitted_partial H size now.ceil Ls hc2 e.line hL ⟨h1, h2⟩ (H c.raw)
      (by
        show H c.raw ∈ H e.leaf.raw :: e.chain.map fun c => H c.raw
        rcases List.mem_cons.1 hc with rfl | hc
        · exact List.mem_cons_self
        · exact List.mem_cons_of_mem _ (List.mem_map.2 ⟨c, hc, rfl⟩))

/-! ## Faulty files -/

theorem physical_line {raw : Bytes} (h : (10 : Byte) ∉ raw) (rest : Bytes) : physical (raw ++ 10 :: rest) = (raw ++ [10]) :: physical rest := by
  induction raw with
  | nil => simp [physical]
  | cons c raw ih =>
    simp only [List.mem_cons, not_or] at h
    rw [List.cons_append, physical, if_neg (Ne.symm h.1), ih h.2]; rfl

theorem physical_last {raw : Bytes} (h : (10 : Byte) ∉ raw) : physical raw = if raw = [] then [] else [raw] := by
  induction raw with
  | nil => rfl
  | cons c raw ih =>
    simp only [List.mem_cons, not_or] at h
    rw [physical, if_neg (Ne.symm h.1), ih h.2]
    cases raw <;> rfl

theorem split_newline (n : Nat) : ∀ b : Bytes, b.length ≤ n → (10 : Byte) ∉ b ∨ ∃ raw rest, b = raw ++ 10 :: rest ∧ (10 : Byte) ∉ raw := by
  intro b _
  by_cases h : (10 : Byte) ∈ b
  · obtain ⟨raw, rest, h1, h2⟩ := List.eq_append_cons_of_mem h
    exact Or.inr ⟨raw, rest, h1, h2⟩
  · exact Or.inl h

/-- What `ParseLine` says about a physical line, as line `l`. -/
def ParsedAs (csv : Bytes → Option (List Bytes)) (raw : Bytes) (l : RawLine) : Prop := FastCsv.parseLine csv raw = some (l.cert, l.chain, l.exp)

theorem readLines_prefix (csv : Bytes → Option (List Bytes)) (bad : Bool) (n : Nat) : ∀ (content : Bytes) (no : Nat), content.length ≤ n →
    ∃ k ≤ (physical content).length, List.Forall₂ (ParsedAs csv) ((physical content).take k) (readLines csv bad no content).1 ∧
      (readLines csv bad no content).1.map RawLine.number = List.range' no k ∧
      ((readLines csv bad no content).2 = [] ↔ bad = false ∧ k = (physical content).length) ∧
      (k < (physical content).length → (bad = true ∧ k + 1 = (physical content).length ∧ (physical content)[k]?.bind (·.getLast?) ≠ some 10) ∨
        ∃ raw, (physical content)[k]? = some raw ∧ FastCsv.parseLine csv raw = none) ∧
      (bad = true → ∀ raw ∈ (physical content).take k, raw.getLast? = some 10) := by
  induction n with
  | zero =>
    intro content no hl
    obtain rfl := List.eq_nil_of_length_eq_zero (Nat.le_zero.1 hl)
    refine ⟨0, Nat.le_refl _, ?_⟩
    rw [readLines_last _ _ _ (by simp)]
    cases bad
    · exact ⟨.nil, rfl, by simp [physical], by simp [physical], by simp⟩
    · exact ⟨.nil, rfl, by simp, by simp [physical], by simp⟩
  | succ n ih =>
    intro content no hl
    rcases split_newline _ content (Nat.le_refl _) with hno | ⟨raw, rest, rfl, hno⟩
    · rw [readLines_last _ _ _ hno, physical_last hno]
      by_cases hb : bad = true
      · subst hb
        refine ⟨0, Nat.zero_le _, ?_⟩
        simp only [if_true]
        refine ⟨.nil, rfl, by simp, ?_, by simp⟩
        intro hk
        left
        split at hk
        · simp at hk
        · rename_i hne
          rw [if_neg hne]
          refine ⟨True.intro, rfl, ?_⟩
          rw [List.getElem?_cons_zero, Option.bind_some]
          exact fun h => hno (List.mem_of_getLast? h)
      · simp only [hb, if_false, Bool.false_eq_true]
        by_cases hne : content = []
        · subst hne
          refine ⟨0, Nat.le_refl _, ?_⟩
          simp only [if_true]
          exact ⟨.nil, rfl, by simp, by simp, by simp⟩
        · simp only [if_neg hne]
          cases hp : FastCsv.parseLine csv content with
          | none => exact ⟨0, Nat.zero_le _, .nil, rfl, by simp, fun _ => Or.inr ⟨content, rfl, hp⟩, by simp⟩
          | some f => exact ⟨1, Nat.le_refl _, .cons hp .nil, rfl, by simp, by simp, by simp [hb]⟩
    · rw [readLines_cons _ _ _ hno, physical_line hno]
      cases hp : FastCsv.parseLine csv (raw ++ [10]) with
      | none =>
        refine ⟨0, Nat.zero_le _, .nil, rfl, ?_, fun _ => Or.inr ⟨raw ++ [10], rfl, hp⟩, by simp⟩
        cases bad <;> simp
      | some f =>
        obtain ⟨k, h1, h2, h3, h4, h5, h6⟩ := ih rest (no + 1) (by simp only [List.length_append, List.length_cons] at hl; omega)
        refine ⟨k + 1, Nat.succ_le_succ h1, .cons hp h2, ?_, ?_, ?_, ?_⟩
        · rw [List.map_cons, h3, List.range'_succ]
        · rw [h4]; simp
        · intro hk
          rcases h5 (by simpa using hk) with ⟨a, b, c⟩ | ⟨r, a, b⟩
          · exact Or.inl ⟨a, by simp [b], by simpa using c⟩
          · exact Or.inr ⟨r, by simpa using a, b⟩
        · intro hb r hr
          rw [List.take_succ_cons] at hr
          rcases List.mem_cons.1 hr with rfl | hr
          · simp
          · exact h6 hb r hr

/-- C86, any file: whatever the file contains, and also if reading it fails in the middle, the lines passed on are those of its first `k` physical lines, in
order, numbered from 1; reading stops only at the end, at a line that `ParseLine` rejects or, if reading fails, at an incomplete line. An error is
reported exactly if closing fails, reading fails or not all lines were passed on. A line cut off by a failed read is never passed on. -/
theorem C86_any_file (csv : Bytes → Option (List Bytes)) (bad closeFails : Bool) (content : Bytes) :
    ∃ k ≤ (physical content).length, List.Forall₂ (ParsedAs csv) ((physical content).take k) (readFile csv bad closeFails content).1 ∧
      (readFile csv bad closeFails content).1.map RawLine.number = List.range' 1 k ∧
      ((readFile csv bad closeFails content).2 = [] ↔ closeFails = false ∧ bad = false ∧ k = (physical content).length) ∧
      (k < (physical content).length → (bad = true ∧ k + 1 = (physical content).length ∧ (physical content)[k]?.bind (·.getLast?) ≠ some 10) ∨
        ∃ raw, (physical content)[k]? = some raw ∧ FastCsv.parseLine csv raw = none) ∧
      (bad = true → ∀ raw ∈ (physical content).take k, raw.getLast? = some 10) := by
  obtain ⟨k, h1, h2, h3, h4, h5, h6⟩ := readLines_prefix csv bad _ content 1 (Nat.le_refl _)
  refine ⟨k, h1, h2, h3, ?_, h5, h6⟩
  unfold readFile
  dsimp only
  rw [List.append_eq_nil_iff, h4]
  cases closeFails <;> simp

theorem physical_flatten : ∀ b : Bytes, (physical b).flatten = b
  | [] => rfl
  | c :: r => by
    have ih := physical_flatten r
    rw [physical]
    split
    · rename_i h; subst h; rw [List.flatten_cons, ih]; rfl
    · cases hp : physical r with
      | nil => rw [hp] at ih; rw [← ih]; rfl
      | cons l ls => rw [hp] at ih; rw [← ih]; rfl

/-! ## Faulty rows -/

theorem chainLoop_error (H : Bytes → Bytes) (parse : Bytes → Option X509) (size : Nat) : ∀ (ss : List Bytes) (w : W), (chainLoop H parse size w ss).2 = none →
    ∃ s ∈ ss, decodeField s = none ∨ ∃ raw, decodeField s = some raw ∧ parse raw = none
  | [], _, h => by cases h
  | s :: ss, w, h => by
    unfold chainLoop at h
    cases hd : decodeField s with
    | none => exact ⟨s, List.mem_cons_self, Or.inl hd⟩
    | some raw =>
      simp only [hd] at h
      split at h
      · simp only [Option.map_eq_none_iff] at h
        obtain ⟨s', hs', h'⟩ := chainLoop_error H parse size ss _ h
        exact ⟨s', List.mem_cons_of_mem _ hs', h'⟩
      · cases hp : parse raw with
        | none => exact ⟨s, List.mem_cons_self, Or.inr ⟨raw, hd, hp⟩⟩
        | some c =>
          simp only [hp, Option.map_eq_none_iff] at h
          obtain ⟨s', hs', h'⟩ := chainLoop_error H parse size ss _ h
          exact ⟨s', List.mem_cons_of_mem _ hs', h'⟩

theorem chainLoop_undecodable (H : Bytes → Bytes) (parse : Bytes → Option X509) (size : Nat) : ∀ (ss : List Bytes) (w : W),
    (∃ s ∈ ss, decodeField s = none) → (chainLoop H parse size w ss).2 = none
  | [], _, h => by obtain ⟨s, hs, _⟩ := h; cases hs
  | s :: ss, w, h => by
    unfold chainLoop
    cases hd : decodeField s with
    | none => rfl
    | some raw =>
      have h' : ∃ s ∈ ss, decodeField s = none := by
        obtain ⟨t, ht, hn⟩ := h
        rcases List.mem_cons.1 ht with rfl | ht
        · rw [hd] at hn; cases hn
        · exact ⟨t, ht, hn⟩
      dsimp only
      split
      · rw [chainLoop_undecodable H parse size ss _ h']; rfl
      · cases hp : parse raw with
        | none => rfl
        | some c =>
          dsimp only
          rw [chainLoop_undecodable H parse size ss _ h']; rfl

/-- C86: an error of the worker always has a cause in the row. -/
theorem C86_error_cause (H : Bytes → Bytes) (parse : Bytes → Option X509) (size : Nat) (now : Now) (w : W) (l : RawLine)
    (h : (parseLine H parse size now w l).2 = .error) : getExpiration l.exp = none ∨
      ∃ n, getExpiration l.exp = some n ∧ after now n = false ∧
        ∃ s ∈ l.cert :: splitSemicolon l.chain, decodeField s = none ∨ ∃ raw, decodeField s = some raw ∧ parse raw = none := by
  unfold parseLine at h
  cases hn : getExpiration l.exp with
  | none => exact Or.inl rfl
  | some n =>
    right
    simp only [hn] at h
    split at h
    · cases h
    · rename_i ha
      refine ⟨n, rfl, by simpa using ha, ?_⟩
      cases hd : decodeField l.cert with
      | none => exact ⟨l.cert, List.mem_cons_self, Or.inl hd⟩
      | some raw =>
        simp only [hd] at h
        split at h
        · cases h
        · unfold parseRest at h
          cases hp : parse raw with
          | none => exact ⟨l.cert, List.mem_cons_self, Or.inr ⟨raw, hd, hp⟩⟩
          | some c =>
            simp only [hp] at h
            split at h
            · cases h
            · dsimp only at h
              split at h
              · rename_i hc
                obtain ⟨s, hs, h'⟩ := chainLoop_error H parse size _ _ hc
                exact ⟨s, List.mem_cons_of_mem _ hs, h'⟩
              · cases h

/-- C86: a row that has not expired and whose certificate is not base64, is an error; so is one that is not a certificate; and so is one with a new, unexpired certificate
and a part of the chain that is not base64. Nothing of such a row is emitted, nor of the rows after it. -/
theorem C86_error_reported (H : Bytes → Bytes) (parse : Bytes → Option X509) (size : Nat) (now : Now) (w : W) (l : RawLine)
    (h : getExpiration l.exp = none ∨ ∃ n, getExpiration l.exp = some n ∧ after now n = false ∧ (decodeField l.cert = none ∨
      ∃ raw, decodeField l.cert = some raw ∧ H raw ∉ w.cache ∧ (parse raw = none ∨
        ∃ c, parse raw = some c ∧ after now c.notAfter = false ∧ ∃ s ∈ splitSemicolon l.chain, decodeField s = none))) :
    (parseLine H parse size now w l).2 = .error ∧ ∀ ls, worker H parse size now w (l :: ls) = ([], true) := by
  have hm : (parseLine H parse size now w l).2 = .error := by
    unfold parseLine
    rcases h with h | ⟨n, h1, h2, h3⟩
    · simp only [h]
    · simp only [h1, h2, Bool.false_eq_true, if_false]
      rcases h3 with h3 | ⟨raw, h3, h4, h5⟩
      · simp only [h3]
      · have hcache : Batch.lruContains w.cache (H raw) = false := by
          unfold Batch.lruContains
          rw [Bool.eq_false_iff]; simpa using h4
        simp only [h3, hcache, Bool.false_eq_true, if_false]
        unfold parseRest
        rcases h5 with h5 | ⟨c, h5, h6, h7⟩
        · simp only [h5]
        · simp only [h5, h6, Bool.false_eq_true, if_false]
          rw [chainLoop_undecodable H parse size _ _ h7]
  refine ⟨hm, fun ls => ?_⟩
  unfold worker
  cases hp : parseLine H parse size now w l with
  | mk w' o => rw [hp] at hm; dsimp only at hm; subst hm; rfl

/-- C86, violated: a certificate without a chain (an empty column) is an error, although `ParseLine` accepts the row and an empty text is decoded without
error: the column is split into one empty part, which is not a certificate. Ingest stops at this row. -/
theorem C86_no_chain_violated (H : Bytes → Bytes) (parse : Bytes → Option X509) (hempty : parse [] = none)
    (size : Nat) (now : Now) (leaf : X509) (hl : parse leaf.raw = some leaf) (hn : leaf.raw ≠ []) (exp : Nat) (he : exp < 2 ^ 62) (h1 : now.ceil ≤ exp)
    (h2 : now.ceil ≤ leaf.notAfter) (h3 : leaf.notAfter < 2 ^ 62) (stats : Stats) :
    ∃ row : Bytes, WrittenRow [[97], [98], [99], base64 leaf.raw, [], decimal exp ++ [46, 53]] row ∧
      ∃ l : RawLine, FastCsv.parseLine csvRead (row ++ [10]) = some (l.cert, l.chain, l.exp) ∧
        ∀ ls, worker H parse size now ⟨[], stats⟩ (l :: ls) = ([], true) := by
  have hplain : ∀ v ∈ [[97], [98], [99], base64 leaf.raw, [], decimal exp ++ [46, 53]], comma ∉ v ∧ quote ∉ v ∧ (10 : Byte) ∉ v := by
    intro v hv
    simp only [List.mem_cons, List.not_mem_nil, or_false] at hv
    rcases hv with rfl | rfl | rfl | rfl | rfl | rfl
    · decide
    · decide
    · decide
    · have := base64_forall (P := fun c => c ≠ comma ∧ c ≠ quote ∧ c ≠ 10) (by decide) (by decide) leaf.raw
      exact ⟨fun h => (this _ h).1 rfl, fun h => (this _ h).2.1 rfl, fun h => (this _ h).2.2 rfl⟩
    · decide
    · have := decimal_digits exp
      simp only [List.mem_append, not_or]
      exact ⟨⟨fun h => absurd (this _ h) (by decide), by decide⟩, ⟨fun h => absurd (this _ h) (by decide), by decide⟩,
        fun h => absurd (this _ h) (by decide), by decide⟩
  have hrow : WrittenRow [[97], [98], [99], base64 leaf.raw, [], decimal exp ++ [46, 53]]
      (List.intercalate [comma] [[97], [98], [99], base64 leaf.raw, [], decimal exp ++ [46, 53]]) :=
    ⟨_, List.forall₂_same.2 (fun v hv => .plain v (hplain v hv).1 (hplain v hv).2.1), rfl⟩
  refine ⟨_, hrow, ⟨base64 leaf.raw, [], decimal exp ++ [46, 53], 1⟩, ?_, ?_⟩
  · refine parseLine_row hrow (fun v hv => (hplain v hv).2.2) rfl rfl rfl (base64_ne_nil hn) (by simp) ?_ (by simp)
    intro b hb
    rw [List.getLast?_append] at hb
    simp at hb
    subst hb; decide
  · intro ls
    have hm : (parseLine H parse size now ⟨[], stats⟩ ⟨base64 leaf.raw, [], decimal exp ++ [46, 53], 1⟩).2 = .error := by
      unfold parseLine
      have ha : after now (exp : Int) = false := by
        rw [Bool.eq_false_iff]; intro h; have := (after_iff now he).1 h; omega
      have hb : after now (leaf.notAfter : Int) = false := by
        rw [Bool.eq_false_iff]; intro h; have := (after_iff now h3).1 h; omega
      have hg : getExpiration (decimal exp ++ [46, 53]) = some (exp : Int) :=
        getExpiration_decimal (frac := [53]) (Nat.lt_trans he (by decide)) (by simp)
      simp only [hg, ha, decodeField_base64, Bool.false_eq_true, if_false]
      have hc : Batch.lruContains [] (H leaf.raw) = false := rfl
      simp only [hc, Bool.false_eq_true, if_false]
      unfold parseRest
      simp only [hl, hb, Bool.false_eq_true, if_false]
      have hs : splitSemicolon [] = [[]] := rfl
      have hd : decodeField [] = some [] := rfl
      simp only [hs, chainLoop, hd, hempty, Batch.lruContains, List.contains_nil, Bool.false_eq_true, if_false]
    unfold worker
    cases hp : parseLine H parse size now ⟨[], stats⟩ ⟨base64 leaf.raw, [], decimal exp ++ [46, 53], 1⟩ with
    | mk w' o => rw [hp] at hm; dsimp only at hm; subst hm; rfl

/-- C86, violated: a column with a line break, which CSV allows in quotes, makes the file unreadable (entries with such columns are excluded by `Good.noBreak`). -/
theorem C86_line_break_violated : ∃ (columns : List Bytes) (row : Bytes), WrittenRow columns row ∧ csvRead row = some columns ∧
    columns = [[97], [98, 10, 98], [99], base64 [1], base64 [2], [57, 46, 53]] ∧ (readFile csvRead false false (row ++ [10])) = ([], [.row 1]) := by
  refine ⟨_, [97, 44, 34, 98, 10, 98, 34, 44, 99, 44, 65, 81, 61, 61, 44, 65, 103, 61, 61, 44, 57, 46, 53], ?_, ?_, rfl, ?_⟩
  · refine ⟨[[97], [34, 98, 10, 98, 34], [99], [65, 81, 61, 61], [65, 103, 61, 61], [57, 46, 53]], ?_, by decide⟩
    exact .cons (.plain _ (by decide) (by decide)) (.cons (.quoted [98, 10, 98]) (.cons (.plain _ (by decide) (by decide))
      (.cons (.plain _ (by decide) (by decide)) (.cons (.plain _ (by decide) (by decide)) (.cons (.plain _ (by decide) (by decide)) .nil)))))
  · decide +kernel
  · decide +kernel

/-- C86, violated: an expiration more than 292 thousand million years away is taken for one in the past (package time wraps around), so the row is skipped
without any message. -/
theorem C86_far_future_violated (H : Bytes → Bytes) (parse : Bytes → Option X509) (size : Nat) (w : W) (now : Now) (exp : Nat) (frac : Bytes) (hf : frac ≠ [])
    (h1 : 2 ^ 63 - 62135596800 ≤ exp) (h2 : exp < 2 ^ 63) (cert chain : Bytes) (no : Nat) :
    (parseLine H parse size now w ⟨cert, chain, decimal exp ++ 46 :: frac, no⟩).2 = .skip := by
  unfold parseLine
  have ha : after now (exp : Int) = true := by
    unfold after wrap64 epoch
    have : ((exp : Int) + 62135596800 + 2 ^ 63) % 2 ^ 64 = (exp : Int) + 62135596800 + 2 ^ 63 - 2 ^ 64 := by omega
    simp only [Bool.or_eq_true, decide_eq_true_eq]
    left
    omega
  simp only [getExpiration_decimal h2 hf, ha, if_true]

/-! ## Counters -/

/-- C86: the two workers treat every line alike. -/
theorem C86_workers_agree (H : Bytes → Bytes) (parse : Bytes → Option X509) (size : Nat) (now : Now) (cache : List Bytes) (s s' : Stats) (l : RawLine) :
    (parseLine H parse size now ⟨cache, s⟩ l).2 = (parseLinePtr H parse size now ⟨cache, s'⟩ l).2 ∧
    (parseLine H parse size now ⟨cache, s⟩ l).1.cache = (parseLinePtr H parse size now ⟨cache, s'⟩ l).1.cache := by
  have hchain : ∀ (ss : List Bytes) (cache : List Bytes) (s s' : Stats),
      (chainLoop H parse size ⟨cache, s⟩ ss).2 = (chainLoop H parse size ⟨cache, s'⟩ ss).2 ∧
      (chainLoop H parse size ⟨cache, s⟩ ss).1.cache = (chainLoop H parse size ⟨cache, s'⟩ ss).1.cache := by
    intro ss
    induction ss with
    | nil => intro cache s s'; exact ⟨rfl, rfl⟩
    | cons x ss ih =>
      intro cache s s'
      unfold chainLoop
      cases decodeField x with
      | none => exact ⟨rfl, rfl⟩
      | some raw =>
        dsimp only
        split
        · exact ⟨by rw [(ih _ _ _).1], (ih _ _ _).2⟩
        · cases parse raw with
          | none => exact ⟨rfl, rfl⟩
          | some c => exact ⟨by dsimp only; rw [(ih _ _ _).1], (ih _ _ _).2⟩
  unfold parseLine parseLinePtr
  cases getExpiration l.exp with
  | none => exact ⟨rfl, rfl⟩
  | some n =>
    dsimp only
    split
    · exact ⟨rfl, rfl⟩
    · cases decodeField l.cert with
      | none => exact ⟨rfl, rfl⟩
      | some raw =>
        dsimp only
        split
        · exact ⟨rfl, rfl⟩
        · unfold parseRest
          cases parse raw with
          | none => exact ⟨rfl, rfl⟩
          | some c =>
            dsimp only
            split
            · exact ⟨rfl, rfl⟩
            · exact ⟨by dsimp only; rw [(hchain _ _ _ _).1], (hchain _ _ _ _).2⟩

/-- The number of payloads kept. -/
def kept (ps : List (Option X509)) : Nat := ps.countP Option.isSome

theorem chainLoop_stats (H : Bytes → Bytes) (parse : Bytes → Option X509) (size : Nat) : ∀ (ss : List Bytes) (w : W) (ps : List (Option X509)) (ids : List Bytes),
    (chainLoop H parse size w ss).2 = some (ps, ids) →
    (chainLoop H parse size w ss).1.stats.readCerts = w.stats.readCerts + ss.length ∧
    (chainLoop H parse size w ss).1.stats.uncached = w.stats.uncached + kept ps ∧
    (chainLoop H parse size w ss).1.stats.readRows = w.stats.readRows ∧ (chainLoop H parse size w ss).1.stats.expired = w.stats.expired ∧
    ps.length = ss.length ∧ ids.length = ss.length
  | [], w, ps, ids, h => by
    simp only [chainLoop, Option.some.injEq, Prod.mk.injEq] at h
    obtain ⟨rfl, rfl⟩ := h
    simp [chainLoop, kept]
  | s :: ss, w, ps, ids, h => by
    unfold chainLoop at h ⊢
    cases hd : decodeField s with
    | none => simp only [hd] at h; cases h
    | some raw =>
      simp only [hd] at h ⊢
      split at h
      · rename_i hc
        simp only [hc, if_true]
        cases hr : (chainLoop H parse size _ ss).2 with
        | none => rw [hr] at h; cases h
        | some p =>
          rw [hr] at h
          simp only [Option.map_some, Option.some.injEq, Prod.mk.injEq] at h
          obtain ⟨rfl, rfl⟩ := h
          obtain ⟨a, b, c, d, e, f⟩ := chainLoop_stats H parse size ss _ p.1 p.2 hr
          simp only [a, b, c, d, List.length_cons, e, f, kept, List.countP_cons, Option.isSome_none, Bool.false_eq_true, if_false]
          refine ⟨by omega, by omega, trivial, trivial, trivial, trivial⟩
      · rename_i hc
        simp only [hc, Bool.false_eq_true, if_false]
        cases hp : parse raw with
        | none => simp only [hp] at h; cases h
        | some cert =>
          simp only [hp] at h ⊢
          cases hr : (chainLoop H parse size _ ss).2 with
          | none => rw [hr] at h; cases h
          | some p =>
            rw [hr] at h
            simp only [Option.map_some, Option.some.injEq, Prod.mk.injEq] at h
            obtain ⟨rfl, rfl⟩ := h
            obtain ⟨a, b, c, d, e, f⟩ := chainLoop_stats H parse size ss _ p.1 p.2 hr
            simp only [a, b, c, d, List.length_cons, e, f, kept, List.countP_cons, Option.isSome_some, if_true]
            refine ⟨by omega, by omega, trivial, trivial, trivial, trivial⟩

/-- C86: for a line that is passed on, the counters of the worker of ingest grow by one row, by the certificates of the row, and (as uncached) by the leaf and
the payloads kept; for one that is skipped, by one row and one certificate, and it is counted as expired exactly if its expiration is over. -/
theorem C86_counters (H : Bytes → Bytes) (parse : Bytes → Option X509) (size : Nat) (now : Now) (w : W) (l : RawLine) :
    (∀ leaf ps ids, (parseLine H parse size now w l).2 = .chain leaf ps ids →
      (parseLine H parse size now w l).1.stats.readRows = w.stats.readRows + 1 ∧
      (parseLine H parse size now w l).1.stats.readCerts = w.stats.readCerts + 1 + ps.length ∧
      (parseLine H parse size now w l).1.stats.uncached = w.stats.uncached + 1 + kept ps ∧
      (parseLine H parse size now w l).1.stats.expired = w.stats.expired) ∧
    ((parseLine H parse size now w l).2 = .skip →
      (parseLine H parse size now w l).1.stats.readRows = w.stats.readRows + 1 ∧
      (parseLine H parse size now w l).1.stats.readCerts = w.stats.readCerts + 1 ∧
      (parseLine H parse size now w l).1.stats.uncached ≤ w.stats.uncached + 1 ∧
      ∃ n, getExpiration l.exp = some n ∧ (parseLine H parse size now w l).1.stats.expired = w.stats.expired + if after now n then 1 else 0) := by
  unfold parseLine
  cases hn : getExpiration l.exp with
  | none => exact ⟨fun _ _ _ h => by (cases h), fun h => by cases h⟩
  | some n =>
    dsimp only
    split
    · rename_i ha
      exact ⟨fun _ _ _ h => by (cases h), fun _ => ⟨rfl, rfl, Nat.le_succ _, n, rfl, by simp [ha]⟩⟩
    · rename_i ha
      cases hd : decodeField l.cert with
      | none => exact ⟨fun _ _ _ h => by (cases h), fun h => by cases h⟩
      | some raw =>
        dsimp only
        split
        · exact ⟨fun _ _ _ h => by (cases h), fun _ => ⟨rfl, rfl, Nat.le_succ _, n, rfl, by simp [ha]⟩⟩
        · unfold parseRest
          cases hp : parse raw with
          | none => exact ⟨fun _ _ _ h => by (cases h), fun h => by cases h⟩
          | some c =>
            dsimp only
            split
            · exact ⟨fun _ _ _ h => by (cases h), fun _ => ⟨rfl, rfl, Nat.le_refl _, n, rfl, by simp [ha]⟩⟩
            · dsimp only
              constructor
              · intro leaf ps ids h
                split at h
                · cases h
                · rename_i hr
                  simp only [Outcome.chain.injEq] at h
                  obtain ⟨_, rfl, rfl⟩ := h
                  obtain ⟨a, b, c, d, e, _⟩ := chainLoop_stats H parse size _ _ _ _ hr
                  rw [a, b, c, d, e]
                  exact ⟨rfl, rfl, rfl, rfl⟩
              · intro h
                split at h <;> cases h

/-- C86, violated: the worker with pointers counts a leaf found in the cache as uncached. -/
theorem C86_ptr_counter_violated (H : Bytes → Bytes) (parse : Bytes → Option X509) (size : Nat) (now : Now) (cache : List Bytes) (s : Stats) (raw chain : Bytes)
    (no exp : Nat) (h1 : exp < 2 ^ 62) (h2 : now.ceil ≤ exp) (hc : H raw ∈ cache) :
    (parseLinePtr H parse size now ⟨cache, s⟩ ⟨base64 raw, chain, decimal exp ++ [46, 48], no⟩).1.stats.uncached = s.uncached + 1 ∧
    (parseLine H parse size now ⟨cache, s⟩ ⟨base64 raw, chain, decimal exp ++ [46, 48], no⟩).1.stats.uncached = s.uncached := by
  have hg : getExpiration (decimal exp ++ [46, 48]) = some (exp : Int) :=
    getExpiration_decimal (frac := [48]) (Nat.lt_trans h1 (by decide)) (by simp)
  have ha : after now (exp : Int) = false := by
    rw [Bool.eq_false_iff]; intro h; have := (after_iff now h1).1 h; omega
  have hc' : Batch.lruContains cache (H raw) = true := by simpa [Batch.lruContains] using hc
  unfold parseLine parseLinePtr
  simp only [hg, ha, decodeField_base64, hc', Bool.false_eq_true, if_false, if_true]
  trivial

/-! ## Examples -/

def exLeaf : X509 := ⟨[1, 2, 3], [[97]], 100⟩
def exRoot : X509 := ⟨[4, 5], [], 200⟩
def exParse (b : Bytes) : Option X509 := if b = [1, 2, 3] then some exLeaf else if b = [4, 5] then some exRoot else none
def exEntry : Entry := ⟨[[97], [98, 44], []], exLeaf, [exRoot], [[99, 34]], 100, [53]⟩

theorem exEntry_good : exEntry.Good exParse := by
  refine ⟨rfl, ?_, ?_, by decide, by decide, ?_, by decide⟩
  · decide
  · decide
  · refine ⟨rfl, ?_⟩
    intro c hc
    rw [List.mem_singleton.1 hc]; rfl

/-- `a,"b,",,AQID,BAU=,"c""",100.5` is a row of the entry; its file is read, and both certificates are emitted. -/
example : ∃ row, WrittenRow exEntry.columns row ∧ FileText [row] (row ++ [13, 10]) ∧
    readFile csvRead false false (row ++ [13, 10]) = ([exEntry.raw 1], []) ∧
    (worker id exParse 5 ⟨50, 1⟩ ⟨[], ⟨0, 0, 0, 0, 0⟩⟩ [exEntry.raw 1]).1.map (·.id) = [[1, 2, 3], [4, 5]] ∧
    Consistent id 51 ([([exEntry], row ++ [13, 10])].flatMap fun f => f.1.map Entry.line) := by
  refine ⟨[97, 44, 34, 98, 44, 34, 44, 44, 65, 81, 73, 68, 44, 66, 65, 85, 61, 44, 34, 99, 34, 34, 34, 44, 49, 48, 48, 46, 53], ?_, ?_, ?_, ?_, ?_⟩
  · refine ⟨[[97], [34, 98, 44, 34], [], [65, 81, 73, 68], [66, 65, 85, 61], [34, 99, 34, 34, 34], [49, 48, 48, 46, 53]], ?_, by decide⟩
    have : exEntry.columns = [[97], [98, 44], [], [65, 81, 73, 68], [66, 65, 85, 61], [99, 34], [49, 48, 48, 46, 53]] := by decide +kernel
    rw [this]
    exact .cons (.plain _ (by decide) (by decide)) (.cons (.quoted [98, 44]) (.cons (.plain _ (by decide) (by decide))
      (.cons (.plain _ (by decide) (by decide)) (.cons (.plain _ (by decide) (by decide)) (.cons (.quoted [99, 34]) (.cons (.plain _ (by decide) (by decide)) .nil))))))
  · exact .crlf _ _ _ .empty
  · decide +kernel
  · decide +kernel
  · have : ∀ (p : List Bytes) x a1 t1 a2 t2, p.Nodup → p = a1 ++ x :: t1 → p = a2 ++ x :: t2 → t1 = t2 := by
      intro p x a1 t1 a2 t2 hn h1 h2
      rw [h1] at h2 hn
      have h3 : a1.length = a2.length := by
        have e1 : (a1 ++ x :: t1).idxOf x = a1.length := by
          rw [List.idxOf_append_of_notMem]
          · simp
          · intro hx; rw [List.nodup_append] at hn; exact hn.2.2 x hx x List.mem_cons_self rfl
        have e2 : (a2 ++ x :: t2).idxOf x = a2.length := by
          rw [List.idxOf_append_of_notMem]
          · simp
          · intro hx; rw [h2] at hn; rw [List.nodup_append] at hn; exact hn.2.2 x hx x List.mem_cons_self rfl
        rw [← e1, h2, e2]
      have := List.append_inj h2 h3
      exact (List.cons.inj this.2).2
    intro l1 h1 l2 h2 _ _ x a1 t1 a2 t2 e1 e2
    have hl : ∀ l, l ∈ ([([exEntry], ([] : Bytes))].flatMap fun f => f.1.map Entry.line) → l = exEntry.line := by
      intro l hl; simpa using hl
    rw [hl l1 (by simpa using h1)] at e1
    rw [hl l2 (by simpa using h2)] at e2
    exact this _ x a1 t1 a2 t2 (by decide) e1 e2

/-- Rows with errors: a truncated file, an empty line, a bad certificate. -/
example : readFile csvRead true false ([97, 44, 98, 44, 99, 44, 65, 44, 66, 44, 49, 46, 53, 10] ++ [97, 44]) = ([⟨[65], [66], [49, 46, 53], 1⟩], [.read]) ∧
    readFile csvRead false false [10] = ([], [.row 1]) ∧
    worker id exParse 5 ⟨50, 1⟩ ⟨[], ⟨0, 0, 0, 0, 0⟩⟩ [⟨[65, 81, 61, 61], [], [57, 57, 46, 53], 1⟩] = ([], true) := by
  refine ⟨?_, ?_, ?_⟩ <;> decide +kernel

/-- A certificate without a chain: the hypotheses of `C86_no_chain_violated` are met. -/
example : exParse [] = none ∧ exParse exLeaf.raw = some exLeaf ∧ exLeaf.raw ≠ [] ∧
    (⟨50, 1⟩ : Now).ceil ≤ 100 ∧ (⟨50, 1⟩ : Now).ceil ≤ exLeaf.notAfter := by
  refine ⟨rfl, rfl, by decide, by decide, by decide⟩

end Fpki.Rows
