import Verif.Model.CsvLoad
import Mathlib.Tactic.Tauto
/-! Lemmas on the CSV files and on `LOAD DATA`. -/
namespace Fpki.CsvLoad

/-! ## base64 -/

theorem b64num_char : ∀ n < 64, b64num (b64char n) = some n := by decide

/-- Characters that are special for `LOAD DATA` or for `FROM_BASE64`. -/
def special (c : Byte) : Bool := c == comma || c == quote || c == newline || c == backslash || c == 32 || (9 ≤ c && c ≤ 13)

theorem b64char_special : ∀ n < 64, special (b64char n) = false ∧ b64char n ≠ 61 := by decide

theorem base64_special : ∀ b : Bytes, ∀ c ∈ base64 b, special c = false
  | [], _, h => by cases h
  | [a], c, h => by
    have ha := a.toNat_lt
    simp only [base64, List.mem_cons, List.not_mem_nil, or_false] at h
    rcases h with rfl | rfl | rfl | rfl
    · exact (b64char_special _ (by omega)).1
    · exact (b64char_special _ (by omega)).1
    · decide
    · decide
  | [a, b], c, h => by
    have ha := a.toNat_lt
    have hb := b.toNat_lt
    simp only [base64, List.mem_cons, List.not_mem_nil, or_false] at h
    rcases h with rfl | rfl | rfl | rfl
    · exact (b64char_special _ (by omega)).1
    · exact (b64char_special _ (by omega)).1
    · exact (b64char_special _ (by omega)).1
    · decide
  | a :: b :: c' :: r, c, h => by
    have ha := a.toNat_lt
    have hb := b.toNat_lt
    have hc := c'.toNat_lt
    simp only [base64, List.mem_cons] at h
    rcases h with rfl | rfl | rfl | rfl | h
    · exact (b64char_special _ (by omega)).1
    · exact (b64char_special _ (by omega)).1
    · exact (b64char_special _ (by omega)).1
    · exact (b64char_special _ (by omega)).1
    · exact base64_special r c h

theorem ofNat_eq {n : Nat} {a : Byte} (h : n = a.toNat) : UInt8.ofNat n = a := by
  subst h; exact UInt8.ofNat_toNat

theorem decode_base64 : ∀ b : Bytes, decodeGroups (base64 b) = some b
  | [] => rfl
  | [a] => by
    have ha := a.toNat_lt
    simp only [base64, decodeGroups, b64num_char (a.toNat / 4) (by omega), b64num_char (a.toNat % 4 * 16) (by omega)]
    simp only [and_self, if_true, Option.some.injEq, List.cons.injEq, and_true]
    exact ofNat_eq (by omega)
  | [a, b] => by
    have ha := a.toNat_lt
    have hb := b.toNat_lt
    simp only [base64, decodeGroups, b64num_char (a.toNat / 4) (by omega), b64num_char (a.toNat % 4 * 16 + b.toNat / 16) (by omega),
      b64num_char (b.toNat % 16 * 4) (by omega), if_neg (b64char_special (b.toNat % 16 * 4) (by omega)).2]
    simp only [if_true, Option.some.injEq, List.cons.injEq, and_true]
    exact ⟨ofNat_eq (by omega), ofNat_eq (by omega)⟩
  | a :: b :: c :: r => by
    have ha := a.toNat_lt
    have hb := b.toNat_lt
    have hc := c.toNat_lt
    simp only [base64, decodeGroups, b64num_char (a.toNat / 4) (by omega), b64num_char (a.toNat % 4 * 16 + b.toNat / 16) (by omega),
      b64num_char (b.toNat % 16 * 4 + c.toNat / 64) (by omega), b64num_char (c.toNat % 64) (by omega),
      if_neg (b64char_special (b.toNat % 16 * 4 + c.toNat / 64) (by omega)).2, if_neg (b64char_special (c.toNat % 64) (by omega)).2]
    rw [decode_base64 r]
    simp only [Option.map_some, Option.some.injEq, List.cons.injEq, and_true]
    exact ⟨ofNat_eq (by omega), ofNat_eq (by omega), ofNat_eq (by omega)⟩

theorem filter_base64 (b : Bytes) : (base64 b).filter (fun c => !(c == 32 || (9 ≤ c && c ≤ 13))) = base64 b := by
  rw [List.filter_eq_self]
  intro c hc
  have := base64_special b c hc
  simp only [special, Bool.or_eq_false_iff] at this
  simp [this]

theorem fromBase64_base64 (b : Bytes) : fromBase64 (some (base64 b)) = some b := by
  simp only [fromBase64, Option.bind_some]
  rw [filter_base64, decode_base64]

theorem base64_length : ∀ b : Bytes, (base64 b).length = (b.length + 2) / 3 * 4
  | [] => rfl
  | [_] => by simp [base64]
  | [_, _] => by simp [base64]
  | a :: b :: c :: r => by
    simp only [base64, List.length_cons, base64_length r]
    omega

/-- The bytes whose base64 text is the word NULL. -/
def nullBytes : Bytes := [53, 66, 203]

theorem base64_ne_null {b : Bytes} (h : b ≠ nullBytes) : base64 b ≠ [78, 85, 76, 76] := by
  intro e
  have := decode_base64 b
  rw [e] at this
  exact h (Option.some.inj (this.symm.trans (by decide)))

/-! ## Reading fields -/

/-- The text `enc`, followed by a comma or an end of line, is read as the value `v`. -/
def Reads (enc : Bytes) (v : Option Bytes) : Prop :=
  ∀ rest, (∃ r, readField (enc ++ comma :: rest) = some (r, .field rest) ∧ r.value = v) ∧
    (∃ r, readField (enc ++ newline :: rest) = some (r, .line rest) ∧ r.value = v)

theorem readPlain_comma (text : Bytes) (null : Bool) (rest : Bytes) : readPlain text null (comma :: rest) = (⟨text, false, null⟩, .field rest) := by
  unfold readPlain; simp [comma, newline, backslash]

theorem readPlain_newline (text : Bytes) (null : Bool) (rest : Bytes) : readPlain text null (newline :: rest) = (⟨text, false, null⟩, .line rest) := by
  unfold readPlain; simp [newline, backslash]

theorem readPlain_other (text : Bytes) (null : Bool) (rest : Bytes) {c : Byte} (h1 : c ≠ backslash) (h2 : c ≠ newline) (h3 : c ≠ comma) :
    readPlain text null (c :: rest) = readPlain (text ++ [c]) null rest := by
  rw [readPlain.eq_def]; simp [h1, h2, h3]

theorem readQuoted_dupquote (text : Bytes) (null : Bool) (rest : Bytes) : readQuoted text null (quote :: quote :: rest) = readQuoted (text ++ [quote]) null rest := by
  rw [readQuoted.eq_def]; simp [quote, backslash]

theorem readQuoted_comma (text : Bytes) (null : Bool) (rest : Bytes) : readQuoted text null (quote :: comma :: rest) = (⟨text, true, null⟩, .field rest) := by
  rw [readQuoted.eq_def]; simp [quote, backslash, comma, newline]

theorem readQuoted_newline (text : Bytes) (null : Bool) (rest : Bytes) : readQuoted text null (quote :: newline :: rest) = (⟨text, true, null⟩, .line rest) := by
  rw [readQuoted.eq_def]; simp [quote, backslash, newline]

theorem readQuoted_other (text : Bytes) (null : Bool) (rest : Bytes) {c : Byte} (h1 : c ≠ backslash) (h2 : c ≠ quote) :
    readQuoted text null (c :: rest) = readQuoted (text ++ [c]) null rest := by
  rw [readQuoted.eq_def]; simp [h1, h2]

theorem readPlain_clean : ∀ (f text : Bytes) (null : Bool) (rest : Bytes), (∀ c ∈ f, c ≠ backslash ∧ c ≠ newline ∧ c ≠ comma) →
    readPlain text null (f ++ comma :: rest) = (⟨text ++ f, false, null⟩, .field rest) ∧
      readPlain text null (f ++ newline :: rest) = (⟨text ++ f, false, null⟩, .line rest)
  | [], text, null, rest, _ => by
    constructor
    · exact (readPlain_comma ..).trans (by simp)
    · exact (readPlain_newline ..).trans (by simp)
  | c :: f, text, null, rest, h => by
    obtain ⟨h1, h2, h3⟩ := h c (List.mem_cons_self ..)
    have ih := readPlain_clean f (text ++ [c]) null rest fun d hd => h d (List.mem_cons_of_mem _ hd)
    simp only [List.cons_append]
    rw [readPlain_other _ _ _ h1 h2 h3, readPlain_other _ _ _ h1 h2 h3]
    simpa using ih

/-- Text that is written without quotes and read as it is. -/
def Plain (f : Bytes) : Prop := (∀ c ∈ f, c ≠ backslash ∧ c ≠ newline ∧ c ≠ comma) ∧ f.head? ≠ some quote ∧ f ≠ [78, 85, 76, 76]

theorem value_plain {f : Bytes} (h : f ≠ [78, 85, 76, 76]) : (Read.mk f false false).value = some f := by
  simp [Read.value, h]

theorem value_quoted (f : Bytes) : (Read.mk f true false).value = some f := by
  simp [Read.value]

theorem reads_plain {f : Bytes} (h : Plain f) : Reads f (some f) := by
  obtain ⟨h1, h2, h3⟩ := h
  intro rest
  have hr := readPlain_clean f [] false rest h1
  cases f with
  | nil =>
    refine ⟨⟨⟨[], false, false⟩, ?_, value_plain (by decide)⟩, ⟨⟨[], false, false⟩, ?_, value_plain (by decide)⟩⟩
    · simp only [List.nil_append, readField, if_neg (show comma ≠ quote by decide)]
      rw [readPlain_comma]
    · simp only [List.nil_append, readField, if_neg (show newline ≠ quote by decide)]
      rw [readPlain_newline]
  | cons c f =>
    have hq : c ≠ quote := fun e => h2 (by simp [e])
    refine ⟨⟨_, ?_, value_plain h3⟩, ⟨_, ?_, value_plain h3⟩⟩
    · simp only [List.cons_append, readField, if_neg hq]
      simpa using hr.1
    · simp only [List.cons_append, readField, if_neg hq]
      simpa using hr.2

theorem plain_base64 {b : Bytes} (h : b ≠ nullBytes) : Plain (base64 b) := by
  have hs : ∀ c ∈ base64 b, (c ≠ backslash ∧ c ≠ newline ∧ c ≠ comma) ∧ c ≠ quote := by
    intro c hc
    have := base64_special b c hc
    simp only [special, Bool.or_eq_false_iff, beq_eq_false_iff_ne] at this
    tauto
  refine ⟨fun c hc => (hs c hc).1, ?_, base64_ne_null h⟩
  intro e
  exact (hs _ (List.mem_of_mem_head? e)).2 rfl

theorem plain_nil : Plain [] := ⟨nofun, nofun, nofun⟩

theorem digit_range (n : Nat) : 48 ≤ digit n ∧ digit n ≤ 57 := by
  have : ∀ m < 10, 48 ≤ UInt8.ofNat (48 + m) ∧ UInt8.ofNat (48 + m) ≤ 57 := by decide
  exact this _ (Nat.mod_lt _ (by decide))

theorem format_chars (t : DateTime) : ∀ c ∈ t.format, (48 ≤ c ∧ c ≤ 57) ∨ c = 45 ∨ c = 32 ∨ c = 58 := by
  intro c hc
  simp only [DateTime.format, two, List.mem_append, List.mem_cons, List.not_mem_nil, or_false] at hc
  have hd : ∀ n, c = digit n → (48 ≤ c ∧ c ≤ 57) := fun n e => e ▸ digit_range n
  rcases hc with ((((((((((( hc | hc ) | hc ) | hc) | hc) | hc) | hc) | hc) | hc) | hc) | hc) | hc) <;>
    first
    | (rcases hc with hc | hc <;> exact .inl (hd _ hc))
    | (subst hc; decide)

theorem plain_format (t : DateTime) : Plain t.format := by
  have key : ∀ c : Byte, (48 ≤ c ∧ c ≤ 57) ∨ c = 45 ∨ c = 32 ∨ c = 58 → (c ≠ backslash ∧ c ≠ newline ∧ c ≠ comma) ∧ c ≠ quote := by
    rintro c (⟨h1, h2⟩ | rfl | rfl | rfl)
    · refine ⟨⟨?_, ?_, ?_⟩, ?_⟩ <;> (rintro rfl; revert h1 h2; decide)
    · decide
    · decide
    · decide
  refine ⟨fun c hc => (key c (format_chars t c hc)).1, fun e => (key _ (format_chars t _ (List.mem_of_mem_head? e))).2 rfl, fun e => ?_⟩
  have := congrArg List.length e
  simp [DateTime.format, two] at this

/-! ## Quoted fields -/

/-- Doubling of quotes. -/
def dup (f : Bytes) : Bytes := f.flatMap fun c => if c == quote then [quote, quote] else [c]

theorem readQuoted_dup : ∀ (f text : Bytes) (rest : Bytes), (∀ c ∈ f, c ≠ backslash) →
    readQuoted text false (dup f ++ quote :: comma :: rest) = (⟨text ++ f, true, false⟩, .field rest) ∧
      readQuoted text false (dup f ++ quote :: newline :: rest) = (⟨text ++ f, true, false⟩, .line rest)
  | [], text, rest, _ => by
    constructor
    · exact (readQuoted_comma ..).trans (by simp)
    · exact (readQuoted_newline ..).trans (by simp)
  | c :: f, text, rest, h => by
    have h1 := h c (List.mem_cons_self ..)
    have ih := readQuoted_dup f (text ++ [c]) rest fun d hd => h d (List.mem_cons_of_mem _ hd)
    by_cases hq : c = quote
    · subst hq
      have hd : dup (quote :: f) = quote :: quote :: dup f := by simp [dup]
      rw [hd]
      simp only [List.cons_append]
      rw [readQuoted_dupquote, readQuoted_dupquote]
      simpa using ih
    · have hd : dup (c :: f) = c :: dup f := by simp [dup, hq]
      rw [hd]
      simp only [List.cons_append]
      rw [readQuoted_other _ _ _ h1 hq, readQuoted_other _ _ _ h1 hq]
      simpa using ih

theorem reads_goField {space : Bytes → Bool} {f : Bytes} (hb : backslash ∉ f) (hn : f ≠ [78, 85, 76, 76]) : Reads (goField space f) (some f) := by
  have hb' : ∀ c ∈ f, c ≠ backslash := fun c hc e => hb (e ▸ hc)
  unfold goField
  split
  · intro rest
    have hr := readQuoted_dup f [] rest hb'
    refine ⟨⟨_, ?_, value_quoted f⟩, ⟨_, ?_, value_quoted f⟩⟩
    · simp only [List.cons_append, List.append_assoc, List.nil_append, readField, if_true]
      simpa [dup] using hr.1
    · simp only [List.cons_append, List.append_assoc, List.nil_append, readField, if_true]
      simpa [dup] using hr.2
  · rename_i hq
    apply reads_plain
    cases f with
    | nil => exact plain_nil
    | cons a f =>
      simp only [needsQuotes, List.isEmpty_cons, Bool.not_false, Bool.true_and, Bool.or_eq_true, not_or, Bool.not_eq_true] at hq
      obtain ⟨⟨-, hq⟩, -⟩ := hq
      rw [List.any_eq_false] at hq
      have hq' : ∀ c ∈ a :: f, c ≠ newline ∧ c ≠ quote ∧ c ≠ comma := by
        intro c hc
        have := hq c hc
        simp only [Bool.or_eq_true, beq_iff_eq, not_or] at this
        tauto
      refine ⟨fun c hc => ⟨hb' c hc, (hq' c hc).1, (hq' c hc).2.2⟩, ?_, hn⟩
      simp only [List.head?_cons, ne_eq, Option.some.injEq]
      exact (hq' a (List.mem_cons_self ..)).2.1

/-! ## Rows -/

theorem readFields_row : ∀ (row : List (Bytes × Option Bytes)), row ≠ [] → (∀ x ∈ row, Reads x.1 x.2) → ∀ rest,
    readFields row.length (joinComma (row.map Prod.fst) ++ newline :: rest) = (row.map Prod.snd, some rest)
  | [], h, _, _ => (h rfl).elim
  | [x], _, h, rest => by
    obtain ⟨-, r, hr, hv⟩ := h x (List.mem_cons_self ..) rest
    simp [joinComma, readFields, hr, hv]
  | x :: y :: row, _, h, rest => by
    obtain ⟨⟨r, hr, hv⟩, -⟩ := h x (List.mem_cons_self ..) (joinComma ((y :: row).map Prod.fst) ++ newline :: rest)
    have ih := readFields_row (y :: row) nofun (fun z hz => h z (List.mem_cons_of_mem _ hz)) rest
    have e : joinComma ((x :: y :: row).map Prod.fst) ++ newline :: rest = x.1 ++ comma :: (joinComma ((y :: row).map Prod.fst) ++ newline :: rest) := by
      simp [joinComma]
    rw [e, List.length_cons, readFields, hr]
    simp only
    rw [ih, hv]
    rfl

theorem load_rows {n : Nat} (hn : 0 < n) : ∀ (rows : List (List (Bytes × Option Bytes))) (fuel : Nat), (∀ row ∈ rows, row.length = n ∧ ∀ x ∈ row, Reads x.1 x.2) →
    rows.length < fuel →
    loadRows n fuel (rows.flatMap fun row => joinComma (row.map Prod.fst) ++ [newline]) = rows.map fun row => row.map Prod.snd
  | [], fuel, _, hf => by
    cases fuel with
    | zero => cases hf
    | succ f => rfl
  | row :: rows, fuel, h, hf => by
    cases fuel with
    | zero => cases hf
    | succ f =>
      obtain ⟨hl, hr⟩ := h row (List.mem_cons_self ..)
      have hne : row ≠ [] := by rintro rfl; simp at hl; omega
      have ih := load_rows hn rows f (fun r hr => h r (List.mem_cons_of_mem _ hr)) (by simpa using hf)
      have hrow := readFields_row row hne hr (rows.flatMap fun row => joinComma (row.map Prod.fst) ++ [newline])
      rw [hl] at hrow
      simp only [List.flatMap_cons, List.append_assoc, List.singleton_append, List.map_cons]
      obtain ⟨c, t, hc⟩ : ∃ c t, joinComma (row.map Prod.fst) ++ newline :: rows.flatMap (fun row => joinComma (row.map Prod.fst) ++ [newline]) = c :: t := by
        cases joinComma (row.map Prod.fst) with
        | nil => exact ⟨_, _, rfl⟩
        | cons a b => exact ⟨_, _, rfl⟩
      rw [hc] at hrow ⊢
      rw [loadRows, hrow]
      · simp only
        rw [ih]
      · nofun

theorem rows_length (rows : List (List (Bytes × Option Bytes))) :
    rows.length ≤ (rows.flatMap fun row => joinComma (row.map Prod.fst) ++ [newline]).length := by
  induction rows with
  | nil => simp
  | cons r rs ih => simp only [List.flatMap_cons, List.length_append, List.length_cons, List.length_nil]; omega

theorem load_eq {n : Nat} (hn : 0 < n) (rows : List (List (Bytes × Option Bytes))) (h : ∀ row ∈ rows, row.length = n ∧ ∀ x ∈ row, Reads x.1 x.2) :
    load n (rows.flatMap fun row => joinComma (row.map Prod.fst) ++ [newline]) = rows.map fun row => row.map Prod.snd :=
  load_rows hn rows _ h (Nat.lt_succ_of_le (rows_length rows))

/-! ## Writing -/

theorem rowWrites_flatten : ∀ row : List Bytes, (rowWrites row).flatten = joinComma row ++ [newline]
  | [] => rfl
  | [f] => by simp [rowWrites, joinComma]
  | f :: g :: fs => by
    have ih := rowWrites_flatten (g :: fs)
    simp only [rowWrites, joinComma, List.flatMap_cons, List.flatten_cons, List.flatten_append, List.cons_append, List.nil_append, List.append_assoc, List.flatten_nil, List.append_nil] at ih ⊢
    rw [ih]

theorem writeChunks_some {ok : Nat → Bool} : ∀ {cs : List Bytes} {n : Nat} {f : Bytes}, writeChunks ok n cs = some f → f = cs.flatten
  | [], _, _, h => by cases h; rfl
  | c :: cs, n, f, h => by
    simp only [writeChunks] at h
    split at h
    · rw [Option.map_eq_some_iff] at h
      obtain ⟨g, hg, rfl⟩ := h
      rw [writeChunks_some hg, List.flatten_cons]
    · cases h

theorem writeCSV_some {ok : Nat → Bool} {rows : List (List Bytes)} {f : Bytes} (h : writeCSV ok rows = some f) :
    f = rows.flatMap fun row => joinComma row ++ [newline] := by
  rw [writeChunks_some h]
  clear h
  induction rows with
  | nil => rfl
  | cons r rs ih => simp only [List.flatMap_cons, List.flatten_append, rowWrites_flatten, ih]

theorem setRows_take {toRecords : List Bytes → α → List Bytes} {width : Nat} {enc : α → List Bytes}
    (hs : ∀ row d, row.length = width → toRecords row d = enc d) : ∀ (rows : List (List Bytes)) (ds : List α), (∀ row ∈ rows, row.length = width) →
    ds.length ≤ rows.length → (setRows toRecords rows ds).take ds.length = ds.map enc
  | _, [], _, _ => by simp
  | [], d :: ds, _, h => by simp at h
  | row :: rows, d :: ds, hw, h => by
    simp only [setRows, List.length_cons, List.take_succ_cons, List.map_cons]
    rw [hs _ _ (hw row (List.mem_cons_self ..)), setRows_take hs rows ds (fun r hr => hw r (List.mem_cons_of_mem _ hr)) (by simpa using h)]

theorem writeRecords_some {ok : Nat → Bool} {storage : List (List Bytes)} {toRecords : List Bytes → α → List Bytes} {width : Nat} {enc : α → List Bytes}
    (hs : ∀ row d, row.length = width → toRecords row d = enc d) {ds : List α} (hw : ∀ row ∈ storage, row.length = width) {f : Bytes}
    (h : writeRecords ok storage toRecords ds = some f) : f = ds.flatMap fun d => joinComma (enc d) ++ [newline] := by
  unfold writeRecords at h
  split at h
  · rename_i hl
    rw [setRows_take hs _ _ hw hl] at h
    rw [writeCSV_some h, List.flatMap_map]
  · cases h

/-- The fields of a certificate. -/
def certFields (c : Certificate) : List Bytes := [base64 c.id, base64 (c.parent.getD []), c.notAfter.format, base64 c.raw]

theorem recordsForCert_eq {row : List Bytes} (h : row.length = 4) (c : Certificate) : recordsForCert row c = certFields c := by
  match row, h with
  | [a, b, d, e], _ =>
    cases hp : c.parent <;> simp [recordsForCert, certFields, setField, hp, base64]

theorem recordsForDirty_eq (row : List Bytes) (d : DirtyDomain) (h : row.length = 1) : recordsForDirty row d = [base64 d.domain] := by
  match row, h with
  | [a], _ => simp [recordsForDirty, setField]

theorem recordsForDomains_eq (row : List Bytes) (d : DirtyDomain) (h : row.length = 2) : recordsForDomains row d = [base64 d.domain, d.name] := by
  match row, h with
  | [a, b], _ => simp [recordsForDomains, setField]

theorem recordsForDomainCerts_eq (row : List Bytes) (d : DirtyDomain) (h : row.length = 2) :
    recordsForDomainCerts row d = [base64 d.domain, base64 d.cert] := by
  match row, h with
  | [a, b], _ => simp [recordsForDomainCerts, setField]

theorem certWrites_flatten : ∀ (certs : List Certificate) (row : List Bytes), row.length = 4 →
    (certWrites row certs).flatten = certs.flatMap fun c => joinComma (certFields c) ++ [newline]
  | [], _, _ => rfl
  | c :: cs, row, h => by
    simp only [certWrites, List.flatten_append, rowWrites_flatten, List.flatMap_cons]
    rw [recordsForCert_eq h, certWrites_flatten cs _ rfl]

end Fpki.CsvLoad
