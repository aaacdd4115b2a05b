import Verif.Lemmas.CsvLoad
import Verif.Props.Domain
/-!
# C77: the rows that MySQL loads are the records written

A CSV file written by the code and loaded with `LOAD DATA` gives one row per record, in order, with the values of the record.
-/
namespace Fpki.CsvLoad

/-- A certificate of the pipeline: IDs have 32 bytes. `nullBytes` (whose base64 text is the word NULL) is not a certificate. -/
structure GoodCert (c : Certificate) : Prop where
  id : c.id.length = 32
  parent : ∀ p, c.parent = some p → p.length = 32
  raw : c.raw ≠ [53, 66, 203]

theorem ne_nullBytes {b : Bytes} (h : b.length = 32) : b ≠ nullBytes := by
  rintro rfl; revert h; decide

theorem load_map {n : Nat} (hn : 0 < n) (f : α → List (Bytes × Option Bytes)) (l : List α) (h : ∀ a ∈ l, (f a).length = n ∧ ∀ x ∈ f a, Reads x.1 x.2) :
    load n (l.flatMap fun a => joinComma ((f a).map Prod.fst) ++ [newline]) = l.map fun a => (f a).map Prod.snd := by
  have := load_eq hn (l.map f) (by
    intro row hr
    obtain ⟨a, ha, rfl⟩ := List.mem_map.mp hr
    exact h a ha)
  rw [List.flatMap_map, List.map_map] at this
  exact this

/-- The four fields of a certificate with the values they are read as. -/
def certPairs (c : Certificate) : List (Bytes × Option Bytes) := (certFields c).map fun f => (f, some f)

theorem certPairs_reads {c : Certificate} (h : GoodCert c) : ∀ x ∈ certPairs c, Reads x.1 x.2 := by
  intro x hx
  obtain ⟨f, hf, rfl⟩ := List.mem_map.mp hx
  simp only [certFields, List.mem_cons, List.not_mem_nil, or_false] at hf
  rcases hf with rfl | rfl | rfl | rfl
  · exact reads_plain (plain_base64 (ne_nullBytes h.id))
  · apply reads_plain
    cases hp : c.parent with
    | none => exact plain_nil
    | some p => exact plain_base64 (ne_nullBytes (h.parent p hp))
  · exact reads_plain (plain_format _)
  · exact reads_plain (plain_base64 h.raw)

theorem loadCerts_fields {certs : List Certificate} (h : ∀ c ∈ certs, GoodCert c) :
    loadCerts (certs.flatMap fun c => joinComma (certFields c) ++ [newline]) =
      certs.map fun c => ⟨some c.id, some (c.parent.getD []), some c.notAfter.format, some c.raw⟩ := by
  have := load_map (n := 4) (by decide) certPairs certs fun c hc => ⟨rfl, certPairs_reads (h c hc)⟩
  have e : ∀ c, (certPairs c).map Prod.fst = certFields c := fun c => rfl
  simp only [e] at this
  rw [loadCerts, this, List.map_map]
  apply List.map_congr_left
  intro c _
  simp [certPairs, certFields, col, fromBase64_base64]

/-- **C77, certificates.** Whatever was in the storage before, if the file is written without an error, the table `certs` is given one row per certificate, in order, with
its ID, its parent (empty if it has none), its expiration and its payload. -/
theorem C77_certs {ok : Nat → Bool} {row : List Bytes} (hrow : row.length = 4) {certs : List Certificate} (hc : ∀ c ∈ certs, GoodCert c) {file : Bytes}
    (h : createCsvCerts ok row certs = some file) :
    loadCerts file = certs.map fun c => ⟨some c.id, some (c.parent.getD []), some c.notAfter.format, some c.raw⟩ := by
  rw [writeChunks_some h, certWrites_flatten certs row hrow]
  exact loadCerts_fields hc

/-- The text of an expiration determines it. -/
theorem C77_expiration {t u : DateTime} (ht : t.year < 10000 ∧ t.month < 100 ∧ t.day < 100 ∧ t.hour < 100 ∧ t.min < 100 ∧ t.sec < 100)
    (hu : u.year < 10000 ∧ u.month < 100 ∧ u.day < 100 ∧ u.hour < 100 ∧ u.min < 100 ∧ u.sec < 100) (h : t.format = u.format) : t = u := by
  have hd : ∀ a b, digit a = digit b → a % 10 = b % 10 := by
    intro a b e
    have := congrArg UInt8.toNat e
    simp only [digit, UInt8.toNat_ofNat'] at this
    omega
  simp only [DateTime.format, two, List.cons_append, List.nil_append, List.cons.injEq, true_and, and_true] at h
  obtain ⟨h1, h2, h3, h4, h5, h6, h7, h8, h9, h10, h11, h12, h13, h14⟩ := h
  have h1 := hd _ _ h1
  have h2 := hd _ _ h2
  have h3 := hd _ _ h3
  have h4 := hd _ _ h4
  have h5 := hd _ _ h5
  have h6 := hd _ _ h6
  have h7 := hd _ _ h7
  have h8 := hd _ _ h8
  have h9 := hd _ _ h9
  have h10 := hd _ _ h10
  have h11 := hd _ _ h11
  have h12 := hd _ _ h12
  have h13 := hd _ _ h13
  have h14 := hd _ _ h14
  cases t; cases u
  simp only [DateTime.mk.injEq] at *
  omega

/-- **C77, dirty domains.** -/
theorem C77_dirty {ok : Nat → Bool} {storage : List (List Bytes)} (hs : ∀ row ∈ storage, row.length = 1) {ds : List DirtyDomain}
    (hd : ∀ d ∈ ds, d.domain.length = 32) {file : Bytes} (h : createCsvDirty ok storage ds = some file) :
    loadDirty file = ds.map fun d => some d.domain := by
  rw [writeRecords_some recordsForDirty_eq hs h]
  have := load_map (n := 1) (by decide) (fun d : DirtyDomain => [(base64 d.domain, some (base64 d.domain))]) ds fun d hd' => ⟨rfl, by
    intro x hx
    rw [List.mem_singleton] at hx
    subst hx
    exact reads_plain (plain_base64 (ne_nullBytes (hd d hd')))⟩
  simp only [List.map_cons, List.map_nil] at this
  rw [loadDirty, this, List.map_map]
  apply List.map_congr_left
  intro d _
  simp [col, fromBase64_base64]

/-- **C77, pairs of domain and certificate.** -/
theorem C77_domain_certs {ok : Nat → Bool} {storage : List (List Bytes)} (hs : ∀ row ∈ storage, row.length = 2) {ds : List DirtyDomain}
    (hd : ∀ d ∈ ds, d.domain.length = 32 ∧ d.cert.length = 32) {file : Bytes} (h : createCsvDomainCerts ok storage ds = some file) :
    loadDomainCerts file = ds.map fun d => (some d.domain, some d.cert) := by
  rw [writeRecords_some recordsForDomainCerts_eq hs h]
  have := load_map (n := 2) (by decide) (fun d : DirtyDomain => [(base64 d.domain, some (base64 d.domain)), (base64 d.cert, some (base64 d.cert))]) ds
    fun d hd' => ⟨rfl, by
      intro x hx
      simp only [List.mem_cons, List.not_mem_nil, or_false] at hx
      rcases hx with rfl | rfl
      · exact reads_plain (plain_base64 (ne_nullBytes (hd d hd').1))
      · exact reads_plain (plain_base64 (ne_nullBytes (hd d hd').2))⟩
  simp only [List.map_cons, List.map_nil] at this
  rw [loadDomainCerts, this, List.map_map]
  apply List.map_congr_left
  intro d _
  simp [col, fromBase64_base64]

theorem writeChunks_true (cs : List Bytes) : ∀ n, writeChunks (fun _ => true) n cs = some cs.flatten := by
  induction cs with
  | nil => intro n; rfl
  | cons c cs ih => intro n; simp [writeChunks, ih]

/-- **C77, the files are written.** Without write errors, and with storage for at least as many rows as there are records, no file is refused. -/
theorem C77_written (row : List Bytes) (certs : List Certificate) (storage : List (List Bytes)) (ds : List DirtyDomain) (h : ds.length ≤ storage.length) :
    (createCsvCerts (fun _ => true) row certs).isSome ∧ (createCsvDirty (fun _ => true) storage ds).isSome ∧
      (createCsvDomains (fun _ => true) storage ds).isSome ∧ (createCsvDomainCerts (fun _ => true) storage ds).isSome := by
  simp [createCsvCerts, createCsvDirty, createCsvDomains, createCsvDomainCerts, writeRecords, h, writeCSV, writeChunks_true]

/-- A name that the pipeline's file can hold: no backslash, end of line or comma, not beginning with a quote, and not the word NULL. -/
structure GoodName (n : Bytes) : Prop where
  chars : ∀ c ∈ n, c ≠ backslash ∧ c ≠ newline ∧ c ≠ comma
  first : n.head? ≠ some quote
  null : n ≠ [78, 85, 76, 76]

/-- **C77, names of domains (partial).** Proved for the names above. Missing: the code puts the common name and the DNS names of certificates into
the file as they are. -/
theorem C77_domains_partial {ok : Nat → Bool} {storage : List (List Bytes)} (hs : ∀ row ∈ storage, row.length = 2) {ds : List DirtyDomain}
    (hd : ∀ d ∈ ds, d.domain.length = 32 ∧ GoodName d.name) {file : Bytes} (h : createCsvDomains ok storage ds = some file) :
    loadDomains file = ds.map fun d => (some d.domain, some d.name) := by
  rw [writeRecords_some recordsForDomains_eq hs h]
  have := load_map (n := 2) (by decide) (fun d : DirtyDomain => [(base64 d.domain, some (base64 d.domain)), (d.name, some d.name)]) ds
    fun d hd' => ⟨rfl, by
      intro x hx
      simp only [List.mem_cons, List.not_mem_nil, or_false] at hx
      obtain ⟨h1, h2, h3, h4⟩ := hd d hd'
      rcases hx with rfl | rfl
      · exact reads_plain (plain_base64 (ne_nullBytes h1))
      · exact reads_plain ⟨h2, h3, h4⟩⟩
  simp only [List.map_cons, List.map_nil] at this
  rw [loadDomains, this, List.map_map]
  apply List.map_congr_left
  intro d _
  simp [col, fromBase64_base64]

theorem mem_split {s : Bytes} {c : Byte} (hc : c ∈ s) : c = Domain.dot ∨ ∃ l ∈ Domain.split s, c ∈ l := by
  have key : ∀ ls : List Bytes, c ∈ Domain.joinDots ls → c = Domain.dot ∨ ∃ l ∈ ls, c ∈ l := by
    intro ls
    induction ls with
    | nil => intro h; simp [Domain.joinDots] at h
    | cons l ls ih =>
      intro h
      by_cases hl : ls = []
      · subst hl
        simp only [Domain.joinDots] at h
        exact .inr ⟨l, List.mem_cons_self .., h⟩
      · rw [Domain.joinDots_cons hl, List.mem_append, List.mem_cons] at h
        rcases h with h | h | h
        · exact .inr ⟨l, List.mem_cons_self .., h⟩
        · exact .inl h
        · rcases ih h with h | ⟨l', hl', h⟩
          · exact .inl h
          · exact .inr ⟨l', List.mem_cons_of_mem _ hl', h⟩
  rw [← Domain.joinDots_split s] at hc
  exact key _ hc

/-- All names accepted by `IsValidDomain`, except the word NULL, are such names. -/
theorem C77_valid_names {psl : Domain.Psl} {n : Bytes} (h : Domain.isValidDomain psl n = true) (hn : n ≠ [78, 85, 76, 76]) : GoodName n := by
  have hc : ∀ c ∈ n, Domain.alnum c = true ∨ c = 45 ∨ c = 42 ∨ c = 46 := by
    intro c hc
    rcases mem_split hc with rfl | ⟨l, hl, hc⟩
    · exact .inr (.inr (.inr rfl))
    · rcases ((Domain.C52_valid h).2.2.1 l hl).2.2 c hc with h1 | h1 | h1
      · exact .inl h1
      · exact .inr (.inl h1)
      · subst h1
        rw [List.mem_singleton] at hc
        exact .inr (.inr (.inl hc))
  have key : ∀ c : Byte, (Domain.alnum c = true ∨ c = 45 ∨ c = 42 ∨ c = 46) → (c ≠ backslash ∧ c ≠ newline ∧ c ≠ comma) ∧ c ≠ quote := by
    rintro c (h1 | rfl | rfl | rfl)
    · refine ⟨⟨?_, ?_, ?_⟩, ?_⟩ <;> (rintro rfl; revert h1; decide)
    · decide
    · decide
    · decide
  exact ⟨fun c h => (key c (hc c h)).1, fun e => (key _ (hc _ (List.mem_of_mem_head? e))).2 rfl, hn⟩

/-- What the code should do for every list of domains: the rows loaded are the records written. -/
def DomainsLoaded (ds : List DirtyDomain) : Prop :=
  ∀ ok storage file, (∀ row ∈ storage, row.length = 2) → createCsvDomains ok storage ds = some file →
    loadDomains file = ds.map fun d => (some d.domain, some d.name)

/-- The file of a list of domains, in new storage, without write errors. -/
theorem createCsvDomains_new (ds : List DirtyDomain) :
    createCsvDomains (fun _ => true) (List.replicate ds.length [[], []]) ds = some (ds.flatMap fun d => joinComma [base64 d.domain, d.name] ++ [newline]) := by
  obtain ⟨f, hf⟩ := Option.isSome_iff_exists.mp (C77_written [] [] (List.replicate ds.length [[], []]) ds (by simp)).2.2.1
  rw [hf, writeRecords_some recordsForDomains_eq (fun row hr => by rw [List.eq_of_mem_replicate hr]; rfl) hf]

/-- **Violation: injection.** A certificate whose common name contains an end of line and a comma makes a row for any domain ID with any name the
attacker chooses: no certificate with that name was seen, and (the rows of `domains` being inserted with IGNORE) the true name will not be stored. -/
theorem C77_injection_violated (id cert victim name : Bytes) (h1 : id.length = 32) (h2 : victim.length = 32) (hn : GoodName name) :
    ∃ d : DirtyDomain, d.domain = id ∧ d.cert = cert ∧
      ∃ file, createCsvDomains (fun _ => true) [[[], []]] [d] = some file ∧ loadDomains file = [(some id, some []), (some victim, some name)] := by
  refine ⟨⟨id, cert, newline :: base64 victim ++ comma :: name⟩, rfl, rfl, _, createCsvDomains_new [_], ?_⟩
  have := load_map (n := 2) (by decide) (fun d : Bytes × Bytes => [(base64 d.1, some (base64 d.1)), (d.2, some d.2)]) [(id, []), (victim, name)]
    fun d hd => ⟨rfl, by
      intro x hx
      simp only [List.mem_cons, List.not_mem_nil, or_false] at hx hd
      rcases hd with rfl | rfl <;> rcases hx with rfl | rfl
      · exact reads_plain (plain_base64 (ne_nullBytes h1))
      · exact reads_plain plain_nil
      · exact reads_plain (plain_base64 (ne_nullBytes h2))
      · exact reads_plain ⟨hn.1, hn.2, hn.3⟩⟩
  simp only [List.map_cons, List.map_nil, List.flatMap_cons, List.flatMap_nil, List.append_nil, joinComma, List.cons_append, List.nil_append,
    List.append_assoc] at this ⊢
  rw [loadDomains, this]
  simp [col, fromBase64_base64]

/-- Two IDs. -/
def exId1 : Bytes := List.replicate 32 1
def exId2 : Bytes := List.replicate 32 2

/-- **Violation: lost rows.** A name that begins with a quote takes all the following lines into its field. -/
theorem C77_quote_violated : ¬ DomainsLoaded [⟨exId1, [], [quote, 65]⟩, ⟨exId2, [], [66, 46, 99, 111, 109]⟩] := by
  intro h
  have := h _ _ _ (by simp) (createCsvDomains_new _)
  revert this
  decide +kernel

/-- In that case there is only one row. -/
example : (loadDomains (([⟨exId1, [], [quote, 65]⟩, ⟨exId2, [], [66, 46, 99, 111, 109]⟩] : List DirtyDomain).flatMap fun d =>
    joinComma [base64 d.domain, d.name] ++ [newline])).length = 1 := by decide +kernel

/-- **Violation: cut names.** "A, B" becomes "A". -/
theorem C77_comma_violated : ¬ DomainsLoaded [⟨exId1, [], [65, 44, 32, 66]⟩] := by
  intro h
  have := h _ _ _ (by simp) (createCsvDomains_new _)
  revert this
  decide +kernel

/-- **Violation: NULL.** The name NULL, a valid domain name, becomes the SQL value NULL. -/
theorem C77_null_violated : ¬ DomainsLoaded [⟨exId1, [], [78, 85, 76, 76]⟩] ∧ Domain.isValidDomain Domain.exPsl [78, 85, 76, 76] = true := by
  refine ⟨fun h => ?_, by decide +kernel⟩
  have := h _ _ _ (by simp) (createCsvDomains_new _)
  revert this
  decide +kernel

/-! ## The other writer -/

/-- **C77, `UpdateDomains` (partial).** With `encoding/csv` the names may contain commas, quotes and ends of lines, but not a backslash. -/
theorem C77_update_domains_partial (space : Bytes → Bool) {ds : List (Bytes × Bytes)} (hd : ∀ d ∈ ds, d.1.length = 32 ∧ backslash ∉ d.2 ∧ d.2 ≠ [78, 85, 76, 76]) :
    loadDomains (goCsv space (goDomains ds)) = ds.map fun d => (some d.1, some d.2) := by
  have hb : ∀ b : Bytes, b.length = 32 → Reads (goField space (base64 b)) (some (base64 b)) := by
    intro b h
    have hp := plain_base64 (ne_nullBytes h)
    exact reads_goField (fun hm => (hp.1 _ hm).1 rfl) hp.2.2
  have := load_map (n := 2) (by decide) (fun d : Bytes × Bytes => [(goField space (base64 d.1), some (base64 d.1)), (goField space d.2, some d.2)]) ds
    fun d hd' => ⟨rfl, by
      intro x hx
      obtain ⟨h1, h2, h3⟩ := hd d hd'
      simp only [List.mem_cons, List.not_mem_nil, or_false] at hx
      rcases hx with rfl | rfl
      · exact hb _ h1
      · exact reads_goField h2 h3⟩
  simp only [List.map_cons, List.map_nil] at this
  rw [loadDomains, goCsv, goDomains, List.flatMap_map]
  simp only [List.map_cons, List.map_nil]
  rw [this, List.map_map]
  apply List.map_congr_left
  intro d _
  simp [col, fromBase64_base64]

/-- **C77, `UpdateCerts`.** -/
theorem C77_update_certs (space : Bytes → Bool) {certs : List Certificate}
    (hc : ∀ c ∈ certs, GoodCert c) :
    loadCerts (goCsv space (goCerts certs)) = certs.map fun c => ⟨some c.id, some (c.parent.getD []), some c.notAfter.format, some c.raw⟩ := by
  have hr : ∀ f : Bytes, Plain f → Reads (goField space f) (some f) := fun f hp => reads_goField (fun hm => (hp.1 _ hm).1 rfl) hp.2.2
  have hg : goCerts certs = certs.map certFields := by
    apply List.map_congr_left
    intro c _
    cases hp : c.parent <;> simp [certFields, hp, base64]
  have := load_map (n := 4) (by decide) (fun c : Certificate => (certFields c).map fun f => (goField space f, some f)) certs
    fun c hc' => ⟨rfl, by
      intro x hx
      obtain ⟨f, hf, rfl⟩ := List.mem_map.mp hx
      have h := hc c hc'
      apply hr
      simp only [certFields, List.mem_cons, List.not_mem_nil, or_false] at hf
      rcases hf with rfl | rfl | rfl | rfl
      · exact plain_base64 (ne_nullBytes h.id)
      · cases hp : c.parent with
        | none => exact plain_nil
        | some p => exact plain_base64 (ne_nullBytes (h.parent p hp))
      · exact plain_format _
      · exact plain_base64 h.raw⟩
  simp only [List.map_map] at this
  rw [loadCerts, goCsv, hg, List.flatMap_map]
  have e : (fun c : Certificate => joinComma (List.map (Prod.fst ∘ fun f => (goField space f, some f)) (certFields c)) ++ [newline]) =
      fun c => joinComma (List.map (goField space) (certFields c)) ++ [newline] := rfl
  rw [← e, this, List.map_map]
  apply List.map_congr_left
  intro c _
  simp [certFields, col, fromBase64_base64]

/-- **Violation: backslash.** With `encoding/csv`, a name that ends with a backslash takes the next line into its field. -/
theorem C77_backslash_violated : ¬ ∀ (ds : List (Bytes × Bytes)), (∀ d ∈ ds, d.1.length = 32) →
    loadDomains (goCsv (fun _ => false) (goDomains ds)) = ds.map fun d => (some d.1, some d.2) := by
  intro h
  have := h [(exId1, [65, backslash]), (exId2, [66])] (by decide)
  revert this
  decide +kernel

/-! ## The hypotheses are met -/

example : GoodCert ⟨exId1, some exId2, ⟨2025, 6, 30, 23, 59, 59⟩, [48, 130]⟩ := ⟨by decide, by rintro p ⟨⟩; decide, by decide⟩
example : GoodCert ⟨exId1, none, ⟨2025, 6, 30, 23, 59, 59⟩, [48, 130]⟩ := ⟨by decide, nofun, by decide⟩

/-- A file with a certificate that has a parent and one that has none, written over old content. -/
example : (createCsvCerts (fun _ => true) [[1], [2, 3], [], [4]]
    [⟨exId1, some exId2, ⟨2025, 6, 30, 23, 59, 59⟩, [48, 130]⟩, ⟨exId2, none, ⟨2030, 1, 1, 0, 0, 0⟩, [48, 131, 1]⟩]).isSome = true := by
  decide +kernel

example : DateTime.format ⟨2025, 6, 30, 23, 59, 59⟩ = "2025-06-30 23:59:59".toList.map fun c => UInt8.ofNat c.toNat := by decide +kernel
example : base64 [77, 97, 110, 77] = "TWFuTQ==".toList.map fun c => UInt8.ofNat c.toNat := by decide +kernel
example : GoodName (Domain.asc "*.example.com") := ⟨by decide +kernel, by decide +kernel, by decide +kernel⟩
example : Domain.isValidDomain Domain.exPsl (Domain.asc "a.com") = true := by decide +kernel
/-- The payload that cannot be stored is not a certificate, but the condition is needed. -/
example : (loadCerts (joinComma (certFields ⟨exId1, none, ⟨2025, 6, 30, 23, 59, 59⟩, [53, 66, 203]⟩) ++ [newline])).map CertRow.payload = [none] := by
  decide +kernel
/-- A failing write is reported. -/
example : createCsvDirty (fun n => n ≠ 1) [[[]]] [⟨exId1, exId2, []⟩] = none := by decide +kernel

end Fpki.CsvLoad
