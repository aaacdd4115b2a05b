# Formal model of netsec-ethz/fpki in Lean 4: design and trusted base

## Approach
Every modelled Go function is a total, executable Lean definition whose comment cites the file and lines it models and says where it simplifies.
Models are in `lean/Verif/Model`, lemmas in `lean/Verif/Lemmas`, the property theorems, their specifications and the examples that meet their hypotheses
in `lean/Verif/Props`.

* Sequential code is a function; panics and errors are explicit results (`none`, an error value) where a property is about them.
* Goroutines are transition systems: one step per channel operation, lock, atomic access or external event; a theorem quantifies over all finite
  executions (`run s es = some s'`), and termination is a measure that every step decreases together with a description of all states without a next step.
* Crashes are prefixes of the list of statements or writes; histories are lists of operations.
* External functions (SHA-256, RSA, X.509, the public suffix list, the CT log server) are parameters; `encoding/json`, PEM, base64 and times are modelled at the level of bytes where
  a property is about bytes (C98, C100-C105), and are parameters elsewhere. The Merkle library of the log verifier is a parameter in C51 and modelled in C106 and C107, after its published
  source (transparency-dev/merkle v0.0.2, not in /repo). What a theorem needs from
  them is a hypothesis in its statement: never injectivity of the hash outright, but "no collision among these strings", with the strings listed.
* Where the code does not have a property, the full statement stays in `properties.jsonl`; the negation is proved with a concrete reachable witness
  (suffix `_violated`) and the part that holds is proved with the suffix `_partial` and a note of what is missing.

## Trusted base
* The kernel of Lean 4.33.0. Axioms: at most `propext`, `Classical.choice`, `Quot.sound` (table at the end). No own axioms, no compiled evaluation:
  concrete witnesses are evaluated with `decide` / `decide +kernel`, that is, by the kernel.
* The faithfulness of the models to the Go source. It rests on reading: nothing was executed. `seeded/LOG.jsonl` records edits of the models that a
  realistic bug would make, and the theorems that then fail.
* The models of software outside the repository: MySQL (statements of `pkg/db/mysql` and the stored procedures of `tools/create_schema.sh`, each
  statement atomic; `LOAD DATA`, `FROM_BASE64`, `GROUP_CONCAT` from the documentation), Go channels, mutexes, wait groups, and atomics (sequentially consistent),
  `encoding/csv`, `encoding/base64`, `time` formatting, append on slices.

## Assumptions in statements
* Hash functions: 32-byte results; "no collision" or `NoAccident` on the strings of the history at hand (C03, C06, C07, C10, C12). C45, C46: laws of JSON,
  hash and RSA functions in the structure `Env`.
* IDs are 32 bytes where the Go type is `[32]byte`.
* Integers: 64-bit wrap-around where a property depends on it (journal, fetchers, ParseDuration, shard functions); natural numbers elsewhere.
* Maps of Go are lists or functions; where the iteration order matters the theorem quantifies over all orders.
* Time is a parameter; timers and context cancellation are events that may happen at any moment.

## What is modelled
`pkg/mapserver/trie` (all of the trie, its batches, caches, proofs, compression and commit), `pkg/mapserver/{updater,prover,responder,logfetcher,common}`,
`pkg/mapserver/mapserver.go`, `pkg/db/mysql` and `tools/create_schema.sh`, `pkg/pipeline` (stages, sending modes, stalling), `cmd/ingest`
(journal, run, file listing, fastcsv, workers, the link of the pipelines), `pkg/common` (ids, policies, JSON, crypto), `pkg/pca`, `pkg/policylog/client`,
`pkg/logverifier`, `pkg/domain`, `pkg/cache`, `pkg/sync`, `pkg/util`.

## What is not modelled
Command-line tools other than `ingest`, benchmarks, tracing, logging, HTTP and gRPC transport, TLS, X.509 parsing, the public suffix data,
`pkg/mapserver/internal`, `pkg/tests`, performance-related recycling of memory except where a property is about
aliasing (C36, C77), memory exhaustion, weak memory behaviour of data races (a race is only reported where two unsynchronised accesses are steps of a model: C41, C42).

## Main findings (properties that are false of the code)
* Trie: a deletion in the middle of a batch can lose or keep the wrong keys (C01, C02, C05, C69); a batch that repeats a stored value deletes nodes
  still in use (C10); a crash between deleting old nodes and saving the root makes the whole trie unreadable (C11); LoadCache of an earlier root panics, and a failed one replaces the root (C109); AtomicUpdate without keys empties the trie (C110); proofs for past roots fail after a Commit, and after an AtomicUpdate with a deletion (C111).
* Proofs: the verifier accepts a non-inclusion proof with the same key (C07), over-long nodes (C06), and checks neither the domain nor the payload's hash (C12).
* Updater and DB: presence of certificates is wrong for multiples of 1000 (C17), expirations are shifted (C18), re-running after a crash loses links (C23), shards
  without worker (C20), pruning uses the local wall clock and cannot be retried after a failure (C79), pruning never succeeds on cyclic parents (C21), stale payloads (C70), CT state lost or skipped (C24), names in CSV files can inject rows (C77), temporary files stay after an error (C82), a certificate inserted during a coalescing run, or two runs at the same time, leave payloads wrong for ever (C112), DSNs with a port, or with an upper case user, are not what was configured (C83), a SIGINT can be lost (C84), an error of the DB can make the updater hang for ever (C85), a certificate without a chain stops ingest (C86) and crashes the map server when read by its local fetcher, which reports unreadable files to nobody (C87), UpdateSMT panics for ever after an interrupted first insertion and after all certificates expired (C91).
* Ingest: cached domains lose later certificates (C34), cross-signed chains (C35), unreadable files are marked complete (C68), after a DB error the process can hang (C76),
  sizes (C31), bundled files (C33), two ingest processes overwrite each other's journal and a saved journal can be lost in a machine crash (C90), the journal forgets directories whose name is not UTF-8 (C92), a single stray `.gz` file stops every run and an unreadable `bundled` directory counts as empty (C108).
* Concurrency: errors of streaming functions are dropped (C37, C68, C96: a bad row hides the rest of its file, `Wait` returns nil), a third error of one layer is lost and its goroutine stays (C96), the feeder of a slice source from a failed run can mix its values into the next run or make it panic (C97), joined pipelines hang when the sink fails or the second pipeline stops early and panic when resumed again (C99), streaming runs while stalled (C75), the spin lock admits two workers (C42), the update loop
  stops serving after a failed reload (C62).
* Policies and CA: domain check inverted (C47), serial numbers repeated (C48), cool-off never recognised (C49), non-UTF-8 text can be exchanged under a signature (C45), and so can times whose zone is not whole minutes (C102),
  validity not checked on signing (C73), `Equal` of revocations (C74), the domain owner loses the key of every new certificate, and renewals always fail (C93), time stamps of logs do not verify for the issued certificate and are not checked (C94).
* Map server: a client panics on `[{}]` or on a path of more than 256 nodes (C104), answers during a reload can carry a root that does not belong to the proof or to the signature (C88), no request at all is answered from the Commit of an update until the reload (C113), what is inserted (`mapserver -policy`, ingest) while another process updates is forgotten for good, and two updates at the same time destroy the tree (C114), a payload request that runs out of time reports stored certificates as absent (C78), SIGTERM always ends in a panic and a failed Listen can swallow
  a Shutdown (C81), the update timer runs after cancellation (C80), `recordctsize` never reaches logs with an underscore in their URL, can
  overwrite a larger size and drop the tree head (C95); a key file without a PEM block makes the map server and the CA panic, and a certificate file without certificate passes as one with an empty certificate (C98); a configuration file without UpdateTimer is accepted and makes the server panic (C101); progress of directories whose names are not UTF-8 is lost when the journal is read again (C105); a submission of policies that stops before its last statement leaves them without a domain for ever, and expired policies are never removed (C115); `TruncateAllTables` keeps policies and the state of the CT logs, so that policies submitted again are ignored, old ones come back and certificates below the recorded size are never fetched again, and `CheckSchema` refuses the schema (C116); the root of a map server depends on the order of submissions, and of two issuers of a certificate only the first is ever returned (C117); of the certificates of an ingested batch with the same name only one is linked to the name, and a crash can leave links to certificates that were never stored (C118); `RetrieveDirtyDomains` returns a part of the dirty domains without an error when the connection breaks while it reads (C119); and the ingest strategy "onlysmtupdate" forgets every name whose payload was not recomputed: its absence is then proved (C120); a certificate that has only wildcard names is shown for no question at all, one that has only a `www.` name not for this name, and names in upper case not in lower case (C121); the same holds for policies: `mapserver -policyFile` succeeds for a policy that nobody can find (C122); `FetchAllCertificates` panics on inverted ranges (C123); `UpdatePolicyCerts` succeeds and stores nothing (C124); a file `0-99.csv.gz` stops the local fetcher, and a missing folder makes the map server panic (C125); one row with fewer than five columns makes `LoadCertsAndChainsFromCSV` panic, and one row without chain makes the whole file fail (C126); a configuration of the policy log that lacks the number of workers, or misspells it, is accepted and gives a client that blocks for ever (C128); a log client takes any root for the current one, two overlapping `UpdateTreeSize` leave a size that is not that of the root, and an inclusion proof delivered by `FetchInclusions` does not verify against the tree head delivered with it if the log has grown (C129); a second `StartFetching` on an HTTP log fetcher while the goroutine of the first still runs (after `StopFetching`, or after the reader gave up) can panic, deliver entries twice or report the end at once, and a goroutine that has filled its channel is not ended by `StopFetching` (C131); since dates get mixed up (C18), after a pruning an expired certificate may still be proved to be present, and a valid one may have been removed (C132); between a pruning and the end of the update that follows it, answers prove the presence of certificates whose payload has been deleted and is returned as null with status 200 (C134); a pipeline resumed after Wait can panic or hang, because the earlier run closes the stop channel of the new one (C177), and so can a stage that is resumed automatically (C196), whose end or error also goes astray with criss-cross links (C197); a pipeline with its source or sink at the wrong place is accepted and panics later (C198); ingest exits with 0 although its last writing of the journal failed (C200); if the listener of the policy log fails, its database is closed while requests are in progress (C201), and a signal before it serves is reported as a failure (C202); ingest always reports 0 certificates written (C204), and its percentages can exceed 100 (C205); `bench-coalesce` with a balance of 1 to 75 percent always fails, since the old procedure repeats every ID (C193); the gRPC server is not closed when StartWork returns: it goes on answering, and its port stays taken (C211); the interval of new roots that is configured for a tree of the policy log is never used, and a failed creation can leave the tree (C212).

## The properties: model, proof, result

`Verif/Model/X.lean` is the model, `Verif/Props/X.lean` (with `Verif/Lemmas/X*.lean`) the theorems. The full English statements are in `properties.jsonl`, the theorem names in `MANIFEST.json`. Theorems are named after the property under which they were first listed: C135 to C175 are the parts of earlier properties that do not hold in general, and keep the names of their theorems.

### C01 SMT update gives map semantics
* Model (`Smt`): `Trie.Update`/`Get` on the tree of shortcut leaves (same recursion as trie.go: split by bit, shortcut leaves, move-up after a deletion). Induction on the height for a batch, on the list of batches for a history; the spec is the map obtained by applying the key/value pairs one by one.
* Result: **partial**. Proved for all histories whose batches put a deletion only at an edge position where the code handles it (the hypothesis EdgeHist, and a per-update version). The remaining case is false of the code: deleting a key between two other keys of a batch misplaces a leaf (violated theorem, reachable history).
* Theorems: `C01_map_semantics_partial`, `C01_one_update_partial`; negations with witnesses: `C01_map_semantics_violated`

### C02 SMT root depends only on content
* Model (`Smt`): Same model; the tree is shown to be the canonical tree of its map, so the root depends on the map only.
* Result: **partial**. Proved for histories as in C01; false in general because of the same deletion defect.
* Theorems: `C02_root_of_content_partial`; negations with witnesses: `C02_root_of_content_violated`

### C03 SMT root binds content
* Model (`Smt`): Same model, hash = arbitrary function; two canonical trees with equal roots are walked down together: same map, or a collision in explicit lists of strings, or two concatenations that overlap.
* Result: **partial**. Proved with the alternatives: same map, a collision in the explicit preimage lists, or overlapping digests (Shift). The Shift case is real because DefaultLeaf is one byte: interior preimages are not injectively encoded.
* Theorems: `C03_root_binds_content_partial`; negations with witnesses: `C03_shift_violated`

### C04 Inclusion proofs verify (completeness)
* Model (`Smt`): `MerkleProof` and `verifyInclusion` over bytes; induction on the path.
* Result: **proved**. 
* Theorems: `C04_inclusion_complete`

### C05 Non-inclusion proofs verify (completeness)
* Model (`Smt`): `MerkleProof` for absent keys and `VerifyNonInclusion`; induction on the path.
* Result: **partial**. Proved for histories as in C01; false after the deletion defect.
* Theorems: `C05_non_inclusion_complete_partial`; negations with witnesses: `C05_non_inclusion_complete_violated`

### C06 Inclusion proofs are sound
* Model (`Smt`): Verifier run on arbitrary proofs; induction on the proof against the path of the tree.
* Result: **partial**. Proved when proof nodes, key and value have the sizes of real ones; the code does not check sizes, and an over-long proof node is accepted otherwise.
* Theorems: `C06_inclusion_sound_partial`; negations with witnesses: `C06_inclusion_sound_violated`

### C07 Non-inclusion proofs are sound
* Model (`Smt`): As C06 for non-inclusion.
* Result: **partial**. The code accepts proofKey = key, so every present key has an accepted non-inclusion proof; soundness is proved when proofKey differs from key and sizes are right.
* Theorems: `C07_non_inclusion_sound_partial`; negations with witnesses: `C07_non_inclusion_sound_violated`, `C07_single_leaf_violated`, `C07_zero_byte_violated`

### C08 A compressed inclusion proof is equivalent to the uncompressed one
* Model (`SmtCompress`): Bitmap compression of the path; induction on the path.
* Result: **proved**. The neighbouring property that does not hold in general is C179.
* Theorems: `C08_inclusion_equiv`, `C08_compresses_same_proof`

### C09 Node batch serialization round-trips
* Model (`SmtBatch`): `serializeBatch`/`parseBatch`, 31 slots, bitmap and 33-byte nodes.
* Result: **proved**. 
* Theorems: `C09_batch_roundtrip`, `C09_shortcut_roundtrip`

### C10 Committed updates can be read back
* Model (`SmtStore`): `update`, `maybeAddShortcutToKV`, `leafHash`, `interiorHash`, `loadChildren`, `loadBatch`, `storeNode`, `deleteOldNode`, `get`, `merkleProof`, `Commit`, cache reset, `LoadDB`, on batches of four levels, with live cache, updated nodes, removed nodes and DB table. Refinement to the tree model of C01: an invariant says which batches are readable from caches and DB; induction over the history of operations.
* Result: **partial**. The trie on batches, caches and DB is modelled function by function and refines the tree model. Proved for every sequence of updates with commits, reads, proofs, cache resets and restarts in which every entry changes its key, with the hash assumptions NoAccident on the strings of the history, deletions as in C01 and no keys that agree in 255 bits. False otherwise: a batch that repeats a value deletes tree nodes that are still in use, for every hash function the whole trie if the root stays the same.
* Theorems: `C10_committed_partial`, `C10_proofs_partial`; negations with witnesses: `C10_same_root_violated`, `C10_noop_violated`, `C10_part_noop_violated`, `C10_undo_violated`, `C10_twins_violated`

### C100 Texts of times of day
* Model (`Config`): the layout loop and time.Parse byte by byte; an independent grammar, and an equivalence with it.
* Result: **proved**. The texts are those of package time for the layouts used.
* Theorems: `C100_constructor`, `C100_roundtrip`, `C100_shortest`, `C100_accepts`

### C101 The configuration file of the map server
* Model (`Config`): Model/Json: the writer and the reader of JSON texts as functions on bytes, with the theorem that what is written is read; Model/Config: the members of the structs, and decoding member by member with an invariant over the fields already set.
* Result: **partial**. True for texts in UTF-8, down to the bytes of the file (encoding/json is modelled: quoting, numbers, white space, fields by name). False: bytes that are not UTF-8 are replaced; a file without UpdateTimer is accepted and the server panics when it starts its timer.
* Theorems: `C101_roundtrip_partial`, `C101_any_order`; negations with witnesses: `C101_no_interval_violated`, `C101_not_utf8_violated`

### C102 The JSON texts of policy objects, read and written
* Model (`PolicyText`): Model/Calendar: the Gregorian calendar and RFC 3339 as package time writes and reads it; Model/Reflect: encoding/json for types described by their fields; Model/PolicyText: the envelopes and the nine types. Round trip by mutual induction over types; the calendar by the cycle decomposition of days.
* Result: **proved**. The neighbouring property that does not hold in general is C187.
* Theorems: `C102_again`, `C102_received`, `C102_shown`, `C102_writes`, `C102_calendar`, `C102_faithful`, `C102_input_faithful`

### C103 What the client reads is what the map server answered
* Model (`Wire`): Model/Wire: the Go structures as types for the byte-level model of encoding/json (Model/Reflect, extended with arrays, pointers and maps), the server's writers and the clients' readers. The text is read back by C102's theorem; cut texts by a lemma that the parser's result does not depend on what follows (Lemmas/JsonPrefix).
* Result: **proved**. The neighbouring property that does not hold in general is C162.
* Theorems: `C103_http`, `C103_grpc`, `C103_cut`, `C103_error`, `C103_served`

### C104 The check of the client does not panic on any answer
* Model (`Wire`): Model/Wire: VerifyProofByDomain with nil pointers and index checks. The condition by induction over the path; what can be received by the typing theorem of Model/Reflect (dec_fits).
* Result: **partial**. False: a body such as [{}] has an answer without an entry, and a path of more than 256 nodes (or more than eight times the bytes of the proof key) indexes out of range; both panic. Proved: the exact condition for the panic; that nothing else received can cause one (arrays always have 32 bytes); and that without a panic the verdict is the one of C12 and C13.
* Theorems: `C104_panic_iff_partial`, `C104_no_panic_partial`, `C104_agrees`, `C104_received`; negations with witnesses: `C104_nil_violated`, `C104_long_violated`

### C105 A journal file that was cut off is refused
* Model (`JournalText`): Model/JsonIndent: MarshalIndent at the level of bytes; Model/JournalText: the types of the journal for the model of encoding/json. Indented text parses like compact text (Lemmas/JsonIndent); parsed texts are valid UTF-8 (Lemmas/JsonUtf8) and decoded values are fixed points of the normal form (Lemmas/ReflectClean). The crash theorem instantiates C90 with this codec.
* Result: **proved**. The neighbouring property that does not hold in general is C163.
* Theorems: `C105_writes`, `C105_cut`, `C105_crash`

### C106 An accepted inclusion proof means that the entry is in the log
* Model (`MerkleLog`): Model/MerkleLog: VerifyInclusion with its bit arithmetic; specification: RFC 6962 by the largest power of two. Both are shown equal to a computation level by level (Lemmas/MerkleLog); soundness by induction over the levels (Lemmas/MerkleSound), completeness likewise (Lemmas/MerkleHonest).
* Result: **proved**. The functions of transparency-dev/merkle v0.0.2 are modelled from its published source, which is not in /repo. SHA-256 is a parameter; collisions are exhibited among explicit lists of strings, not assumed away.
* Theorems: `C106_inclusion`, `C106_entry`, `C106_honest`

### C107 An accepted new log root means that the log only grew
* Model (`MerkleLog`): VerifyConsistency is split into two climbs over the levels above the trailing zeros of the old size; their common induction (climb_both) shows that the levels agree, and levels determine the leaves.
* Result: **proved**. As for C106. The first hash of a consistency proof is not checked for its length by the library; the proof shows that this does no harm.
* Theorems: `C107_prefix`, `C107_shrunk`, `C107_with_previous_root`, `C107_honest`

### C108 A run works on every uncompleted file exactly once, in the order of the indices
* Model (`Pending`): Model/Pending: ListCsvFiles with both results, SortByBundleName with an arbitrary sorting function, listFiles, PendingFiles, batches. Induction over the tree (loop_sound, loop_complete, loop_nodup).
* Result: **partial**. Violated: one file of another name (also with numbers from 2^63 on) makes the whole run fail, and an unreadable `bundled` directory is silently empty. Proved for readable trees with `bundled` before its sibling directories (C33): failure exactly when an offered name is bad, otherwise exact content, order and batches. Glob metacharacters in directory names are not modelled.
* Theorems: `C108_names`, `C108_estimate`, `C108_fails_iff_partial`, `C108_pending_partial`, `C108_batches_partial`; negations with witnesses: `C108_stray_violated`, `C108_unreadable_violated`

### C109 LoadCache warms the cache without changing what the trie answers
* Model (`SmtLoad`): Model/SmtLoad: loadCache on batches with failing queries. loadCache_ok: induction on the height with the invariant of C10 (Look); Cached gives that reads do not need the upper rows (states that agree up to rows already cached, get_rel).
* Result: **partial**. Violated: a root that is not in the DB (such as every earlier root) ends the process with a panic, because a missing row is parsed; and a LoadCache that returns an error has replaced root and cache. Proved with the conditions of C10. The goroutines are modelled one after the other.
* Theorems: `C109_load_partial`, `C109_unread_partial`, `C109_whole_partial`, `C109_life_partial`; negations with witnesses: `C109_missing_violated`, `C109_past_violated`, `C109_error_violated`

### C11 A crash during UpdateSMT leaves a readable saved root
* Model (`SmtDisk`): `UpdateSMT` as the list of DB states after each statement; all crash points.
* Result: **partial**. False: for every trie and every update there is a crash point (after DeleteTreeNodes, before SaveRoot) where the saved root is unreadable for all keys and UpdateSMT cannot recover; running UpdateSMT again with the same values has the same effect. Proved: crash points before the first DeleteTreeNodes keep the old content, a completed run has the new content, and the first run (no root saved) is safe at all points.
* Theorems: `C11_complete_partial`, `C11_before_delete_partial`, `C11_first_run_partial`; negations with witnesses: `C11_crash_violated`, `C11_stuck_violated`, `C11_rerun_violated`

### C110 Several updates before one Commit
* Model (`SmtPast`): Model/SmtPast: AtomicUpdate (the flag atomicUpdate decides what deleteOldNode removes), MerkleProofR. Invariant Busy: the tree of the last Commit is in the DB, the tree of now is in the caches or the DB, and what Commit removes is in none of the nodes of now.
* Result: **partial**. Violated: AtomicUpdate with no keys sets the root to nil, so all content is lost; a key that gets back to the value it had before an uncommitted batch loses its nodes at the Commit (C10_undo_violated). Proved with the conditions of C10 and without these two cases.
* Theorems: `C110_updates_partial`; negations with witnesses: `C110_no_keys_violated`, `C10_undo_violated`

### C111 Proofs for past roots
* Model (`SmtPast`): CohDb: every row of the DB and caches is the batch of the node whose digest is its key, so a walk from any root that was ever hashed either fails or follows the tree of that time (merkleProof_sound, by induction on the height).
* Result: **partial**. Proved: an answer is never wrong (error or the right proof); the root of the last Commit works until the next Commit; with AtomicUpdate and no deletions all roots work until a Commit. Violated: after the Commit and a restart every earlier root gives an error for every key; an AtomicUpdate with a deletion makes earlier roots unusable even before the Commit.
* Theorems: `C111_sound_partial`, `C111_last_commit_partial`, `C111_atomic_partial`; negations with witnesses: `C111_gone_violated`, `C111_atomic_violated`

### C112 Coalescing ends, and can be repeated
* Model (`Coalesce`): Each SQL statement of calc_dirty_domains is a step of its worker; invariant DomOk for each domain, by the statement its worker is at; a measure (6 steps for each waiting domain and 5 for each worker) for termination; C112_call ties the statements to the one-step model of C22.
* Result: **proved**. The neighbouring property that does not hold in general is C188.
* Theorems: `C112_ends`, `C112_recovers`, `C112_call`, `C112_counts`

### C113 Proofs of the responder while the updater works
* Model (`SmtReaders`): Every row that is ever in the table is the batch of its digest (cohDb_moment), so that each load gives nothing or the right batch, whenever it happens; induction over the height with a different table at each height (viewProof_spec).
* Result: **partial**. Proved for the acts and hash functions of C110. Violated for availability: from the deletions of a Commit until the responder reloads its root, every request fails for every key (mapserver.go:123-125 names it).
* Theorems: `C113_sound_partial`, `C113_available_partial`, `C113_quiet`; negations with witnesses: `C113_gone_violated`, `C113_across_violated`

### C114 Several processes that update the same DB
* Model (`TwoUpdaters`): Transition system with any number of processes; invariant Inv by cases on the events; Forgotten is an invariant of its own; concrete tries for the rows, evaluated by the kernel.
* Result: **partial**. Proved for the content of the tree if nothing is inserted while any process is between coalescing and cleaning. Violated otherwise: TRUNCATE dirty forgets every insertion since the coalescing, for good; with two updaters the later SaveRoot drops what the other has put into the tree; and each deletes rows of the table tree which the other's tree needs. Coalescing and the reading of the dirty domains are single steps here (C112, C16).
* Theorems: `C114_synced_partial`, `C114_whole_run_partial`, `C114_stays_forgotten`; negations with witnesses: `C114_forgotten_violated`, `C114_overwritten_violated`, `C114_rows_violated`

### C115 Policies are stored, linked and kept
* Model (`Policies`): The four statements as functions on tables (Model.EndToEnd, Model.Db); membership lemmas of REPLACE and INSERT IGNORE; induction over the history for the last part.
* Result: **proved**. The neighbouring property that does not hold in general is C164.
* Theorems: `C115_no_panic`, `C115_policies_arrive`, `C115_nothing_else_changes`, `C115_stored_skipped`, `C115_twice`, `C115_never_removed`

### C116 Resetting the DB
* Model (`Reset`): Tables as a record; the updater model of C24 with the invariant that nothing below the old size is requested.
* Result: **partial**. Violated: policies, domain_policies and ctlog_server_last_status are kept. So the same policies are ignored after the reset, old policies come back with the next certificate of their domain, and entries of a CT log below the recorded size are never fetched again (general). CheckSchema queries a table that does not exist.
* Theorems: `C116_reset_partial`, `C116_last_state`, `C116_new_log`; negations with witnesses: `C116_reset_violated`, `C116_logs_kept_violated`, `C116_policies_ignored_violated`, `C116_old_policies_return_violated`, `C116_log_entries_lost_violated`, `C116_schema_check_violated`

### C117 Same data, same root
* Model (`SameRoot`): Both histories lead to the invariants of C91 (tables hold exactly the submissions; tree in step with the tables); strictly ascending lists with equal members are equal; well-formed tries with equal content are equal (C02); backwards by injectivity of the digest up to collisions (C03) and of the glued lists (C14).
* Result: **partial**. Proved for histories without pruning and interruptions in which a certificate is always submitted with the same issuer and names. Without the last condition violated: a certificate has one parent_id, written by INSERT IGNORE, so of two cross-signed issuers only the first submitted is returned, and the root depends on the order. The second half needs the exceptions of C03, and does not tell certificates from policies.
* Theorems: `C117_same_root_partial`, `C117_same_data_partial`; negations with witnesses: `C117_cross_signed_violated`

### C118 Ingest into the DB
* Model (`IngestDb`): Induction over the runs of the extractors (shared LRU cache, look and add as separate steps) for what they send; induction over interleavings for the statements of any prefix (dirty before domains before links for each batch); induction over the statements for their effect on the tables; coalescing by C22; the negative parts by explicit runs for arbitrary certificates.
* Result: **proved**. The neighbouring property that does not hold in general is C173.
* Theorems: `C118_complete`, `C118_crash`, `C118_tables`, `C118_again`, `C118_coalesced`

### C119 Retrieving domain entries and pages of dirty ones
* Model (`Retrieve`): Permutations of filtered tables and functionality of sort-and-glue (C14); pages by induction on their number; the workers' slices by induction, with the arithmetic of quotient and remainder.
* Result: **proved**. The neighbouring property that does not hold in general is C174.
* Theorems: `C119_entries`, `C119_page`, `C119_pages`, `C119_collect`

### C12 Accepted map-server answers match the tree
* Model (`Responder`): `VerifyProofByDomain` on arbitrary proofs, on top of C04-C08.
* Result: **partial**. Barring collisions and for proof nodes of real sizes. VerifyProofByDomain checks neither that the ID belongs to the name nor that the value is the hash of the returned IDs (C12_ids_violated), and accepts a denial of every present domain (C12_denial_violated); with these checks the returned IDs are the stored ones (C12_ids_partial).
* Theorems: `C12_presence_partial`, `C12_presence_needs_root`, `C12_ids_partial`, `C12_absence_partial`; negations with witnesses: `C12_ids_violated`, `C12_denial_violated`

### C120 The ingest command and the served answers
* Model (`IngestCmd`): The effect of all statements of all tries at once (C118), with the invariant of C91 (payloads agree with the tables and the tree with the payloads, for names that are not dirty) and that without pruning (parents and linked certificates are stored).
* Result: **partial**. Violated for the strategy "onlysmtupdate": it updates the tree and truncates the dirty table without knowing whether the payloads were recomputed, so that after "onlyingest" the new names are forgotten: the map server proves their absence although their certificates are stored. Proved without this strategy, without pruning, and for files that contain the chains.
* Theorems: `C120_answers_partial`, `C120_ingested_partial`, `C120_only_partial`, `C120_completes_partial`; negations with witnesses: `C120_forgotten_violated`

### C121 Under which names certificates are looked up
* Model (`Lookup`): C91 gives what each of the answers contains; the names an answer can be about are those of C52, which never contain `*` and include the name asked for exactly if nothing was cut from it.
* Result: **proved**. The neighbouring property that does not hold in general is C189.
* Theorems: `C121_no_wildcard_answers`, `C121_own_name`, `C121_same_answers`, `C121_names`, `C121_subject`

### C122 The text of a policy submitted from a file
* Model (`PolicyFile`): All texts read by encoding/json are UTF-8 (induction over the type), so that the certificate read from the file and the one read from its text are written alike (C102); then C91, C115, C121 and C78.
* Result: **proved**. The neighbouring property that does not hold in general is C190.
* Theorems: `C122_text`, `C122_same_text`, `C122_signatures`, `C122_payload_hash`, `C122_rejected`

### C123 Fetching a whole range in one call
* Model (`Bulk`): Induction over the results that the goroutine sends, with C25 for what it sends.
* Result: **proved**. The neighbouring property that does not hold in general is C165.
* Theorems: `C123_all`, `C123_never_wrong`, `C123_empty_range`

### C124 Reading a file of domain names for bulk updates
* Model (`Bulk`): Induction over the lines of the text; the scanner of bufio is modelled with its limit.
* Result: **proved**. The neighbouring property that does not hold in general is C166.
* Theorems: `C124_one_for_each_line`, `C124_refused`

### C125 Which local files are ingested
* Model (`LocalList`): Induction over the directory tree; the names are characterised without the parser of the code; then C26 for the chain of files.
* Result: **partial**. Violated: one file with a name like `notes-old.csv` or `0-99.csv.gz` stops the fetcher, instead of being ignored; a missing folder makes the map server panic (nil DirEntry); errors of reading directories are dropped. Proved for folders without such names.
* Theorems: `C125_files_partial`, `C125_next_files_partial`; negations with witnesses: `C125_odd_name_violated`, `C125_missing_folder_violated`, `C125_unreadable_violated`

### C126 Certificates and chains from a CSV file
* Model (`CsvFile`): `csv.Reader.ReadAll` on whole texts; induction over the grammar of CSV files, then C19 for the unfolding.
* Result: **proved**. The neighbouring property that does not hold in general is C167.
* Theorems: `C126_csv`, `C126_final_cr`, `C126_exact`, `C126_panics`

### C127 Loading a list of policies
* Model (`CsvFile`): Case analysis on the result of FromJSON (C60), filter lemmas for the typed slices.
* Result: **proved**. The neighbouring property that does not hold in general is C168.
* Theorems: `C127_split`, `C127_exact`, `C127_all_or_nothing`

### C128 Reading and saving configuration files of the policy log
* Model (`LogConf`): Induction over the fields with an arbitrary old struct; `cut_render` for crash points.
* Result: **proved**. The neighbouring property that does not hold in general is C169.
* Theorems: `C128_read_saved`, `C128_crash`, `C128_types`, `C128_unknown_ignored`

### C129 UpdateTreeSize, one call after the other
* Model (`LogHead`): Fold over the answers; invariant over all schedules of the steps of UpdateTreeSize; C71 and C106 for the proofs.
* Result: **proved**. The neighbouring property that does not hold in general is C170.
* Theorems: `C129_sequential`, `C129_call`, `C129_own_root`

### C13 Map server answers cover the domain and all its parents
* Model (`Responder`): `GetProof` of the responder with the payload table and the trie; both directions with C12.
* Result: **partial**. Proved when the responder's tree is in sync with the payload table, which UpdateSMT establishes; false between coalescing and reloading the tree, and (C05) after a deletion in the middle of a batch.
* Theorems: `C13_answers_partial`, `C13_synced_by_update_partial`, `C52_parse`; negations with witnesses: `C13_stale_violated`

### C130 A client that checks every new root sees one growing log
* Model (`LogHead`): Induction over the history with C107.
* Result: **proved**. Up to a hash collision among the strings that were hashed. From the root of the empty log, VerifyRoot accepts any root without a proof (C130_from_empty), which agrees with the statement: an empty log is the beginning of every log.
* Theorems: `C130_audit`, `C130_rewritten`, `C130_honest`, `C130_from_empty`

### C131 Stopping and restarting an HTTP fetch
* Model (`StopFetch`): Invariant over all schedules of the steps; a rank that every step after a stop decreases; concrete schedules for the violations.
* Result: **partial**. Proved for a fetcher that is started once. Violated for a second StartFetching while the goroutine of the first runs: panics (which end the process), entries delivered twice, an empty result that NextBatch takes for the end; and a goroutine that has filled the channel stays for ever if nobody reads. Accesses to shared fields are modelled as atomic and sequentially consistent.
* Theorems: `C131_single_partial`, `C131_stop_partial`, `C131_progress_partial`; negations with witnesses: `C131_restart_violated`, `C131_abandoned_violated`, `C131_twice_violated`, `C131_empty_violated`, `C131_leak_violated`

### C132 Expired certificates disappear from the answers, valid ones stay
* Model (`Expiry`): An invariant links the tables to the submissions not pruned since, row by row, through the closure of `prune_expired`; with C18, C21 and C91.
* Result: **partial**. Proved for submissions that agree with each other, are not interrupted and in which no stored certificate precedes a new one in the list made of the batch, and for UpdateSMT runs without the bug of C05. The condition on the order nearly always fails in production: issuers recur in every batch. Then (bug of C18: the dates are not compacted with the rest) a certificate gets the date of another one: an expired one is still proved after the pruning, or a valid one is pruned (both shown).
* Theorems: `C132_end_to_end_partial`; negations with witnesses: `C132_late_violated`, `C132_early_violated`

### C133 After pruning, answers consist of whole chains and contain everything since
* Model (`ExpiryAny`): Invariant: nothing is stored without its issuer, links are those of the submissions; kept by prune_expired because it removes all descendants.
* Result: **partial**. Holds without any condition on the dates, so also with the dates mixed up as in C18 and C132. Conditions: submissions agree with each other (otherwise C117) and are not interrupted (otherwise C91_interrupted_violated), UpdateSMT runs without the bug of C05.
* Theorems: `C133_any_dates_partial`

### C134 Every payload a client gets is one that was submitted
* Model (`Client`): Composition of C103, C91, C78 and an invariant on the stored rows; induction over the history for genuineness.
* Result: **proved**. The neighbouring property that does not hold in general is C171.
* Theorems: `C134_genuine`, `C134_payloads`

### C135 UpdateWithKeepExisting stores each new certificate with its own expiration
* Model (`Db`): As C18; the `_partial` theorems have the missing conditions as hypotheses, the `_violated` ones are concrete executions.
* Result: **partial**. Listed together with C18 at first, hence the names of the theorems. Everything but the expiration proved; the expiration is right only if no stored certificate precedes a new one in the batch (expirations are not compacted). UpdateCertsLocally panics for every new certificate with a chain.
* Theorems: `C18_own_expiration_partial`; negations with witnesses: `C18_own_expiration_violated`, `C18_locally_violated`

### C136 Pruning always succeeds
* Model (`DbSql`): As C21; the `_partial` theorems have the missing conditions as hypotheses, the `_violated` ones are concrete executions.
* Result: **partial**. Listed together with C21 at first, hence the names of the theorems. Exact whenever the procedure ends; it ends when parent links have no cycle; with an expired certificate on a cycle the recursive query never does, for any bound on its rounds (violated theorem; MySQL stops it with an error after cte_max_recursion_depth rounds, so pruning never succeeds). SQL is modelled by hand.
* Theorems: `C21_prune_exact_partial`, `C21_prune_result`; negations with witnesses: `C21_cycle_violated`

### C137 The recorded size of a CT log means that everything below was stored
* Model (`Updater`): As C24; the `_partial` theorems have the missing conditions as hypotheses, the `_violated` ones are concrete executions.
* Result: **partial**. Listed together with C24 at first, hence the names of the theorems. Proved for fetchers that return each entry at most once per attempt, and for the HTTP fetcher if no goroutine of an earlier attempt is still at work when fetching restarts. False otherwise: nothing stops that goroutine after a failed batch, and its batches are counted twice.
* Theorems: `C24_recorded_complete_partial`, `C24_http_complete_partial`; negations with witnesses: `C24_stale_fetch_violated`

### C138 The intervals of the journal stay canonical
* Model (`Journal`): As C28; the `_partial` theorems have the missing conditions as hypotheses, the `_violated` ones are concrete executions.
* Result: **partial**. Listed together with C28 at first, hence the names of the theorems. Coverage is exact for all inputs; canonicity proved for interval ends below 2^64-1; at 2^64-1 End+1 wraps and it is false.
* Theorems: `C28_append_canonical_partial`, `C28_append_commutes`, `C28_normalize_restores_partial`; negations with witnesses: `C28_canonical_violated`

### C139 The size of the presence cache
* Model (`Presence`): As C41; the `_partial` theorems have the missing conditions as hypotheses, the `_violated` ones are concrete executions.
* Result: **partial**. Listed together with C41 at first, hence the names of the theorems. Contains and AddIDs: proved for every schedule of any number of goroutines. Size is not synchronised: it may be behind what Contains has returned (and reads the map while it is written).
* Theorems: ; negations with witnesses: `C41_size_violated`

### C14 ID list encoding
* Model (`Ids`): `SortIDsAndGlue`, `GlueSortedIDs`, `BytesToIDs`, sorting; lists of 32-byte strings.
* Result: **proved**. 
* Theorems: `C14_ids_roundtrip`, `C14_bytes_roundtrip`, `C14_glue_total`, `C14_glue_eq_iff_perm`, `C14_hash_binds`, `C14_hash_order_free`

### C140 Policy attributes do not depend on upper and lower case
* Model (`PolicyAttr`): As C43; the `_partial` theorems have the missing conditions as hypotheses, the `_violated` ones are concrete executions.
* Result: **partial**. Listed together with C43 at first, hence the names of the theorems. The decision is exactly the stated one for all names and attributes; findings: entries with a dot are accepted but never match, and names are compared case-sensitively.
* Theorems: ; negations with witnesses: `C43_case_violated`

### C141 Owner signatures cover the bytes of texts, and verification is harmless
* Model (`PolicyCert`): As C45; the `_partial` theorems have the missing conditions as hypotheses, the `_violated` ones are concrete executions.
* Result: **partial**. Listed together with C45 at first, hence the names of the theorems. JSON encoding, SHA256 and RSA are parameters with stated assumptions. False for texts that are not UTF-8: their bytes can be exchanged in a signed certificate; and verification destroys the certificate's signatures if its JSON text cannot be made.
* Theorems: ; negations with witnesses: `C45_not_utf8_violated`, `C45_destroys_violated`

### C142 Verifying an issuer signature changes nothing
* Model (`PolicyCert`): As C46; the `_partial` theorems have the missing conditions as hypotheses, the `_violated` ones are concrete executions.
* Result: **partial**. Listed together with C46 at first, hence the names of the theorems. As C45; verification removes the issuer signature if the JSON text cannot be made.
* Theorems: ; negations with witnesses: `C46_destroys_violated`

### C143 Every configured log server is used
* Model (`Pca`): As C50; the `_partial` theorems have the missing conditions as hypotheses, the `_violated` ones are concrete executions.
* Result: **partial**. Listed together with C50 at first, hence the names of the theorems. Proved for the loaded log servers; of configured servers with the same public key only the last is used.
* Theorems: `C50_config_partial`; negations with witnesses: `C50_same_key_violated`

### C144 The map server keeps serving updates
* Model (`UpdateLoop`): As C62; the `_partial` theorems have the missing conditions as hypotheses, the `_violated` ones are concrete executions.
* Result: **partial**. Listed together with C62 at first, hence the names of the theorems. Own results: proved. The server stops serving for ever after a failed reload (error sent on a channel nobody reads); callers return before the reload; after cancellation callers panic.
* Theorems: `C62_serves_partial`, `C62_reload_error_reached`; negations with witnesses: `C62_reload_error_violated`, `C62_stale_after_return_violated`, `C62_cancel_panics_violated`

### C145 FetchInclusions returns
* Model (`LogClient`): As C71; the `_partial` theorems have the missing conditions as hypotheses, the `_violated` ones are concrete executions.
* Result: **partial**. Listed together with C71 at first, hence the names of the theorems. False if the log server returns no proofs: the worker asks for ever.
* Theorems: `C71_query_ends_partial`; negations with witnesses: `C71_empty_violated`

### C146 Equal of revocations means equal contents
* Model (`PolicyEqual`): As C74; the `_partial` theorems have the missing conditions as hypotheses, the `_violated` ones are concrete executions.
* Result: **partial**. Listed together with C74 at first, hence the names of the theorems. Proved for certificates. False for revocations: their time stamps are compared with ==, so a revocation read back from JSON need not equal the one written.
* Theorems: `C74_revocation_iff`, `C74_revocation_partial`; negations with witnesses: `C74_equal_text_violated`, `C74_revocation_violated`

### C147 Stalled stages do nothing at all
* Model (`Stall`): As C75; the `_partial` theorems have the missing conditions as hypotheses, the `_violated` ones are concrete executions.
* Result: **partial**. Listed together with C75 at first, hence the names of the theorems. Proved for all pipelines and schedules, for the process function (and the end-of-data function). False for the streaming function, which runs after onProcessed. Each stage at most once in each list.
* Theorems: ; negations with witnesses: `C75_stream_violated`

### C148 The link between the ingest pipelines ends after a failure
* Model (`Bridge`): As C76; the `_partial` theorems have the missing conditions as hypotheses, the `_violated` ones are concrete executions.
* Result: **partial**. Listed together with C76 at first, hence the names of the theorems. Proved for all executions without failure, and that errors are reported faithfully. False after a failure: a forwarder blocked on a stopped DB stage keeps ingest from ending.
* Theorems: `C76_ends_partial`, `C76_blocked_forever`; negations with witnesses: `C76_hang_violated`

### C149 The rows of domain names loaded into the DB are the names written
* Model (`CsvLoad`): As C77; the `_partial` theorems have the missing conditions as hypotheses, the `_violated` ones are concrete executions.
* Result: **partial**. Listed together with C77 at first, hence the names of the theorems. Proved for certificates, dirty domains and domain-certificate pairs, and for names accepted by IsValidDomain other than NULL. False for other names found in certificates (not filtered, not quoted): a name with an end of line inserts a row of the attacker's choice. MySQL's LOAD DATA parser is modelled from its documentation.
* Theorems: `C77_domains_partial`, `C77_valid_names`, `C77_update_domains_partial`; negations with witnesses: `C77_injection_violated`, `C77_quote_violated`, `C77_comma_violated`, `C77_null_violated`, `C77_backslash_violated`

### C15 SMT input is sorted and aligned
* Model (`Dirty`): `domainEntriesToSMTInput`: sorting of keys with their values; sortedness and permutation.
* Result: **proved**. 
* Theorems: `C15_smt_input`

### C150 The payload API returns every stored payload
* Model (`PayloadApi`): As C78; the `_partial` theorems have the missing conditions as hypotheses, the `_violated` ones are concrete executions.
* Result: **partial**. Listed together with C78 at first, hence the names of the theorems. Proved for at least one ID and rows read without error, after every history of the DB. False if reading the rows fails (connection lost, 5 s timeout): rows.Err is never checked, so stored certificates are reported as absent with status 200. False for the empty list (IN () is an SQL error).
* Theorems: `C78_answer_partial`, `C78_answer_history_partial`; negations with witnesses: `C78_lost_rows_violated`, `C78_empty_violated`, `C78_both_tables_violated`

### C151 Pruning at an instant, and again after a failure
* Model (`Prune`): As C79; the `_partial` theorems have the missing conditions as hypotheses, the `_violated` ones are concrete executions.
* Result: **partial**. Listed together with C79 at first, hence the names of the theorems. Proved for machines in UTC. False elsewhere: the cut-off is the local wall clock, the expirations are UTC. A failed call is all or nothing and keeps payloads consistent; a retry works over another connection; over the same connection every later call fails because the temporary table is left.
* Theorems: `C79_utc_exact_partial`, `C79_retry_other_session_partial`; negations with witnesses: `C79_zone_violated`, `C79_zone_west_violated`, `C79_equal_violated`, `C79_retry_violated`

### C152 RunWhen keeps its schedule and stops
* Model (`Ticker`): As C80; the `_partial` theorems have the missing conditions as hypotheses, the `_violated` ones are concrete executions.
* Result: **partial**. Listed together with C80 at first, hence the names of the theorems. Proved for runs shorter than the interval; never too often, no overlap and no end without cancellation are proved for all runs. False: a run longer than the interval shifts the next one; after cancellation the first run still happens, and long runs can be followed by any number of further ones; an interval of 0 panics.
* Theorems: `C80_on_time_partial`, `C80_cancel_partial`; negations with witnesses: `C80_duration_matters_violated`, `C80_cancelled_early_violated`, `C80_cancelled_late_violated`, `C80_zero_interval_violated`

### C153 Temporary CSV files are all loaded and removed
* Model (`TempFile`): As C82; the `_partial` theorems have the missing conditions as hypotheses, the `_violated` ones are concrete executions.
* Result: **partial**. Listed together with C82 at first, hence the names of the theorems. Right file, exclusive names, end and progress are proved for all histories. That nothing is left and everything is loaded is proved if nothing fails; false after an error of the DB or of a write: the files stay for ever.
* Theorems: `C82_complete_partial`, `C82_bounded_partial`; negations with witnesses: `C82_cleaned_violated`, `C82_write_error_violated`

### C154 Every signal sent to ingest is obeyed
* Model (`Interrupt`): As C84; the `_partial` theorems have the missing conditions as hypotheses, the `_violated` ones are concrete executions.
* Result: **partial**. Listed together with C84 at first, hence the names of the theorems. Proved for the signals that enter the channel. False for all signals: the channel has room for one, so a SIGINT sent while two SIGUSR1 are pending is dropped. A running batch is one step.
* Theorems: `C84_signals_obeyed_partial`, `C84_signal_lost_completes`; negations with witnesses: `C84_signal_lost_violated`

### C155 A pipeline with failures ends and reports them
* Model (`Pipe`): As C85; the `_partial` theorems have the missing conditions as hypotheses, the `_violated` ones are concrete executions.
* Result: **partial**. Listed together with C85 at first, hence the names of the theorems. Proved for all acyclic networks: no infinite execution, no invented error; without failures no deadlock and nothing lost. With failures: chains never deadlock; trees do not if stages have one output at a time (or the cycles mode) and none says NoMoreData early; nil means success if all stages are so. False in general: the updater can hang after a DB error (its source has two outputs at a time), so can a fan-in or a stage that says NoMoreData; Wait can return while stages run, and can return nil after a failure.
* Theorems: `C85_nil_success_partial`, `C85_tree_no_deadlock_partial`; negations with witnesses: `C85_updater_hang_violated`, `C85_stop_violated`, `C85_fanin_violated`, `C85_early_violated`, `C85_nil_violated`

### C156 The local log fetcher reports what it cannot read
* Model (`LocalFetch`): As C87; the `_partial` theorems have the missing conditions as hypotheses, the `_violated` ones are concrete executions.
* Result: **partial**. Listed together with C87 at first, hence the names of the theorems. Delivery, progress and termination proved for all schedules. False: a row that cannot be parsed (such as that of a root certificate, which has no chain) panics in a goroutine and ends the program; a file that cannot be opened or read is printed but not reported to the caller, and its parsers wait for ever; if the caller stops taking batches the goroutines stay.
* Theorems: ; negations with witnesses: `C87_bad_row_crash_violated`, `C87_no_chain_violated`, `C87_formats_differ_violated`, `C87_silent_violated`, `C87_abandoned_violated`

### C157 An answer is about one tree, with the signature of its root
* Model (`TreeHead`): As C88; the `_partial` theorems have the missing conditions as hypotheses, the `_violated` ones are concrete executions.
* Result: **partial**. Listed together with C88 at first, hence the names of the theorems. Proved for requests that overlap no replacement of the tree; for all schedules that proof, root and signature each belong to a tree saved in the DB and are not older than the last complete reload. False: during a reload an answer can have a new root with the old signature, or a proof of another tree; the parts of one answer can be about different trees; a failed signature leaves the new tree with the old signature; after an update and before the reload requests can fail.
* Theorems: `C88_quiet_partial`, `C88_available_partial`; negations with witnesses: `C88_reload_violated`, `C88_mixed_violated`, `C88_sign_failure_violated`, `C88_unavailable_violated`

### C158 An update of the trie by worker goroutines gives the result of a sequential one
* Model (`SmtPar`): As C89; the `_partial` theorems have the missing conditions as hypotheses, the `_violated` ones are concrete executions.
* Result: **partial**. Listed together with C89 at first, hence the names of the theorems. Every access to the caches and to a slot of a batch is a step of its own. Termination, absence of deadlock and the bound on workers are proved without hypotheses; the result and the absence of races with the hypotheses of C10 (every entry changes something, only the smallest or largest key of a batch is deleted, no accidents of the hash function, no keys that agree in 255 bits), whose necessity C10 shows.
* Theorems: `C89_result_partial`, `C89_committed_partial`, `C89_no_race_partial`

### C159 What the journal saved stays saved
* Model (`JournalFile`): As C90; the `_partial` theorems have the missing conditions as hypotheses, the `_violated` ones are concrete executions.
* Result: **partial**. Listed together with C90 at first, hence the names of the theorems. Never torn, never unreadable, errors change nothing and other files are untouched: proved for all processes, failures and crashes. That what was saved stays is proved for processes running one after the other, and across machine crashes once the directory is on the disk. False otherwise: the directory is not synced after the renaming (syncDirAfterRename does nothing), so a crash can bring the old journal back after a nil result; two processes at the same time overwrite each other's progress. JSON coding is a parameter.
* Theorems: `C90_saved_partial`; negations with witnesses: `C90_machine_crash_violated`, `C90_two_processes_violated`

### C16 Dirty-domain pagination is exact
* Model (`Dirty`): The distribution of a bundle request over the partitions and the cursor; induction over the sequence of bundles for every table content.
* Result: **proved**. The table does not change while it is read; DB errors not modelled.
* Theorems: `C16_pagination_exact`, `C16_short_only_at_end`

### C160 The journal keeps the names of directories
* Model (`JournalMem`): As C92; the `_partial` theorems have the missing conditions as hypotheses, the `_violated` ones are concrete executions.
* Result: **partial**. Listed together with C92 at first, hence the names of the theorems. Proved for all histories over directory names that JSON keeps. False for a directory name that is not valid UTF-8: JSON replaces the invalid bytes, so after a restart nothing is completed for it, and two such names can become one entry.
* Theorems: `C92_text_roundtrip_partial`; negations with witnesses: `C92_text_violated`, `C92_text_collapse_violated`

### C161 Time stamps in issued certificates verify
* Model (`Owner`): As C94; the `_partial` theorems have the missing conditions as hypotheses, the `_violated` ones are concrete executions.
* Result: **partial**. Listed together with C94 at first, hence the names of the theorems. Proved: signing, binding, and that honest time stamps verify for the CA's first certificate. False: the logs sign a certificate whose issuer signature is then replaced, so no time stamp verifies for the issued certificate or any part of it; and the CA accepts any answer as a time stamp.
* Theorems: `C94_issued_partial`; negations with witnesses: `C94_in_certificate_violated`, `C94_unchecked_violated`

### C162 Every answer that arrives is accepted by the client
* Model (`Wire`): As C103; the `_partial` theorems have the missing conditions as hypotheses, the `_violated` ones are concrete executions.
* Result: **partial**. Listed together with C103 at first, hence the names of the theorems. The reading is proved in full. The acceptance has the conditions of C13 (tree in sync with the tables, no deletions in the middle of a batch). The transport (HTTP, TLS, protobuf) is not modelled.
* Theorems: `C103_accepted_partial`

### C163 The journal file is read as it was written, byte for byte
* Model (`JournalText`): As C105; the `_partial` theorems have the missing conditions as hypotheses, the `_violated` ones are concrete executions.
* Result: **partial**. Listed together with C105 at first, hence the names of the theorems. False for directory names that are not UTF-8: the name is written with replacement characters, so that the progress is read back under another name and the files are ingested again. Intervals that end at 2^64-1 are excluded where normalization fails on them (C02/C92). One simplification: a hand-made file with the member CompletedIndices twice in one job.
* Theorems: `C105_roundtrip_partial`, `C105_loads_partial`, `C105_accepted_partial`, `C105_reread_partial`; negations with witnesses: `C105_names_violated`

### C164 An interrupted submission of policies can be repeated
* Model (`Policies`): As C115; the `_partial` theorems have the missing conditions as hypotheses, the `_violated` ones are concrete executions.
* Result: **partial**. Listed together with C115 at first, hence the names of the theorems. Proved except for the repetition of an interrupted submission: after a stop between the third and fourth statement the policies are stored without link, and UpdateWithKeepExisting never links them (general). UpdateWithOverwrite heals it. Policies are also never removed when they expire (C115_never_removed).
* Theorems: `C115_interrupted_early_partial`, `C115_overwrite_recovers_partial`; negations with witnesses: `C115_interrupted_violated`

### C165 Fetching an empty range
* Model (`Bulk`): As C123; the `_partial` theorems have the missing conditions as hypotheses, the `_violated` ones are concrete executions.
* Result: **partial**. Listed together with C123 at first, hence the names of the theorems. Violated for empty ranges with start > end + 1: the call panics (negative capacity), although the fetching goroutine accepts them. Proved for all other ranges.
* Theorems: ; negations with witnesses: `C123_inverted_range_violated`

### C166 Bulk update of policy certificates
* Model (`Bulk`): As C124; the `_partial` theorems have the missing conditions as hypotheses, the `_violated` ones are concrete executions.
* Result: **partial**. Listed together with C124 at first, hence the names of the theorems. Violated: the call returns no error for every readable file and stores nothing. Proved: which certificates are made from a file, and that files which cannot be read or have a line of 64 KiB or more are refused as a whole.
* Theorems: `C124_refused_partial`; negations with witnesses: `C124_stored_nowhere_violated`

### C167 Every CSV file of certificates is loaded or refused
* Model (`CsvFile`): As C126; the `_partial` theorems have the missing conditions as hypotheses, the `_violated` ones are concrete executions.
* Result: **partial**. Listed together with C126 at first, hence the names of the theorems. Violated: a row with fewer than five columns makes the call panic (the exact condition is C126_panics), and one row without chain (a root certificate) makes the whole file fail. Everything else is proved; encoding/csv and base64 are modelled, X.509 parsing is a parameter.
* Theorems: `C126_contents_partial`; negations with witnesses: `C126_short_row_violated`, `C126_no_chain_violated`

### C168 A list of policies that was written is loaded
* Model (`CsvFile`): As C127; the `_partial` theorems have the missing conditions as hypotheses, the `_violated` ones are concrete executions.
* Result: **partial**. Listed together with C127 at first, hence the names of the theorems. Violated only for a pointer to a list: ToJSON writes it, LoadPoliciesFromRaw refuses it. encoding/json on single objects is a parameter, as in C60.
* Theorems: `C127_roundtrip_partial`; negations with witnesses: `C127_pointer_violated`

### C169 Configuration files of the policy log round-trip
* Model (`LogConf`): As C128; the `_partial` theorems have the missing conditions as hypotheses, the `_violated` ones are concrete executions.
* Result: **partial**. Listed together with C128 at first, hence the names of the theorems. Violated: fields saved as zero keep the old values of the struct that is read into; texts that are not UTF-8 are changed; an empty or misspelt file is accepted and gives a client without workers, whose AddLeaves never returns. The exact result of reading is proved for all old and new values. The float64 field QuotaIncreaseFactor is not modelled.
* Theorems: `C128_roundtrip_partial`; negations with witnesses: `C128_stale_violated`, `C128_bytes_violated`, `C128_no_workers_violated`

### C17 CheckCertsExist answers for every ID
* Model (`Db`): `CheckCertsExist` in batches of 1000, `CheckPoliciesExist` with GROUP_CONCAT.
* Result: **partial**. Proved when the number of IDs is not a multiple of 1000; false when it is: the last 1000 are always reported missing. Policies: proved up to group_concat_max_len IDs.
* Theorems: `C17_presence_partial`, `C17_true_is_right`, `C17_policies_partial`; negations with witnesses: `C17_presence_violated`, `C17_policies_violated`

### C170 Tree heads and inclusion proofs of the log client
* Model (`LogHead`): As C129; the `_partial` theorems have the missing conditions as hypotheses, the `_violated` ones are concrete executions.
* Result: **partial**. Listed together with C129 at first, hence the names of the theorems. Violated: overlapping calls can leave the size of one answer with the root of another; any root, also of a smaller tree, is taken without a check; sizes from 2^63 become negative; the delivered proof is for the client's tree size, but the delivered tree head is the log's latest, so the two do not fit if the log has grown. Proved: sequential calls; overlapping calls leave only roots and sizes that the log answered; the proof fits if the sizes agree, and always fits the client's own root. The answers of an honest Trillian log to GetInclusionProofByHash are modelled (not in /repo).
* Theorems: `C129_size_partial`, `C129_concurrent_partial`, `C129_delivered_partial`; negations with witnesses: `C129_size_violated`, `C129_unchecked_violated`, `C129_race_violated`, `C129_delivered_violated`

### C171 The client gets exactly the certificates and policies submitted for the name
* Model (`Client`): As C134; the `_partial` theorems have the missing conditions as hypotheses, the `_violated` ones are concrete executions.
* Result: **partial**. Listed together with C134 at first, hence the names of the theorems. Genuineness holds always. The end-to-end theorem: no pruning, submissions not interrupted, consistent (C117) and without hash collisions. Violated between a pruning and the end of the next update: certificates are proved present whose payload comes back as null with status 200 (C134_dangling_violated).
* Theorems: `C134_no_dangling_partial`, `C134_client_partial`; negations with witnesses: `C134_dangling_violated`

### C172 Texts that are not PEM are refused
* Model (`Pem`): As C98; the `_partial` theorems have the missing conditions as hypotheses, the `_violated` ones are concrete executions.
* Result: **partial**. Listed together with C98 at first, hence the names of the theorems. The round trips hold (encoding/pem is modelled in full; the x509 parsers are assumed to read back what they wrote). RSAKeyFromPEM panics for every text without a PEM block, also at the start of the map server and the PCA; for a text without a certificate CertificateFromPEMBytes returns a pointer to an empty certificate and no error; for texts with something after the END mark the result depends on where the reader cuts.
* Theorems: ; negations with witnesses: `C98_key_panic_violated`, `C98_none_violated`, `C98_cut_violated`

### C173 Ingest links every certificate
* Model (`IngestDb`): As C118; the `_partial` theorems have the missing conditions as hypotheses, the `_violated` ones are concrete executions.
* Result: **partial**. Listed together with C118 at first, hence the names of the theorems. Violated in two parts. Of several certificates of a batch with the same name only one (which one depends on the schedule) is sure to be linked and returned: the domain extractors skip names they have seen, with the certificate. And links can be written before their certificates, so that a crash leaves links to certificates that are not stored (a repetition of the batch repairs that).
* Theorems: `C118_links_partial`; negations with witnesses: `C118_links_violated`, `C118_dangling_violated`

### C174 Retrieving dirty domains, backwards pages, parallel retrieval
* Model (`Retrieve`): As C119; the `_partial` theorems have the missing conditions as hypotheses, the `_violated` ones are concrete executions.
* Result: **partial**. Listed together with C119 at first, hence the names of the theorems. Violated in three corners: RetrieveDirtyDomains does not look at rows.Err, so that a connection that breaks while it reads gives a part of the dirty domains without an error; a page with end < start gives everything from start on (the uint64 subtraction wraps around); the parallel retrieval (not called by anybody) returns repeated domains several times.
* Theorems: `C119_dirty_list_partial`, `C119_parallel_partial`; negations with witnesses: `C119_backwards_violated`, `C119_dirty_list_violated`, `C119_parallel_violated`

### C175 Every certificate in the CSV files is emitted
* Model (`Rows`): As C86; the `_partial` theorems have the missing conditions as hypotheses, the `_violated` ones are concrete executions.
* Result: **partial**. Listed together with C86 at first, hence the names of the theorems. encoding/csv, base64, ParseInt and time.After are modelled, X.509 parsing and SHA-256 are parameters. Completeness over all files needs the hypothesis of C35 (the chain after a certificate is the same everywhere). False: a row without a chain is an error that stops ingest; a quoted column with a line break makes the file unreadable; expirations near 2^63 count as past; the unused pointer worker counts cached leaves as uncached.
* Theorems: `C86_files_partial`; negations with witnesses: `C86_no_chain_violated`, `C86_line_break_violated`, `C86_far_future_violated`, `C86_ptr_counter_violated`

### C176 A pipeline that is at rest can be resumed
* Model (`Again`): Transition system of the goroutines and the channels in the fields of the stages; an invariant and a measure.
* Result: **proved**. That all goroutines have returned cannot be seen through the API: see C177.
* Theorems: `C176_careful`, `C176_ends`, `C176_wait`

### C177 After Wait has returned the pipeline can be resumed
* Model (`Again`): Explicit schedules for every length, by induction; the positive part from C176.
* Result: **partial**. Violated: a stage closes its error channel first, which makes Wait return, and then closes s.StopCh, a field that Resume has meanwhile filled with the channel of the new run. The new run then either stops silently, so that Wait never returns, or closes the channel again, which panics. For every length of the chain, without any failure. Manager.Resume after Manager.Wait and WithAutoResumeAtStage have the same race. Holds if all goroutines of the earlier runs have returned.
* Theorems: `C177_again_partial`; negations with witnesses: `C177_panic_violated`, `C177_hang_violated`

### C178 With pruning, the client gets exactly the certificates that have not expired
* Model (`ClientPruned`): Composition of C132, C103, C78 and the genuineness of the stored rows (C134).
* Result: **partial**. Conditions: those of C132 (submissions not interrupted, consistent and in order: otherwise the dates are shifted, C132_late_violated and C132_early_violated; UpdateSMT without the bug of C05) and no hash collisions. Without the conditions on dates: C133.
* Theorems: `C178_client_partial`

### C179 Compressed proofs are equivalent, of absence too
* Model (`SmtCompress`): As C08; the `_partial` theorems have the missing conditions as hypotheses, the `_violated` ones are concrete executions.
* Result: **partial**. Listed together with C08 at first, hence the names of the theorems. Missing: the empty trie, where the uncompressed proof is accepted and the compressed one rejected.
* Theorems: `C08_non_inclusion_equiv_partial`; negations with witnesses: `C08_empty_trie_violated`

### C18 UpdateWithKeepExisting stores exactly the new certificates, with their parents and payloads
* Model (`Db`): `UpdateWithKeepExisting`/`UpdateWithOverwrite`: in-place compaction of slices, then the statements; tables as lists of rows with keys.
* Result: **proved**. The neighbouring property that does not hold in general is C135.
* Theorems: `C18_existing_kept_all_stored`, `C18_own_data`

### C180 The local fetcher handles every set of files
* Model (`Fetch`): As C26; the `_partial` theorems have the missing conditions as hypotheses, the `_violated` ones are concrete executions.
* Result: **partial**. Listed together with C26 at first, hence the names of the theorems. Proved for files with start <= end; a file such as 5-4.csv makes initialising recurse for ever.
* Theorems: ; negations with witnesses: `C26_inverted_range_violated`

### C181 The journal tells every phase, and directories apart
* Model (`Ingest`): As C30; the `_partial` theorems have the missing conditions as hypotheses, the `_violated` ones are concrete executions.
* Result: **partial**. Listed together with C30 at first, hence the names of the theorems. Main claim proved over all histories with crash points. False parts: the Coalesced flag after onlysmtupdate, and directories sharing their base name.
* Theorems: `C30_coalesced_flag_partial`; negations with witnesses: `C30_coalesced_flag_violated`, `C30_same_base_violated`

### C182 Affected domains cover all names
* Model (`Domain`): As C53; the `_partial` theorems have the missing conditions as hypotheses, the `_violated` ones are concrete executions.
* Result: **partial**. Listed together with C53 at first, hence the names of the theorems. With more than four names, a valid name like www.com, which is a public suffix once www. is removed, is silently dropped, so the covering property is false for it; proved for all others.
* Theorems: `C53_covers_partial`; negations with witnesses: `C53_www_violated`

### C183 Error coalescing returns nil only for nil
* Model (`Util`): As C54; the `_partial` theorems have the missing conditions as hypotheses, the `_violated` ones are concrete executions.
* Result: **partial**. Listed together with C54 at first, hence the names of the theorems. Everything except: a CoalescedErrors value without children is a non-nil error that is turned into nil.
* Theorems: `C54_nil_iff_all_nil_partial`; negations with witnesses: `C54_nil_violated`

### C184 Typed JSON round-trips
* Model (`PolicyJson`): As C60; the `_partial` theorems have the missing conditions as hypotheses, the `_violated` ones are concrete executions.
* Result: **partial**. Listed together with C60 at first, hence the names of the theorems. encoding/json is a parameter. Proved for objects, slices of any and single pointers; false for pointers to pointers, nil pointers and typed slices.
* Theorems: `C60_roundtrip_partial`; negations with witnesses: `C60_double_pointer_violated`, `C60_nil_pointer_violated`, `C60_typed_slice_violated`

### C185 Log client reports exactly the failed leaves
* Model (`LogClient`): As C61; the `_partial` theorems have the missing conditions as hypotheses, the `_violated` ones are concrete executions.
* Result: **partial**. Listed together with C61 at first, hence the names of the theorems. Errors and failed leaves match, but the list of failed leaves always begins with a spurious empty leaf; no leaves: panic; no workers: blocks.
* Theorems: `C61_add_leaves_partial`; negations with witnesses: `C61_spurious_violated`, `C61_no_leaves_violated`, `C61_no_workers_violated`

### C186 recordctsize tells the map server where to go on
* Model (`CtSize`): As C95; the `_partial` theorems have the missing conditions as hypotheses, the `_violated` ones are concrete executions.
* Result: **partial**. Listed together with C95 at first, hence the names of the theorems. Proved: cleaning keeps the directory, equal directories have equal keys, the handover for URLs without underscore, nothing else changes. False: for URLs with an underscore, for two URLs with the same directory name, when the map server was already further, when the directory is given as '.', and for indices from 2^63-1.
* Theorems: `C95_handover_partial`; negations with witnesses: `C95_underscore_violated`, `C95_two_logs_violated`, `C95_regress_violated`, `C95_dot_violated`, `C95_overflow_violated`

### C187 The JSON texts of policy objects round-trip, byte for byte
* Model (`PolicyText`): As C102; the `_partial` theorems have the missing conditions as hypotheses, the `_violated` ones are concrete executions.
* Result: **partial**. Listed together with C102 at first, hence the names of the theorems. True for strings in UTF-8 (other bytes are replaced, C45) and time zones of whole minutes; every certificate that was read from a text is of this kind. False for other zones: the seconds of a zone are not in the text, so the expiration of a signed certificate can be moved by up to two minutes. The assumption Env.Faithful of C45, C46, C73, C93, C94 is proved here for the concrete texts. Left out of the model: lists of numbers given for a []byte, texts that only the general parser of package time accepts, and the copy of the text in the object (C60).
* Theorems: `C102_roundtrip_partial`, `C102_certificate_partial`, `C102_owner_binding_partial`, `C102_issuer_binding_partial`; negations with witnesses: `C102_seconds_violated`

### C188 Coalescing with its workers, failures and crashes
* Model (`Coalesce`): As C112; the `_partial` theorems have the missing conditions as hypotheses, the `_violated` ones are concrete executions.
* Result: **partial**. Listed together with C112 at first, hence the names of the theorems. Proved for runs one after the other with nobody else writing. Violated: two runs at the same time (or a procedure that goes on in the server after its client has ended) mark a chunk as coalesced that was never computed; a certificate inserted between REPLACE and UPDATE dirty is marked as coalesced without being in the payload. SQL statements are atomic and modelled by hand.
* Theorems: `C112_always_partial`, `C112_nil_partial`; negations with witnesses: `C112_two_runs_violated`, `C112_writer_violated`

### C189 Certificates are found under their names
* Model (`Lookup`): As C121; the `_partial` theorems have the missing conditions as hypotheses, the `_violated` ones are concrete executions.
* Result: **partial**. Listed together with C121 at first, hence the names of the theorems. Violated: certificates are stored under their names as they are, but questions are cut (`*.`, `www.`), so a certificate only for `*.example.com` is shown for no question at all (its absence is proved), one only for `www.example.com` is not shown to a client that asks for `www.example.com`, and names in upper case are not found in lower case. Proved for names that do not begin with `*.` or `www.`, under the conditions of C91.
* Theorems: `C121_found_partial`, `C121_exactly_partial`; negations with witnesses: `C121_wildcard_violated`, `C121_www_violated`, `C121_case_violated`

### C19 Chain unfolding keeps every certificate and parent link
* Model (`Chains`): `UnfoldCerts`/`UnfoldCert` with the cache set; induction on the chain.
* Result: **proved**. As stated. The extra promise of the doc comment (each certificate once) is false: C19_once_violated.
* Theorems: `C19_unfold_complete`, `C19_aligned`; negations with witnesses: `C19_once_violated`

### C190 Policies submitted from files are shown
* Model (`PolicyFile`): As C122; the `_partial` theorems have the missing conditions as hypotheses, the `_violated` ones are concrete executions.
* Result: **partial**. Listed together with C122 at first, hence the names of the theorems. Violated for policy certificates for `*.` and `www.` domains, as C121: the command reports success, but no client that asks for the domain ever sees them. Proved for all others, under the conditions of C91 (no pruning, submissions that are not interrupted and agree with each other).
* Theorems: `C122_shown_partial`, `C122_completes_partial`, `C122_again_partial`; negations with witnesses: `C122_wildcard_violated`

### C191 The coalescing workers process every partition exactly once and report every error
* Model (`Bench`): Transition system of sender and workers over an unbuffered channel; invariant over all runs, bound on the number of steps and progress.
* Result: **proved**. Calls that are running are assumed to return at some time.
* Theorems: `C191_exactly_once`, `C191_result`, `C191_always`, `C191_ends`, `C191_refused`

### C192 The synthetic workload is divided exactly and its expected rows are what coalescing computes
* Model (`Bench`): Largest-remainder method proved to keep the quota; the invariant of the files after every domain; C22 for the coalescing.
* Result: **proved**. Exact arithmetic instead of floats; 20480 to 2^60 domains. Coalescing is that of the current procedure (C22), not that of the old variant compared with it.
* Theorems: `C192_shares`, `C192_capacity`, `C192_balance`, `C192_skew`, `C192_fixture`, `C192_expected`

### C193 A run of the benchmark is accepted exactly if its result is right, for both procedures
* Model (`BenchRun`): The joins and GROUP_CONCAT of the old procedure as list functions; lengths of the columns; the fixture of C192.
* Result: **partial**. Violated: with -balance from 1 to 75 every run of the old procedure is rejected (C193_old_violated), because it joins certificates with policies and lists every ID several times; so the examples of the README with a balance cannot be completed. With -balance 0 they are accepted (C193_old_partial); runs of the new procedure always (C193_new). Soundness for hashes without collisions.
* Theorems: `C193_sound`, `C193_new`, `C193_old_partial`; negations with witnesses: `C193_old_violated`

### C194 The summary printed by the benchmark: both variants are measured equally often in alternating order, the medians are medians, and 'new vs old' has the right sign and size
* Model (`BenchStats`): The indices of the sorted list in quarters; induction over the pairs.
* Result: **proved**. Exact arithmetic instead of floating point numbers.
* Theorems: `C194_median`, `C194_iqr`, `C194_pairs`, `C194_faster`, `C194_printed`

### C195 A stage that is resumed automatically: its errors arrive in order, its end is seen only when it is not resumed again
* Model (`AutoResume`): Transition system of the target, the forwarding goroutine and the reader; invariant by induction over the steps; Qsort by C55.
* Result: **proved**. For stages that are linked with LinkStagesAt or LinkStagesFanOut (otherwise C197). What the stages do with their data is not part of it (C85).
* Theorems: `C195_errors`, `C195_end`, `C195_order`

### C196 A stage that is resumed automatically works as in its first run
* Model (`AutoResume`): Two concrete schedules and an invariant of what can follow; for careful runs an invariant.
* Result: **partial**. Violated: the target closes its error channel before its stop channel; if it is resumed in between, it closes the stop channel of its successor, which then panics at its end (C196_panic_violated) or returns at once and never closes its error channel (C196_hang_violated). It holds if the earlier goroutine has returned by then (C196_careful_partial).
* Theorems: `C196_careful_partial`; negations with witnesses: `C196_panic_violated`, `C196_hang_violated`

### C197 Automatic resumption works with every way of linking the stages
* Model (`AutoResume`): Two concrete schedules and an invariant of what can follow; C195.
* Result: **partial**. Violated for LinkStagesCrissCross and LinkStagesDistribute: their goroutine evaluates the field ErrCh of the target when it is scheduled, possibly after the option has replaced it; then the previous stages are told of the end of a stage that is resumed (C197_end_violated), or an error is never received (C197_lost_violated). It holds for LinkStagesAt and LinkStagesFanOut (C197_early_partial).
* Theorems: `C197_early_partial`; negations with witnesses: `C197_end_violated`, `C197_lost_violated`

### C198 NewPipeline accepts exactly the pipelines that have a source at the beginning and a sink at the end
* Model (`PipeCheck`): The search for the first source and the first sink in a list of kinds.
* Result: **partial**. Violated: only the presence of a source and of a sink is checked, not where they are (C198_check says exactly what is); SourceStage and SinkStage then panic.
* Theorems: `C198_check`, `C198_ends_partial`; negations with witnesses: `C198_ends_violated`

### C199 The registered functions run before the process ends
* Model (`Exit`): Transition system of the two goroutines; invariant by induction over the steps.
* Result: **proved**. Functions that panic are not modelled; that Close of the journal can be called by both is C90.
* Theorems: `C199_all`

### C20 Sharding picks an existing worker or partition
* Model (`Batch`): `PartitionByIdMSB` and the worker choice of `NewManager`, bit by bit; arithmetic on 64-bit numbers.
* Result: **partial**. Proved for partition indices of up to 8 bits and for power-of-two worker counts (or more than 256); false for every other worker count (violated theorem).
* Theorems: `C20_partition_lt`, `C20_worker_exists_partial`; negations with witnesses: `C20_worker_exists_violated`

### C200 Exit code 0 means that everything was done
* Model (`Exit`): A concrete run; C199.
* Result: **partial**. Violated: the error of the deferred ShutdownFunction is dropped, the exit code is 0 (C200_status_violated). That the work itself has succeeded does hold (C200_status_partial).
* Theorems: `C200_status_partial`; negations with witnesses: `C200_status_violated`

### C201 Requests of the policy log never meet a closed database
* Model (`LogServe`): Transition system of Run, srvRun, the goroutine of Serve and the requests; invariant by induction over the steps.
* Result: **partial**. Violated if the listener fails: the deferred DBClose runs before the deferred GracefulStop. That the gRPC library stops as documented is an assumption.
* Theorems: `C201_db_partial`; negations with witnesses: `C201_db_violated`

### C202 Stopping the policy log by a signal is not reported as a failure
* Model (`LogServe`): Invariant of C201; a concrete run.
* Result: **partial**. Violated if the signal comes before Serve is called: Serve then returns ErrServerStopped. That this is the only case is C202_status_partial.
* Theorems: `C202_status_partial`; negations with witnesses: `C202_status_violated`

### C203 A signal ends the policy log
* Model (`LogServe`): A measure that every step of the log reduces; in a reachable state without a step the main goroutine has returned.
* Result: **proved**. That the library lets no request in after GracefulStop has begun is an assumption, stated in the model.
* Theorems: `C203_ends`

### C204 The number of certificates that ingest reports as written
* Model (`IngestStats`): JoinPipelinesRaw on lists of stages; no stage that is kept counts.
* Result: **partial**. Violated: joining the pipelines drops the only stage that counts, the number is always 0. True of the pipeline of files alone (C204_written_partial).
* Theorems: `C204_written_partial`; negations with witnesses: `C204_written_violated`

### C205 The percentages printed by ingest lie between 0 and 100
* Model (`IngestStats`): Single increments of every worker, in any interleaving; what each worker has in hand as invariant; rowTrace_stats links the increments to the model of C86.
* Result: **partial**. Violated: the whole is loaded before the part (C205_percent_violated). The counters themselves are in order at any time (C205_counters), and so is what is printed if no worker takes a step in between (C205_percent_partial).
* Theorems: `C205_percent_partial`, `C205_counters`, `rowTrace_stats`; negations with witnesses: `C205_percent_violated`

### C206 The rows counted by ingest are the rows of the files
* Model (`IngestStats`): Each increment done plus those still to do is constant; the increments of a worker without an error are one per row.
* Result: **proved**. Missing files that are skipped are announced too; then fewer than 100 percent are shown.
* Theorems: `C206_rows`

### C207 The stages of a pipeline joined by JoinPipelinesRaw
* Model (`JoinRaw`): Filters of lists.
* Result: **proved**. Linking the stages that remain is left to the caller; for ingest that is C76 and C148.
* Theorems: `C207_stages`, `C207_one`

### C208 A hasher that is used again
* Model (`Hasher`): Induction over the calls; the memory of the callers is explicit, with slices of the variables as arguments.
* Result: **proved**. The hash function itself is a parameter with results of 32 bytes. One goroutine at a time, as in the workers that own a hasher.
* Theorems: `C208_calls`, `C208_copy`, `C208_pieces`, `C208_fixed_lengths`

### C209 The options of stages, sources and sinks
* Model (`Options`): Every setting is a fold in which the last one counts.
* Result: **proved**. Functions, channels and slices in the options are numbers. What happens on Resume is that of the source option if there is one only; an example shows what remains of the first of two.
* Theorems: `C209_stage`, `C209_source`, `C209_source_resume`, `C209_sink`

### C21 A successful pruning removes exactly the expired chains
* Model (`DbSql`): `prune_expired` (recursive query as a fixpoint over the certs table), removals in the four tables; termination iff no expired cycle.
* Result: **proved**. The neighbouring property that does not hold in general is C136.
* Theorems: `C21_prune_result`

### C210 Sending to several channels at once
* Model (`SendAll`): Transition system of the goroutines, the wait group and the values received; invariant and measure.
* Result: **proved**. Channels are open, as those of the ingest processor are while it sends; a closed one would panic. That receivers come is up to the callers (C76, C96, C148).
* Theorems: `C210_at_most`, `C210_all`, `C210_offers`, `C210_ends`

### C211 The gRPC server starts, and stops when it is told
* Model (`GrpcServe`): Transition system with invariant: exactly the calls that wait or have returned nil have an open listener.
* Result: **partial**. False: neither the server nor the listener is closed, so that after StartWork has returned, always, queries go on being answered and the port stays taken. Proved: starting, and everything until it is told to stop. The gRPC library and failures of Serve (ignored by the code) are not modelled.
* Theorems: `C211_until_told_partial`, `C211_starts`; negations with witnesses: `C211_stops_violated`

### C212 Trees created by the admin client of the policy log
* Model (`Admin`): Induction over the calls.
* Result: **partial**. False: MaxRootDuration of the configuration is never used (the time to wait for answers is used instead, so that the interval cannot be zero, which stands for never); after an error a tree can remain on the log server without a file. Proved: name, description, kind and file, for all histories (C212_files assumes that the log server does not use an ID twice), and what an error leaves. The Trillian client and JSON are modelled by their effects.
* Theorems: `C212_created_partial`, `C212_files`, `C212_error_partial`; negations with witnesses: `C212_interval_violated`, `C212_error_violated`

### C22 Coalesced payload of a domain
* Model (`DbSql`): `calc_dirty_domains` chunk by chunk on the 32 partitions, recursive closure of parents.
* Result: **proved**. SQL is modelled by hand; the 32 workers run one after another.
* Theorems: `C22_coalesced_payload`, `C22_order_free`

### C23 No certificate is lost after a crash of the updater
* Model (`Db`): The insertion of certificates as a list of statements; crash after any prefix, then a second run.
* Result: **partial**. Proved for UpdateWithOverwrite; false for UpdateWithKeepExisting, which skips the stored but not yet linked certificates.
* Theorems: `C23_overwrite_recovers_partial`, `C23_new_certificates_arrive_partial`; negations with witnesses: `C23_crash_violated`

### C24 The recorded size of a CT log only moves forward, and fetching resumes there
* Model (`Updater`): The updater's window arithmetic and stored state, the retries of its caller, and the HTTP fetcher's goroutines (`UpdaterHttp`) as transition systems with an arbitrary server.
* Result: **proved**. The neighbouring property that does not hold in general is C137.
* Theorems: `C24_recorded_mono`, `C24_recorded_changes`, `C24_restart_at_recorded`, `C24_progress`, `C24_stored_changes`, `C24_http_progress`

### C25 HTTP fetcher retrieves exactly the requested range
* Model (`Fetch`): `getRawEntries`/`getEntriesInBatches`: server as an arbitrary answer function; induction with fuel made irrelevant by a measure.
* Result: **proved**. HTTP and parsing of entries are arbitrary functions. Without the condition of non-empty answers the fetcher asks for ever (C25_empty_answers_loop).
* Theorems: `C25_exact_range`, `C25_never_wrong`, `C25_empty_range`, `C25_empty_answers_loop`

### C26 The local fetcher ingests contiguous files
* Model (`Fetch`): Chain of files from the last size (`getGzFileChain`), ingestion limit, for every directory content.
* Result: **proved**. The neighbouring property that does not hold in general is C180.
* Theorems: `C26_initialize`, `C26_target`, `C26_nothing_new`, `C26_chain_unique`, `C26_duplicate_refused`

### C27 Batchers lose nothing
* Model (`Batch`): Certificate and domain batchers (ring of two slices) and the local fetcher's batcher; all schedules of stage and successor.
* Result: **proved**. Certificate and domain batcher under every schedule; the local fetcher's batcher as a function of the rows it receives.
* Theorems: `C27_batches_concat`, `C27_no_deadlock`, `C27_terminates`, `C27_local_batches`

### C28 Adding an interval to the journal covers exactly the union
* Model (`Journal`): `AddCompletedIndex`, merging of intervals; 64-bit arithmetic with wrap-around; set of covered indices as spec.
* Result: **proved**. The neighbouring property that does not hold in general is C138.
* Theorems: `C28_append_covers_union`, `C28_canonical_unique`, `C28_normalize_accepts`

### C29 PendingFiles is exact
* Model (`Journal`): Pending files against covered intervals.
* Result: **proved**. 
* Theorems: `C29_contains_iff_covered`, `C29_pending_exact`, `C29_pending_fails_iff`

### C30 The journal covers only what was processed
* Model (`Ingest`): Journal file and `run` over histories of runs with crash points before and after each write.
* Result: **proved**. The neighbouring property that does not hold in general is C181.
* Theorems: `C30_completed_was_processed`, `C30_updatedSMT_flag_true`, `C30_unprocessed_offered_again`

### C31 Recorded CT log size is backed by completed indices
* Model (`Ingest`): `completedCTLogSize` against the set of completed indices.
* Result: **partial**. Proved when the completed set starts at index 0; otherwise false (indices 10-19 give size 20).
* Theorems: `C31_recorded_size_partial`; negations with witnesses: `C31_recorded_size_violated`

### C32 Fast CSV parser agrees with the CSV column rules
* Model (`FastCsv`): Byte loop of `ParseRowFast` against an independent comma-split; `ParseLine` fallback.
* Result: **proved**. encoding/csv is a hypothesis for rows without quotes; base64 and certificate parsing after the split are not modelled.
* Theorems: `C32_fast_ok_iff`, `C32_quotes_fall_back`, `C32_hard_error_iff`, `C32_line_equals_columns`

### C33 File listing misses nothing
* Model (`ListFiles`): Recursive directory walk on all trees.
* Result: **partial**. Sound for all trees; complete when no file was collected before a 'bundled' sibling is visited; otherwise files are lost.
* Theorems: `C33_listing_sound`, `C33_listing_complete_partial`; negations with witnesses: `C33_listing_violated`

### C34 Every ingested certificate is linked to all its domains
* Model (`Batch`): Domain extractor with its cache of domain IDs over all certificate sequences.
* Result: **partial**. Proved for the first certificate of each domain; false for later ones: the cache remembers the domain only.
* Theorems: `C34_first_certificate_linked_partial`, `C34_every_domain_dirty_partial`, `C34_links_are_real`; negations with witnesses: `C34_second_certificate_violated`

### C35 Every certificate of every ingested chain is stored
* Model (`Chains`): `toChainWorker` with caches over the lines of a worker.
* Result: **partial**. Proved when the chain after a certificate is the same in all lines of the worker; false for cross-signed certificates. A leaf already seen as a parent loses its names. Parsing and base64 not modelled.
* Theorems: `C35_every_certificate_emitted_partial`, `C35_rows_are_real`, `C35_leaf_names_partial`; negations with witnesses: `C35_every_certificate_emitted_violated`, `C35_leaf_names_violated`

### C36 Ring buffers are not reused while in flight
* Model (`Batch`): Slices with backing arrays: batcher and next stage interleaved; what the next stage reads is what was batched.
* Result: **proved**. Slices modelled with backing arrays; batcher and next stage as a transition system.
* Theorems: `C36_batch_untouched`, `C36_batches_are_inputs`

### C37 Stage errors reach the caller
* Model (`Stage`): Pipelines of stages as transition systems (`processThisStage`, channels, error channels); invariants over all executions.
* Result: **partial**. Proved for process/end functions, every schedule, pipelines of any length, when outputs are sent with cycles allowed or one per call. False: errors of the streaming function are dropped; with two outputs per call the closed channel's nil overwrites the error received before.
* Theorems: `C37_own_error_reported_partial`, `C37_next_error_reported_partial`, `C37_pipeline_reports_partial`; negations with witnesses: `C37_next_error_violated`, `C37_stream_failure_violated`

### C38 Criss-cross links close their channel once, after all producers
* Model (`Stage`): `LinkStagesCrissCross`: producers, shared channel and closer as a transition system.
* Result: **proved**. 
* Theorems: `C38_closed_once`, `C38_finished_closed`, `C38_no_deadlock`

### C39 Sequential input reading is fair and complete
* Model (`StageIn`): `readIncomingSequentially`: round robin over the open channels; induction over the executions.
* Result: **proved**. 
* Theorems: `C39_sequential_fair_and_complete`, `C39_concurrent_complete`

### C40 Outputs reach their own channel exactly once
* Model (`StageSend`): The three sending modes (`sendOutputs*`): all schedules of receivers and errors.
* Result: **proved**. All three sending modes, every schedule.
* Theorems: `C40_exactly_once`, `C40_at_most_once`, `C40_no_panic`, `C40_stateless`

### C41 Presence cache is race free and monotone
* Model (`Presence`): Copy-on-write cache with atomic pointer and mutex; any number of goroutines.
* Result: **proved**. The neighbouring property that does not hold in general is C139.
* Theorems: `C41_complete`, `C41_sound`, `C41_race_free`, `C41_terminates`, `C41_contains_never_blocks`, `C41_no_deadlock`

### C42 Spin lock orders its workers
* Model (`Spin`): Spin lock with atomics; sequentially consistent steps.
* Result: **partial**. Proved when each worker uses the lock once; false if a worker locks again before the starter has noticed its UnLock.
* Theorems: `C42_mutex_partial`, `C42_order_partial`, `C42_wait_partial`, `C42_progress`; negations with witnesses: `C42_relock_violated`

### C43 Policy attribute decides subdomains as specified
* Model (`PolicyAttr`): `CheckDomainValidity` on names as label lists against a separate decision table.
* Result: **proved**. The neighbouring property that does not hold in general is C140.
* Theorems: `C43_check`, `C43_says_unique`, `C43_own_domain`, `C43_whole_subtree`, `C43_dotted_entry_ignored`

### C44 Attribute validation detects every duplicate
* Model (`PolicyAttr`): `ValidateAttributes`; duplicates over the three lists.
* Result: **proved**. 
* Theorems: `C44_validate`, `C44_unambiguous`

### C45 Owner signatures survive later signing and logging
* Model (`PolicyCert`): Signing and verifying policy certificates over arbitrary JSON/hash/RSA functions with stated laws.
* Result: **proved**. The neighbouring property that does not hold in general is C141.
* Theorems: `C45_signed_verifies`, `C45_sign_requires`, `C45_binding`, `C45_text_equal`

### C46 Issuer signature covers everything but itself
* Model (`PolicyCert`): As C45 for issuer signatures.
* Result: **proved**. The neighbouring property that does not hold in general is C142.
* Theorems: `C46_signed_verifies`, `C46_binding`, `C46_signer_hash`, `C46_separated`

### C47 Issuer constraints limit child certificates
* Model (`PolicyCert`): `VerifyIssuerConstraints` as written (including the inverted condition).
* Result: **partial**. The validity period is checked; the domain is not (the condition is inverted), nor CanIssue / CanOwn.
* Theorems: `C47_period_partial`, `C47_actual`; negations with witnesses: `C47_domain_violated`, `C47_rights_violated`

### C48 PCA serial numbers are unique
* Model (`Pca`): The CA's state (serial numbers, stored certificates) over all histories of calls.
* Result: **partial**. True of the requests the CA makes, in every history; false of the certificates it signs.
* Theorems: `C48_requests_increase_partial`, `C48_serial_of_request`; negations with witnesses: `C48_duplicate_violated`

### C49 PCA recognises owners it certified
* Model (`Pca`): Lookup of earlier certificates by key.
* Result: **partial**. False: stored under the hash of the public key, looked up under the hash of the certificate's text.
* Theorems: `C49_recognised_partial`; negations with witnesses: `C49_not_recognised_violated`, `C49_own_certificate_violated`, `C49_cool_off_violated`, `C49_blocked_violated`

### C50 PCA stores only fully logged certificates
* Model (`Pca`): `SignAndLogRequest` with answers of the log servers.
* Result: **proved**. The neighbouring property that does not hold in general is C143.
* Theorems: `C50_success`, `C50_failure_unchanged`, `C50_certificate_verifies`, `C50_complete`, `C50_nil_spct_panics`

### C51 Log inclusion verification
* Model (`LogVerifier`): `VerifyInclusionByHash` over a list of proofs; the Merkle library is a parameter.
* Result: **proved**. The verification of a single proof (transparency-dev/merkle) is a parameter.
* Theorems: `C51_accepted_iff`, `C51_empty`, `C51_no_panic`, `C51_with_previous_root`

### C52 Domain name parsing
* Model (`Domain`): `ParseDomainName`, `IsValidDomain`, `SplitE2LD` on byte strings for every public suffix list.
* Result: **proved**. For every public suffix list that satisfies IsPsl. C52_www_violated is a finding: the valid name www.com is refused, because the www. label is removed before the e2LD is determined.
* Theorems: `C52_parse`, `C52_last`, `C52_suffix_chain`, `C52_accepts`, `C52_valid`; negations with witnesses: `C52_www_violated`

### C53 Affected domains are suffixes of the names
* Model (`Domain`): `ExtractAffectedDomains` with the map iteration order as a parameter; longest common suffix.
* Result: **proved**. The neighbouring property that does not hold in general is C182.
* Theorems: `C53_count`, `C53_sound`, `C53_longest`

### C54 Error coalescing keeps every message once
* Model (`Util`): `ErrorsCoalesce`.
* Result: **proved**. The neighbouring property that does not hold in general is C183.
* Theorems: `C54_nil_iff_no_error`, `C54_lists_every_message_once`, `C54_coalesce_assoc`

### C55 Qsort sorts
* Model (`Util`): `Qsort` with every choice of pivots.
* Result: **proved**. 
* Theorems: `C55_qsort_sorts`

### C56 Deduplication keeps parallel slices aligned
* Model (`Util`): `DeduplicateSlice` and its deduplicators on parallel slices.
* Result: **proved**. 
* Theorems: `C56_dedup_aligned`

### C57 Integer logarithm and power
* Model (`Util`): `Log2`, `Pow` on integers.
* Result: **proved**. Integer types; floats not modelled.
* Theorems: `C57_log2_least`, `C57_pow_unsigned`, `C57_pow_signed`

### C58 Duration text round-trips
* Model (`Util`): `FmtDuration`/`ParseDuration` on texts.
* Result: **proved**. 
* Theorems: `C58_duration_roundtrip`

### C59 CertReader returns every certificate in order
* Model (`CertReader`): PEM reader state machine over arbitrary readers.
* Result: **partial**. pem.Decode and certificate parsing are parameters with a stated stability assumption. Proved while the reader below does not fail; false after a parsing error (certificates parsed by that call are lost) and after a temporary error of the reader below.
* Theorems: `C59_read_partial`, `C59_error_sound`, `C59_read_ends`, `C59_read_all`; negations with witnesses: `C59_error_loses_violated`, `C59_reader_error_repeats_violated`, `C59_reader_error_loses_violated`

### C60 What ToJSON writes, and what FromJSON keeps
* Model (`PolicyJson`): Tagged JSON of policy objects over an arbitrary encoder with stated laws.
* Result: **proved**. The neighbouring property that does not hold in general is C184.
* Theorems: `C60_writes`, `C60_type_and_raw`, `C60_raw`

### C61 AddLeaves ends
* Model (`LogClient`): Leader and workers of `AddLeaves` as a transition system.
* Result: **proved**. The neighbouring property that does not hold in general is C185.
* Theorems: `C61_terminates`

### C62 Every caller of PruneAndUpdate gets the result of its own update
* Model (`UpdateLoop`): Update loop, callers and cancellation of the map server as a transition system.
* Result: **proved**. The neighbouring property that does not hold in general is C144.
* Theorems: `C62_own_result`

### C63 Daily schedule
* Model (`Util`): `NextTimeOfDay` with time zones as offsets.
* Result: **partial**. Proved when the local zone is UTC and the wrapped instant is in the past; false otherwise (mixes local date and UTC).
* Theorems: `C63_next_time_of_day_partial`, `C63_next_any_zone_partial`; negations with witnesses: `C63_next_time_of_day_violated`, `C63_future_violated`

### C64 Slice removal helpers
* Model (`Util`): `RemoveElementsFromSlice`, `RemoveElemFromSlice` (swap with the last).
* Result: **proved**. 
* Theorems: `C64_remove_elements`, `C64_remove_one`

### C65 Journal interval text round-trips
* Model (`Journal`): `parseIntervalString` and `String` on byte strings.
* Result: **proved**. 
* Theorems: `C65_interval_text_roundtrip`, `C65_interval_text_sound`

### C66 Trie.Update never hashes two empty children
* Model (`Smt`): Panic of `interiorHash` made explicit in the model; shown unreachable.
* Result: **proved**. 
* Theorems: `C66_no_panic`

### C67 ParseDuration returns what the text denotes or an error
* Model (`Util`): `ParseDuration` on byte strings.
* Result: **partial**. False for malformed numbers and overflow, which are accepted silently.
* Theorems: `C67_parse_denotes_partial`; negations with witnesses: `C67_parse_violated`

### C68 An unreadable CSV file makes its batch fail
* Model (`StageIn`): CSV split worker with failing readers.
* Result: **partial**. Open errors are reported; read errors never are (streaming function's error is dropped), in any schedule.
* Theorems: `C68_open_error_reported_partial`; negations with witnesses: `C68_read_error_violated`

### C69 UpdateSMT applies exactly the dirty domains, whatever the bundle size
* Model (`Dirty`): `UpdateSMT` bundle by bundle as a history of C01.
* Result: **partial**. Proved when every dirty domain has a payload; false when a removed domain lies between two others of its bundle (consequence of C01_map_semantics_violated). On the tree, not on the stored nodes (C10).
* Theorems: `C69_update_smt_partial`, `C69_root_bundle_independent_partial`; negations with witnesses: `C69_update_smt_violated`

### C70 Payloads match the tables after every history
* Model (`DbHist`): Invariant over histories of all table operations.
* Result: **partial**. Proved for histories in which nothing stored refers to a certificate before it is stored; false otherwise: pruning keeps the links of removed certificates, and a certificate that comes back in a chain does not make its domain dirty.
* Theorems: `C70_payloads_match_partial`, `C70_coalesced_all_right_partial`; negations with witnesses: `C70_reinserted_violated`

### C71 FetchInclusions accounts for every leaf
* Model (`LogClient`): Leader and workers of `FetchInclusions`.
* Result: **proved**. The neighbouring property that does not hold in general is C145.
* Theorems: `C71_fetch_inclusions`, `C71_query_sound`

### C72 QueueRPCs loses no policy certificate and ends
* Model (`LogClient`): `QueueRPCs` with folder contents and log growth.
* Result: **partial**. False if a file cannot be decoded, or the log grows past the expected size or stays below it.
* Theorems: `C72_read_all_partial`, `C72_wait_partial`; negations with witnesses: `C72_lost_violated`, `C72_wait_violated`

### C73 A policy CA signs only inside its own validity
* Model (`Pca`): As C48.
* Result: **partial**. Checked when the CA makes a request, not when it signs one.
* Theorems: `C73_created_partial`, `C73_owner_signature`; negations with witnesses: `C73_signed_violated`

### C74 Equal of policy certificates means equal contents
* Model (`PolicyEqual`): `Equal` on structures with nil/empty slices and times (instant, zone, monotonic reading).
* Result: **proved**. The neighbouring property that does not hold in general is C146.
* Theorems: `C74_equal_iff`, `C74_certificate_roundtrip`, `C74_equivalence`

### C75 Stalling a pipeline
* Model (`Stall`): `WithStallStages`: two mutexes, wait group, any number of stages and releasers; invariants and a measure.
* Result: **proved**. The neighbouring property that does not hold in general is C147.
* Theorems: `C75_exclusion`, `C75_no_panic`, `C75_no_deadlock`, `C75_terminates`, `C75_once`

### C76 The link between the ingest pipelines routes every certificate
* Model (`Bridge`): `getNewLinkFunction`: producers, forwarders, DB stages, error readers; routing, error and termination invariants.
* Result: **proved**. The neighbouring property that does not hold in general is C148.
* Theorems: `C76_routing`, `C76_nothing_else`, `C76_terminates`, `C76_delivers`, `C76_error_reported`, `C76_error_sound`

### C77 The rows of certificates, links and dirty domains loaded into the DB are the records written
* Model (`CsvLoad`): The two CSV writers, base64 and date formatting; MySQL's `LOAD DATA` reader and `FROM_BASE64` modelled from their documentation; induction on fields and rows.
* Result: **proved**. The neighbouring property that does not hold in general is C149.
* Theorems: `C77_certs`, `C77_expiration`, `C77_dirty`, `C77_domain_certs`, `C77_written`, `C77_update_certs`

### C78 The payload API returns only stored payloads
* Model (`PayloadApi`): Parsing of the parameter, the three queries (rows in any order, cut at any point), the JSON body and its reader; induction on the IDs and rows; composed with the histories of C70.
* Result: **proved**. The neighbouring property that does not hold in general is C150.
* Theorems: `C78_payloads_are_stored`, `C78_request_roundtrip`, `C78_request_accepted`, `C78_request_meaning`, `C78_body_roundtrip`, `C78_malformed_rejected`, `C78_routes`

### C79 Pruning that fails does no harm
* Model (`Prune`): Times as instants with a zone offset; the stored procedure statement by statement with an injected failure and the session's temporary table; uses C21 and the histories of C70.
* Result: **proved**. The neighbouring property that does not hold in general is C151.
* Theorems: `C79_zone_shift`, `C79_success`, `C79_failure_keeps_consistency`, `C79_failure_all_or_nothing`

### C80 RunWhen never runs the function too often or twice at once
* Model (`Ticker`): The goroutine as a recursion over runs with given durations and select choices; induction on the run number.
* Result: **proved**. The neighbouring property that does not hold in general is C152.
* Theorems: `C80_first_run`, `C80_never_too_often`, `C80_next_run`, `C80_tick_or_late`, `C80_ended_forever`

### C81 The map server stops when told to
* Model (`Lifecycle`): Transition system of Listen calls, their stop goroutines, Shutdown calls and the signal handler; invariants over all event lists.
* Result: **partial**. Proved if no Listen failed before. False: a failed Listen leaves a goroutine that can take the order meant for a later one; a second Shutdown can block; after a signal the program never ends cleanly, since nothing calls Shutdown, and panics after 10 s.
* Theorems: `C81_shutdown_stops_partial`, `C81_no_return_without_shutdown`, `C81_shutdown_returns_partial`, `C81_signal_panics`; negations with witnesses: `C81_lost_order_violated`, `C81_second_shutdown_violated`, `C81_signal_violated`

### C82 Temporary CSV files: the right file, and no other
* Model (`TempFile`): Byte-level model of CreateTempFile and of the rings of name buffers; transition system of all workers (create, load, remove) on one file system with failures; invariant: a name in flight is in a slot handed out at most three rotations ago, so it is not overwritten.
* Result: **proved**. The neighbouring property that does not hold in general is C153.
* Theorems: `C82_right_file`, `C82_file_system`, `C82_names`, `C82_file_is_there`, `C82_fails_only`, `C82_ends`, `C82_progress`, `C82_create_temp_file`

### C83 The DB connection is the one that was configured
* Model (`DbConf`): Models of NewConfig and its modifiers, Connect, net/url's Parse/Encode/String and the driver's ParseDSN on bytes; round-trip lemmas for escaping, splitting and cutting at the last separator.
* Result: **partial**. net/url and the driver's ParseDSN are modelled as far as used (no fragments, no URL authority). Proved for names of ordinary characters (passwords: all but control characters, ? and #). False: a port without a password always fails, a user with upper case letters or an underscore cannot be used with a password, MYSQL_PASSWORD, MYSQL_HOST and MYSQL_PORT have no effect in ingest, WithUser before WithEnvironment has no effect.
* Theorems: `C83_settings`, `C83_socket_partial`, `C83_tcp_partial`, `C83_password_partial`, `C83_connect_again`, `C83_db_name`, `C83_ingest_partial`; negations with witnesses: `C83_with_user_order_violated`, `C83_password_ignored_violated`, `C83_port_violated`, `C83_upper_case_user_violated`, `C83_underscore_user_violated`, `C83_question_mark_violated`, `C83_explicit_dsn_violated`

### C84 Interrupting ingest
* Model (`Interrupt`): Two-goroutine transition system (signal handler, main) with a channel of capacity 1; one inductive invariant, two termination measures, a concrete witness for the lost signal.
* Result: **proved**. The neighbouring property that does not hold in general is C154.
* Theorems: `C84_handler_progress`, `C84_handler_ends`, `C84_usr1_harmless`, `C84_no_batch_after_cancel`, `C84_main_ends`, `C84_main_progress`, `C84_completed_prefix`, `C84_exit_codes`, `C84_message`

### C85 A pipeline without failures delivers everything and ends
* Model (`Pipe`): Transition system of all goroutines of any acyclic network of stages; termination by a lexicographic measure over the stages; no deadlock by inductive invariants and induction from the last stage to the first; completeness of outputs by an invariant that relates what was received to what the functions return; concrete witnesses for the hangs, with a lemma that the candidate events are all events.
* Result: **proved**. The neighbouring property that does not hold in general is C155.
* Theorems: `C85_terminates`, `C85_success_no_deadlock`, `C85_success_complete`, `C85_errors_real`, `C85_chain_no_deadlock`, `C85_updater_success`

### C86 CSV files become the certificates written in them
* Model (`Rows`): Model of the split worker, of encoding/csv on one row, base64, ParseInt, time.After and both parseLine functions; round trip from an independent CSV writer by induction over columns, rows and files; refinement of the C35 model (whose theorems are lifted to files and any distribution of lines); any file content by induction over its length.
* Result: **proved**. The neighbouring property that does not hold in general is C175.
* Theorems: `C86_csv_reader`, `C86_row`, `C86_file`, `C86_line`, `C86_any_file`, `C86_error_cause`, `C86_error_reported`, `C86_workers_agree`, `C86_counters`

### C87 The local log fetcher delivers every row once and ends
* Model (`LocalFetch`): Transition system of the file readers, parsers, batcher and caller. Invariant: the rows received, held by parsers and still to be read are a permutation of those of the files; the batches sent are a prefix of those of the sequential batcher of C27; a weight decreases with each step; progress by cases. Rows are linked to the entries of C86.
* Result: **proved**. The neighbouring property that does not hold in general is C156.
* Theorems: `C87_delivered`, `C87_safe`, `C87_terminates`, `C87_progress`, `C87_completes`, `C87_row`, `C87_entries`

### C88 Roots and signatures of an answer were saved, and are fresh
* Model (`TreeHead`): Transition system of the fields smt and signedTreeHead, the reloading goroutine, requests in steps and the updater. Invariants over all executions: signature and tree agree when no reload is in its last steps; versions only grow; provenance of every value by induction over prefixes of the execution.
* Result: **proved**. The neighbouring property that does not hold in general is C157.
* Theorems: `C88_consistent`, `C88_fresh`, `C88_authentic`, `C88_failed_load`, `C88_http`

### C89 An update of the trie by worker goroutines ends
* Model (`SmtPar`): `update` as a program of single reads and writes on a shared memory with fork and join; goroutines interleave step by step. Generic theorems: if the sequential run is safe (both sides of every fork stay in disjoint parts of the memory) every schedule has its result; no infinite schedule; progress; count of workers. The sequential run is shown safe and equal to the model of C10 by weakest preconditions and induction over the height; the parts of the two sides are disjoint since digests of trees with different leaves differ.
* Result: **proved**. The neighbouring property that does not hold in general is C158.
* Theorems: `C89_workers`, `C89_ends`, `C89_no_deadlock`, `C89_can_end`

### C90 The journal file is replaced atomically
* Model (`JournalFile`): Transition system of system calls on a file system with a log of directory operations (a machine crash keeps a prefix) and files with a synced flag. Invariant over all prefixes of the log: the files ever named as the journal are synced and complete, and belong to no write in progress. What a starting process finds only grows, by induction over the run.
* Result: **proved**. The neighbouring property that does not hold in general is C159.
* Theorems: `C90_complete`, `C90_readable`, `C90_error_changes_nothing`, `C90_other_files`, `C90_closed`, `C90_close_closes`, `C90_call_saves`, `C90_commit_grows`

### C91 From submissions to verified answers
* Model (`EndToEnd`): One transition system over the tables, the saved tree and the served tree, built from the models of the parts. Invariant: payload rows of names not waiting are right, and the tree agrees with the payload of every name that is not dirty. For histories without pruning, the tables are shown to hold exactly what was submitted, by induction over the history; the closure over parents is then the submitted chain.
* Result: **partial**. C91_end_to_end_partial is the full statement for histories without pruning and interruptions whose submissions agree (one issuer per certificate; a certificate is not both a leaf with names and part of a chain; one subject per policy). With interruptions anywhere but without pruning, and with pruning for steps that do not run into the known problems of C05 and C70 (Safe), the answers are exactly what the tables hold. False in general: if the first insertion stops half way, or all certificates expire, UpdateSMT panics (SMT tree root is nil), now and at every later update.
* Theorems: `C91_answers_partial`, `C91_answers_insert_only_partial`, `C91_end_to_end_partial`, `C91_no_panic_partial`, `C91_update_completes_partial`, `C91_panic_iff_partial`; negations with witnesses: `C91_interrupted_violated`, `C91_prune_all_violated`

### C92 What the journal recorded stays recorded
* Model (`JournalMem`): Slices with their arrays; every in-place step refines the list operation of C28 and changes no other array (frame); all slices of all jobs own different arrays (invariant of opening, cloning and committing). Across runs: every write of a run is the re-read jobs plus one, and re-reading keeps flags and index sets.
* Result: **proved**. The neighbouring property that does not hold in general is C160.
* Theorems: `C92_in_place`, `C92_in_place_result`, `C92_earlier_jobs_untouched`, `C92_append_in_place`, `C92_readable`, `C92_history_kept`, `C92_one_job_per_run`

### C93 A domain owner can obtain and renew a policy certificate
* Model (`Owner`): Histories of registrations and requests; the map holds exactly what was registered last (induction on histories); signatures by C45, C46 and C50.
* Result: **partial**. Proved: contents and signatures of requests and issued certificates, for all histories. False: the new private key is not kept anywhere, the certificate may not own, so no renewal can be signed with it, it has no policies, serial number 0, and expires after one microsecond.
* Theorems: `C93_request_partial`, `C93_available_partial`, `C93_issued_partial`; negations with witnesses: `C93_renewal_violated`, `C93_key_lost_violated`, `C93_useless_violated`

### C94 Time stamps of log servers bind the certificate
* Model (`Owner`): The signed input is an injective text of version, log, time and the certificate's text; the two issuer signatures of one issue differ because the signed texts differ.
* Result: **proved**. The neighbouring property that does not hold in general is C161.
* Theorems: `C94_signed_verifies`, `C94_binding`

### C95 recordctsize: one key for one directory, and no other state changes
* Model (`CtSize`): filepath.Clean and Base on lists of parts; a specification that walks along a path; induction on the parts shows the normal form (parents, then names) and where it leads; REPLACE INTO on a table by hash.
* Result: **proved**. The neighbouring property that does not hold in general is C186.
* Theorems: `C95_clean_same_place`, `C95_same_place_same_key`, `C95_key_is_name`, `C95_only_derived`

### C96 The part of ingest that reads files
* Model (`Layers`): a network of layers; per step invariants over all interleavings (who has heard which error, where every value is), progress from the least stage that is not at its end, a lexicographic measure; values that never occur are cut off (LayersOn), then C86 for the functions of ingest.
* Result: **partial**. Proved: termination, no deadlock, nil means that no stage function failed, exactly the produced values arrive, and with the row parser of C86 the certificates of all entries come out (if chains are consistent, C35). False: nil although a row could not be parsed and the rest of its file was not read; with three failures in a layer an error is lost and a goroutine stays for ever.
* Theorems: `C96_terminates`, `C96_success_no_deadlock`, `C96_success_complete`, `C96_wait_returns_partial`, `C96_nil_success_partial`, `C96_errors_real`, `C96_ingest_returns`, `C96_ingest_lines`, `C96_ingest_certs_partial`; negations with witnesses: `C96_leak_violated`, `C96_bad_row_violated`

### C97 A source that gives the values of a slice
* Model (`Source`): feeders, channels and the shared field as a transition system; an invariant that splits the feeders into those of earlier runs and the current one.
* Result: **partial**. True if Resume is called only while every earlier feeder has ended or is blocked in a send, in particular if every run went to its end. False otherwise: the feeder of a run that was given up mixes its values into the next run, closes its channel, and the program can panic; a blocked feeder stays for ever.
* Theorems: `C97_values_partial`, `C97_progress_partial`, `C97_ended_quiet`; negations with witnesses: `C97_mixed_violated`, `C97_panic_violated`, `C97_leak_violated`

### C98 Certificates and keys written as PEM texts are read back
* Model (`Pem`): pem.Encode and pem.Decode as functions on byte lists; a complete block is found, an incomplete one is not, wherever the text is cut; discharges the assumption of C59.
* Result: **proved**. The neighbouring property that does not hold in general is C172.
* Theorems: `C98_stable`, `C98_round_trip`, `C98_other_blocks`, `C98_first`, `C98_key`, `C98_public`

### C99 Two pipelines joined by JoinTwoPipelines
* Model (`Join`): the two goroutines and the channel as a transition system; an invariant with a potential for the good case, invariants of hanging for the others.
* Result: **partial**. True of the first run if nothing fails. False otherwise: an error of the sink's function always makes Wait hang, since the channel is not closed; if the second pipeline ends early the sink can hang in its send; a second Resume panics after a good run, and after a failed one delivers every value twice and panics at the end.
* Theorems: `C99_values_partial`, `C99_ends_partial`; negations with witnesses: `C99_sink_error_violated`, `C99_second_stops_violated`, `C99_resume_panics_violated`, `C99_resume_twice_violated`

## Axioms each theorem depends on

From `#print axioms` on every theorem of `MANIFEST.json`. No axiom is declared in the project.

* **no axioms** (28): `Reset.C116_reset_partial`, `Reset.C116_reset_violated`, `LocalList.C125_missing_folder_violated`, `LocalList.C125_unreadable_violated`, `LogClient.C71_empty_violated`, `Prune.C79_zone_violated`, `Prune.C79_zone_west_violated`, `Prune.C79_equal_violated`, `Prune.C79_retry_violated`, `Ticker.C80_duration_matters_violated`, `Ticker.C80_zero_interval_violated`, `Bulk.C123_inverted_range_violated`, `Bulk.C124_refused_partial`, `LogHead.C129_size_partial`, `Retrieve.C119_dirty_list_partial`, `LogClient.C61_no_leaves_violated`, `Admin.C212_error_violated`, `Fetch.C25_empty_range`, `Batch.C27_no_deadlock`, `Pca.C50_failure_unchanged`, `Pca.C50_nil_spct_panics`, `LogVerifier.C51_empty`, `LogVerifier.C51_no_panic`, `Util.C63_next_time_of_day_violated`, `Util.C63_future_violated`, `LogClient.C71_query_sound`, `PayloadApi.C78_routes`, `Owner.C94_signed_verifies`
* **propext** (102): `Smt.C01_map_semantics_violated`, `Smt.C02_root_of_content_violated`, `Smt.C03_shift_violated`, `Smt.C05_non_inclusion_complete_violated`, `Smt.C06_inclusion_sound_violated`, `Smt.C07_single_leaf_violated`, `Smt.C07_zero_byte_violated`, `SmtStore.C110_no_keys_violated`, `E2E.C115_no_panic`, `Reset.C116_schema_check_violated`, `Responder.C12_presence_needs_root`, `Responder.C12_ids_violated`, `Bulk.C124_one_for_each_line`, `CsvFile.C127_split`, `LogHead.C129_sequential`, `LogHead.C129_call`, `StopFetch.C131_restart_violated`, `StopFetch.C131_abandoned_violated`, `StopFetch.C131_twice_violated`, `StopFetch.C131_empty_violated`, `Presence.C41_size_violated`, `Policy.C45_not_utf8_violated`, `Policy.C45_destroys_violated`, `Policy.C46_destroys_violated`, `UpdateLoop.C62_reload_error_reached`, `UpdateLoop.C62_stale_after_return_violated`, `UpdateLoop.C62_cancel_panics_violated`, `Policy.C74_revocation_violated`, `Stall.C75_stream_violated`, `CsvLoad.C77_backslash_violated`, `PayloadApi.C78_empty_violated`, `PayloadApi.C78_both_tables_violated`, `Interrupt.C84_signal_lost_violated`, `Interrupt.C84_signal_lost_completes`, `Pipe.C85_early_violated`, `Pipe.C85_nil_violated`, `TreeHead.C88_quiet_partial`, `TreeHead.C88_reload_violated`, `TreeHead.C88_mixed_violated`, `TreeHead.C88_sign_failure_violated`, `TreeHead.C88_unavailable_violated`, `Bulk.C124_stored_nowhere_violated`, `Db.C17_policies_partial`, `LogHead.C129_concurrent_partial`, `LogHead.C129_unchecked_violated`, `LogHead.C129_race_violated`, `Pem.C98_cut_violated`, `Util.C54_nil_violated`, `LogClient.C61_spurious_violated`, `CtSize.C95_regress_violated`, `Bench.C191_refused`, `AutoResume.C196_panic_violated`, `AutoResume.C196_hang_violated`, `AutoResume.C197_end_violated`, `PipeCheck.C198_ends_violated`, `Exit.C199_all`, `LogServe.C201_db_violated`, `LogServe.C202_status_violated`, `IngestStats.C207_one`, `Options.C209_source_resume`, `FastCsv.C32_quotes_fall_back`, `ListFiles.C33_listing_sound`, `ListFiles.C33_listing_complete_partial`, `Batch.C34_links_are_real`, `Batch.C34_second_certificate_violated`, `Stage.C37_next_error_violated`, `Spin.C42_relock_violated`, `PolicyAttr.C43_says_unique`, `Policy.C45_text_equal`, `Policy.C46_signer_hash`, `Policy.C46_separated`, `Pca.C49_cool_off_violated`, `Pca.C49_blocked_violated`, `Util.C54_coalesce_assoc`, `CertReader.C59_error_loses_violated`, `CertReader.C59_reader_error_repeats_violated`, `CertReader.C59_reader_error_loses_violated`, `Smt.C66_no_panic`, `Dirty.C69_update_smt_violated`, `LogClient.C72_read_all_partial`, `LogClient.C72_lost_violated`, `LogClient.C72_wait_violated`, `Pca.C73_owner_signature`, `CsvLoad.C77_written`, `Prune.C79_success`, `Lifecycle.C81_second_shutdown_violated`, `Lifecycle.C81_signal_panics`, `Interrupt.C84_handler_progress`, `Interrupt.C84_handler_ends`, `Interrupt.C84_main_progress`, `Rows.C86_workers_agree`, `TreeHead.C88_consistent`, `TreeHead.C88_failed_load`, `TreeHead.C88_http`, `Owner.C93_available_partial`, `Owner.C93_key_lost_violated`, `Owner.C94_binding`, `CtSize.C95_only_derived`, `Source.C97_mixed_violated`, `Source.C97_panic_violated`, `Join.C99_second_stops_violated`, `Join.C99_resume_twice_violated`
* **propext, Quot.sound** (213): `Smt.C03_root_binds_content_partial`, `Smt.C06_inclusion_sound_partial`, `Smt.C07_non_inclusion_sound_partial`, `SmtStore.C10_same_root_violated`, `SmtStore.C10_part_noop_violated`, `SmtStore.C10_undo_violated`, `SmtStore.C10_twins_violated`, `Config.C100_constructor`, `Config.C100_roundtrip`, `Config.C100_shortest`, `MerkleLog.C107_shrunk`, `Pending.C108_names`, `Pending.C108_estimate`, `SmtStore.C109_missing_violated`, `SmtStore.C109_past_violated`, `SmtStore.C109_error_violated`, `SmtStore.C11_crash_violated`, `SmtStore.C11_stuck_violated`, `SmtStore.C11_rerun_violated`, `SmtStore.C10_undo_violated`, `SmtStore.C111_atomic_violated`, `Coalesce.C112_call`, `SmtStore.C113_across_violated`, `SmtStore.C114_rows_violated`, `Reset.C116_new_log`, `Reset.C116_old_policies_return_violated`, `Retrieve.C119_entries`, `Retrieve.C119_page`, `Retrieve.C119_collect`, `Responder.C12_presence_partial`, `Responder.C12_ids_partial`, `Responder.C12_absence_partial`, `Bulk.C123_empty_range`, `Bulk.C124_refused`, `LogHead.C130_from_empty`, `StopFetch.C131_leak_violated`, `Updater.C24_recorded_complete_partial`, `Updater.C24_stale_fetch_violated`, `Journal.C28_canonical_violated`, `Ids.C14_ids_roundtrip`, `Ids.C14_bytes_roundtrip`, `Ids.C14_glue_total`, `Ids.C14_glue_eq_iff_perm`, `Ids.C14_hash_binds`, `Ids.C14_hash_order_free`, `Pca.C50_config_partial`, `Pca.C50_same_key_violated`, `UpdateLoop.C62_serves_partial`, `UpdateLoop.C62_reload_error_violated`, `LogClient.C71_query_ends_partial`, `CsvLoad.C77_domains_partial`, `CsvLoad.C77_update_domains_partial`, `CsvLoad.C77_injection_violated`, `CsvLoad.C77_quote_violated`, `CsvLoad.C77_comma_violated`, `Dirty.C15_smt_input`, `Ticker.C80_on_time_partial`, `Ticker.C80_cancel_partial`, `Ticker.C80_cancelled_early_violated`, `Ticker.C80_cancelled_late_violated`, `Pipe.C85_updater_hang_violated`, `Pipe.C85_fanin_violated`, `TreeHead.C88_available_partial`, `JournalMem.C92_text_violated`, `JournalMem.C92_text_collapse_violated`, `Owner.C94_issued_partial`, `Owner.C94_in_certificate_violated`, `Owner.C94_unchecked_violated`, `LogHead.C129_size_violated`, `LogHead.C129_delivered_violated`, `Pem.C98_none_violated`, `Retrieve.C119_backwards_violated`, `Retrieve.C119_dirty_list_violated`, `Retrieve.C119_parallel_violated`, `Rows.C86_line_break_violated`, `Rows.C86_far_future_violated`, `Again.C176_careful`, `Again.C176_ends`, `Again.C176_wait`, `Again.C177_panic_violated`, `Again.C177_hang_violated`, `Smt.C08_empty_trie_violated`, `Fetch.C26_inverted_range_violated`, `Util.C54_nil_iff_all_nil_partial`, `LogClient.C61_add_leaves_partial`, `LogClient.C61_no_workers_violated`, `CtSize.C95_handover_partial`, `CtSize.C95_underscore_violated`, `Coalesce.C112_writer_violated`, `Chains.C19_unfold_complete`, `Chains.C19_aligned`, `Chains.C19_once_violated`, `BenchStats.C194_median`, `BenchStats.C194_iqr`, `AutoResume.C195_errors`, `AutoResume.C195_end`, `AutoResume.C196_careful_partial`, `AutoResume.C197_early_partial`, `AutoResume.C197_lost_violated`, `Batch.C20_partition_lt`, `Exit.C200_status_partial`, `Exit.C200_status_violated`, `LogServe.C201_db_partial`, `LogServe.C202_status_partial`, `LogServe.C203_ends`, `IngestStats.rowTrace_stats`, `Hasher.C208_calls`, `Hasher.C208_copy`, `Hasher.C208_pieces`, `Hasher.C208_fixed_lengths`, `Options.C209_stage`, `Options.C209_source`, `Options.C209_sink`, `SendAll.C210_ends`, `Admin.C212_created_partial`, `Admin.C212_files`, `Admin.C212_error_partial`, `Admin.C212_interval_violated`, `Updater.C24_recorded_mono`, `Updater.C24_recorded_changes`, `Updater.C24_restart_at_recorded`, `Updater.C24_stored_changes`, `Fetch.C25_empty_answers_loop`, `Fetch.C26_chain_unique`, `Fetch.C26_duplicate_refused`, `Ingest.C29_pending_fails_iff`, `Ingest.C31_recorded_size_partial`, `FastCsv.C32_fast_ok_iff`, `FastCsv.C32_hard_error_iff`, `FastCsv.C32_line_equals_columns`, `Batch.C34_first_certificate_linked_partial`, `Batch.C34_every_domain_dirty_partial`, `Chains.C35_rows_are_real`, `Chains.C35_every_certificate_emitted_violated`, `Chains.C35_leaf_names_violated`, `Stage.C37_own_error_reported_partial`, `Stage.C37_next_error_reported_partial`, `Stage.C37_pipeline_reports_partial`, `Stage.C37_stream_failure_violated`, `Stage.C38_no_deadlock`, `Presence.C41_terminates`, `Presence.C41_contains_never_blocks`, `Spin.C42_mutex_partial`, `Spin.C42_order_partial`, `Spin.C42_wait_partial`, `Spin.C42_progress`, `PolicyAttr.C43_check`, `PolicyAttr.C43_own_domain`, `PolicyAttr.C43_whole_subtree`, `PolicyAttr.C43_dotted_entry_ignored`, `PolicyAttr.C44_validate`, `PolicyAttr.C44_unambiguous`, `Pca.C48_serial_of_request`, `Pca.C49_not_recognised_violated`, `Pca.C50_success`, `Pca.C50_complete`, `LogVerifier.C51_accepted_iff`, `LogVerifier.C51_with_previous_root`, `Domain.C53_longest`, `Util.C54_nil_iff_no_error`, `Util.C54_lists_every_message_once`, `Util.C57_log2_least`, `Util.C57_pow_unsigned`, `Util.C57_pow_signed`, `UpdateLoop.C62_own_result`, `Util.C63_next_time_of_day_partial`, `Util.C63_next_any_zone_partial`, `Util.C64_remove_one`, `Stage.C68_open_error_reported_partial`, `Stage.C68_read_error_violated`, `LogClient.C71_fetch_inclusions`, `LogClient.C72_wait_partial`, `Pca.C73_created_partial`, `Bridge.C76_nothing_else`, `CsvLoad.C77_certs`, `CsvLoad.C77_dirty`, `CsvLoad.C77_domain_certs`, `CsvLoad.C77_update_certs`, `Prune.C79_zone_shift`, `Prune.C79_failure_keeps_consistency`, `Ticker.C80_first_run`, `Ticker.C80_never_too_often`, `Ticker.C80_ended_forever`, `Lifecycle.C81_shutdown_stops_partial`, `Lifecycle.C81_no_return_without_shutdown`, `Lifecycle.C81_shutdown_returns_partial`, `Lifecycle.C81_lost_order_violated`, `Lifecycle.C81_signal_violated`, `Interrupt.C84_no_batch_after_cancel`, `Interrupt.C84_main_ends`, `Pipe.C85_terminates`, `Pipe.C85_errors_real`, `Rows.C86_csv_reader`, `Rows.C86_error_cause`, `Rows.C86_error_reported`, `Rows.C86_counters`, `JournalFile.C90_closed`, `JournalFile.C90_close_closes`, `Owner.C93_renewal_violated`, `Owner.C93_useless_violated`, `CtSize.C95_clean_same_place`, `CtSize.C95_same_place_same_key`, `CtSize.C95_key_is_name`, `Layers.C96_terminates`, `Layers.C96_errors_real`, `Layers.C96_leak_violated`, `Layers.C96_bad_row_violated`, `Source.C97_leak_violated`, `Pem.C98_public`, `Join.C99_values_partial`, `Join.C99_ends_partial`, `Join.C99_sink_error_violated`, `Join.C99_resume_panics_violated`
* **propext, Classical.choice, Quot.sound** (483): `Smt.C01_map_semantics_partial`, `Smt.C01_one_update_partial`, `Smt.C02_root_of_content_partial`, `Smt.C04_inclusion_complete`, `Smt.C05_non_inclusion_complete_partial`, `Smt.C07_non_inclusion_sound_violated`, `Smt.C08_inclusion_equiv`, `Smt.C08_compresses_same_proof`, `Smt.C09_batch_roundtrip`, `Smt.C09_shortcut_roundtrip`, `SmtStore.C10_committed_partial`, `SmtStore.C10_proofs_partial`, `SmtStore.C10_noop_violated`, `Config.C100_accepts`, `Config.C101_roundtrip_partial`, `Config.C101_any_order`, `Config.C101_no_interval_violated`, `Config.C101_not_utf8_violated`, `PolicyText.C102_again`, `PolicyText.C102_received`, `PolicyText.C102_shown`, `PolicyText.C102_writes`, `PolicyText.C102_calendar`, `PolicyText.C102_faithful`, `PolicyText.C102_input_faithful`, `Wire.C103_http`, `Wire.C103_grpc`, `Wire.C103_cut`, `Wire.C103_error`, `Wire.C103_served`, `Wire.C104_panic_iff_partial`, `Wire.C104_no_panic_partial`, `Wire.C104_agrees`, `Wire.C104_received`, `Wire.C104_nil_violated`, `Wire.C104_long_violated`, `JournalText.C105_writes`, `JournalText.C105_cut`, `JournalText.C105_crash`, `MerkleLog.C106_inclusion`, `MerkleLog.C106_entry`, `MerkleLog.C106_honest`, `MerkleLog.C107_prefix`, `MerkleLog.C107_with_previous_root`, `MerkleLog.C107_honest`, `Pending.C108_fails_iff_partial`, `Pending.C108_pending_partial`, `Pending.C108_batches_partial`, `Pending.C108_stray_violated`, `Pending.C108_unreadable_violated`, `SmtStore.C109_load_partial`, `SmtStore.C109_unread_partial`, `SmtStore.C109_whole_partial`, `SmtStore.C109_life_partial`, `SmtStore.C11_complete_partial`, `SmtStore.C11_before_delete_partial`, `SmtStore.C11_first_run_partial`, `SmtStore.C110_updates_partial`, `SmtStore.C111_sound_partial`, `SmtStore.C111_last_commit_partial`, `SmtStore.C111_atomic_partial`, `SmtStore.C111_gone_violated`, `Coalesce.C112_ends`, `Coalesce.C112_recovers`, `Coalesce.C112_counts`, `SmtStore.C113_sound_partial`, `SmtStore.C113_available_partial`, `SmtStore.C113_quiet`, `SmtStore.C113_gone_violated`, `Two.C114_synced_partial`, `Two.C114_whole_run_partial`, `Two.C114_stays_forgotten`, `Two.C114_forgotten_violated`, `Two.C114_overwritten_violated`, `E2E.C115_policies_arrive`, `E2E.C115_nothing_else_changes`, `E2E.C115_stored_skipped`, `E2E.C115_twice`, `E2E.C115_never_removed`, `Reset.C116_last_state`, `Reset.C116_logs_kept_violated`, `Reset.C116_policies_ignored_violated`, `Reset.C116_log_entries_lost_violated`, `E2E.C117_same_root_partial`, `E2E.C117_same_data_partial`, `E2E.C117_cross_signed_violated`, `IngestDb.C118_complete`, `IngestDb.C118_crash`, `IngestDb.C118_tables`, `IngestDb.C118_again`, `IngestDb.C118_coalesced`, `Retrieve.C119_pages`, `Responder.C12_denial_violated`, `IngestCmd.C120_answers_partial`, `IngestCmd.C120_ingested_partial`, `IngestCmd.C120_only_partial`, `IngestCmd.C120_completes_partial`, `IngestCmd.C120_forgotten_violated`, `E2E.C121_no_wildcard_answers`, `E2E.C121_own_name`, `E2E.C121_same_answers`, `E2E.C121_names`, `E2E.C121_subject`, `PolicyFile.C122_text`, `PolicyFile.C122_same_text`, `PolicyFile.C122_signatures`, `PolicyFile.C122_payload_hash`, `PolicyFile.C122_rejected`, `Bulk.C123_all`, `Bulk.C123_never_wrong`, `LocalList.C125_files_partial`, `LocalList.C125_next_files_partial`, `LocalList.C125_odd_name_violated`, `CsvFile.C126_csv`, `CsvFile.C126_final_cr`, `CsvFile.C126_exact`, `CsvFile.C126_panics`, `CsvFile.C127_exact`, `CsvFile.C127_all_or_nothing`, `LogConf.C128_read_saved`, `LogConf.C128_crash`, `LogConf.C128_types`, `LogConf.C128_unknown_ignored`, `LogHead.C129_own_root`, `Responder.C13_answers_partial`, `Responder.C13_synced_by_update_partial`, `Responder.C13_stale_violated`, `Domain.C52_parse`, `LogHead.C130_audit`, `LogHead.C130_rewritten`, `LogHead.C130_honest`, `StopFetch.C131_single_partial`, `StopFetch.C131_stop_partial`, `StopFetch.C131_progress_partial`, `E2E.C132_end_to_end_partial`, `E2E.C132_late_violated`, `E2E.C132_early_violated`, `E2E.C133_any_dates_partial`, `E2E.C134_genuine`, `E2E.C134_payloads`, `Db.C18_own_expiration_partial`, `Db.C18_own_expiration_violated`, `Db.C18_locally_violated`, `Db.C21_prune_exact_partial`, `Db.C21_prune_result`, `Db.C21_cycle_violated`, `Updater.C24_http_complete_partial`, `Journal.C28_append_canonical_partial`, `Journal.C28_append_commutes`, `Journal.C28_normalize_restores_partial`, `PolicyAttr.C43_case_violated`, `Policy.C74_equal_text_violated`, `Policy.C74_revocation_iff`, `Policy.C74_revocation_partial`, `Bridge.C76_ends_partial`, `Bridge.C76_blocked_forever`, `Bridge.C76_hang_violated`, `CsvLoad.C77_valid_names`, `CsvLoad.C77_null_violated`, `PayloadApi.C78_answer_partial`, `PayloadApi.C78_answer_history_partial`, `PayloadApi.C78_lost_rows_violated`, `Prune.C79_utc_exact_partial`, `Prune.C79_retry_other_session_partial`, `TempFile.C82_complete_partial`, `TempFile.C82_bounded_partial`, `TempFile.C82_cleaned_violated`, `TempFile.C82_write_error_violated`, `Interrupt.C84_signals_obeyed_partial`, `Pipe.C85_nil_success_partial`, `Pipe.C85_tree_no_deadlock_partial`, `Pipe.C85_stop_violated`, `LocalFetch.C87_bad_row_crash_violated`, `LocalFetch.C87_no_chain_violated`, `LocalFetch.C87_formats_differ_violated`, `LocalFetch.C87_silent_violated`, `LocalFetch.C87_abandoned_violated`, `SmtPar.C89_result_partial`, `SmtPar.C89_committed_partial`, `SmtPar.C89_no_race_partial`, `JournalFile.C90_saved_partial`, `JournalFile.C90_machine_crash_violated`, `JournalFile.C90_two_processes_violated`, `Dirty.C16_pagination_exact`, `Dirty.C16_short_only_at_end`, `JournalMem.C92_text_roundtrip_partial`, `Wire.C103_accepted_partial`, `JournalText.C105_roundtrip_partial`, `JournalText.C105_loads_partial`, `JournalText.C105_accepted_partial`, `JournalText.C105_reread_partial`, `JournalText.C105_names_violated`, `E2E.C115_interrupted_early_partial`, `E2E.C115_overwrite_recovers_partial`, `E2E.C115_interrupted_violated`, `CsvFile.C126_contents_partial`, `CsvFile.C126_short_row_violated`, `CsvFile.C126_no_chain_violated`, `CsvFile.C127_roundtrip_partial`, `CsvFile.C127_pointer_violated`, `LogConf.C128_roundtrip_partial`, `LogConf.C128_stale_violated`, `LogConf.C128_bytes_violated`, `LogConf.C128_no_workers_violated`, `Db.C17_presence_partial`, `Db.C17_true_is_right`, `Db.C17_presence_violated`, `Db.C17_policies_violated`, `LogHead.C129_delivered_partial`, `E2E.C134_no_dangling_partial`, `E2E.C134_client_partial`, `E2E.C134_dangling_violated`, `Pem.C98_key_panic_violated`, `IngestDb.C118_links_partial`, `IngestDb.C118_links_violated`, `IngestDb.C118_dangling_violated`, `Retrieve.C119_parallel_partial`, `Rows.C86_files_partial`, `Rows.C86_no_chain_violated`, `Rows.C86_ptr_counter_violated`, `Again.C177_again_partial`, `E2E.C178_client_partial`, `Smt.C08_non_inclusion_equiv_partial`, `Db.C18_existing_kept_all_stored`, `Db.C18_own_data`, `Ingest.C30_coalesced_flag_partial`, `Ingest.C30_coalesced_flag_violated`, `Ingest.C30_same_base_violated`, `Domain.C53_covers_partial`, `Domain.C53_www_violated`, `PolicyJson.C60_roundtrip_partial`, `PolicyJson.C60_double_pointer_violated`, `PolicyJson.C60_nil_pointer_violated`, `PolicyJson.C60_typed_slice_violated`, `CtSize.C95_two_logs_violated`, `CtSize.C95_dot_violated`, `CtSize.C95_overflow_violated`, `PolicyText.C102_roundtrip_partial`, `PolicyText.C102_certificate_partial`, `PolicyText.C102_owner_binding_partial`, `PolicyText.C102_issuer_binding_partial`, `PolicyText.C102_seconds_violated`, `Coalesce.C112_always_partial`, `Coalesce.C112_nil_partial`, `Coalesce.C112_two_runs_violated`, `E2E.C121_found_partial`, `E2E.C121_exactly_partial`, `E2E.C121_wildcard_violated`, `E2E.C121_www_violated`, `E2E.C121_case_violated`, `PolicyFile.C122_shown_partial`, `PolicyFile.C122_wildcard_violated`, `PolicyFile.C122_completes_partial`, `PolicyFile.C122_again_partial`, `Bench.C191_exactly_once`, `Bench.C191_result`, `Bench.C191_always`, `Bench.C191_ends`, `Bench.C192_shares`, `Bench.C192_capacity`, `Bench.C192_balance`, `Bench.C192_skew`, `Bench.C192_fixture`, `Bench.C192_expected`, `Bench.C193_sound`, `Bench.C193_new`, `Bench.C193_old_partial`, `Bench.C193_old_violated`, `BenchStats.C194_pairs`, `BenchStats.C194_faster`, `BenchStats.C194_printed`, `AutoResume.C195_order`, `PipeCheck.C198_check`, `PipeCheck.C198_ends_partial`, `Batch.C20_worker_exists_partial`, `Batch.C20_worker_exists_violated`, `IngestStats.C204_written_partial`, `IngestStats.C204_written_violated`, `IngestStats.C205_percent_partial`, `IngestStats.C205_percent_violated`, `IngestStats.C205_counters`, `IngestStats.C206_rows`, `IngestStats.C207_stages`, `Db.C21_prune_result`, `SendAll.C210_at_most`, `SendAll.C210_all`, `SendAll.C210_offers`, `GrpcServe.C211_until_told_partial`, `GrpcServe.C211_starts`, `GrpcServe.C211_stops_violated`, `Db.C22_coalesced_payload`, `Db.C22_order_free`, `Db.C23_overwrite_recovers_partial`, `Db.C23_new_certificates_arrive_partial`, `Db.C23_crash_violated`, `Updater.C24_progress`, `Updater.C24_http_progress`, `Fetch.C25_exact_range`, `Fetch.C25_never_wrong`, `Fetch.C26_initialize`, `Fetch.C26_target`, `Fetch.C26_nothing_new`, `Batch.C27_batches_concat`, `Batch.C27_terminates`, `Fetch.C27_local_batches`, `Journal.C28_append_covers_union`, `Journal.C28_canonical_unique`, `Journal.C28_normalize_accepts`, `Journal.C29_contains_iff_covered`, `Ingest.C29_pending_exact`, `Ingest.C30_completed_was_processed`, `Ingest.C30_updatedSMT_flag_true`, `Ingest.C30_unprocessed_offered_again`, `Ingest.C31_recorded_size_violated`, `ListFiles.C33_listing_violated`, `Chains.C35_every_certificate_emitted_partial`, `Chains.C35_leaf_names_partial`, `Batch.C36_batch_untouched`, `Batch.C36_batches_are_inputs`, `Stage.C38_closed_once`, `Stage.C38_finished_closed`, `Stage.C39_sequential_fair_and_complete`, `Stage.C39_concurrent_complete`, `Stage.C40_exactly_once`, `Stage.C40_at_most_once`, `Stage.C40_no_panic`, `Stage.C40_stateless`, `Presence.C41_complete`, `Presence.C41_sound`, `Presence.C41_race_free`, `Presence.C41_no_deadlock`, `Policy.C45_signed_verifies`, `Policy.C45_sign_requires`, `Policy.C45_binding`, `Policy.C46_signed_verifies`, `Policy.C46_binding`, `Policy.C47_period_partial`, `Policy.C47_actual`, `Policy.C47_domain_violated`, `Policy.C47_rights_violated`, `Pca.C48_requests_increase_partial`, `Pca.C48_duplicate_violated`, `Pca.C49_recognised_partial`, `Pca.C49_own_certificate_violated`, `Pca.C50_certificate_verifies`, `Domain.C52_parse`, `Domain.C52_last`, `Domain.C52_suffix_chain`, `Domain.C52_accepts`, `Domain.C52_valid`, `Domain.C52_www_violated`, `Domain.C53_count`, `Domain.C53_sound`, `Util.C55_qsort_sorts`, `Util.C56_dedup_aligned`, `Util.C58_duration_roundtrip`, `CertReader.C59_read_partial`, `CertReader.C59_error_sound`, `CertReader.C59_read_ends`, `CertReader.C59_read_all`, `PolicyJson.C60_writes`, `PolicyJson.C60_type_and_raw`, `PolicyJson.C60_raw`, `LogClient.C61_terminates`, `Util.C64_remove_elements`, `Ingest.C65_interval_text_roundtrip`, `Ingest.C65_interval_text_sound`, `Util.C67_parse_denotes_partial`, `Util.C67_parse_violated`, `Dirty.C69_update_smt_partial`, `Dirty.C69_root_bundle_independent_partial`, `Db.C70_payloads_match_partial`, `Db.C70_coalesced_all_right_partial`, `Db.C70_reinserted_violated`, `Pca.C73_signed_violated`, `Policy.C74_equal_iff`, `Policy.C74_certificate_roundtrip`, `Policy.C74_equivalence`, `Stall.C75_exclusion`, `Stall.C75_no_panic`, `Stall.C75_no_deadlock`, `Stall.C75_terminates`, `Stall.C75_once`, `Bridge.C76_routing`, `Bridge.C76_terminates`, `Bridge.C76_delivers`, `Bridge.C76_error_reported`, `Bridge.C76_error_sound`, `CsvLoad.C77_expiration`, `PayloadApi.C78_payloads_are_stored`, `PayloadApi.C78_request_roundtrip`, `PayloadApi.C78_request_accepted`, `PayloadApi.C78_request_meaning`, `PayloadApi.C78_body_roundtrip`, `PayloadApi.C78_malformed_rejected`, `Prune.C79_failure_all_or_nothing`, `Ticker.C80_next_run`, `Ticker.C80_tick_or_late`, `TempFile.C82_right_file`, `TempFile.C82_file_system`, `TempFile.C82_names`, `TempFile.C82_file_is_there`, `TempFile.C82_fails_only`, `TempFile.C82_ends`, `TempFile.C82_progress`, `TempFile.C82_create_temp_file`, `DbConf.C83_settings`, `DbConf.C83_socket_partial`, `DbConf.C83_tcp_partial`, `DbConf.C83_password_partial`, `DbConf.C83_connect_again`, `DbConf.C83_db_name`, `DbConf.C83_ingest_partial`, `DbConf.C83_with_user_order_violated`, `DbConf.C83_password_ignored_violated`, `DbConf.C83_port_violated`, `DbConf.C83_upper_case_user_violated`, `DbConf.C83_underscore_user_violated`, `DbConf.C83_question_mark_violated`, `DbConf.C83_explicit_dsn_violated`, `Interrupt.C84_usr1_harmless`, `Interrupt.C84_completed_prefix`, `Interrupt.C84_exit_codes`, `Interrupt.C84_message`, `Pipe.C85_success_no_deadlock`, `Pipe.C85_success_complete`, `Pipe.C85_chain_no_deadlock`, `Pipe.C85_updater_success`, `Rows.C86_row`, `Rows.C86_file`, `Rows.C86_line`, `Rows.C86_any_file`, `LocalFetch.C87_delivered`, `LocalFetch.C87_safe`, `LocalFetch.C87_terminates`, `LocalFetch.C87_progress`, `LocalFetch.C87_completes`, `LocalFetch.C87_row`, `LocalFetch.C87_entries`, `TreeHead.C88_fresh`, `TreeHead.C88_authentic`, `SmtPar.C89_workers`, `SmtPar.C89_ends`, `SmtPar.C89_no_deadlock`, `SmtPar.C89_can_end`, `JournalFile.C90_complete`, `JournalFile.C90_readable`, `JournalFile.C90_error_changes_nothing`, `JournalFile.C90_other_files`, `JournalFile.C90_call_saves`, `JournalFile.C90_commit_grows`, `E2E.C91_answers_partial`, `E2E.C91_answers_insert_only_partial`, `E2E.C91_end_to_end_partial`, `E2E.C91_no_panic_partial`, `E2E.C91_update_completes_partial`, `E2E.C91_panic_iff_partial`, `E2E.C91_interrupted_violated`, `E2E.C91_prune_all_violated`, `JournalMem.C92_in_place`, `JournalMem.C92_in_place_result`, `JournalMem.C92_earlier_jobs_untouched`, `JournalMem.C92_append_in_place`, `JournalMem.C92_readable`, `JournalMem.C92_history_kept`, `JournalMem.C92_one_job_per_run`, `Owner.C93_request_partial`, `Owner.C93_issued_partial`, `Layers.C96_success_no_deadlock`, `Layers.C96_success_complete`, `Layers.C96_wait_returns_partial`, `Layers.C96_nil_success_partial`, `Layers.C96_ingest_returns`, `Layers.C96_ingest_lines`, `Layers.C96_ingest_certs_partial`, `Source.C97_values_partial`, `Source.C97_progress_partial`, `Source.C97_ended_quiet`, `Pem.C98_stable`, `Pem.C98_round_trip`, `Pem.C98_other_blocks`, `Pem.C98_first`, `Pem.C98_key`
