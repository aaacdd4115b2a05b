{
 "claims": [
  {
   "property": "C01",
   "status": "partial",
   "theorems": [
    "Fpki.Smt.C01_map_semantics_partial",
    "Fpki.Smt.C01_one_update_partial",
    "Fpki.Smt.C01_map_semantics_violated"
   ],
   "note": "Proved for all histories whose batches put a deletion only at an edge position where the code handles it (the hypothesis EdgeHist, and a per-update version). The remaining case is false of the code: deleting a key between two other keys of a batch misplaces a leaf (violated theorem, reachable history)."
  },
  {
   "property": "C02",
   "status": "partial",
   "theorems": [
    "Fpki.Smt.C02_root_of_content_partial",
    "Fpki.Smt.C02_root_of_content_violated"
   ],
   "note": "Proved for histories as in C01; false in general because of the same deletion defect."
  },
  {
   "property": "C03",
   "status": "partial",
   "theorems": [
    "Fpki.Smt.C03_root_binds_content_partial",
    "Fpki.Smt.C03_shift_violated"
   ],
   "note": "Proved with the alternatives: same map, a collision in the explicit preimage lists, or overlapping digests (Shift). The Shift case is real because DefaultLeaf is one byte: interior preimages are not injectively encoded."
  },
  {
   "property": "C04",
   "status": "proved",
   "theorems": [
    "Fpki.Smt.C04_inclusion_complete"
   ],
   "note": ""
  },
  {
   "property": "C05",
   "status": "partial",
   "theorems": [
    "Fpki.Smt.C05_non_inclusion_complete_partial",
    "Fpki.Smt.C05_non_inclusion_complete_violated"
   ],
   "note": "Proved for histories as in C01; false after the deletion defect."
  },
  {
   "property": "C06",
   "status": "partial",
   "theorems": [
    "Fpki.Smt.C06_inclusion_sound_partial",
    "Fpki.Smt.C06_inclusion_sound_violated"
   ],
   "note": "Proved when proof nodes, key and value have the sizes of real ones; the code does not check sizes, and an over-long proof node is accepted otherwise."
  },
  {
   "property": "C07",
   "status": "partial",
   "theorems": [
    "Fpki.Smt.C07_non_inclusion_sound_partial",
    "Fpki.Smt.C07_non_inclusion_sound_violated",
    "Fpki.Smt.C07_single_leaf_violated",
    "Fpki.Smt.C07_zero_byte_violated"
   ],
   "note": "The code accepts proofKey = key, so every present key has an accepted non-inclusion proof; soundness is proved when proofKey differs from key and sizes are right."
  },
  {
   "property": "C08",
   "status": "proved",
   "theorems": [
    "Fpki.Smt.C08_inclusion_equiv",
    "Fpki.Smt.C08_compresses_same_proof"
   ],
   "note": "The neighbouring property that does not hold in general is C179."
  },
  {
   "property": "C09",
   "status": "proved",
   "theorems": [
    "Fpki.Smt.C09_batch_roundtrip",
    "Fpki.Smt.C09_shortcut_roundtrip"
   ],
   "note": ""
  },
  {
   "property": "C10",
   "status": "partial",
   "theorems": [
    "Fpki.SmtStore.C10_committed_partial",
    "Fpki.SmtStore.C10_proofs_partial",
    "Fpki.SmtStore.C10_same_root_violated",
    "Fpki.SmtStore.C10_noop_violated",
    "Fpki.SmtStore.C10_part_noop_violated",
    "Fpki.SmtStore.C10_undo_violated",
    "Fpki.SmtStore.C10_twins_violated"
   ],
   "note": "The trie on batches, caches and DB is modelled function by function and refines the tree model. Proved for every sequence of updates with commits, reads, proofs, cache resets and restarts in which every entry changes its key, with the hash assumptions NoAccident on the strings of the history, deletions as in C01 and no keys that agree in 255 bits. False otherwise: a batch that repeats a value deletes tree nodes that are still in use, for every hash function the whole trie if the root stays the same."
  },
  {
   "property": "C100",
   "status": "proved",
   "theorems": [
    "Fpki.Config.C100_constructor",
    "Fpki.Config.C100_roundtrip",
    "Fpki.Config.C100_shortest",
    "Fpki.Config.C100_accepts"
   ],
   "note": "The texts are those of package time for the layouts used."
  },
  {
   "property": "C101",
   "status": "partial",
   "theorems": [
    "Fpki.Config.C101_roundtrip_partial",
    "Fpki.Config.C101_any_order",
    "Fpki.Config.C101_no_interval_violated",
    "Fpki.Config.C101_not_utf8_violated"
   ],
   "note": "True for texts in UTF-8, down to the bytes of the file (encoding/json is modelled: quoting, numbers, white space, fields by name). False: bytes that are not UTF-8 are replaced; a file without UpdateTimer is accepted and the server panics when it starts its timer."
  },
  {
   "property": "C102",
   "status": "proved",
   "theorems": [
    "Fpki.PolicyText.C102_again",
    "Fpki.PolicyText.C102_received",
    "Fpki.PolicyText.C102_shown",
    "Fpki.PolicyText.C102_writes",
    "Fpki.PolicyText.C102_calendar",
    "Fpki.PolicyText.C102_faithful",
    "Fpki.PolicyText.C102_input_faithful"
   ],
   "note": "The neighbouring property that does not hold in general is C187."
  },
  {
   "property": "C103",
   "status": "proved",
   "theorems": [
    "Fpki.Wire.C103_http",
    "Fpki.Wire.C103_grpc",
    "Fpki.Wire.C103_cut",
    "Fpki.Wire.C103_error",
    "Fpki.Wire.C103_served"
   ],
   "note": "The neighbouring property that does not hold in general is C162."
  },
  {
   "property": "C104",
   "status": "partial",
   "theorems": [
    "Fpki.Wire.C104_panic_iff_partial",
    "Fpki.Wire.C104_no_panic_partial",
    "Fpki.Wire.C104_agrees",
    "Fpki.Wire.C104_received",
    "Fpki.Wire.C104_nil_violated",
    "Fpki.Wire.C104_long_violated"
   ],
   "note": "False: a body such as [{}] has an answer without an entry, and a path of more than 256 nodes (or more than eight times the bytes of the proof key) indexes out of range; both panic. Proved: the exact condition for the panic; that nothing else received can cause one (arrays always have 32 bytes); and that without a panic the verdict is the one of C12 and C13."
  },
  {
   "property": "C105",
   "status": "proved",
   "theorems": [
    "Fpki.JournalText.C105_writes",
    "Fpki.JournalText.C105_cut",
    "Fpki.JournalText.C105_crash"
   ],
   "note": "The neighbouring property that does not hold in general is C163."
  },
  {
   "property": "C106",
   "status": "proved",
   "theorems": [
    "Fpki.MerkleLog.C106_inclusion",
    "Fpki.MerkleLog.C106_entry",
    "Fpki.MerkleLog.C106_honest"
   ],
   "note": "The functions of transparency-dev/merkle v0.0.2 are modelled from its published source, which is not in /repo. SHA-256 is a parameter; collisions are exhibited among explicit lists of strings, not assumed away."
  },
  {
   "property": "C107",
   "status": "proved",
   "theorems": [
    "Fpki.MerkleLog.C107_prefix",
    "Fpki.MerkleLog.C107_shrunk",
    "Fpki.MerkleLog.C107_with_previous_root",
    "Fpki.MerkleLog.C107_honest"
   ],
   "note": "As for C106. The first hash of a consistency proof is not checked for its length by the library; the proof shows that this does no harm."
  },
  {
   "property": "C108",
   "status": "partial",
   "theorems": [
    "Fpki.Pending.C108_names",
    "Fpki.Pending.C108_estimate",
    "Fpki.Pending.C108_fails_iff_partial",
    "Fpki.Pending.C108_pending_partial",
    "Fpki.Pending.C108_batches_partial",
    "Fpki.Pending.C108_stray_violated",
    "Fpki.Pending.C108_unreadable_violated"
   ],
   "note": "Violated: one file of another name (also with numbers from 2^63 on) makes the whole run fail, and an unreadable `bundled` directory is silently empty. Proved for readable trees with `bundled` before its sibling directories (C33): failure exactly when an offered name is bad, otherwise exact content, order and batches. Glob metacharacters in directory names are not modelled."
  },
  {
   "property": "C109",
   "status": "partial",
   "theorems": [
    "Fpki.SmtStore.C109_load_partial",
    "Fpki.SmtStore.C109_unread_partial",
    "Fpki.SmtStore.C109_whole_partial",
    "Fpki.SmtStore.C109_life_partial",
    "Fpki.SmtStore.C109_missing_violated",
    "Fpki.SmtStore.C109_past_violated",
    "Fpki.SmtStore.C109_error_violated"
   ],
   "note": "Violated: a root that is not in the DB (such as every earlier root) ends the process with a panic, because a missing row is parsed; and a LoadCache that returns an error has replaced root and cache. Proved with the conditions of C10. The goroutines are modelled one after the other."
  },
  {
   "property": "C11",
   "status": "partial",
   "theorems": [
    "Fpki.SmtStore.C11_crash_violated",
    "Fpki.SmtStore.C11_stuck_violated",
    "Fpki.SmtStore.C11_rerun_violated",
    "Fpki.SmtStore.C11_complete_partial",
    "Fpki.SmtStore.C11_before_delete_partial",
    "Fpki.SmtStore.C11_first_run_partial"
   ],
   "note": "False: for every trie and every update there is a crash point (after DeleteTreeNodes, before SaveRoot) where the saved root is unreadable for all keys and UpdateSMT cannot recover; running UpdateSMT again with the same values has the same effect. Proved: crash points before the first DeleteTreeNodes keep the old content, a completed run has the new content, and the first run (no root saved) is safe at all points."
  },
  {
   "property": "C110",
   "status": "partial",
   "theorems": [
    "Fpki.SmtStore.C110_updates_partial",
    "Fpki.SmtStore.C110_no_keys_violated",
    "Fpki.SmtStore.C10_undo_violated"
   ],
   "note": "Violated: AtomicUpdate with no keys sets the root to nil, so all content is lost; a key that gets back to the value it had before an uncommitted batch loses its nodes at the Commit (C10_undo_violated). Proved with the conditions of C10 and without these two cases."
  },
  {
   "property": "C111",
   "status": "partial",
   "theorems": [
    "Fpki.SmtStore.C111_sound_partial",
    "Fpki.SmtStore.C111_last_commit_partial",
    "Fpki.SmtStore.C111_atomic_partial",
    "Fpki.SmtStore.C111_gone_violated",
    "Fpki.SmtStore.C111_atomic_violated"
   ],
   "note": "Proved: an answer is never wrong (error or the right proof); the root of the last Commit works until the next Commit; with AtomicUpdate and no deletions all roots work until a Commit. Violated: after the Commit and a restart every earlier root gives an error for every key; an AtomicUpdate with a deletion makes earlier roots unusable even before the Commit."
  },
  {
   "property": "C112",
   "status": "proved",
   "theorems": [
    "Fpki.Coalesce.C112_ends",
    "Fpki.Coalesce.C112_recovers",
    "Fpki.Coalesce.C112_call",
    "Fpki.Coalesce.C112_counts"
   ],
   "note": "The neighbouring property that does not hold in general is C188."
  },
  {
   "property": "C113",
   "status": "partial",
   "theorems": [
    "Fpki.SmtStore.C113_sound_partial",
    "Fpki.SmtStore.C113_available_partial",
    "Fpki.SmtStore.C113_quiet",
    "Fpki.SmtStore.C113_gone_violated",
    "Fpki.SmtStore.C113_across_violated"
   ],
   "note": "Proved for the acts and hash functions of C110. Violated for availability: from the deletions of a Commit until the responder reloads its root, every request fails for every key (mapserver.go:123-125 names it)."
  },
  {
   "property": "C114",
   "status": "partial",
   "theorems": [
    "Fpki.Two.C114_synced_partial",
    "Fpki.Two.C114_whole_run_partial",
    "Fpki.Two.C114_stays_forgotten",
    "Fpki.Two.C114_forgotten_violated",
    "Fpki.Two.C114_overwritten_violated",
    "Fpki.SmtStore.C114_rows_violated"
   ],
   "note": "Proved for the content of the tree if nothing is inserted while any process is between coalescing and cleaning. Violated otherwise: TRUNCATE dirty forgets every insertion since the coalescing, for good; with two updaters the later SaveRoot drops what the other has put into the tree; and each deletes rows of the table tree which the other's tree needs. Coalescing and the reading of the dirty domains are single steps here (C112, C16)."
  },
  {
   "property": "C115",
   "status": "proved",
   "theorems": [
    "Fpki.E2E.C115_no_panic",
    "Fpki.E2E.C115_policies_arrive",
    "Fpki.E2E.C115_nothing_else_changes",
    "Fpki.E2E.C115_stored_skipped",
    "Fpki.E2E.C115_twice",
    "Fpki.E2E.C115_never_removed"
   ],
   "note": "The neighbouring property that does not hold in general is C164."
  },
  {
   "property": "C116",
   "status": "partial",
   "theorems": [
    "Fpki.Reset.C116_reset_partial",
    "Fpki.Reset.C116_last_state",
    "Fpki.Reset.C116_new_log",
    "Fpki.Reset.C116_reset_violated",
    "Fpki.Reset.C116_logs_kept_violated",
    "Fpki.Reset.C116_policies_ignored_violated",
    "Fpki.Reset.C116_old_policies_return_violated",
    "Fpki.Reset.C116_log_entries_lost_violated",
    "Fpki.Reset.C116_schema_check_violated"
   ],
   "note": "Violated: policies, domain_policies and ctlog_server_last_status are kept. So the same policies are ignored after the reset, old policies come back with the next certificate of their domain, and entries of a CT log below the recorded size are never fetched again (general). CheckSchema queries a table that does not exist."
  },
  {
   "property": "C117",
   "status": "partial",
   "theorems": [
    "Fpki.E2E.C117_same_root_partial",
    "Fpki.E2E.C117_same_data_partial",
    "Fpki.E2E.C117_cross_signed_violated"
   ],
   "note": "Proved for histories without pruning and interruptions in which a certificate is always submitted with the same issuer and names. Without the last condition violated: a certificate has one parent_id, written by INSERT IGNORE, so of two cross-signed issuers only the first submitted is returned, and the root depends on the order. The second half needs the exceptions of C03, and does not tell certificates from policies."
  },
  {
   "property": "C118",
   "status": "proved",
   "theorems": [
    "Fpki.IngestDb.C118_complete",
    "Fpki.IngestDb.C118_crash",
    "Fpki.IngestDb.C118_tables",
    "Fpki.IngestDb.C118_again",
    "Fpki.IngestDb.C118_coalesced"
   ],
   "note": "The neighbouring property that does not hold in general is C173."
  },
  {
   "property": "C119",
   "status": "proved",
   "theorems": [
    "Fpki.Retrieve.C119_entries",
    "Fpki.Retrieve.C119_page",
    "Fpki.Retrieve.C119_pages",
    "Fpki.Retrieve.C119_collect"
   ],
   "note": "The neighbouring property that does not hold in general is C174."
  },
  {
   "property": "C12",
   "status": "partial",
   "theorems": [
    "Fpki.Responder.C12_presence_partial",
    "Fpki.Responder.C12_presence_needs_root",
    "Fpki.Responder.C12_ids_partial",
    "Fpki.Responder.C12_ids_violated",
    "Fpki.Responder.C12_absence_partial",
    "Fpki.Responder.C12_denial_violated"
   ],
   "note": "Barring collisions and for proof nodes of real sizes. VerifyProofByDomain checks neither that the ID belongs to the name nor that the value is the hash of the returned IDs (C12_ids_violated), and accepts a denial of every present domain (C12_denial_violated); with these checks the returned IDs are the stored ones (C12_ids_partial)."
  },
  {
   "property": "C120",
   "status": "partial",
   "theorems": [
    "Fpki.IngestCmd.C120_answers_partial",
    "Fpki.IngestCmd.C120_ingested_partial",
    "Fpki.IngestCmd.C120_only_partial",
    "Fpki.IngestCmd.C120_completes_partial",
    "Fpki.IngestCmd.C120_forgotten_violated"
   ],
   "note": "Violated for the strategy \"onlysmtupdate\": it updates the tree and truncates the dirty table without knowing whether the payloads were recomputed, so that after \"onlyingest\" the new names are forgotten: the map server proves their absence although their certificates are stored. Proved without this strategy, without pruning, and for files that contain the chains."
  },
  {
   "property": "C121",
   "status": "proved",
   "theorems": [
    "Fpki.E2E.C121_no_wildcard_answers",
    "Fpki.E2E.C121_own_name",
    "Fpki.E2E.C121_same_answers",
    "Fpki.E2E.C121_names",
    "Fpki.E2E.C121_subject"
   ],
   "note": "The neighbouring property that does not hold in general is C189."
  },
  {
   "property": "C122",
   "status": "proved",
   "theorems": [
    "Fpki.PolicyFile.C122_text",
    "Fpki.PolicyFile.C122_same_text",
    "Fpki.PolicyFile.C122_signatures",
    "Fpki.PolicyFile.C122_payload_hash",
    "Fpki.PolicyFile.C122_rejected"
   ],
   "note": "The neighbouring property that does not hold in general is C190."
  },
  {
   "property": "C123",
   "status": "proved",
   "theorems": [
    "Fpki.Bulk.C123_all",
    "Fpki.Bulk.C123_never_wrong",
    "Fpki.Bulk.C123_empty_range"
   ],
   "note": "The neighbouring property that does not hold in general is C165."
  },
  {
   "property": "C124",
   "status": "proved",
   "theorems": [
    "Fpki.Bulk.C124_one_for_each_line",
    "Fpki.Bulk.C124_refused"
   ],
   "note": "The neighbouring property that does not hold in general is C166."
  },
  {
   "property": "C125",
   "status": "partial",
   "theorems": [
    "Fpki.LocalList.C125_files_partial",
    "Fpki.LocalList.C125_next_files_partial",
    "Fpki.LocalList.C125_odd_name_violated",
    "Fpki.LocalList.C125_missing_folder_violated",
    "Fpki.LocalList.C125_unreadable_violated"
   ],
   "note": "Violated: one file with a name like `notes-old.csv` or `0-99.csv.gz` stops the fetcher, instead of being ignored; a missing folder makes the map server panic (nil DirEntry); errors of reading directories are dropped. Proved for folders without such names."
  },
  {
   "property": "C126",
   "status": "proved",
   "theorems": [
    "Fpki.CsvFile.C126_csv",
    "Fpki.CsvFile.C126_final_cr",
    "Fpki.CsvFile.C126_exact",
    "Fpki.CsvFile.C126_panics"
   ],
   "note": "The neighbouring property that does not hold in general is C167."
  },
  {
   "property": "C127",
   "status": "proved",
   "theorems": [
    "Fpki.CsvFile.C127_split",
    "Fpki.CsvFile.C127_exact",
    "Fpki.CsvFile.C127_all_or_nothing"
   ],
   "note": "The neighbouring property that does not hold in general is C168."
  },
  {
   "property": "C128",
   "status": "proved",
   "theorems": [
    "Fpki.LogConf.C128_read_saved",
    "Fpki.LogConf.C128_crash",
    "Fpki.LogConf.C128_types",
    "Fpki.LogConf.C128_unknown_ignored"
   ],
   "note": "The neighbouring property that does not hold in general is C169."
  },
  {
   "property": "C129",
   "status": "proved",
   "theorems": [
    "Fpki.LogHead.C129_sequential",
    "Fpki.LogHead.C129_call",
    "Fpki.LogHead.C129_own_root"
   ],
   "note": "The neighbouring property that does not hold in general is C170."
  },
  {
   "property": "C13",
   "status": "partial",
   "theorems": [
    "Fpki.Responder.C13_answers_partial",
    "Fpki.Responder.C13_synced_by_update_partial",
    "Fpki.Responder.C13_stale_violated",
    "Fpki.Domain.C52_parse"
   ],
   "note": "Proved when the responder's tree is in sync with the payload table, which UpdateSMT establishes; false between coalescing and reloading the tree, and (C05) after a deletion in the middle of a batch."
  },
  {
   "property": "C130",
   "status": "proved",
   "theorems": [
    "Fpki.LogHead.C130_audit",
    "Fpki.LogHead.C130_rewritten",
    "Fpki.LogHead.C130_honest",
    "Fpki.LogHead.C130_from_empty"
   ],
   "note": "Up to a hash collision among the strings that were hashed. From the root of the empty log, VerifyRoot accepts any root without a proof (C130_from_empty), which agrees with the statement: an empty log is the beginning of every log."
  },
  {
   "property": "C131",
   "status": "partial",
   "theorems": [
    "Fpki.StopFetch.C131_single_partial",
    "Fpki.StopFetch.C131_stop_partial",
    "Fpki.StopFetch.C131_progress_partial",
    "Fpki.StopFetch.C131_restart_violated",
    "Fpki.StopFetch.C131_abandoned_violated",
    "Fpki.StopFetch.C131_twice_violated",
    "Fpki.StopFetch.C131_empty_violated",
    "Fpki.StopFetch.C131_leak_violated"
   ],
   "note": "Proved for a fetcher that is started once. Violated for a second StartFetching while the goroutine of the first runs: panics (which end the process), entries delivered twice, an empty result that NextBatch takes for the end; and a goroutine that has filled the channel stays for ever if nobody reads. Accesses to shared fields are modelled as atomic and sequentially consistent."
  },
  {
   "property": "C132",
   "status": "partial",
   "theorems": [
    "Fpki.E2E.C132_end_to_end_partial",
    "Fpki.E2E.C132_late_violated",
    "Fpki.E2E.C132_early_violated"
   ],
   "note": "Proved for submissions that agree with each other, are not interrupted and in which no stored certificate precedes a new one in the list made of the batch, and for UpdateSMT runs without the bug of C05. The condition on the order nearly always fails in production: issuers recur in every batch. Then (bug of C18: the dates are not compacted with the rest) a certificate gets the date of another one: an expired one is still proved after the pruning, or a valid one is pruned (both shown)."
  },
  {
   "property": "C133",
   "status": "partial",
   "theorems": [
    "Fpki.E2E.C133_any_dates_partial"
   ],
   "note": "Holds without any condition on the dates, so also with the dates mixed up as in C18 and C132. Conditions: submissions agree with each other (otherwise C117) and are not interrupted (otherwise C91_interrupted_violated), UpdateSMT runs without the bug of C05."
  },
  {
   "property": "C134",
   "status": "proved",
   "theorems": [
    "Fpki.E2E.C134_genuine",
    "Fpki.E2E.C134_payloads"
   ],
   "note": "The neighbouring property that does not hold in general is C171."
  },
  {
   "property": "C135",
   "status": "partial",
   "theorems": [
    "Fpki.Db.C18_own_expiration_partial",
    "Fpki.Db.C18_own_expiration_violated",
    "Fpki.Db.C18_locally_violated"
   ],
   "note": "Listed together with C18 at first, hence the names of the theorems. Everything but the expiration proved; the expiration is right only if no stored certificate precedes a new one in the batch (expirations are not compacted). UpdateCertsLocally panics for every new certificate with a chain."
  },
  {
   "property": "C136",
   "status": "partial",
   "theorems": [
    "Fpki.Db.C21_prune_exact_partial",
    "Fpki.Db.C21_prune_result",
    "Fpki.Db.C21_cycle_violated"
   ],
   "note": "Listed together with C21 at first, hence the names of the theorems. Exact whenever the procedure ends; it ends when parent links have no cycle; with an expired certificate on a cycle the recursive query never does, for any bound on its rounds (violated theorem; MySQL stops it with an error after cte_max_recursion_depth rounds, so pruning never succeeds). SQL is modelled by hand."
  },
  {
   "property": "C137",
   "status": "partial",
   "theorems": [
    "Fpki.Updater.C24_recorded_complete_partial",
    "Fpki.Updater.C24_http_complete_partial",
    "Fpki.Updater.C24_stale_fetch_violated"
   ],
   "note": "Listed together with C24 at first, hence the names of the theorems. Proved for fetchers that return each entry at most once per attempt, and for the HTTP fetcher if no goroutine of an earlier attempt is still at work when fetching restarts. False otherwise: nothing stops that goroutine after a failed batch, and its batches are counted twice."
  },
  {
   "property": "C138",
   "status": "partial",
   "theorems": [
    "Fpki.Journal.C28_append_canonical_partial",
    "Fpki.Journal.C28_append_commutes",
    "Fpki.Journal.C28_normalize_restores_partial",
    "Fpki.Journal.C28_canonical_violated"
   ],
   "note": "Listed together with C28 at first, hence the names of the theorems. Coverage is exact for all inputs; canonicity proved for interval ends below 2^64-1; at 2^64-1 End+1 wraps and it is false."
  },
  {
   "property": "C139",
   "status": "partial",
   "theorems": [
    "Fpki.Presence.C41_size_violated"
   ],
   "note": "Listed together with C41 at first, hence the names of the theorems. Contains and AddIDs: proved for every schedule of any number of goroutines. Size is not synchronised: it may be behind what Contains has returned (and reads the map while it is written)."
  },
  {
   "property": "C14",
   "status": "proved",
   "theorems": [
    "Fpki.Ids.C14_ids_roundtrip",
    "Fpki.Ids.C14_bytes_roundtrip",
    "Fpki.Ids.C14_glue_total",
    "Fpki.Ids.C14_glue_eq_iff_perm",
    "Fpki.Ids.C14_hash_binds",
    "Fpki.Ids.C14_hash_order_free"
   ],
   "note": ""
  },
  {
   "property": "C140",
   "status": "partial",
   "theorems": [
    "Fpki.PolicyAttr.C43_case_violated"
   ],
   "note": "Listed together with C43 at first, hence the names of the theorems. The decision is exactly the stated one for all names and attributes; findings: entries with a dot are accepted but never match, and names are compared case-sensitively."
  },
  {
   "property": "C141",
   "status": "partial",
   "theorems": [
    "Fpki.Policy.C45_not_utf8_violated",
    "Fpki.Policy.C45_destroys_violated"
   ],
   "note": "Listed together with C45 at first, hence the names of the theorems. JSON encoding, SHA256 and RSA are parameters with stated assumptions. False for texts that are not UTF-8: their bytes can be exchanged in a signed certificate; and verification destroys the certificate's signatures if its JSON text cannot be made."
  },
  {
   "property": "C142",
   "status": "partial",
   "theorems": [
    "Fpki.Policy.C46_destroys_violated"
   ],
   "note": "Listed together with C46 at first, hence the names of the theorems. As C45; verification removes the issuer signature if the JSON text cannot be made."
  },
  {
   "property": "C143",
   "status": "partial",
   "theorems": [
    "Fpki.Pca.C50_config_partial",
    "Fpki.Pca.C50_same_key_violated"
   ],
   "note": "Listed together with C50 at first, hence the names of the theorems. Proved for the loaded log servers; of configured servers with the same public key only the last is used."
  },
  {
   "property": "C144",
   "status": "partial",
   "theorems": [
    "Fpki.UpdateLoop.C62_serves_partial",
    "Fpki.UpdateLoop.C62_reload_error_violated",
    "Fpki.UpdateLoop.C62_reload_error_reached",
    "Fpki.UpdateLoop.C62_stale_after_return_violated",
    "Fpki.UpdateLoop.C62_cancel_panics_violated"
   ],
   "note": "Listed together with C62 at first, hence the names of the theorems. Own results: proved. The server stops serving for ever after a failed reload (error sent on a channel nobody reads); callers return before the reload; after cancellation callers panic."
  },
  {
   "property": "C145",
   "status": "partial",
   "theorems": [
    "Fpki.LogClient.C71_query_ends_partial",
    "Fpki.LogClient.C71_empty_violated"
   ],
   "note": "Listed together with C71 at first, hence the names of the theorems. False if the log server returns no proofs: the worker asks for ever."
  },
  {
   "property": "C146",
   "status": "partial",
   "theorems": [
    "Fpki.Policy.C74_equal_text_violated",
    "Fpki.Policy.C74_revocation_iff",
    "Fpki.Policy.C74_revocation_partial",
    "Fpki.Policy.C74_revocation_violated"
   ],
   "note": "Listed together with C74 at first, hence the names of the theorems. Proved for certificates. False for revocations: their time stamps are compared with ==, so a revocation read back from JSON need not equal the one written."
  },
  {
   "property": "C147",
   "status": "partial",
   "theorems": [
    "Fpki.Stall.C75_stream_violated"
   ],
   "note": "Listed together with C75 at first, hence the names of the theorems. Proved for all pipelines and schedules, for the process function (and the end-of-data function). False for the streaming function, which runs after onProcessed. Each stage at most once in each list."
  },
  {
   "property": "C148",
   "status": "partial",
   "theorems": [
    "Fpki.Bridge.C76_ends_partial",
    "Fpki.Bridge.C76_blocked_forever",
    "Fpki.Bridge.C76_hang_violated"
   ],
   "note": "Listed together with C76 at first, hence the names of the theorems. Proved for all executions without failure, and that errors are reported faithfully. False after a failure: a forwarder blocked on a stopped DB stage keeps ingest from ending."
  },
  {
   "property": "C149",
   "status": "partial",
   "theorems": [
    "Fpki.CsvLoad.C77_domains_partial",
    "Fpki.CsvLoad.C77_valid_names",
    "Fpki.CsvLoad.C77_update_domains_partial",
    "Fpki.CsvLoad.C77_injection_violated",
    "Fpki.CsvLoad.C77_quote_violated",
    "Fpki.CsvLoad.C77_comma_violated",
    "Fpki.CsvLoad.C77_null_violated",
    "Fpki.CsvLoad.C77_backslash_violated"
   ],
   "note": "Listed together with C77 at first, hence the names of the theorems. Proved for certificates, dirty domains and domain-certificate pairs, and for names accepted by IsValidDomain other than NULL. False for other names found in certificates (not filtered, not quoted): a name with an end of line inserts a row of the attacker's choice. MySQL's LOAD DATA parser is modelled from its documentation."
  },
  {
   "property": "C15",
   "status": "proved",
   "theorems": [
    "Fpki.Dirty.C15_smt_input"
   ],
   "note": ""
  },
  {
   "property": "C150",
   "status": "partial",
   "theorems": [
    "Fpki.PayloadApi.C78_answer_partial",
    "Fpki.PayloadApi.C78_answer_history_partial",
    "Fpki.PayloadApi.C78_lost_rows_violated",
    "Fpki.PayloadApi.C78_empty_violated",
    "Fpki.PayloadApi.C78_both_tables_violated"
   ],
   "note": "Listed together with C78 at first, hence the names of the theorems. Proved for at least one ID and rows read without error, after every history of the DB. False if reading the rows fails (connection lost, 5 s timeout): rows.Err is never checked, so stored certificates are reported as absent with status 200. False for the empty list (IN () is an SQL error)."
  },
  {
   "property": "C151",
   "status": "partial",
   "theorems": [
    "Fpki.Prune.C79_utc_exact_partial",
    "Fpki.Prune.C79_retry_other_session_partial",
    "Fpki.Prune.C79_zone_violated",
    "Fpki.Prune.C79_zone_west_violated",
    "Fpki.Prune.C79_equal_violated",
    "Fpki.Prune.C79_retry_violated"
   ],
   "note": "Listed together with C79 at first, hence the names of the theorems. Proved for machines in UTC. False elsewhere: the cut-off is the local wall clock, the expirations are UTC. A failed call is all or nothing and keeps payloads consistent; a retry works over another connection; over the same connection every later call fails because the temporary table is left."
  },
  {
   "property": "C152",
   "status": "partial",
   "theorems": [
    "Fpki.Ticker.C80_on_time_partial",
    "Fpki.Ticker.C80_cancel_partial",
    "Fpki.Ticker.C80_duration_matters_violated",
    "Fpki.Ticker.C80_cancelled_early_violated",
    "Fpki.Ticker.C80_cancelled_late_violated",
    "Fpki.Ticker.C80_zero_interval_violated"
   ],
   "note": "Listed together with C80 at first, hence the names of the theorems. Proved for runs shorter than the interval; never too often, no overlap and no end without cancellation are proved for all runs. False: a run longer than the interval shifts the next one; after cancellation the first run still happens, and long runs can be followed by any number of further ones; an interval of 0 panics."
  },
  {
   "property": "C153",
   "status": "partial",
   "theorems": [
    "Fpki.TempFile.C82_complete_partial",
    "Fpki.TempFile.C82_bounded_partial",
    "Fpki.TempFile.C82_cleaned_violated",
    "Fpki.TempFile.C82_write_error_violated"
   ],
   "note": "Listed together with C82 at first, hence the names of the theorems. Right file, exclusive names, end and progress are proved for all histories. That nothing is left and everything is loaded is proved if nothing fails; false after an error of the DB or of a write: the files stay for ever."
  },
  {
   "property": "C154",
   "status": "partial",
   "theorems": [
    "Fpki.Interrupt.C84_signals_obeyed_partial",
    "Fpki.Interrupt.C84_signal_lost_violated",
    "Fpki.Interrupt.C84_signal_lost_completes"
   ],
   "note": "Listed together with C84 at first, hence the names of the theorems. Proved for the signals that enter the channel. False for all signals: the channel has room for one, so a SIGINT sent while two SIGUSR1 are pending is dropped. A running batch is one step."
  },
  {
   "property": "C155",
   "status": "partial",
   "theorems": [
    "Fpki.Pipe.C85_nil_success_partial",
    "Fpki.Pipe.C85_tree_no_deadlock_partial",
    "Fpki.Pipe.C85_updater_hang_violated",
    "Fpki.Pipe.C85_stop_violated",
    "Fpki.Pipe.C85_fanin_violated",
    "Fpki.Pipe.C85_early_violated",
    "Fpki.Pipe.C85_nil_violated"
   ],
   "note": "Listed together with C85 at first, hence the names of the theorems. Proved for all acyclic networks: no infinite execution, no invented error; without failures no deadlock and nothing lost. With failures: chains never deadlock; trees do not if stages have one output at a time (or the cycles mode) and none says NoMoreData early; nil means success if all stages are so. False in general: the updater can hang after a DB error (its source has two outputs at a time), so can a fan-in or a stage that says NoMoreData; Wait can return while stages run, and can return nil after a failure."
  },
  {
   "property": "C156",
   "status": "partial",
   "theorems": [
    "Fpki.LocalFetch.C87_bad_row_crash_violated",
    "Fpki.LocalFetch.C87_no_chain_violated",
    "Fpki.LocalFetch.C87_formats_differ_violated",
    "Fpki.LocalFetch.C87_silent_violated",
    "Fpki.LocalFetch.C87_abandoned_violated"
   ],
   "note": "Listed together with C87 at first, hence the names of the theorems. Delivery, progress and termination proved for all schedules. False: a row that cannot be parsed (such as that of a root certificate, which has no chain) panics in a goroutine and ends the program; a file that cannot be opened or read is printed but not reported to the caller, and its parsers wait for ever; if the caller stops taking batches the goroutines stay."
  },
  {
   "property": "C157",
   "status": "partial",
   "theorems": [
    "Fpki.TreeHead.C88_quiet_partial",
    "Fpki.TreeHead.C88_available_partial",
    "Fpki.TreeHead.C88_reload_violated",
    "Fpki.TreeHead.C88_mixed_violated",
    "Fpki.TreeHead.C88_sign_failure_violated",
    "Fpki.TreeHead.C88_unavailable_violated"
   ],
   "note": "Listed together with C88 at first, hence the names of the theorems. Proved for requests that overlap no replacement of the tree; for all schedules that proof, root and signature each belong to a tree saved in the DB and are not older than the last complete reload. False: during a reload an answer can have a new root with the old signature, or a proof of another tree; the parts of one answer can be about different trees; a failed signature leaves the new tree with the old signature; after an update and before the reload requests can fail."
  },
  {
   "property": "C158",
   "status": "partial",
   "theorems": [
    "Fpki.SmtPar.C89_result_partial",
    "Fpki.SmtPar.C89_committed_partial",
    "Fpki.SmtPar.C89_no_race_partial"
   ],
   "note": "Listed together with C89 at first, hence the names of the theorems. Every access to the caches and to a slot of a batch is a step of its own. Termination, absence of deadlock and the bound on workers are proved without hypotheses; the result and the absence of races with the hypotheses of C10 (every entry changes something, only the smallest or largest key of a batch is deleted, no accidents of the hash function, no keys that agree in 255 bits), whose necessity C10 shows."
  },
  {
   "property": "C159",
   "status": "partial",
   "theorems": [
    "Fpki.JournalFile.C90_saved_partial",
    "Fpki.JournalFile.C90_machine_crash_violated",
    "Fpki.JournalFile.C90_two_processes_violated"
   ],
   "note": "Listed together with C90 at first, hence the names of the theorems. Never torn, never unreadable, errors change nothing and other files are untouched: proved for all processes, failures and crashes. That what was saved stays is proved for processes running one after the other, and across machine crashes once the directory is on the disk. False otherwise: the directory is not synced after the renaming (syncDirAfterRename does nothing), so a crash can bring the old journal back after a nil result; two processes at the same time overwrite each other's progress. JSON coding is a parameter."
  },
  {
   "property": "C16",
   "status": "proved",
   "theorems": [
    "Fpki.Dirty.C16_pagination_exact",
    "Fpki.Dirty.C16_short_only_at_end"
   ],
   "note": "The table does not change while it is read; DB errors not modelled."
  },
  {
   "property": "C160",
   "status": "partial",
   "theorems": [
    "Fpki.JournalMem.C92_text_roundtrip_partial",
    "Fpki.JournalMem.C92_text_violated",
    "Fpki.JournalMem.C92_text_collapse_violated"
   ],
   "note": "Listed together with C92 at first, hence the names of the theorems. Proved for all histories over directory names that JSON keeps. False for a directory name that is not valid UTF-8: JSON replaces the invalid bytes, so after a restart nothing is completed for it, and two such names can become one entry."
  },
  {
   "property": "C161",
   "status": "partial",
   "theorems": [
    "Fpki.Owner.C94_issued_partial",
    "Fpki.Owner.C94_in_certificate_violated",
    "Fpki.Owner.C94_unchecked_violated"
   ],
   "note": "Listed together with C94 at first, hence the names of the theorems. Proved: signing, binding, and that honest time stamps verify for the CA's first certificate. False: the logs sign a certificate whose issuer signature is then replaced, so no time stamp verifies for the issued certificate or any part of it; and the CA accepts any answer as a time stamp."
  },
  {
   "property": "C162",
   "status": "partial",
   "theorems": [
    "Fpki.Wire.C103_accepted_partial"
   ],
   "note": "Listed together with C103 at first, hence the names of the theorems. The reading is proved in full. The acceptance has the conditions of C13 (tree in sync with the tables, no deletions in the middle of a batch). The transport (HTTP, TLS, protobuf) is not modelled."
  },
  {
   "property": "C163",
   "status": "partial",
   "theorems": [
    "Fpki.JournalText.C105_roundtrip_partial",
    "Fpki.JournalText.C105_loads_partial",
    "Fpki.JournalText.C105_accepted_partial",
    "Fpki.JournalText.C105_reread_partial",
    "Fpki.JournalText.C105_names_violated"
   ],
   "note": "Listed together with C105 at first, hence the names of the theorems. False for directory names that are not UTF-8: the name is written with replacement characters, so that the progress is read back under another name and the files are ingested again. Intervals that end at 2^64-1 are excluded where normalization fails on them (C02/C92). One simplification: a hand-made file with the member CompletedIndices twice in one job."
  },
  {
   "property": "C164",
   "status": "partial",
   "theorems": [
    "Fpki.E2E.C115_interrupted_early_partial",
    "Fpki.E2E.C115_overwrite_recovers_partial",
    "Fpki.E2E.C115_interrupted_violated"
   ],
   "note": "Listed together with C115 at first, hence the names of the theorems. Proved except for the repetition of an interrupted submission: after a stop between the third and fourth statement the policies are stored without link, and UpdateWithKeepExisting never links them (general). UpdateWithOverwrite heals it. Policies are also never removed when they expire (C115_never_removed)."
  },
  {
   "property": "C165",
   "status": "partial",
   "theorems": [
    "Fpki.Bulk.C123_inverted_range_violated"
   ],
   "note": "Listed together with C123 at first, hence the names of the theorems. Violated for empty ranges with start > end + 1: the call panics (negative capacity), although the fetching goroutine accepts them. Proved for all other ranges."
  },
  {
   "property": "C166",
   "status": "partial",
   "theorems": [
    "Fpki.Bulk.C124_refused_partial",
    "Fpki.Bulk.C124_stored_nowhere_violated"
   ],
   "note": "Listed together with C124 at first, hence the names of the theorems. Violated: the call returns no error for every readable file and stores nothing. Proved: which certificates are made from a file, and that files which cannot be read or have a line of 64 KiB or more are refused as a whole."
  },
  {
   "property": "C167",
   "status": "partial",
   "theorems": [
    "Fpki.CsvFile.C126_contents_partial",
    "Fpki.CsvFile.C126_short_row_violated",
    "Fpki.CsvFile.C126_no_chain_violated"
   ],
   "note": "Listed together with C126 at first, hence the names of the theorems. Violated: a row with fewer than five columns makes the call panic (the exact condition is C126_panics), and one row without chain (a root certificate) makes the whole file fail. Everything else is proved; encoding/csv and base64 are modelled, X.509 parsing is a parameter."
  },
  {
   "property": "C168",
   "status": "partial",
   "theorems": [
    "Fpki.CsvFile.C127_roundtrip_partial",
    "Fpki.CsvFile.C127_pointer_violated"
   ],
   "note": "Listed together with C127 at first, hence the names of the theorems. Violated only for a pointer to a list: ToJSON writes it, LoadPoliciesFromRaw refuses it. encoding/json on single objects is a parameter, as in C60."
  },
  {
   "property": "C169",
   "status": "partial",
   "theorems": [
    "Fpki.LogConf.C128_roundtrip_partial",
    "Fpki.LogConf.C128_stale_violated",
    "Fpki.LogConf.C128_bytes_violated",
    "Fpki.LogConf.C128_no_workers_violated"
   ],
   "note": "Listed together with C128 at first, hence the names of the theorems. Violated: fields saved as zero keep the old values of the struct that is read into; texts that are not UTF-8 are changed; an empty or misspelt file is accepted and gives a client without workers, whose AddLeaves never returns. The exact result of reading is proved for all old and new values. The float64 field QuotaIncreaseFactor is not modelled."
  },
  {
   "property": "C17",
   "status": "partial",
   "theorems": [
    "Fpki.Db.C17_presence_partial",
    "Fpki.Db.C17_true_is_right",
    "Fpki.Db.C17_presence_violated",
    "Fpki.Db.C17_policies_partial",
    "Fpki.Db.C17_policies_violated"
   ],
   "note": "Proved when the number of IDs is not a multiple of 1000; false when it is: the last 1000 are always reported missing. Policies: proved up to group_concat_max_len IDs."
  },
  {
   "property": "C170",
   "status": "partial",
   "theorems": [
    "Fpki.LogHead.C129_size_partial",
    "Fpki.LogHead.C129_concurrent_partial",
    "Fpki.LogHead.C129_delivered_partial",
    "Fpki.LogHead.C129_size_violated",
    "Fpki.LogHead.C129_unchecked_violated",
    "Fpki.LogHead.C129_race_violated",
    "Fpki.LogHead.C129_delivered_violated"
   ],
   "note": "Listed together with C129 at first, hence the names of the theorems. Violated: overlapping calls can leave the size of one answer with the root of another; any root, also of a smaller tree, is taken without a check; sizes from 2^63 become negative; the delivered proof is for the client's tree size, but the delivered tree head is the log's latest, so the two do not fit if the log has grown. Proved: sequential calls; overlapping calls leave only roots and sizes that the log answered; the proof fits if the sizes agree, and always fits the client's own root. The answers of an honest Trillian log to GetInclusionProofByHash are modelled (not in /repo)."
  },
  {
   "property": "C171",
   "status": "partial",
   "theorems": [
    "Fpki.E2E.C134_no_dangling_partial",
    "Fpki.E2E.C134_client_partial",
    "Fpki.E2E.C134_dangling_violated"
   ],
   "note": "Listed together with C134 at first, hence the names of the theorems. Genuineness holds always. The end-to-end theorem: no pruning, submissions not interrupted, consistent (C117) and without hash collisions. Violated between a pruning and the end of the next update: certificates are proved present whose payload comes back as null with status 200 (C134_dangling_violated)."
  },
  {
   "property": "C172",
   "status": "partial",
   "theorems": [
    "Fpki.Pem.C98_key_panic_violated",
    "Fpki.Pem.C98_none_violated",
    "Fpki.Pem.C98_cut_violated"
   ],
   "note": "Listed together with C98 at first, hence the names of the theorems. The round trips hold (encoding/pem is modelled in full; the x509 parsers are assumed to read back what they wrote). RSAKeyFromPEM panics for every text without a PEM block, also at the start of the map server and the PCA; for a text without a certificate CertificateFromPEMBytes returns a pointer to an empty certificate and no error; for texts with something after the END mark the result depends on where the reader cuts."
  },
  {
   "property": "C173",
   "status": "partial",
   "theorems": [
    "Fpki.IngestDb.C118_links_partial",
    "Fpki.IngestDb.C118_links_violated",
    "Fpki.IngestDb.C118_dangling_violated"
   ],
   "note": "Listed together with C118 at first, hence the names of the theorems. Violated in two parts. Of several certificates of a batch with the same name only one (which one depends on the schedule) is sure to be linked and returned: the domain extractors skip names they have seen, with the certificate. And links can be written before their certificates, so that a crash leaves links to certificates that are not stored (a repetition of the batch repairs that)."
  },
  {
   "property": "C174",
   "status": "partial",
   "theorems": [
    "Fpki.Retrieve.C119_dirty_list_partial",
    "Fpki.Retrieve.C119_parallel_partial",
    "Fpki.Retrieve.C119_backwards_violated",
    "Fpki.Retrieve.C119_dirty_list_violated",
    "Fpki.Retrieve.C119_parallel_violated"
   ],
   "note": "Listed together with C119 at first, hence the names of the theorems. Violated in three corners: RetrieveDirtyDomains does not look at rows.Err, so that a connection that breaks while it reads gives a part of the dirty domains without an error; a page with end < start gives everything from start on (the uint64 subtraction wraps around); the parallel retrieval (not called by anybody) returns repeated domains several times."
  },
  {
   "property": "C175",
   "status": "partial",
   "theorems": [
    "Fpki.Rows.C86_files_partial",
    "Fpki.Rows.C86_no_chain_violated",
    "Fpki.Rows.C86_line_break_violated",
    "Fpki.Rows.C86_far_future_violated",
    "Fpki.Rows.C86_ptr_counter_violated"
   ],
   "note": "Listed together with C86 at first, hence the names of the theorems. encoding/csv, base64, ParseInt and time.After are modelled, X.509 parsing and SHA-256 are parameters. Completeness over all files needs the hypothesis of C35 (the chain after a certificate is the same everywhere). False: a row without a chain is an error that stops ingest; a quoted column with a line break makes the file unreadable; expirations near 2^63 count as past; the unused pointer worker counts cached leaves as uncached."
  },
  {
   "property": "C176",
   "status": "proved",
   "theorems": [
    "Fpki.Again.C176_careful",
    "Fpki.Again.C176_ends",
    "Fpki.Again.C176_wait"
   ],
   "note": "That all goroutines have returned cannot be seen through the API: see C177."
  },
  {
   "property": "C177",
   "status": "partial",
   "theorems": [
    "Fpki.Again.C177_again_partial",
    "Fpki.Again.C177_panic_violated",
    "Fpki.Again.C177_hang_violated"
   ],
   "note": "Violated: a stage closes its error channel first, which makes Wait return, and then closes s.StopCh, a field that Resume has meanwhile filled with the channel of the new run. The new run then either stops silently, so that Wait never returns, or closes the channel again, which panics. For every length of the chain, without any failure. Manager.Resume after Manager.Wait and WithAutoResumeAtStage have the same race. Holds if all goroutines of the earlier runs have returned."
  },
  {
   "property": "C178",
   "status": "partial",
   "theorems": [
    "Fpki.E2E.C178_client_partial"
   ],
   "note": "Conditions: those of C132 (submissions not interrupted, consistent and in order: otherwise the dates are shifted, C132_late_violated and C132_early_violated; UpdateSMT without the bug of C05) and no hash collisions. Without the conditions on dates: C133."
  },
  {
   "property": "C179",
   "status": "partial",
   "theorems": [
    "Fpki.Smt.C08_non_inclusion_equiv_partial",
    "Fpki.Smt.C08_empty_trie_violated"
   ],
   "note": "Listed together with C08 at first, hence the names of the theorems. Missing: the empty trie, where the uncompressed proof is accepted and the compressed one rejected."
  },
  {
   "property": "C18",
   "status": "proved",
   "theorems": [
    "Fpki.Db.C18_existing_kept_all_stored",
    "Fpki.Db.C18_own_data"
   ],
   "note": "The neighbouring property that does not hold in general is C135."
  },
  {
   "property": "C180",
   "status": "partial",
   "theorems": [
    "Fpki.Fetch.C26_inverted_range_violated"
   ],
   "note": "Listed together with C26 at first, hence the names of the theorems. Proved for files with start <= end; a file such as 5-4.csv makes initialising recurse for ever."
  },
  {
   "property": "C181",
   "status": "partial",
   "theorems": [
    "Fpki.Ingest.C30_coalesced_flag_partial",
    "Fpki.Ingest.C30_coalesced_flag_violated",
    "Fpki.Ingest.C30_same_base_violated"
   ],
   "note": "Listed together with C30 at first, hence the names of the theorems. Main claim proved over all histories with crash points. False parts: the Coalesced flag after onlysmtupdate, and directories sharing their base name."
  },
  {
   "property": "C182",
   "status": "partial",
   "theorems": [
    "Fpki.Domain.C53_covers_partial",
    "Fpki.Domain.C53_www_violated"
   ],
   "note": "Listed together with C53 at first, hence the names of the theorems. With more than four names, a valid name like www.com, which is a public suffix once www. is removed, is silently dropped, so the covering property is false for it; proved for all others."
  },
  {
   "property": "C183",
   "status": "partial",
   "theorems": [
    "Fpki.Util.C54_nil_iff_all_nil_partial",
    "Fpki.Util.C54_nil_violated"
   ],
   "note": "Listed together with C54 at first, hence the names of the theorems. Everything except: a CoalescedErrors value without children is a non-nil error that is turned into nil."
  },
  {
   "property": "C184",
   "status": "partial",
   "theorems": [
    "Fpki.PolicyJson.C60_roundtrip_partial",
    "Fpki.PolicyJson.C60_double_pointer_violated",
    "Fpki.PolicyJson.C60_nil_pointer_violated",
    "Fpki.PolicyJson.C60_typed_slice_violated"
   ],
   "note": "Listed together with C60 at first, hence the names of the theorems. encoding/json is a parameter. Proved for objects, slices of any and single pointers; false for pointers to pointers, nil pointers and typed slices."
  },
  {
   "property": "C185",
   "status": "partial",
   "theorems": [
    "Fpki.LogClient.C61_add_leaves_partial",
    "Fpki.LogClient.C61_spurious_violated",
    "Fpki.LogClient.C61_no_leaves_violated",
    "Fpki.LogClient.C61_no_workers_violated"
   ],
   "note": "Listed together with C61 at first, hence the names of the theorems. Errors and failed leaves match, but the list of failed leaves always begins with a spurious empty leaf; no leaves: panic; no workers: blocks."
  },
  {
   "property": "C186",
   "status": "partial",
   "theorems": [
    "Fpki.CtSize.C95_handover_partial",
    "Fpki.CtSize.C95_underscore_violated",
    "Fpki.CtSize.C95_two_logs_violated",
    "Fpki.CtSize.C95_regress_violated",
    "Fpki.CtSize.C95_dot_violated",
    "Fpki.CtSize.C95_overflow_violated"
   ],
   "note": "Listed together with C95 at first, hence the names of the theorems. Proved: cleaning keeps the directory, equal directories have equal keys, the handover for URLs without underscore, nothing else changes. False: for URLs with an underscore, for two URLs with the same directory name, when the map server was already further, when the directory is given as '.', and for indices from 2^63-1."
  },
  {
   "property": "C187",
   "status": "partial",
   "theorems": [
    "Fpki.PolicyText.C102_roundtrip_partial",
    "Fpki.PolicyText.C102_certificate_partial",
    "Fpki.PolicyText.C102_owner_binding_partial",
    "Fpki.PolicyText.C102_issuer_binding_partial",
    "Fpki.PolicyText.C102_seconds_violated"
   ],
   "note": "Listed together with C102 at first, hence the names of the theorems. True for strings in UTF-8 (other bytes are replaced, C45) and time zones of whole minutes; every certificate that was read from a text is of this kind. False for other zones: the seconds of a zone are not in the text, so the expiration of a signed certificate can be moved by up to two minutes. The assumption Env.Faithful of C45, C46, C73, C93, C94 is proved here for the concrete texts. Left out of the model: lists of numbers given for a []byte, texts that only the general parser of package time accepts, and the copy of the text in the object (C60)."
  },
  {
   "property": "C188",
   "status": "partial",
   "theorems": [
    "Fpki.Coalesce.C112_always_partial",
    "Fpki.Coalesce.C112_nil_partial",
    "Fpki.Coalesce.C112_two_runs_violated",
    "Fpki.Coalesce.C112_writer_violated"
   ],
   "note": "Listed together with C112 at first, hence the names of the theorems. Proved for runs one after the other with nobody else writing. Violated: two runs at the same time (or a procedure that goes on in the server after its client has ended) mark a chunk as coalesced that was never computed; a certificate inserted between REPLACE and UPDATE dirty is marked as coalesced without being in the payload. SQL statements are atomic and modelled by hand."
  },
  {
   "property": "C189",
   "status": "partial",
   "theorems": [
    "Fpki.E2E.C121_found_partial",
    "Fpki.E2E.C121_exactly_partial",
    "Fpki.E2E.C121_wildcard_violated",
    "Fpki.E2E.C121_www_violated",
    "Fpki.E2E.C121_case_violated"
   ],
   "note": "Listed together with C121 at first, hence the names of the theorems. Violated: certificates are stored under their names as they are, but questions are cut (`*.`, `www.`), so a certificate only for `*.example.com` is shown for no question at all (its absence is proved), one only for `www.example.com` is not shown to a client that asks for `www.example.com`, and names in upper case are not found in lower case. Proved for names that do not begin with `*.` or `www.`, under the conditions of C91."
  },
  {
   "property": "C19",
   "status": "proved",
   "theorems": [
    "Fpki.Chains.C19_unfold_complete",
    "Fpki.Chains.C19_aligned",
    "Fpki.Chains.C19_once_violated"
   ],
   "note": "As stated. The extra promise of the doc comment (each certificate once) is false: C19_once_violated."
  },
  {
   "property": "C190",
   "status": "partial",
   "theorems": [
    "Fpki.PolicyFile.C122_shown_partial",
    "Fpki.PolicyFile.C122_wildcard_violated",
    "Fpki.PolicyFile.C122_completes_partial",
    "Fpki.PolicyFile.C122_again_partial"
   ],
   "note": "Listed together with C122 at first, hence the names of the theorems. Violated for policy certificates for `*.` and `www.` domains, as C121: the command reports success, but no client that asks for the domain ever sees them. Proved for all others, under the conditions of C91 (no pruning, submissions that are not interrupted and agree with each other)."
  },
  {
   "property": "C191",
   "status": "proved",
   "theorems": [
    "Fpki.Bench.C191_exactly_once",
    "Fpki.Bench.C191_result",
    "Fpki.Bench.C191_always",
    "Fpki.Bench.C191_ends",
    "Fpki.Bench.C191_refused"
   ],
   "note": "Calls that are running are assumed to return at some time."
  },
  {
   "property": "C192",
   "status": "proved",
   "theorems": [
    "Fpki.Bench.C192_shares",
    "Fpki.Bench.C192_capacity",
    "Fpki.Bench.C192_balance",
    "Fpki.Bench.C192_skew",
    "Fpki.Bench.C192_fixture",
    "Fpki.Bench.C192_expected"
   ],
   "note": "Exact arithmetic instead of floats; 20480 to 2^60 domains. Coalescing is that of the current procedure (C22), not that of the old variant compared with it."
  },
  {
   "property": "C193",
   "status": "partial",
   "theorems": [
    "Fpki.Bench.C193_sound",
    "Fpki.Bench.C193_new",
    "Fpki.Bench.C193_old_partial",
    "Fpki.Bench.C193_old_violated"
   ],
   "note": "Violated: with -balance from 1 to 75 every run of the old procedure is rejected (C193_old_violated), because it joins certificates with policies and lists every ID several times; so the examples of the README with a balance cannot be completed. With -balance 0 they are accepted (C193_old_partial); runs of the new procedure always (C193_new). Soundness for hashes without collisions."
  },
  {
   "property": "C194",
   "status": "proved",
   "theorems": [
    "Fpki.BenchStats.C194_median",
    "Fpki.BenchStats.C194_iqr",
    "Fpki.BenchStats.C194_pairs",
    "Fpki.BenchStats.C194_faster",
    "Fpki.BenchStats.C194_printed"
   ],
   "note": "Exact arithmetic instead of floating point numbers."
  },
  {
   "property": "C195",
   "status": "proved",
   "theorems": [
    "Fpki.AutoResume.C195_errors",
    "Fpki.AutoResume.C195_end",
    "Fpki.AutoResume.C195_order"
   ],
   "note": "For stages that are linked with LinkStagesAt or LinkStagesFanOut (otherwise C197). What the stages do with their data is not part of it (C85)."
  },
  {
   "property": "C196",
   "status": "partial",
   "theorems": [
    "Fpki.AutoResume.C196_careful_partial",
    "Fpki.AutoResume.C196_panic_violated",
    "Fpki.AutoResume.C196_hang_violated"
   ],
   "note": "Violated: the target closes its error channel before its stop channel; if it is resumed in between, it closes the stop channel of its successor, which then panics at its end (C196_panic_violated) or returns at once and never closes its error channel (C196_hang_violated). It holds if the earlier goroutine has returned by then (C196_careful_partial)."
  },
  {
   "property": "C197",
   "status": "partial",
   "theorems": [
    "Fpki.AutoResume.C197_early_partial",
    "Fpki.AutoResume.C197_end_violated",
    "Fpki.AutoResume.C197_lost_violated"
   ],
   "note": "Violated for LinkStagesCrissCross and LinkStagesDistribute: their goroutine evaluates the field ErrCh of the target when it is scheduled, possibly after the option has replaced it; then the previous stages are told of the end of a stage that is resumed (C197_end_violated), or an error is never received (C197_lost_violated). It holds for LinkStagesAt and LinkStagesFanOut (C197_early_partial)."
  },
  {
   "property": "C198",
   "status": "partial",
   "theorems": [
    "Fpki.PipeCheck.C198_check",
    "Fpki.PipeCheck.C198_ends_partial",
    "Fpki.PipeCheck.C198_ends_violated"
   ],
   "note": "Violated: only the presence of a source and of a sink is checked, not where they are (C198_check says exactly what is); SourceStage and SinkStage then panic."
  },
  {
   "property": "C199",
   "status": "proved",
   "theorems": [
    "Fpki.Exit.C199_all"
   ],
   "note": "Functions that panic are not modelled; that Close of the journal can be called by both is C90."
  },
  {
   "property": "C20",
   "status": "partial",
   "theorems": [
    "Fpki.Batch.C20_partition_lt",
    "Fpki.Batch.C20_worker_exists_partial",
    "Fpki.Batch.C20_worker_exists_violated"
   ],
   "note": "Proved for partition indices of up to 8 bits and for power-of-two worker counts (or more than 256); false for every other worker count (violated theorem)."
  },
  {
   "property": "C200",
   "status": "partial",
   "theorems": [
    "Fpki.Exit.C200_status_partial",
    "Fpki.Exit.C200_status_violated"
   ],
   "note": "Violated: the error of the deferred ShutdownFunction is dropped, the exit code is 0 (C200_status_violated). That the work itself has succeeded does hold (C200_status_partial)."
  },
  {
   "property": "C201",
   "status": "partial",
   "theorems": [
    "Fpki.LogServe.C201_db_partial",
    "Fpki.LogServe.C201_db_violated"
   ],
   "note": "Violated if the listener fails: the deferred DBClose runs before the deferred GracefulStop. That the gRPC library stops as documented is an assumption."
  },
  {
   "property": "C202",
   "status": "partial",
   "theorems": [
    "Fpki.LogServe.C202_status_partial",
    "Fpki.LogServe.C202_status_violated"
   ],
   "note": "Violated if the signal comes before Serve is called: Serve then returns ErrServerStopped. That this is the only case is C202_status_partial."
  },
  {
   "property": "C203",
   "status": "proved",
   "theorems": [
    "Fpki.LogServe.C203_ends"
   ],
   "note": "That the library lets no request in after GracefulStop has begun is an assumption, stated in the model."
  },
  {
   "property": "C204",
   "status": "partial",
   "theorems": [
    "Fpki.IngestStats.C204_written_partial",
    "Fpki.IngestStats.C204_written_violated"
   ],
   "note": "Violated: joining the pipelines drops the only stage that counts, the number is always 0. True of the pipeline of files alone (C204_written_partial)."
  },
  {
   "property": "C205",
   "status": "partial",
   "theorems": [
    "Fpki.IngestStats.C205_percent_partial",
    "Fpki.IngestStats.C205_percent_violated",
    "Fpki.IngestStats.C205_counters",
    "Fpki.IngestStats.rowTrace_stats"
   ],
   "note": "Violated: the whole is loaded before the part (C205_percent_violated). The counters themselves are in order at any time (C205_counters), and so is what is printed if no worker takes a step in between (C205_percent_partial)."
  },
  {
   "property": "C206",
   "status": "proved",
   "theorems": [
    "Fpki.IngestStats.C206_rows"
   ],
   "note": "Missing files that are skipped are announced too; then fewer than 100 percent are shown."
  },
  {
   "property": "C207",
   "status": "proved",
   "theorems": [
    "Fpki.IngestStats.C207_stages",
    "Fpki.IngestStats.C207_one"
   ],
   "note": "Linking the stages that remain is left to the caller; for ingest that is C76 and C148."
  },
  {
   "property": "C208",
   "status": "proved",
   "theorems": [
    "Fpki.Hasher.C208_calls",
    "Fpki.Hasher.C208_copy",
    "Fpki.Hasher.C208_pieces",
    "Fpki.Hasher.C208_fixed_lengths"
   ],
   "note": "The hash function itself is a parameter with results of 32 bytes. One goroutine at a time, as in the workers that own a hasher."
  },
  {
   "property": "C209",
   "status": "proved",
   "theorems": [
    "Fpki.Options.C209_stage",
    "Fpki.Options.C209_source",
    "Fpki.Options.C209_source_resume",
    "Fpki.Options.C209_sink"
   ],
   "note": "Functions, channels and slices in the options are numbers. What happens on Resume is that of the source option if there is one only; an example shows what remains of the first of two."
  },
  {
   "property": "C21",
   "status": "proved",
   "theorems": [
    "Fpki.Db.C21_prune_result"
   ],
   "note": "The neighbouring property that does not hold in general is C136."
  },
  {
   "property": "C210",
   "status": "proved",
   "theorems": [
    "Fpki.SendAll.C210_at_most",
    "Fpki.SendAll.C210_all",
    "Fpki.SendAll.C210_offers",
    "Fpki.SendAll.C210_ends"
   ],
   "note": "Channels are open, as those of the ingest processor are while it sends; a closed one would panic. That receivers come is up to the callers (C76, C96, C148)."
  },
  {
   "property": "C211",
   "status": "partial",
   "theorems": [
    "Fpki.GrpcServe.C211_until_told_partial",
    "Fpki.GrpcServe.C211_starts",
    "Fpki.GrpcServe.C211_stops_violated"
   ],
   "note": "False: neither the server nor the listener is closed, so that after StartWork has returned, always, queries go on being answered and the port stays taken. Proved: starting, and everything until it is told to stop. The gRPC library and failures of Serve (ignored by the code) are not modelled."
  },
  {
   "property": "C212",
   "status": "partial",
   "theorems": [
    "Fpki.Admin.C212_created_partial",
    "Fpki.Admin.C212_files",
    "Fpki.Admin.C212_error_partial",
    "Fpki.Admin.C212_interval_violated",
    "Fpki.Admin.C212_error_violated"
   ],
   "note": "False: MaxRootDuration of the configuration is never used (the time to wait for answers is used instead, so that the interval cannot be zero, which stands for never); after an error a tree can remain on the log server without a file. Proved: name, description, kind and file, for all histories (C212_files assumes that the log server does not use an ID twice), and what an error leaves. The Trillian client and JSON are modelled by their effects."
  },
  {
   "property": "C22",
   "status": "proved",
   "theorems": [
    "Fpki.Db.C22_coalesced_payload",
    "Fpki.Db.C22_order_free"
   ],
   "note": "SQL is modelled by hand; the 32 workers run one after another."
  },
  {
   "property": "C23",
   "status": "partial",
   "theorems": [
    "Fpki.Db.C23_overwrite_recovers_partial",
    "Fpki.Db.C23_new_certificates_arrive_partial",
    "Fpki.Db.C23_crash_violated"
   ],
   "note": "Proved for UpdateWithOverwrite; false for UpdateWithKeepExisting, which skips the stored but not yet linked certificates."
  },
  {
   "property": "C24",
   "status": "proved",
   "theorems": [
    "Fpki.Updater.C24_recorded_mono",
    "Fpki.Updater.C24_recorded_changes",
    "Fpki.Updater.C24_restart_at_recorded",
    "Fpki.Updater.C24_progress",
    "Fpki.Updater.C24_stored_changes",
    "Fpki.Updater.C24_http_progress"
   ],
   "note": "The neighbouring property that does not hold in general is C137."
  },
  {
   "property": "C25",
   "status": "proved",
   "theorems": [
    "Fpki.Fetch.C25_exact_range",
    "Fpki.Fetch.C25_never_wrong",
    "Fpki.Fetch.C25_empty_range",
    "Fpki.Fetch.C25_empty_answers_loop"
   ],
   "note": "HTTP and parsing of entries are arbitrary functions. Without the condition of non-empty answers the fetcher asks for ever (C25_empty_answers_loop)."
  },
  {
   "property": "C26",
   "status": "proved",
   "theorems": [
    "Fpki.Fetch.C26_initialize",
    "Fpki.Fetch.C26_target",
    "Fpki.Fetch.C26_nothing_new",
    "Fpki.Fetch.C26_chain_unique",
    "Fpki.Fetch.C26_duplicate_refused"
   ],
   "note": "The neighbouring property that does not hold in general is C180."
  },
  {
   "property": "C27",
   "status": "proved",
   "theorems": [
    "Fpki.Batch.C27_batches_concat",
    "Fpki.Batch.C27_no_deadlock",
    "Fpki.Batch.C27_terminates",
    "Fpki.Fetch.C27_local_batches"
   ],
   "note": "Certificate and domain batcher under every schedule; the local fetcher's batcher as a function of the rows it receives."
  },
  {
   "property": "C28",
   "status": "proved",
   "theorems": [
    "Fpki.Journal.C28_append_covers_union",
    "Fpki.Journal.C28_canonical_unique",
    "Fpki.Journal.C28_normalize_accepts"
   ],
   "note": "The neighbouring property that does not hold in general is C138."
  },
  {
   "property": "C29",
   "status": "proved",
   "theorems": [
    "Fpki.Journal.C29_contains_iff_covered",
    "Fpki.Ingest.C29_pending_exact",
    "Fpki.Ingest.C29_pending_fails_iff"
   ],
   "note": ""
  },
  {
   "property": "C30",
   "status": "proved",
   "theorems": [
    "Fpki.Ingest.C30_completed_was_processed",
    "Fpki.Ingest.C30_updatedSMT_flag_true",
    "Fpki.Ingest.C30_unprocessed_offered_again"
   ],
   "note": "The neighbouring property that does not hold in general is C181."
  },
  {
   "property": "C31",
   "status": "partial",
   "theorems": [
    "Fpki.Ingest.C31_recorded_size_partial",
    "Fpki.Ingest.C31_recorded_size_violated"
   ],
   "note": "Proved when the completed set starts at index 0; otherwise false (indices 10-19 give size 20)."
  },
  {
   "property": "C32",
   "status": "proved",
   "theorems": [
    "Fpki.FastCsv.C32_fast_ok_iff",
    "Fpki.FastCsv.C32_quotes_fall_back",
    "Fpki.FastCsv.C32_hard_error_iff",
    "Fpki.FastCsv.C32_line_equals_columns"
   ],
   "note": "encoding/csv is a hypothesis for rows without quotes; base64 and certificate parsing after the split are not modelled."
  },
  {
   "property": "C33",
   "status": "partial",
   "theorems": [
    "Fpki.ListFiles.C33_listing_sound",
    "Fpki.ListFiles.C33_listing_complete_partial",
    "Fpki.ListFiles.C33_listing_violated"
   ],
   "note": "Sound for all trees; complete when no file was collected before a 'bundled' sibling is visited; otherwise files are lost."
  },
  {
   "property": "C34",
   "status": "partial",
   "theorems": [
    "Fpki.Batch.C34_first_certificate_linked_partial",
    "Fpki.Batch.C34_every_domain_dirty_partial",
    "Fpki.Batch.C34_links_are_real",
    "Fpki.Batch.C34_second_certificate_violated"
   ],
   "note": "Proved for the first certificate of each domain; false for later ones: the cache remembers the domain only."
  },
  {
   "property": "C35",
   "status": "partial",
   "theorems": [
    "Fpki.Chains.C35_every_certificate_emitted_partial",
    "Fpki.Chains.C35_rows_are_real",
    "Fpki.Chains.C35_leaf_names_partial",
    "Fpki.Chains.C35_every_certificate_emitted_violated",
    "Fpki.Chains.C35_leaf_names_violated"
   ],
   "note": "Proved when the chain after a certificate is the same in all lines of the worker; false for cross-signed certificates. A leaf already seen as a parent loses its names. Parsing and base64 not modelled."
  },
  {
   "property": "C36",
   "status": "proved",
   "theorems": [
    "Fpki.Batch.C36_batch_untouched",
    "Fpki.Batch.C36_batches_are_inputs"
   ],
   "note": "Slices modelled with backing arrays; batcher and next stage as a transition system."
  },
  {
   "property": "C37",
   "status": "partial",
   "theorems": [
    "Fpki.Stage.C37_own_error_reported_partial",
    "Fpki.Stage.C37_next_error_reported_partial",
    "Fpki.Stage.C37_pipeline_reports_partial",
    "Fpki.Stage.C37_next_error_violated",
    "Fpki.Stage.C37_stream_failure_violated"
   ],
   "note": "Proved for process/end functions, every schedule, pipelines of any length, when outputs are sent with cycles allowed or one per call. False: errors of the streaming function are dropped; with two outputs per call the closed channel's nil overwrites the error received before."
  },
  {
   "property": "C38",
   "status": "proved",
   "theorems": [
    "Fpki.Stage.C38_closed_once",
    "Fpki.Stage.C38_finished_closed",
    "Fpki.Stage.C38_no_deadlock"
   ],
   "note": ""
  },
  {
   "property": "C39",
   "status": "proved",
   "theorems": [
    "Fpki.Stage.C39_sequential_fair_and_complete",
    "Fpki.Stage.C39_concurrent_complete"
   ],
   "note": ""
  },
  {
   "property": "C40",
   "status": "proved",
   "theorems": [
    "Fpki.Stage.C40_exactly_once",
    "Fpki.Stage.C40_at_most_once",
    "Fpki.Stage.C40_no_panic",
    "Fpki.Stage.C40_stateless"
   ],
   "note": "All three sending modes, every schedule."
  },
  {
   "property": "C41",
   "status": "proved",
   "theorems": [
    "Fpki.Presence.C41_complete",
    "Fpki.Presence.C41_sound",
    "Fpki.Presence.C41_race_free",
    "Fpki.Presence.C41_terminates",
    "Fpki.Presence.C41_contains_never_blocks",
    "Fpki.Presence.C41_no_deadlock"
   ],
   "note": "The neighbouring property that does not hold in general is C139."
  },
  {
   "property": "C42",
   "status": "partial",
   "theorems": [
    "Fpki.Spin.C42_mutex_partial",
    "Fpki.Spin.C42_order_partial",
    "Fpki.Spin.C42_wait_partial",
    "Fpki.Spin.C42_progress",
    "Fpki.Spin.C42_relock_violated"
   ],
   "note": "Proved when each worker uses the lock once; false if a worker locks again before the starter has noticed its UnLock."
  },
  {
   "property": "C43",
   "status": "proved",
   "theorems": [
    "Fpki.PolicyAttr.C43_check",
    "Fpki.PolicyAttr.C43_says_unique",
    "Fpki.PolicyAttr.C43_own_domain",
    "Fpki.PolicyAttr.C43_whole_subtree",
    "Fpki.PolicyAttr.C43_dotted_entry_ignored"
   ],
   "note": "The neighbouring property that does not hold in general is C140."
  },
  {
   "property": "C44",
   "status": "proved",
   "theorems": [
    "Fpki.PolicyAttr.C44_validate",
    "Fpki.PolicyAttr.C44_unambiguous"
   ],
   "note": ""
  },
  {
   "property": "C45",
   "status": "proved",
   "theorems": [
    "Fpki.Policy.C45_signed_verifies",
    "Fpki.Policy.C45_sign_requires",
    "Fpki.Policy.C45_binding",
    "Fpki.Policy.C45_text_equal"
   ],
   "note": "The neighbouring property that does not hold in general is C141."
  },
  {
   "property": "C46",
   "status": "proved",
   "theorems": [
    "Fpki.Policy.C46_signed_verifies",
    "Fpki.Policy.C46_binding",
    "Fpki.Policy.C46_signer_hash",
    "Fpki.Policy.C46_separated"
   ],
   "note": "The neighbouring property that does not hold in general is C142."
  },
  {
   "property": "C47",
   "status": "partial",
   "theorems": [
    "Fpki.Policy.C47_period_partial",
    "Fpki.Policy.C47_actual",
    "Fpki.Policy.C47_domain_violated",
    "Fpki.Policy.C47_rights_violated"
   ],
   "note": "The validity period is checked; the domain is not (the condition is inverted), nor CanIssue / CanOwn."
  },
  {
   "property": "C48",
   "status": "partial",
   "theorems": [
    "Fpki.Pca.C48_requests_increase_partial",
    "Fpki.Pca.C48_serial_of_request",
    "Fpki.Pca.C48_duplicate_violated"
   ],
   "note": "True of the requests the CA makes, in every history; false of the certificates it signs."
  },
  {
   "property": "C49",
   "status": "partial",
   "theorems": [
    "Fpki.Pca.C49_recognised_partial",
    "Fpki.Pca.C49_not_recognised_violated",
    "Fpki.Pca.C49_own_certificate_violated",
    "Fpki.Pca.C49_cool_off_violated",
    "Fpki.Pca.C49_blocked_violated"
   ],
   "note": "False: stored under the hash of the public key, looked up under the hash of the certificate's text."
  },
  {
   "property": "C50",
   "status": "proved",
   "theorems": [
    "Fpki.Pca.C50_success",
    "Fpki.Pca.C50_failure_unchanged",
    "Fpki.Pca.C50_certificate_verifies",
    "Fpki.Pca.C50_complete",
    "Fpki.Pca.C50_nil_spct_panics"
   ],
   "note": "The neighbouring property that does not hold in general is C143."
  },
  {
   "property": "C51",
   "status": "proved",
   "theorems": [
    "Fpki.LogVerifier.C51_accepted_iff",
    "Fpki.LogVerifier.C51_empty",
    "Fpki.LogVerifier.C51_no_panic",
    "Fpki.LogVerifier.C51_with_previous_root"
   ],
   "note": "The verification of a single proof (transparency-dev/merkle) is a parameter."
  },
  {
   "property": "C52",
   "status": "proved",
   "theorems": [
    "Fpki.Domain.C52_parse",
    "Fpki.Domain.C52_last",
    "Fpki.Domain.C52_suffix_chain",
    "Fpki.Domain.C52_accepts",
    "Fpki.Domain.C52_valid",
    "Fpki.Domain.C52_www_violated"
   ],
   "note": "For every public suffix list that satisfies IsPsl. C52_www_violated is a finding: the valid name www.com is refused, because the www. label is removed before the e2LD is determined."
  },
  {
   "property": "C53",
   "status": "proved",
   "theorems": [
    "Fpki.Domain.C53_count",
    "Fpki.Domain.C53_sound",
    "Fpki.Domain.C53_longest"
   ],
   "note": "The neighbouring property that does not hold in general is C182."
  },
  {
   "property": "C54",
   "status": "proved",
   "theorems": [
    "Fpki.Util.C54_nil_iff_no_error",
    "Fpki.Util.C54_lists_every_message_once",
    "Fpki.Util.C54_coalesce_assoc"
   ],
   "note": "The neighbouring property that does not hold in general is C183."
  },
  {
   "property": "C55",
   "status": "proved",
   "theorems": [
    "Fpki.Util.C55_qsort_sorts"
   ],
   "note": ""
  },
  {
   "property": "C56",
   "status": "proved",
   "theorems": [
    "Fpki.Util.C56_dedup_aligned"
   ],
   "note": ""
  },
  {
   "property": "C57",
   "status": "proved",
   "theorems": [
    "Fpki.Util.C57_log2_least",
    "Fpki.Util.C57_pow_unsigned",
    "Fpki.Util.C57_pow_signed"
   ],
   "note": "Integer types; floats not modelled."
  },
  {
   "property": "C58",
   "status": "proved",
   "theorems": [
    "Fpki.Util.C58_duration_roundtrip"
   ],
   "note": ""
  },
  {
   "property": "C59",
   "status": "partial",
   "theorems": [
    "Fpki.CertReader.C59_read_partial",
    "Fpki.CertReader.C59_error_sound",
    "Fpki.CertReader.C59_read_ends",
    "Fpki.CertReader.C59_read_all",
    "Fpki.CertReader.C59_error_loses_violated",
    "Fpki.CertReader.C59_reader_error_repeats_violated",
    "Fpki.CertReader.C59_reader_error_loses_violated"
   ],
   "note": "pem.Decode and certificate parsing are parameters with a stated stability assumption. Proved while the reader below does not fail; false after a parsing error (certificates parsed by that call are lost) and after a temporary error of the reader below."
  },
  {
   "property": "C60",
   "status": "proved",
   "theorems": [
    "Fpki.PolicyJson.C60_writes",
    "Fpki.PolicyJson.C60_type_and_raw",
    "Fpki.PolicyJson.C60_raw"
   ],
   "note": "The neighbouring property that does not hold in general is C184."
  },
  {
   "property": "C61",
   "status": "proved",
   "theorems": [
    "Fpki.LogClient.C61_terminates"
   ],
   "note": "The neighbouring property that does not hold in general is C185."
  },
  {
   "property": "C62",
   "status": "proved",
   "theorems": [
    "Fpki.UpdateLoop.C62_own_result"
   ],
   "note": "The neighbouring property that does not hold in general is C144."
  },
  {
   "property": "C63",
   "status": "partial",
   "theorems": [
    "Fpki.Util.C63_next_time_of_day_partial",
    "Fpki.Util.C63_next_any_zone_partial",
    "Fpki.Util.C63_next_time_of_day_violated",
    "Fpki.Util.C63_future_violated"
   ],
   "note": "Proved when the local zone is UTC and the wrapped instant is in the past; false otherwise (mixes local date and UTC)."
  },
  {
   "property": "C64",
   "status": "proved",
   "theorems": [
    "Fpki.Util.C64_remove_elements",
    "Fpki.Util.C64_remove_one"
   ],
   "note": ""
  },
  {
   "property": "C65",
   "status": "proved",
   "theorems": [
    "Fpki.Ingest.C65_interval_text_roundtrip",
    "Fpki.Ingest.C65_interval_text_sound"
   ],
   "note": ""
  },
  {
   "property": "C66",
   "status": "proved",
   "theorems": [
    "Fpki.Smt.C66_no_panic"
   ],
   "note": ""
  },
  {
   "property": "C67",
   "status": "partial",
   "theorems": [
    "Fpki.Util.C67_parse_denotes_partial",
    "Fpki.Util.C67_parse_violated"
   ],
   "note": "False for malformed numbers and overflow, which are accepted silently."
  },
  {
   "property": "C68",
   "status": "partial",
   "theorems": [
    "Fpki.Stage.C68_open_error_reported_partial",
    "Fpki.Stage.C68_read_error_violated"
   ],
   "note": "Open errors are reported; read errors never are (streaming function's error is dropped), in any schedule."
  },
  {
   "property": "C69",
   "status": "partial",
   "theorems": [
    "Fpki.Dirty.C69_update_smt_partial",
    "Fpki.Dirty.C69_root_bundle_independent_partial",
    "Fpki.Dirty.C69_update_smt_violated"
   ],
   "note": "Proved when every dirty domain has a payload; false when a removed domain lies between two others of its bundle (consequence of C01_map_semantics_violated). On the tree, not on the stored nodes (C10)."
  },
  {
   "property": "C70",
   "status": "partial",
   "theorems": [
    "Fpki.Db.C70_payloads_match_partial",
    "Fpki.Db.C70_coalesced_all_right_partial",
    "Fpki.Db.C70_reinserted_violated"
   ],
   "note": "Proved for histories in which nothing stored refers to a certificate before it is stored; false otherwise: pruning keeps the links of removed certificates, and a certificate that comes back in a chain does not make its domain dirty."
  },
  {
   "property": "C71",
   "status": "proved",
   "theorems": [
    "Fpki.LogClient.C71_fetch_inclusions",
    "Fpki.LogClient.C71_query_sound"
   ],
   "note": "The neighbouring property that does not hold in general is C145."
  },
  {
   "property": "C72",
   "status": "partial",
   "theorems": [
    "Fpki.LogClient.C72_read_all_partial",
    "Fpki.LogClient.C72_lost_violated",
    "Fpki.LogClient.C72_wait_partial",
    "Fpki.LogClient.C72_wait_violated"
   ],
   "note": "False if a file cannot be decoded, or the log grows past the expected size or stays below it."
  },
  {
   "property": "C73",
   "status": "partial",
   "theorems": [
    "Fpki.Pca.C73_created_partial",
    "Fpki.Pca.C73_owner_signature",
    "Fpki.Pca.C73_signed_violated"
   ],
   "note": "Checked when the CA makes a request, not when it signs one."
  },
  {
   "property": "C74",
   "status": "proved",
   "theorems": [
    "Fpki.Policy.C74_equal_iff",
    "Fpki.Policy.C74_certificate_roundtrip",
    "Fpki.Policy.C74_equivalence"
   ],
   "note": "The neighbouring property that does not hold in general is C146."
  },
  {
   "property": "C75",
   "status": "proved",
   "theorems": [
    "Fpki.Stall.C75_exclusion",
    "Fpki.Stall.C75_no_panic",
    "Fpki.Stall.C75_no_deadlock",
    "Fpki.Stall.C75_terminates",
    "Fpki.Stall.C75_once"
   ],
   "note": "The neighbouring property that does not hold in general is C147."
  },
  {
   "property": "C76",
   "status": "proved",
   "theorems": [
    "Fpki.Bridge.C76_routing",
    "Fpki.Bridge.C76_nothing_else",
    "Fpki.Bridge.C76_terminates",
    "Fpki.Bridge.C76_delivers",
    "Fpki.Bridge.C76_error_reported",
    "Fpki.Bridge.C76_error_sound"
   ],
   "note": "The neighbouring property that does not hold in general is C148."
  },
  {
   "property": "C77",
   "status": "proved",
   "theorems": [
    "Fpki.CsvLoad.C77_certs",
    "Fpki.CsvLoad.C77_expiration",
    "Fpki.CsvLoad.C77_dirty",
    "Fpki.CsvLoad.C77_domain_certs",
    "Fpki.CsvLoad.C77_written",
    "Fpki.CsvLoad.C77_update_certs"
   ],
   "note": "The neighbouring property that does not hold in general is C149."
  },
  {
   "property": "C78",
   "status": "proved",
   "theorems": [
    "Fpki.PayloadApi.C78_payloads_are_stored",
    "Fpki.PayloadApi.C78_request_roundtrip",
    "Fpki.PayloadApi.C78_request_accepted",
    "Fpki.PayloadApi.C78_request_meaning",
    "Fpki.PayloadApi.C78_body_roundtrip",
    "Fpki.PayloadApi.C78_malformed_rejected",
    "Fpki.PayloadApi.C78_routes"
   ],
   "note": "The neighbouring property that does not hold in general is C150."
  },
  {
   "property": "C79",
   "status": "proved",
   "theorems": [
    "Fpki.Prune.C79_zone_shift",
    "Fpki.Prune.C79_success",
    "Fpki.Prune.C79_failure_keeps_consistency",
    "Fpki.Prune.C79_failure_all_or_nothing"
   ],
   "note": "The neighbouring property that does not hold in general is C151."
  },
  {
   "property": "C80",
   "status": "proved",
   "theorems": [
    "Fpki.Ticker.C80_first_run",
    "Fpki.Ticker.C80_never_too_often",
    "Fpki.Ticker.C80_next_run",
    "Fpki.Ticker.C80_tick_or_late",
    "Fpki.Ticker.C80_ended_forever"
   ],
   "note": "The neighbouring property that does not hold in general is C152."
  },
  {
   "property": "C81",
   "status": "partial",
   "theorems": [
    "Fpki.Lifecycle.C81_shutdown_stops_partial",
    "Fpki.Lifecycle.C81_no_return_without_shutdown",
    "Fpki.Lifecycle.C81_shutdown_returns_partial",
    "Fpki.Lifecycle.C81_lost_order_violated",
    "Fpki.Lifecycle.C81_second_shutdown_violated",
    "Fpki.Lifecycle.C81_signal_violated",
    "Fpki.Lifecycle.C81_signal_panics"
   ],
   "note": "Proved if no Listen failed before. False: a failed Listen leaves a goroutine that can take the order meant for a later one; a second Shutdown can block; after a signal the program never ends cleanly, since nothing calls Shutdown, and panics after 10 s."
  },
  {
   "property": "C82",
   "status": "proved",
   "theorems": [
    "Fpki.TempFile.C82_right_file",
    "Fpki.TempFile.C82_file_system",
    "Fpki.TempFile.C82_names",
    "Fpki.TempFile.C82_file_is_there",
    "Fpki.TempFile.C82_fails_only",
    "Fpki.TempFile.C82_ends",
    "Fpki.TempFile.C82_progress",
    "Fpki.TempFile.C82_create_temp_file"
   ],
   "note": "The neighbouring property that does not hold in general is C153."
  },
  {
   "property": "C83",
   "status": "partial",
   "theorems": [
    "Fpki.DbConf.C83_settings",
    "Fpki.DbConf.C83_socket_partial",
    "Fpki.DbConf.C83_tcp_partial",
    "Fpki.DbConf.C83_password_partial",
    "Fpki.DbConf.C83_connect_again",
    "Fpki.DbConf.C83_db_name",
    "Fpki.DbConf.C83_ingest_partial",
    "Fpki.DbConf.C83_with_user_order_violated",
    "Fpki.DbConf.C83_password_ignored_violated",
    "Fpki.DbConf.C83_port_violated",
    "Fpki.DbConf.C83_upper_case_user_violated",
    "Fpki.DbConf.C83_underscore_user_violated",
    "Fpki.DbConf.C83_question_mark_violated",
    "Fpki.DbConf.C83_explicit_dsn_violated"
   ],
   "note": "net/url and the driver's ParseDSN are modelled as far as used (no fragments, no URL authority). Proved for names of ordinary characters (passwords: all but control characters, ? and #). False: a port without a password always fails, a user with upper case letters or an underscore cannot be used with a password, MYSQL_PASSWORD, MYSQL_HOST and MYSQL_PORT have no effect in ingest, WithUser before WithEnvironment has no effect."
  },
  {
   "property": "C84",
   "status": "proved",
   "theorems": [
    "Fpki.Interrupt.C84_handler_progress",
    "Fpki.Interrupt.C84_handler_ends",
    "Fpki.Interrupt.C84_usr1_harmless",
    "Fpki.Interrupt.C84_no_batch_after_cancel",
    "Fpki.Interrupt.C84_main_ends",
    "Fpki.Interrupt.C84_main_progress",
    "Fpki.Interrupt.C84_completed_prefix",
    "Fpki.Interrupt.C84_exit_codes",
    "Fpki.Interrupt.C84_message"
   ],
   "note": "The neighbouring property that does not hold in general is C154."
  },
  {
   "property": "C85",
   "status": "proved",
   "theorems": [
    "Fpki.Pipe.C85_terminates",
    "Fpki.Pipe.C85_success_no_deadlock",
    "Fpki.Pipe.C85_success_complete",
    "Fpki.Pipe.C85_errors_real",
    "Fpki.Pipe.C85_chain_no_deadlock",
    "Fpki.Pipe.C85_updater_success"
   ],
   "note": "The neighbouring property that does not hold in general is C155."
  },
  {
   "property": "C86",
   "status": "proved",
   "theorems": [
    "Fpki.Rows.C86_csv_reader",
    "Fpki.Rows.C86_row",
    "Fpki.Rows.C86_file",
    "Fpki.Rows.C86_line",
    "Fpki.Rows.C86_any_file",
    "Fpki.Rows.C86_error_cause",
    "Fpki.Rows.C86_error_reported",
    "Fpki.Rows.C86_workers_agree",
    "Fpki.Rows.C86_counters"
   ],
   "note": "The neighbouring property that does not hold in general is C175."
  },
  {
   "property": "C87",
   "status": "proved",
   "theorems": [
    "Fpki.LocalFetch.C87_delivered",
    "Fpki.LocalFetch.C87_safe",
    "Fpki.LocalFetch.C87_terminates",
    "Fpki.LocalFetch.C87_progress",
    "Fpki.LocalFetch.C87_completes",
    "Fpki.LocalFetch.C87_row",
    "Fpki.LocalFetch.C87_entries"
   ],
   "note": "The neighbouring property that does not hold in general is C156."
  },
  {
   "property": "C88",
   "status": "proved",
   "theorems": [
    "Fpki.TreeHead.C88_consistent",
    "Fpki.TreeHead.C88_fresh",
    "Fpki.TreeHead.C88_authentic",
    "Fpki.TreeHead.C88_failed_load",
    "Fpki.TreeHead.C88_http"
   ],
   "note": "The neighbouring property that does not hold in general is C157."
  },
  {
   "property": "C89",
   "status": "proved",
   "theorems": [
    "Fpki.SmtPar.C89_workers",
    "Fpki.SmtPar.C89_ends",
    "Fpki.SmtPar.C89_no_deadlock",
    "Fpki.SmtPar.C89_can_end"
   ],
   "note": "The neighbouring property that does not hold in general is C158."
  },
  {
   "property": "C90",
   "status": "proved",
   "theorems": [
    "Fpki.JournalFile.C90_complete",
    "Fpki.JournalFile.C90_readable",
    "Fpki.JournalFile.C90_error_changes_nothing",
    "Fpki.JournalFile.C90_other_files",
    "Fpki.JournalFile.C90_closed",
    "Fpki.JournalFile.C90_close_closes",
    "Fpki.JournalFile.C90_call_saves",
    "Fpki.JournalFile.C90_commit_grows"
   ],
   "note": "The neighbouring property that does not hold in general is C159."
  },
  {
   "property": "C91",
   "status": "partial",
   "theorems": [
    "Fpki.E2E.C91_answers_partial",
    "Fpki.E2E.C91_answers_insert_only_partial",
    "Fpki.E2E.C91_end_to_end_partial",
    "Fpki.E2E.C91_no_panic_partial",
    "Fpki.E2E.C91_update_completes_partial",
    "Fpki.E2E.C91_panic_iff_partial",
    "Fpki.E2E.C91_interrupted_violated",
    "Fpki.E2E.C91_prune_all_violated"
   ],
   "note": "C91_end_to_end_partial is the full statement for histories without pruning and interruptions whose submissions agree (one issuer per certificate; a certificate is not both a leaf with names and part of a chain; one subject per policy). With interruptions anywhere but without pruning, and with pruning for steps that do not run into the known problems of C05 and C70 (Safe), the answers are exactly what the tables hold. False in general: if the first insertion stops half way, or all certificates expire, UpdateSMT panics (SMT tree root is nil), now and at every later update."
  },
  {
   "property": "C92",
   "status": "proved",
   "theorems": [
    "Fpki.JournalMem.C92_in_place",
    "Fpki.JournalMem.C92_in_place_result",
    "Fpki.JournalMem.C92_earlier_jobs_untouched",
    "Fpki.JournalMem.C92_append_in_place",
    "Fpki.JournalMem.C92_readable",
    "Fpki.JournalMem.C92_history_kept",
    "Fpki.JournalMem.C92_one_job_per_run"
   ],
   "note": "The neighbouring property that does not hold in general is C160."
  },
  {
   "property": "C93",
   "status": "partial",
   "theorems": [
    "Fpki.Owner.C93_request_partial",
    "Fpki.Owner.C93_available_partial",
    "Fpki.Owner.C93_issued_partial",
    "Fpki.Owner.C93_renewal_violated",
    "Fpki.Owner.C93_key_lost_violated",
    "Fpki.Owner.C93_useless_violated"
   ],
   "note": "Proved: contents and signatures of requests and issued certificates, for all histories. False: the new private key is not kept anywhere, the certificate may not own, so no renewal can be signed with it, it has no policies, serial number 0, and expires after one microsecond."
  },
  {
   "property": "C94",
   "status": "proved",
   "theorems": [
    "Fpki.Owner.C94_signed_verifies",
    "Fpki.Owner.C94_binding"
   ],
   "note": "The neighbouring property that does not hold in general is C161."
  },
  {
   "property": "C95",
   "status": "proved",
   "theorems": [
    "Fpki.CtSize.C95_clean_same_place",
    "Fpki.CtSize.C95_same_place_same_key",
    "Fpki.CtSize.C95_key_is_name",
    "Fpki.CtSize.C95_only_derived"
   ],
   "note": "The neighbouring property that does not hold in general is C186."
  },
  {
   "property": "C96",
   "status": "partial",
   "theorems": [
    "Fpki.Layers.C96_terminates",
    "Fpki.Layers.C96_success_no_deadlock",
    "Fpki.Layers.C96_success_complete",
    "Fpki.Layers.C96_wait_returns_partial",
    "Fpki.Layers.C96_nil_success_partial",
    "Fpki.Layers.C96_errors_real",
    "Fpki.Layers.C96_ingest_returns",
    "Fpki.Layers.C96_ingest_lines",
    "Fpki.Layers.C96_ingest_certs_partial",
    "Fpki.Layers.C96_leak_violated",
    "Fpki.Layers.C96_bad_row_violated"
   ],
   "note": "Proved: termination, no deadlock, nil means that no stage function failed, exactly the produced values arrive, and with the row parser of C86 the certificates of all entries come out (if chains are consistent, C35). False: nil although a row could not be parsed and the rest of its file was not read; with three failures in a layer an error is lost and a goroutine stays for ever."
  },
  {
   "property": "C97",
   "status": "partial",
   "theorems": [
    "Fpki.Source.C97_values_partial",
    "Fpki.Source.C97_progress_partial",
    "Fpki.Source.C97_ended_quiet",
    "Fpki.Source.C97_mixed_violated",
    "Fpki.Source.C97_panic_violated",
    "Fpki.Source.C97_leak_violated"
   ],
   "note": "True if Resume is called only while every earlier feeder has ended or is blocked in a send, in particular if every run went to its end. False otherwise: the feeder of a run that was given up mixes its values into the next run, closes its channel, and the program can panic; a blocked feeder stays for ever."
  },
  {
   "property": "C98",
   "status": "proved",
   "theorems": [
    "Fpki.Pem.C98_stable",
    "Fpki.Pem.C98_round_trip",
    "Fpki.Pem.C98_other_blocks",
    "Fpki.Pem.C98_first",
    "Fpki.Pem.C98_key",
    "Fpki.Pem.C98_public"
   ],
   "note": "The neighbouring property that does not hold in general is C172."
  },
  {
   "property": "C99",
   "status": "partial",
   "theorems": [
    "Fpki.Join.C99_values_partial",
    "Fpki.Join.C99_ends_partial",
    "Fpki.Join.C99_sink_error_violated",
    "Fpki.Join.C99_second_stops_violated",
    "Fpki.Join.C99_resume_panics_violated",
    "Fpki.Join.C99_resume_twice_violated"
   ],
   "note": "True of the first run if nothing fails. False otherwise: an error of the sink's function always makes Wait hang, since the channel is not closed; if the second pipeline ends early the sink can hang in its send; a second Resume panics after a good run, and after a failed one delivers every value twice and panics at the end."
  }
 ]
}