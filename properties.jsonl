{"id": "C01", "title": "SMT update gives map semantics", "statement": "After Trie.Update(keys, values) with a sorted batch of distinct 32-byte keys, Get(k) returns the batch's value for every k in the batch (nothing when that value is DefaultLeaf) and exactly what it returned before for every other key.", "quantifier": "all tree contents, all sorted batches (insertions, overwrites, deletions), all keys", "why_tests_cant": "256-bit key space and unbounded batches; tests try a few random keys", "anchors": ["pkg/mapserver/trie/trie.go:Trie.Update", "pkg/mapserver/trie/trie.go:Trie.update", "pkg/mapserver/trie/trie_tools.go:Trie.Get"]}
{"id": "C02", "title": "SMT root depends only on content", "statement": "Two histories of updates that leave the same key/value map produce the same root hash, whatever the order, batching or intermediate deletions.", "quantifier": "all pairs of update histories ending in the same map", "why_tests_cant": "histories are unbounded", "anchors": ["pkg/mapserver/trie/trie.go:Trie.update", "pkg/mapserver/trie/trie.go:Trie.maybeMoveUpShortcut"]}
{"id": "C03", "title": "SMT root binds content", "statement": "Two trees with the same root hash hold the same key/value map, unless two different byte strings hashed while building them collide.", "quantifier": "all pairs of trees", "why_tests_cant": "needs a reduction to hash collisions over all trees", "anchors": ["pkg/mapserver/trie/trie.go:Trie.interiorHash", "pkg/mapserver/trie/trie.go:Trie.leafHash"]}
{"id": "C04", "title": "Inclusion proofs verify (completeness)", "statement": "For every tree and every key present, the proof returned by MerkleProof is accepted by VerifyInclusion for that key and its value against the tree's root.", "quantifier": "all trees, all present keys", "why_tests_cant": "all tree shapes and depths up to 256", "anchors": ["pkg/mapserver/trie/trie_merkle_proof.go:Trie.MerkleProof", "pkg/mapserver/trie/trie_merkle_proof.go:VerifyInclusion"]}
{"id": "C05", "title": "Non-inclusion proofs verify (completeness)", "statement": "For every non-empty tree and every absent key, the proof returned by MerkleProof is accepted by VerifyNonInclusion against the tree's root.", "quantifier": "all trees, all absent keys", "why_tests_cant": "all tree shapes and depths up to 256", "anchors": ["pkg/mapserver/trie/trie_merkle_proof.go:Trie.MerkleProof", "pkg/mapserver/trie/trie_merkle_proof.go:VerifyNonInclusion"]}
{"id": "C06", "title": "Inclusion proofs are sound", "statement": "If VerifyInclusion accepts (path, key, value) against the root of a tree, the tree maps key to value, unless the verifier exhibits a hash collision with the tree.", "quantifier": "all trees, all adversarial proofs", "why_tests_cant": "adversarial input space is unbounded", "anchors": ["pkg/mapserver/trie/trie_merkle_proof.go:VerifyInclusion"]}
{"id": "C07", "title": "Non-inclusion proofs are sound", "statement": "If VerifyNonInclusion accepts (path, key, value, proofKey) against the root of a tree, key is absent from the tree, barring hash collisions.", "quantifier": "all trees, all adversarial proofs", "why_tests_cant": "adversarial input space is unbounded", "anchors": ["pkg/mapserver/trie/trie_merkle_proof.go:VerifyNonInclusion"]}
{"id": "C08", "title": "A compressed inclusion proof is equivalent to the uncompressed one", "statement": "A compressed inclusion proof verifies (VerifyInclusionC) exactly when the uncompressed proof it compresses does, and MerkleProofCompressed compresses exactly MerkleProof's path.", "quantifier": "all audit paths, keys and roots", "why_tests_cant": "all bitmaps and path lengths", "anchors": ["pkg/mapserver/trie/trie_merkle_proof.go:MerkleProofCompressed", "pkg/mapserver/trie/trie_merkle_proof.go:VerifyInclusionC"]}
{"id": "C09", "title": "Node batch serialization round-trips", "statement": "parseBatch(serializeBatch(b)) = b for every well-formed batch of 31 slots, so a node read back from the DB is the node written.", "quantifier": "all batches", "why_tests_cant": "2^31 presence bitmaps times contents", "anchors": ["pkg/mapserver/trie/trie_cache.go:serializeBatch", "pkg/mapserver/trie/trie.go:parseBatch"]}
{"id": "C10", "title": "Committed updates can be read back", "statement": "After Update and Commit, a new Trie opened with the committed root on the same DB returns for every key the value the updated trie holds.", "quantifier": "all reachable tries, all update batches", "why_tests_cant": "the failing histories (re-writing the same value) are outside the tests", "anchors": ["pkg/mapserver/trie/trie_cache.go:CacheDB.commitChangesToDB", "pkg/mapserver/trie/trie.go:Trie.storeNode", "pkg/mapserver/trie/trie.go:Trie.deleteOldNode"]}
{"id": "C100", "title": "Texts of times of day", "statement": "NewTimeOfDay makes a time of day that exists (too large parts become the largest possible); its text is read back as the same time of day, to the nanosecond, with no more decimals than needed in steps of three; a text is accepted exactly if it is H:MM:SS or HH:MM:SS with an optional fraction and every part in its range, and gives the time it stands for.", "quantifier": "all times of day and all texts", "why_tests_cant": "86400 * 10^9 times and all texts; the tests have a dozen", "anchors": ["pkg/util/time_wrap.go:NewTimeOfDay,Set,UnmarshalText,MarshalText,String", "pkg/util/time.go:ParseTimeOfDay"]}
{"id": "C101", "title": "The configuration file of the map server", "statement": "A configuration written with WriteConfigurationToFile and read with ReadConfigFromFile is the same; the order of the entries in the file does not matter and unknown entries are ignored; a file that is accepted gives a configuration the server can run with.", "quantifier": "all configurations, all orders of the entries, all unknown entries", "why_tests_cant": "every text, map, number and order; the tests write and read one configuration", "anchors": ["pkg/mapserver/config/config.go:ReadConfigFromFile,WriteConfigurationToFile", "pkg/util/duration_wrap.go:MarshalText,UnmarshalText", "pkg/util/time_wrap.go:MarshalJSON,UnmarshalJSON", "pkg/db/conf.go:Configuration", "cmd/mapserver/main.go:runWithConfig"]}
{"id": "C102", "title": "The JSON texts of policy objects, read and written", "statement": "Whatever FromJSON accepts can be written again and is then read as the same; ToJSON fails exactly for years outside of 0 to 9999 and zones of a day or more; dates are those of the Gregorian calendar; the text depends on nothing but the fields that are written, and the texts of certificates with UTF-8 strings and zones of whole minutes, as all certificates read from a text are, determine all their fields.", "quantifier": "all objects of the nine types, nested in pointers and lists, all byte sequences given to FromJSON, all instants and time zones", "why_tests_cant": "all texts, instants, zones and objects; the tests write and read a few random objects", "anchors": ["pkg/common/json.go:ToJSON,FromJSON,MarshalJSON,UnmarshalJSON,inflateObj", "pkg/common/policies.go:PolicyCertificate", "pkg/common/embedded_policies.go:SignedPolicyCertificateTimestamp", "pkg/common/crypto/crypto.go:VerifyOwnerSignatureInPolicyCertificate,VerifyIssuerSignature"]}
{"id": "C103", "title": "What the client reads is what the map server answered", "statement": "For every name, the answers that GetProof returns are read by a client of the HTTP interface and by grpcclient.GetProofs exactly as they were: same number, same order, all fields; an answer that was cut off anywhere is an error for the client; a name that does not parse is an error on both interfaces.", "quantifier": "all answers (all names, paths, roots, nil and empty slices), all positions where a text is cut off, all trees and tables", "why_tests_cant": "all answers and all cut positions; the tests fetch a handful of domains", "anchors": ["pkg/mapserver/mapserver.go:apiGetProof", "pkg/grpc/grpcserver/grpcserver.go:QueryMapEntries", "pkg/grpc/grpcclient/grpcclient.go:GetProofs", "pkg/mapserver/common/structure.go:MapServerResponse", "pkg/mapserver/common/domainEntry.go:DomainEntry"]}
{"id": "C104", "title": "The check of the client does not panic on any answer", "statement": "Whatever bytes a map server sends, the client gets an error or answers on which VerifyProofByDomain returns a verdict; it never panics.", "quantifier": "all byte sequences received over HTTP or gRPC", "why_tests_cant": "all byte sequences; the tests only verify answers of an honest server", "anchors": ["pkg/mapserver/prover/prover.go:VerifyProofByDomain", "pkg/mapserver/trie/trie_merkle_proof.go:VerifyInclusion,VerifyNonInclusion", "pkg/mapserver/trie/util.go:bitIsSet"]}
{"id": "C105", "title": "A journal file that was cut off is refused", "statement": "Every journal whose intervals and numbers fit their types can be written; a file that is cut off anywhere is refused; after any crash the journal file, if there was one or one was written, can be read and has the jobs that were in it or those some call asked to save.", "quantifier": "all journals, all byte sequences as files, all positions where a file is cut off, all crash points", "why_tests_cant": "all journals and byte sequences; the tests write and read a few journals", "anchors": ["cmd/ingest/journal/journal.go:write,read,normalize,encodeCompletedIndices,CompletedIndices.MarshalJSON,CompletedIndices.UnmarshalJSON"]}
{"id": "C106", "title": "An accepted inclusion proof means that the entry is in the log", "statement": "If VerifyInclusionByHash accepts a leaf hash for the root of a log, the log has an entry with that hash at the index of one of the proofs; the audit path of RFC 6962 is accepted for every entry of every log. The only exception is a collision among the strings that were hashed.", "quantifier": "all logs of any size, all leaf hashes, all lists of proofs (any index, any number and length of hashes), all hash functions with 32 bytes", "why_tests_cant": "all proofs, also malicious ones; the tests try a few proofs of an honest log", "anchors": ["pkg/logverifier/verifier.go:VerifyInclusionByHash,HashLeaf"]}
{"id": "C107", "title": "An accepted new log root means that the log only grew", "statement": "If VerifyRoot accepts a new root after a trusted one, the entries of the old log are the first entries of the new log; a leaf that VerifyInclusionWithPrevLogRoot accepts is in both logs at the same index; a smaller log is always refused; the consistency proof of RFC 6962 is accepted for every log and every later state. The only exception is a collision among the strings that were hashed.", "quantifier": "all pairs of logs, all consistency proofs (any number and length of hashes), all hash functions with 32 bytes", "why_tests_cant": "all pairs of logs and all proofs; the tests try a few sizes", "anchors": ["pkg/logverifier/verifier.go:VerifyRoot,VerifyInclusionWithPrevLogRoot"]}
{"id": "C108", "title": "A run works on every uncompleted file exactly once, in the order of the indices", "statement": "PendingFiles returns exactly the offered files (.gz files of `bundled` directories; with IncludePlainCSVs also the .csv files next to them) that contain an index not yet completed, each once, ordered by first index; the batches handed to the pipeline are these files in this order; the estimates never fail. A file without an index range in its name, or a directory that cannot be read, does not keep the other files from being found.", "quantifier": "all directory trees, all file names, all sets of completed indices, all batch sizes, any sorting algorithm with the contract of slices.SortFunc", "why_tests_cant": "all trees and names; the tests list a few small directories", "anchors": ["cmd/ingest/journal/journal.go:PendingFiles,listFiles", "cmd/ingest/journal/list_files.go:ListCsvFiles", "pkg/util/csv_files.go:SortByBundleName,filenameToIndices,EstimateCertCount", "cmd/ingest/run.go:ingestFilesInBatches"]}
{"id": "C109", "title": "LoadCache warms the cache without changing what the trie answers", "statement": "After a restart, LoadCache with the last committed root returns an error exactly when the DB fails and never panics; afterwards Get and MerkleProof answer as before, need no DB row at or above the height limit of the cache, and all further updates work. Given a root that is not in the DB it returns an error, and a failed LoadCache leaves the trie as it was.", "quantifier": "all histories of updates, commits, reads and restarts (as in C10), all sets of failing DB queries, all height limits, all keys, all later histories", "why_tests_cant": "the tests load one small tree from a DB that never fails", "anchors": ["pkg/mapserver/trie/trie_tools.go:LoadCache,loadCache", "pkg/mapserver/trie/trie_cache.go:getValueLimit,getValueLockFree", "pkg/db/mysql/smt.go:RetrieveTreeNode"]}
{"id": "C11", "title": "A crash during UpdateSMT leaves a readable saved root", "statement": "At every crash point of UpdateSMT (between the DB writes of Commit and SaveRoot) the root stored in the DB can be opened and returns either the old or the new content.", "quantifier": "all crash points, all tries, all updates", "why_tests_cant": "crash points cannot be enumerated by unit tests", "anchors": ["pkg/mapserver/updater/updater.go:UpdateSMT", "pkg/mapserver/trie/trie_cache.go:CacheDB.commitChangesToDB", "pkg/db/mysql/smt.go:SaveRoot"]}
{"id": "C110", "title": "Several updates before one Commit", "statement": "Update and AtomicUpdate can be called any number of times before Commit. Whatever is done with a trie (updates of both kinds, commits, reads, proofs for any root, resets of the cache, restarts of the process), no operation fails; the root, the values and the proofs are those of all batches since the start, also before they are committed and without those a restart lost; a new trie with the root of the last Commit has the content of that time. An update without keys changes nothing.", "quantifier": "all sequences of Update, AtomicUpdate, Commit, Get, MerkleProof, MerkleProofR, ResetLiveCache and restarts (histories as in C10), all keys, all cache height limits", "why_tests_cant": "the tests do two or three updates on one trie and never restart between an update and its Commit", "anchors": ["pkg/mapserver/trie/trie.go:Update,AtomicUpdate,Commit,deleteOldNode,storeNode", "pkg/mapserver/trie/trie_cache.go:commitChangesToDB", "pkg/mapserver/trie/trie_merkle_proof.go:MerkleProofR"]}
{"id": "C111", "title": "Proofs for past roots", "statement": "MerkleProofR with a root the trie had at some time returns the proof of the content of that time, for every key; in particular after AtomicUpdate, which promises to keep intermediate roots.", "quantifier": "all sequences of acts as in C110, all earlier points of the sequence, all keys", "why_tests_cant": "the tests ask for one past root of one small trie and never after a Commit or a restart", "anchors": ["pkg/mapserver/trie/trie_merkle_proof.go:MerkleProofR", "pkg/mapserver/trie/trie.go:AtomicUpdate,deleteOldNode", "pkg/mapserver/trie/trie_cache.go:commitChangesToDB"]}
{"id": "C112", "title": "Coalescing ends, and can be repeated", "statement": "Every run of RecomputeDirtyDomainsCertAndPolicyIDs returns, whatever the order of its workers and whatever statement fails; after any failures and crashes of earlier runs a new run can return nil; DirtyCount and DirtyCountNonCoalesced are the numbers of all and of the waiting domains.", "quantifier": "all tables, all chunk sizes, all interleavings of the statements of the 32 workers, all failures and crash points, any number of runs", "why_tests_cant": "the tests run one coalescing without failures; the scheduler and MySQL choose one of very many interleavings", "anchors": ["pkg/db/mysql/dirty.go:RecomputeDirtyDomainsCertAndPolicyIDs,callCalcDirtyDomains,DirtyCount,DirtyCountNonCoalesced", "tools/create_schema.sh:calc_dirty_domains"]}
{"id": "C113", "title": "Proofs of the responder while the updater works", "statement": "The responder reads the batches of a proof one by one from the table that the updater is changing. Whatever the updater does meanwhile (updates, commits, restarts, also half-done commits) and at whatever moments the batches are read, a proof is an error or exactly the proof of the content whose root the responder has; and every request for the content of the last Commit is answered until the next Commit begins to delete.", "quantifier": "all histories of the trie as in C110, all keys, all assignments of moments (after any act, or in the middle of any Commit) to the loads of a proof", "why_tests_cant": "a test reads before or after an update; the interleavings of the SELECTs with the statements of a Commit are many and not under its control", "anchors": ["pkg/mapserver/responder/responder.go:ReloadRootAndSignTreeHead,GetProof", "pkg/mapserver/trie/trie_merkle_proof.go:merkleProof", "pkg/mapserver/trie/trie.go:NewTrie,loadBatch", "pkg/mapserver/trie/trie_cache.go:commitChangesToDB", "pkg/db/mysql/smt.go"]}
{"id": "C114", "title": "Several processes that update the same DB", "statement": "The running map server, `mapserver -policy file` and ingest work on the same DB, and the first two coalesce, call UpdateSMT and CleanupDirty. Whatever the order of their steps and wherever they crash, a domain that is not dirty has its right payload in the tree under the saved root, so that nothing that was inserted is forgotten; after a whole run of one process the tree has the right payload of every domain.", "quantifier": "any number of processes, all interleavings of insertions, coalescing, loading of the root, update, SaveRoot and CleanupDirty, all crashes", "why_tests_cant": "the tests use one process; the loss needs an insertion or another updater within a window of a run", "anchors": ["cmd/mapserver/main.go:insertPolicyFromFile", "pkg/mapserver/mapserver.go:update", "pkg/mapserver/updater/updater.go:UpdateSMT,updateSMTfromDirty", "pkg/db/mysql/dirty.go:CleanupDirty", "pkg/db/mysql/smt.go:LoadRoot,SaveRoot"]}
{"id": "C115", "title": "Policies are stored, linked and kept", "statement": "Policy documents given to UpdateWithKeepExisting or UpdateWithOverwrite are, if new, stored under the hash of their payload with that payload, linked to their domain, whose name is stored and which is marked dirty; wherever the submission stops, other rows are untouched and nothing is lost; a second submission changes nothing; and no later operation removes a stored policy or its link.", "quantifier": "all DB contents, lists of policies (new, known, repeated), crash points, and all later histories of insertions, pruning, coalescing and tree updates", "why_tests_cant": "tests insert a few policies into an empty DB without crashes", "anchors": ["pkg/mapserver/updater/updater.go:UpdateWithKeepExisting,UpdateWithOverwrite,insertPolicies", "pkg/db/mysql/policies.go:UpdatePolicies,UpdateDomainPolicies,CheckPoliciesExist", "tools/create_schema.sh:prune_expired"]}
{"id": "C116", "title": "Resetting the DB", "statement": "TruncateAllTables resets the DB to an initial state: it is then as after create_schema.sh, so what is submitted afterwards arrives as on a new DB, and nothing of the time before comes back. The state of a CT log is the last one written. CheckSchema accepts the schema of create_schema.sh.", "quantifier": "all contents of the tables before the reset, all submissions and histories of the updater after it", "why_tests_cant": "the call is not tested", "anchors": ["pkg/db/mysql/mysql.go:TruncateAllTables", "pkg/db/db.go:Conn", "pkg/db/mysql/certs.go:LastCTlogServerState,UpdateLastCTlogServerState", "pkg/db/mysql/init.go:Connect,checkSchema", "tools/create_schema.sh"]}
{"id": "C117", "title": "Same data, same root", "statement": "Two map servers to which the same certificates (with their chains) and policies were submitted compute the same root and answer with the same IDs, whatever the order, grouping, repetition and the updates in between; and two servers with the same root hold the same IDs for every name, unless hashes collide.", "quantifier": "all pairs of histories of submissions (any order, batches, repetitions), coalescing and tree updates; all names; all hash functions with 32-byte outputs", "why_tests_cant": "tests build one server from one history; no test compares two servers", "anchors": ["pkg/mapserver/updater/updater.go:UpdateWithOverwrite,UpdateWithKeepExisting,UpdateSMT", "pkg/mapserver/trie/trie.go:Update", "tools/create_schema.sh:calc_dirty_domains", "pkg/db/mysql/certs.go:UpdateCerts"]}
{"id": "C118", "title": "Ingest into the DB", "statement": "When the ingest pipeline finishes, on any DB, every certificate of the batch is stored, every name of every certificate is known, waits for its payload and is linked to a certificate of the batch with this name, and coalescing gives it a payload with one; the certificates, domains and dirty domains are exactly the old rows and those of the batch, whatever the number of workers and the schedule; if it is interrupted at any point, nothing stored before is lost and no domain has a new link without being marked for coalescing, and running the batch again gives what an uninterrupted run would have given.", "quantifier": "all batches of certificates, all contents of the DB, all numbers of workers, batch sizes and cache sizes, all interleavings of the workers' statements, all crash points", "why_tests_cant": "tests run one small batch with one schedule and never stop in between", "anchors": ["pkg/mapserver/updater/manager.go:createStages", "pkg/mapserver/updater/certsWorker.go:newDomainExtractor,newCertCsvInserter", "pkg/mapserver/updater/domainWorker.go:newDomainCsvInserter", "pkg/mapserver/updater/csv.go:CreateCsvCerts,CreateCsvDomains", "pkg/db/mysql/certs.go:InsertCsvIntoCerts", "pkg/db/mysql/dirty.go:InsertCsvIntoDirty"]}
{"id": "C119", "title": "Retrieving domain entries and pages of dirty ones", "statement": "RetrieveDomainEntries returns exactly the requested domains that have a payload, each once, with the sorted IDs of their certificates and policies; RetrieveDomainEntriesDirtyOnes(start, end) with start at most end has as many entries as there are, and successive pages contain every dirty domain exactly once, with an empty payload if it has none; the retrievals return all rows or an error (RetrieveDirtyDomains excepted).", "quantifier": "all tables, all lists of requested domains (with repetitions), all page sizes and bounds, all orders in which the DB returns rows, every row after which a connection can break", "why_tests_cant": "tests use a few rows, distinct IDs and a connection that never breaks", "anchors": ["pkg/db/mysql/mysql.go:RetrieveDomainEntries,RetrieveDomainEntriesDirtyOnes,retrieveDirtyDomainEntriesParallel,collectRows,extractDomainEntries", "pkg/db/mysql/dirty.go:RetrieveDirtyDomains"]}
{"id": "C12", "title": "Accepted map-server answers match the tree", "statement": "If VerifyProofByDomain accepts a presence answer against the root of the map server's tree, the returned domain value is the one stored for that domain name's hash; the value covers exactly the returned certificate and policy IDs, barring hash collisions.", "quantifier": "all trees, all adversarial responses", "why_tests_cant": "adversarial input space", "anchors": ["pkg/mapserver/prover/prover.go:VerifyProofByDomain", "pkg/mapserver/responder/responder.go:GetProof"]}
{"id": "C120", "title": "The ingest command and the served answers", "statement": "Whatever the ingest command and the map server did, also during a batch and after any interrupted tries at it, the answer for every name that is not dirty verifies and tells exactly what the tables have; every name of every ingested certificate gets an answer of presence with an ingested certificate of this name as soon as it is not dirty, and only ingested names and certificates are answered; the command can always finish, and no ingested certificate is forgotten, whatever strategies the command is run with.", "quantifier": "all histories of batches, updates, coalescing and tree updates, all schedules of the pipeline, all interruptions, all names", "why_tests_cant": "tests ingest a few files once with one strategy and look at the tables, not at the answers after an arbitrary history", "anchors": ["cmd/ingest/run.go:runIngest,ingestFilesInBatches", "cmd/ingest/main.go:mainFunction", "cmd/ingest/afterIngestion.go:coalescePayloadsForDirtyDomains,updateSMT,cleanupDirty", "cmd/ingest/journal/journal.go:NewJobConfiguration", "pkg/mapserver/updater/updater.go:UpdateSMT", "pkg/db/mysql/dirty.go:CleanupDirty", "pkg/mapserver/responder/responder.go:GetProof"]}
{"id": "C121", "title": "Under which names certificates are looked up", "statement": "No answer of the map server is about a wildcard name; the answers to a question include one about the very name that was asked for exactly if it does not begin with *. or www.; with such a beginning the answers are those for the name without it; the names of a certificate are its common name and its DNS names, each once and as they are, and its subject is one of them.", "quantifier": "all histories of submissions, all certificates and their names, all names asked for, all hash functions (exactness barring collisions)", "why_tests_cant": "tests ask for a few plain lower-case names; that every certificate is found under all of its names ranges over all names", "anchors": ["pkg/util/domain.go:ExtractCertDomains", "pkg/domain/domain.go:CertSubjectName,ParseDomainName,removeWildCardAndWWW,IsValidDomain", "pkg/mapserver/responder/responder.go:GetProof", "pkg/mapserver/updater/updater.go:UpdateWithKeepExisting"]}
{"id": "C122", "title": "The text of a policy submitted from a file", "statement": "`mapserver -policyFile` makes from the file, whatever its layout, the text of exactly the policy certificate in it, which passes the same checks of signatures as the one in the file and is stored under its hash; files with the same certificate give the same text; a file without one is rejected and nothing changes.", "quantifier": "all files (all byte strings), all histories of the map server before, all signers and signature schemes, all clients' questions", "why_tests_cant": "tests insert one sample policy into an empty DB; that nothing is lost between an arbitrary file and what clients read ranges over all files and histories", "anchors": ["cmd/mapserver/main.go:insertPolicyFromFile", "pkg/util/io.go:PolicyCertificateFromFile,PolicyCertificateFromBytes", "pkg/common/policy_common.go:rawTemplate", "pkg/common/policies.go:Raw,Domain", "pkg/mapserver/updater/updater.go:UpdateWithKeepExisting", "pkg/mapserver/mapserver.go:apiGetPayloads"]}
{"id": "C123", "title": "Fetching a whole range in one call", "statement": "FetchAllCertificates(start, end) with start at most end+1 returns exactly the certificates of the entries start..end of the CT log, in order, whatever the size of the server's answers; if the server fails or the context is cancelled it returns an error with a beginning of the range; it never presents a part as the whole and never panics.", "quantifier": "all servers (all sequences of answers and errors), all ranges, batch sizes, logs and moments of cancellation", "why_tests_cant": "a test fetches a few ranges from one recorded server; that no sequence of short answers, errors and cancellations makes the call lose entries ranges over all of them", "anchors": ["pkg/mapserver/logfetcher/httplogfetcher.go:FetchAllCertificates,NextBatch,ReturnNextBatch,fetch"]}
{"id": "C124", "title": "Reading a file of domain names for bulk updates", "statement": "From a file of domain names one policy certificate is made for each line that is a valid domain name, in order, whatever the line ends, and none for the others; a file that cannot be opened or read completely, or has a line of 64 KiB or more, is refused as a whole.", "quantifier": "all files (all byte strings), all database states, all clocks and random keys", "why_tests_cant": "no test calls the function; which lines count and that a successful call stored its policies range over all files and databases", "anchors": ["pkg/mapserver/updater/updater.go:UpdatePolicyCerts,updatePolicyCerts", "pkg/mapserver/logfetcher/httplogfetcher.go:GetPCAndRPCs"]}
{"id": "C125", "title": "Which local files are ingested", "statement": "The fetcher of local files uses exactly the files named `<start>-<end>.gz` and `<start>-<end>.csv` anywhere below its folder, with the range of their names, and ignores all other files; a folder that cannot be read is reported as an error. From the state of the last update it goes on with the consecutive files that begin there, up to the limit.", "quantifier": "all directory trees and file names (all byte strings), all states and limits, all orders in which the map of files is visited", "why_tests_cant": "tests use one folder with a few well named files; which names are taken, ignored or refused ranges over all names and trees", "anchors": ["pkg/mapserver/logfetcher/locallogfetcher.go:listFiles,getFileInfo,Initialize,GetCurrentState,StartFetching"]}
{"id": "C126", "title": "Certificates and chains from a CSV file", "statement": "LoadCertsAndChainsFromCSV returns certificates if and only if the text is a CSV text all of whose rows denote a certificate and its chain, and then the unfolding of these; the reading does not depend on quoting, line ends or empty lines; it panics exactly if the first row that denotes nothing is shorter than four columns or has four of which the last is a certificate.", "quantifier": "all byte strings as files, all results of X.509 parsing", "why_tests_cant": "tests load two fixed files; quoting, line breaks, short rows and malformed columns range over all texts", "anchors": ["pkg/util/io.go:LoadCertsAndChainsFromCSV,parseCertFromCSVField"]}
{"id": "C127", "title": "Loading a list of policies", "statement": "LoadPoliciesFromRaw returns exactly the elements of the list in the text, in their order, if all of them are policy documents (policy certificates, requests, revocations), and an error otherwise; SliceToTypedSlice splits a slice without losing anything.", "quantifier": "all JSON texts and all values", "why_tests_cant": "tests read one fixed list; which values are accepted ranges over all nestings of types", "anchors": ["pkg/util/io.go:LoadPoliciesFromRaw", "pkg/util/types.go:ToType,ToTypedSlice,SliceToTypedSlice"]}
{"id": "C128", "title": "Reading and saving configuration files of the policy log", "statement": "Reading a saved configuration gives exactly the saved values for the fields that were not zero and keeps the others of the struct read into; a crash while saving leaves a file that is as before, complete, or refused by the reader; whatever a file holds, the fields have values of their types; unknown members change nothing.", "quantifier": "all values of all fields, all previous values of the struct that is read into, all crash points of the write, all texts", "why_tests_cant": "tests save and read one configuration; zero values, bytes outside UTF-8, previous values of the struct and crash points are unbounded", "anchors": ["pkg/policylog/server/logserver/config.go:SaveLogConfigToFile,ReadLogConfigFromFile", "pkg/policylog/server/logsigner/config.go:SaveLogSignerConfigToFile,ReadLogSignerConfigFromFile", "pkg/policylog/client/adminconfig.go:SaveAdminClientConfigToFile,ReadAdminClientConfigFromFile", "pkg/policylog/client/logconfig.go:SaveLogClientConfigToFile,ReadLogClientConfigFromFile"]}
{"id": "C129", "title": "UpdateTreeSize, one call after the other", "statement": "After calls of UpdateTreeSize one after the other, with whatever answers, the client has the root of the last answer that could be decoded and its size as an int64; a call that returns an error changes nothing; an inclusion proof that is delivered verifies against the client's own root if the log is honest.", "quantifier": "all sequences of answers, all schedules of overlapping calls, all logs, all growths of the log between queries, all leaves", "why_tests_cant": "depends on the growth of the log between two requests, on schedules of concurrent calls and on sizes no test reaches", "anchors": ["pkg/policylog/client/logclient.go:GetCurrentLogRoot,UpdateTreeSize,updateLogRoot", "pkg/policylog/client/concurrentfunc.go:worker_fetchInclusion,FetchInclusions"]}
{"id": "C13", "title": "Map server answers cover the domain and all its parents", "statement": "GetProof(domain) returns one answer per suffix of the domain from its e2LD to the full name, in that order, and each verifies with VerifyProofByDomain against the responder's root.", "quantifier": "all domain names, all trees", "why_tests_cant": "unbounded names and trees", "anchors": ["pkg/mapserver/responder/responder.go:MapResponder.GetProof", "pkg/domain/domain.go:ParseDomainName"]}
{"id": "C130", "title": "A client that checks every new root sees one growing log", "statement": "A client that takes a new root only if VerifyRoot accepts it (with whatever the log gives as consistency proof) trusts, after any number of updates, only roots of logs each of which contains all entries of every earlier one at their places; a log that changes or drops an entry is refused; an honest log is never refused.", "quantifier": "all histories of roots and proofs of any length, all logs", "why_tests_cant": "the guarantee is about unbounded histories and adversarial proofs", "anchors": ["pkg/logverifier/verifier.go:VerifyRoot", "pkg/policylog/client/logclient.go:GetCurrentLogRoot,GetConsistencyProof"]}
{"id": "C131", "title": "Stopping and restarting an HTTP fetch", "statement": "StartFetching delivers the entries of the range in order, each once, errors last, and closes the channel; after StopFetching the goroutine ends after a bounded number of steps; a fetch can be started again.", "quantifier": "all schedules of the goroutines and of the calls StartFetching, StopFetching, NextBatch; all answers of the CT server; all ranges and batch sizes", "why_tests_cant": "the fields are shared without a lock: the outcome depends on where each goroutine is when the caller stops or restarts", "anchors": ["pkg/mapserver/logfetcher/httplogfetcher.go:StartFetching,StopFetching,NextBatch,fetch,getRawEntriesInBatches,getRawEntries"]}
{"id": "C132", "title": "Expired certificates disappear from the answers, valid ones stay", "statement": "Certificates and policies are submitted and expired certificates are pruned in any order. After the update is finished and the responder has loaded the tree, the answer for a name verifies and contains exactly the IDs of the certificates submitted for it, with their chains, such that no pruning since the submission came after the expiration of one of them, and of the policies.", "quantifier": "all histories of submissions, prunings, coalescings, SMT updates and reloads; all names; all hash functions with 32 bytes of output", "why_tests_cant": "a history can mix submissions and prunings in any way, and whether a date is stored with the right certificate depends on what else was in its batch", "anchors": ["pkg/mapserver/mapserver.go:PruneAndUpdate,pruneAndUpdate,update", "pkg/mapserver/updater/updater.go:updateCertBatch,UpdateWithKeepExisting,insertCerts,UpdateSMT", "pkg/db/mysql/certs.go:PruneCerts", "tools/create_schema.sh:prune_expired", "pkg/mapserver/responder/responder.go:GetProof"]}
{"id": "C133", "title": "After pruning, answers consist of whole chains and contain everything since", "statement": "Certificates are submitted and pruned in any order, whatever expirations the tables hold. After the update is finished and the responder has loaded the tree, each answer verifies; every certificate in it was submitted for the name (or is in the chain of one), together with its whole chain; everything submitted for the name since the last pruning is in it; and the policies are exactly those submitted for it.", "quantifier": "all histories of submissions, prunings, coalescings, SMT updates and reloads, all dates, all names, all hash functions with 32 bytes of output", "why_tests_cant": "pruning removes certificates with all their descendants by recursive SQL queries, and later batches bring some of them back: what the answers show depends on the whole history", "anchors": ["pkg/mapserver/mapserver.go:PruneAndUpdate,pruneAndUpdate,update", "pkg/mapserver/updater/updater.go:updateCertBatch,UpdateWithKeepExisting,UpdateSMT", "pkg/db/mysql/certs.go:PruneCerts", "tools/create_schema.sh:prune_expired", "pkg/mapserver/responder/responder.go:GetProof"]}
{"id": "C134", "title": "Every payload a client gets is one that was submitted", "statement": "After every history of submissions (interrupted or not), prunings and updates, every stored certificate and policy is byte for byte one that was submitted, stored under its hash; every payload a client is given, also when rows get lost, hashes to the ID it asked for and is one that was submitted.", "quantifier": "all histories of submissions (interrupted or not), prunings, coalescings, updates and reloads; all names, all orders of the IDs, all sets of rows lost in the payload query (for the genuineness)", "why_tests_cant": "the property spans the submission, four tables, the tree, two HTTP endpoints and the client, over all histories; an integration test runs one", "anchors": ["tests/integration/mapserver/main.go:checkResponse", "pkg/mapserver/mapserver.go:apiGetPayloads,apiGetProof", "pkg/mapserver/updater/updater.go:updateCertBatch,UpdateSMT", "pkg/mapserver/responder/responder.go:GetProof", "pkg/db/mysql/certs.go:PruneCerts"]}
{"id": "C135", "title": "UpdateWithKeepExisting stores each new certificate with its own expiration", "statement": "Every new row written by UpdateWithKeepExisting has the expiration of its own certificate; UpdateCertsLocally stores the certificates it is given.", "quantifier": "all batches, all DB contents", "why_tests_cant": "alignment bugs show only for specific presence masks", "anchors": ["pkg/mapserver/updater/updater.go:UpdateWithKeepExisting", "pkg/mapserver/updater/updater.go:runWhenFalse"]}
{"id": "C136", "title": "Pruning always succeeds", "statement": "PruneCerts(t) comes to an end, for every content of the tables, and removes exactly the expired chains.", "quantifier": "all certificate graphs and times", "why_tests_cant": "graphs of unbounded depth", "anchors": ["tools/create_schema.sh:prune_expired", "pkg/db/mysql/certs.go:PruneCerts"]}
{"id": "C137", "title": "The recorded size of a CT log means that everything below was stored", "statement": "The size recorded for a CT log server is only advanced when all entries below it have been returned by the fetcher and inserted.", "quantifier": "all sequences of batches, failures and restarts", "why_tests_cant": "unbounded histories", "anchors": ["pkg/mapserver/updater/updater.go:MapUpdater.UpdateNextBatch", "pkg/mapserver/updater/updater.go:MapUpdater.NextBatch"]}
{"id": "C138", "title": "The intervals of the journal stay canonical", "statement": "After every addition the list of intervals is sorted, disjoint and minimal, whatever the order of the additions, and normalization on load restores that for any stored list.", "quantifier": "all interval lists, all intervals", "why_tests_cant": "unbounded lists and 64-bit endpoints", "anchors": ["cmd/ingest/journal/journal.go:appendInterval", "cmd/ingest/journal/journal.go:normalizeCompletedIndices"]}
{"id": "C139", "title": "The size of the presence cache", "statement": "Size of the presence cache may be called at any time and counts at least the IDs for which Contains has returned true.", "quantifier": "all schedules", "why_tests_cant": "schedules", "anchors": ["pkg/cache/presence_cache.go:PresenceCache"]}
{"id": "C14", "title": "ID list encoding", "statement": "BytesToIDs(IDsToBytes(ids)) = ids for every list; SortIDsAndGlue gives the same bytes for every permutation of the same IDs and is injective on sorted lists, so the domain value identifies the set of IDs.", "quantifier": "all lists of IDs and all permutations", "why_tests_cant": "permutations of unbounded lists", "anchors": ["pkg/common/ids.go:SortIDsAndGlue", "pkg/common/ids.go:BytesToIDs", "pkg/common/ids.go:IDsToBytes"]}
{"id": "C140", "title": "Policy attributes do not depend on upper and lower case", "statement": "CheckDomainValidity gives the same verdict for names that differ only in upper and lower case, as domain names do.", "quantifier": "all attributes and names", "why_tests_cant": "all strings and lists", "anchors": ["pkg/common/policies.go:PolicyAttributes.CheckDomainValidity"]}
{"id": "C141", "title": "Owner signatures cover the bytes of texts, and verification is harmless", "statement": "A certificate accepted by VerifyOwnerSignature has the same bytes in all texts as the one that was signed, and verification never changes the certificate it is given.", "quantifier": "all certificates, owners and changes", "why_tests_cant": "all field values", "anchors": ["pkg/common/crypto/crypto.go:SignAsOwner", "pkg/common/crypto/crypto.go:VerifyOwnerSignature"]}
{"id": "C142", "title": "Verifying an issuer signature changes nothing", "statement": "VerifyIssuerSignature leaves the certificate it is given as it was, whatever its result.", "quantifier": "all certificates", "why_tests_cant": "all field values", "anchors": ["pkg/common/crypto/crypto.go:SignPolicyCertificateAsIssuer", "pkg/common/crypto/crypto.go:VerifyIssuerSignature", "pkg/common/crypto/crypto.go:ComputeHashAsSigner"]}
{"id": "C143", "title": "Every configured log server is used", "statement": "The PCA obtains a time stamp from every log server in its configuration.", "quantifier": "all requests, all failure patterns", "why_tests_cant": "failure patterns", "anchors": ["pkg/pca/pca.go:SignAndLogRequest"]}
{"id": "C144", "title": "The map server keeps serving updates", "statement": "Whatever an update or a reload returns, later callers of PruneAndUpdate are served, and when a call returns the responder serves the updated tree.", "quantifier": "all sequences of successes and failures", "why_tests_cant": "schedules", "anchors": ["pkg/mapserver/mapserver.go:pruneAndUpdate"]}
{"id": "C145", "title": "FetchInclusions returns", "statement": "FetchInclusions returns, whatever the log server answers.", "quantifier": "all leaves, all answers of the log server, worker counts and schedules", "why_tests_cant": "The interleaving of leader and workers and the answers of the server are unbounded.", "anchors": ["pkg/policylog/client/concurrentfunc.go:FetchInclusions", "pkg/policylog/client/concurrentfunc.go:worker_fetchInclusion"]}
{"id": "C146", "title": "Equal of revocations means equal contents", "statement": "Equal of two policy certificate revocations is true exactly if all their fields denote the same contents, and a revocation read back from its JSON text is equal to the one written; equal certificates have equal JSON texts.", "quantifier": "all pairs of policy certificates and revocations", "why_tests_cant": "time zones, monotonic clock readings, nil versus empty slices and text that is not UTF-8 combine without bound", "anchors": ["pkg/common/policies.go:PolicyCertificate.Equal", "pkg/common/policies.go:PolicyCertificateRevocation.Equal", "pkg/common/embedded_policies.go:SignedEntryTimestamp.Equal"]}
{"id": "C147", "title": "Stalled stages do nothing at all", "statement": "While whenStalled runs, none of the stages to stall runs any of its functions, the streaming function included.", "quantifier": "all sets of stages, all schedules, all answers of shouldStallPipeline", "why_tests_cant": "Interleavings of any number of stages with the two mutexes and the wait group are unbounded.", "anchors": ["pkg/pipeline/stall_resume.go:WithStallStages", "pkg/pipeline/stage.go:Stage.processThisStage"]}
{"id": "C148", "title": "The link between the ingest pipelines ends after a failure", "statement": "If a DB stage fails, its error is reported and all stages on both sides of the link end.", "quantifier": "all lists of certificates, worker counts, failures and schedules", "why_tests_cant": "Interleavings of forwarders, error readers and stages, and the failure points, are unbounded.", "anchors": ["cmd/ingest/processor.go:getNewLinkFunction", "pkg/mapserver/updater/manager.go:NewManager", "pkg/pipeline/stage.go:breakPipelineAndWait"]}
{"id": "C149", "title": "The rows of domain names loaded into the DB are the names written", "statement": "The CSV file that the updater writes for domain names is loaded by MySQL as exactly one row per name, with this name, for every name in a certificate.", "quantifier": "all lists of records, all old contents of the reused buffers, all names found in certificates", "why_tests_cant": "names come from certificates and may hold any bytes; the meaning of the text depends on the other program that reads it", "anchors": ["pkg/mapserver/updater/csv.go:writeCSV", "pkg/mapserver/updater/csv.go:writeCertCSV", "pkg/mapserver/updater/csv.go:writeRecordsWithStorage", "pkg/db/mysql/mysql.go:writeToCSV", "pkg/db/mysql/mysql.go:loadDomainsTableWithCSV", "pkg/db/mysql/certs.go:loadCertsTableWithCSV"]}
{"id": "C15", "title": "SMT input is sorted and aligned", "statement": "domainEntriesToSMTInput returns keys in ascending order, each with the value belonging to that domain (hash of its payload, or DefaultLeaf when the payload is empty), nothing lost or duplicated.", "quantifier": "all lists of domain entries", "why_tests_cant": "unbounded lists and orders", "anchors": ["pkg/mapserver/updater/updater.go:domainEntriesToSMTInput"]}
{"id": "C150", "title": "The payload API returns every stored payload", "statement": "An answer of the payload API with status 200 has null for an ID exactly if nothing is stored under it; every list of IDs, also the empty one, is answered.", "quantifier": "all lists of IDs (any length, repetitions, unknown IDs), all texts of the parameter, all contents of the DB, all orders and interruptions of the rows", "why_tests_cant": "the order of the rows of a query is unspecified, reading them can fail after any row, and parameters are arbitrary text", "anchors": ["pkg/mapserver/mapserver.go:MapServer.apiGetPayloads", "pkg/db/mysql/certs.go:mysqlDB.RetrieveCertificatePayloads", "pkg/db/mysql/policies.go:mysqlDB.RetrievePolicyPayloads", "pkg/db/mysql/common.go:mysqlDB.RetrieveCertificateOrPolicyPayloads"]}
{"id": "C151", "title": "Pruning at an instant, and again after a failure", "statement": "PruneCerts(now) removes exactly the certificates that are no longer valid at the instant now, whatever the time zones; after a failure calling it again does the work.", "quantifier": "all contents of the DB, all instants and zones, all failing statements", "why_tests_cant": "zones of the machine, expiration dates and failure points are unbounded", "anchors": ["pkg/db/mysql/certs.go:mysqlDB.PruneCerts", "pkg/db/mysql/certs.go:mysqlDB.pruneCerts", "tools/create_schema.sh:prune_expired", "pkg/mapserver/mapserver.go:MapServer.prune"]}
{"id": "C152", "title": "RunWhen keeps its schedule and stops", "statement": "RunWhen runs the function at every interval, independently of how long the function takes; once the context is cancelled the function is not started any more.", "quantifier": "all start times, intervals, durations of the runs, cancellation times, choices of select", "why_tests_cant": "durations and cancellation times are unbounded and select is nondeterministic", "anchors": ["pkg/util/ticker.go:RunWhen", "cmd/mapserver/main.go:runWithConfig"]}
{"id": "C153", "title": "Temporary CSV files are all loaded and removed", "statement": "When the workers have ended, every batch given to them was loaded and no temporary file is left.", "quantifier": "all numbers of workers and batches, interleavings, random names, contents of the directory, other programs creating files, failures of the DB and of the file system, restarts of the pipeline", "why_tests_cant": "names travel as views of reused buffers through concurrent stages; the random names, failures and schedules are unbounded", "anchors": ["pkg/util/noallocs/tempfile.go:CreateTempFile", "pkg/util/noallocs/ringcache.go:RingCache", "pkg/util/noallocs/file.go:Open", "pkg/mapserver/updater/csv.go:writeCSV", "pkg/mapserver/updater/certsWorker.go:newCertCsvRemover", "pkg/mapserver/updater/domainWorker.go:newDomainsToCsvs"]}
{"id": "C154", "title": "Every signal sent to ingest is obeyed", "statement": "The first SIGINT or SIGTERM stops ingest after the running batch, the second one ends it at once.", "quantifier": "all numbers of batches, all sequences of signals, all schedules of handler and main goroutine, all failures", "why_tests_cant": "signals arrive at any point of any batch, also while the handler is writing diagnostics", "anchors": ["cmd/ingest/main.go:startIngestSignalHandler", "cmd/ingest/main.go:signalExitCode", "cmd/ingest/main.go:mainFunction", "cmd/ingest/run.go:ingestFilesInBatches"]}
{"id": "C155", "title": "A pipeline with failures ends and reports them", "statement": "In every network of stages Wait returns whatever the functions do, with nil exactly if no function failed, after all stages have ended.", "quantifier": "all acyclic networks of stages, all functions, all values, all interleavings of the goroutines", "why_tests_cant": "networks, values and interleavings are unbounded; which goroutine receives an error depends on the schedule", "anchors": ["pkg/pipeline/stage.go:Stage.processThisStage", "pkg/pipeline/stage.go:Stage.breakPipelineAndWait", "pkg/pipeline/pipeline.go:Pipeline.Wait", "pkg/pipeline/source.go:Source", "pkg/pipeline/sink.go:Sink", "pkg/mapserver/updater/manager.go:Manager.createPipeline"]}
{"id": "C156", "title": "The local log fetcher reports what it cannot read", "statement": "A file or row that cannot be read is reported to the caller of the local log fetcher, without ending the program, and a caller that stops taking batches leaves no goroutine behind.", "quantifier": "all files and rows, all numbers of readers and parsers, batch sizes and channel capacities, all interleavings", "why_tests_cant": "8 readers with 64 parsers each, a batcher and the caller run concurrently; the interleavings and file contents are unbounded", "anchors": ["pkg/mapserver/logfetcher/locallogfetcher.go:StartFetching", "pkg/mapserver/logfetcher/locallogfetcher.go:ingestWithCSV", "pkg/mapserver/logfetcher/locallogfetcher.go:processIncomingFiles", "pkg/mapserver/logfetcher/locallogfetcher.go:NextBatch", "pkg/mapserver/logfetcher/locallogfetcher.go:getExpiration"]}
{"id": "C157", "title": "An answer is about one tree, with the signature of its root", "statement": "Every element of an answer of the map server carries the root of the tree in which its proof was made and the server's signature of that root; all elements of an answer are about one tree; replacing the tree does not make requests fail.", "quantifier": "all interleavings of requests, reloads and updates, all trees, all failures of loading and signing", "why_tests_cant": "tree and signature are replaced in several steps while any number of requests read them", "anchors": ["pkg/mapserver/responder/responder.go:ReloadRootAndSignTreeHead", "pkg/mapserver/responder/responder.go:signTreeHead", "pkg/mapserver/responder/responder.go:GetProof", "pkg/mapserver/responder/responder.go:NewMapResponder", "pkg/mapserver/mapserver.go:apiGetProof"]}
{"id": "C158", "title": "An update of the trie by worker goroutines gives the result of a sequential one", "statement": "Whatever the schedule of the goroutines and the size of the worker pool, Trie.Update returns the root, and leaves in the caches and among the nodes to be removed, exactly what the update without goroutines does, so that after Commit every key has the value assigned last; no two goroutines access the same slot of a batch at the same time.", "quantifier": "all histories of the trie, all batches of keys, all schedules, all sizes of the worker pool and thresholds for starting a worker", "why_tests_cant": "the interleavings of up to 128 workers on batches of thousands of keys cannot be enumerated; a race shows up only in few of them", "anchors": ["pkg/mapserver/trie/trie.go:Update", "pkg/mapserver/trie/trie.go:update", "pkg/mapserver/trie/trie.go:updateParallel", "pkg/mapserver/trie/trie.go:trySpawnUpdateWorker", "pkg/mapserver/trie/trie_cache.go:commitChangesToDB"]}
{"id": "C159", "title": "What the journal saved stays saved", "statement": "When a call returned nil, every later process finds at least what was saved, also after a crash of the machine and with several processes.", "quantifier": "all numbers of processes using the journal, all interleavings of their system calls, all failures of system calls, all points at which a process is killed, all machine crashes with any loss of data not yet on the disk", "why_tests_cant": "crash points and interleavings of system calls cannot be enumerated, and a machine crash cannot be part of a unit test", "anchors": ["cmd/ingest/journal/journal.go:writeLocked", "cmd/ingest/journal/journal.go:write", "cmd/ingest/journal/journal.go:syncDirAfterRename", "cmd/ingest/journal/journal.go:NewJournal", "cmd/ingest/journal/journal.go:Close", "cmd/ingest/journal/journal.go:CommitProgress"]}
{"id": "C16", "title": "Dirty-domain pagination is exact", "statement": "Repeatedly calling RetrieveDomainEntriesDirtyBundle with the returned cursor returns every dirty domain exactly once, every bundle has at most the requested number of entries, and the iteration ends.", "quantifier": "all dirty tables, all positive bundle sizes", "why_tests_cant": "partition skews and bundle sizes are unbounded", "anchors": ["pkg/db/mysql/mysql.go:RetrieveDomainEntriesDirtyBundle", "pkg/db/mysql/mysql.go:distributeDirtyBundleRequests"]}
{"id": "C160", "title": "The journal keeps the names of directories", "statement": "A journal written as JSON text and read again has the same directories with the same completed indices, whatever the bytes in their names.", "quantifier": "all histories of runs and crashes, all sequences of calls on an open journal, all growth policies of slices, all directory names", "why_tests_cant": "sharing of one array between two jobs shows only for some capacities and orders of intervals; the claim about earlier jobs ranges over all later runs and stops", "anchors": ["cmd/ingest/journal/journal.go:appendInterval", "cmd/ingest/journal/journal.go:cloneCompletedIndices", "cmd/ingest/journal/journal.go:appendJob", "cmd/ingest/journal/journal.go:CommitProgress", "cmd/ingest/journal/journal.go:CommitCTLogSize", "cmd/ingest/journal/journal.go:normalizeCompletedIndices", "cmd/ingest/journal/journal.go:encodeCompletedIndices", "cmd/ingest/journal/journal.go:decodeCompletedIndices"]}
{"id": "C161", "title": "Time stamps in issued certificates verify", "statement": "Every time stamp in a certificate issued by the policy CA was made by a configured log and verifies for the certificate it is in.", "quantifier": "all certificates, logs, keys, requests and answers of log servers", "why_tests_cant": "what a signature covers shows only against every other certificate and message", "anchors": ["pkg/common/crypto/crypto.go:SignPolicyCertificateTimestamp", "pkg/common/crypto/crypto.go:SignBytes", "pkg/common/crypto/crypto.go:VerifySignedBytes", "pkg/common/embedded_policies.go:NewSignedEntryTimestampSignatureInput", "pkg/pca/pca.go:sendRequestToAllLogServers", "pkg/pca/pca.go:signFinalPolicyCertificate"]}
{"id": "C162", "title": "Every answer that arrives is accepted by the client", "statement": "When the tree is in sync with the tables, every answer that arrives over HTTP or gRPC is accepted by VerifyProofByDomain.", "quantifier": "all answers (all names, paths, roots, nil and empty slices), all positions where a text is cut off, all trees and tables", "why_tests_cant": "all answers and all cut positions; the tests fetch a handful of domains", "anchors": ["pkg/mapserver/mapserver.go:apiGetProof", "pkg/grpc/grpcserver/grpcserver.go:QueryMapEntries", "pkg/grpc/grpcclient/grpcclient.go:GetProofs", "pkg/mapserver/common/structure.go:MapServerResponse", "pkg/mapserver/common/domainEntry.go:DomainEntry"]}
{"id": "C163", "title": "The journal file is read as it was written, byte for byte", "statement": "A journal file is read again as the same jobs, the same completed intervals for the same directories; whatever file is read, the jobs in it are within range, canonical and survive another write and read.", "quantifier": "all journals, all byte sequences as files, all positions where a file is cut off, all crash points", "why_tests_cant": "all journals and byte sequences; the tests write and read a few journals", "anchors": ["cmd/ingest/journal/journal.go:write,read,normalize,encodeCompletedIndices,CompletedIndices.MarshalJSON,CompletedIndices.UnmarshalJSON"]}
{"id": "C164", "title": "An interrupted submission of policies can be repeated", "statement": "After a submission of policies that was interrupted at any statement, submitting them again stores and links all of them.", "quantifier": "all DB contents, lists of policies (new, known, repeated), crash points, and all later histories of insertions, pruning, coalescing and tree updates", "why_tests_cant": "tests insert a few policies into an empty DB without crashes", "anchors": ["pkg/mapserver/updater/updater.go:UpdateWithKeepExisting,UpdateWithOverwrite,insertPolicies", "pkg/db/mysql/policies.go:UpdatePolicies,UpdateDomainPolicies,CheckPoliciesExist", "tools/create_schema.sh:prune_expired"]}
{"id": "C165", "title": "Fetching an empty range", "statement": "FetchAllCertificates returns an empty answer for every empty range that the fetching goroutine accepts.", "quantifier": "all servers (all sequences of answers and errors), all ranges, batch sizes, logs and moments of cancellation", "why_tests_cant": "a test fetches a few ranges from one recorded server; that no sequence of short answers, errors and cancellations makes the call lose entries ranges over all of them", "anchors": ["pkg/mapserver/logfetcher/httplogfetcher.go:FetchAllCertificates,NextBatch,ReturnNextBatch,fetch"]}
{"id": "C166", "title": "Bulk update of policy certificates", "statement": "After UpdatePolicyCerts returned without an error, a policy for each valid name of the file is in the database.", "quantifier": "all files (all byte strings), all database states, all clocks and random keys", "why_tests_cant": "no test calls the function; which lines count and that a successful call stored its policies range over all files and databases", "anchors": ["pkg/mapserver/updater/updater.go:UpdatePolicyCerts,updatePolicyCerts", "pkg/mapserver/logfetcher/httplogfetcher.go:GetPCAndRPCs"]}
{"id": "C167", "title": "Every CSV file of certificates is loaded or refused", "statement": "A CSV file with certificates, root certificates included, is loaded; any other file gives an error, and never a panic.", "quantifier": "all byte strings as files, all results of X.509 parsing", "why_tests_cant": "tests load two fixed files; quoting, line breaks, short rows and malformed columns range over all texts", "anchors": ["pkg/util/io.go:LoadCertsAndChainsFromCSV,parseCertFromCSVField"]}
{"id": "C168", "title": "A list of policies that was written is loaded", "statement": "What ToJSON writes for a list of policy documents is read back by LoadPoliciesFromRaw as the same documents.", "quantifier": "all JSON texts and all values", "why_tests_cant": "tests read one fixed list; which values are accepted ranges over all nestings of types", "anchors": ["pkg/util/io.go:LoadPoliciesFromRaw", "pkg/util/types.go:ToType,ToTypedSlice,SliceToTypedSlice"]}
{"id": "C169", "title": "Configuration files of the policy log round-trip", "statement": "What the Save function of a configuration type writes is read back by its Read function as the same configuration; a file that lacks required settings is refused.", "quantifier": "all values of all fields, all previous values of the struct that is read into, all crash points of the write, all texts", "why_tests_cant": "tests save and read one configuration; zero values, bytes outside UTF-8, previous values of the struct and crash points are unbounded", "anchors": ["pkg/policylog/server/logserver/config.go:SaveLogConfigToFile,ReadLogConfigFromFile", "pkg/policylog/server/logsigner/config.go:SaveLogSignerConfigToFile,ReadLogSignerConfigFromFile", "pkg/policylog/client/adminconfig.go:SaveAdminClientConfigToFile,ReadAdminClientConfigFromFile", "pkg/policylog/client/logconfig.go:SaveLogClientConfigToFile,ReadLogClientConfigFromFile"]}
{"id": "C17", "title": "CheckCertsExist answers for every ID", "statement": "CheckCertsExist(ids) returns a slice of the same length whose i-th entry tells whether ids[i] is stored.", "quantifier": "all lists of IDs, all DB contents", "why_tests_cant": "list length is unbounded; fails only at multiples of 1000", "anchors": ["pkg/db/mysql/certs.go:CheckCertsExist"]}
{"id": "C170", "title": "Tree heads and inclusion proofs of the log client", "statement": "After UpdateTreeSize, also with overlapping calls, the client's root and tree size are those of one answer of the log, checked against the root before; an inclusion proof that FetchInclusions delivers verifies against the tree head it is delivered with.", "quantifier": "all sequences of answers, all schedules of overlapping calls, all logs, all growths of the log between queries, all leaves", "why_tests_cant": "depends on the growth of the log between two requests, on schedules of concurrent calls and on sizes no test reaches", "anchors": ["pkg/policylog/client/logclient.go:GetCurrentLogRoot,UpdateTreeSize,updateLogRoot", "pkg/policylog/client/concurrentfunc.go:worker_fetchInclusion,FetchInclusions"]}
{"id": "C171", "title": "The client gets exactly the certificates and policies submitted for the name", "statement": "When an update has finished and the responder has loaded the tree, a client that asks for a name over HTTP gets proofs that verify, collects the IDs in them, fetches their payloads and gets exactly the certificates submitted for the name and its suffixes (with their chains), and exactly the policies submitted for them; at no time is an ID in an answer without its payload.", "quantifier": "all histories of submissions (interrupted or not), prunings, coalescings, updates and reloads; all names, all orders of the IDs, all sets of rows lost in the payload query (for the genuineness)", "why_tests_cant": "the property spans the submission, four tables, the tree, two HTTP endpoints and the client, over all histories; an integration test runs one", "anchors": ["tests/integration/mapserver/main.go:checkResponse", "pkg/mapserver/mapserver.go:apiGetPayloads,apiGetProof", "pkg/mapserver/updater/updater.go:updateCertBatch,UpdateSMT", "pkg/mapserver/responder/responder.go:GetProof", "pkg/db/mysql/certs.go:PruneCerts"]}
{"id": "C172", "title": "Texts that are not PEM are refused", "statement": "RSAKeyFromPEM and CertificateFromPEMBytes/File return an error (or nil) for a text without a key or certificate, and the result of reading a text does not depend on where the reader below cuts it.", "quantifier": "all lists of certificates and contents of any length, all ways to cut the text into pieces, all keys, all texts", "why_tests_cant": "the cuts fall anywhere, also inside a BEGIN or END mark, and the lengths are not bounded", "anchors": ["pkg/util/certWriter.go:Write", "pkg/util/certificate.go:SerializeCertificates,DeserializeCertificates", "pkg/util/io.go:CertificateFromPEMBytes,RSAKeyFromPEM,RSAKeyToPEM", "pkg/util/pem.go"]}
{"id": "C173", "title": "Ingest links every certificate", "statement": "When the ingest pipeline finishes, every certificate of the batch is linked to every one of its names; at no time does a link point to a certificate that is not stored.", "quantifier": "all batches of certificates, all contents of the DB, all numbers of workers, batch sizes and cache sizes, all interleavings of the workers' statements, all crash points", "why_tests_cant": "tests run one small batch with one schedule and never stop in between", "anchors": ["pkg/mapserver/updater/manager.go:createStages", "pkg/mapserver/updater/certsWorker.go:newDomainExtractor,newCertCsvInserter", "pkg/mapserver/updater/domainWorker.go:newDomainCsvInserter", "pkg/mapserver/updater/csv.go:CreateCsvCerts,CreateCsvDomains", "pkg/db/mysql/certs.go:InsertCsvIntoCerts", "pkg/db/mysql/dirty.go:InsertCsvIntoDirty"]}
{"id": "C174", "title": "Retrieving dirty domains, backwards pages, parallel retrieval", "statement": "A page that ends before it starts is empty or an error; the parallel retrieval gives the same as the sequential one; RetrieveDirtyDomains returns everything or an error.", "quantifier": "all tables, all lists of requested domains (with repetitions), all page sizes and bounds, all orders in which the DB returns rows, every row after which a connection can break", "why_tests_cant": "tests use a few rows, distinct IDs and a connection that never breaks", "anchors": ["pkg/db/mysql/mysql.go:RetrieveDomainEntries,RetrieveDomainEntriesDirtyOnes,retrieveDirtyDomainEntriesParallel,collectRows,extractDomainEntries", "pkg/db/mysql/dirty.go:RetrieveDirtyDomains"]}
{"id": "C175", "title": "Every certificate in the CSV files is emitted", "statement": "Over any number of files and workers every unexpired certificate is emitted and nothing else is; rows without chain and quoted columns with line breaks are read; the statistics count each certificate once.", "quantifier": "all file contents, all quotings, all points at which reading fails, all certificates and chains, all numbers of workers, cache sizes and distributions of lines to workers", "why_tests_cant": "file contents and distributions are unbounded; the fast path, the fallback to encoding/csv, base64 and the cache interact", "anchors": ["cmd/ingest/csvSplitWorker.go:startReadingLines", "cmd/ingest/toChainWorker.go:parseLine", "cmd/ingest/toChainPtrWorker.go:parseLine", "cmd/ingest/toChainWorker.go:splitSemicolonField", "cmd/ingest/toChainWorker.go:decodeBase64Field", "cmd/ingest/toChainWorker.go:getExpiration", "cmd/ingest/fastcsv/fastcsv.go:ParseLine"]}
{"id": "C176", "title": "A pipeline that is at rest can be resumed", "statement": "In the first run, and in every later run that is started when all goroutines of the stages have returned, no channel is closed twice, no stage is made to stop by a stop channel that nobody meant to close, the run ends after a bounded number of steps whichever stages fail, and when Wait returns every stage has closed its error channel.", "quantifier": "all lengths of the chain, all sets of failing stages, all numbers of runs, all schedules", "why_tests_cant": "the order in which the goroutines close their channels is the scheduler's; a test sees one order", "anchors": ["pkg/pipeline/stage.go:breakPipelineAndWait,prepareStage,processThisStage", "pkg/pipeline/pipeline.go:Resume,Wait"]}
{"id": "C177", "title": "After Wait has returned the pipeline can be resumed", "statement": "After Wait has returned, Resume starts a run that behaves as the first: no panic, and Wait returns.", "quantifier": "all lengths of the chain, all sets of failing stages, all schedules", "why_tests_cant": "the failing schedule needs a goroutine to be preempted between two statements", "anchors": ["pkg/pipeline/stage.go:breakPipelineAndWait,prepareStage,processThisStage", "pkg/pipeline/pipeline.go:Resume,Wait", "pkg/pipeline/stall_resume.go:WithAutoResumeAtStage"]}
{"id": "C178", "title": "With pruning, the client gets exactly the certificates that have not expired", "statement": "Certificates and policies are submitted, and expired certificates pruned, in any order. When the update has finished and the responder has loaded the tree, a client that asks for a name over HTTP gets proofs that verify, fetches the payloads of the IDs in them, and gets exactly the bytes of the certificates submitted for the name and its suffixes of which neither they nor a certificate of their chain were expired at a pruning since, with their chains, and exactly the bytes of the policies submitted for them.", "quantifier": "all histories of submissions, prunings, coalescings, updates and reloads; all names, all orders of the IDs", "why_tests_cant": "the property spans the submission, pruning, four tables, the tree, two HTTP endpoints and the client, over all histories", "anchors": ["tests/integration/mapserver/main.go:checkResponse", "pkg/mapserver/mapserver.go:apiGetPayloads,apiGetProof", "pkg/mapserver/updater/updater.go:updateCertBatch,UpdateSMT", "pkg/db/mysql/certs.go:PruneCerts"]}
{"id": "C179", "title": "Compressed proofs are equivalent, of absence too", "statement": "A compressed proof of a key verifies (VerifyInclusionC / VerifyNonInclusionC) exactly when the uncompressed proof it compresses does, and MerkleProofCompressed compresses exactly MerkleProof's path.", "quantifier": "all audit paths, keys and roots", "why_tests_cant": "all bitmaps and path lengths", "anchors": ["pkg/mapserver/trie/trie_merkle_proof.go:MerkleProofCompressed", "pkg/mapserver/trie/trie_merkle_proof.go:VerifyInclusionC"]}
{"id": "C18", "title": "UpdateWithKeepExisting stores exactly the new certificates, with their parents and payloads", "statement": "UpdateWithKeepExisting never panics on aligned lists, keeps every existing row as it is, stores every certificate of the batch that was not stored, each ID once and nothing else, and every new row has the ID, parent and payload of one and the same certificate of the batch.", "quantifier": "all batches, all DB contents", "why_tests_cant": "alignment bugs show only for specific presence masks", "anchors": ["pkg/mapserver/updater/updater.go:UpdateWithKeepExisting", "pkg/mapserver/updater/updater.go:runWhenFalse"]}
{"id": "C180", "title": "The local fetcher handles every set of files", "statement": "GetCurrentState returns a target reached by a contiguous chain of files from the last size, within the ingestion limit except for the first file, and StartFetching then opens exactly those files. Initialising ends for every set of files.", "quantifier": "all sets of files, sizes and limits", "why_tests_cant": "unbounded file sets", "anchors": ["pkg/mapserver/logfetcher/locallogfetcher.go:getGzFileChain", "pkg/mapserver/logfetcher/locallogfetcher.go:GetCurrentState"]}
{"id": "C181", "title": "The journal tells every phase, and directories apart", "statement": "At every crash point of every sequence of ingest runs, the journal on disk only covers index ranges of files whose batch ran successfully (with the phases its flags claim), and every listed file not so processed is offered again. This holds for all flags, and for directories with the same base name.", "quantifier": "all sequences of runs, failures and crash points", "why_tests_cant": "crash points and unbounded histories", "anchors": ["cmd/ingest/run.go:runIngest", "cmd/ingest/run.go:ingestFilesInBatches", "cmd/ingest/journal/journal.go:CommitProgress"]}
{"id": "C182", "title": "Affected domains cover all names", "statement": "ExtractAffectedDomains returns at most as many names as given; every valid name is in the result or has a result name as its suffix on a label boundary with the same e2LD.", "quantifier": "all name lists", "why_tests_cant": "all lists", "anchors": ["pkg/domain/domain.go:ExtractAffectedDomains", "pkg/domain/domain.go:findLongestSuffix"]}
{"id": "C183", "title": "Error coalescing returns nil only for nil", "statement": "ErrorsCoalesce returns nil iff every argument is nil and otherwise an error listing every distinct message once.", "quantifier": "all error lists", "why_tests_cant": "unbounded, nested", "anchors": ["pkg/util/errors.go:ErrorsCoalesce"]}
{"id": "C184", "title": "Typed JSON round-trips", "statement": "FromJSON(ToJSON(x)) = x for every supported policy object (with one pointer level) and list of them.", "quantifier": "all objects", "why_tests_cant": "recursive objects", "anchors": ["pkg/common/json.go:ToJSON", "pkg/common/json.go:FromJSON"]}
{"id": "C185", "title": "Log client reports exactly the failed leaves", "statement": "AddLeaves returns exactly one error and one failed leaf per leaf that could not be queued, whatever the interleaving of workers.", "quantifier": "all data, worker counts, schedules", "why_tests_cant": "schedules", "anchors": ["pkg/policylog/client/concurrentfunc.go:AddLeaves"]}
{"id": "C186", "title": "recordctsize tells the map server where to go on", "statement": "After a successful recordctsize job for the directory of a log, the map server's fetcher for this log's URL starts at the first index that was not ingested from this directory, whatever path the directory was given by; the state of no other log changes.", "quantifier": "all directories and paths to them, all URLs, journals, tables and working directories", "why_tests_cant": "the directory name, the journal's key, the derived URL and the hash under which the map server looks are computed in different programs; they must agree for every path and URL", "anchors": ["cmd/ingest/run.go:deriveCTLogURLFromIngestDir", "cmd/ingest/run.go:completedCTLogSize", "cmd/ingest/main.go:RecordCTSize", "cmd/ingest/journal/journal.go:normalizeCompletedFile", "pkg/db/mysql/certs.go:LastCTlogServerState", "pkg/db/mysql/certs.go:UpdateLastCTlogServerState", "pkg/mapserver/updater/updater.go:startNextFetcher"]}
{"id": "C187", "title": "The JSON texts of policy objects round-trip, byte for byte", "statement": "What ToJSON writes for certificates, requests, revocations, time stamps, proofs, log roots and lists of them is read by FromJSON as the same objects; whatever FromJSON accepts can be written again and read as the same; ToJSON fails only for years outside of 0 to 9999 and zones of a day or more; dates are those of the Gregorian calendar; two certificates with the same text agree in every field, so that a signature over the text binds all fields.", "quantifier": "all objects of the nine types, nested in pointers and lists, all byte sequences given to FromJSON, all instants and time zones", "why_tests_cant": "all texts, instants, zones and objects; the tests write and read a few random objects", "anchors": ["pkg/common/json.go:ToJSON,FromJSON,MarshalJSON,UnmarshalJSON,inflateObj", "pkg/common/policies.go:PolicyCertificate", "pkg/common/embedded_policies.go:SignedPolicyCertificateTimestamp", "pkg/common/crypto/crypto.go:VerifyOwnerSignatureInPolicyCertificate,VerifyIssuerSignature"]}
{"id": "C188", "title": "Coalescing with its workers, failures and crashes", "statement": "RecomputeDirtyDomainsCertAndPolicyIDs runs 32 workers at the same time, whose SQL statements are not in a transaction. Whatever their order, whatever statement fails and wherever the process ends: at every moment certificates, policies and links are unchanged, a domain that was not waiting keeps its rows, a domain marked as coalesced has exactly the right payload (all its certificates and policies with ancestors) and is in the domains table iff it has a payload, and a waiting domain that has a certificate or policy stays in it. Every run returns, and if one returns nil the tables are as after an undisturbed run, whatever happened before; after any failures a new run can do so. DirtyCount and DirtyCountNonCoalesced are the numbers of all and of the waiting domains.", "quantifier": "all tables, all chunk sizes, all interleavings of the statements of the 32 workers, all failures and crash points, any number of runs", "why_tests_cant": "the tests run one coalescing without failures; the scheduler and MySQL choose one of very many interleavings", "anchors": ["pkg/db/mysql/dirty.go:RecomputeDirtyDomainsCertAndPolicyIDs,callCalcDirtyDomains,DirtyCount,DirtyCountNonCoalesced", "tools/create_schema.sh:calc_dirty_domains"]}
{"id": "C189", "title": "Certificates are found under their names", "statement": "A client that asks the map server for a name of a submitted certificate is shown this certificate, in a verified answer; it is shown the certificates of the parents of the name, up to the e2LD, and no others.", "quantifier": "all histories of submissions, all certificates and their names, all names asked for, all hash functions (exactness barring collisions)", "why_tests_cant": "tests ask for a few plain lower-case names; that every certificate is found under all of its names ranges over all names", "anchors": ["pkg/util/domain.go:ExtractCertDomains", "pkg/domain/domain.go:CertSubjectName,ParseDomainName,removeWildCardAndWWW,IsValidDomain", "pkg/mapserver/responder/responder.go:GetProof", "pkg/mapserver/updater/updater.go:UpdateWithKeepExisting"]}
{"id": "C19", "title": "Chain unfolding keeps every certificate and parent link", "statement": "UnfoldCerts emits every leaf (with its names) and every chain certificate, each with the ID of its issuer in that chain (none for the last), with aligned result slices.", "quantifier": "all lists of leaves and chains", "why_tests_cant": "chains of unbounded and mixed length", "anchors": ["pkg/util/certificate.go:UnfoldCerts", "pkg/util/certificate.go:UnfoldCert"]}
{"id": "C190", "title": "Policies submitted from files are shown", "statement": "`mapserver -policyFile` submits the policy certificate in a file, whatever the layout of the file, as the text of exactly this certificate for its domain: clients that ask for the domain are then shown its ID in verified answers, get a payload with this hash, and read from it the certificate that was in the file, which passes the same checks of signatures. Files with the same certificate give the same policy, and the command changes nothing when it is run again.", "quantifier": "all files (all byte strings), all histories of the map server before, all signers and signature schemes, all clients' questions", "why_tests_cant": "tests insert one sample policy into an empty DB; that nothing is lost between an arbitrary file and what clients read ranges over all files and histories", "anchors": ["cmd/mapserver/main.go:insertPolicyFromFile", "pkg/util/io.go:PolicyCertificateFromFile,PolicyCertificateFromBytes", "pkg/common/policy_common.go:rawTemplate", "pkg/common/policies.go:Raw,Domain", "pkg/mapserver/updater/updater.go:UpdateWithKeepExisting", "pkg/mapserver/mapserver.go:apiGetPayloads"]}
{"id": "C191", "title": "The coalescing workers process every partition exactly once and report every error", "statement": "callPartitionsWithWorkers calls the procedure exactly once for each partition, whatever the number of workers and however their calls are scheduled; never more than the given number of calls run at a time; it returns once all calls have returned, without deadlock; the error it returns contains, in the order of the partitions, exactly the errors of the calls that failed, and is nil exactly if none failed. Without a positive number of workers it is refused.", "quantifier": "all numbers of workers and partitions, all outcomes of the calls, all schedules", "why_tests_cant": "exactly-once, bounded concurrency and absence of deadlock must hold for every interleaving of the sender and the workers", "anchors": ["cmd/bench-coalesce/main.go:callPartitionsWithWorkers"]}
{"id": "C192", "title": "The synthetic workload is divided exactly and its expected rows are what coalescing computes", "statement": "For every number of dirty domains of at least the smallest size, every skew and every balance accepted by the flags: the domains are divided among the partitions without loss, each partition gets its exact share rounded down or up, the mix of policies and certificates deviates from the balance by at most half a domain, no allocation panics or goes negative; the loaded fixture passes its check of row counts; and after coalescing the loaded tables contain exactly the expected payload rows and exactly the active domains.", "quantifier": "all numbers of domains, all skews, all balances up to 75", "why_tests_cant": "rounding errors of the shares depend on the arithmetic of every total; the expected rows must agree with the recursive SQL closure for every domain generated", "anchors": ["cmd/bench-coalesce/main.go:buildFixture,largestRemainder,distributeBySkew,allocatePerPartition,mixedDomainsForBalance,verifyFixtureCounts,writeActiveDomain,buildMixedExpectation"]}
{"id": "C193", "title": "A run of the benchmark is accepted exactly if its result is right, for both procedures", "statement": "After a run of bench-coalesce the checks accept it only if the payload rows of the active domains are exactly the expected ones (and, for the new procedure, no other payload rows and no stale domains are left). Runs of the new procedure and of the old one are accepted for every size, skew and balance that the flags allow, so that the benchmark can be completed.", "quantifier": "all sizes, skews and balances, all contents of the tables after a run", "why_tests_cant": "acceptance must be right for every content of the tables; the joins of the old procedure multiply rows depending on the shape of the data", "anchors": ["cmd/bench-coalesce/main.go:collectAndValidateFullRun,validateActivePayloads,compareOptionalID,runFullSample", "cmd/bench-coalesce/testdata/calc_dirty_domains_old.sql"]}
{"id": "C194", "title": "The summary printed by the benchmark: both variants are measured equally often in alternating order, the medians are medians, and 'new vs old' has the right sign and size", "statement": "For every size bench-coalesce runs the old and the new procedure equally often, the first of a pair alternating. The median that is printed is one of the measured times with at least half of them on each side, the interquartile range is the difference of two measured times with a quarter of them on each side, and the comparison is positive exactly if the median of the new procedure is smaller, by that percentage.", "quantifier": "all measured times, all numbers of pairs", "why_tests_cant": "the summary must be right for every list of measured times", "anchors": ["cmd/bench-coalesce/main.go:pairOrder,runMeasuredPairs,medianDuration,iqrDuration,percentileDuration,buildPairDeltas"]}
{"id": "C195", "title": "A stage that is resumed automatically: its errors arrive in order, its end is seen only when it is not resumed again", "statement": "With WithAutoResumeAtStage the stage before receives every error of the target, over all its resumptions, in the order of sending, none twice and none lost. It sees the end of the target exactly when shouldResumeNow has answered no, once. At each resumption the affected stages are prepared from the last to the first, then relinked, then resumed from the last to the first, and then the target.", "quantifier": "all schedules, all answers of shouldResumeNow, all sets of affected stages, any number of resumptions and errors", "why_tests_cant": "the goroutines of the target, of the option and of the previous stage are interleaved by the scheduler", "anchors": ["pkg/pipeline/stall_resume.go:WithAutoResumeAtStage", "pkg/pipeline/stage.go:breakPipelineAndWait,processThisStage"]}
{"id": "C196", "title": "A stage that is resumed automatically works as in its first run", "statement": "When WithAutoResumeAtStage resumes its target, the target behaves as after the first Resume: no panic, it processes its input and ends only with its input, its own verdict or an error, so that the stage before eventually sees its end.", "quantifier": "all schedules, all answers of shouldResumeNow", "why_tests_cant": "the failing schedule needs a goroutine to be preempted between two statements", "anchors": ["pkg/pipeline/stall_resume.go:WithAutoResumeAtStage", "pkg/pipeline/stage.go:breakPipelineAndWait,processThisStage"]}
{"id": "C197", "title": "Automatic resumption works with every way of linking the stages", "statement": "The stages before a target of WithAutoResumeAtStage see its end only if it is not resumed, and have received all its errors by then, whichever of the link functions is used.", "quantifier": "all schedules, all answers of shouldResumeNow, all link functions", "why_tests_cant": "the failing schedule depends on when a goroutine is first scheduled", "anchors": ["pkg/pipeline/stall_resume.go:WithAutoResumeAtStage", "pkg/pipeline/stage.go:LinkStagesCrissCross,LinkStagesDistribute,LinkStagesAt,LinkStagesFanOut"]}
{"id": "C198", "title": "NewPipeline accepts exactly the pipelines that have a source at the beginning and a sink at the end", "statement": "NewPipeline returns an error for a pipeline that does not begin with a source or does not end with a sink, so that for an accepted pipeline SourceStage and SinkStage return its source and its sink, as the link functions assume.", "quantifier": "all lists of stages of any length", "why_tests_cant": "every list of kinds of stages has to be told apart", "anchors": ["pkg/pipeline/pipeline.go:NewPipeline,check,SourceStage,SinkStage"]}
{"id": "C199", "title": "The registered functions run before the process ends", "statement": "When ingest ends, normally, with an error, or at the second termination signal while the main goroutine may be ending too, one goroutine has called every function registered by then, in the order of registration, whatever the functions return.", "quantifier": "all numbers of functions, all their results, all schedules of the two goroutines", "why_tests_cant": "the two goroutines call the functions at the same time, in an order that the scheduler chooses", "anchors": ["pkg/util/atexit.go:ShutdownFunction,Exit,RegisterShutdownFunc", "cmd/ingest/main.go:main,mainFunction,startIngestSignalHandler"]}
{"id": "C20", "title": "Sharding picks an existing worker or partition", "statement": "The partition index of every ID is below the number of partitions, and the worker chosen by the Manager is one of its workers.", "quantifier": "all IDs, all worker counts", "why_tests_cant": "2^256 IDs and all worker counts", "anchors": ["pkg/db/mysql/mysql.go:PartitionByIdMSB", "pkg/mapserver/updater/manager.go:NewManager", "pkg/util/math.go:Log2"]}
{"id": "C200", "title": "Exit code 0 means that everything was done", "statement": "Ingest exits with code 0 only if its work and the functions registered for the end, such as the last writing of the journal, have succeeded.", "quantifier": "all numbers of functions, all their results, all schedules", "why_tests_cant": "every result of every function has to be considered", "anchors": ["pkg/util/atexit.go:ShutdownFunction,Exit", "cmd/ingest/main.go:main,mainFunction"]}
{"id": "C201", "title": "Requests of the policy log never meet a closed database", "statement": "When the policy log ends, its database is closed only after every request that it has accepted is answered, and it accepts none afterwards.", "quantifier": "all numbers of requests, all schedules of the goroutines, the signal and the clients, and a failure of the listener at any time", "why_tests_cant": "which of the deferred calls runs first matters only if a request is in progress at that moment", "anchors": ["pkg/policylog/server/util/serverutil.go:Run,srvRun", "pkg/policylog/server/logserver/logserver.go:CreateLogServer", "pkg/policylog/server/logsigner/logsigner.go:CreateLogSigner"]}
{"id": "C202", "title": "Stopping the policy log by a signal is not reported as a failure", "statement": "If the policy log is ended by a signal, and its listener works, Run returns no error.", "quantifier": "all schedules of the goroutines, the signal and the clients", "why_tests_cant": "the signal can come before the new goroutine has begun to serve", "anchors": ["pkg/policylog/server/util/serverutil.go:Run,srvRun", "pkg/policylog/server/logserver/logserver.go:CreateLogServer", "pkg/policylog/server/logsigner/logsigner.go:CreateLogSigner"]}
{"id": "C203", "title": "A signal ends the policy log", "statement": "After the signal the policy log ends by itself once the requests in progress are answered: it is never stuck, whatever the clients do, and takes no more steps than a fixed number and one for each request.", "quantifier": "all reachable states, all schedules, all numbers of requests", "why_tests_cant": "whether two goroutines that wait for each other can be stuck depends on the schedule", "anchors": ["pkg/policylog/server/util/serverutil.go:Run,srvRun", "pkg/policylog/server/logserver/logserver.go:CreateLogServer", "pkg/policylog/server/logsigner/logsigner.go:CreateLogSigner"]}
{"id": "C204", "title": "The number of certificates that ingest reports as written", "statement": "The numbers of certificates and bytes that the progress line of ingest calls written are those that have gone to the DB.", "quantifier": "all numbers of stages, all DB pipelines, all executions", "why_tests_cant": "the counter is in a stage that works when its pipeline is tested alone", "anchors": ["cmd/ingest/processor.go:NewProcessor,createFilesToCertsPipeline,createCertificateSink,getNewLinkFunction", "pkg/pipeline/join.go:JoinPipelinesRaw", "cmd/ingest/main.go:printStats"]}
{"id": "C205", "title": "The percentages printed by ingest lie between 0 and 100", "statement": "The percentages of uncached certificates and of expired rows in the progress line of ingest are between 0 and 100 at any time.", "quantifier": "all rows, all numbers of workers, all interleavings of their increments with the loads of the printer", "why_tests_cant": "it depends on what the workers do between two loads of the printer", "anchors": ["cmd/ingest/main.go:printStats,safeDivide", "cmd/ingest/toChainWorker.go:parseLine", "pkg/statistics/stats.go:Stats,Start"]}
{"id": "C206", "title": "The rows counted by ingest are the rows of the files", "statement": "When the files are read without an error, the rows and expired rows counted are those of the files, whichever worker got which row and however they were scheduled; if every file has the rows that its name announces, 100 percent are shown.", "quantifier": "all files, all numbers of workers and distributions of rows, all interleavings", "why_tests_cant": "lost updates between workers would show only under some schedules", "anchors": ["cmd/ingest/toChainWorker.go:parseLine", "cmd/ingest/run.go:ingestFilesInBatches", "pkg/util/csv_files.go:EstimateCertCount", "cmd/ingest/main.go:printStats,safeDivide"]}
{"id": "C207", "title": "The stages of a pipeline joined by JoinPipelinesRaw", "statement": "JoinPipelinesRaw gives a pipeline with the sources of the first one, the sinks of the last one, and the other stages of all of them, each once and in order; every other source and sink is left out.", "quantifier": "any number of pipelines with any stages in any order", "why_tests_cant": "it has to hold for any number of pipelines and any places of their sources and sinks", "anchors": ["pkg/pipeline/join.go:JoinPipelinesRaw"]}
{"id": "C208", "title": "A hasher that is used again", "statement": "Whatever was hashed with a Hasher before, every further call (Hash, HashString, HashCopy, HashStringCopy) gives the hash of its argument alone, does not panic, and changes neither what earlier calls returned nor any other variable; SHA256Hash of several pieces is the hash of the pieces put together, and tells pieces of the same lengths apart.", "quantifier": "all sequences of calls on one hasher, with any arguments, also parts of the variable written to; all lists of pieces", "why_tests_cant": "the state of the hasher depends on the whole history of calls", "anchors": ["pkg/common/hasher.go:Hasher.Hash", "pkg/common/hasher.go:Hasher.HashString", "pkg/common/hasher.go:Hasher.HashCopy", "pkg/common/hasher.go:Hasher.HashStringCopy", "pkg/common/hasher.go:SHA256Hash", "pkg/common/hasher.go:SHA256Hash32Bytes"]}
{"id": "C209", "title": "The options of stages, sources and sinks", "statement": "Whatever options are given to NewStage, NewSource and NewSink, and in whatever order: every setting is that of the last option about it, or the default; the function of a source or sink option counts before that of WithProcessFunction; options of another kind have no effect; after Prepare a sink has one outgoing channel.", "quantifier": "all lists of options", "why_tests_cant": "it is about all orders of all options", "anchors": ["pkg/pipeline/options.go:option", "pkg/pipeline/withOptions.go:WithProcessFunction", "pkg/pipeline/withOptions.go:WithMultiOutputChannels", "pkg/pipeline/stage.go:NewStage", "pkg/pipeline/source.go:NewSource", "pkg/pipeline/source.go:WithSourceChannel", "pkg/pipeline/sink.go:NewSink", "pkg/pipeline/sink.go:WithSinkFunction"]}
{"id": "C21", "title": "A successful pruning removes exactly the expired chains", "statement": "Whenever PruneCerts(t) succeeds it has removed exactly the certificates expired before t and those chaining to one, whatever the parent links (cycles too); exactly the domains linked to one of them are marked dirty, and all other tables are unchanged.", "quantifier": "all certificate graphs and times", "why_tests_cant": "graphs of unbounded depth", "anchors": ["tools/create_schema.sh:prune_expired", "pkg/db/mysql/certs.go:PruneCerts"]}
{"id": "C210", "title": "Sending to several channels at once", "statement": "SendToAllChannels offers the value to all channels at the same time: it returns, after a bounded number of steps, once every channel was received from, in whatever order; then each channel has given the value exactly as often as it is among the arguments, and never more often before.", "quantifier": "all lists of unbuffered channels (also with repetitions), all receivers and interleavings", "why_tests_cant": "the order of the receivers and the schedule of the goroutines are arbitrary", "anchors": ["pkg/util/channels.go:SendToAllChannels"]}
{"id": "C211", "title": "The gRPC server starts, and stops when it is told", "statement": "StartWork of the gRPC server listens if its port is free and returns an error otherwise; it answers queries until it is told to stop; when it is told, it returns nil, the server answers no more, and its port is free again.", "quantifier": "all histories of calls of StartWork in a process, with any ports, of orders to stop and of queries", "why_tests_cant": "the property is about what happens after any history of starts and stops", "anchors": ["pkg/grpc/grpcserver/grpcserver.go:ResponderServer.StartWork"]}
{"id": "C212", "title": "Trees created by the admin client of the policy log", "statement": "CreateNewTree returns a tree only if it is on the log server, as an active log with the name, the description and the interval of new roots of the configuration, and is in its file; after any further calls, whatever fails, it is still there and in its file; a call that returns an error has created no tree.", "quantifier": "all configurations and all histories of calls, with failures of the log server, of the initialisation and of the writing of the file", "why_tests_cant": "the trees and files depend on the history of calls and on where each of them fails", "anchors": ["pkg/policylog/client/adminclient.go:AdminClient.CreateNewTree", "pkg/policylog/client/adminclient.go:AdminClient.generateCreateTreeReq", "pkg/policylog/client/adminclient.go:AdminClient.writeTreeToFile", "pkg/policylog/client/adminconfig.go:AdminClientConfig"]}
{"id": "C22", "title": "Coalesced payload of a domain", "statement": "After coalescing, a dirty domain's certificate IDs are the sorted IDs of its certificates and all their ancestors, without repetition, independent of insertion order; domains without any ID get no payload.", "quantifier": "all certificate graphs and domain links", "why_tests_cant": "graphs of unbounded depth", "anchors": ["tools/create_schema.sh:calc_dirty_domains", "pkg/db/mysql/dirty.go:RecomputeDirtyDomainsCertAndPolicyIDs"]}
{"id": "C23", "title": "No certificate is lost after a crash of the updater", "statement": "If the updater crashes at any point while inserting a batch and the batch is later inserted again, every certificate of the batch ends linked to its domains and those domains are dirty.", "quantifier": "all batches, all crash points", "why_tests_cant": "crash points", "anchors": ["pkg/mapserver/updater/updater.go:insertCerts", "pkg/mapserver/updater/updater.go:UpdateWithKeepExisting"]}
{"id": "C24", "title": "The recorded size of a CT log only moves forward, and fetching resumes there", "statement": "Whatever the log server presents and whatever fails: the size recorded for a CT log never decreases, changes only in a successful update and then to the size announced when fetching began; after a crash or a failed cycle fetching starts again at exactly the recorded size; an entry counts as stored only after a batch of its own log server that contains it was inserted; and a fetch that is not disturbed records the announced size.", "quantifier": "all sequences of batches, failures and restarts", "why_tests_cant": "unbounded histories", "anchors": ["pkg/mapserver/updater/updater.go:MapUpdater.UpdateNextBatch", "pkg/mapserver/updater/updater.go:MapUpdater.NextBatch"]}
{"id": "C25", "title": "HTTP fetcher retrieves exactly the requested range", "statement": "For every log server that answers each query with a non-empty prefix of the requested range, fetching [start,end] yields exactly the entries start..end in order, in batches of at most the process batch size.", "quantifier": "all ranges, all server chunkings", "why_tests_cant": "all server behaviours", "anchors": ["pkg/mapserver/logfetcher/httplogfetcher.go:HttpLogFetcher.fetch", "pkg/mapserver/logfetcher/httplogfetcher.go:getRawEntries"]}
{"id": "C26", "title": "The local fetcher ingests contiguous files", "statement": "For files with start at most end: GetCurrentState returns a target that is reached by the contiguous chain of files from the last size, within the ingestion limit except for the first file, StartFetching then opens exactly those files; the chain is unique; without a file that continues there is nothing to fetch; two files with the same start are refused.", "quantifier": "all sets of files, sizes and limits", "why_tests_cant": "unbounded file sets", "anchors": ["pkg/mapserver/logfetcher/locallogfetcher.go:getGzFileChain", "pkg/mapserver/logfetcher/locallogfetcher.go:GetCurrentState"]}
{"id": "C27", "title": "Batchers lose nothing", "statement": "The certificate batcher, the domain batcher and the local fetcher's batcher output batches whose concatenation is the input, each of at most the configured size.", "quantifier": "all input sequences, all sizes", "why_tests_cant": "unbounded streams", "anchors": ["pkg/mapserver/updater/certsWorker.go:newCertBatcher", "pkg/mapserver/updater/domainWorker.go:newDomainBatcher"]}
{"id": "C28", "title": "Adding an interval to the journal covers exactly the union", "statement": "Adding an interval to the completed set, sorted or not, covers exactly the union of both, for all 64-bit intervals; normalization on load accepts exactly the lists without inverted intervals; the canonical list (sorted, disjoint, minimal) of a set of indices is unique.", "quantifier": "all interval lists, all intervals", "why_tests_cant": "unbounded lists and 64-bit endpoints", "anchors": ["cmd/ingest/journal/journal.go:appendInterval", "cmd/ingest/journal/journal.go:normalizeCompletedIndices"]}
{"id": "C29", "title": "PendingFiles is exact", "statement": "A listed file is pending iff its certificate-index range is not fully inside the completed set.", "quantifier": "all listings and completed sets", "why_tests_cant": "unbounded histories", "anchors": ["cmd/ingest/journal/journal.go:PendingFiles", "cmd/ingest/journal/journal.go:containsCompletedInterval"]}
{"id": "C30", "title": "The journal covers only what was processed", "statement": "At every crash point of every sequence of ingest runs, every index that the journal on disk has as completed belongs to a file of a batch that ran successfully, followed by an SMT update if the job has the flag UpdatedSMT; every listed file with an index not processed before (in a directory of that base name) is offered again.", "quantifier": "all sequences of runs, failures and crash points", "why_tests_cant": "crash points and unbounded histories", "anchors": ["cmd/ingest/run.go:runIngest", "cmd/ingest/run.go:ingestFilesInBatches", "cmd/ingest/journal/journal.go:CommitProgress"]}
{"id": "C31", "title": "Recorded CT log size is backed by completed indices", "statement": "recordctsize records a size n only if every index below n is in the completed set.", "quantifier": "all completed sets", "why_tests_cant": "all interval sets", "anchors": ["cmd/ingest/run.go:completedCTLogSize"]}
{"id": "C32", "title": "Fast CSV parser agrees with the CSV column rules", "statement": "Whenever ParseRowFast accepts a row its certificate, chain and expiration fields are the 4th, 5th and last comma-separated columns; rows with quotes are never accepted by the fast path.", "quantifier": "all byte rows", "why_tests_cant": "all byte strings", "anchors": ["cmd/ingest/fastcsv/fastcsv.go:ParseRowFast"]}
{"id": "C33", "title": "File listing misses nothing", "statement": "ListCsvFiles returns the .gz files of every 'bundled' directory below the given directory.", "quantifier": "all directory trees", "why_tests_cant": "all directory trees", "anchors": ["cmd/ingest/journal/list_files.go:ListCsvFiles"]}
{"id": "C34", "title": "Every ingested certificate is linked to all its domains", "statement": "For every certificate sent through the ingest Manager, each of its names yields a domain-certificate link.", "quantifier": "all sequences of certificates", "why_tests_cant": "depends on repeated domains and cache state", "anchors": ["pkg/mapserver/updater/certsWorker.go:newDomainExtractor"]}
{"id": "C35", "title": "Every certificate of every ingested chain is stored", "statement": "For every line accepted by the line-to-chain worker, the leaf and every chain certificate are emitted at least once over the run.", "quantifier": "all sequences of lines", "why_tests_cant": "depends on cache history", "anchors": ["cmd/ingest/toChainWorker.go:parseLine", "pkg/util/certificate.go:UnfoldCert"]}
{"id": "C36", "title": "Ring buffers are not reused while in flight", "statement": "A batch handed to the next stage is not modified before that stage finished with it, for every schedule of producer and consumer.", "quantifier": "all schedules", "why_tests_cant": "schedules", "anchors": ["pkg/mapserver/updater/baseworker.go:ringCache.rotate", "pkg/mapserver/updater/certsWorker.go:newCertBatcher"]}
{"id": "C37", "title": "Stage errors reach the caller", "statement": "An error returned by any stage's processing, streaming or end-of-data function is reported to the previous stage, and no further input is processed.", "quantifier": "all inputs, all functions", "why_tests_cant": "all stage functions and inputs", "anchors": ["pkg/pipeline/stage.go:processThisStage"]}
{"id": "C38", "title": "Criss-cross links close their channel once, after all producers", "statement": "The shared channel is closed exactly once, only after every producer finished, for every interleaving; no producer sends on a closed channel.", "quantifier": "all producer counts, all schedules", "why_tests_cant": "schedules", "anchors": ["pkg/pipeline/stage.go:LinkStagesCrissCross"]}
{"id": "C39", "title": "Sequential input reading is fair and complete", "statement": "readIncomingSequentially forwards every value of every incoming channel exactly once, in round-robin order over the open channels, and closes when all are closed.", "quantifier": "all channel contents", "why_tests_cant": "all inputs", "anchors": ["pkg/pipeline/stage.go:readIncomingSequentially", "pkg/util/slice.go:RemoveElemFromSlice"]}
{"id": "C40", "title": "Outputs reach their own channel exactly once", "statement": "sendOutputsCyclesAllowed delivers every output exactly once to the channel paired with it, for every pattern of channel readiness.", "quantifier": "all outputs, all readiness patterns", "why_tests_cant": "schedules", "anchors": ["pkg/pipeline/stage.go:sendOutputsCyclesAllowed", "pkg/util/slice.go:RemoveElementsFromSlice"]}
{"id": "C41", "title": "Presence cache is race free and monotone", "statement": "For every interleaving of readers and a writer, no reader looks into the set being written, and once AddIDs returned, every later Contains of those IDs is true. Contains is true only for IDs that were given to AddIDs; it never blocks; there is no deadlock and no endless execution.", "quantifier": "all schedules", "why_tests_cant": "schedules", "anchors": ["pkg/cache/presence_cache.go:PresenceCache"]}
{"id": "C42", "title": "Spin lock orders its workers", "statement": "With the ordered spin lock, at most one worker is in the critical section and workers enter in ID order.", "quantifier": "all schedules", "why_tests_cant": "schedules", "anchors": ["pkg/sync/spin.go:SpinLock"]}
{"id": "C43", "title": "Policy attribute decides subdomains as specified", "statement": "CheckDomainValidity: exact label match beats wildcard; within a level allowed beats disallowed beats excluded; default allowed; never applies to the domain itself or foreign domains.", "quantifier": "all attributes and names", "why_tests_cant": "all strings and lists", "anchors": ["pkg/common/policies.go:PolicyAttributes.CheckDomainValidity"]}
{"id": "C44", "title": "Attribute validation detects every duplicate", "statement": "ValidateAttributes rejects exactly attributes with a duplicate CA or with a label present twice over the three label lists.", "quantifier": "all attributes", "why_tests_cant": "unbounded lists", "anchors": ["pkg/common/policies.go:ValidateAttributes"]}
{"id": "C45", "title": "Owner signatures survive later signing and logging", "statement": "A request signed with SignAsOwner verifies, also in every certificate made from it by adding SPCTs, issuer signature and issuer hash, and verifying changes nothing; SignAsOwner succeeds only for signers that may own and requests without owner signature; a certificate is accepted only if the owner signed a request that agrees with it in every covered field (texts as JSON shows them) and names the same owner.", "quantifier": "all certificates, owners and changes", "why_tests_cant": "all field values", "anchors": ["pkg/common/crypto/crypto.go:SignAsOwner", "pkg/common/crypto/crypto.go:VerifyOwnerSignature"]}
{"id": "C46", "title": "Issuer signature covers everything but itself", "statement": "SignPolicyCertificateAsIssuer output verifies with VerifyIssuerSignature; acceptance implies the signed content equals the certificate apart from the issuer signature; the issuer hash does not depend on the issuer's SPCTs. An owner signature is never taken for an issuer signature.", "quantifier": "all certificates", "why_tests_cant": "all field values", "anchors": ["pkg/common/crypto/crypto.go:SignPolicyCertificateAsIssuer", "pkg/common/crypto/crypto.go:VerifyIssuerSignature", "pkg/common/crypto/crypto.go:ComputeHashAsSigner"]}
{"id": "C47", "title": "Issuer constraints limit child certificates", "statement": "VerifyIssuerConstraints accepts a child only if its domain is the issuer's domain or a subdomain of it and its validity lies inside the issuer's.", "quantifier": "all pairs of certificates", "why_tests_cant": "all names", "anchors": ["pkg/common/crypto/crypto.go:VerifyIssuerConstraints"]}
{"id": "C48", "title": "PCA serial numbers are unique", "statement": "Certificates signed by one PCA have pairwise different, increasing serial numbers.", "quantifier": "all request sequences", "why_tests_cant": "unbounded histories", "anchors": ["pkg/pca/pca.go:PCA.signRequest", "pkg/pca/pca.go:increaseSerialNumber"]}
{"id": "C49", "title": "PCA recognises owners it certified", "statement": "A request signed with the key of a certificate previously issued and stored by the PCA is recognised as owner-signed.", "quantifier": "all histories", "why_tests_cant": "unbounded histories", "anchors": ["pkg/pca/pca.go:canSkipCoolOffPeriod", "pkg/pca/pca.go:storeInDb"]}
{"id": "C50", "title": "PCA stores only fully logged certificates", "statement": "SignAndLogRequest stores and returns a certificate only if every loaded log server returned an SPCT and accepted the final certificate; otherwise its store is unchanged. The returned certificate verifies with the CA's certificate; if all log servers answer and accept, a certificate is returned.", "quantifier": "all requests, all failure patterns", "why_tests_cant": "failure patterns", "anchors": ["pkg/pca/pca.go:SignAndLogRequest"]}
{"id": "C51", "title": "Log inclusion verification", "statement": "VerifyInclusionByHash succeeds iff some proof verifies before any malformed one; an empty proof list always fails.", "quantifier": "all proof lists", "why_tests_cant": "all lists", "anchors": ["pkg/logverifier/verifier.go:VerifyInclusionByHash"]}
{"id": "C52", "title": "Domain name parsing", "statement": "For a valid name whose parsing succeeds, ParseDomainName returns, once a leading *. and www. are removed, first the e2LD (public suffix and one label), then one label more each time, up to the full remaining name; every element is a suffix of the next on a label boundary. A valid name is refused only if the remaining name is itself an ICANN public suffix.", "quantifier": "all names, all public suffix lists", "why_tests_cant": "all strings", "anchors": ["pkg/domain/domain.go:ParseDomainName", "pkg/domain/domain.go:SplitE2LD"]}
{"id": "C53", "title": "Affected domains are suffixes of the names", "statement": "ExtractAffectedDomains returns at most as many names as given; every name returned is a given valid name without *. and www., or what is left of one without some of its first labels, and contains its e2LD; with more than four names there is one for each e2LD, the longest suffix common to all of the names with this e2LD.", "quantifier": "all name lists", "why_tests_cant": "all lists", "anchors": ["pkg/domain/domain.go:ExtractAffectedDomains", "pkg/domain/domain.go:findLongestSuffix"]}
{"id": "C54", "title": "Error coalescing keeps every message once", "statement": "ErrorsCoalesce returns nil exactly if its arguments contain no error, otherwise an error that lists every distinct message once; coalescing in steps gives the same as at once.", "quantifier": "all error lists", "why_tests_cant": "unbounded, nested", "anchors": ["pkg/util/errors.go:ErrorsCoalesce"]}
{"id": "C55", "title": "Qsort sorts", "statement": "Qsort returns a sorted permutation for every pivot choice.", "quantifier": "all slices, all random pivots", "why_tests_cant": "random choices", "anchors": ["pkg/util/sort.go:Qsort"]}
{"id": "C56", "title": "Deduplication keeps parallel slices aligned", "statement": "DeduplicateSlice leaves the key slice without repetitions and with the same set of keys, and applies one and the same selection of positions to the key slice and every companion slice (order is not preserved).", "quantifier": "all slices", "why_tests_cant": "unbounded lists", "anchors": ["pkg/util/deduplicateSlice.go:DeduplicateSlice"]}
{"id": "C57", "title": "Integer logarithm and power", "statement": "Log2(n) is the least k with 2^k >= n; Pow(a,b) = a^b when no overflow.", "quantifier": "all unsigned integers", "why_tests_cant": "64-bit range", "anchors": ["pkg/util/math.go:Log2", "pkg/util/math.go:Pow"]}
{"id": "C58", "title": "Duration text round-trips", "statement": "ParseDuration(FmtDuration(d)) = d for every duration of whole seconds representable.", "quantifier": "all durations", "why_tests_cant": "64-bit range", "anchors": ["pkg/util/duration.go:ParseDuration", "pkg/util/duration.go:FmtDuration"]}
{"id": "C59", "title": "CertReader returns every certificate in order", "statement": "Reading all certificates with any sequence of buffer sizes returns each certificate block of the stream once, in order.", "quantifier": "all streams, all read sizes", "why_tests_cant": "all chunkings", "anchors": ["pkg/util/certReader.go:CertReader"]}
{"id": "C60", "title": "What ToJSON writes, and what FromJSON keeps", "statement": "ToJSON succeeds for every supported policy object, pointer to one and list of them; FromJSON returns a value of exactly the type that the text names, and Raw of the object is the text it was decoded from.", "quantifier": "all objects", "why_tests_cant": "recursive objects", "anchors": ["pkg/common/json.go:ToJSON", "pkg/common/json.go:FromJSON"]}
{"id": "C61", "title": "AddLeaves ends", "statement": "With at least one leaf and at least one worker, AddLeaves returns, whatever the interleaving of its workers and the answers of the log server.", "quantifier": "all data, worker counts, schedules", "why_tests_cant": "schedules", "anchors": ["pkg/policylog/client/concurrentfunc.go:AddLeaves"]}
{"id": "C62", "title": "Every caller of PruneAndUpdate gets the result of its own update", "statement": "The updates of the map server run one after the other, and each is followed by the return of exactly the caller who asked for it, with its result, in every schedule.", "quantifier": "all sequences of successes and failures", "why_tests_cant": "schedules", "anchors": ["pkg/mapserver/mapserver.go:pruneAndUpdate"]}
{"id": "C63", "title": "Daily schedule", "statement": "NextTimeOfDay returns the first instant not before now with the given time of day; it is at most 24 h away.", "quantifier": "all instants and times of day", "why_tests_cant": "all instants", "anchors": ["pkg/util/time_wrap.go:NextTimeOfDay"]}
{"id": "C64", "title": "Slice removal helpers", "statement": "RemoveElementsFromSlice keeps exactly the elements at positions not listed, each once (order is not preserved), whatever the order of the listed positions; it never indexes out of bounds.", "quantifier": "all slices and index sets", "why_tests_cant": "unbounded", "anchors": ["pkg/util/slice.go:RemoveElementsFromSlice"]}
{"id": "C65", "title": "Journal interval text round-trips", "statement": "An interval written into the journal is read back unchanged, and only non-inverted 64-bit ranges are accepted when reading.", "quantifier": "all 64-bit intervals, all strings", "why_tests_cant": "The set of intervals and strings is unbounded; tests sample it.", "anchors": ["cmd/ingest/journal/journal.go:parseIntervalString", "cmd/ingest/journal/journal.go:Interval.String"]}
{"id": "C66", "title": "Trie.Update never hashes two empty children", "statement": "No sequence of Update calls makes the trie hash a node with two empty children (which panics).", "quantifier": "all histories of batches", "why_tests_cant": "Needs every tree shape reachable by updates.", "anchors": ["pkg/mapserver/trie/trie.go:Trie.interiorHash", "pkg/mapserver/trie/trie.go:Trie.update"]}
{"id": "C67", "title": "ParseDuration returns what the text denotes or an error", "statement": "Every text accepted by ParseDuration denotes a number of units, and the result is that number of units; everything else is rejected.", "quantifier": "all strings", "why_tests_cant": "Strings are unbounded; overflow and malformed numbers are rare inputs.", "anchors": ["pkg/util/duration.go:ParseDuration"]}
{"id": "C68", "title": "An unreadable CSV file makes its batch fail", "statement": "If a CSV file cannot be opened or cannot be read to its end, the ingest batch containing it reports an error (so the file is not marked as processed).", "quantifier": "all files, all read errors, all schedules", "why_tests_cant": "Read errors in the middle of a file, in every schedule of the stages.", "anchors": ["cmd/ingest/csvSplitWorker.go:NewCsvSplitWorker", "pkg/pipeline/stage.go:processThisStage"]}
{"id": "C69", "title": "UpdateSMT applies exactly the dirty domains, whatever the bundle size", "statement": "After UpdateSMT the trie holds, for every dirty domain, the hash of its current payload (or nothing if it has none), and for every other domain what it held before; the root does not depend on the bundle size.", "quantifier": "all dirty tables, payloads, earlier histories of the trie, bundle sizes", "why_tests_cant": "Depends on how sorted bundles split the dirty domains and on the shape of the existing trie.", "anchors": ["pkg/mapserver/updater/updater.go:updateSMTfromDirty", "pkg/mapserver/updater/updater.go:domainEntriesToSMTInput", "pkg/db/mysql/mysql.go:RetrieveDomainEntriesDirtyBundle"]}
{"id": "C70", "title": "Payloads match the tables after every history", "statement": "After any history of certificate updates (complete or interrupted), policy updates, prunings, coalescings and cleanings of the dirty table, the payload of every domain that is not waiting for coalescing is the one computed from the certificates and policies stored now.", "quantifier": "all histories of operations, all crash points", "why_tests_cant": "histories are unbounded and the failing ones need a particular order", "anchors": ["pkg/mapserver/updater/updater.go:insertCerts", "tools/create_schema.sh:calc_dirty_domains", "tools/create_schema.sh:prune_expired"]}
{"id": "C71", "title": "FetchInclusions accounts for every leaf", "statement": "When FetchInclusions returns, every leaf was asked for once and has either a proof in the result (one that the log server returned for a leaf with that name) or an entry in the failed lists with its error; proofs and errors are those that the log server sent.", "quantifier": "all leaves, all answers of the log server, worker counts and schedules", "why_tests_cant": "The interleaving of leader and workers and the answers of the server are unbounded.", "anchors": ["pkg/policylog/client/concurrentfunc.go:FetchInclusions", "pkg/policylog/client/concurrentfunc.go:worker_fetchInclusion"]}
{"id": "C72", "title": "QueueRPCs loses no policy certificate and ends", "statement": "Every policy certificate file removed from the exchange folder was read and queued; the wait for the log to include the new leaves ends.", "quantifier": "all folder contents, all growths of the log", "why_tests_cant": "Depends on undecodable files at any position and on other clients of the log.", "anchors": ["pkg/policylog/client/logclient.go:QueueRPCs", "pkg/policylog/client/logclient.go:readRPCFromFileToBytes"]}
{"id": "C73", "title": "A policy CA signs only inside its own validity", "statement": "Every certificate issued by a policy CA has a validity period inside the one of the CA's certificate, and a request made by the CA with the owner's signing function carries an owner signature that verifies.", "quantifier": "all requests, all CA certificates", "why_tests_cant": "requests may come from anywhere and any period", "anchors": ["pkg/pca/pca.go:PCA.NewPolicyCertificateSigningRequest", "pkg/pca/pca.go:PCA.SignAndLogRequest"]}
{"id": "C74", "title": "Equal of policy certificates means equal contents", "statement": "Equal of two policy certificates is true exactly if all their fields denote the same contents (instants of times, bytes of slices); it is an equivalence relation; a certificate read back from its JSON text is equal to the one written exactly if its texts are UTF-8.", "quantifier": "all pairs of policy certificates and revocations", "why_tests_cant": "time zones, monotonic clock readings, nil versus empty slices and text that is not UTF-8 combine without bound", "anchors": ["pkg/common/policies.go:PolicyCertificate.Equal", "pkg/common/policies.go:PolicyCertificateRevocation.Equal", "pkg/common/embedded_policies.go:SignedEntryTimestamp.Equal"]}
{"id": "C75", "title": "Stalling a pipeline", "statement": "While the whenStalled callback of WithStallStages runs, none of the stages to stall is in its process function or end-of-data function, shouldStallPipeline is not evaluated and no second whenStalled runs; each time shouldStallPipeline answers true leads to exactly one whenStalled call, no stage stays blocked, and no mutex or wait group is misused.", "quantifier": "all sets of stages, all schedules, all answers of shouldStallPipeline", "why_tests_cant": "Interleavings of any number of stages with the two mutexes and the wait group are unbounded.", "anchors": ["pkg/pipeline/stall_resume.go:WithStallStages", "pkg/pipeline/stage.go:Stage.processThisStage"]}
{"id": "C76", "title": "The link between the ingest pipelines routes every certificate", "statement": "At any moment of any execution, every DB stage has received from each certificate stage, in order and once each, the certificates of its worker emitted so far except at most the last, and nothing else; every execution is finite; without failures everything is delivered and ends; a certificate stage reports no error only if no DB stage failed, and errors reported as those of a DB stage are.", "quantifier": "all lists of certificates, worker counts, failures and schedules", "why_tests_cant": "Interleavings of forwarders, error readers and stages, and the failure points, are unbounded.", "anchors": ["cmd/ingest/processor.go:getNewLinkFunction", "pkg/mapserver/updater/manager.go:NewManager", "pkg/pipeline/stage.go:breakPipelineAndWait"]}
{"id": "C77", "title": "The rows of certificates, links and dirty domains loaded into the DB are the records written", "statement": "Every CSV file that the updater writes for certificates, dirty domains or domain-certificate pairs is loaded by MySQL as exactly one row per record, in order, with the values of the record, whatever was in the storage before; without write errors no file is refused; the text of an expiration determines it.", "quantifier": "all lists of records, all old contents of the reused buffers, all names found in certificates", "why_tests_cant": "names come from certificates and may hold any bytes; the meaning of the text depends on the other program that reads it", "anchors": ["pkg/mapserver/updater/csv.go:writeCSV", "pkg/mapserver/updater/csv.go:writeCertCSV", "pkg/mapserver/updater/csv.go:writeRecordsWithStorage", "pkg/db/mysql/mysql.go:writeToCSV", "pkg/db/mysql/mysql.go:loadDomainsTableWithCSV", "pkg/db/mysql/certs.go:loadCertsTableWithCSV"]}
{"id": "C78", "title": "The payload API returns only stored payloads", "statement": "Whatever goes wrong while rows are read, a payload in an answer to /getpayloads, /getcertpayloads or /getpolicypayloads is the one stored under the ID at its place; requests and answers are read as they were written; a parameter is accepted exactly if it consists of whole IDs in hexadecimal digits, otherwise the answer is status 400.", "quantifier": "all lists of IDs (any length, repetitions, unknown IDs), all texts of the parameter, all contents of the DB, all orders and interruptions of the rows", "why_tests_cant": "the order of the rows of a query is unspecified, reading them can fail after any row, and parameters are arbitrary text", "anchors": ["pkg/mapserver/mapserver.go:MapServer.apiGetPayloads", "pkg/db/mysql/certs.go:mysqlDB.RetrieveCertificatePayloads", "pkg/db/mysql/policies.go:mysqlDB.RetrievePolicyPayloads", "pkg/db/mysql/common.go:mysqlDB.RetrieveCertificateOrPolicyPayloads"]}
{"id": "C79", "title": "Pruning that fails does no harm", "statement": "If PruneCerts fails at any statement, no certificate was removed or all that had to go, the domains concerned were marked before, and the payload of every domain not marked dirty is still right; without failure the call is the pruning of C21 with the wall clock of the machine as cut.", "quantifier": "all contents of the DB, all instants and zones, all failing statements", "why_tests_cant": "zones of the machine, expiration dates and failure points are unbounded", "anchors": ["pkg/db/mysql/certs.go:mysqlDB.PruneCerts", "pkg/db/mysql/certs.go:mysqlDB.pruneCerts", "tools/create_schema.sh:prune_expired", "pkg/mapserver/mapserver.go:MapServer.prune"]}
{"id": "C80", "title": "RunWhen never runs the function too often or twice at once", "statement": "RunWhen runs the function first at the given time (or at once if it is past); run i starts no earlier than i intervals after that; runs do not overlap; without cancellation the next run starts at most one interval after the end of the last, at a tick or directly after a run in which a tick came; once ended it never runs again.", "quantifier": "all start times, intervals, durations of the runs, cancellation times, choices of select", "why_tests_cant": "durations and cancellation times are unbounded and select is nondeterministic", "anchors": ["pkg/util/ticker.go:RunWhen", "cmd/mapserver/main.go:runWithConfig"]}
{"id": "C81", "title": "The map server stops when told to", "statement": "After Shutdown the running Listen returns nil, and only then; Shutdown does not block; after SIGTERM or SIGINT the map server program ends without a panic.", "quantifier": "all sequences of Listen, failures to listen, Shutdown and signals, all schedules of the goroutines", "why_tests_cant": "which goroutine receives the order to stop depends on the schedule and on the earlier calls", "anchors": ["pkg/mapserver/mapserver.go:MapServer.listen", "pkg/mapserver/mapserver.go:MapServer.Shutdown", "pkg/util/signal_handler.go:ContextWithCancelOnSignal", "cmd/mapserver/main.go:runWithConfig"]}
{"id": "C82", "title": "Temporary CSV files: the right file, and no other", "statement": "Every CSV file that the updater creates is loaded at most once, with exactly its contents and in the order of creation, removed at most once, and no other file is ever read, overwritten or removed, although names are shared byte buffers and names may collide; the workers end, never block each other, and fail without an error of the system only if ten random names exist already.", "quantifier": "all numbers of workers and batches, interleavings, random names, contents of the directory, other programs creating files, failures of the DB and of the file system, restarts of the pipeline", "why_tests_cant": "names travel as views of reused buffers through concurrent stages; the random names, failures and schedules are unbounded", "anchors": ["pkg/util/noallocs/tempfile.go:CreateTempFile", "pkg/util/noallocs/ringcache.go:RingCache", "pkg/util/noallocs/file.go:Open", "pkg/mapserver/updater/csv.go:writeCSV", "pkg/mapserver/updater/certsWorker.go:newCertCsvRemover", "pkg/mapserver/updater/domainWorker.go:newDomainsToCsvs"]}
{"id": "C83", "title": "The DB connection is the one that was configured", "statement": "The modifiers set the values they document, the last one wins, and Connect opens a connection with exactly the configured user, password, address, DB name and parameters, or returns an error; connecting again with the same configuration makes the same connection.", "quantifier": "all sequences of modifiers, all environments, all texts of user, password, host, port, socket, DB name and parameters", "why_tests_cant": "the text of the DSN is read by two other parsers (net/url and the driver), and the values are arbitrary text", "anchors": ["pkg/db/mysql/init.go:Connect", "pkg/db/mysql/init.go:parseDSN", "pkg/db/mysql/init.go:connect", "pkg/db/mysql/conf.go:WithEnvironment", "pkg/db/conf.go:NewConfig", "cmd/ingest/main.go:mainFunction"]}
{"id": "C84", "title": "Interrupting ingest", "statement": "Once ingest is being stopped no further batch is begun and the main goroutine ends after at most three steps; the signal handler never blocks; SIGUSR1 changes nothing; batches are completed one after the other; an exit code 0 means that every batch was completed, 1 that an error is printed, otherwise two SIGINT/SIGTERM were sent and the code is that of one of them; the message says interrupted exactly if the run was cancelled.", "quantifier": "all numbers of batches, all sequences of signals, all schedules of handler and main goroutine, all failures", "why_tests_cant": "signals arrive at any point of any batch, also while the handler is writing diagnostics", "anchors": ["cmd/ingest/main.go:startIngestSignalHandler", "cmd/ingest/main.go:signalExitCode", "cmd/ingest/main.go:mainFunction", "cmd/ingest/run.go:ingestFilesInBatches"]}
{"id": "C85", "title": "A pipeline without failures delivers everything and ends", "statement": "In every acyclic network of stages no execution is infinite, and what Wait returns are errors that functions returned; if no function fails there is no deadlock, Wait returns nil after all stages have ended, and every channel has delivered exactly the outputs sent to it (in order, if sent in sequence); a chain of stages does not deadlock whatever its functions do.", "quantifier": "all acyclic networks of stages, all functions, all values, all interleavings of the goroutines", "why_tests_cant": "networks, values and interleavings are unbounded; which goroutine receives an error depends on the schedule", "anchors": ["pkg/pipeline/stage.go:Stage.processThisStage", "pkg/pipeline/stage.go:Stage.breakPipelineAndWait", "pkg/pipeline/pipeline.go:Pipeline.Wait", "pkg/pipeline/source.go:Source", "pkg/pipeline/sink.go:Sink", "pkg/mapserver/updater/manager.go:Manager.createPipeline"]}
{"id": "C86", "title": "CSV files become the certificates written in them", "statement": "A file written as CSV, with any quoting and either line end, is read without error as one line per row; the worker decodes each row to exactly the certificate, chain and expiration written in it, and the counters count them. Whatever a file contains, the lines passed on are those of a prefix of the file, a line cut off by a failed read is never passed on, and a row that cannot be decoded is an error, of which nothing is emitted; both kinds of workers treat every line alike.", "quantifier": "all file contents, all quotings, all points at which reading fails, all certificates and chains, all numbers of workers, cache sizes and distributions of lines to workers", "why_tests_cant": "file contents and distributions are unbounded; the fast path, the fallback to encoding/csv, base64 and the cache interact", "anchors": ["cmd/ingest/csvSplitWorker.go:startReadingLines", "cmd/ingest/toChainWorker.go:parseLine", "cmd/ingest/toChainPtrWorker.go:parseLine", "cmd/ingest/toChainWorker.go:splitSemicolonField", "cmd/ingest/toChainWorker.go:decodeBase64Field", "cmd/ingest/toChainWorker.go:getExpiration", "cmd/ingest/fastcsv/fastcsv.go:ParseLine"]}
{"id": "C87", "title": "The local log fetcher delivers every row once and ends", "statement": "From StartFetching to NextBatch returning false, whatever the order in which the file readers and parsers run, the caller receives exactly the certificates (with their chains) of the rows of the readable files that have not expired, each once, and is told the number of expired ones; batches are full except for the last; nothing blocks while NextBatch is called and the number of steps is bounded; if all rows can be parsed the program does not crash.", "quantifier": "all files and rows, all numbers of readers and parsers, batch sizes and channel capacities, all interleavings", "why_tests_cant": "8 readers with 64 parsers each, a batcher and the caller run concurrently; the interleavings and file contents are unbounded", "anchors": ["pkg/mapserver/logfetcher/locallogfetcher.go:StartFetching", "pkg/mapserver/logfetcher/locallogfetcher.go:ingestWithCSV", "pkg/mapserver/logfetcher/locallogfetcher.go:processIncomingFiles", "pkg/mapserver/logfetcher/locallogfetcher.go:NextBatch", "pkg/mapserver/logfetcher/locallogfetcher.go:getExpiration"]}
{"id": "C88", "title": "Roots and signatures of an answer were saved, and are fresh", "statement": "Whatever the schedule of requests and reloads: the tree of a proof, of a root and of a signature in an answer were each saved in the DB, the root is never older than the proof, and nothing is older than the last reload that ended before the request; a reload that cannot load the root changes nothing; an HTTP answer is an error or has all elements; if signing never fails, tree and signature agree whenever no reload is in its last steps.", "quantifier": "all interleavings of requests, reloads and updates, all trees, all failures of loading and signing", "why_tests_cant": "tree and signature are replaced in several steps while any number of requests read them", "anchors": ["pkg/mapserver/responder/responder.go:ReloadRootAndSignTreeHead", "pkg/mapserver/responder/responder.go:signTreeHead", "pkg/mapserver/responder/responder.go:GetProof", "pkg/mapserver/responder/responder.go:NewMapResponder", "pkg/mapserver/mapserver.go:apiGetProof"]}
{"id": "C89", "title": "An update of the trie by worker goroutines ends", "statement": "Trie.Update splits its work over goroutines. Whatever the schedule and the size of the worker pool, it always ends, without deadlock, with all slots of the pool released, and never more workers run than the pool allows.", "quantifier": "all histories of the trie, all batches of keys, all schedules, all sizes of the worker pool and thresholds for starting a worker", "why_tests_cant": "the interleavings of up to 128 workers on batches of thousands of keys cannot be enumerated; a race shows up only in few of them", "anchors": ["pkg/mapserver/trie/trie.go:Update", "pkg/mapserver/trie/trie.go:update", "pkg/mapserver/trie/trie.go:updateParallel", "pkg/mapserver/trie/trie.go:trySpawnUpdateWorker", "pkg/mapserver/trie/trie_cache.go:commitChangesToDB"]}
{"id": "C90", "title": "The journal file is replaced atomically", "statement": "Whatever fails and wherever a process is killed or the machine crashes, the journal file is the one that was there or holds all the bytes of a journal that a call asked to save, and it can be read; a call that returns an error leaves the journal and the directory as they were (a temporary file may be left if it cannot be removed); no other file is changed; after Close nothing is written; without errors of the system a call saves.", "quantifier": "all numbers of processes using the journal, all interleavings of their system calls, all failures of system calls, all points at which a process is killed, all machine crashes with any loss of data not yet on the disk", "why_tests_cant": "crash points and interleavings of system calls cannot be enumerated, and a machine crash cannot be part of a unit test", "anchors": ["cmd/ingest/journal/journal.go:writeLocked", "cmd/ingest/journal/journal.go:write", "cmd/ingest/journal/journal.go:syncDirAfterRename", "cmd/ingest/journal/journal.go:NewJournal", "cmd/ingest/journal/journal.go:Close", "cmd/ingest/journal/journal.go:CommitProgress"]}
{"id": "C91", "title": "From submissions to verified answers", "statement": "After any certificates with their chains and any policies were submitted, in any batches and order, and an update was finished and the responder has loaded the tree: GetProof gives one answer per name from the e2LD to the asked name; each answer verifies; it says present exactly if something was submitted for the name, and then it returns exactly the IDs of the certificates submitted for the name with their chains, and of the policies submitted for it, each once and in ascending order. An update can always be finished.", "quantifier": "all hash functions with 32 bytes, all batches, chains, names, policies, all orders of submissions, interruptions, prunings, coalescing steps and tree updates, all asked names", "why_tests_cant": "the claim is about the composition of all parts over every history of the system; a test runs one history with a few certificates", "anchors": ["pkg/mapserver/mapserver.go:update", "pkg/mapserver/mapserver.go:prune", "pkg/mapserver/updater/updater.go:UpdateSMT", "pkg/mapserver/updater/updater.go:UpdateWithKeepExisting", "pkg/mapserver/updater/updater.go:UpdateWithOverwrite", "pkg/mapserver/updater/updater.go:updateCertBatch", "pkg/mapserver/responder/responder.go:GetProof", "pkg/db/mysql/mysql.go:extractDomainEntries"]}
{"id": "C92", "title": "What the journal recorded stays recorded", "statement": "Every job recorded in the journal file is still there after any further runs of the ingest command, wherever they stop: with the same flags, recorded size, directories and completed indices; each run adds at most one job; and the file can always be read again. CommitProgress and CommitCTLogSize change only the job of the current run, although intervals are moved in place inside slices.", "quantifier": "all histories of runs and crashes, all sequences of calls on an open journal, all growth policies of slices, all directory names", "why_tests_cant": "sharing of one array between two jobs shows only for some capacities and orders of intervals; the claim about earlier jobs ranges over all later runs and stops", "anchors": ["cmd/ingest/journal/journal.go:appendInterval", "cmd/ingest/journal/journal.go:cloneCompletedIndices", "cmd/ingest/journal/journal.go:appendJob", "cmd/ingest/journal/journal.go:CommitProgress", "cmd/ingest/journal/journal.go:CommitCTLogSize", "cmd/ingest/journal/journal.go:normalizeCompletedIndices", "cmd/ingest/journal/journal.go:encodeCompletedIndices", "cmd/ingest/journal/journal.go:decodeCompletedIndices"]}
{"id": "C93", "title": "A domain owner can obtain and renew a policy certificate", "statement": "A request generated for a domain is for that domain, version and a new key; it is signed with, and verifies with, the certificate registered last for exactly this domain, and is unsigned if none was registered. The certificate issued for it verifies with the CA, can be used by the owner, and can be used to sign the next renewal.", "quantifier": "all histories of registrations and requests, all domains, keys, clocks, CAs and log servers", "why_tests_cant": "the renewal goes over several calls of two components, and the claim is about every history before it", "anchors": ["pkg/domainowner/domainowner.go:GeneratePolCertSignRequest", "pkg/common/crypto/crypto.go:SignAsOwner", "pkg/pca/pca.go:SignAndLogRequest", "pkg/common/policy_issuance.go:NewPolicyCertificateSigningRequest"]}
{"id": "C94", "title": "Time stamps of log servers bind the certificate", "statement": "A time stamp returned by SignPolicyCertificateTimestamp verifies for the certificate, version, log and time it was made for; one that verifies says what the log signed: a certificate with the same contents, the same version, log and time.", "quantifier": "all certificates, logs, keys, requests and answers of log servers", "why_tests_cant": "what a signature covers shows only against every other certificate and message", "anchors": ["pkg/common/crypto/crypto.go:SignPolicyCertificateTimestamp", "pkg/common/crypto/crypto.go:SignBytes", "pkg/common/crypto/crypto.go:VerifySignedBytes", "pkg/common/embedded_policies.go:NewSignedEntryTimestampSignatureInput", "pkg/pca/pca.go:sendRequestToAllLogServers", "pkg/pca/pca.go:signFinalPolicyCertificate"]}
{"id": "C95", "title": "recordctsize: one key for one directory, and no other state changes", "statement": "Cleaning a path keeps the place it denotes; paths of the same place give the same key in the journal, which is the name of the directory; a recordctsize job changes no state but that of the URL derived from the directory.", "quantifier": "all directories and paths to them, all URLs, journals, tables and working directories", "why_tests_cant": "the directory name, the journal's key, the derived URL and the hash under which the map server looks are computed in different programs; they must agree for every path and URL", "anchors": ["cmd/ingest/run.go:deriveCTLogURLFromIngestDir", "cmd/ingest/run.go:completedCTLogSize", "cmd/ingest/main.go:RecordCTSize", "cmd/ingest/journal/journal.go:normalizeCompletedFile", "pkg/db/mysql/certs.go:LastCTlogServerState", "pkg/db/mysql/certs.go:UpdateLastCTlogServerState", "pkg/mapserver/updater/updater.go:startNextFetcher"]}
{"id": "C96", "title": "The part of ingest that reads files", "statement": "With any number of file readers, line parsers and certificate stages, and whatever the schedule: reading files comes to an end; Wait returns; it returns nil only if all stages have ended, no function failed and everything in the files was read; the errors it returns are errors of the functions; and when it returns nil every certificate of every unexpired entry has been put out, and nothing else.", "quantifier": "all numbers of workers, all files, all interleavings of the stages and of the goroutines of the links, all failures", "why_tests_cant": "the stages of a layer share one channel and race for every value, errors go back through two layers of goroutines; deadlocks, losses and doubled values depend on the schedule", "anchors": ["pkg/pipeline/stage.go:LinkStagesDistribute", "pkg/pipeline/stage.go:LinkStagesCrissCross", "cmd/ingest/processor.go:createFilesToCertsPipeline", "cmd/ingest/csvSplitWorker.go:NewCsvSplitWorker", "cmd/ingest/toChainWorker.go:NewLineToChainWorker", "cmd/ingest/chainToCertWorker.go:NewChainToCertWorker"]}
{"id": "C97", "title": "A source that gives the values of a slice", "statement": "On every Resume a source made with WithSourceSlice gives the values of the slice, in order and each once, and then ends, whatever happened in earlier runs; it never panics and leaves no goroutine behind.", "quantifier": "all slices, all histories of Resume, of runs that are given up at any point, and of assignments to the slice, all schedules of the feeding goroutines", "why_tests_cant": "the goroutine of an earlier run shares a field with the next run; the effects depend on when it is scheduled", "anchors": ["pkg/pipeline/source.go:WithSourceSlice", "pkg/pipeline/pipeline.go:Resume"]}
{"id": "C98", "title": "Certificates and keys written as PEM texts are read back", "statement": "The certificates that SerializeCertificates (CertWriter) writes are those that DeserializeCertificates (CertReader) returns, in the same order, whatever pieces the reader below gives, also with other PEM blocks in between; the first of them is what CertificateFromPEMBytes/File returns; RSAKeyFromPEM returns the key that RSAKeyToPEM wrote; likewise the base64 form of public keys.", "quantifier": "all lists of certificates and contents of any length, all ways to cut the text into pieces, all keys, all texts", "why_tests_cant": "the cuts fall anywhere, also inside a BEGIN or END mark, and the lengths are not bounded", "anchors": ["pkg/util/certWriter.go:Write", "pkg/util/certificate.go:SerializeCertificates,DeserializeCertificates", "pkg/util/io.go:CertificateFromPEMBytes,RSAKeyFromPEM,RSAKeyToPEM", "pkg/util/pem.go"]}
{"id": "C99", "title": "Two pipelines joined by JoinTwoPipelines", "statement": "The source of the second pipeline gets exactly what the first pipeline delivers to its sink, in order and each value once; the original function of the sink is called as well; Wait returns nil if nothing fails, and the error if the sink or a stage of the second pipeline fails; the joined pipeline can be resumed again.", "quantifier": "all lists of values, all schedules of the goroutines of the sink and of the source, failures at any point, any number of runs", "why_tests_cant": "schedules and failure points; the tests run the joined pipeline once and without errors", "anchors": ["pkg/pipeline/join.go:JoinTwoPipelines,joinStages", "pkg/pipeline/stage.go:processThisStage", "pkg/pipeline/source.go:WithSourceChannel"]}
