import Verif.Lemmas.SmtLoad
import Verif.Props.SmtStore

/-!
# The cache after a restart: `LoadCache` (C109)
-/
namespace Fpki.SmtStore

open Fpki.Smt (Node KVs Key Val byteOf digest preimages rootHash run mapAfter applyKVs ValidBatch ValidHist EdgeDeletes EdgeHist SizedHist b32)

variable {c : Cfg}

/-! ## Specification -/

/-- The content of the trie is `f`: `Get` gives the value of `f` for every key of 32 bytes. -/
def Reads (c : Cfg) (tr : Trie) (f : Key → Option Val) : Prop := ∀ k, k.length = 32 → (tr.get c k).map Prod.fst = some (f k)

/-- `MerkleProof` gives the proofs of the tree `t`. -/
def Proves (c : Cfg) (tr : Trie) (t : Node) : Prop := ∀ k, (tr.merkleProof c k).map Prod.fst = some (Smt.merkleProof c.H 256 256 t k)

/-- The rows of all nodes below the limit of the cache are still in `db'`; whatever is above may be gone. -/
def LowerRows (c : Cfg) (t : Node) (db db' : Bytes → Option Bytes) : Prop := ∀ h u, h < c.lim → Sub 256 t h u → db' (digest c.H h u) = db (digest c.H h u)

/-! ## Lemmas -/

theorem idle_loaded {Hp : Bytes → Prop} (hA : NoAccident c.H Hp) (hn : c.n = 256) {t : Node} {tr : Trie} (h : Idle c Hp t tr) (fail : Bytes → Bool) (root0 : Bytes) :
    (((newTrie root0 tr.st.db).loadCache c fail tr.root).1 ≠ .panic) ∧ (((newTrie root0 tr.st.db).loadCache c fail tr.root).1 = .err → ∃ d, fail d = true) ∧
      Idle c Hp t ((newTrie root0 tr.st.db).loadCache c fail tr.root).2 ∧
      (((newTrie root0 tr.st.db).loadCache c fail tr.root).1 = .ok → Cached c ((newTrie root0 tr.st.db).loadCache c fail tr.root).2.st.live 256 t) := by
  have hr := h.restart
  have hq := loadCache_ok hA fail tr.st.db 256 0 tr.root t [] 0 (newTrie tr.root tr.st.db).st rfl (fun _ => rfl) hr.look
  unfold Trie.loadCache
  rw [hn]
  exact ⟨hq.np, hq.err, hr.read hq.coh ⟨rfl, rfl, rfl⟩, hq.cached⟩

theorem Idle.reads {Hp : Bytes → Prop} (hA : NoAccident c.H Hp) (hn : c.n = 256) {hist : List KVs} {tr : Trie} (h : Idle c Hp (run 256 hist) tr) (hv : ValidHist 256 hist) (he : EdgeHist hist) : Reads c tr (mapAfter hist) := by
  intro k hk
  obtain ⟨s, hs⟩ := h.get hA hn k
  rw [hs, ← (Smt.goodHist_of_edge hv he).spec.2 k (by omega)]
  rfl

theorem Idle.proves {Hp : Bytes → Prop} (hA : NoAccident c.H Hp) (hn : c.n = 256) {t : Node} {tr : Trie} (h : Idle c Hp t tr) : Proves c tr t := by
  intro k
  obtain ⟨s, hs⟩ := h.merkleProof hA hn k
  rw [hs]
  rfl

/-! ## C109 -/

/-- C109: after a restart, `LoadCache` with the last committed root never panics, returns an error only if the DB did for some query, and leaves a trie with that root which gives the value of every key and its proof - even if it returned an error.
Proved for the histories and hash functions of C10. -/
theorem C109_load_partial (hn : c.n = 256) (ops : List Op) (hv : ValidHist 256 (batches ops)) (he : EdgeHist (batches ops)) (hs : SizedHist (batches ops)) (hc : Changing (fun _ => none) (batches ops))
    (ht : NoTwins (batches ops)) (hA : NoAccident c.H (Hashed c.H (batches ops))) :
    ∃ tr, life c ops = some tr ∧ ∀ (fail : Bytes → Bool) (root0 : Bytes), let q := (newTrie root0 tr.st.db).loadCache c fail tr.root
      q.1 ≠ .panic ∧ (q.1 = .err → ∃ d, fail d = true) ∧ q.2.root = (rootHash c.H 256 (run 256 (batches ops))).getD [] ∧ q.2.st.db = tr.st.db ∧ Reads c q.2 (mapAfter (batches ops)) ∧ Proves c q.2 (run 256 (batches ops)) := by
  obtain ⟨tr, e1, e2⟩ := idle_life hA hn ops hv he hs hc ht (fun _ h => h)
  refine ⟨tr, e1, fun fail root0 => ?_⟩
  obtain ⟨h1, h2, h3, _⟩ := idle_loaded hA hn e2 fail root0
  exact ⟨h1, h2, idle_root h3, rfl, h3.reads hA hn hv he, h3.proves hA hn⟩

/-- C109: after a `LoadCache` without error the rows of the nodes down to the limit of the cache are not needed any more: `Get` and `MerkleProof` give the same with a DB that has only the rows below. -/
theorem C109_unread_partial (hn : c.n = 256) (ops : List Op) (hv : ValidHist 256 (batches ops)) (he : EdgeHist (batches ops)) (hs : SizedHist (batches ops)) (hc : Changing (fun _ => none) (batches ops))
    (ht : NoTwins (batches ops)) (hA : NoAccident c.H (Hashed c.H (batches ops))) :
    ∃ tr, life c ops = some tr ∧ ∀ (fail : Bytes → Bool) (root0 : Bytes), let q := (newTrie root0 tr.st.db).loadCache c fail tr.root
      q.1 = .ok → ∀ db', LowerRows c (run 256 (batches ops)) tr.st.db db' →
        Reads c ⟨q.2.root, { q.2.st with db := db' }⟩ (mapAfter (batches ops)) ∧ Proves c ⟨q.2.root, { q.2.st with db := db' }⟩ (run 256 (batches ops)) := by
  obtain ⟨tr, e1, e2⟩ := idle_life hA hn ops hv he hs hc ht (fun _ h => h)
  refine ⟨tr, e1, fun fail root0 => ?_⟩
  obtain ⟨_, _, h3, h4⟩ := idle_loaded hA hn e2 fail root0
  intro q hq db' hdb
  obtain ⟨s2, r1, r2⟩ := cached_look h3 (h4 hq) (db' := db') hdb
  refine ⟨fun k hk => ?_, fun k => ?_⟩
  · have := get_rel (c := c) k 256 tr.root [] 0 _ _ r1
    obtain ⟨s', f1, _, _⟩ := get_ok hA hn k 256 0 _ _ [] 0 s2 r2
    have f1' : get c 256 tr.root k [] 0 s2 = _ := f1
    rw [f1', (Smt.goodHist_of_edge hv he).spec.2 k (by omega)] at this
    unfold Trie.get
    rw [hn]
    exact this.symm
  · have := merkleProof_rel (c := c) k 256 tr.root [] 0 _ _ r1
    obtain ⟨s', f1, _, _⟩ := merkleProof_ok hA hn k 256 0 _ _ [] 0 s2 r2
    have f1' : merkleProof c 256 tr.root k [] 0 s2 = _ := f1
    rw [f1'] at this
    unfold Trie.merkleProof
    rw [hn]
    exact this.symm

/-- C109: with the limit 0 the DB is not needed for reading at all once the cache is loaded. -/
theorem C109_whole_partial (hn : c.n = 256) (hl : c.lim = 0) (ops : List Op) (hv : ValidHist 256 (batches ops)) (he : EdgeHist (batches ops)) (hs : SizedHist (batches ops)) (hc : Changing (fun _ => none) (batches ops))
    (ht : NoTwins (batches ops)) (hA : NoAccident c.H (Hashed c.H (batches ops))) :
    ∃ tr, life c ops = some tr ∧ ∀ root0, let q := (newTrie root0 tr.st.db).loadCache c (fun _ => false) tr.root
      q.1 = .ok ∧ Reads c ⟨q.2.root, { q.2.st with db := fun _ => none }⟩ (mapAfter (batches ops)) := by
  obtain ⟨tr, e1, e2⟩ := C109_unread_partial hn ops hv he hs hc ht hA
  obtain ⟨tr', e1', e2'⟩ := C109_load_partial hn ops hv he hs hc ht hA
  rw [e1] at e1'
  cases e1'
  refine ⟨tr, e1, fun root0 => ?_⟩
  obtain ⟨h1, h2, _⟩ := e2' (fun _ => false) root0
  have hok : ((newTrie root0 tr.st.db).loadCache c (fun _ => false) tr.root).1 = .ok := by
    cases ho : ((newTrie root0 tr.st.db).loadCache c (fun _ => false) tr.root).1 with
    | ok => rfl
    | panic => exact absurd ho h1
    | err => obtain ⟨d, hd⟩ := h2 ho; cases hd
  exact ⟨hok, (e2 _ root0 hok _ (fun h u hlt => by rw [hl] at hlt; omega)).1⟩

/-- C109: life goes on after `LoadCache`, with or without an error of the DB: whatever is done then with the trie succeeds, and all of it can be read, also after another restart. -/
theorem C109_life_partial (hn : c.n = 256) (ops more : List Op) (hv : ValidHist 256 (batches ops ++ batches more)) (he : EdgeHist (batches ops ++ batches more)) (hs : SizedHist (batches ops ++ batches more))
    (hc : Changing (fun _ => none) (batches ops ++ batches more)) (ht : NoTwins (batches ops ++ batches more)) (hA : NoAccident c.H (Hashed c.H (batches ops ++ batches more))) :
    ∃ tr, life c ops = some tr ∧ ∀ (fail : Bytes → Bool) (root0 : Bytes), ∃ tr2, lifeFrom c ((newTrie root0 tr.st.db).loadCache c fail tr.root).2 more = some tr2 ∧
      Reads c tr2 (mapAfter (batches ops ++ batches more)) ∧ Reads c (newTrie tr2.root tr2.st.db) (mapAfter (batches ops ++ batches more)) := by
  have hsub : ∀ kvs ∈ batches ops, kvs ∈ batches ops ++ batches more := fun kvs h => List.mem_append_left _ h
  have hmono : ∀ x, Hashed c.H (batches ops) x → Hashed c.H (batches ops ++ batches more) x := by
    rintro x (⟨kvs, h1, h2⟩ | ⟨done, rest, h1, h2⟩)
    · exact Or.inl ⟨kvs, hsub kvs h1, h2⟩
    · exact Or.inr ⟨done, rest ++ batches more, by rw [h1, List.append_assoc], h2⟩
  have hch : ∀ (l m : List KVs) (f : Key → Option Val), Changing f (l ++ m) → Changing f l := by
    intro l
    induction l with
    | nil => intro _ _ _; exact True.intro
    | cons a l ih => intro m f h; exact ⟨h.1, ih m _ h.2⟩
  obtain ⟨tr, e1, e2⟩ := idle_life (Hp := Hashed c.H (batches ops ++ batches more)) hA hn ops (fun k h => hv k (hsub k h)) (fun k h => he k (hsub k h)) (fun k h => hs k (hsub k h)) (hch _ _ _ hc)
    (fun k h p hp k' h' => ht k (hsub k h) p hp k' (hsub k' h')) hmono
  refine ⟨tr, e1, fun fail root0 => ?_⟩
  obtain ⟨_, _, h3, _⟩ := idle_loaded hA hn e2 fail root0
  obtain ⟨tr2, g1, g2⟩ := idle_lifeFrom hA hn h3 more hv he hs hc ht (fun _ h => h)
  exact ⟨tr2, g1, g2.reads hA hn hv he, g2.restart.reads hA hn hv he⟩

/-- The hypotheses of the theorems hold for `exOps`, also with the limit 0, and a further batch; the cache is not empty. -/
example : exCfg.n = 256 ∧ (ValidHist 256 (batches exOps) ∧ EdgeHist (batches exOps) ∧ SizedHist (batches exOps) ∧ Changing (fun _ => none) (batches exOps) ∧ NoTwins (batches exOps)) ∧ NoAccident exCfg.H (Hashed exCfg.H (batches exOps)) ∧
    batches (exOps.take 4) ++ batches (exOps.drop 4) = batches exOps ∧
    NoAccident ({ H := exH, n := 256, lim := 0 } : Cfg).H (Hashed ({ H := exH, n := 256, lim := 0 } : Cfg).H (batches exOps)) := ⟨rfl, exOps_ok, exNoAccident, rfl, exNoAccident⟩

/-- What `LoadCache` does with the DB of `exOps`: how it ends, and whether the root is in the cache; with queries that fail for some digests. -/
def exLoad (fail : Bytes → Bool) : Option (Outcome × Bool × Option (Option Bytes)) := (life exCfg exOps).map (fun tr =>
  let q := (newTrie [] tr.st.db).loadCache exCfg fail tr.root
  (q.1, (q.2.st.live tr.root).isSome, (q.2.get exCfg (b32 0x08)).map Prod.fst))

/-- The model run: without failures, with a failure for the root, and for all but the root. -/
example : exLoad (fun _ => false) = some (.ok, true, some (some (b32 3))) ∧ exLoad (fun _ => true) = some (.err, false, some (some (b32 3))) := ⟨by decide +kernel, by decide +kernel⟩

/-! ### What is violated -/

/-- C109 is violated for roots that are not in the DB: instead of the error "the trie node is unavailable in the disk db, db may be corrupted" the process ends with a panic, since a missing row is no error of the DB and the empty row is parsed. -/
theorem C109_missing_violated (hl : c.lim ≤ c.n) (h4 : c.n % 4 = 0) (tr : Trie) (root : Bytes) (hr : root.length = 32) (hd : tr.st.db root = none) (fail : Bytes → Bool) (hf : fail root = false) : (tr.loadCache c fail root).1 = .panic := by
  unfold Trie.loadCache
  dsimp only
  rw [loadCache.eq_def]
  dsimp only
  rw [if_neg (by omega), if_pos h4, if_neg (by omega), List.take_of_length_le (by omega), if_neg (by simp [hf]), hd]
  rfl

/-- C109 is violated for earlier roots ("given a root"): a root that was committed and could be read cannot be loaded after the next Commit, which has deleted its row; the process ends with a panic. -/
theorem C109_past_violated : ∃ ops kvs tr tr2, life exCfg ops = some tr ∧ life exCfg (ops ++ [.write kvs]) = some tr2 ∧ (tr.get exCfg (b32 0x00)).map Prod.fst = some (some (b32 1)) ∧
    ((newTrie [] tr2.st.db).loadCache exCfg (fun _ => false) tr.root).1 = .panic :=
  ⟨[.write [(b32 0x00, some (b32 1))]], [(b32 0x00, some (b32 2))], _, _, rfl, rfl, by decide +kernel, by decide +kernel⟩

/-- C109: a `LoadCache` that returns an error has changed the trie nevertheless: its root is the one that could not be loaded, and what the trie contained before cannot be read any more. -/
theorem C109_error_violated : ∃ tr root, life exCfg [.write [(b32 0x00, some (b32 1))]] = some tr ∧ (tr.get exCfg (b32 0x00)).map Prod.fst = some (some (b32 1)) ∧
    (tr.loadCache exCfg (fun d => d = root) root).1 = .err ∧ (tr.loadCache exCfg (fun d => d = root) root).2.get exCfg (b32 0x00) = none := by
  refine ⟨_, List.replicate 32 7, rfl, by decide +kernel, by decide +kernel, ?_⟩
  rw [← Option.isNone_iff_eq_none]
  decide +kernel

/-- The hypotheses of `C109_missing_violated` hold for every root on an empty DB. -/
example : exCfg.lim ≤ exCfg.n ∧ exCfg.n % 4 = 0 ∧ (b32 7).length = 32 ∧ (newTrie [] (fun _ => none)).st.db (b32 7) = none := ⟨by decide, rfl, rfl, rfl⟩

end Fpki.SmtStore
