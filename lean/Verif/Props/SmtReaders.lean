import Verif.Lemmas.SmtReaders

/-!
# Proofs of the responder while the updater works (C113)
-/
namespace Fpki.SmtStore

open Fpki.Smt (Node KVs Key Val byteOf digest rootHash run mapAfter b32)

/-! ## Specification -/

/-- The table `tree` at some moment while the updater does `acts` (updates, commits, reads, restarts; see C110): after some of them, or in the middle of the next Commit. -/
def AtMoment (c : Cfg) (acts : List Act) (db : Bytes → Option Bytes) : Prop :=
  ∃ a b y, acts = a ++ b ∧ tale c a = some y ∧ (db = y.tr.st.db ∨ (∃ b', b = .commit :: b') ∧ (Writing y.tr.st db ∨ Deleting y.tr.st db))

/-- The table at some moment after `a`, while `b` is done, and until a Commit that may follow has written its rows. -/
def UntilWritten (c : Cfg) (a b : List Act) (db : Bytes → Option Bytes) : Prop := ∃ b1 b2 y, b = b1 ++ b2 ∧ tale c (a ++ b1) = some y ∧ (db = y.tr.st.db ∨ Writing y.tr.st db)

variable {c : Cfg}

/-! ## C113 -/

/-- Every row that is ever in the table is right. -/
theorem cohDb_moment (hn : c.n = 256) {acts : List Act} (hp : Proper acts) (hA : NoAccident c.H (HashedIn c.H acts)) {db : Bytes → Option Bytes} (h : AtMoment c acts db) : CohDb c (HashedIn c.H acts) db := by
  obtain ⟨a, b, y, e, hy, h⟩ := h
  subst e
  obtain ⟨y', e1, e2⟩ := after_acts hA hn a hp.take (fun _ h => h.longer b)
  rw [hy] at e1
  cases e1
  rcases h with h | ⟨_, h | h⟩
  · rw [h]; exact e2.busy.cohDb
  · exact cohDb_writing hA e2.busy.coh e2.busy.cohDb h
  · exact cohDb_deleting hA e2.busy.coh e2.busy.cohDb h

theorem seek_reader {Hp : Bytes → Prop} {t : Node} (ht : TreeOk c Hp t) {db : Bytes → Option Bytes} (hd : CohDb c Hp db) : Seek (readerCfg c) Hp 256 0 (rootOf c.H t) t [] 0 ⟨fun _ => none, fun _ => none, [], db⟩ :=
  ⟨by omega, TOk.reader.2 ht.tok, rootOf_ok (c := readerCfg c) t, fun h => absurd rfl h, coh_empty _, CohDb.reader.2 hd⟩

/-- C113: an answer of the responder is never wrong, whatever the updater does at the same time. If the responder has the root of the content after `a`, and the updater goes on with `b`, then each proof is an error or the proof of that content, for every key, no matter at which moments the batches of the proof are read, also if the updater commits in between, and even if the moments are long before or after.
Proved for the acts and hash functions of C110. -/
theorem C113_sound_partial (hn : c.n = 256) (a b : List Act) (hp : Proper (a ++ b)) (hA : NoAccident c.H (HashedIn c.H (a ++ b))) (views : Views) (hv : ∀ h, AtMoment c (a ++ b) (views h)) (key : Key) :
    readProof c views (rootOf c.H (run 256 (hist a))) key = none ∨ readProof c views (rootOf c.H (run 256 (hist a))) key = some (Smt.merkleProof c.H 256 256 (run 256 (hist a)) key) := by
  have ht := (hp.fine a b rfl).tree (c := c) (Hp := HashedIn c.H (a ++ b)) (fun z hz => ⟨a, b, rfl, hz⟩)
  have hc := fun h => cohDb_moment hn hp hA (hv h)
  unfold readProof
  rw [hn]
  exact (viewProof_spec (c := readerCfg c) hA hn key views (fun h => CohDb.reader.2 (hc h)) 256 0 _ _ [] 0 (seek_reader ht (hc 256))).1

/-- C113: the responder answers every request for the content of the last Commit, whatever is updated, read or restarted since then, until the next Commit deletes its first row. -/
theorem C113_available_partial (hn : c.n = 256) (a b : List Act) (hb : Act.commit ∉ b) (hp : Proper (a ++ b)) (hA : NoAccident c.H (HashedIn c.H (a ++ b))) (views : Views) (hv : ∀ h, UntilWritten c a b (views h)) (key : Key) :
    readProof c views (rootOf c.H (run 256 (story a).1)) key = some (Smt.merkleProof c.H 256 256 (run 256 (story a).1) key) := by
  have hsame : ∀ b1, Act.commit ∉ b1 → (story (a ++ b1)).1 = (story a).1 := by
    intro b1
    induction b1 using List.reverseRecOn with
    | nil => intro _; simp
    | append_singleton b1 x ih =>
      intro hx
      rw [← List.append_assoc, story_snoc]
      have h1 := ih (fun h => hx (List.mem_append_left _ h))
      cases x with
      | commit => exact absurd (List.mem_append_right _ (List.mem_singleton.2 rfl)) hx
      | _ => exact h1
  have hf := hp.fine a b rfl
  have ht := (Fine.take (a := (story a).1) (b := (story a).2) hf).tree (c := c) (Hp := HashedIn c.H (a ++ b)) (fun z hz => ⟨a, b, rfl, hz.longer _ _⟩)
  have hdb : ∀ h, CohDb c (HashedIn c.H (a ++ b)) (views h) ∧ InDb c (views h) 256 (run 256 (story a).1) := by
    intro h
    obtain ⟨b1, b2, y, e, hy, hw⟩ := hv h
    have hp' : Proper (a ++ b1) := Proper.take (b := b2) (by rw [List.append_assoc, ← e]; exact hp)
    obtain ⟨y', e1, e2⟩ := after_acts hA hn (a ++ b1) hp' (fun z hz => by have := hz.longer b2; rwa [List.append_assoc, ← e] at this)
    rw [hy] at e1
    cases e1
    have hi := e2.busy.indb
    rw [hsame b1 (fun h => hb (by rw [e]; exact List.mem_append_left _ h))] at hi
    rcases hw with hw | hw
    · rw [hw]; exact ⟨e2.busy.cohDb, hi⟩
    · exact ⟨cohDb_writing hA e2.busy.coh e2.busy.cohDb hw, inDb_writing hA e2.busy.coh e2.busy.cohDb hw ht.tok hi⟩
  have hs := viewProof_spec (c := readerCfg c) hA hn key views (fun h => CohDb.reader.2 (hdb h).1) 256 0 _ _ [] 0 (seek_reader ht (hdb 256).1)
  unfold readProof
  rw [hn]
  rcases hs.1 with h | h
  · exact absurd h (hs.2 (allB_views (fun g => (hdb g).2)))
  · exact h

/-- With a table that does not change, `readProof` is the proof of a new trie. -/
theorem C113_quiet (db : Bytes → Option Bytes) (root : Bytes) (key : Key) : ((newTrie root db).merkleProof (readerCfg c) key).map Prod.fst = readProof c (fun _ => db) root key := by
  unfold Trie.merkleProof readProof
  have h := viewProof_const (c := readerCfg c) key db c.n root [] 0 (Nat.lt_succ_self _)
  have h' : SmtStore.merkleProof (readerCfg c) (readerCfg c).n (newTrie root db).root key [] 0 (newTrie root db).st = _ := h
  rw [h', Option.map_map]
  show Option.map (fun p => p) _ = _
  simp

/-- C113 is violated for availability: after an update with its Commit, no request is answered, for no key, until the responder reloads its root (unless one of the tries is empty). The comment in mapserver.go:123-125 names this. -/
theorem C113_gone_violated (hn : c.n = 256) (a : List Act) (kvs : KVs) (hne : kvs ≠ []) (hp : Proper (a ++ [.update kvs, .commit])) (hA : NoAccident c.H (HashedIn c.H (a ++ [.update kvs, .commit])))
    (h1 : run 256 (hist a) ≠ .empty) (h2 : run 256 (hist (a ++ [.update kvs])) ≠ .empty) :
    ∃ y, tale c (a ++ [.update kvs, .commit]) = some y ∧ ∀ views : Views, views 256 = y.tr.st.db → ∀ key, readProof c views (rootOf c.H (run 256 (hist a))) key = none := by
  obtain ⟨y0, f1, f2⟩ := after_acts hA hn a hp.take (fun _ h => h.longer _)
  have hpx : Proper (a ++ [.update kvs]) := Proper.take (b := [.commit]) (by simpa using hp)
  obtain ⟨y1, g1, g2⟩ := after_acts hA hn (a ++ [.update kvs]) hpx (fun z h => by have := h.longer [.commit]; simpa using this)
  have htale : tale c (a ++ [.update kvs, .commit]) = (tale c (a ++ [.update kvs])).bind (fun y => taleFrom c y [.commit]) := by
    rw [← tale_append]; simp
  rw [htale, g1]
  refine ⟨⟨y1.tr.commit, y1.tr.root⟩, rfl, fun views hv key => ?_⟩
  have hr0 : y0.tr.root = digest c.H 256 (run 256 (hist a)) := by rw [f2.busy.root, if_neg h1]
  have hroot : rootOf c.H (run 256 (hist a)) = y0.tr.root := by rw [rootOf_eq]; exact f2.busy.root.symm
  have hlen : y0.tr.root.length = 32 := by rw [hr0]; exact digest_length hA.len h1
  have hz : y0.tr.root ≠ List.replicate 32 0 := by rw [hr0]; exact digest_ne_zero hA h1 f2.busy.pre
  have hr1 : y1.tr.root ≠ [] := by
    rw [g2.busy.root, if_neg h2]
    have := digest_length (h := 256) hA.len h2
    intro h
    rw [h] at this
    cases this
  have hex : (y0.tr.update { c with atomic := false } kvs).map (fun tr => Sys.mk tr y0.saved) = some y1 := by
    rw [tale_snoc, f1] at g1
    exact g1
  have hup : y0.tr.update { c with atomic := false } kvs = some y1.tr := by
    cases hq : y0.tr.update { c with atomic := false } kvs with
    | none => rw [hq] at hex; cases hex
    | some t => rw [hq] at hex; cases hex; rfl
  have hgone : y1.tr.commit.st.db y0.tr.root = none := trie_root_removed (c := { c with atomic := false }) hn hlen hz hne hup hr1
  rw [hroot]
  unfold readProof
  rw [hn, viewProof, if_neg (by omega)]
  unfold loadChildren loadBatch
  rw [if_pos rfl, if_neg (by omega)]
  have h3 : y0.tr.root.take 32 = y0.tr.root := List.take_of_length_le (by omega)
  have hv' : views 256 = y1.tr.commit.st.db := hv
  simp only [h3, hv', hgone]

/-! ### Concrete cases -/

/-- The hypotheses hold for `exActs`: a request that reads one batch before a Commit and the others in its middle. -/
example : ∃ views : Views, (∀ h, AtMoment exCfg exActs (views h)) ∧ exCfg.n = 256 ∧ Proper exActs ∧ NoAccident exCfg.H (HashedIn exCfg.H exActs) := by
  have hpx : Proper (exActs.take 4) := Proper.take (b := exActs.drop 4) (by rw [List.take_append_drop]; exact exActs_proper)
  obtain ⟨y, e1, _⟩ := after_acts (c := exCfg) (exNoAccident.mono (fun _ h => exActs_hashed h)) rfl (exActs.take 4) hpx (fun z hz => by have := hz.longer (exActs.drop 4); rwa [List.take_append_drop] at this)
  refine ⟨fun h => if h = 256 then y.tr.st.db else written y.tr.st, fun h => ⟨exActs.take 4, exActs.drop 4, y, (List.take_append_drop ..).symm, e1, ?_⟩, rfl, exActs_proper, exNoAccident.mono (fun _ h => exActs_hashed h)⟩
  dsimp only
  split
  · exact Or.inl rfl
  · exact Or.inr ⟨⟨_, rfl⟩, Or.inl (writing_written _)⟩

/-- The hypotheses of `C113_available_partial`: the time after the Commit of `exActs`. -/
example : exActs.take 9 = exActs.take 5 ++ [.reset, .update exB3, .restart, .update exB3] ∧ Act.commit ∉ ([.reset, .update exB3, .restart, .update exB3] : List Act) ∧
    ∃ views : Views, ∀ h, UntilWritten exCfg (exActs.take 5) [.reset, .update exB3, .restart, .update exB3] (views h) := by
  have hp9 : Proper (exActs.take 9) := Proper.take (b := exActs.drop 9) (by rw [List.take_append_drop]; exact exActs_proper)
  obtain ⟨y, e1, _⟩ := after_acts (c := exCfg) (exNoAccident.mono (fun _ h => exActs_hashed h)) rfl (exActs.take 9) hp9 (fun z hz => by have := hz.longer (exActs.drop 9); rwa [List.take_append_drop] at this)
  exact ⟨rfl, by simp, fun _ => written y.tr.st, fun h => ⟨_, [], y, (List.append_nil _).symm, e1, Or.inr (writing_written _)⟩⟩

/-- The hypotheses of `C113_gone_violated`. -/
example : exActs.take 10 = exActs.take 8 ++ [.update exB3, .commit] ∧ exB3 ≠ [] ∧ run 256 (hist (exActs.take 8)) ≠ .empty ∧ run 256 (hist (exActs.take 8 ++ [.update exB3])) ≠ .empty := ⟨rfl, by decide, by decide +kernel, by decide +kernel⟩

/-- What a request gives that loads the root from the first table, and the rest from the second. -/
def exRequest (first second : List Act) (root : Bytes) (key : Key) : Option (Option Smt.Proof) :=
  match tale exCfg first, tale exCfg second with
  | some y, some z => some (readProof exCfg (fun h => if h = 256 then y.tr.st.db else z.tr.st.db) root key)
  | _, _ => none

/-- A request that begins before the Commit and ends after it fails for the keys that were changed, and is answered with the old content for others. -/
theorem C113_across_violated : let a : List Act := [.update exTwo, .commit]
    (exRequest a (a ++ [.update [(b32 0x00, some (b32 9))], .commit]) (rootOf exH (run 256 [exTwo])) (b32 0x00)).map Option.isSome = some false ∧
    (exRequest a (a ++ [.update [(b32 0x80, some (b32 9))], .commit]) (rootOf exH (run 256 [exTwo])) (b32 0x00)) = some (some (Smt.merkleProof exH 256 256 (run 256 [exTwo]) (b32 0x00))) := by
  decide +kernel

end Fpki.SmtStore
