import Verif.Lemmas.SmtPast
import Verif.Props.SmtLoad

/-!
# Several updates before a Commit, and proofs for past roots (C110, C111)
-/
namespace Fpki.SmtStore

open Fpki.Smt (Node KVs Key Val byteOf digest preimages rootHash run mapAfter applyKVs ValidBatch ValidHist EdgeDeletes EdgeHist SizedHist b32)

/-! ## Specification -/

/-- What is done with a trie. -/
inductive Act where
  /-- `Update` -/
  | update (kvs : KVs)
  /-- `AtomicUpdate` -/
  | atomic (kvs : KVs)
  /-- `Commit`; the root is noted (updater.go:555 saves it in the DB). -/
  | commit
  /-- `Get` -/
  | read (key : Key)
  /-- `MerkleProof` -/
  | prove (key : Key)
  /-- `MerkleProofR` -/
  | proveAt (key : Key) (root : Bytes)
  /-- `ResetLiveCache` -/
  | reset
  /-- The process ends; another one calls `NewTrie` with the root noted last. -/
  | restart

/-- A trie, and the root noted at the last Commit. -/
structure Sys where
  tr : Trie
  saved : Bytes

/-- One act; `none` if it returns an error. An error of `MerkleProofR` is an answer: the trie stays as it was (what it may have loaded into the cache before is left out). -/
def Act.exec (c : Cfg) (y : Sys) : Act → Option Sys
  | .update kvs => (y.tr.plainUpdate c kvs).map (fun tr => ⟨tr, y.saved⟩)
  | .atomic kvs => (y.tr.atomicUpdate c kvs).map (fun tr => ⟨tr, y.saved⟩)
  | .commit => some ⟨y.tr.commit, y.tr.root⟩
  | .read key => (y.tr.get c key).map (fun q => ⟨⟨y.tr.root, q.2⟩, y.saved⟩)
  | .prove key => (y.tr.merkleProof c key).map (fun q => ⟨⟨y.tr.root, q.2⟩, y.saved⟩)
  | .proveAt key root => some (((y.tr.merkleProofR c key root).map (fun q => Sys.mk ⟨y.tr.root, q.2⟩ y.saved)).getD y)
  | .reset => some ⟨y.tr.resetLive, y.saved⟩
  | .restart => some ⟨newTrie y.saved y.tr.st.db, y.saved⟩

/-- The acts one after the other. -/
def taleFrom (c : Cfg) (y : Sys) (acts : List Act) : Option Sys := acts.foldl (fun y a => y.bind (fun y => a.exec c y)) (some y)

/-- The acts one after the other, from an empty trie and an empty DB. -/
def tale (c : Cfg) (acts : List Act) : Option Sys := taleFrom c ⟨newTrie [] (fun _ => none), []⟩ acts

/-- The batches that are committed, and those that are not yet. -/
def storyStep (q : List KVs × List KVs) : Act → List KVs × List KVs
  | .update kvs => (q.1, q.2 ++ [kvs])
  | .atomic kvs => (q.1, q.2 ++ [kvs])
  | .commit => (q.1 ++ q.2, [])
  | .restart => (q.1, [])
  | _ => q

def story (acts : List Act) : List KVs × List KVs := acts.foldl storyStep ([], [])

/-- The batches that make up the content. -/
def hist (acts : List Act) : List KVs := (story acts).1 ++ (story acts).2

/-- The histories of C10. -/
structure Fine (h : List KVs) : Prop where
  valid : ValidHist 256 h
  edge : EdgeHist h
  sized : SizedHist h
  changing : Changing (fun _ => none) h
  noTwins : NoTwins h

/-- With the batches `pending` on top of `done`, no key that is written gets back to the value it had before that batch. -/
def NoReturn (done pending : List KVs) : Prop := ∀ pre kvs post, pending = pre ++ kvs :: post → ∀ p ∈ kvs, mapAfter (done ++ pre) p.1 ≠ mapAfter (done ++ pending) p.1

/-- The acts that are covered: histories as in C10 at every time, no key back at an old value at a Commit, and no `AtomicUpdate` without keys. -/
structure Proper (acts : List Act) : Prop where
  fine : ∀ a b, acts = a ++ b → Fine (hist a)
  noReturn : ∀ a b, acts = a ++ .commit :: b → NoReturn (story a).1 (story a).2
  keys : Act.atomic [] ∉ acts

/-- The strings that may be hashed. -/
def HashedIn (H : Bytes → Bytes) (acts : List Act) (x : Bytes) : Prop := ∃ a b, acts = a ++ b ∧ Hashed H (hist a) x

/-- The root of a tree ([] is nil). -/
def rootOf (H : Bytes → Bytes) (t : Node) : Bytes := (rootHash H 256 t).getD []

/-- Acts that do not end the time of the past roots: `AtomicUpdate` without deletions, and reading. -/
def Gentle : Act → Prop
  | .atomic kvs => NoDeletes kvs
  | .read _ => True
  | .prove _ => True
  | .proveAt _ _ => True
  | .reset => True
  | _ => False

/-! ## Lemmas -/

variable {c : Cfg}

theorem taleFrom_append (y : Sys) (a b : List Act) : taleFrom c y (a ++ b) = (taleFrom c y a).bind (fun y => taleFrom c y b) := by
  unfold taleFrom
  rw [List.foldl_append]
  cases List.foldl (fun y a => y.bind (fun y => Act.exec c y a)) (some y) a with
  | some y' => rfl
  | none =>
    show List.foldl _ none b = none
    induction b with
    | nil => rfl
    | cons _ _ ih => exact ih

theorem tale_append (a b : List Act) : tale c (a ++ b) = (tale c a).bind (fun y => taleFrom c y b) := taleFrom_append _ a b

theorem tale_snoc (a : List Act) (x : Act) : tale c (a ++ [x]) = (tale c a).bind (fun y => x.exec c y) := by
  rw [tale_append]; rfl

theorem story_snoc (a : List Act) (x : Act) : story (a ++ [x]) = storyStep (story a) x := by simp [story]

theorem Fine.take {a b : List KVs} (h : Fine (a ++ b)) : Fine a := by
  refine ⟨fun k hk => h.valid k (List.mem_append_left _ hk), fun k hk => h.edge k (List.mem_append_left _ hk), fun k hk => h.sized k (List.mem_append_left _ hk), ?_,
    fun k hk p hp k' hk' => h.noTwins k (List.mem_append_left _ hk) p hp k' (List.mem_append_left _ hk')⟩
  have : ∀ (b a : List KVs), Changing (fun _ => none) (a ++ b) → Changing (fun _ => none) a := by
    intro b
    induction b with
    | nil => intro a h; simpa using h
    | cons x b ih =>
      intro a h
      have h2 := ih (a ++ [x]) (by simpa using h)
      exact (changing_snoc h2).1
  exact this b a h.changing

theorem Hashed.longer {H : Bytes → Bytes} {x : Bytes} (a b : List KVs) (h : Hashed H a x) : Hashed H (a ++ b) x := by
  rcases h with ⟨kvs', h1, h2⟩ | ⟨done, rest, h1, h2⟩
  · exact Or.inl ⟨kvs', by simp [h1], h2⟩
  · exact Or.inr ⟨done, rest ++ b, by rw [h1]; simp, h2⟩

theorem Proper.take {a b : List Act} (h : Proper (a ++ b)) : Proper a :=
  ⟨fun x y e => h.fine x (y ++ b) (by rw [e]; simp), fun x y e => h.noReturn x (y ++ b) (by rw [e]; simp), fun hm => h.keys (List.mem_append_left _ hm)⟩

theorem HashedIn.longer {H : Bytes → Bytes} {x : Bytes} {a : List Act} (b : List Act) (h : HashedIn H a x) : HashedIn H (a ++ b) x := by
  obtain ⟨u, v, e, hx⟩ := h
  exact ⟨u, v ++ b, by rw [e]; simp, hx⟩

/-- What is known about the tree of a history. -/
structure TreeOk (c : Cfg) (Hp : Bytes → Prop) (t : Node) : Prop where
  wf : Smt.WF 256 0 Smt.noPrefix t
  leaves : Smt.AllLeaves (LP Hp) t
  pre : Pre c.H Hp 256 t
  low : ∀ u, Sub 256 t 0 u → u = .empty

theorem LP.imp {P Q : Bytes → Prop} (h : ∀ x, P x → Q x) {k v : Bytes} (hl : LP P k v) : LP Q k v := ⟨hl.1, fun b => h _ (hl.2 b)⟩

theorem Fine.tree {Hp : Bytes → Prop} {hs : List KVs} (h : Fine hs) (hH : ∀ x, Hashed c.H hs x → Hp x) : TreeOk c Hp (run 256 hs) :=
  ⟨(Smt.goodHist_of_edge h.valid h.edge).spec.1, AllLeaves.mono (fun _ _ hl => LP.imp hH hl) (run_leaves (H := c.H) h.sized), fun x hx => hH x (Or.inr ⟨hs, [], by simp, hx⟩), run_low h.valid h.edge h.noTwins⟩

theorem Fine.get {hs : List KVs} (h : Fine hs) {k : Key} (hk : 8 * k.length = 256) : Smt.get 0 (run 256 hs) k = mapAfter hs k := (Smt.goodHist_of_edge h.valid h.edge).spec.2 k hk

theorem TreeOk.tok {Hp : Bytes → Prop} {t : Node} (h : TreeOk c Hp t) : TOk c Hp 256 t := tok_of (i := 0) (by omega) h.wf h.leaves h.pre

theorem rootOf_eq (H : Bytes → Bytes) (t : Node) : rootOf H t = if t = .empty then [] else digest H 256 t := by
  cases t <;> rfl

theorem rootOf_ok (t : Node) : RootOk c (rootOf c.H t) 256 t := by
  rw [rootOf_eq]
  by_cases he : t = .empty
  · rw [if_pos he]; exact Or.inl ⟨he, rfl⟩
  · rw [if_neg he]; exact Or.inr ⟨he, Or.inr ⟨rfl, rfl⟩⟩

/-- The batches with the content before each. -/
def stepsOf (done : List KVs) : List KVs → List (Node × KVs)
  | [] => []
  | kvs :: rest => (run 256 done, kvs) :: stepsOf (done ++ [kvs]) rest

theorem stepsOf_snoc (kvs : KVs) : ∀ (p done : List KVs), stepsOf done (p ++ [kvs]) = stepsOf done p ++ [(run 256 (done ++ p), kvs)]
  | [], done => by simp [stepsOf]
  | x :: p, done => by simp [stepsOf, stepsOf_snoc kvs p]

theorem mem_stepsOf {q : Node × KVs} : ∀ {p done : List KVs}, q ∈ stepsOf done p → ∃ pre post, p = pre ++ q.2 :: post ∧ q.1 = run 256 (done ++ pre)
  | [], _, h => by cases h
  | x :: p, done, h => by
    rcases List.mem_cons.1 h with rfl | h
    · exact ⟨[], p, rfl, by simp⟩
    · obtain ⟨pre, post, e1, e2⟩ := mem_stepsOf h
      exact ⟨x :: pre, post, by rw [e1]; rfl, by rw [e2]; simp⟩

theorem run_nil_batch (hs : List KVs) : run 256 (hs ++ [[]]) = run 256 hs := by rw [Smt.run_append]; rfl

theorem Good1.cfg {Hp : Bytes → Prop} {t : Node} {kvs : KVs} (a : Bool) (h : Good1 c Hp t kvs) : Good1 { c with atomic := a } Hp t kvs := ⟨h.sorted, h.ne, h.len, h.mid, h.eff, h.kv, h.pre', h.low'⟩

theorem TOk.cfg {Hp : Bytes → Prop} {h : Nat} {t : Node} {a : Bool} : TOk { c with atomic := a } Hp h t ↔ TOk c Hp h t :=
  ⟨fun h => ⟨h.leaves, h.pre, h.noHole, h.fits, h.le⟩, fun h => ⟨h.leaves, h.pre, h.noHole, h.fits, h.le⟩⟩

theorem Coh.cfg {Hp : Bytes → Prop} {s : St} {a : Bool} : Coh { c with atomic := a } Hp s ↔ Coh c Hp s := by
  unfold Coh
  simp only [TOk.cfg]

theorem CohDb.cfg {Hp : Bytes → Prop} {db : Bytes → Option Bytes} {a : Bool} : CohDb { c with atomic := a } Hp db ↔ CohDb c Hp db := by
  unfold CohDb
  simp only [TOk.cfg]

theorem Busy.cfg {Hp : Bytes → Prop} {base t : Node} {steps : List (Node × KVs)} {tr : Trie} {a : Bool} : Busy { c with atomic := a } Hp base t steps tr ↔ Busy c Hp base t steps tr :=
  ⟨fun h => ⟨h.wf, h.leaves, h.pre, h.low, h.root, h.stored, Coh.cfg.1 h.coh, CohDb.cfg.1 h.cohDb, h.indb, fun q hq => ⟨(h.past q hq).1, TOk.cfg.1 (h.past q hq).2.1, (h.past q hq).2.2⟩, h.removed⟩,
   fun h => ⟨h.wf, h.leaves, h.pre, h.low, h.root, h.stored, Coh.cfg.2 h.coh, CohDb.cfg.2 h.cohDb, h.indb, fun q hq => ⟨(h.past q hq).1, TOk.cfg.2 (h.past q hq).2.1, (h.past q hq).2.2⟩, h.removed⟩⟩

/-- The state of a trie after some acts. -/
structure After (c : Cfg) (Hp : Bytes → Prop) (acts : List Act) (y : Sys) : Prop where
  busy : Busy c Hp (run 256 (story acts).1) (run 256 (hist acts)) (stepsOf (story acts).1 (story acts).2) y.tr
  saved : y.saved = rootOf c.H (run 256 (story acts).1)

theorem after_update {Hp : Bytes → Prop} (hA : NoAccident c.H Hp) (hn : c.n = 256) {done pending : List KVs} {kvs : KVs} (hne : kvs ≠ []) {tr : Trie}
    (hf : Fine (done ++ (pending ++ [kvs]))) (hH : ∀ x, Hashed c.H (done ++ (pending ++ [kvs])) x → Hp x)
    (hb : Busy c Hp (run 256 done) (run 256 (done ++ pending)) (stepsOf done pending) tr) (a : Bool) :
    ∃ tr', tr.update { c with atomic := a } kvs = some tr' ∧ Busy c Hp (run 256 done) (run 256 (done ++ (pending ++ [kvs]))) (stepsOf done (pending ++ [kvs])) tr' := by
  rw [← List.append_assoc] at hf hH ⊢
  obtain ⟨hg, hrun⟩ := good1_of_hist (c := c) (Hp := Hp) hne hf.valid hf.edge hf.sized hf.changing hf.noTwins hH
  obtain ⟨res, e1, e2⟩ := Busy.update (c := { c with atomic := a }) hA hn (Busy.cfg.2 hb) (hg.cfg a)
  refine ⟨⟨if res.node.length ≠ 0 then res.node.take 32 else [], res.st⟩, ?_, ?_⟩
  · unfold Trie.update
    rw [if_neg (by simpa using hne)]
    have e1' : SmtStore.update { c with atomic := a } c.n tr.root kvs [] 0 tr.st = some res := by
      rw [← e1]; congr 1
    show (match SmtStore.update { c with atomic := a } c.n tr.root kvs [] 0 tr.st with | none => none | some q => _) = _
    rw [e1']
  · rw [stepsOf_snoc, ← hrun]
    exact Busy.cfg.1 e2

theorem busy_same {Hp : Bytes → Prop} {done pending : List KVs} {tr : Trie} (hb : Busy c Hp (run 256 done) (run 256 (done ++ pending)) (stepsOf done pending) tr) :
    Busy c Hp (run 256 done) (run 256 (done ++ (pending ++ [[]]))) (stepsOf done (pending ++ [[]])) tr := by
  rw [← List.append_assoc, run_nil_batch, stepsOf_snoc]
  refine { hb with past := ?_, removed := ?_ }
  · intro q hq
    rcases List.mem_append.1 hq with hq | hq
    · exact hb.past q hq
    · simp only [List.mem_singleton] at hq
      subst hq
      exact ⟨hb.wf, hb.tok, hb.low, fun p hp => by cases hp⟩
  · intro d hd
    obtain ⟨q, hq, r⟩ := hb.removed d hd
    exact ⟨q, List.mem_append_left _ hq, r⟩

theorem after_acts {Hp : Bytes → Prop} (hA : NoAccident c.H Hp) (hn : c.n = 256) (acts : List Act) : Proper acts → (∀ x, HashedIn c.H acts x → Hp x) → ∃ y, tale c acts = some y ∧ After c Hp acts y := by
  induction acts using List.reverseRecOn with
  | nil =>
    intro _ _
    refine ⟨_, rfl, ⟨?_, rfl⟩⟩
    have hi := idle_empty (c := c) (Hp := Hp) (fun _ => none)
    exact busy_new hi.wf hi.leaves hi.pre hi.low rfl (fun d val hv => by cases hv) trivial
  | append_singleton a x ih =>
    intro hp hH
    obtain ⟨y, e1, e2⟩ := ih hp.take (fun z hz => hH z (hz.longer _))
    rw [tale_snoc, e1]
    show ∃ y', x.exec c y = some y' ∧ _
    have hfa := hp.fine a [x] rfl
    have hfx := hp.fine (a ++ [x]) [] (by simp)
    have hHa : ∀ z, Hashed c.H (hist a) z → Hp z := fun z hz => hH z ⟨a, [x], rfl, hz⟩
    have hHx : ∀ z, Hashed c.H (hist (a ++ [x])) z → Hp z := fun z hz => hH z ⟨a ++ [x], [], by simp, hz⟩
    have hbusy := e2.busy
    cases x with
    | update kvs =>
      have hst : story (a ++ [.update kvs]) = ((story a).1, (story a).2 ++ [kvs]) := story_snoc _ _
      unfold hist at hfx hHx
      rw [hst] at hfx hHx
      have key : ∃ tr', y.tr.plainUpdate c kvs = some tr' ∧ Busy c Hp (run 256 (story a).1) (run 256 ((story a).1 ++ ((story a).2 ++ [kvs]))) (stepsOf (story a).1 ((story a).2 ++ [kvs])) tr' := by
        by_cases hne : kvs = []
        · subst hne
          exact ⟨y.tr, rfl, busy_same e2.busy⟩
        · exact after_update hA hn hne hfx hHx e2.busy false
      obtain ⟨tr', f1, f2⟩ := key
      refine ⟨⟨tr', y.saved⟩, ?_, ⟨?_, ?_⟩⟩
      · show (y.tr.plainUpdate c kvs).map _ = _
        rw [f1]; rfl
      · unfold hist
        rw [hst]; exact f2
      · rw [hst]; exact e2.saved
    | atomic kvs =>
      have hst : story (a ++ [.atomic kvs]) = ((story a).1, (story a).2 ++ [kvs]) := story_snoc _ _
      unfold hist at hfx hHx
      rw [hst] at hfx hHx
      have hne : kvs ≠ [] := by
        rintro rfl
        exact hp.keys (by simp)
      obtain ⟨tr', f1, f2⟩ := after_update hA hn hne hfx hHx e2.busy true
      refine ⟨⟨tr', y.saved⟩, ?_, ⟨?_, ?_⟩⟩
      · show (y.tr.atomicUpdate c kvs).map _ = _
        have : y.tr.atomicUpdate c kvs = y.tr.update { c with atomic := true } kvs := by
          unfold Trie.update Trie.atomicUpdate
          rw [if_neg (by simpa using hne)]
          rfl
        rw [this, f1]; rfl
      · unfold hist
        rw [hst]; exact f2
      · rw [hst]; exact e2.saved
    | commit =>
      have hst : story (a ++ [.commit]) = ((story a).1 ++ (story a).2, []) := story_snoc _ _
      refine ⟨_, rfl, ⟨?_, ?_⟩⟩
      · unfold hist
        rw [hst]
        show Busy c Hp (run 256 ((story a).1 ++ (story a).2)) (run 256 ((story a).1 ++ (story a).2 ++ [])) [] y.tr.commit
        rw [List.append_nil]
        refine hbusy.commit hA ?_
        intro q hq p hpq
        obtain ⟨pre, post, h1, h2⟩ := mem_stepsOf hq
        have hlen : 8 * p.1.length = 256 := (hbusy.past q hq).2.2.2 p hpq
        have hfp : Fine ((story a).1 ++ pre) := by
          have : Fine (((story a).1 ++ pre) ++ q.2 :: post) := by
            rw [List.append_assoc, ← h1]; exact hfa
          exact this.take
        rw [h2, hfp.get hlen, show Smt.get 0 (run 256 (hist a)) p.1 = _ from hfa.get hlen]
        exact hp.noReturn a [] rfl pre q.2 post h1 p hpq
      · rw [hst]
        show y.tr.root = _
        rw [rootOf_eq]
        exact hbusy.root
    | read key =>
      have hst : story (a ++ [.read key]) = story a := story_snoc _ _
      obtain ⟨s', f1, f2, f3⟩ := get_ok hA hn key 256 0 y.tr.root _ [] 0 y.tr.st hbusy.look
      refine ⟨⟨⟨y.tr.root, s'⟩, y.saved⟩, ?_, ⟨?_, ?_⟩⟩
      · show Option.map _ (y.tr.get c key) = _
        unfold Trie.get
        rw [hn, f1]; rfl
      · unfold hist
        rw [hst]; exact hbusy.read f2 f3
      · rw [hst]; exact e2.saved
    | prove key =>
      have hst : story (a ++ [.prove key]) = story a := story_snoc _ _
      obtain ⟨s', f1, f2, f3⟩ := merkleProof_ok hA hn key 256 0 y.tr.root _ [] 0 y.tr.st hbusy.look
      refine ⟨⟨⟨y.tr.root, s'⟩, y.saved⟩, ?_, ⟨?_, ?_⟩⟩
      · show Option.map _ (y.tr.merkleProof c key) = _
        unfold Trie.merkleProof
        rw [hn, f1]; rfl
      · unfold hist
        rw [hst]; exact hbusy.read f2 f3
      · rw [hst]; exact e2.saved
    | proveAt key root =>
      have hst : story (a ++ [.proveAt key root]) = story a := story_snoc _ _
      refine ⟨_, rfl, ?_⟩
      cases hq : y.tr.merkleProofR c key root with
      | none =>
        rw [Option.map_none, Option.getD_none]
        exact ⟨by unfold hist; rw [hst]; exact hbusy, by rw [hst]; exact e2.saved⟩
      | some q =>
        rw [Option.map_some, Option.getD_some]
        obtain ⟨f2, f3⟩ := merkleProof_any key _ _ _ _ _ _ hbusy.coh hbusy.cohDb hq
        exact ⟨by unfold hist; rw [hst]; exact hbusy.read f2 f3, by rw [hst]; exact e2.saved⟩
    | reset =>
      have hst : story (a ++ [.reset]) = story a := story_snoc _ _
      refine ⟨_, rfl, ⟨?_, ?_⟩⟩
      · unfold hist
        rw [hst]; exact hbusy.reset
      · rw [hst]; exact e2.saved
    | restart =>
      have hst : story (a ++ [.restart]) = ((story a).1, []) := story_snoc _ _
      have ht := (Fine.take (a := (story a).1) (b := (story a).2) hfa).tree (c := c) (Hp := Hp) (fun z hz => hHa z (hz.longer _ _))
      refine ⟨_, rfl, ⟨?_, ?_⟩⟩
      · unfold hist
        rw [hst]
        show Busy c Hp (run 256 (story a).1) (run 256 ((story a).1 ++ [])) [] (newTrie y.saved y.tr.st.db)
        rw [List.append_nil]
        exact busy_new ht.wf ht.leaves ht.pre ht.low (by rw [e2.saved, rootOf_eq]) hbusy.cohDb hbusy.indb
      · rw [hst]; exact e2.saved

/-- The proof of a tree, all of whose batches can be found. -/
theorem proof_of {Hp : Bytes → Prop} (hA : NoAccident c.H Hp) (hn : c.n = 256) {t : Node} (ht : TreeOk c Hp t) {tr : Trie} (hs : Stored c tr.st 256 t) (hc : Coh c Hp tr.st) (key : Key) :
    (tr.merkleProofR c key (rootOf c.H t)).map Prod.fst = some (Smt.merkleProof c.H 256 256 t key) := by
  obtain ⟨s', f1, _, _⟩ := merkleProof_ok hA hn key 256 0 (rootOf c.H t) t [] 0 tr.st ⟨by omega, ht.tok, rootOf_ok t, fun h => absurd rfl h, hs, hc⟩
  unfold Trie.merkleProofR
  rw [hn, f1]; rfl

theorem Busy.reads {Hp : Bytes → Prop} (hA : NoAccident c.H Hp) (hn : c.n = 256) {base : Node} {hs : List KVs} {steps : List (Node × KVs)} {tr : Trie} (h : Busy c Hp base (run 256 hs) steps tr) (hf : Fine hs) : Reads c tr (mapAfter hs) := by
  intro k hk
  obtain ⟨s', f1, _, _⟩ := get_ok hA hn k 256 0 tr.root _ [] 0 tr.st h.look
  unfold Trie.get
  rw [hn, f1, hf.get (by omega)]; rfl

theorem Busy.proves {Hp : Bytes → Prop} (hA : NoAccident c.H Hp) (hn : c.n = 256) {base t : Node} {steps : List (Node × KVs)} {tr : Trie} (h : Busy c Hp base t steps tr) : Proves c tr t := by
  intro k
  obtain ⟨s', f1, _, _⟩ := merkleProof_ok hA hn k 256 0 tr.root _ [] 0 tr.st h.look
  unfold Trie.merkleProof
  rw [hn, f1]; rfl

theorem saves_get (key : Key) : ∀ (h : Nat) (root : Bytes) (b : Batch) (ix : Nat) (s : St) (q : Option Bytes × St), get c h root key b ix s = some q → Saves s q.2 := by
  intro h
  induction h with
  | zero =>
    intro root b ix s q he
    rw [get] at he
    split at he
    · cases he; exact .refl _
    · split at he
      · cases he
      · rename_i ld hld
        split at he <;> (cases he; exact saves_loadChildren hld)
  | succ g ih =>
    intro root b ix s q he
    rw [get] at he
    split at he
    · cases he; exact .refl _
    · split at he
      · cases he
      · rename_i ld hld
        split at he
        · cases he; exact saves_loadChildren hld
        · dsimp only at he
          split at he
          · exact (saves_loadChildren hld).trans (ih _ _ _ _ _ he)
          · exact (saves_loadChildren hld).trans (ih _ _ _ _ _ he)

theorem saves_proof (key : Key) : ∀ (h : Nat) (root : Bytes) (b : Batch) (ix : Nat) (s : St) (q : Smt.Proof × St), merkleProof c h root key b ix s = some q → Saves s q.2 := by
  intro h
  induction h with
  | zero =>
    intro root b ix s q he
    rw [merkleProof] at he
    split at he
    · cases he; exact .refl _
    · split at he
      · cases he
      · rename_i ld hld
        rw [if_pos (by simp)] at he
        cases he
        exact saves_loadChildren hld
  | succ g ih =>
    intro root b ix s q he
    rw [merkleProof] at he
    split at he
    · cases he; exact .refl _
    · split at he
      · cases he
      · rename_i ld hld
        split at he
        · cases he; exact saves_loadChildren hld
        · dsimp only at he
          split at he
          · split at he
            · cases he
            · rename_i hq
              cases he
              have := ih _ _ _ _ _ hq
              exact (saves_loadChildren hld).trans this
          · split at he
            · cases he
            · rename_i hq
              cases he
              have := ih _ _ _ _ _ hq
              exact (saves_loadChildren hld).trans this

theorem saves_gentle {x : Act} (hx : Gentle x) {y y' : Sys} (he : x.exec c y = some y') : Saves y.tr.st y'.tr.st := by
  cases x with
  | update kvs => exact hx.elim
  | commit => exact hx.elim
  | restart => exact hx.elim
  | atomic kvs =>
    have he : (y.tr.atomicUpdate c kvs).map (fun tr => Sys.mk tr y.saved) = some y' := he
    unfold Trie.atomicUpdate at he
    split at he
    · cases he
    · rename_i q hq
      cases he
      exact (saves_update (c := { c with atomic := true }) rfl c.n _ _ _ _ _ _ hx hq).1
  | read key =>
    have he : (y.tr.get c key).map (fun q => Sys.mk ⟨y.tr.root, q.2⟩ y.saved) = some y' := he
    cases hq : y.tr.get c key with
    | none => rw [hq] at he; cases he
    | some q =>
      rw [hq] at he
      cases he
      exact saves_get key _ _ _ _ _ q hq
  | prove key =>
    have he : (y.tr.merkleProof c key).map (fun q => Sys.mk ⟨y.tr.root, q.2⟩ y.saved) = some y' := he
    cases hq : y.tr.merkleProof c key with
    | none => rw [hq] at he; cases he
    | some q =>
      rw [hq] at he
      cases he
      exact saves_proof key _ _ _ _ _ q hq
  | proveAt key root =>
    have he : some (((y.tr.merkleProofR c key root).map (fun q => Sys.mk ⟨y.tr.root, q.2⟩ y.saved)).getD y) = some y' := he
    cases hq : y.tr.merkleProofR c key root with
    | none => rw [hq] at he; cases he; exact .refl _
    | some q =>
      rw [hq] at he
      cases he
      exact saves_proof key _ _ _ _ _ q hq
  | reset =>
    have he : some (Sys.mk y.tr.resetLive y.saved) = some y' := he
    cases he
    exact ⟨rfl, fun d b hb => ⟨b, hb⟩⟩

theorem saves_gentles : ∀ {b : List Act} {y y' : Sys}, (∀ x ∈ b, Gentle x) → taleFrom c y b = some y' → Saves y.tr.st y'.tr.st
  | [], y, y', _, he => by
    have he : some y = some y' := he
    cases he; exact .refl _
  | x :: b, y, y', hg, he => by
    have hc : taleFrom c y (x :: b) = (x.exec c y).bind (fun y => taleFrom c y b) := taleFrom_append y [x] b
    rw [hc] at he
    cases hx : x.exec c y with
    | none => rw [hx] at he; cases he
    | some y1 =>
      rw [hx] at he
      exact (saves_gentle (hg x (List.mem_cons_self ..)) hx).trans (saves_gentles (fun z hz => hg z (List.mem_cons_of_mem _ hz)) he)

/-! ## C110 -/

/-- C110: `Update` and `AtomicUpdate` can be called any number of times before `Commit`. Whatever is done with a trie (updates of both kinds, commits, reads, proofs for any root, resets of the cache, restarts of the process), no operation fails; the root, the values and the proofs are those of all batches since the start, also before they are committed, and without those that a restart lost; a new trie with the root of the last Commit has the content of that time.
Proved for the histories and hash functions of C10, if at the time of a Commit no written key is back at a value that it had before one of the batches (`C10_undo_violated`), and for calls of `AtomicUpdate` with at least one key (`C110_no_keys_violated`). -/
theorem C110_updates_partial (hn : c.n = 256) (acts : List Act) (hp : Proper acts) (hA : NoAccident c.H (HashedIn c.H acts)) :
    ∃ y, tale c acts = some y ∧ y.tr.root = rootOf c.H (run 256 (hist acts)) ∧ Reads c y.tr (mapAfter (hist acts)) ∧ Proves c y.tr (run 256 (hist acts)) ∧
      y.saved = rootOf c.H (run 256 (story acts).1) ∧ Reads c (newTrie y.saved y.tr.st.db) (mapAfter (story acts).1) ∧ Proves c (newTrie y.saved y.tr.st.db) (run 256 (story acts).1) := by
  obtain ⟨y, e1, e2⟩ := after_acts hA hn acts hp (fun _ h => h)
  have hf := hp.fine acts [] (by simp)
  have hf1 : Fine (story acts).1 := Fine.take (b := (story acts).2) hf
  have ht := hf1.tree (c := c) (Hp := HashedIn c.H acts) (fun z hz => ⟨acts, [], by simp, hz.longer _ _⟩)
  have hnew : Busy c (HashedIn c.H acts) (run 256 (story acts).1) (run 256 (story acts).1) [] (newTrie y.saved y.tr.st.db) :=
    busy_new ht.wf ht.leaves ht.pre ht.low (by rw [e2.saved, rootOf_eq]) e2.busy.cohDb e2.busy.indb
  exact ⟨y, e1, by rw [rootOf_eq]; exact e2.busy.root, e2.busy.reads hA hn hf, e2.busy.proves hA hn, e2.saved, hnew.reads hA hn hf1, hnew.proves hA hn⟩

/-- C110 is violated for `AtomicUpdate` with no keys: the trie loses its root, and with it its content. (`Update` leaves the trie as it is.) -/
theorem C110_no_keys_violated (tr : Trie) : tr.plainUpdate c [] = some tr ∧ tr.atomicUpdate c [] = some ⟨[], tr.st⟩ ∧ ∀ key, (Trie.mk [] tr.st).get c key = some (none, tr.st) := by
  refine ⟨rfl, ?_, fun key => ?_⟩
  · unfold Trie.atomicUpdate
    have : SmtStore.update { c with atomic := true } c.n tr.root [] [] 0 tr.st = some ⟨[], false, [], tr.st⟩ := by
      unfold SmtStore.update
      cases c.n <;> rfl
    rw [this]; rfl
  · unfold Trie.get
    rw [get.eq_def]; rfl

/-! ## C111 -/

/-- C111: a proof for a past root is never wrong. Whenever the trie once had a root, `MerkleProofR` with this root returns an error or the proof of the content of that time, for every key.
Proved for the acts and hash functions of C110. -/
theorem C111_sound_partial (hn : c.n = 256) (a b : List Act) (hp : Proper (a ++ b)) (hA : NoAccident c.H (HashedIn c.H (a ++ b))) :
    ∃ y, tale c (a ++ b) = some y ∧ ∀ key, y.tr.merkleProofR c key (rootOf c.H (run 256 (hist a))) = none ∨
      (y.tr.merkleProofR c key (rootOf c.H (run 256 (hist a)))).map Prod.fst = some (Smt.merkleProof c.H 256 256 (run 256 (hist a)) key) := by
  obtain ⟨y, e1, e2⟩ := after_acts hA hn _ hp (fun _ h => h)
  refine ⟨y, e1, fun key => ?_⟩
  have ht := (hp.fine a b rfl).tree (c := c) (Hp := HashedIn c.H (a ++ b)) (fun z hz => ⟨a, b, rfl, hz⟩)
  unfold Trie.merkleProofR
  rw [hn]
  rcases merkleProof_sound hA hn key 256 0 _ _ [] 0 y.tr.st ⟨by omega, ht.tok, rootOf_ok _, fun h => absurd rfl h, e2.busy.coh, e2.busy.cohDb⟩ with h | ⟨s', h, _⟩
  · exact Or.inl h
  · exact Or.inr (by rw [h]; rfl)

/-- C111: the root of the last Commit can be used for proofs until the next Commit, whatever is updated in between. -/
theorem C111_last_commit_partial (hn : c.n = 256) (acts : List Act) (hp : Proper acts) (hA : NoAccident c.H (HashedIn c.H acts)) :
    ∃ y, tale c acts = some y ∧ ∀ key, (y.tr.merkleProofR c key y.saved).map Prod.fst = some (Smt.merkleProof c.H 256 256 (run 256 (story acts).1) key) := by
  obtain ⟨y, e1, e2⟩ := after_acts hA hn acts hp (fun _ h => h)
  refine ⟨y, e1, fun key => ?_⟩
  have hf := hp.fine acts [] (by simp)
  have ht := (Fine.take (a := (story acts).1) (b := (story acts).2) hf).tree (c := c) (Hp := HashedIn c.H acts) (fun z hz => ⟨acts, [], by simp, hz.longer _ _⟩)
  rw [e2.saved]
  exact proof_of hA hn ht (allB_mono (fun _ _ _ _ h => Or.inr h) e2.busy.indb) e2.busy.coh key

/-- C111: with `AtomicUpdate` and without deletions, every root since can be used for proofs, as long as nothing is committed. -/
theorem C111_atomic_partial (hn : c.n = 256) (a b : List Act) (hb : ∀ x ∈ b, Gentle x) (hp : Proper (a ++ b)) (hA : NoAccident c.H (HashedIn c.H (a ++ b))) :
    ∃ y, tale c (a ++ b) = some y ∧ ∀ key, (y.tr.merkleProofR c key (rootOf c.H (run 256 (hist a)))).map Prod.fst = some (Smt.merkleProof c.H 256 256 (run 256 (hist a)) key) := by
  obtain ⟨y, e1, e2⟩ := after_acts hA hn _ hp (fun _ h => h)
  obtain ⟨y0, f1, f2⟩ := after_acts hA hn a hp.take (fun _ h => h.longer b)
  have ht := (hp.fine a b rfl).tree (c := c) (Hp := HashedIn c.H (a ++ b)) (fun z hz => ⟨a, b, rfl, hz⟩)
  refine ⟨y, e1, fun key => ?_⟩
  rw [tale_append, f1] at e1
  exact proof_of hA hn ht ((saves_gentles hb e1).stored f2.busy.stored) e2.busy.coh key

/-- Without its row, a root cannot be used. -/
theorem proof_none {root : Bytes} {tr : Trie} (hn : c.n = 256) (hl : root.length = 32) (h1 : ∀ d, tr.st.live d = none) (h2 : ∀ d, tr.st.upd d = none) (hdb : tr.st.db root = none) (key : Key) : tr.merkleProofR c key root = none := by
  unfold Trie.merkleProofR
  rw [hn, merkleProof, if_neg (by omega)]
  unfold loadChildren loadBatch
  rw [if_pos rfl, if_neg (by omega)]
  have h3 : root.take 32 = root := List.take_of_length_le (by omega)
  simp only [h1, h2, h3, hdb]

/-- C111 is violated in general: after an update of either kind with its Commit, a restarted process gives no proof at all for the root before (unless one of the tries is empty). The comments of `MerkleProofR` ("for a given past trie root") and of `AtomicUpdate` ("all the updated nodes will be committed") promise more. -/
theorem C111_gone_violated (hn : c.n = 256) (a : List Act) (x : Act) (kvs : KVs) (hx : x = .update kvs ∨ x = .atomic kvs) (hne : kvs ≠ []) (hp : Proper (a ++ [x, .commit, .restart])) (hA : NoAccident c.H (HashedIn c.H (a ++ [x, .commit, .restart])))
    (h1 : run 256 (hist a) ≠ .empty) (h2 : run 256 (hist (a ++ [x])) ≠ .empty) :
    ∃ y, tale c (a ++ [x, .commit, .restart]) = some y ∧ ∀ key, y.tr.merkleProofR c key (rootOf c.H (run 256 (hist a))) = none := by
  have hHa : ∀ z, HashedIn c.H a z → HashedIn c.H (a ++ [x, .commit, .restart]) z := fun z h => h.longer _
  obtain ⟨y0, f1, f2⟩ := after_acts hA hn a hp.take hHa
  have hpx : Proper (a ++ [x]) := Proper.take (b := [.commit, .restart]) (by simpa using hp)
  obtain ⟨y1, g1, g2⟩ := after_acts hA hn (a ++ [x]) hpx (fun z h => by have := h.longer [.commit, .restart]; simpa using this)
  have htale : tale c (a ++ [x, .commit, .restart]) = (tale c (a ++ [x])).bind (fun y => taleFrom c y [.commit, .restart]) := by
    rw [← tale_append]; simp
  rw [htale, g1]
  refine ⟨⟨newTrie y1.tr.root y1.tr.commit.st.db, y1.tr.root⟩, rfl, fun key => ?_⟩
  have hroot : rootOf c.H (run 256 (hist a)) = y0.tr.root := by rw [rootOf_eq]; exact f2.busy.root.symm
  have hr0 : y0.tr.root = digest c.H 256 (run 256 (hist a)) := by rw [f2.busy.root, if_neg h1]
  have hlen : y0.tr.root.length = 32 := by rw [hr0]; exact digest_length hA.len h1
  have hz : y0.tr.root ≠ List.replicate 32 0 := by rw [hr0]; exact digest_ne_zero hA h1 f2.busy.pre
  have hr1 : y1.tr.root ≠ [] := by
    rw [g2.busy.root, if_neg h2]
    have := digest_length (h := 256) hA.len h2
    intro h
    rw [h] at this
    cases this
  have hex : x.exec c y0 = some y1 := by
    rw [tale_snoc, f1] at g1
    exact g1
  have hup : ∃ at', y0.tr.update { c with atomic := at' } kvs = some y1.tr := by
    rcases hx with rfl | rfl
    · refine ⟨false, ?_⟩
      have hex : (y0.tr.update { c with atomic := false } kvs).map (fun tr => Sys.mk tr y0.saved) = some y1 := hex
      cases hq : y0.tr.update { c with atomic := false } kvs with
      | none => rw [hq] at hex; cases hex
      | some t => rw [hq] at hex; cases hex; rfl
    · refine ⟨true, ?_⟩
      have hex : (y0.tr.atomicUpdate c kvs).map (fun tr => Sys.mk tr y0.saved) = some y1 := hex
      have heq : y0.tr.atomicUpdate c kvs = y0.tr.update { c with atomic := true } kvs := by
        unfold Trie.update Trie.atomicUpdate
        rw [if_neg (by simpa using hne)]
        rfl
      rw [heq] at hex
      cases hq : y0.tr.update { c with atomic := true } kvs with
      | none => rw [hq] at hex; cases hex
      | some t => rw [hq] at hex; cases hex; rfl
  obtain ⟨at', hup⟩ := hup
  rw [hroot]
  exact proof_none (tr := newTrie y1.tr.root y1.tr.commit.st.db) hn hlen (fun _ => rfl) (fun _ => rfl) (trie_root_removed (c := { c with atomic := at' }) hn hlen hz hne hup hr1) key

/-! ### Concrete acts -/

/-- How to show `Proper` for given acts. -/
def isCommit : Act → Bool
  | .commit => true
  | _ => false

def properB (acts : List Act) : Prop :=
  (∀ n < acts.length + 1, let h := hist (acts.take n); ValidHist 256 h ∧ EdgeHist h ∧ SizedHist h ∧ Changing (fun _ => none) h ∧ NoTwins h) ∧
  (∀ n < acts.length, isCommit (acts.getD n .reset) = true → let q := story (acts.take n); ∀ m < q.2.length, ∀ p ∈ q.2.getD m [], mapAfter (q.1 ++ q.2.take m) p.1 ≠ mapAfter (q.1 ++ q.2) p.1)

theorem proper_of {acts : List Act} (h : properB acts) (hk : Act.atomic [] ∉ acts) : Proper acts := by
  refine ⟨fun a b e => ?_, fun a b e => ?_, hk⟩
  · have := h.1 a.length (by rw [e, List.length_append]; omega)
    rw [e, List.take_append_of_le_length (Nat.le_refl _), List.take_length] at this
    exact ⟨this.1, this.2.1, this.2.2.1, this.2.2.2.1, this.2.2.2.2⟩
  · have := h.2 a.length (by rw [e, List.length_append, List.length_cons]; omega) (by rw [e, List.getD_eq_getElem?_getD, List.getElem?_append_right (Nat.le_refl _), Nat.sub_self]; rfl)
    rw [e, List.take_append_of_le_length (Nat.le_refl _), List.take_length] at this
    intro pre kvs post hq p hp
    have h2 := this pre.length (by rw [hq, List.length_append, List.length_cons]; omega)
    rw [hq, List.take_append_of_le_length (Nat.le_refl _), List.take_length] at h2
    rw [hq]
    refine h2 p ?_
    rw [List.getD_eq_getElem?_getD, List.getElem?_append_right (Nat.le_refl _), Nat.sub_self]
    exact hp

def exB1 : KVs := [(b32 0x00, some (b32 1)), (b32 0x08, some (b32 2))]
def exB2 : KVs := [(b32 0x08, some (b32 3)), (b32 0x80, some (b32 4))]
def exB3 : KVs := [(b32 0x80, none)]

/-- Two updates before a Commit, a proof for the first root in between, an update that is lost by a restart and repeated. -/
def exActs : List Act := [.update exB1, .read (b32 0x08), .atomic exB2, .proveAt (b32 0x00) (rootOf exH (run 256 [exB1])), .commit, .reset, .update exB3, .restart, .update exB3, .commit, .restart]

instance (acts : List Act) : Decidable (properB acts) := by unfold properB; infer_instance

theorem exActs_proper : Proper exActs := proper_of (by decide +kernel) (by simp [exActs, exB1, exB2, exB3])

theorem exActs_hashed {x : Bytes} (h : HashedIn exH exActs x) : Hashed exH (batches exOps) x := by
  obtain ⟨a, b, e, hx⟩ := h
  have hpre : ∃ n, hist a = (batches exOps).take n := by
    have ha : a = exActs.take a.length := by rw [e, List.take_append_of_le_length (Nat.le_refl _), List.take_length]
    have hl : a.length < 12 := by
      have : a.length + b.length = 11 := by rw [← List.length_append, ← e]; rfl
      omega
    have key : ∀ n ∈ List.range 12, ∃ m ∈ List.range 4, hist (exActs.take n) = (batches exOps).take m := by decide +kernel
    obtain ⟨m, _, hm⟩ := key a.length (List.mem_range.2 hl)
    exact ⟨m, by rw [ha]; rw [← ha]; exact (congrArg hist ha).trans hm⟩
  obtain ⟨n, hn⟩ := hpre
  rw [hn] at hx
  have := hx.longer _ ((batches exOps).drop n)
  rwa [List.take_append_drop] at this

/-- The hypotheses of C110 and C111 hold for `exActs`, split at any place. -/
example : exCfg.n = 256 ∧ Proper exActs ∧ NoAccident exCfg.H (HashedIn exCfg.H exActs) := ⟨rfl, exActs_proper, exNoAccident.mono (fun _ h => exActs_hashed h)⟩

/-- The first three acts after `exActs.take 2`: an `AtomicUpdate` without deletions and a proof. -/
example : (∀ x ∈ (exActs.take 4).drop 2, Gentle x) ∧ exActs.take 2 ++ (exActs.take 4).drop 2 = exActs.take 4 ∧ Proper (exActs.take 4) ∧ NoAccident exCfg.H (HashedIn exCfg.H (exActs.take 4)) := by
  have hp : Proper (exActs.take 4) := Proper.take (b := exActs.drop 4) (by rw [List.take_append_drop]; exact exActs_proper)
  refine ⟨?_, rfl, hp, exNoAccident.mono (fun x h => exActs_hashed ?_)⟩
  · intro x hx
    simp only [exActs, List.take_succ_cons, List.take_zero, List.drop_succ_cons, List.drop_zero, List.mem_cons, List.not_mem_nil, or_false] at hx
    rcases hx with rfl | rfl
    · show NoDeletes exB2
      unfold NoDeletes; decide +kernel
    · trivial
  · have := h.longer (exActs.drop 4)
    rwa [List.take_append_drop] at this

/-- The hypotheses of `C111_gone_violated` hold for the end of `exActs`; the theorem gives the errors that `exGone` computes. -/
example : exActs = exActs.take 8 ++ [.update exB3, .commit, .restart] ∧ exB3 ≠ [] ∧ run 256 (hist (exActs.take 8)) ≠ .empty ∧ run 256 (hist (exActs.take 8 ++ [.update exB3])) ≠ .empty := ⟨rfl, by decide, by decide +kernel, by decide +kernel⟩

/-- Whether there is a proof for a past root. -/
def provable (acts : List Act) (root : Bytes) (key : Key) : Option Bool := (tale exCfg acts).map (fun y => (y.tr.merkleProofR exCfg key root).isSome)

/-- A root that was committed can be used until the next Commit, and not afterwards; a root that was not committed is gone with the next `Update`, but not with `AtomicUpdate`. -/
example : provable [.update exB1, .commit, .update exB2] (rootOf exH (run 256 [exB1])) (b32 0x00) = some true ∧ provable [.update exB1, .commit, .update exB2, .commit] (rootOf exH (run 256 [exB1])) (b32 0x00) = some false ∧
    provable [.update exB1, .update exB2] (rootOf exH (run 256 [exB1])) (b32 0x00) = some false ∧ provable [.update exB1, .atomic exB2] (rootOf exH (run 256 [exB1])) (b32 0x00) = some true := by decide +kernel

def exTwo : KVs := [(b32 0x00, some (b32 1)), (b32 0x10, some (b32 2)), (b32 0x80, some (b32 3))]
def exDel : KVs := [(b32 0x10, none)]

/-- C111 is violated for `AtomicUpdate` with a deletion, even before a Commit: the leaf that moves up is deleted at its old place, where the past trie has it. -/
theorem C111_atomic_violated : Proper [.atomic exTwo, .atomic exDel] ∧ provable [.atomic exTwo] (rootOf exH (run 256 [exTwo])) (b32 0x00) = some true ∧
    provable [.atomic exTwo, .atomic exDel] (rootOf exH (run 256 [exTwo])) (b32 0x00) = some false := by
  refine ⟨proper_of (by decide +kernel) (by simp [exTwo, exDel]), by decide +kernel, by decide +kernel⟩

end Fpki.SmtStore
