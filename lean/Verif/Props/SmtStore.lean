import Verif.Lemmas.SmtStoreCommit
import Verif.Lemmas.SmtStoreRemoved
import Verif.Props.Smt
import Mathlib.Data.List.Induction

/-!
# The trie in the DB: Commit, restart and crashes (C10, C11)
-/
namespace Fpki.SmtStore

open Fpki.Smt (Node KVs Key Val byteOf digest preimages rootHash run mapAfter applyKVs ValidBatch ValidHist EdgeDeletes EdgeHist SizedHist b32)

/-! ## Specification: a life of a trie -/

/-- What is done with a trie. -/
inductive Op where
  /-- `Update` and `Commit` -/
  | write (kvs : KVs)
  /-- `Get` -/
  | read (key : Key)
  /-- `MerkleProof` -/
  | prove (key : Key)
  /-- `ResetLiveCache` -/
  | reset
  /-- The process ends; another one calls `NewTrie` with the root. -/
  | restart

/-- An operation on a trie; `none` if it returns an error. -/
def Op.exec (c : Cfg) (tr : Trie) : Op → Option Trie
  | .write kvs => (tr.update c kvs).map Trie.commit
  | .read key => (tr.get c key).map (fun q => ⟨tr.root, q.2⟩)
  | .prove key => (tr.merkleProof c key).map (fun q => ⟨tr.root, q.2⟩)
  | .reset => some tr.resetLive
  | .restart => some (newTrie tr.root tr.st.db)

/-- The operations one after the other. -/
def lifeFrom (c : Cfg) (tr : Trie) (ops : List Op) : Option Trie := ops.foldl (fun tr op => tr.bind (fun tr => op.exec c tr)) (some tr)

/-- The operations one after the other, from an empty trie and an empty DB. -/
def life (c : Cfg) (ops : List Op) : Option Trie := lifeFrom c (newTrie [] (fun _ => none)) ops

/-- The batches of the operations. -/
def batches (ops : List Op) : List KVs := ops.filterMap (fun op => match op with | .write kvs => some kvs | _ => none)

/-- Every entry of every batch changes something, starting with the content `f`. -/
def Changing : (Key → Option Val) → List KVs → Prop
  | _, [] => True
  | f, kvs :: rest => (∀ p ∈ kvs, f p.1 ≠ p.2) ∧ Changing (applyKVs f kvs) rest

/-- No two keys of the history differ in the last of the 256 bits only. -/
def NoTwins (hist : List KVs) : Prop := ∀ kvs ∈ hist, ∀ p ∈ kvs, ∀ kvs' ∈ hist, ∀ p' ∈ kvs', ¬ Twins p.1 p'.1

/-- The strings that may be hashed during the history: the keys and values with a byte, and the nodes of the trees after each batch. -/
def Hashed (H : Bytes → Bytes) (hist : List KVs) (x : Bytes) : Prop :=
  (∃ kvs ∈ hist, ∃ k v b, (k, some v) ∈ kvs ∧ x = k ++ v ++ [b]) ∨ (∃ done rest, hist = done ++ rest ∧ x ∈ preimages H 256 (run 256 done))

instance decChanging : ∀ (f : Key → Option Val) (hist : List KVs), Decidable (Changing f hist)
  | _, [] => isTrue trivial
  | f, kvs :: rest => by
    have := decChanging (applyKVs f kvs) rest
    unfold Changing; infer_instance
instance (k k' : Key) : Decidable (Twins k k') := by unfold Twins; infer_instance
instance (hist : List KVs) : Decidable (NoTwins hist) := by unfold NoTwins; infer_instance

/-! ## Lemmas -/

theorem lifeFrom_snoc (c : Cfg) (tr : Trie) (ops : List Op) (op : Op) : lifeFrom c tr (ops ++ [op]) = (lifeFrom c tr ops).bind (fun tr => op.exec c tr) := by simp [lifeFrom]

theorem life_snoc (c : Cfg) (ops : List Op) (op : Op) : life c (ops ++ [op]) = (life c ops).bind (fun tr => op.exec c tr) := lifeFrom_snoc c _ ops op

theorem changing_snoc : ∀ {hist : List KVs} {kvs : KVs} {f : Key → Option Val}, Changing f (hist ++ [kvs]) → Changing f hist ∧ ∀ p ∈ kvs, hist.foldl applyKVs f p.1 ≠ p.2
  | [], _, _, h => ⟨trivial, h.1⟩
  | _ :: _, _, _, h => ⟨⟨h.1, (changing_snoc h.2).1⟩, (changing_snoc h.2).2⟩

theorem run_low {hist : List KVs} (hv : ValidHist 256 hist) (he : EdgeHist hist) (ht : NoTwins hist) : ∀ u, Sub 256 (run 256 hist) 0 u → u = .empty := by
  intro u hs
  by_cases hne : u = .empty
  · exact hne
  exfalso
  have hl : Smt.AllLeaves (fun k _ => ∃ kvs ∈ hist, ∃ p ∈ kvs, p.1 = k) (run 256 hist) := by
    have : ∀ (l : List KVs) (t : Node), (∀ kvs ∈ l, kvs ∈ hist) → Smt.AllLeaves (fun k _ => ∃ kvs ∈ hist, ∃ p ∈ kvs, p.1 = k) t →
        Smt.AllLeaves (fun k _ => ∃ kvs ∈ hist, ∃ p ∈ kvs, p.1 = k) (l.foldl (Smt.updateRoot 256) t) := by
      intro l
      induction l with
      | nil => intro t _ h; exact h
      | cons kvs l ih =>
        intro t hm h
        rw [List.foldl_cons]
        refine ih _ (fun kvs' h' => hm kvs' (by simp [h'])) ?_
        unfold Smt.updateRoot
        split
        · exact h
        · exact Smt.update_leaves 256 256 t kvs h (fun k v hk => ⟨kvs, hm kvs (by simp), _, hk, rfl⟩)
    exact this hist .empty (fun _ h => h) trivial
  obtain ⟨k, k', ⟨kvs, h1, p, h2, rfl⟩, ⟨kvs', h3, p', h4, rfl⟩, htw⟩ := twin_of_zero hs hne (i := 0) (by omega) rfl (by omega) (Smt.goodHist_of_edge hv he).spec.1 hl
  exact ht kvs h1 p h2 kvs' h3 p' h4 htw

theorem run_leaves {H : Bytes → Bytes} {hist : List KVs} (hs : SizedHist hist) : Smt.AllLeaves (LP (Hashed H hist)) (run 256 hist) := by
  have : ∀ (l : List KVs) (t : Node), (∀ kvs ∈ l, kvs ∈ hist) → Smt.AllLeaves (LP (Hashed H hist)) t → Smt.AllLeaves (LP (Hashed H hist)) (l.foldl (Smt.updateRoot 256) t) := by
    intro l
    induction l with
    | nil => intro t _ h; exact h
    | cons kvs l ih =>
      intro t hm h
      rw [List.foldl_cons]
      refine ih _ (fun kvs' h' => hm kvs' (by simp [h'])) ?_
      unfold Smt.updateRoot
      split
      · exact h
      · refine Smt.update_leaves 256 256 t kvs h (fun k v hk => ?_)
        have hk' := hs kvs (hm kvs (by simp)) _ hk
        exact ⟨⟨hk'.1, hk'.2 v rfl⟩, fun b => Or.inl ⟨kvs, hm kvs (by simp), k, v, b, hk, rfl⟩⟩
  exact this hist .empty (fun _ h => h) trivial

theorem Hashed.mono {H : Bytes → Bytes} {hist : List KVs} {kvs : KVs} {x : Bytes} (h : Hashed H hist x) : Hashed H (hist ++ [kvs]) x := by
  rcases h with ⟨kvs', h1, h2⟩ | ⟨done, rest, h1, h2⟩
  · exact Or.inl ⟨kvs', by simp [h1], h2⟩
  · exact Or.inr ⟨done, rest ++ [kvs], by rw [h1]; simp, h2⟩

variable {c : Cfg}

/-- A batch after a history. -/
theorem good1_of_hist {Hp : Bytes → Prop} {hist : List KVs} {kvs : KVs} (hne : kvs ≠ []) (hv : ValidHist 256 (hist ++ [kvs])) (he : EdgeHist (hist ++ [kvs])) (hs : SizedHist (hist ++ [kvs])) (hc : Changing (fun _ => none) (hist ++ [kvs]))
    (ht : NoTwins (hist ++ [kvs])) (hH : ∀ x, Hashed c.H (hist ++ [kvs]) x → Hp x) : Good1 c Hp (run 256 hist) kvs ∧ (Smt.update 256 256 (run 256 hist) kvs).1 = run 256 (hist ++ [kvs]) := by
  have hv0 : ValidHist 256 hist := fun k hk => hv k (List.mem_append_left _ hk)
  have he0 : EdgeHist hist := fun k hk => he k (List.mem_append_left _ hk)
  have hrun : (Smt.update 256 256 (run 256 hist) kvs).1 = run 256 (hist ++ [kvs]) := by
    rw [Smt.run_append, Smt.updateRoot, if_neg (by simpa using hne)]
  have hval := hv kvs (by simp)
  refine ⟨⟨hval.1, hne, hval.2, (he kvs (by simp)).not_mid _ _, ?_, ?_, ?_, ?_⟩, hrun⟩
  · intro p hp
    rw [(Smt.goodHist_of_edge hv0 he0).spec.2 _ (hval.2 p hp)]
    exact (changing_snoc hc).2 p hp
  · intro k v hk
    have := hs kvs (by simp) _ hk
    exact ⟨⟨this.1, this.2 v rfl⟩, fun b => hH _ (Or.inl ⟨kvs, by simp, k, v, b, hk, rfl⟩)⟩
  · rw [hrun]
    exact fun x hx => hH x (Or.inr ⟨_, [], by simp, hx⟩)
  · rw [hrun]
    exact run_low hv he ht

theorem idle_lifeFrom {Hp : Bytes → Prop} (hA : NoAccident c.H Hp) (hn : c.n = 256) {h0 : List KVs} {tr0 : Trie} (hi : Idle c Hp (run 256 h0) tr0) (ops : List Op) : ValidHist 256 (h0 ++ batches ops) → EdgeHist (h0 ++ batches ops) → SizedHist (h0 ++ batches ops) →
    Changing (fun _ => none) (h0 ++ batches ops) → NoTwins (h0 ++ batches ops) → (∀ x, Hashed c.H (h0 ++ batches ops) x → Hp x) → ∃ tr, lifeFrom c tr0 ops = some tr ∧ Idle c Hp (run 256 (h0 ++ batches ops)) tr := by
  induction ops using List.reverseRecOn with
  | nil =>
    intro _ _ _ _ _ _
    exact ⟨tr0, rfl, by simpa [batches] using hi⟩
  | append_singleton ops op ih =>
    intro hv he hs hc ht hH
    have hb : (∃ kvs, op = .write kvs ∧ h0 ++ batches (ops ++ [op]) = (h0 ++ batches ops) ++ [kvs]) ∨ ((∀ kvs, op ≠ .write kvs) ∧ h0 ++ batches (ops ++ [op]) = h0 ++ batches ops) := by
      cases op with
      | write kvs => exact Or.inl ⟨kvs, rfl, by simp [batches]⟩
      | _ => exact Or.inr ⟨(by intro kvs h; cases h), by simp [batches]⟩
    rw [lifeFrom_snoc]
    rcases hb with ⟨kvs, rfl, hb⟩ | ⟨hnw, hb⟩
    · rw [hb] at hv he hs hc ht hH ⊢
      have hv0 : ValidHist 256 (h0 ++ batches ops) := fun k hk => hv k (List.mem_append_left _ hk)
      have he0 : EdgeHist (h0 ++ batches ops) := fun k hk => he k (List.mem_append_left _ hk)
      have hs0 : SizedHist (h0 ++ batches ops) := fun k hk => hs k (List.mem_append_left _ hk)
      have ht0 : NoTwins (h0 ++ batches ops) := fun k hk p hp k' hk' => ht k (List.mem_append_left _ hk) p hp k' (List.mem_append_left _ hk')
      obtain ⟨tr, e1, e2⟩ := ih hv0 he0 hs0 (changing_snoc hc).1 ht0 (fun x hx => hH x hx.mono)
      rw [e1]
      show ∃ t, Option.map Trie.commit (tr.update c kvs) = some t ∧ _
      by_cases hne : kvs = []
      · subst hne
        rw [Smt.run_append]
        refine ⟨tr.commit, rfl, ?_⟩
        show Idle c Hp (run 256 (h0 ++ batches ops)) tr.commit
        have hw : written tr.st = tr.st.db := by funext d; unfold written; rw [e2.upd d]
        refine { e2 with indb := ?_, coh := ?_, upd := fun _ => rfl, removed := rfl }
        · show InDb c (erase tr.st.removed (written tr.st)) 256 _
          rw [e2.removed, hw]
          have : erase [] tr.st.db = tr.st.db := by funext d; simp [erase]
          rw [this]; exact e2.indb
        · intro d b hb'
          rcases hb' with hb' | hb'
          · exact e2.coh d b (Or.inl hb')
          · cases hb'
      · obtain ⟨hg, hrun⟩ := good1_of_hist hne hv he hs hc ht hH
        obtain ⟨tr1, f1, _, _, _, _, f2⟩ := commit_ok hA hn e2 hg
        rw [f1]
        exact ⟨_, rfl, by rw [← hrun]; exact f2⟩
    · rw [hb] at hv he hs hc ht hH ⊢
      obtain ⟨tr, e1, e2⟩ := ih hv he hs hc ht hH
      rw [e1]
      cases op with
      | write kvs => exact absurd rfl (hnw kvs)
      | read key =>
        obtain ⟨s', f1, f2, f3⟩ := get_ok hA hn key 256 0 tr.root _ [] 0 tr.st e2.look
        refine ⟨⟨tr.root, s'⟩, ?_, e2.read f2 f3⟩
        show Option.map _ (tr.get c key) = _
        unfold Trie.get
        rw [hn, f1]; rfl
      | prove key =>
        obtain ⟨s', f1, f2, f3⟩ := merkleProof_ok hA hn key 256 0 tr.root _ [] 0 tr.st e2.look
        refine ⟨⟨tr.root, s'⟩, ?_, e2.read f2 f3⟩
        show Option.map _ (tr.merkleProof c key) = _
        unfold Trie.merkleProof
        rw [hn, f1]; rfl
      | reset => exact ⟨_, rfl, e2.reset⟩
      | restart => exact ⟨_, rfl, e2.restart⟩

theorem idle_empty {Hp : Bytes → Prop} (db : Bytes → Option Bytes) : Idle c Hp .empty (newTrie [] db) := by
  refine idle_new trivial trivial (fun x hx => by cases hx) (fun u hu => ?_) rfl trivial
  have : ∀ {h h' : Nat} {t u : Node}, Sub h t h' u → t = .empty → u = .empty := by
    intro h h' t u hs
    cases hs <;> intro he <;> first | exact he | cases he
  exact this hu rfl

theorem idle_life {Hp : Bytes → Prop} (hA : NoAccident c.H Hp) (hn : c.n = 256) (ops : List Op) (hv : ValidHist 256 (batches ops)) (he : EdgeHist (batches ops)) (hs : SizedHist (batches ops)) (hc : Changing (fun _ => none) (batches ops))
    (ht : NoTwins (batches ops)) (hH : ∀ x, Hashed c.H (batches ops) x → Hp x) : ∃ tr, life c ops = some tr ∧ Idle c Hp (run 256 (batches ops)) tr :=
  idle_lifeFrom (h0 := []) hA hn (idle_empty _) ops hv he hs hc ht hH

theorem idle_root {Hp : Bytes → Prop} {t : Node} {tr : Trie} (h : Idle c Hp t tr) : tr.root = (rootHash c.H 256 t).getD [] := by
  rw [h.root]
  cases t <;> rfl

/-! ## C10 -/

/-- C10: updates that are committed can be read back. Whatever is done with a trie (updates with commits, reads, proofs, resets of the cache, restarts of the process), no operation fails, the root is the root of the tree of the batches, and the trie as well as a new trie opened with its root on the DB return for every key the value that the batches assigned last.
Proved for batches that change something with every entry (`C10_noop_violated` shows what happens otherwise) and delete only the smallest or largest key of a batch (as in C01), with hash functions that have no accident on the strings of the history, and without keys that agree in 255 bits (`C10_twins_violated`). -/
theorem C10_committed_partial (hn : c.n = 256) (ops : List Op) (hv : ValidHist 256 (batches ops)) (he : EdgeHist (batches ops)) (hs : SizedHist (batches ops)) (hc : Changing (fun _ => none) (batches ops))
    (ht : NoTwins (batches ops)) (hA : NoAccident c.H (Hashed c.H (batches ops))) :
    ∃ tr, life c ops = some tr ∧ tr.root = (rootHash c.H 256 (run 256 (batches ops))).getD [] ∧
      ∀ k, k.length = 32 → (∃ s, tr.get c k = some (mapAfter (batches ops) k, s)) ∧ (∃ s, (newTrie tr.root tr.st.db).get c k = some (mapAfter (batches ops) k, s)) := by
  obtain ⟨tr, e1, e2⟩ := idle_life hA hn ops hv he hs hc ht (fun _ h => h)
  refine ⟨tr, e1, idle_root e2, fun k hk => ?_⟩
  have hsp := (Smt.goodHist_of_edge hv he).spec.2 k (by omega)
  rw [← hsp]
  exact ⟨e2.get hA hn k, e2.restart.get hA hn k⟩

/-- C10 for proofs: `MerkleProof` of the trie, and of a new trie opened with its root on the DB, is the proof of the tree of the batches (to which C04 and C05 apply). -/
theorem C10_proofs_partial (hn : c.n = 256) (ops : List Op) (hv : ValidHist 256 (batches ops)) (he : EdgeHist (batches ops)) (hs : SizedHist (batches ops)) (hc : Changing (fun _ => none) (batches ops))
    (ht : NoTwins (batches ops)) (hA : NoAccident c.H (Hashed c.H (batches ops))) :
    ∃ tr, life c ops = some tr ∧ ∀ k, (∃ s, tr.merkleProof c k = some (Smt.merkleProof c.H 256 256 (run 256 (batches ops)) k, s)) ∧
      (∃ s, (newTrie tr.root tr.st.db).merkleProof c k = some (Smt.merkleProof c.H 256 256 (run 256 (batches ops)) k, s)) := by
  obtain ⟨tr, e1, e2⟩ := idle_life hA hn ops hv he hs hc ht (fun _ h => h)
  exact ⟨tr, e1, fun k => ⟨e2.merkleProof hA hn k, e2.restart.merkleProof hA hn k⟩⟩

/-! ### A concrete life -/

/-- A hash function for the examples. -/
def exH (x : Bytes) : Bytes :=
  if x.length = 65 then [1, x.getD 0 0, x.getD 32 0, x.getD 64 0] ++ List.replicate 28 0
  else if x.length = 64 then [2, x.getD 1 0, x.getD 2 0, x.getD 3 0, x.getD 4 0, x.getD 33 0, x.getD 34 0] ++ List.replicate 25 0
  else (x.getD 0 0 + 1) :: ((x.drop 1).take 31 ++ List.replicate (31 - ((x.drop 1).take 31).length) 0)

def exCfg : Cfg := { H := exH, n := 256, lim := 32 }

/-- Two keys that share a batch root and more, an overwritten value, a third key that is deleted again, with a restart in between. -/
def exOps : List Op :=
  [.write [(b32 0x00, some (b32 1)), (b32 0x08, some (b32 2))], .read (b32 0x08), .restart, .write [(b32 0x08, some (b32 3)), (b32 0x80, some (b32 4))], .prove (b32 0x80), .reset, .write [(b32 0x80, none)]]

/-- The strings hashed for inner nodes. -/
def exNodes : List Bytes := ((List.range 4).flatMap (fun j => preimages exH 256 (run 256 ((batches exOps).take j)))).filter (fun x => x.length ≠ 65)

/-- The string with a given digest. -/
def exInv (d : Bytes) : Bytes :=
  if d.getD 0 0 = 1 then b32 (d.getD 1 0) ++ b32 (d.getD 2 0) ++ [d.getD 3 0] else (exNodes.find? (fun x => exH x == d)).getD []

theorem exInv_leaf (k v b : Byte) : exInv (exH (b32 k ++ b32 v ++ [b])) = b32 k ++ b32 v ++ [b] := rfl

theorem exInv_node : exNodes.all (fun x => exInv (exH x) == x) = true := by decide +kernel

theorem exHead : exNodes.all (fun x => (exH x).getD 0 0 != 0) = true := by decide +kernel

theorem exLeaves : ((List.range 4).flatMap (fun j => preimages exH 256 (run 256 ((batches exOps).take j)))).all (fun x => x.length != 65 || x == b32 (x.getD 0 0) ++ b32 (x.getD 32 0) ++ [x.getD 64 0]) = true := by decide +kernel

theorem exBatch : (batches exOps).all (fun kvs => kvs.all (fun p => p.1 == b32 (p.1.getD 0 0) && (p.2.isNone || p.2 == some (b32 ((p.2.getD []).getD 0 0))))) = true := by decide +kernel

theorem exLen : (batches exOps).length = 3 := rfl

theorem exHashed {x : Bytes} (h : Hashed exH (batches exOps) x) : (∃ k v b, x = b32 k ++ b32 v ++ [b]) ∨ x ∈ exNodes := by
  rcases h with ⟨kvs, h1, k, v, b, h2, rfl⟩ | ⟨done, rest, h1, h2⟩
  · left
    have := exBatch
    rw [List.all_eq_true] at this
    have := this kvs h1
    rw [List.all_eq_true] at this
    have := this _ h2
    simp at this
    exact ⟨_, _, b, congrArg₂ (fun a d => a ++ d ++ [b]) this.1 this.2⟩
  · have hd : done = (batches exOps).take done.length := by rw [h1]; simp
    have hl : done.length < 4 := by
      have := congrArg List.length h1
      rw [exLen, List.length_append] at this
      omega
    have hm : x ∈ (List.range 4).flatMap (fun j => preimages exH 256 (run 256 ((batches exOps).take j))) :=
      List.mem_flatMap.2 ⟨done.length, List.mem_range.2 hl, by rw [← hd]; exact h2⟩
    by_cases h65 : x.length = 65
    · left
      have := exLeaves
      rw [List.all_eq_true] at this
      have := this x hm
      simp [h65] at this
      exact ⟨_, _, _, by simpa using this⟩
    · right
      exact List.mem_filter.2 ⟨hm, by simpa using h65⟩

theorem exNoAccident : NoAccident exCfg.H (Hashed exCfg.H (batches exOps)) := by
  have hinv : ∀ x, Hashed exH (batches exOps) x → exInv (exH x) = x ∧ (exH x).getD 0 0 ≠ 0 := by
    intro x hx
    rcases exHashed hx with ⟨k, v, b, rfl⟩ | h
    · exact ⟨exInv_leaf k v b, by show (1 : Byte) ≠ 0; decide⟩
    · exact ⟨by simpa using List.all_eq_true.1 exInv_node x h, by simpa using List.all_eq_true.1 exHead x h⟩
  refine ⟨?_, ?_, ?_, ?_⟩
  · intro x
    show (exH x).length = 32
    unfold exH
    split
    · rfl
    · split
      · rfl
      · simp; omega
  · intro x y hx hy he
    rw [← (hinv x hx).1, ← (hinv y hy).1]
    exact congrArg exInv he
  · intro x y hx hy he
    apply (hinv y hy).2
    have hl : (exH y).length = 32 := by
      unfold exH
      split
      · rfl
      · split
        · rfl
        · simp; omega
    have he : 0 :: exH x = exH y ++ [0] := he
    match hy' : exH y with
    | [] => rw [hy'] at hl; cases hl
    | a :: l =>
      rw [hy'] at he
      simp at he
      rw [← he.1]; rfl
  · intro x hx he
    apply (hinv x hx).2
    have he : exH x = List.replicate 32 0 := he
    rw [he]; rfl

theorem exOps_ok : ValidHist 256 (batches exOps) ∧ EdgeHist (batches exOps) ∧ SizedHist (batches exOps) ∧ Changing (fun _ => none) (batches exOps) ∧ NoTwins (batches exOps) := by decide +kernel

/-- The hypotheses of `C10_committed_partial` and `C10_proofs_partial` hold for `exOps`; its content is not trivial. -/
example : exCfg.n = 256 ∧ (ValidHist 256 (batches exOps) ∧ EdgeHist (batches exOps) ∧ SizedHist (batches exOps) ∧ Changing (fun _ => none) (batches exOps) ∧ NoTwins (batches exOps)) ∧ NoAccident exCfg.H (Hashed exCfg.H (batches exOps)) ∧
    mapAfter (batches exOps) (b32 0x08) = some (b32 3) ∧ mapAfter (batches exOps) (b32 0x80) = none := ⟨rfl, exOps_ok, exNoAccident, by decide +kernel, by decide +kernel⟩

/-- The model run on `exOps`. -/
example : ((life exCfg exOps).bind (fun tr => (tr.get exCfg (b32 0x08)).map Prod.fst)) = some (some (b32 3)) := by decide +kernel

/-! ### What is violated -/

/-- C10 is violated in general, for every hash function and every trie: if an update leaves the root of the trie as it is (since all entries were there already), Commit deletes the root from the DB, and a new trie on the DB fails for every key. -/
theorem C10_same_root_violated (hn : c.n = 256) {tr tr1 : Trie} (hl : tr.root.length = 32) (hz : tr.root ≠ List.replicate 32 0) {kvs : KVs} (hne : kvs ≠ []) (he : tr.update c kvs = some tr1) (hr : tr1.root = tr.root) :
    ∀ key, (newTrie tr1.commit.root tr1.commit.st.db).get c key = none := by
  have h1 : tr1.root ≠ [] := by
    rw [hr]; intro h; rw [h] at hl; cases hl
  have h2 := trie_root_removed hn hl hz hne he h1
  have h3 : tr1.commit.root = tr.root := hr
  intro key
  rw [h3]
  exact get_none hn hl h2 key

theorem noop_update (hn : c.n = 256) {Hp : Bytes → Prop} (hA : NoAccident c.H Hp) {k v : Bytes} {tr : Trie} (hi : Idle c Hp (.leaf k v) tr) : ∃ tr1, tr.update c [(k, some v)] = some tr1 ∧ tr1.root = tr.root := by
  have hsz : k.length = 32 ∧ v.length = 32 := hi.tok.sized
  obtain ⟨ld, e1, e2⟩ := load_ok hA (g := 255) (ix := 0) (b := []) hi.look.sum hi.tok hi.rootOk hi.look.batch hi.look.stored hi.look.coh
  have hl : ld.l = k ++ [2] := by rw [e2.l, e2.shape.1]
  have hr : ld.r = v ++ [2] := by rw [e2.r, e2.shape.2.1]
  have hm : Smt.maybeAdd k v [(k, some v)] = [(k, some v)] := by simp [Smt.maybeAdd, Smt.addLoop, bytesLt_irrefl]
  have hlen : (c.H (k ++ v ++ [byteOf 256])).length = 32 := hA.len _
  unfold Trie.update
  rw [if_neg (by simp), hn]
  simp only [update]
  rw [e1]
  simp only [afterLoad]
  rw [e2.shortcut, if_pos (show (Node.leaf k v).isLeaf = true from rfl), hl, hr, take_key hsz.1, take_key hsz.2, hm, if_neg (by simp)]
  simp only [branch, leafHash, keepBatch, Option.map_some]
  refine ⟨_, rfl, ?_⟩
  rw [hi.root, if_neg (show ¬ Node.leaf k v = .empty by simp)]
  have hlen' : (c.H (k ++ (v ++ [byteOf 256]))).length = 32 := hA.len _
  simp [digest, List.take_append_of_le_length (Nat.le_of_eq hlen'.symm), List.take_of_length_le (Nat.le_of_eq hlen')]

/-- C10 is violated for every hash function (without accidents), key and value: write it twice, each time with Commit. Nothing is left that can be read after a restart. -/
theorem C10_noop_violated (hn : c.n = 256) (k v : Bytes) (hk : k.length = 32) (hv : v.length = 32) (hA : NoAccident c.H (Hashed c.H [[(k, some v)]])) :
    ∃ tr, life c [.write [(k, some v)], .write [(k, some v)]] = some tr ∧ mapAfter [[(k, some v)], [(k, some v)]] k = some v ∧ ∀ key, (newTrie tr.root tr.st.db).get c key = none := by
  obtain ⟨tr, e1, e2⟩ := idle_life hA hn [.write [(k, some v)]] (by intro kvs h; simp [batches] at h; subst h; exact ⟨by simp [Smt.SortedKVs], by simp; omega⟩)
    (by intro kvs h; simp [batches] at h; subst h; simp [EdgeDeletes]) (by intro kvs h; simp [batches] at h; subst h; intro p hp; simp at hp; subst hp; exact ⟨hk, fun w hw => by cases hw; exact hv⟩)
    (by simp [batches, Changing]) (by intro kvs h p hp kvs' h' p' hp'; simp [batches] at h h'; subst h h'; simp at hp hp'; subst hp hp'; exact fun h => h.1 rfl) (fun x hx => hx)
  have hrun : run 256 (batches [.write [(k, some v)]]) = .leaf k v := rfl
  rw [hrun] at e2
  obtain ⟨tr1, f1, f2⟩ := noop_update hn hA e2
  have h3 := e2.root
  rw [if_neg (by simp)] at h3
  have hlen : tr.root.length = 32 := by rw [h3]; exact hA.len _
  have hz : tr.root ≠ List.replicate 32 0 := by
    rw [h3]
    exact hA.zero _ (Or.inl ⟨_, List.mem_cons_self .., k, v, byteOf 256, List.mem_cons_self .., rfl⟩)
  refine ⟨tr1.commit, ?_, by simp [mapAfter, applyKVs], C10_same_root_violated hn hlen hz (by simp) f1 f2⟩
  rw [show [Op.write [(k, some v)], .write [(k, some v)]] = [.write [(k, some v)]] ++ [.write [(k, some v)]] from rfl, life_snoc, e1]
  show Option.map Trie.commit (tr.update c [(k, some v)]) = _
  rw [f1]; rfl

theorem NoAccident.mono {H : Bytes → Bytes} {P Q : Bytes → Prop} (h : NoAccident H Q) (hm : ∀ x, P x → Q x) : NoAccident H P :=
  ⟨h.len, fun x y hx hy => h.inj x y (hm x hx) (hm y hy), fun x y hx hy => h.shift x y (hm x hx) (hm y hy), fun x hx => h.zero x (hm x hx)⟩

theorem hashed_single {H : Bytes → Bytes} {k v x : Bytes} (h : Hashed H [[(k, some v)]] x) : ∃ b, x = k ++ v ++ [b] := by
  rcases h with ⟨kvs, h1, k', v', b, h2, rfl⟩ | ⟨done, rest, h1, h2⟩
  · simp at h1; subst h1; simp at h2; exact ⟨b, by rw [h2.1, h2.2]⟩
  · match done, h1 with
    | [], _ => cases h2
    | [_], h1 =>
      simp at h1
      rw [← h1.1] at h2
      have : run 256 [[(k, some v)]] = .leaf k v := rfl
      rw [this] at h2
      simp [preimages] at h2
      exact ⟨_, by simpa using h2⟩
    | _ :: _ :: _, h1 => simp at h1

/-- The hypotheses of `C10_noop_violated` hold for a concrete key, value and hash function. -/
theorem ex_single : NoAccident exCfg.H (Hashed exCfg.H [[(b32 0x00, some (b32 1))]]) :=
  exNoAccident.mono (fun x hx => by
    obtain ⟨b, rfl⟩ := hashed_single hx
    exact Or.inl ⟨_, List.mem_cons_self .., b32 0x00, b32 1, b, by simp, rfl⟩)

example : exCfg.n = 256 ∧ (b32 0x00).length = 32 ∧ (b32 1).length = 32 ∧ NoAccident exCfg.H (Hashed exCfg.H [[(b32 0x00, some (b32 1))]]) := ⟨rfl, rfl, rfl, ex_single⟩

/-- What a new process reads after the operations. -/
def reread (c : Cfg) (ops : List Op) (key : Key) : Option (Option Bytes) := (life c ops).bind (fun tr => ((newTrie tr.root tr.st.db).get c key).map Prod.fst)

/-- C10 is violated too if only some entries change nothing: here one entry of the second batch is new and the other one repeats a value. A third key, that has not been written again, gets lost with the second one, although the root is right. -/
theorem C10_part_noop_violated : ∃ ops, ValidHist 256 (batches ops) ∧ EdgeHist (batches ops) ∧ SizedHist (batches ops) ∧ NoTwins (batches ops) ∧
    (life exCfg ops).map Trie.root = rootHash exH 256 (run 256 (batches ops)) ∧ mapAfter (batches ops) (b32 0x88) = some (b32 3) ∧
    reread exCfg ops (b32 0x00) = some (some (b32 4)) ∧ reread exCfg ops (b32 0x80) = none ∧ reread exCfg ops (b32 0x88) = none :=
  ⟨[.write [(b32 0x00, some (b32 1)), (b32 0x80, some (b32 2)), (b32 0x88, some (b32 3))], .write [(b32 0x00, some (b32 4)), (b32 0x80, some (b32 2))]], by decide +kernel⟩

/-- C10 is violated as well if a value is changed and changed back before the Commit: two updates with one Commit. -/
theorem C10_undo_violated : ∃ tr, (((newTrie [] (fun _ => none)).update exCfg [(b32 0x00, some (b32 1))]).bind (fun t => (t.commit.update exCfg [(b32 0x00, some (b32 2))]).bind (fun t => (t.update exCfg [(b32 0x00, some (b32 1))]).map Trie.commit))) = some tr ∧
    mapAfter [[(b32 0x00, some (b32 1))], [(b32 0x00, some (b32 2))], [(b32 0x00, some (b32 1))]] (b32 0x00) = some (b32 1) ∧ tr.root = (rootHash exH 256 (run 256 [[(b32 0x00, some (b32 1))]])).getD [] ∧
    ∀ key, (newTrie tr.root tr.st.db).get exCfg key = none := by
  refine ⟨_, rfl, by decide +kernel, by decide +kernel, fun key => get_none rfl (by decide +kernel) (by decide +kernel) key⟩

/-- Two keys that differ in the last bit. -/
def twinA : Key := List.replicate 32 0
def twinB : Key := List.replicate 31 0 ++ [1]

/-- Without `NoTwins`, C10 is violated (shown with the hash function of the examples; the reason does not depend on it): the height is hashed as one byte, in which 256 is 0, so the only leaf of a trie has the same digest when it moves from the root to the bottom; Commit deletes it there. -/
theorem C10_twins_violated : Twins twinA twinB ∧ ∃ ops, ValidHist 256 (batches ops) ∧ EdgeHist (batches ops) ∧ SizedHist (batches ops) ∧ Changing (fun _ => none) (batches ops) ∧
    mapAfter (batches ops) twinA = some (b32 1) ∧ reread exCfg ops twinB = some (some (b32 2)) ∧ reread exCfg ops twinA = none :=
  ⟨by decide +kernel, [.write [(twinA, some (b32 1))], .write [(twinB, some (b32 2))]], by decide +kernel⟩

end Fpki.SmtStore
