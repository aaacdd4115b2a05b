import Verif.Model.SmtStore

/-!
# Removed nodes
-/
namespace Fpki.SmtStore

open Fpki.Smt (KVs Key Val)

variable {c : Cfg}

theorem storeNode_removed (b : Batch) (h r : Bytes) (n : Nat) (s : St) : (storeNode c b h r n s).removed = s.removed := by
  unfold storeNode deleteOldNode; split <;> rfl

theorem loadBatch_removed {root : Bytes} {h : Nat} {s s' : St} {b : Batch} (he : loadBatch c root h s = some (b, s')) : s'.removed = s.removed := by
  unfold loadBatch at he
  split at he
  · cases he; rfl
  · split at he
    · cases he; rfl
    · split at he
      · cases he
      · split at he
        · cases he
        · split at he <;> (cases he; rfl)

theorem loadChildren_removed {root : Bytes} {h ix : Nat} {s : St} {b : Batch} {ld : Loaded} (he : loadChildren c root h ix b s = some ld) : ld.st.removed = s.removed := by
  unfold loadChildren at he
  split at he
  · split at he
    · cases he; rfl
    · split at he
      · cases he
      · rename_i heq
        cases he
        exact loadBatch_removed heq
  · cases he; rfl

theorem leafHash_removed (k v r : Bytes) (b : Batch) (ix h : Nat) (s : St) : (leafHash c k v r b ix h s).2.2.removed = s.removed := by
  unfold leafHash
  dsimp only
  split
  · exact storeNode_removed ..
  · rfl

theorem interiorHash_removed (l r o : Bytes) (b : Batch) (ix h : Nat) (s : St) : (interiorHash c l r o b ix h s).2.2.removed = s.removed := by
  unfold interiorHash
  dsimp only
  split
  · exact storeNode_removed ..
  · rfl

theorem moveUp_removed {sc root : Bytes} {b : Batch} {ix is h : Nat} {s : St} {res : Res} (he : moveUp c sc root b ix is h s = some res) : res.st.removed = s.removed := by
  unfold moveUp at he
  split at he
  · cases he
  · rename_i heq
    have h1 := loadChildren_removed heq
    dsimp only at he
    split at he
    · cases he
      exact (storeNode_removed ..).trans h1
    · split at he
      · cases he; exact h1
      · cases he; exact h1

theorem join_removed {del : Bool} {l r root : Bytes} {b : Batch} {ix h : Nat} {s : St} {res : Res} (he : join c del l r root b ix h s = some res) : res.st.removed = s.removed := by
  unfold join at he
  dsimp only at he
  split at he
  · split at he
    · split at he
      · cases he; rfl
      · cases he; rfl
    · split at he
      · split at he
        · exact moveUp_removed he
        · cases he; exact interiorHash_removed ..
      · split at he
        · split at he
          · exact moveUp_removed he
          · cases he; exact interiorHash_removed ..
        · cases he; exact interiorHash_removed ..
  · cases he; exact interiorHash_removed ..

theorem addRemove_sub (root : Bytes) (h : Nat) (s : St) : ∀ d ∈ s.removed, d ∈ (addRemove root h s).removed := by
  intro d hd
  unfold addRemove
  split
  · exact List.mem_cons_of_mem _ hd
  · exact hd

/-- A recursive call that only adds to the removed nodes. -/
def Grows (upd : Bytes → KVs → Batch → Nat → St → Option Res) : Prop := ∀ root kvs b ix s res, upd root kvs b ix s = some res → ∀ d ∈ s.removed, d ∈ res.st.removed

/-- `branch` records the old root, unless it returns nil. -/
theorem branch_removed {upd : Bytes → KVs → Batch → Nat → St → Option Res} (hu : Grows upd) {root l r : Bytes} {keys : KVs} {b : Batch} {ix h : Nat} {s : St} {res : Res}
    (he : branch c upd root l r keys b ix h s = some res) : (∀ d ∈ s.removed, d ∈ res.st.removed) ∧ (res.node ≠ [] → ∀ d ∈ (addRemove root h s).removed, d ∈ res.st.removed) := by
  have hgen : (∀ d ∈ (addRemove root h s).removed, d ∈ res.st.removed) → (∀ d ∈ s.removed, d ∈ res.st.removed) ∧ (res.node ≠ [] → ∀ d ∈ (addRemove root h s).removed, d ∈ res.st.removed) :=
    fun h1 => ⟨fun d hd => h1 d (addRemove_sub _ _ _ d hd), fun _ => h1⟩
  unfold branch at he
  split at he
  · cases he
    exact ⟨fun _ hd => hd, fun hn => absurd rfl hn⟩
  · cases he
    apply hgen
    intro d hd
    rw [leafHash_removed]
    exact hd
  · apply hgen
    intro d hd
    dsimp only at he
    split at he
    · split at he
      · cases he
      · rename_i q hq
        rw [join_removed he]
        exact hu _ _ _ _ _ _ hq d hd
    · split at he
      · split at he
        · cases he
        · rename_i q hq
          rw [join_removed he]
          exact hu _ _ _ _ _ _ hq d hd
      · split at he
        · cases he
        · rename_i ql hql
          split at he
          · cases he
          · rename_i qr hqr
            rw [join_removed he]
            exact hu _ _ _ _ _ _ hqr d (hu _ _ _ _ _ _ hql d hd)

theorem afterLoad_removed {upd : Bytes → KVs → Batch → Nat → St → Option Res} (hu : Grows upd) {root : Bytes} {keys : KVs} {h : Nat} {ld : Loaded} {res : Res}
    (he : afterLoad c upd root keys h ld = some res) : (∀ d ∈ ld.st.removed, d ∈ res.st.removed) ∧ (res.node ≠ [] → toHash root ≠ List.replicate 32 0 → h % 4 = 0 → toHash root ∈ res.st.removed) := by
  have hadd : ∀ s : St, toHash root ≠ List.replicate 32 0 → h % 4 = 0 → toHash root ∈ (addRemove root h s).removed := by
    intro s h1 h2
    unfold addRemove
    rw [if_pos ⟨h1, h2⟩]
    exact List.mem_cons_self ..
  unfold afterLoad at he
  split at he
  · dsimp only at he
    have hst : (if ld.i = 0 then deleteOldNode c root h false ld.st else ld.st).removed = ld.st.removed := by split <;> rfl
    split at he
    · cases he
      exact ⟨fun d hd => by rw [hst]; exact hd, fun hn => absurd rfl hn⟩
    · obtain ⟨h1, h2⟩ := branch_removed hu he
      exact ⟨fun d hd => h1 d (by rw [hst]; exact hd), fun hn hz h4 => h2 hn _ (hadd _ hz h4)⟩
  · obtain ⟨h1, h2⟩ := branch_removed hu he
    exact ⟨h1, fun hn hz h4 => h2 hn _ (hadd _ hz h4)⟩

theorem keepBatch_some {h : Nat} {b : Batch} {r : Option Res} {res : Res} (he : keepBatch h b r = some res) : ∃ q, r = some q ∧ q.st = res.st ∧ q.node = res.node := by
  unfold keepBatch at he
  cases r with
  | none => cases he
  | some q =>
    rw [Option.map_some, Option.some.injEq] at he
    refine ⟨q, rfl, ?_, ?_⟩ <;> (rw [← he]; split <;> rfl)

theorem update_grows (c : Cfg) : ∀ h, Grows (update c h) := by
  intro h
  induction h with
  | zero =>
    intro root kvs b ix s res he d hd
    match kvs with
    | [] => simp only [update] at he; cases he; exact hd
    | (_, none) :: _ => simp only [update] at he; cases he; exact hd
    | (k, some v) :: _ =>
      simp only [update] at he
      cases he
      rw [leafHash_removed]
      exact hd
  | succ g ih =>
    intro root kvs b ix s res he d hd
    match kvs with
    | [] => simp only [update] at he; cases he; exact hd
    | kv :: kvs =>
      simp only [update] at he
      split at he
      · cases he
      · rename_i ld hld
        obtain ⟨q, h1, h2, _⟩ := keepBatch_some he
        rw [← h2]
        exact (afterLoad_removed ih h1).1 d (by rw [loadChildren_removed hld]; exact hd)

/-- The root of the trie is among the removed nodes, unless the new trie is empty. -/
theorem root_removed {g ix : Nat} {root : Bytes} {kvs : KVs} {b : Batch} {s : St} {res : Res} (h4 : (g + 1) % 4 = 0) (hz : toHash root ≠ List.replicate 32 0) (hne : kvs ≠ [])
    (he : update c (g + 1) root kvs b ix s = some res) (hn : res.node ≠ []) : toHash root ∈ res.st.removed := by
  match kvs, hne with
  | kv :: kvs, _ =>
    simp only [update] at he
    split at he
    · cases he
    · obtain ⟨q, h1, h2, h3⟩ := keepBatch_some he
      rw [← h2]
      rw [← h3] at hn
      exact (afterLoad_removed (update_grows c g) h1).2 hn hz h4

/-- What Commit does to the row of the root. -/
theorem trie_root_removed {tr tr1 : Trie} {kvs : KVs} (hn : c.n = 256) (hl : tr.root.length = 32) (hz : tr.root ≠ List.replicate 32 0) (hne : kvs ≠ []) (he : tr.update c kvs = some tr1) (hr : tr1.root ≠ []) :
    tr1.commit.st.db tr.root = none := by
  unfold Trie.update at he
  rw [if_neg (by simpa using hne)] at he
  split at he
  · cases he
  · rename_i q hq
    cases he
    have hth : toHash tr.root = tr.root := by
      unfold toHash
      rw [List.take_append_of_le_length (by omega), List.take_of_length_le (by omega)]
    have hnode : q.node ≠ [] := by
      intro h
      apply hr
      simp [h]
    rw [hn] at hq
    have := root_removed (g := 255) rfl (by rw [hth]; exact hz) hne hq hnode
    rw [hth] at this
    show erase q.st.removed _ tr.root = none
    unfold erase
    rw [if_pos this]

/-- Without the row of the root nothing can be read. -/
theorem get_none {root : Bytes} {db : Bytes → Option Bytes} (hn : c.n = 256) (hl : root.length = 32) (hdb : db root = none) (key : Key) : (newTrie root db).get c key = none := by
  unfold Trie.get
  rw [hn, get]
  have h1 : (newTrie root db).root = root := rfl
  rw [h1, if_neg (by omega)]
  unfold loadChildren loadBatch
  rw [if_pos rfl, if_neg (by omega)]
  have h2 : root.take 32 = root := List.take_of_length_le (by omega)
  simp only [newTrie, h2, hdb]

end Fpki.SmtStore
