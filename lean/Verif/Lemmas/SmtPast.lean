import Verif.Model.SmtPast
import Verif.Lemmas.SmtStoreCommit
import Verif.Lemmas.SmtStoreRemoved

/-!
# Updates without Commit, and past roots
-/
namespace Fpki.SmtStore

open Fpki.Smt (Node KVs Key Val byteOf digest preimages AllLeaves Sized NoHole Fits InPre WF ext walk SortedKVs MidDelete noPrefix)

variable {c : Cfg} {Hp : Bytes → Prop}

/-! ## Every row of the DB is the batch of its digest -/

/-- Every row is the batch of the tree with its digest. -/
def CohDb (c : Cfg) (Hp : Bytes → Prop) (db : Bytes → Option Bytes) : Prop :=
  ∀ d val, db d = some val → val.length ≠ 0 → ∃ h u, TOk c Hp h u ∧ u ≠ .empty ∧ d = digest c.H h u ∧ Good c.H h u (Smt.parseBatch val)

theorem cohDb_good (hA : NoAccident c.H Hp) {db : Bytes → Option Bytes} (hc : CohDb c Hp db) {h : Nat} {t : Node} (ht : TOk c Hp h t) (hne : t ≠ .empty) {val : Bytes}
    (hb : db (digest c.H h t) = some val) (hv : val.length ≠ 0) : Good c.H h t (Smt.parseBatch val) := by
  let s2 : St := ⟨fun d => (db d).bind (fun val => if val.length = 0 then none else some (Smt.parseBatch val)), fun _ => none, [], db⟩
  have h2 : Coh c Hp s2 := by
    intro d b hb
    rcases hb with hb | hb
    · cases hd : db d with
      | none => simp [s2, hd] at hb
      | some val =>
        simp only [s2, hd, Option.bind_some] at hb
        split at hb
        · cases hb
        · rename_i hl
          cases hb
          exact hc d val hd hl
    · cases hb
  refine coh_good hA h2 ht hne (Or.inl ?_)
  simp only [s2, hb, Option.bind_some]
  rw [if_neg hv]

theorem cohDb_commit (hA : NoAccident c.H Hp) {s : St} (hc : Coh c Hp s) (hd : CohDb c Hp s.db) : CohDb c Hp (commit s).db := by
  intro d val hv hl
  have hw : written s d = some val := by
    have : erase s.removed (written s) d = some val := hv
    unfold erase at this
    split at this
    · cases this
    · exact this
  unfold written at hw
  cases hu : s.upd d with
  | none => rw [hu] at hw; exact hd d val hw hl
  | some b =>
    rw [hu] at hw
    cases hw
    obtain ⟨h, u, a1, a2, a3, a4⟩ := hc d b (Or.inr hu)
    exact ⟨h, u, a1, a2, a3, by rw [good_roundtrip hA.len a1.sized a4]; exact a4⟩

/-- Loading a batch fails, or gives the right one. -/
theorem loadBatch_sound (hA : NoAccident c.H Hp) {s : St} (hc : Coh c Hp s) (hd : CohDb c Hp s.db) {h : Nat} {t : Node} (ht : TOk c Hp h t) (hne : t ≠ .empty) {root : Bytes} (hr : RootOk c root h t) :
    loadBatch c root h s = none ∨ ∃ b s', loadBatch c root h s = some (b, s') ∧ Good c.H h t b ∧ Coh c Hp s' ∧ SameBut s s' := by
  by_cases hav : Avail c s h t
  · exact Or.inr (loadBatch_ok hA hc ht hne hav hr)
  obtain ⟨h1, h2, _⟩ := rootOk_hash hA hr hne
  unfold loadBatch
  rw [h1, h2]
  cases hl : s.live (digest c.H h t) with
  | some b => exact Or.inr ⟨b, s, rfl, coh_good hA hc ht hne (Or.inl hl), hc, ⟨rfl, rfl, rfl⟩⟩
  | none =>
    left
    dsimp only
    cases hu : s.upd (digest c.H h t) with
    | some b => exact absurd (Or.inl ⟨b, hu⟩) hav
    | none =>
      dsimp only
      cases hv : s.db (digest c.H h t) with
      | none => rfl
      | some val =>
        dsimp only
        by_cases hz : val.length = 0
        · rw [if_pos hz]
        · exact absurd (Or.inr ⟨val, hv, hz, cohDb_good hA hd ht hne hv hz⟩) hav

/-- A call of `merkleProof` at a position of a tree that may not be stored (any more). -/
structure Seek (c : Cfg) (Hp : Bytes → Prop) (h i : Nat) (root : Bytes) (t : Node) (b : Batch) (ix : Nat) (s : St) : Prop where
  sum : i + h = 256
  tok : TOk c Hp h t
  rootOk : RootOk c root h t
  batch : h % 4 ≠ 0 → b.length = 31 ∧ slot b ix = root ∧ Shape c.H (h % 4) b ix h t ∧ 1 ≤ ix ∧ Room (h % 4) ix
  coh : Coh c Hp s
  cohDb : CohDb c Hp s.db

theorem load_sound (hA : NoAccident c.H Hp) {g i ix : Nat} {root : Bytes} {t : Node} {b : Batch} {s : St} (hl : Seek c Hp (g + 1) i root t b ix s) :
    loadChildren c root (g + 1) ix b s = none ∨ ∃ ld, loadChildren c root (g + 1) ix b s = some ld ∧ LoadOk c Hp g i ix t b s ld := by
  by_cases hq : t ≠ .empty ∧ (g + 1) % 4 = 0 ∧ loadBatch c root (g + 1) s = none
  · left
    unfold loadChildren
    obtain ⟨_, _, h3⟩ := rootOk_hash hA hl.rootOk hq.1
    rw [if_pos hq.2.1, if_neg h3, hq.2.2]
  · right
    refine load_of hA hl.sum hl.tok hl.rootOk hl.batch (fun hne h4 => ?_) hl.coh
    rcases loadBatch_sound hA hl.coh hl.cohDb hl.tok hne hl.rootOk with h | h
    · exact absurd ⟨hne, h4, h⟩ hq
    · exact h

theorem seek_kids {g i ix : Nat} {l r : Node} {b : Batch} {s : St} {ld : Loaded} (ht : TOk c Hp (g + 1) (.node l r)) (hd : CohDb c Hp s.db) (e2 : LoadOk c Hp g i ix (.node l r) b s ld) :
    Seek c Hp g (i + 1) ld.l l ld.batch (2 * ld.i + 1) ld.st ∧ Seek c Hp g (i + 1) ld.r r ld.batch (2 * ld.i + 2) ld.st ∧ ld.l = slotOf c.H g l ∧ ld.r = slotOf c.H g r := by
  obtain ⟨h1, h2, h3, h4⟩ := e2.shape
  rw [show g + 1 - 1 = g from rfl] at h1 h2 h3 h4
  have hd' : CohDb c Hp ld.st.db := by rw [e2.same.db]; exact hd
  obtain ⟨_, _, r1, r2⟩ := room_child e2.place.room
  have hs := e2.place.sum
  refine ⟨⟨by omega, ht.left, ?_, fun _ => ⟨e2.len, e2.l.symm, h3, by omega, r1⟩, e2.coh, hd'⟩, ⟨by omega, ht.right, ?_, fun _ => ⟨e2.len, e2.r.symm, h4, by omega, r2⟩, e2.coh, hd'⟩, ?_, ?_⟩
  · rw [e2.l, h1]; exact rootOk_slotOf _ _
  · rw [e2.r, h2]; exact rootOk_slotOf _ _
  · rw [e2.l, h1]
  · rw [e2.r, h2]

/-- A proof is an error or the proof of the tree. -/
theorem merkleProof_sound (hA : NoAccident c.H Hp) (hn : c.n = 256) (key : Key) : ∀ (h i : Nat) (root : Bytes) (t : Node) (b : Batch) (ix : Nat) (s : St), Seek c Hp h i root t b ix s →
    merkleProof c h root key b ix s = none ∨ ∃ s', merkleProof c h root key b ix s = some (Smt.merkleProof c.H 256 h t key, s') ∧ Coh c Hp s' ∧ SameBut s s' := by
  intro h
  induction h with
  | zero =>
    intro i root t b ix s hl
    by_cases hne : t = .empty
    · subst hne
      rw [merkleProof, (rootOk_empty hl.rootOk rfl).1]
      exact Or.inr ⟨s, by simp [Smt.merkleProof], hl.coh, ⟨rfl, rfl, rfl⟩⟩
    · obtain ⟨_, _, h3⟩ := rootOk_hash hA hl.rootOk hne
      rw [merkleProof, if_neg h3]
      unfold loadChildren
      rw [if_pos rfl, if_neg h3]
      rcases loadBatch_sound hA hl.coh hl.cohDb hl.tok hne hl.rootOk with e | ⟨b1, s1, e1, e2, e3, e4⟩
      · left; rw [e]
      · right
        rw [e1]
        cases t with
        | empty => exact absurd rfl hne
        | node => have := hl.tok.fits; simp [Fits] at this
        | leaf k v =>
          have hsz : k.length = 32 ∧ v.length = 32 := hl.tok.sized
          dsimp only
          rw [if_pos (by simp), e2.shape.1, e2.shape.2.1, leafProof, take_key hsz.1, take_key hsz.2]
          exact ⟨s1, by simp [Smt.merkleProof], e3, e4⟩
  | succ g ih =>
    intro i root t b ix s hl
    by_cases hne : t = .empty
    · subst hne
      rw [merkleProof, (rootOk_empty hl.rootOk rfl).1]
      exact Or.inr ⟨s, by simp [Smt.merkleProof], hl.coh, ⟨rfl, rfl, rfl⟩⟩
    · obtain ⟨_, _, h3⟩ := rootOk_hash hA hl.rootOk hne
      rw [merkleProof, if_neg h3]
      rcases load_sound hA hl with e | ⟨ld, e1, e2⟩
      · left; rw [e]
      rw [e1]
      dsimp only
      rw [e2.shortcut]
      cases t with
      | empty => exact absurd rfl hne
      | leaf k v =>
        right
        have hsz : k.length = 32 ∧ v.length = 32 := hl.tok.sized
        rw [if_pos (by simp [Node.isLeaf]), e2.l, e2.r, e2.shape.1, e2.shape.2.1, leafProof, take_key hsz.1, take_key hsz.2]
        exact ⟨ld.st, by simp [Smt.merkleProof], e2.coh, e2.same⟩
      | node l r =>
        rw [if_neg (by simp [Node.isLeaf])]
        obtain ⟨k1, k2, k3, k4⟩ := seek_kids hl.tok hl.cohDb e2
        rw [hn]
        simp only [Smt.merkleProof]
        rw [show g + 1 - 1 = g from rfl]
        split
        · rcases ih _ _ _ _ _ _ k2 with f | ⟨s', f1, f2, f3⟩
          · left; rw [f]
          · right
            rw [f1]
            exact ⟨s', by rw [k3, child_slotOf hA], f2, e2.same.trans f3⟩
        · rcases ih _ _ _ _ _ _ k1 with f | ⟨s', f1, f2, f3⟩
          · left; rw [f]
          · right
            rw [f1]
            exact ⟨s', by rw [k4, child_slotOf hA], f2, e2.same.trans f3⟩

/-! ## Reading with any root -/

theorem loadBatch_any {s s' : St} (hc : Coh c Hp s) (hd : CohDb c Hp s.db) {root : Bytes} {h : Nat} {b : Batch} (he : loadBatch c root h s = some (b, s')) : Coh c Hp s' ∧ SameBut s s' := by
  unfold loadBatch at he
  split at he
  · cases he; exact ⟨hc, rfl, rfl, rfl⟩
  · split at he
    · cases he; exact ⟨hc, rfl, rfl, rfl⟩
    · split at he
      · cases he
      · rename_i val hv
        split at he
        · cases he
        · rename_i hz
          split at he
          · cases he
            refine ⟨?_, rfl, rfl, rfl⟩
            intro d b hb
            dsimp only [mapSet] at hb
            by_cases hdd : d = root.take 32
            · rw [if_pos hdd] at hb
              rcases hb with hb | hb
              · cases hb
                rw [hdd]
                exact hd _ val hv hz
              · exact hc d b (Or.inr hb)
            · rw [if_neg hdd] at hb
              exact hc d b hb
          · cases he; exact ⟨hc, rfl, rfl, rfl⟩

theorem loadChildren_any {s : St} (hc : Coh c Hp s) (hd : CohDb c Hp s.db) {root : Bytes} {h ix : Nat} {b : Batch} {ld : Loaded} (he : loadChildren c root h ix b s = some ld) : Coh c Hp ld.st ∧ SameBut s ld.st := by
  unfold loadChildren at he
  split at he
  · split at he
    · cases he; exact ⟨hc, rfl, rfl, rfl⟩
    · split at he
      · cases he
      · rename_i heq
        cases he
        exact loadBatch_any hc hd heq
  · cases he; exact ⟨hc, rfl, rfl, rfl⟩

/-- A proof for any root leaves the caches coherent. -/
theorem merkleProof_any (key : Key) : ∀ (h : Nat) (root : Bytes) (b : Batch) (ix : Nat) (s : St) (q : Smt.Proof × St), Coh c Hp s → CohDb c Hp s.db → merkleProof c h root key b ix s = some q → Coh c Hp q.2 ∧ SameBut s q.2 := by
  intro h
  induction h with
  | zero =>
    intro root b ix s q hc hd he
    rw [merkleProof] at he
    split at he
    · cases he; exact ⟨hc, rfl, rfl, rfl⟩
    · split at he
      · cases he
      · rename_i ld hld
        rw [if_pos (by simp)] at he
        cases he
        exact loadChildren_any hc hd hld
  | succ g ih =>
    intro root b ix s q hc hd he
    rw [merkleProof] at he
    split at he
    · cases he; exact ⟨hc, rfl, rfl, rfl⟩
    · split at he
      · cases he
      · rename_i ld hld
        obtain ⟨h1, h2⟩ := loadChildren_any hc hd hld
        have hd' : CohDb c Hp ld.st.db := by rw [h2.db]; exact hd
        split at he
        · cases he; exact ⟨h1, h2⟩
        · dsimp only at he
          split at he
          · split at he
            · cases he
            · rename_i hq
              cases he
              obtain ⟨h3, h4⟩ := ih _ _ _ _ _ h1 hd' hq
              exact ⟨h3, h2.trans h4⟩
          · split at he
            · cases he
            · rename_i hq
              cases he
              obtain ⟨h3, h4⟩ := ih _ _ _ _ _ h1 hd' hq
              exact ⟨h3, h2.trans h4⟩

/-! ## `AtomicUpdate` without deletions keeps what is stored -/

/-- Nothing is lost from the updated nodes. -/
def Saves (s s' : St) : Prop := s'.db = s.db ∧ ∀ d b, s.upd d = some b → ∃ b', s'.upd d = some b'

theorem Saves.refl (s : St) : Saves s s := ⟨rfl, fun _ b h => ⟨b, h⟩⟩
theorem Saves.trans {s1 s2 s3 : St} (h1 : Saves s1 s2) (h2 : Saves s2 s3) : Saves s1 s3 :=
  ⟨h2.1.trans h1.1, fun d b hb => by obtain ⟨b', hb'⟩ := h1.2 d b hb; exact h2.2 d b' hb'⟩

theorem Saves.of_same {s s' : St} (h : SameBut s s') : Saves s s' := ⟨h.db, fun d b hb => ⟨b, by rw [h.upd]; exact hb⟩⟩

theorem Saves.stored {s s' : St} (hs : Saves s s') {h : Nat} {t : Node} (h1 : Stored c s h t) : Stored c s' h t :=
  allB_mono (fun h' u _ _ ha => by
    rcases ha with ⟨b, hb⟩ | ⟨val, v1, v2, v3⟩
    · exact Or.inl (hs.2 _ b hb)
    · exact Or.inr ⟨val, by rw [hs.1]; exact v1, v2, v3⟩) h1

theorem saves_delete (ha : c.atomic = true) (root : Bytes) (h : Nat) (s : St) : Saves s (deleteOldNode c root h false s) := by
  refine ⟨rfl, fun d b hb => ⟨b, ?_⟩⟩
  unfold deleteOldNode
  dsimp only
  rw [if_neg (by simp [ha])]
  exact hb

theorem saves_store (ha : c.atomic = true) (b : Batch) (h r : Bytes) (n : Nat) (s : St) : Saves s (storeNode c b h r n s) := by
  unfold storeNode
  split
  · exact .refl s
  · have h1 : Saves s { s with upd := mapSet s.upd (toHash h) (some b), live := if c.lim ≤ n then mapSet s.live (toHash h) (some b) else s.live } := by
      refine ⟨rfl, fun d b' hb => ?_⟩
      dsimp only [mapSet]
      split
      · exact ⟨_, rfl⟩
      · exact ⟨b', hb⟩
    exact h1.trans (saves_delete ha r n _)

theorem saves_loadBatch {root : Bytes} {h : Nat} {s s' : St} {b : Batch} (he : loadBatch c root h s = some (b, s')) : Saves s s' := by
  unfold loadBatch at he
  split at he
  · cases he; exact .refl _
  · split at he
    · cases he; exact .refl _
    · split at he
      · cases he
      · split at he
        · cases he
        · split at he <;> (cases he; exact ⟨rfl, fun d b hb => ⟨b, hb⟩⟩)

theorem saves_loadChildren {root : Bytes} {h ix : Nat} {s : St} {b : Batch} {ld : Loaded} (he : loadChildren c root h ix b s = some ld) : Saves s ld.st := by
  unfold loadChildren at he
  split at he
  · split at he
    · cases he; exact .refl _
    · split at he
      · cases he
      · rename_i heq
        cases he
        exact saves_loadBatch heq
  · cases he; exact .refl _

theorem saves_leafHash (ha : c.atomic = true) (k v r : Bytes) (b : Batch) (ix h : Nat) (s : St) : Saves s (leafHash c k v r b ix h s).2.2 := by
  unfold leafHash
  dsimp only
  split
  · exact saves_store ha ..
  · exact .refl s

theorem saves_interiorHash (ha : c.atomic = true) (l r o : Bytes) (b : Batch) (ix h : Nat) (s : St) : Saves s (interiorHash c l r o b ix h s).2.2 := by
  unfold interiorHash
  dsimp only
  split
  · exact saves_store ha ..
  · exact .refl s

theorem saves_addRemove (root : Bytes) (h : Nat) (s : St) : Saves s (addRemove root h s) := by
  unfold addRemove
  split <;> exact ⟨rfl, fun d b hb => ⟨b, hb⟩⟩

theorem saves_join (ha : c.atomic = true) {l r root : Bytes} {b : Batch} {ix h : Nat} {s : St} {res : Res} (he : join c false l r root b ix h s = some res) : Saves s res.st ∧ res.deleted = false := by
  unfold join at he
  dsimp only at he
  rw [if_neg (by simp)] at he
  cases he
  exact ⟨saves_interiorHash ha .., rfl⟩

/-- No deletions. -/
def NoDeletes (kvs : KVs) : Prop := ∀ p ∈ kvs, p.2 ≠ none

/-- A recursive call that keeps what is stored. -/
def SavesAll (upd : Bytes → KVs → Batch → Nat → St → Option Res) : Prop := ∀ root kvs b ix s res, NoDeletes kvs → upd root kvs b ix s = some res → Saves s res.st ∧ res.deleted = false

theorem noDeletes_split {i : Nat} {kvs : KVs} (h : NoDeletes kvs) : NoDeletes (Smt.splitKeys i kvs).1 ∧ NoDeletes (Smt.splitKeys i kvs).2 := by
  have : ∀ p, p ∈ (Smt.splitKeys i kvs).1 ++ (Smt.splitKeys i kvs).2 → p ∈ kvs := by
    intro p hp
    simp only [Smt.splitKeys] at hp
    simpa using hp
  exact ⟨fun p hp => h p (this p (by simp [hp])), fun p hp => h p (this p (by simp [hp]))⟩

theorem saves_branch (ha : c.atomic = true) {upd : Bytes → KVs → Batch → Nat → St → Option Res} (hu : SavesAll upd) {root l r : Bytes} {keys : KVs} (hk : NoDeletes keys) {b : Batch} {ix h : Nat} {s : St} {res : Res}
    (he : branch c upd root l r keys b ix h s = some res) : Saves s res.st ∧ res.deleted = false := by
  have hsp := noDeletes_split (i := c.n - h) hk
  unfold branch at he
  split at he
  · exact absurd rfl (hk _ (List.mem_cons_self ..))
  · cases he
    exact ⟨(saves_addRemove ..).trans (saves_leafHash ha ..), rfl⟩
  · dsimp only at he
    split at he
    · split at he
      · cases he
      · rename_i q hq
        obtain ⟨h1, h2⟩ := hu _ _ _ _ _ _ hk hq
        rw [h2] at he
        obtain ⟨h3, h4⟩ := saves_join ha he
        exact ⟨((saves_addRemove ..).trans h1).trans h3, h4⟩
    · split at he
      · split at he
        · cases he
        · rename_i q hq
          obtain ⟨h1, h2⟩ := hu _ _ _ _ _ _ hk hq
          rw [h2] at he
          obtain ⟨h3, h4⟩ := saves_join ha he
          exact ⟨((saves_addRemove ..).trans h1).trans h3, h4⟩
      · split at he
        · cases he
        · rename_i ql hql
          split at he
          · cases he
          · rename_i qr hqr
            obtain ⟨h1, h2⟩ := hu _ _ _ _ _ _ hsp.1 hql
            obtain ⟨h1', h2'⟩ := hu _ _ _ _ _ _ hsp.2 hqr
            rw [h2, h2'] at he
            obtain ⟨h3, h4⟩ := saves_join ha he
            exact ⟨(((saves_addRemove ..).trans h1).trans h1').trans h3, h4⟩

theorem bytesLt_antisymm {a b : Bytes} (h1 : bytesLt a b = false) (h2 : bytesLt b a = false) : a = b := by
  by_cases h : a = b
  · exact h
  · rcases bytesLt_total h with h | h
    · rw [h] at h1; cases h1
    · rw [h] at h2; cases h2

theorem noDeletes_addLoop (k v : Bytes) : ∀ {rest pre acc : KVs} {up : Bool} {p : Key × Option Val}, NoDeletes rest → NoDeletes pre → NoDeletes acc → rest.getLast? = some p → bytesLt p.1 k = false →
    (up = true ∨ ∀ q ∈ rest.head?, bytesLt k q.1 = false) → NoDeletes (Smt.addLoop k v pre up acc rest) ∧ Smt.addLoop k v pre up acc rest ≠ []
  | [], _, _, _, _, _, _, _, hl, _, _ => by cases hl
  | (k1, v1) :: rest, pre, acc, up, p, hr, hp, hac, hl, hlt, hup => by
    have hr' : NoDeletes rest := fun q hq => hr q (List.mem_cons_of_mem _ hq)
    have hp' : NoDeletes (pre ++ [(k1, v1)]) := by
      intro q hq
      rcases List.mem_append.1 hq with hq | hq
      · exact hp q hq
      · simp only [List.mem_singleton] at hq; subst hq; exact hr _ (List.mem_cons_self ..)
    have hv1 : v1.isSome = true := by
      have := hr (k1, v1) (List.mem_cons_self ..)
      cases v1 with
      | none => exact absurd rfl this
      | some => rfl
    have hnext : ∀ {up' : Bool} {acc' : KVs}, k ≠ k1 → NoDeletes acc' → up' = true → (up = true → bytesLt k k1 = false) →
        NoDeletes (Smt.addLoop k v (pre ++ [(k1, v1)]) up' acc' rest) ∧ Smt.addLoop k v (pre ++ [(k1, v1)]) up' acc' rest ≠ [] := by
      intro up' acc' hk ha hu hno
      cases rest with
      | nil =>
        exfalso
        simp only [List.getLast?_singleton, Option.some.injEq] at hl
        subst hl
        have hlk : bytesLt k k1 = false := by
          rcases hup with h | h
          · exact hno h
          · exact h _ rfl
        exact hk (bytesLt_antisymm hlk hlt)
      | cons q rest =>
        rw [List.getLast?_cons_cons] at hl
        exact noDeletes_addLoop k v hr' hp' ha hl hlt (Or.inl hu)
    rw [Smt.addLoop]
    split
    · refine ⟨?_, by simp⟩
      intro q hq
      rcases List.mem_append.1 hq with hq | hq
      · exact hp q hq
      · exact hr q hq
    · rename_i hk
      split
      · rename_i h1
        simp only [Bool.and_eq_true, Bool.not_eq_true'] at h1
        exact hnext hk hac rfl (fun h => by rw [h] at h1; cases h1.1)
      · rename_i h1
        split
        · refine ⟨?_, by simp⟩
          intro q hq
          rcases List.mem_append.1 hq with hq | hq
          · rcases List.mem_append.1 hq with hq | hq
            · exact hac q hq
            · exact hp q hq
          · rcases List.mem_cons.1 hq with rfl | hq
            · simp
            · exact hr q hq
        · rename_i h2
          have hut : up = true := by
            rcases hup with h | h
            · exact h
            · cases hu : up with
              | true => rfl
              | false =>
                rw [hu] at h1
                simp at h1
                exact absurd (bytesLt_antisymm (h _ rfl) h1) hk
          exact hnext hk hac hut (fun h => by rw [h] at h2; simpa using h2)

theorem noDeletes_maybeAdd (k v : Bytes) {kvs : KVs} (h : NoDeletes kvs) (hne : kvs ≠ []) : NoDeletes (Smt.maybeAdd k v kvs) ∧ Smt.maybeAdd k v kvs ≠ [] := by
  unfold Smt.maybeAdd
  split
  · rename_i k0 v0 rest kl vl hgl
    split
    · refine ⟨?_, by simp⟩
      intro p hp
      rcases List.mem_cons.1 hp with rfl | hp
      · simp
      · exact h p hp
    · split
      · refine ⟨?_, by simp⟩
        intro p hp
        rcases List.mem_append.1 hp with hp | hp
        · exact h p hp
        · simp only [List.mem_singleton] at hp; subst hp; simp
      · rename_i h1 h2
        refine noDeletes_addLoop k v h (fun q hq => by cases hq) (fun q hq => by cases hq) hgl (by simpa using h2) (Or.inr ?_)
        intro q hq
        simp only [List.head?_cons, Option.mem_def, Option.some.injEq] at hq
        subst hq
        simpa using h1
  · exact ⟨h, hne⟩

theorem saves_afterLoad (ha : c.atomic = true) {upd : Bytes → KVs → Batch → Nat → St → Option Res} (hu : SavesAll upd) {root : Bytes} {keys : KVs} (hk : NoDeletes keys) (hne : keys ≠ []) {h : Nat} {ld : Loaded} {res : Res}
    (he : afterLoad c upd root keys h ld = some res) : Saves ld.st res.st ∧ res.deleted = false := by
  unfold afterLoad at he
  split at he
  · dsimp only at he
    obtain ⟨h1, h2⟩ := noDeletes_maybeAdd (ld.l.take 32) (ld.r.take 32) hk hne
    have hst : Saves ld.st (if ld.i = 0 then deleteOldNode c root h false ld.st else ld.st) := by
      split
      · exact saves_delete ha ..
      · exact .refl _
    rw [if_neg (by simpa using h2)] at he
    obtain ⟨h3, h4⟩ := saves_branch ha hu h1 he
    exact ⟨hst.trans h3, h4⟩
  · exact saves_branch ha hu hk he

theorem keepBatch_deleted {h : Nat} {b : Batch} {r : Option Res} {res : Res} (he : keepBatch h b r = some res) : ∃ q, r = some q ∧ q.st = res.st ∧ q.deleted = res.deleted := by
  unfold keepBatch at he
  cases r with
  | none => cases he
  | some q =>
    rw [Option.map_some, Option.some.injEq] at he
    refine ⟨q, rfl, ?_, ?_⟩ <;> (rw [← he]; split <;> rfl)

theorem saves_update (ha : c.atomic = true) : ∀ h, SavesAll (update c h) := by
  intro h
  induction h with
  | zero =>
    intro root kvs b ix s res hk he
    match kvs with
    | [] => simp only [update] at he; cases he; exact ⟨.refl _, rfl⟩
    | (_, none) :: _ => exact absurd rfl (hk _ (List.mem_cons_self ..))
    | (k, some v) :: _ =>
      simp only [update] at he
      cases he
      exact ⟨saves_leafHash ha .., rfl⟩
  | succ g ih =>
    intro root kvs b ix s res hk he
    match kvs with
    | [] => simp only [update] at he; cases he; exact ⟨.refl _, rfl⟩
    | kv :: kvs =>
      simp only [update] at he
      split at he
      · cases he
      · rename_i ld hld
        obtain ⟨q, h1, h2, h3⟩ := keepBatch_deleted he
        rw [← h2, ← h3]
        obtain ⟨h4, h5⟩ := saves_afterLoad ha ih hk (by simp) h1
        exact ⟨(saves_loadChildren hld).trans h4, h5⟩

/-! ## Several updates -/

/-- A trie in use: `t` is its content, `base` the content at the last Commit, and `steps` are the updates since then, each with the content before it. -/
structure Busy (c : Cfg) (Hp : Bytes → Prop) (base t : Node) (steps : List (Node × KVs)) (tr : Trie) : Prop where
  wf : WF 256 0 noPrefix t
  leaves : AllLeaves (LP Hp) t
  pre : Pre c.H Hp 256 t
  low : ∀ u, Sub 256 t 0 u → u = .empty
  root : tr.root = if t = .empty then [] else digest c.H 256 t
  stored : Stored c tr.st 256 t
  coh : Coh c Hp tr.st
  cohDb : CohDb c Hp tr.st.db
  indb : InDb c tr.st.db 256 base
  past : ∀ q ∈ steps, WF 256 0 noPrefix q.1 ∧ TOk c Hp 256 q.1 ∧ (∀ u, Sub 256 q.1 0 u → u = .empty) ∧ ∀ p ∈ q.2, 8 * p.1.length = 256
  removed : ∀ d ∈ tr.st.removed, ∃ q ∈ steps, ∃ p ∈ q.2, ∃ m u0, walk p.1 0 m q.1 = some u0 ∧ u0 ≠ .empty ∧ d = digest c.H (256 - m) u0

theorem Busy.tok {base t : Node} {steps : List (Node × KVs)} {tr : Trie} (h : Busy c Hp base t steps tr) : TOk c Hp 256 t := tok_of (i := 0) (by omega) h.wf h.leaves h.pre

theorem Busy.rootOk {base t : Node} {steps : List (Node × KVs)} {tr : Trie} (h : Busy c Hp base t steps tr) : RootOk c tr.root 256 t := by
  rw [h.root]
  by_cases he : t = .empty
  · rw [if_pos he]; exact Or.inl ⟨he, rfl⟩
  · rw [if_neg he]; exact Or.inr ⟨he, Or.inr ⟨rfl, rfl⟩⟩

theorem Busy.look {base t : Node} {steps : List (Node × KVs)} {tr : Trie} (h : Busy c Hp base t steps tr) : Look c Hp 256 0 tr.root t [] 0 tr.st :=
  ⟨by omega, h.tok, h.rootOk, fun h => absurd rfl h, h.stored, h.coh⟩

theorem Busy.call {base t : Node} {steps : List (Node × KVs)} {tr : Trie} (h : Busy c Hp base t steps tr) {kvs : KVs} (hg : Good1 c Hp t kvs) : Call c Hp 256 0 noPrefix tr.root t kvs [] 0 tr.st :=
  ⟨by omega, h.wf, hg.sorted, hg.ne, fun p hp => Smt.inPre_zero.2 (hg.len p hp), hg.mid, hg.eff, h.leaves, hg.kv, h.pre, hg.pre', fun _ => hg.low', h.rootOk, fun h => absurd rfl h, h.stored, h.coh⟩

/-- An update of a trie in use. -/
theorem Busy.update (hA : NoAccident c.H Hp) (hn : c.n = 256) {base t : Node} {steps : List (Node × KVs)} {tr : Trie} (h : Busy c Hp base t steps tr) {kvs : KVs} (hg : Good1 c Hp t kvs) :
    ∃ res, SmtStore.update c 256 tr.root kvs [] 0 tr.st = some res ∧
      Busy c Hp base (Smt.update 256 256 t kvs).1 (steps ++ [(t, kvs)]) ⟨if res.node.length ≠ 0 then res.node.take 32 else [], res.st⟩ := by
  have hcall := h.call hg
  have hspec := hcall.spec
  obtain ⟨res, e1, e2, _, e4⟩ := update_ok hA hn 256 0 noPrefix tr.root t kvs [] 0 tr.st hcall
  have hdb : res.st.db = tr.st.db := e2.frame.db
  refine ⟨res, e1, ⟨hspec.wf, Smt.update_leaves 256 256 t kvs h.leaves hg.kv, hg.pre', hg.low', ?_, e2.stored, e2.coh, ?_, ?_, ?_, ?_⟩⟩
  · show (if res.node.length ≠ 0 then res.node.take 32 else []) = _
    rw [e2.node]
    by_cases he : (Smt.update 256 256 t kvs).1 = .empty
    · rw [if_pos he, he]; rfl
    · obtain ⟨_, h2, h3⟩ := rootOk_hash hA (rootOk_slotOf (c := c) 256 (Smt.update 256 256 t kvs).1) he
      rw [if_neg he, if_pos h3, h2]
  · show CohDb c Hp res.st.db
    rw [hdb]; exact h.cohDb
  · show InDb c res.st.db 256 base
    rw [hdb]; exact h.indb
  · intro q hq
    rcases List.mem_append.1 hq with hq | hq
    · exact h.past q hq
    · simp only [List.mem_singleton] at hq
      subst hq
      exact ⟨h.wf, h.tok, h.low, hg.len⟩
  · intro d hd
    rcases e4 d hd with hr | ⟨p, hp, m, u0, w1, w2, w3⟩
    · obtain ⟨q, hq, r⟩ := h.removed d hr
      exact ⟨q, List.mem_append_left _ hq, r⟩
    · exact ⟨(t, kvs), by simp, p, hp, m, u0, w1, w2, w3⟩

/-- What Commit removes is not needed for the content. -/
theorem Busy.kept (hA : NoAccident c.H Hp) {base t : Node} {steps : List (Node × KVs)} {tr : Trie} (h : Busy c Hp base t steps tr) (hv : ∀ q ∈ steps, ∀ p ∈ q.2, Smt.get 0 q.1 p.1 ≠ Smt.get 0 t p.1)
    {h' : Nat} {u : Node} (hs : Sub 256 t h' u) (hne : u ≠ .empty) : digest c.H h' u ∉ tr.st.removed := by
  intro hd
  obtain ⟨q, hq, p, hp, m, u0, hwk, hu0, he⟩ := h.removed _ hd
  obtain ⟨pw, pt, plow, plen⟩ := h.past q hq
  obtain ⟨hag, hsub⟩ := walk_agree p.1 m 0 noPrefix q.1 u0 hwk pw
  have hsub := hsub 256 (by omega)
  have hu := h.tok.sub hs
  have hu0t := pt.sub hsub
  obtain ⟨heq, hh⟩ := digest_height hA hu.sized hu0t.sized hu.pre hu0t.pre hne hu.noHole hu.fits hu0t.fits hu.le hu0t.le he
  subst heq
  have hle := hs.le
  rcases hh with hh | ⟨h1, h2⟩ | ⟨h1, h2⟩
  · have hm : m ≤ 256 ∨ 256 < m := by omega
    rcases hm with hm | hm
    · have hwalk := sub_walk hs (i := 0) (by omega) h.wf
      obtain ⟨k, v, a, b⟩ := leaf_exists hu.noHole hne hag hwalk
      have hw' : walk p.1 0 m t = some u := by
        rw [← b, show 256 - h' = m by omega]
        exact Smt.walk_congr m 0 _ (fun j h1 h2 => (a j h1 h2).symm)
      have g1 := Smt.get_walk p.1 m 0 _ u hwk
      have g2 := Smt.get_walk p.1 m 0 _ u hw'
      exact hv q hq p hp (g1.trans g2.symm)
    · rw [show 256 - m = 0 by omega] at hsub
      exact hu0 (plow u hsub)
  · subst h1
    exact hne (h.low u hs)
  · rw [h2] at hsub
    exact hu0 (plow u hsub)

/-- Commit after several updates. -/
theorem Busy.commit (hA : NoAccident c.H Hp) {base t : Node} {steps : List (Node × KVs)} {tr : Trie} (h : Busy c Hp base t steps tr) (hv : ∀ q ∈ steps, ∀ p ∈ q.2, Smt.get 0 q.1 p.1 ≠ Smt.get 0 t p.1) :
    Busy c Hp t t [] tr.commit := by
  have hnew := written_ok hA h.coh h.tok h.stored
  have hdb : InDb c tr.commit.st.db 256 t := by
    refine allB_mono ?_ hnew
    rintro h' u hs hne ⟨val, v1, v2, v3⟩
    refine ⟨val, ?_, v2, v3⟩
    show erase tr.st.removed (written tr.st) _ = _
    unfold erase
    rw [if_neg (h.kept hA hv hs hne), v1]
  refine ⟨h.wf, h.leaves, h.pre, h.low, h.root, allB_mono (fun _ _ _ _ h => Or.inr h) hdb, ?_, cohDb_commit hA h.coh h.cohDb, hdb, (fun q hq => by cases hq), (fun d hd => by cases hd)⟩
  intro d b hb
  rcases hb with hb | hb
  · exact h.coh d b (Or.inl hb)
  · cases hb

theorem Busy.reset {base t : Node} {steps : List (Node × KVs)} {tr : Trie} (h : Busy c Hp base t steps tr) : Busy c Hp base t steps tr.resetLive :=
  { h with
    coh := fun d b hb => by
      rcases hb with hb | hb
      · cases hb
      · exact h.coh d b (Or.inr hb) }

/-- Reading keeps the trie as it is. -/
theorem Busy.read {base t : Node} {steps : List (Node × KVs)} {tr : Trie} {s' : St} (h : Busy c Hp base t steps tr) (hc : Coh c Hp s') (hs : SameBut tr.st s') : Busy c Hp base t steps ⟨tr.root, s'⟩ :=
  { h with
    stored := stored_same hs h.stored
    cohDb := by show CohDb c Hp s'.db; rw [hs.db]; exact h.cohDb
    indb := by show InDb c s'.db 256 base; rw [hs.db]; exact h.indb
    coh := hc
    removed := by show ∀ d ∈ s'.removed, _; rw [hs.removed]; exact h.removed }

/-- A new trie with the content of the last Commit. -/
theorem busy_new {t : Node} {root : Bytes} {db : Bytes → Option Bytes} (hw : WF 256 0 noPrefix t) (hl : AllLeaves (LP Hp) t) (hp : Pre c.H Hp 256 t) (hlow : ∀ u, Sub 256 t 0 u → u = .empty)
    (hr : root = if t = .empty then [] else digest c.H 256 t) (hd : CohDb c Hp db) (hdb : InDb c db 256 t) : Busy c Hp t t [] (newTrie root db) :=
  ⟨hw, hl, hp, hlow, hr, allB_mono (fun _ _ _ _ h => Or.inr h) hdb, (fun d b hb => by rcases hb with hb | hb <;> cases hb), hd, hdb, (fun q hq => by cases hq), (fun d hd => by cases hd)⟩

end Fpki.SmtStore
