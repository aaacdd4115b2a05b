import Verif.Model.SmtReaders
import Verif.Props.SmtPast

/-!
# Proofs while the DB changes
-/
namespace Fpki.SmtStore

open Fpki.Smt (Node KVs Key Val digest run Fits)

variable {c : Cfg} {Hp : Bytes → Prop}

theorem TOk.reader {h : Nat} {t : Node} : TOk (readerCfg c) Hp h t ↔ TOk c Hp h t :=
  ⟨fun h => ⟨h.leaves, h.pre, h.noHole, h.fits, h.le⟩, fun h => ⟨h.leaves, h.pre, h.noHole, h.fits, h.le⟩⟩

theorem CohDb.reader {db : Bytes → Option Bytes} : CohDb (readerCfg c) Hp db ↔ CohDb c Hp db := by
  unfold CohDb
  simp only [TOk.reader]
  rfl

theorem coh_empty (db : Bytes → Option Bytes) : Coh c Hp ⟨fun _ => none, fun _ => none, [], db⟩ := by
  intro d b hb
  rcases hb with hb | hb <;> cases hb

/-- A proof at a position of a tree: an error, or the proof of the tree; no error if every batch is there when it is loaded. -/
theorem viewProof_spec (hA : NoAccident c.H Hp) (hn : c.n = 256) (key : Key) (views : Views) (hv : ∀ h, CohDb c Hp (views h)) : ∀ (h i : Nat) (root : Bytes) (t : Node) (b : Batch) (ix : Nat),
    Seek c Hp h i root t b ix ⟨fun _ => none, fun _ => none, [], views h⟩ →
    (viewProof c views h root key b ix = none ∨ viewProof c views h root key b ix = some (Smt.merkleProof c.H 256 h t key)) ∧
    (AllB (fun h u => DbAvail c (views h) h u) h t → viewProof c views h root key b ix ≠ none) := by
  intro h
  induction h with
  | zero =>
    intro i root t b ix hl
    by_cases hne : t = .empty
    · subst hne
      rw [viewProof, (rootOk_empty hl.rootOk rfl).1]
      exact ⟨Or.inr (by simp [Smt.merkleProof]), fun _ => by simp⟩
    · obtain ⟨_, _, h3⟩ := rootOk_hash hA hl.rootOk hne
      rw [viewProof, if_neg h3]
      unfold loadChildren
      rw [if_pos rfl, if_neg h3]
      cases t with
      | empty => exact absurd rfl hne
      | node => have := hl.tok.fits; simp [Fits] at this
      | leaf k v =>
        have hsz : k.length = 32 ∧ v.length = 32 := hl.tok.sized
        rcases loadBatch_sound hA hl.coh hl.cohDb hl.tok hne hl.rootOk with e | ⟨b1, s1, e1, e2, e3, e4⟩
        · rw [e]
          refine ⟨Or.inl rfl, fun hav => ?_⟩
          have hav' : Avail c ⟨fun _ => none, fun _ => none, [], views 0⟩ 0 (.leaf k v) := Or.inr (hav rfl)
          obtain ⟨b1, s1, e1, _⟩ := loadBatch_ok hA hl.coh hl.tok hne hav' hl.rootOk
          rw [e] at e1; cases e1
        · rw [e1]
          dsimp only
          rw [if_pos (by simp), e2.shape.1, e2.shape.2.1, leafProof, take_key hsz.1, take_key hsz.2]
          exact ⟨Or.inr (by simp [Smt.merkleProof]), fun _ => by simp⟩
  | succ g ih =>
    intro i root t b ix hl
    by_cases hne : t = .empty
    · subst hne
      rw [viewProof, (rootOk_empty hl.rootOk rfl).1]
      exact ⟨Or.inr (by simp [Smt.merkleProof]), fun _ => by simp⟩
    · obtain ⟨_, _, h3⟩ := rootOk_hash hA hl.rootOk hne
      rw [viewProof, if_neg h3]
      rcases load_sound hA hl with e | ⟨ld, e1, e2⟩
      · rw [e]
        refine ⟨Or.inl rfl, fun hav => ?_⟩
        exfalso
        have hload : loadBatch c root (g + 1) ⟨fun _ => none, fun _ => none, [], views (g + 1)⟩ = none ∧ (g + 1) % 4 = 0 := by
          unfold loadChildren at e
          split at e
          · rename_i h4
            split at e
            · rename_i h5; exact ⟨h5, h4⟩
            · cases e
          · cases e
        have hav' : DbAvail c (views (g + 1)) (g + 1) t := by
          cases t with
          | empty => exact absurd rfl hne
          | leaf k v => exact hav hload.2
          | node l r => exact hav.1 hload.2
        obtain ⟨b1, s1, f1, _⟩ := loadBatch_ok hA hl.coh hl.tok hne (Or.inr hav') hl.rootOk
        rw [hload.1] at f1; cases f1
      rw [e1]
      dsimp only
      rw [e2.shortcut]
      cases t with
      | empty => exact absurd rfl hne
      | leaf k v =>
        have hsz : k.length = 32 ∧ v.length = 32 := hl.tok.sized
        rw [if_pos (by simp [Node.isLeaf]), e2.l, e2.r, e2.shape.1, e2.shape.2.1, leafProof, take_key hsz.1, take_key hsz.2]
        exact ⟨Or.inr (by simp [Smt.merkleProof]), fun _ => by simp⟩
      | node l r =>
        rw [if_neg (by simp [Node.isLeaf])]
        obtain ⟨k1, k2, k3, k4⟩ := seek_kids hl.tok hl.cohDb e2
        have k1' : Seek c Hp g (i + 1) ld.l l ld.batch (2 * ld.i + 1) ⟨fun _ => none, fun _ => none, [], views g⟩ := ⟨k1.sum, k1.tok, k1.rootOk, k1.batch, coh_empty _, hv g⟩
        have k2' : Seek c Hp g (i + 1) ld.r r ld.batch (2 * ld.i + 2) ⟨fun _ => none, fun _ => none, [], views g⟩ := ⟨k2.sum, k2.tok, k2.rootOk, k2.batch, coh_empty _, hv g⟩
        rw [hn]
        simp only [Smt.merkleProof]
        rw [show g + 1 - 1 = g from rfl]
        split
        · obtain ⟨f1, f2⟩ := ih _ _ _ _ _ k2'
          refine ⟨?_, fun hav => ?_⟩
          · rcases f1 with f | f
            · left; rw [f]; rfl
            · right; rw [f, k3, child_slotOf hA]; rfl
          · have := f2 hav.2.2
            intro h
            exact this (Option.map_eq_none_iff.1 h)
        · obtain ⟨f1, f2⟩ := ih _ _ _ _ _ k1'
          refine ⟨?_, fun hav => ?_⟩
          · rcases f1 with f | f
            · left; rw [f]; rfl
            · right; rw [f, k4, child_slotOf hA]; rfl
          · have := f2 hav.2.1
            intro h
            exact this (Option.map_eq_none_iff.1 h)

/-- With the same table all the time, it is the proof of the trie. -/
theorem viewProof_const (key : Key) (db : Bytes → Option Bytes) : ∀ (h : Nat) (root : Bytes) (b : Batch) (ix : Nat), h < c.lim →
    merkleProof c h root key b ix ⟨fun _ => none, fun _ => none, [], db⟩ = (viewProof c (fun _ => db) h root key b ix).map (fun p => (p, ⟨fun _ => none, fun _ => none, [], db⟩)) := by
  have hload : ∀ (h : Nat) (root : Bytes) (b : Batch) (ix : Nat) (ld : Loaded), h < c.lim → loadChildren c root h ix b ⟨fun _ => none, fun _ => none, [], db⟩ = some ld → ld.st = ⟨fun _ => none, fun _ => none, [], db⟩ := by
    intro h root b ix ld hlt he
    unfold loadChildren at he
    split at he
    · split at he
      · cases he; rfl
      · split at he
        · cases he
        · rename_i b' s' hb
          cases he
          unfold loadBatch at hb
          dsimp only at hb
          split at hb
          · cases hb
          · split at hb
            · cases hb
            · rw [if_neg (by omega)] at hb
              cases hb; rfl
    · cases he; rfl
  intro h
  induction h with
  | zero =>
    intro root b ix hlt
    rw [merkleProof, viewProof]
    split
    · rfl
    · cases hq : loadChildren c root 0 ix b ⟨fun _ => none, fun _ => none, [], db⟩ with
      | none => rfl
      | some ld =>
        dsimp only
        rw [hload _ _ _ _ _ hlt hq, if_pos (by simp), if_pos (by simp)]
        rfl
  | succ g ih =>
    intro root b ix hlt
    rw [merkleProof, viewProof]
    split
    · rfl
    · cases hq : loadChildren c root (g + 1) ix b ⟨fun _ => none, fun _ => none, [], db⟩ with
      | none => rfl
      | some ld =>
        dsimp only
        rw [hload _ _ _ _ _ hlt hq]
        split
        · rfl
        · split
          · rw [ih _ _ _ (by omega)]
            cases viewProof c (fun _ => db) g ld.r key ld.batch (2 * ld.i + 2) <;> rfl
          · rw [ih _ _ _ (by omega)]
            cases viewProof c (fun _ => db) g ld.l key ld.batch (2 * ld.i + 1) <;> rfl

theorem cohDb_writing (hA : NoAccident c.H Hp) {s : St} (hc : Coh c Hp s) (hd : CohDb c Hp s.db) {db : Bytes → Option Bytes} (hw : Writing s db) : CohDb c Hp db := by
  intro d val hv hl
  rcases hw d with h | ⟨b, h1, h2⟩
  · rw [h] at hv; exact hd d val hv hl
  · rw [h2] at hv
    cases hv
    obtain ⟨h, u, a1, a2, a3, a4⟩ := hc d b (Or.inr h1)
    exact ⟨h, u, a1, a2, a3, by rw [good_roundtrip hA.len a1.sized a4]; exact a4⟩

theorem writing_written (s : St) : Writing s (written s) := by
  intro d
  unfold written
  cases h : s.upd d with
  | none => exact Or.inl rfl
  | some b => exact Or.inr ⟨b, rfl, rfl⟩

theorem cohDb_deleting (hA : NoAccident c.H Hp) {s : St} (hc : Coh c Hp s) (hd : CohDb c Hp s.db) {db : Bytes → Option Bytes} (hw : Deleting s db) : CohDb c Hp db := by
  intro d val hv hl
  rcases hw d with h | ⟨_, h⟩
  · rw [h] at hv; exact cohDb_writing hA hc hd (writing_written s) d val hv hl
  · rw [h] at hv; cases hv

/-- Writing rows keeps the batches of the tree at the last Commit. -/
theorem inDb_writing (hA : NoAccident c.H Hp) {s : St} (hc : Coh c Hp s) (hd : CohDb c Hp s.db) {db : Bytes → Option Bytes} (hw : Writing s db) {h : Nat} {t : Node} (ht : TOk c Hp h t) (hi : InDb c s.db h t) : InDb c db h t := by
  refine allB_mono ?_ hi
  rintro h' u hs hne ⟨val, v1, v2, v3⟩
  rcases hw (digest c.H h' u) with e | ⟨b, e1, e2⟩
  · exact ⟨val, by rw [e]; exact v1, v2, v3⟩
  · exact ⟨_, e2, serialize_ne b, cohDb_good hA (cohDb_writing hA hc hd hw) (ht.sub hs) hne e2 (serialize_ne b)⟩

theorem DbAvail.reader {db : Bytes → Option Bytes} {h : Nat} {u : Node} (hd : DbAvail c db h u) : DbAvail (readerCfg c) db h u := hd

/-- All loads of a proof at their own tables. -/
theorem allB_views {views : Views} {h : Nat} {t : Node} (hi : ∀ g, InDb c (views g) h t) : AllB (fun h u => DbAvail c (views h) h u) h t := by
  have : ∀ (t : Node) (h : Nat), (∀ g, InDb c (views g) h t) → AllB (fun h u => DbAvail c (views h) h u) h t := by
    intro t
    induction t with
    | empty => intro h _; trivial
    | leaf k v => intro h hi; exact hi h
    | node l r ihl ihr => intro h hi; exact ⟨fun h4 => (hi h).1 h4, ihl _ (fun g => (hi g).2.1), ihr _ (fun g => (hi g).2.2)⟩
  exact this t h hi

end Fpki.SmtStore
