import Verif.Lemmas.SmtStore

/-!
# One step of the trie on batches
-/
namespace Fpki.SmtStore

open Fpki.Smt (Node KVs Key Val byteOf digest preimages AllLeaves Sized NoHole Fits InPre WF ext walk)

/-- A leaf with all the strings that may be hashed for it. -/
def LP (Hp : Bytes → Prop) (k : Key) (v : Val) : Prop := Sized k v ∧ ∀ b, Hp (k ++ v ++ [b])

theorem AllLeaves.mono {P Q : Key → Val → Prop} (h : ∀ k v, P k v → Q k v) : ∀ {t : Node}, AllLeaves P t → AllLeaves Q t
  | .empty, _ => trivial
  | .leaf _ _, ht => h _ _ ht
  | .node _ _, ht => ⟨AllLeaves.mono h ht.1, AllLeaves.mono h ht.2⟩

/-- A tree of height `h` as it appears in the trie. -/
structure TOk (c : Cfg) (Hp : Bytes → Prop) (h : Nat) (t : Node) : Prop where
  leaves : AllLeaves (LP Hp) t
  pre : Pre c.H Hp h t
  noHole : NoHole t
  fits : Fits h t
  le : h ≤ 256

variable {c : Cfg} {Hp : Bytes → Prop}

theorem TOk.sized {h : Nat} {t : Node} (ht : TOk c Hp h t) : AllLeaves Sized t := AllLeaves.mono (fun _ _ h => h.1) ht.leaves

theorem wf_noHole : ∀ {t : Node} {i : Nat} {q : Nat → Bool}, WF 256 i q t → NoHole t
  | .empty, _, _, _ => trivial
  | .leaf _ _, _, _, _ => trivial
  | .node _ _, _, _, h => ⟨h.2.2.2.1, wf_noHole h.2.1, wf_noHole h.2.2.1⟩

theorem wf_fits : ∀ {t : Node} {i h : Nat} {q : Nat → Bool}, i + h = 256 → WF 256 i q t → Fits h t
  | .empty, _, _, _, _, _ => by simp [Fits]
  | .leaf _ _, _, _, _, _, _ => by simp [Fits]
  | .node _ _, i, 0, _, hi, hw => by have := hw.1; omega
  | .node _ _, i, h + 1, _, hi, hw => ⟨wf_fits (i := i + 1) (by omega) hw.2.1, wf_fits (i := i + 1) (by omega) hw.2.2.1⟩

theorem wf_inpre : ∀ {t : Node} {i : Nat} {q : Nat → Bool}, WF 256 i q t → AllLeaves (fun k _ => InPre 256 q i k) t
  | .empty, _, _, _ => trivial
  | .leaf _ _, _, _, h => h
  | .node _ _, _, _, h => ⟨AllLeaves.mono (fun _ _ h => (InPre.ext_iff.1 h).1) (wf_inpre h.2.1), AllLeaves.mono (fun _ _ h => (InPre.ext_iff.1 h).1) (wf_inpre h.2.2.1)⟩

theorem tok_of {t : Node} {i h : Nat} {q : Nat → Bool} (hi : i + h = 256) (hw : WF 256 i q t) (hl : AllLeaves (LP Hp) t) (hp : Pre c.H Hp h t) : TOk c Hp h t :=
  ⟨hl, hp, wf_noHole hw, wf_fits hi hw, by omega⟩

theorem tok_empty {h : Nat} (hh : h ≤ 256) : TOk c Hp h .empty := ⟨trivial, fun x hx => by simp [preimages] at hx, trivial, by simp [Fits], hh⟩

/-- Subtrees with their heights. -/
inductive Sub : Nat → Node → Nat → Node → Prop
  | refl (h : Nat) (t : Node) : Sub h t h t
  | left {h h' : Nat} {l r u : Node} : Sub (h - 1) l h' u → Sub h (.node l r) h' u
  | right {h h' : Nat} {l r u : Node} : Sub (h - 1) r h' u → Sub h (.node l r) h' u

theorem Sub.le {h h' : Nat} {t u : Node} (hs : Sub h t h' u) : h' ≤ h := by
  induction hs with
  | refl => omega
  | left _ ih => omega
  | right _ ih => omega

theorem Sub.eq_of_height {h h' : Nat} {t u : Node} (hs : Sub h t h' u) (hf : Fits h t) (he : h' = h) : u = t := by
  cases hs with
  | refl => rfl
  | left h1 =>
    have := h1.le
    cases h with
    | zero => simp [Fits] at hf
    | succ h => omega
  | right h1 =>
    have := h1.le
    cases h with
    | zero => simp [Fits] at hf
    | succ h => omega

theorem TOk.left {h : Nat} {l r : Node} (ht : TOk c Hp h (.node l r)) : TOk c Hp (h - 1) l := by
  refine ⟨ht.leaves.1, ht.pre.left, ht.noHole.2.1, ?_, by have := ht.le; omega⟩
  have := ht.fits
  cases h with
  | zero => simp [Fits] at this
  | succ h => exact this.1

theorem TOk.right {h : Nat} {l r : Node} (ht : TOk c Hp h (.node l r)) : TOk c Hp (h - 1) r := by
  refine ⟨ht.leaves.2, ht.pre.right, ht.noHole.2.2, ?_, by have := ht.le; omega⟩
  have := ht.fits
  cases h with
  | zero => simp [Fits] at this
  | succ h => exact this.2

theorem TOk.sub {h h' : Nat} {t u : Node} (ht : TOk c Hp h t) (hs : Sub h t h' u) : TOk c Hp h' u := by
  induction hs with
  | refl => exact ht
  | left _ ih => exact ih ht.left
  | right _ ih => exact ih ht.right

theorem Sub.leaves {P : Key → Val → Prop} {h h' : Nat} {t u : Node} (hs : Sub h t h' u) (hl : AllLeaves P t) : AllLeaves P u := by
  induction hs with
  | refl => exact hl
  | left _ ih => exact ih hl.1
  | right _ ih => exact ih hl.2

/-! ## What is stored -/

/-- `P` holds of every subtree that is the root of a batch. -/
def AllB (P : Nat → Node → Prop) : Nat → Node → Prop
  | _, .empty => True
  | h, .leaf k v => h % 4 = 0 → P h (.leaf k v)
  | h, .node l r => (h % 4 = 0 → P h (.node l r)) ∧ AllB P (h - 1) l ∧ AllB P (h - 1) r

theorem allB_mono {P Q : Nat → Node → Prop} : ∀ {t : Node} {h : Nat}, (∀ h' u, Sub h t h' u → u ≠ .empty → P h' u → Q h' u) → AllB P h t → AllB Q h t
  | .empty, _, _, _ => trivial
  | .leaf k v, h, hpq, ht => fun h4 => hpq h _ (.refl _ _) (by simp) (ht h4)
  | .node l r, h, hpq, ht => ⟨fun h4 => hpq h _ (.refl _ _) (by simp) (ht.1 h4), allB_mono (fun h' u hs => hpq h' u (.left hs)) ht.2.1, allB_mono (fun h' u hs => hpq h' u (.right hs)) ht.2.2⟩

/-- The batch of `u` is among the updated nodes or in the DB. -/
def Avail (c : Cfg) (s : St) (h : Nat) (u : Node) : Prop :=
  (∃ b, s.upd (digest c.H h u) = some b) ∨ (∃ val, s.db (digest c.H h u) = some val ∧ val.length ≠ 0 ∧ Good c.H h u (Smt.parseBatch val))

/-- All batches of the tree can be found. -/
def Stored (c : Cfg) (s : St) (h : Nat) (t : Node) : Prop := AllB (Avail c s) h t

/-- Every batch in the caches is the batch of the tree with its digest. -/
def Coh (c : Cfg) (Hp : Bytes → Prop) (s : St) : Prop :=
  ∀ d b, (s.live d = some b ∨ s.upd d = some b) → ∃ h u, TOk c Hp h u ∧ u ≠ .empty ∧ d = digest c.H h u ∧ Good c.H h u b

theorem coh_good (hA : NoAccident c.H Hp) {s : St} (hc : Coh c Hp s) {h : Nat} {t : Node} (ht : TOk c Hp h t) (hne : t ≠ .empty) {b : Batch}
    (hb : s.live (digest c.H h t) = some b ∨ s.upd (digest c.H h t) = some b) : Good c.H h t b := by
  obtain ⟨h', u, hu, hune, he, hg⟩ := hc _ b hb
  obtain ⟨rfl, hh⟩ := digest_height hA ht.sized hu.sized ht.pre hu.pre hne ht.noHole ht.fits hu.fits ht.le hu.le he
  rcases hh with rfl | ⟨rfl, rfl⟩ | ⟨rfl, rfl⟩
  · exact hg
  · have := ht.fits
    cases t with
    | empty => exact absurd rfl hne
    | leaf k v => exact good_leaf hg
    | node l r => simp [Fits] at this
  · have := hu.fits
    cases t with
    | empty => exact absurd rfl hne
    | leaf k v => exact good_leaf hg
    | node l r => simp [Fits] at this

/-- A node as `update` gets it: nil, digest and flag, or (the root of the trie) only the digest. -/
def RootOk (c : Cfg) (root : Bytes) (h : Nat) (t : Node) : Prop :=
  (t = .empty ∧ root = []) ∨ (t ≠ .empty ∧ (root = slotOf c.H h t ∨ (h = 256 ∧ root = digest c.H h t)))

theorem slotOf_eq {H : Bytes → Bytes} {h : Nat} {t : Node} (hne : t ≠ .empty) : ∃ f : Byte, slotOf H h t = digest H h t ++ [f] ∧ (f = 1 ↔ t.isLeaf = true) := by
  cases t with
  | empty => exact absurd rfl hne
  | leaf k v => exact ⟨1, rfl, by simp [Node.isLeaf]⟩
  | node l r => exact ⟨0, rfl, by simp [Node.isLeaf]⟩

theorem rootOk_hash (hA : NoAccident c.H Hp) {root : Bytes} {h : Nat} {t : Node} (hr : RootOk c root h t) (hne : t ≠ .empty) :
    toHash root = digest c.H h t ∧ root.take 32 = digest c.H h t ∧ root.length ≠ 0 := by
  have hl := digest_length hA.len (h := h) hne
  rcases hr with ⟨h1, _⟩ | ⟨_, h2⟩
  · exact absurd h1 hne
  rcases h2 with rfl | ⟨_, rfl⟩
  · obtain ⟨f, hf, _⟩ := slotOf_eq (H := c.H) (h := h) hne
    rw [hf]
    refine ⟨?_, ?_, by simp⟩
    · unfold toHash; rw [List.append_assoc, List.take_append_of_le_length (by omega), List.take_of_length_le (by omega)]
    · rw [List.take_append_of_le_length (by omega), List.take_of_length_le (by omega)]
  · refine ⟨?_, ?_, by omega⟩
    · unfold toHash; rw [List.take_append_of_le_length (by omega), List.take_of_length_le (by omega)]
    · rw [List.take_of_length_le (by omega)]

theorem rootOk_empty {root : Bytes} {h : Nat} {t : Node} (hr : RootOk c root h t) (he : t = .empty) : root = [] ∧ toHash root = List.replicate 32 0 := by
  rcases hr with ⟨_, h2⟩ | ⟨h1, _⟩
  · exact ⟨h2, by rw [h2]; rfl⟩
  · exact absurd he h1

/-- The digests that belong to the subtree at a position. -/
def Own (c : Cfg) (Hp : Bytes → Prop) (i : Nat) (q : Nat → Bool) (d : Bytes) : Prop :=
  ∃ h u, TOk c Hp h u ∧ u ≠ .empty ∧ AllLeaves (fun k _ => InPre 256 q i k) u ∧ d = digest c.H h u

theorem leaf_exists : ∀ {t : Node}, NoHole t → t ≠ .empty → ∀ {P Q : Key → Val → Prop}, AllLeaves P t → AllLeaves Q t → ∃ k v, P k v ∧ Q k v
  | .empty, _, hne, _, _, _, _ => absurd rfl hne
  | .leaf k v, _, _, _, _, hp, hq => ⟨k, v, hp, hq⟩
  | .node l r, hn, _, P, Q, hp, hq => by
    by_cases hl : l = .empty
    · exact leaf_exists hn.2.2 (fun hr => hn.1 ⟨hl, hr⟩) hp.2 hq.2
    · exact leaf_exists hn.2.1 hl hp.1 hq.1

theorem own_disj (hA : NoAccident c.H Hp) {i : Nat} {q : Nat → Bool} {d : Bytes} (h1 : Own c Hp (i + 1) (ext q i false) d) (h2 : Own c Hp (i + 1) (ext q i true) d) : False := by
  obtain ⟨a, u, hu, hune, hul, hd⟩ := h1
  obtain ⟨b, w, hw, _, hwl, hd'⟩ := h2
  obtain ⟨rfl, _⟩ := digest_inj' hA u w a b hu.sized hw.sized hu.pre hw.pre (hd.symm.trans hd')
  obtain ⟨k, v, hk1, hk2⟩ := leaf_exists hu.noHole hune hul hwl
  have e1 := (InPre.ext_iff.1 hk1).2
  have e2 := (InPre.ext_iff.1 hk2).2
  rw [e1] at e2; cases e2

theorem own_up {i : Nat} {q : Nat → Bool} {b : Bool} {d : Bytes} (h : Own c Hp (i + 1) (ext q i b) d) : Own c Hp i q d := by
  obtain ⟨a, u, hu, hune, hul, hd⟩ := h
  exact ⟨a, u, hu, hune, AllLeaves.mono (fun _ _ h => (InPre.ext_iff.1 h).1) hul, hd⟩

theorem own_sub {h h' i : Nat} {q : Nat → Bool} {t u : Node} (ht : TOk c Hp h t) (hw : AllLeaves (fun k _ => InPre 256 q i k) t) (hs : Sub h t h' u) (hne : u ≠ .empty) : Own c Hp i q (digest c.H h' u) :=
  ⟨h', u, ht.sub hs, hne, hs.leaves hw, rfl⟩

/-- Only digests of the position (and the hash that stands for nil) are touched. -/
structure Frame (c : Cfg) (Hp : Bytes → Prop) (i : Nat) (q : Nat → Bool) (s s' : St) : Prop where
  db : s'.db = s.db
  upd : ∀ d, d ≠ List.replicate 32 0 → ¬ Own c Hp i q d → s'.upd d = s.upd d

theorem Frame.refl {i : Nat} {q : Nat → Bool} (s : St) : Frame c Hp i q s s := ⟨rfl, fun _ _ _ => rfl⟩

theorem Frame.trans {i : Nat} {q : Nat → Bool} {s1 s2 s3 : St} (h1 : Frame c Hp i q s1 s2) (h2 : Frame c Hp i q s2 s3) : Frame c Hp i q s1 s3 :=
  ⟨h2.db.trans h1.db, fun d hd ho => (h2.upd d hd ho).trans (h1.upd d hd ho)⟩

theorem Frame.up {i : Nat} {q : Nat → Bool} {b : Bool} {s s' : St} (h : Frame c Hp (i + 1) (ext q i b) s s') : Frame c Hp i q s s' :=
  ⟨h.db, fun d hd ho => h.upd d hd (fun h' => ho (own_up h'))⟩

theorem stored_of {s s' : St} {h : Nat} {t : Node} (hdb : s'.db = s.db) (hu : ∀ h' u, Sub h t h' u → u ≠ .empty → (s'.upd (digest c.H h' u) = s.upd (digest c.H h' u) ∨ ∃ b, s'.upd (digest c.H h' u) = some b))
    (hs : Stored c s h t) : Stored c s' h t := by
  refine allB_mono ?_ hs
  intro h' u hsub hne hav
  rcases hu h' u hsub hne with h1 | h1
  · rcases hav with ⟨b, hb⟩ | ⟨val, hv⟩
    · exact Or.inl ⟨b, h1.trans hb⟩
    · exact Or.inr ⟨val, by rw [hdb]; exact hv⟩
  · exact Or.inl h1

/-- What is stored elsewhere stays. -/
theorem stored_frame (hA : NoAccident c.H Hp) {i : Nat} {q : Nat → Bool} {b : Bool} {s s' : St} {h : Nat} {t : Node} (hf : Frame c Hp (i + 1) (ext q i b) s s') (ht : TOk c Hp h t)
    (hl : AllLeaves (fun k _ => InPre 256 (ext q i (!b)) (i + 1) k) t) (hs : Stored c s h t) : Stored c s' h t := by
  refine stored_of hf.db ?_ hs
  intro h' u hsub hne
  left
  apply hf.upd _ (digest_ne_zero hA hne (ht.sub hsub).pre)
  intro ho
  have ho' := own_sub ht hl hsub hne
  cases b with
  | false => exact own_disj hA ho ho'
  | true => exact own_disj hA ho' ho

/-! ## Loading -/

/-- The parts of the state that loading does not change. -/
structure SameBut (s s' : St) : Prop where
  upd : s'.upd = s.upd
  db : s'.db = s.db
  removed : s'.removed = s.removed

theorem stored_same {s s' : St} (hs : SameBut s s') {h : Nat} {t : Node} (h1 : Stored c s h t) : Stored c s' h t :=
  stored_of hs.db (fun _ _ _ _ => Or.inl (by rw [hs.upd])) h1

theorem loadBatch_ok (hA : NoAccident c.H Hp) {s : St} (hc : Coh c Hp s) {h : Nat} {t : Node} (ht : TOk c Hp h t) (hne : t ≠ .empty) (hav : Avail c s h t) {root : Bytes} (hr : RootOk c root h t) :
    ∃ b s', loadBatch c root h s = some (b, s') ∧ Good c.H h t b ∧ Coh c Hp s' ∧ SameBut s s' := by
  obtain ⟨h1, h2, _⟩ := rootOk_hash hA hr hne
  unfold loadBatch
  rw [h1, h2]
  cases hl : s.live (digest c.H h t) with
  | some b => exact ⟨b, s, rfl, coh_good hA hc ht hne (Or.inl hl), hc, ⟨rfl, rfl, rfl⟩⟩
  | none =>
    dsimp only
    cases hu : s.upd (digest c.H h t) with
    | some b => exact ⟨b, s, rfl, coh_good hA hc ht hne (Or.inr hu), hc, ⟨rfl, rfl, rfl⟩⟩
    | none =>
      dsimp only
      rcases hav with ⟨b, hb⟩ | ⟨val, hv, hlen, hg⟩
      · rw [hu] at hb; cases hb
      · rw [hv]
        dsimp only
        rw [if_neg hlen]
        split
        · refine ⟨_, _, rfl, hg, ?_, ⟨rfl, rfl, rfl⟩⟩
          intro d b hb
          dsimp only [mapSet] at hb
          by_cases hd : d = digest c.H h t
          · rw [if_pos hd] at hb
            rcases hb with hb | hb
            · cases hb
              exact ⟨h, t, ht, hne, hd, hg⟩
            · exact hc d b (Or.inr hb)
          · rw [if_neg hd] at hb
            exact hc d b hb
        · exact ⟨_, _, rfl, hg, hc, ⟨rfl, rfl, rfl⟩⟩

/-! ## Storing -/

theorem coh_delete {s : St} (hc : Coh c Hp s) (root : Bytes) (h : Nat) (mv : Bool) : Coh c Hp (deleteOldNode c root h mv s) := by
  intro d b hb
  apply hc d b
  unfold deleteOldNode at hb
  dsimp only at hb
  rcases hb with hb | hb
  · left
    split at hb
    · unfold mapSet at hb
      by_cases hd : d = toHash root
      · rw [if_pos hd] at hb; cases hb
      · rwa [if_neg hd] at hb
    · exact hb
  · right
    split at hb
    · unfold mapSet at hb
      by_cases hd : d = toHash root
      · rw [if_pos hd] at hb; cases hb
      · rwa [if_neg hd] at hb
    · exact hb

theorem delete_upd (root : Bytes) (h : Nat) (mv : Bool) (s : St) {d : Bytes} (hd : d ≠ toHash root) : (deleteOldNode c root h mv s).upd d = s.upd d := by
  unfold deleteOldNode
  dsimp only
  split
  · simp [mapSet, hd]
  · rfl

/-- Deleting the old node of a position. -/
theorem frame_delete (hA : NoAccident c.H Hp) {i : Nat} {q : Nat → Bool} {h h' : Nat} {t : Node} {root : Bytes} (hr : RootOk c root h t) (ht : TOk c Hp h t)
    (hl : AllLeaves (fun k _ => InPre 256 q i k) t) (mv : Bool) (s : St) : Frame c Hp i q s (deleteOldNode c root h' mv s) := by
  refine ⟨rfl, fun d hd ho => delete_upd root h' mv s ?_⟩
  by_cases hne : t = .empty
  · rw [(rootOk_empty hr hne).2]; exact hd
  · rw [(rootOk_hash hA hr hne).1]
    rintro rfl
    exact ho ⟨h, t, ht, hne, hl, rfl⟩

/-- The new tree of a position has no batch with the digest of the old one. -/
def Fresh (c : Cfg) (h : Nat) (told tnew : Node) : Prop := told ≠ .empty → ∀ h' u, Sub h tnew h' u → u ≠ .empty → digest c.H h' u ≠ digest c.H h told

theorem fresh_hash (hA : NoAccident c.H Hp) {h : Nat} {told tnew : Node} (hf : Fresh c h told tnew) {root : Bytes} (hr : RootOk c root h told) (htn : TOk c Hp h tnew)
    {h' : Nat} {u : Node} (hs : Sub h tnew h' u) (hne : u ≠ .empty) : digest c.H h' u ≠ toHash root := by
  by_cases ho : told = .empty
  · rw [(rootOk_empty hr ho).2]; exact digest_ne_zero hA hne (htn.sub hs).pre
  · rw [(rootOk_hash hA hr ho).1]; exact hf ho h' u hs hne

theorem toHash_slotOf (hA : NoAccident c.H Hp) {h : Nat} {t : Node} (hne : t ≠ .empty) : toHash (slotOf c.H h t) = digest c.H h t :=
  (rootOk_hash hA (root := slotOf c.H h t) (Or.inr ⟨hne, Or.inl rfl⟩) hne).1

theorem storeNode_ok (hA : NoAccident c.H Hp) {h : Nat} {told tnew : Node} {b : Batch} {root : Bytes} {s : St} (hb : Good c.H h tnew b) (htn : TOk c Hp h tnew) (hne : tnew ≠ .empty)
    (hr : RootOk c root h told) (hf : Fresh c h told tnew) (hc : Coh c Hp s) :
    let s' := storeNode c b (slotOf c.H h tnew) root h s
    Coh c Hp s' ∧ s'.db = s.db ∧ s'.removed = s.removed ∧ s'.upd (digest c.H h tnew) = some b ∧ ∀ d, d ≠ digest c.H h tnew → d ≠ toHash root → s'.upd d = s.upd d := by
  have hdn : digest c.H h tnew ≠ toHash root := fresh_hash hA hf hr htn (.refl _ _) hne
  have hth := toHash_slotOf hA (h := h) hne
  have hneq : slotOf c.H h tnew ≠ root := by
    intro he
    rw [he] at hth
    exact hdn hth.symm
  intro s'
  have hs' : s' = deleteOldNode c root h false { s with upd := mapSet s.upd (digest c.H h tnew) (some b), live := if c.lim ≤ h then mapSet s.live (digest c.H h tnew) (some b) else s.live } := by
    show storeNode c b (slotOf c.H h tnew) root h s = _
    unfold storeNode
    rw [if_neg hneq, hth]
  rw [hs']
  refine ⟨?_, rfl, rfl, ?_, ?_⟩
  · apply coh_delete
    intro d b' hb'
    dsimp only at hb'
    by_cases hd : d = digest c.H h tnew
    · refine ⟨h, tnew, htn, hne, hd, ?_⟩
      rcases hb' with hb' | hb'
      · split at hb'
        · simp only [mapSet, hd, if_true] at hb'
          cases hb'; exact hb
        · rw [hd] at hb'; exact coh_good hA hc htn hne (Or.inl hb')
      · simp only [mapSet, hd, if_true] at hb'
        cases hb'; exact hb
    · apply hc d b'
      rcases hb' with hb' | hb'
      · left
        split at hb'
        · simpa only [mapSet, hd, if_false] using hb'
        · exact hb'
      · right
        simpa only [mapSet, hd, if_false] using hb'
  · rw [delete_upd _ _ _ _ hdn]
    simp [mapSet]
  · intro d h1 h2
    rw [delete_upd _ _ _ _ h2]
    simp [mapSet, h1]

end Fpki.SmtStore
