import Verif.Lemmas.SmtStoreUpdate

/-!
# Reading, and committing updates
-/
namespace Fpki.SmtStore

open Fpki.Smt (Node KVs Key Val byteOf digest preimages AllLeaves Sized NoHole Fits InPre WF ext walk SortedKVs MidDelete KidsOk noPrefix)

variable {c : Cfg} {Hp : Bytes → Prop}

/-! ## Subtrees and paths -/

theorem AllLeaves.and {P Q : Key → Val → Prop} : ∀ {t : Node}, AllLeaves P t → AllLeaves Q t → AllLeaves (fun k v => P k v ∧ Q k v) t
  | .empty, _, _ => trivial
  | .leaf _ _, h1, h2 => ⟨h1, h2⟩
  | .node _ _, h1, h2 => ⟨AllLeaves.and h1.1 h2.1, AllLeaves.and h1.2 h2.2⟩

theorem AllLeaves.of_forall {P : Key → Val → Prop} (h : ∀ k v, P k v) : ∀ {t : Node}, AllLeaves P t
  | .empty => trivial
  | .leaf _ _ => h _ _
  | .node _ _ => ⟨AllLeaves.of_forall h, AllLeaves.of_forall h⟩

/-- The keys of a subtree lead to it. -/
theorem sub_walk {h h' : Nat} {t u : Node} (hs : Sub h t h' u) : ∀ {i : Nat} {q : Nat → Bool}, i + h = 256 → WF 256 i q t → AllLeaves (fun k _ => walk k i (h - h') t = some u) u := by
  induction hs with
  | refl h t => intro i q _ _; exact AllLeaves.of_forall (fun k v => by simp [walk])
  | @left h h' l r u hs ih =>
    intro i q hi hw
    have hi' := hw.1
    have hle := hs.le
    have h1 := ih (i := i + 1) (by omega) hw.2.1
    have h2 := hs.leaves (wf_inpre hw.2.1)
    refine AllLeaves.mono ?_ (AllLeaves.and h1 h2)
    rintro k _ ⟨a, b⟩
    have := (InPre.ext_iff.1 b).2
    rw [show h - h' = (h - 1 - h') + 1 by omega]
    simp only [walk, this]
    exact a
  | @right h h' l r u hs ih =>
    intro i q hi hw
    have hi' := hw.1
    have hle := hs.le
    have h1 := ih (i := i + 1) (by omega) hw.2.2.1
    have h2 := hs.leaves (wf_inpre hw.2.2.1)
    refine AllLeaves.mono ?_ (AllLeaves.and h1 h2)
    rintro k _ ⟨a, b⟩
    have := (InPre.ext_iff.1 b).2
    rw [show h - h' = (h - 1 - h') + 1 by omega]
    simp only [walk, this, if_true]
    exact a

/-- The keys below a path agree with it. -/
theorem walk_agree (key : Key) : ∀ (m i : Nat) (q : Nat → Bool) (t u : Node), walk key i m t = some u → WF 256 i q t →
    AllLeaves (fun k _ => ∀ j, i ≤ j → j < i + m → bitIsSet k j = bitIsSet key j) u ∧ ∀ h, i + h = 256 → Sub h t (h - m) u := by
  intro m
  induction m with
  | zero =>
    intro i q t u h hw
    simp only [walk, Option.some.injEq] at h
    subst h
    exact ⟨AllLeaves.of_forall (fun k v j h1 h2 => by omega), fun h _ => .refl _ _⟩
  | succ m ih =>
    intro i q t u h hw
    cases t with
    | empty => simp [walk] at h
    | leaf k v => simp [walk] at h
    | node l r =>
      simp only [walk] at h
      have hi' := hw.1
      cases hb : bitIsSet key i with
      | true =>
        rw [hb] at h
        simp only [if_true] at h
        obtain ⟨h1, h2⟩ := ih (i + 1) _ r u h hw.2.2.1
        refine ⟨AllLeaves.mono ?_ (AllLeaves.and h1 (Smt.walk_leaves key _ _ _ _ h (wf_inpre hw.2.2.1))), fun g hg => .right ?_⟩
        · rintro k _ ⟨a, b⟩ j hj1 hj2
          by_cases hj : j = i
          · rw [hj, hb]; exact (InPre.ext_iff.1 b).2
          · exact a j (by omega) (by omega)
        · have := h2 (g - 1) (by omega)
          rwa [show g - 1 - m = g - (m + 1) by omega] at this
      | false =>
        rw [hb] at h
        simp only [Bool.false_eq_true, if_false] at h
        obtain ⟨h1, h2⟩ := ih (i + 1) _ l u h hw.2.1
        refine ⟨AllLeaves.mono ?_ (AllLeaves.and h1 (Smt.walk_leaves key _ _ _ _ h (wf_inpre hw.2.1))), fun g hg => .left ?_⟩
        · rintro k _ ⟨a, b⟩ j hj1 hj2
          by_cases hj : j = i
          · rw [hj, hb]; exact (InPre.ext_iff.1 b).2
          · exact a j (by omega) (by omega)
        · have := h2 (g - 1) (by omega)
          rwa [show g - 1 - m = g - (m + 1) by omega] at this

/-- Two keys that differ in the last of 256 bits only. -/
def Twins (k k' : Key) : Prop := k ≠ k' ∧ ∀ j < 255, bitIsSet k j = bitIsSet k' j

/-- Only keys that differ in nothing but the last bit lead to height 0. -/
theorem twin_of_zero {K : Key → Prop} {h h' : Nat} {t u : Node} (hs : Sub h t h' u) (hne : u ≠ .empty) : ∀ {i : Nat} {q : Nat → Bool}, i + h = 256 → h' = 0 → 0 < h → WF 256 i q t → AllLeaves (fun k _ => K k) t →
    ∃ k k', K k ∧ K k' ∧ Twins k k' := by
  induction hs with
  | refl h t => intro i q _ h1 h2; omega
  | @left h h' l r u hs ih =>
    intro i q hi h0 hpos hw hK
    by_cases h1 : h = 1
    · subst h1 h0
      have hfl := wf_fits (h := 0) (by omega) hw.2.1
      have hfr := wf_fits (h := 0) (by omega) hw.2.2.1
      have hul := hs.eq_of_height hfl rfl
      subst hul
      have hw4 := hw.2.2.2
      cases u with
      | empty => exact absurd rfl hne
      | node => simp [Fits] at hfl
      | leaf k v =>
        cases r with
        | empty => exact absurd ⟨rfl, rfl⟩ hw4.2.2
        | node => simp [Fits] at hfr
        | leaf k' v' =>
          have a := InPre.ext_iff.1 (show InPre 256 (ext q i false) (i + 1) k from hw.2.1)
          have b := InPre.ext_iff.1 (show InPre 256 (ext q i true) (i + 1) k' from hw.2.2.1)
          refine ⟨k, k', hK.1, hK.2, ?_, fun j hj => ?_⟩
          · rintro rfl
            have := a.2.symm.trans b.2
            cases this
          · rw [a.1.2 j (by omega), b.1.2 j (by omega)]
    · exact ih hne (i := i + 1) (by omega) h0 (by omega) hw.2.1 hK.1
  | @right h h' l r u hs ih =>
    intro i q hi h0 hpos hw hK
    by_cases h1 : h = 1
    · subst h1 h0
      have hfl := wf_fits (h := 0) (by omega) hw.2.1
      have hfr := wf_fits (h := 0) (by omega) hw.2.2.1
      have hul := hs.eq_of_height hfr rfl
      subst hul
      have hw4 := hw.2.2.2
      cases u with
      | empty => exact absurd rfl hne
      | node => simp [Fits] at hfr
      | leaf k v =>
        cases l with
        | empty => exact absurd ⟨rfl, rfl⟩ hw4.2.1
        | node => simp [Fits] at hfl
        | leaf k' v' =>
          have a := InPre.ext_iff.1 (show InPre 256 (ext q i true) (i + 1) k from hw.2.2.1)
          have b := InPre.ext_iff.1 (show InPre 256 (ext q i false) (i + 1) k' from hw.2.1)
          refine ⟨k, k', hK.2, hK.1, ?_, fun j hj => ?_⟩
          · rintro rfl
            have := a.2.symm.trans b.2
            cases this
          · rw [a.1.2 j (by omega), b.1.2 j (by omega)]
    · exact ih hne (i := i + 1) (by omega) h0 (by omega) hw.2.2.1 hK.2

/-! ## Commit -/

/-- All batches of the tree can be found in the DB. -/
def DbAvail (c : Cfg) (db : Bytes → Option Bytes) (h : Nat) (u : Node) : Prop :=
  ∃ val, db (digest c.H h u) = some val ∧ val.length ≠ 0 ∧ Good c.H h u (Smt.parseBatch val)

def InDb (c : Cfg) (db : Bytes → Option Bytes) (h : Nat) (t : Node) : Prop := AllB (DbAvail c db) h t

theorem stored_of_db {s : St} {h : Nat} {t : Node} (hd : InDb c s.db h t) (hu : ∀ d, s.upd d = none) : Stored c s h t :=
  allB_mono (fun _ _ _ _ h => Or.inr h) hd

/-- A batch among the updated nodes, written. -/
theorem written_upd (hA : NoAccident c.H Hp) {s : St} (hc : Coh c Hp s) {h : Nat} {u : Node} (hu : TOk c Hp h u) (hne : u ≠ .empty) {b : Batch} (hb : s.upd (digest c.H h u) = some b) : DbAvail c (written s) h u := by
  have hg := coh_good hA hc hu hne (Or.inr hb)
  refine ⟨Smt.serializeBatch b, ?_, serialize_ne b, ?_⟩
  · unfold written; rw [hb]
  · rw [good_roundtrip hA.len hu.sized hg]; exact hg

/-- trie_cache.go:84: after the first DB write of Commit everything that could be found is in the DB. -/
theorem written_ok (hA : NoAccident c.H Hp) {s : St} (hc : Coh c Hp s) {h : Nat} {t : Node} (ht : TOk c Hp h t) (hs : Stored c s h t) : InDb c (written s) h t := by
  refine allB_mono ?_ hs
  intro h' u hsub hne hav
  have hu := ht.sub hsub
  cases hb : s.upd (digest c.H h' u) with
  | some b => exact written_upd hA hc hu hne hb
  | none =>
    rcases hav with ⟨b, h1⟩ | ⟨val, h1, h2, h3⟩
    · rw [hb] at h1; cases h1
    · exact ⟨val, by unfold written; rw [hb]; exact h1, h2, h3⟩

/-- What was in the DB still is after the first DB write. -/
theorem written_old (hA : NoAccident c.H Hp) {s : St} (hc : Coh c Hp s) {h : Nat} {t : Node} (ht : TOk c Hp h t) (hs : InDb c s.db h t) : InDb c (written s) h t :=
  written_ok hA hc ht (allB_mono (fun _ _ _ _ h => Or.inr h) hs)

/-- A trie between two updates. -/
structure Idle (c : Cfg) (Hp : Bytes → Prop) (t : Node) (tr : Trie) : Prop where
  wf : WF 256 0 noPrefix t
  leaves : AllLeaves (LP Hp) t
  pre : Pre c.H Hp 256 t
  low : ∀ u, Sub 256 t 0 u → u = .empty
  root : tr.root = if t = .empty then [] else digest c.H 256 t
  indb : InDb c tr.st.db 256 t
  coh : Coh c Hp tr.st
  upd : ∀ d, tr.st.upd d = none
  removed : tr.st.removed = []

theorem Idle.tok {t : Node} {tr : Trie} (h : Idle c Hp t tr) : TOk c Hp 256 t := tok_of (i := 0) (by omega) h.wf h.leaves h.pre

theorem Idle.rootOk {t : Node} {tr : Trie} (h : Idle c Hp t tr) : RootOk c tr.root 256 t := by
  rw [h.root]
  by_cases he : t = .empty
  · rw [if_pos he]; exact Or.inl ⟨he, rfl⟩
  · rw [if_neg he]; exact Or.inr ⟨he, Or.inr ⟨rfl, rfl⟩⟩

/-- An update of a trie. -/
structure Good1 (c : Cfg) (Hp : Bytes → Prop) (t : Node) (kvs : KVs) : Prop where
  sorted : SortedKVs kvs
  ne : kvs ≠ []
  len : ∀ p ∈ kvs, 8 * p.1.length = 256
  mid : ¬ MidDelete 0 t kvs
  eff : Eff 0 t kvs
  kv : ∀ k v, (k, some v) ∈ kvs → LP Hp k v
  pre' : Pre c.H Hp 256 (Smt.update 256 256 t kvs).1
  low' : ∀ u, Sub 256 (Smt.update 256 256 t kvs).1 0 u → u = .empty

theorem Idle.call {t : Node} {tr : Trie} (h : Idle c Hp t tr) {kvs : KVs} (hg : Good1 c Hp t kvs) : Call c Hp 256 0 noPrefix tr.root t kvs [] 0 tr.st :=
  ⟨by omega, h.wf, hg.sorted, hg.ne, fun p hp => Smt.inPre_zero.2 (hg.len p hp), hg.mid, hg.eff, h.leaves, hg.kv, h.pre, hg.pre', fun _ => hg.low', h.rootOk, fun h => absurd rfl h, stored_of_db h.indb h.upd, h.coh⟩

/-- The digests that Commit removes are not those of the new tree. -/
theorem not_removed (hA : NoAccident c.H Hp) {t : Node} {kvs : KVs} (hw : WF 256 0 noPrefix t) (ht : TOk c Hp 256 t) (hlow : ∀ u, Sub 256 t 0 u → u = .empty) (hg : Good1 c Hp t kvs)
    (hspec : Smt.Spec 256 0 noPrefix t kvs (Smt.update 256 256 t kvs)) (ht' : TOk c Hp 256 (Smt.update 256 256 t kvs).1) {h' : Nat} {u : Node} (hs : Sub 256 (Smt.update 256 256 t kvs).1 h' u) (hne : u ≠ .empty)
    {p : Key × Option Val} (hp : p ∈ kvs) {m : Nat} {u0 : Node} (hwk : walk p.1 0 m t = some u0) (hu0 : u0 ≠ .empty) : digest c.H h' u ≠ digest c.H (256 - m) u0 := by
  intro he
  obtain ⟨hag, hsub⟩ := walk_agree p.1 m 0 noPrefix t u0 hwk hw
  have hsub := hsub 256 (by omega)
  have hu := ht'.sub hs
  have hu0t := ht.sub hsub
  obtain ⟨heq, hh⟩ := digest_height hA hu.sized hu0t.sized hu.pre hu0t.pre hne hu.noHole hu.fits hu0t.fits hu.le hu0t.le he
  subst heq
  have hle := hs.le
  rcases hh with hh | ⟨h1, h2⟩ | ⟨h1, h2⟩
  · have hm : m ≤ 256 ∨ 256 < m := by omega
    rcases hm with hm | hm
    · have hwalk := sub_walk hs (i := 0) (by omega) hspec.wf
      obtain ⟨k, v, a, b⟩ := leaf_exists hu.noHole hne hag hwalk
      have hw' : walk p.1 0 m (Smt.update 256 256 t kvs).1 = some u := by
        rw [← b, show 256 - h' = m by omega]
        exact Smt.walk_congr m 0 _ (fun j h1 h2 => (a j h1 h2).symm)
      have g1 := Smt.get_walk p.1 m 0 t u hwk
      have g2 := Smt.get_walk p.1 m 0 _ u hw'
      apply hg.eff p hp
      rw [g1, ← g2, hspec.get p.1 (Smt.inPre_zero.2 (hg.len p hp)), Smt.applyKVs, (hg.sorted.lookup_eq p.1 p.2).2 hp]
    · rw [show 256 - m = 0 by omega] at hsub
      exact hu0 (hlow u hsub)
  · subst h1
    exact hne (hg.low' u hs)
  · rw [h2] at hsub
    exact hu0 (hlow u hsub)

/-- One Update with its Commit. -/
theorem commit_ok (hA : NoAccident c.H Hp) (hn : c.n = 256) {t : Node} {tr : Trie} (h : Idle c Hp t tr) {kvs : KVs} (hg : Good1 c Hp t kvs) :
    ∃ tr1, tr.update c kvs = some tr1 ∧ Coh c Hp tr1.st ∧ tr1.st.db = tr.st.db ∧ InDb c (written tr1.st) 256 t ∧ InDb c (written tr1.st) 256 (Smt.update 256 256 t kvs).1 ∧
      Idle c Hp (Smt.update 256 256 t kvs).1 tr1.commit := by
  have hcall := h.call hg
  have hspec := hcall.spec
  obtain ⟨ho, ht', ht⟩ := hcall.old hA
  obtain ⟨res, e1, e2, _, e4⟩ := update_ok hA hn 256 0 noPrefix tr.root t kvs [] 0 tr.st hcall
  have hup : tr.update c kvs = some ⟨if res.node.length ≠ 0 then res.node.take 32 else [], res.st⟩ := by
    unfold Trie.update
    have : kvs.isEmpty = false := by simpa using hg.ne
    rw [if_neg (by simp [this]), hn, e1]
  have hdb : res.st.db = tr.st.db := e2.frame.db
  have hnew := written_ok hA e2.coh ht' e2.stored
  refine ⟨_, hup, e2.coh, hdb, ?_, hnew, ?_⟩
  · exact written_old hA e2.coh ht (by rw [hdb]; exact h.indb)
  · refine ⟨hspec.wf, Smt.update_leaves 256 256 t kvs h.leaves hg.kv, hg.pre', hg.low', ?_, ?_, ?_, fun _ => rfl, rfl⟩
    · show (if res.node.length ≠ 0 then res.node.take 32 else []) = _
      rw [e2.node]
      by_cases he : (Smt.update 256 256 t kvs).1 = .empty
      · rw [if_pos he, he]; rfl
      · obtain ⟨_, h2, h3⟩ := rootOk_hash hA (rootOk_slotOf (c := c) 256 (Smt.update 256 256 t kvs).1) he
        rw [if_neg he, if_pos h3, h2]
    · refine allB_mono ?_ hnew
      rintro h' u hs hne ⟨val, v1, v2, v3⟩
      refine ⟨val, ?_, v2, v3⟩
      show erase res.st.removed (written res.st) _ = _
      unfold erase
      rw [if_neg, v1]
      intro hrem
      rcases e4 _ hrem with hr | ⟨p, hp, m, u0, w1, w2, w3⟩
      · rw [h.removed] at hr; cases hr
      · exact not_removed hA h.wf ht h.low hg hspec ht' hs hne hp w1 w2 w3
    · intro d b hb
      rcases hb with hb | hb
      · exact e2.coh d b (Or.inl hb)
      · cases hb

theorem Idle.reset {t : Node} {tr : Trie} (h : Idle c Hp t tr) : Idle c Hp t tr.resetLive :=
  { h with
    coh := fun d b hb => by
      rcases hb with hb | hb
      · cases hb
      · exact h.coh d b (Or.inr hb) }

/-- A new trie on what is in the DB. -/
theorem idle_new {t : Node} {root : Bytes} {db : Bytes → Option Bytes} (hw : WF 256 0 noPrefix t) (hl : AllLeaves (LP Hp) t) (hp : Pre c.H Hp 256 t) (hlow : ∀ u, Sub 256 t 0 u → u = .empty)
    (hr : root = if t = .empty then [] else digest c.H 256 t) (hdb : InDb c db 256 t) : Idle c Hp t (newTrie root db) :=
  ⟨hw, hl, hp, hlow, hr, hdb, (fun d b hb => by rcases hb with hb | hb <;> cases hb), fun _ => rfl, rfl⟩

theorem Idle.restart {t : Node} {tr : Trie} (h : Idle c Hp t tr) : Idle c Hp t (newTrie tr.root tr.st.db) := idle_new h.wf h.leaves h.pre h.low h.root h.indb

/-! ## Reading -/

/-- A call of `get` at a position. -/
structure Look (c : Cfg) (Hp : Bytes → Prop) (h i : Nat) (root : Bytes) (t : Node) (b : Batch) (ix : Nat) (s : St) : Prop where
  sum : i + h = 256
  tok : TOk c Hp h t
  rootOk : RootOk c root h t
  batch : h % 4 ≠ 0 → b.length = 31 ∧ slot b ix = root ∧ Shape c.H (h % 4) b ix h t ∧ 1 ≤ ix ∧ Room (h % 4) ix
  stored : Stored c s h t
  coh : Coh c Hp s

/-- At height 0 there are only leaves. -/
theorem load_zero (hA : NoAccident c.H Hp) {i ix : Nat} {root : Bytes} {t : Node} {b : Batch} {s : St} (hl : Look c Hp 0 i root t b ix s) (hne : t ≠ .empty) :
    ∃ k v b1 s1, t = .leaf k v ∧ loadChildren c root 0 ix b s = some ⟨b1, 0, k ++ [2], v ++ [2], true, s1⟩ ∧ Coh c Hp s1 ∧ SameBut s s1 := by
  cases t with
  | empty => exact absurd rfl hne
  | node => have := hl.tok.fits; simp [Fits] at this
  | leaf k v =>
    obtain ⟨_, _, h3⟩ := rootOk_hash hA hl.rootOk hne
    obtain ⟨b1, s1, e1, e2, e3, e4⟩ := loadBatch_ok hA hl.coh hl.tok hne (stored_avail hl.stored hne rfl) hl.rootOk
    refine ⟨k, v, b1, s1, rfl, ?_, e3, e4⟩
    unfold loadChildren
    rw [if_pos rfl, if_neg h3, e1]
    dsimp only
    rw [e2.flag, e2.shape.1, e2.shape.2.1]
    rfl

theorem look_kids {g i ix : Nat} {l r : Node} {b : Batch} {s : St} {ld : Loaded} (ht : TOk c Hp (g + 1) (.node l r)) (hst : Stored c s (g + 1) (.node l r)) (e2 : LoadOk c Hp g i ix (.node l r) b s ld) :
    Look c Hp g (i + 1) ld.l l ld.batch (2 * ld.i + 1) ld.st ∧ Look c Hp g (i + 1) ld.r r ld.batch (2 * ld.i + 2) ld.st ∧ ld.l = slotOf c.H g l ∧ ld.r = slotOf c.H g r := by
  obtain ⟨h1, h2, h3, h4⟩ := e2.shape
  rw [show g + 1 - 1 = g from rfl] at h1 h2 h3 h4
  have hst' := stored_same e2.same hst
  obtain ⟨_, _, r1, r2⟩ := room_child e2.place.room
  have hs := e2.place.sum
  refine ⟨⟨by omega, ht.left, ?_, fun _ => ⟨e2.len, e2.l.symm, h3, by omega, r1⟩, hst'.2.1, e2.coh⟩, ⟨by omega, ht.right, ?_, fun _ => ⟨e2.len, e2.r.symm, h4, by omega, r2⟩, hst'.2.2, e2.coh⟩, ?_, ?_⟩
  · rw [e2.l, h1]; exact rootOk_slotOf _ _
  · rw [e2.r, h2]; exact rootOk_slotOf _ _
  · rw [e2.l, h1]
  · rw [e2.r, h2]

theorem SameBut.trans {s1 s2 s3 : St} (h1 : SameBut s1 s2) (h2 : SameBut s2 s3) : SameBut s1 s3 := ⟨h2.upd.trans h1.upd, h2.db.trans h1.db, h2.removed.trans h1.removed⟩

/-- trie_tools.go:85-109 reads the tree. -/
theorem get_ok (hA : NoAccident c.H Hp) (hn : c.n = 256) (key : Key) : ∀ (h i : Nat) (root : Bytes) (t : Node) (b : Batch) (ix : Nat) (s : St), Look c Hp h i root t b ix s →
    ∃ s', get c h root key b ix s = some (Smt.get i t key, s') ∧ Coh c Hp s' ∧ SameBut s s' := by
  intro h
  induction h with
  | zero =>
    intro i root t b ix s hl
    by_cases hne : t = .empty
    · subst hne
      rw [get, (rootOk_empty hl.rootOk rfl).1]
      exact ⟨s, rfl, hl.coh, ⟨rfl, rfl, rfl⟩⟩
    · obtain ⟨_, _, h3⟩ := rootOk_hash hA hl.rootOk hne
      obtain ⟨k, v, b1, s1, rfl, e1, e2, e3⟩ := load_zero hA hl hne
      have hsz : k.length = 32 ∧ v.length = 32 := hl.tok.sized
      rw [get, if_neg h3, e1]
      dsimp only
      rw [if_pos rfl, take_key hsz.1, take_key hsz.2]
      exact ⟨s1, rfl, e2, e3⟩
  | succ g ih =>
    intro i root t b ix s hl
    by_cases hne : t = .empty
    · subst hne
      rw [get, (rootOk_empty hl.rootOk rfl).1]
      exact ⟨s, rfl, hl.coh, ⟨rfl, rfl, rfl⟩⟩
    · obtain ⟨_, _, h3⟩ := rootOk_hash hA hl.rootOk hne
      obtain ⟨ld, e1, e2⟩ := load_ok hA hl.sum hl.tok hl.rootOk hl.batch hl.stored hl.coh
      rw [get, if_neg h3, e1]
      dsimp only
      rw [e2.shortcut]
      cases t with
      | empty => exact absurd rfl hne
      | leaf k v =>
        have hsz : k.length = 32 ∧ v.length = 32 := hl.tok.sized
        rw [if_pos (show (Node.leaf k v).isLeaf = true from rfl), e2.l, e2.r, e2.shape.1, e2.shape.2.1, take_key hsz.1, take_key hsz.2]
        exact ⟨ld.st, rfl, e2.coh, e2.same⟩
      | node l r =>
        rw [if_neg (by simp [Node.isLeaf])]
        obtain ⟨k1, k2, _, _⟩ := look_kids hl.tok hl.stored e2
        rw [hn, show 256 - (g + 1) = i by have := hl.sum; omega, Smt.get_node]
        split
        · obtain ⟨s', f1, f2, f3⟩ := ih _ _ _ _ _ _ k2
          exact ⟨s', f1, f2, e2.same.trans f3⟩
        · obtain ⟨s', f1, f2, f3⟩ := ih _ _ _ _ _ _ k1
          exact ⟨s', f1, f2, e2.same.trans f3⟩

theorem Idle.look {t : Node} {tr : Trie} (h : Idle c Hp t tr) : Look c Hp 256 0 tr.root t [] 0 tr.st :=
  ⟨by omega, h.tok, h.rootOk, fun h => absurd rfl h, stored_of_db h.indb h.upd, h.coh⟩

theorem Idle.get (hA : NoAccident c.H Hp) (hn : c.n = 256) {t : Node} {tr : Trie} (h : Idle c Hp t tr) (key : Key) : ∃ s', tr.get c key = some (Smt.get 0 t key, s') := by
  obtain ⟨s', h1, _, _⟩ := get_ok hA hn key 256 0 tr.root t [] 0 tr.st h.look
  exact ⟨s', by unfold Trie.get; rw [hn]; exact h1⟩

/-- trie_merkle_proof.go:80-128 computes the proof of the tree. -/
theorem merkleProof_ok (hA : NoAccident c.H Hp) (hn : c.n = 256) (key : Key) : ∀ (h i : Nat) (root : Bytes) (t : Node) (b : Batch) (ix : Nat) (s : St), Look c Hp h i root t b ix s →
    ∃ s', merkleProof c h root key b ix s = some (Smt.merkleProof c.H 256 h t key, s') ∧ Coh c Hp s' ∧ SameBut s s' := by
  intro h
  induction h with
  | zero =>
    intro i root t b ix s hl
    by_cases hne : t = .empty
    · subst hne
      rw [merkleProof, (rootOk_empty hl.rootOk rfl).1]
      exact ⟨s, by simp [Smt.merkleProof], hl.coh, ⟨rfl, rfl, rfl⟩⟩
    · obtain ⟨_, _, h3⟩ := rootOk_hash hA hl.rootOk hne
      obtain ⟨k, v, b1, s1, rfl, e1, e2, e3⟩ := load_zero hA hl hne
      have hsz : k.length = 32 ∧ v.length = 32 := hl.tok.sized
      rw [merkleProof, if_neg h3, e1]
      dsimp only
      rw [if_pos (by simp), leafProof, take_key hsz.1, take_key hsz.2]
      exact ⟨s1, by simp [Smt.merkleProof], e2, e3⟩
  | succ g ih =>
    intro i root t b ix s hl
    by_cases hne : t = .empty
    · subst hne
      rw [merkleProof, (rootOk_empty hl.rootOk rfl).1]
      exact ⟨s, by simp [Smt.merkleProof], hl.coh, ⟨rfl, rfl, rfl⟩⟩
    · obtain ⟨_, _, h3⟩ := rootOk_hash hA hl.rootOk hne
      obtain ⟨ld, e1, e2⟩ := load_ok hA hl.sum hl.tok hl.rootOk hl.batch hl.stored hl.coh
      rw [merkleProof, if_neg h3, e1]
      dsimp only
      rw [e2.shortcut]
      cases t with
      | empty => exact absurd rfl hne
      | leaf k v =>
        have hsz : k.length = 32 ∧ v.length = 32 := hl.tok.sized
        rw [if_pos (by simp [Node.isLeaf]), e2.l, e2.r, e2.shape.1, e2.shape.2.1, leafProof, take_key hsz.1, take_key hsz.2]
        exact ⟨ld.st, by simp [Smt.merkleProof], e2.coh, e2.same⟩
      | node l r =>
        rw [if_neg (by simp [Node.isLeaf])]
        obtain ⟨k1, k2, k3, k4⟩ := look_kids hl.tok hl.stored e2
        rw [hn]
        simp only [Smt.merkleProof]
        rw [show g + 1 - 1 = g from rfl]
        split
        · obtain ⟨s', f1, f2, f3⟩ := ih _ _ _ _ _ _ k2
          rw [f1]
          exact ⟨s', by rw [k3, child_slotOf hA], f2, e2.same.trans f3⟩
        · obtain ⟨s', f1, f2, f3⟩ := ih _ _ _ _ _ _ k1
          rw [f1]
          exact ⟨s', by rw [k4, child_slotOf hA], f2, e2.same.trans f3⟩

theorem Idle.merkleProof (hA : NoAccident c.H Hp) (hn : c.n = 256) {t : Node} {tr : Trie} (h : Idle c Hp t tr) (key : Key) : ∃ s', tr.merkleProof c key = some (Smt.merkleProof c.H 256 256 t key, s') := by
  obtain ⟨s', h1, _, _⟩ := merkleProof_ok hA hn key 256 0 tr.root t [] 0 tr.st h.look
  exact ⟨s', by unfold Trie.merkleProof; rw [hn]; exact h1⟩

/-- Reading keeps the trie as it is. -/
theorem Idle.read {t : Node} {tr : Trie} {s' : St} (h : Idle c Hp t tr) (hc : Coh c Hp s') (hs : SameBut tr.st s') : Idle c Hp t ⟨tr.root, s'⟩ :=
  { h with indb := by show InDb c s'.db 256 t; rw [hs.db]; exact h.indb, coh := hc, upd := by show ∀ d, s'.upd d = none; rw [hs.upd]; exact h.upd, removed := by show s'.removed = []; rw [hs.removed]; exact h.removed }

end Fpki.SmtStore
