import Verif.Lemmas.SmtStoreJoin

/-!
# `update` on batches computes the update of the tree
-/
namespace Fpki.SmtStore

open Fpki.Smt (Node KVs Key Val byteOf digest preimages AllLeaves Sized NoHole Fits InPre WF ext walk SortedKVs MidDelete KidsOk)

variable {c : Cfg} {Hp : Bytes → Prop}

/-- Every pair of the update changes the map. -/
def Eff (i : Nat) (t : Node) (kvs : KVs) : Prop := ∀ p ∈ kvs, Smt.get i t p.1 ≠ p.2

/-- A call of `update` at a position. -/
structure Call (c : Cfg) (Hp : Bytes → Prop) (h i : Nat) (q : Nat → Bool) (root : Bytes) (t : Node) (kvs : KVs) (b : Batch) (ix : Nat) (s : St) : Prop where
  sum : i + h = 256
  wf : WF 256 i q t
  sorted : SortedKVs kvs
  ne : kvs ≠ []
  inpre : ∀ p ∈ kvs, InPre 256 q i p.1
  mid : ¬ MidDelete i t kvs
  eff : Eff i t kvs
  leaves : AllLeaves (LP Hp) t
  kv : ∀ k v, (k, some v) ∈ kvs → LP Hp k v
  pre : Pre c.H Hp h t
  pre' : Pre c.H Hp h (Smt.update 256 h t kvs).1
  twin : h = 256 → ∀ u, Sub h (Smt.update 256 h t kvs).1 0 u → u = .empty
  rootOk : RootOk c root h t
  batch : h % 4 ≠ 0 → b.length = 31 ∧ slot b ix = root ∧ Shape c.H (h % 4) b ix h t ∧ 1 ≤ ix ∧ Room (h % 4) ix
  stored : Stored c s h t
  coh : Coh c Hp s

/-- Where the removed digests come from: from nodes on the paths of the keys. -/
def RemOk (c : Cfg) (h i : Nat) (t : Node) (kvs : KVs) (s s' : St) : Prop :=
  ∀ d ∈ s'.removed, d ∈ s.removed ∨ ∃ p ∈ kvs, ∃ m u, walk p.1 i m t = some u ∧ u ≠ .empty ∧ d = digest c.H (h - m) u

/-- What a call guarantees. -/
def Done (c : Cfg) (Hp : Bytes → Prop) (h i : Nat) (q : Nat → Bool) (t : Node) (kvs : KVs) (b : Batch) (ix : Nat) (s : St) (r : Option Res) : Prop :=
  ∃ res, r = some res ∧ Out c Hp h i q s (Smt.update 256 h t kvs).1 (Smt.update 256 h t kvs).2 res ∧ (b.length = 31 → BOut c (h % 4) ix h b (Smt.update 256 h t kvs).1 res.batch) ∧ RemOk c h i t kvs s res.st

theorem Call.spec {h i ix : Nat} {q : Nat → Bool} {root : Bytes} {t : Node} {kvs : KVs} {b : Batch} {s : St} (hc : Call c Hp h i q root t kvs b ix s) : Smt.Spec 256 i q t kvs (Smt.update 256 h t kvs) :=
  Smt.update_spec 256 h i q t kvs hc.sum hc.wf hc.sorted hc.ne hc.inpre hc.mid

theorem eff_ne {i : Nat} {q : Nat → Bool} {t t' : Node} {kvs : KVs} (hs : SortedKVs kvs) (hne : kvs ≠ []) (hp : ∀ p ∈ kvs, InPre 256 q i p.1) (he : Eff i t kvs)
    (hg : ∀ k, InPre 256 q i k → Smt.get i t' k = Smt.applyKVs (Smt.get i t) kvs k) : t' ≠ t := by
  rintro rfl
  obtain ⟨p, hpm⟩ := List.exists_mem_of_ne_nil kvs hne
  have h1 := hg p.1 (hp p hpm)
  apply he p hpm
  rw [h1, Smt.applyKVs, (hs.lookup_eq p.1 p.2).2 hpm]

theorem fresh_of (hA : NoAccident c.H Hp) {h : Nat} {t t' : Node} (ht : TOk c Hp h t) (ht' : TOk c Hp h t') (hne : t' ≠ t) (htw : h = 256 → ∀ u, Sub h t' 0 u → u = .empty) : Fresh c h t t' := by
  intro hte h' u hs hu he
  have hsub := ht'.sub hs
  obtain ⟨h1, h2⟩ := digest_height hA ht.sized hsub.sized ht.pre hsub.pre hte ht.noHole ht.fits hsub.fits ht.le hsub.le he.symm
  subst h1
  have hle := hs.le
  rcases h2 with h2 | ⟨h2, h3⟩ | ⟨h2, h3⟩
  · exact hne (hs.eq_of_height ht'.fits h2.symm).symm
  · omega
  · subst h3; exact hu (htw h2 _ hs)

theorem Call.old (hA : NoAccident c.H Hp) {h i ix : Nat} {q : Nat → Bool} {root : Bytes} {t : Node} {kvs : KVs} {b : Batch} {s : St} (hc : Call c Hp h i q root t kvs b ix s) :
    OldOk c Hp h i q root t (Smt.update 256 h t kvs).1 ∧ TOk c Hp h (Smt.update 256 h t kvs).1 ∧ TOk c Hp h t := by
  have h1 := tok_of hc.sum hc.wf hc.leaves hc.pre
  have h2 := tok_of hc.sum hc.spec.wf (Smt.update_leaves 256 h t kvs hc.leaves hc.kv) hc.pre'
  exact ⟨⟨hc.rootOk, h1, wf_inpre hc.wf, fresh_of hA h1 h2 (eff_ne hc.sorted hc.ne hc.inpre hc.eff hc.spec.get) hc.twin⟩, h2, h1⟩

theorem coh_addRemove {root : Bytes} {h : Nat} {s : St} (hc : Coh c Hp s) : Coh c Hp (addRemove root h s) := by
  unfold addRemove; split <;> exact hc

theorem stored_addRemove {root : Bytes} {h h' : Nat} {t : Node} {s : St} (hs : Stored c s h' t) : Stored c (addRemove root h s) h' t := by
  refine stored_of ?_ (fun _ _ _ _ => Or.inl ?_) hs
  · unfold addRemove; split <;> rfl
  · unfold addRemove; split <;> rfl

theorem frame_addRemove {i : Nat} {q : Nat → Bool} (root : Bytes) (h : Nat) (s : St) : Frame c Hp i q s (addRemove root h s) := by
  unfold addRemove
  split
  · exact ⟨rfl, fun _ _ _ => rfl⟩
  · exact .refl _

theorem removed_addRemove {root d : Bytes} {h : Nat} {s : St} (hd : d ∈ (addRemove root h s).removed) : d ∈ s.removed ∨ (d = toHash root ∧ toHash root ≠ List.replicate 32 0) := by
  unfold addRemove at hd
  split at hd
  · rename_i h1
    rcases List.mem_cons.1 hd with h | h
    · exact Or.inr ⟨h, h1.1⟩
    · exact Or.inl h
  · exact Or.inl hd

theorem pre_leaf {h : Nat} {k v : Bytes} (hl : LP Hp k v) : Pre c.H Hp h (.leaf k v) := by
  intro x hx
  simp only [preimages, List.mem_singleton] at hx
  rw [hx]; exact hl.2 _

/-- What is hashed for the children is hashed for the joined tree, or for a leaf that moved. -/
theorem pre_join {g : Nat} {del : Bool} {l r : Node} (hl : AllLeaves (LP Hp) l) (hr : AllLeaves (LP Hp) r) (h : Pre c.H Hp (g + 1) (Smt.join del l r).1) : Pre c.H Hp g l ∧ Pre c.H Hp g r := by
  have hem : Pre c.H Hp g .empty := fun x hx => by simp [preimages] at hx
  unfold Smt.join at h
  cases del with
  | false => exact ⟨h.left, h.right⟩
  | true =>
    simp only [if_true] at h
    split at h
    · exact ⟨hem, hem⟩
    · exact ⟨hem, pre_leaf hr⟩
    · exact ⟨pre_leaf hl, hem⟩
    · exact ⟨h.left, h.right⟩

/-- The children of a position under update. -/
structure Kids (c : Cfg) (Hp : Bytes → Prop) (g i ix : Nat) (q : Nat → Bool) (l r : Node) (b : Batch) (s : St) : Prop where
  len : b.length = 31
  sl : slot b (2 * ix + 1) = slotOf c.H g l
  sr : slot b (2 * ix + 2) = slotOf c.H g r
  shl : Shape c.H (g % 4) b (2 * ix + 1) g l
  shr : Shape c.H (g % 4) b (2 * ix + 2) g r
  wl : WF 256 (i + 1) (ext q i false) l
  wr : WF 256 (i + 1) (ext q i true) r
  ll : AllLeaves (LP Hp) l
  lr : AllLeaves (LP Hp) r
  pl : Pre c.H Hp g l
  pr : Pre c.H Hp g r
  stl : Stored c s g l
  str : Stored c s g r
  coh : Coh c Hp s

/-- The keys of an update below a position. -/
structure Keys (Hp : Bytes → Prop) (i : Nat) (q : Nat → Bool) (l r : Node) (keys : KVs) : Prop where
  sorted : SortedKVs keys
  ne : keys ≠ []
  inpre : ∀ p ∈ keys, InPre 256 q i p.1
  mid : ¬ MidDelete i (.node l r) keys
  eff : Eff i (.node l r) keys
  kv : ∀ k v, (k, some v) ∈ keys → LP Hp k v

theorem rootOk_slotOf (h : Nat) (t : Node) : RootOk c (slotOf c.H h t) h t := by
  by_cases hne : t = .empty
  · exact Or.inl ⟨hne, by rw [hne]; rfl⟩
  · exact Or.inr ⟨hne, Or.inl rfl⟩

theorem call_left {g i ix : Nat} {q : Nat → Bool} {l r : Node} {b : Batch} {s : St} {keys sub : KVs} (hp : Place g i ix) (hk : Kids c Hp g i ix q l r b s) (hy : Keys Hp i q l r keys)
    (hsub : ∀ p ∈ sub, p ∈ keys) (hsort : SortedKVs sub) (hne : sub ≠ []) (hbit : ∀ p ∈ sub, bitIsSet p.1 i = false) (hpre : Pre c.H Hp g (Smt.update 256 g l sub).1) :
    Call c Hp g (i + 1) (ext q i false) (slotOf c.H g l) l sub b (2 * ix + 1) s := by
  obtain ⟨_, _, r1, _⟩ := room_child hp.room
  refine ⟨by have := hp.sum; omega, hk.wl, hsort, hne, fun p h => InPre.ext_iff.2 ⟨hy.inpre p (hsub p h), hbit p h⟩, fun hm => hy.mid (hm.left hsub hbit), ?_, hk.ll,
    fun k v h => hy.kv k v (hsub _ h), hk.pl, hpre, fun h => by have := hp.sum; omega, rootOk_slotOf _ _, fun _ => ⟨hk.len, hk.sl, hk.shl, by omega, r1⟩, hk.stl, hk.coh⟩
  intro p h
  have := hy.eff p (hsub p h)
  rw [Smt.get_node, hbit p h] at this
  exact this

theorem call_right {g i ix : Nat} {q : Nat → Bool} {l r : Node} {b : Batch} {s : St} {keys sub : KVs} (hp : Place g i ix) (hk : Kids c Hp g i ix q l r b s) (hy : Keys Hp i q l r keys)
    (hsub : ∀ p ∈ sub, p ∈ keys) (hsort : SortedKVs sub) (hne : sub ≠ []) (hbit : ∀ p ∈ sub, bitIsSet p.1 i = true) (hpre : Pre c.H Hp g (Smt.update 256 g r sub).1) :
    Call c Hp g (i + 1) (ext q i true) (slotOf c.H g r) r sub b (2 * ix + 2) s := by
  obtain ⟨_, _, _, r2⟩ := room_child hp.room
  refine ⟨by have := hp.sum; omega, hk.wr, hsort, hne, fun p h => InPre.ext_iff.2 ⟨hy.inpre p (hsub p h), hbit p h⟩, fun hm => hy.mid (hm.right hsub hbit), ?_, hk.lr,
    fun k v h => hy.kv k v (hsub _ h), hk.pr, hpre, fun h => by have := hp.sum; omega, rootOk_slotOf _ _, fun _ => ⟨hk.len, hk.sr, hk.shr, by omega, r2⟩, hk.str, hk.coh⟩
  intro p h
  have := hy.eff p (hsub p h)
  rw [Smt.get_node, if_pos (hbit p h)] at this
  exact this

/-- The left child was updated. -/
theorem kids_left (hA : NoAccident c.H Hp) {g i ix : Nat} {q : Nat → Bool} {l r l' : Node} {del : Bool} {b : Batch} {s : St} {res : Res} (hp : Place g i ix) (hk : Kids c Hp g i ix q l r b s)
    (ho : Out c Hp g (i + 1) (ext q i false) s l' del res) (hb : BOut c (g % 4) (2 * ix + 1) g b l' res.batch) (hwl : WF 256 (i + 1) (ext q i false) l') :
    Shape c.H (g % 4) res.batch (2 * ix + 2) g r ∧ slot res.batch (2 * ix + 2) = slotOf c.H g r ∧ Stored c res.st g r := by
  obtain ⟨h1, h2, _, _⟩ := room_child hp.room
  obtain ⟨z1, z2⟩ := zone_facts h2 h1
  refine ⟨shape_congr (fun m hm => hb.other m (fun h => (z1 m h).1 hm)) hk.shr, ?_, stored_frame hA ho.frame (tok_of (by have := hp.sum; omega) hk.wr hk.lr hk.pr) (wf_inpre hk.wr) hk.str⟩
  rw [hb.other _ (fun h => (z1 _ h).2.2.1 rfl), hk.sr]

/-- The right child was updated. -/
theorem kids_right (hA : NoAccident c.H Hp) {g i ix : Nat} {q : Nat → Bool} {l r r' : Node} {del : Bool} {b : Batch} {s : St} {res : Res} (hp : Place g i ix) (hk : Kids c Hp g i ix q l r b s)
    (ho : Out c Hp g (i + 1) (ext q i true) s r' del res) (hb : BOut c (g % 4) (2 * ix + 2) g b r' res.batch) :
    Shape c.H (g % 4) res.batch (2 * ix + 1) g l ∧ Stored c res.st g l := by
  obtain ⟨h1, h2, _, _⟩ := room_child hp.room
  obtain ⟨z1, z2⟩ := zone_facts h2 h1
  exact ⟨shape_congr (fun m hm => hb.other m (fun h => (z1 m hm).1 h)) hk.shl, stored_frame hA ho.frame (tok_of (by have := hp.sum; omega) hk.wl hk.ll hk.pl) (wf_inpre hk.wl) hk.stl⟩

theorem inpre_up {i : Nat} {q : Nat → Bool} {e : Bool} {t : Node} (h : WF 256 (i + 1) (ext q i e) t) : AllLeaves (fun k _ => InPre 256 q i k) t :=
  AllLeaves.mono (fun _ _ h => (InPre.ext_iff.1 h).1) (wf_inpre h)

/-- Where the removed digests come from, seen from a node. -/
def RemNode (c : Cfg) (g i : Nat) (root : Bytes) (l r : Node) (keys : KVs) (s s' : St) : Prop :=
  ∀ d ∈ s'.removed, d ∈ s.removed ∨ (d = toHash root ∧ toHash root ≠ List.replicate 32 0) ∨ ∃ p ∈ keys, ∃ m u, walk p.1 i (m + 1) (.node l r) = some u ∧ u ≠ .empty ∧ d = digest c.H (g + 1 - (m + 1)) u

theorem rem_left {g i : Nat} {l r : Node} {sub : KVs} {s s' : St} (hbit : ∀ p ∈ sub, bitIsSet p.1 i = false) (h : RemOk c g (i + 1) l sub s s') {d : Bytes} (hd : d ∈ s'.removed) :
    d ∈ s.removed ∨ ∃ p ∈ sub, ∃ m u, walk p.1 i (m + 1) (.node l r) = some u ∧ u ≠ .empty ∧ d = digest c.H (g + 1 - (m + 1)) u := by
  rcases h d hd with h | ⟨p, hp, m, u, h1, h2, h3⟩
  · exact Or.inl h
  · refine Or.inr ⟨p, hp, m, u, ?_, h2, ?_⟩
    · simp only [walk, hbit p hp, Bool.false_eq_true, if_false]; exact h1
    · rw [h3]; congr 1; omega

theorem rem_right {g i : Nat} {l r : Node} {sub : KVs} {s s' : St} (hbit : ∀ p ∈ sub, bitIsSet p.1 i = true) (h : RemOk c g (i + 1) r sub s s') {d : Bytes} (hd : d ∈ s'.removed) :
    d ∈ s.removed ∨ ∃ p ∈ sub, ∃ m u, walk p.1 i (m + 1) (.node l r) = some u ∧ u ≠ .empty ∧ d = digest c.H (g + 1 - (m + 1)) u := by
  rcases h d hd with h | ⟨p, hp, m, u, h1, h2, h3⟩
  · exact Or.inl h
  · refine Or.inr ⟨p, hp, m, u, ?_, h2, ?_⟩
    · simp only [walk, hbit p hp, if_true]; exact h1
    · rw [h3]; congr 1; omega

theorem store_branch_split {upd : Bytes → KVs → Batch → Nat → St → Option Res} {g ix : Nat} {root : Bytes} {l r : Node} {keys : KVs} {b : Batch} {s : St} {H : Bytes → Bytes} {n : Nat}
    (h : ¬ (l = .empty ∧ r = .empty ∧ keys.length = 1)) :
    branch c upd root (slotOf H g l) (slotOf H g r) keys b ix n s =
    (let sp := Smt.splitKeys (c.n - n) keys
    let s := addRemove root n s
    if sp.1.isEmpty && !sp.2.isEmpty then
      match upd (slotOf H g r) keys b (2 * ix + 2) s with
      | none => none
      | some q => join c q.deleted (slotOf H g l) q.node root q.batch ix n q.st
    else if !sp.1.isEmpty && sp.2.isEmpty then
      match upd (slotOf H g l) keys b (2 * ix + 1) s with
      | none => none
      | some q => join c q.deleted q.node (slotOf H g r) root q.batch ix n q.st
    else
      match upd (slotOf H g l) sp.1 b (2 * ix + 1) s with
      | none => none
      | some ql =>
        match upd (slotOf H g r) sp.2 ql.batch (2 * ix + 2) ql.st with
        | none => none
        | some qr => join c (ql.deleted || qr.deleted) ql.node qr.node root qr.batch ix n qr.st) := by
  have hnil : ∀ t : Node, slotOf H g t = [] → t = .empty := fun t ht => (slotOf_nil g t).1 (by rw [ht]; rfl)
  unfold branch
  split
  · rename_i k h1 h2
    exact absurd ⟨hnil _ h1, hnil _ h2, by simp⟩ h
  · rename_i k v h1 h2
    exact absurd ⟨hnil _ h1, hnil _ h2, by simp⟩ h
  · rfl

theorem branch_ok (hA : NoAccident c.H Hp) (hn : c.n = 256) {g i ix : Nat} {q : Nat → Bool} {l r told : Node} {root : Bytes} {b : Batch} {s : St} {keys : KVs}
    (ih : ∀ (i : Nat) (q : Nat → Bool) (root : Bytes) (t : Node) (kvs : KVs) (b : Batch) (ix : Nat) (s : St), Call c Hp g i q root t kvs b ix s → Done c Hp g i q t kvs b ix s (update c g root kvs b ix s))
    (hp : Place g i ix) (hk : Kids c Hp g i ix q l r b s) (hy : Keys Hp i q l r keys)
    (htn : TOk c Hp (g + 1) (Smt.branch (Smt.update 256 g) i l r keys).1) (ho : OldOk c Hp (g + 1) i q root told (Smt.branch (Smt.update 256 g) i l r keys).1) :
    ∃ res, branch c (update c g) root (slotOf c.H g l) (slotOf c.H g r) keys b ix (g + 1) s = some res ∧
      Out c Hp (g + 1) i q s (Smt.branch (Smt.update 256 g) i l r keys).1 (Smt.branch (Smt.update 256 g) i l r keys).2 res ∧
      ((g + 1) % 4 ≠ 0 → BOut c (g % 4 + 1) ix (g + 1) b (Smt.branch (Smt.update 256 g) i l r keys).1 res.batch) ∧ RemNode c g i root l r keys s res.st := by
  by_cases hone : l = .empty ∧ r = .empty ∧ keys.length = 1
  · obtain ⟨rfl, rfl, hlen⟩ := hone
    obtain ⟨⟨k, v0⟩, rfl⟩ := List.length_eq_one_iff.1 hlen
    cases v0 with
    | none => exact absurd (by simp [Smt.get]) (hy.eff (k, none) (by simp))
    | some v =>
      have hbr : Smt.branch (Smt.update 256 g) i .empty .empty [(k, some v)] = (.leaf k v, false) := rfl
      rw [hbr] at htn ho ⊢
      obtain ⟨k1, k2, k3⟩ := shape_leaf (c := c) (h := g + 1) (k := k) (v := v) hk.len hp.room (shape_empty.1 hk.shl) (shape_empty.1 hk.shr)
      have hst : branch c (update c g) root (slotOf c.H g .empty) (slotOf c.H g .empty) [(k, some v)] b ix (g + 1) s =
          (let lh := leafHash c k v root b ix (g + 1) (addRemove root (g + 1) s); some ⟨lh.1, false, lh.2.1, lh.2.2⟩) := rfl
      rw [hst]
      unfold leafHash
      have hnode : c.H (k ++ v ++ [byteOf (g + 1)]) ++ [1] = slotOf c.H (g + 1) (.leaf k v) := rfl
      simp only [hnode]
      by_cases h4 : (g + 1) % 4 = 0
      · simp only [if_pos h4]
        have hix := hp.top.2 h4
        have hg4 : g % 4 = 3 := by omega
        subst hix
        rw [hg4] at k2
        have hgood := good_flag k1 k2 [1] (by simp [Node.isLeaf])
        obtain ⟨s1, s2, s3, s4⟩ := store_out hA (i := i) (q := q) hgood htn (by simp) ho.root ho.tok ho.leaves (hy.inpre (k, some v) (by simp)) ho.fresh (coh_addRemove hk.coh) (s := addRemove root (g + 1) s) (by
          intro l' r' he; cases he)
        refine ⟨_, rfl, ⟨rfl, rfl, s1, s2, (frame_addRemove _ _ _).trans s3⟩, fun h => absurd h4 h, fun d hd => ?_⟩
        dsimp only at hd
        rw [s4] at hd
        rcases removed_addRemove hd with h | h
        · exact Or.inl h
        · exact Or.inr (Or.inl h)
      · simp only [if_neg h4]
        refine ⟨_, rfl, ⟨rfl, rfl, fun h => absurd h h4, coh_addRemove hk.coh, frame_addRemove _ _ _⟩, fun _ => ⟨k1, k2, k3⟩, fun d hd => ?_⟩
        rcases removed_addRemove hd with h | h
        · exact Or.inl h
        · exact Or.inr (Or.inl h)
  · have hi : i + (g + 1) = 256 := hp.sum
    have hroom := room_child hp.room
    rw [store_branch_split hone, hn, show 256 - (g + 1) = i by omega]
    rw [Smt.branch_split hone] at htn ho ⊢
    have hsp := Smt.splitKeys_ok 256 q i keys hy.sorted hy.inpre
    have hne1 := Smt.split_nonempty i keys hy.ne
    generalize Smt.splitKeys i keys = sp at hsp htn ho hne1 ⊢
    obtain ⟨sl, sr⟩ := sp
    simp only at htn ho hne1 ⊢
    have hkeys : sl ++ sr = keys := hsp.append
    have hsl : SortedKVs sl := hy.sorted.sublist (by rw [← hkeys]; exact List.sublist_append_left _ _)
    have hsr : SortedKVs sr := hy.sorted.sublist (by rw [← hkeys]; exact List.sublist_append_right _ _)
    have hml : ∀ p ∈ sl, p ∈ keys := fun p hp => by rw [← hkeys]; simp [hp]
    have hmr : ∀ p ∈ sr, p ∈ keys := fun p hp => by rw [← hkeys]; simp [hp]
    have hk1 : Kids c Hp g i ix q l r b (addRemove root (g + 1) s) := { hk with stl := stored_addRemove hk.stl, str := stored_addRemove hk.str, coh := coh_addRemove hk.coh }
    have htl : TOk c Hp g l := tok_of (i := i + 1) (by omega) hk.wl hk.ll hk.pl
    have htr : TOk c Hp g r := tok_of (i := i + 1) (by omega) hk.wr hk.lr hk.pr
    have hleaf : ∀ (t : Node) (sub : KVs), AllLeaves (LP Hp) t → (∀ p ∈ sub, p ∈ keys) → AllLeaves (LP Hp) (Smt.update 256 g t sub).1 :=
      fun t sub ht hs => Smt.update_leaves 256 g t sub ht (fun k v h => hy.kv k v (hs _ h))
    have hself : ∀ p ∈ keys, p ∈ keys := fun _ h => h
    cases sl with
    | nil =>
      cases sr with
      | nil => exact absurd ⟨rfl, rfl⟩ hne1
      | cons a sr =>
        simp only [List.isEmpty_nil, List.isEmpty_cons, Bool.not_false, Bool.and_true, if_true] at htn ho ⊢
        have hbit : ∀ p ∈ keys, bitIsSet p.1 i = true := by rw [← hkeys]; exact hsp.right
        have hpr := (pre_join hk.ll (hleaf r keys hk.lr hself) htn.pre).2
        have hcall := call_right hp hk1 hy hself hy.sorted hy.ne hbit hpr
        have hspec := hcall.spec
        obtain ⟨res, e1, e2, e3, e4⟩ := ih _ _ _ _ _ _ _ _ hcall
        have e3 := e3 hk.len
        rw [e1]
        dsimp only
        obtain ⟨f1, f2⟩ := kids_right hA hp hk1 e2 e3
        rw [e2.node, e2.deleted]
        obtain ⟨res', j1, j2, j3, j4⟩ := join_ok hA hp e3.len f1 e3.shape htl (tok_of (i := i + 1) (by omega) hspec.wf (hleaf r keys hk.lr hself) hpr) htn (inpre_up hk.wl) (inpre_up hspec.wf) f2 e2.stored e2.coh
          (fun hd h => (hspec.kept hd).1 h.2) ho
        refine ⟨res', j1, { j2 with frame := (frame_addRemove _ _ _).trans (e2.frame.up.trans j2.frame) }, fun h4 => ⟨(j4 h4).len, (j4 h4).shape, fun m hm => ?_⟩, fun d hd => ?_⟩
        · rw [(j4 h4).other m hm, e3.other m (fun h => hm (zone_succ.2 (by simp [h])))]
        · rw [j3] at hd
          rcases rem_right (l := l) hbit e4 hd with h | h
          · rcases removed_addRemove h with h | h
            · exact Or.inl h
            · exact Or.inr (Or.inl h)
          · exact Or.inr (Or.inr h)
    | cons a0 sl =>
      cases sr with
      | nil =>
        simp only [List.isEmpty_nil, List.isEmpty_cons, Bool.not_false, Bool.and_true, if_true, Bool.false_and, Bool.false_eq_true, if_false, Bool.not_true] at htn ho ⊢
        have hbit : ∀ p ∈ keys, bitIsSet p.1 i = false := by rw [← hkeys, List.append_nil]; exact hsp.left
        have hpl := (pre_join (hleaf l keys hk.ll hself) hk.lr htn.pre).1
        have hcall := call_left hp hk1 hy hself hy.sorted hy.ne hbit hpl
        have hspec := hcall.spec
        obtain ⟨res, e1, e2, e3, e4⟩ := ih _ _ _ _ _ _ _ _ hcall
        have e3 := e3 hk.len
        rw [e1]
        dsimp only
        obtain ⟨f1, _, f2⟩ := kids_left hA hp hk1 e2 e3 hspec.wf
        rw [e2.node, e2.deleted]
        obtain ⟨res', j1, j2, j3, j4⟩ := join_ok hA hp e3.len e3.shape f1 (tok_of (i := i + 1) (by omega) hspec.wf (hleaf l keys hk.ll hself) hpl) htr htn (inpre_up hspec.wf) (inpre_up hk.wr) e2.stored f2 e2.coh
          (fun hd h => (hspec.kept hd).1 h.1) ho
        refine ⟨res', j1, { j2 with frame := (frame_addRemove _ _ _).trans (e2.frame.up.trans j2.frame) }, fun h4 => ⟨(j4 h4).len, (j4 h4).shape, fun m hm => ?_⟩, fun d hd => ?_⟩
        · rw [(j4 h4).other m hm, e3.other m (fun h => hm (zone_succ.2 (by simp [h])))]
        · rw [j3] at hd
          rcases rem_left (r := r) hbit e4 hd with h | h
          · rcases removed_addRemove h with h | h
            · exact Or.inl h
            · exact Or.inr (Or.inl h)
          · exact Or.inr (Or.inr h)
      | cons a sr =>
        simp only [List.isEmpty_cons, Bool.false_and, Bool.and_false, Bool.false_eq_true, if_false] at htn ho ⊢
        obtain ⟨hpl, hpr⟩ := pre_join (hleaf l _ hk.ll hml) (hleaf r _ hk.lr hmr) htn.pre
        have hcall := call_left hp hk1 hy hml hsl (by simp) hsp.left hpl
        have hspec := hcall.spec
        obtain ⟨res, e1, e2, e3, e4⟩ := ih _ _ _ _ _ _ _ _ hcall
        have e3 := e3 hk.len
        rw [e1]
        dsimp only
        obtain ⟨f1, f3, f2⟩ := kids_left hA hp hk1 e2 e3 hspec.wf
        -- the right child
        have hcall' : Call c Hp g (i + 1) (ext q i true) (slotOf c.H g r) r (a :: sr) res.batch (2 * ix + 2) res.st := by
          have hc0 := call_right hp hk1 hy hmr hsr (by simp) hsp.right hpr
          exact { hc0 with batch := fun _ => ⟨e3.len, f3, f1, by omega, hroom.2.2.2⟩, stored := f2, coh := e2.coh }
        have hspec' := hcall'.spec
        obtain ⟨res', e1', e2', e3', e4'⟩ := ih _ _ _ _ _ _ _ _ hcall'
        have e3' := e3' e3.len
        rw [e1']
        dsimp only
        obtain ⟨z1, z2⟩ := zone_facts hroom.2.1 hroom.1
        have htl' : TOk c Hp g (Smt.update 256 g l (a0 :: sl)).1 := tok_of (i := i + 1) (by omega) hspec.wf (hleaf l _ hk.ll hml) hpl
        have g1 : Shape c.H (g % 4) res'.batch (2 * ix + 1) g (Smt.update 256 g l (a0 :: sl)).1 := shape_congr (fun m hm => e3'.other m (fun h => (z1 m hm).1 h)) e3.shape
        have g2 : Stored c res'.st g (Smt.update 256 g l (a0 :: sl)).1 := stored_frame hA e2'.frame htl' (wf_inpre hspec.wf) e2.stored
        rw [e2.node, e2.deleted, e2'.node, e2'.deleted]
        obtain ⟨res'', j1, j2, j3, j4⟩ := join_ok hA hp e3'.len g1 e3'.shape htl' (tok_of (i := i + 1) (by omega) hspec'.wf (hleaf r _ hk.lr hmr) hpr) htn (inpre_up hspec.wf) (inpre_up hspec'.wf) g2 e2'.stored e2'.coh
          (fun hd h => by rw [Bool.or_eq_false_iff] at hd; exact (hspec.kept hd.1).1 h.1) ho
        refine ⟨res'', j1, { j2 with frame := (frame_addRemove _ _ _).trans (e2.frame.up.trans (e2'.frame.up.trans j2.frame)) }, fun h4 => ⟨(j4 h4).len, (j4 h4).shape, fun m hm => ?_⟩, fun d hd => ?_⟩
        · rw [(j4 h4).other m hm, e3'.other m (fun h => hm (zone_succ.2 (by simp [h]))), e3.other m (fun h => hm (zone_succ.2 (by simp [h])))]
        · rw [j3] at hd
          rcases rem_right (l := l) hsp.right e4' hd with h | ⟨p, hp1, h⟩
          · rcases rem_left (r := r) hsp.left e4 h with h | ⟨p, hp1, h⟩
            · rcases removed_addRemove h with h | h
              · exact Or.inl h
              · exact Or.inr (Or.inl h)
            · exact Or.inr (Or.inr ⟨p, hml p hp1, h⟩)
          · exact Or.inr (Or.inr ⟨p, hmr p hp1, h⟩)

/-! ## Loading a position -/

/-- What `loadChildren` returns for the tree `t`. -/
structure LoadOk (c : Cfg) (Hp : Bytes → Prop) (g i ix : Nat) (t : Node) (b : Batch) (s : St) (ld : Loaded) : Prop where
  place : Place g i ld.i
  len : ld.batch.length = 31
  shape : Shape c.H (g % 4 + 1) ld.batch ld.i (g + 1) t
  l : ld.l = slot ld.batch (2 * ld.i + 1)
  r : ld.r = slot ld.batch (2 * ld.i + 2)
  shortcut : ld.isShortcut = t.isLeaf
  coh : Coh c Hp ld.st
  same : SameBut s ld.st
  inner : (g + 1) % 4 ≠ 0 → ld.batch = b ∧ ld.i = ix

theorem newBatch_clean : Clean newBatch 4 0 := by
  have h : (zone 4 0).all (fun m => slot newBatch m == []) = true := by decide +kernel
  rw [List.all_eq_true] at h
  intro m hm
  have := h m hm
  simpa using this

theorem stored_avail {s : St} {h : Nat} {t : Node} (hs : Stored c s h t) (hne : t ≠ .empty) (h4 : h % 4 = 0) : Avail c s h t := by
  cases t with
  | empty => exact absurd rfl hne
  | leaf k v => exact hs h4
  | node l r => exact hs.1 h4

/-- Loading the children, if the batch can be loaded. -/
theorem load_of (hA : NoAccident c.H Hp) {g i ix : Nat} {root : Bytes} {t : Node} {b : Batch} {s : St} (hi : i + (g + 1) = 256) (ht : TOk c Hp (g + 1) t) (hr : RootOk c root (g + 1) t)
    (hb : (g + 1) % 4 ≠ 0 → b.length = 31 ∧ slot b ix = root ∧ Shape c.H ((g + 1) % 4) b ix (g + 1) t ∧ 1 ≤ ix ∧ Room ((g + 1) % 4) ix) (hs : t ≠ .empty → (g + 1) % 4 = 0 → ∃ b s', loadBatch c root (g + 1) s = some (b, s') ∧ Good c.H (g + 1) t b ∧ Coh c Hp s' ∧ SameBut s s') (hc : Coh c Hp s) :
    ∃ ld, loadChildren c root (g + 1) ix b s = some ld ∧ LoadOk c Hp g i ix t b s ld := by
  unfold loadChildren
  by_cases h4 : (g + 1) % 4 = 0
  · have hg : g % 4 + 1 = 4 := by omega
    have hpl : Place g i 0 := ⟨hi, by rw [hg]; unfold Room; omega, by simp [h4]⟩
    rw [if_pos h4]
    by_cases hte : t = .empty
    · rw [(rootOk_empty hr hte).1]
      subst hte
      exact ⟨_, rfl, ⟨hpl, rfl, by rw [hg]; exact newBatch_clean, rfl, rfl, rfl, hc, ⟨rfl, rfl, rfl⟩, fun h => absurd h4 h⟩⟩
    · obtain ⟨_, _, h3⟩ := rootOk_hash hA hr hte
      obtain ⟨b1, s1, e1, e2, e3, e4⟩ := hs hte h4
      rw [if_neg h3, e1]
      refine ⟨_, rfl, ⟨hpl, e2.len, by rw [hg]; exact e2.shape, rfl, rfl, ?_, e3, e4, fun h => absurd h4 h⟩⟩
      dsimp only
      rw [e2.flag]
      cases t <;> simp [Node.isLeaf]
  · obtain ⟨b1, b2, b3, b4, b5⟩ := hb h4
    have hg : (g + 1) % 4 = g % 4 + 1 := by omega
    rw [hg] at b3 b5
    rw [if_neg h4]
    refine ⟨_, rfl, ⟨⟨hi, b5, ?_⟩, b1, b3, rfl, rfl, ?_, hc, ⟨rfl, rfl, rfl⟩, fun _ => ⟨rfl, rfl⟩⟩⟩
    · constructor
      · intro h; dsimp only at h; omega
      · intro h; exact absurd h h4
    · dsimp only
      rw [b2]
      rcases hr with ⟨rfl, rfl⟩ | ⟨hne, rfl | ⟨h256, _⟩⟩
      · rfl
      · have hlen := digest_length hA.len (h := g + 1) hne
        obtain ⟨f, h1, h2⟩ := slotOf_eq (H := c.H) (h := g + 1) hne
        rw [h1]
        unfold flagOf
        rw [List.getD_eq_getElem?_getD, List.getElem?_append_right (by omega), hlen]
        cases hb : t.isLeaf with
        | true => simp [h2.2 hb]
        | false =>
          have : f ≠ 1 := fun hf => by have := h2.1 hf; rw [hb] at this; cases this
          simp [this]
      · omega

theorem load_ok (hA : NoAccident c.H Hp) {g i ix : Nat} {root : Bytes} {t : Node} {b : Batch} {s : St} (hi : i + (g + 1) = 256) (ht : TOk c Hp (g + 1) t) (hr : RootOk c root (g + 1) t)
    (hb : (g + 1) % 4 ≠ 0 → b.length = 31 ∧ slot b ix = root ∧ Shape c.H ((g + 1) % 4) b ix (g + 1) t ∧ 1 ≤ ix ∧ Room ((g + 1) % 4) ix) (hs : Stored c s (g + 1) t) (hc : Coh c Hp s) :
    ∃ ld, loadChildren c root (g + 1) ix b s = some ld ∧ LoadOk c Hp g i ix t b s ld :=
  load_of hA hi ht hr hb (fun hte h4 => loadBatch_ok hA hc ht hte (stored_avail hs hte h4) hr) hc

/-! ## The refinement -/

theorem bout_keep {h ix : Nat} {b : Batch} {t' : Node} (hb : b.length = 31) (h4 : h % 4 = 0) : BOut c (h % 4) ix h b t' b :=
  ⟨hb, by rw [h4]; trivial, fun _ _ => rfl⟩

theorem update_zero_ok (hA : NoAccident c.H Hp) {i ix : Nat} {q : Nat → Bool} {root : Bytes} {t : Node} {kvs : KVs} {b : Batch} {s : St} (hc : Call c Hp 0 i q root t kvs b ix s) :
    Done c Hp 0 i q t kvs b ix s (update c 0 root kvs b ix s) := by
  obtain ⟨ho, htn, hto⟩ := hc.old hA
  match hk : kvs, hc.ne with
  | (k, none) :: rest, _ =>
    refine ⟨_, rfl, ⟨rfl, rfl, trivial, coh_delete hc.coh _ _ _, frame_delete hA ho.root ho.tok ho.leaves _ s⟩, fun hb => bout_keep hb rfl, fun d hd => Or.inl hd⟩
  | (k, some v) :: rest, _ =>
    have hup : Smt.update 256 0 t ((k, some v) :: rest) = (.leaf k v, false) := rfl
    rw [hup] at ho htn
    have hclean : ∀ j, Clean nilBatch 3 j := by
      intro j m _
      unfold slot nilBatch
      rw [List.getD_eq_getElem?_getD, List.getElem?_replicate]
      split <;> rfl
    obtain ⟨k1, k2, k3⟩ := shape_leaf (c := c) (d := 3) (ix := 0) (h := 0) (k := k) (v := v) (b := nilBatch) (by decide) (by unfold Room; omega) (hclean _) (hclean _)
    have hgood := good_flag k1 k2 [1] (by simp [Node.isLeaf])
    obtain ⟨s1, s2, s3, s4⟩ := store_out hA (i := i) (q := q) hgood htn (by simp) ho.root ho.tok ho.leaves (hc.inpre (k, some v) (by simp)) ho.fresh hc.coh (s := s) (by
      intro l' r' he; cases he)
    exact ⟨_, rfl, ⟨rfl, rfl, s1, s2, s3⟩, fun hb => bout_keep hb rfl, fun d hd => Or.inl (by rw [← s4]; exact hd)⟩

theorem out_same {h i : Nat} {q : Nat → Bool} {s s1 : St} {t' : Node} {del : Bool} {res : Res} (hs : SameBut s s1) (ho : Out c Hp h i q s1 t' del res) : Out c Hp h i q s t' del res :=
  { ho with frame := ⟨ho.frame.db.trans hs.db, fun d hd ho' => (ho.frame.upd d hd ho').trans (by rw [hs.upd])⟩ }

/-- `keepBatch`. -/
theorem keep_ok {h i ix : Nat} {q : Nat → Bool} {s : St} {b : Batch} {t' : Node} {del : Bool} {r : Option Res} {P : St → Prop}
    (hr : ∃ res, r = some res ∧ Out c Hp h i q s t' del res ∧ (h % 4 ≠ 0 → BOut c (h % 4) ix h b t' res.batch) ∧ P res.st) :
    ∃ res, keepBatch h b r = some res ∧ Out c Hp h i q s t' del res ∧ (b.length = 31 → BOut c (h % 4) ix h b t' res.batch) ∧ P res.st := by
  obtain ⟨res, rfl, h1, h2, h3⟩ := hr
  unfold keepBatch
  rw [Option.map_some]
  by_cases h4 : h % 4 = 0
  · rw [if_pos h4]
    exact ⟨_, rfl, ⟨h1.node, h1.deleted, h1.stored, h1.coh, h1.frame⟩, fun hb => bout_keep hb h4, h3⟩
  · rw [if_neg h4]
    exact ⟨_, rfl, h1, fun _ => h2 h4, h3⟩

theorem remOk_of_node {g i : Nat} {root : Bytes} {t l r : Node} {kvs keys : KVs} {s s1 s' : St} (hA : NoAccident c.H Hp) (hne : kvs ≠ []) (hroot : RootOk c root (g + 1) t)
    (hs : s1.removed = s.removed) (hk : ∀ p ∈ keys, ∀ m u, walk p.1 i (m + 1) (.node l r) = some u → u ≠ .empty → p ∈ kvs ∧ walk p.1 i (m + 1) t = some u) (h : RemNode c g i root l r keys s1 s') : RemOk c (g + 1) i t kvs s s' := by
  intro d hd
  rcases h d hd with h | ⟨h1, h2⟩ | ⟨p, hp, m, u, h1, h2, h3⟩
  · exact Or.inl (by rw [← hs]; exact h)
  · right
    have hte : t ≠ .empty := fun he => h2 (rootOk_empty hroot he).2
    obtain ⟨p, hp⟩ := List.exists_mem_of_ne_nil kvs hne
    exact ⟨p, hp, 0, t, rfl, hte, by rw [h1, (rootOk_hash hA hroot hte).1]; rfl⟩
  · right
    obtain ⟨a, b⟩ := hk p hp m u h1 h2
    exact ⟨p, a, m + 1, u, b, h2, h3⟩

theorem no_kids {i m : Nat} {k : Key} {u : Node} (h : walk k i (m + 1) (.node .empty .empty) = some u) : u = .empty := by
  simp only [walk, ite_self] at h
  cases m with
  | zero => simpa [walk] using h.symm
  | succ m => simp [walk] at h

theorem tree_update {g i : Nat} {t : Node} {kvs : KVs} (hne : kvs ≠ []) (hi : 256 - (g + 1) = i) : Smt.update 256 (g + 1) t kvs = match t with
    | .leaf k v => if (Smt.maybeAdd k v kvs).isEmpty then (.empty, true) else Smt.branch (Smt.update 256 g) i .empty .empty (Smt.maybeAdd k v kvs)
    | .empty => Smt.branch (Smt.update 256 g) i .empty .empty kvs
    | .node l r => Smt.branch (Smt.update 256 g) i l r kvs := by
  cases kvs with
  | nil => exact absurd rfl hne
  | cons kv rest => subst hi; cases t <;> simp only [Smt.update]

/-- trie.go:162-254 refines the update of the tree. -/
theorem update_ok (hA : NoAccident c.H Hp) (hn : c.n = 256) : ∀ (h i : Nat) (q : Nat → Bool) (root : Bytes) (t : Node) (kvs : KVs) (b : Batch) (ix : Nat) (s : St),
    Call c Hp h i q root t kvs b ix s → Done c Hp h i q t kvs b ix s (update c h root kvs b ix s) := by
  intro h
  induction h with
  | zero => intro i q root t kvs b ix s hc; exact update_zero_ok hA hc
  | succ g ih =>
    intro i q root t kvs b ix s hc
    obtain ⟨ho, htn, hto⟩ := hc.old hA
    obtain ⟨ld, e1, e2⟩ := load_ok hA hc.sum hto hc.rootOk hc.batch hc.stored hc.coh
    have hi : 256 - (g + 1) = i := by have := hc.sum; omega
    have hhd : ∃ kv rest, kvs = kv :: rest := by
      cases hk : kvs with
      | nil => exact absurd hk hc.ne
      | cons kv rest => exact ⟨kv, rest, rfl⟩
    have hupd : update c (g + 1) root kvs b ix s = keepBatch (g + 1) b (afterLoad c (update c g) root kvs (g + 1) ld) := by
      obtain ⟨kv, rest, rfl⟩ := hhd
      simp only [update, e1]
    have htree := tree_update (g := g) (t := t) hc.ne hi
    have hb4 : ∀ {t' : Node} {b' : Batch}, ((g + 1) % 4 ≠ 0 → BOut c (g % 4 + 1) ld.i (g + 1) ld.batch t' b') → ((g + 1) % 4 ≠ 0 → BOut c ((g + 1) % 4) ix (g + 1) b t' b') := by
      intro t' b' hbo h4
      obtain ⟨p1, p2⟩ := e2.inner h4
      have := hbo h4
      rw [p1, p2] at this
      rw [show (g + 1) % 4 = g % 4 + 1 by omega]
      exact this
    rw [Done, hupd]
    apply keep_ok (P := fun st => RemOk c (g + 1) i t kvs s st)
    have hgsum : i + 1 + g = 256 := by have := hc.sum; omega
    have hgle : g ≤ 256 := by omega
    have hempre : Pre c.H Hp g .empty := fun x hx => by simp [preimages] at hx
    unfold afterLoad
    rw [e2.shortcut]
    cases t with
    | empty =>
      rw [htree] at htn ho ⊢
      simp only [Node.isLeaf, Bool.false_eq_true, if_false] at htn ho ⊢
      have hcl := clean_succ.1 (shape_empty.1 e2.shape)
      rw [show ld.l = slotOf c.H g .empty by rw [e2.l, hcl.1]; rfl, show ld.r = slotOf c.H g .empty by rw [e2.r, hcl.2.1]; rfl]
      obtain ⟨res, b1, b2, b3, b4⟩ := branch_ok hA hn (q := q) (b := ld.batch) (s := ld.st) (told := .empty) (l := .empty) (r := .empty) ih e2.place
        ⟨e2.len, hcl.1, hcl.2.1, shape_empty.2 hcl.2.2.1, shape_empty.2 hcl.2.2.2, trivial, trivial, trivial, trivial, hempre, hempre, trivial, trivial, e2.coh⟩
        ⟨hc.sorted, hc.ne, hc.inpre, Smt.not_midDelete_empty, fun p hp => by rw [Smt.get_empty_kids]; exact hc.eff p hp, hc.kv⟩ htn ho
      refine ⟨res, b1, out_same e2.same b2, hb4 b3, remOk_of_node hA hc.ne hc.rootOk e2.same.removed (fun p hp m u h1 h2 => absurd (no_kids h1) h2) b4⟩
    | node l r =>
      rw [htree] at htn ho ⊢
      simp only [Node.isLeaf, Bool.false_eq_true, if_false] at htn ho ⊢
      obtain ⟨h1, h2, h3, h4⟩ := e2.shape
      rw [show g + 1 - 1 = g from rfl] at h1 h2 h3 h4
      rw [e2.l, e2.r, h1, h2]
      obtain ⟨_, hwl, hwr, hkids⟩ := hc.wf
      have hst := stored_same e2.same hc.stored
      obtain ⟨res, b1, b2, b3, b4⟩ := branch_ok hA hn (q := q) (b := ld.batch) (s := ld.st) (told := .node l r) ih e2.place
        ⟨e2.len, h1, h2, h3, h4, hwl, hwr, hc.leaves.1, hc.leaves.2, hc.pre.left, hc.pre.right, hst.2.1, hst.2.2, e2.coh⟩
        ⟨hc.sorted, hc.ne, hc.inpre, hc.mid, hc.eff, hc.kv⟩ htn ho
      refine ⟨res, b1, out_same e2.same b2, hb4 b3, remOk_of_node hA hc.ne hc.rootOk e2.same.removed (fun p hp m u h1 h2 => ⟨hp, h1⟩) b4⟩
    | leaf k v =>
      rw [htree] at htn ho ⊢
      simp only [Node.isLeaf, if_true] at htn ho ⊢
      obtain ⟨h1, h2, h3, h4⟩ := e2.shape
      have hsz : k.length = 32 ∧ v.length = 32 := hto.sized
      rw [e2.l, e2.r, h1, h2, take_key hsz.1, take_key hsz.2]
      have hm : Smt.MergedKV k v kvs (Smt.maybeAdd k v kvs) := by
        apply Smt.maybeAdd_merged k v kvs hc.sorted hc.ne
        rintro hdel ⟨⟨a, ha, ha1⟩, b', hb, hb1⟩
        exact hc.mid ⟨k, hdel, by simp [Smt.get], ⟨a, ha, ha1, (hc.inpre a ha).samePrefix (hc.inpre _ hdel)⟩, b', hb, hb1, (hc.inpre b' hb).samePrefix (hc.inpre _ hdel)⟩
      -- the state after the old root was deleted
      have hst : ∃ s1, s1 = (if ld.i = 0 then deleteOldNode c root (g + 1) false ld.st else ld.st) ∧ Coh c Hp s1 ∧ Frame c Hp i q s s1 ∧ s1.removed = s.removed := by
        refine ⟨_, rfl, ?_⟩
        have hf : Frame c Hp i q s ld.st := ⟨e2.same.db, fun d _ _ => by rw [e2.same.upd]⟩
        split
        · exact ⟨coh_delete e2.coh _ _ _, hf.trans (frame_delete hA ho.root ho.tok ho.leaves _ _), e2.same.removed⟩
        · exact ⟨e2.coh, hf, e2.same.removed⟩
      obtain ⟨s1, hs1, hcoh1, hfr1, hrem1⟩ := hst
      rw [← hs1]
      -- the batch without the leaf
      obtain ⟨k1, k2, k3⟩ := shape_kids (c := c) (h := g) (l := .empty) (r := .empty) e2.len e2.place.room (shape_empty.2 h3) (shape_empty.2 h4)
      have hcomm : (ld.batch.set (2 * ld.i + 1) []).set (2 * ld.i + 2) [] = (ld.batch.set (2 * ld.i + 2) (slotOf c.H g .empty)).set (2 * ld.i + 1) (slotOf c.H g .empty) := by
        rw [List.set_comm _ _ (by omega)]; rfl
      rw [hcomm]
      generalize (ld.batch.set (2 * ld.i + 2) (slotOf c.H g .empty)).set (2 * ld.i + 1) (slotOf c.H g .empty) = b1 at k1 k2 k3 ⊢
      by_cases hemp : (Smt.maybeAdd k v kvs).isEmpty = true
      · simp only [if_pos hemp] at htn ho ⊢
        refine ⟨_, rfl, ⟨rfl, rfl, trivial, hcoh1, hfr1⟩, hb4 (fun _ => ⟨k1, ?_, k3⟩), fun d hd => Or.inl (by rw [← hrem1]; exact hd)⟩
        exact shape_empty.2 (clean_succ.2 ⟨k2.1, k2.2.1, shape_empty.1 k2.2.2.1, shape_empty.1 k2.2.2.2⟩)
      · simp only [if_neg hemp] at htn ho ⊢
        have hmem := Smt.maybeAdd_mem k v kvs
        have hkeys : Keys Hp i q .empty .empty (Smt.maybeAdd k v kvs) := by
          refine ⟨hm.sorted, by simpa using hemp, ?_, Smt.not_midDelete_empty, ?_, ?_⟩
          · intro p hp
            rcases hmem p hp with h | h
            · exact hc.inpre p h
            · rw [h]; exact hc.wf
          · intro p hp
            rw [Smt.get_empty_kids]
            simp only [Smt.get]
            obtain ⟨k', v'⟩ := p
            cases v' with
            | some v' => simp
            | none =>
              exfalso
              obtain ⟨n1, n2⟩ := (hm.mem_none k').1 hp
              have := hc.eff _ n1
              simp only [Smt.get] at this
              rw [if_neg (fun h => n2 h.symm)] at this
              exact this rfl
          · intro k' v' hp
            rcases hmem _ hp with h | h
            · exact hc.kv k' v' h
            · cases h; exact hc.leaves
        obtain ⟨res, b1', b2, b3, b4⟩ := branch_ok hA hn (q := q) (b := b1) (s := s1) (told := .leaf k v) (l := .empty) (r := .empty) (root := root) (keys := Smt.maybeAdd k v kvs) ih e2.place
          ⟨k1, k2.1, k2.2.1, k2.2.2.1, k2.2.2.2, trivial, trivial, trivial, trivial, hempre, hempre, trivial, trivial, hcoh1⟩
          hkeys htn ho
        refine ⟨res, b1', { b2 with frame := hfr1.trans b2.frame }, hb4 (fun h => ⟨(b3 h).len, (b3 h).shape, fun m hm => by rw [(b3 h).other m hm, k3 m hm]⟩), ?_⟩
        exact remOk_of_node hA hc.ne hc.rootOk hrem1 (fun p hp m u h1 h2 => absurd (no_kids h1) h2) b4

end Fpki.SmtStore
