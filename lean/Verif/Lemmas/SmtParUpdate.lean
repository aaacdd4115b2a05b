import Verif.Lemmas.SmtParSim

/-!
# The whole `Update` as a program
-/
namespace Fpki.SmtPar

open Fpki.Smt (Node KVs Key byteOf digest preimages AllLeaves Sized NoHole Fits InPre WF ext walk SortedKVs MidDelete parseBatch maybeAdd)
open Fpki.SmtStore hiding Kids
open Fpki.SmtStore (Keys)

variable {Z : Loc → Prop} {A : Loc → Prop} {σ : Mem} {Q : R → Mem → Prop} {c : Cfg} {s : St} {Hp : Bytes → Prop}

/-- What a call of `update` has to end with. -/
def CallEnds (pos ref : List Bool) (b : Batch) (σ : Mem) (o : Option Res) (r : R) (σ' : Mem) : Prop :=
  ∃ res, o = some res ∧ r = some ⟨res.node, res.deleted⟩ ∧ Rel σ' res.st ∧ (ref.length < pos.length → BatchAt σ ref b → BatchAt σ' ref res.batch)

theorem branchP_split {db : Bytes → Option Bytes} {upd : Bytes → KVs → List Bool → List Bool → Nat → Prog} {g ix n : Nat} {root : Bytes} {l r : Node} {keys : KVs} {pos ref : List Bool} {H : Bytes → Bytes}
    (h : ¬ (l = .empty ∧ r = .empty ∧ keys.length = 1)) :
    branchP c db upd root (slotOf H g l) (slotOf H g r) keys pos ref ix n =
    (let sp := Smt.splitKeys (c.n - n) keys
    remP root n
      (if sp.1.isEmpty && !sp.2.isEmpty then
        (upd (slotOf H g r) keys (pos ++ [true]) ref (2 * ix + 2)).bind (oneSide fun q => joinP c db q.deleted (slotOf H g l) q.node root ref ix n)
      else if !sp.1.isEmpty && sp.2.isEmpty then
        (upd (slotOf H g l) keys (pos ++ [false]) ref (2 * ix + 1)).bind (oneSide fun q => joinP c db q.deleted q.node (slotOf H g r) root ref ix n)
      else
        .par sp.1.length sp.2.length (upd (slotOf H g l) sp.1 (pos ++ [false]) ref (2 * ix + 1)) (upd (slotOf H g r) sp.2 (pos ++ [true]) ref (2 * ix + 2))
          (twoSides fun x y => joinP c db (x.deleted || y.deleted) x.node y.node root ref ix n))) := by
  have hnil : ∀ t : Node, slotOf H g t = [] → t = .empty := fun t ht => (slotOf_nil g t).1 (by rw [ht]; rfl)
  unfold branchP
  split
  · rename_i k h1 h2
    exact absurd ⟨hnil _ h1, hnil _ h2, by simp⟩ h
  · rename_i k v h1 h2
    exact absurd ⟨hnil _ h1, hnil _ h2, by simp⟩ h
  · rfl

theorem prefix_sides {pos p : List Bool} (h1 : pos ++ [false] <+: p) (h2 : pos ++ [true] <+: p) : False := by
  obtain ⟨a, rfl⟩ := h1
  obtain ⟨b, hb⟩ := h2
  rw [List.append_assoc, List.append_assoc, List.append_cancel_left_eq] at hb
  simp at hb

theorem prefix_long {pos p : List Bool} {e : Bool} (h1 : pos ++ [e] <+: p) (h2 : p.length ≤ pos.length) : False := by
  have := h1.length_le
  simp at this
  omega

/-- The places of the left child are places of the parent. -/
theorem area_left {g i ix : Nat} {q : Nat → Bool} {pos ref : List Bool} (ha : Reach c Hp g i ix q ref A) (hp : ∀ p m, pos <+: p → A (.slot p m)) : ∀ l, Area c Hp g (i + 1) (ext q i false) (pos ++ [false]) ref (2 * ix + 1) l → A l := by
  intro l h
  cases l with
  | live d => exact (ha.own d (own_up h)).1
  | upd d => exact (ha.own d (own_up h)).2.1
  | rem d => exact (ha.own d (own_up h)).2.2
  | slot p m =>
    rcases h with h | ⟨_, rfl, h | h⟩
    · exact hp p m ((List.prefix_append _ _).trans h)
    · exact ha.zone _ (zone_succ.2 (Or.inl h))
    · exact ha.zone _ (zone_succ.2 (Or.inr (Or.inr (Or.inl h))))

/-- The places of the right child are places of the parent. -/
theorem area_right {g i ix : Nat} {q : Nat → Bool} {pos ref : List Bool} (ha : Reach c Hp g i ix q ref A) (hp : ∀ p m, pos <+: p → A (.slot p m)) : ∀ l, Area c Hp g (i + 1) (ext q i true) (pos ++ [true]) ref (2 * ix + 2) l → A l := by
  intro l h
  cases l with
  | live d => exact (ha.own d (own_up h)).1
  | upd d => exact (ha.own d (own_up h)).2.1
  | rem d => exact (ha.own d (own_up h)).2.2
  | slot p m =>
    rcases h with h | ⟨_, rfl, h | h⟩
    · exact hp p m ((List.prefix_append _ _).trans h)
    · exact ha.zone _ (zone_succ.2 (Or.inr (Or.inl h)))
    · exact ha.zone _ (zone_succ.2 (Or.inr (Or.inr (Or.inr h))))

/-- The two children have no place in common. -/
theorem area_disj (hA : NoAccident c.H Hp) {g i ix : Nat} {q : Nat → Bool} {pos ref : List Bool} (hp : Place g i ix) (hr : ref.length ≤ pos.length) :
    ∀ l, Area c Hp g (i + 1) (ext q i false) (pos ++ [false]) ref (2 * ix + 1) l → ¬ Area c Hp g (i + 1) (ext q i true) (pos ++ [true]) ref (2 * ix + 2) l := by
  intro l h h'
  obtain ⟨h1, h2, _, _⟩ := room_child hp.room
  obtain ⟨z1, z2⟩ := zone_facts h2 h1
  cases l with
  | live d => exact own_disj hA h h'
  | upd d => exact own_disj hA h h'
  | rem d => exact own_disj hA h h'
  | slot p m =>
    rcases h with h | ⟨_, rfl, h⟩
    · rcases h' with h' | ⟨_, rfl, _⟩
      · exact prefix_sides h h'
      · exact prefix_long h hr
    · rcases h' with h' | ⟨_, _, h'⟩
      · exact prefix_long h' hr
      · rcases h with rfl | h
        · rcases h' with h' | h'
          · omega
          · exact (z2 _ h').1 rfl
        · rcases h' with rfl | h'
          · exact (z1 _ h).2.2.1 rfl
          · exact (z1 _ h).1 h'

theorem wp_branch (hA : NoAccident c.H Hp) (hn : c.n = 256) {g i ix : Nat} {q : Nat → Bool} {l r told : Node} {root : Bytes} {b : Batch} {keys : KVs} {db : Bytes → Option Bytes} {pos ref : List Bool}
    (ih : ∀ (i : Nat) (q : Nat → Bool) (root : Bytes) (t : Node) (kvs : KVs) (b : Batch) (ix : Nat) (s : St) (pos ref : List Bool) (σ : Mem), Call c Hp g i q root t kvs b ix s → s.db = db → Rel σ s →
      (g % 4 ≠ 0 → BatchAt σ ref b ∧ ref.length < pos.length) →
      WP Zero (updateP c db g root kvs pos ref ix) σ (Area c Hp g i q pos ref ix) (CallEnds pos ref b σ (update c g root kvs b ix s)))
    (hp : Place g i ix) (hk : SmtStore.Kids c Hp g i ix q l r b s) (hy : Keys Hp i q l r keys) (htn : TOk c Hp (g + 1) (Smt.branch (Smt.update 256 g) i l r keys).1)
    (ho : OldOk c Hp (g + 1) i q root told (Smt.branch (Smt.update 256 g) i l r keys).1)
    (hdb : s.db = db) (hrel : Rel σ s) (hb : BatchAt σ ref b) (hrf : ref.length ≤ pos.length) (ha : Reach c Hp g i ix q ref A) (hpo : ∀ p m, pos <+: p → A (.slot p m)) :
    WP Zero (branchP c db (updateP c db g) root (slotOf c.H g l) (slotOf c.H g r) keys pos ref ix (g + 1)) σ A
      (Ends ref (branch c (update c g) root (slotOf c.H g l) (slotOf c.H g r) keys b ix (g + 1) s)) := by
  have ih0 := update_ok hA hn g
  have hdr := dok_old hA ha.own ho
  by_cases hone : l = .empty ∧ r = .empty ∧ keys.length = 1
  · obtain ⟨rfl, rfl, hlen⟩ := hone
    obtain ⟨⟨k, v0⟩, rfl⟩ := List.length_eq_one_iff.1 hlen
    cases v0 with
    | none => exact absurd (by simp [Smt.get]) (hy.eff (k, none) (by simp))
    | some v =>
      have hbr : Smt.branch (Smt.update 256 g) i .empty .empty [(k, some v)] = (.leaf k v, false) := rfl
      rw [hbr] at htn ho
      have hst : branch c (update c g) root (slotOf c.H g .empty) (slotOf c.H g .empty) [(k, some v)] b ix (g + 1) s =
          (let lh := leafHash c k v root b ix (g + 1) (addRemove root (g + 1) s); some ⟨lh.1, false, lh.2.1, lh.2.2⟩) := rfl
      rw [hst]
      show WP Zero (remP root (g + 1) (leafP c k v root ref ix (g + 1))) σ A _
      refine wp_rem hrel hdr fun σ1 r1 s1 => ?_
      exact wp_leaf r1 (hb.same s1) (room_child hp.room).1 ha.kids ha.top (fun _ => region_slotOf hA ha.own htn (by simp) (hy.inpre (k, some v) (by simp))) hdr
  · have hi : i + (g + 1) = 256 := hp.sum
    have hroom := room_child hp.room
    rw [store_branch_split hone, branchP_split hone, hn, show 256 - (g + 1) = i by omega]
    rw [Smt.branch_split hone] at htn ho
    have hsp := Smt.splitKeys_ok 256 q i keys hy.sorted hy.inpre
    have hne1 := Smt.split_nonempty i keys hy.ne
    generalize Smt.splitKeys i keys = sp at hsp htn ho hne1 ⊢
    obtain ⟨sl, sr⟩ := sp
    simp only at htn ho hne1 ⊢
    have hkeys : sl ++ sr = keys := hsp.append
    have hsl : SortedKVs sl := hy.sorted.sublist (by rw [← hkeys]; exact List.sublist_append_left _ _)
    have hsr : SortedKVs sr := hy.sorted.sublist (by rw [← hkeys]; exact List.sublist_append_right _ _)
    have hml : ∀ p ∈ sl, p ∈ keys := fun p hp => by rw [← hkeys]; simp [hp]
    have hmr : ∀ p ∈ sr, p ∈ keys := fun p hp => by rw [← hkeys]; simp [hp]
    have hk1 : SmtStore.Kids c Hp g i ix q l r b (addRemove root (g + 1) s) := { hk with stl := stored_addRemove hk.stl, str := stored_addRemove hk.str, coh := coh_addRemove hk.coh }
    have htl : TOk c Hp g l := tok_of (i := i + 1) (by omega) hk.wl hk.ll hk.pl
    have htr : TOk c Hp g r := tok_of (i := i + 1) (by omega) hk.wr hk.lr hk.pr
    have hleaf : ∀ (t : Node) (sub : KVs), AllLeaves (LP Hp) t → (∀ p ∈ sub, p ∈ keys) → AllLeaves (LP Hp) (Smt.update 256 g t sub).1 :=
      fun t sub ht hs => Smt.update_leaves 256 g t sub ht (fun k v h => hy.kv k v (hs _ h))
    have hself : ∀ p ∈ keys, p ∈ keys := fun _ h => h
    have hdb1 : (addRemove root (g + 1) s).db = db := by rw [← hdb]; unfold addRemove; split <;> rfl
    refine wp_rem hrel hdr fun σ1 r1 s1 => ?_
    have hb1 := hb.same s1
    have hlt : ∀ e : Bool, ref.length < (pos ++ [e]).length := fun e => by simp; omega
    cases sl with
    | nil =>
      cases sr with
      | nil => exact absurd ⟨rfl, rfl⟩ hne1
      | cons a sr =>
        simp only [List.isEmpty_nil, List.isEmpty_cons, Bool.not_false, Bool.and_true, if_true] at htn ho ⊢
        have hbit : ∀ p ∈ keys, bitIsSet p.1 i = true := by rw [← hkeys]; exact hsp.right
        have hpr := (pre_join hk.ll (hleaf r keys hk.lr hself) htn.pre).2
        have hcall := call_right hp hk1 hy hself hy.sorted hy.ne hbit hpr
        have hspec := hcall.spec
        obtain ⟨res, e1, e2, e3, e4⟩ := ih0 _ _ _ _ _ _ _ _ hcall
        have e3 := e3 hk.len
        obtain ⟨f1, f2⟩ := kids_right hA hp hk1 e2 e3
        refine wp_bind (area_right ha hpo) (WP.mono (ih _ _ _ _ _ _ _ _ (pos ++ [true]) ref σ1 hcall hdb1 r1 (fun _ => ⟨hb1, hlt _⟩)) ?_)
        rintro rr σ2 ⟨res1, m1, rfl, m3, m4⟩
        rw [e1] at m1
        cases m1
        rw [e1]
        dsimp only [oneSide]
        rw [e2.node, e2.deleted, ← hdb1, ← e2.frame.db]
        exact wp_join hA hp f1 e3.shape htl (tok_of (i := i + 1) (by omega) hspec.wf (hleaf r keys hk.lr hself) hpr) htn (inpre_up hk.wl) (inpre_up hspec.wf) f2 e2.stored e2.coh ho m3 (m4 (hlt _) hb1) ha
    | cons a0 sl =>
      cases sr with
      | nil =>
        simp only [List.isEmpty_nil, List.isEmpty_cons, Bool.not_false, Bool.and_true, if_true, Bool.false_and, Bool.false_eq_true, if_false, Bool.not_true] at htn ho ⊢
        have hbit : ∀ p ∈ keys, bitIsSet p.1 i = false := by rw [← hkeys, List.append_nil]; exact hsp.left
        have hpl := (pre_join (hleaf l keys hk.ll hself) hk.lr htn.pre).1
        have hcall := call_left hp hk1 hy hself hy.sorted hy.ne hbit hpl
        have hspec := hcall.spec
        obtain ⟨res, e1, e2, e3, e4⟩ := ih0 _ _ _ _ _ _ _ _ hcall
        have e3 := e3 hk.len
        obtain ⟨f1, _, f2⟩ := kids_left hA hp hk1 e2 e3 hspec.wf
        refine wp_bind (area_left ha hpo) (WP.mono (ih _ _ _ _ _ _ _ _ (pos ++ [false]) ref σ1 hcall hdb1 r1 (fun _ => ⟨hb1, hlt _⟩)) ?_)
        rintro rr σ2 ⟨res1, m1, rfl, m3, m4⟩
        rw [e1] at m1
        cases m1
        rw [e1]
        dsimp only [oneSide]
        rw [e2.node, e2.deleted, ← hdb1, ← e2.frame.db]
        exact wp_join hA hp e3.shape f1 (tok_of (i := i + 1) (by omega) hspec.wf (hleaf l keys hk.ll hself) hpl) htr htn (inpre_up hspec.wf) (inpre_up hk.wr) e2.stored f2 e2.coh ho m3 (m4 (hlt _) hb1) ha
      | cons a sr =>
        simp only [List.isEmpty_cons, Bool.false_and, Bool.and_false, Bool.false_eq_true, if_false] at htn ho ⊢
        obtain ⟨hpl, hpr⟩ := pre_join (hleaf l _ hk.ll hml) (hleaf r _ hk.lr hmr) htn.pre
        have hcall := call_left hp hk1 hy hml hsl (by simp) hsp.left hpl
        have hspec := hcall.spec
        obtain ⟨res, e1, e2, e3, e4⟩ := ih0 _ _ _ _ _ _ _ _ hcall
        have e3 := e3 hk.len
        obtain ⟨f1, f3, f2⟩ := kids_left hA hp hk1 e2 e3 hspec.wf
        have hcall' : Call c Hp g (i + 1) (ext q i true) (slotOf c.H g r) r (a :: sr) res.batch (2 * ix + 2) res.st := by
          have hc0 := call_right hp hk1 hy hmr hsr (by simp) hsp.right hpr
          exact { hc0 with batch := fun _ => ⟨e3.len, f3, f1, by omega, hroom.2.2.2⟩, stored := f2, coh := e2.coh }
        have hspec' := hcall'.spec
        obtain ⟨res', e1', e2', e3', e4'⟩ := ih0 _ _ _ _ _ _ _ _ hcall'
        have e3' := e3' e3.len
        obtain ⟨z1, z2⟩ := zone_facts hroom.2.1 hroom.1
        have htl' : TOk c Hp g (Smt.update 256 g l (a0 :: sl)).1 := tok_of (i := i + 1) (by omega) hspec.wf (hleaf l _ hk.ll hml) hpl
        have g1 : Shape c.H (g % 4) res'.batch (2 * ix + 1) g (Smt.update 256 g l (a0 :: sl)).1 := shape_congr (fun m hm => e3'.other m (fun h => (z1 m hm).1 h)) e3.shape
        have g2 : Stored c res'.st g (Smt.update 256 g l (a0 :: sl)).1 := stored_frame hA e2'.frame htl' (wf_inpre hspec.wf) e2.stored
        refine wp_par (area_left ha hpo) (area_right ha hpo) (area_disj hA hp hrf) (WP.mono (ih _ _ _ _ _ _ _ _ (pos ++ [false]) ref σ1 hcall hdb1 r1 (fun _ => ⟨hb1, hlt _⟩)) ?_)
        rintro rr σ2 ⟨res1, m1, rfl, m3, m4⟩
        rw [e1] at m1
        cases m1
        have hb2 := m4 (hlt _) hb1
        have hdb2 : res.st.db = db := by rw [e2.frame.db, hdb1]
        refine WP.mono (ih _ _ _ _ _ _ _ _ (pos ++ [true]) ref σ2 hcall' hdb2 m3 (fun _ => ⟨hb2, hlt _⟩)) ?_
        rintro rr σ3 ⟨res1, n1, rfl, n3, n4⟩
        rw [e1'] at n1
        cases n1
        rw [e1]
        dsimp only
        rw [e1']
        dsimp only [twoSides]
        rw [e2.node, e2.deleted, e2'.node, e2'.deleted, ← hdb2, ← e2'.frame.db]
        exact wp_join hA hp g1 e3'.shape htl' (tok_of (i := i + 1) (by omega) hspec'.wf (hleaf r _ hk.lr hmr) hpr) htn (inpre_up hspec.wf) (inpre_up hspec'.wf) g2 e2'.stored e2'.coh ho n3 (n4 (hlt _) hb2) ha

/-- The batch that `loadChildren` returns: of this position, or of the caller. -/
def refAt (h : Nat) (pos ref : List Bool) : List Bool := if h % 4 = 0 then pos else ref

theorem reach_area {g i ix j : Nat} {q : Nat → Bool} {pos ref : List Bool} (hj : (g + 1) % 4 ≠ 0 → j = ix) : Reach c Hp g i j q (refAt (g + 1) pos ref) (Area c Hp (g + 1) i q pos ref ix) := by
  unfold refAt
  refine ⟨fun d h => ⟨h, h, h⟩, fun m hm => ?_, fun h4 m _ => ?_⟩
  · by_cases h4 : (g + 1) % 4 = 0
    · rw [if_pos h4]; exact Or.inl (List.prefix_refl _)
    · rw [if_neg h4]
      rw [hj h4, show g % 4 + 1 = (g + 1) % 4 by omega] at hm
      exact Or.inr ⟨h4, rfl, Or.inr hm⟩
  · rw [if_pos h4]; exact Or.inl (List.prefix_refl _)

theorem wp_kids (hA : NoAccident c.H Hp) {g i ix : Nat} {q : Nat → Bool} {root : Bytes} {t : Node} {b : Batch} {ld : Loaded} {pos ref : List Bool} {k : Option Kids → Prog} {db : Bytes → Option Bytes}
    (hr : RootOk c root (g + 1) t) (ht : TOk c Hp (g + 1) t) (hl : AllLeaves (fun k _ => InPre 256 q i k) t) (e1 : loadChildren c root (g + 1) ix b s = some ld) (e2 : LoadOk c Hp g i ix t b s ld)
    (hdb : s.db = db) (hrel : Rel σ s) (hb : (g + 1) % 4 ≠ 0 → BatchAt σ ref b)
    (hk : ∀ σ', Rel σ' ld.st → BatchAt σ' (refAt (g + 1) pos ref) ld.batch →
      WP Zero (k (some ⟨refAt (g + 1) pos ref, ld.i, ld.l, ld.r, ld.isShortcut⟩)) σ' (Area c Hp (g + 1) i q pos ref ix) Q) :
    WP Zero (kidsP c db root (g + 1) pos ref ix k) σ (Area c Hp (g + 1) i q pos ref ix) Q := by
  subst hdb
  have hlen := e2.len
  have hplace := e2.place
  have hinner := e2.inner
  have hpos : ∀ m, Area c Hp (g + 1) i q pos ref ix (.slot pos m) := fun m => Or.inl (List.prefix_refl _)
  unfold loadChildren at e1
  unfold kidsP
  unfold refAt at hk
  by_cases h4 : (g + 1) % 4 = 0
  · rw [if_pos h4] at e1 hk ⊢
    by_cases h0 : root.length = 0
    · rw [if_pos h0] at e1 ⊢
      cases e1
      exact wp_putBatch hpos hrel hlen hk
    · rw [if_neg h0] at e1 ⊢
      have hte : t ≠ .empty := fun he => h0 (by rw [(rootOk_empty hr he).1]; rfl)
      obtain ⟨a1, a2, a3⟩ := rootOk_hash hA hr hte
      have hreg : Region (Area c Hp (g + 1) i q pos ref ix) (toHash root) := by
        rw [a1]
        have : Own c Hp i q (digest c.H (g + 1) t) := ⟨_, t, ht, hte, hl, rfl⟩
        exact ⟨this, this, this⟩
      cases hlb : loadBatch c root (g + 1) s with
      | none => rw [hlb] at e1; cases e1
      | some bs =>
        obtain ⟨b1, s1⟩ := bs
        rw [hlb] at e1
        cases e1
        refine wp_load hrel hreg (by rw [a1, a2]) hlb fun σ1 r1 s1' => ?_
        exact wp_putBatch hpos r1 hlen hk
  · rw [if_neg h4] at e1 hk ⊢
    cases e1
    have hb := hb h4
    have hi15 := (room_child hplace.room).1
    dsimp only at hi15
    have hz := (reach_area (c := c) (Hp := Hp) (g := g) (i := i) (q := q) (pos := pos) (ref := ref) (ix := ix) (j := ix) (fun _ => rfl)).kids
    unfold refAt at hz
    rw [if_neg h4] at hz
    refine wp_getSlot hb (by omega) (Or.inr ⟨h4, rfl, Or.inl rfl⟩) (wp_getSlot hb (by omega) (hz _ (Or.inl rfl)) (wp_getSlot hb (by omega) (hz _ (Or.inr rfl)) ?_))
    exact hk σ hrel hb

/-- From the end of the part after loading to the end of the call. -/
theorem call_ends {p : Prog} {h i ix : Nat} {q : Nat → Bool} {pos ref : List Bool} {b : Batch} {o : Option Res} (h1 : WP Zero p σ (Area c Hp h i q pos ref ix) (Ends (refAt h pos ref) o)) :
    WP Zero p σ (Area c Hp h i q pos ref ix) (CallEnds pos ref b σ (keepBatch h b o)) := by
  obtain ⟨hs, res, rfl, e2, e3, e4⟩ := h1
  refine ⟨hs, ?_⟩
  unfold keepBatch
  unfold refAt at e4
  rw [Option.map_some]
  by_cases h4 : h % 4 = 0
  · rw [if_pos h4] at e4 ⊢
    refine ⟨_, rfl, e2, e3, fun hlt hb => ⟨hb.1, fun m hm => ?_⟩⟩
    rw [ev_frame p σ _ hs (.slot ref m) ?_ ?_]
    · exact hb.2 m hm
    · rintro (h | ⟨h, _⟩)
      · have := h.length_le; omega
      · exact h h4
    · rintro (h | h) <;> cases h
  · rw [if_neg h4] at e4 ⊢
    exact ⟨_, rfl, e2, e3, fun _ _ => e4⟩

theorem wp_update_zero (hA : NoAccident c.H Hp) {i ix : Nat} {q : Nat → Bool} {root : Bytes} {t : Node} {kvs : KVs} {b : Batch} {db : Bytes → Option Bytes} {pos ref : List Bool} (hc : Call c Hp 0 i q root t kvs b ix s)
    (hrel : Rel σ s) : WP Zero (updateP c db 0 root kvs pos ref ix) σ (Area c Hp 0 i q pos ref ix) (CallEnds pos ref b σ (update c 0 root kvs b ix s)) := by
  obtain ⟨ho, htn, hto⟩ := hc.old hA
  have hown : ∀ d, Own c Hp i q d → Region (Area c Hp 0 i q pos ref ix) d := fun d h => ⟨h, h, h⟩
  match hk : kvs, hc.ne with
  | (k, none) :: rest, _ =>
    exact wp_del hrel (dok_old hA hown ho) fun σ1 r1 s1 => wp_ret ⟨_, rfl, rfl, r1, fun _ hb => hb.same s1⟩
  | (k, some v) :: rest, _ =>
    have hup : Smt.update 256 0 t ((k, some v) :: rest) = (.leaf k v, false) := rfl
    rw [hup] at ho htn
    exact wp_store hrel (region_slotOf hA hown htn (by simp) (hc.inpre (k, some v) (by simp))) (dok_old hA hown ho) fun σ1 r1 s1 => wp_ret ⟨_, rfl, rfl, r1, fun _ hb => hb.same s1⟩

/-- The program `update` runs safely in its area, and computes `update` of `Verif.Model.SmtStore`. -/
theorem wp_update (hA : NoAccident c.H Hp) (hn : c.n = 256) (db : Bytes → Option Bytes) : ∀ (h i : Nat) (q : Nat → Bool) (root : Bytes) (t : Node) (kvs : KVs) (b : Batch) (ix : Nat) (s : St) (pos ref : List Bool) (σ : Mem),
    Call c Hp h i q root t kvs b ix s → s.db = db → Rel σ s → (h % 4 ≠ 0 → BatchAt σ ref b ∧ ref.length < pos.length) →
    WP Zero (updateP c db h root kvs pos ref ix) σ (Area c Hp h i q pos ref ix) (CallEnds pos ref b σ (update c h root kvs b ix s)) := by
  intro h
  induction h with
  | zero => intro i q root t kvs b ix s pos ref σ hc hdb hrel _; exact wp_update_zero hA hc hrel
  | succ g ih =>
    intro i q root t kvs b ix s pos ref σ hc hdb hrel hb
    obtain ⟨ho, htn, hto⟩ := hc.old hA
    obtain ⟨ld, e1, e2⟩ := load_ok hA hc.sum hto hc.rootOk hc.batch hc.stored hc.coh
    have hi : 256 - (g + 1) = i := by have := hc.sum; omega
    obtain ⟨kv, rest, hkv⟩ : ∃ kv rest, kvs = kv :: rest := by
      cases hk : kvs with
      | nil => exact absurd hk hc.ne
      | cons kv rest => exact ⟨kv, rest, rfl⟩
    have hupd : update c (g + 1) root kvs b ix s = keepBatch (g + 1) b (afterLoad c (update c g) root kvs (g + 1) ld) := by
      subst hkv
      simp only [update, e1]
    have hprog : updateP c db (g + 1) root kvs pos ref ix = kidsP c db root (g + 1) pos ref ix fun ok =>
        match ok with
        | none => .ret none
        | some ld => afterP c db (updateP c db g) root kvs pos (g + 1) ld := by
      subst hkv; simp only [updateP]
      congr 1
    have htree := tree_update (g := g) (t := t) hc.ne hi
    rw [hupd, hprog]
    apply call_ends
    refine wp_kids hA hc.rootOk hto (wf_inpre hc.wf) e1 e2 hdb hrel (fun h => (hb h).1) fun σ1 r1 b1 => ?_
    dsimp only
    have hempre : Pre c.H Hp g .empty := fun x hx => by simp [preimages] at hx
    have hreach : Reach c Hp g i ld.i q (refAt (g + 1) pos ref) (Area c Hp (g + 1) i q pos ref ix) := reach_area (fun h => (e2.inner h).2)
    have hpo : ∀ p m, pos <+: p → Area c Hp (g + 1) i q pos ref ix (.slot p m) := fun p m h => Or.inl h
    have hrf : (refAt (g + 1) pos ref).length ≤ pos.length := by
      unfold refAt
      split
      · exact Nat.le_refl _
      · rename_i h4; exact Nat.le_of_lt (hb h4).2
    have hdb1 : ld.st.db = db := by rw [e2.same.db, hdb]
    generalize refAt (g + 1) pos ref = rf at b1 hreach hrf ⊢
    unfold afterLoad afterP
    dsimp only
    rw [e2.shortcut]
    cases t with
    | empty =>
      rw [htree] at htn ho
      simp only [Node.isLeaf, Bool.false_eq_true, if_false] at htn ho ⊢
      have hcl := clean_succ.1 (shape_empty.1 e2.shape)
      rw [show ld.l = slotOf c.H g .empty by rw [e2.l, hcl.1]; rfl, show ld.r = slotOf c.H g .empty by rw [e2.r, hcl.2.1]; rfl]
      exact wp_branch hA hn (told := .empty) (l := .empty) (r := .empty) ih e2.place
        ⟨e2.len, hcl.1, hcl.2.1, shape_empty.2 hcl.2.2.1, shape_empty.2 hcl.2.2.2, trivial, trivial, trivial, trivial, hempre, hempre, trivial, trivial, e2.coh⟩
        ⟨hc.sorted, hc.ne, hc.inpre, Smt.not_midDelete_empty, fun p hp => by rw [Smt.get_empty_kids]; exact hc.eff p hp, hc.kv⟩ htn ho hdb1 r1 b1 hrf hreach hpo
    | node l r =>
      rw [htree] at htn ho
      simp only [Node.isLeaf, Bool.false_eq_true, if_false] at htn ho ⊢
      obtain ⟨h1, h2, h3, h4⟩ := e2.shape
      rw [show g + 1 - 1 = g from rfl] at h1 h2 h3 h4
      rw [e2.l, e2.r, h1, h2]
      obtain ⟨_, hwl, hwr, hkids⟩ := hc.wf
      have hst := stored_same e2.same hc.stored
      exact wp_branch hA hn (told := .node l r) ih e2.place
        ⟨e2.len, h1, h2, h3, h4, hwl, hwr, hc.leaves.1, hc.leaves.2, hc.pre.left, hc.pre.right, hst.2.1, hst.2.2, e2.coh⟩
        ⟨hc.sorted, hc.ne, hc.inpre, hc.mid, hc.eff, hc.kv⟩ htn ho hdb1 r1 b1 hrf hreach hpo
    | leaf k v =>
      rw [htree] at htn ho
      simp only [Node.isLeaf, if_true] at htn ho ⊢
      obtain ⟨h1, h2, h3, h4⟩ := e2.shape
      have hsz : k.length = 32 ∧ v.length = 32 := hto.sized
      rw [e2.l, e2.r, h1, h2, take_key hsz.1, take_key hsz.2]
      have hm : Smt.MergedKV k v kvs (Smt.maybeAdd k v kvs) := by
        apply Smt.maybeAdd_merged k v kvs hc.sorted hc.ne
        rintro hdel ⟨⟨a, ha, ha1⟩, b', hb, hb1⟩
        exact hc.mid ⟨k, hdel, by simp [Smt.get], ⟨a, ha, ha1, (hc.inpre a ha).samePrefix (hc.inpre _ hdel)⟩, b', hb, hb1, (hc.inpre b' hb).samePrefix (hc.inpre _ hdel)⟩
      have hi15 := (room_child e2.place.room).1
      -- the slots of the leaf, and the rest
      have hrest : ∀ (s1 : St) (σ2 : Mem), Coh c Hp s1 → s1.db = db → Rel σ2 s1 → BatchAt σ2 rf ld.batch →
          WP Zero (putSlot rf (2 * ld.i + 1) [] (putSlot rf (2 * ld.i + 2) [] (if (Smt.maybeAdd k v kvs).isEmpty then .ret (some ⟨[], true⟩)
            else branchP c db (updateP c db g) root [] [] (Smt.maybeAdd k v kvs) pos rf ld.i (g + 1)))) σ2 (Area c Hp (g + 1) i q pos ref ix)
            (Ends rf (if (Smt.maybeAdd k v kvs).isEmpty then some ⟨[], true, (ld.batch.set (2 * ld.i + 1) []).set (2 * ld.i + 2) [], s1⟩
              else branch c (update c g) root [] [] (Smt.maybeAdd k v kvs) ((ld.batch.set (2 * ld.i + 1) []).set (2 * ld.i + 2) []) ld.i (g + 1) s1)) := by
        intro s1 σ2 hcoh1 hdb2 r2 b2
        refine wp_putSlot r2 b2 (by omega) (hreach.kids _ (Or.inl rfl)) fun σ3 r3 b3 => wp_putSlot r3 b3 (by omega) (hreach.kids _ (Or.inr rfl)) fun σ4 r4 b4 => ?_
        obtain ⟨k1, k2, k3⟩ := shape_kids (c := c) (h := g) (l := .empty) (r := .empty) e2.len e2.place.room (shape_empty.2 h3) (shape_empty.2 h4)
        have hcomm : (ld.batch.set (2 * ld.i + 1) []).set (2 * ld.i + 2) [] = (ld.batch.set (2 * ld.i + 2) (slotOf c.H g .empty)).set (2 * ld.i + 1) (slotOf c.H g .empty) := by
          rw [List.set_comm _ _ (by omega)]; rfl
        rw [hcomm] at b4 ⊢
        generalize (ld.batch.set (2 * ld.i + 2) (slotOf c.H g .empty)).set (2 * ld.i + 1) (slotOf c.H g .empty) = bb at k1 k2 k3 b4 ⊢
        by_cases hemp : (Smt.maybeAdd k v kvs).isEmpty = true
        · rw [if_pos hemp, if_pos hemp]
          exact wp_ret ⟨_, rfl, rfl, r4, b4⟩
        · simp only [if_neg hemp] at htn ho ⊢
          have hmem := Smt.maybeAdd_mem k v kvs
          have hkeys : Keys Hp i q .empty .empty (Smt.maybeAdd k v kvs) := by
            refine ⟨hm.sorted, by simpa using hemp, ?_, Smt.not_midDelete_empty, ?_, ?_⟩
            · intro p hp
              rcases hmem p hp with h | h
              · exact hc.inpre p h
              · rw [h]; exact hc.wf
            · intro p hp
              rw [Smt.get_empty_kids]
              simp only [Smt.get]
              obtain ⟨k', v'⟩ := p
              cases v' with
              | some v' => simp
              | none =>
                exfalso
                obtain ⟨n1, n2⟩ := (hm.mem_none k').1 hp
                have := hc.eff _ n1
                simp only [Smt.get] at this
                rw [if_neg (fun h => n2 h.symm)] at this
                exact this rfl
            · intro k' v' hp
              rcases hmem _ hp with h | h
              · exact hc.kv k' v' h
              · cases h; exact hc.leaves
          exact wp_branch hA hn (told := .leaf k v) (l := .empty) (r := .empty) ih e2.place
            ⟨k1, k2.1, k2.2.1, k2.2.2.1, k2.2.2.2, trivial, trivial, trivial, trivial, hempre, hempre, trivial, trivial, hcoh1⟩
            hkeys htn ho hdb2 r4 b4 hrf hreach hpo
      by_cases h0 : ld.i = 0
      · rw [if_pos h0, if_pos h0]
        refine wp_del r1 (dok_old hA hreach.own ho) fun σ2 r2 s2 => ?_
        exact hrest _ σ2 (coh_delete e2.coh _ _ _) hdb1 r2 (b1.same s2)
      · rw [if_neg h0, if_neg h0]
        exact hrest _ σ1 e2.coh hdb1 r1 b1

end Fpki.SmtPar
