import Verif.Lemmas.SmtParFree
import Verif.Lemmas.SmtStoreCommit

/-!
# The sequential run of the program is `SmtStore.update`, and it is safe
-/
namespace Fpki.SmtPar

open Fpki.Smt (Node KVs Key byteOf digest preimages AllLeaves Sized NoHole Fits InPre WF ext walk SortedKVs MidDelete parseBatch maybeAdd)
open Fpki.SmtStore

/-! ## Weakest preconditions -/

/-- The sequential run is safe and ends with `Q`. -/
def WP (Z : Loc → Prop) (p : Prog) (σ : Mem) (A : Loc → Prop) (Q : R → Mem → Prop) : Prop := Safe Z p σ A ∧ Q (ev p σ).1 (ev p σ).2

variable {Z : Loc → Prop} {A : Loc → Prop} {σ : Mem} {Q : R → Mem → Prop}

theorem wp_ret {r : R} (h : Q r σ) : WP Z (.ret r) σ A Q := ⟨True.intro, h⟩

theorem wp_get {l : Loc} {k : Cell → Prog} (hl : A l) (h : WP Z (k (σ l)) σ A Q) : WP Z (.get l k) σ A Q := ⟨⟨hl, h.1⟩, h.2⟩

theorem wp_put {l : Loc} {v : Cell} {k : Prog} (hl : A l ∨ (Z l ∧ v = .none)) (h : WP Z k (σ.set l v) A Q) : WP Z (.put l v k) σ A Q := ⟨⟨hl, h.1⟩, h.2⟩

theorem WP.mono {p : Prog} {Q' : R → Mem → Prop} (h : WP Z p σ A Q) (hq : ∀ r σ', Q r σ' → Q' r σ') : WP Z p σ A Q' := ⟨h.1, hq _ _ h.2⟩

theorem ev_bind : ∀ (p : Prog) (f : R → Prog) (σ : Mem), ev (p.bind f) σ = ev (f (ev p σ).1) (ev p σ).2
  | .ret _, _, _ => rfl
  | .get l k, f, σ => ev_bind (k (σ l)) f σ
  | .put l v k, f, σ => ev_bind k f (σ.set l v)
  | .par _ _ p q k, f, σ => ev_bind (k _ _) f _

theorem safe_bind : ∀ (p : Prog) (f : R → Prog) (σ : Mem), Safe Z p σ A → Safe Z (f (ev p σ).1) (ev p σ).2 A → Safe Z (p.bind f) σ A
  | .ret _, _, _, _, h2 => h2
  | .get l k, f, σ, h1, h2 => ⟨h1.1, safe_bind (k (σ l)) f σ h1.2 h2⟩
  | .put l v k, f, σ, h1, h2 => ⟨h1.1, safe_bind k f (σ.set l v) h1.2 h2⟩
  | .par _ _ p q k, f, σ, ⟨A1, A2, s1, s2, hd, h1, h3, h4⟩, h2 => ⟨A1, A2, s1, s2, hd, h1, h3, safe_bind (k _ _) f _ h4 h2⟩

theorem wp_bind {p : Prog} {f : R → Prog} {B : Loc → Prop} (hB : ∀ l, B l → A l) (h : WP Z p σ B (fun r σ1 => WP Z (f r) σ1 A Q)) : WP Z (p.bind f) σ A Q := by
  obtain ⟨h1, h2, h3⟩ := h
  refine ⟨safe_bind p f σ (safe_mono _ _ B A hB h1) h2, ?_⟩
  rw [ev_bind]; exact h3

theorem wp_par {nl nr : Nat} {p q : Prog} {k : R → R → Prog} {A1 A2 : Loc → Prop} (s1 : ∀ l, A1 l → A l) (s2 : ∀ l, A2 l → A l) (hd : ∀ l, A1 l → ¬ A2 l)
    (h : WP Z p σ A1 (fun a σ1 => WP Z q σ1 A2 (fun b σ2 => WP Z (k a b) σ2 A Q))) : WP Z (.par nl nr p q k) σ A Q := by
  obtain ⟨h1, h2, h3, h4⟩ := h
  exact ⟨⟨A1, A2, s1, s2, hd, h1, h2, h3⟩, h4⟩

/-! ## Memory and state -/

/-- The caches in the memory. -/
structure Rel (σ : Mem) (s : St) : Prop where
  live : ∀ d, σ (.live d) = toCell (s.live d)
  upd : ∀ d, σ (.upd d) = toCell (s.upd d)
  rem : ∀ d, (d ∈ s.removed → σ (.rem d) = .present) ∧ (d ∉ s.removed → σ (.rem d) = .none)

/-- The slots are the same. -/
def SameSlots (σ σ' : Mem) : Prop := ∀ p m, σ' (.slot p m) = σ (.slot p m)

/-- The batch of a position is in the memory. -/
def BatchAt (σ : Mem) (p : List Bool) (b : Batch) : Prop := b.length = 31 ∧ ∀ m, m < 31 → σ (.slot p m) = .bytes (slot b m)

theorem BatchAt.same {σ σ' : Mem} {p : List Bool} {b : Batch} (h : BatchAt σ p b) (hs : SameSlots σ σ') : BatchAt σ' p b := ⟨h.1, fun m hm => by rw [hs]; exact h.2 m hm⟩

/-- The places for the hash that stands for nil. -/
def Zero (l : Loc) : Prop := l = .upd (List.replicate 32 0) ∨ l = .live (List.replicate 32 0)

/-- The entries of a digest. -/
def Region (A : Loc → Prop) (d : Bytes) : Prop := A (.live d) ∧ A (.upd d) ∧ A (.rem d)

/-- The entries of a digest may be emptied. -/
def DOk (A : Loc → Prop) (d : Bytes) : Prop := d = List.replicate 32 0 ∨ Region A d

theorem toCell_mapSet (f : Bytes → Option Batch) (d x : Bytes) (v : Option Batch) : toCell (mapSet f d v x) = if x = d then toCell v else toCell (f x) := by
  unfold mapSet; split <;> rfl

theorem rel_setUpd {σ : Mem} {s : St} (h : Rel σ s) (d : Bytes) (v : Option Batch) : Rel (σ.set (.upd d) (toCell v)) { s with upd := mapSet s.upd d v } := by
  refine ⟨fun x => ?_, fun x => ?_, fun x => ?_⟩
  · rw [set_other _ _ (by simp)]; exact h.live x
  · show _ = toCell (mapSet s.upd d v x)
    rw [toCell_mapSet]
    by_cases hx : x = d
    · rw [if_pos hx, hx, set_same]
    · rw [if_neg hx, set_other _ _ (by simpa using hx)]; exact h.upd x
  · rw [set_other _ _ (by simp)]; exact h.rem x

theorem rel_setLive {σ : Mem} {s : St} (h : Rel σ s) (d : Bytes) (v : Option Batch) : Rel (σ.set (.live d) (toCell v)) { s with live := mapSet s.live d v } := by
  refine ⟨fun x => ?_, fun x => ?_, fun x => ?_⟩
  · show _ = toCell (mapSet s.live d v x)
    rw [toCell_mapSet]
    by_cases hx : x = d
    · rw [if_pos hx, hx, set_same]
    · rw [if_neg hx, set_other _ _ (by simpa using hx)]; exact h.live x
  · rw [set_other _ _ (by simp)]; exact h.upd x
  · rw [set_other _ _ (by simp)]; exact h.rem x

theorem rel_setRem {σ : Mem} {s : St} (h : Rel σ s) (d : Bytes) : Rel (σ.set (.rem d) .present) { s with removed := d :: s.removed } := by
  refine ⟨fun x => ?_, fun x => ?_, fun x => ?_⟩
  · rw [set_other _ _ (by simp)]; exact h.live x
  · rw [set_other _ _ (by simp)]; exact h.upd x
  · by_cases hx : x = d
    · subst hx
      rw [set_same]
      exact ⟨fun _ => rfl, fun h => absurd (List.mem_cons_self) h⟩
    · rw [set_other _ _ (by simpa using hx)]
      exact ⟨fun h' => (h.rem x).1 ((List.mem_cons.1 h').resolve_left hx), fun h' => (h.rem x).2 (fun h'' => h' (List.mem_cons_of_mem _ h''))⟩

theorem rel_setSlot {σ : Mem} {s : St} (h : Rel σ s) (p : List Bool) (m : Nat) (v : Cell) : Rel (σ.set (.slot p m) v) s := by
  refine ⟨fun x => ?_, fun x => ?_, fun x => ?_⟩
  · rw [set_other _ _ (by simp)]; exact h.live x
  · rw [set_other _ _ (by simp)]; exact h.upd x
  · rw [set_other _ _ (by simp)]; exact h.rem x

theorem same_set {σ σ' : Mem} (h : SameSlots σ σ') {l : Loc} {v : Cell} (hl : ∀ p m, l ≠ .slot p m) : SameSlots σ (σ'.set l v) := by
  intro p m
  rw [set_other _ _ (fun he => hl p m he.symm)]
  exact h p m

theorem SameSlots.refl (σ : Mem) : SameSlots σ σ := fun _ _ => rfl

theorem SameSlots.trans {σ σ' σ'' : Mem} (h : SameSlots σ σ') (h' : SameSlots σ' σ'') : SameSlots σ σ'' := fun p m => (h' p m).trans (h p m)

/-! ## Parts of the program -/

variable {c : Cfg} {s : St}

theorem wp_del {root : Bytes} {h : Nat} {mv : Bool} {k : Prog} (hr : Rel σ s) (hd : DOk A (toHash root))
    (hk : ∀ σ', Rel σ' (deleteOldNode c root h mv s) → SameSlots σ σ' → WP Zero k σ' A Q) : WP Zero (delP c root h mv k) σ A Q := by
  have hlive : ∀ (σ1 : Mem) (s1 : St), Rel σ1 s1 → SameSlots σ σ1 → deleteOldNode c root h mv s = { s1 with live := if c.lim ≤ h then mapSet s1.live (toHash root) none else s1.live } →
      WP Zero (if c.lim ≤ h then .put (.live (toHash root)) .none k else k) σ1 A Q := by
    intro σ1 s1 h1 h2 h3
    rw [h3] at hk
    by_cases hl : c.lim ≤ h
    · rw [if_pos hl] at hk ⊢
      apply wp_put
      · rcases hd with hd | hd
        · exact Or.inr ⟨Or.inr (by rw [hd]), rfl⟩
        · exact Or.inl hd.1
      · exact hk _ (rel_setLive h1 (toHash root) none) (same_set h2 (by simp))
    · rw [if_neg hl] at hk ⊢
      exact hk _ h1 h2
  unfold delP
  dsimp only
  by_cases hm : (!c.atomic || mv) = true
  · rw [if_pos hm]
    apply wp_put
    · rcases hd with hd | hd
      · exact Or.inr ⟨Or.inl (by rw [hd]), rfl⟩
      · exact Or.inl hd.2.1
    · refine hlive _ { s with upd := mapSet s.upd (toHash root) none } (rel_setUpd hr (toHash root) none) (same_set (.refl σ) (by simp)) ?_
      unfold deleteOldNode
      rw [if_pos hm]
  · rw [if_neg hm]
    refine hlive _ s hr (.refl σ) ?_
    unfold deleteOldNode
    rw [if_neg hm]

theorem wp_rem {root : Bytes} {h : Nat} {k : Prog} (hr : Rel σ s) (hd : DOk A (toHash root))
    (hk : ∀ σ', Rel σ' (addRemove root h s) → SameSlots σ σ' → WP Zero k σ' A Q) : WP Zero (remP root h k) σ A Q := by
  unfold remP
  split
  · rename_i h1
    apply wp_put
    · rcases hd with hd | hd
      · exact absurd hd h1.1
      · exact Or.inl hd.2.2
    · apply hk
      · unfold addRemove
        rw [if_pos h1]; exact rel_setRem hr _
      · exact same_set (.refl σ) (by simp)
  · rename_i h1
    apply hk _ _ (.refl σ)
    unfold addRemove
    rw [if_neg h1]; exact hr

theorem wp_store {b : Batch} {new root : Bytes} {h : Nat} {k : Prog} (hr : Rel σ s) (hn : Region A (toHash new)) (hd : DOk A (toHash root))
    (hk : ∀ σ', Rel σ' (storeNode c b new root h s) → SameSlots σ σ' → WP Zero k σ' A Q) : WP Zero (storeP c b new root h k) σ A Q := by
  unfold storeP
  by_cases he : new = root
  · rw [if_pos he]
    apply hk _ _ (.refl σ)
    unfold storeNode
    rw [if_pos he]; exact hr
  · rw [if_neg he]
    have hst : storeNode c b new root h s = deleteOldNode c root h false
        { s with upd := mapSet s.upd (toHash new) (some b), live := if c.lim ≤ h then mapSet s.live (toHash new) (some b) else s.live } := by
      unfold storeNode; rw [if_neg he]
    rw [hst] at hk
    have h1 := rel_setUpd hr (toHash new) (some b)
    have s1 : SameSlots σ (σ.set (.upd (toHash new)) (.batch b)) := same_set (.refl σ) (by simp)
    apply wp_put (Or.inl hn.2.1)
    by_cases hl : c.lim ≤ h
    · rw [if_pos hl] at hk ⊢
      apply wp_put (Or.inl hn.1)
      have h2 := rel_setLive h1 (toHash new) (some b)
      exact wp_del h2 hd (fun σ' hr' hs' => hk σ' hr' ((same_set s1 (by simp)).trans hs'))
    · rw [if_neg hl] at hk ⊢
      exact wp_del h1 hd (fun σ' hr' hs' => hk σ' hr' (s1.trans hs'))

theorem wp_load {root : Bytes} {h : Nat} {k : Option Batch → Prog} {b : Batch} {s' : St} (hr : Rel σ s) (hd : Region A (toHash root)) (ht : root.take 32 = toHash root)
    (hld : loadBatch c root h s = some (b, s')) (hk : ∀ σ', Rel σ' s' → SameSlots σ σ' → WP Zero (k (some b)) σ' A Q) : WP Zero (loadP c s.db root h k) σ A Q := by
  unfold loadP
  unfold loadBatch at hld
  apply wp_get hd.1
  rw [hr.live]
  cases hl : s.live (toHash root) with
  | some b1 =>
    rw [hl] at hld
    cases hld
    exact hk σ hr (.refl σ)
  | none =>
    rw [hl] at hld
    dsimp only at hld
    show WP Zero (.get _ _) σ A Q
    apply wp_get hd.2.1
    rw [hr.upd]
    cases hu : s.upd (toHash root) with
    | some b1 =>
      rw [hu] at hld
      cases hld
      exact hk σ hr (.refl σ)
    | none =>
      rw [hu] at hld
      dsimp only at hld
      show WP Zero (readDb c s.db root h k) σ A Q
      unfold readDb
      cases hv : s.db (root.take 32) with
      | none => rw [hv] at hld; cases hld
      | some val =>
        rw [hv] at hld
        dsimp only at hld ⊢
        by_cases h0 : val.length = 0
        · rw [if_pos h0] at hld; cases hld
        · rw [if_neg h0] at hld ⊢
          by_cases hc : c.lim ≤ h ∧ h % 4 = 0
          · rw [if_pos hc] at hld ⊢
            cases hld
            apply wp_put (Or.inl (by rw [ht]; exact hd.1))
            exact hk _ (rel_setLive hr _ (some (parseBatch val))) (same_set (.refl σ) (by simp))
          · rw [if_neg hc] at hld ⊢
            cases hld
            exact hk σ hr (.refl σ)

theorem wp_getSlot {p : List Bool} {m : Nat} {k : Bytes → Prog} {b : Batch} (hb : BatchAt σ p b) (hm : m < 31) (ha : A (.slot p m)) (hk : WP Z (k (slot b m)) σ A Q) : WP Z (getSlot p m k) σ A Q := by
  apply wp_get ha
  rw [hb.2 m hm]; exact hk

theorem batchAt_set {p : List Bool} {m : Nat} {x : Bytes} {b : Batch} (hb : BatchAt σ p b) (hm : m < 31) : BatchAt (σ.set (.slot p m) (.bytes x)) p (b.set m x) := by
  refine ⟨by rw [List.length_set, hb.1], fun j hj => ?_⟩
  rw [slot_set _ _ _ _ (by rw [hb.1]; exact hm)]
  by_cases hjm : j = m
  · rw [if_pos hjm, hjm, set_same]
  · rw [if_neg hjm, set_other _ _ (by simpa using hjm)]; exact hb.2 j hj

theorem wp_putSlot {p : List Bool} {m : Nat} {x : Bytes} {k : Prog} {b : Batch} (hr : Rel σ s) (hb : BatchAt σ p b) (hm : m < 31) (ha : A (.slot p m))
    (hk : ∀ σ', Rel σ' s → BatchAt σ' p (b.set m x) → WP Z k σ' A Q) : WP Z (putSlot p m x k) σ A Q :=
  wp_put (Or.inl ha) (hk _ (rel_setSlot hr p m _) (batchAt_set hb hm))

theorem wp_putFrom {p : List Bool} (ha : ∀ m, A (.slot p m)) {k : Prog} : ∀ {xs : Batch} {m : Nat} {σ : Mem}, Rel σ s →
    (∀ σ', Rel σ' s → (∀ j, (j < xs.length → σ' (.slot p (m + j)) = .bytes (slot xs j))) → (∀ j, j < m → σ' (.slot p j) = σ (.slot p j)) → WP Z k σ' A Q) → WP Z (putFrom p m xs k) σ A Q
  | [], m, σ, hr, hk => hk σ hr (fun j hj => absurd hj (by simp)) (fun _ _ => rfl)
  | x :: xs, m, σ, hr, hk => by
    refine wp_put (Or.inl (ha m)) (wp_putFrom ha (xs := xs) (m := m + 1) (rel_setSlot hr p m _) fun σ' hr' h1 h2 => hk σ' hr' (fun j hj => ?_) (fun j hj => ?_))
    · cases j with
      | zero => rw [Nat.add_zero, h2 m (by omega), set_same]; rfl
      | succ j =>
        rw [show m + (j + 1) = m + 1 + j by omega, h1 j (by simpa using hj)]; rfl
    · rw [h2 j (by omega), set_other _ _ (by simp; omega)]

theorem wp_putBatch {p : List Bool} {b : Batch} {k : Prog} (ha : ∀ m, A (.slot p m)) (hr : Rel σ s) (hb : b.length = 31) (hk : ∀ σ', Rel σ' s → BatchAt σ' p b → WP Z k σ' A Q) : WP Z (putFrom p 0 b k) σ A Q :=
  wp_putFrom ha hr (fun σ' hr' h1 _ => hk σ' hr' ⟨hb, fun m hm => by have := h1 m (by omega); rwa [Nat.zero_add] at this⟩)

theorem slot_drop {b : Batch} {m : Nat} (hm : m < b.length) : b.drop m = slot b m :: b.drop (m + 1) := by
  rw [List.drop_eq_getElem_cons hm]
  unfold slot
  rw [List.getD_eq_getElem?_getD, List.getElem?_eq_getElem hm]
  rfl

theorem wp_getFrom {p : List Bool} {b : Batch} (hb : BatchAt σ p b) (ha : ∀ m, m < 31 → A (.slot p m)) : ∀ {n m : Nat} {k : Batch → Prog}, n + m = 31 → WP Z (k (b.drop m)) σ A Q → WP Z (getFrom p n m k) σ A Q
  | 0, m, k, hm, hk => by
    rw [List.drop_of_length_le (by rw [hb.1]; omega)] at hk
    exact hk
  | n + 1, m, k, hm, hk => by
    rw [slot_drop (by rw [hb.1]; omega)] at hk
    exact wp_getSlot hb (by omega) (ha m (by omega)) (wp_getFrom hb ha (by omega) hk)

theorem wp_getBatch {p : List Bool} {b : Batch} {k : Batch → Prog} (hb : BatchAt σ p b) (ha : ∀ m, m < 31 → A (.slot p m)) (hk : WP Z (k b) σ A Q) : WP Z (getFrom p 31 0 k) σ A Q :=
  wp_getFrom hb ha (by omega) (by rw [List.drop_zero]; exact hk)

/-- What a part of the program has to end with: the result of the model, its state, and its batch. -/
def Ends (ref : List Bool) (o : Option Res) (r : R) (σ' : Mem) : Prop := ∃ res, o = some res ∧ r = some ⟨res.node, res.deleted⟩ ∧ Rel σ' res.st ∧ BatchAt σ' ref res.batch

theorem batchAt_ext {p : List Bool} {b b' : Batch} (hb : BatchAt σ p b) (hl : b'.length = 31) (h : ∀ m, m < 31 → slot b' m = slot b m) : BatchAt σ p b' :=
  ⟨hl, fun m hm => by rw [hb.2 m hm, h m hm]⟩

theorem wp_leaf {k v root : Bytes} {ref : List Bool} {ix h : Nat} {b : Batch} (hr : Rel σ s) (hb : BatchAt σ ref b) (hix : ix < 15) (ha : ∀ m, m = 2 * ix + 1 ∨ m = 2 * ix + 2 → A (.slot ref m))
    (ha0 : h % 4 = 0 → ∀ m, m < 31 → A (.slot ref m)) (hn : h % 4 = 0 → Region A (toHash (c.H (k ++ v ++ [byteOf h]) ++ [1]))) (hd : DOk A (toHash root)) :
    WP Zero (leafP c k v root ref ix h) σ A (Ends ref (some ⟨(leafHash c k v root b ix h s).1, false, (leafHash c k v root b ix h s).2.1, (leafHash c k v root b ix h s).2.2⟩)) := by
  unfold leafP leafHash
  dsimp only
  refine wp_putSlot hr hb (by omega) (ha _ (Or.inr rfl)) fun σ1 r1 b1 => wp_putSlot r1 b1 (by omega) (ha _ (Or.inl rfl)) fun σ2 r2 b2 => ?_
  by_cases h4 : h % 4 = 0
  · rw [if_pos h4, if_pos h4]
    refine wp_putSlot r2 b2 (by omega) (ha0 h4 0 (by omega)) fun σ3 r3 b3 => wp_getBatch b3 (ha0 h4) ?_
    refine wp_store r3 (hn h4) hd fun σ4 r4 s4 => wp_ret ⟨_, rfl, rfl, r4, b3.same s4⟩
  · rw [if_neg h4, if_neg h4]
    exact wp_ret ⟨_, rfl, rfl, r2, b2⟩

theorem wp_interior {left right root : Bytes} {ref : List Bool} {ix h : Nat} {b : Batch} (hr : Rel σ s) (hb : BatchAt σ ref b) (hix : ix < 15) (ha : ∀ m, m = 2 * ix + 1 ∨ m = 2 * ix + 2 → A (.slot ref m))
    (ha0 : h % 4 = 0 → ∀ m, m < 31 → A (.slot ref m)) (hn : h % 4 = 0 → Region A (toHash (c.H (child left ++ child right) ++ [0]))) (hd : DOk A (toHash root)) :
    WP Zero (interiorP c left right root ref ix h) σ A
      (Ends ref (some ⟨(interiorHash c left right root b ix h s).1, false, (interiorHash c left right root b ix h s).2.1, (interiorHash c left right root b ix h s).2.2⟩)) := by
  unfold interiorP interiorHash
  dsimp only
  refine wp_putSlot hr hb (by omega) (ha _ (Or.inr rfl)) fun σ1 r1 b1 => wp_putSlot r1 b1 (by omega) (ha _ (Or.inl rfl)) fun σ2 r2 b2 => ?_
  by_cases h4 : h % 4 = 0
  · rw [if_pos h4, if_pos h4]
    refine wp_putSlot r2 b2 (by omega) (ha0 h4 0 (by omega)) fun σ3 r3 b3 => wp_getBatch b3 (ha0 h4) ?_
    refine wp_store r3 (hn h4) hd fun σ4 r4 s4 => wp_ret ⟨_, rfl, rfl, r4, b3.same s4⟩
  · rw [if_neg h4, if_neg h4]
    exact wp_ret ⟨_, rfl, rfl, r2, b2⟩

/-- `moveUpShortcut` after the shortcut was loaded. -/
theorem wp_moved {l r shortcut root : Bytes} {ref : List Bool} {ix ish h : Nat} {b : Batch} (hr : Rel σ s) (hb : BatchAt σ ref b) (hix : ix < 15) (ha : ∀ m, m = 2 * ix + 1 ∨ m = 2 * ix + 2 → A (.slot ref m))
    (hish : (h - 1) % 4 ≠ 0 ∨ ix = 0 → 2 * ish + 2 < 31 ∧ A (.slot ref (2 * ish + 1)) ∧ A (.slot ref (2 * ish + 2))) (ha0 : ix = 0 → ∀ m, m < 31 → A (.slot ref m))
    (hn : ix = 0 → Region A (toHash (c.H (l.take 32 ++ r.take 32 ++ [byteOf h]) ++ [1]))) (hd : DOk A (toHash root)) (hd' : DOk A (toHash shortcut)) :
    WP Zero (movedP c l r shortcut root ref ix ish h) σ A (Ends ref
      (let new := c.H (l.take 32 ++ r.take 32 ++ [byteOf h]) ++ [1]
      let b := (b.set (2 * ix + 1) l).set (2 * ix + 2) r
      if ix = 0 then
        let b' := ((b.set 0 [1]).set (2 * ish + 1) []).set (2 * ish + 2) []
        some ⟨new, true, b', storeNode c b' new root h s⟩
      else if (h - 1) % 4 = 0 then some ⟨new, true, b, deleteOldNode c shortcut h true s⟩
      else some ⟨new, true, (b.set (2 * ish + 1) []).set (2 * ish + 2) [], s⟩)) := by
  unfold movedP
  dsimp only
  by_cases h0 : ix = 0
  · rw [if_pos h0, if_pos h0]
    obtain ⟨i1, i2, i3⟩ := hish (Or.inr h0)
    refine wp_putSlot hr hb (by omega) (ha0 h0 0 (by omega)) fun σ1 r1 b1 => wp_putSlot r1 b1 (by omega) (ha _ (Or.inl rfl)) fun σ2 r2 b2 => wp_putSlot r2 b2 (by omega) (ha _ (Or.inr rfl)) fun σ3 r3 b3 => ?_
    rw [List.set_comm (i := 0) (j := 2 * ix + 1) _ _ (by omega), List.set_comm (i := 0) (j := 2 * ix + 2) _ _ (by omega)] at b3
    refine wp_putSlot r3 b3 (by omega) i2 fun σ4 r4 b4 => wp_putSlot r4 b4 (by omega) i3 fun σ5 r5 b5 => wp_getBatch b5 (ha0 h0) ?_
    exact wp_store r5 (hn h0) hd fun σ6 r6 s6 => wp_ret ⟨_, rfl, rfl, r6, b5.same s6⟩
  · rw [if_neg h0, if_neg h0]
    by_cases h4 : (h - 1) % 4 = 0
    · rw [if_pos h4, if_pos h4]
      refine wp_putSlot hr hb (by omega) (ha _ (Or.inl rfl)) fun σ1 r1 b1 => wp_putSlot r1 b1 (by omega) (ha _ (Or.inr rfl)) fun σ2 r2 b2 => ?_
      exact wp_del r2 hd' fun σ3 r3 s3 => wp_ret ⟨_, rfl, rfl, r3, b2.same s3⟩
    · rw [if_neg h4, if_neg h4]
      obtain ⟨i1, i2, i3⟩ := hish (Or.inl h4)
      refine wp_putSlot hr hb (by omega) (ha _ (Or.inl rfl)) fun σ1 r1 b1 => wp_putSlot r1 b1 (by omega) (ha _ (Or.inr rfl)) fun σ2 r2 b2 => ?_
      exact wp_putSlot r2 b2 (by omega) i2 fun σ3 r3 b3 => wp_putSlot r3 b3 (by omega) i3 fun σ4 r4 b4 => wp_ret ⟨_, rfl, rfl, r4, b4⟩

/-! ## Trees -/

variable {Hp : Bytes → Prop}

/-- The places that a call of `update` may touch. -/
def Area (c : Cfg) (Hp : Bytes → Prop) (h i : Nat) (q : Nat → Bool) (pos ref : List Bool) (ix : Nat) : Loc → Prop
  | .live d => Own c Hp i q d
  | .upd d => Own c Hp i q d
  | .rem d => Own c Hp i q d
  | .slot p m => pos <+: p ∨ (h % 4 ≠ 0 ∧ p = ref ∧ (m = ix ∨ m ∈ zone (h % 4) ix))

theorem dok_old (hA : NoAccident c.H Hp) {h i : Nat} {q : Nat → Bool} {root : Bytes} {told tnew : Node} (hown : ∀ d, Own c Hp i q d → Region A d) (ho : OldOk c Hp h i q root told tnew) : DOk A (toHash root) := by
  by_cases he : told = .empty
  · exact Or.inl (rootOk_empty ho.root he).2
  · right
    rw [(rootOk_hash hA ho.root he).1]
    exact hown _ ⟨h, told, ho.tok, he, ho.leaves, rfl⟩

theorem region_slotOf (hA : NoAccident c.H Hp) {h i : Nat} {q : Nat → Bool} {t : Node} (hown : ∀ d, Own c Hp i q d → Region A d) (ht : TOk c Hp h t) (hne : t ≠ .empty) (hl : AllLeaves (fun k _ => InPre 256 q i k) t) :
    Region A (toHash (slotOf c.H h t)) := by
  rw [toHash_slotOf hA hne]
  exact hown _ ⟨h, t, ht, hne, hl, rfl⟩

/-- What a position may touch. -/
structure Reach (c : Cfg) (Hp : Bytes → Prop) (g i ix : Nat) (q : Nat → Bool) (ref : List Bool) (A : Loc → Prop) : Prop where
  own : ∀ d, Own c Hp i q d → Region A d
  zone : ∀ m ∈ SmtStore.zone (g % 4 + 1) ix, A (.slot ref m)
  top : (g + 1) % 4 = 0 → ∀ m, m < 31 → A (.slot ref m)

theorem Reach.kids {g i ix : Nat} {q : Nat → Bool} {ref : List Bool} (h : Reach c Hp g i ix q ref A) : ∀ m, m = 2 * ix + 1 ∨ m = 2 * ix + 2 → A (.slot ref m) := by
  rintro m (rfl | rfl)
  · exact h.zone _ (zone_succ.2 (by simp))
  · exact h.zone _ (zone_succ.2 (by simp))

theorem wp_moveUp (hA : NoAccident c.H Hp) {g i ix ish : Nat} {q : Nat → Bool} {b : Batch} {k v : Bytes} {told : Node} {root : Bytes} {ref : List Bool} (hp : Place g i ix)
    (hish : ish = 2 * ix + 1 ∨ ish = 2 * ix + 2) (hl : Shape c.H (g % 4) b ish g (.leaf k v))
    (htl : TOk c Hp g (.leaf k v)) (htn : TOk c Hp (g + 1) (.leaf k v))
    (hln : InPre 256 q i k) (hsl : Stored c s g (.leaf k v)) (hc : Coh c Hp s) (ho : OldOk c Hp (g + 1) i q root told (.leaf k v))
    (hr : Rel σ s) (hb : BatchAt σ ref b) (ha : Reach c Hp g i ix q ref A) :
    WP Zero (moveUpP c s.db (slotOf c.H g (.leaf k v)) root ref ix ish (g + 1)) σ A (Ends ref (moveUp c (slotOf c.H g (.leaf k v)) root b ix ish (g + 1) s)) := by
  have hsz : k.length = 32 ∧ v.length = 32 := htl.sized
  obtain ⟨hix, hd, rm1, rm2⟩ := room_child hp.room
  have hdr := dok_old hA ha.own ho
  have hrk : RootOk c (slotOf c.H g (.leaf k v)) g (.leaf k v) := Or.inr ⟨by simp, Or.inl rfl⟩
  have hreg : Region A (toHash (slotOf c.H g (.leaf k v))) := region_slotOf hA ha.own htl (by simp) hln
  have hnew : Region A (toHash (c.H (k ++ v ++ [byteOf (g + 1)]) ++ [1])) := region_slotOf hA ha.own htn (by simp) hln
  unfold moveUpP moveUp
  rw [show g + 1 - 1 = g from rfl]
  by_cases h4 : g % 4 = 0
  · obtain ⟨b1, s1, e1, e2, e3, e4⟩ := loadBatch_ok hA hc htl (by simp) (hsl h4) hrk
    have hlen : (slotOf c.H g (.leaf k v)).length ≠ 0 := by simp [slotOf]
    have hld : loadChildren c (slotOf c.H g (.leaf k v)) g ish b s = some ⟨b1, 0, slot b1 1, slot b1 2, (slot b1 0).getD 0 0 == 1, s1⟩ := by
      unfold loadChildren
      rw [if_pos h4, if_neg hlen, e1]
    rw [if_pos h4, if_neg hlen, hld]
    have hk1 : slot b1 1 = k ++ [2] := e2.shape.1
    have hv1 : slot b1 2 = v ++ [2] := e2.shape.2.1
    have htk : (slotOf c.H g (.leaf k v)).take 32 = toHash (slotOf c.H g (.leaf k v)) := by
      obtain ⟨a1, a2, _⟩ := rootOk_hash hA hrk (by simp)
      rw [a1, a2]
    refine wp_load hr hreg htk e1 fun σ1 r1 s1' => ?_
    have hix0 : ix ≠ 0 := fun h => by have := hp.top.1 h; omega
    exact wp_moved r1 (hb.same s1') hix ha.kids (fun h => by rcases h with h | h; exact absurd h4 h; exact absurd h hix0) (fun h => absurd h hix0) (fun h => absurd h hix0) hdr (Or.inr hreg)
  · rw [if_neg h4]
    obtain ⟨d, hd1⟩ : ∃ d, g % 4 = d + 1 := ⟨g % 4 - 1, by omega⟩
    rw [hd1] at hl rm1 rm2
    have hroom : Room (d + 1) ish := by rcases hish with rfl | rfl; exact rm1; exact rm2
    have hi15 := (room_child hroom).1
    have hld : loadChildren c (slotOf c.H g (.leaf k v)) g ish b s = some ⟨b, ish, slot b (2 * ish + 1), slot b (2 * ish + 2), (slot b ish).length ≠ 0 && flagOf (slot b ish) == 1, s⟩ := by
      unfold loadChildren
      rw [if_neg h4]
    have hz : ∀ m ∈ zone (d + 1) ish, A (.slot ref m) := by
      intro m hm
      apply ha.zone
      rw [hd1]
      rcases hish with rfl | rfl
      · exact zone_succ.2 (Or.inr (Or.inr (Or.inl hm)))
      · exact zone_succ.2 (Or.inr (Or.inr (Or.inr hm)))
    rw [hld]
    have hz1 := hz (2 * ish + 1) (zone_succ.2 (by simp))
    have hz2 := hz (2 * ish + 2) (zone_succ.2 (by simp))
    refine wp_getSlot hb (by omega) (ha.kids _ hish) (wp_getSlot hb (by omega) hz1 (wp_getSlot hb (by omega) hz2 ?_))
    refine wp_moved hr hb hix ha.kids (fun _ => ⟨by omega, hz1, hz2⟩) (fun h => ha.top (hp.top.1 h)) (fun _ => ?_) hdr (Or.inr hreg)
    rw [hl.1, hl.2.1, take_key hsz.1, take_key hsz.2]
    exact hnew

theorem wp_join (hA : NoAccident c.H Hp) {g i ix : Nat} {q : Nat → Bool} {b : Batch} {l r told : Node} {root : Bytes} {del : Bool} {ref : List Bool} (hp : Place g i ix)
    (hl : Shape c.H (g % 4) b (2 * ix + 1) g l) (hr : Shape c.H (g % 4) b (2 * ix + 2) g r) (htl : TOk c Hp g l) (htr : TOk c Hp g r) (htn : TOk c Hp (g + 1) (Smt.join del l r).1)
    (hll : AllLeaves (fun k _ => InPre 256 q i k) l) (hlr : AllLeaves (fun k _ => InPre 256 q i k) r) (hsl : Stored c s g l) (hsr : Stored c s g r) (hc : Coh c Hp s)
    (ho : OldOk c Hp (g + 1) i q root told (Smt.join del l r).1)
    (hrel : Rel σ s) (hb : BatchAt σ ref b) (ha : Reach c Hp g i ix q ref A) :
    WP Zero (joinP c s.db del (slotOf c.H g l) (slotOf c.H g r) root ref ix (g + 1)) σ A (Ends ref (join c del (slotOf c.H g l) (slotOf c.H g r) root b ix (g + 1) s)) := by
  obtain ⟨hix, _, _, _⟩ := room_child hp.room
  have hdr := dok_old hA ha.own ho
  have hnode : Smt.join del l r = (.node l r, false) → WP Zero (interiorP c (slotOf c.H g l) (slotOf c.H g r) root ref ix (g + 1)) σ A
      (Ends ref (some ⟨(interiorHash c (slotOf c.H g l) (slotOf c.H g r) root b ix (g + 1) s).1, false, (interiorHash c (slotOf c.H g l) (slotOf c.H g r) root b ix (g + 1) s).2.1,
        (interiorHash c (slotOf c.H g l) (slotOf c.H g r) root b ix (g + 1) s).2.2⟩)) := by
    intro he
    rw [he] at htn
    refine wp_interior hrel hb hix ha.kids ha.top (fun _ => ?_) hdr
    have hn : c.H (child (slotOf c.H g l) ++ child (slotOf c.H g r)) ++ [0] = slotOf c.H (g + 1) (.node l r) := by
      rw [child_slotOf hA, child_slotOf hA]; rfl
    rw [hn]
    exact region_slotOf hA ha.own htn (by simp) ⟨hll, hlr⟩
  have hflag : ∀ t : Node, t ≠ .empty → (flagOf (slotOf c.H g t) = 1 ↔ t.isLeaf = true) := by
    intro t ht
    have hlen := digest_length hA.len (h := g) ht
    obtain ⟨f, h1, h2⟩ := slotOf_eq (H := c.H) (h := g) ht
    rw [h1, ← h2]
    unfold flagOf
    rw [List.getD_eq_getElem?_getD, List.getElem?_append_right (by omega), hlen]
    simp
  unfold joinP join
  simp only [slotOf_nil]
  cases del with
  | false =>
    simp only [Bool.false_eq_true, if_false]
    exact hnode rfl
  | true =>
    simp only [if_true]
    by_cases hle : l = .empty
    · by_cases hre : r = .empty
      · subst hle hre
        simp only [and_self, if_true]
        by_cases hix0 : ix = 0
        · rw [if_pos hix0, if_pos hix0]
          exact wp_del hrel hdr fun σ1 r1 s1 => wp_ret ⟨_, rfl, rfl, r1, hb.same s1⟩
        · rw [if_neg hix0, if_neg hix0]
          exact wp_putSlot hrel hb (by omega) (ha.kids _ (Or.inl rfl)) fun σ1 r1 b1 => wp_putSlot r1 b1 (by omega) (ha.kids _ (Or.inr rfl)) fun σ2 r2 b2 => wp_ret ⟨_, rfl, rfl, r2, b2⟩
      · simp only [hle, hre, and_false, if_false, if_true]
        subst hle
        cases r with
        | empty => exact absurd rfl hre
        | leaf k v =>
          rw [if_pos ((hflag _ (by simp)).2 rfl), if_pos ((hflag _ (by simp)).2 rfl)]
          exact wp_moveUp hA hp (Or.inr rfl) hr htr htn hlr hsr hc ho hrel hb ha
        | node a b' =>
          have hnf : ¬ flagOf (slotOf c.H g (.node a b')) = 1 := fun h => by have := (hflag _ (by simp)).1 h; simp [Node.isLeaf] at this
          rw [if_neg hnf, if_neg hnf]
          exact hnode rfl
    · simp only [hle, false_and, if_false]
      by_cases hre : r = .empty
      · simp only [hre, if_true]
        subst hre
        cases l with
        | empty => exact absurd rfl hle
        | leaf k v =>
          rw [if_pos ((hflag _ (by simp)).2 rfl), if_pos ((hflag _ (by simp)).2 rfl)]
          exact wp_moveUp hA hp (Or.inl rfl) hl htl htn hll hsl hc ho hrel hb ha
        | node a b' =>
          have hnf : ¬ flagOf (slotOf c.H g (.node a b')) = 1 := fun h => by have := (hflag _ (by simp)).1 h; simp [Node.isLeaf] at this
          rw [if_neg hnf, if_neg hnf]
          exact hnode rfl
      · simp only [hre, if_false]
        apply hnode
        cases l with
        | empty => exact absurd rfl hle
        | leaf k v =>
          cases r with
          | empty => exact absurd rfl hre
          | leaf => rfl
          | node => rfl
        | node => cases r <;> rfl

end Fpki.SmtPar
