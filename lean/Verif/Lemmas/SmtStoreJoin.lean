import Verif.Lemmas.SmtStoreStep

/-!
# Joining two updated children
-/
namespace Fpki.SmtStore

open Fpki.Smt (Node KVs Key Val byteOf digest preimages AllLeaves Sized NoHole Fits InPre WF ext walk)

variable {c : Cfg} {Hp : Bytes → Prop}

theorem set_length {b : Batch} {m : Nat} {v : Bytes} : (b.set m v).length = b.length := List.length_set

theorem child_slotOf (hA : NoAccident c.H Hp) (h : Nat) (t : Node) : child (slotOf c.H h t) = digest c.H h t := by
  by_cases hne : t = .empty
  · subst hne; rfl
  · obtain ⟨h1, h2, h3⟩ := rootOk_hash hA (root := slotOf c.H h t) (Or.inr ⟨hne, Or.inl rfl⟩) hne
    unfold child
    rw [if_neg h3, h2]

theorem slotOf_nil {H : Bytes → Bytes} (h : Nat) (t : Node) : (slotOf H h t).length = 0 ↔ t = .empty := by
  cases t <;> simp [slotOf]

/-- The batch with two children below slot `ix`. -/
theorem shape_kids {d ix h : Nat} {b : Batch} {l r : Node} (hb : b.length = 31) (hroom : Room (d + 1) ix) (hl : Shape c.H d b (2 * ix + 1) h l) (hr : Shape c.H d b (2 * ix + 2) h r) :
    let b' := (b.set (2 * ix + 2) (slotOf c.H h r)).set (2 * ix + 1) (slotOf c.H h l)
    b'.length = 31 ∧ Shape c.H (d + 1) b' ix (h + 1) (.node l r) ∧ (∀ m, m ∉ zone (d + 1) ix → slot b' m = slot b m) := by
  intro b'
  obtain ⟨hix, hd, _, _⟩ := room_child hroom
  obtain ⟨z1, z2⟩ := zone_facts hd hix
  have hs : ∀ m, slot b' m = if m = 2 * ix + 1 then slotOf c.H h l else if m = 2 * ix + 2 then slotOf c.H h r else slot b m := by
    intro m
    show slot ((b.set _ _).set _ _) m = _
    rw [slot_set _ _ _ _ (by rw [set_length]; omega), slot_set _ _ _ _ (by omega)]
  refine ⟨by show ((b.set _ _).set _ _).length = 31; rw [set_length, set_length, hb], ⟨?_, ?_, ?_, ?_⟩, ?_⟩
  · rw [hs]; simp
  · rw [hs]; simp
  · refine shape_congr (fun m hm => ?_) hl
    have := z1 m hm
    rw [hs, if_neg this.2.1, if_neg this.2.2.1]
  · refine shape_congr (fun m hm => ?_) hr
    have := z2 m hm
    rw [hs, if_neg this.1, if_neg this.2.1]
  · intro m hm
    have := fun h => hm (zone_succ.2 h)
    rw [hs, if_neg (fun h => this (by simp [h])), if_neg (fun h => this (by simp [h]))]

/-- The batch with a leaf below slot `ix`. -/
theorem shape_leaf {d ix h : Nat} {b : Batch} {k v : Bytes} (hb : b.length = 31) (hroom : Room (d + 1) ix) (hl : Clean b d (2 * ix + 1)) (hr : Clean b d (2 * ix + 2)) :
    let b' := (b.set (2 * ix + 2) (v ++ [2])).set (2 * ix + 1) (k ++ [2])
    b'.length = 31 ∧ Shape c.H (d + 1) b' ix h (.leaf k v) ∧ (∀ m, m ∉ zone (d + 1) ix → slot b' m = slot b m) := by
  intro b'
  obtain ⟨hix, hd, _, _⟩ := room_child hroom
  obtain ⟨z1, z2⟩ := zone_facts hd hix
  have hs : ∀ m, slot b' m = if m = 2 * ix + 1 then k ++ [2] else if m = 2 * ix + 2 then v ++ [2] else slot b m := by
    intro m
    show slot ((b.set _ _).set _ _) m = _
    rw [slot_set _ _ _ _ (by rw [set_length]; omega), slot_set _ _ _ _ (by omega)]
  refine ⟨by show ((b.set _ _).set _ _).length = 31; rw [set_length, set_length, hb], ⟨?_, ?_, ?_, ?_⟩, ?_⟩
  · rw [hs]; simp
  · rw [hs]; simp
  · refine clean_congr (fun m hm => ?_) hl
    have := z1 m hm
    rw [hs, if_neg this.2.1, if_neg this.2.2.1]
  · refine clean_congr (fun m hm => ?_) hr
    have := z2 m hm
    rw [hs, if_neg this.1, if_neg this.2.1]
  · intro m hm
    have := fun h => hm (zone_succ.2 h)
    rw [hs, if_neg (fun h => this (by simp [h])), if_neg (fun h => this (by simp [h]))]

/-- The flag of a batch. -/
theorem good_flag {h : Nat} {t : Node} {b : Batch} (hb : b.length = 31) (hs : Shape c.H 4 b 0 h t) (f : Bytes) (hf : f = if t.isLeaf then [1] else [0]) : Good c.H h t (b.set 0 f) := by
  refine ⟨by rw [set_length, hb], ?_, shape_congr (fun m hm => ?_) hs⟩
  · rw [slot_set _ _ _ _ (by omega), if_pos rfl, hf]
  · rw [slot_set _ _ _ _ (by omega), if_neg]
    rcases zone_succ.1 hm with rfl | rfl | hm | hm
    · omega
    · omega
    · exact ((zone_facts (d := 3) (by omega) (i := 0) (by omega)).1 m hm).2.2.2.1
    · exact ((zone_facts (d := 3) (by omega) (i := 0) (by omega)).2 m hm).2.2.1

/-- What a call leaves at its position: the node, the `deleted` flag and the state. -/
structure Out (c : Cfg) (Hp : Bytes → Prop) (h i : Nat) (q : Nat → Bool) (s : St) (t' : Node) (del : Bool) (res : Res) : Prop where
  node : res.node = slotOf c.H h t'
  deleted : res.deleted = del
  stored : Stored c res.st h t'
  coh : Coh c Hp res.st
  frame : Frame c Hp i q s res.st

/-- Storing the new batch of a position. -/
theorem store_out (hA : NoAccident c.H Hp) {i h : Nat} {q : Nat → Bool} {told tnew : Node} {b : Batch} {root : Bytes} {s : St} (hb : Good c.H h tnew b) (htn : TOk c Hp h tnew) (hne : tnew ≠ .empty)
    (hr : RootOk c root h told) (hto : TOk c Hp h told) (hlo : AllLeaves (fun k _ => InPre 256 q i k) told) (hln : AllLeaves (fun k _ => InPre 256 q i k) tnew) (hf : Fresh c h told tnew) (hc : Coh c Hp s)
    (hk : ∀ l r, tnew = .node l r → Stored c s (h - 1) l ∧ Stored c s (h - 1) r) :
    let s' := storeNode c b (slotOf c.H h tnew) root h s
    Stored c s' h tnew ∧ Coh c Hp s' ∧ Frame c Hp i q s s' ∧ s'.removed = s.removed := by
  obtain ⟨h1, h2, h3, h4, h5⟩ := storeNode_ok hA hb htn hne hr hf hc
  intro s'
  have havail : Avail c s' h tnew := Or.inl ⟨b, h4⟩
  have hsub : ∀ h' u, Sub h tnew h' u → u ≠ .empty → (s'.upd (digest c.H h' u) = s.upd (digest c.H h' u) ∨ ∃ b, s'.upd (digest c.H h' u) = some b) := by
    intro h' u hs hu
    by_cases hd : digest c.H h' u = digest c.H h tnew
    · right; exact ⟨b, by rw [hd]; exact h4⟩
    · left; exact h5 _ hd (fresh_hash hA hf hr htn hs hu)
  refine ⟨?_, h1, ⟨h2, fun d hd ho => ?_⟩, h3⟩
  · cases tnew with
    | empty => exact absurd rfl hne
    | leaf k v => exact fun _ => havail
    | node l r =>
      obtain ⟨hl, hr'⟩ := hk l r rfl
      exact ⟨fun _ => havail, stored_of h2 (fun h' u hs hu => hsub h' u (.left hs) hu) hl, stored_of h2 (fun h' u hs hu => hsub h' u (.right hs) hu) hr'⟩
  · apply h5
    · rintro rfl
      exact ho ⟨h, tnew, htn, hne, hln, rfl⟩
    · by_cases hoe : told = .empty
      · rw [(rootOk_empty hr hoe).2]; exact hd
      · rw [(rootOk_hash hA hr hoe).1]
        rintro rfl
        exact ho ⟨h, told, hto, hoe, hlo, rfl⟩

/-- What is left in the batch of the caller, unless the position is the root of a batch. -/
structure BOut (c : Cfg) (d ix h : Nat) (b : Batch) (t' : Node) (b' : Batch) : Prop where
  len : b'.length = 31
  shape : Shape c.H d b' ix h t'
  other : ∀ m, m ∉ zone d ix → slot b' m = slot b m

/-- The position of a call of `join` and the like. -/
structure Place (g i ix : Nat) : Prop where
  sum : i + (g + 1) = 256
  room : Room (g % 4 + 1) ix
  top : ix = 0 ↔ (g + 1) % 4 = 0

theorem Place.le {g i ix : Nat} (h : Place g i ix) : g + 1 ≤ 256 := by have := h.sum; omega

/-- The old tree of a position. -/
structure OldOk (c : Cfg) (Hp : Bytes → Prop) (h i : Nat) (q : Nat → Bool) (root : Bytes) (told tnew : Node) : Prop where
  root : RootOk c root h told
  tok : TOk c Hp h told
  leaves : AllLeaves (fun k _ => InPre 256 q i k) told
  fresh : Fresh c h told tnew

theorem interior_ok (hA : NoAccident c.H Hp) {g i ix : Nat} {q : Nat → Bool} {b : Batch} {l r told : Node} {root : Bytes} {s : St} (hp : Place g i ix) (hb : b.length = 31)
    (hl : Shape c.H (g % 4) b (2 * ix + 1) g l) (hr : Shape c.H (g % 4) b (2 * ix + 2) g r) (htn : TOk c Hp (g + 1) (.node l r))
    (hln : AllLeaves (fun k _ => InPre 256 q i k) (.node l r)) (hsl : Stored c s g l) (hsr : Stored c s g r) (hc : Coh c Hp s) (ho : OldOk c Hp (g + 1) i q root told (.node l r)) (del : Bool) :
    let int := interiorHash c (slotOf c.H g l) (slotOf c.H g r) root b ix (g + 1) s
    Out c Hp (g + 1) i q s (.node l r) del ⟨int.1, del, int.2.1, int.2.2⟩ ∧ int.2.2.removed = s.removed ∧ ((g + 1) % 4 ≠ 0 → BOut c (g % 4 + 1) ix (g + 1) b (.node l r) int.2.1) := by
  obtain ⟨k1, k2, k3⟩ := shape_kids (c := c) hb hp.room hl hr
  have hnode : c.H (child (slotOf c.H g l) ++ child (slotOf c.H g r)) ++ [0] = slotOf c.H (g + 1) (.node l r) := by
    rw [child_slotOf hA, child_slotOf hA]; rfl
  unfold interiorHash
  simp only [hnode]
  by_cases h4 : (g + 1) % 4 = 0
  · rw [if_pos h4]
    have hix := hp.top.2 h4
    have hg4 : g % 4 = 3 := by omega
    subst hix
    rw [hg4] at k2
    have hgood := good_flag k1 k2 [0] (by simp [Node.isLeaf])
    obtain ⟨s1, s2, s3, s4⟩ := store_out hA (i := i) (q := q) hgood htn (by simp) ho.root ho.tok ho.leaves hln ho.fresh hc (s := s) (by
      intro l' r' he
      cases he
      exact ⟨hsl, hsr⟩)
    exact ⟨⟨rfl, rfl, s1, s2, s3⟩, s4, fun h => absurd h4 h⟩
  · rw [if_neg h4]
    refine ⟨⟨rfl, rfl, ⟨fun h => absurd h h4, hsl, hsr⟩, hc, .refl _⟩, rfl, fun _ => ⟨k1, k2, k3⟩⟩

theorem take_key {k : Bytes} (h : k.length = 32) (x : Byte) : (k ++ [x]).take 32 = k := by
  rw [List.take_append_of_le_length (by omega), List.take_of_length_le (by omega)]

/-- The batch after a leaf moved from slot `ish` to slot `ix`. -/
theorem shape_moved {d ix ish h : Nat} {b b' : Batch} {k v : Bytes} (hb : b'.length = 31) (hroom : Room (d + 1 + 1) ix) (hish : ish = 2 * ix + 1 ∨ ish = 2 * ix + 2)
    (hs : ∀ m, m ≠ 0 → slot b' m = if m = 2 * ish + 2 then [] else if m = 2 * ish + 1 then [] else if m = 2 * ix + 2 then v ++ [2] else if m = 2 * ix + 1 then k ++ [2] else slot b m)
    (hl : Shape c.H (d + 1) b ish h (.leaf k v)) (hr : ∀ j, j = 2 * ix + 1 ∨ j = 2 * ix + 2 → j ≠ ish → Clean b (d + 1) j) :
    Shape c.H (d + 1 + 1) b' ix (h + 1) (.leaf k v) ∧ (∀ m, m ≠ 0 → m ∉ zone (d + 1 + 1) ix → slot b' m = slot b m) := by
  obtain ⟨hix, hd, _, _⟩ := room_child hroom
  obtain ⟨z1, z2⟩ := zone_facts hd hix
  obtain ⟨_, _, l3, l4⟩ := hl
  have hclean : ∀ j, j = 2 * ix + 1 ∨ j = 2 * ix + 2 → Clean b' (d + 1) j := by
    intro j hj m hm
    have hm' : m ≠ 2 * ix + 1 ∧ m ≠ 2 * ix + 2 ∧ m ≠ 0 := by
      rcases hj with rfl | rfl
      · have := z1 m hm; exact ⟨this.2.1, this.2.2.1, this.2.2.2.1⟩
      · have := z2 m hm; exact ⟨this.1, this.2.1, this.2.2.1⟩
    rw [hs m hm'.2.2, if_neg hm'.2.1, if_neg hm'.1]
    by_cases h2 : m = 2 * ish + 2
    · rw [if_pos h2]
    rw [if_neg h2]
    by_cases h1 : m = 2 * ish + 1
    · rw [if_pos h1]
    rw [if_neg h1]
    by_cases hjs : j = ish
    · subst hjs
      rcases zone_succ.1 hm with h | h | h | h
      · exact absurd h h1
      · exact absurd h h2
      · exact l3 m h
      · exact l4 m h
    · exact hr j hj hjs m hm
  refine ⟨⟨?_, ?_, hclean _ (Or.inl rfl), hclean _ (Or.inr rfl)⟩, ?_⟩
  · rw [hs _ (by omega), if_neg (by omega), if_neg (by omega), if_neg (by omega), if_pos rfl]
  · rw [hs _ (by omega), if_neg (by omega), if_neg (by omega), if_pos rfl]
  · intro m h0 hm
    have hz := fun h => hm (zone_succ.2 h)
    have hz1 : m ≠ 2 * ix + 1 := fun h => hz (Or.inl h)
    have hz2 : m ≠ 2 * ix + 2 := fun h => hz (Or.inr (Or.inl h))
    have hz3 : m ∉ zone (d + 1) ish := by
      intro h
      rcases hish with rfl | rfl
      · exact hz (Or.inr (Or.inr (Or.inl h)))
      · exact hz (Or.inr (Or.inr (Or.inr h)))
    rw [hs m h0, if_neg (fun h => hz3 (zone_succ.2 (by simp [h]))), if_neg (fun h => hz3 (zone_succ.2 (by simp [h]))), if_neg hz2, if_neg hz1]

theorem moveUp_ok (hA : NoAccident c.H Hp) {g i ix ish : Nat} {q : Nat → Bool} {b : Batch} {k v : Bytes} {told : Node} {root : Bytes} {s : St} (hp : Place g i ix) (hb : b.length = 31)
    (hish : ish = 2 * ix + 1 ∨ ish = 2 * ix + 2) (hl : Shape c.H (g % 4) b ish g (.leaf k v)) (hr : ∀ j, j = 2 * ix + 1 ∨ j = 2 * ix + 2 → j ≠ ish → Clean b (g % 4) j)
    (htl : TOk c Hp g (.leaf k v)) (htn : TOk c Hp (g + 1) (.leaf k v))
    (hln : InPre 256 q i k) (hsl : Stored c s g (.leaf k v)) (hc : Coh c Hp s) (ho : OldOk c Hp (g + 1) i q root told (.leaf k v)) :
    ∃ res, moveUp c (slotOf c.H g (.leaf k v)) root b ix ish (g + 1) s = some res ∧ Out c Hp (g + 1) i q s (.leaf k v) true res ∧ res.st.removed = s.removed ∧
      ((g + 1) % 4 ≠ 0 → BOut c (g % 4 + 1) ix (g + 1) b (.leaf k v) res.batch) := by
  have hsz : k.length = 32 ∧ v.length = 32 := htl.sized
  obtain ⟨hix, hd, _, _⟩ := room_child hp.room
  obtain ⟨z1, z2⟩ := zone_facts hd hix
  unfold moveUp
  rw [show g + 1 - 1 = g from rfl]
  by_cases h4 : g % 4 = 0
  · have hix0 : ix ≠ 0 := fun h => by have := hp.top.1 h; omega
    have hrk : RootOk c (slotOf c.H g (.leaf k v)) g (.leaf k v) := Or.inr ⟨by simp, Or.inl rfl⟩
    obtain ⟨b1, s1, e1, e2, e3, e4⟩ := loadBatch_ok hA hc htl (by simp) (hsl h4) hrk
    have hld : loadChildren c (slotOf c.H g (.leaf k v)) g ish b s = some ⟨b1, 0, slot b1 1, slot b1 2, (slot b1 0).getD 0 0 == 1, s1⟩ := by
      unfold loadChildren
      rw [if_pos h4, if_neg (by simp [slotOf]), e1]
    rw [hld]
    simp only [if_neg hix0, if_pos h4]
    have hk1 : slot b1 1 = k ++ [2] := e2.shape.1
    have hv1 : slot b1 2 = v ++ [2] := e2.shape.2.1
    rw [hk1, hv1, take_key hsz.1, take_key hsz.2]
    have hfr : Frame c Hp i q s1 (deleteOldNode c (slotOf c.H g (.leaf k v)) (g + 1) true s1) := frame_delete hA hrk htl hln true s1
    have h14 : (g + 1) % 4 ≠ 0 := by omega
    refine ⟨_, rfl, ⟨rfl, rfl, fun h => absurd h h14, coh_delete e3 _ _ _, ⟨hfr.db.trans e4.db, fun d hd ho => (hfr.upd d hd ho).trans (by rw [e4.upd])⟩⟩, e4.removed, fun _ => ?_⟩
    have hs : ∀ m, slot ((b.set (2 * ix + 1) (k ++ [2])).set (2 * ix + 2) (v ++ [2])) m = if m = 2 * ix + 2 then v ++ [2] else if m = 2 * ix + 1 then k ++ [2] else slot b m := by
      intro m
      rw [slot_set _ _ _ _ (by rw [set_length]; omega), slot_set _ _ _ _ (by omega)]
    refine ⟨by simp [hb], ?_, ?_⟩
    · rw [h4]
      refine ⟨?_, ?_, ?_, ?_⟩
      · rw [hs]; simp
      · rw [hs]; simp
      · intro m hm; simp [zone] at hm
      · intro m hm; simp [zone] at hm
    · intro m hm
      have hz := fun h => hm (zone_succ.2 h)
      rw [hs, if_neg (fun h => hz (by simp [h])), if_neg (fun h => hz (by simp [h]))]
  · obtain ⟨d, hd1⟩ : ∃ d, g % 4 = d + 1 := ⟨g % 4 - 1, by omega⟩
    rw [hd1] at hl hr
    have hroom := hp.room
    rw [hd1] at hroom
    have hld : loadChildren c (slotOf c.H g (.leaf k v)) g ish b s = some ⟨b, ish, k ++ [2], v ++ [2], (slot b ish).length ≠ 0 && flagOf (slot b ish) == 1, s⟩ := by
      unfold loadChildren
      rw [if_neg h4, hl.1, hl.2.1]
    rw [hld]
    simp only [take_key hsz.1, take_key hsz.2]
    have hi30 : 2 * ish + 2 < 31 := by
      obtain ⟨_, _, r1, r2⟩ := room_child hroom
      rcases hish with rfl | rfl
      · have := (room_child r1).1; omega
      · have := (room_child r2).1; omega
    by_cases hix0 : ix = 0
    · subst hix0
      have h14 := hp.top.1 rfl
      have hd2 : d = 2 := by omega
      subst hd2
      simp only [if_true]
      have hs : ∀ m, slot (((((b.set (2 * 0 + 1) (k ++ [2])).set (2 * 0 + 2) (v ++ [2])).set 0 [1]).set (2 * ish + 1) []).set (2 * ish + 2) []) m =
          if m = 2 * ish + 2 then [] else if m = 2 * ish + 1 then [] else if m = 0 then [1] else if m = 2 * 0 + 2 then v ++ [2] else if m = 2 * 0 + 1 then k ++ [2] else slot b m := by
        intro m
        rw [slot_set _ _ _ _ (by simp only [set_length]; omega), slot_set _ _ _ _ (by simp only [set_length]; omega), slot_set _ _ _ _ (by simp only [set_length]; omega),
          slot_set _ _ _ _ (by simp only [set_length]; omega), slot_set _ _ _ _ (by omega)]
      obtain ⟨m1, _⟩ := shape_moved (c := c) (h := g) (b' := (((((b.set (2 * 0 + 1) (k ++ [2])).set (2 * 0 + 2) (v ++ [2])).set 0 [1]).set (2 * ish + 1) []).set (2 * ish + 2) [])) (by simp [hb]) hroom hish
        (fun m h0 => by rw [hs m, if_neg h0]) hl hr
      have hgood : Good c.H (g + 1) (.leaf k v) (((((b.set (2 * 0 + 1) (k ++ [2])).set (2 * 0 + 2) (v ++ [2])).set 0 [1]).set (2 * ish + 1) []).set (2 * ish + 2) []) :=
        ⟨by simp [hb], by rw [hs 0]; simp [Node.isLeaf], m1⟩
      obtain ⟨s1, s2, s3, s4⟩ := store_out hA (i := i) (q := q) hgood htn (by simp) ho.root ho.tok ho.leaves hln ho.fresh hc (s := s) (by intro l' r' he; cases he)
      exact ⟨_, rfl, ⟨rfl, rfl, s1, s2, s3⟩, s4, fun h => absurd h14 h⟩
    · have h14 : (g + 1) % 4 ≠ 0 := fun h => hix0 (hp.top.2 h)
      simp only [if_neg hix0, if_neg h4]
      refine ⟨_, rfl, ⟨rfl, rfl, fun h => absurd h h14, hc, .refl _⟩, rfl, fun _ => ?_⟩
      have hs : ∀ m, slot ((((b.set (2 * ix + 1) (k ++ [2])).set (2 * ix + 2) (v ++ [2])).set (2 * ish + 1) []).set (2 * ish + 2) []) m =
          if m = 2 * ish + 2 then [] else if m = 2 * ish + 1 then [] else if m = 2 * ix + 2 then v ++ [2] else if m = 2 * ix + 1 then k ++ [2] else slot b m := by
        intro m
        rw [slot_set _ _ _ _ (by simp only [set_length]; omega), slot_set _ _ _ _ (by simp only [set_length]; omega), slot_set _ _ _ _ (by simp only [set_length]; omega), slot_set _ _ _ _ (by omega)]
      obtain ⟨m1, m2⟩ := shape_moved (c := c) (h := g) (by simp [hb]) hroom hish (fun m _ => hs m) hl hr
      refine ⟨by simp [hb], by rw [hd1]; exact m1, fun m hm => ?_⟩
      rw [hd1] at hm
      by_cases h0 : m = 0
      · subst h0
        rw [hs, if_neg (by omega), if_neg (by omega), if_neg (by omega), if_neg (by omega)]
      · exact m2 m h0 hm

/-- trie.go:393-419 and the hash afterwards compute the joined tree. -/
theorem join_ok (hA : NoAccident c.H Hp) {g i ix : Nat} {q : Nat → Bool} {b : Batch} {l r told : Node} {root : Bytes} {s : St} {del : Bool} (hp : Place g i ix) (hb : b.length = 31)
    (hl : Shape c.H (g % 4) b (2 * ix + 1) g l) (hr : Shape c.H (g % 4) b (2 * ix + 2) g r) (htl : TOk c Hp g l) (htr : TOk c Hp g r) (htn : TOk c Hp (g + 1) (Smt.join del l r).1)
    (hll : AllLeaves (fun k _ => InPre 256 q i k) l) (hlr : AllLeaves (fun k _ => InPre 256 q i k) r) (hsl : Stored c s g l) (hsr : Stored c s g r) (hc : Coh c Hp s)
    (hd : del = false → ¬ (l = .empty ∧ r = .empty)) (ho : OldOk c Hp (g + 1) i q root told (Smt.join del l r).1) :
    ∃ res, join c del (slotOf c.H g l) (slotOf c.H g r) root b ix (g + 1) s = some res ∧ Out c Hp (g + 1) i q s (Smt.join del l r).1 (Smt.join del l r).2 res ∧ res.st.removed = s.removed ∧
      ((g + 1) % 4 ≠ 0 → BOut c (g % 4 + 1) ix (g + 1) b (Smt.join del l r).1 res.batch) := by
  have hnode : Smt.join del l r = (.node l r, false) → ∃ res, (some ⟨(interiorHash c (slotOf c.H g l) (slotOf c.H g r) root b ix (g + 1) s).1, false,
      (interiorHash c (slotOf c.H g l) (slotOf c.H g r) root b ix (g + 1) s).2.1, (interiorHash c (slotOf c.H g l) (slotOf c.H g r) root b ix (g + 1) s).2.2⟩ : Option Res) = some res ∧
      Out c Hp (g + 1) i q s (Smt.join del l r).1 (Smt.join del l r).2 res ∧ res.st.removed = s.removed ∧
      ((g + 1) % 4 ≠ 0 → BOut c (g % 4 + 1) ix (g + 1) b (Smt.join del l r).1 res.batch) := by
    intro he
    rw [he] at htn ho ⊢
    obtain ⟨r1, r2, r3⟩ := interior_ok hA hp hb hl hr htn ⟨hll, hlr⟩ hsl hsr hc ho false
    exact ⟨_, rfl, r1, r2, r3⟩
  have hflag : ∀ t : Node, t ≠ .empty → (flagOf (slotOf c.H g t) = 1 ↔ t.isLeaf = true) := by
    intro t ht
    have hlen := digest_length hA.len (h := g) ht
    obtain ⟨f, h1, h2⟩ := slotOf_eq (H := c.H) (h := g) ht
    rw [h1, ← h2]
    unfold flagOf
    rw [List.getD_eq_getElem?_getD, List.getElem?_append_right (by omega), hlen]
    simp
  unfold join
  simp only [slotOf_nil]
  cases del with
  | false =>
    simp only [Bool.false_eq_true, if_false]
    exact hnode rfl
  | true =>
    simp only [if_true]
    by_cases hle : l = .empty
    · by_cases hre : r = .empty
      · subst hle hre
        simp only [and_self, if_true]
        by_cases hix : ix = 0
        · rw [if_pos hix]
          exact ⟨_, rfl, ⟨rfl, rfl, trivial, coh_delete hc _ _ _, frame_delete hA ho.root ho.tok ho.leaves _ s⟩, rfl, fun h => absurd (hp.top.1 hix) h⟩
        · rw [if_neg hix]
          refine ⟨_, rfl, ⟨rfl, rfl, trivial, hc, .refl _⟩, rfl, fun _ => ?_⟩
          obtain ⟨k1, k2, k3⟩ := shape_kids (c := c) (h := g) hb hp.room hl hr
          have hcomm : (b.set (2 * ix + 1) []).set (2 * ix + 2) [] = (b.set (2 * ix + 2) (slotOf c.H g .empty)).set (2 * ix + 1) (slotOf c.H g .empty) := by
            rw [List.set_comm _ _ (by omega)]; rfl
          dsimp only
          rw [hcomm]
          refine ⟨k1, shape_empty.2 (clean_succ.2 ⟨k2.1, k2.2.1, shape_empty.1 k2.2.2.1, shape_empty.1 k2.2.2.2⟩), k3⟩
      · simp only [hle, hre, and_false, if_false, if_true]
        subst hle
        cases r with
        | empty => exact absurd rfl hre
        | leaf k v =>
          rw [if_pos ((hflag _ (by simp)).2 rfl)]
          exact moveUp_ok hA hp hb (Or.inr rfl) hr (fun j hj hn => by rcases hj with rfl | rfl; exact shape_empty.1 hl; exact absurd rfl hn) htr htn hlr hsr hc ho
        | node a b' =>
          rw [if_neg (fun h => by have := (hflag _ (by simp)).1 h; simp [Node.isLeaf] at this)]
          exact hnode rfl
    · simp only [hle, false_and, if_false]
      by_cases hre : r = .empty
      · simp only [hre, if_true]
        subst hre
        cases l with
        | empty => exact absurd rfl hle
        | leaf k v =>
          rw [if_pos ((hflag _ (by simp)).2 rfl)]
          exact moveUp_ok hA hp hb (Or.inl rfl) hl (fun j hj hn => by rcases hj with rfl | rfl; exact absurd rfl hn; exact shape_empty.1 hr) htl htn hll hsl hc ho
        | node a b' =>
          rw [if_neg (fun h => by have := (hflag _ (by simp)).1 h; simp [Node.isLeaf] at this)]
          exact hnode rfl
      · simp only [hre, if_false]
        apply hnode
        cases l with
        | empty => exact absurd rfl hle
        | leaf k v =>
          cases r with
          | empty => exact absurd rfl hre
          | leaf => rfl
          | node => rfl
        | node => cases r <;> rfl

end Fpki.SmtStore
