import Verif.Model.SmtStore
import Verif.Lemmas.SmtProof
import Verif.Props.SmtBatch

/-!
# Batches that represent trees
-/
namespace Fpki.SmtStore

open Fpki.Smt (Node KVs Key Val byteOf digest preimages AllLeaves Sized NoHole Fits InPre WF)

/-! ## Slots -/

theorem slot_set (b : Batch) (i j : Nat) (v : Bytes) (h : i < b.length) : slot (b.set i v) j = if j = i then v else slot b j := by
  unfold slot
  rw [List.getD_eq_getElem?_getD, List.getD_eq_getElem?_getD, List.getElem?_set]
  by_cases hij : i = j
  · subst hij; simp [h]
  · rw [if_neg hij, if_neg (fun h => hij h.symm)]

/-- The slots below slot `i`, `d` levels. -/
def zone : Nat → Nat → List Nat
  | 0, _ => []
  | d + 1, i => (2 * i + 1) :: (2 * i + 2) :: (zone d (2 * i + 1) ++ zone d (2 * i + 2))

/-- Room for `d` levels below slot `i` in a batch of 31 slots. -/
def Room (d i : Nat) : Prop := d ≤ 4 ∧ i + 1 < 2 ^ (5 - d)

theorem room_child {d i : Nat} (h : Room (d + 1) i) : i < 15 ∧ d < 4 ∧ Room d (2 * i + 1) ∧ Room d (2 * i + 2) := by
  obtain ⟨h1, h2⟩ := h
  have : d = 0 ∨ d = 1 ∨ d = 2 ∨ d = 3 := by omega
  unfold Room
  rcases this with rfl | rfl | rfl | rfl <;> simp at h2 ⊢ <;> omega

/-- The finitely many cases of `zone_facts`. -/
theorem zone_check : ((List.range 4).all fun d => (List.range 15).all fun i =>
    ((zone d (2 * i + 1)).all fun m => !(zone d (2 * i + 2)).contains m && m != 2 * i + 1 && m != 2 * i + 2 && m != 0 && m != i) &&
    (zone d (2 * i + 2)).all fun m => m != 2 * i + 1 && m != 2 * i + 2 && m != 0 && m != i) = true := by decide +kernel

theorem zone_facts {d : Nat} (hd : d < 4) {i : Nat} (hi : i < 15) : (∀ m ∈ zone d (2 * i + 1), m ∉ zone d (2 * i + 2) ∧ m ≠ 2 * i + 1 ∧ m ≠ 2 * i + 2 ∧ m ≠ 0 ∧ m ≠ i) ∧
    (∀ m ∈ zone d (2 * i + 2), m ≠ 2 * i + 1 ∧ m ≠ 2 * i + 2 ∧ m ≠ 0 ∧ m ≠ i) := by
  have h := zone_check
  rw [List.all_eq_true] at h
  have h := h d (List.mem_range.2 hd)
  rw [List.all_eq_true] at h
  have h := h i (List.mem_range.2 hi)
  rw [Bool.and_eq_true, List.all_eq_true, List.all_eq_true] at h
  refine ⟨fun m hm => ?_, fun m hm => ?_⟩
  · have := h.1 m hm
    simpa [and_assoc] using this
  · have := h.2 m hm
    simpa [and_assoc] using this

theorem zone_cover : ∀ m < 31, m ≠ 0 → m ∈ zone 4 0 := by decide +kernel

/-! ## Trees in batches -/

/-- All slots below `i` are nil. -/
def Clean (b : Batch) (d i : Nat) : Prop := ∀ m ∈ zone d i, slot b m = []

/-- A node as its parent refers to it: digest and flag. -/
def slotOf (H : Bytes → Bytes) (h : Nat) : Node → Bytes
  | .empty => []
  | .leaf k v => digest H h (.leaf k v) ++ [1]
  | .node l r => digest H h (.node l r) ++ [0]

/-- The `d` levels below slot `i` are those of the tree `t` of height `h`. -/
def Shape (H : Bytes → Bytes) : Nat → Batch → Nat → Nat → Node → Prop
  | 0, _, _, _, _ => True
  | d + 1, b, i, _, .empty => Clean b (d + 1) i
  | d + 1, b, i, _, .leaf k v => slot b (2 * i + 1) = k ++ [2] ∧ slot b (2 * i + 2) = v ++ [2] ∧ Clean b d (2 * i + 1) ∧ Clean b d (2 * i + 2)
  | d + 1, b, i, h, .node l r => slot b (2 * i + 1) = slotOf H (h - 1) l ∧ slot b (2 * i + 2) = slotOf H (h - 1) r ∧
      Shape H d b (2 * i + 1) (h - 1) l ∧ Shape H d b (2 * i + 2) (h - 1) r

/-- The batch whose root is `t`, of height `h`. -/
structure Good (H : Bytes → Bytes) (h : Nat) (t : Node) (b : Batch) : Prop where
  len : b.length = 31
  flag : slot b 0 = if t.isLeaf then [1] else [0]
  shape : Shape H 4 b 0 h t

theorem zone_succ {d i m : Nat} : m ∈ zone (d + 1) i ↔ m = 2 * i + 1 ∨ m = 2 * i + 2 ∨ m ∈ zone d (2 * i + 1) ∨ m ∈ zone d (2 * i + 2) := by simp [zone]

theorem clean_congr {b b' : Batch} {d i : Nat} (he : ∀ m ∈ zone d i, slot b' m = slot b m) (h : Clean b d i) : Clean b' d i := fun m hm => by rw [he m hm, h m hm]

theorem shape_congr {H : Bytes → Bytes} : ∀ {d : Nat} {b b' : Batch} {i h : Nat} {t : Node}, (∀ m ∈ zone d i, slot b' m = slot b m) → Shape H d b i h t → Shape H d b' i h t
  | 0, _, _, _, _, _, _, _ => trivial
  | d + 1, b, b', i, h, .empty, he, hs => clean_congr he hs
  | d + 1, b, b', i, h, .leaf k v, he, hs => by
    obtain ⟨h1, h2, h3, h4⟩ := hs
    refine ⟨?_, ?_, clean_congr (fun m hm => he m (zone_succ.2 (by simp [hm]))) h3, clean_congr (fun m hm => he m (zone_succ.2 (by simp [hm]))) h4⟩
    · rw [he _ (zone_succ.2 (by simp)), h1]
    · rw [he _ (zone_succ.2 (by simp)), h2]
  | d + 1, b, b', i, h, .node l r, he, hs => by
    obtain ⟨h1, h2, h3, h4⟩ := hs
    refine ⟨?_, ?_, shape_congr (fun m hm => he m (zone_succ.2 (by simp [hm]))) h3, shape_congr (fun m hm => he m (zone_succ.2 (by simp [hm]))) h4⟩
    · rw [he _ (zone_succ.2 (by simp)), h1]
    · rw [he _ (zone_succ.2 (by simp)), h2]

theorem shape_empty {H : Bytes → Bytes} {d : Nat} {b : Batch} {i h : Nat} : Shape H d b i h .empty ↔ Clean b d i := by
  cases d with
  | zero => simp [Shape, Clean, zone]
  | succ d => rfl

theorem clean_succ {b : Batch} {d i : Nat} : Clean b (d + 1) i ↔ slot b (2 * i + 1) = [] ∧ slot b (2 * i + 2) = [] ∧ Clean b d (2 * i + 1) ∧ Clean b d (2 * i + 2) := by
  unfold Clean
  constructor
  · intro h
    exact ⟨h _ (zone_succ.2 (by simp)), h _ (zone_succ.2 (by simp)), fun m hm => h m (zone_succ.2 (by simp [hm])), fun m hm => h m (zone_succ.2 (by simp [hm]))⟩
  · rintro ⟨h1, h2, h3, h4⟩ m hm
    rcases zone_succ.1 hm with rfl | rfl | hm | hm
    · exact h1
    · exact h2
    · exact h3 m hm
    · exact h4 m hm

theorem digest_length {H : Bytes → Bytes} (hH : ∀ x, (H x).length = 32) {h : Nat} {t : Node} (ht : t ≠ .empty) : (digest H h t).length = 32 := by
  cases t with
  | empty => exact absurd rfl ht
  | leaf => exact hH _
  | node => exact hH _

theorem slotOf_length {H : Bytes → Bytes} (hH : ∀ x, (H x).length = 32) (h : Nat) (t : Node) : slotOf H h t = [] ∨ (slotOf H h t).length = 33 := by
  cases t with
  | empty => exact Or.inl rfl
  | leaf k v => right; simp [slotOf, digest, hH]
  | node l r => right; simp [slotOf, digest, hH]

theorem shape_slots {H : Bytes → Bytes} (hH : ∀ x, (H x).length = 32) : ∀ {d : Nat} {b : Batch} {i h : Nat} {t : Node}, AllLeaves Sized t → Shape H d b i h t → ∀ m ∈ zone d i, slot b m = [] ∨ (slot b m).length = 33
  | 0, _, _, _, _, _, _, m, hm => by simp [zone] at hm
  | d + 1, b, i, h, .empty, _, hs, m, hm => Or.inl (hs m hm)
  | d + 1, b, i, h, .leaf k v, ht, hs, m, hm => by
    obtain ⟨h1, h2, h3, h4⟩ := hs
    rcases zone_succ.1 hm with rfl | rfl | hm | hm
    · right; rw [h1]; simp [ht.1]
    · right; rw [h2]; simp [ht.2]
    · exact Or.inl (h3 m hm)
    · exact Or.inl (h4 m hm)
  | d + 1, b, i, h, .node l r, ht, hs, m, hm => by
    obtain ⟨h1, h2, h3, h4⟩ := hs
    rcases zone_succ.1 hm with rfl | rfl | hm | hm
    · rw [h1]; exact slotOf_length hH _ _
    · rw [h2]; exact slotOf_length hH _ _
    · exact shape_slots hH ht.1 h3 m hm
    · exact shape_slots hH ht.2 h4 m hm

theorem mem_slot {b : Batch} {s : Bytes} (h : s ∈ b) : ∃ m < b.length, slot b m = s := by
  obtain ⟨m, hm, he⟩ := List.mem_iff_getElem.1 h
  exact ⟨m, hm, by simp [slot, List.getD_eq_getElem?_getD, List.getElem?_eq_getElem hm, he]⟩

/-- A batch that represents a tree is read back as it was written. -/
theorem good_roundtrip {H : Bytes → Bytes} (hH : ∀ x, (H x).length = 32) {h : Nat} {t : Node} (ht : AllLeaves Sized t) {b : Batch} (hb : Good H h t b) :
    Smt.parseBatch (Smt.serializeBatch b) = b := by
  have hslots : ∀ m < 31, m ≠ 0 → slot b m = [] ∨ (slot b m).length = 33 := fun m hm h0 => shape_slots hH ht hb.shape m (zone_cover m hm h0)
  obtain ⟨len, flag, shape⟩ := hb
  cases b with
  | nil => simp at len
  | cons f rest =>
    have hrest : rest.length = 30 := by simpa using len
    have hf : f = if t.isLeaf then [1] else [0] := flag
    have hn : Smt.NodeSlots rest := by
      intro s hs
      obtain ⟨m, hm, he⟩ := mem_slot hs
      have := hslots (m + 1) (by omega) (by omega)
      rw [show slot (f :: rest) (m + 1) = slot rest m from rfl, he] at this
      exact this
    apply Smt.C09_batch_roundtrip
    · refine ⟨⟨f, rest, rfl, hrest, hn, ?_⟩⟩
      cases t with
      | empty => exact Or.inl hf
      | node l r => exact Or.inl hf
      | leaf k v =>
        right
        refine ⟨hf, ?_⟩
        obtain ⟨h1, h2, _⟩ := shape
        match rest, hrest with
        | a :: c :: tl, _ =>
          refine ⟨a, c, tl, rfl, ?_, ?_⟩
          · have h1' : a = k ++ [2] := h1
            rw [h1']; simp
          · have h2' : c = v ++ [2] := h2
            rw [h2']; simp
    · intro hh s hs
      simp only [List.head?_cons, Option.some.injEq] at hh
      cases t with
      | empty => rw [hh] at hf; simp [Node.isLeaf] at hf
      | node l r => rw [hh] at hf; simp [Node.isLeaf] at hf
      | leaf k v =>
        obtain ⟨_, _, h3, h4⟩ := shape
        obtain ⟨m, hm, he⟩ := List.mem_iff_getElem.1 hs
        have hm' : m + 3 < 31 := by simp at hm; omega
        have hsl : slot (f :: rest) (m + 3) = s := by
          rw [← he]
          simp only [slot, List.getD_eq_getElem?_getD]
          rw [List.getElem_drop, List.getElem?_eq_getElem (by rw [len]; omega)]
          simp [Nat.add_comm]
        rw [← hsl]
        rcases zone_succ.1 (zone_cover (m + 3) hm' (by omega)) with h | h | h | h
        · omega
        · omega
        · exact h3 _ h
        · exact h4 _ h

theorem serialize_ne (b : Batch) : (Smt.serializeBatch b).length ≠ 0 := by
  have : ∀ (l : List Bytes) (i : Nat) (ser : Bytes), ser.length ≠ 0 → (Smt.serLoop i l ser).length ≠ 0 := by
    intro l
    induction l with
    | nil => intro i ser h; simpa [Smt.serLoop] using h
    | cons s l ih =>
      intro i ser h
      unfold Smt.serLoop
      split
      · apply ih; simp [Smt.bitSet_length]; intro hx; rw [hx] at h; simp at h
      · exact ih _ _ h
  unfold Smt.serializeBatch
  apply this
  split <;> simp [Smt.bitSet_length]

/-- Only the contents of a leaf's batch matter, not its height. -/
theorem good_leaf {H : Bytes → Bytes} {h h' : Nat} {k v : Bytes} {b : Batch} (hb : Good H h (.leaf k v) b) : Good H h' (.leaf k v) b := ⟨hb.len, hb.flag, hb.shape⟩

/-! ## Digests -/

/-- No accident happens with the strings that are hashed: no collision, no digests that overlap in all but a byte, no digest of 32 zero bytes. -/
structure NoAccident (H : Bytes → Bytes) (Hp : Bytes → Prop) : Prop where
  len : ∀ x, (H x).length = 32
  inj : ∀ x y, Hp x → Hp y → H x = H y → x = y
  shift : ∀ x y, Hp x → Hp y → 0 :: H x ≠ H y ++ [0]
  zero : ∀ x, Hp x → H x ≠ List.replicate 32 0

/-- All strings hashed for the tree are among those considered. -/
def Pre (H : Bytes → Bytes) (Hp : Bytes → Prop) (h : Nat) (t : Node) : Prop := ∀ x ∈ preimages H h t, Hp x

theorem Pre.left {H : Bytes → Bytes} {Hp : Bytes → Prop} {h : Nat} {l r : Node} (hp : Pre H Hp h (.node l r)) : Pre H Hp (h - 1) l := fun x hx => hp x (by simp [preimages, hx])
theorem Pre.right {H : Bytes → Bytes} {Hp : Bytes → Prop} {h : Nat} {l r : Node} (hp : Pre H Hp h (.node l r)) : Pre H Hp (h - 1) r := fun x hx => hp x (by simp [preimages, hx])

theorem digest_ne_zero {H : Bytes → Bytes} {Hp : Bytes → Prop} (hA : NoAccident H Hp) {h : Nat} {t : Node} (ht : t ≠ .empty) (hp : Pre H Hp h t) : digest H h t ≠ List.replicate 32 0 := by
  rcases Smt.digest_cases H h t with ⟨h1, _⟩ | ⟨x, hx, he⟩
  · exact absurd h1 ht
  · rw [he]; exact hA.zero x (hp x hx)

/-- Equal digests: equal trees, at heights that are equal modulo 256. -/
theorem digest_inj' {H : Bytes → Bytes} {Hp : Bytes → Prop} (hA : NoAccident H Hp) : ∀ (t u : Node) (h h' : Nat), AllLeaves Sized t → AllLeaves Sized u → Pre H Hp h t → Pre H Hp h' u →
    digest H h t = digest H h' u → t = u ∧ (t ≠ .empty → NoHole t → Fits h t → Fits h' t → ∃ e, e ≤ h ∧ e ≤ h' ∧ byteOf (h - e) = byteOf (h' - e)) := by
  have hlen : ∀ (h : Nat) (t : Node), (t = .empty ∧ digest H h t = [0]) ∨ (t ≠ .empty ∧ (digest H h t).length = 32) := by
    intro h t
    cases t with
    | empty => exact Or.inl ⟨rfl, rfl⟩
    | leaf k v => exact Or.inr ⟨by simp, hA.len _⟩
    | node l r => exact Or.inr ⟨by simp, hA.len _⟩
  intro t
  induction t with
  | empty =>
    intro u h h' _ _ _ _ he
    rcases hlen h' u with ⟨h1, _⟩ | ⟨_, h2⟩
    · exact ⟨h1.symm, fun h => absurd rfl h⟩
    · rw [← he] at h2; simp [digest, Smt.defaultLeaf] at h2
  | leaf k v =>
    intro u h h' ht hu hpt hpu he
    cases u with
    | empty =>
      have := hA.len (k ++ v ++ [byteOf h])
      rw [show H (k ++ v ++ [byteOf h]) = Smt.defaultLeaf from he] at this
      simp [Smt.defaultLeaf] at this
    | leaf k' v' =>
      have hp : k ++ v ++ [byteOf h] = k' ++ v' ++ [byteOf h'] := hA.inj _ _ (hpt _ (List.mem_singleton_self _)) (hpu _ (List.mem_singleton_self _)) he
      rw [List.append_assoc, List.append_assoc] at hp
      have h1 := List.append_inj hp (by rw [ht.1, hu.1])
      have h2 := List.append_inj h1.2 (by rw [ht.2, hu.2])
      refine ⟨by rw [h1.1, h2.1], fun _ _ _ _ => ⟨0, by omega, by omega, ?_⟩⟩
      have := h2.2
      simpa using this
    | node l r =>
      exfalso
      have hp := hA.inj _ _ (hpt _ (List.mem_singleton_self _)) (hpu _ (List.mem_cons_self ..)) he
      have hl := congrArg List.length hp
      have h1 := hlen (h' - 1) l
      have h2 := hlen (h' - 1) r
      simp only [List.length_append, List.length_cons, List.length_nil, ht.1, ht.2] at hl
      rcases h1 with ⟨_, h1⟩ | ⟨_, h1⟩ <;> rcases h2 with ⟨_, h2⟩ | ⟨_, h2⟩ <;> simp [h1, h2] at hl
  | node l r ihl ihr =>
    intro u h h' ht hu hpt hpu he
    cases u with
    | empty =>
      have := hA.len (digest H (h - 1) l ++ digest H (h - 1) r)
      rw [show H (digest H (h - 1) l ++ digest H (h - 1) r) = Smt.defaultLeaf from he] at this
      simp [Smt.defaultLeaf] at this
    | leaf k v =>
      exfalso
      have hp := hA.inj _ _ (hpt _ (List.mem_cons_self ..)) (hpu _ (List.mem_singleton_self _)) he
      have hl := congrArg List.length hp
      have h1 := hlen (h - 1) l
      have h2 := hlen (h - 1) r
      simp only [List.length_append, List.length_cons, List.length_nil, hu.1, hu.2] at hl
      rcases h1 with ⟨_, h1⟩ | ⟨_, h1⟩ <;> rcases h2 with ⟨_, h2⟩ | ⟨_, h2⟩ <;> simp [h1, h2] at hl
    | node l' r' =>
      have hp : digest H (h - 1) l ++ digest H (h - 1) r = digest H (h' - 1) l' ++ digest H (h' - 1) r' :=
        hA.inj _ _ (hpt _ (by simp [preimages])) (hpu _ (by simp [preimages])) he
      by_cases hll : (digest H (h - 1) l).length = (digest H (h' - 1) l').length
      · have heq := List.append_inj hp hll
        obtain ⟨h1, h1'⟩ := ihl l' (h - 1) (h' - 1) ht.1 hu.1 hpt.left hpu.left heq.1
        obtain ⟨h2, h2'⟩ := ihr r' (h - 1) (h' - 1) ht.2 hu.2 hpt.right hpu.right heq.2
        refine ⟨by rw [h1, h2], fun _ hnh hf hf' => ?_⟩
        cases h with
        | zero => exact absurd hf (by simp [Fits])
        | succ h =>
          cases h' with
          | zero => exact absurd hf' (by simp [Fits])
          | succ h' =>
            by_cases hle : l = .empty
            · have hre : r ≠ .empty := fun hr => hnh.1 ⟨hle, hr⟩
              obtain ⟨e, e1, e2, e3⟩ := h2' hre hnh.2.2 hf.2 hf'.2
              exact ⟨e + 1, by omega, by omega, by simpa [Nat.succ_sub_succ_eq_sub] using e3⟩
            · obtain ⟨e, e1, e2, e3⟩ := h1' hle hnh.2.1 hf.1 hf'.1
              exact ⟨e + 1, by omega, by omega, by simpa [Nat.succ_sub_succ_eq_sub] using e3⟩
      · exfalso
        have hlp := congrArg List.length hp
        simp only [List.length_append] at hlp
        rcases hlen (h - 1) l with ⟨hle, h1⟩ | ⟨hle, h1⟩
        · rcases hlen (h' - 1) l' with ⟨hle', h1'⟩ | ⟨hle', h1'⟩
          · rw [h1, h1'] at hll; exact absurd rfl hll
          · rcases hlen (h' - 1) r' with ⟨hre', h2'⟩ | ⟨hre', h2'⟩
            · rcases hlen (h - 1) r with ⟨hre, h2⟩ | ⟨hre, h2⟩
              · simp [h1, h2, h1', h2'] at hlp
              · rcases Smt.digest_cases H (h - 1) r with ⟨h3, _⟩ | ⟨x, hx, hxe⟩
                · exact absurd h3 hre
                rcases Smt.digest_cases H (h' - 1) l' with ⟨h3, _⟩ | ⟨y, hy, hye⟩
                · exact absurd h3 hle'
                rw [h1, h2', hxe, hye] at hp
                exact hA.shift x y (hpt.right x hx) (hpu.left y hy) hp
            · rcases hlen (h - 1) r with ⟨_, h2⟩ | ⟨_, h2⟩ <;> simp [h1, h2, h1', h2'] at hlp
        · rcases hlen (h' - 1) l' with ⟨hle', h1'⟩ | ⟨hle', h1'⟩
          · rcases hlen (h - 1) r with ⟨hre, h2⟩ | ⟨hre, h2⟩
            · rcases hlen (h' - 1) r' with ⟨hre', h2'⟩ | ⟨hre', h2'⟩
              · simp [h1, h2, h1', h2'] at hlp
              · rcases Smt.digest_cases H (h - 1) l with ⟨h3, _⟩ | ⟨x, hx, hxe⟩
                · exact absurd h3 hle
                rcases Smt.digest_cases H (h' - 1) r' with ⟨h3, _⟩ | ⟨y, hy, hye⟩
                · exact absurd h3 hre'
                rw [h2, h1', hxe, hye] at hp
                exact hA.shift y x (hpu.right y hy) (hpt.left x hx) hp.symm
            · rcases hlen (h' - 1) r' with ⟨_, h2'⟩ | ⟨_, h2'⟩ <;> simp [h1, h2, h1', h2'] at hlp
          · rw [h1, h1'] at hll; exact absurd rfl hll

theorem byteOf_eq {a b : Nat} (h : byteOf a = byteOf b) : a % 256 = b % 256 := by
  have := congrArg UInt8.toNat h
  simpa [byteOf] using this

/-- Digests of trees of heights up to 256. -/
theorem digest_height {H : Bytes → Bytes} {Hp : Bytes → Prop} (hA : NoAccident H Hp) {t u : Node} {h h' : Nat} (hs : AllLeaves Sized t) (hs' : AllLeaves Sized u) (hp : Pre H Hp h t) (hp' : Pre H Hp h' u)
    (hne : t ≠ .empty) (hnh : NoHole t) (hf : Fits h t) (hf' : Fits h' u) (hh : h ≤ 256) (hh' : h' ≤ 256) (he : digest H h t = digest H h' u) :
    t = u ∧ (h = h' ∨ (h = 0 ∧ h' = 256) ∨ (h = 256 ∧ h' = 0)) := by
  obtain ⟨h1, h2⟩ := digest_inj' hA t u h h' hs hs' hp hp' he
  subst h1
  obtain ⟨e, e1, e2, e3⟩ := h2 hne hnh hf hf'
  have := byteOf_eq e3
  exact ⟨rfl, by omega⟩

end Fpki.SmtStore
