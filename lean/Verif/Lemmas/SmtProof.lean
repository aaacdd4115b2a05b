import Verif.Lemmas.SmtTree

/-!
# Hashing and Merkle proofs
-/
namespace Fpki.Smt

/-! ## Specification vocabulary -/

/-- Every byte string hashed to compute the digest of a subtree at height `h`. -/
def preimages (H : Bytes → Bytes) : Nat → Node → List Bytes
  | _, .empty => []
  | h, .leaf k v => [k ++ v ++ [byteOf h]]
  | h, .node l r => (digest H (h - 1) l ++ digest H (h - 1) r) ::
      (preimages H (h - 1) l ++ preimages H (h - 1) r)

/-- Every byte string hashed by the verifier on the way from the leaf to the root. -/
def pathPreimages (H : Bytes → Bytes) (key : Key) : Nat → List Bytes → Bytes → List Bytes
  | _, [], _ => []
  | i, s :: rest, e =>
    (if bitIsSet key i then s ++ verifyPath H key (i + 1) rest e
     else verifyPath H key (i + 1) rest e ++ s) :: pathPreimages H key (i + 1) rest e

/-- Every byte string hashed by `VerifyInclusion`. -/
def inclusionPreimages (H : Bytes → Bytes) (n : Nat) (ap : List Bytes) (key : Key) (value : Val) :
    List Bytes :=
  (key ++ value ++ [heightByte n ap.length]) ::
    pathPreimages H key 0 ap.reverse (H (key ++ value ++ [heightByte n ap.length]))

/-- Every byte string hashed by `VerifyNonInclusion`. -/
def nonInclusionPreimages (H : Bytes → Bytes) (n : Nat) (ap : List Bytes) (key : Key) (value : Val)
    (proofKey : Bytes) : List Bytes :=
  if proofKey.isEmpty then pathPreimages H key 0 ap.reverse defaultLeaf
  else inclusionPreimages H n ap proofKey value

/-- A hash collision between two lists of hashed strings. -/
def Clash (H : Bytes → Bytes) (xs ys : List Bytes) : Prop :=
  ∃ x ∈ xs, ∃ y ∈ ys, x ≠ y ∧ H x = H y

/-- Two hashed strings whose digests overlap in all but one byte: `0‖H(x) = H(y)‖0`. Then a node with
only a right child and a node with only a left child hash the same 33 bytes. -/
def Shift (H : Bytes → Bytes) (xs ys : List Bytes) : Prop :=
  ∃ x ∈ xs, ∃ y ∈ ys, 0 :: H x = H y ++ [0] ∨ 0 :: H y = H x ++ [0]

/-- Some digest in the tree begins or ends with a zero byte. -/
def ZeroEdge (H : Bytes → Bytes) (xs : List Bytes) : Prop :=
  ∃ x ∈ xs, (H x).head? = some 0 ∨ (H x).getLast? = some 0

/-- Every leaf of the tree satisfies `P`. -/
def AllLeaves (P : Key → Val → Prop) : Node → Prop
  | .empty => True
  | .leaf k v => P k v
  | .node l r => AllLeaves P l ∧ AllLeaves P r

/-- 32-byte keys and values, as `Update` requires (SHA-256 outputs). -/
def Sized (k : Key) (v : Val) : Prop := k.length = 32 ∧ v.length = 32

/-- A history with 32-byte keys and 32-byte values. -/
def SizedHist (hist : List KVs) : Prop :=
  ∀ kvs ∈ hist, ∀ p ∈ kvs, p.1.length = 32 ∧ ∀ v, p.2 = some v → v.length = 32

instance (hist : List KVs) : Decidable (SizedHist hist) :=
  decidable_of_iff (∀ kvs ∈ hist, ∀ p ∈ kvs, p.1.length = 32 ∧ (p.2.all (fun v => v.length = 32)) = true) (by
    unfold SizedHist
    constructor
    · intro h kvs hk p hp
      have := h kvs hk p hp
      refine ⟨this.1, fun v hv => ?_⟩
      have := this.2
      rw [hv] at this
      simpa using this
    · intro h kvs hk p hp
      have := h kvs hk p hp
      refine ⟨this.1, ?_⟩
      cases hv : p.2 with
      | none => rfl
      | some v => simpa using this.2 v hv)

/-! ## Lemmas -/

theorem Clash.mono {H : Bytes → Bytes} {xs xs' ys ys' : List Bytes} (hx : ∀ x ∈ xs, x ∈ xs')
    (hy : ∀ y ∈ ys, y ∈ ys') (h : Clash H xs ys) : Clash H xs' ys' := by
  obtain ⟨x, h1, y, h2, h3⟩ := h
  exact ⟨x, hx x h1, y, hy y h2, h3⟩

theorem Shift.mono {H : Bytes → Bytes} {xs xs' ys ys' : List Bytes} (hx : ∀ x ∈ xs, x ∈ xs')
    (hy : ∀ y ∈ ys, y ∈ ys') (h : Shift H xs ys) : Shift H xs' ys' := by
  obtain ⟨x, h1, y, h2, h3⟩ := h
  exact ⟨x, hx x h1, y, hy y h2, h3⟩

theorem ZeroEdge.mono {H : Bytes → Bytes} {xs xs' : List Bytes} (hx : ∀ x ∈ xs, x ∈ xs')
    (h : ZeroEdge H xs) : ZeroEdge H xs' := by
  obtain ⟨x, h1, h2⟩ := h
  exact ⟨x, hx x h1, h2⟩

theorem digest_cases (H : Bytes → Bytes) (h : Nat) (t : Node) :
    (t = .empty ∧ digest H h t = [0]) ∨ ∃ x ∈ preimages H h t, digest H h t = H x := by
  cases t with
  | empty => exact Or.inl ⟨rfl, rfl⟩
  | leaf k v => exact Or.inr ⟨_, List.mem_singleton_self _, rfl⟩
  | node l r => exact Or.inr ⟨_, List.mem_cons_self .., rfl⟩

/-! ### Leaves come from the updates -/

theorem addLoop_mem (sk : Key) (sv : Val) (all : KVs) : ∀ (rest pre acc : KVs) (hi : Bool),
    (∀ p ∈ pre, p ∈ all) → (∀ p ∈ rest, p ∈ all) → (∀ p ∈ acc, p ∈ all ∨ p = (sk, some sv)) →
    ∀ p ∈ addLoop sk sv pre hi acc rest, p ∈ all ∨ p = (sk, some sv) := by
  intro rest
  induction rest with
  | nil => intro pre acc hi _ _ ha; exact ha
  | cons x rest ih =>
    obtain ⟨k, v⟩ := x
    intro pre acc hi hp hr ha p hm
    have hx : (k, v) ∈ all := hr _ (by simp)
    have hr' : ∀ p ∈ rest, p ∈ all := fun p h => hr p (by simp [h])
    have hp' : ∀ p ∈ pre ++ [(k, v)], p ∈ all := by
      intro p h
      rcases List.mem_append.1 h with h | h
      · exact hp p h
      · rw [List.mem_singleton.1 h]; exact hx
    unfold addLoop at hm
    by_cases h1 : sk = k
    · rw [if_pos h1] at hm
      by_cases h2 : v.isSome = true
      · rw [if_pos h2] at hm
        rcases List.mem_append.1 hm with h | h
        · exact Or.inl (hp p h)
        · exact Or.inl (hr p h)
      · rw [if_neg h2] at hm
        apply ih _ _ _ hp' hr' _ p hm
        intro p h
        rcases List.mem_append.1 h with h | h
        · rcases List.mem_append.1 h with h | h
          · exact ha p h
          · exact Or.inl (hp p h)
        · exact Or.inl (hr' p h)
    · rw [if_neg h1] at hm
      by_cases h2 : (!hi && bytesLt k sk) = true
      · rw [if_pos h2] at hm
        exact ih _ _ _ hp' hr' ha p hm
      · rw [if_neg h2] at hm
        by_cases h3 : (hi && bytesLt sk k) = true
        · rw [if_pos h3] at hm
          rcases List.mem_append.1 hm with h | h
          · rcases List.mem_append.1 h with h | h
            · exact ha p h
            · exact Or.inl (hp p h)
          · rcases List.mem_cons.1 h with h | h
            · exact Or.inr h
            · exact Or.inl (hr p h)
        · rw [if_neg h3] at hm
          exact ih _ _ _ hp' hr' ha p hm

theorem maybeAdd_mem (sk : Key) (sv : Val) (kvs : KVs) :
    ∀ p ∈ maybeAdd sk sv kvs, p ∈ kvs ∨ p = (sk, some sv) := by
  intro p hp
  unfold maybeAdd at hp
  split at hp
  · rename_i k0 v0 tl kl vl _
    by_cases h1 : bytesLt sk k0 = true
    · rw [if_pos h1] at hp
      rcases List.mem_cons.1 hp with h | h
      · exact Or.inr h
      · exact Or.inl h
    · rw [if_neg h1] at hp
      by_cases h2 : bytesLt kl sk = true
      · rw [if_pos h2] at hp
        rcases List.mem_append.1 hp with h | h
        · exact Or.inl h
        · exact Or.inr (List.mem_singleton.1 h)
      · rw [if_neg h2] at hp
        exact addLoop_mem sk sv _ _ [] [] false (by simp) (fun _ h => h) (by simp) p hp
  · exact Or.inl hp

theorem splitKeys_mem (i : Nat) (kvs : KVs) :
    (∀ p ∈ (splitKeys i kvs).1, p ∈ kvs) ∧ (∀ p ∈ (splitKeys i kvs).2, p ∈ kvs) :=
  ⟨fun _ h => List.takeWhile_subset _ h, fun _ h => List.dropWhile_subset _ h⟩

theorem join_leaves {P : Key → Val → Prop} (d : Bool) {l r : Node} (hl : AllLeaves P l)
    (hr : AllLeaves P r) : AllLeaves P (join d l r).1 := by
  unfold join
  by_cases hd : d = true
  · rw [if_pos hd]
    split
    · trivial
    · exact hr
    · exact hl
    · exact ⟨hl, hr⟩
  · rw [if_neg hd]
    exact ⟨hl, hr⟩

theorem branch_leaves {P : Key → Val → Prop} {upd : Node → KVs → Node × Bool} (i : Nat) {l r : Node}
    (keys : KVs) (hl : AllLeaves P l) (hr : AllLeaves P r)
    (hk : ∀ k v, (k, some v) ∈ keys → P k v)
    (hu : ∀ t kvs, AllLeaves P t → (∀ k v, (k, some v) ∈ kvs → P k v) → AllLeaves P (upd t kvs).1) :
    AllLeaves P (branch upd i l r keys).1 := by
  unfold branch
  split
  · trivial
  · exact hk _ _ (by simp)
  · have h1 := (splitKeys_mem i keys).1
    have h2 := (splitKeys_mem i keys).2
    generalize splitKeys i keys = s at h1 h2 ⊢
    simp only
    by_cases c1 : (s.1.isEmpty && !s.2.isEmpty) = true
    · rw [if_pos c1]
      exact join_leaves _ hl (hu _ _ hr hk)
    · rw [if_neg c1]
      by_cases c2 : (!s.1.isEmpty && s.2.isEmpty) = true
      · rw [if_pos c2]
        exact join_leaves _ (hu _ _ hl hk) hr
      · rw [if_neg c2]
        exact join_leaves _ (hu _ _ hl (fun k v h => hk k v (h1 _ h)))
          (hu _ _ hr (fun k v h => hk k v (h2 _ h)))

theorem update_leaves {P : Key → Val → Prop} (n : Nat) : ∀ (h : Nat) (t : Node) (kvs : KVs),
    AllLeaves P t → (∀ k v, (k, some v) ∈ kvs → P k v) → AllLeaves P (update n h t kvs).1 := by
  intro h
  induction h with
  | zero =>
    intro t kvs _ hk
    match kvs with
    | [] => trivial
    | (_, none) :: _ => trivial
    | (k, some v) :: _ => exact hk k v (by simp)
  | succ h ih =>
    intro t kvs ht hk
    match kvs with
    | [] => cases t <;> trivial
    | p :: kvs =>
      cases t with
      | empty =>
        simp only [update]
        exact branch_leaves (l := .empty) (r := .empty) _ _ trivial trivial hk ih
      | node l r =>
        simp only [update]
        exact branch_leaves _ _ ht.1 ht.2 hk ih
      | leaf sk sv =>
        simp only [update]
        by_cases he : (maybeAdd sk sv (p :: kvs)).isEmpty = true
        · rw [if_pos he]; trivial
        · rw [if_neg he]
          apply branch_leaves (l := .empty) (r := .empty) _ _ trivial trivial _ ih
          intro k v hm
          rcases maybeAdd_mem _ _ _ _ hm with h' | h'
          · exact hk k v h'
          · cases h'; exact ht

theorem run_sized (n : Nat) (hist : List KVs) (h : SizedHist hist) : AllLeaves Sized (run n hist) := by
  have : ∀ (l : List KVs) (t : Node), AllLeaves Sized t → SizedHist l →
      AllLeaves Sized (l.foldl (updateRoot n) t) := by
    intro l
    induction l with
    | nil => intro t ht _; exact ht
    | cons kvs l ih =>
      intro t ht hl
      rw [List.foldl_cons]
      apply ih
      · unfold updateRoot
        by_cases he : kvs.isEmpty = true
        · rw [if_pos he]; exact ht
        · rw [if_neg he]
          apply update_leaves n n t kvs ht
          intro k v hm
          have := hl kvs (by simp) (k, some v) hm
          exact ⟨this.1, this.2 v rfl⟩
      · intro kvs' h'; exact hl kvs' (by simp [h'])
  exact this hist .empty trivial h

/-! ### The root determines the tree -/

theorem ne_of_length {a b : Bytes} (h : a.length ≠ b.length) : a ≠ b := fun he => h (by rw [he])

theorem head_zero_of_shift {a b : Bytes} (hb : b ≠ []) (h : 0 :: a = b ++ [0]) : b.head? = some 0 := by
  cases b with
  | nil => exact absurd rfl hb
  | cons x b => simp at h; simp [h.1]

theorem digest_inj (H : Bytes → Bytes) (hH : ∀ x, (H x).length = 32) : ∀ (t u : Node) (h : Nat),
    AllLeaves Sized t → AllLeaves Sized u → digest H h t = digest H h u →
    t = u ∨ Clash H (preimages H h t) (preimages H h u) ∨
      Shift H (preimages H h t) (preimages H h u) := by
  have hlen : ∀ (h : Nat) (t : Node), (t = .empty ∧ digest H h t = [0]) ∨
      (t ≠ .empty ∧ (digest H h t).length = 32) := by
    intro h t
    cases t with
    | empty => exact Or.inl ⟨rfl, rfl⟩
    | leaf k v => exact Or.inr ⟨by simp, hH _⟩
    | node l r => exact Or.inr ⟨by simp, hH _⟩
  intro t
  induction t with
  | empty =>
    intro u h _ _ he
    rcases hlen h u with ⟨h1, _⟩ | ⟨_, h2⟩
    · exact Or.inl h1.symm
    · rw [← he] at h2; simp [digest, defaultLeaf] at h2
  | leaf k v =>
    intro u h ht hu he
    cases u with
    | empty =>
      have := hH (k ++ v ++ [byteOf h])
      rw [show H (k ++ v ++ [byteOf h]) = defaultLeaf from he] at this
      simp [defaultLeaf] at this
    | leaf k' v' =>
      by_cases hp : k ++ v ++ [byteOf h] = k' ++ v' ++ [byteOf h]
      · left
        rw [List.append_assoc, List.append_assoc] at hp
        have h1 := List.append_inj hp (by rw [ht.1, hu.1])
        have h2 := List.append_inj h1.2 (by rw [ht.2, hu.2])
        rw [h1.1, h2.1]
      · exact Or.inr (Or.inl ⟨_, List.mem_singleton_self _, _, List.mem_singleton_self _, hp, he⟩)
    | node l r =>
      refine Or.inr (Or.inl ⟨_, List.mem_singleton_self _, _, List.mem_cons_self .., ?_, he⟩)
      apply ne_of_length
      have h1 := hlen (h - 1) l
      have h2 := hlen (h - 1) r
      simp only [List.length_append, List.length_cons, List.length_nil, ht.1, ht.2]
      rcases h1 with ⟨_, h1⟩ | ⟨_, h1⟩ <;> rcases h2 with ⟨_, h2⟩ | ⟨_, h2⟩ <;> simp [h1, h2]
  | node l r ihl ihr =>
    intro u h ht hu he
    cases u with
    | empty =>
      have := hH (digest H (h - 1) l ++ digest H (h - 1) r)
      rw [show H (digest H (h - 1) l ++ digest H (h - 1) r) = defaultLeaf from he] at this
      simp [defaultLeaf] at this
    | leaf k v =>
      refine Or.inr (Or.inl ⟨_, List.mem_cons_self .., _, List.mem_singleton_self _, ?_, he⟩)
      apply ne_of_length
      have h1 := hlen (h - 1) l
      have h2 := hlen (h - 1) r
      simp only [List.length_append, List.length_cons, List.length_nil, hu.1, hu.2]
      rcases h1 with ⟨_, h1⟩ | ⟨_, h1⟩ <;> rcases h2 with ⟨_, h2⟩ | ⟨_, h2⟩ <;> simp [h1, h2]
    | node l' r' =>
      have pl : ∀ x ∈ preimages H (h - 1) l, x ∈ preimages H h (.node l r) := fun x hx => by
        simp [preimages, hx]
      have pr : ∀ x ∈ preimages H (h - 1) r, x ∈ preimages H h (.node l r) := fun x hx => by
        simp [preimages, hx]
      have pl' : ∀ x ∈ preimages H (h - 1) l', x ∈ preimages H h (.node l' r') := fun x hx => by
        simp [preimages, hx]
      have pr' : ∀ x ∈ preimages H (h - 1) r', x ∈ preimages H h (.node l' r') := fun x hx => by
        simp [preimages, hx]
      by_cases hp : digest H (h - 1) l ++ digest H (h - 1) r = digest H (h - 1) l' ++ digest H (h - 1) r'
      · by_cases hll : (digest H (h - 1) l).length = (digest H (h - 1) l').length
        · have heq := List.append_inj hp hll
          rcases ihl l' (h - 1) ht.1 hu.1 heq.1 with h1 | h1 | h1
          · rcases ihr r' (h - 1) ht.2 hu.2 heq.2 with h2 | h2 | h2
            · left; rw [h1, h2]
            · exact Or.inr (Or.inl (h2.mono pr pr'))
            · exact Or.inr (Or.inr (h2.mono pr pr'))
          · exact Or.inr (Or.inl (h1.mono pl pl'))
          · exact Or.inr (Or.inr (h1.mono pl pl'))
        · right; right
          have hlp := congrArg List.length hp
          simp only [List.length_append] at hlp
          rcases hlen (h - 1) l with ⟨hle, h1⟩ | ⟨hle, h1⟩
          · rcases hlen (h - 1) l' with ⟨hle', h1'⟩ | ⟨hle', h1'⟩
            · rw [h1, h1'] at hll; exact absurd rfl hll
            · rcases hlen (h - 1) r' with ⟨hre', h2'⟩ | ⟨hre', h2'⟩
              · rcases hlen (h - 1) r with ⟨hre, h2⟩ | ⟨hre, h2⟩
                · simp [h1, h2, h1', h2'] at hlp
                · rcases digest_cases H (h - 1) r with ⟨h3, _⟩ | ⟨x, hx, hxe⟩
                  · exact absurd h3 hre
                  rcases digest_cases H (h - 1) l' with ⟨h3, _⟩ | ⟨y, hy, hye⟩
                  · exact absurd h3 hle'
                  refine ⟨x, pr x hx, y, pl' y hy, Or.inl ?_⟩
                  rw [h1, h2', hxe, hye] at hp
                  exact hp
              · rcases hlen (h - 1) r with ⟨_, h2⟩ | ⟨_, h2⟩ <;> simp [h1, h2, h1', h2'] at hlp
          · rcases hlen (h - 1) l' with ⟨hle', h1'⟩ | ⟨hle', h1'⟩
            · rcases hlen (h - 1) r with ⟨hre, h2⟩ | ⟨hre, h2⟩
              · rcases hlen (h - 1) r' with ⟨hre', h2'⟩ | ⟨hre', h2'⟩
                · simp [h1, h2, h1', h2'] at hlp
                · rcases digest_cases H (h - 1) l with ⟨h3, _⟩ | ⟨x, hx, hxe⟩
                  · exact absurd h3 hle
                  rcases digest_cases H (h - 1) r' with ⟨h3, _⟩ | ⟨y, hy, hye⟩
                  · exact absurd h3 hre'
                  refine ⟨x, pl x hx, y, pr' y hy, Or.inr ?_⟩
                  rw [h2, h1', hxe, hye] at hp
                  exact hp.symm
              · rcases hlen (h - 1) r' with ⟨_, h2'⟩ | ⟨_, h2'⟩ <;> simp [h1, h2, h1', h2'] at hlp
            · rw [h1, h1'] at hll; exact absurd rfl hll
      · exact Or.inr (Or.inl ⟨_, by simp only [preimages]; exact List.mem_cons_self .., _,
          by simp only [preimages]; exact List.mem_cons_self .., hp, he⟩)

/-! ### Completeness -/

theorem heightByte_eq {n len : Nat} (h : len ≤ n) : heightByte n len = byteOf (n - len) := by
  unfold heightByte byteOf
  rw [show ((n : Int) - (len : Int)) = ((n - len : Nat) : Int) by omega]
  generalize n - len = m
  unfold UInt8.ofInt
  apply UInt8.toNat_inj.1
  simp only [UInt8.toNat_ofNat']
  omega

theorem proof_complete (H : Bytes → Bytes) (n : Nat) : ∀ (t : Node) (h i : Nat) (q : Nat → Bool)
    (key : Key), i + h = n → WF n i q t → InPre n q i key →
    let p := merkleProof H n h t key
    p.path.length ≤ h ∧
    (get i t key = none → p.included = false ∧
      ((p.key = none ∧ p.value = none ∧ verifyPath H key i p.path.reverse defaultLeaf = digest H h t) ∨
       ∃ k v, p.key = some k ∧ p.value = some v ∧ k ≠ key ∧ 8 * k.length = n ∧
        (∀ j, j < i + p.path.length → bitIsSet key j = bitIsSet k j) ∧
        verifyPath H k i p.path.reverse (H (k ++ v ++ [byteOf (h - p.path.length)])) = digest H h t)) ∧
    (∀ v, get i t key = some v → p.included = true ∧ p.key = none ∧ p.value = some v ∧
      verifyPath H key i p.path.reverse (H (key ++ v ++ [byteOf (h - p.path.length)])) = digest H h t) := by
  intro t
  induction t with
  | empty => intro h i q key _ _ _; simp [merkleProof, get, verifyPath, digest]
  | leaf k v =>
    intro h i q key _ hwf hk
    by_cases he : k = key
    · subst he; simp [merkleProof, get, verifyPath, digest]
    · simp only [merkleProof, if_neg he, get, List.length_nil, List.reverse_nil, verifyPath, digest]
      refine ⟨by omega, fun _ => ⟨trivial, Or.inr ⟨k, v, rfl, rfl, he, hwf.1, ?_, rfl⟩⟩, by simp⟩
      intro j hj
      exact hk.samePrefix hwf j (by omega)
  | node l r ihl ihr =>
    intro h i q key hih hwf hk
    obtain ⟨hi, hl, hr, _⟩ := hwf
    obtain ⟨h', rfl⟩ : ∃ h', h = h' + 1 := ⟨h - 1, by omega⟩
    have hbit : n - (h' + 1) = i := by omega
    simp only [merkleProof, hbit, Nat.add_sub_cancel]
    cases hb : bitIsSet key i with
    | true =>
      simp only [if_true]
      have ih := ihr h' (i + 1) (ext q i true) key (by omega) hr (InPre.ext_iff.2 ⟨hk, hb⟩)
      generalize merkleProof H n h' r key = p at ih ⊢
      simp only at ih ⊢
      rw [get_node, if_pos hb]
      simp only [List.length_append, List.length_cons, List.length_nil, List.reverse_append,
        List.reverse_cons, List.reverse_nil, List.nil_append, List.cons_append, verifyPath, hb, if_true]
      refine ⟨by omega, fun hn => ?_, fun v hv => ?_⟩
      · obtain ⟨h1, h2⟩ := ih.2.1 hn
        refine ⟨h1, ?_⟩
        rcases h2 with ⟨h3, h4, h5⟩ | ⟨k, v, h3, h4, h5, h6, h7, h8⟩
        · exact Or.inl ⟨h3, h4, by rw [h5]; rfl⟩
        · refine Or.inr ⟨k, v, h3, h4, h5, h6, fun j hj => h7 j (by omega), ?_⟩
          have : bitIsSet k i = true := by rw [← h7 i (by omega)]; exact hb
          rw [this, show h' + 1 - (p.path.length + 1) = h' - p.path.length by omega, h8]
          rfl
      · obtain ⟨h1, h2, h3, h4⟩ := ih.2.2 v hv
        refine ⟨h1, h2, h3, ?_⟩
        rw [show h' + 1 - (p.path.length + 1) = h' - p.path.length by omega, h4]
        rfl
    | false =>
      simp only [Bool.false_eq_true, if_false]
      have ih := ihl h' (i + 1) (ext q i false) key (by omega) hl (InPre.ext_iff.2 ⟨hk, hb⟩)
      generalize merkleProof H n h' l key = p at ih ⊢
      simp only at ih ⊢
      rw [get_node, hb]
      simp only [List.length_append, List.length_cons, List.length_nil, List.reverse_append,
        List.reverse_cons, List.reverse_nil, List.nil_append, List.cons_append, verifyPath, hb,
        Bool.false_eq_true, if_false]
      refine ⟨by omega, fun hn => ?_, fun v hv => ?_⟩
      · obtain ⟨h1, h2⟩ := ih.2.1 hn
        refine ⟨h1, ?_⟩
        rcases h2 with ⟨h3, h4, h5⟩ | ⟨k, v, h3, h4, h5, h6, h7, h8⟩
        · exact Or.inl ⟨h3, h4, by rw [h5]; rfl⟩
        · refine Or.inr ⟨k, v, h3, h4, h5, h6, fun j hj => h7 j (by omega), ?_⟩
          have : bitIsSet k i = false := by rw [← h7 i (by omega)]; exact hb
          rw [this, show h' + 1 - (p.path.length + 1) = h' - p.path.length by omega, h8]
          rfl
      · obtain ⟨h1, h2, h3, h4⟩ := ih.2.2 v hv
        refine ⟨h1, h2, h3, ?_⟩
        rw [show h' + 1 - (p.path.length + 1) = h' - p.path.length by omega, h4]
        rfl

/-- The tree fits in height `h`. -/
def Fits : Nat → Node → Prop
  | _, .empty => True
  | _, .leaf _ _ => True
  | 0, .node _ _ => False
  | h + 1, .node l r => Fits h l ∧ Fits h r

theorem join_fits {h : Nat} {d : Bool} {l r : Node} (hl : Fits h l) (hr : Fits h r) :
    Fits (h + 1) (join d l r).1 := by
  unfold join
  by_cases hd : d = true
  · rw [if_pos hd]
    split
    · trivial
    · trivial
    · trivial
    · exact ⟨hl, hr⟩
  · rw [if_neg hd]; exact ⟨hl, hr⟩

theorem branch_fits {upd : Node → KVs → Node × Bool} (i h : Nat) {l r : Node} {keys : KVs}
    (hl : Fits h l) (hr : Fits h r) (hu : ∀ t kvs, Fits h t → Fits h (upd t kvs).1) :
    Fits (h + 1) (branch upd i l r keys).1 := by
  unfold branch
  split
  · trivial
  · trivial
  · generalize splitKeys i keys = s
    simp only
    by_cases c1 : (s.1.isEmpty && !s.2.isEmpty) = true
    · rw [if_pos c1]; exact join_fits hl (hu _ _ hr)
    · rw [if_neg c1]
      by_cases c2 : (!s.1.isEmpty && s.2.isEmpty) = true
      · rw [if_pos c2]; exact join_fits (hu _ _ hl) hr
      · rw [if_neg c2]; exact join_fits (hu _ _ hl) (hu _ _ hr)

theorem update_fits (n : Nat) : ∀ (h : Nat) (t : Node) (kvs : KVs), Fits h t →
    Fits h (update n h t kvs).1 := by
  intro h
  induction h with
  | zero =>
    intro t kvs _
    match kvs with
    | [] => trivial
    | (_, none) :: _ => trivial
    | (k, some v) :: _ => trivial
  | succ h ih =>
    intro t kvs ht
    match kvs with
    | [] => cases t <;> trivial
    | p :: kvs =>
      cases t with
      | empty =>
        simp only [update]
        exact branch_fits (l := .empty) (r := .empty) _ _ (by cases h <;> trivial) (by cases h <;> trivial) ih
      | node l r =>
        simp only [update]
        exact branch_fits _ _ ht.1 ht.2 ih
      | leaf sk sv =>
        simp only [update]
        by_cases he : (maybeAdd sk sv (p :: kvs)).isEmpty = true
        · rw [if_pos he]; trivial
        · rw [if_neg he]
          exact branch_fits (l := .empty) (r := .empty) _ _ (by cases h <;> trivial) (by cases h <;> trivial) ih

theorem run_fits (n : Nat) (hist : List KVs) : Fits n (run n hist) := by
  have : ∀ (l : List KVs) (t : Node), Fits n t → Fits n (l.foldl (updateRoot n) t) := by
    intro l
    induction l with
    | nil => intro t ht; exact ht
    | cons kvs l ih =>
      intro t ht
      rw [List.foldl_cons]
      apply ih
      unfold updateRoot
      by_cases he : kvs.isEmpty = true
      · rw [if_pos he]; exact ht
      · rw [if_neg he]; exact update_fits n n t kvs ht
  exact this hist .empty (by cases n <;> trivial)

/-- Inclusion proofs are complete for any tree that fits. -/
theorem incl_complete (H : Bytes → Bytes) (n : Nat) : ∀ (t : Node) (h i : Nat) (key : Key) (v : Val),
    i + h = n → Fits h t → get i t key = some v →
    let p := merkleProof H n h t key
    p.path.length ≤ h ∧ p.included = true ∧ p.key = none ∧ p.value = some v ∧
      verifyPath H key i p.path.reverse (H (key ++ v ++ [byteOf (h - p.path.length)])) = digest H h t := by
  intro t
  induction t with
  | empty => intro h i key v _ _ hg; simp [get] at hg
  | leaf k v' =>
    intro h i key v _ _ hg
    by_cases he : k = key
    · subst he
      simp only [get, if_true, Option.some.injEq] at hg
      subst hg
      simp [merkleProof, verifyPath, digest]
    · simp [get, he] at hg
  | node l r ihl ihr =>
    intro h i key v hih hf hg
    obtain ⟨h', rfl⟩ : ∃ h', h = h' + 1 := by
      cases h with
      | zero => exact hf.elim
      | succ h' => exact ⟨h', rfl⟩
    have hbit : n - (h' + 1) = i := by omega
    simp only [merkleProof, hbit, Nat.add_sub_cancel]
    cases hb : bitIsSet key i with
    | true =>
      simp only [if_true]
      rw [get_node, if_pos hb] at hg
      have ih := ihr h' (i + 1) key v (by omega) hf.2 hg
      generalize merkleProof H n h' r key = p at ih ⊢
      simp only at ih ⊢
      simp only [List.length_append, List.length_cons, List.length_nil, List.reverse_append,
        List.reverse_cons, List.reverse_nil, List.nil_append, List.cons_append, verifyPath, hb, if_true]
      refine ⟨by omega, ih.2.1, ih.2.2.1, ih.2.2.2.1, ?_⟩
      rw [show h' + 1 - (p.path.length + 1) = h' - p.path.length by omega, ih.2.2.2.2]
      rfl
    | false =>
      simp only [Bool.false_eq_true, if_false]
      rw [get_node, hb] at hg
      have ih := ihl h' (i + 1) key v (by omega) hf.1 hg
      generalize merkleProof H n h' l key = p at ih ⊢
      simp only at ih ⊢
      simp only [List.length_append, List.length_cons, List.length_nil, List.reverse_append,
        List.reverse_cons, List.reverse_nil, List.nil_append, List.cons_append, verifyPath, hb,
        Bool.false_eq_true, if_false]
      refine ⟨by omega, ih.2.1, ih.2.2.1, ih.2.2.2.1, ?_⟩
      rw [show h' + 1 - (p.path.length + 1) = h' - p.path.length by omega, ih.2.2.2.2]
      rfl

/-! ### Soundness -/

/-- Follow the first `m` bits of `key` from depth `i`. -/
def walk (key : Key) : Nat → Nat → Node → Option Node
  | _, 0, t => some t
  | i, m + 1, .node l r => walk key (i + 1) m (if bitIsSet key i then r else l)
  | _, _ + 1, _ => none

theorem get_walk (key : Key) : ∀ (m i : Nat) (t u : Node), walk key i m t = some u →
    get i t key = get (i + m) u key := by
  intro m
  induction m with
  | zero => intro i t u h; simp [walk] at h; rw [h]; rfl
  | succ m ih =>
    intro i t u h
    cases t with
    | empty => simp [walk] at h
    | leaf => simp [walk] at h
    | node l r =>
      simp only [walk] at h
      have := ih (i + 1) _ u h
      rw [get_node, show i + (m + 1) = i + 1 + m by omega, ← this]
      cases bitIsSet key i <;> rfl

theorem walk_congr {a b : Key} : ∀ (m i : Nat) (t : Node),
    (∀ j, i ≤ j → j < i + m → bitIsSet a j = bitIsSet b j) → walk a i m t = walk b i m t := by
  intro m
  induction m with
  | zero => intro i t _; rfl
  | succ m ih =>
    intro i t h
    cases t with
    | empty => rfl
    | leaf => rfl
    | node l r =>
      simp only [walk]
      rw [h i (by omega) (by omega)]
      exact ih _ _ (fun j h1 h2 => h j (by omega) (by omega))

theorem walk_preimages (H : Bytes → Bytes) (key : Key) : ∀ (m i h : Nat) (t u : Node),
    walk key i m t = some u → ∀ x ∈ preimages H (h - m) u, x ∈ preimages H h t := by
  intro m
  induction m with
  | zero => intro i h t u hw x hx; simp [walk] at hw; rw [hw]; exact hx
  | succ m ih =>
    intro i h t u hw x hx
    cases t with
    | empty => simp [walk] at hw
    | leaf => simp [walk] at hw
    | node l r =>
      simp only [walk] at hw
      have := ih (i + 1) (h - 1) _ u hw x (by rw [show h - 1 - m = h - (m + 1) by omega]; exact hx)
      simp only [preimages, List.mem_cons, List.mem_append]
      cases hb : bitIsSet key i <;> simp [hb] at this <;> simp [this]

theorem walk_leaves {P : Key → Val → Prop} (key : Key) : ∀ (m i : Nat) (t u : Node),
    walk key i m t = some u → AllLeaves P t → AllLeaves P u := by
  intro m
  induction m with
  | zero => intro i t u hw ht; simp [walk] at hw; rw [← hw]; exact ht
  | succ m ih =>
    intro i t u hw ht
    cases t with
    | empty => simp [walk] at hw
    | leaf => simp [walk] at hw
    | node l r =>
      simp only [walk] at hw
      apply ih _ _ _ hw
      cases bitIsSet key i
      · exact ht.1
      · exact ht.2

theorem verifyPath_cases (H : Bytes → Bytes) (key : Key) (i : Nat) (path : List Bytes) (e : Bytes) :
    (path = [] ∧ verifyPath H key i path e = e) ∨
    ∃ x ∈ pathPreimages H key i path e, verifyPath H key i path e = H x := by
  cases path with
  | nil => exact Or.inl ⟨rfl, rfl⟩
  | cons s rest =>
    right
    refine ⟨_, List.mem_cons_self .., ?_⟩
    simp only [verifyPath]
    cases bitIsSet key i <;> rfl

theorem getLast_of_append_eq {s a : Bytes} (ha : a ≠ []) (h : s ++ [0] = 0 :: a) :
    a.getLast? = some 0 := by
  have := congrArg List.getLast? h
  rw [List.getLast?_concat] at this
  cases a with
  | nil => exact absurd rfl ha
  | cons x a => simpa [List.getLast?_cons_cons] using this.symm

theorem ne_nil_of_len {a : Bytes} (h : a.length = 32) : a ≠ [] := by
  rintro rfl; simp at h

theorem path_sound (H : Bytes → Bytes) (hH : ∀ x, (H x).length = 32) (key : Key) (zs : List Bytes)
    (e : Bytes) (he : e = [0] ∨ ∃ z ∈ zs, e = H z) : ∀ (path : List Bytes) (i h : Nat) (t : Node),
    (∀ s ∈ path, s.length = 32 ∨ s = [0]) → AllLeaves Sized t →
    digest H h t = verifyPath H key i path e →
    (∃ u, walk key i path.length t = some u ∧ digest H (h - path.length) u = e) ∨
    Clash H (preimages H h t) (pathPreimages H key i path e) ∨
    Shift H (preimages H h t) (zs ++ pathPreimages H key i path e) ∨
    (e = [0] ∧ ZeroEdge H (preimages H h t)) := by
  have hlen : ∀ (h : Nat) (t : Node), digest H h t = [0] ∨
      ((digest H h t).length = 32 ∧ ∃ x ∈ preimages H h t, digest H h t = H x) := by
    intro h t
    rcases digest_cases H h t with ⟨_, h1⟩ | ⟨x, hx, h1⟩
    · exact Or.inl h1
    · exact Or.inr ⟨by rw [h1]; exact hH x, x, hx, h1⟩
  intro path
  induction path with
  | nil => intro i h t _ _ hd; exact Or.inl ⟨t, rfl, hd⟩
  | cons s rest ih =>
    intro i h t hs ht hd
    have hy : (verifyPath H key (i + 1) rest e = [0] ∧ e = [0]) ∨
        ((verifyPath H key (i + 1) rest e).length = 32 ∧
          ∃ y ∈ zs ++ pathPreimages H key (i + 1) rest e, verifyPath H key (i + 1) rest e = H y) := by
      rcases verifyPath_cases H key (i + 1) rest e with ⟨_, h1⟩ | ⟨y, hy, h1⟩
      · rcases he with he | ⟨z, hz, he⟩
        · exact Or.inl ⟨h1.trans he, he⟩
        · refine Or.inr ⟨?_, z, List.mem_append.2 (Or.inl hz), h1.trans he⟩
          rw [h1, he]; exact hH z
      · exact Or.inr ⟨by rw [h1]; exact hH y, y, List.mem_append.2 (Or.inr hy), h1⟩
    have hs0 := hs s (by simp)
    have ih' := fun t => ih (i + 1) (h - 1) t (fun s h => hs s (by simp [h]))
    have hp1 : ∀ y ∈ pathPreimages H key (i + 1) rest e, y ∈ pathPreimages H key i (s :: rest) e :=
      fun y hy => List.mem_cons_of_mem _ hy
    have hp2 : ∀ y ∈ zs ++ pathPreimages H key (i + 1) rest e,
        y ∈ zs ++ pathPreimages H key i (s :: rest) e := by
      intro y hy
      rcases List.mem_append.1 hy with h | h
      · exact List.mem_append.2 (Or.inl h)
      · exact List.mem_append.2 (Or.inr (hp1 y h))
    have hhead : (if bitIsSet key i then s ++ verifyPath H key (i + 1) rest e
        else verifyPath H key (i + 1) rest e ++ s) ∈ pathPreimages H key i (s :: rest) e :=
      List.mem_cons_self ..
    have hd' : digest H h t = H (if bitIsSet key i then s ++ verifyPath H key (i + 1) rest e
        else verifyPath H key (i + 1) rest e ++ s) := by
      rw [hd, verifyPath]; cases bitIsSet key i <;> rfl
    have hplen : (if bitIsSet key i then s ++ verifyPath H key (i + 1) rest e
        else verifyPath H key (i + 1) rest e ++ s).length ≠ 65 := by
      have : (if bitIsSet key i then s ++ verifyPath H key (i + 1) rest e
        else verifyPath H key (i + 1) rest e ++ s).length =
          s.length + (verifyPath H key (i + 1) rest e).length := by
        cases bitIsSet key i <;> simp [Nat.add_comm]
      rw [this]
      rcases hs0 with h1 | h1 <;> rcases hy with ⟨h2, _⟩ | ⟨h2, _⟩ <;> simp [h1, h2]
    cases t with
    | empty =>
      have := hH (if bitIsSet key i then s ++ verifyPath H key (i + 1) rest e
        else verifyPath H key (i + 1) rest e ++ s)
      rw [← hd'] at this
      simp [digest, defaultLeaf] at this
    | leaf k v =>
      refine Or.inr (Or.inl ⟨k ++ v ++ [byteOf h], by simp [preimages], _, hhead, ?_, hd'⟩)
      apply ne_of_length
      intro hl
      apply hplen
      rw [← hl]
      simp [ht.1, ht.2]
    | node l r =>
      have pl : ∀ x ∈ preimages H (h - 1) l, x ∈ preimages H h (.node l r) := fun x hx => by
        simp [preimages, hx]
      have pr : ∀ x ∈ preimages H (h - 1) r, x ∈ preimages H h (.node l r) := fun x hx => by
        simp [preimages, hx]
      have hL := hlen (h - 1) l
      have hR := hlen (h - 1) r
      cases hb : bitIsSet key i with
      | true =>
        simp only [hb, if_true] at hd' hhead
        by_cases hp : digest H (h - 1) l ++ digest H (h - 1) r =
            s ++ verifyPath H key (i + 1) rest e
        · by_cases hll : (digest H (h - 1) l).length = s.length
          · have heq := List.append_inj hp hll
            rcases ih' r ht.2 heq.2 with ⟨u, h1, h2⟩ | h1 | h1 | h1
            · left
              refine ⟨u, ?_, ?_⟩
              · simp only [List.length_cons, walk, hb, if_true]; exact h1
              · rw [List.length_cons, show h - (rest.length + 1) = h - 1 - rest.length by omega]
                exact h2
            · exact Or.inr (Or.inl (h1.mono pr hp1))
            · exact Or.inr (Or.inr (Or.inl (h1.mono pr hp2)))
            · exact Or.inr (Or.inr (Or.inr ⟨h1.1, h1.2.mono pr⟩))
          · right; right
            have hlp := congrArg List.length hp
            simp only [List.length_append] at hlp
            rcases hL with h1 | ⟨h1, x, hx, hxe⟩
            · rcases hs0 with hs0 | hs0
              · rcases hy with ⟨hy1, hy2⟩ | ⟨hy1, _⟩
                · rcases hR with h2 | ⟨h2, x, hx, hxe⟩
                  · simp [h1, h2, hs0, hy1] at hlp
                  · right
                    refine ⟨hy2, x, pr x hx, Or.inr ?_⟩
                    apply getLast_of_append_eq (s := s) (ne_nil_of_len (hH x))
                    rw [← hxe, ← hy1, ← hp, h1]; rfl
                · rcases hR with h2 | ⟨h2, _⟩ <;> simp [h1, h2, hs0, hy1] at hlp
              · rw [h1, hs0] at hll; exact absurd rfl hll
            · rcases hs0 with hs0 | hs0
              · exact absurd (by rw [h1, hs0]) hll
              · rcases hR with h2 | ⟨h2, _⟩
                · rcases hy with ⟨hy1, _⟩ | ⟨hy1, y, hy2, hy3⟩
                  · simp [h1, h2, hs0, hy1] at hlp
                  · left
                    refine ⟨x, pl x hx, y, hp2 y hy2, Or.inr ?_⟩
                    rw [← hxe, ← hy3, ← h2, hp, hs0]; rfl
                · rcases hy with ⟨hy1, _⟩ | ⟨hy1, _⟩ <;> simp [h1, h2, hs0, hy1] at hlp
        · exact Or.inr (Or.inl ⟨_, List.mem_cons_self .., _, hhead, hp, hd'⟩)
      | false =>
        simp only [hb, Bool.false_eq_true, if_false] at hd' hhead
        by_cases hp : digest H (h - 1) l ++ digest H (h - 1) r =
            verifyPath H key (i + 1) rest e ++ s
        · by_cases hll : (digest H (h - 1) l).length = (verifyPath H key (i + 1) rest e).length
          · have heq := List.append_inj hp hll
            rcases ih' l ht.1 heq.1 with ⟨u, h1, h2⟩ | h1 | h1 | h1
            · left
              refine ⟨u, ?_, ?_⟩
              · simp only [List.length_cons, walk, hb, Bool.false_eq_true, if_false]; exact h1
              · rw [List.length_cons, show h - (rest.length + 1) = h - 1 - rest.length by omega]
                exact h2
            · exact Or.inr (Or.inl (h1.mono pl hp1))
            · exact Or.inr (Or.inr (Or.inl (h1.mono pl hp2)))
            · exact Or.inr (Or.inr (Or.inr ⟨h1.1, h1.2.mono pl⟩))
          · right; right
            have hlp := congrArg List.length hp
            simp only [List.length_append] at hlp
            rcases hL with h1 | ⟨h1, x, hx, hxe⟩
            · rcases hy with ⟨hy1, _⟩ | ⟨hy1, y, hy2, hy3⟩
              · rw [h1, hy1] at hll; exact absurd rfl hll
              · rcases hR with h2 | ⟨h2, x, hx, hxe⟩
                · rcases hs0 with hs0 | hs0 <;> simp [h1, h2, hs0, hy1] at hlp
                · rcases hs0 with hs0 | hs0
                  · simp [h1, h2, hs0, hy1] at hlp
                  · left
                    refine ⟨x, pr x hx, y, hp2 y hy2, Or.inl ?_⟩
                    rw [← hxe, ← hy3, ← hs0, ← hp, h1]; rfl
            · rcases hy with ⟨hy1, hy2⟩ | ⟨hy1, _⟩
              · rcases hR with h2 | ⟨h2, _⟩
                · right
                  refine ⟨hy2, x, pl x hx, Or.inl ?_⟩
                  apply head_zero_of_shift (a := s) (ne_nil_of_len (hH x))
                  rw [← hxe, ← h2, hp, hy1]; rfl
                · rcases hs0 with hs0 | hs0 <;> simp [h1, h2, hs0, hy1] at hlp
              · exact absurd (by rw [h1, hy1]) hll
        · exact Or.inr (Or.inl ⟨_, List.mem_cons_self .., _, hhead, hp, hd'⟩)

/-- A subtree whose digest is the hash of a leaf is that leaf, barring a collision. -/
theorem leaf_of_digest (H : Bytes → Bytes) (hH : ∀ x, (H x).length = 32) (h : Nat) (u : Node)
    (hu : AllLeaves Sized u) (k : Key) (v : Val) (b : Byte) (hk : k.length = 32) (hv : v.length = 32)
    (hd : digest H h u = H (k ++ v ++ [b])) :
    u = .leaf k v ∨ Clash H (preimages H h u) [k ++ v ++ [b]] := by
  cases u with
  | empty =>
    have := hH (k ++ v ++ [b])
    rw [← hd] at this
    simp [digest, defaultLeaf] at this
  | leaf k' v' =>
    by_cases hp : k' ++ v' ++ [byteOf h] = k ++ v ++ [b]
    · left
      rw [List.append_assoc, List.append_assoc] at hp
      have h1 := List.append_inj hp (by rw [hk, hu.1])
      have h2 := List.append_inj h1.2 (by rw [hv, hu.2])
      rw [h1.1, h2.1]
    · exact Or.inr ⟨_, List.mem_singleton_self _, _, List.mem_singleton_self _, hp, hd⟩
  | node l r =>
    right
    refine ⟨_, List.mem_cons_self .., _, List.mem_singleton_self _, ?_, hd⟩
    apply ne_of_length
    have h1 := digest_cases H (h - 1) l
    have h2 := digest_cases H (h - 1) r
    simp only [List.length_append, List.length_cons, List.length_nil, hk, hv]
    rcases h1 with ⟨_, h1⟩ | ⟨_, _, h1⟩ <;> rcases h2 with ⟨_, h2⟩ | ⟨_, _, h2⟩ <;>
      simp [h1, h2, hH]

theorem empty_of_digest (H : Bytes → Bytes) (hH : ∀ x, (H x).length = 32) (h : Nat) (u : Node)
    (hd : digest H h u = [0]) : u = .empty := by
  rcases digest_cases H h u with ⟨h1, _⟩ | ⟨x, _, h1⟩
  · exact h1
  · have := hH x
    rw [← h1, hd] at this
    simp at this

end Fpki.Smt
