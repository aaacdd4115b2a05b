import Verif.Lemmas.SmtCompress

/-!
# Properties of the sparse Merkle tree (C01 - C08, C66)

`hist : List KVs` is a history of batches given to `Update`, starting from the empty trie; the tree is
`run 256 hist`, the intended content `mapAfter hist`.  `H` is any hash function with 32-byte outputs.
-/
namespace Fpki.Smt

/-! ## Concrete data for the examples -/

/-- A 32-byte key (or value) starting with `b`. -/
def b32 (b : Byte) : Bytes := b :: List.replicate 31 0

/-- Insert three keys, overwrite one, delete another. -/
def exHist : List KVs :=
  [[(b32 0x20, some (b32 1)), (b32 0x40, some (b32 2)), (b32 0x80, some (b32 3))],
   [(b32 0x40, some (b32 9))], [(b32 0x20, none)]]

/-- A different way to the same content. -/
def exHist' : List KVs := [[(b32 0x80, some (b32 3))], [(b32 0x40, some (b32 9))]]

theorem exHist_ok : ValidHist 256 exHist ∧ EdgeHist exHist ∧ SizedHist exHist := by decide +kernel
theorem exHist'_ok : ValidHist 256 exHist' ∧ EdgeHist exHist' ∧ SizedHist exHist' := by decide +kernel

/-! ## C01 -/

/-- C01: `Get` after a history of updates returns what the history of map assignments gives, for every
key. Proved for histories in which a deleted key is the smallest or the largest of its batch (so for all
insert/overwrite batches and all single deletions); `C01_map_semantics_violated` shows that this
restriction is needed. -/
theorem C01_map_semantics_partial (n : Nat) (hist : List KVs) (hv : ValidHist n hist)
    (he : EdgeHist hist) (k : Key) (hk : 8 * k.length = n) :
    get 0 (run n hist) k = mapAfter hist k :=
  (goodHist_of_edge hv he).spec.2 k hk

/-- One step: a batch on a tree with any such history. The exact condition is that no deleted, present
key lies strictly between two other batch keys that share the position of its leaf. -/
theorem C01_one_update_partial (n : Nat) (hist : List KVs) (hg : GoodHist n hist) (kvs : KVs)
    (hv : ValidBatch n kvs) (hm : ¬ MidDelete 0 (run n hist) kvs) (k : Key) (hk : 8 * k.length = n) :
    get 0 (updateRoot n (run n hist) kvs) k =
      match kvs.lookup k with
      | some v => v
      | none => get 0 (run n hist) k :=
  (updateRoot_spec n _ kvs hg.spec.1 hv hm).2 k hk

example : ValidHist 256 exHist ∧ EdgeHist exHist ∧ get 0 (run 256 exHist) (b32 0x40) = some (b32 9) ∧
    get 0 (run 256 exHist) (b32 0x20) = none := by decide +kernel

/-- Deleting the single stored key `0x40..` while adding a smaller and a larger key. -/
def midDeleteHist : List KVs :=
  [[(b32 0x40, some (b32 2))],
   [(b32 0x20, some (b32 1)), (b32 0x40, none), (b32 0x80, some (b32 3))]]

/-- C01 is violated in general: after `midDeleteHist`, inserting the new key `0xa0..` has no effect. -/
theorem C01_map_semantics_violated :
    ∃ hist k, ValidHist 256 hist ∧ SizedHist hist ∧ k.length = 32 ∧
      mapAfter hist k = some (b32 7) ∧ get 0 (run 256 hist) k = none :=
  ⟨midDeleteHist ++ [[(b32 0xa0, some (b32 7))]], b32 0xa0, by decide +kernel⟩

/-! ## C02 -/

/-- C02: two histories that leave the same map produce the same root, for histories as in C01. -/
theorem C02_root_of_content_partial (H : Bytes → Bytes) (n : Nat) (h1 h2 : List KVs)
    (hv1 : ValidHist n h1) (he1 : EdgeHist h1) (hv2 : ValidHist n h2) (he2 : EdgeHist h2)
    (hsame : ∀ k, 8 * k.length = n → mapAfter h1 k = mapAfter h2 k) :
    rootHash H n (run n h1) = rootHash H n (run n h2) := by
  have g1 := (goodHist_of_edge hv1 he1).spec
  have g2 := (goodHist_of_edge hv2 he2).spec
  have : run n h1 = run n h2 := by
    apply WF.unique g1.1 g2.1
    intro k hk
    rw [g1.2 k hk.1, g2.2 k hk.1, hsame k hk.1]
  rw [this]

example : ∀ H, rootHash H 256 (run 256 exHist) = rootHash H 256 (run 256 exHist') := by
  intro H
  apply C02_root_of_content_partial H 256 exHist exHist' exHist_ok.1 exHist_ok.2.1 exHist'_ok.1
    exHist'_ok.2.1
  intro k _
  simp only [mapAfter, exHist, exHist', List.foldl_cons, List.foldl_nil, applyKVs, List.lookup_cons,
    List.lookup_nil]
  by_cases h1 : k = b32 0x20
  · subst h1; decide
  · by_cases h2 : k = b32 0x40
    · subst h2; decide
    · by_cases h3 : k = b32 0x80
      · subst h3; decide
      · have h1' : (k == b32 0x20) = false := by simpa using h1
        have h2' : (k == b32 0x40) = false := by simpa using h2
        have h3' : (k == b32 0x80) = false := by simpa using h3
        simp only [h1', h2', h3']

/-- C02 is violated in general: `midDeleteHist` holds the same map as inserting its two remaining keys
directly, but the roots are equal only if the hash function collides on the given strings. -/
theorem C02_root_of_content_violated :
    ∃ h1 h2 : List KVs, ValidHist 256 h1 ∧ ValidHist 256 h2 ∧ SizedHist h1 ∧ SizedHist h2 ∧
      (∀ k, mapAfter h1 k = mapAfter h2 k) ∧
      ∀ H, rootHash H 256 (run 256 h1) = rootHash H 256 (run 256 h2) →
        ∃ x ∈ preimages H 256 (run 256 h1), ∃ y ∈ preimages H 256 (run 256 h2), x ≠ y ∧ H x = H y := by
  refine ⟨midDeleteHist, [[(b32 0x20, some (b32 1)), (b32 0x80, some (b32 3))]], by decide +kernel,
    by decide +kernel, by decide +kernel, by decide +kernel, ?_, ?_⟩
  · intro k
    simp only [mapAfter, midDeleteHist, List.foldl_cons, List.foldl_nil, applyKVs, List.lookup_cons,
      List.lookup_nil]
    by_cases h1 : k = b32 0x20
    · subst h1; decide
    · by_cases h2 : k = b32 0x40
      · subst h2; decide
      · by_cases h3 : k = b32 0x80
        · subst h3; decide
        · have h1' : (k == b32 0x20) = false := by simpa using h1
          have h2' : (k == b32 0x40) = false := by simpa using h2
          have h3' : (k == b32 0x80) = false := by simpa using h3
          simp only [h1', h2', h3']
  · intro H heq
    have e1 : run 256 midDeleteHist =
        .node (.leaf (b32 0x20) (b32 1))
          (.node (.node (.leaf (b32 0x80) (b32 3)) (.leaf (b32 0x20) (b32 1))) .empty) := by
      decide +kernel
    have e2 : run 256 [[(b32 0x20, some (b32 1)), (b32 0x80, some (b32 3))]] =
        .node (.leaf (b32 0x20) (b32 1)) (.leaf (b32 0x80) (b32 3)) := by decide +kernel
    rw [e1, e2] at heq ⊢
    simp only [rootHash, Option.some.injEq] at heq
    by_cases hp : digest H 255 (.leaf (b32 0x20) (b32 1)) ++
        digest H 255 (.node (.node (.leaf (b32 0x80) (b32 3)) (.leaf (b32 0x20) (b32 1))) .empty) =
        digest H 255 (.leaf (b32 0x20) (b32 1)) ++ digest H 255 (.leaf (b32 0x80) (b32 3))
    · rw [List.append_cancel_left_eq] at hp
      refine ⟨_, by simp only [preimages]; exact List.mem_cons_of_mem _ (List.mem_append.2 (Or.inr (List.mem_cons_self ..))),
        _, by simp only [preimages]; exact List.mem_cons_of_mem _ (List.mem_append.2 (Or.inr (List.mem_cons_self ..))), ?_, hp⟩
      intro hx
      have := congrArg List.getLast? hx
      simp [digest, defaultLeaf, byteOf] at this
    · exact ⟨_, List.mem_cons_self .., _, List.mem_cons_self .., hp, heq⟩

/-! ## C03 -/

/-- C03: two tries (after any histories) with the same root hold the same content, unless two different
hashed strings collide, or the digests of two hashed strings overlap in all but one byte (`Shift`; the
DefaultLeaf placeholder is one byte, so `0‖d` and `d'‖0` can be the same 33 bytes). -/
theorem C03_root_binds_content_partial (H : Bytes → Bytes) (hH : ∀ x, (H x).length = 32) (n : Nat)
    (h1 h2 : List KVs) (hs1 : SizedHist h1) (hs2 : SizedHist h2)
    (hroot : rootHash H n (run n h1) = rootHash H n (run n h2)) :
    (∀ k, get 0 (run n h1) k = get 0 (run n h2) k) ∨
    (∃ x ∈ preimages H n (run n h1), ∃ y ∈ preimages H n (run n h2), x ≠ y ∧ H x = H y) ∨
    Shift H (preimages H n (run n h1)) (preimages H n (run n h2)) := by
  have hd : digest H n (run n h1) = digest H n (run n h2) := by
    unfold rootHash at hroot
    cases ha : run n h1 <;> cases hb : run n h2 <;> rw [ha, hb] at hroot <;> simp at hroot <;>
      first | rfl | exact hroot
  rcases digest_inj H hH _ _ n (run_sized n h1 hs1) (run_sized n h2 hs2) hd with h | h | h
  · left; intro k; rw [h]
  · exact Or.inr (Or.inl h)
  · exact Or.inr (Or.inr h)

example : SizedHist exHist ∧ SizedHist exHist' := ⟨exHist_ok.2.2, exHist'_ok.2.2⟩

/-- The `Shift` case of C03 is real: if the digests of two subtrees overlap that way, the tree with the
first on the right and the tree with the second on the left have the same root but different content. -/
theorem C03_shift_violated (H : Bytes → Bytes) (a b : Node)
    (hshift : 0 :: digest H 255 b = digest H 255 a ++ [0]) :
    rootHash H 256 (.node .empty b) = rootHash H 256 (.node a .empty) := by
  simp only [rootHash, digest, defaultLeaf, Option.some.injEq]
  show H (0 :: digest H 255 b) = H (digest H 255 a ++ [0])
  rw [hshift]

example : ∃ (H : Bytes → Bytes) (a b : Node), (∀ x, (H x).length = 32) ∧
    0 :: digest H 255 b = digest H 255 a ++ [0] ∧ get 1 a ≠ get 1 b := by
  refine ⟨fun _ => List.replicate 32 0, .leaf (b32 1) (b32 1), .leaf (b32 0x80) (b32 2), by simp, by decide, ?_⟩
  intro h
  have := congrFun h (b32 1)
  revert this; decide

/-! ## C04, C05 -/

/-- C04: after any history of updates, the proof `MerkleProof` returns for a present key says "included",
carries its value, and is accepted by `VerifyInclusion` against the root. -/
theorem C04_inclusion_complete (H : Bytes → Bytes) (n : Nat) (hist : List KVs) (k : Key) (v : Val)
    (hget : get 0 (run n hist) k = some v) (root : Bytes)
    (hroot : rootHash H n (run n hist) = some root) :
    (merkleProof H n n (run n hist) k).included = true ∧
    (merkleProof H n n (run n hist) k).value = some v ∧
    verifyInclusion H n root (merkleProof H n n (run n hist) k).path k v = true := by
  have hc := incl_complete H n (run n hist) n 0 k v (by omega) (run_fits n hist) hget
  generalize merkleProof H n n (run n hist) k = p at hc ⊢
  simp only at hc
  obtain ⟨h0, h1, _, h3, h4⟩ := hc
  refine ⟨h1, h3, ?_⟩
  have hd : digest H n (run n hist) = root := by
    unfold rootHash at hroot
    cases ha : run n hist <;> rw [ha] at hroot <;> simp at hroot <;> exact hroot
  unfold verifyInclusion
  rw [heightByte_eq h0, h4, hd]
  simp

/-- C05 for all histories as in `C01_one_update_partial`: the proof for an absent key of a non-empty trie says "not included" and is accepted by
`VerifyNonInclusion` with the proof key and value that `MerkleProof` returned (nil as empty). -/
theorem non_inclusion_complete_good (H : Bytes → Bytes) (n : Nat) (hist : List KVs)
    (hgood : GoodHist n hist) (k : Key) (hk : 8 * k.length = n) (hn : 0 < n)
    (hget : get 0 (run n hist) k = none) :
    let p := merkleProof H n n (run n hist) k
    p.included = false ∧
    verifyNonInclusion H n (rootHash H n (run n hist)) p.path k (p.value.getD []) (p.key.getD []) = true := by
  have g := hgood.spec
  have hc := proof_complete H n (run n hist) n 0 noPrefix k (by omega) g.1 (inPre_zero.2 hk)
  generalize merkleProof H n n (run n hist) k = p at hc ⊢
  simp only at hc ⊢
  obtain ⟨h1, h2⟩ := hc.2.1 hget
  refine ⟨h1, ?_⟩
  cases hroot : rootHash H n (run n hist) with
  | none => rfl
  | some root =>
    have hd : digest H n (run n hist) = root := by
      unfold rootHash at hroot
      cases ha : run n hist <;> rw [ha] at hroot <;> simp at hroot <;> exact hroot
    rcases h2 with ⟨h3, h4, h5⟩ | ⟨k', v', h3, h4, _, h6, h7, h8⟩
    · rw [h3, h4]
      simp only [Option.getD_none, verifyNonInclusion, List.isEmpty_nil, if_true]
      rw [h5, hd]; simp
    · rw [h3, h4]
      simp only [Option.getD_some, verifyNonInclusion]
      have hne : k'.isEmpty = false := by
        cases k' with
        | nil => simp at h6; omega
        | cons _ _ => rfl
      rw [hne]
      simp only [Bool.false_eq_true, if_false]
      have hi : verifyInclusion H n root p.path k' v' = true := by
        unfold verifyInclusion
        rw [heightByte_eq hc.1, h8, hd]
        simp
      rw [hi]
      simp only [Bool.not_true, Bool.false_eq_true, if_false, sameBits, List.all_eq_true, List.mem_range,
        beq_iff_eq]
      intro j hj
      exact h7 j (by omega)

/-- C05: the proof for an absent key of a non-empty trie says "not included" and is accepted by
`VerifyNonInclusion` with the proof key and value that `MerkleProof` returned (nil as empty). -/
theorem C05_non_inclusion_complete_partial (H : Bytes → Bytes) (n : Nat) (hist : List KVs)
    (hv : ValidHist n hist) (he : EdgeHist hist) (k : Key) (hk : 8 * k.length = n) (hn : 0 < n)
    (hget : get 0 (run n hist) k = none) :
    let p := merkleProof H n n (run n hist) k
    p.included = false ∧
    verifyNonInclusion H n (rootHash H n (run n hist)) p.path k (p.value.getD []) (p.key.getD []) = true :=
  non_inclusion_complete_good H n hist (goodHist_of_edge hv he) k hk hn hget

/-- C05 fails after a deletion between two other keys of a batch: the proof for an absent key names a
leaf that is misplaced, and is rejected, whatever the hash function. -/
theorem C05_non_inclusion_complete_violated :
    ∃ (hist : List KVs) (k : Key), ValidHist 256 hist ∧ SizedHist hist ∧
      k.length = 32 ∧ get 0 (run 256 hist) k = none ∧ ∀ H : Bytes → Bytes,
      (let p := merkleProof H 256 256 (run 256 hist) k
       verifyNonInclusion H 256 (rootHash H 256 (run 256 hist)) p.path k (p.value.getD [])
        (p.key.getD []) = false) := by
  refine ⟨midDeleteHist, b32 0xa0, by decide +kernel, by decide +kernel, by decide +kernel,
    by decide +kernel, ?_⟩
  intro H
  have e1 : run 256 midDeleteHist =
      .node (.leaf (b32 0x20) (b32 1))
        (.node (.node (.leaf (b32 0x80) (b32 3)) (.leaf (b32 0x20) (b32 1))) .empty) := by
    decide +kernel
  have b0 : bitIsSet (b32 0xa0) 0 = true := by decide
  have b1 : bitIsSet (b32 0xa0) 1 = false := by decide
  have b2 : bitIsSet (b32 0xa0) 2 = true := by decide
  have hk : ¬ b32 0x20 = b32 0xa0 := by decide
  have hs : sameBits (b32 0xa0) (b32 0x20) 3 = false := by decide
  have hne : (b32 0x20).isEmpty = false := by decide
  simp [e1, merkleProof, b0, b1, b2, hk, verifyNonInclusion, rootHash, hne, hs]

example : ∀ H, (∃ root, rootHash H 256 (run 256 exHist) = some root) ∧
    get 0 (run 256 exHist) (b32 0x40) = some (b32 9) ∧ get 0 (run 256 exHist) (b32 0x41) = none := by
  intro H
  refine ⟨?_, by decide +kernel, by decide +kernel⟩
  have : run 256 exHist = .node (.leaf (b32 0x40) (b32 9)) (.leaf (b32 0x80) (b32 3)) := by
    decide +kernel
  rw [this]
  exact ⟨_, rfl⟩

/-! ## C06 -/

/-- C06: an accepted inclusion proof whose nodes have the sizes of real proof nodes (32 bytes or
DefaultLeaf), for a 32-byte key and value, is true of the tree, unless the hash function collides (or has
overlapping digests) on the strings hashed by the tree and the verifier. The code does not check these
sizes: see `C06_inclusion_sound_violated`. -/
theorem C06_inclusion_sound_partial (H : Bytes → Bytes) (hH : ∀ x, (H x).length = 32)
    (hist : List KVs) (hs : SizedHist hist) (root : Bytes)
    (hroot : rootHash H 256 (run 256 hist) = some root) (ap : List Bytes) (k : Key) (v : Val)
    (hap : ∀ s ∈ ap, s.length = 32 ∨ s = defaultLeaf) (hk : k.length = 32) (hv : v.length = 32)
    (hacc : verifyInclusion H 256 root ap k v = true) :
    get 0 (run 256 hist) k = some v ∨
    Clash H (preimages H 256 (run 256 hist)) (inclusionPreimages H 256 ap k v) ∨
    Shift H (preimages H 256 (run 256 hist)) (inclusionPreimages H 256 ap k v) := by
  have hsz := run_sized 256 hist hs
  have hd : digest H 256 (run 256 hist) = root := by
    unfold rootHash at hroot
    cases ha : run 256 hist <;> rw [ha] at hroot <;> simp at hroot <;> exact hroot
  unfold verifyInclusion at hacc
  have hacc := (beq_iff_eq.1 hacc)
  rw [← hd] at hacc
  have := path_sound H hH k [k ++ v ++ [heightByte 256 ap.length]] _
    (Or.inr ⟨_, List.mem_singleton_self _, rfl⟩) ap.reverse 0 256 (run 256 hist)
    (fun s h => hap s (List.mem_reverse.1 h)) hsz hacc
  rcases this with ⟨u, hw, hu⟩ | h | h | ⟨h, _⟩
  · rcases leaf_of_digest H hH _ u (walk_leaves k _ _ _ _ hw hsz) k v _ hk hv hu with h | h
    · left
      rw [get_walk k _ _ _ _ hw, h]; simp [get]
    · right; left
      refine h.mono (walk_preimages H k _ _ _ _ _ hw) ?_
      intro y hy
      rw [List.mem_singleton.1 hy]; exact List.mem_cons_self ..
  · exact Or.inr (Or.inl (h.mono (fun _ h => h) (fun y hy => List.mem_cons_of_mem _ hy)))
  · exact Or.inr (Or.inr h)
  · exfalso
    have := hH (k ++ v ++ [heightByte 256 ap.length])
    rw [h] at this
    simp at this

/-- Without size checks soundness fails: whenever the digest of a forged leaf `(k', v')` ends with a zero
byte, the tree holding the single pair `k ↦ x‖w` (`w‖0` that digest) accepts a proof that `k'` maps to
`v'`. The proof node has 33 bytes. No collision is involved. -/
theorem C06_inclusion_sound_violated (H : Bytes → Bytes) (k k' : Key) (v' : Val) (x : Byte) (w : Bytes)
    (hk : k.length = 32) (hne : k ≠ k') (hbit : bitIsSet k' 0 = true)
    (hforge : H (k' ++ v' ++ [255]) = w ++ [0]) :
    ∃ root, rootHash H 256 (run 256 [[(k, some (x :: w))]]) = some root ∧
      get 0 (run 256 [[(k, some (x :: w))]]) k' = none ∧
      verifyInclusion H 256 root [k ++ [x]] k' v' = true := by
  have _ := hk
  have hrun : run 256 [[(k, some (x :: w))]] = .leaf k (x :: w) := rfl
  rw [hrun]
  refine ⟨H (k ++ (x :: w) ++ [byteOf 256]), rfl, by simp [get, hne], ?_⟩
  have h255 : heightByte 256 1 = 255 := by decide
  simp only [verifyInclusion, List.length_singleton, h255, hforge, List.reverse_cons, List.reverse_nil, List.nil_append,
    verifyPath, hbit, if_true, beq_iff_eq]
  simp [byteOf]

example : ∃ (H : Bytes → Bytes) (k k' v' : Bytes) (w : Bytes), (∀ x, (H x).length = 32) ∧ k.length = 32 ∧
    k'.length = 32 ∧ v'.length = 32 ∧ (0 :: w).length = 32 ∧ k ≠ k' ∧ bitIsSet k' 0 = true ∧
    H (k' ++ v' ++ [255]) = w ++ [0] :=
  ⟨fun x => (x ++ List.replicate 32 0).take 31 ++ [0], b32 1, b32 0x80, b32 5, b32 0x80 |>.take 31,
    by intro x; simp, by decide, by decide, by decide, by decide, by decide, by decide, by decide⟩

/-! ## C07 -/

/-- C07: an accepted non-inclusion proof of real proof sizes, with a proof key different from the key, is
true of the tree, unless the hash collides or overlaps on the hashed strings, or (for an empty proof key)
some digest in the tree begins or ends with a zero byte. Each restriction is needed, see below. -/
theorem C07_non_inclusion_sound_partial (H : Bytes → Bytes) (hH : ∀ x, (H x).length = 32)
    (hist : List KVs) (hs : SizedHist hist) (ap : List Bytes) (k : Key) (v : Val) (pk : Bytes)
    (hap : ∀ s ∈ ap, s.length = 32 ∨ s = defaultLeaf)
    (hpk : pk = [] ∨ (pk.length = 32 ∧ v.length = 32 ∧ pk ≠ k))
    (hacc : verifyNonInclusion H 256 (rootHash H 256 (run 256 hist)) ap k v pk = true) :
    get 0 (run 256 hist) k = none ∨
    Clash H (preimages H 256 (run 256 hist)) (nonInclusionPreimages H 256 ap k v pk) ∨
    Shift H (preimages H 256 (run 256 hist)) (nonInclusionPreimages H 256 ap k v pk) ∨
    (pk = [] ∧ ZeroEdge H (preimages H 256 (run 256 hist))) := by
  have hsz := run_sized 256 hist hs
  cases hroot : rootHash H 256 (run 256 hist) with
  | none =>
    left
    have : run 256 hist = .empty := by
      unfold rootHash at hroot
      cases ha : run 256 hist <;> rw [ha] at hroot <;> simp at hroot
    rw [this]; rfl
  | some root =>
    have hd : digest H 256 (run 256 hist) = root := by
      unfold rootHash at hroot
      cases ha : run 256 hist <;> rw [ha] at hroot <;> simp at hroot <;> exact hroot
    rw [hroot] at hacc
    rcases hpk with rfl | ⟨h1, h2, h3⟩
    · simp only [verifyNonInclusion, List.isEmpty_nil, if_true, beq_iff_eq] at hacc
      rw [← hd] at hacc
      have := path_sound H hH k [] defaultLeaf (Or.inl rfl) ap.reverse 0 256 (run 256 hist)
        (fun s h => hap s (List.mem_reverse.1 h)) hsz hacc
      simp only [nonInclusionPreimages, List.isEmpty_nil, if_true]
      rcases this with ⟨u, hw, hu⟩ | h | h | ⟨_, h⟩
      · left
        rw [get_walk k _ _ _ _ hw, empty_of_digest H hH _ u hu]; rfl
      · exact Or.inr (Or.inl h)
      · exact Or.inr (Or.inr (Or.inl h))
      · exact Or.inr (Or.inr (Or.inr ⟨by simp, h⟩))
    · have hne : pk.isEmpty = false := by
        cases pk with
        | nil => simp at h1
        | cons _ _ => rfl
      simp only [verifyNonInclusion, hne, Bool.false_eq_true, if_false] at hacc
      simp only [nonInclusionPreimages, hne, Bool.false_eq_true, if_false]
      cases hi : verifyInclusion H 256 root ap pk v with
      | false => rw [hi] at hacc; simp at hacc
      | true =>
        rw [hi] at hacc
        simp only [Bool.not_true, Bool.false_eq_true, if_false, sameBits, List.all_eq_true,
          List.mem_range, beq_iff_eq] at hacc
        have hi' := hi
        unfold verifyInclusion at hi
        have hi := beq_iff_eq.1 hi
        rw [← hd] at hi
        have := path_sound H hH pk [pk ++ v ++ [heightByte 256 ap.length]] _
          (Or.inr ⟨_, List.mem_singleton_self _, rfl⟩) ap.reverse 0 256 (run 256 hist)
          (fun s h => hap s (List.mem_reverse.1 h)) hsz hi
        rcases this with ⟨u, hw, hu⟩ | h | h | ⟨h, _⟩
        · rcases leaf_of_digest H hH _ u (walk_leaves pk _ _ _ _ hw hsz) pk v _ h1 h2 hu with h | h
          · left
            have hwk : walk k 0 ap.reverse.length (run 256 hist) = some u := by
              rw [← hw]
              apply walk_congr
              intro j _ hj
              rw [List.length_reverse] at hj
              exact hacc j (by omega)
            rw [get_walk k _ _ _ _ hwk, h]
            simp [get, h3]
          · right; left
            refine h.mono (walk_preimages H pk _ _ _ _ _ hw) ?_
            intro y hy
            rw [List.mem_singleton.1 hy]; exact List.mem_cons_self ..
        · exact Or.inr (Or.inl (h.mono (fun _ h => h) (fun y hy => List.mem_cons_of_mem _ hy)))
        · exact Or.inr (Or.inr (Or.inl h))
        · exfalso
          have := hH (pk ++ v ++ [heightByte 256 ap.length])
          rw [h] at this
          simp at this

/-- C07 is violated for every history, every present key and every hash function: the honest inclusion
proof of `k` is accepted as a proof that `k` is absent, by naming `k` itself as the proof key. -/
theorem C07_non_inclusion_sound_violated (H : Bytes → Bytes) (n : Nat) (hist : List KVs) (k : Key)
    (v : Val) (hk : k ≠ []) (hpresent : get 0 (run n hist) k = some v) :
    verifyNonInclusion H n (rootHash H n (run n hist)) (merkleProof H n n (run n hist) k).path k v k
      = true := by
  cases hroot : rootHash H n (run n hist) with
  | none => rfl
  | some root =>
    have h := (C04_inclusion_complete H n hist k v hpresent root hroot).2.2
    have hne : k.isEmpty = false := by simpa using hk
    simp [verifyNonInclusion, hne, h, sameBits]

example : get 0 (run 256 exHist) (b32 0x40) = some (b32 9) := by decide +kernel

/-- C07 with an empty proof key: for every hash function, the trie with the single pair `k ↦ v` (bit 0 of
`k` set) accepts the one-node path `[k‖v]` as a proof that `k` is absent: a leaf at the root is hashed
with the height byte 0, which the verifier reads as DefaultLeaf. -/
theorem C07_single_leaf_violated (H : Bytes → Bytes) (k : Key) (v : Val) (hbit : bitIsSet k 0 = true) :
    get 0 (run 256 [[(k, some v)]]) k = some v ∧
    verifyNonInclusion H 256 (rootHash H 256 (run 256 [[(k, some v)]])) [k ++ v] k [] [] = true := by
  have hrun : run 256 [[(k, some v)]] = .leaf k v := rfl
  rw [hrun]
  refine ⟨by simp [get], ?_⟩
  simp only [rootHash, verifyNonInclusion, List.isEmpty_nil, if_true, List.reverse_cons,
    List.reverse_nil, List.nil_append, verifyPath, hbit, digest, beq_iff_eq]
  rfl

example : bitIsSet (b32 0x80) 0 = true := by decide

/-- C07 with an empty proof key and only 32-byte nodes: if the right half of a trie hangs alone under the
root and its digest ends with a zero byte (one trie in 256), every key of it can be "proved" absent. -/
theorem C07_zero_byte_violated (H : Bytes → Bytes) (r : Node) (d : Bytes)
    (hd : digest H 255 r = d ++ [0]) (k : Key) (hbit : bitIsSet k 0 = true) :
    verifyNonInclusion H 256 (rootHash H 256 (.node .empty r)) [0 :: d] k [] [] = true := by
  simp only [rootHash, verifyNonInclusion, List.isEmpty_nil, if_true, List.reverse_cons,
    List.reverse_nil, List.nil_append, verifyPath, hbit, digest, beq_iff_eq, defaultLeaf]
  rw [show (256 - 1 : Nat) = 255 from rfl, hd]
  rfl

/-- The tree in `C07_zero_byte_violated` is one that updates produce, and the key is present in it. -/
example : ∃ (H : Bytes → Bytes) (r : Node) (d : Bytes), (∀ x, (H x).length = 32) ∧
    run 256 [[(b32 0x80, some (b32 1)), (b32 0xc0, some (b32 2))]] = .node .empty r ∧
    digest H 255 r = d ++ [0] ∧ bitIsSet (b32 0xc0) 0 = true ∧
    get 0 (run 256 [[(b32 0x80, some (b32 1)), (b32 0xc0, some (b32 2))]]) (b32 0xc0) = some (b32 2) :=
  ⟨fun x => (x ++ List.replicate 32 0).take 31 ++ [0],
    .node (.leaf (b32 0x80) (b32 1)) (.leaf (b32 0xc0) (b32 2)), b32 0x80 |>.take 31,
    by intro x; simp, by decide +kernel, by decide +kernel, by decide, by decide +kernel⟩

example : ∃ (H : Bytes → Bytes), (∀ x, (H x).length = 32) ∧
    verifyNonInclusion H 256 (rootHash H 256 (run 256 exHist))
      (merkleProof H 256 256 (run 256 exHist) (b32 0x41)).path (b32 0x41)
      ((merkleProof H 256 256 (run 256 exHist) (b32 0x41)).value.getD [])
      ((merkleProof H 256 256 (run 256 exHist) (b32 0x41)).key.getD []) = true :=
  ⟨fun _ => List.replicate 32 0, by simp,
    (C05_non_inclusion_complete_partial _ 256 exHist exHist_ok.1 exHist_ok.2.1 (b32 0x41) (by decide)
      (by decide) (by decide +kernel)).2⟩

/-! ## C08 -/

/-- C08: for every audit path, key and root, the compressed path is accepted for inclusion exactly when
the path is (and the compressed verifier does not panic on it). -/
theorem C08_inclusion_equiv (H : Bytes → Bytes) (n : Nat) (root : Bytes) (path : List Bytes) (k : Key)
    (v : Val) :
    verifyInclusionC H n (some root) (compress path) k v = some (verifyInclusion H n root path k v) := by
  obtain ⟨h1, h2, h3⟩ := compress_spec path
  unfold verifyInclusionC verifyInclusion
  rw [h1, h2, verifyPathC_eq H _ k _ path 0 (fun j hj => by rw [h3 j]; simp [hj])]
  simp

/-- C08 for non-inclusion, for a non-empty trie. -/
theorem C08_non_inclusion_equiv_partial (H : Bytes → Bytes) (n : Nat) (root : Bytes) (path : List Bytes)
    (k : Key) (v : Val) (pk : Bytes) :
    verifyNonInclusionC H n (some root) (compress path) k v pk =
      some (verifyNonInclusion H n (some root) path k v pk) := by
  obtain ⟨h1, h2, h3⟩ := compress_spec path
  unfold verifyNonInclusionC verifyNonInclusion
  by_cases hpk : pk.isEmpty = true
  · rw [if_pos hpk]
    simp only [hpk, if_true]
    rw [h1, h2, verifyPathC_eq H _ k _ path 0 (fun j hj => by rw [h3 j]; simp [hj])]
    simp
  · rw [if_neg hpk, C08_inclusion_equiv]
    simp only [hpk, if_false]
    cases verifyInclusion H n root path pk v <;> simp [h2]

/-- `MerkleProofCompressed` compresses exactly the path of `MerkleProof`: the path can be recovered from
bitmap, nodes and length, and flag, key and value are the same. -/
theorem C08_compresses_same_proof (H : Bytes → Bytes) (n : Nat) (t : Node) (k : Key) :
    (merkleProofC H n t k).2 = merkleProof H n n t k ∧
    (merkleProofC H n t k).1.length = (merkleProof H n n t k).path.length ∧
    (merkleProofC H n t k).1.nodes =
      (merkleProof H n n t k).path.filter (fun x => decide (x ≠ defaultLeaf)) ∧
    ∀ j, j < (merkleProof H n n t k).path.length →
      bitIsSet (merkleProofC H n t k).1.bitmap j =
        decide ((merkleProof H n n t k).path.getD j [] ≠ defaultLeaf) := by
  obtain ⟨h1, h2, h3⟩ := compress_spec (merkleProof H n n t k).path
  refine ⟨rfl, h2, h1, fun j hj => ?_⟩
  show bitIsSet (compress _).bitmap j = _
  rw [h3 j]; simp [hj]

/-- C08 is violated for the empty trie: the honest proof of absence is accepted uncompressed and rejected
compressed. -/
theorem C08_empty_trie_violated (H : Bytes → Bytes) (n : Nat) (k : Key) :
    verifyNonInclusion H n (rootHash H n .empty) (merkleProof H n n .empty k).path k [] [] = true ∧
    verifyNonInclusionC H n (rootHash H n .empty) (merkleProofC H n .empty k).1 k [] [] = some false := by
  constructor <;> rfl

example : (compress [b32 1, defaultLeaf, b32 2]).nodes = [b32 1, b32 2] ∧
    (compress [b32 1, defaultLeaf, b32 2]).bitmap = [0xa0] := by decide

/-! ## C66 -/

/-- C66: no sequence of updates whatever (also of invalid batches) makes `Update` hash a node with two
empty children, which would panic: no such node is ever part of the tree. -/
theorem C66_no_panic (n : Nat) (hist : List KVs) : NoHole (run n hist) := run_noHole n hist

example : run 256 exHist ≠ .empty := by decide +kernel

end Fpki.Smt
