import Verif.Model.Ids
import Verif.Lemmas.Bytes

/-!
# Property C14: encoding of ID lists
-/
namespace Fpki.Ids

theorem bytesToIDs_append (x b : Bytes) (h : x.length = 32) :
    bytesToIDs (x ++ b) = x :: bytesToIDs b := by
  rw [bytesToIDs, if_pos (by simp [h])]
  simp [← h]

/-- C14: decoding the glued IDs gives them back, for every list. -/
theorem C14_ids_roundtrip (ids : List Bytes) (h : ∀ x ∈ ids, x.length = 32) :
    bytesToIDs (idsToBytes ids) = ids := by
  induction ids with
  | nil => rw [idsToBytes, List.flatten_nil, bytesToIDs]; rfl
  | cons x xs ih =>
    rw [idsToBytes, List.flatten_cons, bytesToIDs_append _ _ (h x (by simp))]
    rw [← idsToBytes, ih (fun y hy => h y (by simp [hy]))]

/-- C14: every string of a multiple of 32 bytes is the glue of exactly one list of IDs. -/
theorem C14_bytes_roundtrip (b : Bytes) (h : b.length % 32 = 0) :
    idsToBytes (bytesToIDs b) = b ∧ ∀ x ∈ bytesToIDs b, x.length = 32 := by
  fun_induction bytesToIDs b with
  | case1 b hb ih =>
    obtain ⟨h1, h2⟩ := ih (by simp; omega)
    constructor
    · simp only [idsToBytes, List.flatten_cons] at *
      rw [h1]; simp
    · intro x hx
      rcases List.mem_cons.1 hx with rfl | hx
      · simp; omega
      · exact h2 x hx
  | case2 b hb =>
    have : b = [] := List.eq_nil_of_length_eq_zero (by omega)
    simp [this, idsToBytes]

/-- Two sorted permutations of each other are equal. -/
theorem goSorted_unique : ∀ {a b : List Bytes}, a.Perm b →
    a.Pairwise (fun x y => bytesLt y x = false) → b.Pairwise (fun x y => bytesLt y x = false) → a = b := by
  intro a
  induction a with
  | nil => intro b h _ _; exact (List.Perm.nil_eq h)
  | cons x xs ih =>
    intro b hp ha hb
    cases b with
    | nil => exact absurd hp.symm (by simp)
    | cons y ys =>
      have hxy : x = y := by
        by_cases e : x = y
        · exact e
        · exfalso
          have hx : x ∈ ys := by
            have := hp.subset (List.mem_cons_self ..)
            rcases List.mem_cons.1 this with h | h
            · exact absurd h e
            · exact h
          have hy : y ∈ xs := by
            have := hp.symm.subset (List.mem_cons_self ..)
            rcases List.mem_cons.1 this with h | h
            · exact absurd h.symm e
            · exact h
          have h1 := (List.pairwise_cons.1 ha).1 y hy
          have h2 := (List.pairwise_cons.1 hb).1 x hx
          rcases bytesLt_total e with h | h
          · rw [h] at h2; cases h2
          · rw [h] at h1; cases h1
      subst hxy
      rw [ih hp.cons_inv (List.pairwise_cons.1 ha).2 (List.pairwise_cons.1 hb).2]

/-- `sort.Slice` has an outcome for every list. -/
theorem goSorted_exists (ids : List Bytes) : ∃ s, GoSorted bytesLt ids s := by
  refine ⟨ids.mergeSort (fun a b => !bytesLt b a), List.mergeSort_perm _ _, ?_⟩
  have := List.pairwise_mergeSort (le := fun a b : Bytes => !bytesLt b a)
    (by
      intro a b c h1 h2
      simp only [Bool.not_eq_true'] at *
      cases h : bytesLt c a with
      | false => rfl
      | true =>
        by_cases e : a = b
        · subst e; rw [h] at h2; cases h2
        · rcases bytesLt_total e with h' | h'
          · rw [bytesLt_trans h h'] at h2; cases h2
          · rw [h'] at h1; cases h1)
    (by
      intro a b
      cases h : bytesLt b a with
      | false => rfl
      | true => simp [bytesLt_asymm h]) ids
  exact this.imp (by simp)

/-- C14: SortIDsAndGlue has a result for every list. -/
theorem C14_glue_total (ids : List Bytes) : ∃ out, SortIDsAndGlue ids out :=
  (goSorted_exists ids).imp' idsToBytes (fun s hs => ⟨s, hs, rfl⟩)

/-- C14: two lists of IDs glue to the same bytes exactly when one is a permutation of the other:
the glued bytes identify the multiset of IDs. -/
theorem C14_glue_eq_iff_perm (a b : List Bytes) (oa ob : Bytes)
    (ha : ∀ x ∈ a, x.length = 32) (hb : ∀ x ∈ b, x.length = 32)
    (h1 : SortIDsAndGlue a oa) (h2 : SortIDsAndGlue b ob) : oa = ob ↔ a.Perm b := by
  obtain ⟨sa, h1, rfl⟩ := h1
  obtain ⟨sb, h2, rfl⟩ := h2
  constructor
  · intro h
    have e : sa = sb := by
      rw [← C14_ids_roundtrip sa (fun x hx => ha x (h1.perm.subset hx)), h,
        C14_ids_roundtrip sb (fun x hx => hb x (h2.perm.subset hx))]
    exact h1.perm.symm.trans (e ▸ h2.perm)
  · intro h
    rw [goSorted_unique (h1.perm.trans (h.trans h2.perm.symm)) h1.sorted h2.sorted]

/-- C14: equal hashes of two ID lists mean the lists hold the same IDs, or the hash function collides on
the two glued strings; the nil result means exactly the empty list. -/
theorem C14_hash_binds (H : Bytes → Bytes) (a b : List Bytes) (oa ob : Option Bytes)
    (ha : ∀ x ∈ a, x.length = 32) (hb : ∀ x ∈ b, x.length = 32)
    (h1 : SortIDsAndHash H a oa) (h2 : SortIDsAndHash H b ob) (h : oa = ob) :
    a.Perm b ∨ ∃ x y, SortIDsAndGlue a x ∧ SortIDsAndGlue b y ∧ x ≠ y ∧ H x = H y := by
  unfold SortIDsAndHash at h1 h2
  by_cases ea : a = [] <;> by_cases eb : b = [] <;> simp only [ea, eb, if_true, if_false] at h1 h2
  · left; rw [ea, eb]
  · obtain ⟨s, _, h2⟩ := h2; rw [h1, h2] at h; cases h
  · obtain ⟨s, _, h1⟩ := h1; rw [h1, h2] at h; cases h
  · obtain ⟨s, hs, h1⟩ := h1
    obtain ⟨s', hs', h2⟩ := h2
    rw [h1, h2] at h
    by_cases e : idsToBytes s = idsToBytes s'
    · left; exact (C14_glue_eq_iff_perm a b _ _ ha hb ⟨s, hs, rfl⟩ ⟨s', hs', rfl⟩).1 e
    · right; exact ⟨_, _, ⟨s, hs, rfl⟩, ⟨s', hs', rfl⟩, e, Option.some.inj h⟩

/-- C14: equal lists of IDs (up to order) have equal hashes. -/
theorem C14_hash_order_free (H : Bytes → Bytes) (a b : List Bytes) (oa ob : Option Bytes)
    (h1 : SortIDsAndHash H a oa) (h2 : SortIDsAndHash H b ob) (h : a.Perm b) : oa = ob := by
  unfold SortIDsAndHash at h1 h2
  by_cases ea : a = []
  · have eb : b = [] := by rw [ea] at h; exact (List.Perm.nil_eq h).symm
    simp only [ea, eb, if_true] at h1 h2
    rw [h1, h2]
  · have eb : b ≠ [] := by rintro rfl; exact ea (List.Perm.eq_nil h)
    simp only [ea, eb, if_false] at h1 h2
    obtain ⟨s, hs, rfl⟩ := h1
    obtain ⟨s', hs', rfl⟩ := h2
    rw [goSorted_unique (hs.perm.trans (h.trans hs'.perm.symm)) hs.sorted hs'.sorted]

/-- The hypotheses are met: two different orders of three different IDs. -/
example : SortIDsAndGlue [List.replicate 32 3, List.replicate 32 1, List.replicate 32 2]
      (List.replicate 32 1 ++ List.replicate 32 2 ++ List.replicate 32 3) ∧
    SortIDsAndGlue [List.replicate 32 2, List.replicate 32 1, List.replicate 32 3]
      (List.replicate 32 1 ++ List.replicate 32 2 ++ List.replicate 32 3) ∧
    bytesToIDs (List.replicate 32 1 ++ List.replicate 32 2) = [List.replicate 32 1, List.replicate 32 2] := by
  refine ⟨⟨[List.replicate 32 1, List.replicate 32 2, List.replicate 32 3], ⟨?_, ?_⟩, ?_⟩,
    ⟨[List.replicate 32 1, List.replicate 32 2, List.replicate 32 3], ⟨?_, ?_⟩, ?_⟩, ?_⟩
  · decide +kernel
  · decide +kernel
  · decide +kernel
  · decide +kernel
  · decide +kernel
  · decide +kernel
  · exact C14_ids_roundtrip [List.replicate 32 1, List.replicate 32 2] (by decide)

end Fpki.Ids
