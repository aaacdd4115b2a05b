import Verif.Lemmas.SmtBatch
import Verif.Props.Smt

namespace Fpki.Smt

/-- C09: reading back a stored batch gives the batch that was written, for every batch that is not a
shortcut batch, and for every shortcut batch without left-over nodes in slots 3 to 30. -/
theorem C09_batch_roundtrip (b : List Bytes) (h : BatchOk b)
    (hshort : b.head? = some [1] → ∀ s ∈ b.drop 3, s = []) :
    parseBatch (serializeBatch b) = b := by
  obtain ⟨flag, rest, rfl, hlen, hn, hflag⟩ := h
  have hzero : ∀ j, bitIsSet (List.replicate 4 0) j = false := bitIsSet_zero 4
  rcases hflag with rfl | ⟨rfl, k, v, tl, rfl, hk, hv⟩
  · obtain ⟨hd, h1, h2, h3⟩ := serLoop_spec rest 1 (List.replicate 4 0) [] (by simp) (by omega)
      (by omega)
    have hser : serializeBatch ([0] :: rest) = hd ++ rest.flatten := by
      simpa [serializeBatch] using h1
    have h31 : bitIsSet (hd ++ rest.flatten) 31 = false := by
      have : bitIsSet (hd ++ rest.flatten) 31 = bitIsSet hd 31 := by
        exact bitIsSet_append _ _ _ (by omega)
      rw [this, h3 31, hzero]
      have : decide (1 ≤ 31 + 1 ∧ 31 + 1 < 1 + rest.length) = false := by
        simp only [decide_eq_false_iff_not]; omega
      rw [this]; rfl
    rw [hser]
    unfold parseBatch
    rw [h31]
    simp only [Bool.false_eq_true, if_false, List.cons.injEq, true_and]
    rw [← hlen]
    apply parseLoop_spec hd h2 rest 1 0 [] _ hn (by omega) (by simp) (by simp)
    intro m hm
    rw [h3, hzero]
    have : decide (1 ≤ 1 - 1 + m + 1 ∧ 1 - 1 + m + 1 < 1 + rest.length) = true := by
      simp only [decide_eq_true_eq]; omega
    rw [this, show 1 - 1 + m + 1 - 1 = m by omega]
    simp
  · have htl : ∀ s ∈ tl, s = [] := by simpa using hshort rfl
    have hbits : (bitSet (List.replicate 4 0) 31).length = 4 := by simp [bitSet_length]
    obtain ⟨hd, h1, h2, h3⟩ := serLoop_spec (k :: v :: tl) 1 (bitSet (List.replicate 4 0) 31) [] hbits
      (by omega) (by omega)
    have hser : serializeBatch ([1] :: k :: v :: tl) = hd ++ (k ++ (v ++ tl.flatten)) := by
      simpa [serializeBatch] using h1
    have h31 : bitIsSet (hd ++ (k ++ (v ++ tl.flatten))) 31 = true := by
      have : bitIsSet (hd ++ (k ++ (v ++ tl.flatten))) 31 = bitIsSet hd 31 := by
        exact bitIsSet_append _ _ _ (by omega)
      rw [this, h3 31, bitIsSet_bitSet _ _ _ (by simp)]
      simp
    have hk33 : k.length = 33 := (hn k (by simp)).resolve_left hk
    have hv33 : v.length = 33 := (hn v (by simp)).resolve_left hv
    rw [hser]
    unfold parseBatch
    rw [h31]
    simp only [if_true]
    have e1 : slice (hd ++ (k ++ (v ++ tl.flatten))) 4 (4 + 33) = k :=
      slice_node hd [] k (v ++ tl.flatten) 0 h2 (by simp) hk33
    have e2 : slice (hd ++ (k ++ (v ++ tl.flatten))) (4 + 33) (4 + 33 * 2) = v :=
      slice_node hd k v tl.flatten 1 h2 (by simp [hk33]) hv33
    rw [e1, e2]
    congr 3
    symm
    apply List.eq_replicate_iff.2
    exact ⟨by simpa using hlen, htl⟩

/-- For every shortcut batch, with left-overs or not, what is read back has the same key and value. -/
theorem C09_shortcut_roundtrip (k v : Bytes) (tl : List Bytes) (h : BatchOk ([1] :: k :: v :: tl)) :
    parseBatch (serializeBatch ([1] :: k :: v :: tl)) = [1] :: k :: v :: List.replicate 28 [] := by
  obtain ⟨flag, rest, he, hlen, hn, hflag⟩ := h
  cases he
  have hkv : k ≠ [] ∧ v ≠ [] := by
    rcases hflag with h | ⟨_, k', v', tl', h, hk, hv⟩
    · exact absurd h (by decide)
    · cases h; exact ⟨hk, hv⟩
  have hbits : (bitSet (List.replicate 4 0) 31).length = 4 := by simp [bitSet_length]
  obtain ⟨hd, h1, h2, h3⟩ := serLoop_spec (k :: v :: tl) 1 (bitSet (List.replicate 4 0) 31) [] hbits
    (by omega) (by omega)
  have hser : serializeBatch ([1] :: k :: v :: tl) = hd ++ (k ++ (v ++ tl.flatten)) := by
    simpa [serializeBatch] using h1
  have h31 : bitIsSet (hd ++ (k ++ (v ++ tl.flatten))) 31 = true := by
    have : bitIsSet (hd ++ (k ++ (v ++ tl.flatten))) 31 = bitIsSet hd 31 := by
      exact bitIsSet_append _ _ _ (by omega)
    rw [this, h3 31, bitIsSet_bitSet _ _ _ (by simp)]
    simp
  have hk33 : k.length = 33 := (hn k (by simp)).resolve_left hkv.1
  have hv33 : v.length = 33 := (hn v (by simp)).resolve_left hkv.2
  rw [hser]
  unfold parseBatch
  rw [h31]
  simp only [if_true]
  have e1 : slice (hd ++ (k ++ (v ++ tl.flatten))) 4 (4 + 33) = k :=
    slice_node hd [] k (v ++ tl.flatten) 0 h2 (by simp) hk33
  have e2 : slice (hd ++ (k ++ (v ++ tl.flatten))) (4 + 33) (4 + 33 * 2) = v :=
    slice_node hd k v tl.flatten 1 h2 (by simp [hk33]) hv33
  rw [e1, e2]

/-- A batch with two nodes in slots 1 and 4. -/
example : BatchOk ([0] :: List.replicate 33 7 :: [] :: [] :: List.replicate 33 8 :: List.replicate 26 []) :=
  ⟨⟨_, _, rfl, by decide, by unfold NodeSlots; decide, Or.inl rfl⟩⟩

/-- A shortcut batch. -/
example : BatchOk ([1] :: List.replicate 33 7 :: List.replicate 33 8 :: List.replicate 28 []) ∧
    ∀ s ∈ ([1] :: List.replicate 33 7 :: List.replicate 33 8 :: List.replicate 28 ([] : Bytes)).drop 3, s = [] :=
  ⟨⟨_, _, rfl, by decide, by unfold NodeSlots; decide, Or.inr ⟨rfl, _, _, _, rfl, by decide, by decide⟩⟩, by decide⟩

end Fpki.Smt
