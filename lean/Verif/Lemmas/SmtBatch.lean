import Verif.Model.SmtBatch
import Verif.Lemmas.SmtCompress

namespace Fpki.Smt

/-- Every slot is nil or a 33-byte node (32-byte digest, key or value and a flag byte). -/
def NodeSlots (slots : List Bytes) : Prop := ∀ s ∈ slots, s = [] ∨ s.length = 33

/-- A batch as the trie builds it. In a shortcut batch slots 1 and 2 hold key and value. -/
structure BatchOk (b : List Bytes) : Prop where
  slots : ∃ flag rest, b = flag :: rest ∧ rest.length = 30 ∧ NodeSlots rest ∧
    (flag = [0] ∨ (flag = [1] ∧ ∃ k v tl, rest = k :: v :: tl ∧ k ≠ [] ∧ v ≠ []))

theorem bitSet_append (a b : Bytes) (i : Nat) (h : i / 8 < a.length) :
    bitSet (a ++ b) i = bitSet a i ++ b := by
  unfold bitSet
  rw [List.set_append_left _ _ h]
  congr 2
  simp [List.getD_eq_getElem?_getD, List.getElem?_append_left h]

theorem bitIsSet_append (a b : Bytes) (i : Nat) (h : i / 8 < a.length) :
    bitIsSet (a ++ b) i = bitIsSet a i := by
  unfold bitIsSet
  simp [List.getD_eq_getElem?_getD, List.getElem?_append_left h]

/-- `serLoop` sets bits in the 4-byte header and appends the nodes. -/
theorem serLoop_spec : ∀ (slots : List Bytes) (i : Nat) (hd data : Bytes), hd.length = 4 → 1 ≤ i →
    i + slots.length ≤ 32 →
    ∃ hd', serLoop i slots (hd ++ data) = hd' ++ (data ++ slots.flatten) ∧ hd'.length = 4 ∧
      ∀ j, bitIsSet hd' j = (bitIsSet hd j ||
        (decide (i ≤ j + 1 ∧ j + 1 < i + slots.length) && decide (slots.getD (j + 1 - i) [] ≠ []))) := by
  intro slots
  induction slots with
  | nil =>
    intro i hd data hl _ _
    refine ⟨hd, by simp [serLoop], hl, fun j => ?_⟩
    have : decide (i ≤ j + 1 ∧ j + 1 < i + ([] : List Bytes).length) = false := by
      simp only [List.length_nil, Nat.add_zero, decide_eq_false_iff_not]; omega
    rw [this]; simp
  | cons s slots ih =>
    intro i hd data hl hi hlen
    simp only [List.length_cons] at hlen
    by_cases hs : s = []
    · subst hs
      obtain ⟨hd', h1, h2, h3⟩ := ih (i + 1) hd data hl (by omega) (by omega)
      refine ⟨hd', by simp [serLoop, h1], h2, fun j => ?_⟩
      rw [h3 j]
      congr 1
      by_cases hij : i = j + 1
      · subst hij; simp; omega
      · by_cases h : i + 1 ≤ j + 1
        · rw [show j + 1 - i = (j + 1 - (i + 1)) + 1 by omega, List.getD_cons_succ]
          congr 1
          simp only [decide_eq_decide, List.length_cons]; omega
        · simp only [List.length_cons]
          rw [show decide (i + 1 ≤ j + 1 ∧ j + 1 < i + 1 + slots.length) = false by
                simp only [decide_eq_false_iff_not]; omega,
              show decide (i ≤ j + 1 ∧ j + 1 < i + (slots.length + 1)) = false by
                simp only [decide_eq_false_iff_not]; omega]
          rfl
    · have hs' : s.length ≠ 0 := by simpa using hs
      have hb : (i - 1) / 8 < hd.length := by rw [hl]; omega
      obtain ⟨hd', h1, h2, h3⟩ := ih (i + 1) (bitSet hd (i - 1)) (data ++ s) (by rw [bitSet_length, hl])
        (by omega) (by omega)
      refine ⟨hd', ?_, h2, fun j => ?_⟩
      · simp only [serLoop, hs', ne_eq, not_false_eq_true, if_true]
        rw [bitSet_append _ _ _ hb, List.append_assoc, h1]
        simp
      · rw [h3 j, bitIsSet_bitSet _ _ _ hb]
        by_cases hij : i - 1 = j
        · have : i = j + 1 := by omega
          subst this
          simp [hs]
        · simp only [hij, decide_false, Bool.false_or]
          congr 1
          by_cases h : i + 1 ≤ j + 1
          · rw [show j + 1 - i = (j + 1 - (i + 1)) + 1 by omega, List.getD_cons_succ]
            congr 1
            simp only [decide_eq_decide, List.length_cons]; omega
          · simp only [List.length_cons]
            rw [show decide (i + 1 ≤ j + 1 ∧ j + 1 < i + 1 + slots.length) = false by
                  simp only [decide_eq_false_iff_not]; omega,
                show decide (i ≤ j + 1 ∧ j + 1 < i + (slots.length + 1)) = false by
                  simp only [decide_eq_false_iff_not]; omega]
            rfl

theorem slice_node (hd pre s post : Bytes) (j : Nat) (hh : hd.length = 4) (hp : pre.length = 33 * j)
    (hs : s.length = 33) :
    slice (hd ++ (pre ++ (s ++ post))) (4 + 33 * j) (4 + 33 * (j + 1)) = s := by
  unfold slice
  rw [show hd ++ (pre ++ (s ++ post)) = (hd ++ pre ++ s) ++ post by simp]
  rw [List.take_append_of_le_length (by simp [hh, hp, hs]; omega)]
  rw [List.take_of_length_le (by simp [hh, hp, hs]; omega)]
  rw [List.drop_left' (by simp [hh, hp])]

theorem parseLoop_spec (hd : Bytes) (hh : hd.length = 4) : ∀ (slots : List Bytes) (i j : Nat)
    (pre : Bytes) (val : Bytes), NodeSlots slots → 1 ≤ i → pre.length = 33 * j →
    val = hd ++ (pre ++ slots.flatten) →
    (∀ m, m < slots.length → bitIsSet hd (i - 1 + m) = decide (slots.getD m [] ≠ [])) →
    parseLoop val slots.length i j = slots := by
  intro slots
  induction slots with
  | nil => intro i j pre val _ _ _ _ _; rfl
  | cons s slots ih =>
    intro i j pre val hn hi hp hv hb
    have h0 := hb 0 (by simp)
    have htake : val.take 4 = hd := by rw [hv, List.take_left' hh]
    have hb' : ∀ m, m < slots.length → bitIsSet hd (i + 1 - 1 + m) = decide (slots.getD m [] ≠ []) := by
      intro m hm
      have := hb (m + 1) (by simp; omega)
      rw [List.getD_cons_succ] at this
      rw [← this]
      congr 1; omega
    have hn' : NodeSlots slots := fun s h => hn s (by simp [h])
    simp only [List.getD_cons_zero, Nat.add_zero] at h0
    rw [List.length_cons]
    simp only [parseLoop, htake, h0]
    by_cases hs : s = []
    · subst hs
      simp only [ne_eq, not_true_eq_false, decide_false, Bool.false_eq_true, if_false]
      rw [ih (i + 1) j pre val hn' (by omega) hp (by simpa using hv) hb']
    · simp only [ne_eq, hs, not_false_eq_true, decide_true, if_true]
      have hs33 : s.length = 33 := (hn s (by simp)).resolve_left hs
      rw [ih (i + 1) (j + 1) (pre ++ s) val hn' (by omega) (by simp [hp, hs33]; omega)
        (by simpa using hv) hb']
      rw [hv, List.flatten_cons, slice_node hd pre s _ j hh hp hs33]

end Fpki.Smt
