import Verif.Model.SmtCompress
import Verif.Lemmas.SmtProof

namespace Fpki.Smt

theorem bitSet_length (b : Bytes) (i : Nat) : (bitSet b i).length = b.length := by simp [bitSet]

theorem bitIsSet_bitSet (b : Bytes) (i j : Nat) (h : i / 8 < b.length) :
    bitIsSet (bitSet b i) j = (decide (i = j) || bitIsSet b j) := by
  unfold bitIsSet bitSet
  rw [List.getD_eq_getElem?_getD, List.getElem?_set]
  by_cases he : i / 8 = j / 8
  · rw [if_pos he, if_pos h]
    simp only [Option.getD_some, UInt8.toNat_or, Nat.testBit_or, UInt8.toNat_ofNat']
    rw [Nat.testBit_mod_two_pow (x := 2 ^ (7 - i % 8)) (j := 8)]
    rw [Nat.testBit_two_pow, ← he, List.getD_eq_getElem?_getD]
    have h1 : decide (7 - j % 8 < 8) = true := by simp; omega
    rw [h1, Bool.true_and, Bool.or_comm]
    congr 1
    simp only [decide_eq_decide]
    omega
  · rw [if_neg he, List.getD_eq_getElem?_getD]
    have : decide (i = j) = false := by
      simp only [decide_eq_false_iff_not]
      rintro rfl; exact he rfl
    rw [this, Bool.false_or]

/-- Non-default nodes. -/
def nonDefault (path : List Bytes) : List Bytes := path.filter (fun x => decide (x ≠ defaultLeaf))

theorem compressLoop_spec : ∀ (path : List Bytes) (i : Nat) (b : Bytes) (mp : List Bytes),
    (i + path.length) / 8 < b.length →
    (compressLoop i path (b, mp)).2 = mp ++ nonDefault path ∧
    (compressLoop i path (b, mp)).1.length = b.length ∧
    ∀ j, bitIsSet (compressLoop i path (b, mp)).1 j =
      (bitIsSet b j || (decide (i ≤ j ∧ j < i + path.length) && decide (path.getD (j - i) [] ≠ defaultLeaf))) := by
  intro path
  induction path with
  | nil =>
    intro i b mp _
    refine ⟨by simp [compressLoop, nonDefault], rfl, fun j => ?_⟩
    have : decide (i ≤ j ∧ j < i + ([] : List Bytes).length) = false := by simp
    rw [this]; simp [compressLoop]
  | cons x path ih =>
    intro i b mp hlen
    simp only [List.length_cons] at hlen
    by_cases hx : x = defaultLeaf
    · have := ih (i + 1) b mp (by rw [show i + 1 + path.length = i + (path.length + 1) by omega]; exact hlen)
      simp only [compressLoop, if_pos hx]
      refine ⟨?_, this.2.1, fun j => ?_⟩
      · rw [this.1]; simp [nonDefault, hx]
      · rw [this.2.2 j]
        congr 1
        by_cases hij : i = j
        · subst hij; simp [hx]; omega
        · by_cases h1 : i + 1 ≤ j
          · rw [show j - i = (j - (i + 1)) + 1 by omega, List.getD_cons_succ]
            congr 1
            simp only [decide_eq_decide, List.length_cons]; omega
          · simp only [List.length_cons]
            rw [show decide (i + 1 ≤ j ∧ j < i + 1 + path.length) = false by simp; omega,
              show decide (i ≤ j ∧ j < i + (path.length + 1)) = false by simp; omega]
            rfl
    · have hi : i / 8 < b.length := by
        refine Nat.lt_of_le_of_lt ?_ hlen
        exact Nat.div_le_div_right (by omega)
      have := ih (i + 1) (bitSet b i) (mp ++ [x]) (by
        rw [bitSet_length, show i + 1 + path.length = i + (path.length + 1) by omega]; exact hlen)
      simp only [compressLoop, if_neg hx]
      refine ⟨?_, by rw [this.2.1, bitSet_length], fun j => ?_⟩
      · rw [this.1]; simp [nonDefault, hx]
      · rw [this.2.2 j, bitIsSet_bitSet b i j hi]
        by_cases hij : i = j
        · subst hij; simp [hx]
        · simp only [hij, decide_false, Bool.false_or]
          congr 1
          by_cases h1 : i + 1 ≤ j
          · rw [show j - i = (j - (i + 1)) + 1 by omega, List.getD_cons_succ]
            congr 1
            simp only [decide_eq_decide, List.length_cons]; omega
          · simp only [List.length_cons]
            rw [show decide (i + 1 ≤ j ∧ j < i + 1 + path.length) = false by simp; omega,
              show decide (i ≤ j ∧ j < i + (path.length + 1)) = false by simp; omega]
            rfl

theorem bitIsSet_zero (m j : Nat) : bitIsSet (List.replicate m 0) j = false := by
  unfold bitIsSet
  rw [List.getD_eq_getElem?_getD, List.getElem?_replicate]
  by_cases h : j / 8 < m
  · rw [if_pos h]; simp
  · rw [if_neg h]; simp

theorem compress_spec (path : List Bytes) :
    (compress path).nodes = nonDefault path ∧ (compress path).length = path.length ∧
    ∀ j, bitIsSet (compress path).bitmap j =
      (decide (j < path.length) && decide (path.getD j [] ≠ defaultLeaf)) := by
  have := compressLoop_spec path 0 (List.replicate (path.length / 8 + 1) 0) [] (by simp)
  refine ⟨by simpa [compress] using this.1, rfl, fun j => ?_⟩
  have h := this.2.2 j
  rw [bitIsSet_zero] at h
  simpa [compress] using h

theorem verifyPathC_eq (H : Bytes → Bytes) (bitmap : Bytes) (key : Key) (e : Bytes) :
    ∀ (path : List Bytes) (i : Nat),
    (∀ j, j < path.length → bitIsSet bitmap j = decide (path.getD j [] ≠ defaultLeaf)) →
    verifyPathC H bitmap key e path.length i (nonDefault path).reverse =
      some (verifyPath H key i path.reverse e) := by
  -- induction from the end of the path
  suffices hrev : ∀ (rev : List Bytes) (i : Nat),
      (∀ j, j < rev.reverse.length → bitIsSet bitmap j = decide (rev.reverse.getD j [] ≠ defaultLeaf)) →
      verifyPathC H bitmap key e rev.reverse.length i (nonDefault rev.reverse).reverse =
        some (verifyPath H key i rev.reverse.reverse e) by
    intro path i h
    have := hrev path.reverse i
    rw [List.reverse_reverse] at this
    exact this h
  intro rev
  induction rev with
  | nil => intro i _; rfl
  | cons x rev ih =>
    rw [List.reverse_cons]
    generalize rev.reverse = init at ih
    intro i hb
    have hx := hb init.length (by simp)
    rw [show (init ++ [x]).getD init.length [] = x by simp [List.getD_eq_getElem?_getD]] at hx
    have hinit : ∀ j, j < init.length → bitIsSet bitmap j = decide (init.getD j [] ≠ defaultLeaf) := by
      intro j hj
      rw [hb j (by simp; omega)]
      simp [List.getD_eq_getElem?_getD, List.getElem?_append_left hj]
    have ih' := ih (i + 1) hinit
    rw [List.length_append, List.length_singleton]
    simp only [List.reverse_append, List.reverse_cons, List.reverse_nil, List.nil_append,
      List.cons_append, verifyPath]
    by_cases hd : x = defaultLeaf
    · have hnd : nonDefault (init ++ [x]) = nonDefault init := by simp [nonDefault, hd]
      have hbm : bitIsSet bitmap init.length = false := by rw [hx]; simp [hd]
      rw [hnd]
      simp only [verifyPathC, hbm, Bool.false_eq_true, if_false, ih', Option.map_some, hd]
      cases bitIsSet key i <;> simp
    · have hnd : nonDefault (init ++ [x]) = nonDefault init ++ [x] := by simp [nonDefault, hd]
      have hbm : bitIsSet bitmap init.length = true := by rw [hx]; simp [hd]
      rw [hnd]
      simp only [List.reverse_append, List.reverse_cons, List.reverse_nil, List.nil_append,
        List.cons_append, verifyPathC, hbm, if_true, ih', Option.map_some]
      cases bitIsSet key i <;> simp

end Fpki.Smt
