import Verif.Model.Bytes

namespace Fpki

theorem bytesLt_irrefl (a : Bytes) : bytesLt a a = false := by
  induction a with
  | nil => rfl
  | cons x xs ih => simp [bytesLt, ih, UInt8.lt_irrefl]

theorem bytesLt_trans {a b c : Bytes} (h1 : bytesLt a b = true) (h2 : bytesLt b c = true) :
    bytesLt a c = true := by
  induction a generalizing b c with
  | nil =>
    cases c with
    | nil => cases b <;> simp [bytesLt] at h2
    | cons z zs => rfl
  | cons x xs ih =>
    cases b with
    | nil => simp [bytesLt] at h1
    | cons y ys =>
      cases c with
      | nil => simp [bytesLt] at h2
      | cons z zs =>
        simp only [bytesLt] at *
        simp only [UInt8.lt_iff_toNat_lt] at *
        by_cases hxy : x.toNat < y.toNat
        · by_cases hyz : y.toNat < z.toNat
          · rw [if_pos (by omega)]
          · simp only [hyz, if_false] at h2
            split at h2
            · simp at h2
            · rw [if_pos (by omega)]
        · simp only [hxy, if_false] at h1
          split at h1
          · simp at h1
          · by_cases hyz : y.toNat < z.toNat
            · rw [if_pos (by omega)]
            · simp only [hyz, if_false] at h2
              split at h2
              · simp at h2
              · rw [if_neg (by omega), if_neg (by omega)]
                exact ih h1 h2

theorem bytesLt_asymm {a b : Bytes} (h : bytesLt a b = true) : bytesLt b a = false := by
  cases hb : bytesLt b a with
  | false => rfl
  | true =>
    have := bytesLt_trans h hb
    rw [bytesLt_irrefl] at this
    cases this

theorem bytesLt_ne {a b : Bytes} (h : bytesLt a b = true) : a ≠ b := by
  rintro rfl; rw [bytesLt_irrefl] at h; cases h

theorem bytesLt_total {a b : Bytes} (h : a ≠ b) : bytesLt a b = true ∨ bytesLt b a = true := by
  induction a generalizing b with
  | nil =>
    cases b with
    | nil => exact absurd rfl h
    | cons y ys => left; rfl
  | cons x xs ih =>
    cases b with
    | nil => right; rfl
    | cons y ys =>
      simp only [bytesLt, UInt8.lt_iff_toNat_lt]
      rcases Nat.lt_trichotomy x.toNat y.toNat with hlt | heq | hgt
      · left; rw [if_pos hlt]
      · have hxy : x = y := UInt8.toNat_inj.1 heq
        subst hxy
        simp only [Nat.lt_irrefl, if_false]
        exact ih (fun h' => h (by rw [h']))
      · right; rw [if_pos hgt]

theorem lt_of_topBit {n m : Nat} (i : Nat) (hn : n.testBit i = false) (hm : m.testBit i = true)
    (hnm : ∀ j, i < j → n.testBit j = m.testBit j) : n < m := by
  have hq : n / 2 ^ (i + 1) = m / 2 ^ (i + 1) := by
    apply Nat.eq_of_testBit_eq
    intro j
    rw [Nat.testBit_div_two_pow, Nat.testBit_div_two_pow]
    exact hnm _ (by omega)
  rw [Nat.testBit_eq_decide_div_mod_eq] at hn hm
  simp only [decide_eq_false_iff_not, decide_eq_true_eq] at hn hm
  rw [Nat.pow_succ, ← Nat.div_div_eq_div_mul, ← Nat.div_div_eq_div_mul] at hq
  have hlt : n / 2 ^ i < m / 2 ^ i := by omega
  refine Nat.lt_of_not_le fun hle => ?_
  have := Nat.div_le_div_right (c := 2 ^ i) hle
  omega

/-- Highest differing bit of two bytes. -/
theorem byte_lt_bit {x y : Byte} (h : x.toNat < y.toNat) :
    ∃ j, j < 8 ∧ x.toNat.testBit (7 - j) = false ∧ y.toNat.testBit (7 - j) = true ∧
      ∀ k, k < j → x.toNat.testBit (7 - k) = y.toNat.testBit (7 - k) := by
  have hx := x.toNat_lt
  have hy := y.toNat_lt
  generalize x.toNat = a at *
  generalize y.toNat = b at *
  have key : ∀ m, m ≤ 8 → (∀ k, k < m → a.testBit (7 - k) = b.testBit (7 - k)) ∨
      ∃ j, j < m ∧ a.testBit (7 - j) ≠ b.testBit (7 - j) ∧
        ∀ k, k < j → a.testBit (7 - k) = b.testBit (7 - k) := by
    intro m
    induction m with
    | zero => intro _; left; intro k hk; omega
    | succ m ih =>
      intro hm
      rcases ih (by omega) with h1 | ⟨j, h1, h2, h3⟩
      · by_cases he : a.testBit (7 - m) = b.testBit (7 - m)
        · left; intro k hk
          by_cases hkm : k = m
          · subst hkm; exact he
          · exact h1 k (by omega)
        · exact Or.inr ⟨m, by omega, he, h1⟩
      · exact Or.inr ⟨j, by omega, h2, h3⟩
  have hhigh : ∀ {c : Nat}, c < 2 ^ 8 → ∀ k, 8 ≤ k → c.testBit k = false := by
    intro c hc k hk
    apply Nat.testBit_lt_two_pow
    exact Nat.lt_of_lt_of_le hc (Nat.pow_le_pow_right (by omega) hk)
  rcases key 8 (by omega) with h1 | ⟨j, h1, h2, h3⟩
  · exfalso
    have : a = b := by
      apply Nat.eq_of_testBit_eq
      intro i
      by_cases hi : i < 8
      · have := h1 (7 - i) (by omega)
        rwa [show 7 - (7 - i) = i by omega] at this
      · rw [hhigh hx i (by omega), hhigh hy i (by omega)]
    omega
  · have habove : ∀ k, 7 - j < k → a.testBit k = b.testBit k := by
      intro k hk
      by_cases hk8 : k < 8
      · have := h3 (7 - k) (by omega)
        rwa [show 7 - (7 - k) = k by omega] at this
      · rw [hhigh hx k (by omega), hhigh hy k (by omega)]
    refine ⟨j, h1, ?_, ?_, h3⟩
    · cases ha : a.testBit (7 - j) with
      | false => rfl
      | true =>
        have hb : b.testBit (7 - j) = false := by
          cases hb : b.testBit (7 - j) with
          | false => rfl
          | true => exact absurd (ha.trans hb.symm) h2
        have := lt_of_topBit (7 - j) hb ha (fun k hk => (habove k hk).symm)
        omega
    · cases hb : b.testBit (7 - j) with
      | true => rfl
      | false =>
        have ha : a.testBit (7 - j) = true := by
          cases ha : a.testBit (7 - j) with
          | true => rfl
          | false => exact absurd (ha.trans hb.symm) h2
        have := lt_of_topBit (7 - j) hb ha (fun k hk => (habove k hk).symm)
        omega

theorem bitIsSet_cons_lt (x : Byte) (xs : Bytes) {i : Nat} (h : i < 8) :
    bitIsSet (x :: xs) i = x.toNat.testBit (7 - i) := by
  unfold bitIsSet
  rw [show i / 8 = 0 by omega, show i % 8 = i by omega]
  rfl

theorem bitIsSet_cons_add (x : Byte) (xs : Bytes) (i : Nat) :
    bitIsSet (x :: xs) (8 + i) = bitIsSet xs i := by
  unfold bitIsSet
  rw [show (8 + i) / 8 = i / 8 + 1 by omega, show (8 + i) % 8 = i % 8 by omega]
  rfl

/-- For strings of equal length, `bytes.Compare` is decided by the first differing bit. -/
theorem bytesLt_bit {a b : Bytes} (hl : a.length = b.length) (h : bytesLt a b = true) :
    ∃ j, j < 8 * a.length ∧ bitIsSet a j = false ∧ bitIsSet b j = true ∧
      ∀ k, k < j → bitIsSet a k = bitIsSet b k := by
  induction a generalizing b with
  | nil => cases b <;> simp [bytesLt] at h hl
  | cons x xs ih =>
    cases b with
    | nil => simp at hl
    | cons y ys =>
      simp only [bytesLt, UInt8.lt_iff_toNat_lt] at h
      by_cases hxy : x.toNat < y.toNat
      · obtain ⟨j, h1, h2, h3, h4⟩ := byte_lt_bit hxy
        refine ⟨j, by simp; omega, ?_, ?_, ?_⟩
        · rw [bitIsSet_cons_lt _ _ h1]; exact h2
        · rw [bitIsSet_cons_lt _ _ h1]; exact h3
        · intro k hk
          rw [bitIsSet_cons_lt _ _ (by omega), bitIsSet_cons_lt _ _ (by omega)]; exact h4 k hk
      · rw [if_neg hxy] at h
        split at h
        · simp at h
        · next hyx =>
          have hxy' : x = y := UInt8.toNat_inj.1 (by omega)
          subst hxy'
          obtain ⟨j, h1, h2, h3, h4⟩ := ih (by simpa using hl) h
          refine ⟨8 + j, by simp; omega, ?_, ?_, ?_⟩
          · rw [bitIsSet_cons_add]; exact h2
          · rw [bitIsSet_cons_add]; exact h3
          · intro k hk
            by_cases hk8 : k < 8
            · rw [bitIsSet_cons_lt _ _ hk8, bitIsSet_cons_lt _ _ hk8]
            · rw [show k = 8 + (k - 8) by omega, bitIsSet_cons_add, bitIsSet_cons_add]
              exact h4 _ (by omega)

/-- Strings of equal length with equal bits are equal. -/
theorem eq_of_bits {a b : Bytes} (hl : a.length = b.length)
    (h : ∀ i, i < 8 * a.length → bitIsSet a i = bitIsSet b i) : a = b := by
  by_cases hne : a = b
  · exact hne
  · exfalso
    rcases bytesLt_total hne with hlt | hlt
    · obtain ⟨j, h1, h2, h3, _⟩ := bytesLt_bit hl hlt
      rw [h j h1, h3] at h2; cases h2
    · obtain ⟨j, h1, h2, h3, _⟩ := bytesLt_bit hl.symm hlt
      rw [← h j (by omega), h3] at h2; cases h2

/-- The two strings have the same first `i` bits. -/
def SamePrefix (i : Nat) (a b : Bytes) : Prop := ∀ j, j < i → bitIsSet a j = bitIsSet b j

theorem SamePrefix.refl (i : Nat) (a : Bytes) : SamePrefix i a a := fun _ _ => rfl
theorem SamePrefix.symm {i : Nat} {a b : Bytes} (h : SamePrefix i a b) : SamePrefix i b a :=
  fun j hj => (h j hj).symm
theorem SamePrefix.trans {i : Nat} {a b c : Bytes} (h : SamePrefix i a b) (h' : SamePrefix i b c) :
    SamePrefix i a c := fun j hj => (h j hj).trans (h' j hj)
theorem SamePrefix.mono {i k : Nat} {a b : Bytes} (h : SamePrefix i a b) (hk : k ≤ i) :
    SamePrefix k a b := fun j hj => h j (by omega)
theorem SamePrefix.succ {i : Nat} {a b : Bytes} (h : SamePrefix i a b)
    (hb : bitIsSet a i = bitIsSet b i) : SamePrefix (i + 1) a b := by
  intro j hj
  by_cases hji : j = i
  · subst hji; exact hb
  · exact h j (by omega)

/-- With a common prefix of `i` bits, a larger key has bit `i` set if the smaller one has. -/
theorem lt_bit_mono {a b : Bytes} {i : Nat} (hl : a.length = b.length) (hp : SamePrefix i a b)
    (h : bytesLt a b = true) (hb : bitIsSet a i = true) : bitIsSet b i = true := by
  obtain ⟨j, _, h2, h3, h4⟩ := bytesLt_bit hl h
  rcases Nat.lt_trichotomy i j with hlt | heq | hgt
  · rw [← h4 i hlt]; exact hb
  · subst heq; exact h3
  · have := hp j hgt
    rw [h2, h3] at this; cases this

end Fpki
