import Verif.Lemmas.MerkleSound
/-! # Honest proofs, and the numbers of `VerifyConsistency` -/
namespace Fpki.MerkleLog

variable (H : Bytes → Bytes)

/-! ## Audit paths level by level -/

/-- The neighbour of an index, if there is one. -/
def sib (m : Nat) (l : List Bytes) : List Bytes := (if m % 2 = 1 then l[m - 1]? else l[m + 1]?).toList

theorem split_two : split 2 = 1 := by decide

theorem auditPath_level : ∀ (l : List Bytes) (m : Nat), m < l.length → auditPath H m l = sib m l ++ auditPath H (m / 2) (level H l)
  | [], m, h => by simp at h
  | [x], m, h => by
    have : m = 0 := by simpa using h
    subst this
    simp [auditPath, sib, level]
  | [a, b], m, h => by
    rw [auditPath_cons H m (l := [a, b]) (by simp), show split [a, b].length = 1 from split_two]
    have : m = 0 ∨ m = 1 := by simp only [List.length_cons, List.length_nil] at h; omega
    rcases this with rfl | rfl
    · simp [auditPath, sib, level, mth]
    · simp [auditPath, sib, level, mth]
  | a :: b :: c :: t, m, h => by
    have h3 : 3 ≤ (a :: b :: c :: t).length := by simp
    obtain ⟨h1, h2⟩ := take_level H h3
    have hs := split_lt (n := (a :: b :: c :: t).length) (by omega)
    have h4 := split_half (n := (a :: b :: c :: t).length) h3
    have e1 := auditPath_level ((a :: b :: c :: t).take (split (a :: b :: c :: t).length))
    have e2 := auditPath_level ((a :: b :: c :: t).drop (split (a :: b :: c :: t).length))
    generalize (a :: b :: c :: t) = l at *
    rw [auditPath_cons H m (by omega), auditPath_cons H (m / 2) (l := level H l) (by rw [level_length]; omega), h1, h2, mth_level, mth_level, level_length]
    by_cases hm : m < split l.length
    · rw [if_pos hm, if_pos (by omega), e1 m (by rw [List.length_take]; omega), ← List.append_assoc]
      congr 2
      unfold sib
      split
      · rw [List.getElem?_take, if_pos (by omega)]
      · rw [List.getElem?_take, if_pos (by omega)]
    · rw [if_neg hm, if_neg (by omega), e2 (m - split l.length) (by rw [List.length_drop]; omega), ← List.append_assoc, show (m - split l.length) / 2 = m / 2 - split ((l.length + 1) / 2) by omega]
      congr 2
      unfold sib
      rw [show (m - split l.length) % 2 = m % 2 by omega]
      split
      · rw [List.getElem?_drop, show split l.length + (m - split l.length - 1) = m - 1 by omega]
      · rw [List.getElem?_drop, show split l.length + (m - split l.length + 1) = m + 1 by omega]
termination_by l => l.length
decreasing_by
  all_goals
    simp only [List.length_take, List.length_drop]
    omega

theorem auditPath_one (m : Nat) (x : Bytes) : auditPath H m [x] = [] := by rw [auditPath]

theorem climb_honest : ∀ (last m : Nat) (l : List Bytes) (h : Bytes), l.length = last + 1 → l[m]? = some h → climb H m last h (auditPath H m l) = some (mth H l) := by
  intro last
  induction last using Nat.strongRecOn with
  | ind last ih =>
    intro m l h hl hm
    have hlt : m < l.length := (List.getElem?_eq_some_iff.1 hm).1
    rw [climb.eq_def]
    by_cases h0 : last = 0
    · subst h0
      rw [dif_pos rfl]
      match l, hl with
      | [x], _ =>
        have : m = 0 := by simpa using hlt
        subst this
        rw [auditPath_one, if_pos rfl, mth]
        exact hm.symm
    · rw [dif_neg h0, auditPath_level H l m hlt, ← mth_level]
      have hl2 : (level H l).length = last / 2 + 1 := by rw [level_length]; omega
      by_cases ho : m % 2 = 1
      · rw [if_pos ho]
        obtain ⟨a, ha⟩ := get_some (l := l) (i := 2 * (m / 2)) (by omega)
        have hb : l[2 * (m / 2) + 1]? = some h := by rw [show 2 * (m / 2) + 1 = m by omega]; exact hm
        have hsib : sib m l = [a] := by unfold sib; rw [if_pos ho, show m - 1 = 2 * (m / 2) by omega, ha]; rfl
        rw [hsib]
        exact ih _ (by omega) _ _ _ hl2 (level_get H l _ a h ha hb)
      · rw [if_neg ho]
        by_cases he : m = last
        · rw [if_pos he]
          have hsib : sib m l = [] := by unfold sib; rw [if_neg ho, List.getElem?_eq_none (by omega)]; rfl
          rw [hsib]
          exact ih _ (by omega) _ _ _ hl2 (by rw [level_get_last H l _ (by omega), show 2 * (m / 2) = m by omega]; exact hm)
        · rw [if_neg he]
          obtain ⟨b, hb⟩ := get_some (l := l) (i := 2 * (m / 2) + 1) (by omega)
          have ha : l[2 * (m / 2)]? = some h := by rw [show 2 * (m / 2) = m by omega]; exact hm
          have hsib : sib m l = [b] := by unfold sib; rw [if_neg ho, show m + 1 = 2 * (m / 2) + 1 by omega, hb]; rfl
          rw [hsib]
          exact ih _ (by omega) _ _ _ hl2 (level_get H l _ h b ha hb)

theorem level_snoc (l : List Bytes) (q : Nat) (h : Bytes) (hq : 2 * q ≤ l.length) : level H (l.take (2 * q) ++ [h]) = (level H l).take q ++ [h] := by
  rw [level_append H _ _ (by rw [List.length_take]; omega), level_take H l q hq]
  rfl

theorem level_snoc2 (l : List Bytes) (q : Nat) (a h : Bytes) (ha : l[2 * q]? = some a) : level H (l.take (2 * q + 1) ++ [h]) = (level H l).take q ++ [hashChildren H a h] := by
  have hlt := (List.getElem?_eq_some_iff.1 ha).1
  rw [List.take_add_one, ha, List.append_assoc, level_append H _ _ (by rw [List.length_take]; omega), level_take H l q (by omega)]
  rfl

theorem climbR_honest : ∀ (last m : Nat) (l : List Bytes) (h : Bytes), l.length = last + 1 → m ≤ last → climbR H m last h (auditPath H m l) = some (mth H (l.take m ++ [h])) := by
  intro last
  induction last using Nat.strongRecOn with
  | ind last ih =>
    intro m l h hl hm
    have hlt : m < l.length := by omega
    rw [climbR.eq_def]
    by_cases h0 : last = 0
    · subst h0
      rw [dif_pos rfl]
      have : m = 0 := by omega
      subst this
      match l, hl with
      | [x], _ =>
        rw [auditPath_one, if_pos rfl]
        simp [mth]
    · rw [dif_neg h0, auditPath_level H l m hlt, ← mth_level]
      have hl2 : (level H l).length = last / 2 + 1 := by rw [level_length]; omega
      by_cases ho : m % 2 = 1
      · rw [if_pos ho]
        obtain ⟨a, ha⟩ := get_some (l := l) (i := 2 * (m / 2)) (by omega)
        have hsib : sib m l = [a] := by unfold sib; rw [if_pos ho, show m - 1 = 2 * (m / 2) by omega, ha]; rfl
        rw [hsib]
        have := level_snoc2 H l (m / 2) a h ha
        rw [show 2 * (m / 2) + 1 = m by omega] at this
        rw [this]
        exact ih _ (by omega) _ _ _ hl2 (by omega)
      · rw [if_neg ho]
        have := level_snoc H l (m / 2) h (by omega)
        rw [show 2 * (m / 2) = m by omega] at this
        rw [this]
        by_cases he : m = last
        · rw [if_pos he]
          have hsib : sib m l = [] := by unfold sib; rw [if_neg ho, List.getElem?_eq_none (by omega)]; rfl
          rw [hsib]
          exact ih _ (by omega) _ _ _ hl2 (by omega)
        · rw [if_neg he]
          obtain ⟨b, hb⟩ := get_some (l := l) (i := 2 * (m / 2) + 1) (by omega)
          have hsib : sib m l = [b] := by unfold sib; rw [if_neg ho, show m + 1 = 2 * (m / 2) + 1 by omega, hb]; rfl
          rw [hsib]
          exact ih _ (by omega) _ _ _ hl2 (by omega)

/-! ## Consistency proofs level by level -/

theorem subProof_level : ∀ (l : List Bytes) (m : Nat) (b : Bool), m % 2 = 0 → 0 < m → m ≤ l.length → subProof H m b l = subProof H (m / 2) b (level H l)
  | [], m, b, _, h, h' => by simp at h'; omega
  | [x], m, b, _, h, h' => by simp at h'; omega
  | [a, c], m, b, _, h, h' => by
    have : m = 2 := by simp only [List.length_cons, List.length_nil] at h'; omega
    subst this
    rw [subProof_cons H 2 b (l := [a, c]) (by simp), if_pos (show 2 = [a, c].length from rfl)]
    rw [← mth_level]
    simp [level, mth, subProof]
  | a :: c :: d :: t, m, b, he, hp, hm => by
    have h3 : 3 ≤ (a :: c :: d :: t).length := by simp
    obtain ⟨h1, h2⟩ := take_level H h3
    have hs := split_lt (n := (a :: c :: d :: t).length) (by omega)
    have h4 := split_half (n := (a :: c :: d :: t).length) h3
    have e1 := subProof_level ((a :: c :: d :: t).take (split (a :: c :: d :: t).length))
    have e2 := subProof_level ((a :: c :: d :: t).drop (split (a :: c :: d :: t).length))
    generalize (a :: c :: d :: t) = l at *
    rw [subProof_cons H m b (by omega), subProof_cons H (m / 2) b (l := level H l) (by rw [level_length]; omega), h1, h2, mth_level, mth_level, mth_level, level_length]
    by_cases hml : m = l.length
    · rw [if_pos hml, if_pos (c := m / 2 = _) (by omega)]
    · rw [if_neg hml, if_neg (c := m / 2 = _) (by omega)]
      by_cases hk : m ≤ split l.length
      · rw [if_pos hk, if_pos (by omega), e1 m b he hp (by rw [List.length_take]; omega)]
      · rw [if_neg hk, if_neg (by omega), e2 (m - split l.length) false (by omega) (by omega) (by rw [List.length_drop]; omega),
          show (m - split l.length) / 2 = m / 2 - split ((l.length + 1) / 2) by omega]
termination_by l => l.length
decreasing_by
  all_goals
    simp only [List.length_take, List.length_drop]
    omega

theorem subProof_odd : ∀ (l : List Bytes) (m : Nat) (b : Bool) (x : Bytes), m % 2 = 1 → m < l.length → l[m - 1]? = some x →
    subProof H m b l = (if m = 1 ∧ b = true then [] else [x]) ++ auditPath H (m - 1) l
  | [], m, b, x, _, h', _ => by simp at h'
  | [y], m, b, x, h, h', _ => by simp at h'; omega
  | a :: c :: t, m, b, x, ho, hm, hx => by
    have h3 : 2 ≤ (a :: c :: t).length := by simp
    have hs := split_lt (n := (a :: c :: t).length) h3
    have h4 : 3 ≤ (a :: c :: t).length → _ := split_half (n := (a :: c :: t).length)
    have h5 : (a :: c :: t).length = 2 → split (a :: c :: t).length = 1 := fun h => by rw [h]; exact split_two
    have e1 := subProof_odd ((a :: c :: t).take (split (a :: c :: t).length))
    have e2 := subProof_odd ((a :: c :: t).drop (split (a :: c :: t).length))
    generalize (a :: c :: t) = l at *
    rw [subProof_cons H m b h3, auditPath_cons H (m - 1) h3, if_neg (by omega)]
    by_cases hk : m ≤ split l.length
    · rw [if_pos hk, if_pos (c := m - 1 < split l.length) (by omega), ← List.append_assoc]
      congr 1
      by_cases hmk : m = split l.length
      · have h1 : split l.length = 1 := by
          by_cases h2 : l.length = 2
          · exact h5 h2
          · have := h4 (by omega)
            omega
        rw [h1] at hmk ⊢
        subst hmk
        match l, h3 with
        | y :: z :: t, _ =>
          have : y = x := by simpa using hx
          subst this
          simp only [List.take_succ_cons, List.take_zero, true_and]
          rw [subProof, auditPath_one, List.append_nil]
      · exact e1 m b x ho (by rw [List.length_take]; omega) (by rw [List.getElem?_take, if_pos (by omega)]; exact hx)
    · rw [if_neg hk, if_neg (c := m - 1 < split l.length) (by omega), ← List.append_assoc]
      congr 1
      have h2 : l.length ≠ 2 := by
        intro h2
        have := h5 h2
        omega
      have := h4 (by omega)
      rw [e2 (m - split l.length) false x (by omega) (by rw [List.length_drop]; omega) (by rw [List.getElem?_drop, show split l.length + (m - split l.length - 1) = m - 1 by omega]; exact hx)]
      rw [if_neg (by simp), if_neg (by omega), show m - split l.length - 1 = m - 1 - split l.length by omega]
termination_by l => l.length
decreasing_by
  all_goals
    simp only [List.length_take, List.length_drop]
    omega

theorem up_take : ∀ (j : Nat) (l : List Bytes) (q : Nat), q * 2 ^ j ≤ l.length → up H j (l.take (q * 2 ^ j)) = (up H j l).take q
  | 0, l, q, _ => by simp [up]
  | j + 1, l, q, h => by
    have e : q * 2 ^ (j + 1) = 2 * (q * 2 ^ j) := by rw [Nat.pow_succ, ← Nat.mul_assoc, Nat.mul_comm]
    rw [e] at h ⊢
    rw [up, level_take H l _ h, up_take j _ q (by rw [level_length]; omega)]
    rfl

theorem subProof_up : ∀ (j : Nat) (l : List Bytes) (q : Nat) (b : Bool), 0 < q → q * 2 ^ j ≤ l.length → subProof H (q * 2 ^ j) b l = subProof H q b (up H j l)
  | 0, l, q, b, _, _ => by simp [up]
  | j + 1, l, q, b, hq, h => by
    have e : q * 2 ^ (j + 1) = 2 * (q * 2 ^ j) := by rw [Nat.pow_succ, ← Nat.mul_assoc, Nat.mul_comm]
    have hp : 0 < q * 2 ^ j := Nat.mul_pos hq (Nat.two_pow_pos _)
    rw [e] at h ⊢
    rw [subProof_level H l _ b (by omega) (by omega) h, show 2 * (q * 2 ^ j) / 2 = q * 2 ^ j by omega, subProof_up j _ q b hq (by rw [level_length]; omega)]
    rfl

/-! ## The numbers -/

theorem trailingZeros_spec : ∀ n : Nat, n ≠ 0 → ∃ q, n = (2 * q + 1) * 2 ^ trailingZeros n := by
  intro n
  induction n using Nat.strongRecOn with
  | ind n ih =>
    intro h
    unfold trailingZeros
    rw [dif_neg h]
    split
    · exact ⟨n / 2, by rw [Nat.pow_zero, Nat.mul_one]; omega⟩
    · obtain ⟨q, hq⟩ := ih (n / 2) (by omega) (by omega)
      refine ⟨q, ?_⟩
      rw [Nat.pow_succ, ← Nat.mul_assoc, ← hq]
      omega

theorem bitLen_shift : ∀ (s n : Nat), bitLen (n >>> s) = bitLen n - s
  | 0, n => rfl
  | s + 1, n => by
    rw [shift_succ, bitLen_shift s]
    by_cases h : n = 0
    · subst h; simp [bitLen_zero]
    · rw [bitLen_pos h]
      omega

theorem inner_shift (s i last : Nat) : inner (i >>> s) (last >>> s) = inner i last - s := by
  unfold inner
  rw [← bitLen_shift, Nat.shiftRight_xor_distrib]

theorem inner_pos {i last : Nat} (h : i ≠ last) : 0 < inner i last := by rw [inner_half h]; omega

/-- The mask: the size has `mask + 1` blocks, an odd number. -/
theorem mask_spec {size : Nat} (h : size ≠ 0) : size = ((size - 1) >>> trailingZeros size + 1) * 2 ^ trailingZeros size ∧ ((size - 1) >>> trailingZeros size) % 2 = 0 := by
  obtain ⟨q, hq⟩ := trailingZeros_spec size h
  generalize trailingZeros size = s at *
  have hp : 0 < 2 ^ s := Nat.two_pow_pos s
  have : (size - 1) >>> s = 2 * q := by
    rw [Nat.shiftRight_eq_div_pow]
    have e : size - 1 = 2 * q * 2 ^ s + (2 ^ s - 1) := by
      rw [hq, Nat.add_mul, Nat.one_mul]
      omega
    rw [e, Nat.add_comm, Nat.add_mul_div_right _ _ hp, Nat.div_eq_of_lt (by omega)]
    omega
  rw [this]
  exact ⟨hq, by omega⟩

theorem mask_lt {size1 size2 : Nat} (h1 : size1 ≠ 0) (h : size1 < size2) : (size1 - 1) >>> trailingZeros size1 < (size2 - 1) >>> trailingZeros size1 := by
  obtain ⟨hs, _⟩ := mask_spec h1
  generalize trailingZeros size1 = s at *
  generalize (size1 - 1) >>> s = q at *
  rw [Nat.shiftRight_eq_div_pow, Nat.lt_iff_add_one_le, Nat.le_div_iff_mul_le (Nat.two_pow_pos s)]
  omega

/-- The size is a power of two exactly if the mask is zero. -/
theorem mask_zero {size : Nat} (h : size ≠ 0) : size = 1 <<< trailingZeros size ↔ (size - 1) >>> trailingZeros size = 0 := by
  obtain ⟨hs, _⟩ := mask_spec h
  generalize trailingZeros size = s at *
  generalize (size - 1) >>> s = q at *
  have hp : 0 < 2 ^ s := Nat.two_pow_pos s
  rw [Nat.one_shiftLeft]
  constructor
  · intro h
    rw [h] at hs
    have : 1 * 2 ^ s = (q + 1) * 2 ^ s := by omega
    have := Nat.eq_of_mul_eq_mul_right hp this
    omega
  · intro h
    subst h
    omega

end Fpki.MerkleLog
