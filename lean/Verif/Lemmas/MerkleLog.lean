import Verif.Model.MerkleLog
import Mathlib.Tactic.Tauto
import Mathlib.Tactic.ClearExcept
/-! # The tree level by level, and the verification level by level -/
namespace Fpki.MerkleLog

variable (H : Bytes → Bytes)

/-- Neighbours are hashed together, an odd last one stays. -/
def level : List Bytes → List Bytes
  | a :: b :: l => hashChildren H a b :: level l
  | l => l

/-- The strings hashed for a level. -/
def levelInputs : List Bytes → List Bytes
  | a :: b :: l => (0x01 :: (a ++ b)) :: levelInputs l
  | _ => []

theorem level_length : ∀ l : List Bytes, (level H l).length = (l.length + 1) / 2
  | [] => rfl
  | [_] => by simp [level]
  | a :: b :: l => by
    simp only [level, List.length_cons, level_length l]
    omega

theorem level_append : ∀ (a b : List Bytes), a.length % 2 = 0 → level H (a ++ b) = level H a ++ level H b
  | [], b, _ => by cases b <;> rfl
  | [x], b, h => by simp at h
  | x :: y :: a, b, h => by
    simp only [List.cons_append, level]
    rw [level_append a b (by simp only [List.length_cons] at h; omega)]

theorem levelInputs_append : ∀ (a b : List Bytes), a.length % 2 = 0 → levelInputs (a ++ b) = levelInputs a ++ levelInputs b
  | [], b, _ => by cases b <;> rfl
  | [x], b, h => by simp at h
  | x :: y :: a, b, h => by
    simp only [List.cons_append, levelInputs]
    rw [levelInputs_append a b (by simp only [List.length_cons] at h; omega)]

theorem level_get : ∀ (l : List Bytes) (j : Nat) (a b : Bytes), l[2 * j]? = some a → l[2 * j + 1]? = some b → (level H l)[j]? = some (hashChildren H a b)
  | [], j, a, b, h, _ => by simp at h
  | [x], j, a, b, _, h' => by simp at h'
  | x :: y :: l, 0, a, b, h, h' => by
    simp at h h'
    subst h h'
    simp [level]
  | x :: y :: l, j + 1, a, b, h, h' => by
    have e : 2 * (j + 1) = 2 * j + 1 + 1 := by omega
    rw [e] at h h'
    simp only [List.getElem?_cons_succ] at h h'
    simp only [level, List.getElem?_cons_succ]
    exact level_get l j a b h h'

theorem level_get_last : ∀ (l : List Bytes) (j : Nat), l.length = 2 * j + 1 → (level H l)[j]? = l[2 * j]?
  | [], j, h => by simp at h
  | [x], j, h => by
    have : j = 0 := by simp only [List.length_cons, List.length_nil] at h; omega
    subst this
    rfl
  | x :: y :: l, 0, h => by simp at h
  | x :: y :: l, j + 1, h => by
    have e : 2 * (j + 1) = 2 * j + 1 + 1 := by omega
    rw [e]
    simp only [level, List.getElem?_cons_succ]
    exact level_get_last l j (by simp only [List.length_cons] at h; omega)

theorem levelInputs_get : ∀ (l : List Bytes) (j : Nat) (a b : Bytes), l[2 * j]? = some a → l[2 * j + 1]? = some b → (0x01 :: (a ++ b)) ∈ levelInputs l
  | [], j, a, b, h, _ => by simp at h
  | [x], j, a, b, _, h' => by simp at h'
  | x :: y :: l, 0, a, b, h, h' => by
    simp at h h'
    subst h h'
    simp [levelInputs]
  | x :: y :: l, j + 1, a, b, h, h' => by
    have e : 2 * (j + 1) = 2 * j + 1 + 1 := by omega
    rw [e] at h h'
    simp only [List.getElem?_cons_succ] at h h'
    simp only [levelInputs]
    exact List.mem_cons_of_mem _ (levelInputs_get l j a b h h')

theorem level_32 (hH : ∀ x, (H x).length = 32) : ∀ l : List Bytes, (∀ x ∈ l, x.length = 32) → ∀ x ∈ level H l, x.length = 32
  | [], h => h
  | [_], h => h
  | a :: b :: l, h => by
    intro x hx
    simp only [level, List.mem_cons] at hx
    rcases hx with rfl | hx
    · exact hH _
    · exact level_32 hH l (fun y hy => h y (by simp [hy])) x hx

theorem level_take : ∀ (l : List Bytes) (q : Nat), 2 * q ≤ l.length → level H (l.take (2 * q)) = (level H l).take q
  | l, 0, _ => by simp [level]
  | [], q + 1, h => by simp at h
  | [x], q + 1, h => by simp only [List.length_cons, List.length_nil] at h; omega
  | x :: y :: l, q + 1, h => by
    have e : 2 * (q + 1) = 2 * q + 1 + 1 := by omega
    rw [e]
    simp only [level, List.take_succ_cons]
    rw [level_take l q (by simp only [List.length_cons] at h; omega)]

/-! ## The split -/

theorem log2_half {n : Nat} (h : 2 ≤ n) : Nat.log2 n = Nat.log2 (n / 2) + 1 := by
  rw [Nat.log2_def]
  simp [h]

theorem split_half {n : Nat} (h : 3 ≤ n) : split n = 2 * split ((n + 1) / 2) := by
  unfold split
  rw [log2_half (by omega), show (n + 1) / 2 - 1 = (n - 1) / 2 by omega, Nat.pow_succ]
  omega

theorem mth_cons {l : List Bytes} (h : 2 ≤ l.length) : mth H l = hashChildren H (mth H (l.take (split l.length))) (mth H (l.drop (split l.length))) := by
  match l, h with
  | x :: y :: l, _ =>
    conv => lhs; rw [mth]
    rfl

theorem inputs_cons {l : List Bytes} (h : 2 ≤ l.length) : inputs H l =
    (0x01 :: (mth H (l.take (split l.length)) ++ mth H (l.drop (split l.length)))) :: (inputs H (l.take (split l.length)) ++ inputs H (l.drop (split l.length))) := by
  match l, h with
  | x :: y :: l, _ =>
    conv => lhs; rw [inputs]
    rfl

theorem auditPath_cons (m : Nat) {l : List Bytes} (h : 2 ≤ l.length) : auditPath H m l =
    if m < split l.length then auditPath H m (l.take (split l.length)) ++ [mth H (l.drop (split l.length))]
    else auditPath H (m - split l.length) (l.drop (split l.length)) ++ [mth H (l.take (split l.length))] := by
  match l, h with
  | x :: y :: l, _ =>
    conv => lhs; rw [auditPath]
    rfl

theorem subProof_cons (m : Nat) (b : Bool) {l : List Bytes} (h : 2 ≤ l.length) : subProof H m b l =
    if m = l.length then (if b then [] else [mth H l])
    else if m ≤ split l.length then subProof H m b (l.take (split l.length)) ++ [mth H (l.drop (split l.length))]
    else subProof H (m - split l.length) false (l.drop (split l.length)) ++ [mth H (l.take (split l.length))] := by
  match l, h with
  | x :: y :: l, _ =>
    conv => lhs; rw [subProof]
    rfl

theorem take_level {l : List Bytes} (h : 3 ≤ l.length) :
    (level H l).take (split (level H l).length) = level H (l.take (split l.length)) ∧ (level H l).drop (split (level H l).length) = level H (l.drop (split l.length)) := by
  have hs := split_lt (n := l.length) (by omega)
  have h2 := split_half (n := l.length) h
  rw [level_length]
  have hl : (level H (l.take (split l.length))).length = split ((l.length + 1) / 2) := by
    rw [level_length, List.length_take]
    omega
  have ha : level H l = level H (l.take (split l.length)) ++ level H (l.drop (split l.length)) := by
    rw [← level_append, List.take_append_drop]
    rw [List.length_take]
    omega
  rw [ha]
  exact ⟨by rw [← hl, List.take_left], by rw [← hl, List.drop_left]⟩

theorem mth_level : ∀ l : List Bytes, mth H (level H l) = mth H l
  | [] => rfl
  | [_] => rfl
  | [a, b] => by
    rw [mth_cons H (l := [a, b]) (by simp)]
    have : split [a, b].length = 1 := by show split 2 = 1; decide
    rw [this]
    simp [level, mth]
  | a :: b :: c :: l => by
    have h3 : 3 ≤ (a :: b :: c :: l).length := by simp
    obtain ⟨h1, h2⟩ := take_level H h3
    have hs := split_lt (n := (a :: b :: c :: l).length) (by omega)
    have e1 := mth_level ((a :: b :: c :: l).take (split (a :: b :: c :: l).length))
    have e2 := mth_level ((a :: b :: c :: l).drop (split (a :: b :: c :: l).length))
    rw [mth_cons H (l := level H (a :: b :: c :: l)) (by rw [level_length]; omega), h1, h2, e1, e2, ← mth_cons H (by omega)]
termination_by l => l.length
decreasing_by
  all_goals
    simp only [List.length_take, List.length_drop]
    omega

theorem inputs_level : ∀ (l : List Bytes) (x : Bytes), x ∈ inputs H l ↔ x ∈ levelInputs l ∨ x ∈ inputs H (level H l)
  | [], x => by simp [levelInputs, level]
  | [_], x => by simp [levelInputs, level]
  | [a, b], x => by
    rw [inputs_cons H (l := [a, b]) (by simp)]
    have : split [a, b].length = 1 := by show split 2 = 1; decide
    rw [this]
    simp [level, mth, levelInputs, inputs]
  | a :: b :: c :: l, x => by
    have h3 : 3 ≤ (a :: b :: c :: l).length := by simp
    obtain ⟨h1, h2⟩ := take_level H h3
    have hs := split_lt (n := (a :: b :: c :: l).length) (by omega)
    have h4 := split_half (n := (a :: b :: c :: l).length) h3
    have e1 := inputs_level ((a :: b :: c :: l).take (split (a :: b :: c :: l).length)) x
    have e2 := inputs_level ((a :: b :: c :: l).drop (split (a :: b :: c :: l).length)) x
    rw [inputs_cons H (l := level H (a :: b :: c :: l)) (by rw [level_length]; omega), h1, h2, mth_level, mth_level]
    have e3 : levelInputs (a :: b :: c :: l) =
        levelInputs ((a :: b :: c :: l).take (split (a :: b :: c :: l).length)) ++ levelInputs ((a :: b :: c :: l).drop (split (a :: b :: c :: l).length)) := by
      rw [← levelInputs_append, List.take_append_drop]
      rw [List.length_take]
      omega
    rw [e3, inputs_cons H (by omega)]
    simp only [List.mem_cons, List.mem_append, e1, e2]
    clear * -
    tauto
termination_by l => l.length
decreasing_by
  all_goals
    simp only [List.length_take, List.length_drop]
    omega

/-! ## Climbing the levels -/

/-- The verification, level by level: `last` is the highest index of the level. -/
def climb (i last : Nat) (h : Bytes) (ps : List Bytes) : Option Bytes :=
  if _hl : last = 0 then (if ps = [] then some h else none)
  else if i % 2 = 1 then
    match ps with
    | [] => none
    | p :: ps => climb (i / 2) (last / 2) (hashChildren H p h) ps
  else if i = last then climb (i / 2) (last / 2) h ps
  else
    match ps with
    | [] => none
    | p :: ps => climb (i / 2) (last / 2) (hashChildren H h p) ps
termination_by last
decreasing_by all_goals omega

/-- The same for the truncated tree: what is to the right of the index is skipped. -/
def climbR (i last : Nat) (h : Bytes) (ps : List Bytes) : Option Bytes :=
  if _hl : last = 0 then (if ps = [] then some h else none)
  else if i % 2 = 1 then
    match ps with
    | [] => none
    | p :: ps => climbR (i / 2) (last / 2) (hashChildren H p h) ps
  else if i = last then climbR (i / 2) (last / 2) h ps
  else
    match ps with
    | [] => none
    | _ :: ps => climbR (i / 2) (last / 2) h ps
termination_by last
decreasing_by all_goals omega

/-- What `climb` hashes. -/
def climbInputs (i last : Nat) (h : Bytes) (ps : List Bytes) : List Bytes :=
  if _hl : last = 0 then []
  else if i % 2 = 1 then
    match ps with
    | [] => []
    | p :: ps => (0x01 :: (p ++ h)) :: climbInputs (i / 2) (last / 2) (hashChildren H p h) ps
  else if i = last then climbInputs (i / 2) (last / 2) h ps
  else
    match ps with
    | [] => []
    | p :: ps => (0x01 :: (h ++ p)) :: climbInputs (i / 2) (last / 2) (hashChildren H h p) ps
termination_by last
decreasing_by all_goals omega

/-- What `climbR` hashes. -/
def climbRInputs (i last : Nat) (h : Bytes) (ps : List Bytes) : List Bytes :=
  if _hl : last = 0 then []
  else if i % 2 = 1 then
    match ps with
    | [] => []
    | p :: ps => (0x01 :: (p ++ h)) :: climbRInputs (i / 2) (last / 2) (hashChildren H p h) ps
  else if i = last then climbRInputs (i / 2) (last / 2) h ps
  else
    match ps with
    | [] => []
    | _ :: ps => climbRInputs (i / 2) (last / 2) h ps
termination_by last
decreasing_by all_goals omega

theorem bitLen_zero : bitLen 0 = 0 := by unfold bitLen; simp

theorem bitLen_pos {n : Nat} (h : n ≠ 0) : bitLen n = bitLen (n / 2) + 1 := by
  conv => lhs; unfold bitLen
  simp [h]

theorem onesCount_half (n : Nat) : onesCount n = onesCount (n / 2) + n % 2 := by
  by_cases h : n = 0
  · subst h; unfold onesCount; simp
  · conv => lhs; unfold onesCount
    simp [h]

/-- The sizes of the two parts of a proof, with the highest index in place of the size. -/
def inner (i last : Nat) : Nat := bitLen (i ^^^ last)

theorem inner_self (i : Nat) : inner i i = 0 := by unfold inner; rw [Nat.xor_self, bitLen_zero]

theorem xor_ne {i last : Nat} (h : i ≠ last) : i ^^^ last ≠ 0 := by
  intro h0
  apply h
  have : (i ^^^ last) ^^^ last = 0 ^^^ last := by rw [h0]
  rwa [Nat.xor_assoc, Nat.xor_self, Nat.xor_zero, Nat.zero_xor] at this

theorem inner_half {i last : Nat} (h : i ≠ last) : inner i last = inner (i / 2) (last / 2) + 1 := by
  unfold inner
  rw [bitLen_pos (xor_ne h), Nat.xor_div_two]

theorem shift_succ (i n : Nat) : i >>> (n + 1) = (i / 2) >>> n := by
  rw [Nat.add_comm, Nat.shiftRight_add]
  rfl

theorem climb_eq : ∀ (last i : Nat) (h : Bytes) (ps : List Bytes), i ≤ last →
    (if ps.length = inner i last + onesCount (i >>> inner i last) then
      some (chainBorderRight H (chainInner H h (ps.take (inner i last)) i) (ps.drop (inner i last))) else none) = climb H i last h ps := by
  intro last
  induction last using Nat.strongRecOn with
  | ind last ih =>
    intro i h ps hi
    rw [climb.eq_def]
    by_cases h0 : last = 0
    · subst h0
      have hi0 : i = 0 := by omega
      subst hi0
      rw [inner_self]
      rw [dif_pos rfl]
      have : onesCount (0 >>> 0) = 0 := by unfold onesCount; simp
      rw [this]
      cases ps with
      | nil => simp [chainBorderRight, chainInner]
      | cons p ps => simp
    · rw [dif_neg h0]
      by_cases he : i = last
      · subst he
        rw [inner_self]
        have hs : i >>> 0 = i := rfl
        rw [hs, onesCount_half]
        have h2 := ih (i / 2) (by omega) (i / 2)
        rw [inner_self] at h2
        simp only [Nat.zero_add, List.take_zero, List.drop_zero, chainInner, Nat.shiftRight_zero] at h2 ⊢
        by_cases ho : i % 2 = 1
        · rw [if_pos ho]
          cases ps with
          | nil => simp [ho]
          | cons p ps =>
            dsimp only
            rw [← h2 _ _ (Nat.le_refl _)]
            simp only [List.length_cons, chainBorderRight, ho, Nat.add_right_cancel_iff]
        · rw [if_neg ho, if_pos True.intro, ← h2 _ _ (Nat.le_refl _)]
          simp only [show i % 2 = 0 by omega, Nat.add_zero]
      · rw [inner_half he, shift_succ]
        cases ps with
        | nil =>
          rw [if_neg (by rw [List.length_nil]; omega)]
          split
          · rfl
          · rfl
        | cons p ps =>
          have h2 := fun h => ih (last / 2) (by omega) (i / 2) h ps (by omega)
          simp only [List.length_cons, List.take_succ_cons, List.drop_succ_cons, chainInner]
          by_cases ho : i % 2 = 1
          · rw [if_pos ho, if_neg (c := i % 2 = 0) (by omega)]
            rw [← h2]
            congr 1
            simp only [eq_iff_iff]
            omega
          · rw [if_neg ho, if_pos (c := i % 2 = 0) (by omega), if_neg he]
            rw [← h2]
            congr 1
            simp only [eq_iff_iff]
            omega

theorem climbR_eq : ∀ (last i : Nat) (h : Bytes) (ps : List Bytes), i ≤ last →
    (if ps.length = inner i last + onesCount (i >>> inner i last) then
      some (chainBorderRight H (chainInnerRight H h (ps.take (inner i last)) i) (ps.drop (inner i last))) else none) = climbR H i last h ps := by
  intro last
  induction last using Nat.strongRecOn with
  | ind last ih =>
    intro i h ps hi
    rw [climbR.eq_def]
    by_cases h0 : last = 0
    · subst h0
      have hi0 : i = 0 := by omega
      subst hi0
      rw [inner_self]
      rw [dif_pos rfl]
      have : onesCount (0 >>> 0) = 0 := by unfold onesCount; simp
      rw [this]
      cases ps with
      | nil => simp [chainBorderRight, chainInnerRight]
      | cons p ps => simp
    · rw [dif_neg h0]
      by_cases he : i = last
      · subst he
        rw [inner_self]
        have hs : i >>> 0 = i := rfl
        rw [hs, onesCount_half]
        have h2 := ih (i / 2) (by omega) (i / 2)
        rw [inner_self] at h2
        simp only [Nat.zero_add, List.take_zero, List.drop_zero, chainInnerRight, Nat.shiftRight_zero] at h2 ⊢
        by_cases ho : i % 2 = 1
        · rw [if_pos ho]
          cases ps with
          | nil => simp [ho]
          | cons p ps =>
            dsimp only
            rw [← h2 _ _ (Nat.le_refl _)]
            simp only [List.length_cons, chainBorderRight, ho, Nat.add_right_cancel_iff]
        · rw [if_neg ho, if_pos True.intro, ← h2 _ _ (Nat.le_refl _)]
          simp only [show i % 2 = 0 by omega, Nat.add_zero]
      · rw [inner_half he, shift_succ]
        cases ps with
        | nil =>
          rw [if_neg (by rw [List.length_nil]; omega)]
          split
          · rfl
          · rfl
        | cons p ps =>
          have h2 := fun h => ih (last / 2) (by omega) (i / 2) h ps (by omega)
          simp only [List.length_cons, List.take_succ_cons, List.drop_succ_cons, chainInnerRight]
          by_cases ho : i % 2 = 1
          · rw [if_pos ho, if_pos ho]
            rw [← h2]
            congr 1
            simp only [eq_iff_iff]
            omega
          · rw [if_neg ho, if_neg ho, if_neg he]
            rw [← h2]
            congr 1
            simp only [eq_iff_iff]
            omega

theorem climbInputs_eq : ∀ (last i : Nat) (h : Bytes) (ps : List Bytes), i ≤ last → ps.length = inner i last + onesCount (i >>> inner i last) →
    climbInputs H i last h ps = innerInputs H h (ps.take (inner i last)) i ++ borderInputs H (chainInner H h (ps.take (inner i last)) i) (ps.drop (inner i last)) := by
  intro last
  induction last using Nat.strongRecOn with
  | ind last ih =>
    intro i h ps hi hlen
    rw [climbInputs.eq_def]
    by_cases h0 : last = 0
    · subst h0
      have hi0 : i = 0 := by omega
      subst hi0
      have : onesCount (0 >>> 0) = 0 := by unfold onesCount; simp
      rw [inner_self, this] at hlen
      have hps : ps = [] := List.length_eq_zero_iff.1 hlen
      subst hps
      rw [dif_pos rfl]
      simp [innerInputs, borderInputs]
    · rw [dif_neg h0]
      by_cases he : i = last
      · subst he
        have hs : i >>> 0 = i := rfl
        rw [inner_self, hs, onesCount_half] at hlen
        rw [inner_self]
        have h2 := ih (i / 2) (by omega) (i / 2)
        rw [inner_self] at h2
        simp only [Nat.zero_add, List.take_zero, List.drop_zero, chainInner, Nat.shiftRight_zero, innerInputs, List.nil_append] at h2 ⊢
        by_cases ho : i % 2 = 1
        · rw [if_pos ho]
          cases ps with
          | nil => simp [ho] at hlen
          | cons p ps =>
            dsimp only
            rw [h2 _ _ (Nat.le_refl _) (by simp only [List.length_cons] at hlen; omega), borderInputs]
        · rw [if_neg ho, if_pos True.intro, h2 _ _ (Nat.le_refl _) (by omega)]
      · rw [inner_half he, shift_succ] at hlen
        rw [inner_half he]
        cases ps with
        | nil => rw [List.length_nil] at hlen; omega
        | cons p ps =>
          have h2 := fun h => ih (last / 2) (by omega) (i / 2) h ps (by omega) (by simp only [List.length_cons] at hlen; omega)
          simp only [List.take_succ_cons, List.drop_succ_cons, chainInner, innerInputs]
          by_cases ho : i % 2 = 1
          · rw [if_pos ho, if_neg (c := i % 2 = 0) (by omega), if_neg (c := i % 2 = 0) (by omega), h2]
            rfl
          · rw [if_neg ho, if_pos (c := i % 2 = 0) (by omega), if_pos (c := i % 2 = 0) (by omega), if_neg he, h2]
            rfl

theorem climbRInputs_eq : ∀ (last i : Nat) (h : Bytes) (ps : List Bytes), i ≤ last → ps.length = inner i last + onesCount (i >>> inner i last) →
    climbRInputs H i last h ps = rightInputs H h (ps.take (inner i last)) i ++ borderInputs H (chainInnerRight H h (ps.take (inner i last)) i) (ps.drop (inner i last)) := by
  intro last
  induction last using Nat.strongRecOn with
  | ind last ih =>
    intro i h ps hi hlen
    rw [climbRInputs.eq_def]
    by_cases h0 : last = 0
    · subst h0
      have hi0 : i = 0 := by omega
      subst hi0
      have : onesCount (0 >>> 0) = 0 := by unfold onesCount; simp
      rw [inner_self, this] at hlen
      have hps : ps = [] := List.length_eq_zero_iff.1 hlen
      subst hps
      rw [dif_pos rfl]
      simp [rightInputs, borderInputs]
    · rw [dif_neg h0]
      by_cases he : i = last
      · subst he
        have hs : i >>> 0 = i := rfl
        rw [inner_self, hs, onesCount_half] at hlen
        rw [inner_self]
        have h2 := ih (i / 2) (by omega) (i / 2)
        rw [inner_self] at h2
        simp only [Nat.zero_add, List.take_zero, List.drop_zero, chainInnerRight, Nat.shiftRight_zero, rightInputs, List.nil_append] at h2 ⊢
        by_cases ho : i % 2 = 1
        · rw [if_pos ho]
          cases ps with
          | nil => simp [ho] at hlen
          | cons p ps =>
            dsimp only
            rw [h2 _ _ (Nat.le_refl _) (by simp only [List.length_cons] at hlen; omega), borderInputs]
        · rw [if_neg ho, if_pos True.intro, h2 _ _ (Nat.le_refl _) (by omega)]
      · rw [inner_half he, shift_succ] at hlen
        rw [inner_half he]
        cases ps with
        | nil => rw [List.length_nil] at hlen; omega
        | cons p ps =>
          have h2 := fun h => ih (last / 2) (by omega) (i / 2) h ps (by omega) (by simp only [List.length_cons] at hlen; omega)
          simp only [List.take_succ_cons, List.drop_succ_cons, chainInnerRight, rightInputs]
          by_cases ho : i % 2 = 1
          · rw [if_pos ho, if_pos ho, if_pos ho, h2]
            rfl
          · rw [if_neg ho, if_neg ho, if_neg ho, if_neg he, h2]

end Fpki.MerkleLog
