import Verif.Model.JsonIndent
import Verif.Lemmas.JsonPrefix
namespace Fpki.Json
open Fpki.Policy

/-- Only white space. -/
def Blank (w : Bytes) : Prop := ∀ b ∈ w, space b = true

theorem skipWs_blank {w : Bytes} (h : Blank w) (s : Bytes) : skipWs (w ++ s) = skipWs s := by
  induction w with
  | nil => rfl
  | cons b w ih =>
    unfold skipWs
    rw [List.cons_append, List.dropWhile_cons, h b List.mem_cons_self]
    exact ih fun c hc => h c (List.mem_cons_of_mem _ hc)

theorem parseValue_blank {w : Bytes} (h : Blank w) (n : Nat) (s : Bytes) : parseValue n (w ++ s) = parseValue n s := by
  cases n with
  | zero => unfold parseValue; rfl
  | succ n => rw [parseValue_succ, parseValue_succ, skipWs_blank h]

theorem parseElems_blank {w : Bytes} (h : Blank w) (n : Nat) (s : Bytes) : parseElems n (w ++ s) = parseElems n s := by
  cases n with
  | zero => unfold parseElems; rfl
  | succ n => rw [parseElems_succ, parseElems_succ, parseValue_blank h]

theorem parseMembers_blank {w : Bytes} (h : Blank w) (n : Nat) (s : Bytes) : parseMembers n (w ++ s) = parseMembers n s := by
  cases n with
  | zero => unfold parseMembers; rfl
  | succ n => rw [parseMembers_succ, parseMembers_succ, skipWs_blank h]

theorem blank_newline {ind : Bytes} (h : Blank ind) (d : Nat) : Blank (newline ind d) := by
  intro b hb
  rcases List.mem_cons.mp hb with rfl | hb
  · decide
  · obtain ⟨l, hl, hb⟩ := List.mem_flatten.mp hb
    exact h b (List.eq_of_mem_replicate hl ▸ hb)

theorem ends_newline (ind : Bytes) (d : Nat) (t : Bytes) : Ends (newline ind d ++ t) := by
  intro c t' e
  cases e
  decide

/-- A value does not begin with white space or a closing bracket. -/
theorem renderAt_head (ind : Bytes) (d : Nat) (j : J) (h : Ints j) (rest : Bytes) : ∃ b t, renderAt ind d j ++ rest = b :: t ∧ space b = false ∧ b ≠ 0x5D ∧ b ≠ 0x7D := by
  cases j with
  | null => exact ⟨0x6E, _, by unfold renderAt; rfl, by decide, by decide, by decide⟩
  | bool b => cases b <;> exact ⟨_, _, by unfold renderAt; rfl, by decide, by decide, by decide⟩
  | num lit =>
    have := render_head (.num lit) h rest
    unfold render at this
    unfold renderAt
    exact this
  | str s =>
    have := render_head (.str s) h rest
    unfold render at this
    unfold renderAt
    exact this
  | arr l => exact ⟨0x5B, _, by unfold renderAt; rfl, by decide, by decide, by decide⟩
  | obj l => exact ⟨0x7B, _, by unfold renderAt; rfl, by decide, by decide, by decide⟩

section
variable {ind : Bytes} (hi : Blank ind)
include hi

mutual
theorem parse_value_at : ∀ (j : J), Ints j → ∀ (n : Nat), cost j ≤ n → ∀ (d : Nat) (rest : Bytes), Ends rest → parseValue n (renderAt ind d j ++ rest) = some (fix j, rest)
  | .null, h, n, hn, d, rest, hr => by
    have := parse_value .null h n hn rest hr
    unfold render at this
    unfold renderAt
    exact this
  | .bool true, h, n, hn, d, rest, hr => by
    have := parse_value (.bool true) h n hn rest hr
    unfold render at this
    unfold renderAt
    exact this
  | .bool false, h, n, hn, d, rest, hr => by
    have := parse_value (.bool false) h n hn rest hr
    unfold render at this
    unfold renderAt
    exact this
  | .num lit, h, n, hn, d, rest, hr => by
    have := parse_value (.num lit) h n hn rest hr
    unfold render at this
    unfold renderAt
    exact this
  | .str s, h, n, hn, d, rest, hr => by
    have := parse_value (.str s) h n hn rest hr
    unfold render at this
    unfold renderAt
    exact this
  | .arr _, _, 0, hn, _, _, _ => by
    exfalso
    unfold cost at hn; omega
  | .obj _, _, 0, hn, _, _, _ => by
    exfalso
    unfold cost at hn; omega
  | .arr [], h, n + 1, hn, d, rest, hr => by
    have := parse_value (.arr []) h (n + 1) hn rest hr
    simp only [render, renderElems] at this
    simp only [renderAt, elemsAt, List.isEmpty_nil, if_true, List.append_nil]
    exact this
  | .arr (v :: l), hj, n + 1, hn, d, rest, hr => by
    rw [parseValue_succ]
    have he : renderAt ind d (.arr (v :: l)) ++ rest = 0x5B :: (elemsAt ind (d + 1) (v :: l) ++ (newline ind d ++ 0x5D :: rest)) := by simp [renderAt]
    have hj' : IntsElems (v :: l) := by unfold Ints at hj; exact hj
    have hn' : costElems (v :: l) ≤ n := by unfold cost at hn; omega
    have hv : Ints v := by unfold IntsElems at hj'; exact hj'.1
    have hh : ∃ b t, skipWs (elemsAt ind (d + 1) (v :: l) ++ (newline ind d ++ 0x5D :: rest)) = b :: t ∧ b ≠ 0x5D := by
      rw [elemsAt, List.append_assoc, List.append_assoc, skipWs_blank (blank_newline hi _)]
      obtain ⟨b, t, hb, hs, h5, -⟩ := renderAt_head ind (d + 1) v hv ((if l.isEmpty then [] else 0x2C :: elemsAt ind (d + 1) l) ++ (newline ind d ++ 0x5D :: rest))
      exact ⟨b, t, by rw [hb, skipWs_cons _ hs], h5⟩
    obtain ⟨b, t, hb, h5⟩ := hh
    rw [he, skipWs_cons _ (by decide)]
    dsimp only
    rw [if_neg (by decide), if_pos rfl, hb]
    dsimp only
    rw [if_neg h5, parse_elems_at v l hj' n hn' d rest]
    simp [fix]
  | .obj [], h, n + 1, hn, d, rest, hr => by
    have := parse_value (.obj []) h (n + 1) hn rest hr
    simp only [render, renderMembers] at this
    simp only [renderAt, membersAt, List.isEmpty_nil, if_true, List.append_nil]
    exact this
  | .obj ((k, v) :: l), hj, n + 1, hn, d, rest, hr => by
    rw [parseValue_succ]
    have he : renderAt ind d (.obj ((k, v) :: l)) ++ rest = 0x7B :: (membersAt ind (d + 1) ((k, v) :: l) ++ (newline ind d ++ 0x7D :: rest)) := by simp [renderAt]
    have hj' : IntsMembers ((k, v) :: l) := by unfold Ints at hj; exact hj
    have hn' : costMembers ((k, v) :: l) ≤ n := by unfold cost at hn; omega
    have hh : ∃ t, skipWs (membersAt ind (d + 1) ((k, v) :: l) ++ (newline ind d ++ 0x7D :: rest)) = 0x22 :: t := by
      rw [membersAt]
      simp only [List.append_assoc]
      rw [skipWs_blank (blank_newline hi _)]
      exact ⟨_, skipWs_cons _ (by decide)⟩
    obtain ⟨t, hb⟩ := hh
    rw [he, skipWs_cons _ (by decide)]
    dsimp only
    rw [if_neg (by decide), if_neg (by decide), if_pos rfl, hb]
    dsimp only
    rw [if_neg (by decide), parse_members_at k v l hj' n hn' d rest]
    simp [fix]
theorem parse_elems_at : ∀ (v : J) (l : List J), IntsElems (v :: l) → ∀ (n : Nat), costElems (v :: l) ≤ n → ∀ (d : Nat) (rest : Bytes),
    parseElems n (elemsAt ind (d + 1) (v :: l) ++ (newline ind d ++ 0x5D :: rest)) = some (fixElems (v :: l), rest)
  | v, l, hj, 0, hn, _, _ => by
    exfalso
    unfold costElems at hn
    omega
  | v, [], hj, n + 1, hn, d, rest => by
    have hv : Ints v := by unfold IntsElems at hj; exact hj.1
    have hc : cost v ≤ n := by unfold costElems at hn; omega
    have he : elemsAt ind (d + 1) [v] ++ (newline ind d ++ 0x5D :: rest) = newline ind (d + 1) ++ (renderAt ind (d + 1) v ++ (newline ind d ++ 0x5D :: rest)) := by simp [elemsAt]
    rw [he, parseElems_blank (blank_newline hi _), parseElems_succ, parse_value_at v hv n hc _ _ (ends_newline _ _ _)]
    dsimp only
    rw [skipWs_blank (blank_newline hi _), skipWs_cons _ (by decide)]
    dsimp only
    rw [if_neg (by decide), if_pos rfl]
    simp [fixElems]
  | v, w :: l, hj, n + 1, hn, d, rest => by
    have hv : Ints v := by unfold IntsElems at hj; exact hj.1
    have hl : IntsElems (w :: l) := by unfold IntsElems at hj; exact hj.2
    have hc : cost v ≤ n := by unfold costElems at hn; omega
    have hcl : costElems (w :: l) ≤ n := by rw [costElems] at hn; omega
    have he : elemsAt ind (d + 1) (v :: w :: l) ++ (newline ind d ++ 0x5D :: rest) =
        newline ind (d + 1) ++ (renderAt ind (d + 1) v ++ 0x2C :: (elemsAt ind (d + 1) (w :: l) ++ (newline ind d ++ 0x5D :: rest))) := by
      conv => lhs; rw [elemsAt]
      simp
    rw [he, parseElems_blank (blank_newline hi _), parseElems_succ, parse_value_at v hv n hc _ _ (ends_of (.inl rfl))]
    dsimp only
    rw [skipWs_cons _ (by decide)]
    dsimp only
    rw [if_pos rfl, parse_elems_at w l hl n hcl d rest]
    conv => rhs; unfold fixElems
    rfl
theorem parse_members_at : ∀ (k : Bytes) (v : J) (l : List (Bytes × J)), IntsMembers ((k, v) :: l) → ∀ (n : Nat), costMembers ((k, v) :: l) ≤ n → ∀ (d : Nat) (rest : Bytes),
    parseMembers n (membersAt ind (d + 1) ((k, v) :: l) ++ (newline ind d ++ 0x7D :: rest)) = some (fixMembers ((k, v) :: l), rest)
  | k, v, l, hj, 0, hn, _, _ => by
    exfalso
    unfold costMembers at hn
    omega
  | k, v, [], hj, n + 1, hn, d, rest => by
    have hv : Ints v := by unfold IntsMembers at hj; exact hj.1
    have hc : cost v ≤ n := by unfold costMembers at hn; omega
    have he : membersAt ind (d + 1) [(k, v)] ++ (newline ind d ++ 0x7D :: rest) =
        newline ind (d + 1) ++ (quote k ++ 0x3A :: ([0x20] ++ (renderAt ind (d + 1) v ++ (newline ind d ++ 0x7D :: rest)))) := by simp [membersAt]
    obtain ⟨t, ht, hp⟩ := parse_quote k (0x3A :: ([0x20] ++ (renderAt ind (d + 1) v ++ (newline ind d ++ 0x7D :: rest))))
    rw [he, parseMembers_blank (blank_newline hi _), parseMembers_succ, ht, skipWs_cons _ (by decide)]
    dsimp only
    rw [if_pos rfl, hp]
    dsimp only
    rw [skipWs_cons _ (by decide)]
    dsimp only
    rw [if_pos rfl, parseValue_blank (w := [0x20]) (by intro b hb; cases List.mem_singleton.mp hb; decide), parse_value_at v hv n hc _ _ (ends_newline _ _ _)]
    dsimp only
    rw [skipWs_blank (blank_newline hi _), skipWs_cons _ (by decide)]
    dsimp only
    rw [if_neg (by decide), if_pos rfl]
    simp [fixMembers]
  | k, v, (k', w) :: l, hj, n + 1, hn, d, rest => by
    have hv : Ints v := by unfold IntsMembers at hj; exact hj.1
    have hl : IntsMembers ((k', w) :: l) := by rw [IntsMembers] at hj; exact hj.2
    have hc : cost v ≤ n := by unfold costMembers at hn; omega
    have hcl : costMembers ((k', w) :: l) ≤ n := by rw [costMembers] at hn; omega
    have he : membersAt ind (d + 1) ((k, v) :: (k', w) :: l) ++ (newline ind d ++ 0x7D :: rest) =
        newline ind (d + 1) ++ (quote k ++ 0x3A :: ([0x20] ++ (renderAt ind (d + 1) v ++ 0x2C :: (membersAt ind (d + 1) ((k', w) :: l) ++ (newline ind d ++ 0x7D :: rest))))) := by
      conv => lhs; rw [membersAt]
      simp
    obtain ⟨t, ht, hp⟩ := parse_quote k (0x3A :: ([0x20] ++ (renderAt ind (d + 1) v ++ 0x2C :: (membersAt ind (d + 1) ((k', w) :: l) ++ (newline ind d ++ 0x7D :: rest)))))
    rw [he, parseMembers_blank (blank_newline hi _), parseMembers_succ, ht, skipWs_cons _ (by decide)]
    dsimp only
    rw [if_pos rfl, hp]
    dsimp only
    rw [skipWs_cons _ (by decide)]
    dsimp only
    rw [if_pos rfl, parseValue_blank (w := [0x20]) (by intro b hb; cases List.mem_singleton.mp hb; decide), parse_value_at v hv n hc _ _ (ends_of (.inl rfl))]
    dsimp only
    rw [skipWs_cons _ (by decide)]
    dsimp only
    rw [if_pos rfl, parse_members_at k' w l hl n hcl d rest]
    conv => rhs; unfold fixMembers
    rfl
end

end

mutual
theorem length_at (ind : Bytes) : ∀ (j : J) (d : Nat), (render j).length ≤ (renderAt ind d j).length
  | .null, d => by unfold renderAt; exact Nat.le_refl _
  | .bool true, d => by unfold renderAt; exact Nat.le_refl _
  | .bool false, d => by unfold renderAt; exact Nat.le_refl _
  | .num lit, d => by unfold renderAt render; exact Nat.le_refl _
  | .str s, d => by unfold renderAt render; exact Nat.le_refl _
  | .arr l, d => by
    have := lengthElems_at ind l (d + 1)
    unfold renderAt render
    simp only [List.length_append, List.length_cons, List.length_nil]
    omega
  | .obj l, d => by
    have := lengthMembers_at ind l (d + 1)
    unfold renderAt render
    simp only [List.length_append, List.length_cons, List.length_nil]
    omega
theorem lengthElems_at (ind : Bytes) : ∀ (l : List J) (d : Nat), (renderElems l).length ≤ (elemsAt ind d l).length
  | [], d => by simp [renderElems]
  | [v], d => by
    have := length_at ind v d
    simp only [renderElems, elemsAt, List.length_append]
    omega
  | v :: w :: l, d => by
    have h1 := length_at ind v d
    have h2 := lengthElems_at ind (w :: l) d
    rw [elemsAt, renderElems]
    simp only [List.length_append, List.isEmpty_cons, Bool.false_eq_true, if_false, List.length_cons]
    omega
theorem lengthMembers_at (ind : Bytes) : ∀ (l : List (Bytes × J)) (d : Nat), (renderMembers l).length ≤ (membersAt ind d l).length
  | [], d => by simp [renderMembers]
  | [(k, v)], d => by
    have := length_at ind v d
    simp only [renderMembers, membersAt, List.length_append, List.length_cons]
    omega
  | (k, v) :: (k', w) :: l, d => by
    have h1 := length_at ind v d
    have h2 := lengthMembers_at ind ((k', w) :: l) d
    rw [membersAt, renderMembers]
    simp only [List.length_append, List.isEmpty_cons, Bool.false_eq_true, if_false, List.length_cons]
    omega
end

theorem parseValue_indent {ind : Bytes} (hi : Blank ind) (j : J) (h : Ints j) : parseValue (2 * (renderIndent ind j).length + 2) (renderIndent ind j) = some (fix j, []) := by
  have hc := cost_le j h
  have hl := length_at ind j 0
  have := parse_value_at hi j h (2 * (renderIndent ind j).length + 2) (by unfold renderIndent; omega) 0 [] ends_nil
  rw [List.append_nil] at this
  exact this

/-- The indented text of a value is read as that value, up to bytes that are not UTF-8. -/
theorem parse_indent {ind : Bytes} (hi : Blank ind) (j : J) (h : Ints j) : parse (renderIndent ind j) = some (fix j) := by
  unfold parse
  rw [parseValue_indent hi j h]
  rfl

/-- A part of an indented text is not read. -/
theorem cut_indent {ind : Bytes} (hi : Blank ind) {j : J} (h : Ints j) (hn : isNum j = false) {p u : Bytes} (he : p ++ u = renderIndent ind j) (hu : u ≠ []) : parse p = none := by
  have := cut_none (parseValue_indent hi j h) (by rw [isNum_fix]; exact hn) he hu
  unfold parse
  rw [this]

end Fpki.Json
