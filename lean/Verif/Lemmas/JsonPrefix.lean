import Verif.Lemmas.Json
/-! A JSON text that was cut off is not read: what the parser reads from the beginning of a text does not depend on what follows. -/
namespace Fpki.Json

open Fpki.Policy (runeWidth)

theorem nextU4_long (p q a b c d : Byte) (t : Bytes) : nextU4 (p :: q :: a :: b :: c :: d :: t) = if p = 0x5C ∧ q = 0x75 then u4 a b c d else none := by
  unfold nextU4
  split
  · rename_i h
    cases h
    rw [if_pos ⟨rfl, rfl⟩]
  · rename_i h
    rw [if_neg]
    rintro ⟨rfl, rfl⟩
    exact h a b c d t rfl

theorem nextU4_short {s : Bytes} (h : s.length < 6) : nextU4 s = none := by
  unfold nextU4
  split
  · simp at h
    omega
  · rfl

/-- What was read ended with a quote. -/
theorem parseStr_quote : ∀ (s : Bytes) (k d : Nat) (r : Bytes × Bytes), parseStr k d s = some r → 0x22 ∈ s
  | [], k, d, r, h => by
    unfold parseStr at h
    cases h
  | b :: t, k, d + 1, r, h => by
    rw [parseStr_drop] at h
    exact List.mem_cons_of_mem _ (parseStr_quote t _ _ _ h)
  | b :: t, k + 1, 0, r, h => by
    rw [parseStr_copy] at h
    obtain ⟨y, hy, _⟩ := Option.map_eq_some_iff.1 h
    exact List.mem_cons_of_mem _ (parseStr_quote t _ _ _ hy)
  | b :: t, 0, 0, r, h => by
    rw [parseStr_zero] at h
    split at h
    · rename_i hb
      simp [hb]
    · split at h
      · cases h
      · split at h
        · split at h
          · cases h
          · rename_i c t1
            split at h
            · split at h
              · split at h
                · cases h
                · split at h
                  · obtain ⟨y, hy, _⟩ := Option.map_eq_some_iff.1 h
                    exact List.mem_cons_of_mem _ (parseStr_quote _ _ _ _ hy)
                  · obtain ⟨y, hy, _⟩ := Option.map_eq_some_iff.1 h
                    exact List.mem_cons_of_mem _ (parseStr_quote _ _ _ _ hy)
              · cases h
            · split at h
              · cases h
              · obtain ⟨y, hy, _⟩ := Option.map_eq_some_iff.1 h
                exact List.mem_cons_of_mem _ (parseStr_quote _ _ _ _ hy)
        · split at h
          · obtain ⟨y, hy, _⟩ := Option.map_eq_some_iff.1 h
            exact List.mem_cons_of_mem _ (parseStr_quote _ _ _ _ hy)
          · obtain ⟨y, hy, _⟩ := Option.map_eq_some_iff.1 h
            exact List.mem_cons_of_mem _ (parseStr_quote _ _ _ _ hy)

theorem rune_high {a : Byte} {r : Bytes} (h : Rune (a :: r)) : ∀ c ∈ r, c ≠ 0x22 := by
  have hcont : ∀ c : Byte, Policy.between 0x80 0xBF c = true → c ≠ 0x22 := fun c => forall_byte (P := fun c => Policy.between 0x80 0xBF c = true → c ≠ 0x22) (by decide +kernel) c
  have hnot : ∀ (n : Nat) (s : Bytes), runeWidth (a :: s) = n + 2 → ¬ a < 0x80 → s[0]? ≠ some 0x22 ∧ (1 ≤ n → s[1]? ≠ some 0x22) ∧ (2 ≤ n → s[2]? ≠ some 0x22) := by
    intro n s hw ha
    unfold runeWidth at hw
    dsimp only at hw
    rw [if_neg ha] at hw
    have h22 : Policy.between 0x80 0xBF 0x22 = false ∧ Policy.between 0xA0 0xBF 0x22 = false ∧ Policy.between 0x80 0x9F 0x22 = false ∧ Policy.between 0x90 0xBF 0x22 = false ∧ Policy.between 0x80 0x8F 0x22 = false := by decide
    refine ⟨?_, ?_, ?_⟩
    · intro h0
      rw [h0] at hw
      simp [h22] at hw
    · intro hn h1
      rw [h1] at hw
      simp only [Option.any_some, h22.1, Bool.and_false, Bool.false_and, Bool.false_eq_true, if_false] at hw
      split at hw <;> omega
    · intro hn h2
      rw [h2] at hw
      simp only [Option.any_some, h22.1, Bool.and_false, Bool.false_eq_true, if_false] at hw
      split at hw
      · omega
      · split at hw <;> omega
  cases h with
  | two h ha =>
    have := hnot 0 _ (h []) ha
    intro c hc
    simp at hc
    subst hc
    intro e
    subst e
    exact this.1 rfl
  | three h ha =>
    have := hnot 1 _ (h []) ha
    intro c hc
    simp at hc
    rintro rfl
    rcases hc with rfl | rfl
    · exact this.1 rfl
    · exact this.2.1 (by omega) rfl
  | four h ha =>
    have := hnot 2 _ (h []) ha
    intro c hc
    simp at hc
    rintro rfl
    rcases hc with rfl | rfl | rfl
    · exact this.1 rfl
    · exact this.2.1 (by omega) rfl
    · exact this.2.2 (by omega) rfl

/-- The width of a rune does not depend on what follows, if there is a quote in between. -/
theorem runeWidth_ext (b : Byte) (t u : Bytes) (h : 0x22 ∈ t) : runeWidth (b :: (t ++ u)) = runeWidth (b :: t) := by
  by_cases hb : b < 0x80
  · rw [width_ascii hb, width_ascii hb]
  · cases hw : runeWidth (b :: t) with
    | succ n =>
      obtain ⟨r, t', rfl, hr, hrune⟩ := rune_of_width hb hw
      rw [List.append_assoc, (rune_width hrune _).1, hr]
    | zero =>
      cases hw' : runeWidth (b :: (t ++ u)) with
      | zero => rfl
      | succ n =>
        obtain ⟨r, t', he, hr, hrune⟩ := rune_of_width hb hw'
        exfalso
        rcases List.append_eq_append_iff.1 he with ⟨x, h1, _⟩ | ⟨x, h1, _⟩
        · rw [h1] at hrune
          exact rune_high hrune 0x22 (by simp [h]) rfl
        · rw [h1, (rune_width hrune _).1] at hw
          omega

/-- The escape that follows does not depend on what follows the string. -/
theorem nextU4_ext (rest u : Bytes) (r : Bytes × Bytes) (h : parseStr 0 0 rest = some r) : nextU4 (rest ++ u) = nextU4 rest := by
  match rest, h with
  | p :: q :: a :: b :: c :: d :: t, _ =>
    rw [nextU4_long]
    exact nextU4_long p q a b c d (t ++ u)
  | [], h => unfold parseStr at h; cases h
  | [p], h =>
    rw [nextU4_short (by simp : [p].length < 6)]
    rw [parseStr_zero] at h
    have hp : p ≠ 0x5C := by
      rintro rfl
      rw [if_neg (by decide), if_neg (by decide), if_pos rfl] at h
      cases h
    match u with
    | q :: a :: b :: c :: d :: t => exact (nextU4_long p q a b c d t).trans (if_neg (fun e => hp e.1))
    | [] => exact nextU4_short (by simp)
    | [_] => exact nextU4_short (by simp)
    | [_, _] => exact nextU4_short (by simp)
    | [_, _, _] => exact nextU4_short (by simp)
    | [_, _, _, _] => exact nextU4_short (by simp)
  | p :: q :: s, h =>
    by_cases hl : s.length < 4
    · rw [nextU4_short (by simp; omega : (p :: q :: s).length < 6)]
      have hpq : ¬ (p = 0x5C ∧ q = 0x75) := by
        rintro ⟨rfl, rfl⟩
        rw [parseStr_zero, if_neg (by decide), if_neg (by decide), if_pos rfl] at h
        dsimp only at h
        rw [if_pos rfl] at h
        match s, hl, h with
        | [], _, h => cases h
        | [_], _, h => cases h
        | [_, _], _, h => cases h
        | [_, _, _], _, h => cases h
        | _ :: _ :: _ :: _ :: _, hl, _ => simp at hl; omega
      have : ∀ w : Bytes, nextU4 (p :: q :: w) = none := by
        intro w
        match w with
        | a :: b :: c :: d :: t => rw [nextU4_long, if_neg hpq]
        | [] => exact nextU4_short (by simp)
        | [_] => exact nextU4_short (by simp)
        | [_, _] => exact nextU4_short (by simp)
        | [_, _, _] => exact nextU4_short (by simp)
      exact this (s ++ u)
    · match s, hl with
      | a :: b :: c :: d :: t, _ =>
        rw [nextU4_long]
        exact nextU4_long p q a b c d (t ++ u)
      | [], hl => simp at hl
      | [_], hl => simp at hl
      | [_, _], hl => simp at hl
      | [_, _, _], hl => simp at hl

/-- A string that was read does not depend on what follows. -/
theorem parseStr_ext (u : Bytes) : ∀ (s : Bytes) (k d : Nat) (x t : Bytes), parseStr k d s = some (x, t) → parseStr k d (s ++ u) = some (x, t ++ u)
  | [], k, d, x, t, h => by
    unfold parseStr at h
    cases h
  | b :: s, k, d + 1, x, t, h => by
    rw [parseStr_drop] at h
    rw [List.cons_append, parseStr_drop]
    exact parseStr_ext u s _ _ _ _ h
  | b :: s, k + 1, 0, x, t, h => by
    rw [parseStr_copy] at h
    rw [List.cons_append, parseStr_copy]
    obtain ⟨⟨y1, y2⟩, hy, he⟩ := Option.map_eq_some_iff.1 h
    rw [parseStr_ext u s _ _ _ _ hy]
    cases he
    rfl
  | b :: s, 0, 0, x, t, h => by
    rw [parseStr_zero] at h
    rw [List.cons_append, parseStr_zero]
    by_cases h1 : b = 0x22
    · rw [if_pos h1] at h ⊢
      cases h
      rfl
    · rw [if_neg h1] at h ⊢
      by_cases h2 : b < 0x20
      · rw [if_pos h2] at h
        cases h
      · rw [if_neg h2] at h ⊢
        by_cases h3 : b = 0x5C
        · rw [if_pos h3] at h ⊢
          match s, h with
          | [], h => cases h
          | c :: t1, h =>
            dsimp only [List.cons_append] at h ⊢
            by_cases h4 : c = 0x75
            · rw [if_pos h4] at h ⊢
              match t1, h with
              | [], h => cases h
              | [_], h => cases h
              | [_, _], h => cases h
              | [_, _, _], h => cases h
              | x' :: y :: z :: w :: rest, h =>
                dsimp only [List.cons_append] at h ⊢
                cases hu : u4 x' y z w with
                | none => rw [hu] at h; cases h
                | some r =>
                  rw [hu] at h
                  dsimp only at h ⊢
                  have hnext : nextU4 (rest ++ u) = nextU4 rest := by
                    cases hn : nextU4 rest with
                    | some r1 =>
                      match rest, hn with
                      | p :: q :: a :: b :: c :: d :: t, hn =>
                        rw [nextU4_long] at hn
                        exact (nextU4_long p q a b c d (t ++ u)).trans hn
                      | [], hn => rw [nextU4_short (by simp)] at hn; cases hn
                      | [_], hn => rw [nextU4_short (by simp)] at hn; cases hn
                      | [_, _], hn => rw [nextU4_short (by simp)] at hn; cases hn
                      | [_, _, _], hn => rw [nextU4_short (by simp)] at hn; cases hn
                      | [_, _, _, _], hn => rw [nextU4_short (by simp)] at hn; cases hn
                      | [_, _, _, _, _], hn => rw [nextU4_short (by simp)] at hn; cases hn
                    | none =>
                      have hf : (unicodeEscape r none).2 = false := by
                        unfold unicodeEscape
                        split <;> rfl
                      rw [hn, hf, if_neg (by simp)] at h
                      obtain ⟨y', hy, _⟩ := Option.map_eq_some_iff.1 h
                      rw [parseStr_drop, parseStr_drop, parseStr_drop, parseStr_drop, parseStr_drop] at hy
                      rw [nextU4_ext rest u _ hy, hn]
                  rw [hnext]
                  split at h
                  · obtain ⟨⟨y1, y2⟩, hy, he⟩ := Option.map_eq_some_iff.1 h
                    have := parseStr_ext u _ _ _ _ _ hy
                    simp only [List.cons_append] at this
                    rename_i hc
                    rw [if_pos hc, this]
                    cases he
                    rfl
                  · obtain ⟨⟨y1, y2⟩, hy, he⟩ := Option.map_eq_some_iff.1 h
                    have := parseStr_ext u _ _ _ _ _ hy
                    simp only [List.cons_append] at this
                    rename_i hc
                    rw [if_neg hc, this]
                    cases he
                    rfl
            · rw [if_neg h4] at h ⊢
              cases hse : simpleEscape c with
              | none => rw [hse] at h; cases h
              | some e =>
                rw [hse] at h
                dsimp only at h ⊢
                obtain ⟨⟨y1, y2⟩, hy, he⟩ := Option.map_eq_some_iff.1 h
                have := parseStr_ext u _ _ _ _ _ hy
                simp only [List.cons_append] at this
                rw [this]
                cases he
                rfl
        · rw [if_neg h3] at h ⊢
          have hq : 0x22 ∈ s := by
            split at h
            · obtain ⟨y, hy, _⟩ := Option.map_eq_some_iff.1 h
              exact parseStr_quote _ _ _ _ hy
            · obtain ⟨y, hy, _⟩ := Option.map_eq_some_iff.1 h
              exact parseStr_quote _ _ _ _ hy
          rw [runeWidth_ext b s u hq]
          cases hw : runeWidth (b :: s) with
          | zero =>
            rw [hw] at h
            dsimp only at h ⊢
            obtain ⟨⟨y1, y2⟩, hy, he⟩ := Option.map_eq_some_iff.1 h
            rw [parseStr_ext u _ _ _ _ _ hy]
            cases he
            rfl
          | succ n =>
            rw [hw] at h
            dsimp only at h ⊢
            obtain ⟨⟨y1, y2⟩, hy, he⟩ := Option.map_eq_some_iff.1 h
            rw [parseStr_ext u _ _ _ _ _ hy]
            cases he
            rfl

theorem dropWhile_ext {p : Byte → Bool} {s u : Bytes} (h : s.dropWhile p ≠ []) : (s ++ u).dropWhile p = s.dropWhile p ++ u ∧ (s ++ u).takeWhile p = s.takeWhile p := by
  induction s with
  | nil => exact absurd rfl h
  | cons b s ih =>
    rw [List.dropWhile_cons] at h
    rw [List.cons_append, List.dropWhile_cons, List.dropWhile_cons, List.takeWhile_cons, List.takeWhile_cons]
    split at h
    · rename_i hb
      rw [if_pos hb, if_pos hb, if_pos hb, if_pos hb, (ih h).1, (ih h).2]
      exact ⟨rfl, rfl⟩
    · rename_i hb
      rw [if_neg hb, if_neg hb, if_neg hb, if_neg hb]
      exact ⟨rfl, rfl⟩

theorem skipWs_ext {s : Bytes} {b : Byte} {t : Bytes} (u : Bytes) (h : skipWs s = b :: t) : skipWs (s ++ u) = b :: (t ++ u) := by
  unfold skipWs at h ⊢
  rw [(dropWhile_ext (p := space) (s := s) (u := u) (by rw [h]; simp)).1, h]
  rfl

theorem parseInt_ext {s i t : Bytes} (u : Bytes) (h : parseInt s = some (i, t)) (ht : t ≠ []) : parseInt (s ++ u) = some (i, t ++ u) := by
  cases s with
  | nil => cases h
  | cons b s =>
    unfold parseInt at h
    rw [List.cons_append]
    unfold parseInt
    dsimp only at h ⊢
    split at h
    · rename_i hb
      rw [if_pos hb]
      cases h
      rfl
    · rename_i hb
      rw [if_neg hb]
      split at h
      · rename_i hd
        rw [if_pos hd]
        cases h
        obtain ⟨h1, h2⟩ := dropWhile_ext (u := u) ht
        rw [h1, h2]
      · cases h

theorem parseFrac_cons (b : Byte) (t : Bytes) : parseFrac (b :: t) = if b = 0x2E then (if (t.takeWhile digit).isEmpty then none else some (0x2E :: t.takeWhile digit, t.dropWhile digit)) else some ([], b :: t) := by
  unfold parseFrac
  split
  · rename_i h
    cases h
    rw [if_pos rfl]
  · rename_i h
    rw [if_neg]
    rintro rfl
    exact h t rfl

theorem parseFrac_ext {s f t : Bytes} (u : Bytes) (hs : s ≠ []) (h : parseFrac s = some (f, t)) (ht : t ≠ []) : parseFrac (s ++ u) = some (f, t ++ u) := by
  cases s with
  | nil => exact absurd rfl hs
  | cons b s =>
    rw [parseFrac_cons] at h
    rw [List.cons_append, parseFrac_cons]
    split at h
    · rename_i hb
      rw [if_pos hb]
      split at h
      · cases h
      · rename_i he
        cases h
        obtain ⟨h1, h2⟩ := dropWhile_ext (u := u) ht
        rw [h1, h2, if_neg he]
    · rename_i hb
      rw [if_neg hb]
      cases h
      rfl

theorem parseExp_ext {s e t : Bytes} (u : Bytes) (hs : s ≠ []) (h : parseExp s = some (e, t)) (ht : t ≠ []) : parseExp (s ++ u) = some (e, t ++ u) := by
  cases s with
  | nil => exact absurd rfl hs
  | cons b s =>
    unfold parseExp at h
    rw [List.cons_append]
    unfold parseExp
    dsimp only at h ⊢
    split at h
    · rename_i hb
      rw [if_pos hb]
      cases s with
      | nil => cases h
      | cons c s =>
        rw [List.cons_append]
        dsimp only at h ⊢
        split at h
        · rename_i hc
          rw [if_pos hc]
          split at h
          · cases h
          · rename_i he
            cases h
            obtain ⟨h1, h2⟩ := dropWhile_ext (u := u) ht
            rw [h1, h2, if_neg he]
        · rename_i hc
          rw [if_neg hc]
          split at h
          · cases h
          · rename_i he
            cases h
            obtain ⟨h1, h2⟩ := dropWhile_ext (u := u) ht
            rw [List.cons_append] at h1 h2
            rw [h1, h2, if_neg he]
    · rename_i hb
      rw [if_neg hb]
      cases h
      rfl

theorem parseNum_ext {s l t : Bytes} (u : Bytes) (h : parseNum s = some (l, t)) (ht : t ≠ []) : parseNum (s ++ u) = some (l, t ++ u) := by
  cases s with
  | nil => cases h
  | cons b s =>
    unfold parseNum at h
    dsimp only at h
    split at h
    · cases h
    · rename_i i t1 hi
      split at h
      · cases h
      · rename_i f t2 hf
        split at h
        · cases h
        · rename_i e t3 hexp
          cases h
          have h2 : t2 ≠ [] := by
            rintro rfl
            unfold parseExp at hexp
            cases hexp
            exact ht rfl
          have h1 : t1 ≠ [] := by
            rintro rfl
            unfold parseFrac at hf
            cases hf
            exact h2 rfl
          unfold parseNum
          dsimp only
          rw [List.cons_append, List.head?_cons]
          rw [List.head?_cons] at hi
          have hdrop : ((b :: (s ++ u)).drop (if some b = some (0x2D : Byte) then ([0x2D] : Bytes) else []).length) = ((b :: s).drop (if some b = some (0x2D : Byte) then ([0x2D] : Bytes) else []).length) ++ u := by
            split <;> rfl
          rw [hdrop, parseInt_ext u hi h1]
          dsimp only
          rw [parseFrac_ext u h1 hf h2]
          dsimp only
          rw [parseExp_ext u h2 hexp ht]
          rfl

theorem take_ext {s w : Bytes} (u : Bytes) {n : Nat} (h : s.take n = w) (hn : w.length = n) : (s ++ u).take n = w ∧ (s ++ u).drop n = s.drop n ++ u := by
  have hl : n ≤ s.length := by
    rw [← h, List.length_take] at hn
    omega
  exact ⟨by rw [List.take_append_of_le_length hl, h], List.drop_append_of_le_length hl⟩

def isNum : J → Bool
  | .num _ => true
  | _ => false

/-- What was read does not depend on what follows, nor on the bound (a number may go on at the end of the text). -/
theorem parse_ext (u : Bytes) : ∀ n : Nat,
    (∀ s v t, parseValue n s = some (v, t) → (t ≠ [] ∨ isNum v = false) → ∀ m, n ≤ m → parseValue m (s ++ u) = some (v, t ++ u)) ∧
    (∀ s l t, parseElems n s = some (l, t) → ∀ m, n ≤ m → parseElems m (s ++ u) = some (l, t ++ u)) ∧
    (∀ s l t, parseMembers n s = some (l, t) → ∀ m, n ≤ m → parseMembers m (s ++ u) = some (l, t ++ u))
  | 0 => by
    refine ⟨?_, ?_, ?_⟩
    · intro s v t h
      unfold parseValue at h
      cases h
    · intro s v t h
      unfold parseElems at h
      cases h
    · intro s v t h
      unfold parseMembers at h
      cases h
  | n + 1 => by
    obtain ⟨iv, ie, im⟩ := parse_ext u n
    refine ⟨?_, ?_, ?_⟩
    · intro s v t h hv m hm
      obtain ⟨m, rfl⟩ : ∃ k, m = k + 1 := ⟨m - 1, by omega⟩
      rw [parseValue_succ] at h ⊢
      cases hs : skipWs s with
      | nil => rw [hs] at h; cases h
      | cons b s1 =>
        rw [hs] at h
        rw [skipWs_ext u hs]
        dsimp only at h ⊢
        by_cases h1 : b = 0x22
        · rw [if_pos h1] at h ⊢
          obtain ⟨⟨y1, y2⟩, hy, he⟩ := Option.map_eq_some_iff.1 h
          rw [parseStr_ext u _ _ _ _ _ hy]
          cases he
          rfl
        · rw [if_neg h1] at h ⊢
          by_cases h2 : b = 0x5B
          · rw [if_pos h2] at h ⊢
            cases hs1 : skipWs s1 with
            | nil => rw [hs1] at h; cases h
            | cons c s2 =>
              rw [hs1] at h
              rw [skipWs_ext u hs1]
              dsimp only at h ⊢
              split at h
              · rename_i hc
                rw [if_pos hc]
                cases h
                rfl
              · rename_i hc
                rw [if_neg hc]
                obtain ⟨⟨y1, y2⟩, hy, he⟩ := Option.map_eq_some_iff.1 h
                rw [ie _ _ _ hy m (by omega)]
                cases he
                rfl
          · rw [if_neg h2] at h ⊢
            by_cases h3 : b = 0x7B
            · rw [if_pos h3] at h ⊢
              cases hs1 : skipWs s1 with
              | nil => rw [hs1] at h; cases h
              | cons c s2 =>
                rw [hs1] at h
                rw [skipWs_ext u hs1]
                dsimp only at h ⊢
                split at h
                · rename_i hc
                  rw [if_pos hc]
                  cases h
                  rfl
                · rename_i hc
                  rw [if_neg hc]
                  obtain ⟨⟨y1, y2⟩, hy, he⟩ := Option.map_eq_some_iff.1 h
                  rw [im _ _ _ hy m (by omega)]
                  cases he
                  rfl
            · rw [if_neg h3] at h ⊢
              by_cases h4 : b = 0x74
              · rw [if_pos h4] at h ⊢
                split at h
                · rename_i ht
                  obtain ⟨e1, e2⟩ := take_ext u ht rfl
                  rw [if_pos e1, e2]
                  cases h
                  rfl
                · cases h
              · rw [if_neg h4] at h ⊢
                by_cases h5 : b = 0x66
                · rw [if_pos h5] at h ⊢
                  split at h
                  · rename_i ht
                    obtain ⟨e1, e2⟩ := take_ext u ht rfl
                    rw [if_pos e1, e2]
                    cases h
                    rfl
                  · cases h
                · rw [if_neg h5] at h ⊢
                  by_cases h6 : b = 0x6E
                  · rw [if_pos h6] at h ⊢
                    split at h
                    · rename_i ht
                      obtain ⟨e1, e2⟩ := take_ext u ht rfl
                      rw [if_pos e1, e2]
                      cases h
                      rfl
                    · cases h
                  · rw [if_neg h6] at h ⊢
                    obtain ⟨⟨y1, y2⟩, hy, he⟩ := Option.map_eq_some_iff.1 h
                    cases he
                    have ht : y2 ≠ [] := by
                      rcases hv with h | h
                      · exact h
                      · cases h
                    have := parseNum_ext u hy ht
                    rw [List.cons_append] at this
                    rw [this]
                    rfl
    · intro s l t h m hm
      obtain ⟨m, rfl⟩ : ∃ k, m = k + 1 := ⟨m - 1, by omega⟩
      rw [parseElems_succ] at h ⊢
      cases hv : parseValue n s with
      | none => rw [hv] at h; cases h
      | some y =>
        obtain ⟨v, t1⟩ := y
        rw [hv] at h
        dsimp only at h
        cases hs : skipWs t1 with
        | nil => rw [hs] at h; cases h
        | cons c t2 =>
          rw [hs] at h
          have ht1 : t1 ≠ [] := by
            rintro rfl
            cases hs
          rw [iv _ _ _ hv (Or.inl ht1) m (by omega)]
          dsimp only at h ⊢
          rw [skipWs_ext u hs]
          dsimp only
          split at h
          · rename_i hc
            rw [if_pos hc]
            obtain ⟨⟨y1, y2⟩, hy, he⟩ := Option.map_eq_some_iff.1 h
            rw [ie _ _ _ hy m (by omega)]
            cases he
            rfl
          · rename_i hc
            rw [if_neg hc]
            split at h
            · rename_i hc2
              rw [if_pos hc2]
              cases h
              rfl
            · cases h
    · intro s l t h m hm
      obtain ⟨m, rfl⟩ : ∃ k, m = k + 1 := ⟨m - 1, by omega⟩
      rw [parseMembers_succ] at h ⊢
      cases hs0 : skipWs s with
      | nil => rw [hs0] at h; cases h
      | cons q s1 =>
        rw [hs0] at h
        rw [skipWs_ext u hs0]
        dsimp only at h ⊢
        split at h
        · rename_i hq
          rw [if_pos hq]
          cases hk : parseStr 0 0 s1 with
          | none => rw [hk] at h; cases h
          | some y =>
            obtain ⟨k, s2⟩ := y
            rw [hk] at h
            rw [parseStr_ext u _ _ _ _ _ hk]
            dsimp only at h ⊢
            cases hs2 : skipWs s2 with
            | nil => rw [hs2] at h; cases h
            | cons c s3 =>
              rw [hs2] at h
              rw [skipWs_ext u hs2]
              dsimp only at h ⊢
              split at h
              · rename_i hc
                rw [if_pos hc]
                cases hv : parseValue n s3 with
                | none => rw [hv] at h; cases h
                | some y =>
                  obtain ⟨v, t1⟩ := y
                  rw [hv] at h
                  dsimp only at h
                  cases hs : skipWs t1 with
                  | nil => rw [hs] at h; cases h
                  | cons c t2 =>
                    rw [hs] at h
                    have ht1 : t1 ≠ [] := by
                      rintro rfl
                      cases hs
                    rw [iv _ _ _ hv (Or.inl ht1) m (by omega)]
                    dsimp only at h ⊢
                    rw [skipWs_ext u hs]
                    dsimp only
                    split at h
                    · rename_i hc
                      rw [if_pos hc]
                      obtain ⟨⟨y1, y2⟩, hy, he⟩ := Option.map_eq_some_iff.1 h
                      rw [im _ _ _ hy m (by omega)]
                      cases he
                      rfl
                    · rename_i hc
                      rw [if_neg hc]
                      split at h
                      · rename_i hc2
                        rw [if_pos hc2]
                        cases h
                        rfl
                      · cases h
              · cases h
        · cases h

/-- A text whose value (which is not a number) ends with the text is not read when it was cut off. -/
theorem cut_none {x p u : Bytes} {v : J} (hx : parseValue (2 * x.length + 2) x = some (v, [])) (hv : isNum v = false) (he : p ++ u = x) (hu : u ≠ []) :
    parseValue (2 * p.length + 2) p = none := by
  cases h : parseValue (2 * p.length + 2) p with
  | none => rfl
  | some y =>
    exfalso
    obtain ⟨w, t⟩ := y
    have hm : 2 * p.length + 2 ≤ 2 * x.length + 2 := by
      rw [← he, List.length_append]
      omega
    by_cases hw : t ≠ [] ∨ isNum w = false
    · have := (parse_ext u _).1 p w t h hw _ hm
      rw [he, hx] at this
      simp only [Option.some.injEq, Prod.mk.injEq] at this
      exact hu (List.append_eq_nil_iff.1 this.2.symm).2
    · have hn : isNum w = true := by
        cases hc : isNum w with
        | true => rfl
        | false => exact absurd (Or.inr hc) hw
      rw [parseValue_succ] at h hx
      cases hs : skipWs p with
      | nil => rw [hs] at h; cases h
      | cons b s1 =>
        rw [hs] at h
        rw [← he, skipWs_ext u hs] at hx
        dsimp only at h hx
        by_cases h1 : b = 0x22
        · rw [if_pos h1] at h
          obtain ⟨_, _, e⟩ := Option.map_eq_some_iff.1 h
          cases e
          cases hn
        rw [if_neg h1] at h hx
        by_cases h2 : b = 0x5B
        · rw [if_pos h2] at h
          split at h
          · cases h
          · split at h
            · cases h
              cases hn
            · obtain ⟨_, _, e⟩ := Option.map_eq_some_iff.1 h
              cases e
              cases hn
        rw [if_neg h2] at h hx
        by_cases h3 : b = 0x7B
        · rw [if_pos h3] at h
          split at h
          · cases h
          · split at h
            · cases h
              cases hn
            · obtain ⟨_, _, e⟩ := Option.map_eq_some_iff.1 h
              cases e
              cases hn
        rw [if_neg h3] at h hx
        by_cases h4 : b = 0x74
        · rw [if_pos h4] at h
          split at h
          · cases h
            cases hn
          · cases h
        rw [if_neg h4] at h hx
        by_cases h5 : b = 0x66
        · rw [if_pos h5] at h
          split at h
          · cases h
            cases hn
          · cases h
        rw [if_neg h5] at h hx
        by_cases h6 : b = 0x6E
        · rw [if_pos h6] at h
          split at h
          · cases h
            cases hn
          · cases h
        rw [if_neg h6] at hx
        obtain ⟨y, _, e⟩ := Option.map_eq_some_iff.1 hx
        simp only [Prod.mk.injEq] at e
        rw [← e.1] at hv
        cases hv

theorem isNum_fix (j : J) : isNum (fix j) = isNum j := by
  cases j <;> simp [fix, isNum]

/-- The text of a value that is not a number, cut off: not a JSON text, nor the beginning of one with a value. -/
theorem cut_render {j : J} (hi : Ints j) (hn : isNum j = false) {p u : Bytes} (he : p ++ u = render j) (hu : u ≠ []) : parseValue (2 * p.length + 2) p = none ∧ parse p = none := by
  have hc := cost_le j hi
  have hx := parse_value j hi (2 * (render j).length + 2) (by omega) [] ends_nil
  rw [List.append_nil] at hx
  have := cut_none hx (by rw [isNum_fix]; exact hn) he hu
  refine ⟨this, ?_⟩
  unfold parse
  rw [this]

end Fpki.Json
