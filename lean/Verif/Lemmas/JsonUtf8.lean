import Verif.Lemmas.JsonIndent
/-! What the JSON library reads is UTF-8. -/
namespace Fpki.Json
open Fpki.Policy

/-- The bytes of whole runes. -/
def Chunk (c : Bytes) : Prop := ∀ x, fixUtf8 (c ++ x) = c ++ fixUtf8 x

theorem chunk_ascii {b : Byte} (h : b < 0x80) : Chunk [b] := by
  intro x
  show fixUtf8From 0 (b :: x) = b :: fixUtf8From 0 x
  rw [fixUtf8From_zero, width_ascii h]

theorem chunk_rune {a : Byte} {r : Bytes} (h : Rune (a :: r)) : Chunk (a :: r) := by
  intro x
  show fixUtf8From 0 (a :: (r ++ x)) = a :: (r ++ fixUtf8From 0 x)
  rw [fixUtf8From_zero, (rune_width h x).1]
  dsimp only
  rw [fixUtf8From_app]

theorem toNat_small {n : Nat} (h : n < 256) : (UInt8.ofNat n).toNat = n := by
  rw [UInt8.toNat_ofNat']
  exact Nat.mod_eq_of_lt h

theorem chunk_encodeRune {r : Nat} (h : r < 0x110000) (hs : surrogate r = false) : Chunk (encodeRune r) := by
  have hs' : ¬ (0xD800 ≤ r ∧ r < 0xE000) := by
    intro h'
    unfold surrogate at hs
    simp [h'.1, h'.2] at hs
  unfold encodeRune
  split
  · rename_i h1
    exact chunk_ascii (by rw [UInt8.lt_iff_toNat_lt, toNat_small (by omega)]; exact h1)
  · rename_i h1
    split
    · rename_i h2
      have ha := toNat_small (n := 0xC0 + r / 64) (by omega)
      have hb := toNat_small (n := 0x80 + r % 64) (by omega)
      generalize UInt8.ofNat (0xC0 + r / 64) = a at *
      generalize UInt8.ofNat (0x80 + r % 64) = b at *
      have hn : ¬ a < 0x80 := by rw [UInt8.lt_iff_toNat_lt, ha, show (0x80 : Byte).toNat = 128 from rfl]; omega
      refine chunk_rune (Rune.two (fun t => ?_) hn)
      rw [runeWidth]
      rw [if_neg hn, if_pos]
      simp only [between, List.getElem?_cons_zero, Option.any_some, Bool.and_eq_true, decide_eq_true_eq, UInt8.le_iff_toNat_le, ha, hb]
      refine ⟨⟨?_, ?_⟩, ?_, ?_⟩ <;> (simp only [UInt8.reduceToNat]; omega)
    · rename_i h2
      split
      · rename_i h3
        have ha := toNat_small (n := 0xE0 + r / 4096) (by omega)
        have hb := toNat_small (n := 0x80 + r / 64 % 64) (by omega)
        have hc := toNat_small (n := 0x80 + r % 64) (by omega)
        generalize UInt8.ofNat (0xE0 + r / 4096) = a at *
        generalize UInt8.ofNat (0x80 + r / 64 % 64) = b at *
        generalize UInt8.ofNat (0x80 + r % 64) = c at *
        have hn : ¬ a < 0x80 := by rw [UInt8.lt_iff_toNat_lt, ha, show (0x80 : Byte).toNat = 128 from rfl]; omega
        refine chunk_rune (Rune.three (fun t => ?_) hn)
        rw [runeWidth]
        rw [if_neg hn, if_neg, if_pos]
        · simp only [between, List.getElem?_cons_zero, List.getElem?_cons_succ, Option.any_some, Bool.and_eq_true, Bool.or_eq_true, beq_iff_eq, decide_eq_true_eq, UInt8.le_iff_toNat_le, ← UInt8.toNat_inj, ha, hb, hc, UInt8.reduceToNat]
          omega
        · simp only [between, List.getElem?_cons_zero, List.getElem?_cons_succ, Option.any_some, Bool.and_eq_true, Bool.or_eq_true, beq_iff_eq, decide_eq_true_eq, UInt8.le_iff_toNat_le, ← UInt8.toNat_inj, ha, hb, hc, UInt8.reduceToNat]
          omega
      · rename_i h3
        have ha := toNat_small (n := 0xF0 + r / 262144) (by omega)
        have hb := toNat_small (n := 0x80 + r / 4096 % 64) (by omega)
        have hc := toNat_small (n := 0x80 + r / 64 % 64) (by omega)
        have hd := toNat_small (n := 0x80 + r % 64) (by omega)
        generalize UInt8.ofNat (0xF0 + r / 262144) = a at *
        generalize UInt8.ofNat (0x80 + r / 4096 % 64) = b at *
        generalize UInt8.ofNat (0x80 + r / 64 % 64) = c at *
        generalize UInt8.ofNat (0x80 + r % 64) = d at *
        have hn : ¬ a < 0x80 := by rw [UInt8.lt_iff_toNat_lt, ha, show (0x80 : Byte).toNat = 128 from rfl]; omega
        refine chunk_rune (Rune.four (fun t => ?_) hn)
        rw [runeWidth]
        rw [if_neg hn, if_neg, if_neg, if_pos]
        · simp only [between, List.getElem?_cons_zero, List.getElem?_cons_succ, Option.any_some, Bool.and_eq_true, Bool.or_eq_true, beq_iff_eq, decide_eq_true_eq, UInt8.le_iff_toNat_le, ← UInt8.toNat_inj, ha, hb, hc, hd, UInt8.reduceToNat]
          omega
        · simp only [between, List.getElem?_cons_zero, List.getElem?_cons_succ, Option.any_some, Bool.and_eq_true, Bool.or_eq_true, beq_iff_eq, decide_eq_true_eq, UInt8.le_iff_toNat_le, ← UInt8.toNat_inj, ha, hb, hc, hd, UInt8.reduceToNat]
          omega
        · simp only [between, List.getElem?_cons_zero, List.getElem?_cons_succ, Option.any_some, Bool.and_eq_true, Bool.or_eq_true, beq_iff_eq, decide_eq_true_eq, UInt8.le_iff_toNat_le, ← UInt8.toNat_inj, ha, hb, hc, hd, UInt8.reduceToNat]
          omega

theorem chunk_replacement : Chunk [0xEF, 0xBF, 0xBD] := by
  have := chunk_encodeRune (r := 0xFFFD) (by decide) (by decide)
  exact this

theorem hexValue_lt {c : Byte} {n : Nat} (h : hexValue c = some n) : n < 16 := by
  refine forall_byte (P := fun c => ∀ n, hexValue c = some n → n < 16) ?_ c n h
  intro i n h
  have hall : ∀ i : Fin 256, ((hexValue (UInt8.ofNat i.val)).all (fun n => decide (n < 16))) = true := by decide +kernel
  have := hall i
  rw [h] at this
  simpa using this

theorem u4_lt {a b c d : Byte} {r : Nat} (h : u4 a b c d = some r) : r < 0x10000 := by
  unfold u4 at h
  split at h
  · rename_i ha hb hc hd
    have := hexValue_lt ha
    have := hexValue_lt hb
    have := hexValue_lt hc
    have := hexValue_lt hd
    cases h
    omega
  · cases h

theorem chunk_escape {r : Nat} (hr : r < 0x10000) (next : Option Nat) : Chunk (unicodeEscape r next).1 := by
  unfold unicodeEscape
  split
  · rename_i hs
    unfold surrogate at hs
    simp only [Bool.and_eq_true, decide_eq_true_eq] at hs
    split
    · split
      · rename_i r1 h1
        have hlt : 0x10000 + (r - 0xD800) * 1024 + (r1 - 0xDC00) < 0x110000 := by omega
        have hge : 0x10000 ≤ 0x10000 + (r - 0xD800) * 1024 + (r1 - 0xDC00) := by omega
        dsimp only
        generalize 0x10000 + (r - 0xD800) * 1024 + (r1 - 0xDC00) = q at hlt hge ⊢
        refine chunk_encodeRune hlt ?_
        unfold surrogate
        simp only [Bool.and_eq_false_iff, decide_eq_false_iff_not]
        omega
      · exact chunk_replacement
    · exact chunk_replacement
  · rename_i hs
    exact chunk_encodeRune (by omega) (by simpa using hs)

theorem valid_chunk {c x : Bytes} (h : Chunk c) (hx : fixUtf8 x = x) : fixUtf8 (c ++ x) = c ++ x := by rw [h, hx]

theorem simpleEscape_ascii {c e : Byte} (h : simpleEscape c = some e) : e < 0x80 := by
  unfold simpleEscape at h
  repeat' split at h
  all_goals first
    | (rename_i h1; rcases h1 with rfl | rfl | rfl <;> (cases h; decide))
    | (cases h; decide)
    | cases h

theorem parseStr_drops : ∀ (d : Nat) (s : Bytes) (x t : Bytes), parseStr 0 d s = some (x, t) → parseStr 0 0 (s.drop d) = some (x, t)
  | 0, s, x, t, h => h
  | d + 1, [], x, t, h => by unfold parseStr at h; cases h
  | d + 1, b :: s, x, t, h => by
    rw [parseStr_drop] at h
    exact parseStr_drops d s x t h

/-- Every string that is read is UTF-8. -/
theorem parseStr_utf8 : ∀ (n : Nat) (s x t : Bytes), s.length ≤ n → parseStr 0 0 s = some (x, t) → fixUtf8 x = x
  | _, [], x, t, _, h => by unfold parseStr at h; cases h
  | 0, _ :: _, _, _, hn, _ => by simp at hn
  | n + 1, b :: s, x, t, hn, h => by
    have hn' : s.length ≤ n := by simp only [List.length_cons] at hn; omega
    rw [parseStr_zero] at h
    split at h
    · cases h; rfl
    split at h
    · cases h
    split at h
    · split at h
      · cases h
      · rename_i c t1
        have hd : ∀ d x t, parseStr 0 d (c :: t1) = some (x, t) → fixUtf8 x = x := by
          intro d x t h
          exact parseStr_utf8 n _ x t (by rw [List.length_drop]; omega) (parseStr_drops d _ x t h)
        split at h
        · split at h
          · rename_i p q z w rest
            split at h
            · cases h
            · rename_i r hr
              have hc := chunk_escape (u4_lt hr) (nextU4 rest)
              split at h
              · obtain ⟨y, hy, e⟩ := Option.map_eq_some_iff.1 h
                simp only [Prod.mk.injEq] at e
                rw [← e.1]
                exact valid_chunk hc (hd 11 y.1 y.2 hy)
              · obtain ⟨y, hy, e⟩ := Option.map_eq_some_iff.1 h
                simp only [Prod.mk.injEq] at e
                rw [← e.1]
                exact valid_chunk hc (hd 5 y.1 y.2 hy)
          · cases h
        · split at h
          · cases h
          · rename_i e he
            obtain ⟨y, hy, e'⟩ := Option.map_eq_some_iff.1 h
            simp only [Prod.mk.injEq] at e'
            rw [← e'.1]
            exact valid_chunk (chunk_ascii (simpleEscape_ascii he)) (hd 1 y.1 y.2 hy)
    · split at h
      · obtain ⟨y, hy, e⟩ := Option.map_eq_some_iff.1 h
        simp only [Prod.mk.injEq] at e
        rw [← e.1]
        exact valid_chunk chunk_replacement (parseStr_utf8 n s y.1 y.2 hn' hy)
      · rename_i k hk
        by_cases ha : b < 0x80
        · rw [width_ascii ha] at hk
          have : k = 0 := by omega
          subst this
          obtain ⟨y, hy, e⟩ := Option.map_eq_some_iff.1 h
          simp only [Prod.mk.injEq] at e
          rw [← e.1]
          exact valid_chunk (chunk_ascii ha) (parseStr_utf8 n s y.1 y.2 hn' hy)
        · obtain ⟨r, t', hs, hl, hr⟩ := rune_of_width ha hk
          subst hs
          subst hl
          rw [parseStr_app] at h
          cases hp : parseStr 0 0 t' with
          | none => rw [hp] at h; cases h
          | some y =>
            rw [hp] at h
            simp only [Option.map_some, Option.some.injEq, Prod.mk.injEq] at h
            rw [← h.1]
            exact valid_chunk (c := b :: r) (chunk_rune hr) (parseStr_utf8 n t' y.1 y.2 (by simp only [List.length_append] at hn'; omega) hp)

theorem str_utf8 {s x t : Bytes} (h : parseStr 0 0 s = some (x, t)) : fixUtf8 x = x := parseStr_utf8 _ s x t (Nat.le_refl _) h

theorem parse_utf8_all : ∀ n : Nat,
    (∀ s v t, parseValue n s = some (v, t) → fix v = v) ∧ (∀ s v t, parseElems n s = some (v, t) → fixElems v = v) ∧ (∀ s v t, parseMembers n s = some (v, t) → fixMembers v = v)
  | 0 => by
    refine ⟨fun s v t h => ?_, fun s v t h => ?_, fun s v t h => ?_⟩
    · unfold parseValue at h; cases h
    · unfold parseElems at h; cases h
    · unfold parseMembers at h; cases h
  | n + 1 => by
    obtain ⟨ih1, ih2, ih3⟩ := parse_utf8_all n
    refine ⟨fun s v t h => ?_, fun s v t h => ?_, fun s v t h => ?_⟩
    · rw [parseValue_succ] at h
      split at h
      · cases h
      rename_i b u hb
      split at h
      · obtain ⟨y, hy, e⟩ := Option.map_eq_some_iff.1 h
        simp only [Prod.mk.injEq] at e
        rw [← e.1, fix, str_utf8 hy]
      split at h
      · split at h
        · cases h
        · split at h
          · cases h; simp [fix, fixElems]
          · obtain ⟨y, hy, e⟩ := Option.map_eq_some_iff.1 h
            simp only [Prod.mk.injEq] at e
            rw [← e.1, fix, ih2 _ _ _ hy]
      split at h
      · split at h
        · cases h
        · split at h
          · cases h; simp [fix, fixMembers]
          · obtain ⟨y, hy, e⟩ := Option.map_eq_some_iff.1 h
            simp only [Prod.mk.injEq] at e
            rw [← e.1, fix, ih3 _ _ _ hy]
      split at h
      · split at h
        · cases h; unfold fix; rfl
        · cases h
      split at h
      · split at h
        · cases h; unfold fix; rfl
        · cases h
      split at h
      · split at h
        · cases h; unfold fix; rfl
        · cases h
      obtain ⟨y, hy, e⟩ := Option.map_eq_some_iff.1 h
      simp only [Prod.mk.injEq] at e
      rw [← e.1, fix]
    · rw [parseElems_succ] at h
      split at h
      · cases h
      rename_i w u hw
      split at h
      · cases h
      split at h
      · obtain ⟨y, hy, e⟩ := Option.map_eq_some_iff.1 h
        simp only [Prod.mk.injEq] at e
        rw [← e.1, fixElems, ih1 _ _ _ hw, ih2 _ _ _ hy]
      split at h
      · cases h
        rw [fixElems, ih1 _ _ _ hw]
        simp [fixElems]
      · cases h
    · rw [parseMembers_succ] at h
      split at h
      · cases h
      split at h
      · split at h
        · cases h
        rename_i k u hk
        split at h
        · cases h
        split at h
        · split at h
          · cases h
          rename_i w u' hw
          split at h
          · cases h
          split at h
          · obtain ⟨y, hy, e⟩ := Option.map_eq_some_iff.1 h
            simp only [Prod.mk.injEq] at e
            rw [← e.1, fixMembers, str_utf8 hk, ih1 _ _ _ hw, ih3 _ _ _ hy]
          split at h
          · cases h
            rw [fixMembers, str_utf8 hk, ih1 _ _ _ hw]
            simp [fixMembers]
          · cases h
        · cases h
      · cases h

/-- Every text that is read has UTF-8 strings only. -/
theorem parse_utf8 {s : Bytes} {j : J} (h : parse s = some j) : fix j = j := by
  unfold parse at h
  split at h
  · cases h
  rename_i v t hv
  split at h
  · cases h
    exact (parse_utf8_all _).1 _ _ _ hv
  · cases h

end Fpki.Json
