import Verif.Model.Pem
import Verif.Lemmas.Rows
import Verif.Lemmas.CsvLoad

/-!
# Lemmas about PEM texts
-/
namespace Fpki.Pem

/-! ## `cut` -/

theorem cut_some {pat : Bytes} : ∀ {s x y : Bytes}, cut pat s = some (x, y) → s = x ++ pat ++ y
  | [], x, y, h => by
    unfold cut at h
    split at h
    · rename_i hp
      cases h
      simp [hp]
    · cases h
  | c :: s, x, y, h => by
    unfold cut at h
    split at h
    · rename_i hp
      cases h
      obtain ⟨t, ht⟩ := List.isPrefixOf_iff_prefix.1 hp
      rw [← ht]
      simp
    · cases hc : cut pat s with
      | none => rw [hc] at h; cases h
      | some z =>
        rw [hc] at h
        cases h
        have := cut_some (x := z.1) (y := z.2) hc
        simp only [List.cons_append]
        rw [← this]

/-- Where the first occurrence is. -/
theorem cut_first {pat : Bytes} (hp : pat ≠ []) : ∀ (x y : Bytes), (∀ u v, x = u ++ v → v ≠ [] → ¬ pat <+: v ++ pat ++ y) → cut pat (x ++ pat ++ y) = some (x, y)
  | [], y, _ => by
    cases pat with
    | nil => exact absurd rfl hp
    | cons c pat =>
      simp only [List.nil_append, List.cons_append]
      unfold cut
      rw [if_pos (show (c :: pat).isPrefixOf (c :: (pat ++ y)) = true from List.isPrefixOf_iff_prefix.2 ⟨y, rfl⟩)]
      simp
  | c :: x, y, h => by
    simp only [List.cons_append]
    unfold cut
    have := h [] (c :: x) rfl (by simp)
    rw [if_neg (show ¬ pat.isPrefixOf (c :: (x ++ pat ++ y)) = true from fun hc => this (List.isPrefixOf_iff_prefix.1 hc)), cut_first hp x y (fun u v hx hv => h (c :: u) v (by rw [hx]; rfl) hv)]
    rfl

theorem cut_none_of {pat : Bytes} (s : Bytes) (h : ∀ x y, s ≠ x ++ pat ++ y) : cut pat s = none := by
  cases hc : cut pat s with
  | none => rfl
  | some z => exact absurd (cut_some (x := z.1) (y := z.2) hc) (h _ _)

theorem prefix_iff {p s : Bytes} : p.isPrefixOf s = true ↔ ∃ t, s = p ++ t := by
  rw [List.isPrefixOf_iff_prefix]
  exact ⟨fun ⟨t, h⟩ => ⟨t, h.symm⟩, fun ⟨t, h⟩ => ⟨t, h.symm⟩⟩

/-! ## Lines -/

theorem trimRight_id {s : Bytes} (h : ∀ c, s.getLast? = some c → c ≠ 32 ∧ c ≠ 9) : trimRight s = s := by
  unfold trimRight
  rw [List.getLast?_eq_head?_reverse] at h
  cases hr : s.reverse with
  | nil => simpa using hr
  | cons c r =>
    rw [hr] at h
    have := h c rfl
    rw [List.dropWhile_cons_of_neg (by simp [this.1, this.2]), ← hr, List.reverse_reverse]

theorem trimRight_sub (s : Bytes) : ∀ c ∈ trimRight s, c ∈ s := by
  intro c hc
  unfold trimRight at hc
  rw [List.mem_reverse] at hc
  exact List.mem_reverse.1 ((List.dropWhile_suffix _).subset hc)

theorem dropCR_sub (s : Bytes) : ∀ c ∈ dropCR s, c ∈ s := by
  intro c hc
  unfold dropCR at hc
  split at hc
  · exact List.dropLast_subset s hc
  · exact hc

theorem getLine_nl (l r : Bytes) (h : (10 : Byte) ∉ l) : getLine (l ++ [10] ++ r) = (trimRight (dropCR l), r) := by
  unfold getLine
  rw [cut_first (by simp) l r]
  intro u v hl hv hpre
  cases v with
  | nil => exact hv rfl
  | cons c v =>
    obtain ⟨t, ht⟩ := hpre
    simp only [List.cons_append, List.nil_append, List.cons.injEq] at ht
    exact h (by rw [hl, ← ht.1]; simp)

theorem getLine_last (l : Bytes) (h : (10 : Byte) ∉ l) : getLine l = (trimRight l, []) := by
  unfold getLine
  rw [cut_none_of]
  intro x y hs
  exact h (by rw [hs]; simp)

/-- The line is made of bytes of the text. -/
theorem getLine_sub (s : Bytes) : ∀ c ∈ (getLine s).1, c ∈ s := by
  intro c hc
  unfold getLine at hc
  split at hc
  · exact trimRight_sub _ _ hc
  · rename_i l r hcut
    have := cut_some hcut
    have h2 := dropCR_sub _ _ (trimRight_sub _ _ hc)
    rw [this]
    simp [h2]

theorem getLine_suffix (s : Bytes) : (getLine s).2 <:+ s := by
  unfold getLine
  split
  · exact List.nil_suffix
  · rename_i l r hcut
    have := cut_some hcut
    exact ⟨l ++ [10], this.symm⟩

theorem getLine_shorter {s : Bytes} (h : s ≠ []) : (getLine s).2.length < s.length := by
  unfold getLine
  split
  · simpa using List.length_pos_iff.2 h
  · rename_i l r hcut
    have := cut_some hcut
    rw [this]
    simp
    omega

/-- With more text after a line that is complete, the line is the same. -/
theorem getLine_nil_fst (s : Bytes) (h : s = [] ∨ ∃ t, s = 10 :: t) : (getLine s).1 = [] := by
  rcases h with rfl | ⟨t, rfl⟩
  · rfl
  · have := getLine_nl [] t (by simp)
    simp only [List.nil_append, List.cons_append] at this
    rw [this]
    rfl

/-! ## The rest is a proper suffix -/

theorem skipHeaders_suffix : ∀ (fuel : Nat) (found : Bool) (s : Bytes) (f : Bool) (r : Bytes), skipHeaders fuel found s = some (f, r) → r <:+ s
  | 0, _, _, _, _, h => by cases h
  | fuel + 1, found, s, f, r, h => by
    unfold skipHeaders at h
    split at h
    · cases h
    split at h
    · exact (skipHeaders_suffix fuel true _ f r h).trans (getLine_suffix s)
    · cases h
      exact List.suffix_refl _

theorem suffix_of_eq {s x p y : Bytes} (h : s = x ++ p ++ y) : y <:+ s := ⟨x ++ p, h.symm⟩

theorem finish_suffix {found : Bool} {type rest bytes r : Bytes} (h : finish found type rest = some (bytes, r)) : r <:+ rest := by
  unfold finish at h
  split at h
  · cases h
  · rename_i data trailer hm
    have htr : trailer <:+ rest := by
      split at hm
      · cases hm
        exact List.drop_suffix _ _
      · exact suffix_of_eq (cut_some hm)
    split at h
    · cases h
    split at h
    · cases h
    split at h
    · cases h
    split at h
    · cases h
    · cases h
      exact (getLine_suffix _).trans htr

theorem findBegin_some {s r : Bytes} (h : findBegin s = some r) : ∃ x, s = x ++ beginMark ++ r ∧ (x = [] ∨ ∃ x', x = x' ++ [10]) := by
  unfold findBegin at h
  split at h
  · rename_i hp
    obtain ⟨t, rfl⟩ := prefix_iff.1 hp
    cases h
    refine ⟨[], ?_, Or.inl rfl⟩
    rw [List.drop_left]
    simp
  · cases hc : cut (10 :: beginMark) s with
    | none => rw [hc] at h; cases h
    | some z =>
      rw [hc] at h
      cases h
      have := cut_some (x := z.1) (y := z.2) hc
      exact ⟨z.1 ++ [10], by rw [this]; simp, Or.inr ⟨_, rfl⟩⟩

theorem decodeLoop_suffix : ∀ (fuel : Nat) (s t b r : Bytes), decodeLoop fuel s = some (t, b, r) → r <:+ s ∧ r.length < s.length
  | 0, _, _, _, _, h => by cases h
  | fuel + 1, s, t, b, r, h => by
    unfold decodeLoop at h
    split at h
    · cases h
    · rename_i after hf
      obtain ⟨x, hx, _⟩ := findBegin_some hf
      have h1 : (getLine after).2 <:+ s := (getLine_suffix after).trans (suffix_of_eq hx)
      have h2 : (getLine after).2.length < s.length := by
        have := (getLine_suffix after).length_le
        rw [hx]
        simp only [List.length_append]
        have : beginMark.length = 11 := rfl
        omega
      split at h
      · obtain ⟨a, c⟩ := decodeLoop_suffix fuel _ t b r h
        exact ⟨a.trans h1, by omega⟩
      · simp only at h
        split at h
        · cases h
        · rename_i found rest' hs
          have h3 := skipHeaders_suffix _ _ _ _ _ hs
          have h4 := h3.length_le
          split at h
          · rename_i bytes r' hfin
            cases h
            have h5 := finish_suffix hfin
            have := h5.length_le
            exact ⟨(h5.trans h3).trans h1, by omega⟩
          · obtain ⟨a, c⟩ := decodeLoop_suffix fuel _ t b r h
            exact ⟨(a.trans h3).trans h1, by omega⟩

/-! ## A block that has been written -/

theorem base64_chars (d : Bytes) : ∀ c ∈ CsvLoad.base64 d, c ≠ 45 ∧ c ≠ 58 ∧ c ≠ 32 ∧ c ≠ 9 ∧ c ≠ 13 ∧ c ≠ 10 :=
  Rows.base64_forall (P := fun c => c ≠ 45 ∧ c ≠ 58 ∧ c ≠ 32 ∧ c ≠ 9 ∧ c ≠ 13 ∧ c ≠ 10) (by decide) (by decide) d

theorem breakLines_chars : ∀ (fuel : Nat) (s : Bytes), ∀ c ∈ breakLines fuel s, c ∈ s ∨ c = 10
  | 0, _, _, h => by cases h
  | fuel + 1, s, c, h => by
    unfold breakLines at h
    split at h
    · cases h
    · simp only [List.mem_append, List.mem_cons, List.not_mem_nil, or_false] at h
      rcases h with (h | h) | h
      · exact Or.inl (List.mem_of_mem_take h)
      · exact Or.inr h
      · rcases breakLines_chars fuel _ c h with h | h
        · exact Or.inl (List.mem_of_mem_drop h)
        · exact Or.inr h

theorem breakLines_last : ∀ (fuel : Nat) (s : Bytes), breakLines fuel s = [] ∨ ∃ x, breakLines fuel s = x ++ [10]
  | 0, _ => Or.inl rfl
  | fuel + 1, s => by
    unfold breakLines
    split
    · exact Or.inl rfl
    · right
      rcases breakLines_last fuel (s.drop 64) with h | ⟨x, h⟩
      · exact ⟨s.take 64, by rw [h]; simp⟩
      · exact ⟨s.take 64 ++ [10] ++ x, by rw [h]; simp⟩

theorem breakLines_filter (P : Byte → Bool) (h10 : P 10 = false) : ∀ (fuel : Nat) (s : Bytes), s.length ≤ fuel → (∀ c ∈ s, P c = true) → (breakLines fuel s).filter P = s
  | 0, s, h, _ => by
    cases s with
    | nil => rfl
    | cons => simp at h
  | fuel + 1, s, h, hp => by
    unfold breakLines
    split
    · rename_i hs
      rw [hs]
      rfl
    · rename_i hs
      have hl := List.length_pos_iff.2 hs
      rw [List.filter_append, List.filter_append, breakLines_filter P h10 fuel (s.drop 64) (by rw [List.length_drop]; omega) (fun c hc => hp c (List.mem_of_mem_drop hc)),
        List.filter_eq_self.2 (fun c hc => hp c (List.mem_of_mem_take hc))]
      simp [h10]

theorem body_chars (d : Bytes) : ∀ c ∈ body d, c ≠ 45 ∧ c ≠ 58 ∧ c ≠ 32 ∧ c ≠ 9 ∧ c ≠ 13 := by
  intro c hc
  rcases breakLines_chars _ _ c hc with h | h
  · have := base64_chars d c h
    exact ⟨this.1, this.2.1, this.2.2.1, this.2.2.2.1, this.2.2.2.2.1⟩
  · subst h
    decide

theorem body_decodes {d x : Bytes} (h : body d = x ++ [10] ∨ (body d = [] ∧ x = [])) : Rows.decodeField (x.filter fun c => !(c == 32 || c == 9)) = some d := by
  have hx : x.filter (fun c => !(c == 32 || c == 9)) = x := by
    refine List.filter_eq_self.2 fun c hc => ?_
    have := body_chars d c (by rcases h with h | h <;> [(rw [h]; simp [hc]); (rw [h.2] at hc; cases hc)])
    simp [this.2.2.1, this.2.2.2.1]
  have hf : x.filter (fun c => !(c == 13 || c == 10)) = CsvLoad.base64 d := by
    have := breakLines_filter (fun c => !(c == 13 || c == 10)) rfl (CsvLoad.base64 d).length (CsvLoad.base64 d) (Nat.le_refl _) (by
      intro c hc
      have := base64_chars d c hc
      simp [this.2.2.2.2.1, this.2.2.2.2.2])
    change (body d).filter _ = _ at this
    rcases h with h | h
    · rw [h] at this
      simpa using this
    · rw [h.1] at this
      rw [h.2]
      exact this
  unfold Rows.decodeField
  rw [hx, hf, CsvLoad.decode_base64]

/-- A type that does not disturb: no end of line and no colon in it. -/
def GoodType (t : Bytes) : Prop := (10 : Byte) ∉ t ∧ (58 : Byte) ∉ t

theorem getLast_dashes (t : Bytes) : (t ++ dashes).getLast? = some 45 := by
  rw [List.getLast?_append]
  rfl

/-- The line after the BEGIN mark. -/
theorem typeLine {t : Bytes} (ht : GoodType t) (x : Bytes) : getLine (t ++ dashes ++ [10] ++ x) = (t ++ dashes, x) := by
  rw [getLine_nl (t ++ dashes) x (by simp [ht.1, dashes])]
  have : dropCR (t ++ dashes) = t ++ dashes := by
    unfold dropCR
    rw [getLast_dashes, if_neg (by decide)]
  rw [this, trimRight_id]
  rw [getLast_dashes]
  intro c hc
  cases hc
  decide

theorem skipHeaders_none {s : Bytes} (hs : s ≠ []) (h : (58 : Byte) ∉ s) (n : Nat) : skipHeaders (n + 1) false s = some (false, s) := by
  unfold skipHeaders
  rw [if_neg hs, if_neg]
  intro hc
  exact h (getLine_sub s 58 (by simpa using hc))

theorem trailer_line (t z : Bytes) (ht : GoodType t) : (getLine (t ++ dashes ++ z)).2 = (getLine z).2 := by
  by_cases hz : (10 : Byte) ∈ z
  · obtain ⟨a, b, rfl, ha⟩ : ∃ a b, z = a ++ [10] ++ b ∧ (10 : Byte) ∉ a := by
      clear ht
      induction z with
      | nil => cases hz
      | cons c z ih =>
        by_cases hc : c = 10
        · exact ⟨[], z, by rw [hc]; rfl, by simp⟩
        · obtain ⟨a, b, h1, h2⟩ := ih (by simpa [Ne.symm hc] using hz)
          exact ⟨c :: a, b, by rw [h1]; rfl, by simp [h2, Ne.symm hc]⟩
    rw [getLine_nl a b ha]
    rw [show t ++ dashes ++ (a ++ [10] ++ b) = (t ++ dashes ++ a) ++ [10] ++ b by simp, getLine_nl _ b (by simp [ht.1, ha, dashes])]
  · rw [getLine_last z hz, getLine_last _ (by simp [ht.1, hz, dashes])]

/-- `Decode` from after the headers, for a complete block. -/
theorem finish_complete {t d z : Bytes} (ht : GoodType t) (hz : z = [] ∨ ∃ z', z = 10 :: z') : finish false t (body d ++ endMark ++ t ++ dashes ++ z) = some (d, (getLine z).2) := by
  have hfound : ∃ x, (body d = x ++ [10] ∨ (body d = [] ∧ x = [])) ∧
      (if !false && endMark.isPrefixOf (body d ++ endMark ++ t ++ dashes ++ z) then some ([], (body d ++ endMark ++ t ++ dashes ++ z).drop endMark.length)
        else cut (10 :: endMark) (body d ++ endMark ++ t ++ dashes ++ z)) = some (x, t ++ dashes ++ z) := by
    rcases breakLines_last (CsvLoad.base64 d).length (CsvLoad.base64 d) with h | ⟨x, h⟩
    · change body d = [] at h
      refine ⟨[], Or.inr ⟨h, rfl⟩, ?_⟩
      rw [h, if_pos (by simp only [Bool.not_false, Bool.true_and]; exact prefix_iff.2 ⟨t ++ dashes ++ z, by simp⟩)]
      simp only [List.nil_append, List.append_assoc, List.drop_left]
    · change body d = x ++ [10] at h
      refine ⟨x, Or.inl h, ?_⟩
      have hx : ∀ c ∈ x, c ≠ 45 := fun c hc => (body_chars d c (by rw [h]; simp [hc])).1
      rw [h, if_neg]
      · rw [show x ++ [10] ++ endMark ++ t ++ dashes ++ z = x ++ (10 :: endMark) ++ (t ++ dashes ++ z) by simp]
        apply cut_first (by simp)
        intro u v hv hne hp
        obtain ⟨w, hw⟩ := hp
        cases v with
        | nil => exact hne rfl
        | cons c v =>
          simp only [List.cons_append, List.cons.injEq] at hw
          cases v with
          | nil =>
            simp only [List.nil_append, endMark, List.cons_append, List.cons.injEq] at hw
            exact absurd hw.2.1 (by decide)
          | cons e v =>
            simp only [endMark, List.cons_append, List.cons.injEq] at hw
            exact hx e (by rw [hv]; simp) hw.2.1.symm
      · simp only [Bool.not_false, Bool.true_and]
        intro hp
        obtain ⟨w, hw⟩ := prefix_iff.1 hp
        cases x with
        | nil =>
          simp only [List.nil_append, endMark, List.cons_append, List.cons.injEq] at hw
          exact absurd hw.1 (by decide)
        | cons e v =>
          simp only [endMark, List.cons_append, List.cons.injEq] at hw
          exact hx e (by simp) hw.1
  obtain ⟨x, hx, hf⟩ := hfound
  unfold finish
  rw [hf]
  simp only
  have hlen : (t ++ dashes).length = t.length + dashes.length := List.length_append
  rw [if_neg (by simp only [List.length_append]; omega), ← hlen, List.take_left, List.drop_left, if_neg, if_neg, body_decodes hx]
  · simp only
    rw [trailer_line t z ht]
  · rw [getLine_nil_fst z hz]
    simp
  · simp only [Bool.or_eq_true, Bool.not_eq_true', not_or, Bool.not_eq_false]
    exact ⟨prefix_iff.2 ⟨dashes, rfl⟩, List.isSuffixOf_iff_suffix.2 ⟨t, rfl⟩⟩

/-- What may stand before the block. -/
def Pre (pre : Bytes) : Prop := pre = [] ∨ pre = [10]

theorem findBegin_pre {pre : Bytes} (hp : Pre pre) (x : Bytes) : findBegin (pre ++ beginMark ++ x) = some x := by
  unfold findBegin
  rcases hp with rfl | rfl
  · rw [if_pos (prefix_iff.2 ⟨x, by simp⟩)]
    simp only [List.nil_append, List.drop_left]
  · rw [if_neg]
    · rw [show [10] ++ beginMark ++ x = [] ++ (10 :: beginMark) ++ x by simp, cut_first (by simp) [] x]
      · rfl
      · intro u v h hv
        exact absurd (List.append_eq_nil_iff.1 h.symm).2 hv
    · intro h
      obtain ⟨w, hw⟩ := prefix_iff.1 h
      simp only [beginMark, List.cons_append, List.cons.injEq] at hw
      exact absurd hw.1 (by decide)

/-- A complete block is found. -/
theorem decodeLoop_complete {pre t d z : Bytes} (hp : Pre pre) (ht : GoodType t) (hz : z = [] ∨ ∃ z', z = 10 :: z') (hz2 : (58 : Byte) ∉ z) (fuel : Nat) :
    decodeLoop (fuel + 1) (pre ++ beginMark ++ (t ++ dashes ++ [10] ++ (body d ++ endMark ++ t ++ dashes ++ z))) = some (t, d, (getLine z).2) := by
  unfold decodeLoop
  rw [findBegin_pre hp]
  simp only
  rw [typeLine ht, if_neg (by simp only [Bool.not_eq_true', Bool.not_eq_false]; exact List.isSuffixOf_iff_suffix.2 ⟨t, rfl⟩)]
  simp only
  rw [skipHeaders_none]
  · have hl : (t ++ dashes).take ((t ++ dashes).length - dashes.length) = t := by
      rw [List.length_append, Nat.add_sub_cancel, List.take_left]
    simp only
    rw [hl, finish_complete ht hz]
  · simp [endMark]
  · simp only [List.mem_append, not_or]
    exact ⟨⟨⟨⟨fun h => (body_chars d 58 h).2.1 rfl, by decide⟩, ht.2⟩, by decide⟩, hz2⟩

/-! ## A block that is not complete -/

/-- A mark, which begins with a dash, is not inside the lines. -/
theorem mark_after {d e m : Bytes} {x : Bytes} (h : body d ++ e = x ++ (45 :: m)) : ∃ a, x = body d ++ a ∧ e = a ++ (45 :: m) := by
  rcases List.append_eq_append_iff.1 h with ⟨a, h1, h2⟩ | ⟨c, h1, h2⟩
  · exact ⟨a, h1, h2⟩
  · cases c with
    | nil =>
      rw [List.append_nil] at h1
      exact ⟨[], by rw [h1]; simp, by simpa using h2.symm⟩
    | cons b c =>
      simp only [List.cons_append, List.cons.injEq] at h2
      have := (body_chars d b (by rw [h1]; simp)).1
      exact absurd h2.1.symm this

theorem finish_incomplete {t d p y : Bytes} (hy : y ≠ []) (h : p ++ y = body d ++ endMark ++ t ++ dashes) : finish false t p = none := by
  unfold finish
  split
  · rfl
  · rename_i data trailer hm
    have hx : ∃ x, p = x ++ endMark ++ trailer := by
      split at hm
      · rename_i hp
        cases hm
        simp only [Bool.not_false, Bool.true_and] at hp
        obtain ⟨w, rfl⟩ := prefix_iff.1 hp
        exact ⟨[], by rw [List.drop_left]; rfl⟩
      · exact ⟨data ++ [10], by rw [cut_some hm]; simp⟩
    obtain ⟨x, hx⟩ := hx
    have h2 : body d ++ (endMark ++ t ++ dashes) = x ++ (45 :: ([45, 45, 45, 45, 69, 78, 68, 32] ++ trailer ++ y)) := by
      rw [← List.append_assoc, ← List.append_assoc, ← h, hx]
      simp [endMark]
    obtain ⟨a, -, ha⟩ := mark_after h2
    have hl := congrArg List.length ha
    have hy := List.length_pos_iff.2 hy
    simp only [List.length_append, List.length_cons, List.length_nil] at hl
    have he : endMark.length = 9 := rfl
    rw [if_pos (by omega)]

theorem findBegin_inside {t d p y : Bytes} (ht : GoodType t) (h : p ++ y = body d ++ endMark ++ t ++ dashes) : findBegin p = none := by
  cases hf : findBegin p with
  | none => rfl
  | some after =>
    exfalso
    obtain ⟨x, hx, hl⟩ := findBegin_some hf
    have h2 : body d ++ (endMark ++ t ++ dashes) = x ++ (45 :: ([45, 45, 45, 45, 66, 69, 71, 73, 78, 32] ++ after ++ y)) := by
      rw [← List.append_assoc, ← List.append_assoc, ← h, hx]
      simp [beginMark]
    obtain ⟨a, hxa, ha⟩ := mark_after h2
    cases hr : a.reverse with
    | nil =>
      have : a = [] := by simpa using hr
      subst this
      simp only [endMark, List.cons_append, List.nil_append, List.cons.injEq] at ha
      exact absurd ha.2.2.2.2.2.1 (by decide)
    | cons c r =>
      have hac : a = r.reverse ++ [c] := by
        rw [← List.reverse_reverse a, hr]
        simp
      rcases hl with rfl | ⟨x', rfl⟩
      · rw [hac] at hxa
        simp at hxa
      · have hc : c = 10 := by
          rw [hac, ← List.append_assoc] at hxa
          have := (List.append_inj' hxa rfl).2
          simpa using this.symm
        have : (10 : Byte) ∈ endMark ++ t ++ dashes := by
          rw [ha, hac, hc]
          simp
        simp only [List.mem_append] at this
        rcases this with (h | h) | h
        · exact absurd h (by decide)
        · exact ht.1 h
        · exact absurd h (by decide)

/-- Nothing is found in a block that is not complete. -/
theorem decodeLoop_incomplete {pre t d p y : Bytes} (hp : Pre pre) (ht : GoodType t) (hy : y ≠ [])
    (h : p ++ y = pre ++ beginMark ++ (t ++ dashes ++ [10] ++ (body d ++ endMark ++ t ++ dashes))) (fuel : Nat) : decodeLoop fuel p = none := by
  cases fuel with
  | zero => rfl
  | succ fuel =>
    unfold decodeLoop
    cases hf : findBegin p with
    | none => rfl
    | some after =>
      simp only
      have hp' : after ++ y = t ++ dashes ++ [10] ++ (body d ++ endMark ++ t ++ dashes) := by
        rcases List.append_eq_append_iff.1 h with ⟨a, h1, h2⟩ | ⟨c, h1, h2⟩
        · obtain ⟨x, hx, hl⟩ := findBegin_some hf
          have hlen := congrArg List.length h1
          rw [hx] at hlen
          simp only [List.length_append] at hlen
          have hb : beginMark.length = 11 := rfl
          rcases hp with rfl | rfl
          · have hx0 : x = [] := List.length_eq_zero_iff.1 (by simp at hlen; omega)
            have ha0 : a = [] := List.length_eq_zero_iff.1 (by simp at hlen; omega)
            have haf : after = [] := List.length_eq_zero_iff.1 (by simp at hlen; omega)
            rw [haf, h2, ha0]
            rfl
          · rcases hl with rfl | ⟨x', rfl⟩
            · rw [hx] at h1
              simp only [beginMark, List.cons_append, List.nil_append, List.cons.injEq] at h1
              exact absurd h1.1 (by decide)
            · have ha0 : a = [] := List.length_eq_zero_iff.1 (by simp at hlen; omega)
              have haf : after = [] := List.length_eq_zero_iff.1 (by simp at hlen; omega)
              rw [haf, h2, ha0]
              rfl
        · rw [h1, findBegin_pre hp] at hf
          cases hf
          exact h2.symm
      have hcase : (10 : Byte) ∉ after ∨ ∃ p'', after = t ++ dashes ++ [10] ++ p'' ∧ p'' ++ y = body d ++ endMark ++ t ++ dashes := by
        rcases List.append_eq_append_iff.1 hp' with ⟨a, h1, h2⟩ | ⟨c, h1, h2⟩
        · cases hr : a.reverse with
          | nil =>
            have : a = [] := by simpa using hr
            subst this
            right
            exact ⟨[], by simpa using h1.symm, by simpa using h2⟩
          | cons c r =>
            have hac : a = r.reverse ++ [c] := by
              rw [← List.reverse_reverse a, hr]
              simp
            rw [hac, ← List.append_assoc] at h1
            have := (List.append_inj' h1 rfl).1
            left
            intro hm
            have hm' : (10 : Byte) ∈ t ++ dashes := by
              rw [this]
              simp [hm]
            rcases List.mem_append.1 hm' with h | h
            · exact ht.1 h
            · exact absurd h (by decide)
        · exact Or.inr ⟨c, h1, h2.symm⟩
      rcases hcase with hn | ⟨p'', rfl, hpy⟩
      · rw [getLine_last after hn]
        simp only
        have he : ∀ n, decodeLoop n [] = none := by
          intro n
          cases n with
          | zero => rfl
          | succ n => rfl
        split
        · exact he _
        · rfl
      · rw [typeLine ht]
        simp only
        rw [if_neg (by simp only [Bool.not_eq_true', Bool.not_eq_false]; exact List.isSuffixOf_iff_suffix.2 ⟨t, rfl⟩)]
        have hl : (t ++ dashes).take ((t ++ dashes).length - dashes.length) = t := by
          rw [List.length_append, Nat.add_sub_cancel, List.take_left]
        by_cases hne : p'' = []
        · rw [hne]
          rfl
        · rw [skipHeaders_none hne]
          · simp only
            rw [hl, finish_incomplete hy hpy]
            simp only
            cases fuel with
            | zero => rfl
            | succ fuel =>
              unfold decodeLoop
              rw [findBegin_inside ht hpy]
          · intro hm
            have : (58 : Byte) ∈ body d ++ endMark ++ t ++ dashes := by
              rw [← hpy]
              simp [hm]
            simp only [List.mem_append] at this
            rcases this with ((h | h) | h) | h
            · exact (body_chars d 58 h).2.1 rfl
            · exact absurd h (by decide)
            · exact ht.2 h
            · exact absurd h (by decide)

end Fpki.Pem
