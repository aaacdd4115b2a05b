import Verif.Model.ListFiles

namespace Fpki.ListFiles
open Fpki.Ingest (Str)

/-! ## Specification vocabulary -/

/-- `name` is an entry with this kind and content. -/
inductive IsEntry : Entries → Str → Bool → Entries → Prop where
  | head (n d c r) : IsEntry (.cons n d c r) n d c
  | tail (n d c r n' d' c') : IsEntry r n' d' c' → IsEntry (.cons n d c r) n' d' c'

/-- `p` is the path of a `.gz` entry of a directory called `bundled`, found by descending through
directories not called `bundled`. -/
inductive BundledGz : Entries → List Str → Prop where
  | here (es c g d c') : IsEntry es bundledName true c → IsEntry c g d c' → isGz g = true →
      BundledGz es [bundledName, g]
  | sub (es n c p) : IsEntry es n true c → n ≠ bundledName → BundledGz c p → BundledGz es (n :: p)

/-- No directory is listed before a directory called `bundled` next to it, anywhere; entries have
distinct names as far as `bundled` is concerned. -/
def BundledFirst : Entries → Prop
  | .nil => True
  | .cons n d c r => BundledFirst c ∧ BundledFirst r ∧
      (d = true → ∀ c', ¬ IsEntry r bundledName true c')

/-! ## Lemmas -/

theorem mem_globGz (path : List Str) (c : Entries) (p : List Str) :
    p ∈ globGz path c ↔ ∃ g d c', IsEntry c g d c' ∧ isGz g = true ∧ p = path ++ [g] := by
  induction c with
  | nil =>
    simp only [globGz, List.not_mem_nil, false_iff]
    rintro ⟨g, d, c', h, _⟩
    cases h
  | cons n d c r ihc ihr =>
    simp only [globGz]
    constructor
    · intro h
      split at h
      · rcases List.mem_cons.1 h with rfl | h
        · next hg => exact ⟨n, d, c, .head .., hg, rfl⟩
        · obtain ⟨g, d', c', h1, h2⟩ := ihr.1 h
          exact ⟨g, d', c', .tail _ _ _ _ _ _ _ h1, h2⟩
      · obtain ⟨g, d', c', h1, h2⟩ := ihr.1 h
        exact ⟨g, d', c', .tail _ _ _ _ _ _ _ h1, h2⟩
    · rintro ⟨g, d', c', h1, h2, rfl⟩
      cases h1 with
      | head => simp [h2]
      | @tail _ _ _ _ _ _ _ h1 =>
        have := ihr.2 ⟨g, d', c', h1, h2, rfl⟩
        split <;> simp [this]

theorem BundledGz.weaken {n d c r p} (h : BundledGz r p) : BundledGz (.cons n d c r) p := by
  cases h with
  | @here _ c' g d' c'' h1 h2 h3 => exact .here _ c' g d' c'' (.tail _ _ _ _ _ _ _ h1) h2 h3
  | @sub _ n' c' p h1 h2 h3 => exact .sub _ n' c' p (.tail _ _ _ _ _ _ _ h1) h2 h3

theorem listGz_sound (path : List Str) (acc : List (List Str)) (es : Entries) (p : List Str)
    (h : p ∈ listGz path acc es) : p ∈ acc ∨ ∃ q, p = path ++ q ∧ BundledGz es q := by
  induction es generalizing path acc with
  | nil => exact Or.inl h
  | cons n d c r ihc ihr =>
    simp only [listGz] at h
    split at h
    · rcases ihr _ _ h with h | ⟨q, h1, h2⟩
      · exact Or.inl h
      · exact Or.inr ⟨q, h1, h2.weaken⟩
    · next hd =>
      simp only [Bool.not_eq_true', Bool.not_eq_false] at hd
      subst hd
      split at h
      · next hn =>
        subst hn
        rcases ihr _ _ h with h | ⟨q, h1, h2⟩
        · rw [mem_globGz] at h
          obtain ⟨g, d', c', h1, h2, rfl⟩ := h
          exact Or.inr ⟨[bundledName, g], by simp, .here _ c g d' c' (.head ..) h1 h2⟩
        · exact Or.inr ⟨q, h1, h2.weaken⟩
      · next hn =>
        rcases ihr _ _ h with h | ⟨q, h1, h2⟩
        · rcases List.mem_append.1 h with h | h
          · exact Or.inl h
          · rcases ihc _ _ h with h | ⟨q, h1, h2⟩
            · simp at h
            · exact Or.inr ⟨n :: q, by simp [h1], .sub _ n c q (.head ..) hn h2⟩
        · exact Or.inr ⟨q, h1, h2.weaken⟩

theorem listGz_acc (path : List Str) (es : Entries) (acc : List (List Str)) (p : List Str)
    (hb : ∀ c', ¬ IsEntry es bundledName true c') (h : p ∈ acc) : p ∈ listGz path acc es := by
  induction es generalizing acc with
  | nil => exact h
  | cons n d c r ihc ihr =>
    have hb' : ∀ c', ¬ IsEntry r bundledName true c' := fun c' hc => hb c' (.tail _ _ _ _ _ _ _ hc)
    simp only [listGz]
    split
    · exact ihr _ hb' h
    · next hd =>
      simp only [Bool.not_eq_true', Bool.not_eq_false] at hd
      subst hd
      split
      · next hn => subst hn; exact absurd (.head ..) (hb c)
      · exact ihr _ hb' (by simp [h])

theorem listGz_complete (path : List Str) (es : Entries) (hf : BundledFirst es)
    (acc : List (List Str)) (q : List Str) (h : BundledGz es q) : path ++ q ∈ listGz path acc es := by
  induction es generalizing path acc q with
  | nil =>
    cases h with
    | @here _ _ _ _ _ h1 => cases h1
    | @sub _ _ _ _ h1 => cases h1
  | cons n d c r ihc ihr =>
    obtain ⟨hc, hr, hfirst⟩ := hf
    -- either the path comes from the rest, or from this entry
    have hcase : BundledGz r q ∨ (d = true ∧ n = bundledName ∧ ∃ g d' c', IsEntry c g d' c' ∧
        isGz g = true ∧ q = [bundledName, g]) ∨ (d = true ∧ n ≠ bundledName ∧ ∃ q', q = n :: q' ∧
        BundledGz c q') := by
      cases h with
      | @here _ c0 g d' c' h1 h2 h3 =>
        cases h1 with
        | head => exact Or.inr (Or.inl ⟨rfl, rfl, g, d', c', h2, h3, rfl⟩)
        | @tail _ _ _ _ _ _ _ h1 => exact Or.inl (.here _ _ _ _ _ h1 h2 h3)
      | @sub _ n' c0 p h1 h2 h3 =>
        cases h1 with
        | head => exact Or.inr (Or.inr ⟨rfl, h2, p, rfl, h3⟩)
        | @tail _ _ _ _ _ _ _ h1 => exact Or.inl (.sub _ _ _ _ h1 h2 h3)
    simp only [listGz]
    rcases hcase with h | ⟨rfl, rfl, g, d', c', h1, h2, rfl⟩ | ⟨rfl, hn, q', rfl, hq⟩
    · split
      · exact ihr _ hr _ _ h
      · split
        · exact ihr _ hr _ _ h
        · exact ihr _ hr _ _ h
    · simp only [Bool.not_true, Bool.false_eq_true, if_false, if_true]
      apply listGz_acc _ _ _ _ (hfirst rfl)
      rw [mem_globGz]
      exact ⟨g, d', c', h1, h2, by simp⟩
    · simp only [Bool.not_true, Bool.false_eq_true, if_false, if_neg hn]
      apply listGz_acc _ _ _ _ (hfirst rfl)
      have := ihc (path ++ [n]) hc [] q' hq
      simp only [List.append_assoc, List.singleton_append] at this
      simp [this]

end Fpki.ListFiles
