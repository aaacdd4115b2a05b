import Verif.Model.Pending
import Verif.Lemmas.Ingest
import Verif.Lemmas.ListFiles

namespace Fpki.Pending
open Fpki.Journal Fpki.Ingest Fpki.ListFiles

/-! ## Specification -/

/-- The file with the path `p` is offered below the directory `d` with these entries: a `.gz` entry
of a directory called `bundled`, or (`csv`) a `.csv` entry next to such a directory, found by
descending through directories not called `bundled`. -/
inductive Offered (csv : Bool) : Str → Entries → Str → Prop where
  | gz (d es c n k c') : csv = false → IsEntry es bundledName true c → IsEntry c n k c' →
      (∃ s, n = s ++ ['.', 'g', 'z']) → Offered csv d es (join (join d bundledName) n)
  | plain (d es c n k c') : csv = true → IsEntry es bundledName true c → IsEntry es n k c' →
      (∃ s, n = s ++ ['.', 'c', 's', 'v']) → Offered csv d es (join d n)
  | sub (d es n c p) : IsEntry es n true c → n ≠ bundledName → Offered csv (join d n) c p →
      Offered csv d es p

/-- Within a directory names are distinct and contain no slash, at all depths. -/
def Named : Entries → Prop
  | .nil => True
  | .cons n _ c r => '/' ∉ n ∧ (∀ k c', ¬ IsEntry r n k c') ∧ Named c ∧ Named r

/-! ## Names -/

theorem isGz_iff (n : Str) : isGz n = true ↔ ∃ s, n = s ++ ['.', 'g', 'z'] := by
  rw [isGz, List.isSuffixOf_iff_suffix]
  exact ⟨fun ⟨s, h⟩ => ⟨s, h.symm⟩, fun ⟨s, h⟩ => ⟨s, h.symm⟩⟩

theorem isCsv_iff (n : Str) : isCsv n = true ↔ ∃ s, n = s ++ ['.', 'c', 's', 'v'] := by
  rw [isCsv, List.isSuffixOf_iff_suffix]
  exact ⟨fun ⟨s, h⟩ => ⟨s, h.symm⟩, fun ⟨s, h⟩ => ⟨s, h.symm⟩⟩

theorem takeWhile_no {c : Char} (l t : Str) (h : c ∉ l) :
    (l ++ c :: t).takeWhile (· != c) = l := by
  induction l with
  | nil => simp
  | cons a l ih =>
    simp only [List.mem_cons, not_or] at h
    simp [Ne.symm h.1, ih h.2]

theorem dropWhile_no {c : Char} (l t : Str) (h : c ∉ l) :
    (l ++ c :: t).dropWhile (· != c) = c :: t := by
  induction l with
  | nil => simp
  | cons a l ih =>
    simp only [List.mem_cons, not_or] at h
    simp [Ne.symm h.1, ih h.2]

theorem pathBase_join (d n : Str) (hs : '/' ∉ n) (hn : n ≠ []) : pathBase (join d n) = n := by
  have hr : '/' ∉ n.reverse := by simpa using hs
  have e0 : (join d n).isEmpty = false := by simp [join]
  obtain ⟨a, t, ha⟩ : ∃ a t, n.reverse = a :: t := by
    cases h : n.reverse with
    | nil => exact absurd (List.reverse_eq_nil_iff.1 h) hn
    | cons a t => exact ⟨a, t, rfl⟩
  have hane : a ≠ '/' := fun h => hr (by rw [ha, h]; simp)
  have e1 : (join d n).reverse = n.reverse ++ '/' :: d.reverse := by simp [join]
  have e2 : ((join d n).reverse).dropWhile (· == '/') = n.reverse ++ '/' :: d.reverse := by
    rw [e1, ha]
    simp [hane]
  unfold pathBase
  rw [e0, e2, takeWhile_no _ _ hr]
  simp [hn]

theorem stemOf_gz (s : Str) : stemOf (s ++ ['.', 'g', 'z']) = some s := by
  simp [stemOf]

theorem stemOf_csv (s : Str) : stemOf (s ++ ['.', 'c', 's', 'v']) = some s := by
  simp [stemOf]

theorem stripExt_gz (s : Str) : stripExt (s ++ ['.', 'g', 'z']) = s := by
  simp [stripExt, List.takeWhile, List.dropWhile]

theorem stripExt_csv (s : Str) : stripExt (s ++ ['.', 'c', 's', 'v']) = s := by
  simp [stripExt, List.takeWhile, List.dropWhile]

/-- A name the sorting understands means the same to the journal. -/
theorem indices_agree (f s : Str) (a b : Nat)
    (hb : pathBase f = s ++ ['.', 'g', 'z'] ∨ pathBase f = s ++ ['.', 'c', 's', 'v'])
    (h : filenameToIndices f = some (a, b)) :
    parseFileInterval f = some ⟨a, b⟩ ∧ b < 2 ^ 63 := by
  have e1 : stemOf (pathBase f) = some s := by
    rcases hb with hb | hb <;> rw [hb]
    · exact stemOf_gz s
    · exact stemOf_csv s
  have e2 : stripExt (pathBase f) = s := by
    rcases hb with hb | hb <;> rw [hb]
    · exact stripExt_gz s
    · exact stripExt_csv s
  unfold parseFileInterval
  rw [e2]
  unfold filenameToIndices at h
  rw [e1] at h
  dsimp only at h
  unfold parseIntervalString
  split at h
  · next b' hb' =>
    split at h
    · cases h
    · next hc =>
      split at h
      · next x y hx hy =>
        split at h
        · cases h
        · next hxy =>
          simp only [Option.some.injEq, Prod.mk.injEq] at h
          unfold atoi at hx hy
          split at hx
          · split at hy
            · next h1 h2 =>
              simp only [Option.some.injEq] at hx hy
              have w1 : digitsVal (s.takeWhile isDig) < W := by unfold W; omega
              have w2 : digitsVal b' < W := by unfold W; omega
              simp only [hb', if_neg hc, parseUint, if_pos w1, if_pos w2]
              rw [hx, hy, if_neg hxy]
              obtain ⟨rfl, rfl⟩ := h
              exact ⟨rfl, by omega⟩
            · cases hy
          · cases hx
      · cases h
  · cases h

theorem indices_le (f : Str) (a b : Nat) (h : filenameToIndices f = some (a, b)) :
    a ≤ b ∧ b < 2 ^ 63 := by
  unfold filenameToIndices at h
  repeat' split at h
  all_goals first | cases h | skip
  next x y hx hy hxy =>
    simp only [atoi] at hx hy
    split at hx <;> split at hy <;> simp_all
    all_goals omega

/-! ## Sorting -/

theorem sort_perm {srt : List Str → List Str} (hS : Sorter srt) (l : List Str) :
    (sortByBundleName srt l).1.Perm l := by
  unfold sortByBundleName
  split
  · next h => exact (hS l (by simpa using h)).1
  · exact List.Perm.refl _

theorem sort_mem {srt : List Str → List Str} (hS : Sorter srt) (l : List Str) (p : Str) :
    p ∈ (sortByBundleName srt l).1 ↔ p ∈ l := (sort_perm hS l).mem_iff

/-! ## The listing -/

theorem mem_glob (q : Str → Bool) (d : Str) (es : Entries) (p : Str) :
    p ∈ glob q d es ↔ ∃ n k c, IsEntry es n k c ∧ q n = true ∧ p = join d n := by
  induction es with
  | nil =>
    simp only [glob, List.not_mem_nil, false_iff]
    rintro ⟨g, d, c', h, _⟩
    cases h
  | cons n k c r ihc ihr =>
    simp only [glob]
    constructor
    · intro h
      split at h
      · rcases List.mem_cons.1 h with rfl | h
        · next hg => exact ⟨n, k, c, .head .., hg, rfl⟩
        · obtain ⟨g, d', c', h1, h2⟩ := ihr.1 h
          exact ⟨g, d', c', .tail _ _ _ _ _ _ _ h1, h2⟩
      · obtain ⟨g, d', c', h1, h2⟩ := ihr.1 h
        exact ⟨g, d', c', .tail _ _ _ _ _ _ _ h1, h2⟩
    · rintro ⟨g, d', c', h1, h2, rfl⟩
      cases h1 with
      | head => simp [h2]
      | @tail _ _ _ _ _ _ _ h1 =>
        have := ihr.2 ⟨g, d', c', h1, h2, rfl⟩
        split <;> simp [this]

theorem loop_sound {rd : Str → Bool} {srt : List Str → List Str} (hS : Sorter srt) (es : Entries) :
    ∀ (d : Str) (all : Entries) (gz csv g c : List Str),
      (∀ n k x, IsEntry es n k x → IsEntry all n k x) →
      loop rd srt d all gz csv es = some (g, c) →
      (∀ p ∈ g, p ∈ gz ∨ Offered false d all p) ∧ (∀ p ∈ c, p ∈ csv ∨ Offered true d all p) := by
  induction es with
  | nil =>
    intro d all gz csv g c _ h
    simp only [loop, Option.some.injEq, Prod.mk.injEq] at h
    obtain ⟨rfl, rfl⟩ := h
    exact ⟨fun p hp => Or.inl hp, fun p hp => Or.inl hp⟩
  | cons n k x r ihx ihr =>
    intro d all gz csv g c hsub h
    have hr : ∀ n k x, IsEntry r n k x → IsEntry all n k x :=
      fun n' k' x' h' => hsub _ _ _ (.tail _ _ _ _ _ _ _ h')
    simp only [loop] at h
    split at h
    · exact ihr d all gz csv g c hr h
    · next hd =>
      simp only [Bool.not_eq_true', Bool.not_eq_false] at hd
      subst hd
      have hme := hsub n true x (.head ..)
      split at h
      · next hn =>
        subst hn
        obtain ⟨h1, h2⟩ := ihr _ _ _ _ _ _ hr h
        constructor
        · intro p hp
          rcases h1 p hp with hp | hp
          · split at hp
            · obtain ⟨m, k', c', e1, e2, rfl⟩ := (mem_glob _ _ _ _).1 hp
              exact Or.inr (.gz d all x m k' c' rfl hme e1 ((isGz_iff m).1 e2))
            · cases hp
          · exact Or.inr hp
        · intro p hp
          rcases h2 p hp with hp | hp
          · obtain ⟨m, k', c', e1, e2, rfl⟩ := (mem_glob _ _ _ _).1 hp
            exact Or.inr (.plain d all x m k' c' rfl hme e1 ((isCsv_iff m).1 e2))
          · exact Or.inr hp
      · next hn =>
        split at h
        · cases h
        · split at h
          · cases h
          · next g0 c0 h0 =>
            obtain ⟨i1, i2⟩ := ihx _ _ _ _ _ _ (fun _ _ _ h => h) h0
            obtain ⟨h1, h2⟩ := ihr _ _ _ _ _ _ hr h
            constructor
            · intro p hp
              rcases h1 p hp with hp | hp
              · rcases List.mem_append.1 hp with hp | hp
                · exact Or.inl hp
                · rcases i1 p ((sort_mem hS _ _).1 hp) with hp | hp
                  · cases hp
                  · exact Or.inr (.sub d all n x p hme hn hp)
              · exact Or.inr hp
            · intro p hp
              rcases h2 p hp with hp | hp
              · rcases List.mem_append.1 hp with hp | hp
                · exact Or.inl hp
                · rcases i2 p ((sort_mem hS _ _).1 hp) with hp | hp
                  · cases hp
                  · exact Or.inr (.sub d all n x p hme hn hp)
              · exact Or.inr hp

/-- With every directory readable the listing succeeds. -/
theorem loop_some {rd : Str → Bool} (hrd : ∀ x, rd x = true) (srt : List Str → List Str) (es : Entries) :
    ∀ (d : Str) (all : Entries) (gz csv : List Str), ∃ g c, loop rd srt d all gz csv es = some (g, c) := by
  induction es with
  | nil => intro d all gz csv; exact ⟨gz, csv, rfl⟩
  | cons n k x r ihx ihr =>
    intro d all gz csv
    simp only [loop, hrd]
    split
    · exact ihr ..
    · split
      · exact ihr ..
      · obtain ⟨g, c, h⟩ := ihx (join d n) x [] []
        simp only [Bool.not_true, Bool.false_eq_true, if_false, h]
        exact ihr ..

/-- What was collected stays when no `bundled` follows. -/
theorem loop_acc {rd : Str → Bool} {srt : List Str → List Str} (es : Entries) :
    ∀ (d : Str) (all : Entries) (gz csv g c : List Str),
      (∀ x, ¬ IsEntry es bundledName true x) → loop rd srt d all gz csv es = some (g, c) →
      gz ⊆ g ∧ csv ⊆ c := by
  induction es with
  | nil =>
    intro d all gz csv g c _ h
    simp only [loop, Option.some.injEq, Prod.mk.injEq] at h
    obtain ⟨rfl, rfl⟩ := h
    exact ⟨List.Subset.refl _, List.Subset.refl _⟩
  | cons n k x r ihx ihr =>
    intro d all gz csv g c hb h
    have hb' : ∀ c', ¬ IsEntry r bundledName true c' := fun c' hc => hb c' (.tail _ _ _ _ _ _ _ hc)
    simp only [loop] at h
    split at h
    · exact ihr _ _ _ _ _ _ hb' h
    · next hd =>
      simp only [Bool.not_eq_true', Bool.not_eq_false] at hd
      subst hd
      split at h
      · next hn => subst hn; exact absurd (.head ..) (hb x)
      · split at h
        · cases h
        · split at h
          · cases h
          · obtain ⟨h1, h2⟩ := ihr _ _ _ _ _ _ hb' h
            exact ⟨fun p hp => h1 (by simp [hp]), fun p hp => h2 (by simp [hp])⟩

/-- The first step of `Offered` uses one of the entries `es`. -/
def Step (csv : Bool) (d : Str) (all es : Entries) (p : Str) : Prop :=
  (∃ c n k c', csv = false ∧ IsEntry es bundledName true c ∧ IsEntry c n k c' ∧ isGz n = true ∧
      p = join (join d bundledName) n) ∨
  (∃ c n k c', csv = true ∧ IsEntry es bundledName true c ∧ IsEntry all n k c' ∧ isCsv n = true ∧
      p = join d n) ∨
  (∃ n c, IsEntry es n true c ∧ n ≠ bundledName ∧ Offered csv (join d n) c p)

theorem offered_step {csv : Bool} {d : Str} {es : Entries} {p : Str} (h : Offered csv d es p) :
    Step csv d es es p := by
  cases h with
  | @gz _ _ c n k c' h0 h1 h2 h3 => exact Or.inl ⟨c, n, k, c', h0, h1, h2, (isGz_iff n).2 h3, rfl⟩
  | @plain _ _ c n k c' h0 h1 h2 h3 =>
    exact Or.inr (Or.inl ⟨c, n, k, c', h0, h1, h2, (isCsv_iff n).2 h3, rfl⟩)
  | @sub _ _ n c p h1 h2 h3 => exact Or.inr (Or.inr ⟨n, c, h1, h2, h3⟩)

theorem isEntry_cons {n k x r n' k' x'} (h : IsEntry (.cons n k x r) n' k' x') :
    (n' = n ∧ k' = k ∧ x' = x) ∨ IsEntry r n' k' x' := by
  cases h with
  | head => exact Or.inl ⟨rfl, rfl, rfl⟩
  | @tail _ _ _ _ _ _ _ h => exact Or.inr h

theorem step_cons {csv : Bool} {d : Str} {all : Entries} {n k x r p}
    (h : Step csv d all (.cons n k x r) p) : Step csv d all r p ∨
      (k = true ∧ Step csv d all (.cons n k x .nil) p) := by
  rcases h with ⟨c, m, k', c', h0, h1, h2⟩ | ⟨c, m, k', c', h0, h1, h2⟩ | ⟨m, c, h1, h2⟩
  · rcases isEntry_cons h1 with ⟨e1, e2, e3⟩ | h1
    · refine Or.inr ⟨e2.symm, Or.inl ⟨c, m, k', c', h0, ?_, h2⟩⟩
      rw [e1, e2, e3]; exact .head ..
    · exact Or.inl (Or.inl ⟨c, m, k', c', h0, h1, h2⟩)
  · rcases isEntry_cons h1 with ⟨e1, e2, e3⟩ | h1
    · refine Or.inr ⟨e2.symm, Or.inr (Or.inl ⟨c, m, k', c', h0, ?_, h2⟩)⟩
      rw [e1, e2, e3]; exact .head ..
    · exact Or.inl (Or.inr (Or.inl ⟨c, m, k', c', h0, h1, h2⟩))
  · rcases isEntry_cons h1 with ⟨e1, e2, e3⟩ | h1
    · refine Or.inr ⟨e2.symm, Or.inr (Or.inr ⟨m, c, ?_, h2⟩)⟩
      rw [e1, e2, e3]; exact .head ..
    · exact Or.inl (Or.inr (Or.inr ⟨m, c, h1, h2⟩))

theorem loop_complete {rd : Str → Bool} (hrd : ∀ x, rd x = true) {srt : List Str → List Str}
    (hS : Sorter srt) (es : Entries) :
    ∀ (d : Str) (all : Entries) (gz csv g c : List Str), BundledFirst es →
      loop rd srt d all gz csv es = some (g, c) →
      (∀ p, Step false d all es p → p ∈ g) ∧ (∀ p, Step true d all es p → p ∈ c) := by
  induction es with
  | nil =>
    intro d all gz csv g c _ _
    constructor <;> intro p h <;>
      rcases h with ⟨c, m, k', c', h0, h1, h2⟩ | ⟨c, m, k', c', h0, h1, h2⟩ | ⟨m, c, h1, h2⟩ <;> cases h1
  | cons n k x r ihx ihr =>
    intro d all gz csv g c hf h
    obtain ⟨fx, fr, ffirst⟩ := hf
    simp only [loop, hrd] at h
    split at h
    · next hk =>
      have hk' : ¬ k = true := by simpa using hk
      obtain ⟨h1, h2⟩ := ihr _ _ _ _ _ _ fr h
      exact ⟨fun p hp => (step_cons hp).elim (h1 p) fun e => absurd e.1 hk',
        fun p hp => (step_cons hp).elim (h2 p) fun e => absurd e.1 hk'⟩
    · next hd =>
      simp only [Bool.not_eq_true', Bool.not_eq_false] at hd
      subst hd
      split at h
      · next hn =>
        subst hn
        obtain ⟨a1, a2⟩ := loop_acc _ _ _ _ _ _ _ (ffirst rfl) h
        obtain ⟨h1, h2⟩ := ihr _ _ _ _ _ _ fr h
        constructor
        · intro p hp
          rcases step_cons hp with hp | ⟨-, hp⟩
          · exact h1 p hp
          · rcases hp with ⟨c, m, k', c', h0, e1, e2, e3, rfl⟩ | ⟨c, m, k', c', h0, e1, e2⟩ | ⟨m, c, e1, e2, e3⟩
            · rcases isEntry_cons e1 with ⟨-, -, rfl⟩ | e1
              · exact a1 (by rw [if_pos True.intro, mem_glob]; exact ⟨m, k', c', e2, e3, rfl⟩)
              · cases e1
            · cases h0
            · rcases isEntry_cons e1 with ⟨e, -, -⟩ | e1
              · exact absurd e e2
              · cases e1
        · intro p hp
          rcases step_cons hp with hp | ⟨-, hp⟩
          · exact h2 p hp
          · rcases hp with ⟨c, m, k', c', h0, e1, e2⟩ | ⟨c, m, k', c', h0, e1, e2, e3, rfl⟩ | ⟨m, c, e1, e2, e3⟩
            · cases h0
            · exact a2 (by rw [mem_glob]; exact ⟨m, k', c', e2, e3, rfl⟩)
            · rcases isEntry_cons e1 with ⟨e, -, -⟩ | e1
              · exact absurd e e2
              · cases e1
      · next hn =>
        simp only [Bool.not_true, Bool.false_eq_true, if_false] at h
        split at h
        · cases h
        · next g0 c0 h0 =>
          obtain ⟨i1, i2⟩ := ihx _ _ _ _ _ _ fx h0
          obtain ⟨a1, a2⟩ := loop_acc _ _ _ _ _ _ _ (ffirst rfl) h
          obtain ⟨h1, h2⟩ := ihr _ _ _ _ _ _ fr h
          constructor
          · intro p hp
            rcases step_cons hp with hp | ⟨-, hp⟩
            · exact h1 p hp
            · rcases hp with ⟨c, m, k', c', q0, e1, e2⟩ | ⟨c, m, k', c', q0, e1, e2⟩ | ⟨m, c, e1, e2, e3⟩
              · rcases isEntry_cons e1 with ⟨e, -, -⟩ | e1
                · exact absurd e.symm hn
                · cases e1
              · cases q0
              · rcases isEntry_cons e1 with ⟨rfl, -, rfl⟩ | e1
                · exact a1 (List.mem_append_right _ ((sort_mem hS _ _).2 (i1 p (offered_step e3))))
                · cases e1
          · intro p hp
            rcases step_cons hp with hp | ⟨-, hp⟩
            · exact h2 p hp
            · rcases hp with ⟨c, m, k', c', q0, e1, e2⟩ | ⟨c, m, k', c', q0, e1, e2⟩ | ⟨m, c, e1, e2, e3⟩
              · cases q0
              · rcases isEntry_cons e1 with ⟨e, -, -⟩ | e1
                · exact absurd e.symm hn
                · cases e1
              · rcases isEntry_cons e1 with ⟨rfl, -, rfl⟩ | e1
                · exact a2 (List.mem_append_right _ ((sort_mem hS _ _).2 (i2 p (offered_step e3))))
                · cases e1

/-! ## No file twice -/

theorem join_inj {d n m : Str} (h : join d n = join d m) : n = m := by
  simpa [join] using h

theorem slash_cut {a b s t : Str} (ha : '/' ∉ a) (hb : '/' ∉ b) (h : a ++ '/' :: s = b ++ '/' :: t) :
    a = b := by
  have h1 := takeWhile_no a s ha
  have h2 := takeWhile_no b t hb
  rw [h] at h1
  exact h1.symm.trans h2

theorem under_inj {d n m s t : Str} (hn : '/' ∉ n) (hm : '/' ∉ m)
    (h : join (join d n) s = join (join d m) t) : n = m := by
  simp only [join, List.append_assoc, List.cons_append, List.append_cancel_left_eq,
    List.cons.injEq, true_and] at h
  exact slash_cut hn hm h

theorem direct_ne_under {d n m t : Str} (hn : '/' ∉ n) : join d n ≠ join (join d m) t := by
  intro h
  simp only [join, List.append_assoc, List.cons_append, List.append_cancel_left_eq,
    List.cons.injEq, true_and] at h
  exact hn (by rw [h]; simp)

theorem named_entry {es : Entries} (h : Named es) {n k c} (he : IsEntry es n k c) :
    '/' ∉ n ∧ Named c := by
  induction es with
  | nil => cases he
  | cons n' k' x r _ ihr =>
    obtain ⟨h1, h2, h3, h4⟩ := h
    rcases isEntry_cons he with ⟨rfl, rfl, rfl⟩ | he
    · exact ⟨h1, h3⟩
    · exact ihr h4 he

theorem glob_nodup (q : Str → Bool) (d : Str) (es : Entries) (h : Named es) : (glob q d es).Nodup := by
  induction es with
  | nil => simp [glob]
  | cons n k x r _ ihr =>
    obtain ⟨h1, h2, h3, h4⟩ := h
    simp only [glob]
    split
    · refine List.nodup_cons.2 ⟨?_, ihr h4⟩
      intro hm
      obtain ⟨m, k', c', e1, -, e3⟩ := (mem_glob _ _ _ _).1 hm
      have := join_inj e3
      subst this
      exact h2 _ _ e1
    · exact ihr h4

theorem offered_shape {csv : Bool} {d : Str} {es : Entries} {p : Str} (hN : Named es)
    (h : Offered csv d es p) :
    (csv = true ∧ ∃ n, '/' ∉ n ∧ p = join d n) ∨ ∃ n k c t, IsEntry es n k c ∧ p = join (join d n) t := by
  induction h with
  | gz d es c n k c' h0 h1 h2 h3 => exact Or.inr ⟨bundledName, true, c, n, h1, rfl⟩
  | plain d es c n k c' h0 h1 h2 h3 => exact Or.inl ⟨h0, n, (named_entry hN h2).1, rfl⟩
  | sub d es n c p h1 h2 h3 ih =>
    rcases ih (named_entry hN h1).2 with ⟨-, m, -, rfl⟩ | ⟨m, k, c', t, -, rfl⟩
    · exact Or.inr ⟨n, true, c, m, h1, rfl⟩
    · exact Or.inr ⟨n, true, c, m ++ '/' :: t, h1, by simp [join]⟩

theorem loop_nodup {rd : Str → Bool} {srt : List Str → List Str} (hS : Sorter srt) (es : Entries) :
    ∀ (d : Str) (all : Entries) (gz csv g c : List Str), Named es → Named all →
      loop rd srt d all gz csv es = some (g, c) → gz.Nodup → csv.Nodup →
      (∀ p ∈ gz, ∃ n t, '/' ∉ n ∧ (∀ k x, ¬ IsEntry es n k x) ∧ p = join (join d n) t) →
      (∀ p ∈ csv, (∃ n, '/' ∉ n ∧ p = join d n) ∨
        ∃ n t, '/' ∉ n ∧ (∀ k x, ¬ IsEntry es n k x) ∧ p = join (join d n) t) →
      g.Nodup ∧ c.Nodup := by
  induction es with
  | nil =>
    intro d all gz csv g c _ _ h h1 h2 _ _
    simp only [loop, Option.some.injEq, Prod.mk.injEq] at h
    obtain ⟨rfl, rfl⟩ := h
    exact ⟨h1, h2⟩
  | cons n k x r ihx ihr =>
    intro d all gz csv g c hN hA h n1 n2 u1 u2
    obtain ⟨s1, s2, s3, s4⟩ := hN
    have v1 : ∀ p ∈ gz, ∃ m t, '/' ∉ m ∧ (∀ k x, ¬ IsEntry r m k x) ∧ p = join (join d m) t := by
      intro p hp
      obtain ⟨m, t, e1, e2, e3⟩ := u1 p hp
      exact ⟨m, t, e1, fun k x hx => e2 k x (.tail _ _ _ _ _ _ _ hx), e3⟩
    have v2 : ∀ p ∈ csv, (∃ n, '/' ∉ n ∧ p = join d n) ∨
        ∃ m t, '/' ∉ m ∧ (∀ k x, ¬ IsEntry r m k x) ∧ p = join (join d m) t := by
      intro p hp
      rcases u2 p hp with hp | ⟨m, t, e1, e2, e3⟩
      · exact Or.inl hp
      · exact Or.inr ⟨m, t, e1, fun k x hx => e2 k x (.tail _ _ _ _ _ _ _ hx), e3⟩
    simp only [loop] at h
    split at h
    · exact ihr _ _ _ _ _ _ s4 hA h n1 n2 v1 v2
    · split at h
      · next hn =>
        subst hn
        refine ihr _ _ _ _ _ _ s4 hA h ?_ (glob_nodup _ _ _ hA) ?_ ?_
        · split
          · exact glob_nodup _ _ _ s3
          · exact List.nodup_nil
        · intro p hp
          split at hp
          · obtain ⟨m, k', c', e1, e2, rfl⟩ := (mem_glob _ _ _ _).1 hp
            exact ⟨bundledName, m, s1, s2, rfl⟩
          · cases hp
        · intro p hp
          obtain ⟨m, k', c', e1, e2, rfl⟩ := (mem_glob _ _ _ _).1 hp
          exact Or.inl ⟨m, (named_entry hA e1).1, rfl⟩
      · split at h
        · cases h
        · split at h
          · cases h
          · next hn _ _ g0 c0 h0 =>
            obtain ⟨i1, i2⟩ := ihx (join d n) x [] [] g0 c0 s3 s3 h0 List.nodup_nil List.nodup_nil
              (by intro p hp; cases hp) (by intro p hp; cases hp)
            obtain ⟨o1, o2⟩ := loop_sound hS _ _ _ _ _ _ _ (fun _ _ _ h => h) h0
            -- everything below the directory `n` lies below `join d n`
            have below : ∀ b p, Offered b (join d n) x p → ∃ t, p = join (join d n) t := by
              intro b p hp
              rcases offered_shape s3 hp with ⟨-, m, -, rfl⟩ | ⟨m, _, _, t, -, rfl⟩
              · exact ⟨m, rfl⟩
              · exact ⟨m ++ '/' :: t, by simp [join]⟩
            have b1 : ∀ p ∈ (sortByBundleName srt g0).1, ∃ t, p = join (join d n) t := by
              intro p hp
              rcases o1 p ((sort_mem hS _ _).1 hp) with hp | hp
              · cases hp
              · exact below _ _ hp
            have b2 : ∀ p ∈ (sortByBundleName srt c0).1, ∃ t, p = join (join d n) t := by
              intro p hp
              rcases o2 p ((sort_mem hS _ _).1 hp) with hp | hp
              · cases hp
              · exact below _ _ hp
            refine ihr _ _ _ _ _ _ s4 hA h ?_ ?_ ?_ ?_
            · refine List.nodup_append.2 ⟨n1, (sort_perm hS g0).nodup_iff.2 i1, ?_⟩
              rintro p hp q hq rfl
              obtain ⟨m, t, e1, e2, rfl⟩ := u1 p hp
              obtain ⟨t', e3⟩ := b1 _ hq
              have := under_inj e1 s1 e3
              subst this
              exact e2 _ _ (.head ..)
            · refine List.nodup_append.2 ⟨n2, (sort_perm hS c0).nodup_iff.2 i2, ?_⟩
              rintro p hp q hq rfl
              obtain ⟨t', e3⟩ := b2 _ hq
              rcases u2 p hp with ⟨m, e1, rfl⟩ | ⟨m, t, e1, e2, rfl⟩
              · exact direct_ne_under e1 e3
              · have := under_inj e1 s1 e3
                subst this
                exact e2 _ _ (.head ..)
            · intro p hp
              rcases List.mem_append.1 hp with hp | hp
              · exact v1 p hp
              · obtain ⟨t, rfl⟩ := b1 p hp
                exact ⟨n, t, s1, s2, rfl⟩
            · intro p hp
              rcases List.mem_append.1 hp with hp | hp
              · exact v2 p hp
              · obtain ⟨t, rfl⟩ := b2 p hp
                exact Or.inr ⟨n, t, s1, s2, rfl⟩

theorem compact_nodup (l : List Str) (h : l.Nodup) : compact l = l := by
  induction l with
  | nil => rfl
  | cons a l ih =>
    cases l with
    | nil => rfl
    | cons b l =>
      rw [compact]
      have h1 := (List.nodup_cons.1 h)
      rw [if_neg (fun e => h1.1 (by rw [e]; simp)), ih h1.2]

theorem compact_sub (l : List Str) : (compact l).Sublist l := by
  induction l with
  | nil => exact List.Sublist.refl _
  | cons a l ih =>
    cases l with
    | nil => exact List.Sublist.refl _
    | cons b l =>
      rw [compact]
      split
      · exact List.Sublist.cons _ ih
      · exact List.Sublist.cons_cons _ ih

theorem compact_mem (l : List Str) (p : Str) : p ∈ compact l ↔ p ∈ l := by
  refine ⟨fun h => (compact_sub l).subset h, ?_⟩
  induction l with
  | nil => exact id
  | cons a l ih =>
    cases l with
    | nil => exact id
    | cons b l =>
      intro h
      rw [compact]
      split
      · next e =>
        subst e
        rcases List.mem_cons.1 h with rfl | h
        · exact ih (List.mem_cons_self ..)
        · exact ih h
      · rcases List.mem_cons.1 h with rfl | h
        · exact List.mem_cons_self ..
        · exact List.mem_cons_of_mem _ (ih h)

end Fpki.Pending
