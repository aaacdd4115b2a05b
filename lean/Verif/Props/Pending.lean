import Verif.Lemmas.Pending
import Verif.Props.Ingest

/-!
# Property C108: which files a run works on, and in which order

Specification vocabulary: `Offered csv d es f` (Lemmas/Pending) — `f` is a `.gz` file of a directory
`bundled`, or a `.csv` file next to one; `GoodName n` — the name is `A-B.gz` or `A-B.csv` with
`A ≤ B < 2^63`; `BundledFirst` — see C33; `Named` — names within a directory are distinct and
without slashes.
-/
namespace Fpki.Pending
open Fpki.Journal Fpki.Ingest Fpki.ListFiles

/-- The name is two texts of digits with a dash between them and the extension `.gz` or `.csv`; the
first number is not above the second, which is below `2^63`. -/
def GoodName (n : Str) : Prop :=
  ∃ A B : Str, A ≠ [] ∧ B ≠ [] ∧ (∀ c ∈ A, '0' ≤ c ∧ c ≤ '9') ∧ (∀ c ∈ B, '0' ≤ c ∧ c ≤ '9') ∧
    digitsVal A ≤ digitsVal B ∧ digitsVal B < 2 ^ 63 ∧
    (n = A ++ '-' :: B ++ ['.', 'g', 'z'] ∨ n = A ++ '-' :: B ++ ['.', 'c', 's', 'v'])

/-- Offered to a run with or without plain files. -/
def OfferedTo (plain : Bool) (d : Str) (es : Entries) (f : Str) : Prop :=
  Offered false d es f ∨ (plain = true ∧ Offered true d es f)

theorem isDig_iff (c : Char) : isDig c = true ↔ '0' ≤ c ∧ c ≤ '9' := by
  simp only [isDig, Bool.and_eq_true, decide_eq_true_eq]
  rfl

theorem takeWhile_dig (A t : Str) (h : ∀ c ∈ A, isDig c = true) :
    (A ++ '-' :: t).takeWhile isDig = A ∧ (A ++ '-' :: t).dropWhile isDig = '-' :: t := by
  induction A with
  | nil => exact ⟨by simp [show isDig '-' = false by decide], by simp [show isDig '-' = false by decide]⟩
  | cons a A ih =>
    have ha := h a (by simp)
    have := ih fun c hc => h c (by simp [hc])
    simp [ha, this.1, this.2]

/-- C108: which names have indices, for files with the extension `.gz` or `.csv`. -/
theorem C108_names (f s : Str)
    (hb : pathBase f = s ++ ['.', 'g', 'z'] ∨ pathBase f = s ++ ['.', 'c', 's', 'v']) :
    (filenameToIndices f).isSome ↔ GoodName (pathBase f) := by
  have e1 : stemOf (pathBase f) = some s := by
    rcases hb with hb | hb <;> rw [hb]
    · exact stemOf_gz s
    · exact stemOf_csv s
  unfold filenameToIndices
  rw [e1]
  dsimp only
  constructor
  · intro h
    split at h
    · next b hb' =>
      split at h
      · cases h
      · next hc =>
        simp only [Bool.or_eq_true, List.isEmpty_iff, Bool.not_eq_true', not_or,
          Bool.not_eq_false, List.all_eq_true] at hc
        obtain ⟨⟨c1, c2⟩, c3⟩ := hc
        have hs : s = s.takeWhile isDig ++ '-' :: b := by
          rw [← hb']; exact (List.takeWhile_append_dropWhile).symm
        split at h
        · next x y hx hy =>
          split at h
          · cases h
          · next hxy =>
            unfold atoi at hx hy
            split at hx
            · split at hy
              · next l1 l2 =>
                simp only [Option.some.injEq] at hx hy
                refine ⟨s.takeWhile isDig, b, c1, c2, ?_, ?_, by omega, l2, ?_⟩
                · intro c hc
                  exact (isDig_iff c).1 (List.all_eq_true.1 List.all_takeWhile c hc)
                · intro c hc
                  exact (isDig_iff c).1 (c3 c hc)
                · rw [← hs]
                  exact hb
              · cases hy
            · cases hx
        · cases h
    · cases h
  · rintro ⟨A, B, a1, b1, a2, b2, h1, h2, h3⟩
    have hs : s = A ++ '-' :: B := by
      have e2 : stemOf (pathBase f) = some (A ++ '-' :: B) := by
        rcases h3 with h3 | h3 <;> rw [h3]
        · exact stemOf_gz _
        · exact stemOf_csv _
      rw [e1] at e2
      exact Option.some.inj e2
    obtain ⟨t1, t2⟩ := takeWhile_dig A B fun c hc => (isDig_iff c).2 (a2 c hc)
    rw [hs, t1, t2]
    have hall : B.all isDig = true := List.all_eq_true.2 fun c hc => (isDig_iff c).2 (b2 c hc)
    simp only [hall, List.isEmpty_iff, a1, b1, atoi, if_pos h2, if_pos (show digitsVal A < 2 ^ 63 by omega),
      if_neg (show ¬ digitsVal A > digitsVal B by omega), Bool.not_true, Bool.or_false, Bool.or_eq_true,
      or_self, if_false]
    rfl

/-- C108: the estimate of a file the journal understands is the number of indices in its name. -/
theorem C108_estimate (f s : Str) (n : Nat)
    (hb : pathBase f = s ++ ['.', 'g', 'z'] ∨ pathBase f = s ++ ['.', 'c', 's', 'v'])
    (h : estimateCertCount f = some n) :
    ∃ x, parseFileInterval f = some x ∧ x.start ≤ x.stop ∧ n = x.stop - x.start + 1 ∧ n ≤ 2 ^ 63 := by
  unfold estimateCertCount at h
  cases hi : filenameToIndices f with
  | none => rw [hi] at h; cases h
  | some p =>
    obtain ⟨a, b⟩ := p
    rw [hi] at h
    simp only [Option.map_some, Option.some.injEq] at h
    have hl := indices_le f a b hi
    exact ⟨⟨a, b⟩, (indices_agree f s a b hb hi).1, hl.1, h.symm, by omega⟩

/-! ## Consequences for offered files -/

theorem offered_base {csv : Bool} {d : Str} {es : Entries} {f : Str} (hN : Named es)
    (h : Offered csv d es f) :
    ∃ s, pathBase f = s ++ ['.', 'g', 'z'] ∨ pathBase f = s ++ ['.', 'c', 's', 'v'] := by
  induction h with
  | gz d es c n k c' h0 h1 h2 h3 =>
    obtain ⟨s, rfl⟩ := h3
    exact ⟨s, Or.inl (pathBase_join _ _ (named_entry (named_entry hN h1).2 h2).1 (by simp))⟩
  | plain d es c n k c' h0 h1 h2 h3 =>
    obtain ⟨s, rfl⟩ := h3
    exact ⟨s, Or.inr (pathBase_join _ _ (named_entry hN h2).1 (by simp))⟩
  | sub d es n c p h1 h2 h3 ih => exact ih (named_entry hN h1).2

theorem offered_end {csv : Bool} {d : Str} {es : Entries} {f : Str} (h : Offered csv d es f) :
    ∃ t, f = t ++ (if csv then ['v'] else ['z']) := by
  induction h with
  | gz d es c n k c' h0 h1 h2 h3 =>
    obtain ⟨s, rfl⟩ := h3
    exact ⟨join (join d bundledName) s ++ ['.', 'g'], by simp [h0, join]⟩
  | plain d es c n k c' h0 h1 h2 h3 =>
    obtain ⟨s, rfl⟩ := h3
    exact ⟨join d s ++ ['.', 'c', 's'], by simp [h0, join]⟩
  | sub d es n c p h1 h2 h3 ih => exact ih

section
variable {rd : Str → Bool} {srt : List Str → List Str} {d : Str} {es : Entries} {plain : Bool}

/-- The listing before it is sorted for the last time. -/
theorem list_spec (hrd : ∀ x, rd x = true) (hS : Sorter srt) (hF : BundledFirst es) (hN : Named es) :
    ∃ g c, listCsvFiles rd srt d es = some (g, c) ∧
      (∀ f, f ∈ (if plain then g ++ c else g) ↔ OfferedTo plain d es f) ∧
      (if plain then g ++ c else g).Nodup := by
  obtain ⟨g, c, h⟩ := loop_some hrd srt es d es [] []
  obtain ⟨s1, s2⟩ := loop_sound hS es d es [] [] g c (fun _ _ _ h => h) h
  obtain ⟨c1, c2⟩ := loop_complete hrd hS es d es [] [] g c hF h
  obtain ⟨n1, n2⟩ := loop_nodup hS es d es [] [] g c hN hN h List.nodup_nil List.nodup_nil
    (by intro p hp; cases hp) (by intro p hp; cases hp)
  have m1 : ∀ f, f ∈ (sortByBundleName srt g).1 ↔ Offered false d es f := by
    intro f
    rw [sort_mem hS]
    exact ⟨fun hf => (s1 f hf).resolve_left (by simp), fun hf => c1 f (offered_step hf)⟩
  have m2 : ∀ f, f ∈ (sortByBundleName srt c).1 ↔ Offered true d es f := by
    intro f
    rw [sort_mem hS]
    exact ⟨fun hf => (s2 f hf).resolve_left (by simp), fun hf => c2 f (offered_step hf)⟩
  refine ⟨_, _, by simp only [listCsvFiles, hrd, h]; rfl, ?_, ?_⟩
  · intro f
    cases plain
    · simp only [Bool.false_eq_true, if_false, OfferedTo, false_and, or_false]
      exact m1 f
    · simp only [if_true, List.mem_append, OfferedTo, true_and]
      exact or_congr (m1 f) (m2 f)
  · cases plain
    · exact (sort_perm hS g).nodup_iff.2 n1
    · simp only [if_true]
      refine List.nodup_append.2 ⟨(sort_perm hS g).nodup_iff.2 n1, (sort_perm hS c).nodup_iff.2 n2, ?_⟩
      rintro p hp q hq rfl
      obtain ⟨t, ht⟩ := offered_end ((m1 p).1 hp)
      obtain ⟨u, hu⟩ := offered_end ((m2 p).1 hq)
      rw [ht] at hu
      have := congrArg List.getLast? hu
      simp at this

/-- The listing of the journal: all offered files, sorted, or nothing. -/
theorem files_spec (hrd : ∀ x, rd x = true) (hS : Sorter srt) (hF : BundledFirst es) (hN : Named es) :
    ((∃ f, OfferedTo plain d es f ∧ ¬ GoodName (pathBase f)) ∧ listFiles rd srt plain d es = none) ∨
    ((∀ f, OfferedTo plain d es f → GoodName (pathBase f)) ∧ ∃ l,
      listFiles rd srt plain d es = some l ∧ (∀ f, f ∈ l ↔ OfferedTo plain d es f) ∧ l.Nodup ∧
      l.Pairwise fun a b => (csvFilenameToFirstIndex a).getD 0 ≤ (csvFilenameToFirstIndex b).getD 0) := by
  obtain ⟨g, c, h, hm, hn⟩ := list_spec (plain := plain) hrd hS hF hN
  have good : ∀ f, OfferedTo plain d es f → ((filenameToIndices f).isSome ↔ GoodName (pathBase f)) := by
    intro f hf
    have : ∃ s, pathBase f = s ++ ['.', 'g', 'z'] ∨ pathBase f = s ++ ['.', 'c', 's', 'v'] := by
      rcases hf with hf | ⟨-, hf⟩ <;> exact offered_base hN hf
    obtain ⟨s, hs⟩ := this
    exact C108_names f s hs
  generalize hL : (if plain then g ++ c else g) = L at hm hn
  by_cases hall : ∀ f ∈ L, (filenameToIndices f).isSome
  · right
    refine ⟨fun f hf => (good f hf).1 (hall f ((hm f).2 hf)), ?_⟩
    obtain ⟨p1, p2⟩ := hS L hall
    have hnd : (srt L).Nodup := p1.nodup_iff.2 hn
    have hsort : sortByBundleName srt L = (srt L, true) := by
      unfold sortByBundleName
      rw [if_pos (List.all_eq_true.2 hall)]
    refine ⟨srt L, ?_, fun f => p1.mem_iff.trans (hm f), hnd, p2⟩
    unfold listFiles
    rw [h]
    dsimp only
    rw [hL, hsort]
    dsimp only
    rw [compact_nodup _ hnd]
  · left
    simp only [Classical.not_forall] at hall
    obtain ⟨f, hf, hbad⟩ := hall
    have hof := (hm f).1 hf
    refine ⟨⟨f, hof, fun hg => hbad ((good f hof).2 hg)⟩, ?_⟩
    have hsort : sortByBundleName srt L = (L, false) := by
      unfold sortByBundleName
      rw [if_neg (fun hx => hbad (List.all_eq_true.1 hx f hf))]
    unfold listFiles
    rw [h]
    dsimp only
    rw [hL, hsort]

theorem good_parses (hN : Named es) (f : Str) (hf : OfferedTo plain d es f)
    (hg : GoodName (pathBase f)) : ∃ a b, filenameToIndices f = some (a, b) ∧
      parseFileInterval f = some ⟨a, b⟩ := by
  have : ∃ s, pathBase f = s ++ ['.', 'g', 'z'] ∨ pathBase f = s ++ ['.', 'c', 's', 'v'] := by
    rcases hf with hf | ⟨-, hf⟩ <;> exact offered_base hN hf
  obtain ⟨s, hs⟩ := this
  obtain ⟨p, hp⟩ := Option.isSome_iff_exists.1 ((C108_names f s hs).2 hg)
  exact ⟨p.1, p.2, hp, (indices_agree f s p.1 p.2 hs hp).1⟩

/-- C108: PendingFiles fails exactly when some offered file has a name without indices.
Directories are readable here; see `C108_unreadable_violated`. -/
theorem C108_fails_iff_partial (hrd : ∀ x, rd x = true) (hS : Sorter srt) (hF : BundledFirst es)
    (hN : Named es) (done : Completed) :
    pending rd srt plain done d es = none ↔
      ∃ f, OfferedTo plain d es f ∧ ¬ GoodName (pathBase f) := by
  unfold pending
  rcases files_spec (plain := plain) (d := d) hrd hS hF hN with ⟨hb, h⟩ | ⟨hg, l, h, hm, -, -⟩
  · rw [h]; exact ⟨fun _ => hb, fun _ => rfl⟩
  · rw [h]
    dsimp only
    rw [C29_pending_fails_iff]
    constructor
    · rintro ⟨f, hf, hn⟩
      obtain ⟨a, b, -, e⟩ := good_parses hN f ((hm f).1 hf) (hg f ((hm f).1 hf))
      rw [e] at hn; cases hn
    · rintro ⟨f, hf, hn⟩
      exact absurd (hg f hf) hn

/-- C108: when all offered files have good names, PendingFiles returns exactly those with an index
that is not completed, each once, ordered by their first index. -/
theorem C108_pending_partial (hrd : ∀ x, rd x = true) (hS : Sorter srt) (hF : BundledFirst es)
    (hN : Named es) (done : Completed) (hc : Canonical (lookup done (pathBase d)))
    (hg : ∀ f, OfferedTo plain d es f → GoodName (pathBase f)) :
    ∃ r, pending rd srt plain done d es = some r ∧ r.Nodup ∧
      (r.Pairwise fun a b => ∀ x y, parseFileInterval a = some x → parseFileInterval b = some y →
        x.start ≤ y.start) ∧
      ∀ f, f ∈ r ↔ OfferedTo plain d es f ∧ ∃ x, parseFileInterval f = some x ∧
        ∃ n, x.start ≤ n ∧ n ≤ x.stop ∧
          ¬ ∃ i ∈ lookup done (pathBase d), i.start ≤ n ∧ n ≤ i.stop := by
  cases hp : pending rd srt plain done d es with
  | none =>
    obtain ⟨f, h1, h2⟩ := (C108_fails_iff_partial hrd hS hF hN done).1 hp
    exact absurd (hg f h1) h2
  | some r =>
    refine ⟨r, rfl, ?_⟩
    unfold pending at hp
    rcases files_spec (plain := plain) (d := d) hrd hS hF hN with ⟨-, h⟩ | ⟨-, l, h, hm, hn, hs⟩
    · rw [h] at hp; cases hp
    · rw [h] at hp
      dsimp only at hp
      obtain ⟨sub, hex⟩ := C29_pending_exact _ _ _ _ hc hp
      refine ⟨sub.nodup hn, ?_, fun f => by rw [hex f, hm f]⟩
      refine (hs.sublist sub).imp_of_mem ?_
      intro a b ha hb hab x y hx hy
      have oa := (hm a).1 (sub.subset ha)
      have ob := (hm b).1 (sub.subset hb)
      obtain ⟨a1, a2, e1, e2⟩ := good_parses hN a oa (hg a oa)
      obtain ⟨b1, b2, e3, e4⟩ := good_parses hN b ob (hg b ob)
      rw [e2, Option.some.injEq] at hx
      rw [e4, Option.some.injEq] at hy
      subst hx hy
      simpa [csvFilenameToFirstIndex, e1, e3] using hab

theorem totalRows_some (l : List Str) (h : ∀ f ∈ l, (filenameToIndices f).isSome) :
    ∃ n, totalRows l = some n := by
  induction l with
  | nil => exact ⟨0, rfl⟩
  | cons f fs ih =>
    obtain ⟨n, hn⟩ := ih fun g hg => h g (by simp [hg])
    obtain ⟨p, hp⟩ := Option.isSome_iff_exists.1 (h f (by simp))
    exact ⟨_, by simp only [totalRows, estimateCertCount, hp, hn, Option.map_some]; rfl⟩

theorem chunks_flatten (n : Nat) (l : List α) : (chunks n l).flatten = l := by
  fun_induction chunks n l with
  | case1 => rfl
  | case2 => simp
  | case3 x xs h ih => rw [List.flatten_cons, ih, List.take_append_drop]

theorem chunks_sizes (n : Nat) (hn : 0 < n) (l : List α) :
    ∀ b ∈ chunks n l, b ≠ [] ∧ b.length ≤ n := by
  fun_induction chunks n l with
  | case1 => simp
  | case2 h => omega
  | case3 x xs h ih =>
    intro b hb
    rcases List.mem_cons.1 hb with rfl | hb
    · refine ⟨?_, by simp; omega⟩
      cases n with
      | zero => omega
      | succ m => simp
    · exact ih b hb

/-- C108: a run works on all pending files in the order of PendingFiles, in batches of at most
`FileBatch` files; the estimates never make it fail. -/
theorem C108_batches_partial (hrd : ∀ x, rd x = true) (hS : Sorter srt) (hF : BundledFirst es)
    (hN : Named es) (done : Completed) (hc : Canonical (lookup done (pathBase d)))
    (hg : ∀ f, OfferedTo plain d es f → GoodName (pathBase f)) (fileBatch : Nat) :
    ∃ r bs, pending rd srt plain done d es = some r ∧
      batchesOf rd srt plain fileBatch done d es = some bs ∧ bs.flatten = r ∧
      ∀ b ∈ bs, b ≠ [] ∧ (0 < fileBatch → b.length ≤ fileBatch) := by
  obtain ⟨r, h1, -, -, h2⟩ := C108_pending_partial hrd hS hF hN done hc hg
  have hidx : ∀ f ∈ r, (filenameToIndices f).isSome := by
    intro f hf
    obtain ⟨hof, -⟩ := (h2 f).1 hf
    obtain ⟨a, b, e, -⟩ := good_parses hN f hof (hg f hof)
    rw [e]; rfl
  obtain ⟨n, hn⟩ := totalRows_some r hidx
  unfold batchesOf
  rw [h1]
  dsimp only
  rw [hn]
  dsimp only
  by_cases he : r = []
  · subst he
    exact ⟨[], [], rfl, rfl, rfl, by simp⟩
  · rw [if_neg (by simpa using he)]
    have hlen : 0 < r.length := List.length_pos_iff.2 he
    refine ⟨r, _, rfl, rfl, chunks_flatten _ r, ?_⟩
    intro b hb
    have hpos : 0 < batchSize fileBatch r.length := by
      unfold batchSize; split <;> omega
    obtain ⟨b1, b2⟩ := chunks_sizes _ hpos r b hb
    refine ⟨b1, fun hfb => ?_⟩
    unfold batchSize at b2
    split at b2 <;> omega

end

/-! ## Examples and counterexamples -/

def exInsert (a : Str) : List Str → List Str
  | [] => [a]
  | b :: l => if (csvFilenameToFirstIndex a).getD 0 ≤ (csvFilenameToFirstIndex b).getD 0 then a :: b :: l
    else b :: exInsert a l

/-- A sorting algorithm that keeps the contract. -/
def exSort : List Str → List Str
  | [] => []
  | a :: l => exInsert a (exSort l)

theorem exInsert_perm (a : Str) (l : List Str) : (exInsert a l).Perm (a :: l) := by
  induction l with
  | nil => exact List.Perm.refl _
  | cons b l ih =>
    unfold exInsert
    split
    · exact List.Perm.refl _
    · exact (ih.cons b).trans (List.Perm.swap ..)

theorem exInsert_sorted (a : Str) (l : List Str)
    (h : l.Pairwise fun a b => (csvFilenameToFirstIndex a).getD 0 ≤ (csvFilenameToFirstIndex b).getD 0) :
    (exInsert a l).Pairwise fun a b =>
      (csvFilenameToFirstIndex a).getD 0 ≤ (csvFilenameToFirstIndex b).getD 0 := by
  induction l with
  | nil => simp [exInsert]
  | cons b l ih =>
    have hb := List.pairwise_cons.1 h
    unfold exInsert
    split
    · next hab =>
      refine List.pairwise_cons.2 ⟨?_, h⟩
      intro c hc
      rcases List.mem_cons.1 hc with rfl | hc
      · exact hab
      · exact Nat.le_trans hab (hb.1 c hc)
    · next hab =>
      refine List.pairwise_cons.2 ⟨?_, ih hb.2⟩
      intro c hc
      rcases List.mem_cons.1 ((exInsert_perm a l).mem_iff.1 hc) with rfl | hc
      · omega
      · exact hb.1 c hc

theorem exSort_sorter : Sorter exSort := by
  intro l hl
  induction l with
  | nil => exact ⟨List.Perm.refl _, List.Pairwise.nil⟩
  | cons a l ih =>
    have := ih (by intro f hf; exact hl f (by simp [hf]))
    exact ⟨(exInsert_perm a _).trans (this.1.cons a), exInsert_sorted a _ this.2⟩

/-- `bundled/{100-199.gz, 20-99.gz}`, `0-19.csv`, and `z/bundled/0-19.gz`. -/
def exDir : Entries :=
  .cons "0-19.csv".toList false .nil
    (.cons bundledName true
      (.cons "100-199.gz".toList false .nil (.cons "20-99.gz".toList false .nil .nil))
      (.cons ['z'] true (.cons bundledName true (.cons "0-19.gz".toList false .nil .nil) .nil) .nil))

theorem entry_cons_iff (n k x r n' k' x') : IsEntry (.cons n k x r) n' k' x' ↔
    (n' = n ∧ k' = k ∧ x' = x) ∨ IsEntry r n' k' x' := by
  constructor
  · exact isEntry_cons
  · rintro (⟨rfl, rfl, rfl⟩ | h)
    · exact .head ..
    · exact .tail _ _ _ _ _ _ _ h

theorem entry_nil_iff (n' k' x') : ¬ IsEntry .nil n' k' x' := by intro h; cases h

/-- The hypotheses are met by a directory with files of both kinds; without plain files the run
gets the compressed ones in the order of their indices, in batches of two. -/
example : BundledFirst exDir ∧ Named exDir ∧
    pending (fun _ => true) exSort false [("log".toList, [⟨20, 99⟩])] "/d/log".toList exDir =
      some ["/d/log/z/bundled/0-19.gz".toList, "/d/log/bundled/100-199.gz".toList] ∧
    pending (fun _ => true) exSort true [] "/d/log".toList exDir =
      some ["/d/log/z/bundled/0-19.gz".toList, "/d/log/0-19.csv".toList,
        "/d/log/bundled/20-99.gz".toList, "/d/log/bundled/100-199.gz".toList] ∧
    batchesOf (fun _ => true) exSort true 3 [] "/d/log".toList exDir =
      some [["/d/log/z/bundled/0-19.gz".toList, "/d/log/0-19.csv".toList,
        "/d/log/bundled/20-99.gz".toList], ["/d/log/bundled/100-199.gz".toList]] := by
  refine ⟨?_, ?_, by decide +kernel, by decide +kernel, by decide +kernel⟩
  · simp only [exDir, BundledFirst, entry_cons_iff, entry_nil_iff]
    simp [bundledName]
  · simp only [exDir, Named, entry_cons_iff, entry_nil_iff]
    simp [bundledName]

example : GoodName "100-199.gz".toList := by
  refine ⟨"100".toList, "199".toList, ?_⟩
  decide +kernel

/-- `bundled/{0-9.gz, index.gz}`. -/
def exStray (stray : Str) : Entries :=
  .cons bundledName true (.cons "0-9.gz".toList false .nil (.cons stray false .nil .nil)) .nil

/-- C108 is false: with one `.gz` file of another name next to it, no file is ingested and the run
fails; the same happens for a name with the numbers in the wrong order and for numbers from `2^63`
on, which the journal could represent. -/
theorem C108_stray_violated : ∀ stray ∈ ["index.gz".toList, "30-10.gz".toList,
      "9223372036854775808-9223372036854775809.gz".toList],
    Offered false "/d".toList (exStray stray) "/d/bundled/0-9.gz".toList ∧
    GoodName "0-9.gz".toList ∧
    ∀ srt, Sorter srt → pending (fun _ => true) srt false [] "/d".toList (exStray stray) = none := by
  intro stray hs
  refine ⟨.gz _ _ _ _ _ _ rfl (.head ..) (.head ..) ⟨"0-9".toList, rfl⟩, ?_, ?_⟩
  · refine ⟨"0".toList, "9".toList, ?_⟩
    decide +kernel
  · intro srt hS
    have hF : BundledFirst (exStray stray) := by
      simp only [exStray, BundledFirst, entry_cons_iff, entry_nil_iff]
      simp
    have hN : Named (exStray stray) := by
      simp only [List.mem_cons, List.not_mem_nil, or_false] at hs
      rcases hs with rfl | rfl | rfl <;>
      · simp only [exStray, Named, entry_cons_iff, entry_nil_iff]
        simp [bundledName]
    rw [C108_fails_iff_partial (fun _ => rfl) hS hF hN]
    refine ⟨join (join "/d".toList bundledName) stray, Or.inl ?_, ?_⟩
    · refine .gz _ _ _ _ false .nil rfl (.head ..) (.tail _ _ _ _ _ _ _ (.head ..)) ?_
      simp only [List.mem_cons, List.not_mem_nil, or_false] at hs
      rcases hs with rfl | rfl | rfl
      · exact ⟨"index".toList, rfl⟩
      · exact ⟨"30-10".toList, rfl⟩
      · exact ⟨"9223372036854775808-9223372036854775809".toList, rfl⟩
    · simp only [List.mem_cons, List.not_mem_nil, or_false] at hs
      rcases hs with rfl | rfl | rfl
      · rw [← C108_names _ "index".toList (Or.inl (by decide +kernel))]
        decide +kernel
      · rw [← C108_names _ "30-10".toList (Or.inl (by decide +kernel))]
        decide +kernel
      · rw [← C108_names _ "9223372036854775808-9223372036854775809".toList (Or.inl (by decide +kernel))]
        decide +kernel

/-- C108 is false: when a directory `bundled` cannot be read, its files are silently missing and the
run goes on as if nothing were pending; a directory with any other name makes it fail. -/
theorem C108_unreadable_violated : ∃ rd es f, Offered false "/d".toList es f ∧
    GoodName (pathBase f) ∧ Named es ∧ BundledFirst es ∧
    (∀ srt, Sorter srt → pending rd srt false [] "/d".toList es = some []) := by
  refine ⟨fun x => x != "/d/bundled".toList, .cons bundledName true (.cons "0-9.gz".toList false .nil .nil) .nil,
    "/d/bundled/0-9.gz".toList, .gz _ _ _ _ _ _ rfl (.head ..) (.head ..) ⟨"0-9".toList, rfl⟩, ?_, ?_, ?_, ?_⟩
  · refine ⟨"0".toList, "9".toList, ?_⟩
    decide +kernel
  · simp only [Named, entry_cons_iff, entry_nil_iff]
    simp [bundledName]
  · simp only [BundledFirst, entry_cons_iff, entry_nil_iff]
    simp
  · intro srt hS
    have e : srt [] = [] := List.Perm.eq_nil ((hS [] (by simp)).1)
    simp [join, pending, listFiles, listCsvFiles, loop, glob, isCsv, bundledName, sortByBundleName, e, compact, pendingFiles]

end Fpki.Pending
