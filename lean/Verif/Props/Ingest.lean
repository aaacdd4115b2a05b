import Verif.Lemmas.Ingest
import Verif.Lemmas.ListFiles

/-!
# Properties C29 (pending files), C30 (journal never lies), C31 (recorded size), C33 (listing),
C65 (journal text form)

Specification vocabulary (in `Verif/Lemmas/Ingest.lean`): `Processed h k n` — in the history `h` a
batch of a directory with base name `k` succeeded that contained a file with index `n`;
`ProcessedThen ev h k n` — the same, with event `ev` afterwards; `History h d` — `h` are the effects
of any sequence of runs each stopped anywhere, `d` the journal file afterwards.
-/
namespace Fpki.Ingest
open Fpki.Journal

/-- C65: an interval written to the journal is read back unchanged, for all 64-bit intervals. -/
theorem C65_interval_text_roundtrip (i : Interval) (h1 : i.start ≤ i.stop) (h2 : i.stop < 2 ^ 64) :
    parseIntervalString (showInterval i) = some i := parse_show i ⟨h1, h2⟩

/-- C65: only non-inverted 64-bit ranges are read. -/
theorem C65_interval_text_sound (s : Str) (i : Interval) (h : parseIntervalString s = some i) :
    i.start ≤ i.stop ∧ i.stop < 2 ^ 64 := parseIntervalString_valid h

example : parseIntervalString "100-199".toList = some ⟨100, 199⟩ ∧
    parseIntervalString "7-3".toList = none ∧
    parseFileInterval "/data/log/bundled/100-199.gz".toList = some ⟨100, 199⟩ := by decide

/-- C29: PendingFiles returns, in listing order, exactly the listed files with an index outside the
completed set (for a canonical completed set, see C28). -/
theorem C29_pending_exact (key : Str) (c : Completed) (listing r : List Str)
    (hc : Canonical (lookup c key)) (h : pendingFiles key c listing = some r) :
    r.Sublist listing ∧ ∀ f, f ∈ r ↔ f ∈ listing ∧ ∃ x, parseFileInterval f = some x ∧
      ∃ n, x.start ≤ n ∧ n ≤ x.stop ∧ ¬ ∃ i ∈ lookup c key, i.start ≤ n ∧ n ≤ i.stop := by
  obtain ⟨hp, hr⟩ := pendingFiles_spec key c listing r h
  refine ⟨hr ▸ List.filter_sublist, fun f => ?_⟩
  rw [hr, List.mem_filter]
  refine and_congr_right fun hf => ?_
  obtain ⟨x, hx⟩ := Option.isSome_iff_exists.1 (hp f hf)
  have hv := parseFileInterval_valid hx
  simp only [hx, Bool.not_eq_true', Option.some.injEq, exists_eq_left']
  rw [← Bool.not_eq_true, containsInterval_iff _ hc x hv.1]
  constructor
  · intro hn
    simp only [Classical.not_forall] at hn
    obtain ⟨n, h1, h2⟩ := hn
    exact ⟨n, h1.1, h1.2, h2⟩
  · rintro ⟨n, h1, h2, h3⟩ hall
    exact h3 (hall n ⟨h1, h2⟩)

/-- C29: it fails only when some listed name has no index range. -/
theorem C29_pending_fails_iff (key : Str) (c : Completed) (listing : List Str) :
    pendingFiles key c listing = none ↔ ∃ f ∈ listing, parseFileInterval f = none := by
  induction listing with
  | nil => simp [pendingFiles]
  | cons f fs ih =>
    simp only [pendingFiles]
    cases hx : parseFileInterval f <;> cases hr : pendingFiles key c fs <;> simp_all
    split <;> simp <;> exact ih

example : pendingFiles "log".toList [("log".toList, [⟨0, 199⟩])]
      ["b/0-99.gz".toList, "b/100-250.gz".toList] = some ["b/100-250.gz".toList] ∧
    Canonical (lookup [("log".toList, [⟨0, 199⟩])] "log".toList) := by
  refine ⟨by decide +kernel, ?_⟩
  simp [lookup, Canonical]

/-- C30: at every crash point of every sequence of runs, whatever external calls fail, every index
the journal file marks complete belongs to a file of a batch that ran successfully. -/
theorem C30_completed_was_processed (h : List Ev) (jobs : List Job) (H : History h (some jobs)) :
    ∀ j ∈ jobs, ∀ k n, (∃ i ∈ lookup j.completed k, i.start ≤ n ∧ n ≤ i.stop) → Processed h k n :=
  fun j hj k n hc => (history_good H jobs rfl j hj).proc k n hc

/-- C30, flag `UpdatedSMT`: everything complete was followed by a successful SMT update. -/
theorem C30_updatedSMT_flag_true (h : List Ev) (jobs : List Job) (H : History h (some jobs)) :
    ∀ j ∈ jobs, j.updatedSMT = true → ∀ k n, (∃ i ∈ lookup j.completed k, i.start ≤ n ∧ n ≤ i.stop) →
      ProcessedThen .smtOk h k n :=
  fun j hj e k n hc => (history_good H jobs rfl j hj).smt e k n hc

/-- C30, flag `Coalesced`. Missing for the full statement: histories using the strategy
`onlysmtupdate`, see `C30_coalesced_flag_violated`. -/
theorem C30_coalesced_flag_partial (h : List Ev) (jobs : List Job)
    (H : HistoryNoSmtOnly h (some jobs)) :
    ∀ j ∈ jobs, j.coalesced = true → ∀ k n, (∃ i ∈ lookup j.completed k, i.start ≤ n ∧ n ≤ i.stop) →
      ProcessedThen .coalesceOk h k n :=
  fun j hj e k n hc => (historyNoSmtOnly_good H jobs rfl j hj).coal rfl e k n hc

/-- C30: after any history, a run on the journal left on disk offers every listed file that has an
index not processed before (in a directory of that base name). -/
theorem C30_unprocessed_offered_again (h : List Ev) (d : Disk) (H : History h d) (dir : Str)
    (listing r jobs : _) (hl : loadJobs d = some jobs)
    (hr : pendingFiles (pathBase dir) (latest jobs) listing = some r)
    (f : Str) (hf : f ∈ listing) (x : Interval) (hx : parseFileInterval f = some x)
    (n : Nat) (h1 : x.start ≤ n) (h2 : n ≤ x.stop) (hn : ¬ Processed h (pathBase dir) n) : f ∈ r := by
  obtain ⟨_, hr⟩ := pendingFiles_spec _ _ _ _ hr
  rw [hr, List.mem_filter]
  refine ⟨hf, ?_⟩
  simp only [hx, Bool.not_eq_true']
  rw [← Bool.not_eq_true]
  intro hc
  obtain ⟨i, hi, hi1, hi2⟩ := containsInterval_sound _ _ hc
  have g := goodNew (loadJobs_good (s := false) (fun js hjs => history_good H js hjs) hl)
  exact hn (g.proc _ n ⟨i, hi, by omega, by omega⟩)

/-- An environment in which every external call succeeds. -/
def okEnv (st : Strategy) (dir : Str) (listing : List Str) : Env :=
  ⟨st, dir, 0, listing, true, fun _ => true, fun _ => true, fun _ => true, fun _ => true,
    fun _ => true, true⟩

def exDir : Str := "/d/log".toList
def exRun1 : List Ev := runTrace (okEnv .onlyIngest exDir ["10-19.gz".toList]) none
def exDisk1 : Disk := applyEvs none exRun1
def exRun2 : List Ev := runTrace (okEnv .onlySmt exDir []) exDisk1
def exDisk2 : Disk := applyEvs exDisk1 exRun2
def exRun3 : List Ev := runTrace (okEnv .recordCT exDir []) exDisk1
def exRun4 : List Ev := runTrace (okEnv .full exDir ["0-9.gz".toList, "10-19.gz".toList]) exDisk1
def exDisk4 : Disk := applyEvs exDisk1 exRun4

theorem exHistory1 : History exRun1 exDisk1 :=
  History.run [] none _ exRun1 .init (List.prefix_refl _)
theorem exHistory2 : History (exRun1 ++ exRun2) exDisk2 :=
  .run _ _ _ _ exHistory1 (List.prefix_refl _)

/-- The journal of the example after `onlyingest` of indices 10-19 and `onlysmtupdate`. -/
theorem exDisk2_eq : exDisk2 = some [⟨false, false, 0, [("log".toList, [⟨10, 19⟩])]⟩,
    ⟨true, true, 0, [("log".toList, [⟨10, 19⟩])]⟩] := by decide +kernel

/-- Hypotheses of the C30 theorems are met: a journal with completed indices and flags. -/
example : ∃ h jobs, HistoryNoSmtOnly h (some jobs) ∧ History h (some jobs) ∧
    ∃ j ∈ jobs, j.coalesced = true ∧ j.updatedSMT = true ∧ Covered (lookup j.completed "log".toList) 5 := by
  have e4 : exDisk4 = some [⟨false, false, 0, [("log".toList, [⟨10, 19⟩])]⟩,
      ⟨true, true, 0, [("log".toList, [⟨0, 19⟩])]⟩] := by decide +kernel
  have h1 : HistoryNoSmtOnly exRun1 exDisk1 :=
    HistoryNoSmtOnly.run [] none (okEnv .onlyIngest exDir ["10-19.gz".toList]) exRun1
      (by simp [okEnv]) .init (List.prefix_refl _)
  have h2 : HistoryNoSmtOnly (exRun1 ++ exRun4) exDisk4 :=
    .run _ _ (okEnv .full exDir ["0-9.gz".toList, "10-19.gz".toList]) _ (by simp [okEnv]) h1
      (List.prefix_refl _)
  have h3 : History (exRun1 ++ exRun4) exDisk4 := .run _ _ _ _ exHistory1 (List.prefix_refl _)
  rw [e4] at h2 h3
  refine ⟨_, _, h2, h3, ⟨true, true, 0, [("log".toList, [⟨0, 19⟩])]⟩, by simp, rfl, rfl,
    ⟨⟨0, 19⟩, by simp [lookup], by constructor <;> simp⟩⟩

/-- C30 is false for the flag `Coalesced`: `onlyingest` followed by `onlysmtupdate` leaves a journal
that claims coalesced state although no coalescing ever ran. -/
theorem C30_coalesced_flag_violated : ∃ h jobs, History h (some jobs) ∧
    (∃ j ∈ jobs, j.coalesced = true ∧ Covered (lookup j.completed "log".toList) 10) ∧
    Ev.coalesceOk ∉ h := by
  refine ⟨exRun1 ++ exRun2, _, exDisk2_eq ▸ exHistory2,
    ⟨⟨true, true, 0, [("log".toList, [⟨10, 19⟩])]⟩, by simp, rfl, ⟨⟨10, 19⟩, by simp [lookup], ?_⟩⟩, ?_⟩
  · constructor <;> simp
  · decide +kernel

/-- C30 is false for "every file not processed is offered again" across directories that share their
last path component: after ingesting `/a/log/0-9.gz`, the file `/b/log/0-9.gz` is not offered. -/
theorem C30_same_base_violated : ∃ h jobs, History h (some jobs) ∧
    (∀ dir files, Ev.batchOk dir files ∈ h → "/b/log/0-9.gz".toList ∉ files ∧ dir ≠ "/b/log".toList) ∧
    pendingFiles (pathBase "/b/log".toList) (latest jobs) ["/b/log/0-9.gz".toList] = some [] := by
  refine ⟨runTrace (okEnv .full "/a/log".toList ["/a/log/0-9.gz".toList]) none,
    [⟨true, true, 0, [("log".toList, [⟨0, 9⟩])]⟩], ?_, ?_, by decide +kernel⟩
  · have e : applyEvs none (runTrace (okEnv .full "/a/log".toList ["/a/log/0-9.gz".toList]) none) =
        some [⟨true, true, 0, [("log".toList, [⟨0, 9⟩])]⟩] := by decide +kernel
    rw [← e]
    exact History.run [] none (okEnv .full "/a/log".toList ["/a/log/0-9.gz".toList])
      (runTrace (okEnv .full "/a/log".toList ["/a/log/0-9.gz".toList]) none) .init (List.prefix_refl _)
  · have e : runTrace (okEnv .full "/a/log".toList ["/a/log/0-9.gz".toList]) none =
      [.write [⟨false, false, 0, []⟩], .batchOk "/a/log".toList ["/a/log/0-9.gz".toList],
       .coalesceOk, .smtOk, .write [⟨true, true, 0, [("log".toList, [⟨0, 9⟩])]⟩],
       .write [⟨true, true, 0, [("log".toList, [⟨0, 9⟩])]⟩]] := by decide +kernel
    intro dir files hm
    rw [e] at hm
    simp at hm
    obtain ⟨rfl, rfl⟩ := hm
    decide

/-- C31. Missing for the full statement: the code does not check that the first completed interval
starts at 0, see `C31_recorded_size_violated`. When it does, exactly the indices below the
recorded size are the initial run of completed indices. -/
theorem C31_recorded_size_partial (l : List Interval) (hc : Canonical l) (n : Nat)
    (h : completedCTLogSize l = some n) (h0 : ∀ i ∈ l.head?, i.start = 0) :
    (∀ m, m < n → ∃ i ∈ l, i.start ≤ m ∧ m ≤ i.stop) ∧ ¬ ∃ i ∈ l, i.start ≤ n ∧ n ≤ i.stop := by
  cases l with
  | nil => simp [completedCTLogSize] at h
  | cons x xs =>
    simp only [completedCTLogSize, Option.some.injEq] at h
    have hx : x.start = 0 := h0 x (by simp)
    refine ⟨fun m hm => ⟨x, by simp, by omega, by omega⟩, ?_⟩
    rintro ⟨i, hi, h1, h2⟩
    rcases List.mem_cons.1 hi with rfl | hi
    · omega
    · have := (List.pairwise_cons.1 hc.2).1 i hi
      omega

example : completedCTLogSize [⟨0, 199⟩, ⟨300, 399⟩] = some 200 ∧
    Canonical [⟨0, 199⟩, ⟨300, 399⟩] := by
  simp [completedCTLogSize, Canonical]

/-- C31 is false: after ingesting only indices 10-19, `recordctsize` records size 20. -/
theorem C31_recorded_size_violated : ∃ h d dir, History h d ∧ Ev.recordSize dir 20 ∈ h ∧
    ¬ Processed h (pathBase dir) 0 := by
  refine ⟨exRun1 ++ exRun3, _, exDir, .run _ _ _ exRun3 exHistory1 (List.prefix_refl _), ?_, ?_⟩
  · decide +kernel
  · have e : exRun1 ++ exRun3 = [.write [⟨false, false, 0, []⟩], .batchOk exDir ["10-19.gz".toList],
       .write [⟨false, false, 0, [("log".toList, [⟨10, 19⟩])]⟩],
       .write [⟨false, false, 0, [("log".toList, [⟨10, 19⟩])]⟩],
       .write [⟨false, false, 0, [("log".toList, [⟨10, 19⟩])]⟩, ⟨false, false, 0, [("log".toList, [⟨10, 19⟩])]⟩],
       .recordSize exDir 20,
       .write [⟨false, false, 0, [("log".toList, [⟨10, 19⟩])]⟩, ⟨false, false, 20, [("log".toList, [⟨10, 19⟩])]⟩],
       .write [⟨false, false, 0, [("log".toList, [⟨10, 19⟩])]⟩, ⟨false, false, 20, [("log".toList, [⟨10, 19⟩])]⟩]] := by
      decide +kernel
    rw [e]
    rintro ⟨dir, files, f, x, h1, h2, h3, h4, h5⟩
    simp at h1
    obtain ⟨rfl, rfl⟩ := h1
    rw [List.mem_singleton.1 h3] at h4
    have e2 : parseFileInterval "10-19.gz".toList = some ⟨10, 19⟩ := by decide
    have e3 : (⟨10, 19⟩ : Interval) = x := by
      have := e2.symm.trans h4
      simpa using this
    subst e3
    have := h5.1
    simp at this

end Fpki.Ingest

namespace Fpki.ListFiles
open Fpki.Ingest (Str)

/-- C33, one direction: everything listed is a `.gz` entry of a `bundled` directory below. -/
theorem C33_listing_sound (es : Entries) (p : List Str) (h : p ∈ listGz [] [] es) : BundledGz es p := by
  rcases listGz_sound [] [] es p h with h | ⟨q, h1, h2⟩
  · simp at h
  · simpa [h1] using h2

/-- C33. Missing for the full statement: a directory listed before its sibling `bundled` (see
`C33_listing_violated`). -/
theorem C33_listing_complete_partial (es : Entries) (hf : BundledFirst es) (p : List Str) :
    p ∈ listGz [] [] es ↔ BundledGz es p :=
  ⟨C33_listing_sound es p, fun h => by simpa using listGz_complete [] es hf [] p h⟩

/-- `a/bundled/0-9.gz` next to `bundled/10-19.gz`. -/
def exTree : Entries :=
  .cons ['a'] true (.cons bundledName true (.cons "0-9.gz".toList false .nil .nil) .nil)
    (.cons bundledName true (.cons "10-19.gz".toList false .nil .nil) .nil)

/-- C33 is false: the file below the directory `a` is lost, because the files of `bundled` replace
those collected before. -/
theorem C33_listing_violated : ∃ es p, BundledGz es p ∧ p ∉ listGz [] [] es := by
  refine ⟨exTree, [['a'], bundledName, "0-9.gz".toList], ?_, by decide⟩
  refine .sub _ ['a'] _ _ (.head ..) (by decide) ?_
  exact .here _ _ _ false .nil (.head ..) (.head ..) (by decide)

/-- The hypothesis of the partial theorem is met by nested directories. -/
example : BundledFirst (.cons bundledName true (.cons "10-19.gz".toList false .nil .nil)
    (.cons ['z'] true (.cons bundledName true (.cons "0-9.gz".toList false .nil .nil) .nil) .nil)) ∧
    listGz [] [] (.cons bundledName true (.cons "10-19.gz".toList false .nil .nil)
    (.cons ['z'] true (.cons bundledName true (.cons "0-9.gz".toList false .nil .nil) .nil) .nil)) =
      [[bundledName, "10-19.gz".toList], [['z'], bundledName, "0-9.gz".toList]] := by
  refine ⟨⟨⟨trivial, trivial, by simp⟩, ⟨⟨⟨trivial, trivial, by simp⟩, trivial, ?_⟩, trivial, ?_⟩, ?_⟩, by decide⟩
  · intro _ c' h; cases h
  · intro _ c' h; cases h
  · intro _ c' h
    cases h with
    | @tail _ _ _ _ _ _ _ h => cases h

end Fpki.ListFiles
