import Verif.Lemmas.JournalMem
import Verif.Lemmas.JournalRuns
import Verif.Props.Ingest
import Verif.Props.PolicyCert

/-!
# C92: what the journal recorded stays recorded

`appendInterval` moves elements inside arrays of slices, every job of the journal has its own slices,
and every run of the ingest command appends a job that starts from the previous one.
-/
namespace Fpki.JournalMem
open Fpki.Journal Fpki.Ingest Fpki.Policy

/-- The journal after some calls. -/
def afterMem (m : Mem) (calls : List Call) : Mem := calls.foldl (fun m c => (callMem m c).1) m

/-- The same calls on values (no arrays, no sharing; the model that C28 to C31 are about). -/
def afterPure (jobs : List Job) (calls : List Call) : List Job := calls.foldl (fun j c => (callPure j c).1) jobs

theorem after_spec (calls : List Call) : ∀ (m : Mem), Sep m → m.jobs ≠ [] →
    (afterMem m calls).read = afterPure m.read calls ∧ Sep (afterMem m calls) ∧ (afterMem m calls).jobs ≠ [] ∧
      (afterMem m calls).read.dropLast = m.read.dropLast := by
  induction calls with
  | nil => intro m h hn; exact ⟨rfl, h, hn, rfl⟩
  | cons c cs ih =>
    intro m h hn
    obtain ⟨a1, _, a3, a4, a5, a6⟩ := callMem_spec h hn c
    obtain ⟨i1, i2, i3, i4⟩ := ih _ a3 a4
    refine ⟨?_, i2, i3, ?_⟩
    · show (afterMem (callMem m c).1 cs).read = afterPure (callPure m.read c).1 cs
      rw [i1, a1]
    · refine Eq.trans i4 ?_
      unfold Mem.read
      rw [← List.map_dropLast, ← List.map_dropLast, a5]
      exact read_congr a6

/-- C92: opening the journal and any calls on it have, with all slices changed in place and for every
growth policy of the runtime, exactly the results of the calls on values. -/
theorem C92_in_place (extra : Nat) (d : Disk) :
    (openMem extra d).map Mem.read = loadJobs d ∧
    ∀ m, openMem extra d = some m → ∀ calls, (afterMem m calls).read = afterPure m.read calls := by
  obtain ⟨h1, h2⟩ := openMem_spec extra d
  exact ⟨h1, fun m hm calls => (after_spec calls m (h2 m hm).1 (h2 m hm).2).1⟩

/-- C92: whether a call succeeds is also the same. -/
theorem C92_in_place_result (extra : Nat) (d : Disk) (m : Mem) (hm : openMem extra d = some m) (calls : List Call) (c : Call) :
    (callMem (afterMem m calls) c).2 = (callPure (afterMem m calls).read c).2 := by
  obtain ⟨_, h2⟩ := openMem_spec extra d
  obtain ⟨_, a2, a3, _⟩ := after_spec calls m (h2 m hm).1 (h2 m hm).2
  exact (callMem_spec a2 a3 c).2.1

/-- C92: no call on an open journal changes what the jobs of earlier runs say. -/
theorem C92_earlier_jobs_untouched (extra : Nat) (d : Disk) (m : Mem) (hm : openMem extra d = some m) (calls : List Call) :
    (afterMem m calls).read.dropLast = m.read.dropLast := by
  obtain ⟨_, h2⟩ := openMem_spec extra d
  exact (after_spec calls m (h2 m hm).1 (h2 m hm).2).2.2.2

/-- C92: inserting into a slice in place gives the list of C28, for every slice and array. -/
theorem C92_append_in_place (h : Heap) (s : Slice) (x : Interval) (extra : Nat) (h1 : s.arr < h.length) (h2 : s.len ≤ (h.getD s.arr []).length) :
    content (appendMem h s x extra).1 (appendMem h s x extra).2 = appendInterval (content h s) x ∧
    ∀ a, a < h.length → a ≠ s.arr → (appendMem h s x extra).1.getD a [] = h.getD a [] := by
  obtain ⟨a, f⟩ := appendMem_spec (h := h) (s := s) ⟨h1, h2⟩ x extra
  exact ⟨a, f.same⟩

/-- The hypotheses are met: spare capacity, an array that is full, merging with both neighbours. -/
example : appendMem [[⟨0, 9⟩, ⟨20, 29⟩, ⟨40, 49⟩, ⟨7, 7⟩]] ⟨0, 3⟩ ⟨10, 19⟩ 2 = ([[⟨0, 29⟩, ⟨40, 49⟩, ⟨40, 49⟩, ⟨7, 7⟩]], ⟨0, 2⟩) := by decide +kernel
example : appendMem [[⟨0, 9⟩, ⟨40, 49⟩]] ⟨0, 2⟩ ⟨20, 29⟩ 1 = ([[⟨0, 9⟩, ⟨40, 49⟩], [⟨0, 9⟩, ⟨20, 29⟩, ⟨40, 49⟩, ⟨0, 0⟩]], ⟨1, 3⟩) := by decide +kernel

def exDisk : Disk := some [⟨true, true, 30, [("log".toList, [⟨0, 9⟩, ⟨20, 29⟩])]⟩]

example : ∃ m, openMem 1 exDisk = some m ∧
    (afterMem m [.commit "log".toList ["10-19.gz".toList] true false 1]).read =
      [⟨true, true, 30, [("log".toList, [⟨0, 9⟩, ⟨20, 29⟩])]⟩, ⟨true, false, 30, [("log".toList, [⟨0, 29⟩])]⟩] := by
  refine ⟨_, rfl, ?_⟩; decide +kernel

/-- Why the jobs must not share arrays: two slices of one array, a change through one shows in the
other. -/
example : content (appendMem [[⟨0, 9⟩, ⟨20, 29⟩]] ⟨0, 2⟩ ⟨10, 19⟩ 0).1 ⟨0, 2⟩ ≠ content [[⟨0, 9⟩, ⟨20, 29⟩]] ⟨0, 2⟩ := by decide +kernel

/-! ## Across runs -/

/-- `Later d d'`: the journal file becomes `d'` from `d` by further runs, each stopped anywhere. -/
inductive Later (d : Disk) : Disk → Prop where
  | same : Later d d
  | run (d' : Disk) (e : Env) (pre : List Ev) : Later d d' → pre <+: runTrace e d' → Later d (applyEvs d' pre)

theorem Later.history {h : List Ev} {d d' : Disk} (H : History h d) (L : Later d d') : ∃ h', History h' d' := by
  induction L with
  | same => exact ⟨h, H⟩
  | run d' e pre _ hp ih =>
    obtain ⟨h', H'⟩ := ih
    exact ⟨_, History.run h' d' e pre H' hp⟩

/-- C92: the journal file can be read again after any history of runs and crashes. -/
theorem C92_readable (h : List Ev) (d : Disk) (H : History h d) : ∃ jobs, loadJobs d = some jobs := by
  obtain ⟨js, h1, _⟩ := reread_total H (history_keys H)
  exact ⟨_, by rw [loadJobs_eq, h1]; rfl⟩

/-- C92: every job recorded in the file is still there after any further runs, wherever they stop:
the same flags and size, the same directories, the same completed indices. -/
theorem C92_history_kept (h : List Ev) (jobs : List Job) (H : History h (some jobs)) (d' : Disk) (L : Later (some jobs) d') :
    ∃ jobs', d' = some jobs' ∧ jobs.length ≤ jobs'.length ∧
      ∀ (i : Nat) (j : Job), jobs[i]? = some j → ∃ j', jobs'[i]? = some j' ∧
        j'.coalesced = j.coalesced ∧ j'.updatedSMT = j.updatedSMT ∧ j'.ctSize = j.ctSize ∧
        j'.completed.map (·.1) = j.completed.map (·.1) ∧
        ∀ k n, (∃ x ∈ lookup j'.completed k, x.start ≤ n ∧ n ≤ x.stop) ↔ ∃ x ∈ lookup j.completed k, x.start ≤ n ∧ n ≤ x.stop := by
  suffices hs : ∃ jobs', d' = some jobs' ∧ jobs.length ≤ jobs'.length ∧
      ∀ (i : Nat) (j : Job), jobs[i]? = some j → ∃ j', jobs'[i]? = some j' ∧ SameJob j j' by
    obtain ⟨jobs', h1, h2, h3⟩ := hs
    refine ⟨jobs', h1, h2, fun i j hi => ?_⟩
    obtain ⟨j', h4, h5⟩ := h3 i j hi
    exact ⟨j', h4, h5.coalesced, h5.updatedSMT, h5.ctSize, h5.keys, h5.covered⟩
  induction L with
  | same => exact ⟨jobs, rfl, Nat.le_refl _, fun i j hi => ⟨j, hi, .refl j⟩⟩
  | run d' e pre L hp ih =>
    obtain ⟨jobs', hd', hl, hs⟩ := ih
    obtain ⟨h', H'⟩ := L.history H
    obtain ⟨js, r1, r2, r3⟩ := reread_total H' (history_keys H')
    obtain ⟨r4, r5⟩ := r3 jobs' hd'
    rcases disk_after d' js pre ((runTrace_one e d' js r1 r2).prefix hp) with h1 | ⟨jobs2, h1, j, rfl, _⟩
    · exact ⟨jobs', by rw [h1, hd'], hl, hs⟩
    · refine ⟨_, h1, by simp; omega, fun i a hi => ?_⟩
      obtain ⟨a', hi', hsa⟩ := hs i a hi
      obtain ⟨a'', hi'', hsa'⟩ := r5 i a' hi'
      refine ⟨a'', ?_, hsa.trans hsa'⟩
      rw [List.getElem?_append_left ((List.getElem?_eq_some_iff.1 hi'').1)]
      exact hi''

/-- C92: each run adds at most one job. -/
theorem C92_one_job_per_run (h : List Ev) (d : Disk) (H : History h d) (e : Env) (pre : List Ev) (hp : pre <+: runTrace e d) :
    applyEvs d pre = d ∨ ∃ jobs', applyEvs d pre = some jobs' ∧ jobs'.length = (d.getD []).length + 1 := by
  obtain ⟨js, r1, r2, r3⟩ := reread_total H (history_keys H)
  rcases disk_after d js pre ((runTrace_one e d js r1 r2).prefix hp) with h1 | ⟨jobs2, h1, j, rfl, _⟩
  · exact .inl h1
  · refine .inr ⟨_, h1, ?_⟩
    cases d with
    | none =>
      simp only [reread, Option.some.injEq] at r1
      subst r1; rfl
    | some jobs =>
      have := (r3 jobs rfl).1
      simp [this]

/-- The hypotheses are met: the second run of the example of C30, after the first. -/
example : ∃ jobs, History exRun1 (some jobs) ∧ Later (some jobs) exDisk2 ∧ jobs.length = 1 := by
  refine ⟨[⟨false, false, 0, [("log".toList, [⟨10, 19⟩])]⟩], ?_, ?_, rfl⟩
  · have : exDisk1 = some [⟨false, false, 0, [("log".toList, [⟨10, 19⟩])]⟩] := by decide +kernel
    rw [← this]; exact exHistory1
  · have : exDisk1 = some [⟨false, false, 0, [("log".toList, [⟨10, 19⟩])]⟩] := by decide +kernel
    rw [← this]
    exact Later.run exDisk1 (okEnv .onlySmt exDir []) exRun2 .same (List.prefix_refl _)

/-! ## The persisted text -/

theorem decodeList_show (l : List Interval) (h : ∀ i ∈ l, i.start ≤ i.stop ∧ i.stop < 2 ^ 64) : decodeList (l.map showInterval) = some l := by
  induction l with
  | nil => rfl
  | cons x xs ih =>
    have hx := h x (by simp)
    simp only [List.map_cons, decodeList, C65_interval_text_roundtrip x hx.1 hx.2, ih fun i hi => h i (by simp [hi])]

theorem find_none_of_notMem {β : Type} {k : Bytes} (c : List (Bytes × β)) (h : k ∉ c.map (·.1)) : c.find? (·.1 == k) = none := by
  rw [List.find?_eq_none]
  intro p hp e
  exact h (List.mem_map.2 ⟨p, hp, eq_of_beq e⟩)

/-- With valid, different keys nothing is lost or replaced. -/
theorem throughJson_eq (raw acc : List (Bytes × List Str)) (hk : ((raw ++ acc).map (·.1)).Nodup) (hv : ∀ p ∈ raw, ValidUtf8 p.1) :
    raw.foldl (fun m p => (fixUtf8 p.1, p.2) :: m.filter (·.1 != fixUtf8 p.1)) acc = raw.reverse ++ acc := by
  induction raw generalizing acc with
  | nil => rfl
  | cons p raw ih =>
    have hp : fixUtf8 p.1 = p.1 := hv p (by simp)
    simp only [List.foldl_cons, hp]
    have hn : p.1 ∉ (raw ++ acc).map (·.1) ∧ ((raw ++ acc).map (·.1)).Nodup := by simpa using hk
    have hf : acc.filter (·.1 != p.1) = acc := by
      rw [List.filter_eq_self]
      intro q hq
      have : q.1 ≠ p.1 := by
        intro e
        exact hn.1 (by rw [← e]; exact List.mem_map_of_mem (by simp [hq]))
      simpa using this
    rw [hf, show ((p.1, p.2) :: acc) = p :: acc from rfl, ih (p :: acc) ?_ fun q hq => hv q (by simp [hq])]
    · simp
    · have : ((raw ++ p :: acc).map (·.1)).Perm ((p :: raw ++ acc).map (·.1)) := (List.perm_middle (l₁ := raw) (l₂ := acc) (a := p)).map _
      exact this.nodup_iff.2 hk

theorem decode_encode (c : ByteCompleted) (h : ∀ p ∈ c, ∀ i ∈ p.2, i.start ≤ i.stop ∧ i.stop < 2 ^ 64) : decode (encode c) = some c := by
  induction c with
  | nil => rfl
  | cons p c ih =>
    obtain ⟨k, l⟩ := p
    have ih' := ih fun p hp => h p (by simp [hp])
    unfold encode at ih' ⊢
    simp only [List.map_cons, decode, decodeList_show l (h (k, l) (by simp)), ih']

theorem normalizeList_canon (l : List Interval) : ∀ (acc : List Interval), Canonical (acc ++ l) → (∀ i ∈ acc ++ l, i.stop + 1 < W) → normalizeList acc l = some (acc ++ l) := by
  intro acc hc hb
  obtain ⟨r, hr⟩ := normalizeList_total l acc fun i hi => hc.1 i (by simp [hi])
  have hv : ∀ i ∈ acc, i.Valid := fun i hi => ⟨hc.1 i (by simp [hi]), by have := hb i (by simp [hi]); omega⟩
  have hca : Canonical acc := hc.sublist (List.sublist_append_left _ _)
  have h1 := normalizeList_canonical acc l r hca (fun i hi => hb i (by simp [hi])) (fun i hi => hb i (by simp [hi])) hr
  have h2 := (normalizeList_spec acc l r hv (fun i hi => by have := hb i (by simp [hi]); omega) hr).2.2
  rw [hr, canonical_unique h1 hc fun n => (h2 n).trans (covered_append acc l n).symm]

theorem normalizeBytes_eq (c : ByteCompleted) (hk : ∀ p ∈ c, p.1 ≠ []) (hc : ∀ p ∈ c, Canonical p.2) (hb : ∀ p ∈ c, ∀ i ∈ p.2, i.stop + 1 < W) :
    normalizeBytes c = some c := by
  induction c with
  | nil => rfl
  | cons p c ih =>
    obtain ⟨k, l⟩ := p
    have hk' : k.isEmpty = false := by have := hk (k, l) (by simp); simpa using this
    have hl := normalizeList_canon l [] (by simpa using hc (k, l) (by simp)) (by simpa using hb (k, l) (by simp))
    simp only [List.nil_append] at hl
    simp only [normalizeBytes, hk', Bool.false_eq_true, if_false, hl,
      ih (fun p hp => hk p (by simp [hp])) (fun p hp => hc p (by simp [hp])) fun p hp => hb p (by simp [hp])]

theorem get_reverse (c : ByteCompleted) (hk : (c.map (·.1)).Nodup) (k : Bytes) : get c.reverse k = get c k := by
  have hkr : (c.reverse.map (·.1)).Nodup := by rw [List.map_reverse]; exact List.nodup_reverse.2 hk
  have key : ∀ (a b : ByteCompleted), (∀ p, p ∈ a → p ∈ b) → (b.map (·.1)).Nodup → ∀ l, get a k = some l → get b k = some l := by
    intro a b hs hn l hl
    unfold get at hl ⊢
    rw [Option.map_eq_some_iff] at hl
    obtain ⟨p, hf, rfl⟩ := hl
    have hpk : p.1 = k := by have := List.find?_some hf; exact eq_of_beq this
    have hpb := hs p (List.mem_of_find?_eq_some hf)
    cases hq : b.find? (·.1 == k) with
    | none =>
      exact absurd (List.find?_eq_none.1 hq p hpb) (by simp [hpk])
    | some q =>
      have hqk : q.1 = k := by have := List.find?_some hq; exact eq_of_beq this
      have : q = p := List.inj_on_of_nodup_map hn (List.mem_of_find?_eq_some hq) hpb (hqk.trans hpk.symm)
      rw [this]; rfl
  cases h1 : get c.reverse k with
  | some l => exact (key _ _ (by simp) hk l h1).symm
  | none =>
    cases h2 : get c k with
    | none => rfl
    | some l => rw [key _ _ (by simp) hkr l h2] at h1; cases h1

/-- C92: completed indices written to the file and read again are the same, if all directory names
are valid UTF-8 (and as C28 keeps them: canonical lists, below the last 64-bit index). -/
theorem C92_text_roundtrip_partial (c : ByteCompleted) (hn : (c.map (·.1)).Nodup) (hv : ∀ p ∈ c, ValidUtf8 p.1) (hk : ∀ p ∈ c, p.1 ≠ [])
    (hc : ∀ p ∈ c, Canonical p.2) (hb : ∀ p ∈ c, ∀ i ∈ p.2, i.stop < 2 ^ 64 - 1) :
    ∃ c', reload c = some c' ∧ ∀ k, get c' k = get c k := by
  refine ⟨c.reverse, ?_, get_reverse c hn⟩
  have hke : ((encode c ++ ([] : List (Bytes × List Str))).map (fun p => p.1)).Nodup := by
    have : (encode c ++ ([] : List (Bytes × List Str))).map (fun p => p.1) = c.map (·.1) := by simp [encode, Function.comp_def]
    rw [this]; exact hn
  have h1 : throughJson (encode c) = encode c.reverse := by
    have := throughJson_eq (encode c) [] hke (by
      intro p hp
      obtain ⟨q, hq, rfl⟩ := List.mem_map.1 hp
      exact hv q hq)
    unfold throughJson
    rw [this]
    simp [encode]
  have hb' : ∀ p ∈ c.reverse, ∀ i ∈ p.2, i.stop + 1 < W := by
    intro p hp i hi
    have := hb p (by simpa using hp) i hi
    simp only [W]; omega
  unfold reload
  rw [h1, decode_encode c.reverse, Option.bind_some, normalizeBytes_eq _ (fun p hp => hk p (by simpa using hp)) (fun p hp => hc p (by simpa using hp)) hb']
  intro p hp i hi
  have := hb' p hp i hi
  exact ⟨(hc p (by simpa using hp)).1 i hi, by simp only [W] at this; omega⟩

/-- The hypotheses are met by two directories with several ranges. -/
example : ∃ c, reload [([0x6c, 0x6f, 0x67], [⟨0, 9⟩, ⟨20, 29⟩]), ([0xc3, 0xa9], [⟨5, 5⟩])] = some c ∧
    get c [0x6c, 0x6f, 0x67] = some [⟨0, 9⟩, ⟨20, 29⟩] ∧ get c [0xc3, 0xa9] = some [⟨5, 5⟩] := by
  refine ⟨[([0xc3, 0xa9], [⟨5, 5⟩]), ([0x6c, 0x6f, 0x67], [⟨0, 9⟩, ⟨20, 29⟩])], ?_, ?_, ?_⟩ <;> decide +kernel
example : ValidUtf8 [0x6c, 0x6f, 0x67] ∧ ValidUtf8 [0xc3, 0xa9] := by unfold ValidUtf8; decide +kernel

/-- C92 is false for a directory name that is not valid UTF-8: what was completed is forgotten when
the journal is read again, so all its files are offered again. -/
theorem C92_text_violated : ∃ (c c' : ByteCompleted) (k : Bytes), get c k = some [⟨0, 9⟩] ∧ reload c = some c' ∧ get c' k = none :=
  ⟨[([0x6c, 0xff], [⟨0, 9⟩])], [([0x6c, 0xEF, 0xBF, 0xBD], [⟨0, 9⟩])], [0x6c, 0xff], by decide +kernel⟩

/-- C92 is false for two such names that differ only in invalid bytes: after reading, one entry is
left for both. -/
theorem C92_text_collapse_violated : ∃ (c c' : ByteCompleted), c.length = 2 ∧ (c.map (·.1)).Nodup ∧ reload c = some c' ∧ c'.length = 1 :=
  ⟨[([0x6c, 0xfe], [⟨0, 9⟩]), ([0x6c, 0xff], [⟨50, 59⟩])], [([0x6c, 0xEF, 0xBF, 0xBD], [⟨50, 59⟩])], by decide +kernel⟩

end Fpki.JournalMem
