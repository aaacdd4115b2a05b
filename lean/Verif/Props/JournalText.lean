import Verif.Model.JournalText
import Verif.Lemmas.ReflectClean
import Verif.Props.JournalMem
import Verif.Props.JournalFile
import Verif.Props.Wire
/-!
# C105: the bytes of the journal file

`write js` — the bytes the journal with the jobs `js` is saved as; `read s` — the jobs `NewJournal` takes from the bytes `s`, `none` an error.
-/
namespace Fpki.JournalText

open Fpki.Json Fpki.Reflect Fpki.Config
open Fpki.Domain (asc)
open Fpki.Policy (fixUtf8 ValidUtf8 Time)
open Fpki.Journal (Interval Canonical normalizeList)
open Fpki.Ingest (Str showInterval showNat isDig parseIntervalString)
open Fpki.JournalMem (ByteCompleted normalizeBytes decode decodeList encode)

/-! ## The words of the claim -/

/-- The numbers are those of Go's `int` and `int64`. -/
def InRange (j : Job) : Prop := (-(2 ^ 63) ≤ j.conf.fileBatch ∧ j.conf.fileBatch < 2 ^ 63) ∧ -(2 ^ 63) ≤ j.ctSize ∧ j.ctSize < 2 ^ 63

/-- A Go map with directory names that are UTF-8, and ranges of 64-bit numbers. -/
structure Plain (c : ByteCompleted) : Prop where
  sorted : c.Pairwise fun p q => bytesLt p.1 q.1 = true
  utf8 : ∀ p ∈ c, ValidUtf8 p.1
  ranges : ∀ p ∈ c, ∀ i ∈ p.2, i.start ≤ i.stop ∧ i.stop < 2 ^ 64

/-- As the journal keeps it (C28), below the last 64-bit number. -/
structure Kept (c : ByteCompleted) : Prop extends Plain c where
  named : ∀ p ∈ c, p.1 ≠ []
  canonical : ∀ p ∈ c, Canonical p.2
  bounded : ∀ p ∈ c, ∀ i ∈ p.2, i.stop < 2 ^ 64 - 1

/-- What a JSON text can show of the strings: bytes that are not UTF-8 become U+FFFD. -/
def shown (j : Job) : Job := { j with cwd := fixUtf8 j.cwd, cmd := j.cmd.map (·.map fixUtf8), startTime := fixUtf8 j.startTime, endTime := fixUtf8 j.endTime }

/-- The job of the model of the ingest command (C29, C30, C92): what decides about later runs. -/
def view (j : Job) : Ingest.Job := ⟨j.coalesced, j.updatedSMT, j.ctSize.toNat, j.completed.map fun p => (ofBytes p.1, p.2)⟩

/-! ## Lemmas -/

theorem showNat_digits (n : Nat) : ∀ c ∈ showNat n, isDig c = true := by
  induction n using Nat.strongRecOn with
  | ind n ih =>
    intro c hc
    have hd : ∀ k, k < 10 → isDig (Char.ofNat (48 + k)) = true := by
      intro k hk
      have : ∀ k : Fin 10, isDig (Char.ofNat (48 + k.val)) = true := by decide
      exact this ⟨k, hk⟩
    rw [showNat] at hc
    split at hc
    · rename_i h
      rw [List.mem_singleton.1 hc]
      exact hd n h
    · rename_i h
      rcases List.mem_append.1 hc with hc | hc
      · exact ih (n / 10) (by omega) c hc
      · rw [List.mem_singleton.1 hc]
        exact hd _ (Nat.mod_lt _ (by omega))

theorem show_ascii (i : Interval) : ∀ c ∈ showInterval i, c.toNat < 128 := by
  intro c hc
  unfold showInterval at hc
  rcases List.mem_append.1 hc with hc | hc
  · have := Ingest.isDig_toNat (showNat_digits _ c hc)
    omega
  · rcases List.mem_cons.1 hc with rfl | hc
    · decide
    · have := Ingest.isDig_toNat (showNat_digits _ c hc)
      omega

theorem ofBytes_toBytes (s : Str) (h : ∀ c ∈ s, c.toNat < 128) : ofBytes (toBytes s) = s := by
  unfold ofBytes toBytes
  rw [List.map_map]
  conv => rhs; rw [← List.map_id s]
  refine List.map_congr_left fun c hc => ?_
  have := h c hc
  show Char.ofNat (UInt8.ofNat c.toNat).toNat = c
  rw [toNat_small (by omega), Char.ofNat_toNat]

theorem toBytes_utf8 (s : Str) (h : ∀ c ∈ s, c.toNat < 128) : fixUtf8 (toBytes s) = toBytes s := by
  refine fix_ascii _ fun b hb => ?_
  obtain ⟨c, hc, rfl⟩ := List.mem_map.1 hb
  have := h c hc
  rw [UInt8.lt_iff_toNat_lt, toNat_small (by omega)]
  exact this

theorem journal_wf : wf journalShape = true := by decide +kernel

theorem journal_noOmit : noOmit journalShape = true := by decide +kernel

theorem fits_intervals (T : Time → Prop) (l : List Interval) : Fits T (.slice .str) (intervalsV l) := by
  unfold intervalsV
  rw [Fits]
  intro v hv
  obtain ⟨i, _, rfl⟩ := List.mem_map.1 hv
  rw [Fits]
  exact True.intro

theorem fits_completed (T : Time → Prop) (c : ByteCompleted) : Fits T (.map (.slice .str)) (completedV c) := by
  unfold completedV
  rw [Fits]
  intro p hp
  obtain ⟨q, _, rfl⟩ := List.mem_map.1 hp
  exact fits_intervals T q.2

theorem fits_cmd (T : Time → Prop) (c : Option (List Bytes)) : Fits T (.slice .str) (cmdV c) := by
  cases c with
  | none => rw [cmdV, Fits]; exact True.intro
  | some l =>
    rw [cmdV, Fits]
    intro v hv
    obtain ⟨i, _, rfl⟩ := List.mem_map.1 hv
    rw [Fits]
    exact True.intro

theorem fits_job (T : Time → Prop) (j : Job) (h : InRange j) : Fits T jobShape (jobV j) := by
  unfold jobShape jobV confShape confV
  simp only [Fits, Fitss, and_true, true_and]
  exact ⟨fits_cmd T _, h.1, h.2, fits_completed T _⟩

theorem fits_journal (T : Time → Prop) (js : List Job) (h : ∀ j ∈ js, InRange j) : Fits T journalShape (.struct [.slice (js.map jobV)]) := by
  unfold journalShape
  simp only [Fits, Fitss, and_true]
  intro v hv
  obtain ⟨j, hj, rfl⟩ := List.mem_map.1 hv
  exact fits_job T j (h j hj)

theorem exact_journal (js : List Job) (h : ∀ j ∈ js, InRange j) : Exact journalShape (.struct [.slice (js.map jobV)]) :=
  exact_of_fits (fun _ => False) (fun _ h => h.elim) _ _ (fits_journal _ js h)

theorem blank2 : Blank [0x20, 0x20] := by
  intro b hb
  simp only [List.mem_cons, List.not_mem_nil, or_false, or_self] at hb
  subst hb
  decide

/-- Every journal can be written. -/
theorem writes (js : List Job) (h : ∀ j ∈ js, InRange j) : ∃ x, encJ journalShape (.struct [.slice (js.map jobV)]) = some x ∧ Ints x ∧ isNum x = false ∧ write js = some (renderIndent [0x20, 0x20] x) := by
  obtain ⟨x, hx⟩ := fits_writes (fun _ => False) (fun _ h => h.elim) _ _ (fits_journal _ js h)
  have hi := (dec_enc _ journal_wf _ _ (exact_journal js h) hx).1
  refine ⟨x, hx, hi, ?_, by unfold write; rw [hx]; rfl⟩
  unfold journalShape at hx
  rw [encJ] at hx
  obtain ⟨l, _, rfl⟩ := Option.map_eq_some_iff.1 hx
  rfl

/-- What is read from what was written. -/
theorem reads (js : List Job) (h : ∀ j ∈ js, InRange j) (t : Bytes) (ht : write js = some t) :
    read t = jobsOf (elemsOf ((fieldsOf (norm journalShape (.struct [.slice (js.map jobV)]))).headD .nilSlice)) := by
  obtain ⟨x, hx, hi, _, hw⟩ := writes js h
  rw [hw] at ht
  cases ht
  unfold read
  rw [parse_indent blank2 x hi]
  dsimp only
  unfold inflate
  rw [(dec_enc _ journal_wf _ _ (exact_journal js h) hx).2]

theorem norm_intervals (l : List Interval) : norm (.slice .str) (intervalsV l) = intervalsV l := by
  unfold intervalsV
  rw [norm, List.map_map]
  congr 1
  refine List.map_congr_left fun i _ => ?_
  show norm .str (.str (toBytes (showInterval i))) = _
  rw [norm, toBytes_utf8 _ (show_ascii i)]

theorem norm_completed (c : ByteCompleted) (hs : c.Pairwise fun p q => bytesLt p.1 q.1 = true) (hu : ∀ p ∈ c, ValidUtf8 p.1) : norm (.map (.slice .str)) (completedV c) = completedV c := by
  unfold completedV
  rw [norm, put_sorted _ _ []]
  · rfl
  · rw [List.nil_append, List.pairwise_map]
    exact hs
  · intro p hp
    obtain ⟨q, hq, rfl⟩ := List.mem_map.1 hp
    exact ⟨hu q hq, norm_intervals q.2⟩

theorem norm_cmd (c : Option (List Bytes)) : norm (.slice .str) (cmdV c) = cmdV (c.map (·.map fixUtf8)) := by
  cases c with
  | none => rw [cmdV, norm.eq_def]; rfl
  | some l =>
    rw [cmdV, norm, List.map_map]
    show _ = V.slice ((l.map fixUtf8).map .str)
    rw [List.map_map]
    congr 1

theorem norm_job (j : Job) (hs : j.completed.Pairwise fun p q => bytesLt p.1 q.1 = true) (hu : ∀ p ∈ j.completed, ValidUtf8 p.1) : norm jobShape (jobV j) = jobV (shown j) := by
  unfold jobShape jobV confShape confV
  simp only [norm, norms, Bool.false_and, Bool.false_eq_true, if_false, norm_cmd, norm_completed _ hs hu]
  rfl

theorem norm_journal (js : List Job) (h : ∀ j ∈ js, (j.completed.Pairwise fun p q => bytesLt p.1 q.1 = true) ∧ ∀ p ∈ j.completed, ValidUtf8 p.1) :
    norm journalShape (.struct [.slice (js.map jobV)]) = .struct [.slice ((js.map shown).map jobV)] := by
  unfold journalShape
  simp only [norm, norms, Bool.false_and, Bool.false_eq_true, if_false, List.map_map]
  congr 3
  exact List.map_congr_left fun j hj => norm_job j (h j hj).1 (h j hj).2

theorem raw_back (c : ByteCompleted) : rawOf (completedV c) = encode c := by
  unfold rawOf completedV encode
  show (c.map _).map _ = _
  rw [List.map_map]
  refine List.map_congr_left fun p _ => ?_
  show (p.1, (List.map _ p.2).map _) = _
  rw [List.map_map]
  congr 1
  exact List.map_congr_left fun i _ => ofBytes_toBytes _ (show_ascii i)

theorem cmd_back (c : Option (List Bytes)) : cmdOf (cmdV c) = c := by
  cases c with
  | none => rfl
  | some l =>
    show some ((l.map V.str).map strOf) = _
    rw [List.map_map]
    congr 1
    conv => rhs; rw [← List.map_id l]
    exact List.map_congr_left fun _ _ => rfl

theorem job_back (j : Job) (h : ∀ p ∈ j.completed, ∀ i ∈ p.2, i.start ≤ i.stop ∧ i.stop < 2 ^ 64) : jobOf (jobV j) = (normalizeBytes j.completed).map fun c => { j with completed := c } := by
  unfold jobV
  rw [jobOf, raw_back, JournalMem.decode_encode _ h]
  dsimp only [Option.bind_some]
  cases hn : normalizeBytes j.completed with
  | none => rfl
  | some c =>
    dsimp only
    rw [cmd_back]
    rfl

/-- Every job on its own. -/
def normJobs : List Job → Option (List Job)
  | [] => some []
  | j :: js =>
    match normalizeBytes j.completed, normJobs js with
    | some c, some r => some ({ j with completed := c } :: r)
    | _, _ => none

theorem jobs_back : ∀ (js : List Job), (∀ j ∈ js, ∀ p ∈ j.completed, ∀ i ∈ p.2, i.start ≤ i.stop ∧ i.stop < 2 ^ 64) → jobsOf (js.map jobV) = normJobs js
  | [], _ => rfl
  | j :: js, h => by
    rw [List.map_cons, jobsOf, job_back j (h j (by simp)), jobs_back js fun j hj => h j (by simp [hj]), normJobs]
    cases normalizeBytes j.completed <;> cases normJobs js <;> rfl

/-- What `NewJournal` reads from the file of a journal whose directory names are UTF-8. -/
theorem read_written (js : List Job) (hr : ∀ j ∈ js, InRange j) (hp : ∀ j ∈ js, Plain j.completed) (t : Bytes) (ht : write js = some t) : read t = normJobs (js.map shown) := by
  rw [reads js hr t ht, norm_journal js fun j hj => ⟨(hp j hj).sorted, (hp j hj).utf8⟩]
  refine jobs_back _ ?_
  intro j hj
  obtain ⟨j', hj', rfl⟩ := List.mem_map.1 hj
  exact (hp j' hj').ranges

theorem normalize_view : ∀ (c : ByteCompleted), Ingest.normalizeCompleted (c.map fun p => (ofBytes p.1, p.2)) = (normalizeBytes c).map (·.map fun p => (ofBytes p.1, p.2))
  | [] => rfl
  | (k, l) :: c => by
    have he : (ofBytes k).isEmpty = k.isEmpty := by unfold ofBytes; rw [List.isEmpty_map]
    rw [List.map_cons, Ingest.normalizeCompleted, normalizeBytes, he, normalize_view c]
    split
    · rfl
    · cases normalizeList [] l <;> cases normalizeBytes c <;> rfl

theorem normJobs_view : ∀ (js : List Job), Ingest.normalizeJobs (js.map view) = (normJobs js).map (·.map view)
  | [] => rfl
  | j :: js => by
    have h1 : (view j).completed = j.completed.map fun p => (ofBytes p.1, p.2) := rfl
    rw [List.map_cons, Ingest.normalizeJobs, normJobs, h1, normalize_view, normJobs_view js]
    cases normalizeBytes j.completed <;> cases normJobs js <;> rfl

theorem normJobs_kept : ∀ (js : List Job), (∀ j ∈ js, Kept j.completed) → normJobs js = some js
  | [], _ => rfl
  | j :: js, h => by
    have hk := h j (by simp)
    have hn := JournalMem.normalizeBytes_eq j.completed hk.named hk.canonical fun p hp i hi => by
      have := hk.bounded p hp i hi
      simp only [Journal.W]
      omega
    rw [normJobs, hn, normJobs_kept js fun j hj => h j (by simp [hj])]

/-! ## C105 -/

/-- C105: every journal can be written. -/
theorem C105_writes (js : List Job) (h : ∀ j ∈ js, InRange j) : ∃ t, write js = some t := by
  obtain ⟨x, _, _, _, hw⟩ := writes js h
  exact ⟨_, hw⟩

/-- C105: a journal that is written and read again is the same, up to bytes that are not UTF-8 in the command line, the working directory and the times. Missing: directory
names that are not UTF-8, see `C105_names_violated`. -/
theorem C105_roundtrip_partial (js : List Job) (hr : ∀ j ∈ js, InRange j) (hk : ∀ j ∈ js, Kept j.completed) : ∃ t, write js = some t ∧ read t = some (js.map shown) := by
  obtain ⟨t, ht⟩ := C105_writes js hr
  refine ⟨t, ht, ?_⟩
  rw [read_written js hr (fun j hj => (hk j hj).toPlain) t ht]
  refine normJobs_kept _ ?_
  intro j hj
  obtain ⟨j', hj', rfl⟩ := List.mem_map.1 hj
  exact hk j' hj'

/-- C105: for the ingest command the file is what C29, C30 and C92 take it for: the jobs that were saved, normalized; it is refused exactly when those are. -/
theorem C105_loads_partial (js : List Job) (hr : ∀ j ∈ js, InRange j) (hp : ∀ j ∈ js, Plain j.completed) (t : Bytes) (ht : write js = some t) :
    (read t).map (·.map view) = Ingest.normalizeJobs (js.map view) := by
  rw [read_written js hr hp t ht, ← normJobs_view, List.map_map]
  rfl

/-- C105: a journal file that was cut off anywhere, an empty one too, is refused; no progress is taken from a part of it. -/
theorem C105_cut (js : List Job) (hr : ∀ j ∈ js, InRange j) (t p u : Bytes) (ht : write js = some t) (hpu : p ++ u = t) (hu : u ≠ []) : read p = none := by
  obtain ⟨x, _, hi, hn, hw⟩ := writes js hr
  rw [hw] at ht
  cases ht
  unfold read
  rw [cut_indent blank2 hi hn hpu hu]

/-! ## Every file that is read -/

theorem decodeList_valid : ∀ (ss : List Str) (l : List Interval), decodeList ss = some l → ∀ i ∈ l, i.start ≤ i.stop ∧ i.stop < 2 ^ 64
  | [], l, h, i, hi => by cases h; cases hi
  | s :: ss, l, h, i, hi => by
    rw [decodeList] at h
    split at h
    · rename_i x r hx hr
      cases h
      rcases List.mem_cons.1 hi with rfl | hi
      · exact Ingest.C65_interval_text_sound s i hx
      · exact decodeList_valid ss r hr i hi
    · cases h

theorem decode_valid : ∀ (raw : List (Bytes × List Str)) (c : ByteCompleted), decode raw = some c → c.map (·.1) = raw.map (·.1) ∧ ∀ p ∈ c, ∀ i ∈ p.2, i.start ≤ i.stop ∧ i.stop < 2 ^ 64
  | [], c, h => by cases h; exact ⟨rfl, fun p hp => by cases hp⟩
  | (k, ss) :: raw, c, h => by
    rw [decode] at h
    split at h
    · rename_i x r hx hr
      cases h
      obtain ⟨h1, h2⟩ := decode_valid raw r hr
      refine ⟨by rw [List.map_cons, List.map_cons, h1], ?_⟩
      intro p hp
      rcases List.mem_cons.1 hp with rfl | hp
      · exact decodeList_valid ss x hx
      · exact h2 p hp
    · cases h

theorem normalize_mem : ∀ (c r : ByteCompleted), normalizeBytes c = some r → r.map (·.1) = c.map (·.1) ∧ ∀ q ∈ r, q.1 ≠ [] ∧ ∃ p ∈ c, normalizeList [] p.2 = some q.2
  | [], r, h => by cases h; exact ⟨rfl, fun p hp => by cases hp⟩
  | (k, l) :: c, r, h => by
    rw [normalizeBytes] at h
    split at h
    · cases h
    rename_i hk
    split at h
    · rename_i l' r' hl hr
      cases h
      obtain ⟨h1, h2⟩ := normalize_mem c r' hr
      refine ⟨by rw [List.map_cons, List.map_cons, h1], ?_⟩
      intro q hq
      rcases List.mem_cons.1 hq with rfl | hq
      · exact ⟨fun e => hk (by dsimp only at e; rw [e]; rfl), (k, l), by simp, hl⟩
      · obtain ⟨h3, p, hp, h4⟩ := h2 q hq
        exact ⟨h3, p, by simp [hp], h4⟩
    · cases h

/-- The completed indices of a file that was read. -/
theorem read_completed (ci : V) (c : ByteCompleted) (hc : Clean (.map (.slice .str)) ci) (h : (decode (rawOf ci)).bind normalizeBytes = some c) :
    Plain c ∧ (∀ p ∈ c, p.1 ≠ []) ∧ ((∀ p ∈ c, ∀ i ∈ p.2, i.stop < 2 ^ 64 - 1) → ∀ p ∈ c, Canonical p.2) := by
  obtain ⟨d, hd, hn⟩ := Option.bind_eq_some_iff.1 h
  obtain ⟨d1, d2⟩ := decode_valid _ _ hd
  obtain ⟨n1, n2⟩ := normalize_mem _ _ hn
  obtain ⟨c1, c2⟩ := clean_entriesOf _ ci hc
  have hkeys : c.map (·.1) = (entriesOf ci).map (·.1) := by
    rw [n1, d1]
    unfold rawOf
    rw [List.map_map]
    rfl
  have hspec : ∀ q ∈ c, ∃ p ∈ d, normalizeList [] p.2 = some q.2 ∧ (∀ i ∈ q.2, i.Valid) ∧ ∀ n, Journal.Covered q.2 n ↔ Journal.Covered p.2 n := by
    intro q hq
    obtain ⟨_, p, hp, hl⟩ := n2 q hq
    have := Journal.normalizeList_spec [] p.2 q.2 (by simp) (fun i hi => (d2 p hp i hi).2) hl
    exact ⟨p, hp, hl, this.2.1, fun n => by rw [this.2.2 n]; simp [Journal.Covered]⟩
  refine ⟨⟨?_, ?_, ?_⟩, fun p hp => (n2 p hp).1, ?_⟩
  · have : (c.map (·.1)).Pairwise fun a b => bytesLt a b = true := by
      rw [hkeys, List.pairwise_map]
      exact c1
    exact List.pairwise_map.1 this
  · intro p hp
    have : p.1 ∈ (entriesOf ci).map (·.1) := by rw [← hkeys]; exact List.mem_map_of_mem hp
    obtain ⟨q, hq, e⟩ := List.mem_map.1 this
    rw [← e]
    exact (c2 q hq).1
  · intro p hp i hi
    obtain ⟨_, _, _, hv, _⟩ := hspec p hp
    exact hv i hi
  · intro hb q hq
    obtain ⟨p, hp, hl, hv, hcov⟩ := hspec q hq
    refine Journal.normalizeList_canonical [] p.2 q.2 ⟨by simp, .nil⟩ (by simp) ?_ hl
    intro i hi
    have h1 := d2 p hp i hi
    obtain ⟨k, hk, hk'⟩ := (hcov i.stop).2 ⟨i, hi, h1.1, Nat.le_refl _⟩
    have h2 := hb q hq k hk
    have h3 := hk'.2
    simp only [Journal.W]
    omega

theorem read_job (x : V) (j : Job) (hf : Fits (fun _ => True) jobShape x) (hc : Clean jobShape x) (h : jobOf x = some j) :
    InRange j ∧ shown j = j ∧ Plain j.completed ∧ (∀ p ∈ j.completed, p.1 ≠ []) ∧ ((∀ p ∈ j.completed, ∀ i ∈ p.2, i.stop < 2 ^ 64 - 1) → ∀ p ∈ j.completed, Canonical p.2) := by
  obtain ⟨h0, h1⟩ := fits_fieldsOf _ _ x hf
  obtain ⟨v1, l1, e1, f1, h1⟩ := Wire.fitss_one h1
  obtain ⟨v2, l2, e2, f2, h1⟩ := Wire.fitss_one h1
  obtain ⟨v3, l3, e3, f3, h1⟩ := Wire.fitss_one h1
  obtain ⟨v4, l4, e4, f4, h1⟩ := Wire.fitss_one h1
  obtain ⟨v5, l5, e5, f5, h1⟩ := Wire.fitss_one h1
  obtain ⟨v6, l6, e6, f6, h1⟩ := Wire.fitss_one h1
  obtain ⟨v7, l7, e7, f7, h1⟩ := Wire.fitss_one h1
  obtain ⟨v8, l8, e8, f8, h1⟩ := Wire.fitss_one h1
  obtain ⟨v9, l9, e9, f9, h1⟩ := Wire.fitss_one h1
  have e10 := Wire.fitss_nil h1
  subst e10 e9 e8 e7 e6 e5 e4 e3 e2
  rw [e1] at h0
  subst h0
  obtain ⟨s1, rfl⟩ := Wire.fits_str f1
  obtain ⟨s4, rfl⟩ := Wire.fits_str f4
  obtain ⟨s5, rfl⟩ := Wire.fits_str f5
  obtain ⟨i8, rfl, r8⟩ := Wire.fits_int f8
  unfold jobShape at hc
  simp only [Clean, Cleans, and_true, true_and] at hc
  obtain ⟨c1, c2, -, c4, c5, c9⟩ := hc
  have hconf : -(2 ^ 63) ≤ (confOf v3).fileBatch ∧ (confOf v3).fileBatch < 2 ^ 63 := by
    obtain ⟨g0, g1⟩ := fits_fieldsOf _ _ v3 f3
    obtain ⟨w1, m1, k1, -, g1⟩ := Wire.fitss_one g1
    obtain ⟨w2, m2, k2, -, g1⟩ := Wire.fitss_one g1
    obtain ⟨w3, m3, k3, -, g1⟩ := Wire.fitss_one g1
    obtain ⟨w4, m4, k4, -, g1⟩ := Wire.fitss_one g1
    obtain ⟨w5, m5, k5, q5, g1⟩ := Wire.fitss_one g1
    obtain ⟨w6, m6, k6, -, g1⟩ := Wire.fitss_one g1
    have k7 := Wire.fitss_nil g1
    subst k7 k6 k5 k4 k3 k2
    rw [k1] at g0
    rw [g0]
    obtain ⟨i, rfl, r⟩ := Wire.fits_int q5
    exact r
  have hcmd : (cmdOf v2).map (·.map fixUtf8) = cmdOf v2 := by
    cases v2 with
    | slice l =>
      rw [Clean] at c2
      show some ((l.map strOf).map fixUtf8) = some (l.map strOf)
      rw [List.map_map]
      congr 1
      refine List.map_congr_left fun v hv => ?_
      have h1 := c2 v hv
      show fixUtf8 (strOf v) = strOf v
      cases v with
      | str s => rw [Clean] at h1; exact h1
      | _ => rfl
    | _ => rfl
  rw [jobOf] at h
  split at h
  · cases h
  · rename_i c hcc
    cases h
    obtain ⟨p1, p2, p3⟩ := read_completed v9 c c9 hcc
    refine ⟨⟨hconf, r8⟩, ?_, p1, p2, p3⟩
    unfold shown
    dsimp only [strOf]
    rw [c1, c4, c5, hcmd]

theorem jobsOf_mem : ∀ (l : List V) (js : List Job), jobsOf l = some js → ∀ j ∈ js, ∃ x ∈ l, jobOf x = some j
  | [], js, h, j, hj => by cases h; cases hj
  | v :: l, js, h, j, hj => by
    rw [jobsOf] at h
    split at h
    · rename_i a as ha has
      cases h
      rcases List.mem_cons.1 hj with rfl | hj
      · exact ⟨v, by simp, ha⟩
      · obtain ⟨x, hx, e⟩ := jobsOf_mem l as has j hj
        exact ⟨x, by simp [hx], e⟩
    · cases h

/-- C105, whatever the file holds (a user may edit it): jobs that `NewJournal` accepts have a directory name for all completed indices, ranges that are not inverted, in
64 bits, and UTF-8 text; and the ranges are sorted, disjoint and joined if none ends at 2^64-1. -/
theorem C105_accepted_partial (s : Bytes) (js : List Job) (h : read s = some js) : ∀ j ∈ js, InRange j ∧ shown j = j ∧ Plain j.completed ∧ (∀ p ∈ j.completed, p.1 ≠ []) ∧
    ((∀ p ∈ j.completed, ∀ i ∈ p.2, i.stop < 2 ^ 64 - 1) → ∀ p ∈ j.completed, Canonical p.2) := by
  unfold read at h
  split at h
  · cases h
  rename_i y hy
  split at h
  · cases h
  rename_i v hv
  unfold inflate at hv
  have hf := dec_fits (fun _ => True) True.intro (fun _ _ _ => True.intro) _ _ _ _ (zero_fits _ True.intro _) hv
  have hc := dec_clean _ _ _ _ (parse_utf8 hy) (zero_clean _) hv
  obtain ⟨h0, h1⟩ := fits_fieldsOf _ _ v hf
  obtain ⟨v1, l1, e1, f1, h1⟩ := Wire.fitss_one h1
  have e2 := Wire.fitss_nil h1
  subst e2
  rw [e1] at h0
  subst h0
  unfold journalShape at hc
  simp only [Clean, Cleans, and_true] at hc
  intro j hj
  obtain ⟨x, hx, e⟩ := jobsOf_mem _ _ h j hj
  exact read_job x j (fits_elemsOf _ _ _ f1 x hx) (clean_elemsOf _ _ hc x hx) e

/-- C105: a journal file that is read, written and read again gives the same journal, whoever wrote the first one (no range ends at 2^64-1). -/
theorem C105_reread_partial (s : Bytes) (js : List Job) (h : read s = some js) (hb : ∀ j ∈ js, ∀ p ∈ j.completed, ∀ i ∈ p.2, i.stop < 2 ^ 64 - 1) :
    ∃ t, write js = some t ∧ read t = some js := by
  have ha := C105_accepted_partial s js h
  obtain ⟨t, h1, h2⟩ := C105_roundtrip_partial js (fun j hj => (ha j hj).1) fun j hj =>
    ⟨(ha j hj).2.2.1, (ha j hj).2.2.2.1, (ha j hj).2.2.2.2 (hb j hj), hb j hj⟩
  refine ⟨t, h1, ?_⟩
  rw [h2]
  congr 1
  conv => rhs; rw [← List.map_id js]
  exact List.map_congr_left fun j hj => (ha j hj).2.1

/-! ## Crashes -/

/-- A journal as `NewJournal` accepts it, below the last 64-bit number. -/
def Good (js : List Job) : Prop := ∀ j ∈ js, InRange j ∧ shown j = j ∧ Kept j.completed

open Classical in
/-- The coding that C90 leaves open: the bytes of this model. -/
noncomputable def codec : JournalFile.Codec { js : List Job // Good js } where
  enc js := (write js.1).getD []
  dec s :=
    match read s with
    | none => none
    | some js => if h : Good js then some ⟨js, h⟩ else none
  init := ⟨[], fun _ h => by cases h⟩

open Classical in
theorem codec_back (js : { js : List Job // Good js }) : codec.dec (codec.enc js) = some js := by
  obtain ⟨t, h1, h2⟩ := C105_roundtrip_partial js.1 (fun j hj => (js.2 j hj).1) fun j hj => (js.2 j hj).2.2
  have h3 : js.1.map shown = js.1 := by
    conv => rhs; rw [← List.map_id js.1]
    exact List.map_congr_left fun j hj => (js.2 j hj).2.1
  show (match read ((write js.1).getD []) with
    | none => none
    | some js => if h : Good js then some (⟨js, h⟩ : { js : List Job // Good js }) else none) = _
  rw [h1, Option.getD_some, h2, h3]
  dsimp only
  rw [dif_pos js.2]

open JournalFile Classical in
/-- C105 and C90: however processes write the journal file, whatever fails, and wherever they die or the machine crashes: there is no journal file (and there was none), or
`NewJournal` can read it, and a process that starts finds the jobs that were in the file at the beginning or those some call asked to save. -/
theorem C105_crash (base : Name) (d : Dir) (data : Nat → Data) (next : Nat) (hd : Sane d next)
    (h0 : ∀ i, d base = some i → ∃ js, read (data i) = some js ∧ ∀ j ∈ js, ∀ p ∈ j.completed, ∀ k ∈ p.2, k.stop < 2 ^ 64 - 1)
    (acts : List (Act { js : List Job // Good js })) (s : State { js : List Job // Good js }) (h : run codec (boot base d data next) acts = some s) :
    (s.journal = none ∧ d base = none) ∨ ∃ b js, s.journal = some b ∧ read b = some js ∧ ((∃ i, d base = some i ∧ b = data i) ∨ ∃ j, Asked acts j ∧ j.1 = js) := by
  rcases C90_complete codec base d data next hd acts s h with hj | ⟨j, ha, hj⟩
  · cases hb : d base with
    | none => exact .inl ⟨by rw [hj, hb]; rfl, rfl⟩
    | some i =>
      obtain ⟨js, hjs, _⟩ := h0 i hb
      exact .inr ⟨data i, js, by rw [hj, hb]; rfl, hjs, .inl ⟨i, rfl, rfl⟩⟩
  · refine .inr ⟨codec.enc j, j.1, hj, ?_, .inr ⟨j, ha, rfl⟩⟩
    have h1 := codec_back j
    have h2 : codec.dec (codec.enc j) = (match read (codec.enc j) with
      | none => none
      | some js => if h : Good js then some (⟨js, h⟩ : { js : List Job // Good js }) else none) := rfl
    rw [h2] at h1
    split at h1
    · cases h1
    · rename_i js hr
      split at h1
      · cases h1; exact hr
      · cases h1

/-! ## Examples -/

/-- A run that ingested two files of one directory. -/
def exJob : Job := ⟨asc "/data", some [asc "ingest", asc "-strategy", asc "log"], ⟨true, true, true, false, 10, false⟩, asc "2026-11-18T10:00:00Z", asc "2026-11-18T10:05:00Z", true, false, 30,
  [(asc "ct.log", [⟨0, 9⟩, ⟨20, 29⟩]), ([0xc3, 0xa9], [⟨5, 5⟩])]⟩

theorem exJob_range : InRange exJob := by unfold InRange exJob; decide

theorem exJob_kept : Kept exJob.completed := by
  refine ⟨⟨by decide +kernel, ?_, ?_⟩, ?_, ?_, ?_⟩
  · intro p hp
    have hp' : p = (asc "ct.log", [⟨0, 9⟩, ⟨20, 29⟩]) ∨ p = ([0xc3, 0xa9], [⟨5, 5⟩]) := by simpa [exJob] using hp
    unfold ValidUtf8
    rcases hp' with rfl | rfl <;> decide +kernel
  · intro p hp i hi
    have : ∀ p ∈ exJob.completed, ∀ i ∈ p.2, i.start ≤ i.stop ∧ i.stop < 2 ^ 64 := by decide +kernel
    exact this p hp i hi
  · decide +kernel
  · intro p hp
    have hp' : p = (asc "ct.log", [⟨0, 9⟩, ⟨20, 29⟩]) ∨ p = ([0xc3, 0xa9], [⟨5, 5⟩]) := by simpa [exJob] using hp
    rcases hp' with rfl | rfl
    · exact ⟨by decide, by decide⟩
    · exact ⟨by decide, by decide⟩
  · have : ∀ p ∈ exJob.completed, ∀ i ∈ p.2, i.stop < 2 ^ 64 - 1 := by decide +kernel
    exact this

/-- The hypotheses of `C105_writes`, `C105_roundtrip_partial`, `C105_loads_partial`, `C105_cut` and `C105_crash` are met by a journal with two jobs. -/
example : ∃ t, write [exJob, exJob] = some t ∧ read t = some [exJob, exJob] := by
  obtain ⟨t, h1, h2⟩ := C105_roundtrip_partial [exJob, exJob] (by intro j hj; simp at hj; subst hj; exact exJob_range) (by intro j hj; simp at hj; subst hj; exact exJob_kept)
  exact ⟨t, h1, by rw [h2]; decide +kernel⟩

example : Good [exJob] := by
  intro j hj
  simp at hj
  subst hj
  exact ⟨exJob_range, by decide +kernel, exJob_kept⟩

/-- A file written by hand, with joined and unsorted ranges, is accepted and normalized (`C105_accepted_partial`, `C105_reread_partial`); names are found in any case. -/
example : read (asc "{\"jobs\": [{\"Cwd\": \"/x\", \"CompletedIndices\": {\"b\": [\"10-19\", \"0-9\"], \"a\": []}}]}") =
    some [⟨asc "/x", none, ⟨false, false, false, false, 0, false⟩, [], [], false, false, 0, [(asc "a", []), (asc "b", [⟨0, 19⟩])]⟩] := by decide +kernel

/-- Files that are refused: no JSON, an inverted range, an empty directory name, a number for a text, an empty file. -/
example : read (asc "journal") = none ∧ read (asc "{\"Jobs\": [{\"CompletedIndices\": {\"b\": [\"9-0\"]}}]}") = none ∧
    read (asc "{\"Jobs\": [{\"CompletedIndices\": {\"\": [\"0-9\"]}}]}") = none ∧ read (asc "{\"Jobs\": [{\"Cwd\": 1}]}") = none ∧ read [] = none := by decide +kernel

/-- The text. -/
example : write [⟨asc "/", some [asc "ingest"], ⟨true, false, false, false, 0, false⟩, asc "s", asc "e", false, false, -1, [(asc "d", [⟨0, 9⟩, ⟨20, 29⟩])]⟩] = some (asc "{
  \"Jobs\": [
    {
      \"Cwd\": \"/\",
      \"Cmd\": [
        \"ingest\"
      ],
      \"JobConfiguration\": {
        \"IngestFiles\": true,
        \"Coalesce\": false,
        \"UpdateSMT\": false,
        \"RecordCTSize\": false,
        \"FileBatch\": 0,
        \"IncludePlainCSVs\": false
      },
      \"StartTime\": \"s\",
      \"EndTime\": \"e\",
      \"Coalesced\": false,
      \"UpdatedSMT\": false,
      \"RecordedCTLogSize\": -1,
      \"CompletedIndices\": {
        \"d\": [
          \"0-9\",
          \"20-29\"
        ]
      }
    }
  ]
}") := by decide +kernel

/-- A directory name that is not UTF-8. -/
def badJob : Job := ⟨asc "/", none, ⟨true, true, true, false, 0, false⟩, [], [], false, false, 0, [([0x6c, 0xff], [⟨0, 9⟩])]⟩

/-- C105 is false for an ingest directory whose name is not UTF-8: the file the journal writes says that another directory was ingested, and the progress of the right one is
gone after a restart. -/
theorem C105_names_violated : ∃ (j j' : Job) (t : Bytes), InRange j ∧ write [j] = some t ∧ read t = some [j'] ∧
    ([0x6c, 0xff], [⟨0, 9⟩]) ∈ j.completed ∧ ∀ l, ([0x6c, 0xff], l) ∉ j'.completed := by
  have hr : InRange badJob := by unfold InRange badJob; decide
  obtain ⟨t, ht⟩ := C105_writes [badJob] (by intro j hj; simp at hj; subst hj; exact hr)
  have hread : (write [badJob]).bind read = some [{ badJob with completed := [([0x6c, 0xEF, 0xBF, 0xBD], [⟨0, 9⟩])] }] := by decide +kernel
  rw [ht] at hread
  refine ⟨badJob, _, t, hr, ht, hread, by simp [badJob], ?_⟩
  intro l hl
  simp at hl

end Fpki.JournalText
