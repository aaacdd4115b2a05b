import Verif.Model.Interrupt
/-!
# C84: Interrupting ingest

`run (St.init n) es = some s`: any interleaving of the signals that the operating system delivers, of the signal handler and of the main goroutine with `n` batches.
-/
namespace Fpki.Interrupt

/-! ## Specification -/

/-- SIGINT and SIGTERM that were put into the channel. -/
def terminations (s : St) : List Sig := s.delivered.filter Sig.isTermination

/-- The handler has dealt with everything that it got. -/
def quiet (s : St) : Prop := s.chan = none ∧ s.busy = none

instance (s : St) : Decidable (quiet s) := by unfold quiet; infer_instance

/-- Steps of the main goroutine. -/
def Ev.isMain : Ev → Bool
  | .check | .done | .fail _ | .exit => true
  | _ => false

/-- Steps of the handler. -/
def Ev.isHandler : Ev → Bool
  | .receive | .finish => true
  | _ => false

/-! ## Invariants -/

def chanTerm (s : St) : Nat := match s.chan with | some g => if g.isTermination then 1 else 0 | none => 0

structure Inv (s : St) : Prop where
  /-- the handler's view of the signals -/
  sig : s.exited.getD 0 ≤ 1 → (terminations s).length = chanTerm s + (if s.requested then 1 else 0)
  canc : s.cancelled = true → s.requested = true
  req : s.requested = true → s.cancelled = true ∨ s.busy = some .int ∨ s.busy = some .term
  busyT : ∀ g, s.busy = some g → g.isTermination = true → s.requested = true
  chan : ∀ g, s.chan = some g → g ∈ s.delivered
  /-- the progress of main -/
  before : ∀ i, s.main = .before i → s.completed = i ∧ s.started = i ∧ i ≤ s.n
  running : ∀ i, s.main = .running i → s.completed = i ∧ s.started = i + 1 ∧ i < s.n
  ok : s.main = .returned none → s.completed = s.n ∧ s.started = s.n
  bad : ∀ e, s.main = .returned (some e) → s.completed ≤ s.started ∧ s.started ≤ s.completed + 1 ∧ s.started ≤ s.n
  canceled : s.main = .returned (some .canceled) → s.cancelled = true
  /-- the end -/
  code : ∀ c, s.exited = some c → (c = 0 ∧ s.main = .returned none ∧ s.msg = none) ∨ (c = 1 ∧ ∃ e, s.main = .returned (some e) ∧ s.msg = some (message true e) ∧ s.cancelled = true) ∨
    (c = 1 ∧ s.main = .returned (some .other) ∧ s.msg = some (.error .other)) ∨
    (2 ≤ (terminations s).length ∧ s.msg = none ∧ ∃ g ∈ terminations s, c = exitCode g)
  noMsg : s.exited = none → s.msg = none

theorem inv_init (n : Nat) : Inv (St.init n) := by
  refine ⟨fun _ => rfl, (by intro h; cases h), (by intro h; cases h), (by intro g h; cases h), (by intro g h; cases h), ?_, ?_, ?_, ?_, ?_, ?_, ?_⟩
  · intro i h; simp only [St.init] at h; cases h; exact ⟨rfl, rfl, Nat.zero_le _⟩
  · intro i h; cases h
  · intro h; cases h
  · intro e h; cases h
  · intro h; cases h
  · intro c h; cases h
  · intro _; rfl

theorem inv_step {s s' : St} {e : Ev} (h : Inv s) (he : exec s e = some s') : Inv s' := by
  obtain ⟨sig, canc, req, busyT, chan, before, running, ok, bad, canceled, code, noMsg⟩ := h
  cases e with
  | signal g =>
    simp only [exec] at he
    split at he
    · cases he
    rename_i hx
    have hx : s.exited = none := by cases hh : s.exited <;> simp [hh] at hx ⊢
    split at he
    · rename_i hc
      cases he
      refine ⟨?_, canc, req, busyT, ?_, before, running, ok, bad, canceled, (by intro c hc'; rw [hx] at hc'; cases hc'), noMsg⟩
      · intro _
        have := sig (by rw [hx]; decide)
        simp only [terminations, chanTerm, List.filter_append, List.length_append, hc] at this ⊢
        rcases g with _ | _ | _
        · simp [Sig.isTermination] at this ⊢; rw [this]; exact Nat.add_comm _ _
        · simp [Sig.isTermination] at this ⊢; rw [this]; exact Nat.add_comm _ _
        · simp [Sig.isTermination] at this ⊢; exact this
      · intro g' hg; cases hg; simp
    · rename_i g0 hc
      cases he
      exact ⟨sig, canc, req, busyT, chan, before, running, ok, bad, canceled, code, noMsg⟩
  | receive =>
    simp only [exec] at he
    split at he
    case h_2 => cases he
    rename_i g hx hb hc
    have hs := sig (by rw [hx]; decide)
    split at he
    · rename_i hg
      simp only [Bool.and_eq_true] at hg
      cases he
      refine ⟨?_, canc, req, busyT, (by intro g h; cases h), before, running, ok, bad, canceled, ?_, (by intro h; cases h)⟩
      · intro h; exfalso; revert h; cases g <;> simp [exitCode]
      · intro c hcode
        cases hcode
        refine .inr (.inr (.inr ⟨?_, noMsg hx, g, ?_, rfl⟩))
        · simp only [terminations, chanTerm, hc, hg.1, hg.2, if_true] at hs ⊢
          omega
        · exact List.mem_filter.mpr ⟨chan g hc, hg.1⟩
    · rename_i hg
      cases he
      refine ⟨?_, ?_, ?_, ?_, (by intro g h; cases h), before, running, ok, bad, canceled, (by intro c hc'; rw [hx] at hc'; cases hc'), noMsg⟩
      · intro _
        simp only [terminations, chanTerm, hc] at hs ⊢
        cases hr : s.requested <;> cases g <;> simp [hr, Sig.isTermination] at hs hg ⊢ <;> omega
      · intro h; simp [canc h]
      · intro h
        cases g with
        | int => exact .inr (.inl rfl)
        | term => exact .inr (.inr rfl)
        | usr1 =>
          simp only [Sig.isTermination, Bool.or_false] at h
          rcases req h with h | h | h
          · exact .inl h
          · rw [hb] at h; cases h
          · rw [hb] at h; cases h
      · intro g' h ht; cases h; simp [ht]
  | finish =>
    simp only [exec] at he
    split at he
    case h_2 => cases he
    rename_i g hx hb
    cases he
    refine ⟨sig, ?_, ?_, (by intro g h; cases h), chan, before, running, ok, bad, ?_, (by intro c hc'; rw [hx] at hc'; cases hc'), noMsg⟩
    · intro h
      simp only [Bool.or_eq_true] at h
      rcases h with h | h
      · exact canc h
      · exact busyT g hb h
    · intro h
      left
      rcases req h with h | h | h
      · simp [h]
      · rw [hb] at h; cases h; simp [Sig.isTermination]
      · rw [hb] at h; cases h; simp [Sig.isTermination]
    · intro h; simp [canceled h]
  | check =>
    simp only [exec] at he
    split at he
    case h_2 => cases he
    rename_i i hx hm
    obtain ⟨b1, b2, b3⟩ := before i hm
    have hcode : ∀ (m : Main) (k : Nat) c, s.exited = some c → (c = 0 ∧ m = .returned none ∧ s.msg = none) ∨ (c = 1 ∧ ∃ e, m = .returned (some e) ∧ s.msg = some (message true e) ∧ s.cancelled = true) ∨
        (c = 1 ∧ m = .returned (some .other) ∧ s.msg = some (.error .other)) ∨
        (2 ≤ (terminations s).length ∧ s.msg = none ∧ ∃ g ∈ terminations s, c = exitCode g) := by
      intro m k c hc'; rw [hx] at hc'; cases hc'
    split at he
    · rename_i hn
      split at he
      · rename_i hz
        simp only [Bool.and_eq_true, decide_eq_true_eq] at hz
        cases he
        refine ⟨sig, canc, req, busyT, chan, (by intro i h; cases h), (by intro i h; cases h), (by intro h; cases h), ?_, fun _ => hz.2, hcode _ 0, noMsg⟩
        intro e _; simp only; omega
      · cases he
        refine ⟨sig, canc, req, busyT, chan, (by intro i h; cases h), (by intro i h; cases h), ?_, (by intro e h; cases h), (by intro h; cases h), hcode _ 0, noMsg⟩
        intro _; simp only; omega
    · rename_i hn
      split at he
      · rename_i hc
        cases he
        refine ⟨sig, canc, req, busyT, chan, (by intro i h; cases h), (by intro i h; cases h), (by intro h; cases h), ?_, fun _ => hc, hcode _ 0, noMsg⟩
        intro e _; simp only; omega
      · cases he
        refine ⟨sig, canc, req, busyT, chan, (by intro i h; cases h), ?_, (by intro h; cases h), (by intro e h; cases h), (by intro h; cases h), hcode _ 0, noMsg⟩
        intro j h; cases h; simp only; omega
  | done =>
    simp only [exec] at he
    split at he
    case h_2 => cases he
    rename_i i hx hm
    obtain ⟨b1, b2, b3⟩ := running i hm
    cases he
    refine ⟨sig, canc, req, busyT, chan, ?_, (by intro i h; cases h), (by intro h; cases h), (by intro e h; cases h), (by intro h; cases h),
      (by intro c hc'; rw [hx] at hc'; cases hc'), noMsg⟩
    intro j h; cases h; simp only; omega
  | fail e =>
    simp only [exec] at he
    split at he
    case h_2 => cases he
    rename_i i hx hm
    obtain ⟨b1, b2, b3⟩ := running i hm
    split at he
    · cases he
    rename_i hc
    cases he
    refine ⟨sig, canc, req, busyT, chan, (by intro i h; cases h), (by intro i h; cases h), (by intro h; cases h), ?_, ?_,
      (by intro c hc'; rw [hx] at hc'; cases hc'), noMsg⟩
    · intro e _; simp only; omega
    · intro h; cases h; simpa using hc
  | exit =>
    simp only [exec] at he
    split at he
    · rename_i hx hm
      cases he
      refine ⟨fun _ => sig (by rw [hx]; decide), canc, req, busyT, chan, before, running, ok, bad, canceled, ?_, (by intro h; cases h)⟩
      intro c h; cases h; exact .inl ⟨rfl, hm, noMsg hx⟩
    · rename_i e hx hm
      cases he
      refine ⟨fun _ => sig (by rw [hx]; decide), canc, req, busyT, chan, before, running, ok, bad, canceled, ?_, (by intro h; cases h)⟩
      intro c h; cases h
      by_cases hc : s.cancelled = true
      · exact .inr (.inl ⟨rfl, e, hm, by simp [hc], hc⟩)
      · cases e with
        | canceled => exact absurd (canceled hm) hc
        | other => exact .inr (.inr (.inl ⟨rfl, hm, by simp [message]⟩))
    · cases he

theorem inv_run {s s' : St} {es : List Ev} (h : Inv s) (he : run s es = some s') : Inv s' := by
  induction es generalizing s with
  | nil => cases he; exact h
  | cons e es ih =>
    simp only [run, Option.bind_eq_some_iff] at he
    obtain ⟨s1, h1, h2⟩ := he
    exact ih (inv_step h h1) h2

theorem n_run {s s' : St} {es : List Ev} (he : run s es = some s') : s'.n = s.n := by
  induction es generalizing s with
  | nil => cases he; rfl
  | cons e es ih =>
    simp only [run, Option.bind_eq_some_iff] at he
    obtain ⟨s1, h1, h2⟩ := he
    rw [ih h2]
    cases e <;> simp only [exec] at h1 <;> (repeat' split at h1) <;> cases h1 <;> rfl

/-! ## What a signal does -/

/-- C84 (partial: no signal was dropped): once the handler has dealt with the signals, ingest is being stopped exactly if a SIGINT or SIGTERM was sent; if two were
sent, the process has ended. Missing: a signal can be dropped, see `C84_signal_lost_violated`. -/
theorem C84_signals_obeyed_partial {n : Nat} {es : List Ev} {s : St} (h : run (St.init n) es = some s) (hq : quiet s) (hx : s.exited = none) :
    (s.cancelled = true ↔ ∃ g ∈ s.delivered, g.isTermination = true) ∧ (terminations s).length ≤ 1 := by
  obtain ⟨sig, canc, req, busyT, chan, before, running, ok, bad, canceled, code, noMsg⟩ := inv_run (inv_init n) h
  have hs := sig (by rw [hx]; decide)
  simp only [chanTerm, hq.1, Nat.zero_add] at hs
  refine ⟨⟨?_, ?_⟩, by rw [hs]; split <;> omega⟩
  · intro hc
    rw [canc hc] at hs
    simp only [if_true] at hs
    have : terminations s ≠ [] := by intro e; rw [e] at hs; simp at hs
    obtain ⟨g, hg⟩ := List.exists_mem_of_ne_nil _ this
    exact ⟨g, (List.mem_filter.mp hg).1, (List.mem_filter.mp hg).2⟩
  · rintro ⟨g, hg, ht⟩
    have hm : g ∈ terminations s := List.mem_filter.mpr ⟨hg, ht⟩
    have hr : s.requested = true := by
      cases hr : s.requested with
      | true => rfl
      | false =>
        rw [hr] at hs
        simp only [Bool.false_eq_true, if_false, List.length_eq_zero_iff] at hs
        rw [hs] at hm; cases hm
    rcases req hr with h | h | h
    · exact h
    · rw [hq.2] at h; cases h
    · rw [hq.2] at h; cases h

/-- C84: the handler never blocks: while it has something to do it can make a step, and it has at most two steps to make for the signals it has. -/
theorem C84_handler_progress {s : St} (hx : s.exited = none) (hq : ¬ quiet s) : ∃ e, e.isHandler = true ∧ (exec s e).isSome = true := by
  cases hb : s.busy with
  | some g => exact ⟨.finish, rfl, by simp [exec, hx, hb]⟩
  | none =>
    cases hc : s.chan with
    | none => exact absurd ⟨hc, hb⟩ hq
    | some g =>
      refine ⟨.receive, rfl, ?_⟩
      simp only [exec, hx, hb, hc]
      split <;> rfl

/-- Steps the handler still has to make for what it has. -/
def handlerWork (s : St) : Nat := (if s.exited = none then 2 * (if s.chan = none then 0 else 1) + (if s.busy = none then 0 else 1) else 0)

theorem C84_handler_ends {s s' : St} {e : Ev} (he : exec s e = some s') (hh : e.isHandler = true) : handlerWork s' < handlerWork s := by
  cases e <;> simp only [Ev.isHandler, Bool.false_eq_true] at hh
  · simp only [exec] at he
    split at he
    case h_2 => cases he
    rename_i g hx hb hc
    split at he <;> cases he <;> simp [handlerWork, hx, hb, hc]
  · simp only [exec] at he
    split at he
    case h_2 => cases he
    rename_i g hx hb
    cases he; simp [handlerWork, hx, hb]

/-- C84: SIGUSR1 never changes what ingest does: without SIGINT and SIGTERM nothing is cancelled and the process ends only when `main` ends it. -/
theorem C84_usr1_harmless {n : Nat} {es : List Ev} {s : St} (h : run (St.init n) es = some s) (hu : ∀ g ∈ s.delivered, g = .usr1) :
    s.cancelled = false ∧ s.msg ≠ some .interrupted ∧ ∀ c, s.exited = some c → (c = 0 ∧ s.main = .returned none) ∨ (c = 1 ∧ s.main = .returned (some .other)) := by
  obtain ⟨sig, canc, req, busyT, chan, before, running, ok, bad, canceled, code, noMsg⟩ := inv_run (inv_init n) h
  have ht : terminations s = [] := by
    simp only [terminations, List.filter_eq_nil_iff]
    intro g hg; rw [hu g hg]; simp [Sig.isTermination]
  have hex : s.exited.getD 0 ≤ 1 := by
    cases hx : s.exited with
    | none => simp
    | some c =>
      rcases code c hx with ⟨h, _⟩ | ⟨h, _⟩ | ⟨h, _⟩ | ⟨h, _⟩
      · simp [h]
      · simp [h]
      · simp [h]
      · rw [ht] at h; simp at h
  have hs := sig hex
  rw [ht] at hs
  have hr : s.requested = false := by
    cases hr : s.requested with
    | false => rfl
    | true => rw [hr] at hs; simp only [List.length_nil, if_true] at hs; omega
  have hc : s.cancelled = false := by
    cases hc : s.cancelled with
    | false => rfl
    | true => rw [canc hc] at hr; cases hr
  have key : ∀ c, s.exited = some c → ((c = 0 ∧ s.main = .returned none) ∨ (c = 1 ∧ s.main = .returned (some .other))) ∧ s.msg ≠ some .interrupted := by
    intro c hx
    rcases code c hx with ⟨h, hm, hmsg⟩ | ⟨h, e, hm, hmsg, _⟩ | ⟨h, hm, hmsg⟩ | ⟨h, _⟩
    · exact ⟨.inl ⟨h, hm⟩, by rw [hmsg]; decide⟩
    · cases e with
      | canceled => rw [canceled hm] at hc; cases hc
      | other => exact ⟨.inr ⟨h, hm⟩, by rw [hmsg]; decide⟩
    · exact ⟨.inr ⟨h, hm⟩, by rw [hmsg]; decide⟩
    · rw [ht] at h; simp at h
  refine ⟨hc, ?_, fun c hx => (key c hx).1⟩
  cases hx : s.exited with
  | none => rw [noMsg hx]; decide
  | some c => exact (key c hx).2

/-! ## What an interruption does to the ingestion -/

theorem cancelled_step {s s' : St} {e : Ev} (he : exec s e = some s') (h : s.cancelled = true) : s'.cancelled = true ∧ s'.started = s.started := by
  cases e <;> simp only [exec] at he <;> (repeat' split at he) <;> cases he <;> simp_all

/-- C84: once ingest is being stopped no further batch is begun. -/
theorem C84_no_batch_after_cancel {s s' : St} {es : List Ev} (h : run s es = some s') (hc : s.cancelled = true) : s'.cancelled = true ∧ s'.started = s.started := by
  induction es generalizing s with
  | nil => cases h; exact ⟨hc, rfl⟩
  | cons e es ih =>
    simp only [run, Option.bind_eq_some_iff] at h
    obtain ⟨s1, h1, h2⟩ := h
    obtain ⟨a, b⟩ := cancelled_step h1 hc
    obtain ⟨c, d⟩ := ih h2 a
    exact ⟨c, d.trans b⟩

/-- Steps the main goroutine still has to make, once ingest is being stopped. -/
def mainWork (s : St) : Nat :=
  if s.exited.isSome then 0
  else match s.main with
    | .running _ => 3
    | .before _ => 2
    | .returned _ => 1

/-- C84: once ingest is being stopped the main goroutine makes at most three steps (the end of the running batch, the look at the context, the exit), whatever the
other goroutine and the operating system do in between, and it is never stuck. -/
theorem C84_main_ends {s s' : St} {es : List Ev} (h : run s es = some s') (hc : s.cancelled = true) : (es.filter Ev.isMain).length + mainWork s' ≤ mainWork s := by
  induction es generalizing s with
  | nil => cases h; simp
  | cons e es ih =>
    simp only [run, Option.bind_eq_some_iff] at h
    obtain ⟨s1, h1, h2⟩ := h
    have := ih h2 (cancelled_step h1 hc).1
    have hstep : (if e.isMain then 1 else 0) + mainWork s1 ≤ mainWork s := by
      cases e <;> simp only [exec] at h1 <;> (repeat' split at h1) <;> cases h1 <;> simp_all [Ev.isMain, mainWork]
    simp only [List.filter_cons]
    split <;> rename_i hm <;> simp only [hm, if_true, Bool.false_eq_true, if_false, List.length_cons] at hstep ⊢ <;> omega

theorem C84_main_progress {s : St} (hx : s.exited = none) : ∃ e, e.isMain = true ∧ (exec s e).isSome = true := by
  cases hm : s.main with
  | before i =>
    refine ⟨.check, rfl, ?_⟩
    simp only [exec, hx, hm]
    (repeat' split) <;> rfl
  | running i => exact ⟨.done, rfl, by simp [exec, hx, hm]⟩
  | returned r => cases r <;> exact ⟨.exit, rfl, by simp [exec, hx, hm]⟩

/-- C84: the batches are completed one after the other: when the process is killed or ends, all the batches that were begun are completed, except at most the last one. -/
theorem C84_completed_prefix {n : Nat} {es : List Ev} {s : St} (h : run (St.init n) es = some s) :
    s.completed ≤ s.started ∧ s.started ≤ s.completed + 1 ∧ s.started ≤ n := by
  obtain ⟨sig, canc, req, busyT, chan, before, running, ok, bad, canceled, code, noMsg⟩ := inv_run (inv_init n) h
  have hn : s.n = n := n_run h
  cases hm : s.main with
  | before i => obtain ⟨a, b, c⟩ := before i hm; omega
  | running i => obtain ⟨a, b, c⟩ := running i hm; omega
  | returned r =>
    cases r with
    | none => obtain ⟨a, b⟩ := ok hm; omega
    | some e => obtain ⟨a, b, c⟩ := bad e hm; omega

/-- C84: what the exit code says. 0: all batches are completed; 1: an error is printed; otherwise two SIGINT/SIGTERM were sent and the code is that of one of them. -/
theorem C84_exit_codes {n : Nat} {es : List Ev} {s : St} {c : Nat} (h : run (St.init n) es = some s) (hx : s.exited = some c) :
    (c = 0 ∧ s.completed = n ∧ s.msg = none) ∨ (c = 1 ∧ s.msg.isSome = true) ∨
    (2 ≤ (terminations s).length ∧ s.msg = none ∧ ((c = 130 ∧ Sig.int ∈ s.delivered) ∨ (c = 143 ∧ Sig.term ∈ s.delivered))) := by
  obtain ⟨sig, canc, req, busyT, chan, before, running, ok, bad, canceled, code, noMsg⟩ := inv_run (inv_init n) h
  have hn : s.n = n := n_run h
  rcases code c hx with ⟨h, hm, hmsg⟩ | ⟨h, e, hm, hmsg, _⟩ | ⟨h, hm, hmsg⟩ | ⟨h, hmsg, g, hg, hc⟩
  · exact .inl ⟨h, by rw [(ok hm).1, hn], hmsg⟩
  · exact .inr (.inl ⟨h, by rw [hmsg]; rfl⟩)
  · exact .inr (.inl ⟨h, by rw [hmsg]; rfl⟩)
  · refine .inr (.inr ⟨h, hmsg, ?_⟩)
    obtain ⟨hd, ht⟩ := List.mem_filter.mp hg
    cases g with
    | int => exact .inl ⟨hc, hd⟩
    | term => exact .inr ⟨hc, hd⟩
    | usr1 => cases ht

/-- C84: the message "ingest interrupted" is printed exactly if the run ended because it was cancelled; the user never sees a bare `context canceled`, and an
interrupted run never ends with code 0 and missing batches. -/
theorem C84_message {n : Nat} {es : List Ev} {s : St} (h : run (St.init n) es = some s) (hx : s.exited = some 1) :
    s.msg ≠ some (.error .canceled) ∧ (s.msg = some .interrupted ↔ s.main = .returned (some .canceled)) ∧
    (s.msg = some .interrupted → ∃ g ∈ s.delivered, g.isTermination = true) := by
  obtain ⟨sig, canc, req, busyT, chan, before, running, ok, bad, canceled, code, noMsg⟩ := inv_run (inv_init n) h
  rcases code 1 hx with ⟨h, _⟩ | ⟨_, e, hm, hmsg, hc⟩ | ⟨_, hm, hmsg⟩ | ⟨_, _, g, _, hc⟩
  · cases h
  · have hs := sig (by rw [hx]; decide)
    rw [canc hc] at hs
    have hne : terminations s ≠ [] := by intro e; rw [e] at hs; simp only [List.length_nil, if_true] at hs; omega
    obtain ⟨g, hg⟩ := List.exists_mem_of_ne_nil _ hne
    have hg := List.mem_filter.mp hg
    cases e with
    | canceled => rw [hmsg, hm]; exact ⟨by decide, by decide, fun _ => ⟨g, hg.1, hg.2⟩⟩
    | other => rw [hmsg, hm]; exact ⟨by decide, by decide, fun _ => ⟨g, hg.1, hg.2⟩⟩
  · rw [hmsg, hm]; exact ⟨by decide, by decide, (by intro h; cases h)⟩
  · cases g <;> cases hc

/-! ## The lost signal -/

/-- Every SIGINT or SIGTERM that the user sends stops the ingestion (once the handler has dealt with what it got). -/
def EveryTerminationObeyed (n : Nat) : Prop := ∀ (es : List Ev) (s : St), run (St.init n) es = some s → quiet s → s.exited = none →
  (∃ g, Ev.signal g ∈ es ∧ g.isTermination = true) → s.cancelled = true

/-- C84 violated: the channel has room for one signal. While diagnostics are being written for a SIGUSR1 and a second SIGUSR1 waits, a SIGINT is dropped: ingest goes
on, to its last batch, and ends with code 0. -/
theorem C84_signal_lost_violated : ¬ EveryTerminationObeyed 2 := by
  intro h
  have := h [.signal .usr1, .receive, .signal .usr1, .signal .int, .finish, .receive, .finish] _ (by rfl) (by decide) (by decide) ⟨.int, by decide, by decide⟩
  exact absurd this (by decide)

theorem C84_signal_lost_completes : ∃ s, run (St.init 2) [.signal .usr1, .receive, .signal .usr1, .signal .int, .finish, .receive, .finish,
    .check, .done, .check, .done, .check, .exit] = some s ∧ s.exited = some 0 ∧ s.completed = 2 ∧ s.dropped = [.int] := ⟨_, rfl, by decide⟩

/-! ## The hypotheses are satisfiable -/

/-- A SIGINT in the second of three batches: the batch is completed, the third is not begun. -/
def exInt : List Ev := [.check, .done, .check, .signal .int, .receive, .finish, .done, .check, .exit]

example : ∃ s, run (St.init 3) exInt = some s ∧ s.exited = some 1 ∧ s.msg = some .interrupted ∧ s.completed = 2 ∧ s.started = 2 ∧ quiet s := ⟨_, rfl, by decide⟩
example : ∃ s, run (St.init 3) (exInt.take 6) = some s ∧ s.exited = none ∧ quiet s ∧ s.cancelled = true ∧ mainWork s = 3 := ⟨_, rfl, by decide⟩
/-- Two signals: the second one forces the exit while the first batch is running. -/
example : ∃ s, run (St.init 3) [.check, .signal .int, .receive, .signal .term, .finish, .receive] = some s ∧ s.exited = some 143 ∧ s.completed = 0 := ⟨_, rfl, by decide⟩
/-- An error of the database. -/
example : ∃ s, run (St.init 3) [.check, .signal .usr1, .receive, .fail .other, .exit] = some s ∧ s.exited = some 1 ∧ s.msg = some (.error .other) ∧
    (∀ g ∈ s.delivered, g = .usr1) := ⟨_, rfl, by decide⟩
/-- The handler has work to do. -/
example : ∃ s, run (St.init 1) [.signal .term] = some s ∧ s.exited = none ∧ ¬ quiet s ∧ handlerWork s = 2 := ⟨_, rfl, by decide⟩

end Fpki.Interrupt
