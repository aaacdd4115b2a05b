import Verif.Lemmas.Stage

/-!
# C37: errors of a stage; C38: criss-cross links; C39: reading inputs; C40: sending outputs; C68: unreadable files

`Err.leaves e` are the messages in an error (`Verif/Lemmas/Util.lean`).
-/
namespace Fpki.Stage
open Fpki.Util

/-! ## C37 -/

/-- The process or end function failed: the stage is at its end with exactly that error. -/
def FailInv (s : St σ ι ω) : Prop := ∀ e, s.failure = some e → s.phase = .broken ∧ s.found = e

theorem afterCall_fail {m : Mode} {s : St σ ι ω} (h : s.failure = none) (r : σ × List ω × List Nat × Res) (brk : Bool) :
    FailInv (afterCall m s r brk) := by
  obtain ⟨f, outs, chs, res⟩ := r
  unfold afterCall FailInv
  cases res <;> dsimp only <;> intro e he
  · rw [h] at he; cases he
  · rw [h] at he; cases he
  · rw [h] at he; cases he
  · exact ⟨rfl, by simpa using he⟩

theorem afterSend_failure (fns : Fns σ ι ω) (m : Mode) (s : St σ ι ω) (res : Res) (brk : Bool) :
    (afterSend fns m s res brk).failure = s.failure := by
  unfold afterSend
  split
  · rfl
  · split
    · rfl
    · split <;> rfl

theorem failInv_step {fns : Fns σ ι ω} {m : Mode} {s t : St σ ι ω} (inv : FailInv s) (st : Step fns m s t) : FailInv t := by
  have hn : s.phase ≠ .broken → s.failure = none := fun h => by
    cases hf : s.failure with
    | none => rfl
    | some e => exact absurd (inv e hf).1 h
  have none_ok : ∀ {t : St σ ι ω}, t.failure = none → FailInv t := fun h e he => by rw [h] at he; cases he
  cases st with
  | stop h => exact none_ok (hn (by rw [h]; simp))
  | nextErr h => exact none_ok (hn (by rw [h]; simp))
  | input x rest h hi => apply afterCall_fail; exact hn (by rw [h]; simp)
  | closed h hi => exact afterCall_fail (hn (by rw [h]; simp)) _ _
  | send outs chs pre post i c x res brk h => exact none_ok (hn (by rw [h]; simp))
  | sendErr outs chs pre post i res brk h => exact none_ok (hn (by rw [h]; simp))
  | sendStop outs chs pre post i res brk h => exact none_ok (hn (by rw [h]; simp))
  | sendDone outs chs res brk h => exact none_ok (by rw [afterSend_failure]; exact hn (by rw [h]; simp))
  | trySend outs chs done i c x res brk h => exact none_ok (hn (by rw [h]; simp))
  | tryErr outs chs done i res brk h => exact none_ok (hn (by rw [h]; simp))
  | tryStop outs chs done i res brk h => exact none_ok (hn (by rw [h]; simp))
  | notReady outs chs done i res brk h => exact none_ok (hn (by rw [h]; simp))
  | nextRound outs outs' chs chs' done i res brk rnd1 rnd2 h => exact none_ok (hn (by rw [h]; simp))
  | lastRound outs outs' chs chs' done i b res brk rnd1 rnd2 h =>
    exact none_ok (by rw [afterSend_failure]; exact hn (by rw [h]; simp))

theorem failInv_run {fns : Fns σ ι ω} {m : Mode} {f : σ} {input : List ι} {errs : List Err} {s : St σ ι ω}
    (h : Run fns m (St.init f input errs) s) : FailInv s := by
  induction h with
  | refl => intro e he; cases he
  | step _ st ih => exact failInv_step ih st

theorem mem_report (s : St σ ι ω) (x : Ingest.Str) :
    x ∈ s.report.leaves ↔ x ∈ s.found.leaves ∨ x ∈ (recvErr s.errs).1.leaves := by
  unfold St.report
  rw [leaves_errorsCoalesce, (firsts_spec [] _ (by simp)).2.1]
  simp [leavesAll]

theorem broken_final {fns : Fns σ ι ω} {m : Mode} {s t : St σ ι ω} (h : s.phase = .broken) : ¬Step fns m s t := by
  intro st
  cases st with
  | stop h' => rw [h] at h'; cases h'
  | nextErr h' => rw [h] at h'; cases h'
  | input x rest h' hi => rw [h] at h'; cases h'
  | closed h' hi => rw [h] at h'; cases h'
  | send outs chs pre post i c x res brk h' => rw [h] at h'; cases h'
  | sendErr outs chs pre post i res brk h' => rw [h] at h'; cases h'
  | sendStop outs chs pre post i res brk h' => rw [h] at h'; cases h'
  | sendDone outs chs res brk h' => rw [h] at h'; cases h'
  | trySend outs chs done i c x res brk h' => rw [h] at h'; cases h'
  | tryErr outs chs done i res brk h' => rw [h] at h'; cases h'
  | tryStop outs chs done i res brk h' => rw [h] at h'; cases h'
  | notReady outs chs done i res brk h' => rw [h] at h'; cases h'
  | nextRound outs outs' chs chs' done i res brk rnd1 rnd2 h' => rw [h] at h'; cases h'
  | lastRound outs outs' chs chs' done i b res brk rnd1 rnd2 h' => rw [h] at h'; cases h'

/-- C37 (own errors): whatever the functions, the sending mode and the schedule, once the process function or the end-of-data
function returned an error the stage takes no further step (so it processes no further input), and the error is part of
what it reports to the previous stage. Missing: the streaming function, see the violated theorems. -/
theorem C37_own_error_reported_partial {fns : Fns σ ι ω} {m : Mode} {f : σ} {input : List ι} {errs : List Err} {s : St σ ι ω}
    (h : Run fns m (St.init f input errs) s) {e : Err} (he : s.failure = some e) :
    s.phase = .broken ∧ (∀ t, ¬Step fns m s t) ∧ ∀ x ∈ e.leaves, x ∈ s.report.leaves := by
  have inv : FailInv s := failInv_run h
  obtain ⟨h1, h2⟩ := inv e he
  exact ⟨h1, fun t => broken_final h1, fun x hx => (mem_report s x).2 (.inl (h2 ▸ hx))⟩

/-! ### Errors of the next stages -/

/-- Every call gives at most one output. -/
def SmallOuts (fns : Fns σ ι ω) : Prop :=
  (∀ f x, (fns.process f x).2.1.length ≤ 1) ∧ (∀ f, (fns.stream f).2.1.length ≤ 1) ∧ ∀ f, (fns.noMoreData f).2.1.length ≤ 1

/-- Nothing was received from the next stages. -/
def Clean (errs0 : List Err) (s : St σ ι ω) : Prop :=
  s.errs = errs0 ∧ s.sendingError = false ∧ s.found = .nil

/-- Exactly one error (or the closed channel) was received, and kept. -/
def Hit (errs0 : List Err) (s : St σ ι ω) : Prop :=
  s.found = (recvErr errs0).1 ∧ s.errs = (recvErr errs0).2

def Inv37 (m : Mode) (errs0 : List Err) (s : St σ ι ω) : Prop :=
  match s.phase with
  | .reading => s.failure = none ∧ Clean errs0 s
  | .sending (.indices _ _ pending) _ _ => s.failure = none ∧ m ≠ .cycles ∧
      ((Clean errs0 s ∧ pending.length ≤ 1) ∨ (Hit errs0 s ∧ s.sendingError = true ∧ pending = []))
  | .sending (.round _ _ _ _ stop) _ _ => s.failure = none ∧ m = .cycles ∧ ((Clean errs0 s ∧ stop = false) ∨ (Hit errs0 s ∧ stop = true))
  | .stopped => True
  | .broken => (∃ e, s.failure = some e ∧ s.found = e ∧ s.errs = errs0) ∨ (s.failure = none ∧ (Clean errs0 s ∨ Hit errs0 s))

/-- A mode that does not overwrite a received error. -/
def Good (m : Mode) (fns : Fns σ ι ω) : Prop := m = .cycles ∨ SmallOuts fns

theorem inv37_start {m : Mode} {errs0 : List Err} {s : St σ ι ω} (hf : s.failure = none) (hc : Clean errs0 s) (outs : List ω)
    (chs : List Nat) (hs : m = .cycles ∨ outs.length ≤ 1) {res : Res} {brk : Bool} (hp : s.phase = .sending (Snd.start m outs chs) res brk) :
    Inv37 m errs0 s := by
  unfold Inv37
  rw [hp]
  cases m with
  | cycles => exact ⟨hf, rfl, .inl ⟨hc, rfl⟩⟩
  | sequential => exact ⟨hf, by simp, .inl ⟨hc, by rcases hs with h | h; cases h; simpa using h⟩⟩
  | concurrent => exact ⟨hf, by simp, .inl ⟨hc, by rcases hs with h | h; cases h; simpa using h⟩⟩

theorem inv37_afterCall {m : Mode} {errs0 : List Err} {s : St σ ι ω} (hf : s.failure = none) (hc : Clean errs0 s)
    (r : σ × List ω × List Nat × Res) (brk : Bool) (hs : m = .cycles ∨ r.2.1.length ≤ 1) : Inv37 m errs0 (afterCall m s r brk) := by
  obtain ⟨f, outs, chs, res⟩ := r
  cases res with
  | fail e => exact .inl ⟨e, rfl, rfl, hc.1⟩
  | ok => exact inv37_start (res := .ok) hf hc outs chs hs rfl
  | stream => exact inv37_start (res := .stream) hf hc outs chs hs rfl
  | noMore => exact inv37_start (res := .noMore) hf hc outs chs hs rfl

theorem inv37_afterSend {fns : Fns σ ι ω} {m : Mode} (hg : Good m fns) {errs0 : List Err} {s : St σ ι ω} (hf : s.failure = none)
    (res : Res) (brk : Bool) (h : Clean errs0 s ∨ (Hit errs0 s ∧ s.sendingError = true)) : Inv37 m errs0 (afterSend fns m s res brk) := by
  unfold afterSend
  by_cases h1 : s.shouldReturn = true
  · rw [if_pos h1]; trivial
  rw [if_neg h1]
  by_cases h2 : (brk || s.sendingError) = true
  · rw [if_pos h2]
    refine .inr ⟨hf, ?_⟩
    rcases h with h | ⟨h, _⟩
    · exact .inl h
    · exact .inr h
  rw [if_neg h2]
  have hc : Clean errs0 s := by
    rcases h with h | ⟨_, h⟩
    · exact h
    · rw [h] at h2; simp at h2
  cases res with
  | ok => exact ⟨hf, hc⟩
  | noMore => exact ⟨hf, hc⟩
  | fail e => exact ⟨hf, hc⟩
  | stream =>
    dsimp only
    refine inv37_start (outs := (fns.stream s.fns).2.1) (chs := (fns.stream s.fns).2.2.1) (brk := brk) hf hc ?_ rfl
    rcases hg with h | h
    · exact .inl h
    · exact .inr (h.2.1 _)

theorem inv37_step {fns : Fns σ ι ω} {m : Mode} (hg : Good m fns) {errs0 : List Err} {s t : St σ ι ω}
    (inv : Inv37 m errs0 s) (st : Step fns m s t) : Inv37 m errs0 t := by
  have empty : ∀ {pre post : List Nat} {i : Nat}, (pre ++ i :: post).length ≤ 1 → pre ++ post = [] := by
    intro pre post i h
    simp at h
    have h1 : pre.length = 0 := by omega
    have h2 : post.length = 0 := by omega
    simp [List.eq_nil_of_length_eq_zero h1, List.eq_nil_of_length_eq_zero h2]
  unfold Inv37 at inv
  cases st with
  | stop h => trivial
  | nextErr h =>
    rw [h] at inv
    obtain ⟨hf, hc⟩ := inv
    exact .inr ⟨hf, .inr ⟨by dsimp only; rw [hc.1], by dsimp only; rw [hc.1]⟩⟩
  | input x rest h hi =>
    rw [h] at inv
    obtain ⟨hf, hc⟩ := inv
    apply inv37_afterCall
    · exact hf
    · exact hc
    · rcases hg with h | h
      · exact .inl h
      · exact .inr (h.1 _ _)
  | closed h hi =>
    rw [h] at inv
    obtain ⟨hf, hc⟩ := inv
    apply inv37_afterCall hf hc
    rcases hg with h | h
    · exact .inl h
    · exact .inr (h.2.2 _)
  | send outs chs pre post i c x res brk h hm hx hc =>
    rw [h] at inv
    obtain ⟨hf, hm, ⟨hc, hl⟩ | ⟨_, _, hl⟩⟩ := inv
    · exact ⟨hf, hm, .inl ⟨hc, by simp [empty hl]⟩⟩
    · simp at hl
  | sendErr outs chs pre post i res brk h =>
    rw [h] at inv
    obtain ⟨hf, hm, ⟨hc, hl⟩ | ⟨_, _, hl⟩⟩ := inv
    · exact ⟨hf, hm, .inr ⟨⟨by dsimp only; rw [hc.1], by dsimp only; rw [hc.1]⟩, rfl, empty hl⟩⟩
    · simp at hl
  | sendStop outs chs pre post i res brk h =>
    rw [h] at inv
    obtain ⟨hf, hm, ⟨hc, hl⟩ | ⟨_, _, hl⟩⟩ := inv
    · exact ⟨hf, hm, .inl ⟨hc, by simp [empty hl]⟩⟩
    · simp at hl
  | sendDone outs chs res brk h =>
    rw [h] at inv
    obtain ⟨hf, hm, ⟨hc, hl⟩ | ⟨h1, h2, hl⟩⟩ := inv
    · exact inv37_afterSend hg hf res brk (.inl hc)
    · exact inv37_afterSend hg hf res brk (.inr ⟨h1, h2⟩)
  | trySend outs chs done i c x res brk h hx hcx =>
    rw [h] at inv
    obtain ⟨hf, hm, ⟨hc, hl⟩ | ⟨_, hl⟩⟩ := inv
    · exact ⟨hf, hm, .inl ⟨hc, rfl⟩⟩
    · cases hl
  | tryErr outs chs done i res brk h hi =>
    rw [h] at inv
    obtain ⟨hf, hm, ⟨hc, hl⟩ | ⟨_, hl⟩⟩ := inv
    · exact ⟨hf, hm, .inr ⟨⟨by dsimp only; rw [hc.1], by dsimp only; rw [hc.1]⟩, rfl⟩⟩
    · cases hl
  | tryStop outs chs done i res brk h hi =>
    rw [h] at inv
    obtain ⟨hf, hm, ⟨hc, hl⟩ | ⟨_, hl⟩⟩ := inv
    · exact ⟨hf, hm, .inl ⟨hc, rfl⟩⟩
    · cases hl
  | notReady outs chs done i res brk h hi =>
    rw [h] at inv
    obtain ⟨hf, hm, ⟨hc, hl⟩ | ⟨_, hl⟩⟩ := inv
    · exact ⟨hf, hm, .inl ⟨hc, rfl⟩⟩
    · cases hl
  | nextRound outs outs' chs chs' done i res brk rnd1 rnd2 h =>
    rw [h] at inv
    obtain ⟨hf, hm, ⟨hc, hl⟩ | ⟨_, hl⟩⟩ := inv
    · exact ⟨hf, hm, .inl ⟨hc, rfl⟩⟩
    · cases hl
  | lastRound outs outs' chs chs' done i b res brk rnd1 rnd2 h =>
    rw [h] at inv
    obtain ⟨hf, hm, ⟨hc, hl⟩ | ⟨h1, hl⟩⟩ := inv
    · apply inv37_afterSend hg
      · exact hf
      · exact .inl ⟨hc.1, by dsimp only; rw [hc.2.1, hl]; rfl, hc.2.2⟩
    · apply inv37_afterSend hg
      · exact hf
      · exact .inr ⟨⟨h1.1, h1.2⟩, by dsimp only; rw [hl]; simp⟩

theorem inv37_run {fns : Fns σ ι ω} {m : Mode} (hg : Good m fns) {f : σ} {input : List ι} {errs : List Err} {s : St σ ι ω}
    (h : Run fns m (St.init f input errs) s) : Inv37 m errs s := by
  induction h with
  | refl => exact ⟨rfl, rfl, rfl, rfl⟩
  | step _ st ih => exact inv37_step hg ih st

/-- C37 (errors of the next stages): when outputs are sent with `WithCyclesAllowedSequentialOutputs`, or every call gives at
most one output, a stage that ends reports the first error of the next stages, and its own; and it invents no error.
Missing: several outputs per call in the other modes, see `C37_next_error_violated`. -/
theorem C37_next_error_reported_partial {fns : Fns σ ι ω} {m : Mode} (hg : Good m fns) {f : σ} {input : List ι} {errs : List Err}
    {s : St σ ι ω} (h : Run fns m (St.init f input errs) s) (hb : s.phase = .broken) :
    (∀ e es, errs = e :: es → ∀ x ∈ e.leaves, x ∈ s.report.leaves) ∧
    (∀ e, s.failure = some e → ∀ x ∈ e.leaves, x ∈ s.report.leaves) ∧
    (∀ x ∈ s.report.leaves, (∃ e, s.failure = some e ∧ x ∈ e.leaves) ∨ ∃ e ∈ errs, x ∈ e.leaves) := by
  have inv := inv37_run hg h
  unfold Inv37 at inv
  rw [hb] at inv
  have memr : ∀ {l : List Err} {x}, x ∈ (recvErr l).1.leaves → ∃ e ∈ l, x ∈ e.leaves := by
    intro l x hx
    cases l with
    | nil => simp [recvErr, Err.leaves] at hx
    | cons e es => exact ⟨e, List.mem_cons_self, hx⟩
  have memr2 : ∀ {l : List Err} {x}, (∃ e ∈ (recvErr l).2, x ∈ e.leaves) → ∃ e ∈ l, x ∈ e.leaves := by
    rintro l x ⟨e, he, hx⟩
    cases l with
    | nil => simp [recvErr] at he
    | cons e' es => exact ⟨e, List.mem_cons_of_mem _ he, hx⟩
  rcases inv with ⟨e, h1, h2, h3⟩ | ⟨h1, h2 | h2⟩
  · refine ⟨fun e' es he x hx => ?_, fun e' he x hx => ?_, fun x hx => ?_⟩
    · exact (mem_report s x).2 (.inr (by rw [h3, he]; exact hx))
    · rw [h1] at he; cases he
      exact (mem_report s x).2 (.inl (by rw [h2]; exact hx))
    · rcases (mem_report s x).1 hx with h | h
      · exact .inl ⟨e, h1, h2 ▸ h⟩
      · exact .inr (memr (h3 ▸ h))
  · refine ⟨fun e' es he x hx => ?_, fun e' he x hx => ?_, fun x hx => ?_⟩
    · exact (mem_report s x).2 (.inr (by rw [h2.1, he]; exact hx))
    · rw [h1] at he; cases he
    · rcases (mem_report s x).1 hx with h | h
      · rw [h2.2.2] at h; simp [Err.leaves] at h
      · exact .inr (memr (h2.1 ▸ h))
  · refine ⟨fun e' es he x hx => ?_, fun e' he x hx => ?_, fun x hx => ?_⟩
    · exact (mem_report s x).2 (.inl (by rw [h2.1, he]; exact hx))
    · rw [h1] at he; cases he
    · rcases (mem_report s x).1 hx with h | h
      · exact .inr (memr (h2.1 ▸ h))
      · rw [h2.2] at h
        exact .inr (memr2 (memr h))

/-- A finished stage of a pipeline. -/
structure Done : Type 1 where
  {σ ι ω : Type}
  fns : Fns σ ι ω
  mode : Mode
  f : σ
  input : List ι
  errs : List Err
  final : St σ ι ω
  good : Good mode fns
  run : Run fns mode (St.init f input errs) final
  broken : final.phase = .broken

/-- A pipeline of stages one after the other: each one receives what the next one reports (stage.go:137), and the error channel
of the last one is just closed (sink.go:48-64). -/
def IsPipeline : List Done → Prop
  | [] => True
  | [d] => d.errs = []
  | d :: d' :: ds => d.errs = d'.final.errsForPrev ∧ IsPipeline (d' :: ds)

theorem errsForPrev_eq {s : St σ ι ω} {x : Ingest.Str} (h : x ∈ s.report.leaves) : s.errsForPrev = [s.report] := by
  unfold St.errsForPrev
  cases hr : s.report with
  | nil => rw [hr] at h; simp [Err.leaves] at h
  | plain m => rfl
  | coalesced es => rfl

/-- C37 for a whole pipeline, of any length and for every schedule of its stages: an error returned by the process or end
function of any stage is contained in what the first stage reports (what `Pipeline.Wait` returns). -/
theorem C37_pipeline_reports_partial : ∀ (d : Done) (ds : List Done), IsPipeline (d :: ds) →
    ∀ d' ∈ d :: ds, ∀ e, d'.final.failure = some e → ∀ x ∈ e.leaves, x ∈ d.final.report.leaves
  | d, ds, hp, d', hd, e, he, x, hx => by
    rcases List.mem_cons.1 hd with rfl | hd
    · exact (C37_next_error_reported_partial d'.good d'.run d'.broken).2.1 e he x hx
    · match ds, hp, hd with
      | d2 :: ds, hp, hd =>
        have ih := C37_pipeline_reports_partial d2 ds hp.2 d' hd e he x hx
        exact (C37_next_error_reported_partial d.good d.run d.broken).1 _ [] (by rw [hp.1, errsForPrev_eq ih]) x ih

/-! ### What goes wrong -/

/-- A stage with two outputs for each input (as the source of the Manager, manager.go:87-93). -/
def twoOuts : Fns Unit Nat Nat where
  process u x := (u, [x, x], [0, 1], .ok)
  stream u := (u, [], [], .ok)
  noMoreData u := (u, [], [], .ok)

/-- C37 is false for the sequential and the (default) concurrent sending of two outputs: the next stage fails with `e`; the
first send receives `e`, the second one the closed channel, nil overwrites `e`, and nothing is reported. -/
theorem C37_next_error_violated (m : Mode) (hm : m ≠ .cycles) (e : Err) :
    ∃ s, Run twoOuts m (St.init () [7] [e]) s ∧ s.phase = .broken ∧ s.received = [e] ∧ s.report = .nil := by
  cases m with
  | cycles => exact absurd rfl hm
  | sequential =>
    refine ⟨_, .step (.step (.step (.step (.refl _) (.input _ 7 [] rfl rfl)) (.sendErr _ _ _ [] [1] 0 .ok false rfl (fun _ => rfl)))
      (.sendErr _ _ _ [] [] 1 .ok false rfl (fun _ => rfl))) (.sendDone _ _ _ .ok false rfl), rfl, rfl, rfl⟩
  | concurrent =>
    refine ⟨_, .step (.step (.step (.step (.refl _) (.input _ 7 [] rfl rfl)) (.sendErr _ _ _ [] [1] 0 .ok false rfl (fun _ => rfl)))
      (.sendErr _ _ _ [] [] 1 .ok false rfl (fun _ => rfl))) (.sendDone _ _ _ .ok false rfl), rfl, rfl, rfl⟩

/-- A stage for which the hypotheses of the positive theorems hold, failing at the second input after the next stages
also failed. -/
def failSecond : Fns Nat Nat Nat where
  process n x := if n = 0 then (1, [x], [0], .ok) else (2, [], [], .fail (.plain ['o', 'w', 'n']))
  stream n := (n, [], [], .ok)
  noMoreData n := (n, [], [], .ok)

theorem failSecond_small : SmallOuts failSecond := by
  refine ⟨fun f x => ?_, fun _ => by simp [failSecond], fun _ => by simp [failSecond]⟩
  unfold failSecond
  dsimp only
  split <;> simp

theorem exFail : ∃ s, Run failSecond .concurrent (St.init 0 [5, 6, 7] [.plain ['n', 'x', 't']]) s ∧ s.phase = .broken ∧
    s.failure = some (.plain ['o', 'w', 'n']) ∧ s.processed = [5, 6] ∧ s.sent = [(0, 5)] :=
  ⟨_, .step (.step (.step (.step (.refl _) (.input _ 5 [6, 7] rfl rfl)) (.send _ [5] [0] [] [] 0 0 5 .ok false rfl (fun _ => rfl) rfl rfl))
    (.sendDone _ [5] [0] .ok false rfl)) (.input _ 6 [7] rfl rfl), rfl, rfl, rfl, rfl⟩

/-- The same stage as the only one of a pipeline. -/
example : ∃ d : Done, IsPipeline [d] ∧ d.final.failure = some (.plain ['o', 'w', 'n']) := by
  refine ⟨{ fns := failSecond, mode := .concurrent, f := 0, input := [5, 6, 7], errs := [], good := .inr failSecond_small,
            run := .step (.step (.step (.step (.refl _) (.input _ 5 [6, 7] rfl rfl))
              (.send _ [5] [0] [] [] 0 0 5 .ok false rfl (fun _ => rfl) rfl rfl))
              (.sendDone _ [5] [0] .ok false rfl)) (.input _ 6 [7] rfl rfl),
            broken := rfl, .. }, rfl, rfl⟩

/-! ## C68: a file that cannot be read -/

theorem csvSplit_small : SmallOuts (csvSplit (β := β)) := by
  refine ⟨fun f x => ?_, fun f => ?_, fun _ => by simp [csvSplit]⟩
  · unfold csvSplit
    dsimp only
    split <;> simp
  · unfold csvSplit
    dsimp only
    split
    · simp
    · split <;> simp

/-- No file has an error when it is opened: nothing fails, and no error is found. -/
def CsvInv (s : St (List β × Option Err) (CsvFile β) β) : Prop := s.failure = none ∧ ∀ f ∈ s.input, f.openErr = none

theorem afterSend_input (fns : Fns σ ι ω) (m : Mode) (s : St σ ι ω) (res : Res) (brk : Bool) :
    (afterSend fns m s res brk).input = s.input := by
  unfold afterSend
  split
  · rfl
  · split
    · rfl
    · split <;> rfl

theorem csvInv_step {m : Mode} {s t : St (List β × Option Err) (CsvFile β) β} (inv : CsvInv s) (st : Step csvSplit m s t) : CsvInv t := by
  cases st with
  | stop h => exact inv
  | nextErr h => exact inv
  | input x rest h hi =>
    have hx : x.openErr = none := inv.2 x (by rw [hi]; simp)
    have e : csvSplit.process s.fns x = ((x.lines, x.doneErr), [], [], Res.stream) := by
      show (match x.openErr with | some e => _ | none => _) = _
      rw [hx]
    rw [e]
    exact ⟨inv.1, fun f hf => inv.2 f (by rw [hi]; exact List.mem_cons_of_mem _ hf)⟩
  | closed h hi => exact inv
  | send outs chs pre post i c x res brk h => exact inv
  | sendErr outs chs pre post i res brk h => exact inv
  | sendStop outs chs pre post i res brk h => exact inv
  | sendDone outs chs res brk h => exact ⟨by rw [afterSend_failure]; exact inv.1, by rw [afterSend_input]; exact inv.2⟩
  | trySend outs chs done i c x res brk h => exact inv
  | tryErr outs chs done i res brk h => exact inv
  | tryStop outs chs done i res brk h => exact inv
  | notReady outs chs done i res brk h => exact inv
  | nextRound outs outs' chs chs' done i res brk rnd1 rnd2 h => exact inv
  | lastRound outs outs' chs chs' done i b res brk rnd1 rnd2 h =>
    exact ⟨by rw [afterSend_failure]; exact inv.1, by rw [afterSend_input]; exact inv.2⟩

/-- C68 (part): a file that cannot be opened ends the reading stage with its error, in every schedule. -/
theorem C68_open_error_reported_partial {m : Mode} {files : List (CsvFile β)} {errs : List Err} {s : St (List β × Option Err) (CsvFile β) β}
    (h : Run csvSplit m (St.init ([], none) files errs) s) (hs : ∃ f ∈ s.processed, f.openErr ≠ none) :
    s.phase = .broken ∧ ∃ f ∈ s.processed, ∃ e, f.openErr = some e ∧ ∀ x ∈ e.leaves, x ∈ s.report.leaves := by
  have key : (∃ f ∈ s.processed, ∃ e, f.openErr = some e ∧ s.failure = some e) ∨ ∀ f ∈ s.processed, f.openErr = none := by
    clear hs
    induction h with
    | refl => exact .inr (by simp [St.init])
    | @step t u hr st ih =>
      rcases ih with ⟨f, hf, e, he, hfail⟩ | ih
      · exact absurd st (broken_final (failInv_run hr e hfail).1)
      have same : ∀ {v : St (List β × Option Err) (CsvFile β) β}, v.processed = t.processed →
          (∃ f ∈ v.processed, ∃ e, f.openErr = some e ∧ v.failure = some e) ∨ ∀ f ∈ v.processed, f.openErr = none :=
        fun hv => .inr (by rw [hv]; exact ih)
      have aft : ∀ (v : St (List β × Option Err) (CsvFile β) β) res brk, (afterSend csvSplit m v res brk).processed = v.processed := by
        intro v res brk
        unfold afterSend
        split
        · rfl
        · split
          · rfl
          · split <;> rfl
      cases st with
      | stop h => exact same rfl
      | nextErr h => exact same rfl
      | input x rest h hi =>
        cases hx : x.openErr with
        | none =>
          have e : csvSplit.process t.fns x = ((x.lines, x.doneErr), [], [], Res.stream) := by
            show (match x.openErr with | some e => _ | none => _) = _
            rw [hx]
          rw [e]
          refine .inr fun f hf => ?_
          rcases List.mem_append.1 hf with hf | hf
          · exact ih f hf
          · rw [List.mem_singleton.1 hf]; exact hx
        | some er =>
          have e : csvSplit.process t.fns x = (([], none), [], [], Res.fail er) := by
            show (match x.openErr with | some e => _ | none => _) = _
            rw [hx]
          rw [e]
          exact .inl ⟨x, List.mem_append_right _ (List.mem_singleton.2 rfl), er, hx, rfl⟩
      | closed h hi => exact same rfl
      | send outs chs pre post i c x res brk h => exact same rfl
      | sendErr outs chs pre post i res brk h => exact same rfl
      | sendStop outs chs pre post i res brk h => exact same rfl
      | sendDone outs chs res brk h => exact same (aft _ _ _)
      | trySend outs chs done i c x res brk h => exact same rfl
      | tryErr outs chs done i res brk h => exact same rfl
      | tryStop outs chs done i res brk h => exact same rfl
      | notReady outs chs done i res brk h => exact same rfl
      | nextRound outs outs' chs chs' done i res brk rnd1 rnd2 h => exact same rfl
      | lastRound outs outs' chs chs' done i b res brk rnd1 rnd2 h => exact same (aft _ _ _)
  rcases key with ⟨f, hf, e, he, hfail⟩ | key
  · have r := C37_own_error_reported_partial h hfail
    exact ⟨r.1, f, hf, e, he, r.2.2⟩
  · obtain ⟨f, hf, hne⟩ := hs
    exact absurd (key f hf) hne

/-- C68 is false: whatever errors happen while the (openable) files are read, and in every schedule, a reading stage that ends
without an error of the stages after it reports nothing, so the batch succeeds and the files are marked as
processed (C30). -/
theorem C68_read_error_violated {m : Mode} {files : List (CsvFile β)} (hf : ∀ f ∈ files, f.openErr = none)
    {s : St (List β × Option Err) (CsvFile β) β} (h : Run csvSplit m (St.init ([], none) files []) s) (hb : s.phase = .broken) :
    s.report = .nil := by
  have hn : s.failure = none := by
    suffices CsvInv s from this.1
    clear hb
    induction h with
    | refl => exact ⟨rfl, hf⟩
    | step _ st ih => exact csvInv_step ih st
  have inv := inv37_run (.inr csvSplit_small) h
  unfold Inv37 at inv
  rw [hb] at inv
  rcases inv with ⟨e, h1, _⟩ | ⟨_, h2 | h2⟩
  · rw [hn] at h1; cases h1
  · unfold St.report; rw [h2.1, h2.2.2]; rfl
  · unfold St.report; rw [h2.1, h2.2]; rfl

/-- C37 is false for the streaming function, and the case above happens: a file whose reading fails with `e` after one line. The stage
forwards the line, gets the error from its streaming function, goes on to the next file, and reports nothing. -/
theorem C37_stream_failure_violated (m : Mode) (e : Err) (l : β) :
    ∃ s, Run csvSplit m (St.init ([], none) [⟨none, [l], some e⟩] []) s ∧ s.phase = .broken ∧ s.streamFailure = some e ∧
      s.sent = [(0, l)] ∧ s.report = .nil := by
  let S (f : List β × Option Err) (ph : Phase β) (inp : List (CsvFile β)) (sent : List (Nat × β)) (pr : List (CsvFile β))
      (prod : List (Nat × β)) (sf : Option Err) : St (List β × Option Err) (CsvFile β) β :=
    ⟨f, ph, inp, [], sent, .nil, false, false, pr, prod, none, sf, []⟩
  let file : CsvFile β := ⟨none, [l], some e⟩
  have hm : m = .cycles ∨ m ≠ .cycles := by cases m <;> simp
  refine ⟨S ([], none) .broken [] [(0, l)] [file] [(0, l)] (some e), ?_, rfl, rfl, rfl, rfl⟩
  rcases hm with rfl | hm
  · have r1 : Run csvSplit .cycles (St.init ([], none) [file] []) (S ([l], some e) (.sending (.round [] [] 0 [] false) .stream false) [] [] [file] [] none) :=
      .step (.refl _) (.input _ file [] rfl rfl)
    have r2 := r1.step (t := _) (u := S ([], some e) (.sending (.round [l] [0] 0 [] false) .stream false) [] [] [file] [(0, l)] none)
      (.lastRound _ [] [] [] [] [] 0 false .stream false id id rfl rfl (removeElements_all (by simp)) (removeElements_all (by simp)) (.inl rfl))
    have r3 := r2.step (u := S ([], some e) (.sending (.round [l] [0] 1 [0] false) .stream false) [] [(0, l)] [file] [(0, l)] none)
      (.trySend _ [l] [0] [] 0 0 l .stream false rfl rfl rfl)
    have r4 := r3.step (u := S ([], none) (.sending (.round [] [] 0 [] false) (.fail e) false) [] [(0, l)] [file] [(0, l)] (some e))
      (.lastRound _ [l] [] [0] [] [0] 1 false .stream false id id rfl rfl (removeElements_all (by simp)) (removeElements_all (by simp)) (.inl rfl))
    have r5 := r4.step (u := S ([], none) .reading [] [(0, l)] [file] [(0, l)] (some e))
      (.lastRound _ [] [] [] [] [] 0 false (.fail e) false id id rfl rfl (removeElements_all (by simp)) (removeElements_all (by simp)) (.inl rfl))
    have r6 := r5.step (u := S ([], none) (.sending (.round [] [] 0 [] false) .ok true) [] [(0, l)] [file] [(0, l)] (some e))
      (.closed _ rfl rfl)
    exact r6.step (.lastRound _ [] [] [] [] [] 0 false .ok true id id rfl rfl (removeElements_all (by simp)) (removeElements_all (by simp)) (.inl rfl))
  · have hst : ∀ (o : List β) c, Snd.start m o c = .indices o c (List.range o.length) := by
      intro o c
      cases m with
      | cycles => exact absurd rfl hm
      | sequential => rfl
      | concurrent => rfl
    have r1 : Run csvSplit m (St.init ([], none) [file] []) (S ([l], some e) (.sending (Snd.start m [] []) .stream false) [] [] [file] [] none) :=
      .step (.refl _) (.input _ file [] rfl rfl)
    rw [hst] at r1
    have r2 := r1.step (t := _) (u := S ([], some e) (.sending (Snd.start m [l] [0]) .stream false) [] [] [file] [(0, l)] none)
      (.sendDone _ [] [] .stream false rfl)
    rw [hst] at r2
    have r3 := r2.step (u := S ([], some e) (.sending (.indices [l] [0] []) .stream false) [] [(0, l)] [file] [(0, l)] none)
      (.send _ [l] [0] [] [] 0 0 l .stream false rfl (fun _ => rfl) rfl rfl)
    have r4 := r3.step (u := S ([], none) (.sending (Snd.start m [] []) (.fail e) false) [] [(0, l)] [file] [(0, l)] (some e))
      (.sendDone _ [l] [0] .stream false rfl)
    rw [hst] at r4
    have r5 := r4.step (u := S ([], none) .reading [] [(0, l)] [file] [(0, l)] (some e))
      (.sendDone _ [] [] (.fail e) false rfl)
    have r6 := r5.step (u := S ([], none) (.sending (Snd.start m [] []) .ok true) [] [(0, l)] [file] [(0, l)] (some e))
      (.closed _ rfl rfl)
    rw [hst] at r6
    exact r6.step (.sendDone _ [] [] .ok true rfl)

/-- A file that cannot be opened, after a good one. -/
example : ∃ s, Run (csvSplit (β := Nat)) .concurrent (St.init ([], none) [⟨some (.plain ['n', 'o']), [], none⟩] []) s ∧
    ∃ f ∈ s.processed, f.openErr ≠ none :=
  ⟨_, .step (.refl _) (.input _ _ [] rfl rfl), _, List.mem_singleton.2 rfl, by simp⟩

end Fpki.Stage
