import Verif.Model.Util

/-!
# Model of `WithAutoResumeAtStage`: `pkg/pipeline/stall_resume.go:10-91`

One stage (the target) of a pipeline, the goroutine that reads its errors (the sniffer), and who reads the error channel that the target had when it was linked (the reader: the previous stage, or the
goroutine of a criss-cross link). The target gets a new goroutine at every resumption; `cur` is the number of the newest one. As in the model of C176, the fields `ErrCh` and `StopCh` of the target are
replaced while an earlier goroutine may still be about to use them.

Simplifications: what the target does with its data is left out: it works until it has a reason to leave, with or without an error (stage.go:393-513); what `Prepare`, `Resume` and the user's `relink` do to the
affected stages is recorded as a list of events; reading the field `s.StopCh` and closing the channel is one step; the answers of `shouldResumeNow` are arbitrary. Errors are numbers.
-/
namespace Fpki.AutoResume

/-- Where a goroutine of the target is. -/
inductive Pc where
  | idle
  /-- in the loop, stage.go:411-508 -/
  | work
  /-- about to send this error: stage.go:374-377 -/
  | report (e : Nat)
  /-- about to close `s.ErrCh`: stage.go:381 -/
  | closeErr
  /-- about to close `s.StopCh`: stage.go:385 -/
  | closeStop
  /-- returned at stage.go:387-389 -/
  | gone
  /-- returned at stage.go:419-422, because it read from `s.StopCh` -/
  | stopped
deriving DecidableEq, Repr

/-- Where the goroutine of stall_resume.go:42-87 is. -/
inductive Sniffer where
  /-- line 44: receives -/
  | recv
  /-- line 47: sends this to the original channel -/
  | hold (e : Nat)
  /-- line 53: asks whether to resume -/
  | ask
  /-- line 58: returned -/
  | done
deriving DecidableEq, Repr

/-- Which channel the reader reads. -/
inductive Reader where
  /-- the channel of the target at the time of linking, `LinkStagesAt` (stage.go:137) -/
  | orig
  /-- the goroutine of stage.go:268-273 has not yet evaluated `next.ErrCh` -/
  | notYet
  /-- it has evaluated it to the channel made for this goroutine of the target -/
  | inc (k : Nat)
deriving DecidableEq, Repr

/-- What is done to the stages of the pipeline at a resumption. -/
inductive Ev where
  /-- stall_resume.go:64-66 -/
  | prepare (i : Nat)
  /-- stall_resume.go:77 -/
  | relink
  /-- stall_resume.go:81-85 -/
  | resume (i : Nat)
deriving DecidableEq, Repr

/-- `sent`: the errors the target has sent; `got`: the errors the reader has received; `told`: the reader has seen the end of its channel; `answers`: those of `shouldResumeNow`; `closes`: how often the
original channel was closed. -/
structure St where
  cur : Nat
  pc : Nat → Pc
  errCl : Nat → Bool
  stopCl : Nat → Bool
  sniffer : Sniffer
  reader : Reader
  sent : List Nat
  got : List Nat
  told : Bool
  answers : List Bool
  closes : Nat
  events : List Ev
  panicked : Bool

/-- Changes one entry of a table. -/
def upd {α : Type} (f : Nat → α) (g : Nat) (x : α) : Nat → α := fun g' => if g' = g then x else f g'

/-- After `Pipeline.Resume` (pipeline.go:132-142) with the link function of stall_resume.go:21-89: the sniffer runs, the target runs. -/
def start (r : Reader) : St where
  cur := 0
  pc := fun g => if g = 0 then .work else .idle
  errCl := fun _ => false
  stopCl := fun _ => false
  sniffer := .recv
  reader := r
  sent := []
  got := []
  told := false
  answers := []
  closes := 0
  events := []
  panicked := false

/-- stall_resume.go:18-19, 63-85: the affected stages are sorted (`Qsort`, which never fails: C55) and walked from the last one, first to prepare them, then to resume them; the target is resumed at the end. -/
def block (target : Nat) (affected : List Nat) : List Ev :=
  let sorted := (Util.qsort (fun a b : Nat => decide (a < b)) (fun _ => 0) affected).getD []
  sorted.reverse.map .prepare ++ [.relink] ++ sorted.reverse.map .resume ++ [.resume target]

/-- stage.go:385: the field has the channel of the newest goroutine. Closing a closed channel panics. -/
def doCloseStop (s : St) (g : Nat) : St :=
  { s with pc := upd s.pc g .gone, stopCl := upd s.stopCl s.cur true, panicked := s.panicked || s.stopCl s.cur }

/-- stall_resume.go:53-59: not to be resumed. -/
def doStop (s : St) : St := { s with sniffer := .done, answers := s.answers ++ [false], closes := s.closes + 1 }

/-- stall_resume.go:62-86: resumed. -/
def doResume (target : Nat) (affected : List Nat) (s : St) : St :=
  { s with
    cur := s.cur + 1
    pc := upd s.pc (s.cur + 1) .work
    sniffer := .recv
    answers := s.answers ++ [true]
    events := s.events ++ block target affected }

/-- What can happen. -/
inductive Step (target : Nat) (affected : List Nat) : St → St → Prop
  /-- stage.go:466-469: the target fails -/
  | fail (s : St) (e : Nat) (hw : s.pc s.cur = .work) : Step target affected s { s with pc := upd s.pc s.cur (.report e) }
  /-- stage.go:447-450, 461-465: the target ends without an error -/
  | finish (s : St) (hw : s.pc s.cur = .work) : Step target affected s { s with pc := upd s.pc s.cur .closeErr }
  /-- stage.go:376 and stall_resume.go:44 -/
  | report (s : St) (e : Nat) (hw : s.pc s.cur = .report e) (hs : s.sniffer = .recv) :
      Step target affected s { s with pc := upd s.pc s.cur .closeErr, sniffer := .hold e, sent := s.sent ++ [e] }
  /-- stage.go:376 and 270: the goroutine of the criss-cross link receives it instead -/
  | direct (s : St) (e : Nat) (hw : s.pc s.cur = .report e) (hr : s.reader = .inc s.cur) :
      Step target affected s { s with pc := upd s.pc s.cur .closeErr, sent := s.sent ++ [e], got := s.got ++ [e] }
  /-- stage.go:381 -/
  | closeErr (s : St) (hw : s.pc s.cur = .closeErr) : Step target affected s { s with pc := upd s.pc s.cur .closeStop, errCl := upd s.errCl s.cur true }
  /-- stage.go:385, by the goroutine `g` -/
  | closeStop (s : St) (g : Nat) (hw : s.pc g = .closeStop) : Step target affected s (doCloseStop s g)
  /-- stage.go:419-422 -/
  | stop (s : St) (hw : s.pc s.cur = .work) (hs : s.stopCl s.cur = true) : Step target affected s { s with pc := upd s.pc s.cur .stopped }
  /-- stall_resume.go:47 -/
  | forward (s : St) (e : Nat) (hs : s.sniffer = .hold e) (hr : s.reader = .orig) : Step target affected s { s with sniffer := .recv, got := s.got ++ [e] }
  /-- stall_resume.go:44: the loop ends, because the channel is closed -/
  | notice (s : St) (hs : s.sniffer = .recv) (hc : s.errCl s.cur = true) : Step target affected s { s with sniffer := .ask }
  /-- stall_resume.go:53-59 -/
  | no (s : St) (hs : s.sniffer = .ask) : Step target affected s (doStop s)
  /-- stall_resume.go:53, 62-86 -/
  | yes (s : St) (hs : s.sniffer = .ask) : Step target affected s (doResume target affected s)
  /-- stage.go:270: the goroutine of a criss-cross link evaluates `next.ErrCh`, after stall_resume.go:38 has replaced it -/
  | bind (s : St) (hr : s.reader = .notYet) : Step target affected s { s with reader := .inc s.cur }
  /-- the reader sees that its channel is closed -/
  | endOrig (s : St) (hr : s.reader = .orig) (hc : 0 < s.closes) : Step target affected s { s with told := true }
  | endInc (s : St) (k : Nat) (hr : s.reader = .inc k) (hc : s.errCl k = true) : Step target affected s { s with told := true }

/-- Any number of steps. -/
inductive Run (target : Nat) (affected : List Nat) : St → St → Prop
  | nil (s : St) : Run target affected s s
  | snoc {s t u : St} : Run target affected s t → Step target affected t u → Run target affected s u

/-- As `Run`; the target is resumed only when its earlier goroutine has returned. Nothing in stall_resume.go waits for that. -/
inductive CarefulRun (target : Nat) (affected : List Nat) : St → St → Prop
  | nil (s : St) : CarefulRun target affected s s
  | snoc {s t u : St} : CarefulRun target affected s t → Step target affected t u → (u.cur = t.cur + 1 → t.pc t.cur = .gone) → CarefulRun target affected s u

end Fpki.AutoResume
