/-!
# Model of the link between the two pipelines of `ingest` (cmd/ingest/processor.go:326-457)

`getNewLinkFunction` connects the stages that make certificates (`toCerts`, here the producers) with the cert batchers and the domain
extractors of the DB pipeline (here the DB stages), by goroutines: one forwarder per producer, one error reader per DB stage. Channels
have no buffer: a send and its receive are one step. Goroutines interleave in any way. What the stages do inside is left to the
environment: a producer emits its certificates, a DB stage takes what is offered and may fail at any time.
-/
namespace Fpki.Bridge

variable {γ : Type}

/-- Where a producer (`toCerts` stage) is: in its loop (stage.go:410-509); in `breakPipelineAndWait` after closing its channel
(stage.go:365); at its end. -/
inductive PPhase where
  | run | closing | ended
deriving DecidableEq, Repr

/-- Where an error of a producer comes from: its own processing, or DB stage `k`. -/
inductive Src where
  | own
  | db (k : Nat)
deriving DecidableEq, Repr

/-- A producer: the certificates it has still to emit and those it has emitted, where it is, and the errors it has found so far
(coalesced at stage.go:369; [] is nil). Errors are numbers; the source is kept only to state the claims. -/
structure Prod (γ : Type) where
  todo : List γ
  sent : List γ
  phase : PPhase
  found : List (Src × Nat)
deriving DecidableEq, Repr

/-- A forwarder (processor.go:416-445): waiting for a certificate; in `SendToAllChannels` with the channels still to send to; at its end. -/
inductive Fwd (γ : Type) where
  | idle
  | sending (c : γ) (pending : List Nat)
  | ended
deriving DecidableEq, Repr

/-- A DB stage: in its loop; about to send its error (stage.go:376); about to close its error channel (stage.go:381); error channel closed. -/
inductive DPhase where
  | run
  | failed (e : Nat)
  | quiet
  | closed
deriving DecidableEq, Repr

/-- A DB stage: where it is, its error if it has failed, and what it has received, with the producer. -/
structure Db (γ : Type) where
  phase : DPhase
  err : Option Nat
  recv : List (Nat × γ)
deriving DecidableEq, Repr

/-- An error reader (processor.go:373-378): waiting for an error; in `SendToAllChannels` with the producers still to send to; at its end. -/
inductive Rdr where
  | idle
  | sending (e : Nat) (pending : List Nat)
  | done
deriving DecidableEq, Repr

/-- The whole: `dataClosed` after processor.go:454, `errsClosed` after 385. -/
structure State (γ : Type) where
  prods : List (Prod γ)
  fwds : List (Fwd γ)
  dbs : List (Db γ)
  rdrs : List Rdr
  dataClosed : Bool
  errsClosed : Bool
deriving DecidableEq, Repr

/-- processor.go:371, 415: one forwarder per producer, one reader per channel of the source, of which there are twice the number of DB workers (353). The producers have to emit `work`. -/
def init (workers : Nat) (work : List (List γ)) : State γ :=
  ⟨work.map fun w => ⟨w, [], .run, []⟩, work.map fun _ => .idle,
   List.replicate (2 * workers) ⟨.run, none, []⟩, List.replicate (2 * workers) .idle, false, false⟩

/-- pkg/mapserver/updater/manager.go:87-93: the source function: the batcher and the domain extractor of the worker. -/
def route (shard : γ → Nat) (workers : Nat) (c : γ) : List Nat := [shard c, shard c + workers]

/-- The steps. -/
inductive Act where
  /-- producer `i` sends its next certificate to its forwarder (stage.go:476, processor.go:422) -/
  | emit (i : Nat)
  /-- producer `i` has no more input: it closes its channel (stage.go:446-449, 355-361, processor.go:404) -/
  | eof (i : Nat)
  /-- producer `i` fails (stage.go:466-469) -/
  | fail (i e : Nat)
  /-- producer `i` reads nil from its closed error channel in its loop (stage.go:424-427) -/
  | nilErr (i : Nat)
  /-- producer `i` reads nil from its closed error channel in `breakPipelineAndWait` (stage.go:365) and ends -/
  | pEnd (i : Nat)
  /-- forwarder `i` sends to channel `k` (processor.go:437-442) -/
  | deliver (i k : Nat)
  /-- it has sent to all -/
  | fNext (i : Nat)
  /-- its channel is closed (processor.go:422, 417) -/
  | fEnd (i : Nat)
  /-- processor.go:449-455 -/
  | closeData
  /-- DB stage `k` fails, or gets an error of its next stages -/
  | dbFail (k e : Nat)
  /-- DB stage `k` sees its closed channel and ends without error -/
  | dbEnd (k : Nat)
  /-- it sends its error to its reader (stage.go:376, processor.go:375) -/
  | dbSend (k : Nat)
  /-- it closes its error channel (stage.go:381) -/
  | dbClose (k : Nat)
  /-- reader `k` sends to producer `i` (processor.go:376) -/
  | errTo (k i : Nat)
  /-- it has sent to all -/
  | rNext (k : Nat)
  /-- its channel is closed (processor.go:375, 374) -/
  | rEnd (k : Nat)
  /-- processor.go:381-386 -/
  | closeErrs
deriving DecidableEq, Repr

/-- A producer that receives error `e` of DB stage `k`: in its loop it breaks (stage.go:424-427), closing its channel; in `breakPipelineAndWait` it ends (stage.go:365-388). -/
def Prod.receive (p : Prod γ) (k e : Nat) : Prod γ :=
  { p with found := p.found ++ [(.db k, e)], phase := if p.phase = .run then .closing else .ended }

/-- One step; `none` if it is not possible. -/
def State.exec (shard : γ → Nat) (workers : Nat) (s : State γ) : Act → Option (State γ)
  | .emit i =>
    match s.prods[i]?, s.fwds[i]? with
    | some ⟨c :: cs, sent, .run, f⟩, some .idle =>
      some { s with prods := s.prods.set i ⟨cs, sent ++ [c], .run, f⟩, fwds := s.fwds.set i (.sending c (route shard workers c)) }
    | _, _ => none
  | .eof i =>
    match s.prods[i]? with
    | some ⟨[], sent, .run, f⟩ => some { s with prods := s.prods.set i ⟨[], sent, .closing, f⟩ }
    | _ => none
  | .fail i e =>
    match s.prods[i]? with
    | some ⟨t, sent, .run, f⟩ => some { s with prods := s.prods.set i ⟨t, sent, .closing, f ++ [(.own, e)]⟩ }
    | _ => none
  | .nilErr i =>
    match s.prods[i]? with
    | some ⟨t, sent, .run, f⟩ => if s.errsClosed then some { s with prods := s.prods.set i ⟨t, sent, .closing, f⟩ } else none
    | _ => none
  | .pEnd i =>
    match s.prods[i]? with
    | some ⟨t, sent, .closing, f⟩ => if s.errsClosed then some { s with prods := s.prods.set i ⟨t, sent, .ended, f⟩ } else none
    | _ => none
  | .deliver i k =>
    match s.fwds[i]?, s.dbs[k]? with
    | some (.sending c ks), some ⟨.run, err, recv⟩ =>
      if k ∈ ks then
        some { s with fwds := s.fwds.set i (.sending c (ks.erase k)), dbs := s.dbs.set k ⟨.run, err, recv ++ [(i, c)]⟩ }
      else none
    | _, _ => none
  | .fNext i =>
    match s.fwds[i]? with
    | some (.sending _ []) => some { s with fwds := s.fwds.set i .idle }
    | _ => none
  | .fEnd i =>
    match s.prods[i]?, s.fwds[i]? with
    | some p, some .idle => if p.phase ≠ .run then some { s with fwds := s.fwds.set i .ended } else none
    | _, _ => none
  | .closeData => if s.fwds.all (fun f => match f with | .ended => true | _ => false) ∧ s.dataClosed = false then some { s with dataClosed := true } else none
  | .dbFail k e =>
    match s.dbs[k]? with
    | some ⟨.run, _, recv⟩ => some { s with dbs := s.dbs.set k ⟨.failed e, some e, recv⟩ }
    | _ => none
  | .dbEnd k =>
    match s.dbs[k]? with
    | some ⟨.run, err, recv⟩ => if s.dataClosed then some { s with dbs := s.dbs.set k ⟨.quiet, err, recv⟩ } else none
    | _ => none
  | .dbSend k =>
    match s.dbs[k]?, s.rdrs[k]? with
    | some ⟨.failed e, err, recv⟩, some .idle =>
      some { s with dbs := s.dbs.set k ⟨.quiet, err, recv⟩, rdrs := s.rdrs.set k (.sending e (List.range s.prods.length)) }
    | _, _ => none
  | .dbClose k =>
    match s.dbs[k]? with
    | some ⟨.quiet, err, recv⟩ => some { s with dbs := s.dbs.set k ⟨.closed, err, recv⟩ }
    | _ => none
  | .errTo k i =>
    match s.rdrs[k]?, s.prods[i]? with
    | some (.sending e is), some p =>
      if i ∈ is ∧ p.phase ≠ .ended then
        some { s with rdrs := s.rdrs.set k (.sending e (is.erase i)), prods := s.prods.set i (p.receive k e) }
      else none
    | _, _ => none
  | .rNext k =>
    match s.rdrs[k]? with
    | some (.sending _ []) => some { s with rdrs := s.rdrs.set k .idle }
    | _ => none
  | .rEnd k =>
    match s.dbs[k]?, s.rdrs[k]? with
    | some ⟨.closed, _, _⟩, some .idle => some { s with rdrs := s.rdrs.set k .done }
    | _, _ => none
  | .closeErrs => if s.rdrs.all (fun r => r == .done) ∧ s.errsClosed = false then some { s with errsClosed := true } else none

/-- A sequence of steps. -/
def State.run (shard : γ → Nat) (workers : Nat) (s : State γ) : List Act → Option (State γ)
  | [] => some s
  | e :: es => (s.exec shard workers e).bind fun s' => s'.run shard workers es

end Fpki.Bridge
