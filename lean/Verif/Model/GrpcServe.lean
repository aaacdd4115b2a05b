/-!
# The gRPC server of the map server (pkg/grpc/grpcserver/grpcserver.go)

Calls of `StartWork` in one process, numbered, each with a port and a channel to tell it to stop. The queries, which the goroutine of `s.Serve` answers, are
events; what they are answered is the claim C103. Errors of `s.Serve` itself (a listener that breaks) are not modelled: the code ignores them.
-/
namespace Fpki.GrpcServe

/-- Where a call of `StartWork` is. -/
inductive Phase
  | out
  /-- grpcserver.go:85: waits to be told -/
  | waiting
  /-- it has returned nil (`true`, line 87) or the error of `net.Listen` (line 76) -/
  | returned (ok : Bool)
deriving DecidableEq

/-- The calls; which of them has a goroutine in `s.Serve` with an open listener (line 83); which calls somebody has told to stop; and the queries that were
answered, with the calls whose servers did. -/
structure St where
  phase : Nat → Phase
  serving : Nat → Bool
  told : Nat → Bool
  answered : List Nat

/-- At the beginning. -/
def start : St := ⟨fun _ => .out, fun _ => false, fun _ => false, []⟩

/-- A function changed at one place. -/
def set (f : Nat → α) (i : Nat) (a : α) : Nat → α := fun j => if j = i then a else f j

/-- What can happen. -/
inductive Ev
  /-- call `i` begins; `net.Listen` works or not -/
  | call (i : Nat) (listens : Bool)
  /-- somebody sends on `terminateChan` of call `i`, and the call receives it -/
  | terminate (i : Nat)
  /-- a query to the port of call `i`, answered by its server -/
  | query (i : Nat)

/-- grpcserver.go:71-88 `StartWork`. `port i` is the port of call `i`, among the first `n` calls. `net.Listen` needs that no listener of this process has the
port (another process can have it: `listens` is then false). Nothing closes the listener: neither `s.Stop` nor `lis.Close` is called. -/
def step (port : Nat → Nat) (n : Nat) (s : St) : Ev → Option St
  | .call i listens =>
    if i < n ∧ s.phase i = .out then
      if ((List.range n).any fun j => s.serving j && port j == port i) = true then
        if listens then none else some { s with phase := set s.phase i (.returned false) }     -- 74-77
      else if listens then some { s with phase := set s.phase i .waiting, serving := set s.serving i true }    -- 78-83
      else some { s with phase := set s.phase i (.returned false) }
    else none
  | .terminate i =>
    if s.phase i = .waiting then some { s with phase := set s.phase i (.returned true), told := set s.told i true } else none    -- 85-87
  | .query i => if s.serving i then some { s with answered := s.answered ++ [i] } else none

/-- The states of a process. -/
inductive Reach (port : Nat → Nat) (n : Nat) : St → Prop
  | start : Reach port n start
  | step {s s' : St} (ev : Ev) : Reach port n s → step port n s ev = some s' → Reach port n s'

end Fpki.GrpcServe
