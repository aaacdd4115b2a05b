import Verif.Model.Layers
import Verif.Model.Rows
/-!
# The functions of the stages that read files
`cmd/ingest/csvSplitWorker.go:36-70`, `toChainWorker.go:38-64`, `chainToCertWorker.go`, `cmd/ingest/processor.go:172-190`.
-/
namespace Fpki.Layers
open Fpki.Pipe (Outcome Call Fn)
open Fpki.Rows (RawLine Now W Stats readFile parseLine)
open Fpki.Chains (X509)

/-- A file as `Open` and the reader see it: it may be missing, it may not open; reading may fail after `content` (`bad`), and so may `Close`. -/
inductive File where
  | missing
  | unreadable
  | content (bad closeFails : Bool) (content : Bytes)
deriving DecidableEq

/-- What goes through the channels: files, lines (csvSplitWorker.go:15-20), chains of certificates (toChainWorker.go:23). -/
inductive Msg where
  | file (f : File)
  | line (l : RawLine)
  | chain (leaf : X509) (parents : List (Option X509)) (ids : List Bytes)

/-- csvSplitWorker.go:39-70: one line per batch. An error of the streaming function ends the file, the stage goes back to its input and the error is dropped (stage.go:498-508; C37, C68): so the
outcome of a file that could be opened does not depend on the errors of `readFile`. Simplification: `Open` errors other than a missing file are all the same. -/
def splitFn (skip : Bool) : Fn Msg W :=
  ⟨fun w m =>
    match m with
    | .file .missing => (w, ⟨[], if skip then .go else .fail 1⟩)
    | .file .unreadable => (w, ⟨[], .fail 1⟩)
    | .file (.content bad cl c) => (w, ⟨(readFile Rows.csvRead bad cl c).1.map fun l => [(0, .line l)], .go⟩)
    | _ => (w, ⟨[], .go⟩),
   fun w => (w, ⟨[], .go⟩)⟩

/-- toChainWorker.go:38-64, with `parseLine` as in C86. Each worker has its own cache. -/
def chainFn (H : Bytes → Bytes) (parse : Bytes → Option X509) (size : Nat) (now : Now) : Fn Msg W :=
  ⟨fun w m =>
    match m with
    | .line l =>
      match parseLine H parse size now w l with
      | (w', .error) => (w', ⟨[], .fail 2⟩)
      | (w', .skip) => (w', ⟨[], .go⟩)
      | (w', .chain leaf ps ids) => (w', ⟨[[(0, .chain leaf ps ids)]], .go⟩)
    | _ => (w, ⟨[], .go⟩),
   fun w => (w, ⟨[], .go⟩)⟩

/-- chainToCertWorker.go:22-33: the certificates of a chain. They go to the DB part; simplification: this comes to an end without error here. -/
def certFn : Fn Msg W := ⟨fun w _ => (w, ⟨[], .go⟩), fun w => (w, ⟨[], .go⟩)⟩

/-- The certificates that a stage `toCerts` puts out for what it has got. -/
def certsOf (H : Bytes → Bytes) : Msg → List Chains.Out
  | .chain leaf ps ids => Chains.certsFromChain H leaf ps ids
  | _ => []

/-- processor.go:172-271 -/
def filesNet (H : Bytes → Bytes) (parse : Bytes → Option X509) (size : Nat) (now : Now) (skip : Bool) (S W' C : Nat) : Net Msg W :=
  ingestNet S W' C fun i => if i < 1 + S then splitFn skip else if i < 1 + S + W' then chainFn H parse size now else certFn

/-- processor.go:174-179, source.go:108-149 `WithSourceSlice`: the source gives one file per call. -/
def filesScript (files : List File) : List (Call Msg) := files.map fun f => ⟨[[(0, .file f)]], .go⟩

end Fpki.Layers
