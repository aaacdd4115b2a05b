import Verif.Model.Db

/-!
# Model of pruning: the cut-off time and the stored procedure as a sequence of statements
`pkg/db/mysql/certs.go` `pruneCerts`, `tools/create_schema.sh` `prune_expired`, `pkg/mapserver/mapserver.go` `prune`.

A time is an instant and the zone it is shown in. The columns of type DATETIME hold what a clock in that zone shows, without fractions of a second:
`Format(time.DateTime)` writes no zone. Statements are atomic; one that fails changes nothing; the procedure has no handlers, so it ends with its first failing
statement. The temporary table belongs to the session, i.e. to a connection of the pool, which is used again after an error.
-/
namespace Fpki.Prune
open Fpki.Db

/-- Go `time.Time`: the instant, in nanoseconds after the beginning of year 1, and the offset of its zone in seconds. Simplification: a zone is its offset. -/
structure Time where
  instant : Nat
  offset : Int
deriving DecidableEq, Repr

/-- `t.Format(time.DateTime)`: the time in its zone, cut to seconds. -/
def Time.wall (t : Time) : Nat := ((t.instant / 1000000000 : Nat) + t.offset).toNat

/-- A certificate with its `NotAfter`. -/
structure DatedCert where
  id : Bytes
  parent : Bytes
  notAfter : Time
  payload : Bytes
deriving DecidableEq, Repr

/-- csv.go:209, certs.go:72-84: the row of a certificate; its `NotAfter` is written with `time.DateTime`. -/
def DatedCert.row (c : DatedCert) : Cert := ⟨c.id, c.parent, c.notAfter.wall, c.payload⟩

/-- certs.go:367-375 `pruneCerts`, mapserver.go:318-330 `prune`: `now` is `time.Now()`, in the zone of the machine. -/
def pruneAt (fuel : Nat) (db : DB) (now : Time) : Option DB := Db.pruneCerts fuel db now.wall

/-- A connection to the DB: the tables, and whether its temporary table exists. -/
structure Session where
  db : DB
  temp : Bool
deriving DecidableEq

/-- create_schema.sh:396-432: `prune_expired`, statement by statement. `fail = some k` says that statement `k` (from 0) fails for a reason of its own, such as a
lock that was not granted in time. The result says whether the call succeeded. -/
def callPrune (fuel : Nat) (s : Session) (cut : Nat) (fail : Option Nat) : Bool × Session :=
  -- CREATE TEMPORARY TABLE
  if s.temp ∨ fail = some 0 then (false, s)
  else
    let s1 := { s with temp := true }
    -- INSERT INTO temp_cert_ids: the recursive query
    let base := (s.db.certs.filter (fun c => decide (c.expiration < cut))).map Cert.id
    match expiredLoop s.db.certs fuel base base with
    | none => (false, s1)
    | some ids =>
      if fail = some 1 then (false, s1)
      -- REPLACE INTO dirty
      else if fail = some 2 then (false, s1)
      else
        let s2 := { s1 with db := { s.db with
          dirty := replaceInto Prod.fst s.db.dirty (((s.db.domainCerts.filter (fun l => ids.contains l.2)).map Prod.fst).eraseDups.map (fun d => (d, false))) } }
        -- DELETE FROM certs
        if fail = some 3 then (false, s2)
        else
          let s3 := { s2 with db := { s2.db with certs := s2.db.certs.filter (fun c => !ids.contains c.id) } }
          -- DROP TEMPORARY TABLE
          if fail = some 4 then (false, s3) else (true, { s3 with temp := false })

end Fpki.Prune
