import Verif.Model.Prune
import Verif.Props.DbHist

/-!
# C79: the time of pruning, and pruning that fails midway
-/
namespace Fpki.Prune
open Fpki.Db

/-! ## Specification -/

/-- The instant in whole seconds. -/
def Time.seconds (t : Time) : Nat := t.instant / 1000000000

/-- Must go at `now`: no longer valid (RFC 5280: `NotAfter` is the last valid second), or issued, directly or not, by such a certificate. -/
inductive Outdated (cs : List DatedCert) (now : Time) : Bytes → Prop where
  | expired (c : DatedCert) : c ∈ cs → c.notAfter.seconds < now.seconds → Outdated cs now c.id
  | child (c : DatedCert) : c ∈ cs → Outdated cs now c.parent → Outdated cs now c.id

/-! ## The time -/

theorem wall_utc {t : Time} (h : t.offset = 0) : t.wall = t.seconds := by
  unfold Time.wall Time.seconds
  rw [h]; omega

theorem outdated_iff (cs : List DatedCert) (now : Time) (hnow : now.offset = 0) (hcs : ∀ c ∈ cs, c.notAfter.offset = 0) (i : Bytes) :
    InExpired (cs.map DatedCert.row) now.wall i ↔ Outdated cs now i := by
  constructor
  · intro h
    induction h with
    | expired c hc he =>
      obtain ⟨d, hd, rfl⟩ := List.mem_map.1 hc
      refine .expired d hd ?_
      have : d.notAfter.wall < now.wall := he
      rwa [wall_utc (hcs d hd), wall_utc hnow] at this
    | child c hc _ ih =>
      obtain ⟨d, hd, rfl⟩ := List.mem_map.1 hc
      exact .child d hd ih
  · intro h
    induction h with
    | expired c hc he =>
      refine .expired c.row (List.mem_map_of_mem hc) ?_
      show c.notAfter.wall < now.wall
      rwa [wall_utc (hcs c hc), wall_utc hnow]
    | child c hc _ ih => exact .child c.row (List.mem_map_of_mem hc) ih

/-- On a machine in the zone UTC, with certificates whose `NotAfter` is in UTC, a pruning that ends removes exactly the certificates that must go. -/
theorem C79_utc_exact_partial {fuel : Nat} {db db' : DB} {cs : List DatedCert} {now : Time} (hdb : db.certs = cs.map DatedCert.row) (hnow : now.offset = 0)
    (hcs : ∀ c ∈ cs, c.notAfter.offset = 0) (h : pruneAt fuel db now = some db') (c : DatedCert) (hc : c ∈ cs) :
    c.row ∈ db'.certs ↔ ¬ Outdated cs now c.id := by
  obtain ⟨_, h2, _⟩ := C21_prune_result fuel db db' now.wall h
  rw [h2, hdb, outdated_iff cs now hnow hcs]
  exact ⟨fun h => h.2, fun h => ⟨List.mem_map_of_mem hc, h⟩⟩

/-- On a machine whose zone is ahead of UTC, pruning is what it should be that much later. -/
theorem C79_zone_shift (fuel : Nat) (db : DB) (t o : Nat) : pruneAt fuel db ⟨t, o⟩ = pruneAt fuel db ⟨t + o * 1000000000, 0⟩ := by
  unfold pruneAt Time.wall
  congr 1
  show ((t / 1000000000 : Nat) + (o : Int)).toNat = (((t + o * 1000000000) / 1000000000 : Nat) + (0 : Int)).toNat
  omega

/-- Noon of some day. -/
def noon : Nat := 63000000000 * 1000000000
def hour : Nat := 3600 * 1000000000
def secs (t : Nat) : Nat := t / 1000000000

/-- A certificate that is valid until `t`. -/
def certUntil (t : Time) : DatedCert := ⟨[2], [], t, [20]⟩
def dbOf (c : DatedCert) : DB := ⟨[c.row], [], [([9], c.id)], [], [], [], []⟩

/-- Two hours east of UTC, a certificate that is valid for one hour more is removed. -/
theorem C79_zone_violated : pruneAt 5 (dbOf (certUntil ⟨noon + hour, 0⟩)) ⟨noon, 7200⟩ = some ⟨[], [], [([9], [2])], [], [], [], [([9], false)]⟩ ∧
    (⟨noon, 7200⟩ : Time).instant < (certUntil ⟨noon + hour, 0⟩).notAfter.instant := by
  decide +kernel

/-- Five hours west of UTC, a certificate that expired four hours ago stays. -/
theorem C79_zone_west_violated : ∃ db, pruneAt 5 (dbOf (certUntil ⟨noon - 4 * hour, 0⟩)) ⟨noon, -18000⟩ = some db ∧ db.certs = (dbOf (certUntil ⟨noon - 4 * hour, 0⟩)).certs ∧
    (certUntil ⟨noon - 4 * hour, 0⟩).notAfter.instant < (⟨noon, -18000⟩ : Time).instant := by
  refine ⟨dbOf (certUntil ⟨noon - 4 * hour, 0⟩), ?_, rfl, ?_⟩ <;> decide +kernel

/-- The comment of the API says that a certificate goes whose `NotAfter` is equal to the parameter: it stays. -/
theorem C79_equal_violated : pruneAt 5 (dbOf (certUntil ⟨noon, 0⟩)) ⟨noon, 0⟩ = some (dbOf (certUntil ⟨noon, 0⟩)) := by
  decide +kernel

example : ∃ (cs : List DatedCert) (now : Time) (db db' : DB), (dbOf (certUntil ⟨noon, 0⟩)).certs = cs.map DatedCert.row ∧ now = (⟨noon + 2 * hour, 0⟩ : Time) ∧ (∀ c ∈ cs, c.notAfter.offset = 0) ∧
    pruneAt 5 db now = some db' ∧ db = dbOf (certUntil ⟨noon, 0⟩) ∧ db'.certs = [] :=
  ⟨[certUntil ⟨noon, 0⟩], _, dbOf (certUntil ⟨noon, 0⟩), ⟨[], [], [([9], [2])], [], [], [], [([9], false)]⟩, rfl, rfl, by decide, by decide +kernel, rfl, rfl⟩

/-! ## Failing midway -/

/-- The call, when the query for the expired certificates ends. -/
theorem callPrune_some {fuel : Nat} {s : Session} {cut : Nat} {db' : DB} (ht : s.temp = false) (h : pruneCerts fuel s.db cut = some db') (fail : Option Nat) :
    callPrune fuel s cut fail =
      (if fail = some 0 then (false, s) else if fail = some 1 ∨ fail = some 2 then (false, ⟨s.db, true⟩)
       else if fail = some 3 then (false, ⟨{ s.db with dirty := db'.dirty }, true⟩)
       else if fail = some 4 then (false, ⟨db', true⟩) else (true, ⟨db', false⟩)) := by
  unfold pruneCerts at h
  unfold callPrune
  dsimp only at h ⊢
  rw [ht]
  by_cases h0 : fail = some 0
  · simp [h0]
  · rw [if_neg (by simp [h0]), if_neg h0]
    cases hl : expiredLoop s.db.certs fuel ((s.db.certs.filter (fun c => decide (c.expiration < cut))).map Cert.id)
      ((s.db.certs.filter (fun c => decide (c.expiration < cut))).map Cert.id) with
    | none => rw [hl] at h; cases h
    | some ids =>
      rw [hl] at h
      cases h
      dsimp only
      by_cases h1 : fail = some 1
      · simp [h1]
      · rw [if_neg h1]
        by_cases h2 : fail = some 2
        · simp [h2]
        · rw [if_neg h2, if_neg (show ¬ (fail = some 1 ∨ fail = some 2) from fun h => h.elim h1 h2)]

theorem callPrune_none {fuel : Nat} {s : Session} {cut : Nat} (h : pruneCerts fuel s.db cut = none) (fail : Option Nat) :
    (callPrune fuel s cut fail).1 = false ∧ (callPrune fuel s cut fail).2.db = s.db := by
  unfold pruneCerts at h
  unfold callPrune
  dsimp only at h ⊢
  by_cases h0 : s.temp = true ∨ fail = some 0
  · rw [if_pos h0]; exact ⟨rfl, rfl⟩
  · rw [if_neg h0]
    cases hl : expiredLoop s.db.certs fuel ((s.db.certs.filter (fun c => decide (c.expiration < cut))).map Cert.id)
      ((s.db.certs.filter (fun c => decide (c.expiration < cut))).map Cert.id) with
    | none => exact ⟨rfl, rfl⟩
    | some ids => rw [hl] at h; cases h

/-- Without a failure the call is `pruneCerts`, and the session is as before. -/
theorem C79_success {fuel : Nat} {s : Session} {cut : Nat} (ht : s.temp = false) {db' : DB} (h : pruneCerts fuel s.db cut = some db') :
    callPrune fuel s cut none = (true, ⟨db', false⟩) := by
  rw [callPrune_some ht h]; simp

/-- Whatever statement fails, whatever the state of the session: afterwards the contents of the DB are one of the histories of C70, i.e. the payload of every
domain that is not marked dirty is still right. -/
theorem C79_failure_keeps_consistency {H : Bytes → Bytes} {fuel : Nat} {s : Session} {cut : Nat} {fail : Option Nat} (hh : Hist H s.db) :
    Hist H (callPrune fuel s cut fail).2.db := by
  cases hp : pruneCerts fuel s.db cut with
  | none => rw [(callPrune_none hp fail).2]; exact hh
  | some db' =>
    cases ht : s.temp with
    | true =>
      have : callPrune fuel s cut fail = (false, s) := by unfold callPrune; rw [if_pos (Or.inl ht)]
      rw [this]; exact hh
    | false =>
      rw [callPrune_some ht hp]
      have hd := Hist.prune s.db db' fuel cut hh hp
      have hc := Hist.pruneCut s.db db' fuel cut hh hp
      split
      · exact hh
      · split
        · exact hh
        · split
          · exact hc
          · split
            · exact hd
            · exact hd

/-- Nothing is half done: a failed call has removed no certificate, or all that had to go; and the domains are marked before. -/
theorem C79_failure_all_or_nothing {fuel : Nat} {s : Session} {cut : Nat} {fail : Option Nat} {db' : DB} (h : pruneCerts fuel s.db cut = some db') :
    let r := (callPrune fuel s cut fail).2.db
    (r.certs = s.db.certs ∨ r = db') ∧ (∀ d, LosesCert s.db cut d → r.certs ≠ s.db.certs → (d, false) ∈ r.dirty) := by
  intro r
  have key : r = s.db ∨ r = { s.db with dirty := db'.dirty } ∨ r = db' := by
    cases ht : s.temp with
    | true =>
      have : callPrune fuel s cut fail = (false, s) := by unfold callPrune; rw [if_pos (Or.inl ht)]
      left; show (callPrune fuel s cut fail).2.db = _; rw [this]
    | false =>
      show (callPrune fuel s cut fail).2.db = _ ∨ (callPrune fuel s cut fail).2.db = _ ∨ (callPrune fuel s cut fail).2.db = _
      rw [callPrune_some ht h]
      split
      · exact .inl rfl
      · split
        · exact .inl rfl
        · split
          · exact .inr (.inl rfl)
          · split
            · exact .inr (.inr rfl)
            · exact .inr (.inr rfl)
  obtain ⟨_, _, h3, _⟩ := C21_prune_result fuel s.db db' cut h
  rcases key with hr | hr | hr
  · exact ⟨.inl (by rw [hr]), fun d _ hne => absurd (by rw [hr]) hne⟩
  · exact ⟨.inl (by rw [hr]), fun d _ hne => absurd (by rw [hr]) hne⟩
  · exact ⟨.inr hr, fun d hd _ => by rw [hr]; exact (h3 (d, false)).2 (.inl ⟨hd, rfl⟩)⟩

/-- A retry over another connection does all the work that a call without failure would have done: the same certificates remain, and the same domains
are dirty. -/
theorem C79_retry_other_session_partial {fuel : Nat} {s : Session} {cut : Nat} {fail : Option Nat} {db' : DB}
    (h : pruneCerts fuel s.db cut = some db') :
    ∃ db'', callPrune fuel ⟨(callPrune fuel s cut fail).2.db, false⟩ cut none = (true, ⟨db'', false⟩) ∧ db''.certs = db'.certs ∧
      ∀ r, r ∈ db''.dirty ↔ r ∈ db'.dirty := by
  have key : (callPrune fuel s cut fail).2.db = s.db ∨ (callPrune fuel s cut fail).2.db = { s.db with dirty := db'.dirty } ∨ (callPrune fuel s cut fail).2.db = db' := by
    cases ht : s.temp with
    | true =>
      have : callPrune fuel s cut fail = (false, s) := by unfold callPrune; rw [if_pos (Or.inl ht)]
      left; rw [this]
    | false =>
      rw [callPrune_some ht h]
      split
      · exact .inl rfl
      · split
        · exact .inl rfl
        · split
          · exact .inr (.inl rfl)
          · split
            · exact .inr (.inr rfl)
            · exact .inr (.inr rfl)
  have same : ∀ D : List (Bytes × Bool), ∃ db'', pruneCerts fuel { s.db with dirty := D } cut = some db'' ∧ db''.certs = db'.certs ∧ db''.domainCerts = db'.domainCerts := by
    intro D
    unfold pruneCerts at h ⊢
    dsimp only at h ⊢
    split at h
    · cases h
    · next ids hl =>
      cases h
      exact ⟨_, rfl, rfl, rfl⟩
  obtain ⟨_, _, h3, _, h5, _⟩ := C21_prune_result fuel s.db db' cut h
  have mid : ∀ D : List (Bytes × Bool), (D = s.db.dirty ∨ D = db'.dirty) → ∃ db'', callPrune fuel ⟨{ s.db with dirty := D }, false⟩ cut none = (true, ⟨db'', false⟩) ∧ db''.certs = db'.certs ∧
      ∀ r, r ∈ db''.dirty ↔ r ∈ db'.dirty := by
    intro D hD
    obtain ⟨db'', g1, g2, _⟩ := same D
    refine ⟨db'', C79_success (s := ⟨{ s.db with dirty := D }, false⟩) rfl g1, g2, ?_⟩
    obtain ⟨_, _, g3, _⟩ := C21_prune_result fuel _ db'' cut g1
    have hlc : ∀ d, LosesCert { s.db with dirty := D } cut d ↔ LosesCert s.db cut d := fun _ => Iff.rfl
    intro r
    rw [g3, h3]
    rw [hlc]
    rcases hD with rfl | rfl
    · exact Iff.rfl
    · show _ ∨ (r ∈ db'.dirty ∧ _) ↔ _
      rw [h3]
      by_cases hl : LosesCert s.db cut r.1
      · simp [hl]
      · simp [hl]
  rcases key with hk | hk | hk
  · rw [hk]; exact mid s.db.dirty (.inl rfl)
  · rw [hk]; exact mid db'.dirty (.inr rfl)
  · -- the certificates had gone already
    rw [hk]
    obtain ⟨_, g2, g3, _⟩ := C21_prune_result fuel s.db db' cut h
    have hb : (db'.certs.filter (fun c => decide (c.expiration < cut))) = [] := by
      rw [List.filter_eq_nil_iff]
      intro c hc
      simp only [decide_eq_true_eq]
      intro hlt
      exact ((g2 c).1 hc).2 (.expired c ((g2 c).1 hc).1 hlt)
    have hp : pruneCerts fuel db' cut = some db' := by
      cases fuel with
      | zero => unfold pruneCerts at h; cases h
      | succ n =>
        unfold pruneCerts
        rw [hb]
        simp only [List.map_nil, expiredLoop, List.flatMap_nil, if_true]
        have e1 : db'.domainCerts.filter (fun l => ([] : List Bytes).contains l.2) = [] := by
          rw [List.filter_eq_nil_iff]; simp
        have e2 : db'.certs.filter (fun c => !([] : List Bytes).contains c.id) = db'.certs := by
          rw [List.filter_eq_self]; simp
        rw [e1, e2]
        rfl
    exact ⟨db', C79_success (s := ⟨db', false⟩) rfl hp, rfl, fun _ => Iff.rfl⟩

/-- Once a call has failed after its first statement, every later call over that connection fails and changes nothing, whatever the cause of the first
failure was: the temporary table is still there. -/
theorem C79_retry_violated {fuel : Nat} {s : Session} {cut : Nat} {fail : Option Nat} (hf : (callPrune fuel s cut fail).1 = false)
    (h0 : s.temp = true ∨ fail ≠ some 0) (fuel' cut' : Nat) (fail' : Option Nat) (tables : DB) :
    callPrune fuel' { (callPrune fuel s cut fail).2 with db := tables } cut' fail' = (false, ⟨tables, true⟩) := by
  have ht : (callPrune fuel s cut fail).2.temp = true := by
    unfold callPrune at hf ⊢
    dsimp only at hf ⊢
    by_cases hs : s.temp = true ∨ fail = some 0
    · rw [if_pos hs]
      rcases h0 with h0 | h0
      · exact h0
      · rcases hs with hs | hs
        · exact hs
        · exact absurd hs h0
    · rw [if_neg hs] at hf ⊢
      split at hf
      · rfl
      · split at hf
        · next h1 => rw [if_pos h1]
        · next h1 =>
          rw [if_neg h1]
          split at hf
          · next h2 => rw [if_pos h2]
          · next h2 =>
            rw [if_neg h2]
            split at hf
            · next h3 => rw [if_pos h3]
            · next h3 =>
              rw [if_neg h3]
              split at hf
              · next h4 => rw [if_pos h4]
              · cases hf
  generalize hg : (callPrune fuel s cut fail).2 = g at ht
  obtain ⟨gdb, gt⟩ := g
  simp only at ht
  subst ht
  unfold callPrune
  rw [if_pos (Or.inl rfl)]

/-- The first call waits in vain for a lock while deleting; the second one meets no obstacle but the table. -/
example : callPrune 5 ⟨dbOf (certUntil ⟨noon, 0⟩), false⟩ (secs noon + 1) (some 3) =
      (false, ⟨{ dbOf (certUntil ⟨noon, 0⟩) with dirty := [([9], false)] }, true⟩) ∧
    callPrune 5 (callPrune 5 ⟨dbOf (certUntil ⟨noon, 0⟩), false⟩ (secs noon + 1) (some 3)).2 (secs noon + 1) none =
      (false, ⟨{ dbOf (certUntil ⟨noon, 0⟩) with dirty := [([9], false)] }, true⟩) ∧
    callPrune 5 ⟨{ dbOf (certUntil ⟨noon, 0⟩) with dirty := [([9], false)] }, false⟩ (secs noon + 1) none =
      (true, ⟨{ dbOf (certUntil ⟨noon, 0⟩) with certs := [], dirty := [([9], false)] }, false⟩) := by
  decide +kernel

example : Hist id leafDB ∧ (pruneCerts 5 leafDB 10).isSome ∧ (callPrune 5 ⟨leafDB, false⟩ 10 (some 3)).1 = false := by
  refine ⟨.keep emptyDB leafDB leafBatch .empty ⟨rfl, rfl, rfl, rfl⟩ ?_ leafDB_insert, by decide, by decide⟩
  intro i hi hn
  refine ⟨?_, ?_⟩ <;> intro x hx <;> cases hx

end Fpki.Prune
