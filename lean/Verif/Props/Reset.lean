import Verif.Model.Reset
import Verif.Props.Policies
import Verif.Props.Updater

/-!
# C116: resetting the DB (`TruncateAllTables`)
-/
namespace Fpki.Reset
open Fpki.Db

/-- C116 (partial: the policies and the state of the CT logs are kept): after a reset the tree, its root, the certificates, names, links, payloads and marks are gone. Only for a DB without
policies and without a recorded state of a CT log it is a new DB. -/
theorem C116_reset_partial (t : Tables) : (truncateAllTables t).tree = [] ∧ (truncateAllTables t).root = none ∧
    (truncateAllTables t).db = ⟨[], [], [], t.db.policies, t.db.domainPolicies, [], []⟩ ∧ (truncateAllTables t).logs = t.logs ∧
    (truncateAllTables t = created ↔ t.db.policies = [] ∧ t.db.domainPolicies = [] ∧ t.logs = []) := by
  refine ⟨rfl, rfl, rfl, rfl, ?_⟩
  constructor
  · intro h
    have h1 : (truncateAllTables t).db.policies = [] := by rw [h]; rfl
    have h2 : (truncateAllTables t).db.domainPolicies = [] := by rw [h]; rfl
    have h3 : (truncateAllTables t).logs = [] := by rw [h]; rfl
    exact ⟨h1, h2, h3⟩
  · rintro ⟨h1, h2, h3⟩
    show (⟨[], none, ⟨[], [], [], t.db.policies, t.db.domainPolicies, [], []⟩, t.logs⟩ : Tables) = created
    rw [h1, h2, h3]
    rfl

/-- A used DB: a certificate and a policy of a domain, a tree and the state of a log. -/
def exUsed : Tables := ⟨[([9], [9])], some [9], { E2E.exPolDB with payloads := [⟨[1], some [7], some [10]⟩] }, [([5], 100, [6])]⟩

/-- C116 is violated: the reset DB still has the policies and the state of the log. -/
theorem C116_reset_violated : truncateAllTables exUsed ≠ created ∧ (truncateAllTables exUsed).db.policies = [⟨[10], [], year3000, [10]⟩] ∧
    lastState id (truncateAllTables exUsed) [5] = (100, [6]) := by decide +kernel

/-- C116: the state recorded for a log is the last one written for its URL (if no other URL has the same hash). -/
theorem C116_last_state (H : Bytes → Bytes) (t : Tables) (url : Bytes) (size : Nat) (sth : Bytes) :
    lastState H (updateLastState H t url size sth) url = (size, sth) ∧
      ∀ other, H other ≠ H url → lastState H (updateLastState H t url size sth) other = lastState H t other := by
  have e : (updateLastState H t url size sth).logs = t.logs.filter (fun x => !(x.1 == H url)) ++ [(H url, size, sth)] := rfl
  constructor
  · unfold lastState
    rw [e, List.find?_append]
    have : (t.logs.filter (fun x => !(x.1 == H url))).find? (fun r => r.1 == H url) = none := by
      rw [List.find?_eq_none]
      intro x hx
      have := (List.mem_filter.1 hx).2
      simpa using this
    rw [this]
    simp
  · intro other ho
    unfold lastState
    rw [e, List.find?_append, List.find?_filter]
    have h1 : t.logs.find? (fun a => decide ((!(a.1 == H url)) = true ∧ (a.1 == H other) = true)) = t.logs.find? (fun r => r.1 == H other) := by
      congr 1
      funext a
      by_cases h : a.1 = H other
      · simp [h, ho]
      · simp [h]
    rw [h1]
    cases t.logs.find? (fun r => r.1 == H other) with
    | some r => rfl
    | none =>
      have : ([(H url, size, sth)].find? (fun r => r.1 == H other)) = none := by
        rw [List.find?_eq_none]
        intro x hx
        rw [List.mem_singleton.1 hx]
        simpa using fun h => ho h.symm
      rw [this]
      rfl

/-- C116: a log for which nothing was written, in particular every log on a new DB, starts at size 0. -/
theorem C116_new_log (H : Bytes → Bytes) (t : Tables) (url : Bytes) (h : ∀ r ∈ t.logs, r.1 ≠ H url) : lastState H t url = (0, []) := by
  have : t.logs.find? (fun r => r.1 == H url) = none := by
    rw [List.find?_eq_none]
    intro x hx
    simpa using h x hx
  unfold lastState
  rw [this]

example (url : Bytes) : lastState id created url = (0, []) := C116_new_log id created url (fun _ h => by cases h)

/-- The state of a log survives a reset, even one that stops. -/
theorem C116_logs_kept_violated (H : Bytes → Bytes) (t : Tables) (k : Nat) (url : Bytes) : lastState H (truncateFirst k t) url = lastState H t url := by
  have : (truncateFirst k t).logs = t.logs := by
    unfold truncateFirst
    rcases k with _ | _ | _ | _ | _ | _ | _ | k <;> first | rfl | (rw [List.take_of_length_le (by simp [truncateSteps])]; rfl)
  unfold lastState
  rw [this]

/-- C116 is violated: after the reset of a DB with these policies, submitting them again with `UpdateWithKeepExisting` sends nothing to the DB: no name is stored and no domain is
marked, so no payload is ever computed from them, unlike on a new DB, where all of them arrive. -/
theorem C116_policies_ignored_violated (H : Bytes → Bytes) (t : Tables) (maxLen : Nat) (ps : List (Bytes × Bytes)) (hl : ps.length ≤ maxLen) (hd : E2E.PayloadsDiffer H ps)
    (hs : ∀ p ∈ ps, E2E.HasPolicy t.db (H p.2)) :
    E2E.policySteps H (truncateAllTables t).db (some maxLen) ps = some [] ∧ (truncateAllTables t).db.dirty = [] ∧ (truncateAllTables t).db.domains = [] ∧
      ∃ st, E2E.policySteps H created.db (some maxLen) ps = some st ∧ ∀ p ∈ ps, E2E.PolicyStored H (runSteps st created.db) p.1 p.2 := by
  refine ⟨E2E.C115_stored_skipped H _ maxLen ps hl hs, rfl, rfl, ?_⟩
  obtain ⟨st, hst⟩ := E2E.C115_no_panic H created.db (some maxLen) ps
  refine ⟨st, hst, fun p hp => E2E.C115_policies_arrive H created.db (some maxLen) ps hd st hst p hp (Or.inr ?_)⟩
  rintro ⟨c, hc, _⟩
  cases hc

example : E2E.PayloadsDiffer id [([1], [10])] ∧ ∀ p ∈ [(([1] : Bytes), ([10] : Bytes))], E2E.HasPolicy exUsed.db (id p.2) := by
  refine ⟨fun p _ q _ h => h, fun p hp => ?_⟩
  rw [List.mem_singleton.1 hp]
  exact ⟨_, List.mem_singleton.2 rfl, rfl⟩

/-- C116 is violated: policies of the time before the reset come back. After it, a certificate of the domain is inserted; the payload computed for the domain has the old policy. -/
theorem C116_old_policies_return_violated : ∃ db1 db2, (insertSteps id [[[1]]] [[8]] [none] [90] [[8]]).map (fun st => runSteps st (truncateAllTables exUsed).db) = some db1 ∧
    calcDirtyDomains 5 db1 0 10 = some (db2, 1) ∧ db2.payloads = [⟨[1], some [8], some [10]⟩] ∧
    ∃ db3 db4, (insertSteps id [[[1]]] [[8]] [none] [90] [[8]]).map (fun st => runSteps st created.db) = some db3 ∧
      calcDirtyDomains 5 db3 0 10 = some (db4, 1) ∧ db4.payloads = [⟨[1], some [8], none⟩] := by
  refine ⟨⟨[⟨[8], [], 90, [8]⟩], [([1], [1])], [([1], [8])], [⟨[10], [], year3000, [10]⟩], [([1], [10])], [], [([1], false)]⟩,
    ⟨[⟨[8], [], 90, [8]⟩], [([1], [1])], [([1], [8])], [⟨[10], [], year3000, [10]⟩], [([1], [10])], [⟨[1], some [8], some [10]⟩], [([1], true)]⟩,
    by decide +kernel, by decide +kernel, rfl,
    ⟨[⟨[8], [], 90, [8]⟩], [([1], [1])], [([1], [8])], [], [], [], [([1], false)]⟩,
    ⟨[⟨[8], [], 90, [8]⟩], [([1], [1])], [([1], [8])], [], [], [⟨[1], some [8], none⟩], [([1], true)]⟩, by decide +kernel, by decide +kernel, rfl⟩

/-! ## The CT logs -/

section
open Fpki.Updater

/-- The states reached from `s0` by any calls, failures and crashes, with fetchers that keep to the contract. -/
inductive From (n : Nat) (s0 : State) : State → List Nat → Prop
  | init : From n s0 s0 []
  | step {s s' : State} {got : List Nat} (e : Ev) : From n s0 s got → Contract s got e → exec n s e = some s' → From n s0 s' (gotAfter got e)

/-- Nothing below `R` of the log `f` is stored, or will be. -/
structure Lost (f R : Nat) (s : State) : Prop where
  recorded : R ≤ s.db.recorded f
  stored : ∀ i, i < R → s.db.stored f i = false
  idle : s.init = false → s.pending = none
  orig : s.init = true → s.cur = f → R ≤ s.orig ∧ R ≤ s.last
  batch : s.init = true → s.cur = f → ∀ b, s.pending = some (.batch b) → ∀ i ∈ b.all, R ≤ i

theorem Lost.step {n f R : Nat} {s s' : State} {got : List Nat} (h : Lost f R s) (e : Ev) (hc : Contract s got e) (he : exec n s e = some s') : Lost f R s' := by
  cases e with
  | cycle =>
    cases he
    exact ⟨h.recorded, h.stored, fun _ => rfl, fun h => by simp [startFetchingRemaining] at h, fun h => by simp [startFetchingRemaining] at h⟩
  | crash =>
    cases he
    exact ⟨h.recorded, h.stored, fun _ => rfl, fun h => by simp [restart] at h, fun h => by simp [restart] at h⟩
  | start a =>
    simp only [exec] at he
    split at he
    · rename_i hg
      cases he
      have hp := h.idle hg.2
      cases a with
      | err => exact ⟨h.recorded, h.stored, h.idle, h.orig, h.batch⟩
      | stateErr =>
        refine ⟨h.recorded, h.stored, h.idle, fun h' => ?_, fun h' => ?_⟩
        · simp [startNextFetcher, hg.2] at h'
        · simp [startNextFetcher, hg.2] at h'
      | ok t =>
        refine ⟨h.recorded, h.stored, fun h' => by simp [startNextFetcher] at h', fun _ hcur => ?_, fun _ _ b hb => ?_⟩
        · have hcur : s.cur = f := hcur
          have : R ≤ s.db.recorded s.cur := by rw [hcur]; exact h.recorded
          exact ⟨this, this⟩
        · have : s.pending = some (.batch b) := hb
          rw [hp] at this
          cases this
    · cases he
  | next r =>
    simp only [exec] at he
    split at he
    · rename_i hg
      cases he
      cases r with
      | none => exact ⟨h.recorded, h.stored, fun _ => rfl, fun h' => by simp [nextBatch] at h', fun h' => by simp [nextBatch] at h'⟩
      | some r =>
        cases r with
        | err =>
          refine ⟨h.recorded, h.stored, fun h' => ?_, h.orig, fun _ _ b hb => ?_⟩
          · have : s.init = false := h'
            rw [hg.2.1] at this
            cases this
          · cases hb
        | batch b =>
          unfold nextBatch
          dsimp only
          split
          · exact ⟨h.recorded, h.stored, fun _ => rfl, fun h' => by simp at h', fun h' => by simp at h'⟩
          · refine ⟨h.recorded, h.stored, fun h' => ?_, h.orig, fun _ hcur b' hb' i hi => ?_⟩
            · have : s.init = false := h'
              rw [hg.2.1] at this
              cases this
            · cases hb'
              have := (hc.2 i hi).1
              have := (h.orig hg.2.1 hcur).1
              omega
    · cases he
  | update ins rec prog =>
    simp only [exec] at he
    split at he
    · cases he
    · rename_i hp
      cases he
      have hinit : s.init = true := by
        cases hi : s.init with
        | true => rfl
        | false => exact absurd (h.idle hi) hp
      unfold updateNextBatch
      split
      · exact h
      · exact h
      · rename_i b heq
        split
        · have hstored : ∀ i, i < R → (s.db.store s.cur b).stored f i = false := by
            intro i hi
            show (s.db.stored f i || (decide (f = s.cur) && decide (i ∈ b.certs))) = false
            rw [h.stored i hi, Bool.false_or, Bool.and_eq_false_iff]
            by_cases hf : f = s.cur
            · right
              rw [decide_eq_false_iff_not]
              intro hm
              have := h.batch hinit hf.symm b heq i (List.mem_append_left _ hm)
              omega
            · left
              simp [hf]
          have horig : s.cur = f → R ≤ s.orig ∧ R ≤ s.last + b.certs.length + b.expired.length := by
            intro hcur
            have := h.orig hinit hcur
            omega
          dsimp only
          split
          · rename_i hlt
            split
            · refine ⟨?_, hstored, fun h' => ?_, fun _ hcur => horig hcur, fun _ _ b hb => by cases hb⟩
              · show R ≤ (if f = s.cur then s.target else s.db.recorded f)
                split
                · rename_i hf
                  rw [← hlt]
                  exact (horig hf.symm).2
                · exact h.recorded
              · exact absurd h' (by simp [hinit])
            · exact ⟨h.recorded, hstored, fun h' => absurd h' (by simp [hinit]), fun _ hcur => horig hcur, fun _ _ b hb => by cases hb⟩
          · exact ⟨h.recorded, hstored, fun h' => absurd h' (by simp [hinit]), fun _ hcur => horig hcur, fun _ _ b hb => by cases hb⟩
        · exact ⟨h.recorded, h.stored, fun _ => rfl, h.orig, fun _ _ b hb => by cases hb⟩

/-- C116 is violated: after a reset, the certificates of a CT log below the recorded size are never fetched again: whatever the map server does after it (also with new processes), none
of the entries that had been stored below that size is stored again. -/
theorem C116_log_entries_lost_violated (n : Nat) (db : Updater.DB) (s' : State) (got : List Nat) (h : From n (fresh (resetLogs db)) s' got) (f i : Nat) (hi : i < db.recorded f) :
    s'.db.stored f i = false := by
  have : Lost f (db.recorded f) s' := by
    induction h with
    | init => exact ⟨Nat.le_refl _, fun _ _ => rfl, fun _ => rfl, fun h => by simp [fresh] at h, fun h => by simp [fresh] at h⟩
    | step e _ hc he ih => exact ih.step e hc he
  exact this.stored i hi

/-- A log with 3 entries, all stored. After the reset the log has 5 entries, and the updater fetches the last two. -/
example : ∃ s', From 1 (fresh (resetLogs ⟨fun _ => 3, fun _ i => decide (i < 3), fun _ _ => false⟩)) s' [3, 4] ∧ s'.db.stored 0 4 = true ∧ s'.db.stored 0 2 = false := by
  have r1 := From.step (n := 1) (.start (.ok 5)) (From.init (s0 := fresh (resetLogs ⟨fun _ => 3, fun _ i => decide (i < 3), fun _ _ => false⟩))) True.intro rfl
  have r2 := From.step (n := 1) (.next (some (.batch ⟨[3, 4], []⟩))) r1 (by
    refine ⟨by decide, fun i hi => ?_⟩
    have : i = 3 ∨ i = 4 := by simpa [Batch.all] using hi
    refine ⟨?_, ?_, by simp [gotAfter]⟩
    · show 3 ≤ i
      omega
    · show i < 5
      omega) rfl
  have r3 := From.step (n := 1) (.update true true true) r2 True.intro rfl
  exact ⟨_, r3, by decide, by decide⟩

end

/-! ## The check of the schema -/

/-- C116 is violated: with `CheckSchema`, no connection is made to a DB that has exactly the tables of create_schema.sh: the check asks for a table that does not exist there. -/
theorem C116_schema_check_violated : connects true schema = false ∧ connects false schema = true ∧ ∀ tables, connects true tables = true ↔ "nodes" ∈ tables := by
  refine ⟨by decide, by decide, fun tables => ?_⟩
  simp [connects]

end Fpki.Reset
