import Verif.Model.Updater
import Mathlib.Data.List.Nodup
import Mathlib.Data.List.Perm.Subperm
import Mathlib.Tactic.Linarith

/-!
# C24: the recorded state of a CT log server means that everything below was stored
-/
namespace Fpki.Updater

/-- The entry was inserted, or excluded because it had expired. -/
def DB.Handled (db : DB) (f i : Nat) : Prop := db.stored f i = true ∨ db.excluded f i = true

/-- Nothing recorded, nothing stored. -/
def emptyDB : DB := ⟨fun _ => 0, fun _ _ => false, fun _ _ => false⟩

/-- A fresh process on a DB. -/
def fresh (db : DB) : State := ⟨db, 0, false, 0, 0, 0, none⟩

/-- What is expected of a fetcher, `got` being the entries it returned since it was started: a batch consists of entries of the requested range, none of which
was returned before. -/
def Contract (s : State) (got : List Nat) : Ev → Prop
  | .next (some (.batch b)) => b.all.Nodup ∧ ∀ i ∈ b.all, s.orig ≤ i ∧ i < s.target ∧ i ∉ got
  | _ => True

/-- The entries returned since the fetcher was started. -/
def gotAfter (got : List Nat) : Ev → List Nat
  | .start _ => []
  | .next (some (.batch b)) => got ++ b.all
  | _ => got

/-- The states that can be reached, by any history of calls, failures and crashes, with fetchers that keep to the contract. -/
inductive Reach (n : Nat) : State → List Nat → Prop
  | init : Reach n (fresh emptyDB) []
  | step {s s' : State} {got : List Nat} (e : Ev) : Reach n s got → Contract s got e → exec n s e = some s' → Reach n s' (gotAfter got e)

/-- The invariant while a fetcher is active. -/
structure Active (s : State) (got : List Nat) : Prop where
  below : ∀ i, i < s.orig → s.db.Handled s.cur i
  le : s.db.recorded s.cur ≤ s.last
  done : ∃ ok : List Nat, ok.Nodup ∧ (∀ i ∈ ok, i ∈ got ∧ s.orig ≤ i ∧ i < s.target ∧ s.db.Handled s.cur i) ∧ s.last = s.orig + ok.length ∧
    ∀ b, s.pending = some (.batch b) → b.all.Nodup ∧ ∀ i ∈ b.all, i ∈ got ∧ s.orig ≤ i ∧ i < s.target ∧ i ∉ ok

structure Inv (s : State) (got : List Nat) : Prop where
  complete : ∀ f i, i < s.db.recorded f → s.db.Handled f i
  idle : s.init = false → s.pending = none
  active : s.init = true → Active s got

theorem handled_store {db : DB} {f f' i : Nat} {b : Batch} (h : db.Handled f i) : (db.store f' b).Handled f i := by
  unfold DB.Handled DB.store at *
  rcases h with h | h <;> simp [h]

theorem handled_store_self {db : DB} {f i : Nat} {b : Batch} (h : i ∈ b.all) : (db.store f b).Handled f i := by
  unfold DB.Handled DB.store
  unfold Batch.all at h
  rcases List.mem_append.1 h with h | h <;> simp [h]

theorem handled_record {db : DB} {f f' i t : Nat} : (db.record f' t).Handled f i ↔ db.Handled f i := Iff.rfl

/-- Distinct entries of a range, as many as there are, are all of them. -/
theorem pigeonhole {l : List Nat} {a b : Nat} (hn : l.Nodup) (hr : ∀ i ∈ l, a ≤ i ∧ i < b) (hl : b = a + l.length) {i : Nat} (h1 : a ≤ i) (h2 : i < b) : i ∈ l := by
  have hsub : l ⊆ (List.range (b - a)).map (a + ·) := by
    intro j hj
    obtain ⟨h3, h4⟩ := hr j hj
    exact List.mem_map.2 ⟨j - a, List.mem_range.2 (by omega), by omega⟩
  have hp : l.Perm ((List.range (b - a)).map (a + ·)) := (List.subperm_of_subset hn hsub).perm_of_length_le (by simp; omega)
  exact hp.mem_iff.2 (List.mem_map.2 ⟨i - a, List.mem_range.2 (by omega), by omega⟩)

theorem Active.same {s s' : State} {got : List Nat} (h : Active s got) (h1 : s'.db = s.db) (h2 : s'.cur = s.cur) (h3 : s'.orig = s.orig) (h4 : s'.last = s.last)
    (h5 : s'.target = s.target) (h6 : ∀ b, s'.pending ≠ some (.batch b)) : Active s' got := by
  obtain ⟨hb, hl, ok, g1, g2, g3, g4⟩ := h
  refine ⟨by rw [h1, h2, h3]; exact hb, by rw [h1, h2, h4]; exact hl, ok, g1, by rw [h1, h2, h3, h5]; exact g2, by rw [h4, h3]; exact g3, ?_⟩
  intro b hb
  exact absurd hb (h6 b)

theorem Inv.step {n : Nat} {s s' : State} {got : List Nat} (h : Inv s got) (e : Ev) (hc : Contract s got e) (he : exec n s e = some s') :
    Inv s' (gotAfter got e) := by
  cases e with
  | cycle =>
    cases he
    exact ⟨h.complete, fun _ => rfl, fun h => absurd h (by simp [startFetchingRemaining])⟩
  | crash =>
    cases he
    exact ⟨h.complete, fun _ => rfl, fun h => absurd h (by simp [restart])⟩
  | start a =>
    simp only [exec] at he
    split at he
    · rename_i hg
      cases he
      cases a with
      | err => exact ⟨h.complete, h.idle, fun h' => absurd h' (by simp [startNextFetcher, hg.2])⟩
      | stateErr => exact ⟨h.complete, h.idle, fun h' => absurd h' (by simp [startNextFetcher, hg.2])⟩
      | ok t =>
        refine ⟨h.complete, fun h' => absurd h' (by simp [startNextFetcher]), fun _ => ⟨h.complete s.cur, Nat.le_refl _, [], by simp, by simp, rfl, ?_⟩⟩
        intro b hb
        have := h.idle hg.2
        unfold startNextFetcher at hb
        simp only [this] at hb
        cases hb
    · cases he
  | next r =>
    simp only [exec] at he
    split at he
    · rename_i hg
      cases he
      have ha := h.active hg.2.1
      cases r with
      | none => exact ⟨h.complete, fun _ => rfl, fun h' => absurd h' (by simp [nextBatch])⟩
      | some r =>
        cases r with
        | err =>
          exact ⟨h.complete, fun h' => absurd h' (by simp [nextBatch, hg.2.1]), fun _ => ha.same rfl rfl rfl rfl rfl (by simp [nextBatch])⟩
        | batch b =>
          unfold nextBatch
          dsimp only
          split
          · exact ⟨h.complete, fun _ => rfl, fun h' => absurd h' (by simp)⟩
          · refine ⟨h.complete, fun h' => absurd h' (by simp [hg.2.1]), fun _ => ?_⟩
            obtain ⟨hb, hl, ok, g1, g2, g3, g4⟩ := ha
            refine ⟨hb, hl, ok, g1, ?_, g3, ?_⟩
            · intro i hi
              obtain ⟨k1, k2⟩ := g2 i hi
              exact ⟨by simp [gotAfter, k1], k2⟩
            · intro b' hb'
              cases hb'
              refine ⟨hc.1, fun i hi => ?_⟩
              obtain ⟨k1, k2, k3⟩ := hc.2 i hi
              exact ⟨by simp [gotAfter, hi], k1, k2, fun k4 => k3 (g2 i k4).1⟩
    · cases he
  | update ins rec prog =>
    simp only [exec] at he
    split at he
    · cases he
    · rename_i hp
      cases he
      have hinit : s.init = true := by
        cases hi : s.init with
        | true => rfl
        | false => exact absurd (h.idle hi) hp
      have ha := h.active hinit
      unfold updateNextBatch
      split
      · rename_i heq
        exact absurd heq hp
      · rename_i heq
        exact ⟨h.complete, fun h' => absurd h' (by simp [hinit]), fun _ => ha⟩
      · rename_i b heq
        split
        · obtain ⟨hb, hl, ok, g1, g2, g3, g4⟩ := ha
          obtain ⟨k1, k2⟩ := g4 b heq
          have hcomp : ∀ f i, i < (s.db.store s.cur b).recorded f → (s.db.store s.cur b).Handled f i := fun f i hi => handled_store (h.complete f i hi)
          have hlen : b.all.length = b.certs.length + b.expired.length := by simp [Batch.all]
          have hok' : (ok ++ b.all).Nodup := by
            rw [List.nodup_append]
            exact ⟨g1, k1, fun x hx y hy hxy => (k2 y hy).2.2.2 (hxy ▸ hx)⟩
          have hokr : ∀ i ∈ ok ++ b.all, i ∈ got ∧ s.orig ≤ i ∧ i < s.target ∧ (s.db.store s.cur b).Handled s.cur i := by
            intro i hi
            rcases List.mem_append.1 hi with hi | hi
            · obtain ⟨m1, m2, m3, m4⟩ := g2 i hi
              exact ⟨m1, m2, m3, handled_store m4⟩
            · obtain ⟨m1, m2, m3, m4⟩ := k2 i hi
              exact ⟨m1, m2, m3, handled_store_self hi⟩
          have hlast : s.last + b.certs.length + b.expired.length = s.orig + (ok ++ b.all).length := by
            rw [List.length_append, hlen, g3]
            omega
          have hact : Active { s with db := s.db.store s.cur b, last := s.last + b.certs.length + b.expired.length, pending := none } got := by
            refine ⟨fun i hi => handled_store (hb i hi), ?_, ok ++ b.all, hok', hokr, hlast, fun b' hb' => by cases hb'⟩
            show s.db.recorded s.cur ≤ s.last + b.certs.length + b.expired.length
            omega
          dsimp only
          split
          · rename_i hlt
            split
            · refine ⟨?_, fun h' => absurd h' (by simp [hinit]), fun _ => ?_⟩
              · intro f i hi
                rw [handled_record]
                by_cases hf : f = s.cur
                · subst hf
                  have hi' : i < s.target := by simpa [DB.record] using hi
                  by_cases ho : i < s.orig
                  · exact handled_store (hb i ho)
                  · have hm : i ∈ ok ++ b.all := by
                      refine pigeonhole hok' (fun j hj => ⟨(hokr j hj).2.1, (hokr j hj).2.2.1⟩) ?_ (Nat.le_of_not_lt ho) hi'
                      rw [← hlast]
                      exact hlt.symm
                    exact (hokr i hm).2.2.2
                · have hi' : i < s.db.recorded f := by simpa [DB.record, hf, DB.store] using hi
                  exact handled_store (h.complete f i hi')
              · obtain ⟨q1, q2, q3⟩ := hact
                refine ⟨q1, ?_, q3⟩
                show (if s.cur = s.cur then s.target else _) ≤ _
                rw [if_pos rfl]
                exact hlt.ge
            · exact ⟨hcomp, fun h' => absurd h' (by simp [hinit]), fun _ => hact⟩
          · exact ⟨hcomp, fun h' => absurd h' (by simp [hinit]), fun _ => hact⟩
        · exact ⟨h.complete, fun h' => absurd h' (by simp [hinit]), fun _ => ha.same rfl rfl rfl rfl rfl (by simp)⟩

theorem Reach.inv {n : Nat} {s : State} {got : List Nat} (h : Reach n s got) : Inv s got := by
  induction h with
  | init => exact ⟨by simp [fresh, emptyDB], fun _ => rfl, fun h => absurd h (by simp [fresh])⟩
  | step e _ hc he ih => exact ih.step e hc he

/-- Whatever calls succeed or fail, and wherever the process crashes and restarts: every entry below the size recorded for a log server has been inserted, or was
excluded as expired. (For fetchers that keep to the contract.) -/
theorem C24_recorded_complete_partial {n : Nat} {s : State} {got : List Nat} (h : Reach n s got) (f i : Nat) (hi : i < s.db.recorded f) :
    s.db.stored f i = true ∨ s.db.excluded f i = true := h.inv.complete f i hi

/-- All states, whatever the fetchers return: also entries that were not asked for, or the same ones again. -/
inductive Any (n : Nat) : State → Prop
  | init : Any n (fresh emptyDB)
  | step {s s' : State} (e : Ev) : Any n s → exec n s e = some s' → Any n s'

/-- In particular those with fetchers that keep to the contract. -/
theorem Reach.any {n : Nat} {s : State} {got : List Nat} (h : Reach n s got) : Any n s := by
  induction h with
  | init => exact .init
  | step e _ _ he ih => exact .step e ih he

/-- What is kept without any contract. -/
theorem Any.inv {n : Nat} {s : State} (h : Any n s) : (s.init = false → s.pending = none) ∧ (s.init = true → s.db.recorded s.cur ≤ s.last) := by
  induction h with
  | init => exact ⟨fun _ => rfl, fun h => by simp [fresh] at h⟩
  | step e _ he ih =>
    obtain ⟨h1, h2⟩ := ih
    cases e with
    | cycle => cases he; exact ⟨fun _ => rfl, fun h => by simp [startFetchingRemaining] at h⟩
    | crash => cases he; exact ⟨fun _ => rfl, fun h => by simp [restart] at h⟩
    | start a =>
      simp only [exec] at he
      split at he
      · rename_i hi
        cases he
        cases a with
        | err => exact ⟨h1, h2⟩
        | stateErr => exact ⟨h1, fun h => by rw [show (startNextFetcher _ .stateErr).1.init = _ from hi.2] at h; cases h⟩
        | ok t => exact ⟨fun h => (by cases h), fun _ => Nat.le_refl _⟩
      · cases he
    | next r =>
      simp only [exec] at he
      split at he
      · rename_i hi
        cases he
        unfold nextBatch
        split
        · exact ⟨fun h => (by rw [show _ = _ from hi.2.1] at h; cases h), h2⟩
        · split
          · exact ⟨fun _ => rfl, fun h => (by cases h)⟩
          · exact ⟨fun h => (by rw [show _ = _ from hi.2.1] at h; cases h), h2⟩
        · exact ⟨fun _ => rfl, fun h => (by cases h)⟩
      · cases he
    | update ins rec prog =>
      simp only [exec] at he
      split at he
      · cases he
      · rename_i hp
        cases he
        unfold updateNextBatch
        split
        · exact ⟨h1, h2⟩
        · exact ⟨h1, h2⟩
        · split
          · dsimp only
            split
            · rename_i hlt
              split
              · refine ⟨fun _ => rfl, fun _ => ?_⟩
                unfold DB.record DB.store
                dsimp only
                rw [if_pos rfl]
                omega
              · refine ⟨fun _ => rfl, fun h => ?_⟩
                have := h2 h
                unfold DB.store
                dsimp only
                omega
            · refine ⟨fun _ => rfl, fun h => ?_⟩
              have := h2 h
              unfold DB.store
              dsimp only
              omega
          · exact ⟨fun _ => rfl, h2⟩

/-- The recorded size never decreases, whatever happens: not even if the log server presents a smaller log, or the fetcher returns entries twice. -/
theorem C24_recorded_mono {n : Nat} {s s' : State} (h : Any n s) (e : Ev) (he : exec n s e = some s') (f : Nat) :
    s.db.recorded f ≤ s'.db.recorded f := by
  have hi := h.inv
  cases e with
  | cycle => cases he; exact Nat.le_refl _
  | crash => cases he; exact Nat.le_refl _
  | start a =>
    simp only [exec] at he
    split at he
    · cases he
      cases a <;> exact Nat.le_refl _
    · cases he
  | next r =>
    simp only [exec] at he
    split at he
    · cases he
      unfold nextBatch
      split
      · exact Nat.le_refl _
      · split <;> exact Nat.le_refl _
      · exact Nat.le_refl _
    · cases he
  | update ins rec prog =>
    simp only [exec] at he
    split at he
    · cases he
    · rename_i hp
      cases he
      have hinit : s.init = true := by
        cases hi' : s.init with
        | true => rfl
        | false => exact absurd (hi.1 hi') hp
      have ha := hi.2 hinit
      unfold updateNextBatch
      split
      · exact Nat.le_refl _
      · exact Nat.le_refl _
      · split
        · dsimp only
          split
          · rename_i hlt
            split
            · unfold DB.record DB.store
              dsimp only
              split
              · rename_i hf
                rw [hf]
                omega
              · exact Nat.le_refl _
            · exact Nat.le_refl _
          · exact Nat.le_refl _
        · exact Nat.le_refl _

/-- The recorded size changes only in a successful update, to the size the fetcher had announced when it was started. -/
theorem C24_recorded_changes {n : Nat} {s s' : State} (e : Ev) (he : exec n s e = some s') (f : Nat) (hne : s'.db.recorded f ≠ s.db.recorded f) :
    f = s.cur ∧ s'.db.recorded f = s.target ∧ s'.last = s.target ∧ ∃ b prog, s.pending = some (.batch b) ∧ e = .update true true prog := by
  cases e with
  | cycle => cases he; exact absurd rfl hne
  | crash => cases he; exact absurd rfl hne
  | start a =>
    simp only [exec] at he
    split at he
    · cases he
      cases a <;> exact absurd rfl hne
    · cases he
  | next r =>
    simp only [exec] at he
    split at he
    · cases he
      exfalso
      apply hne
      unfold nextBatch
      split
      · rfl
      · split <;> rfl
      · rfl
    · cases he
  | update ins rec prog =>
    simp only [exec] at he
    split at he
    · cases he
    · cases he
      revert hne
      unfold updateNextBatch
      split
      · intro hne; exact absurd rfl hne
      · intro hne; exact absurd rfl hne
      · rename_i b heq
        split
        · rename_i h1
          dsimp only
          split
          · rename_i h2
            split
            · rename_i h3
              intro hne
              have hf : f = s.cur := by
                by_contra hf
                exact hne (by simp [DB.record, DB.store, hf])
              exact ⟨hf, by simp [DB.record, hf], h2, b, prog, heq, by rw [h1, h3]⟩
            · intro hne; exact absurd rfl hne
          · intro hne; exact absurd rfl hne
        · intro hne; exact absurd rfl hne

/-- An entry counts as stored, or excluded, only after the batch of its own log server that contains it was inserted. -/
theorem C24_stored_changes {n : Nat} {s s' : State} (e : Ev) (he : exec n s e = some s') (f i : Nat)
    (hne : s'.db.stored f i ≠ s.db.stored f i ∨ s'.db.excluded f i ≠ s.db.excluded f i) :
    f = s.cur ∧ ∃ b rec prog, s.pending = some (.batch b) ∧ i ∈ b.all ∧ e = .update true rec prog ∧
      (s'.db.stored f i ≠ s.db.stored f i → i ∈ b.certs) ∧ (s'.db.excluded f i ≠ s.db.excluded f i → i ∈ b.expired) := by
  cases e with
  | cycle => cases he; simp [startFetchingRemaining] at hne
  | crash => cases he; simp [restart] at hne
  | start a =>
    simp only [exec] at he
    split at he
    · cases he
      cases a <;> simp [startNextFetcher] at hne
    · cases he
  | next r =>
    simp only [exec] at he
    split at he
    · cases he
      exfalso
      revert hne
      unfold nextBatch
      split
      · simp
      · split <;> simp
      · simp
    · cases he
  | update ins rec prog =>
    simp only [exec] at he
    split at he
    · cases he
    · cases he
      revert hne
      unfold updateNextBatch
      split
      · simp
      · simp
      · rename_i b heq
        split
        · rename_i h1
          have key : ∀ db' : DB, db'.stored = (s.db.store s.cur b).stored → db'.excluded = (s.db.store s.cur b).excluded →
              (db'.stored f i ≠ s.db.stored f i ∨ db'.excluded f i ≠ s.db.excluded f i) →
              f = s.cur ∧ ∃ b' rec' prog', s.pending = some (.batch b') ∧ i ∈ b'.all ∧ Ev.update ins rec prog = .update true rec' prog' ∧
                (db'.stored f i ≠ s.db.stored f i → i ∈ b'.certs) ∧ (db'.excluded f i ≠ s.db.excluded f i → i ∈ b'.expired) := by
            intro db' e1 e2 hne
            have a1 : db'.stored f i ≠ s.db.stored f i → f = s.cur ∧ i ∈ b.certs := by
              intro h
              rw [e1] at h
              by_contra hn
              apply h
              simp only [DB.store]
              by_cases hf : f = s.cur <;> by_cases hi : i ∈ b.certs <;> simp [hf, hi]
              exact absurd ⟨hf, hi⟩ hn
            have a2 : db'.excluded f i ≠ s.db.excluded f i → f = s.cur ∧ i ∈ b.expired := by
              intro h
              rw [e2] at h
              by_contra hn
              apply h
              simp only [DB.store]
              by_cases hf : f = s.cur <;> by_cases hi : i ∈ b.expired <;> simp [hf, hi]
              exact absurd ⟨hf, hi⟩ hn
            refine ⟨hne.elim (fun h => (a1 h).1) (fun h => (a2 h).1), b, rec, prog, heq, ?_, by rw [h1], fun h => (a1 h).2, fun h => (a2 h).2⟩
            exact List.mem_append.2 (hne.imp (fun h => (a1 h).2) (fun h => (a2 h).2))
          dsimp only
          split
          · split
            · exact key _ rfl rfl
            · exact key _ rfl rfl
          · exact key _ rfl rfl
        · simp

/-- After a crash, or a failed cycle, fetching starts again at exactly the recorded size. -/
theorem C24_restart_at_recorded {n : Nat} (s : State) (e : Ev) (he : e = .crash ∨ e = .cycle) (t : Nat) :
    ∃ s', exec n s e = some s' ∧ s'.cur = 0 ∧ s'.init = false ∧ (startNextFetcher s' (.ok t)).2 = some (s.db.recorded 0, t) ∧
      ∀ s'' f, s''.db = s'.db → s''.cur = f → (startNextFetcher s'' (.ok t)).2 = some (s.db.recorded f, t) := by
  rcases he with rfl | rfl
  · exact ⟨restart s, rfl, rfl, rfl, rfl, by intro s'' f h1 h2; unfold startNextFetcher; rw [h1, h2]; rfl⟩
  · exact ⟨_, rfl, rfl, rfl, rfl, by intro s'' f h1 h2; unfold startNextFetcher; rw [h1, h2]; rfl⟩

/-- The steps of an undisturbed session: every batch is fetched and inserted. -/
def session (n : Nat) : State → List Batch → Option State
  | s, [] => some s
  | s, b :: bs => ((exec n s (.next (some (.batch b)))).bind (fun s => exec n s (.update true true true))).bind (fun s => session n s bs)

theorem session_spec (n : Nat) : ∀ (bs : List Batch) (s : State), s.cur < n → s.init = true → s.pending = none → (∀ b ∈ bs, b.all ≠ []) →
    s.last + (bs.flatMap Batch.all).length = s.target → bs ≠ [] →
    ∃ s', session n s bs = some s' ∧ s'.db.recorded s.cur = s.target
  | [], _, _, _, _, _, _, h => absurd rfl h
  | b :: bs, s, h1, h2, h3, h4, h5, _ => by
    have hb := h4 b (by simp)
    have hlen : b.all.length = b.certs.length + b.expired.length := by simp [Batch.all]
    unfold session
    have e1 : exec n s (.next (some (.batch b))) = some { s with pending := some (.batch b) } := by
      simp [exec, h1, h2, h3, nextBatch, hb]
    rw [e1]
    simp only [Option.bind_some]
    simp only [List.flatMap_cons, List.length_append] at h5
    by_cases hbs : bs = []
    · subst hbs
      simp only [List.flatMap_nil, List.length_nil] at h5
      refine ⟨{ s with pending := none, last := s.last + b.certs.length + b.expired.length, db := (s.db.store s.cur b).record s.cur s.target }, ?_, by simp [DB.record]⟩
      have : s.last + b.certs.length + b.expired.length = s.target := by omega
      simp [exec, updateNextBatch, this, session]
    · have hpos : 0 < (bs.flatMap Batch.all).length := by
        cases bs with
        | nil => exact absurd rfl hbs
        | cons c cs =>
          have := List.length_pos_iff.2 (h4 c (by simp))
          simp
          omega
      have hne : s.last + b.certs.length + b.expired.length ≠ s.target := by omega
      have e2 : exec n { s with pending := some (.batch b) } (.update true true true) =
          some { s with pending := none, last := s.last + b.certs.length + b.expired.length, db := s.db.store s.cur b } := by
        simp [exec, updateNextBatch, hne]
      rw [e2]
      simp only [Option.bind_some]
      obtain ⟨s', h6, h7⟩ := session_spec n bs { s with pending := none, last := s.last + b.certs.length + b.expired.length, db := s.db.store s.cur b }
        h1 h2 rfl (fun c hc => h4 c (by simp [hc])) (by show s.last + _ + _ + _ = s.target; omega) hbs
      exact ⟨s', h6, h7⟩

/-- And it does advance: if all entries of the requested range are returned and inserted, the new size is recorded. -/
theorem C24_progress (n : Nat) (s : State) (h1 : s.cur < n) (h2 : s.init = false) (h3 : s.pending = none) (t : Nat) (bs : List Batch) (hb : ∀ b ∈ bs, b.all ≠ [])
    (hlt : s.db.recorded s.cur < t) (hall : (bs.flatMap Batch.all).Perm ((List.range (t - s.db.recorded s.cur)).map (s.db.recorded s.cur + ·))) :
    ∃ s', ((exec n s (.start (.ok t))).bind (fun s => session n s bs)) = some s' ∧ s'.db.recorded s.cur = t := by
  have hlen := hall.length_eq
  simp only [List.length_map, List.length_range] at hlen
  have e : exec n s (.start (.ok t)) = some (startNextFetcher s (.ok t)).1 := by simp [exec, h1, h2]
  rw [e]
  simp only [Option.bind_some]
  refine session_spec n bs _ h1 rfl h3 hb ?_ ?_
  · show s.db.recorded s.cur + _ = t
    omega
  · rintro rfl
    simp at hlen
    omega

/-- Two fetchers; the first returns 3 entries in two batches, the second of which is inserted only in a second attempt, after a crash. -/
def exEvents : List Ev :=
  [.start (.ok 3), .next (some (.batch ⟨[0, 1], []⟩)), .update true true true, .next (some (.batch ⟨[], [2]⟩)), .update false true true, .crash,
   .start (.ok 3), .next (some (.batch ⟨[0, 1], []⟩)), .update true true true, .next (some (.batch ⟨[], [2]⟩)), .update true true true, .next none,
   .start (.ok 1), .next (some (.batch ⟨[0], []⟩))]

instance (s : State) (got : List Nat) (e : Ev) : Decidable (Contract s got e) := by
  unfold Contract
  split <;> infer_instance

/-- Runs the calls if they keep to the contract. -/
def execEvs (n : Nat) : State → List Nat → List Ev → Option (State × List Nat)
  | s, got, [] => some (s, got)
  | s, got, e :: es => if Contract s got e then (exec n s e).bind (fun s' => execEvs n s' (gotAfter got e) es) else none

theorem reach_execEvs {n : Nat} : ∀ (es : List Ev) {s : State} {got : List Nat}, Reach n s got → ∀ {s' : State} {got' : List Nat},
    execEvs n s got es = some (s', got') → Reach n s' got'
  | [], s, got, h, s', got', he => by cases he; exact h
  | e :: es, s, got, h, s', got', he => by
    unfold execEvs at he
    split at he
    · rename_i hc
      cases h1 : exec n s e with
      | none => rw [h1] at he; cases he
      | some s1 =>
        rw [h1] at he
        exact reach_execEvs es (Reach.step e h hc h1) he
    · cases he

example : (execEvs 2 (fresh emptyDB) [] exEvents).map (fun r => (r.1.db.recorded 0, r.1.db.recorded 1, r.1.cur, r.1.target, r.2)) = some (3, 0, 1, 1, [0]) := by
  decide

example : ∃ s got, Reach 2 s got ∧ s.db.recorded 0 = 3 := by
  have h : (execEvs 2 (fresh emptyDB) [] exEvents).isSome = true := by decide
  obtain ⟨⟨s, got⟩, h1⟩ := Option.isSome_iff_exists.1 h
  refine ⟨s, got, reach_execEvs _ Reach.init h1, ?_⟩
  have : (execEvs 2 (fresh emptyDB) [] exEvents).map (fun r => r.1.db.recorded 0) = some 3 := by decide
  rw [h1] at this
  simpa using this

end Fpki.Updater
