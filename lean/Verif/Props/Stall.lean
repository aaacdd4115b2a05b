import Verif.Lemmas.Stall
import Mathlib.Tactic.ByContra

/-!
# C75: stalling the stages of a pipeline
-/
namespace Fpki.Stall

/-- Some execution of a pipeline with these roles reaches the state. -/
def Reach (roles : List (Bool × Bool)) (s : State) : Prop := ∃ es, (init roles).run es = some s

/-- `whenStalled` is being executed by goroutine `j`. -/
def Stalled (s : State) (j : Nat) : Prop := s.rels[j]? = some .running

/-- Nothing happens any more by itself: every function of the user has returned and every goroutine waits for something. -/
def Quiet (s : State) : Prop := ∀ e : Act, e.internal = true → s.exec e = none

theorem Reach.inv (h : Reach roles s) : Inv s := by
  obtain ⟨es, h⟩ := h
  exact inv_run (inv_init roles) h

theorem mem_get {l : List α} {a : α} (h : a ∈ l) : ∃ i : Nat, l[i]? = some a := by
  obtain ⟨i, hi, h⟩ := List.mem_iff_getElem.mp h
  exact ⟨i, by rw [List.getElem?_eq_getElem hi, h]⟩

theorem two_le {f : β → Nat} {l : List β} {i j : Nat} {a b : β} (hi : l[i]? = some a) (hj : l[j]? = some b) (hne : i ≠ j) :
    f a + f b ≤ (l.map f).sum := by
  induction l generalizing i j with
  | nil => simp at hi
  | cons x xs ih =>
    cases i with
    | zero =>
      cases j with
      | zero => exact absurd rfl hne
      | succ j =>
        simp at hi hj; subst hi
        have := sum_of (f := f) hj
        simp; omega
    | succ i =>
      cases j with
      | zero =>
        simp at hi hj; subst hj
        have := sum_of (f := f) hi
        simp; omega
      | succ j =>
        simp at hi hj
        have := ih hi hj (by omega)
        simp; omega

/-- While `whenStalled` runs, no stage of `stallTheseStages` is in its process function, no stage evaluates
`shouldStallPipeline`, and no other call of `whenStalled` runs: for all pipelines, schedules and answers of `shouldStallPipeline`. -/
theorem C75_exclusion (h : Reach roles s) (hj : Stalled s j) :
    (∀ a ∈ s.stages, a.st = true → a.pc ≠ .processing) ∧ (∀ a ∈ s.stages, a.pc ≠ .evaluating) ∧ (∀ k, Stalled s k → k = j) := by
  have hi := h.inv
  have hb := sum_of (f := Rel.busy) hj
  have hs := sum_of (f := Rel.hs) hj
  have hz := hi.zero (by simp [Rel.busy] at hb; omega)
  have hm := hi.mu
  have hm' : (if s.stallMu then 1 else 0) ≤ 1 := by split <;> omega
  refine ⟨fun a ha hst hp => ?_, fun a ha hp => ?_, fun k hk => ?_⟩
  · obtain ⟨i, ha⟩ := mem_get ha
    have := sum_of (f := Stg.cw) ha
    rw [hi.cnt, hz] at this
    simp [Stg.cw, hst, hp] at this
  · obtain ⟨i, ha⟩ := mem_get ha
    have := sum_of (f := Stg.hs) ha
    simp [Stg.hs, hp] at this
    simp [Rel.hs] at hs
    omega
  · by_cases hkj : k = j
    · exact hkj
    · have := two_le (f := Rel.hs) hk hj hkj
      simp [Rel.hs] at this
      omega

/-- No mutex is unlocked while unlocked and the wait group never gets negative. -/
theorem C75_no_panic (h : Reach roles s) : s.panicked = false := h.inv.fine

theorem exec_ne {s : State} (hq : Quiet s) {e : Act} (he : e.internal = true) {s'} : s.exec e ≠ some s' := by
  rw [hq e he]; exact nofun

theorem at_ok {s : State} {i : Nat} {a : Stg} (ha : s.stages[i]? = some a) {ok : Bool} (hok : ok = true) {f : Stg → State} :
    s.at i a.pc ok f = some (f a) := by
  unfold State.at
  rw [ha]
  simp [hok]

theorem rat_ok {s : State} {j : Nat} {r : Rel} (hr : s.rels[j]? = some r) {ok : Bool} (hok : ok = true) {t : State} :
    s.rat j r ok t = some t := by
  unfold State.rat
  rw [if_pos ⟨hr, hok⟩]

/-- The positions where a stage waits for data, for its outputs to be taken, or has ended. -/
def Pc.outside : Pc → Bool
  | .reading | .sending | .streaming | .done => true
  | _ => false

theorem quiet_stg {s : State} (hq : Quiet s) {i : Nat} {a : Stg} (ha : s.stages[i]? = some a) :
    a.pc.outside = true ∨ ((a.pc = .waitEval ∨ a.pc = .waitStall) ∧ s.stallMu = true) ∨ (a.pc = .waitWg ∧ s.wgMu = true) := by
  obtain ⟨ev, st, pc⟩ := a
  cases pc with
  | waitEval =>
    refine .inr (.inl ⟨.inl rfl, ?_⟩)
    by_contra hc
    exact exec_ne hq (e := .evalLock i) rfl (at_ok ha (by simpa using hc))
  | waitStall =>
    refine .inr (.inl ⟨.inr rfl, ?_⟩)
    by_contra hc
    exact exec_ne hq (e := .stallLock i) rfl (at_ok ha (by simpa using hc))
  | waitWg =>
    refine .inr (.inr ⟨rfl, ?_⟩)
    by_contra hc
    exact exec_ne hq (e := .wgLock i) rfl (at_ok ha (by simpa using hc))
  | evaluating => exact absurd (at_ok ha rfl) (exec_ne hq (e := .evalNo i) rfl)
  | holdStall => exact absurd (at_ok ha rfl) (exec_ne hq (e := .stallUnlock i) rfl)
  | holdWg => exact absurd (at_ok ha rfl) (exec_ne hq (e := .wgAdd i) rfl)
  | added => exact absurd (at_ok ha rfl) (exec_ne hq (e := .wgUnlock i) rfl)
  | processing => exact absurd (at_ok ha rfl) (exec_ne hq (e := .processed i) rfl)
  | reading | sending | streaming | done => exact .inl rfl

theorem quiet_rel {s : State} (hq : Quiet s) {j : Nat} {r : Rel} (hr : s.rels[j]? = some r) :
    r = .finished ∨ (r = .waitWg ∧ s.wgMu = true) ∨ (r = .waiting ∧ s.wg ≠ 0) := by
  cases r with
  | waitWg =>
    refine .inr (.inl ⟨rfl, ?_⟩)
    by_contra hc
    exact exec_ne hq (e := .rLock j) rfl (rat_ok hr (by simpa using hc))
  | waiting =>
    refine .inr (.inr ⟨rfl, ?_⟩)
    intro hc
    exact exec_ne hq (e := .rWait j) rfl (rat_ok hr (by simpa using hc))
  | running => exact absurd (rat_ok hr rfl) (exec_ne hq (e := .rDone j) rfl)
  | unlockStall => exact absurd (rat_ok hr rfl) (exec_ne hq (e := .rUnlockStall j) rfl)
  | unlockWg => exact absurd (rat_ok hr rfl) (exec_ne hq (e := .rUnlockWg j) rfl)
  | finished => exact .inl rfl

/-- No deadlock: when nothing happens any more by itself, every requested stall has been completed (its `whenStalled` was executed), no
stage is held in a callback, and both mutexes are free. -/
theorem C75_no_deadlock (h : Reach roles s) (hq : Quiet s) :
    (∀ r ∈ s.rels, r = .finished) ∧ (∀ a ∈ s.stages, a.pc.outside = true) ∧ s.stallMu = false ∧ s.wgMu = false := by
  have hi := h.inv
  have hwg : s.wg = 0 := by
    by_contra hc
    rw [← hi.cnt] at hc
    obtain ⟨i, a, ha, hc⟩ := exists_of_sum hc
    rcases quiet_stg hq ha with h1 | ⟨h1, -⟩ | ⟨h1, -⟩
    · cases hp : a.pc <;> simp [hp, Pc.outside] at h1 <;> simp [Stg.cw, hp] at hc
    · rcases h1 with h1 | h1 <;> simp [Stg.cw, h1] at hc
    · simp [Stg.cw, h1] at hc
  have hw : s.wgMu = false := by
    by_contra hc
    have hc := hi.wmu.trans (if_pos (by simpa using hc))
    have : (s.stages.map Stg.hw).sum = 0 := by
      by_contra hn
      obtain ⟨i, a, ha, hn⟩ := exists_of_sum hn
      rcases quiet_stg hq ha with h1 | ⟨h1, -⟩ | ⟨h1, -⟩
      · cases hp : a.pc <;> simp [hp, Pc.outside] at h1 <;> simp [Stg.hw, hp] at hn
      · rcases h1 with h1 | h1 <;> simp [Stg.hw, h1] at hn
      · simp [Stg.hw, h1] at hn
    obtain ⟨j, r, hr, hn⟩ := exists_of_sum (f := Rel.hw) (l := s.rels) (by omega)
    rcases quiet_rel hq hr with rfl | ⟨rfl, -⟩ | ⟨rfl, h2⟩
    · simp [Rel.hw] at hn
    · simp [Rel.hw] at hn
    · exact h2 hwg
  have hr : ∀ r ∈ s.rels, r = .finished := by
    intro r hr
    obtain ⟨j, hr⟩ := mem_get hr
    rcases quiet_rel hq hr with h1 | ⟨-, h2⟩ | ⟨-, h2⟩
    · exact h1
    · rw [hw] at h2; cases h2
    · exact absurd hwg h2
  have hm : s.stallMu = false := by
    by_contra hc
    have hc := hi.mu.trans (if_pos (by simpa using hc))
    have : (s.rels.map Rel.hs).sum = 0 := by
      by_contra hn
      obtain ⟨j, r, hj, hn⟩ := exists_of_sum hn
      rw [hr r (List.mem_of_getElem? hj)] at hn
      simp [Rel.hs] at hn
    obtain ⟨i, a, ha, hn⟩ := exists_of_sum (f := Stg.hs) (l := s.stages) (by omega)
    rcases quiet_stg hq ha with h1 | ⟨h1, -⟩ | ⟨h1, -⟩
    · cases hp : a.pc <;> simp [hp, Pc.outside] at h1 <;> simp [Stg.hs, hp] at hn
    · rcases h1 with h1 | h1 <;> simp [Stg.hs, h1] at hn
    · simp [Stg.hs, h1] at hn
  refine ⟨hr, fun a ha => ?_, hm, hw⟩
  obtain ⟨i, ha⟩ := mem_get ha
  rcases quiet_stg hq ha with h1 | ⟨-, h2⟩ | ⟨-, h2⟩
  · exact h1
  · rw [hm] at h2; cases h2
  · rw [hw] at h2; cases h2

/-- No livelock: from any reachable state the stages and goroutines can take only so many steps by themselves. With `C75_no_deadlock`:
unless new data keeps arriving, every requested stall completes and every stage is released, whatever the schedule. -/
theorem C75_terminates (h : Reach roles s) :
    ∃ N, ∀ es s', (∀ e ∈ es, e.internal = true) → s.run es = some s' → es.length ≤ N := by
  refine ⟨s.weight, fun es s' hn hr => ?_⟩
  have := run_weight h.inv hr hn
  omega

/-- The number of times `shouldStallPipeline` returned true. -/
def requests (es : List Act) : Nat := es.countP fun e => match e with | .evalYes _ => true | _ => false

/-- The number of calls of `whenStalled`. -/
def calls (es : List Act) : Nat := es.countP fun e => match e with | .rWait _ => true | _ => false

/-- Before `whenStalled` is called. -/
def Rel.before (r : Rel) : Nat := if r = .waitWg ∨ r = .waiting then 1 else 0

def pending (s : State) : Nat := (s.rels.map Rel.before).sum

theorem pending_at {s s' : State} {i pc ok f} (h : s.at i pc ok f = some s') (hf : ∀ a, (f a).rels = s.rels) : pending s' = pending s := by
  obtain ⟨a, -, -, -, rfl⟩ := at_some h
  unfold pending
  rw [hf]

theorem pending_rat {s s' : State} {j r r' ok t} (h : s.rat j r ok t = some s') (ht : t.rels = s.rels.set j r') :
    pending s' + r.before = pending s + r'.before := by
  obtain ⟨hr, -, rfl⟩ := rat_some h
  unfold pending
  rw [ht]
  exact sum_set hr

theorem pending_step {s s' : State} {e : Act} (h : s.exec e = some s') : pending s' + calls [e] = pending s + requests [e] := by
  cases e with
  | evalYes i =>
    obtain ⟨a, -, -, -, rfl⟩ := at_some h
    simp [pending, requests, calls, Rel.before]
  | rLock j => simpa [calls, requests, Rel.before] using pending_rat h rfl
  | rWait j => simpa [calls, requests, Rel.before] using pending_rat h rfl
  | rDone j => simpa [calls, requests, Rel.before] using pending_rat h rfl
  | rUnlockStall j => simpa [calls, requests, Rel.before] using pending_rat h rfl
  | rUnlockWg j => simpa [calls, requests, Rel.before] using pending_rat h rfl
  | processed i => simpa [calls, requests] using pending_at h (fun a => by split <;> rfl)
  | _ => simpa [calls, requests] using pending_at h (fun a => rfl)

theorem pending_run {s s' : State} {es : List Act} (h : s.run es = some s') : pending s' + calls es = pending s + requests es := by
  induction es generalizing s with
  | nil => cases h; simp [calls, requests]
  | cons e es ih =>
    simp only [State.run] at h
    cases he : s.exec e with
    | none => rw [he] at h; cases h
    | some t =>
      rw [he] at h
      have h1 := pending_step he
      have h2 := ih h
      have h3 : calls (e :: es) = calls [e] + calls es := by
        simp only [calls, List.countP_cons, List.countP_nil]; omega
      have h4 : requests (e :: es) = requests [e] + requests es := by
        simp only [requests, List.countP_cons, List.countP_nil]; omega
      omega

/-- `whenStalled` is called at most once for each time `shouldStallPipeline` returned true, and exactly once when nothing happens any more by itself. -/
theorem C75_once (h : (init roles).run es = some s) : calls es ≤ requests es ∧ (Quiet s → calls es = requests es) := by
  have h1 := pending_run h
  have h0 : pending (init roles) = 0 := rfl
  refine ⟨by omega, fun hq => ?_⟩
  have h2 := (C75_no_deadlock ⟨es, h⟩ hq).1
  have : pending s = 0 := by
    by_contra hn
    obtain ⟨j, r, hj, hn⟩ := exists_of_sum hn
    rw [h2 r (List.mem_of_getElem? hj)] at hn
    simp [Rel.before] at hn
  omega

/-! Concrete pipelines: a stage that evaluates and is stalled, a stage that is stalled, a stage in no list. -/

def exRoles : List (Bool × Bool) := [(true, true), (false, true), (false, false)]

/-- Stage 1 gets data and begins to process, stage 2 too; stage 0 asks to stall. -/
def exActs : List Act :=
  [.resume 1, .stallLock 1, .stallUnlock 1, .receive 1, .wgLock 1, .wgAdd 1, .wgUnlock 1, .resume 2, .receive 2, .resume 0, .evalLock 0, .evalYes 0,
   .rLock 0, .processed 1, .rWait 0]

/-- `C75_exclusion` is about states that occur: `whenStalled` runs while stage 2 processes, stage 1 sends and stage 0 waits. -/
example : ∃ s, Reach exRoles s ∧ Stalled s 0 ∧ s.stages.map Stg.pc = [.waitStall, .sending, .processing] := by
  refine ⟨_, ⟨exActs, rfl⟩, rfl, rfl⟩

/-- The state after all of it. -/
def exEnd : List Act := exActs ++ [.rDone 0, .rUnlockStall 0, .rUnlockWg 0, .stallLock 0, .stallUnlock 0, .processed 2]

theorem exec_resume_none {s : State} (h : ∀ a ∈ s.stages, a.pc.outside = true) (hr : ∀ r ∈ s.rels, r = .finished) : Quiet s := by
  have h1 : ∀ i pc ok f, pc.outside = false → s.at i pc ok f = none := by
    intro i pc ok f hpc
    unfold State.at
    split
    · rename_i a ha
      rw [if_neg]
      rintro ⟨rfl, -⟩
      rw [h a (List.mem_of_getElem? ha)] at hpc
      cases hpc
    · rfl
  have h2 : ∀ j r ok t, r ≠ .finished → s.rat j r ok t = none := by
    intro j r ok t hne
    unfold State.rat
    rw [if_neg]
    rintro ⟨hj, -⟩
    exact hne (hr r (List.mem_of_getElem? hj))
  intro e he
  cases e <;> first | exact h1 _ _ _ _ rfl | exact h2 _ _ _ _ nofun | cases he

/-- A quiet state that occurs, after one stall. -/
example : ∃ s, (init exRoles).run exEnd = some s ∧ Quiet s ∧ requests exEnd = 1 := by
  refine ⟨_, rfl, exec_resume_none ?_ ?_, rfl⟩ <;> decide

/-- What the comment of `WithStallStages` promises ("as soon as all pertinent stages are out of their processing function") with the streaming
function counted as a function that processes: while `whenStalled` runs, no stage of `stallTheseStages` runs one of its functions. -/
def NoFunctionWhileStalled (roles : List (Bool × Bool)) : Prop :=
  ∀ s j, Reach roles s → Stalled s j → ∀ a ∈ s.stages, a.st = true → a.pc ≠ .processing ∧ a.pc ≠ .streaming

/-- This fails: the streaming function of a stalled stage runs after `onProcessed`, and nothing stops it. -/
theorem C75_stream_violated : ¬ NoFunctionWhileStalled exRoles := by
  intro h
  have hr : (init exRoles).run (exActs ++ [.stream 1]) = some ⟨true, true, 0,
    [⟨true, true, .waitStall⟩, ⟨false, true, .streaming⟩, ⟨false, false, .processing⟩], [.running], false⟩ := by decide +kernel
  have := h _ 0 ⟨_, hr⟩ rfl ⟨false, true, .streaming⟩ (by decide) rfl
  exact this.2 rfl

end Fpki.Stall
