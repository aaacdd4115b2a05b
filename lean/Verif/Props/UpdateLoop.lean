import Verif.Model.UpdateLoop

/-!
# C62: update requests

`Reach tr s`: some execution, with any results of the updates and reloads, that shows `tr` and leads to `s`.
-/
namespace Fpki.UpdateLoop

inductive Reach : List Obs → State → Prop
  | init : Reach [] init
  | step {tr : List Obs} {s s' : State} {o : List Obs} (e : Ev) : Reach tr s → s.exec e = some (s', o) → Reach (tr ++ o) s'

/-- Only updates and returns. -/
def results : List Obs → List Obs
  | [] => []
  | .worked c r :: tr => .worked c r :: results tr
  | .returned c r :: tr => .returned c r :: results tr
  | _ :: tr => results tr

/-- Updates, each followed by the return of the caller who asked for it, with its result. -/
def paired (l : List (Nat × Option Err)) : List Obs := l.flatMap (fun p => [.worked p.1 p.2, .returned p.1 p.2])

theorem results_append (a b : List Obs) : results (a ++ b) = results a ++ results b := by
  induction a with
  | nil => rfl
  | cons o a ih => cases o <;> simp [results, ih]

/-- What the server is doing for whom. -/
def serverInv (tr : List Obs) (s : State) : Server → Prop
  | .idle => (∃ l, results tr = paired l) ∧ ∀ d, s.callers d ≠ .waiting
  | .working c => (∃ l, results tr = paired l) ∧ ∀ d, s.callers d = .waiting ↔ d = c
  | .answering c r => (∃ l, results tr = paired l ++ [.worked c r]) ∧ ∀ d, s.callers d = .waiting ↔ d = c
  | .reloading _ => (∃ l, results tr = paired l) ∧ ∀ d, s.callers d ≠ .waiting
  | .reporting _ => (∃ l, results tr = paired l) ∧ ∀ d, s.callers d ≠ .waiting
  | .exited => (∃ l, results tr = paired l) ∧ ∀ d, s.callers d ≠ .waiting

theorem setCaller_self (s : State) (c : Nat) (k : Caller) : (s.setCaller c k).callers c = k := by simp [State.setCaller]

theorem setCaller_other (s : State) {c d : Nat} (k : Caller) (h : d ≠ c) : (s.setCaller c k).callers d = s.callers d := by simp [State.setCaller, h]

/-- Moving a caller between points at which it does not wait. -/
theorem serverInv_setCaller {tr : List Obs} {s : State} {c : Nat} {k : Caller} (h : serverInv tr s s.server) (h1 : s.callers c ≠ .waiting) (h2 : k ≠ .waiting) :
    serverInv tr (s.setCaller c k) s.server := by
  have hw : ∀ d, (s.setCaller c k).callers d = .waiting ↔ s.callers d = .waiting := by
    intro d
    by_cases hd : d = c
    · subst hd; rw [setCaller_self]; exact ⟨fun h => absurd h h2, fun h => absurd h h1⟩
    · rw [setCaller_other s k hd]
  cases hs : s.server <;> rw [hs] at h
  all_goals first
    | exact ⟨h.1, fun d hd => h.2 d ((hw d).mp hd)⟩
    | exact ⟨h.1, fun d => (hw d).trans (h.2 d)⟩

theorem Reach.inv {tr : List Obs} {s : State} (h : Reach tr s) : serverInv tr s s.server := by
  induction h with
  | init => exact ⟨⟨[], rfl⟩, fun d hd => by cases hd⟩
  | @step tr s s' o e _ he ih =>
    cases e with
    | call c =>
      simp only [State.exec] at he
      split at he
      · rename_i hc
        cases he
        rw [List.append_nil]
        exact serverInv_setCaller ih (by rw [hc]; simp) (by simp)
      · cases he
    | tryCall c =>
      simp only [State.exec] at he
      split at he
      · rename_i hc
        split at he
        · rename_i hs
          rw [hs] at ih
          cases he
          refine ⟨by rw [List.append_nil]; exact ih.1, fun d => ?_⟩
          by_cases hd : d = c
          · subst hd; simp [State.setCaller]
          · simp only [State.setCaller, hd, if_false, iff_false]; exact ih.2 d
        · rename_i hs
          cases he
          rw [List.append_nil]
          exact serverInv_setCaller ih (by rw [hc]; simp) (by simp)
        · cases he
          have hr : results (tr ++ [Obs.refused c]) = results tr := by rw [results_append]; simp [results]
          cases hs : s.server <;> rw [hs] at ih <;> exact ⟨by rw [hr]; exact ih.1, ih.2⟩
      · cases he
    | take c =>
      simp only [State.exec] at he
      split at he
      · rename_i hc
        rw [hc.1] at ih
        cases he
        refine ⟨by rw [List.append_nil]; exact ih.1, fun d => ?_⟩
        by_cases hd : d = c
        · subst hd; simp [State.setCaller]
        · simp only [State.setCaller, hd, if_false, iff_false]; exact ih.2 d
      · cases he
    | work r =>
      simp only [State.exec] at he
      split at he
      · rename_i c hs
        rw [hs] at ih
        cases he
        obtain ⟨⟨l, hl⟩, hw⟩ := ih
        exact ⟨⟨l, by rw [results_append, hl]; rfl⟩, hw⟩
      · cases he
    | answer d =>
      simp only [State.exec] at he
      split at he
      · rename_i hd
        split at he
        · rename_i c r hs
          rw [hs] at ih
          cases he
          obtain ⟨⟨l, hl⟩, hw⟩ := ih
          have e := (hw d).mp hd
          subst e
          refine ⟨⟨l ++ [(d, r)], ?_⟩, ?_⟩
          · rw [results_append, hl]; simp [results, paired]
          · intro d' h
            by_cases hdd : d' = d
            · subst hdd; simp [State.setCaller] at h
            · simp only [State.setCaller, hdd, if_false] at h
              exact hdd ((hw d').mp h)
        · rename_i e hs
          rw [hs] at ih
          exact absurd hd (ih.2 d)
        · cases he
      · cases he
    | reload r =>
      simp only [State.exec] at he
      split at he
      · rename_i c hs
        rw [hs] at ih
        split at he
        · cases he
          exact ⟨by rw [results_append]; simpa [results] using ih.1, ih.2⟩
        · cases he
          exact ⟨by rw [List.append_nil]; exact ih.1, ih.2⟩
      · cases he
    | cancel =>
      simp only [State.exec] at he
      split at he
      · rename_i hs
        rw [hs] at ih
        cases he
        exact ⟨by rw [List.append_nil]; exact ih.1, ih.2⟩
      · cases he
    | closed c =>
      simp only [State.exec] at he
      split at he
      · rename_i hc
        cases he
        rw [List.append_nil]
        exact serverInv_setCaller ih (by rw [hc.2]; simp) (by simp)
      · cases he

/-- C62 (first half): the updates run one after the other, and each is followed by the return of exactly the caller who asked for it, with its result; only the last one may not have returned yet. -/
theorem C62_own_result {tr : List Obs} {s : State} (h : Reach tr s) : ∃ l, results tr = paired l ∨ ∃ c r, results tr = paired l ++ [.worked c r] := by
  have hi := h.inv
  cases hs : s.server <;> rw [hs] at hi <;> obtain ⟨⟨l, hl⟩, _⟩ := hi
  all_goals first
    | exact ⟨l, Or.inl hl⟩
    | exact ⟨l, Or.inr ⟨_, _, hl⟩⟩

/-- C62 (second half, partial): while the reloads succeed and the server is not told to stop, it is never stuck: it is either ready for a request or in a step that only it has to take; after at most three such steps it is ready. What is missing is the case of `C62_reload_error_violated`. -/
theorem C62_serves_partial {tr : List Obs} {s : State} (h : Reach tr s) (hs : s.server ≠ .exited) (hr : ∀ e, s.server ≠ .reporting e) :
    s.server = .idle ∨
    (∀ r, ∃ s' o, s.exec (.work r) = some (s', o) ∧ ∃ c, s'.server = .answering c r) ∨
    (∃ c r s', s.server = .answering c r ∧ s.exec (.answer c) = some (s', [.returned c r]) ∧ s'.server = .reloading c) ∨
    (∃ s', s.exec (.reload none) = some (s', [.reloaded]) ∧ s'.server = .idle) := by
  have hi := h.inv
  cases hss : s.server with
  | idle => exact Or.inl rfl
  | working c => exact Or.inr (Or.inl (fun r => by simp only [State.exec, hss]; exact ⟨_, _, rfl, c, rfl⟩))
  | answering c r =>
    rw [hss] at hi
    have hc : s.callers c = .waiting := (hi.2 c).mpr rfl
    exact Or.inr (Or.inr (Or.inl ⟨c, r, by simp only [State.exec, hss, hc, if_true]; exact ⟨_, trivial, rfl, rfl⟩⟩))
  | reloading c => exact Or.inr (Or.inr (Or.inr (by simp only [State.exec, hss]; exact ⟨_, rfl, rfl⟩)))
  | reporting e => exact absurd hss (hr e)
  | exited => exact absurd hss hs

/-- Once the reload has failed, nothing the environment does makes the server serve again. -/
theorem reporting_forever {tr : List Obs} {s s' : State} {e : Err} {ev : Ev} {o : List Obs} (h : Reach tr s) (hs : s.server = .reporting e) (he : s.exec ev = some (s', o)) :
    s'.server = .reporting e ∧ results o = [] ∧ Obs.reloaded ∉ o := by
  have hi := h.inv
  rw [hs] at hi
  cases ev with
  | call c =>
    simp only [State.exec] at he
    split at he
    · cases he; exact ⟨hs, rfl, by simp⟩
    · cases he
  | tryCall c =>
    simp only [State.exec, hs] at he
    split at he
    · cases he; exact ⟨hs, rfl, by simp⟩
    · cases he
  | take c => simp [State.exec, hs] at he
  | work r => simp [State.exec, hs] at he
  | answer d =>
    simp only [State.exec, hs] at he
    split at he
    · rename_i hd; exact absurd hd (hi.2 d)
    · cases he
  | reload r => simp [State.exec, hs] at he
  | cancel => simp [State.exec, hs] at he
  | closed c => simp [State.exec, hs] at he

/-- What follows in an execution. -/
inductive Follows : State → List Obs → State → Prop
  | refl (s : State) : Follows s [] s
  | step {s s1 s' : State} {o tr : List Obs} (e : Ev) : s.exec e = some (s1, o) → Follows s1 tr s' → Follows s (o ++ tr) s'

/-- C62 is violated when a reload fails: the error is sent on a channel nobody receives from. From then on, whatever happens (also cancelling the context), no update runs, no call of `PruneAndUpdate` returns, and `PruneAndUpdateIfPossible` refuses. -/
theorem C62_reload_error_violated {tr : List Obs} {s s' : State} {e : Err} {tr' : List Obs} (h : Reach tr s) (hs : s.server = .reporting e) (hf : Follows s tr' s') :
    s'.server = .reporting e ∧ results tr' = [] ∧ Obs.reloaded ∉ tr' := by
  induction hf generalizing tr with
  | refl s => exact ⟨hs, rfl, by simp⟩
  | step ev he _ ih =>
    obtain ⟨h1, h2, h3⟩ := reporting_forever h hs he
    obtain ⟨g1, g2, g3⟩ := ih (h.step ev he) h1
    refine ⟨g1, by rw [results_append, h2, g2]; rfl, ?_⟩
    intro hc
    rcases List.mem_append.mp hc with hc | hc
    · exact h3 hc
    · exact g3 hc

/-- Such a state is reached: one update succeeds, its caller gets nil, then the reload fails; and a second caller waits forever. -/
theorem C62_reload_error_reached : ∃ s, Reach [.worked 0 none, .returned 0 none] s ∧ s.server = .reporting 5 ∧ s.callers 1 = .sending := by
  have h1 := Reach.init.step (.call 0) rfl
  have h2 := h1.step (.take 0) rfl
  have h3 := h2.step (.work none) rfl
  have h4 := h3.step (.answer 0) rfl
  have h5 := h4.step (.reload (some 5)) rfl
  have h6 := h5.step (.call 1) rfl
  exact ⟨_, h6, rfl, rfl⟩

/-- A caller returns before the responder is reloaded: after `PruneAndUpdate` has returned nil, the responder still answers with the old root. -/
theorem C62_stale_after_return_violated : ∃ s, Reach [.worked 0 none, .returned 0 none] s ∧ s.server = .reloading 0 := by
  have h1 := Reach.init.step (.call 0) rfl
  have h2 := h1.step (.take 0) rfl
  have h3 := h2.step (.work none) rfl
  have h4 := h3.step (.answer 0) rfl
  exact ⟨_, h4, rfl⟩

/-- After the context of the server is cancelled, a call panics instead of returning an error. -/
theorem C62_cancel_panics_violated : ∃ s, Reach [] s ∧ s.callers 0 = .panicked := by
  have h1 := Reach.init.step .cancel rfl
  have h2 := h1.step (.call 0) rfl
  have h3 := h2.step (.closed 0) rfl
  exact ⟨_, h3, rfl⟩

/-- Two updates of two callers, one with an error. -/
example : ∃ s, Reach [.worked 0 none, .refused 2, .returned 0 none, .reloaded, .worked 1 (some 3), .returned 1 (some 3)] s := by
  have h1 := Reach.init.step (.call 0) rfl
  have h2 := h1.step (.take 0) rfl
  have h2' := h2.step (.call 1) rfl
  have h3 := h2'.step (.work none) rfl
  have h3' := h3.step (.tryCall 2) rfl
  have h4 := h3'.step (.answer 0) rfl
  have h5 := h4.step (.reload none) rfl
  have h6 := h5.step (.take 1) rfl
  have h7 := h6.step (.work (some 3)) rfl
  have h8 := h7.step (.answer 1) rfl
  exact ⟨_, h8⟩

end Fpki.UpdateLoop
