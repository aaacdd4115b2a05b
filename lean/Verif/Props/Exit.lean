import Verif.Model.Exit

/-!
# C199: the functions registered for the end of the process
-/
namespace Fpki.Exit

theorem execs_append (s : St) (a b : List Ev) : execs s (a ++ b) = (execs s a).bind (execs · b) := by
  induction a generalizing s with
  | nil => rfl
  | cons e a ih =>
    show (exec s e).bind (execs · (a ++ b)) = ((exec s e).bind (execs · a)).bind (execs · b)
    cases exec s e with
    | none => rfl
    | some t => exact ih t

/-- What remains to be called, and what should have been called in the end, by the main goroutine. -/
def MainInv (s : St) : Prop :=
  match s.main with
  | .working => calls s .main = []
  | .deferred todo _ => calls s .main ++ todo = s.fns
  | .exiting todo => calls s .main ++ todo = s.fns ++ s.fns

/-- The same for the handler; `es` is the history. -/
def HandlerInv (es : List Ev) (s : St) : Prop :=
  match s.handler with
  | none => calls s .handler = []
  | some (todo, code) => ∃ es1 es2 s1, es = es1 ++ .handlerExit code :: es2 ∧ execs .init es1 = some s1 ∧ calls s .handler ++ todo = s1.fns

/-- How the process has ended. -/
def EndInv (es : List Ev) (s : St) : Prop :=
  match s.ended with
  | none => True
  | some c => (c = 0 ∧ calls s .main = s.fns ∧ .mainReturns false ∈ es) ∨ (c = 1 ∧ calls s .main = s.fns ++ s.fns ∧ .mainReturns true ∈ es) ∨
      ∃ es1 es2 s1, es = es1 ++ .handlerExit c :: es2 ∧ execs .init es1 = some s1 ∧ calls s .handler = s1.fns

/-- With which result `mainFunction` has returned. -/
def RetInv (es : List Ev) (s : St) : Prop :=
  match s.main with
  | .working => True
  | .deferred _ r => .mainReturns r ∈ es
  | .exiting _ => .mainReturns true ∈ es

theorem calls_snoc (s : St) (w w' : Who) (f : Nat) (e : Bool) (t : St) (h : t.log = s.log ++ [(w, f, e)]) : calls t w' = if w = w' then calls s w' ++ [f] else calls s w' := by
  unfold calls
  rw [h, List.filter_append, List.map_append]
  by_cases hw : w = w'
  · rw [if_pos hw]; simp [hw]
  · rw [if_neg hw]; simp [hw]

structure Inv (es : List Ev) (s : St) : Prop where
  main : MainInv s
  handler : HandlerInv es s
  ended : EndInv es s
  ret : RetInv es s

theorem handlerInv_mono {es : List Ev} {s t : St} (e : Ev) (h : HandlerInv es s) (h1 : t.handler = s.handler) (h2 : calls t .handler = calls s .handler) : HandlerInv (es ++ [e]) t := by
  unfold HandlerInv at h ⊢
  rw [h1, h2]
  revert h
  cases s.handler with
  | none => exact fun h => h
  | some x =>
    rintro ⟨es1, es2, s1, a, b, c⟩
    exact ⟨es1, es2 ++ [e], s1, by rw [a]; simp, b, c⟩

theorem retInv_mono {es : List Ev} {s t : St} (e : Ev) (h : RetInv es s) (h1 : t.main = s.main) : RetInv (es ++ [e]) t := by
  unfold RetInv at h ⊢
  rw [h1]
  revert h
  cases s.main with
  | working => exact fun h => h
  | deferred _ r => exact fun h => List.mem_append_left _ h
  | exiting _ => exact fun h => List.mem_append_left _ h

theorem inv_step {es : List Ev} {s t : St} {e : Ev} (hr : execs .init es = some s) (h : Inv es s) (hs : exec s e = some t) : Inv (es ++ [e]) t := by
  unfold exec at hs
  split at hs
  · cases hs
  · rename_i hend
    have hend' : s.ended = none := by simpa using hend
    have hm := h.main
    have hh := h.handler
    have hret := h.ret
    split at hs
    · -- register
      rename_i f hmain
      cases hs
      refine ⟨?_, handlerInv_mono _ hh rfl rfl, by unfold EndInv; dsimp only; rw [hend']; trivial, retInv_mono _ hret rfl⟩
      unfold MainInv at hm ⊢
      dsimp only
      rw [hmain] at hm ⊢
      exact hm
    · -- mainReturns
      rename_i failed hmain
      cases hs
      refine ⟨?_, handlerInv_mono _ hh rfl rfl, by unfold EndInv; dsimp only; rw [hend']; trivial, ?_⟩
      · unfold MainInv at hm
        rw [hmain] at hm
        show calls s .main ++ s.fns = s.fns
        rw [hm]; rfl
      · show Ev.mainReturns failed ∈ es ++ [Ev.mainReturns failed]
        simp
    · -- mainCalls, deferred
      rename_i err f todo failed hmain
      cases hs
      have hc := fun w' => calls_snoc s .main w' f err { s with main := .deferred todo failed, log := s.log ++ [(.main, f, err)] } rfl
      refine ⟨?_, handlerInv_mono _ hh rfl (by rw [hc]; rfl), by unfold EndInv; dsimp only; rw [hend']; trivial, ?_⟩
      · unfold MainInv at hm
        rw [hmain] at hm
        show calls _ .main ++ todo = s.fns
        rw [hc, if_pos rfl, ← hm]; simp
      · unfold RetInv at hret
        rw [hmain] at hret
        exact List.mem_append_left _ hret
    · -- mainCalls, exiting
      rename_i err f todo hmain
      cases hs
      have hc := fun w' => calls_snoc s .main w' f err { s with main := .exiting todo, log := s.log ++ [(.main, f, err)] } rfl
      refine ⟨?_, handlerInv_mono _ hh rfl (by rw [hc]; rfl), by unfold EndInv; dsimp only; rw [hend']; trivial, ?_⟩
      · unfold MainInv at hm
        rw [hmain] at hm
        show calls _ .main ++ todo = s.fns ++ s.fns
        rw [hc, if_pos rfl, ← hm]; simp
      · unfold RetInv at hret
        rw [hmain] at hret
        exact List.mem_append_left _ hret
    · -- mainDone, deferred [] false
      rename_i hmain
      cases hs
      unfold MainInv at hm
      unfold RetInv at hret
      rw [hmain] at hm hret
      dsimp only at hm hret
      refine ⟨?_, handlerInv_mono _ hh rfl rfl, ?_, retInv_mono _ h.ret rfl⟩
      · unfold MainInv; dsimp only; rw [hmain]; exact hm
      · exact Or.inl ⟨rfl, by rw [List.append_nil] at hm; exact hm, List.mem_append_left _ hret⟩
    · -- mainDone, deferred [] true
      rename_i hmain
      cases hs
      unfold MainInv at hm
      unfold RetInv at hret
      rw [hmain] at hm hret
      dsimp only at hm hret
      refine ⟨?_, handlerInv_mono _ hh rfl rfl, by unfold EndInv; dsimp only; rw [hend']; trivial, ?_⟩
      · show calls s .main ++ s.fns = s.fns ++ s.fns
        rw [List.append_nil] at hm
        rw [hm]
      · exact List.mem_append_left _ hret
    · -- mainDone, exiting []
      rename_i hmain
      cases hs
      unfold MainInv at hm
      unfold RetInv at hret
      rw [hmain] at hm hret
      dsimp only at hm hret
      refine ⟨?_, handlerInv_mono _ hh rfl rfl, ?_, retInv_mono _ h.ret rfl⟩
      · unfold MainInv; dsimp only; rw [hmain]; exact hm
      · exact Or.inr (Or.inl ⟨rfl, by rw [List.append_nil] at hm; exact hm, List.mem_append_left _ hret⟩)
    · -- handlerExit
      rename_i code hhand
      cases hs
      refine ⟨hm, ?_, by unfold EndInv; dsimp only; rw [hend']; trivial, retInv_mono _ hret rfl⟩
      unfold HandlerInv at hh
      rw [hhand] at hh
      refine ⟨es, [], s, rfl, hr, ?_⟩
      show calls s .handler ++ s.fns = s.fns
      rw [hh]; rfl
    · -- handlerCalls
      rename_i err f todo code hhand
      cases hs
      have hc := fun w' => calls_snoc s .handler w' f err { s with handler := some (todo, code), log := s.log ++ [(.handler, f, err)] } rfl
      refine ⟨?_, ?_, by unfold EndInv; dsimp only; rw [hend']; trivial, retInv_mono _ hret rfl⟩
      · unfold MainInv at hm ⊢
        rw [hc]
        exact hm
      · unfold HandlerInv at hh
        rw [hhand] at hh
        obtain ⟨es1, es2, s1, a, b, c⟩ := hh
        refine ⟨es1, es2 ++ [.handlerCalls err], s1, by rw [a]; simp, b, ?_⟩
        show calls _ .handler ++ todo = s1.fns
        rw [hc, if_pos rfl, ← c]; simp
    · -- handlerDone
      rename_i code hhand
      cases hs
      refine ⟨hm, handlerInv_mono _ hh rfl rfl, ?_, retInv_mono _ hret rfl⟩
      unfold HandlerInv at hh
      rw [hhand] at hh
      obtain ⟨es1, es2, s1, a, b, c⟩ := hh
      refine Or.inr (Or.inr ⟨es1, es2 ++ [.handlerDone], s1, by rw [a]; simp, b, ?_⟩)
      rw [List.append_nil] at c
      exact c
    · cases hs

theorem inv_from (es : List Ev) : ∀ (es0 : List Ev) (s0 s : St), execs .init es0 = some s0 → Inv es0 s0 → execs s0 es = some s → Inv (es0 ++ es) s := by
  induction es with
  | nil =>
    intro es0 s0 s _ hi h
    cases h
    rw [List.append_nil]; exact hi
  | cons e es ih =>
    intro es0 s0 s hr hi h
    have h2 : (exec s0 e).bind (execs · es) = some s := h
    cases h3 : exec s0 e with
    | none => rw [h3] at h2; cases h2
    | some v =>
      rw [h3] at h2
      have hr' : execs .init (es0 ++ [e]) = some v := by
        rw [execs_append, hr]
        show (exec s0 e).bind (execs · []) = some v
        rw [h3]; rfl
      have := ih (es0 ++ [e]) v s hr' (inv_step hr hi h3) h2
      rw [List.append_assoc] at this
      exact this

theorem inv_execs (es : List Ev) (s : St) (h : execs .init es = some s) : Inv es s :=
  inv_from es [] .init s rfl ⟨rfl, rfl, trivial, trivial⟩ h

/-- The functions registered in a history, in order. -/
def registered (es : List Ev) : List Nat := es.filterMap (fun e => match e with | .register f => some f | _ => none)

theorem fns_registered (es : List Ev) : ∀ s0 s, execs s0 es = some s → s.fns = s0.fns ++ registered es := by
  induction es with
  | nil => intro s0 s h; cases h; simp [registered]
  | cons e es ih =>
    intro s0 s h
    have h2 : (exec s0 e).bind (execs · es) = some s := h
    cases h3 : exec s0 e with
    | none => rw [h3] at h2; cases h2
    | some v =>
      rw [h3] at h2
      rw [ih v s h2]
      have : v.fns = s0.fns ++ registered [e] := by
        unfold exec at h3
        split at h3
        · cases h3
        · split at h3 <;> cases h3 <;> simp [registered]
      rw [this, List.append_assoc]
      congr 1
      show _ = registered ([e] ++ es)
      unfold registered
      rw [List.filterMap_append]

/-- C199: when the process has ended, one goroutine has called every registered function, in the order of registration, whatever the functions returned: the main goroutine all of them, once (exit
code 0) or, after an error, twice (exit code 1); or the handler all that were registered when it was told to end the process (with its exit code). -/
theorem C199_all (es : List Ev) (s : St) (h : execs .init es = some s) (c : Nat) (hc : s.ended = some c) :
    (c = 0 ∧ calls s .main = registered es ∧ .mainReturns false ∈ es) ∨ (c = 1 ∧ calls s .main = registered es ++ registered es ∧ .mainReturns true ∈ es) ∨
      ∃ es1 es2, es = es1 ++ .handlerExit c :: es2 ∧ calls s .handler = registered es1 := by
  have hi := (inv_execs es s h).ended
  unfold EndInv at hi
  rw [hc] at hi
  have hf : s.fns = registered es := by simpa [St.init] using fns_registered es _ _ h
  dsimp only at hi
  rw [hf] at hi
  rcases hi with h1 | h1 | ⟨es1, es2, s1, a, b, d⟩
  · exact Or.inl h1
  · exact Or.inr (Or.inl h1)
  · refine Or.inr (Or.inr ⟨es1, es2, a, ?_⟩)
    rw [d]
    simpa [St.init] using fns_registered es1 _ _ b

/-- Non-vacuity: two functions; an error of `mainFunction`; in the middle of it the handler ends the process. -/
example : (execs .init [.register 3, .register 5, .mainReturns true, .mainCalls false, .handlerExit 130, .handlerCalls true, .mainCalls false, .handlerCalls false, .handlerDone]).map (fun s => (s.ended, calls s .handler)) =
    some (some 130, [3, 5]) := by decide +kernel

/-- **C200 is violated**: the exit code is 0 although a registered function, such as the one that writes the journal, has failed. -/
theorem C200_status_violated : ∃ es s, execs .init es = some s ∧ s.ended = some 0 ∧ (Who.main, 3, true) ∈ s.log :=
  ⟨[.register 3, .mainReturns false, .mainCalls true, .mainDone], _, rfl, rfl, by decide +kernel⟩

/-- **C200, what holds**: the exit code is 0 only if `mainFunction` has returned without an error (or the handler was told to use that code, which it never is: 128 + the signal). -/
theorem C200_status_partial (es : List Ev) (s : St) (h : execs .init es = some s) (hc : s.ended = some 0) (hh : ∀ code, .handlerExit code ∈ es → 128 ≤ code) : .mainReturns false ∈ es := by
  rcases C199_all es s h 0 hc with h1 | h1 | ⟨es1, es2, h1, _⟩
  · exact h1.2.2
  · exact absurd h1.1 (by decide)
  · have := hh 0 (by rw [h1]; simp)
    omega

end Fpki.Exit
