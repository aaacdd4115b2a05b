import Verif.Model.Pipe
/-! # Lemmas on the pipeline model: the steps as a relation, termination. -/
namespace Fpki.Pipe
open Fpki.Stage (Mode)

variable {α σ : Type}

@[simp] theorem upd_self {β : Type} (f : Nat → β) (i : Nat) (v : β) : upd f i v i = v := by simp [upd]
theorem upd_ne {β : Type} (f : Nat → β) {i j : Nat} (v : β) (h : j ≠ i) : upd f i v j = f j := by simp [upd, h]
theorem upd_apply {β : Type} (f : Nat → β) (i j : Nat) (v : β) : upd f i v j = if j = i then v else f j := rfl

/-- The steps, one constructor per case. -/
inductive Step (N : Net α σ) (s : St α σ) : St α σ → Prop
  | pollEnd (h : s.phase 0 = .reading) (hs : s.script = []) : Step N s { s with phase := upd s.phase 0 (.processing none) }
  | poll (c : Call α) (cs : List (Call α)) (h : s.phase 0 = .reading) (hs : s.script = c :: cs) : Step N s { s with phase := upd s.phase 0 (.producing c), script := cs }
  | push (k p : Nat) (pend : List (Nat × α)) (rest : List (List (Nat × α))) (brk err : Bool) (found : List Nat) (v : α)
      (h : s.phase (N.src k) = .sending pend rest brk err found) (hsl : s.slot k = none) (hp : pend[p]? = some (k, v)) (hk : k < N.m)
      (ha : allowed (N.mode (N.src k)) p = true) (hm : N.multiIn (N.dst k) = true) :
      Step N s { s with phase := upd s.phase (N.src k) (.sending (pend.eraseIdx p) rest brk err found), slot := upd s.slot k (some v) }
  | direct (k p : Nat) (pend : List (Nat × α)) (rest : List (List (Nat × α))) (brk err : Bool) (found : List Nat) (v : α)
      (h : s.phase (N.src k) = .sending pend rest brk err found) (hd : s.phase (N.dst k) = .reading) (hp : pend[p]? = some (k, v)) (hk : k < N.m)
      (ha : allowed (N.mode (N.src k)) p = true) (hm : N.multiIn (N.dst k) = false) :
      Step N s { s with phase := upd (upd s.phase (N.src k) (.sending (pend.eraseIdx p) rest brk err found)) (N.dst k) (.processing (some v)),
                        got := upd s.got (N.dst k) (s.got (N.dst k) ++ [(k, v)]) }
  | pull (k : Nat) (v : α) (h : s.phase (N.dst k) = .reading) (hsl : s.slot k = some v) (hk : k < N.m) :
      Step N s { s with phase := upd s.phase (N.dst k) (.processing (some v)), slot := upd s.slot k none, got := upd s.got (N.dst k) (s.got (N.dst k) ++ [(k, v)]) }
  | closed (j : Nat) (h : s.phase j = .reading) (h0 : 0 < j) (hj : j < N.n) (hc : inClosed N s j = true) : Step N s { s with phase := upd s.phase j (.processing none) }
  | callSome (i : Nat) (v : α) (hi : i < N.n) (h : s.phase i = .processing (some v)) :
      Step N s { s with phase := upd s.phase i (afterCall ((N.fn i).process (s.st i) v).2), st := upd s.st i ((N.fn i).process (s.st i) v).1,
                        fails := upd s.fails i (s.fails i ++ ((N.fn i).process (s.st i) v).2.failure) }
  | callSrc (hi : 0 < N.n) (h : s.phase 0 = .processing none) : Step N s { s with phase := upd s.phase 0 (.sending [] [] true false []) }
  | callEnd (i : Nat) (hi : i < N.n) (h0 : i ≠ 0) (h : s.phase i = .processing none) :
      Step N s { s with phase := upd s.phase i (afterEnd ((N.fn i).finish (s.st i)).2), st := upd s.st i ((N.fn i).finish (s.st i)).1,
                        fails := upd s.fails i (s.fails i ++ ((N.fn i).finish (s.st i)).2.failure) }
  | callProd (i : Nat) (c : Call α) (hi : i < N.n) (h : s.phase i = .producing c) :
      Step N s { s with phase := upd s.phase i (afterCall c), fails := upd s.fails i (s.fails i ++ c.failure) }
  | sent (i : Nat) (rest : List (List (Nat × α))) (brk err : Bool) (found : List Nat) (hi : i < N.n) (h : s.phase i = .sending [] rest brk err found) :
      Step N s { s with phase := upd s.phase i (afterSent rest brk err found) }
  | close (i : Nat) (f : List Nat) (hi : i < N.n) (h : s.phase i = .breaking f) : Step N s { s with phase := upd s.phase i (.waiting f) }
  | forward (k : Nat) (e : List Nat) (h : s.phase (N.dst k) = .reporting e) (hh : s.held k = none) (hk : k < N.m) (hm : N.multiOut (N.src k) = true) :
      Step N s { s with phase := upd s.phase (N.dst k) .finished, held := upd s.held k (some e) }
  | errHeld (k p : Nat) (e : List Nat) (ph : Phase α) (hk : k < N.m) (hm : N.multiOut (N.src k) = true) (hh : s.held k = some e)
      (hr : recv (N.mode (N.src k)) (s.phase (N.src k)) e p = some ph) : Step N s { s with phase := upd s.phase (N.src k) ph, held := upd s.held k none }
  | errDirect (k p : Nat) (e : List Nat) (ph : Phase α) (hk : k < N.m) (hm : N.multiOut (N.src k) = false) (h : s.phase (N.dst k) = .reporting e)
      (hr : recv (N.mode (N.src k)) (s.phase (N.src k)) e p = some ph) : Step N s { s with phase := upd (upd s.phase (N.src k) ph) (N.dst k) .finished }
  | errNil (i p : Nat) (ph : Phase α) (hi : i < N.n) (hn : nilReady N s i = true) (hr : recv (N.mode i) (s.phase i) [] p = some ph) :
      Step N s { s with phase := upd s.phase i ph }
  | waitErr (e : List Nat) (hres : s.result = none) (h : s.phase 0 = .reporting e) : Step N s { s with phase := upd s.phase 0 .finished, result := some e }
  | waitNil (hres : s.result = none) (h : s.phase 0 = .finished) : Step N s { s with result := some [] }

theorem exec_step {N : Net α σ} {s s' : St α σ} {ev : Ev} (h : exec N s ev = some s') : Step N s s' := by
  cases ev with
  | poll =>
    simp only [exec] at h
    split at h
    · rename_i h1
      split at h
      · rename_i h2; cases h; exact .pollEnd h1 h2
      · rename_i c cs h2; cases h; exact .poll c cs h1 h2
    · cases h
  | push k p =>
    simp only [exec] at h
    split at h
    · rename_i pend rest brk err found h1 h2
      split at h
      · rename_i k' v h3
        split at h
        · rename_i h4
          simp only [Bool.and_eq_true, decide_eq_true_eq, beq_iff_eq] at h4
          obtain ⟨⟨⟨a, b⟩, c⟩, d⟩ := h4
          subst b
          cases h
          exact .push _ p pend rest brk err found v h1 h2 h3 a c d
        · cases h
      · cases h
    · cases h
  | direct k p =>
    simp only [exec] at h
    split at h
    · rename_i pend rest brk err found h1 h2
      split at h
      · rename_i k' v h3
        split at h
        · rename_i h4
          simp only [Bool.and_eq_true, decide_eq_true_eq, beq_iff_eq, Bool.not_eq_true'] at h4
          obtain ⟨⟨⟨a, b⟩, c⟩, d⟩ := h4
          subst b
          cases h
          exact .direct _ p pend rest brk err found v h1 h2 h3 a c d
        · cases h
      · cases h
    · cases h
  | pull k =>
    simp only [exec] at h
    split at h
    · rename_i v h1 h2
      split at h
      · rename_i h3; cases h; exact .pull k v h1 h2 h3
      · cases h
    · cases h
  | closed j =>
    simp only [exec] at h
    split at h
    · rename_i h1
      split at h
      · rename_i h2
        simp only [Bool.and_eq_true, decide_eq_true_eq] at h2
        cases h; exact .closed j h1 h2.1.1 h2.1.2 h2.2
      · cases h
    · cases h
  | call i =>
    simp only [exec] at h
    split at h
    · rename_i hi
      split at h
      · rename_i v h1; cases h; exact .callSome i v hi h1
      · rename_i h1
        split at h
        · rename_i h0; subst h0; cases h; exact .callSrc hi h1
        · rename_i h0; cases h; exact .callEnd i hi h0 h1
      · rename_i c h1; cases h; exact .callProd i c hi h1
      · cases h
    · cases h
  | sent i =>
    simp only [exec] at h
    split at h
    · rename_i rest brk err found h1
      split at h
      · rename_i hi; cases h; exact .sent i rest brk err found hi h1
      · cases h
    · cases h
  | close i =>
    simp only [exec] at h
    split at h
    · rename_i f h1
      split at h
      · rename_i hi; cases h; exact .close i f hi h1
      · cases h
    · cases h
  | forward k =>
    simp only [exec] at h
    split at h
    · rename_i e h1 h2
      split at h
      · rename_i h3
        simp only [Bool.and_eq_true, decide_eq_true_eq] at h3
        cases h; exact .forward k e h1 h2 h3.1 h3.2
      · cases h
    · cases h
  | errFrom k p =>
    simp only [exec] at h
    split at h
    · rename_i hk
      split at h
      · rename_i hm
        split at h
        · rename_i e hh
          split at h
          · rename_i ph hr; cases h; exact .errHeld k p e ph hk hm hh hr
          · cases h
        · cases h
      · rename_i hm
        split at h
        · rename_i e hd
          split at h
          · rename_i ph hr; cases h; exact .errDirect k p e ph hk (by simpa using hm) hd hr
          · cases h
        · cases h
    · cases h
  | errNil i p =>
    simp only [exec] at h
    split at h
    · rename_i h1
      simp only [Bool.and_eq_true, decide_eq_true_eq] at h1
      split at h
      · rename_i ph hr; cases h; exact .errNil i p ph h1.1 h1.2 hr
      · cases h
    · cases h
  | wait =>
    simp only [exec] at h
    split at h
    · rename_i e h1 h2; cases h; exact .waitErr e h1 h2
    · rename_i h1 h2; cases h; exact .waitNil h1 h2
    · cases h

/-- An invariant of the steps holds after every run. -/
theorem run_inv {N : Net α σ} {P : St α σ → Prop} (hstep : ∀ s s', P s → Step N s s' → P s') {s s' : St α σ} {es : List Ev} (h : run N s es = some s') (h0 : P s) : P s' := by
  induction es generalizing s with
  | nil => cases h; exact h0
  | cons e es ih =>
    simp only [run, Option.bind_eq_some_iff] at h
    obtain ⟨s1, h1, h2⟩ := h
    exact ih h2 (hstep _ _ h0 (exec_step h1))

/-! ## Termination -/

/-- Lexicographic order on the first `n` components. -/
def LexLt {β : Type} (r : β → β → Prop) (n : Nat) (f g : Nat → β) : Prop := ∃ i < n, r (f i) (g i) ∧ ∀ j < i, f j = g j

theorem lexLt_wf {β : Type} [Inhabited β] {r : β → β → Prop} (hr : WellFounded r) (n : Nat) : WellFounded (LexLt r n) := by
  induction n with
  | zero => exact ⟨fun f => ⟨f, fun g ⟨i, hi, _⟩ => absurd hi (Nat.not_lt_zero i)⟩⟩
  | succ n ih =>
    have hw : WellFounded (Prod.Lex (LexLt r n) r) := (Prod.lex ⟨_, ih⟩ ⟨_, hr⟩).wf
    let c : (Nat → β) → (Nat → β) × β := fun f => (fun j => if j < n then f j else default, f n)
    refine Subrelation.wf (r := InvImage (Prod.Lex (LexLt r n) r) c) ?_ (InvImage.wf c hw)
    rintro f g ⟨i, hi, h1, h2⟩
    by_cases hin : i = n
    · subst hin
      have : c f = ((c g).1, f i) := by
        refine Prod.ext ?_ rfl
        funext j
        show (if j < i then f j else default) = (if j < i then g j else default)
        split
        · rename_i hj; exact h2 j hj
        · rfl
      show Prod.Lex _ _ (c f) (c g)
      rw [this]
      exact Prod.Lex.right _ h1
    · have hi' : i < n := by omega
      refine Prod.Lex.left _ _ ⟨i, hi', ?_, ?_⟩
      · simp only [hi', if_true]; exact h1
      · intro j hj
        have : j < n := by omega
        simp only [this, if_true]; exact h2 j hj

abbrev Triple := Nat × Nat × Nat

def tripleLt : Triple → Triple → Prop := Prod.Lex (· < ·) (Prod.Lex (· < ·) (· < ·))

theorem tripleLt_wf : WellFounded tripleLt :=
  (Prod.lex ⟨_, Nat.lt_wfRel.wf⟩ (Prod.lex ⟨_, Nat.lt_wfRel.wf⟩ ⟨_, Nat.lt_wfRel.wf⟩)).wf

/-- Classes of phases: a stage goes up only when it gets a value. -/
def cls : Phase α → Nat
  | .processing (some _) => 8
  | .producing _ => 8
  | .sending _ _ false _ _ => 7
  | .reading => 6
  | .processing none => 5
  | .sending _ _ true _ _ => 4
  | .breaking _ => 3
  | .waiting _ => 2
  | .reporting _ => 1
  | .finished => 0

def size : Phase α → Nat
  | .sending pend rest _ _ _ => pend.length + (rest.map fun b => b.length + 1).sum
  | _ => 0

def filled (N : Net α σ) (slot : Nat → Option α) (j : Nat) : Nat := ((N.ins j).filter fun k => (slot k).isSome).length

def mu (N : Net α σ) (s : St α σ) (i : Nat) : Triple :=
  if i = N.n then (0, 0, if s.result.isNone then 1 else 0)
  else (filled N s.slot i + (if i = 0 then s.script.length else 0), cls (s.phase i), size (s.phase i))

/-- The network is built by linking functions: channels go from a stage to a later one, and every stage but the source has a channel to read. -/
structure Net.WF (N : Net α σ) : Prop where
  pos : 0 < N.n
  fwd : ∀ k < N.m, N.src k < N.dst k ∧ N.dst k < N.n
  fed : ∀ j, 0 < j → j < N.n → ∃ k < N.m, N.dst k = j

theorem mem_ins {N : Net α σ} {j k : Nat} : k ∈ N.ins j ↔ k < N.m ∧ N.dst k = j := by simp [Net.ins]
theorem mem_outs {N : Net α σ} {i k : Nat} : k ∈ N.outs i ↔ k < N.m ∧ N.src k = i := by simp [Net.outs]

theorem filled_upd {N : Net α σ} {slot : Nat → Option α} {k j : Nat} {v : Option α} (h : j ≠ N.dst k) : filled N (upd slot k v) j = filled N slot j := by
  unfold filled
  congr 1
  apply List.filter_congr
  intro k' hk'
  rw [upd_ne]
  intro e; subst e
  exact h (mem_ins.mp hk').2.symm

theorem filter_length_lt {l : List Nat} {p q : Nat → Bool} {k : Nat} (hl : k ∈ l) (hp : p k = false) (hq : q k = true) (hpq : ∀ x ∈ l, p x = true → q x = true) :
    (l.filter p).length < (l.filter q).length := by
  induction l with
  | nil => cases hl
  | cons x l ih =>
    have hle : ∀ l' : List Nat, (∀ x ∈ l', p x = true → q x = true) → (l'.filter p).length ≤ (l'.filter q).length := by
      intro l' hl'
      induction l' with
      | nil => simp
      | cons y l' ih' =>
        have := ih' (fun z hz => hl' z (List.mem_cons_of_mem _ hz))
        simp only [List.filter_cons]
        by_cases hy : p y = true
        · simp only [hy, hl' y (List.mem_cons_self ..) hy, if_true, List.length_cons]; omega
        · by_cases hq' : q y = true <;> simp [hy, hq'] <;> omega
    rcases List.mem_cons.mp hl with rfl | hl
    · have := hle l (fun z hz => hpq z (List.mem_cons_of_mem _ hz))
      simp only [List.filter_cons, hp, hq, if_true, Bool.false_eq_true, if_false, List.length_cons]; omega
    · have := ih hl (fun z hz => hpq z (List.mem_cons_of_mem _ hz))
      simp only [List.filter_cons]
      by_cases hx : p x = true
      · simp only [hx, hpq x (List.mem_cons_self ..) hx, if_true, List.length_cons]; omega
      · by_cases hq' : q x = true <;> simp [hx, hq'] <;> omega

theorem filled_pull {N : Net α σ} {slot : Nat → Option α} {k : Nat} {v : α} (hk : k < N.m) (h : slot k = some v) :
    filled N (upd slot k none) (N.dst k) < filled N slot (N.dst k) := by
  unfold filled
  apply filter_length_lt (k := k) (mem_ins.mpr ⟨hk, rfl⟩)
  · simp
  · simp [h]
  · intro x _ hx
    by_cases e : x = k
    · subst e; simp at hx
    · rwa [upd_ne _ _ e] at hx

theorem size_erase {pend : List (Nat × α)} {rest : List (List (Nat × α))} {p : Nat} {x : Nat × α} (h : pend[p]? = some x) :
    (pend.eraseIdx p).length < pend.length := by
  obtain ⟨hp, _⟩ := List.getElem?_eq_some_iff.mp h
  rw [List.length_eraseIdx, if_pos hp]; omega

/-- Receiving an error is progress. -/
theorem recv_lt {m : Mode} {ph ph' : Phase α} {e : List Nat} {p : Nat} (h : recv m ph e p = some ph') :
    Prod.Lex (· < ·) (· < ·) (cls ph', size ph') (cls ph, size ph) := by
  cases ph with
  | reading => simp only [recv] at h; split at h <;> cases h; exact Prod.Lex.left _ _ (by simp [cls])
  | waiting f =>
    simp only [recv] at h
    split at h <;> cases h
    refine Prod.Lex.left _ _ ?_
    cases f ++ e <;> simp [report, cls]
  | sending pend rest brk err found =>
    simp only [recv] at h
    split at h
    · rename_i hp
      simp only [Bool.and_eq_true, decide_eq_true_eq] at hp
      cases h
      have hc : cls (Phase.sending (dropAt m pend p) rest brk true e) = cls (Phase.sending pend rest brk err found) := by cases brk <;> rfl
      rw [hc]
      refine Prod.Lex.right _ ?_
      simp only [size, dropAt]
      split
      · simp only [List.length_nil]; omega
      · rw [List.length_eraseIdx, if_pos hp.1]; omega
    · cases h
  | processing v => cases h
  | producing c => cases h
  | breaking f => cases h
  | reporting e => cases h
  | finished => cases h

theorem step_mu {N : Net α σ} (hN : N.WF) {s s' : St α σ} (h : Step N s s') : LexLt tripleLt (N.n + 1) (mu N s') (mu N s) := by
  -- a step of stage `i` that leaves script and slots alone
  have key : ∀ (i : Nat) (ph : Phase α) (st : Nat → σ) (held : Nat → Option (List Nat)) (fails : Nat → List Nat), i < N.n →
      Prod.Lex (· < ·) (· < ·) (cls ph, size ph) (cls (s.phase i), size (s.phase i)) →
      LexLt tripleLt (N.n + 1) (mu N { s with phase := upd s.phase i ph, st := st, held := held, fails := fails }) (mu N s) := by
    intro i ph st held fails hi hlt
    refine ⟨i, by omega, ?_, ?_⟩
    · have hne : i ≠ N.n := by omega
      simp only [mu, hne, if_false, upd_self]
      exact Prod.Lex.right _ hlt
    · intro j hj
      have hne : j ≠ i := by omega
      have hne' : j ≠ N.n := by omega
      simp only [mu, hne', if_false, upd_ne _ _ hne]
  cases h with
  | pollEnd h hs => exact key 0 _ s.st s.held s.fails hN.pos (by rw [h]; exact Prod.Lex.left _ _ (by simp [cls]))
  | poll c cs h hs =>
    refine ⟨0, by omega, ?_, fun j hj => absurd hj (Nat.not_lt_zero j)⟩
    have hne : ¬ 0 = N.n := by have := hN.pos; omega
    simp only [mu, hne, if_false, if_true, hs]
    exact Prod.Lex.left _ _ (by simp)
  | push k p pend rest brk err found v h hsl hp hk ha hm =>
    obtain ⟨f1, f2⟩ := hN.fwd k hk
    refine ⟨N.src k, by omega, ?_, ?_⟩
    · have hne : N.src k ≠ N.n := by omega
      have hd : N.src k ≠ N.dst k := by omega
      simp only [mu, hne, if_false, upd_self, filled_upd hd, h]
      refine Prod.Lex.right _ ?_
      have hc : cls (Phase.sending (pend.eraseIdx p) rest brk err found) = cls (Phase.sending pend rest brk err found) := by cases brk <;> rfl
      rw [hc]
      refine Prod.Lex.right _ ?_
      have := size_erase (rest := rest) hp
      simp only [size]; omega
    · intro j hj
      have hne : j ≠ N.src k := by omega
      have hne' : j ≠ N.n := by omega
      have hd : j ≠ N.dst k := by omega
      simp only [mu, hne', if_false, upd_ne _ _ hne, filled_upd hd]
  | direct k p pend rest brk err found v h hd hp hk ha hm =>
    obtain ⟨f1, f2⟩ := hN.fwd k hk
    refine ⟨N.src k, by omega, ?_, ?_⟩
    · have hne : N.src k ≠ N.n := by omega
      have hd : N.src k ≠ N.dst k := by omega
      simp only [mu, hne, if_false, upd_ne _ _ hd, upd_self, h]
      refine Prod.Lex.right _ ?_
      have hc : cls (Phase.sending (pend.eraseIdx p) rest brk err found) = cls (Phase.sending pend rest brk err found) := by cases brk <;> rfl
      rw [hc]
      refine Prod.Lex.right _ ?_
      have := size_erase (rest := rest) hp
      simp only [size]; omega
    · intro j hj
      have hne : j ≠ N.src k := by omega
      have hne' : j ≠ N.n := by omega
      have hd : j ≠ N.dst k := by omega
      simp only [mu, hne', if_false, upd_ne _ _ hd, upd_ne _ _ hne]
  | pull k v h hsl hk =>
    obtain ⟨f1, f2⟩ := hN.fwd k hk
    refine ⟨N.dst k, by omega, ?_, ?_⟩
    · have hne : N.dst k ≠ N.n := by omega
      simp only [mu, hne, if_false]
      refine Prod.Lex.left _ _ ?_
      have := filled_pull hk hsl
      omega
    · intro j hj
      have hne : j ≠ N.dst k := by omega
      have hne' : j ≠ N.n := by omega
      simp only [mu, hne', if_false, upd_ne _ _ hne, filled_upd hne]
  | closed j h h0 hj hc => exact key j _ s.st s.held s.fails hj (by rw [h]; exact Prod.Lex.left _ _ (by simp [cls]))
  | callSome i v hi h =>
    refine key i _ _ s.held _ hi ?_
    rw [h]
    refine Prod.Lex.left _ _ ?_
    unfold afterCall
    split <;> simp [cls]
  | callSrc hi h => exact key 0 _ s.st s.held s.fails hi (by rw [h]; exact Prod.Lex.left _ _ (by simp [cls]))
  | callEnd i hi h0 h =>
    refine key i _ _ s.held _ hi ?_
    rw [h]
    refine Prod.Lex.left _ _ ?_
    unfold afterEnd
    split <;> simp [cls]
  | callProd i c hi h =>
    refine key i _ s.st s.held _ hi ?_
    rw [h]
    refine Prod.Lex.left _ _ ?_
    unfold afterCall
    split <;> simp [cls]
  | sent i rest brk err found hi h =>
    refine key i _ s.st s.held s.fails hi ?_
    rw [h]
    unfold afterSent
    split
    · refine Prod.Lex.left _ _ ?_
      cases brk <;> simp [cls]
    · rename_i hb
      simp only [Bool.or_eq_true, not_or, Bool.not_eq_true] at hb
      rw [hb.1]
      cases rest with
      | nil => exact Prod.Lex.left _ _ (by simp [cls])
      | cons b bs =>
        have hc : cls (Phase.sending b bs false false found) = cls (Phase.sending [] (b :: bs) false err found) := rfl
        rw [hc]
        refine Prod.Lex.right _ ?_
        simp only [size, List.length_nil, List.map_cons, List.sum_cons]; omega
  | close i f hi h => exact key i _ s.st s.held s.fails hi (by rw [h]; exact Prod.Lex.left _ _ (by simp [cls]))
  | forward k e h hh hk hm =>
    exact key (N.dst k) _ s.st _ s.fails (hN.fwd k hk).2 (by rw [h]; exact Prod.Lex.left _ _ (by simp [cls]))
  | errHeld k p e ph hk hm hh hr =>
    obtain ⟨f1, f2⟩ := hN.fwd k hk
    exact key (N.src k) _ s.st _ s.fails (by omega) (recv_lt hr)
  | errDirect k p e ph hk hm h hr =>
    obtain ⟨f1, f2⟩ := hN.fwd k hk
    refine ⟨N.src k, by omega, ?_, ?_⟩
    · have hne : N.src k ≠ N.n := by omega
      have hd : N.src k ≠ N.dst k := by omega
      simp only [mu, hne, if_false, upd_ne _ _ hd, upd_self]
      exact Prod.Lex.right _ (recv_lt hr)
    · intro j hj
      have hne : j ≠ N.src k := by omega
      have hne' : j ≠ N.n := by omega
      have hd : j ≠ N.dst k := by omega
      simp only [mu, hne', if_false, upd_ne _ _ hd, upd_ne _ _ hne]
  | errNil i p ph hi hn hr => exact key i _ s.st s.held s.fails hi (recv_lt hr)
  | waitErr e hres h =>
    refine ⟨0, by omega, ?_, fun j hj => absurd hj (Nat.not_lt_zero j)⟩
    have hne : ¬ 0 = N.n := by have := hN.pos; omega
    simp only [mu, hne, if_false, upd_self, h]
    exact Prod.Lex.right _ (Prod.Lex.left _ _ (by simp [cls]))
  | waitNil hres h =>
    refine ⟨N.n, by omega, ?_, ?_⟩
    · simp only [mu, if_true, hres]
      exact Prod.Lex.right _ (Prod.Lex.right _ (by simp))
    · intro j hj
      have hne : j ≠ N.n := by omega
      simp only [mu, hne, if_false]

end Fpki.Pipe
