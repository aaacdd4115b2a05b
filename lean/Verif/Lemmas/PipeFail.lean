import Verif.Lemmas.PipeNoFail
/-! # Pipelines in which functions can fail: what becomes of the errors. -/
namespace Fpki.Pipe
open Fpki.Stage (Mode)

variable {α σ : Type}

/-- The error that a stage has found and not reported yet. -/
def carry : Phase α → List Nat
  | .sending _ _ _ _ found => found
  | .breaking f => f
  | .waiting f => f
  | .reporting e => e
  | _ => []

/-- The stages in `G` cannot overwrite an error: they give up all outputs after the first error, or they never have more than one. -/
def Keeps (N : Net α σ) (G : Nat → Prop) (i : Nat) (b : Batch α) : Prop := G i → N.mode i = .cycles ∨ b.length ≤ 1

theorem keeps_hereditary (N : Net α σ) (G : Nat → Prop) (i : Nat) : Hereditary (Keeps N G i : Batch α → Prop) := by
  refine ⟨fun _ => .inr (by simp), fun b p h g => ?_⟩
  rcases h g with h | h
  · exact .inl h
  · refine .inr (Nat.le_trans ?_ h)
    rw [List.length_eraseIdx]; split <;> omega

/-- `t`: the stages that have reported an error. -/
structure Told (N : Net α σ) (G : Nat → Prop) (s : St α σ) (t : Nat → Prop) : Prop where
  fin : ∀ i, t i → s.phase i = .finished
  clean : ∀ i, s.phase i = .finished → t i ∨ ((G i → s.fails i = []) ∧ ∀ k ∈ N.outs i, s.phase (N.dst k) = .finished ∧ s.held k = none)
  up : ∀ i, t i → i = 0 ∨ ∃ k ∈ N.ins i, ¬ G (N.src k) ∨ s.held k ≠ none ∨ t (N.src k) ∨ carry (s.phase (N.src k)) ≠ []
  kept : ∀ i, G i → s.fails i ≠ [] → t i ∨ carry (s.phase i) ≠ []
  good : ∀ i, G i → ∀ pend rest brk err found, s.phase i = .sending pend rest brk err found → (err = true → pend = []) ∧ (found ≠ [] → err = true)
  rep : ∀ i e, s.phase i = .reporting e → e ≠ []
  held : ∀ k e, s.held k = some e → e ≠ [] ∧ N.multiOut (N.src k) = true ∧ s.phase (N.dst k) = .finished
  result : ∀ r, s.result = some r → s.phase 0 = .finished ∧ (r ≠ [] ↔ t 0)
  pending : s.result = none → ¬ t 0

theorem told_init (N : Net α σ) (G : Nat → Prop) (s0 : Nat → σ) (script : List (Call α)) : Told N G (St.init s0 script : St α σ) (fun _ => False) := by
  refine ⟨?_, ?_, ?_, ?_, ?_, ?_, ?_, ?_, fun _ h => h⟩
  · intro i h; exact h.elim
  · intro i h; cases h
  · intro i h; exact h.elim
  · intro i _ h; exact absurd rfl h
  · intro i _ pend rest brk err found h; cases h
  · intro i e h; cases h
  · intro k e h; cases h
  · intro r h; cases h

/-- A change of stage `i` that does not finish it. -/
theorem told_upd {N : Net α σ} {G : Nat → Prop} {s : St α σ} {t : Nat → Prop} (h : Told N G s t) {i : Nat} {ph : Phase α} (st : Nat → σ) (script : List (Call α)) (slot : Nat → Option α)
    (got : Nat → List (Nat × α)) (fails : List Nat)
    (hnf : s.phase i ≠ .finished) (hnf' : ph ≠ .finished) (hcarry : G i → carry (s.phase i) ≠ [] → carry ph ≠ []) (hkept : G i → fails ≠ [] → carry ph ≠ [])
    (hgood : G i → ∀ pend rest brk err found, ph = .sending pend rest brk err found → (err = true → pend = []) ∧ (found ≠ [] → err = true))
    (hrep : ∀ e, ph = .reporting e → e ≠ []) :
    Told N G { s with phase := upd s.phase i ph, st := st, script := script, slot := slot, got := got, fails := upd s.fails i fails } t := by
  obtain ⟨a1, a2, a3, a4, a5, a6, a7, a9, a10⟩ := h
  have nf : ∀ j, upd s.phase i ph j = .finished → s.phase j = .finished ∧ j ≠ i := by
    intro j hj
    rw [upd_apply] at hj
    split at hj
    · exact absurd hj hnf'
    · rename_i e; exact ⟨hj, e⟩
  have fn : ∀ j, s.phase j = .finished → upd s.phase i ph j = .finished := by
    intro j hj
    rw [upd_ne]
    · exact hj
    · intro e; subst e; exact hnf hj
  refine ⟨fun j hj => fn j (a1 j hj), ?_, ?_, ?_, ?_, ?_, ?_, ?_, a10⟩
  · intro j hj
    obtain ⟨h1, h2⟩ := nf j hj
    simp only [upd_ne _ _ h2]
    rcases a2 j h1 with h | ⟨h3, h4⟩
    · exact .inl h
    · exact .inr ⟨h3, fun k hk => ⟨fn _ (h4 k hk).1, (h4 k hk).2⟩⟩
  · intro j hj
    rcases a3 j hj with h | ⟨k, hk, h⟩
    · exact .inl h
    · refine .inr ⟨k, hk, ?_⟩
      rcases h with h | h | h | h
      · exact .inl h
      · exact .inr (.inl h)
      · exact .inr (.inr (.inl h))
      · by_cases hg : G (N.src k)
        · refine .inr (.inr (.inr ?_))
          show carry (upd s.phase i ph (N.src k)) ≠ []
          rw [upd_apply]
          split
          · rename_i e; rw [e] at h hg; exact hcarry hg h
          · exact h
        · exact .inl hg
  · intro j hg hj
    by_cases e : j = i
    · subst e
      simp only [upd_self] at hj ⊢
      exact .inr (hkept hg hj)
    · simp only [upd_ne _ _ e] at hj ⊢
      exact a4 j hg hj
  · intro j hg pend rest brk err found hj
    by_cases e : j = i
    · subst e
      simp only [upd_self] at hj
      exact hgood hg _ _ _ _ _ hj
    · simp only [upd_ne _ _ e] at hj
      exact a5 j hg _ _ _ _ _ hj
  · intro j e hj
    by_cases e' : j = i
    · subst e'
      simp only [upd_self] at hj
      exact hrep e hj
    · simp only [upd_ne _ _ e'] at hj
      exact a6 j e hj
  · intro k e hk
    obtain ⟨b1, b2, b3⟩ := a7 k e hk
    exact ⟨b1, b2, fn _ b3⟩
  · intro r hr
    exact ⟨fn 0 (a9 r hr).1, (a9 r hr).2⟩

theorem upd_eta {β : Type} (f : Nat → β) (i : Nat) : upd f i (f i) = f := by
  funext j; rw [upd_apply]; split <;> rename_i e <;> simp [e]

/-- The same without a change of the failures. -/
theorem told_upd' {N : Net α σ} {G : Nat → Prop} {s : St α σ} {t : Nat → Prop} (h : Told N G s t) {i : Nat} {ph : Phase α} (script : List (Call α)) (slot : Nat → Option α)
    (got : Nat → List (Nat × α)) (hnf : s.phase i ≠ .finished) (hnf' : ph ≠ .finished) (hcarry : G i → carry (s.phase i) ≠ [] → carry ph ≠ [])
    (hgood : G i → ∀ pend rest brk err found, ph = .sending pend rest brk err found → (err = true → pend = []) ∧ (found ≠ [] → err = true))
    (hrep : ∀ e, ph = .reporting e → e ≠ []) :
    Told N G { s with phase := upd s.phase i ph, script := script, slot := slot, got := got } t := by
  have := told_upd h (i := i) (ph := ph) s.st script slot got (s.fails i) hnf hnf' hcarry (by
    intro g hf
    rcases h.kept i g hf with ht | ht
    · exact absurd (h.fin i ht) hnf
    · exact hcarry g ht) hgood hrep
  rw [upd_eta] at this
  exact this

theorem failure_carry_call (c : Call α) : c.failure ≠ [] → carry (afterCall c) ≠ [] := by
  unfold Call.failure afterCall
  cases c.outcome <;> simp [carry]

theorem failure_carry_end (c : Call α) : c.failure ≠ [] → carry (afterEnd c) ≠ [] := by
  unfold Call.failure afterEnd
  cases c.outcome <;> simp [carry]

theorem afterCall_shape (c : Call α) : (∃ e, afterCall c = .breaking e) ∨ ∃ pend rest brk, afterCall c = .sending pend rest brk false [] := by
  unfold afterCall
  split
  · exact .inl ⟨_, rfl⟩
  · exact .inr ⟨_, _, _, rfl⟩
  · exact .inr ⟨_, _, _, rfl⟩

theorem afterEnd_shape (c : Call α) : (∃ e, afterEnd c = .breaking e) ∨ ∃ pend rest brk, afterEnd c = .sending pend rest brk false [] := by
  unfold afterEnd
  split
  · exact .inl ⟨_, rfl⟩
  · exact .inr ⟨_, _, _, rfl⟩

/-- What receiving can do. -/
theorem recv_shape {m : Mode} {ph ph' : Phase α} {e : List Nat} {p : Nat} (h : recv m ph e p = some ph') :
    (ph = .reading ∧ ph' = .breaking e ∧ p = 0) ∨ (∃ f, ph = .waiting f ∧ ph' = report (f ++ e) ∧ p = 0) ∨
    ∃ pend rest brk err found, ph = .sending pend rest brk err found ∧ p < pend.length ∧ ph' = .sending (dropAt m pend p) rest brk true e := by
  cases ph with
  | reading => simp only [recv] at h; split at h <;> cases h; rename_i hp; exact .inl ⟨rfl, rfl, hp⟩
  | waiting f => simp only [recv] at h; split at h <;> cases h; rename_i hp; exact .inr (.inl ⟨f, rfl, rfl, hp⟩)
  | sending pend rest brk err found =>
    simp only [recv] at h
    split at h <;> cases h
    rename_i hp
    simp only [Bool.and_eq_true, decide_eq_true_eq] at hp
    exact .inr (.inr ⟨pend, rest, brk, err, found, rfl, hp.1, rfl⟩)
  | processing v => cases h
  | producing c => cases h
  | breaking f => cases h
  | reporting e => cases h
  | finished => cases h

theorem report_ne {e : List Nat} (h : e ≠ []) : (report e : Phase α) = .reporting e := by cases e with | nil => exact absurd rfl h | cons a l => rfl

theorem dropAt_keeps {m : Mode} {pend : Batch α} {p : Nat} (hp : p < pend.length) (h : m = .cycles ∨ pend.length ≤ 1) : dropAt m pend p = [] := by
  unfold dropAt
  split
  · rfl
  · rename_i hm
    rcases h with h | h
    · exact absurd h hm
    · have : (pend.eraseIdx p).length = 0 := by rw [List.length_eraseIdx]; simp [hp]; omega
      exact List.eq_nil_of_length_eq_zero this

/-- Stage `i` receives something that is not lost. -/
theorem told_recv {N : Net α σ} {G : Nat → Prop} {s : St α σ} {t : Nat → Prop} (h : Told N G s t) (hk : AllInv (Keeps N G) s) {i p : Nat} {e : List Nat} {ph : Phase α}
    (hr : recv (N.mode i) (s.phase i) e p = some ph) (hnf' : ph ≠ .finished) :
    Told N G { s with phase := upd s.phase i ph } t := by
  refine told_upd' h s.script s.slot s.got ?_ hnf' ?_ ?_ ?_
  · intro hf; rw [hf] at hr; cases hr
  · intro g hc
    rcases recv_shape hr with ⟨h1, _⟩ | ⟨f, h1, h2, _⟩ | ⟨pend, rest, brk, err, found, h1, h2, h3⟩
    · rw [h1] at hc; exact absurd rfl hc
    · rw [h1] at hc
      rw [h2, report_ne]
      · intro hx; exact hc (by simp only [carry] at hx; exact (List.append_eq_nil_iff.mp hx).1)
      · intro hx; exact hc (List.append_eq_nil_iff.mp hx).1
    · have hg := h.good i g _ _ _ _ _ h1
      have := hg.1 (hg.2 (by rw [h1] at hc; exact hc))
      rw [this] at h2; simp at h2
  · intro g pend rest brk err found hs
    rcases recv_shape hr with ⟨_, h2, _⟩ | ⟨f, h1, h2, _⟩ | ⟨pend', rest', brk', err', found', h1, h2, h3⟩
    · rw [h2] at hs; cases hs
    · rw [h2] at hs; cases hfe : f ++ e <;> rw [hfe] at hs <;> cases hs
    · rw [h3] at hs
      cases hs
      have := hk.phase i; rw [h1] at this
      exact ⟨fun _ => dropAt_keeps h2 (this.1 g), fun _ => rfl⟩
  · intro e' he
    rcases recv_shape hr with ⟨_, h2, _⟩ | ⟨f, h1, h2, _⟩ | ⟨pend', rest', brk', err', found', h1, h2, h3⟩
    · rw [h2] at he; cases he
    · rw [h2] at he
      cases hfe : f ++ e with
      | nil => rw [hfe] at he; cases he
      | cons a l => rw [hfe] at he; cases he; intro h; cases h
    · rw [h3] at he; cases he

/-- Stage `j` has reported its error. -/
theorem told_finish {N : Net α σ} {G : Nat → Prop} {s : St α σ} {t : Nat → Prop} (h : Told N G s t) {j : Nat} {e : List Nat} (hj : s.phase j = .reporting e)
    {held : Nat → Option (List Nat)} {result : Option (List Nat)}
    (hheld : ∀ k, held k ≠ s.held k → N.dst k = j ∧ held k = some e ∧ N.multiOut (N.src k) = true ∧ k < N.m)
    (hup : j = 0 ∨ ∃ k ∈ N.ins j, ¬ G (N.src k) ∨ held k ≠ none ∨ t (N.src k) ∨ carry (s.phase (N.src k)) ≠ [])
    (hres : ∀ r, result = some r → (j = 0 ∧ r ≠ []) ∨ s.result = some r) (hres' : result = none → s.result = none ∧ j ≠ 0) :
    Told N G { s with phase := upd s.phase j .finished, held := held, result := result } (fun i => t i ∨ i = j) := by
  obtain ⟨a1, a2, a3, a4, a5, a6, a7, a9, a10⟩ := h
  have hne := a6 j e hj
  have hsome : ∀ k, s.held k ≠ none → held k ≠ none := by
    intro k hk
    by_cases hc : held k = s.held k
    · rw [hc]; exact hk
    · rw [(hheld k hc).2.1]; intro h; cases h
  have fn : ∀ i, s.phase i = .finished → upd s.phase j .finished i = .finished := by
    intro i hi; rw [upd_apply]; split
    · rfl
    · exact hi
  have tc : ∀ i, carry (s.phase i) ≠ [] → (t i ∨ i = j) ∨ carry (upd s.phase j .finished i) ≠ [] := by
    intro i hi
    by_cases e' : i = j
    · exact .inl (.inr e')
    · rw [upd_ne _ _ e']; exact .inr hi
  have wit : ∀ k, (¬ G (N.src k) ∨ held k ≠ none ∨ t (N.src k) ∨ carry (s.phase (N.src k)) ≠ []) →
      ¬ G (N.src k) ∨ held k ≠ none ∨ (t (N.src k) ∨ N.src k = j) ∨ carry (upd s.phase j .finished (N.src k)) ≠ [] := by
    intro k hk
    rcases hk with hk | hk | hk | hk
    · exact .inl hk
    · exact .inr (.inl hk)
    · exact .inr (.inr (.inl (.inl hk)))
    · exact .inr (.inr (tc _ hk))
  refine ⟨?_, ?_, ?_, ?_, ?_, ?_, ?_, ?_, ?_⟩
  · intro i hi
    rcases hi with hi | hi
    · exact fn i (a1 i hi)
    · subst hi; exact upd_self _ _ _
  · intro i hi
    by_cases e' : i = j
    · exact .inl (.inr e')
    · simp only [upd_ne _ _ e'] at hi
      rcases a2 i hi with h | ⟨h1, h2⟩
      · exact .inl (.inl h)
      · refine .inr ⟨h1, fun k hk => ⟨fn _ (h2 k hk).1, ?_⟩⟩
        show held k = none
        by_cases hc : held k = s.held k
        · rw [hc]; exact (h2 k hk).2
        · obtain ⟨c1, _⟩ := hheld k hc
          have := (h2 k hk).1
          rw [c1, hj] at this
          cases this
  · intro i hi
    rcases hi with hi | hi
    · rcases a3 i hi with h | ⟨k, hk, h⟩
      · exact .inl h
      · refine .inr ⟨k, hk, wit k ?_⟩
        rcases h with h | h | h | h
        · exact .inl h
        · exact .inr (.inl (hsome k h))
        · exact .inr (.inr (.inl h))
        · exact .inr (.inr (.inr h))
    · subst hi
      rcases hup with h | ⟨k, hk, h⟩
      · exact .inl h
      · exact .inr ⟨k, hk, wit k h⟩
  · intro i g hi
    rcases a4 i g hi with h | h
    · exact .inl (.inl h)
    · exact tc i h
  · intro i g pend rest brk err found hi
    by_cases e' : i = j
    · subst e'; simp only [upd_self] at hi; cases hi
    · simp only [upd_ne _ _ e'] at hi; exact a5 i g _ _ _ _ _ hi
  · intro i e1 hi
    by_cases e' : i = j
    · subst e'; simp only [upd_self] at hi; cases hi
    · simp only [upd_ne _ _ e'] at hi; exact a6 i e1 hi
  · intro k e1 hk
    by_cases hc : held k = s.held k
    · obtain ⟨b1, b2, b3⟩ := a7 k e1 (hc ▸ hk)
      exact ⟨b1, b2, fn _ b3⟩
    · obtain ⟨c1, c2, c3, _⟩ := hheld k hc
      have hk : held k = some e1 := hk
      rw [c2] at hk
      cases hk
      refine ⟨hne, c3, ?_⟩
      show upd s.phase j .finished (N.dst k) = .finished
      rw [c1, upd_self]
  · intro r hr
    rcases hres r hr with ⟨h1, h2⟩ | h
    · subst h1
      exact ⟨upd_self s.phase 0 .finished, fun _ => .inr rfl, fun _ => h2⟩
    · have h9 := a9 r h
      refine ⟨fn 0 h9.1, fun hr => .inl (h9.2.mp hr), fun ht => ?_⟩
      rcases ht with ht | ht
      · exact h9.2.mpr ht
      · rw [← ht, h9.1] at hj; cases hj
  · intro hr ht
    obtain ⟨h1, h2⟩ := hres' hr
    rcases ht with ht | ht
    · exact a10 h1 ht
    · exact h2 ht.symm

/-- Stage `i` finishes without an error. -/
theorem told_quiet {N : Net α σ} {G : Nat → Prop} {s : St α σ} {t : Nat → Prop} (h : Told N G s t) {i : Nat} (hw : s.phase i = .waiting []) (hn : nilReady N s i = true) :
    Told N G { s with phase := upd s.phase i .finished } t := by
  obtain ⟨a1, a2, a3, a4, a5, a6, a7, a9, a10⟩ := h
  have fn : ∀ j, s.phase j = .finished → upd s.phase i .finished j = .finished := by
    intro j hj; rw [upd_apply]; split
    · rfl
    · exact hj
  have hti : ¬ t i := by intro ht; have := a1 i ht; rw [hw] at this; cases this
  refine ⟨fun j hj => fn j (a1 j hj), ?_, ?_, ?_, ?_, ?_, ?_, ?_, a10⟩
  · intro j hj
    by_cases e : j = i
    · subst e
      refine .inr ⟨?_, fun k hk => ⟨fn _ (nilReady_out hn k hk).1, (nilReady_out hn k hk).2⟩⟩
      intro g
      cases hf : s.fails j with
      | nil => rfl
      | cons a l =>
        rcases a4 j g (by rw [hf]; simp) with ht | ht
        · exact absurd ht hti
        · rw [hw] at ht; exact absurd rfl ht
    · simp only [upd_ne _ _ e] at hj
      rcases a2 j hj with h | ⟨b1, b2⟩
      · exact .inl h
      · exact .inr ⟨b1, fun k hk => ⟨fn _ (b2 k hk).1, (b2 k hk).2⟩⟩
  · intro j hj
    rcases a3 j hj with h | ⟨k, hk, h⟩
    · exact .inl h
    · refine .inr ⟨k, hk, ?_⟩
      rcases h with h | h | h | h
      · exact .inl h
      · exact .inr (.inl h)
      · exact .inr (.inr (.inl h))
      · refine .inr (.inr (.inr ?_))
        show carry (upd s.phase i .finished (N.src k)) ≠ []
        rw [upd_ne]
        · exact h
        · intro e; rw [e, hw] at h; exact h rfl
  · intro j g hj
    rcases a4 j g hj with h | h
    · exact .inl h
    · refine .inr ?_
      show carry (upd s.phase i .finished j) ≠ []
      rw [upd_ne]
      · exact h
      · intro e; rw [e, hw] at h; exact h rfl
  · intro j g pend rest brk err found hj
    by_cases e' : j = i
    · subst e'; simp only [upd_self] at hj; cases hj
    · simp only [upd_ne _ _ e'] at hj; exact a5 j g _ _ _ _ _ hj
  · intro j e1 hj
    by_cases e' : j = i
    · subst e'; simp only [upd_self] at hj; cases hj
    · simp only [upd_ne _ _ e'] at hj; exact a6 j e1 hj
  · intro k e1 hk
    obtain ⟨b1, b2, b3⟩ := a7 k e1 hk
    exact ⟨b1, b2, fn _ b3⟩
  · intro r hr
    exact ⟨fn 0 (a9 r hr).1, (a9 r hr).2⟩

theorem told_step {N : Net α σ} (hN : N.WF) {G : Nat → Prop} {s s' : St α σ} {t : Nat → Prop} (h : Told N G s t) (hk : AllInv (Keeps N G) s) (hs : Step N s s') :
    ∃ t' : Nat → Prop, Told N G s' t' ∧ (∀ i, t i → t' i) ∧ ∀ i, s'.phase i = .finished → s.phase i = .finished ∨ t' i ∨ s.phase i = .waiting [] := by
  have nf : ∀ {i : Nat} {ph : Phase α}, s.phase i = ph → ph ≠ .finished → s.phase i ≠ .finished := by intro i ph h1 h2 h3; exact h2 (h1 ▸ h3)
  have wrap : ∀ {i : Nat} {ph : Phase α}, ph ≠ .finished → ∀ j, upd s.phase i ph j = .finished → s.phase j = .finished ∨ t j ∨ s.phase j = .waiting [] := by
    intro i ph hph j hj
    rw [upd_apply] at hj
    split at hj
    · exact absurd hj hph
    · exact .inl hj
  have wrap2 : ∀ {i i' : Nat} {ph ph' : Phase α}, ph ≠ .finished → ph' ≠ .finished → ∀ j, upd (upd s.phase i ph) i' ph' j = .finished → s.phase j = .finished ∨ t j ∨ s.phase j = .waiting [] := by
    intro i i' ph ph' hph hph' j hj
    rw [upd_apply] at hj
    split at hj
    · exact absurd hj hph'
    · exact wrap hph j hj
  cases hs with
  | pollEnd h1 hs =>
    exact ⟨t, told_upd' h _ _ _ (nf h1 (by simp)) (by simp) (by rw [h1]; intro _ hc; exact absurd rfl hc) (by intro _ _ _ _ _ _ h; cases h) (by intro _ h; cases h), fun _ h => h, wrap (by simp)⟩
  | poll c cs h1 hs =>
    exact ⟨t, told_upd' h _ _ _ (nf h1 (by simp)) (by simp) (by rw [h1]; intro _ hc; exact absurd rfl hc) (by intro _ _ _ _ _ _ h; cases h) (by intro _ h; cases h), fun _ h => h, wrap (by simp)⟩
  | push k p pend rest brk err found v h1 hsl hp hkm ha hm =>
    refine ⟨t, told_upd' h _ _ _ (nf h1 (by simp)) (by simp) (by rw [h1]; exact fun _ h => h) ?_ (by intro _ h; cases h), fun _ h => h, wrap (by simp)⟩
    intro g _ _ _ _ _ he
    cases he
    have hg := h.good _ g _ _ _ _ _ h1
    refine ⟨fun hc => ?_, hg.2⟩
    have := hg.1 hc
    rw [this] at hp; simp at hp
  | direct k p pend rest brk err found v h1 hd hp hkm ha hm =>
    have hne : N.dst k ≠ N.src k := by have := (hN.fwd k hkm).1; omega
    have hu := told_upd' h (i := N.src k) (ph := .sending (pend.eraseIdx p) rest brk err found) s.script s.slot s.got (nf h1 (by simp)) (by simp) (by rw [h1]; exact fun _ h => h) (by
      intro g _ _ _ _ _ he
      cases he
      have hg := h.good _ g _ _ _ _ _ h1
      refine ⟨fun hc => ?_, hg.2⟩
      have := hg.1 hc
      rw [this] at hp; simp at hp) (by intro _ h; cases h)
    have hd' : upd s.phase (N.src k) (.sending (pend.eraseIdx p) rest brk err found) (N.dst k) = .reading := by rw [upd_ne _ _ hne]; exact hd
    refine ⟨t, told_upd' hu (i := N.dst k) (ph := .processing (some v)) s.script s.slot _ ?_ (by simp) ?_ (by intro _ _ _ _ _ _ h; cases h) (by intro _ h; cases h), fun _ h => h, wrap2 (by simp) (by simp)⟩
    · simp only [hd']; simp
    · simp only [hd']; intro _ hc; exact absurd rfl hc
  | pull k v h1 hsl hkm =>
    exact ⟨t, told_upd' h _ _ _ (nf h1 (by simp)) (by simp) (by rw [h1]; intro _ hc; exact absurd rfl hc) (by intro _ _ _ _ _ _ h; cases h) (by intro _ h; cases h), fun _ h => h, wrap (by simp)⟩
  | closed j h1 h0 hj hc =>
    exact ⟨t, told_upd' h _ _ _ (nf h1 (by simp)) (by simp) (by rw [h1]; intro _ hc; exact absurd rfl hc) (by intro _ _ _ _ _ _ h; cases h) (by intro _ h; cases h), fun _ h => h, wrap (by simp)⟩
  | callSome i v hi h1 =>
    have hf : G i → s.fails i = [] := by
      intro g
      cases hf : s.fails i with
      | nil => rfl
      | cons a l =>
        rcases h.kept i g (by rw [hf]; simp) with ht | ht
        · exact absurd (h.fin i ht) (nf h1 (by simp))
        · rw [h1] at ht; exact absurd rfl ht
    have hsh := afterCall_shape ((N.fn i).process (s.st i) v).2
    have hnf : afterCall ((N.fn i).process (s.st i) v).2 ≠ .finished := by rcases hsh with ⟨e, he⟩ | ⟨a, b, c, he⟩ <;> rw [he] <;> simp
    refine ⟨t, told_upd h _ _ _ _ _ (nf h1 (by simp)) hnf (by rw [h1]; intro _ hc; exact absurd rfl hc) ?_ ?_ ?_, fun _ h => h, wrap hnf⟩
    · intro g hx
      exact failure_carry_call _ (by rw [hf g, List.nil_append] at hx; exact hx)
    · intro g pend rest brk err found he
      rcases hsh with ⟨e, hs⟩ | ⟨a, b, c, hs⟩ <;> rw [hs] at he <;> cases he
      exact ⟨(by intro h; cases h), fun h => absurd rfl h⟩
    · intro e he; rcases hsh with ⟨e, hs⟩ | ⟨a, b, c, hs⟩ <;> rw [hs] at he <;> cases he
  | callSrc hi h1 =>
    refine ⟨t, told_upd' h _ _ _ (nf h1 (by simp)) (by simp) (by rw [h1]; intro _ hc; exact absurd rfl hc) ?_ (by intro _ h; cases h), fun _ h => h, wrap (by simp)⟩
    intro _ _ _ _ _ _ he; cases he; exact ⟨fun _ => rfl, fun h => absurd rfl h⟩
  | callEnd i hi h0 h1 =>
    have hf : G i → s.fails i = [] := by
      intro g
      cases hf : s.fails i with
      | nil => rfl
      | cons a l =>
        rcases h.kept i g (by rw [hf]; simp) with ht | ht
        · exact absurd (h.fin i ht) (nf h1 (by simp))
        · rw [h1] at ht; exact absurd rfl ht
    have hsh := afterEnd_shape ((N.fn i).finish (s.st i)).2
    have hnf : afterEnd ((N.fn i).finish (s.st i)).2 ≠ .finished := by rcases hsh with ⟨e, he⟩ | ⟨a, b, c, he⟩ <;> rw [he] <;> simp
    refine ⟨t, told_upd h _ _ _ _ _ (nf h1 (by simp)) hnf (by rw [h1]; intro _ hc; exact absurd rfl hc) ?_ ?_ ?_, fun _ h => h, wrap hnf⟩
    · intro g hx
      exact failure_carry_end _ (by rw [hf g, List.nil_append] at hx; exact hx)
    · intro g pend rest brk err found he
      rcases hsh with ⟨e, hs⟩ | ⟨a, b, c, hs⟩ <;> rw [hs] at he <;> cases he
      exact ⟨(by intro h; cases h), fun h => absurd rfl h⟩
    · intro e he; rcases hsh with ⟨e, hs⟩ | ⟨a, b, c, hs⟩ <;> rw [hs] at he <;> cases he
  | callProd i c hi h1 =>
    have hf : G i → s.fails i = [] := by
      intro g
      cases hf : s.fails i with
      | nil => rfl
      | cons a l =>
        rcases h.kept i g (by rw [hf]; simp) with ht | ht
        · exact absurd (h.fin i ht) (nf h1 (by simp))
        · rw [h1] at ht; exact absurd rfl ht
    have hsh := afterCall_shape c
    have hnf : afterCall c ≠ .finished := by rcases hsh with ⟨e, he⟩ | ⟨a, b, c, he⟩ <;> rw [he] <;> simp
    refine ⟨t, told_upd h s.st _ _ _ _ (nf h1 (by simp)) hnf (by rw [h1]; intro _ hc; exact absurd rfl hc) ?_ ?_ ?_, fun _ h => h, wrap hnf⟩
    · intro g hx
      exact failure_carry_call _ (by rw [hf g, List.nil_append] at hx; exact hx)
    · intro g pend rest brk err found he
      rcases hsh with ⟨e, hs⟩ | ⟨a, b, c, hs⟩ <;> rw [hs] at he <;> cases he
      exact ⟨(by intro h; cases h), fun h => absurd rfl h⟩
    · intro e he; rcases hsh with ⟨e, hs⟩ | ⟨a, b, c, hs⟩ <;> rw [hs] at he <;> cases he
  | sent i rest brk err found hi h1 =>
    have hsh : afterSent rest brk err found = .breaking found ∨ ((afterSent rest brk err found = .reading ∨ ∃ b bs, afterSent rest brk err found = .sending b bs false false found) ∧ err = false) := by
      unfold afterSent
      split
      · exact .inl rfl
      · rename_i hb
        have he : err = false := by cases err <;> simp_all
        refine .inr ⟨?_, he⟩
        cases rest with
        | nil => exact .inl rfl
        | cons b bs => exact .inr ⟨b, bs, rfl⟩
    have hnf : afterSent rest brk err found ≠ .finished := by rcases hsh with he | ⟨he | ⟨b, bs, he⟩, _⟩ <;> rw [he] <;> simp
    refine ⟨t, told_upd' h _ _ _ (nf h1 (by simp)) hnf ?_ ?_ ?_, fun _ h => h, wrap hnf⟩
    · intro g hc
      rw [h1] at hc
      have hg := h.good _ g _ _ _ _ _ h1
      rcases hsh with he | ⟨_, he⟩
      · rw [he]; exact hc
      · rw [hg.2 hc] at he; cases he
    · intro g _ _ _ _ _ he
      have hg := h.good _ g _ _ _ _ _ h1
      rcases hsh with hs | ⟨hs | ⟨b, bs, hs⟩, hf⟩ <;> rw [hs] at he <;> cases he
      refine ⟨(by intro h; cases h), fun hc => ?_⟩
      rw [hg.2 hc] at hf; cases hf
    · intro e he
      rcases hsh with hs | ⟨hs | ⟨b, bs, hs⟩, hf⟩ <;> rw [hs] at he <;> cases he
  | close i f hi h1 =>
    exact ⟨t, told_upd' h _ _ _ (nf h1 (by simp)) (by simp) (by rw [h1]; exact fun _ h => h) (by intro _ _ _ _ _ _ h; cases h) (by intro _ h; cases h), fun _ h => h, wrap (by simp)⟩
  | forward k e h1 hh hkm hm =>
    refine ⟨fun i => t i ∨ i = N.dst k, told_finish h h1 (held := upd s.held k (some e)) (result := s.result) ?_ ?_ (fun r hr => .inr hr) ?_, fun _ h => .inl h, ?_⟩
    · intro k' hk'
      by_cases e' : k' = k
      · subst e'; exact ⟨rfl, upd_self _ _ _, hm, hkm⟩
      · rw [upd_ne _ _ e'] at hk'; exact absurd rfl hk'
    · exact .inr ⟨k, mem_ins.mpr ⟨hkm, rfl⟩, .inr (.inl (by rw [upd_self]; intro h; cases h))⟩
    · intro hr; exact ⟨hr, by have := (hN.fwd k hkm).1; omega⟩
    · intro j hj
      by_cases e' : j = N.dst k
      · exact .inr (.inl (.inr e'))
      · simp only [upd_ne _ _ e'] at hj; exact .inl hj
  | errHeld k p e ph hkm hm hh hr =>
    have hne := (h.held k e hh).1
    have hcr : carry ph ≠ [] ∧ ph ≠ .finished := by
      rcases recv_shape hr with ⟨_, h2, _⟩ | ⟨f, h1, h2, _⟩ | ⟨pend', rest', brk', err', found', h1, h2, h3⟩
      · rw [h2]; exact ⟨hne, by simp⟩
      · have hfe : f ++ e ≠ [] := fun hx => hne (List.append_eq_nil_iff.mp hx).2
        rw [h2, report_ne hfe]; exact ⟨hfe, by simp⟩
      · rw [h3]; exact ⟨hne, by simp⟩
    have hu := told_recv h hk hr hcr.2
    have hsf : s.phase (N.src k) ≠ .finished := by intro hf; rw [hf] at hr; cases hr
    obtain ⟨a1, a2, a3, a4, a5, a6, a7, a9, a10⟩ := hu
    refine ⟨t, ⟨a1, ?_, ?_, a4, a5, a6, ?_, a9, a10⟩, fun _ h => h, wrap hcr.2⟩
    · intro i hi
      rcases a2 i hi with h | ⟨b1, b2⟩
      · exact .inl h
      · refine .inr ⟨b1, fun k' hk' => ⟨(b2 k' hk').1, ?_⟩⟩
        show upd s.held k none k' = none
        rw [upd_apply]
        split
        · rfl
        · exact (b2 k' hk').2
    · intro i hi
      rcases a3 i hi with h | ⟨k', hk', hx⟩
      · exact .inl h
      · refine .inr ⟨k', hk', ?_⟩
        by_cases e' : k' = k
        · subst e'
          refine .inr (.inr (.inr ?_))
          show carry (upd s.phase (N.src k') ph (N.src k')) ≠ []
          rw [upd_self]; exact hcr.1
        · rcases hx with h | h | h
          · exact .inl h
          · refine .inr (.inl ?_)
            show upd s.held k none k' ≠ none
            rw [upd_ne _ _ e']; exact h
          · exact .inr (.inr h)
    · intro k' e1 hk'
      have hk' : upd s.held k none k' = some e1 := hk'
      by_cases e' : k' = k
      · subst e'; rw [upd_self] at hk'; cases hk'
      · rw [upd_ne _ _ e'] at hk'; exact a7 k' e1 hk'
  | errDirect k p e ph hkm hm h1 hr =>
    have hne := h.rep _ e h1
    have hds : N.dst k ≠ N.src k := by have := (hN.fwd k hkm).1; omega
    have hcr : carry ph ≠ [] ∧ ph ≠ .finished := by
      rcases recv_shape hr with ⟨_, h2, _⟩ | ⟨f, h1, h2, _⟩ | ⟨pend', rest', brk', err', found', h1, h2, h3⟩
      · rw [h2]; exact ⟨hne, by simp⟩
      · have hfe : f ++ e ≠ [] := fun hx => hne (List.append_eq_nil_iff.mp hx).2
        rw [h2, report_ne hfe]; exact ⟨hfe, by simp⟩
      · rw [h3]; exact ⟨hne, by simp⟩
    have hu := told_recv h hk hr hcr.2
    have h1' : upd s.phase (N.src k) ph (N.dst k) = .reporting e := by rw [upd_ne _ _ hds]; exact h1
    refine ⟨fun i => t i ∨ i = N.dst k, told_finish hu h1' (held := s.held) (result := s.result) (fun k hk' => absurd rfl hk') ?_ (fun r hr => .inr hr) ?_, fun _ h => .inl h, ?_⟩
    · refine .inr ⟨k, mem_ins.mpr ⟨hkm, rfl⟩, .inr (.inr (.inr ?_))⟩
      simp only [upd_self]; exact hcr.1
    · intro hr; exact ⟨hr, by have := (hN.fwd k hkm).1; omega⟩
    · intro j hj
      by_cases e' : j = N.dst k
      · exact .inr (.inl (.inr e'))
      · simp only [upd_ne _ _ e'] at hj
        rcases wrap hcr.2 j hj with h | h | h
        · exact .inl h
        · exact .inr (.inl (.inl h))
        · exact .inr (.inr h)
  | errNil i p ph hi hn hr =>
    by_cases hf : ph = .finished
    · subst hf
      have hw : s.phase i = .waiting [] := by
        rcases recv_shape hr with ⟨_, h2, _⟩ | ⟨f, h1, h2, _⟩ | ⟨pend', rest', brk', err', found', h1, h2, h3⟩
        · cases h2
        · cases f with
          | nil => exact h1
          | cons a l => cases h2
        · cases h3
      refine ⟨t, told_quiet h hw hn, fun _ h => h, ?_⟩
      intro j hj
      by_cases e' : j = i
      · subst e'; exact .inr (.inr hw)
      · simp only [upd_ne _ _ e'] at hj; exact .inl hj
    · refine ⟨t, told_recv h hk hr hf, fun _ h => h, wrap hf⟩
  | waitErr e hres h1 =>
    refine ⟨fun i => t i ∨ i = 0, told_finish h h1 (held := s.held) (result := some e) (fun k hk' => absurd rfl hk') (.inl rfl) ?_ (by intro h; cases h), fun _ h => .inl h, ?_⟩
    · intro r hr; cases hr; exact .inl ⟨rfl, h.rep _ _ h1⟩
    · intro j hj
      by_cases e' : j = 0
      · exact .inr (.inl (.inr e'))
      · simp only [upd_ne _ _ e'] at hj; exact .inl hj
  | waitNil hres h1 =>
    obtain ⟨a1, a2, a3, a4, a5, a6, a7, a9, a10⟩ := h
    refine ⟨t, ⟨a1, a2, a3, a4, a5, a6, a7, ?_, (by intro h; cases h)⟩, fun _ h => h, fun _ h => .inl h⟩
    intro r hr
    cases hr
    exact ⟨h1, fun h => absurd rfl h, fun h => absurd h (a10 hres)⟩

end Fpki.Pipe
