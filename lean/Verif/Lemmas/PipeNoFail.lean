import Verif.Lemmas.Pipe
/-! # Pipelines in which no function fails: invariants, progress. -/
namespace Fpki.Pipe
open Fpki.Stage (Mode)

variable {α σ : Type}

/-! ## What all batches satisfy -/

abbrev Batch (α : Type) := List (Nat × α)

def CallAll (B : Batch α → Prop) (c : Call α) : Prop := ∀ b ∈ c.batches, B b

structure NetAll (B : Nat → Batch α → Prop) (N : Net α σ) (script : List (Call α)) : Prop where
  process : ∀ i s v, CallAll (B i) ((N.fn i).process s v).2
  finish : ∀ i s, CallAll (B i) ((N.fn i).finish s).2
  script : ∀ c ∈ script, CallAll (B 0) c

/-- Closed under giving up or sending one output. -/
structure Hereditary (B : Batch α → Prop) : Prop where
  nil : B []
  erase : ∀ b p, B b → B (b.eraseIdx p)

def PhaseAll (B : Batch α → Prop) : Phase α → Prop
  | .sending pend rest _ _ _ => B pend ∧ ∀ b ∈ rest, B b
  | .producing c => CallAll B c
  | _ => True

theorem callAll_head {B : Batch α → Prop} (hB : Hereditary B) {c : Call α} (h : CallAll B c) : B (c.batches.headD []) := by
  cases hb : c.batches with
  | nil => simpa using hB.nil
  | cons b bs => exact h b (by rw [hb]; exact List.mem_cons_self ..)

theorem phaseAll_afterCall {B : Batch α → Prop} (hB : Hereditary B) {c : Call α} (h : CallAll B c) : PhaseAll B (afterCall c) := by
  unfold afterCall
  split
  · trivial
  · exact ⟨callAll_head hB h, by intro b hb; cases hb⟩
  · exact ⟨callAll_head hB h, fun b hb => h b (List.mem_of_mem_tail hb)⟩

theorem phaseAll_afterEnd {B : Batch α → Prop} (hB : Hereditary B) {c : Call α} (h : CallAll B c) : PhaseAll B (afterEnd c) := by
  unfold afterEnd
  split
  · trivial
  · exact ⟨callAll_head hB h, by intro b hb; cases hb⟩

theorem phaseAll_recv {B : Batch α → Prop} (hB : Hereditary B) {m : Mode} {ph ph' : Phase α} {e : List Nat} {p : Nat} (h : recv m ph e p = some ph') (hp : PhaseAll B ph) :
    PhaseAll B ph' := by
  cases ph with
  | reading => simp only [recv] at h; split at h <;> cases h; trivial
  | waiting f => simp only [recv] at h; split at h <;> cases h; cases f ++ e <;> trivial
  | sending pend rest brk err found =>
    simp only [recv] at h
    split at h <;> cases h
    refine ⟨?_, hp.2⟩
    unfold dropAt
    split
    · exact hB.nil
    · exact hB.erase _ _ hp.1
  | processing v => cases h
  | producing c => cases h
  | breaking f => cases h
  | reporting e => cases h
  | finished => cases h

structure AllInv (B : Nat → Batch α → Prop) (s : St α σ) : Prop where
  phase : ∀ i, PhaseAll (B i) (s.phase i)
  script : ∀ c ∈ s.script, CallAll (B 0) c

theorem forall_upd {β : Type} {P : Nat → β → Prop} {f : Nat → β} {i : Nat} {v : β} (h : ∀ j, P j (f j)) (hv : P i v) : ∀ j, P j (upd f i v j) := by
  intro j
  rw [upd_apply]
  split
  · rename_i e; rw [e]; exact hv
  · exact h j

theorem allInv_step {B : Nat → Batch α → Prop} (hB : ∀ i, Hereditary (B i)) {N : Net α σ} {script : List (Call α)} (hN : NetAll B N script) {s s' : St α σ}
    (h : AllInv B s) (hs : Step N s s') : AllInv B s' := by
  obtain ⟨h1, h2⟩ := h
  cases hs with
  | pollEnd h hs => exact ⟨forall_upd (P := fun i ph => PhaseAll (B i) ph) h1 trivial, h2⟩
  | poll c cs h hs =>
    refine ⟨forall_upd (P := fun i ph => PhaseAll (B i) ph) h1 (h2 c (by rw [hs]; exact List.mem_cons_self ..)), fun c' hc' => h2 c' (by rw [hs]; exact List.mem_cons_of_mem _ hc')⟩
  | push k p pend rest brk err found v h hsl hp hk ha hm =>
    have := h1 (N.src k); rw [h] at this
    exact ⟨forall_upd (P := fun i ph => PhaseAll (B i) ph) h1 ⟨(hB _).erase _ _ this.1, this.2⟩, h2⟩
  | direct k p pend rest brk err found v h hd hp hk ha hm =>
    have := h1 (N.src k); rw [h] at this
    exact ⟨forall_upd (P := fun i ph => PhaseAll (B i) ph) (forall_upd (P := fun i ph => PhaseAll (B i) ph) h1 ⟨(hB _).erase _ _ this.1, this.2⟩) trivial, h2⟩
  | pull k v h hsl hk => exact ⟨forall_upd (P := fun i ph => PhaseAll (B i) ph) h1 trivial, h2⟩
  | closed j h h0 hj hc => exact ⟨forall_upd (P := fun i ph => PhaseAll (B i) ph) h1 trivial, h2⟩
  | callSome i v hi h => exact ⟨forall_upd (P := fun i ph => PhaseAll (B i) ph) h1 (phaseAll_afterCall (hB i) (hN.process i _ _)), h2⟩
  | callSrc hi h => exact ⟨forall_upd (P := fun i ph => PhaseAll (B i) ph) h1 ⟨(hB 0).nil, by intro b hb; cases hb⟩, h2⟩
  | callEnd i hi h0 h => exact ⟨forall_upd (P := fun i ph => PhaseAll (B i) ph) h1 (phaseAll_afterEnd (hB i) (hN.finish i _)), h2⟩
  | callProd i c hi h =>
    have := h1 i; rw [h] at this
    exact ⟨forall_upd (P := fun i ph => PhaseAll (B i) ph) h1 (phaseAll_afterCall (hB i) this), h2⟩
  | sent i rest brk err found hi h =>
    have := h1 i; rw [h] at this
    refine ⟨forall_upd (P := fun i ph => PhaseAll (B i) ph) h1 ?_, h2⟩
    unfold afterSent
    split
    · trivial
    · cases rest with
      | nil => trivial
      | cons b bs => exact ⟨this.2 b (List.mem_cons_self ..), fun b' hb' => this.2 b' (List.mem_cons_of_mem _ hb')⟩
  | close i f hi h => exact ⟨forall_upd (P := fun i ph => PhaseAll (B i) ph) h1 trivial, h2⟩
  | forward k e h hh hk hm => exact ⟨forall_upd (P := fun i ph => PhaseAll (B i) ph) h1 trivial, h2⟩
  | errHeld k p e ph hk hm hh hr => exact ⟨forall_upd (P := fun i ph => PhaseAll (B i) ph) h1 (phaseAll_recv (hB _) hr (h1 _)), h2⟩
  | errDirect k p e ph hk hm h hr =>
    exact ⟨forall_upd (P := fun i ph => PhaseAll (B i) ph) (forall_upd (P := fun i ph => PhaseAll (B i) ph) h1 (phaseAll_recv (hB _) hr (h1 _))) trivial, h2⟩
  | errNil i p ph hi hn hr => exact ⟨forall_upd (P := fun i ph => PhaseAll (B i) ph) h1 (phaseAll_recv (hB _) hr (h1 _)), h2⟩
  | waitErr e hres h => exact ⟨forall_upd (P := fun i ph => PhaseAll (B i) ph) h1 trivial, h2⟩
  | waitNil hres h => exact ⟨h1, h2⟩

theorem allInv_init {B : Nat → Batch α → Prop} {N : Net α σ} {script : List (Call α)} (hN : NetAll B N script) (s0 : Nat → σ) : AllInv B (St.init s0 script : St α σ) :=
  ⟨fun _ => trivial, hN.script⟩

/-- Outputs go to the stage's own channels. -/
def Own (N : Net α σ) (i : Nat) (b : Batch α) : Prop := ∀ x ∈ b, x.1 < N.m ∧ N.src x.1 = i

theorem own_hereditary (N : Net α σ) (i : Nat) : Hereditary (Own N i : Batch α → Prop) :=
  ⟨(by intro x hx; cases hx), fun b p h x hx => h x (List.mem_of_mem_eraseIdx hx)⟩

/-! ## Extremal stages -/

theorem least_or {P : Nat → Prop} (n : Nat) : (∀ i < n, P i) ∨ ∃ i < n, ¬ P i ∧ ∀ j < i, P j := by
  induction n with
  | zero => exact .inl (by intro i hi; omega)
  | succ n ih =>
    rcases ih with h | ⟨i, hi, h1, h2⟩
    · by_cases hp : P n
      · refine .inl (fun i hi => ?_)
        by_cases e : i = n
        · rw [e]; exact hp
        · exact h i (by omega)
      · exact .inr ⟨n, by omega, hp, h⟩
    · exact .inr ⟨i, by omega, h1, h2⟩

theorem greatest_or {P : Nat → Prop} (n : Nat) : (∀ i < n, P i) ∨ ∃ i < n, ¬ P i ∧ ∀ j, i < j → j < n → P j := by
  induction n with
  | zero => exact .inl (by intro i hi; omega)
  | succ n ih =>
    by_cases hp : P n
    · rcases ih with h | ⟨i, hi, h1, h2⟩
      · refine .inl (fun i hi => ?_)
        by_cases e : i = n
        · rw [e]; exact hp
        · exact h i (by omega)
      · refine .inr ⟨i, by omega, h1, fun j hij hj => ?_⟩
        by_cases e : j = n
        · rw [e]; exact hp
        · exact h2 j hij (by omega)
    · exact .inr ⟨n, by omega, hp, by intro j h1 h2; omega⟩

/-! ## No failure -/

/-- No function fails, none says `NoMoreData` before the end of its input. -/
structure NoFail (N : Net α σ) (script : List (Call α)) : Prop where
  process : ∀ i s v, ((N.fn i).process s v).2.outcome = .go
  finish : ∀ i s e, ((N.fn i).finish s).2.outcome ≠ .fail e
  script : ∀ c ∈ script, c.outcome = .go

/-- The stage has seen the end of its input. -/
def ended : Phase α → Bool
  | .processing none => true
  | .sending _ _ true _ _ => true
  | .breaking _ => true
  | .waiting _ => true
  | .reporting _ => true
  | .finished => true
  | _ => false

/-- No error anywhere in the stage. -/
def calm : Phase α → Prop
  | .producing c => c.outcome = .go
  | .sending _ _ _ err found => err = false ∧ found = []
  | .breaking f => f = []
  | .waiting f => f = []
  | .reporting _ => False
  | _ => True

structure NF (N : Net α σ) (s : St α σ) : Prop where
  held : ∀ k, s.held k = none
  calm : ∀ i, calm (s.phase i)
  script : ∀ c ∈ s.script, c.outcome = .go
  ended : ∀ j, ended (s.phase j) = true → ∀ k ∈ N.ins j, (s.phase (N.src k)).outClosed = true ∧ s.slot k = none
  finished : ∀ i, s.phase i = .finished → ∀ k ∈ N.outs i, s.phase (N.dst k) = .finished
  result : ∀ r, s.result = some r → r = [] ∧ s.phase 0 = .finished
  fails : ∀ i, s.fails i = []

theorem nf_init {N : Net α σ} {script : List (Call α)} (h : NoFail N script) (s0 : Nat → σ) : NF N (St.init s0 script : St α σ) :=
  ⟨fun _ => rfl, fun _ => trivial, h.script, (by intro j h; cases h), (by intro i h; cases h), (by intro r h; cases h), fun _ => rfl⟩

theorem outClosed_ended {ph : Phase α} (h : ph.outClosed = true) : ended ph = true := by
  cases ph <;> simp_all [Phase.outClosed, ended]

/-- A change of the phase of stage `i` alone. -/
theorem nf_upd {N : Net α σ} {s : St α σ} (h : NF N s) (hN : N.WF) {i : Nat} {ph : Phase α} (st : Nat → σ) (script : List (Call α)) (fails : Nat → List Nat)
    (hscript : ∀ c ∈ script, c.outcome = .go) (hcalm : Fpki.Pipe.calm ph) (hclosed : (s.phase i).outClosed = true → ph.outClosed = true)
    (hended : Fpki.Pipe.ended ph = true → Fpki.Pipe.ended (s.phase i) = true ∨ ∀ k ∈ N.ins i, (s.phase (N.src k)).outClosed = true ∧ s.slot k = none)
    (hfin : ph = .finished → ∀ k ∈ N.outs i, s.phase (N.dst k) = .finished) (hnf : s.phase i ≠ .finished) (hfails : ∀ i, fails i = []) :
    NF N { s with phase := upd s.phase i ph, st := st, script := script, fails := fails } := by
  obtain ⟨a1, a2, a3, a4, a5, a6, a7⟩ := h
  have mono : ∀ j, (s.phase j).outClosed = true → (upd s.phase i ph j).outClosed = true := by
    intro j hj
    rw [upd_apply]
    split
    · rename_i e; rw [e] at hj; exact hclosed hj
    · exact hj
  have monof : ∀ j, s.phase j = .finished → upd s.phase i ph j = .finished := by
    intro j hj
    rw [upd_ne]
    · exact hj
    · intro e; rw [e] at hj; exact hnf hj
  refine ⟨a1, forall_upd (P := fun _ ph => Fpki.Pipe.calm ph) a2 hcalm, hscript, ?_, ?_, ?_, hfails⟩
  · intro j hj k hk
    have : (s.phase (N.src k)).outClosed = true ∧ s.slot k = none := by
      by_cases e : j = i
      · subst e
        simp only [upd_self] at hj
        rcases hended hj with h | h
        · exact a4 j h k hk
        · exact h k hk
      · simp only [upd_ne _ _ e] at hj
        exact a4 j hj k hk
    exact ⟨mono _ this.1, this.2⟩
  · intro j hj k hk
    by_cases e : j = i
    · subst e
      simp only [upd_self] at hj
      exact monof _ (hfin hj k hk)
    · simp only [upd_ne _ _ e] at hj
      exact monof _ (a5 j hj k hk)
  · intro r hr
    exact ⟨(a6 r hr).1, monof 0 (a6 r hr).2⟩

theorem nilReady_out {N : Net α σ} {s : St α σ} {i : Nat} (h : nilReady N s i = true) :
    ∀ k ∈ N.outs i, s.phase (N.dst k) = .finished ∧ s.held k = none := by
  intro k hk
  simp only [nilReady, Bool.and_eq_true, List.all_eq_true] at h
  have := h.2 k hk
  refine ⟨?_, by simpa using this.2⟩
  have := this.1
  cases hp : s.phase (N.dst k) <;> simp [hp, Phase.isFinished] at this ⊢

/-- Only a waiting stage can see its error channel closed. -/
theorem nf_nil {N : Net α σ} {s : St α σ} (h : NF N s) {i p : Nat} {ph : Phase α} (hn : nilReady N s i = true) (hr : recv (N.mode i) (s.phase i) [] p = some ph) :
  s.phase i = .waiting [] ∧ ph = .finished := by
  obtain ⟨a1, a2, a3, a4, a5, a6, a7⟩ := h
  have hw : ∃ f, s.phase i = .waiting f := by
    have hfin := nilReady_out hn
    cases hp : s.phase i with
    | waiting f => exact ⟨f, rfl⟩
    | _ =>
      exfalso
      simp only [nilReady, hp, Phase.isWaiting, Bool.or_false, Bool.and_eq_true, bne_iff_ne, ne_eq] at hn
      obtain ⟨k, hk⟩ := List.exists_mem_of_ne_nil _ hn.1
      have he := a4 (N.dst k) (by rw [(hfin k hk).1]; rfl) k (mem_ins.mpr ⟨(mem_outs.mp hk).1, rfl⟩)
      rw [(mem_outs.mp hk).2, hp] at he
      first
      | (simp [recv, hp] at hr; done)
      | exact absurd he.1 (by simp [Phase.outClosed])
  obtain ⟨f, hw⟩ := hw
  have hc := a2 i; rw [hw] at hc
  simp only [Fpki.Pipe.calm] at hc
  subst hc
  rw [hw] at hr
  simp only [recv, List.append_nil, report] at hr
  split at hr
  · cases hr
    exact ⟨hw, rfl⟩
  · cases hr

theorem nf_step {N : Net α σ} (hN : N.WF) {script : List (Call α)} (hF : NoFail N script) {s s' : St α σ} (h : NF N s) (hs : Step N s s') : NF N s' := by
  have hh := h
  obtain ⟨a1, a2, a3, a4, a5, a6, a7⟩ := h
  have ins0 : ∀ k ∈ N.ins 0, False := by
    intro k hk
    obtain ⟨h1, h2⟩ := mem_ins.mp hk
    have := (hN.fwd k h1).1
    omega
  cases hs with
  | pollEnd h hs =>
    exact nf_upd hh hN s.st s.script s.fails a3 trivial (by rw [h]; intro h; cases h) (fun _ => .inr (fun k hk => (ins0 k hk).elim)) (by intro h; cases h) (by rw [h]; intro h; cases h) a7
  | poll c cs h hs =>
    have hc : c.outcome = .go := a3 c (by rw [hs]; exact List.mem_cons_self ..)
    exact nf_upd hh hN s.st cs s.fails (fun c' hc' => a3 c' (by rw [hs]; exact List.mem_cons_of_mem _ hc')) hc (by rw [h]; intro h; cases h) (by intro h; cases h)
      (by intro h; cases h) (by rw [h]; intro h; cases h) a7
  | push k p pend rest brk err found v h hsl hp hk ha hm =>
    have hc := a2 (N.src k); rw [h] at hc
    have hu := nf_upd hh hN (i := N.src k) (ph := .sending (pend.eraseIdx p) rest brk err found) s.st s.script s.fails a3 hc (by rw [h]; intro h; cases h)
      (by intro e; left; rw [h]; cases brk <;> exact e) (by intro h; cases h) (by rw [h]; intro h; cases h) a7
    obtain ⟨b1, b2, b3, b4, b5, b6, b7⟩ := hu
    refine ⟨b1, b2, b3, ?_, b5, b6, b7⟩
    intro j hj k' hk'
    have := b4 j hj k' hk'
    refine ⟨this.1, ?_⟩
    show upd s.slot k (some v) k' = none
    rw [upd_ne]
    · exact this.2
    · intro e; subst e
      have := this.1
      simp only [upd_self] at this
      cases this
  | direct k p pend rest brk err found v h hd hp hk ha hm =>
    have hc := a2 (N.src k); rw [h] at hc
    have hu := nf_upd hh hN (i := N.src k) (ph := .sending (pend.eraseIdx p) rest brk err found) s.st s.script s.fails a3 hc (by rw [h]; intro h; cases h)
      (by intro e; left; rw [h]; cases brk <;> exact e) (by intro h; cases h) (by rw [h]; intro h; cases h) a7
    have hne : N.dst k ≠ N.src k := by have := (hN.fwd k hk).1; omega
    have hd' : upd s.phase (N.src k) (.sending (pend.eraseIdx p) rest brk err found) (N.dst k) = .reading := by rw [upd_ne _ _ hne]; exact hd
    have hv := nf_upd hu hN (i := N.dst k) (ph := .processing (some v)) s.st s.script s.fails a3 trivial (by intro e; simp only [hd'] at e; cases e) (by intro h; cases h) (by intro h; cases h)
      (by simp only [hd']; intro h; cases h) a7
    obtain ⟨b1, b2, b3, b4, b5, b6, b7⟩ := hv
    exact ⟨b1, b2, b3, b4, b5, b6, b7⟩
  | pull k v h hsl hk =>
    have hv := nf_upd hh hN (i := N.dst k) (ph := .processing (some v)) s.st s.script s.fails a3 trivial (by rw [h]; intro h; cases h) (by intro h; cases h) (by intro h; cases h)
      (by rw [h]; intro h; cases h) a7
    obtain ⟨b1, b2, b3, b4, b5, b6, b7⟩ := hv
    refine ⟨b1, b2, b3, ?_, b5, b6, b7⟩
    intro j hj k' hk'
    have := b4 j hj k' hk'
    refine ⟨this.1, ?_⟩
    show upd s.slot k none k' = none
    rw [upd_apply]
    split
    · rfl
    · exact this.2
  | closed j h h0 hj hc =>
    refine nf_upd hh hN s.st s.script s.fails a3 trivial (by rw [h]; intro h; cases h) (fun _ => .inr (fun k hk => ?_)) (by intro h; cases h) (by rw [h]; intro h; cases h) a7
    simp only [inClosed, List.all_eq_true, Bool.and_eq_true] at hc
    exact ⟨(hc k hk).1, by simpa using (hc k hk).2⟩
  | callSome i v hi h =>
    have ho := hF.process i (s.st i) v
    refine nf_upd hh hN _ s.script _ a3 ?_ (by rw [h]; intro h; cases h) ?_ ?_ (by rw [h]; intro h; cases h) ?_
    · simp only [afterCall, ho]; exact ⟨rfl, rfl⟩
    · simp only [afterCall, ho]; intro h; cases h
    · simp only [afterCall, ho]; intro h; cases h
    · exact forall_upd (P := fun _ l => l = []) a7 (by simp [a7 i, Call.failure, ho])
  | callSrc hi h =>
    exact nf_upd hh hN s.st s.script s.fails a3 ⟨rfl, rfl⟩ (by rw [h]; intro h; cases h) (fun _ => .inl (by rw [h]; rfl)) (by intro h; cases h) (by rw [h]; intro h; cases h) a7
  | callEnd i hi h0 h =>
    have ho := hF.finish i (s.st i)
    have he : afterEnd ((N.fn i).finish (s.st i)).2 = .sending (((N.fn i).finish (s.st i)).2.batches.headD []) [] true false [] := by
      unfold afterEnd
      split
      · rename_i e he; exact absurd he (ho e)
      · rfl
    refine nf_upd hh hN _ s.script _ a3 ?_ (by rw [h]; intro h; cases h) (fun _ => .inl (by rw [h]; rfl)) ?_ (by rw [h]; intro h; cases h) ?_
    · rw [he]; exact ⟨rfl, rfl⟩
    · rw [he]; intro h; cases h
    · refine forall_upd (P := fun _ l => l = []) a7 ?_
      rw [a7 i]
      unfold Call.failure
      split
      · rename_i e he; exact absurd he (ho e)
      · rfl
  | callProd i c hi h =>
    have ho := a2 i; rw [h] at ho
    simp only [Fpki.Pipe.calm] at ho
    refine nf_upd hh hN s.st s.script _ a3 ?_ (by rw [h]; intro h; cases h) ?_ ?_ (by rw [h]; intro h; cases h) ?_
    · simp only [afterCall, ho]; exact ⟨rfl, rfl⟩
    · simp only [afterCall, ho]; intro h; cases h
    · simp only [afterCall, ho]; intro h; cases h
    · exact forall_upd (P := fun _ l => l = []) a7 (by simp [a7 i, Call.failure, ho])
  | sent i rest brk err found hi h =>
    have hc := a2 i; rw [h] at hc
    obtain ⟨c1, c2⟩ := hc
    subst c1; subst c2
    refine nf_upd hh hN s.st s.script s.fails a3 ?_ (by rw [h]; intro h; cases h) ?_ ?_ (by rw [h]; intro h; cases h) a7
    · unfold afterSent
      split
      · rfl
      · cases rest with
        | nil => trivial
        | cons b bs => exact ⟨rfl, rfl⟩
    · rw [h]
      cases brk with
      | true => intro _; left; rfl
      | false => cases rest <;> intro h <;> cases h
    · unfold afterSent
      split
      · intro h; cases h
      · cases rest <;> intro h <;> cases h
  | close i f hi h =>
    have hc := a2 i; rw [h] at hc
    exact nf_upd hh hN s.st s.script s.fails a3 hc (by intro _; rfl) (fun _ => .inl (by rw [h]; rfl)) (by intro h; cases h) (by rw [h]; intro h; cases h) a7
  | forward k e h hh' hk hm => have := a2 (N.dst k); rw [h] at this; exact this.elim
  | errHeld k p e ph hk hm hh' hr => rw [a1 k] at hh'; cases hh'
  | errDirect k p e ph hk hm h hr => have := a2 (N.dst k); rw [h] at this; exact this.elim
  | errNil i p ph hi hn hr =>
    obtain ⟨hw, e⟩ := nf_nil hh hn hr
    subst e
    exact nf_upd hh hN s.st s.script s.fails a3 trivial (fun _ => rfl) (fun _ => .inl (by rw [hw]; rfl)) (fun _ k hk => (nilReady_out hn k hk).1) (by rw [hw]; intro h; cases h) a7
  | waitErr e hres h => have := a2 0; rw [h] at this; exact this.elim
  | waitNil hres h => exact ⟨a1, a2, a3, a4, a5, (by intro r hr; cases hr; exact ⟨rfl, h⟩), a7⟩

/-! ## Progress -/

/-- Something can happen. -/
def CanStep (N : Net α σ) (s : St α σ) : Prop := ∃ ev, (exec N s ev).isSome = true

theorem canStep_active {N : Net α σ} {s : St α σ} {i : Nat} (hi : i < N.n) (h : (∃ v, s.phase i = .processing v) ∨ (∃ c, s.phase i = .producing c) ∨ (∃ f, s.phase i = .breaking f) ∨
    ∃ rest brk err found, s.phase i = .sending [] rest brk err found) : CanStep N s := by
  rcases h with ⟨v, h⟩ | ⟨c, h⟩ | ⟨f, h⟩ | ⟨rest, brk, err, found, h⟩
  · refine ⟨.call i, ?_⟩
    cases v with
    | some v => simp [exec, hi, h]
    | none => simp only [exec, hi, h, if_true]; split <;> rfl
  · exact ⟨.call i, by simp [exec, hi, h]⟩
  · exact ⟨.close i, by simp [exec, hi, h]⟩
  · exact ⟨.sent i, by simp [exec, hi, h]⟩

theorem allowed_zero (m : Mode) : allowed m 0 = true := by simp [allowed]

theorem canStep_push {N : Net α σ} {s : St α σ} {k : Nat} {v : α} {ps : List (Nat × α)} {rest : List (List (Nat × α))} {brk err : Bool} {found : List Nat} (hk : k < N.m)
    (h : s.phase (N.src k) = .sending ((k, v) :: ps) rest brk err found) (hm : N.multiIn (N.dst k) = true) (hs : s.slot k = none) : CanStep N s :=
  ⟨.push k 0, by simp [exec, h, hs, hk, allowed_zero, hm]⟩

theorem canStep_direct {N : Net α σ} {s : St α σ} {k : Nat} {v : α} {ps : List (Nat × α)} {rest : List (List (Nat × α))} {brk err : Bool} {found : List Nat} (hk : k < N.m)
    (h : s.phase (N.src k) = .sending ((k, v) :: ps) rest brk err found) (hm : N.multiIn (N.dst k) = false) (hd : s.phase (N.dst k) = .reading) : CanStep N s :=
  ⟨.direct k 0, by simp [exec, h, hd, hk, allowed_zero, hm]⟩

theorem canStep_pull {N : Net α σ} {s : St α σ} {k : Nat} {v : α} (hk : k < N.m) (hd : s.phase (N.dst k) = .reading) (hs : s.slot k = some v) : CanStep N s :=
  ⟨.pull k, by simp [exec, hd, hs, hk]⟩

/-- A stage that is not at its select, nor after its end, can go on, or one of those after it can. -/
theorem nf_busy {N : Net α σ} (hN : N.WF) {s : St α σ} (h : NF N s) (ho : ∀ i, PhaseAll (Own N i) (s.phase i)) :
    ∀ d i, N.n - i = d → i < N.n → s.phase i ≠ .reading → (s.phase i).outClosed = false → CanStep N s := by
  intro d
  induction d using Nat.strongRecOn with
  | _ d ih =>
    intro i hd hi hr hc
    cases hp : s.phase i with
    | reading => exact absurd hp hr
    | processing v => exact canStep_active hi (.inl ⟨v, hp⟩)
    | producing c => exact canStep_active hi (.inr (.inl ⟨c, hp⟩))
    | breaking f => exact canStep_active hi (.inr (.inr (.inl ⟨f, hp⟩)))
    | waiting f => rw [hp] at hc; cases hc
    | reporting f => rw [hp] at hc; cases hc
    | finished => rw [hp] at hc; cases hc
    | sending pend rest brk err found =>
      cases pend with
      | nil => exact canStep_active hi (.inr (.inr (.inr ⟨rest, brk, err, found, hp⟩)))
      | cons x ps =>
        obtain ⟨k, v⟩ := x
        have hown := ho i
        rw [hp] at hown
        obtain ⟨hk, hsrc⟩ := hown.1 (k, v) (List.mem_cons_self ..)
        simp only at hk hsrc
        have hf := hN.fwd k hk
        -- the next stage has not ended
        have hne : ended (s.phase (N.dst k)) = false := by
          cases he : ended (s.phase (N.dst k)) with
          | false => rfl
          | true =>
            have := (h.ended _ he k (mem_ins.mpr ⟨hk, rfl⟩)).1
            rw [hsrc, hp] at this
            cases this
        have hcl : (s.phase (N.dst k)).outClosed = false := by
          cases hcl : (s.phase (N.dst k)).outClosed with
          | false => rfl
          | true => rw [outClosed_ended hcl] at hne; cases hne
        by_cases hrd : s.phase (N.dst k) = .reading
        · cases hm : N.multiIn (N.dst k) with
          | false => exact canStep_direct hk (by rw [hsrc]; exact hp) hm hrd
          | true =>
            cases hs : s.slot k with
            | none => exact canStep_push hk (by rw [hsrc]; exact hp) hm hs
            | some w => exact canStep_pull hk hrd hs
        · exact ih (N.n - N.dst k) (by omega) (N.dst k) rfl hf.2 hrd hcl

theorem nf_progress {N : Net α σ} (hN : N.WF) {s : St α σ} (h : NF N s) (ho : ∀ i, PhaseAll (Own N i) (s.phase i)) (hres : s.result = none) : CanStep N s := by
  rcases least_or (P := fun i => (s.phase i).outClosed = true) N.n with hall | ⟨i, hi, hni, hlt⟩
  · rcases greatest_or (P := fun i => s.phase i = .finished) N.n with hfin | ⟨i, hi, hni, hgt⟩
    · exact ⟨.wait, by simp [exec, hres, hfin 0 hN.pos]⟩
    · have hw : ∃ f, s.phase i = .waiting f := by
        have hc := hall i hi
        have hcalm := h.calm i
        cases hp : s.phase i with
        | waiting f => exact ⟨f, rfl⟩
        | finished => exact absurd hp hni
        | reporting e => rw [hp] at hcalm; exact hcalm.elim
        | _ => simp only [hp] at hc; cases hc
      obtain ⟨f, hw⟩ := hw
      refine ⟨.errNil i 0, ?_⟩
      have hnr : nilReady N s i = true := by
        simp only [nilReady, hw, Phase.isWaiting, Bool.or_true, Bool.true_and, List.all_eq_true, Bool.and_eq_true]
        intro k hk
        obtain ⟨k1, k2⟩ := mem_outs.mp hk
        have := hN.fwd k k1
        rw [hgt (N.dst k) (by omega) this.2, h.held k]
        exact ⟨rfl, rfl⟩
      simp [exec, hi, hnr, recv, hw]
  · by_cases hr : s.phase i = .reading
    · by_cases h0 : i = 0
      · subst h0
        refine ⟨.poll, ?_⟩
        cases hs : s.script <;> simp [exec, hr, hs]
      · by_cases hsl : ∃ k ∈ N.ins i, s.slot k ≠ none
        · obtain ⟨k, hk, hks⟩ := hsl
          obtain ⟨k1, k2⟩ := mem_ins.mp hk
          cases hs : s.slot k with
          | none => exact absurd hs hks
          | some v => exact canStep_pull k1 (by rw [k2]; exact hr) hs
        · refine ⟨.closed i, ?_⟩
          have hic : inClosed N s i = true := by
            simp only [inClosed, List.all_eq_true, Bool.and_eq_true]
            intro k hk
            obtain ⟨k1, k2⟩ := mem_ins.mp hk
            have := hN.fwd k k1
            refine ⟨hlt (N.src k) (by omega), ?_⟩
            cases hs : s.slot k with
            | none => rfl
            | some v => exact absurd ⟨k, hk, by rw [hs]; intro h; cases h⟩ hsl
          simp [exec, hr, hi, hic, Nat.pos_of_ne_zero h0]
    · exact nf_busy hN h ho _ i rfl hi hr (by simpa using hni)

end Fpki.Pipe
