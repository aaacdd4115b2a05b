import Verif.Lemmas.Layers
import Verif.Lemmas.PipeOut
/-! # Pipelines in layers in which no function fails: no deadlock, and nothing is lost. -/
namespace Fpki.Layers
open Fpki.Stage (Mode)
open Fpki.Pipe (Outcome Call Fn Phase upd afterCall afterEnd afterSent report allowed dropAt recv upd_self upd_ne upd_apply forall_upd Batch ended calm outClosed_ended calls calls_snoc everything
  scriptOuts tight tight_afterCall tight_afterEnd tight_recv head_append_tail_flatten head_of_short todo NodeOk SrcOk allowed_zero least_or greatest_or CallAll PhaseAll Hereditary
  phaseAll_afterCall phaseAll_afterEnd phaseAll_recv)

variable {α σ : Type}

/-! ## Specification -/

/-- No function fails, none says `NoMoreData` before the end of its input. -/
structure NoFail (N : Net α σ) (script : List (Call α)) : Prop where
  process : ∀ i s v, ((N.fn i).process s v).2.outcome = .go
  finish : ∀ i s e, ((N.fn i).finish s).2.outcome ≠ .fail e
  script : ∀ c ∈ script, c.outcome = .go

/-- All batches of all stages have the property. -/
structure NetAll (B : Nat → Batch α → Prop) (N : Net α σ) (script : List (Call α)) : Prop where
  process : ∀ i s v, CallAll (B i) ((N.fn i).process s v).2
  finish : ∀ i s, CallAll (B i) ((N.fn i).finish s).2
  script : ∀ c ∈ script, CallAll (B 0) c

/-- Stages have one channel, number 0, the sinks have none. -/
def Own (N : Net α σ) (i : Nat) (b : Batch α) : Prop := ∀ x ∈ b, x.1 = 0 ∧ N.members (N.layer i + 1) ≠ []

abbrev OwnChannels (N : Net α σ) (script : List (Call α)) : Prop := NetAll (Own N) N script

/-- The end functions do not stream. -/
def EndOnce (N : Net α σ) : Prop := ∀ i s, ((N.fn i).finish s).2.batches.length ≤ 1

/-- All outputs of stage `i`, given what it has received. -/
def produced (N : Net α σ) (s0 : Nat → σ) (script : List (Call α)) (got : Nat → List α) (i : Nat) : List α :=
  (if i = 0 then scriptOuts script else everything (N.fn i) (s0 i) (got i)).map Prod.snd

/-! ## All batches -/

structure AllInv (B : Nat → Batch α → Prop) (s : St α σ) : Prop where
  phase : ∀ i, PhaseAll (B i) (s.phase i)
  script : ∀ c ∈ s.script, CallAll (B 0) c

theorem allInv_init {B : Nat → Batch α → Prop} {N : Net α σ} {script : List (Call α)} (hN : NetAll B N script) (s0 : Nat → σ) : AllInv B (St.init s0 script : St α σ) :=
  ⟨fun _ => trivial, hN.script⟩

theorem allInv_step {B : Nat → Batch α → Prop} (hB : ∀ i, Hereditary (B i)) {N : Net α σ} {script : List (Call α)} (hN : NetAll B N script) {s s' : St α σ}
    (h : AllInv B s) (hs : Step N s s') : AllInv B s' := by
  obtain ⟨h1, h2⟩ := h
  cases hs with
  | pollEnd h hs => exact ⟨forall_upd (P := fun i ph => PhaseAll (B i) ph) h1 trivial, h2⟩
  | poll c cs h hs =>
    exact ⟨forall_upd (P := fun i ph => PhaseAll (B i) ph) h1 (h2 c (by rw [hs]; exact List.mem_cons_self ..)), fun c' hc' => h2 c' (by rw [hs]; exact List.mem_cons_of_mem _ hc')⟩
  | give i j p pend rest brk err found v h hd hp hi hj hl ha =>
    have := h1 i; rw [h] at this
    exact ⟨forall_upd (P := fun i ph => PhaseAll (B i) ph) (forall_upd (P := fun i ph => PhaseAll (B i) ph) h1 ⟨(hB _).erase _ _ this.1, this.2⟩) trivial, h2⟩
  | closed j h h0 hj hc => exact ⟨forall_upd (P := fun i ph => PhaseAll (B i) ph) h1 trivial, h2⟩
  | callSome i v hi h => exact ⟨forall_upd (P := fun i ph => PhaseAll (B i) ph) h1 (phaseAll_afterCall (hB i) (hN.process i _ _)), h2⟩
  | callSrc hi h => exact ⟨forall_upd (P := fun i ph => PhaseAll (B i) ph) h1 ⟨(hB 0).nil, by intro b hb; cases hb⟩, h2⟩
  | callEnd i hi h0 h => exact ⟨forall_upd (P := fun i ph => PhaseAll (B i) ph) h1 (phaseAll_afterEnd (hB i) (hN.finish i _)), h2⟩
  | callProd i c hi h =>
    have := h1 i; rw [h] at this
    exact ⟨forall_upd (P := fun i ph => PhaseAll (B i) ph) h1 (phaseAll_afterCall (hB i) this), h2⟩
  | sent i rest brk err found hi h =>
    have := h1 i; rw [h] at this
    refine ⟨forall_upd (P := fun i ph => PhaseAll (B i) ph) h1 ?_, h2⟩
    unfold afterSent
    split
    · trivial
    · cases rest with
      | nil => trivial
      | cons b bs => exact ⟨this.2 b (List.mem_cons_self ..), fun b' hb' => this.2 b' (List.mem_cons_of_mem _ hb')⟩
  | close i f hi h => exact ⟨forall_upd (P := fun i ph => PhaseAll (B i) ph) h1 trivial, h2⟩
  | report j e h hf h0 hj => exact ⟨forall_upd (P := fun i ph => PhaseAll (B i) ph) h1 trivial, h2⟩
  | relayIn j e hf hr h0 hj => exact ⟨h1, h2⟩
  | errTo i p e r ph hin hr hi hv => exact ⟨forall_upd (P := fun i ph => PhaseAll (B i) ph) h1 (phaseAll_recv (hB _) hv (h1 _)), h2⟩
  | errNil i p ph hi hn hv => exact ⟨forall_upd (P := fun i ph => PhaseAll (B i) ph) h1 (phaseAll_recv (hB _) hv (h1 _)), h2⟩
  | waitErr e hres h => exact ⟨forall_upd (P := fun i ph => PhaseAll (B i) ph) h1 trivial, h2⟩
  | waitNil hres h => exact ⟨h1, h2⟩

theorem own_hereditary (N : Net α σ) (i : Nat) : Hereditary (Own N i : Batch α → Prop) :=
  ⟨(by intro x hx; cases hx), fun b p h x hx => h x (List.mem_of_mem_eraseIdx hx)⟩

/-! ## No failure -/

structure NF (N : Net α σ) (s : St α σ) : Prop where
  fwd : ∀ j, s.fwd j = none
  relay : ∀ l, s.relay l = none
  calm : ∀ i, calm (s.phase i)
  script : ∀ c ∈ s.script, c.outcome = .go
  ended : ∀ j, 0 < j → ended (s.phase j) = true → inClosed N s j = true
  finished : ∀ i, s.phase i = .finished → ∀ j ∈ N.members (N.layer i + 1), s.phase j = .finished
  result : ∀ r, s.result = some r → r = [] ∧ s.phase 0 = .finished
  fails : ∀ i, s.fails i = []

theorem nf_init {N : Net α σ} {script : List (Call α)} (h : NoFail N script) (s0 : Nat → σ) : NF N (St.init s0 script : St α σ) :=
  ⟨fun _ => rfl, fun _ => rfl, fun _ => trivial, h.script, (by intro j _ h; cases h), (by intro i h; cases h), (by intro r h; cases h), fun _ => rfl⟩

theorem inClosed_iff {N : Net α σ} {s : St α σ} {j : Nat} : inClosed N s j = true ↔ ∀ i < N.n, N.layer i = N.layer j - 1 → (s.phase i).outClosed = true := by
  simp only [inClosed, List.all_eq_true, mem_members]
  exact ⟨fun h i h1 h2 => h i ⟨h1, h2⟩, fun h i hi => h i hi.1 hi.2⟩

theorem nf_upd {N : Net α σ} {s : St α σ} (h : NF N s) {i : Nat} {ph : Phase α} (st : Nat → σ) (script : List (Call α)) (got : Nat → List α) (fails : Nat → List Nat)
    (heard : Nat → List (List Nat))
    (hscr : ∀ c ∈ script, c.outcome = .go) (hcalm : Fpki.Pipe.calm ph) (hcl : (s.phase i).outClosed = true → ph.outClosed = true)
    (hend : Fpki.Pipe.ended ph = true → Fpki.Pipe.ended (s.phase i) = true ∨ i = 0 ∨ inClosed N s i = true)
    (hfin : ph = .finished → ∀ j ∈ N.members (N.layer i + 1), s.phase j = .finished) (hnf : s.phase i ≠ .finished) (hfails : ∀ j, fails j = []) :
    NF N { s with phase := upd s.phase i ph, st := st, script := script, got := got, fails := fails, heard := heard } := by
  obtain ⟨a1, a2, a3, a4, a5, a6, a7, a8⟩ := h
  have mono : ∀ k, (s.phase k).outClosed = true → (upd s.phase i ph k).outClosed = true := by
    intro k hk
    rw [upd_apply]
    split
    · rename_i e; rw [e] at hk; exact hcl hk
    · exact hk
  have cmono : ∀ j, inClosed N s j = true → inClosed N { s with phase := upd s.phase i ph, st := st, script := script, got := got, fails := fails, heard := heard } j = true := by
    intro j hj
    rw [inClosed_iff] at hj ⊢
    exact fun k h1 h2 => mono k (hj k h1 h2)
  refine ⟨a1, a2, forall_upd (P := fun _ ph => Fpki.Pipe.calm ph) a3 hcalm, hscr, ?_, ?_, ?_, hfails⟩
  · intro j h0 hj
    by_cases e : j = i
    · subst e
      simp only [upd_self] at hj
      rcases hend hj with h | h | h
      · exact cmono j (a5 j h0 h)
      · omega
      · exact cmono j h
    · simp only [upd_ne _ _ e] at hj
      exact cmono j (a5 j h0 hj)
  · intro k hk j hj
    have hj' : s.phase j = .finished := by
      by_cases e : k = i
      · subst e
        simp only [upd_self] at hk
        exact hfin hk j hj
      · simp only [upd_ne _ _ e] at hk
        exact a6 k hk j hj
    have e : j ≠ i := by intro e; rw [e] at hj'; exact hnf hj'
    simp only [upd_ne _ _ e]; exact hj'
  · intro r hr
    obtain ⟨h1, h2⟩ := a7 r hr
    refine ⟨h1, ?_⟩
    have e : 0 ≠ i := by intro e; rw [← e] at hnf; exact hnf h2
    simp only [upd_ne _ _ e]; exact h2

theorem isFinished_iff {ph : Phase α} : ph.isFinished = true ↔ ph = .finished := by cases ph <;> simp [Phase.isFinished]

theorem nilReady_out {N : Net α σ} {s : St α σ} {i : Nat} (h : nilReady N s i = true) :
    s.relay (N.layer i) = none ∧ ∀ j ∈ N.members (N.layer i + 1), s.phase j = .finished ∧ s.fwd j = none := by
  simp only [nilReady, Bool.and_eq_true, List.all_eq_true] at h
  refine ⟨by simpa using h.1.2, fun j hj => ?_⟩
  have := h.2 j hj
  exact ⟨isFinished_iff.mp this.1, by simpa using this.2⟩

/-- A stage that sees its error channel closed: all stages of the next layer have ended. If these have all seen their inputs closed, it was waiting. -/
theorem nil_waiting {N : Net α σ} {s : St α σ} {i p : Nat} {e : List Nat} {ph : Phase α} (hi : i < N.n)
    (hcl : ∀ j ∈ N.members (N.layer i + 1), s.phase j = .finished → inClosed N s j = true) (hn : nilReady N s i = true) (hr : recv (N.mode i) (s.phase i) e p = some ph) :
    ∃ f, s.phase i = .waiting f ∧ ph = report (f ++ e) := by
  cases hp : s.phase i with
  | waiting f =>
    rw [hp] at hr
    simp only [recv] at hr
    split at hr <;> cases hr
    exact ⟨f, rfl, rfl⟩
  | _ =>
    exfalso
    have hfin := (nilReady_out hn).2
    simp only [nilReady, hp, Phase.isWaiting, Bool.or_false, Bool.and_eq_true, bne_iff_ne, ne_eq] at hn
    obtain ⟨j, hj⟩ := List.exists_mem_of_ne_nil _ hn.1.1
    have he := inClosed_iff.mp (hcl j hj (hfin j hj).1) i hi (by rw [(mem_members.mp hj).2]; omega)
    rw [hp] at he
    first
    | (simp [recv, hp] at hr; done)
    | exact absurd he (by simp [Phase.outClosed])

theorem nf_nil {N : Net α σ} {s : St α σ} (hN : N.WF) (h : NF N s) {i p : Nat} {ph : Phase α} (hi : i < N.n) (hn : nilReady N s i = true)
    (hr : recv (N.mode i) (s.phase i) [] p = some ph) : s.phase i = .waiting [] ∧ ph = .finished := by
  obtain ⟨f, h1, h2⟩ := nil_waiting hi (fun j hj hf => h.ended j (by
    obtain ⟨a, b⟩ := mem_members.mp hj
    rcases Nat.eq_zero_or_pos j with e | e
    · have := (hN.zero j a).mpr e; omega
    · exact e) (by rw [hf]; rfl)) hn hr
  have hc := h.calm i; rw [h1] at hc
  have hc : f = [] := hc
  subst hc
  exact ⟨h1, h2⟩

theorem nf_step {N : Net α σ} (hN : N.WF) {script : List (Call α)} (hF : NoFail N script) {s s' : St α σ} (h : NF N s) (hs : Step N s s') : NF N s' := by
  have hh := h
  obtain ⟨a1, a2, a3, a4, a5, a6, a7, a8⟩ := h
  cases hs with
  | pollEnd h hs =>
    exact nf_upd hh s.st s.script s.got s.fails s.heard a4 trivial (by rw [h]; intro h; cases h) (fun _ => .inr (.inl rfl)) (by intro h; cases h) (by rw [h]; intro h; cases h) a8
  | poll c cs h hs =>
    have hc : c.outcome = .go := a4 c (by rw [hs]; exact List.mem_cons_self ..)
    exact nf_upd hh s.st cs s.got s.fails s.heard (fun c' hc' => a4 c' (by rw [hs]; exact List.mem_cons_of_mem _ hc')) hc (by rw [h]; intro h; cases h) (by intro h; cases h)
      (by intro h; cases h) (by rw [h]; intro h; cases h) a8
  | give i j p pend rest brk err found v h hd hp hi hj hl ha =>
    have hc := a3 i; rw [h] at hc
    have hu := nf_upd hh (i := i) (ph := .sending (pend.eraseIdx p) rest brk err found) s.st s.script s.got s.fails s.heard a4 hc (by rw [h]; intro h; cases h)
      (by intro e; left; rw [h]; cases brk <;> exact e) (by intro h; cases h) (by rw [h]; intro h; cases h) a8
    have hne : j ≠ i := by intro e; subst e; omega
    have hd' : upd s.phase i (.sending (pend.eraseIdx p) rest brk err found) j = .reading := by rw [upd_ne _ _ hne]; exact hd
    exact nf_upd hu (i := j) (ph := .processing (some v)) s.st s.script (upd s.got j (s.got j ++ [v])) s.fails s.heard a4 trivial (by intro e; simp only [hd'] at e; cases e) (by intro h; cases h)
      (by intro h; cases h) (by simp only [hd']; intro h; cases h) a8
  | closed j h h0 hj hc =>
    exact nf_upd hh s.st s.script s.got s.fails s.heard a4 trivial (by rw [h]; intro h; cases h) (fun _ => .inr (.inr hc)) (by intro h; cases h) (by rw [h]; intro h; cases h) a8
  | callSome i v hi h =>
    have ho := hF.process i (s.st i) v
    refine nf_upd hh _ s.script s.got _ s.heard a4 ?_ (by rw [h]; intro h; cases h) ?_ ?_ (by rw [h]; intro h; cases h) ?_
    · simp only [afterCall, ho]; exact ⟨rfl, rfl⟩
    · simp only [afterCall, ho]; intro h; cases h
    · simp only [afterCall, ho]; intro h; cases h
    · exact forall_upd (P := fun _ l => l = []) a8 (by simp [a8 i, Call.failure, ho])
  | callSrc hi h =>
    exact nf_upd hh s.st s.script s.got s.fails s.heard a4 ⟨rfl, rfl⟩ (by rw [h]; intro h; cases h) (fun _ => .inl (by rw [h]; rfl)) (by intro h; cases h) (by rw [h]; intro h; cases h) a8
  | callEnd i hi h0 h =>
    have ho := hF.finish i (s.st i)
    have he : afterEnd ((N.fn i).finish (s.st i)).2 = .sending (((N.fn i).finish (s.st i)).2.batches.headD []) [] true false [] := by
      unfold afterEnd
      split
      · rename_i e he; exact absurd he (ho e)
      · rfl
    refine nf_upd hh _ s.script s.got _ s.heard a4 ?_ (by rw [h]; intro h; cases h) (fun _ => .inl (by rw [h]; rfl)) ?_ (by rw [h]; intro h; cases h) ?_
    · rw [he]; exact ⟨rfl, rfl⟩
    · rw [he]; intro h; cases h
    · refine forall_upd (P := fun _ l => l = []) a8 ?_
      rw [a8 i]
      unfold Call.failure
      split
      · rename_i e he; exact absurd he (ho e)
      · rfl
  | callProd i c hi h =>
    have ho := a3 i; rw [h] at ho
    simp only [Fpki.Pipe.calm] at ho
    refine nf_upd hh s.st s.script s.got _ s.heard a4 ?_ (by rw [h]; intro h; cases h) ?_ ?_ (by rw [h]; intro h; cases h) ?_
    · simp only [afterCall, ho]; exact ⟨rfl, rfl⟩
    · simp only [afterCall, ho]; intro h; cases h
    · simp only [afterCall, ho]; intro h; cases h
    · exact forall_upd (P := fun _ l => l = []) a8 (by simp [a8 i, Call.failure, ho])
  | sent i rest brk err found hi h =>
    have hc := a3 i; rw [h] at hc
    obtain ⟨c1, c2⟩ := hc
    subst c1; subst c2
    refine nf_upd hh s.st s.script s.got s.fails s.heard a4 ?_ (by rw [h]; intro h; cases h) ?_ ?_ (by rw [h]; intro h; cases h) a8
    · unfold afterSent
      split
      · rfl
      · cases rest with
        | nil => trivial
        | cons b bs => exact ⟨rfl, rfl⟩
    · rw [h]
      cases brk with
      | true => intro _; left; rfl
      | false => cases rest <;> intro h <;> cases h
    · unfold afterSent
      split
      · intro h; cases h
      · cases rest <;> intro h <;> cases h
  | close i f hi h =>
    have hc := a3 i; rw [h] at hc
    exact nf_upd hh s.st s.script s.got s.fails s.heard a4 hc (by intro _; rfl) (fun _ => .inl (by rw [h]; rfl)) (by intro h; cases h) (by rw [h]; intro h; cases h) a8
  | report j e h hf h0 hj => have := a3 j; rw [h] at this; exact this.elim
  | relayIn j e hf hr h0 hj => rw [a1 j] at hf; cases hf
  | errTo i p e r ph hin hr hi hv => rw [a2] at hr; cases hr
  | errNil i p ph hi hn hv =>
    obtain ⟨hw, e⟩ := nf_nil hN hh hi hn hv
    subst e
    exact nf_upd hh s.st s.script s.got s.fails _ a4 trivial (fun _ => rfl) (fun _ => .inl (by rw [hw]; rfl)) (fun _ j hj => ((nilReady_out hn).2 j hj).1) (by rw [hw]; intro h; cases h) a8
  | waitErr e hres h => have := a3 0; rw [h] at this; exact this.elim
  | waitNil hres h => exact ⟨a1, a2, a3, a4, a5, a6, (by intro r hr; cases hr; exact ⟨rfl, h⟩), a8⟩

/-! ## Progress -/

/-- Something can happen. -/
def CanStep (N : Net α σ) (s : St α σ) : Prop := ∃ ev, (exec N s ev).isSome = true

theorem canStep_active {N : Net α σ} {s : St α σ} {i : Nat} (hi : i < N.n) (h : (∃ v, s.phase i = .processing v) ∨ (∃ c, s.phase i = .producing c) ∨ (∃ f, s.phase i = .breaking f) ∨
    ∃ rest brk err found, s.phase i = .sending [] rest brk err found) : CanStep N s := by
  rcases h with ⟨v, h⟩ | ⟨c, h⟩ | ⟨f, h⟩ | ⟨rest, brk, err, found, h⟩
  · refine ⟨.call i, ?_⟩
    cases v with
    | some v => simp [exec, hi, h]
    | none => simp only [exec, hi, h, if_true]; split <;> rfl
  · exact ⟨.call i, by simp [exec, hi, h]⟩
  · exact ⟨.close i, by simp [exec, hi, h]⟩
  · exact ⟨.sent i, by simp [exec, hi, h]⟩

theorem canStep_give {N : Net α σ} {s : St α σ} {i j : Nat} {v : α} {ps : List (Nat × α)} {rest : List (List (Nat × α))} {brk err : Bool} {found : List Nat} (hi : i < N.n) (hj : j < N.n)
    (hl : N.layer j = N.layer i + 1) (h : s.phase i = .sending ((0, v) :: ps) rest brk err found) (hd : s.phase j = .reading) : CanStep N s :=
  ⟨.give i j 0, by simp [exec, h, hd, hi, hj, allowed_zero, hl]⟩

theorem canStep_closed {N : Net α σ} {s : St α σ} {j : Nat} (h0 : 0 < j) (hj : j < N.n) (h : s.phase j = .reading) (hc : inClosed N s j = true) : CanStep N s :=
  ⟨.closed j, by simp [exec, h, h0, hj, hc]⟩

theorem canStep_poll {N : Net α σ} {s : St α σ} (h : s.phase 0 = .reading) : CanStep N s :=
  ⟨.poll, by cases hs : s.script <;> simp [exec, h, hs]⟩

theorem canStep_nil {N : Net α σ} {s : St α σ} {i : Nat} {f : List Nat} (hi : i < N.n) (h : s.phase i = .waiting f) (hr : s.relay (N.layer i) = none)
    (hj : ∀ j < N.n, N.layer j = N.layer i + 1 → s.phase j = .finished ∧ s.fwd j = none) : CanStep N s := by
  refine ⟨.errNil i 0, ?_⟩
  have hnr : nilReady N s i = true := by
    simp only [nilReady, h, Phase.isWaiting, Bool.or_true, Bool.true_and, hr, Option.isNone_none, List.all_eq_true, Bool.and_eq_true]
    intro j hm
    obtain ⟨m1, m2⟩ := mem_members.mp hm
    rw [(hj j m1 m2).1, (hj j m1 m2).2]
    exact ⟨rfl, rfl⟩
  simp [exec, hi, hnr, recv, h]

theorem layer_pos {N : Net α σ} (hN : N.WF) {j : Nat} (hj : j < N.n) (h : 0 < N.layer j) : 0 < j := by
  rcases Nat.eq_zero_or_pos j with e | e
  · have := (hN.zero j hj).mpr e; omega
  · exact e

theorem nf_busy {N : Net α σ} (hN : N.WF) {s : St α σ} (h : NF N s) (ho : ∀ i, PhaseAll (Own N i) (s.phase i)) :
    ∀ d i, N.n - i = d → i < N.n → s.phase i ≠ .reading → (s.phase i).outClosed = false → CanStep N s := by
  intro d
  induction d using Nat.strongRecOn with
  | _ d ih =>
    intro i hd hi hr hc
    cases hp : s.phase i with
    | reading => exact absurd hp hr
    | processing v => exact canStep_active hi (.inl ⟨v, hp⟩)
    | producing c => exact canStep_active hi (.inr (.inl ⟨c, hp⟩))
    | breaking f => exact canStep_active hi (.inr (.inr (.inl ⟨f, hp⟩)))
    | waiting f => rw [hp] at hc; cases hc
    | reporting f => rw [hp] at hc; cases hc
    | finished => rw [hp] at hc; cases hc
    | sending pend rest brk err found =>
      cases pend with
      | nil => exact canStep_active hi (.inr (.inr (.inr ⟨rest, brk, err, found, hp⟩)))
      | cons x ps =>
        obtain ⟨k, v⟩ := x
        have hown := ho i
        rw [hp] at hown
        obtain ⟨hk, hm⟩ := hown.1 (k, v) (List.mem_cons_self ..)
        simp only at hk
        subst hk
        obtain ⟨j, hj⟩ := List.exists_mem_of_ne_nil _ hm
        obtain ⟨hjn, hjl⟩ := mem_members.mp hj
        have hj0 : 0 < j := layer_pos hN hjn (by omega)
        have hij : i < j := hN.mono i j hi hjn (by omega)
        have hcl : (s.phase j).outClosed = false := by
          cases hcl : (s.phase j).outClosed with
          | false => rfl
          | true =>
            have := inClosed_iff.mp (h.ended j hj0 (outClosed_ended hcl)) i hi (by omega)
            rw [hp] at this; cases this
        by_cases hrd : s.phase j = .reading
        · exact canStep_give hi hjn hjl hp hrd
        · exact ih (N.n - j) (by omega) j rfl hjn hrd hcl

theorem nf_progress {N : Net α σ} (hN : N.WF) {s : St α σ} (h : NF N s) (ho : ∀ i, PhaseAll (Own N i) (s.phase i)) (hres : s.result = none) : CanStep N s := by
  rcases least_or (P := fun i => (s.phase i).outClosed = true) N.n with hall | ⟨i, hi, hni, hlt⟩
  · rcases greatest_or (P := fun i => s.phase i = .finished) N.n with hfin | ⟨i, hi, hni, hgt⟩
    · exact ⟨.wait, by simp [exec, hres, hfin 0 hN.pos]⟩
    · have hw : ∃ f, s.phase i = .waiting f := by
        have hc := hall i hi
        have hcalm := h.calm i
        cases hp : s.phase i with
        | waiting f => exact ⟨f, rfl⟩
        | finished => exact absurd hp hni
        | reporting e => rw [hp] at hcalm; exact hcalm.elim
        | _ => simp only [hp] at hc; cases hc
      obtain ⟨f, hw⟩ := hw
      exact canStep_nil hi hw (h.relay _) fun j hj hl => ⟨hgt j (hN.mono i j hi hj (by omega)) hj, h.fwd j⟩
  · by_cases hr : s.phase i = .reading
    · by_cases h0 : i = 0
      · subst h0; exact canStep_poll hr
      · refine canStep_closed (Nat.pos_of_ne_zero h0) hi hr (inClosed_iff.mpr fun k hk hl => hlt k ?_)
        have : N.layer i ≠ 0 := fun e => h0 ((hN.zero i hi).mp e)
        exact hN.mono k i hk hi (by omega)
    · exact nf_busy hN h ho _ i rfl hi hr (by simpa using hni)

/-! ## Nothing is lost -/

theorem tight_step {N : Net α σ} {s s' : St α σ} (h1 : ∀ i, tight (s.phase i)) (hs : Step N s s') : ∀ i, tight (s'.phase i) := by
  cases hs with
  | pollEnd h hs => exact forall_upd (P := fun _ ph => tight ph) h1 trivial
  | poll c cs h hs => exact forall_upd (P := fun _ ph => tight ph) h1 trivial
  | give i j p pend rest brk err found v h hd hp hi hj hl ha =>
    have := h1 i; rw [h] at this
    exact forall_upd (P := fun _ ph => tight ph) (forall_upd (P := fun _ ph => tight ph) h1 this) trivial
  | closed j h h0 hj hc => exact forall_upd (P := fun _ ph => tight ph) h1 trivial
  | callSome i v hi h => exact forall_upd (P := fun _ ph => tight ph) h1 (tight_afterCall _)
  | callSrc hi h => exact forall_upd (P := fun _ ph => tight ph) h1 (fun _ => rfl)
  | callEnd i hi h0 h => exact forall_upd (P := fun _ ph => tight ph) h1 (tight_afterEnd _)
  | callProd i c hi h => exact forall_upd (P := fun _ ph => tight ph) h1 (tight_afterCall _)
  | sent i rest brk err found hi h =>
    refine forall_upd (P := fun _ ph => tight ph) h1 ?_
    unfold afterSent
    split
    · trivial
    · cases rest with
      | nil => trivial
      | cons b bs => intro h; cases h
  | close i f hi h => exact forall_upd (P := fun _ ph => tight ph) h1 trivial
  | report j e h hf h0 hj => exact forall_upd (P := fun _ ph => tight ph) h1 trivial
  | relayIn j e hf hr h0 hj => exact h1
  | errTo i p e r ph hin hr hi hv => exact forall_upd (P := fun _ ph => tight ph) h1 (tight_recv hv (h1 _))
  | errNil i p ph hi hn hv => exact forall_upd (P := fun _ ph => tight ph) h1 (tight_recv hv (h1 _))
  | waitErr e hres h => exact forall_upd (P := fun _ ph => tight ph) h1 trivial
  | waitNil hres h => exact h1

theorem flatMap_app {β : Type} {L : List Nat} {i : Nat} {f g : Nat → List β} {w : List β} (nd : L.Nodup) (hi : i ∈ L) (hf : (f i).Perm (g i ++ w)) (he : ∀ k, k ≠ i → f k = g k) :
    (L.flatMap f).Perm (L.flatMap g ++ w) := by
  induction L with
  | nil => cases hi
  | cons a L ih =>
    obtain ⟨na, nL⟩ := List.nodup_cons.mp nd
    simp only [List.flatMap_cons]
    by_cases e : a = i
    · subst e
      have : L.flatMap f = L.flatMap g := by
        refine List.flatMap_congr fun k hk => he k ?_
        intro e; subst e; exact na hk
      rw [this]
      refine (hf.append_right _).trans ?_
      rw [List.append_assoc, List.append_assoc]
      exact (List.perm_append_comm).append_left _
    · rw [he a e, List.append_assoc]
      refine (ih nL ?_).append_left _
      rcases List.mem_cons.mp hi with h | h
      · exact absurd h.symm e
      · exact h

theorem flatMap_upd {β : Type} {L : List Nat} {i : Nat} {f : Nat → List β} {v : List β} (hi : i ∉ L) : L.flatMap (upd f i v) = L.flatMap f :=
  List.flatMap_congr fun k hk => upd_ne _ _ (fun e => hi (by rw [← e]; exact hk))

def vals (b : Batch α) : List α := b.map Prod.snd

def Ok (N : Net α σ) (s0 : Nat → σ) (script0 : List (Call α)) (got : Nat → List α) (i : Nat) (ph : Phase α) (st : σ) (script : List (Call α)) (O : Batch α) : Prop :=
  if i = 0 then SrcOk script0 script ph O else NodeOk (N.fn i) (s0 i) (got i) ph st O

structure OutInv (N : Net α σ) (s0 : Nat → σ) (script0 : List (Call α)) (s : St α σ) (O : Nat → Batch α) : Prop where
  node : ∀ i, Ok N s0 script0 s.got i (s.phase i) (s.st i) s.script (O i)
  flow : ∀ l, ((N.members l).flatMap fun i => vals (O i)).Perm ((N.members (l + 1)).flatMap s.got ++ (N.members l).flatMap fun i => vals (todo (s.phase i)))

theorem outInv_init (N : Net α σ) (s0 : Nat → σ) (script : List (Call α)) : OutInv N s0 script (St.init s0 script) fun _ => [] := by
  refine ⟨fun i => ?_, fun l => ?_⟩
  · unfold Ok
    split
    · exact ⟨[], rfl, rfl⟩
    · rfl
  · have e : ∀ L : List Nat, (L.flatMap fun _ => ([] : List α)) = [] := fun L => by simp
    show (List.flatMap (fun _ => ([] : List α)) _).Perm (List.flatMap (fun _ => ([] : List α)) _ ++ List.flatMap (fun _ => ([] : List α)) _)
    rw [e, e]; exact List.Perm.refl _

/-- A change of stage `i` that sends and receives nothing. -/
theorem outInv_upd {N : Net α σ} {s0 : Nat → σ} {script0 : List (Call α)} {s : St α σ} {O : Nat → Batch α} (h : OutInv N s0 script0 s O) {i : Nat} (hi : i < N.n) {ph : Phase α} {st' : σ}
    {script' : List (Call α)} (fwd : Nat → Option (List Nat)) (relay : Nat → Option (List Nat × List Nat)) (result : Option (List Nat)) (fails : Nat → List Nat)
    (heard log : Nat → List (List Nat)) (hscr : i ≠ 0 → script' = s.script)
    (hO : ∃ O', Ok N s0 script0 s.got i ph st' script' (O i ++ O') ∧ todo ph = todo (s.phase i) ++ O') :
    ∃ O, OutInv N s0 script0 { s with phase := upd s.phase i ph, st := upd s.st i st', script := script', fwd := fwd, relay := relay, result := result, fails := fails, heard := heard, log := log } O := by
  obtain ⟨h1, h2⟩ := h
  obtain ⟨O', hok, htodo⟩ := hO
  refine ⟨upd O i (O i ++ O'), ?_, ?_⟩
  · intro j
    by_cases e : j = i
    · subst e
      simp only [upd_self]; exact hok
    · simp only [upd_ne _ _ e]
      have := h1 j
      unfold Ok at this ⊢
      by_cases hj : j = 0
      · subst hj
        simp only [if_true] at this ⊢
        rw [hscr (fun h => e h.symm)]
        exact this
      · simp only [hj, if_false] at this ⊢
        exact this
  · intro l
    by_cases hl : N.layer i = l
    · have hm : i ∈ N.members l := mem_members.mpr ⟨hi, hl⟩
      have p1 : ((N.members l).flatMap fun k => vals (upd O i (O i ++ O') k)).Perm (((N.members l).flatMap fun k => vals (O k)) ++ vals O') := by
        refine flatMap_app (members_nodup N l) hm ?_ ?_
        · simp only [upd_self, vals, List.map_append]; exact List.Perm.refl _
        · intro k hk; simp only [upd_ne _ _ hk]
      have p2 : ((N.members l).flatMap fun k => vals (todo (upd s.phase i ph k))).Perm (((N.members l).flatMap fun k => vals (todo (s.phase k))) ++ vals O') := by
        refine flatMap_app (members_nodup N l) hm ?_ ?_
        · simp only [upd_self, htodo, vals, List.map_append]; exact List.Perm.refl _
        · intro k hk; simp only [upd_ne _ _ hk]
      refine p1.trans (((h2 l).append_right _).trans ?_)
      rw [List.append_assoc]
      exact (p2.symm).append_left _
    · have hm : i ∉ N.members l := fun h => hl (mem_members.mp h).2
      have e1 : ((N.members l).flatMap fun k => vals (upd O i (O i ++ O') k)) = (N.members l).flatMap fun k => vals (O k) :=
        List.flatMap_congr fun k hk => by rw [upd_ne _ _ (fun e => hm (by rw [← e]; exact hk))]
      have e2 : ((N.members l).flatMap fun k => vals (todo (upd s.phase i ph k))) = (N.members l).flatMap fun k => vals (todo (s.phase k)) :=
        List.flatMap_congr fun k hk => by rw [upd_ne _ _ (fun e => hm (by rw [← e]; exact hk))]
      show ((N.members l).flatMap fun k => vals (upd O i (O i ++ O') k)).Perm ((N.members (l + 1)).flatMap s.got ++ (N.members l).flatMap fun k => vals (todo (upd s.phase i ph k)))
      rw [e1, e2]; exact h2 l

theorem upd_eta {β : Type} (f : Nat → β) (i : Nat) : upd f i (f i) = f := by
  funext j; rw [upd_apply]; split <;> rename_i e <;> simp [e]

theorem outInv_upd' {N : Net α σ} {s0 : Nat → σ} {script0 : List (Call α)} {s : St α σ} {O : Nat → Batch α} (h : OutInv N s0 script0 s O) {i : Nat} (hi : i < N.n) {ph : Phase α}
    (fails : Nat → List Nat) (heard : Nat → List (List Nat))
    (hO : ∃ O', Ok N s0 script0 s.got i ph (s.st i) s.script (O i ++ O') ∧ todo ph = todo (s.phase i) ++ O') :
    ∃ O, OutInv N s0 script0 { s with phase := upd s.phase i ph, fails := fails, heard := heard } O := by
  have := outInv_upd h hi (ph := ph) (st' := s.st i) (script' := s.script) s.fwd s.relay s.result fails heard s.log (fun _ => rfl) hO
  rw [upd_eta] at this
  exact this

theorem vals_erase {pend : Batch α} {p : Nat} {k : Nat} {v : α} (hp : pend[p]? = some (k, v)) (rest : Batch α) : (vals (pend ++ rest)).Perm (vals (pend.eraseIdx p ++ rest) ++ [v]) := by
  obtain ⟨hlt, hv⟩ := List.getElem?_eq_some_iff.mp hp
  have hsplit : pend = pend.take p ++ (k, v) :: pend.drop (p + 1) := by
    rw [← hv, List.getElem_cons_drop, List.take_append_drop]
  have h1 : pend.Perm (pend.eraseIdx p ++ [(k, v)]) := by
    rw [List.eraseIdx_eq_take_drop_succ]
    conv => lhs; rw [hsplit]
    rw [List.append_assoc]
    exact (List.perm_append_comm (l₁ := [(k, v)])).append_left _
  have h2 : (pend ++ rest).Perm ((pend.eraseIdx p ++ rest) ++ [(k, v)]) := by
    refine (h1.append_right rest).trans ?_
    rw [List.append_assoc, List.append_assoc]
    exact (List.perm_append_comm).append_left _
  have := h2.map Prod.snd
  simpa [vals] using this

theorem outInv_step {N : Net α σ} (hN : N.WF) {s0 : Nat → σ} {script0 : List (Call α)} (hF : NoFail N script0) (hE : EndOnce N) {s s' : St α σ}
    (hnf : NF N s) (ht : ∀ i, tight (s.phase i)) (h : ∃ O, OutInv N s0 script0 s O) (hs : Step N s s') : ∃ O, OutInv N s0 script0 s' O := by
  obtain ⟨O, h⟩ := h
  have hh := h
  obtain ⟨h1, h2⟩ := h
  cases hs with
  | pollEnd h hs =>
    refine outInv_upd' hh hN.pos s.fails s.heard ?_
    have hO := h1 0
    rw [h] at hO ⊢
    simp only [Ok, if_true, SrcOk, hs, List.append_nil] at hO ⊢
    obtain ⟨u, e1, e2⟩ := hO
    exact ⟨[], by rw [e1, e2]; simp, rfl⟩
  | poll c cs h hs =>
    have := outInv_upd hh hN.pos (ph := .producing c) (st' := s.st 0) (script' := cs) s.fwd s.relay s.result s.fails s.heard s.log (fun e => absurd rfl e) (by
      have hO := h1 0
      rw [h] at hO ⊢
      simp only [Ok, if_true, SrcOk, hs] at hO ⊢
      obtain ⟨u, e1, e2⟩ := hO
      exact ⟨[], ⟨u, e1, by simp [e2]⟩, rfl⟩)
    rw [upd_eta] at this
    exact this
  | give i j p pend rest brk err found v h hd hp hi hj hl ha =>
    have hne : j ≠ i := by intro e; subst e; omega
    have hj0 : j ≠ 0 := by have := layer_pos hN hj (by omega); omega
    refine ⟨O, ?_, ?_⟩
    · intro k
      have hok := h1 k
      by_cases e' : k = j
      · subst e'
        simp only [upd_self]
        unfold Ok at hok ⊢
        rw [hd] at hok
        simp only [hj0, if_false, NodeOk, upd_self] at hok ⊢
        exact ⟨s.got k, rfl, hok⟩
      · simp only [upd_ne _ _ e']
        by_cases e : k = i
        · subst e
          simp only [upd_self]
          rw [h] at hok
          revert hok
          unfold Ok
          simp only [upd_ne _ _ e']
          cases brk <;> split <;> exact id
        · simp only [upd_ne _ _ e]
          unfold Ok at hok ⊢
          simp only [upd_ne _ _ e']
          exact hok
    · intro l
      have htd : ∀ k, k ≠ i → vals (todo (upd (upd s.phase i (.sending (pend.eraseIdx p) rest brk err found)) j (.processing (some v)) k)) = vals (todo (s.phase k)) := by
        intro k hk
        by_cases e : k = j
        · subst e; rw [upd_self, hd]; rfl
        · rw [upd_ne _ _ e, upd_ne _ _ hk]
      show ((N.members l).flatMap fun k => vals (O k)).Perm ((N.members (l + 1)).flatMap (upd s.got j (s.got j ++ [v])) ++
        (N.members l).flatMap fun k => vals (todo (upd (upd s.phase i (.sending (pend.eraseIdx p) rest brk err found)) j (.processing (some v)) k)))
      by_cases hll : N.layer i = l
      · have hm : i ∈ N.members l := mem_members.mpr ⟨hi, hll⟩
        have hm' : j ∈ N.members (l + 1) := mem_members.mpr ⟨hj, by omega⟩
        have p1 : ((N.members (l + 1)).flatMap (upd s.got j (s.got j ++ [v]))).Perm ((N.members (l + 1)).flatMap s.got ++ [v]) := by
          refine flatMap_app (members_nodup N _) hm' ?_ (fun k hk => upd_ne _ _ hk)
          rw [upd_self]
        have p2 : ((N.members l).flatMap fun k => vals (todo (s.phase k))).Perm
            (((N.members l).flatMap fun k => vals (todo (upd (upd s.phase i (.sending (pend.eraseIdx p) rest brk err found)) j (.processing (some v)) k))) ++ [v]) := by
          refine flatMap_app (members_nodup N l) hm ?_ (fun k hk => (htd k hk).symm)
          have hne' : i ≠ j := fun e => hne e.symm
          simp only [upd_ne _ _ hne', upd_self]
          rw [h]
          exact vals_erase hp _
        refine (h2 l).trans ((p2.append_left _).trans ?_)
        refine (List.Perm.trans ?_ (p1.symm.append_right _))
        rw [List.append_assoc]
        exact (List.perm_append_comm).append_left _
      · have e1 : (N.members (l + 1)).flatMap (upd s.got j (s.got j ++ [v])) = (N.members (l + 1)).flatMap s.got :=
          flatMap_upd (fun hm => hll (by have := (mem_members.mp hm).2; omega))
        have e2 : ((N.members l).flatMap fun k => vals (todo (upd (upd s.phase i (.sending (pend.eraseIdx p) rest brk err found)) j (.processing (some v)) k))) =
            (N.members l).flatMap fun k => vals (todo (s.phase k)) :=
          List.flatMap_congr fun k hk => htd k (fun e => hll (by rw [← e]; exact (mem_members.mp hk).2))
        rw [e1, e2]; exact h2 l
  | closed j h h0 hj hc =>
    refine outInv_upd' hh hj s.fails s.heard ?_
    have hO := h1 j
    rw [h] at hO ⊢
    have : j ≠ 0 := by omega
    simp only [Ok, this, if_false, NodeOk] at hO ⊢
    exact ⟨[], by simpa using hO, rfl⟩
  | callSome i v hi h =>
    refine outInv_upd hh hi s.fwd s.relay s.result _ s.heard s.log (fun _ => rfl) ?_
    have hO := h1 i
    rw [h] at hO ⊢
    have ho := hF.process i (s.st i) v
    unfold Ok at hO ⊢
    by_cases h0 : i = 0
    · simp only [h0, if_true, SrcOk] at hO
    · simp only [h0, if_false, NodeOk, afterCall, ho] at hO ⊢
      obtain ⟨vs, e1, e2⟩ := hO
      refine ⟨((N.fn i).process (s.st i) v).2.batches.flatten, ?_, ?_⟩
      · rw [e1, calls_snoc, e2]
      · simp only [todo, List.nil_append, head_append_tail_flatten]
  | callSrc hi h =>
    refine outInv_upd' hh hi s.fails s.heard ?_
    have hO := h1 0
    rw [h] at hO ⊢
    simp only [Ok, if_true, SrcOk] at hO ⊢
    exact ⟨[], by simpa using hO, rfl⟩
  | callEnd i hi h0 h =>
    refine outInv_upd hh hi s.fwd s.relay s.result _ s.heard s.log (fun _ => rfl) ?_
    have hO := h1 i
    rw [h] at hO ⊢
    have ho := hF.finish i (s.st i)
    have he : afterEnd ((N.fn i).finish (s.st i)).2 = .sending (((N.fn i).finish (s.st i)).2.batches.headD []) [] true false [] := by
      unfold afterEnd
      split
      · rename_i e he; exact absurd he (ho e)
      · rfl
    unfold Ok at hO ⊢
    rw [he]
    simp only [h0, if_false, NodeOk] at hO ⊢
    refine ⟨((N.fn i).finish (s.st i)).2.batches.flatten, ?_, ?_⟩
    · simp only [everything, hO]
    · simp only [todo, List.nil_append, List.flatten_nil, List.append_nil, head_of_short (hE i (s.st i))]
  | callProd i c hi h =>
    refine outInv_upd' hh hi _ s.heard ?_
    have hO := h1 i
    have ho := hnf.calm i; rw [h] at ho
    simp only [calm] at ho
    rw [h] at hO ⊢
    unfold Ok at hO ⊢
    by_cases h0 : i = 0
    · simp only [h0, if_true, SrcOk, afterCall, ho] at hO ⊢
      obtain ⟨u, e1, e2⟩ := hO
      refine ⟨c.batches.flatten, ⟨u ++ [c], by simp [e1], by simp [e2, scriptOuts]⟩, ?_⟩
      simp only [todo, List.nil_append, head_append_tail_flatten]
    · simp only [h0, if_false, NodeOk] at hO
  | sent i rest brk err found hi h =>
    refine outInv_upd' hh hi _ s.heard ?_
    have hO := h1 i
    have hc := hnf.calm i; rw [h] at hc
    obtain ⟨c1, c2⟩ := hc
    subst c1; subst c2
    rw [h] at hO ⊢
    cases brk with
    | true =>
      refine ⟨[], ?_, ?_⟩
      · revert hO
        unfold Ok
        simp only [afterSent, Bool.true_or, if_true, List.append_nil]
        split <;> exact id
      · have := ht i; rw [h] at this
        simp [todo, this rfl, afterSent]
    | false =>
      cases rest with
      | nil =>
        refine ⟨[], ?_, rfl⟩
        revert hO
        unfold Ok
        simp only [afterSent, Bool.or_self, Bool.false_eq_true, if_false, List.append_nil]
        split <;> exact id
      | cons b bs =>
        refine ⟨[], ?_, by simp [afterSent, todo]⟩
        revert hO
        unfold Ok
        simp only [afterSent, Bool.or_self, Bool.false_eq_true, if_false, List.append_nil]
        split <;> exact id
  | close i f hi h =>
    refine outInv_upd' hh hi _ s.heard ?_
    have hO := h1 i
    rw [h] at hO ⊢
    refine ⟨[], ?_, rfl⟩
    revert hO
    unfold Ok
    rw [List.append_nil]
    split <;> exact id
  | report j e h hf h0 hj => have := hnf.calm j; rw [h] at this; exact this.elim
  | relayIn j e hf hr h0 hj => rw [hnf.fwd j] at hf; cases hf
  | errTo i p e r ph hin hr hi hv => rw [hnf.relay] at hr; cases hr
  | errNil i p ph hi hn hv =>
    obtain ⟨hw, e⟩ := nf_nil hN hnf hi hn hv
    subst e
    refine outInv_upd' hh hi _ _ ?_
    have hO := h1 i
    rw [hw] at hO ⊢
    refine ⟨[], ?_, rfl⟩
    revert hO
    unfold Ok
    rw [List.append_nil]
    split <;> exact id
  | waitErr e hres h => have := hnf.calm 0; rw [h] at this; exact this.elim
  | waitNil hres h => exact ⟨O, h1, h2⟩

end Fpki.Layers
