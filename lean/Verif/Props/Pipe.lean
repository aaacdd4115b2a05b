import Verif.Lemmas.PipeOut
import Verif.Lemmas.PipeTree
import Verif.Model.PipeManager
/-!
# C85: a pipeline as a whole

A network of stages runs, in any interleaving of its goroutines. `Wait` should return, with nil exactly when no function failed, after all stages have ended and every
output has arrived.
-/
namespace Fpki.Pipe
open Fpki.Stage (Mode)

variable {α σ : Type}

/-! ## Specification -/

/-- The states that the pipeline can reach. -/
def Reach (N : Net α σ) (s0 : Nat → σ) (script : List (Call α)) (s : St α σ) : Prop := ∃ es, run N (St.init s0 script) es = some s

/-- Nothing can happen any more. -/
def Stuck (N : Net α σ) (s : St α σ) : Prop := ∀ ev, exec N s ev = none

/-- `Wait` has not returned and never will. -/
def Deadlock (N : Net α σ) (s : St α σ) : Prop := Stuck N s ∧ s.result = none

/-- No function of the first `n` stages has returned an error. -/
def NoFailure (N : Net α σ) (s : St α σ) : Prop := ∀ i < N.n, s.fails i = []

/-- All stages have ended. -/
def AllFinished (N : Net α σ) (s : St α σ) : Prop := ∀ i < N.n, s.phase i = .finished

/-- At most one output at a time, or the sending mode that gives up all outputs after an error. -/
def Careful (N : Net α σ) (script : List (Call α)) (i : Nat) : Prop :=
  N.mode i = .cycles ∨ ((∀ s v, ∀ b ∈ ((N.fn i).process s v).2.batches, b.length ≤ 1) ∧ (∀ s, ∀ b ∈ ((N.fn i).finish s).2.batches, b.length ≤ 1) ∧
    (i = 0 → ∀ c ∈ script, ∀ b ∈ c.batches, b.length ≤ 1))

/-- The stage has several next stages, or comes after one that has. -/
inductive Branched (N : Net α σ) : Nat → Prop
  | here (i : Nat) (h : N.multiOut i = true) : Branched N i
  | next (k : Nat) (hk : k < N.m) (h : Branched N (N.src k)) : Branched N (N.dst k)

/-- Every stage has at most one stage before it. -/
def NoFanIn (N : Net α σ) : Prop := ∀ j, N.multiIn j = false

/-- Every stage has at most one stage after it. -/
def NoFanOut (N : Net α σ) : Prop := ∀ i, N.multiOut i = false

/-- The process function of stage `i` never says `NoMoreData`. -/
def NeverStops (N : Net α σ) (i : Nat) : Prop := ∀ s v, ((N.fn i).process s v).2.outcome ≠ .stop

/-! ## Lemmas -/

theorem stuck_iff {N : Net α σ} {s : St α σ} : Stuck N s ↔ ¬ CanStep N s := by
  constructor
  · rintro h ⟨ev, he⟩; rw [h ev] at he; cases he
  · intro h ev
    cases he : exec N s ev with
    | none => rfl
    | some s' => exact absurd ⟨ev, by rw [he]; rfl⟩ h

theorem reach_own {N : Net α σ} {s0 : Nat → σ} {script : List (Call α)} (ho : OwnChannels N script) {s : St α σ} (h : Reach N s0 script s) : ∀ i, PhaseAll (Own N i) (s.phase i) := by
  obtain ⟨es, h⟩ := h
  exact (run_inv (fun _ _ h hs => allInv_step (own_hereditary N) ho h hs) h (allInv_init ho s0)).phase

theorem reach_nf {N : Net α σ} (hN : N.WF) {s0 : Nat → σ} {script : List (Call α)} (hF : NoFail N script) {s : St α σ} (h : Reach N s0 script s) : NF N s := by
  obtain ⟨es, h⟩ := h
  exact run_inv (fun _ _ h hs => nf_step hN hF h hs) h (nf_init hF s0)

theorem careful_keeps {N : Net α σ} {script : List (Call α)} {G : Nat → Prop} (h : ∀ i, G i → Careful N script i) : NetAll (Keeps N G) N script := by
  refine ⟨?_, ?_, ?_⟩
  · intro i s v b hb g
    rcases h i g with h | h
    · exact .inl h
    · exact .inr (h.1 s v b hb)
  · intro i s b hb g
    rcases h i g with h | h
    · exact .inl h
    · exact .inr (h.2.1 s b hb)
  · intro c hc b hb g
    rcases h 0 g with h | h
    · exact .inl h
    · exact .inr (h.2.2 rfl c hc b hb)

theorem reach_told {N : Net α σ} (hN : N.WF) {s0 : Nat → σ} {script : List (Call α)} {G : Nat → Prop} (hG : ∀ i, G i → Careful N script i) {s : St α σ} (h : Reach N s0 script s) :
    AllInv (Keeps N G) s ∧ ∃ t : Nat → Prop, Told N G s t := by
  obtain ⟨es, h⟩ := h
  refine run_inv (P := fun s => AllInv (Keeps N G) s ∧ ∃ t, Told N G s t) ?_ h ⟨allInv_init (careful_keeps hG) s0, _, told_init N G s0 script⟩
  rintro s s' ⟨h1, t, h2⟩ hs
  obtain ⟨t', h3, _⟩ := told_step hN h2 h1 hs
  exact ⟨allInv_step (keeps_hereditary N G) (careful_keeps hG) h1 hs, t', h3⟩

theorem reach_quiet {N : Net α σ} (hN : N.WF) {s0 : Nat → σ} {script : List (Call α)} {G : Nat → Prop} (hG : ∀ i, G i → Careful N script i) (hT : Tree N G) {s : St α σ}
    (h : Reach N s0 script s) : ∃ t : Nat → Prop, Told N G s t ∧ Quiet N G s t := by
  obtain ⟨es, h⟩ := h
  refine (run_inv (P := fun s => AllInv (Keeps N G) s ∧ ∃ t, Told N G s t ∧ Quiet N G s t) ?_ h ⟨allInv_init (careful_keeps hG) s0, _, told_init N G s0 script, quiet_init N G s0 script⟩).2
  rintro s s' ⟨h1, t, h2, h2'⟩ hs
  obtain ⟨t', h3, h4, h5⟩ := told_step hN h2 h1 hs
  exact ⟨allInv_step (keeps_hereditary N G) (careful_keeps hG) h1 hs, t', h3, quiet_step hN hT h2 h2' hs h4 h5⟩

theorem reach_single {N : Net α σ} (hN : N.WF) {s0 : Nat → σ} {script : List (Call α)} {s : St α σ} (h : Reach N s0 script s) : Single N s.phase := by
  obtain ⟨es, h⟩ := h
  exact run_inv (P := fun s => Single N s.phase) (fun _ _ h hs => single_step hN h hs) h (by intro k _ _ h; cases h)

/-! ## Theorems -/

/-- **C85** (every pipeline ends): whatever the functions do, however the goroutines interleave, there is no infinite execution. -/
theorem C85_terminates {N : Net α σ} (hN : N.WF) (f : Nat → St α σ) : ¬ ∀ i, ∃ ev, exec N (f i) ev = some (f (i + 1)) := by
  intro h
  have wf : WellFounded (LexLt tripleLt (N.n + 1)) := lexLt_wf tripleLt_wf (N.n + 1)
  have key : ∀ g : Nat → Triple, ∀ i, mu N (f i) = g → False := by
    intro g
    induction g using wf.induction with
    | _ g ih =>
      intro i hi
      obtain ⟨ev, he⟩ := h i
      exact ih (mu N (f (i + 1))) (hi ▸ step_mu hN (exec_step he)) (i + 1) rfl
  exact key _ 0 rfl

/-- **C85** (without failures, no deadlock): in every acyclic network. -/
theorem C85_success_no_deadlock {N : Net α σ} (hN : N.WF) {s0 : Nat → σ} {script : List (Call α)} (hF : NoFail N script) (ho : OwnChannels N script) {s : St α σ} (h : Reach N s0 script s) :
    ¬ Deadlock N s := by
  rintro ⟨hs, hr⟩
  exact stuck_iff.mp hs (nf_progress hN (reach_nf hN hF h) (reach_own ho h) hr)

theorem distinct_hereditary (P : Prop) : Hereditary (fun b : Batch α => P → (b.map Prod.fst).Nodup) :=
  ⟨(by intro _; exact List.nodup_nil), fun b p h x => ((List.eraseIdx_sublist b p).map Prod.fst).nodup (h x)⟩

/-- **C85** (without failures, nothing is lost): when `Wait` has returned, it has returned nil, all stages have ended, and on every channel the receiving stage has got exactly the outputs that
the functions of the sending stage return for what that stage has got itself, up to order; in the same order if the stage sends in sequence or never puts two outputs of a batch on one channel. -/
theorem C85_success_complete {N : Net α σ} (hN : N.WF) {s0 : Nat → σ} {script : List (Call α)} (hF : NoFail N script) (hE : EndOnce N) {s : St α σ} (h : Reach N s0 script s)
    {r : List Nat} (hr : s.result = some r) :
    r = [] ∧ AllFinished N s ∧ ∀ k < N.m, (onChan k (s.got (N.dst k))).Perm (onChan k (produced N s0 script s.got (N.src k))) ∧
      (Ordered N script (N.src k) → onChan k (s.got (N.dst k)) = onChan k (produced N s0 script s.got (N.src k))) := by
  have hnf := reach_nf hN hF h
  obtain ⟨h1, h2⟩ := hnf.result r hr
  have hfin : ∀ i < N.n, s.phase i = .finished := by
    intro i
    induction i using Nat.strongRecOn with
    | _ i ih =>
      intro hi
      by_cases h0 : i = 0
      · rw [h0]; exact h2
      · obtain ⟨k, hk, hd⟩ := hN.fed i (Nat.pos_of_ne_zero h0) hi
        have hf := hN.fwd k hk
        have := hnf.finished (N.src k) (ih (N.src k) (by omega) (by omega)) k (mem_outs.mpr ⟨hk, rfl⟩)
        rw [hd] at this; exact this
  refine ⟨h1, hfin, ?_⟩
  have hdis : NetAll (fun i b => Distinct N script i → (b.map Prod.fst).Nodup) N script :=
    ⟨fun i s v b hb hd => hd.1 s v b hb, fun i s b hb hd => hd.2.1 s b hb, fun c hc b hb hd => hd.2.2 rfl c hc b hb⟩
  have hout : OutInv N s0 script s := by
    obtain ⟨es, h⟩ := h
    refine (run_inv (P := fun s => (AllInv (fun i b => Distinct N script i → (b.map Prod.fst).Nodup) s ∧ NF N s) ∧ (∀ i, tight (s.phase i)) ∧ OutInv N s0 script s) ?_ h
      ⟨⟨allInv_init hdis s0, nf_init hF s0⟩, fun _ => trivial, outInv_init N s0 script⟩).2.2
    rintro s s' ⟨⟨p1, p2⟩, p3, p4⟩ hs
    exact ⟨⟨allInv_step (fun i => distinct_hereditary _) hdis p1 hs, nf_step hN hF p2 hs⟩, tight_step p3 hs, outInv_step hN hF hE p1 p2 p3 p4 hs⟩
  intro k hk
  have hf := hN.fwd k hk
  have hs := hfin (N.src k) (by omega)
  obtain ⟨O, hok, hrel⟩ := hout.node (N.src k)
  rw [hs] at hok
  have hO : O = produced N s0 script s.got (N.src k) := by
    unfold Ok at hok
    unfold produced
    split at hok
    · rename_i e; rw [if_pos e]; exact hok
    · rename_i e; rw [if_neg e]; exact hok
  have hsl : s.slot k = none := (hnf.ended (N.dst k) (by rw [hfin _ hf.2]; rfl) k (mem_ins.mpr ⟨hk, rfl⟩)).2
  have := hrel k hk rfl
  rw [hs, hO] at this
  simp only [sentOn, hsl, todo, onChan_nil, Option.toList_none, List.append_nil] at this
  exact ⟨this.1.symm, fun ho => (this.2 ho).symm⟩

/-- **C85** (no error is invented): what `Wait` returns are errors that functions have returned. -/
theorem C85_errors_real {N : Net α σ} {s0 : Nat → σ} {script : List (Call α)} {s : St α σ} (h : Reach N s0 script s) {r : List Nat} (hr : s.result = some r) :
    ∀ e ∈ r, ∃ i < N.n, e ∈ s.fails i := by
  obtain ⟨es, h⟩ := h
  exact (run_inv (P := fun s => Known N s) (fun _ _ h hs => known_step h hs) h (known_init N s0 script)).result r hr

/-- **C85** (nil means success), in every acyclic network whose stages are careful: if `Wait` returned nil, all stages had ended and no function had failed. -/
theorem C85_nil_success_partial {N : Net α σ} (hN : N.WF) {s0 : Nat → σ} {script : List (Call α)} (hC : ∀ i < N.n, Careful N script i) {s : St α σ} (h : Reach N s0 script s)
    (hr : s.result = some []) : AllFinished N s ∧ NoFailure N s := by
  obtain ⟨_, t, ht⟩ := reach_told hN (G := fun i => i < N.n) hC h
  have key : ∀ i < N.n, s.phase i = .finished ∧ ¬ t i := by
    intro i
    induction i using Nat.strongRecOn with
    | _ i ih =>
      intro hi
      by_cases h0 : i = 0
      · subst h0
        have := ht.result [] hr
        exact ⟨this.1, fun h => this.2.mpr h rfl⟩
      · have par : ∀ k ∈ N.ins i, s.phase i = .finished ∧ s.held k = none := by
          intro k hk
          obtain ⟨k1, k2⟩ := mem_ins.mp hk
          have hf := hN.fwd k k1
          obtain ⟨p1, p2⟩ := ih (N.src k) (by omega) (by omega)
          rcases ht.clean _ p1 with h | h
          · exact absurd h p2
          · have := h.2 k (mem_outs.mpr ⟨k1, rfl⟩)
            rw [k2] at this
            exact this
        obtain ⟨k, hk, hd⟩ := hN.fed i (Nat.pos_of_ne_zero h0) hi
        refine ⟨(par k (mem_ins.mpr ⟨hk, hd⟩)).1, ?_⟩
        intro hti
        rcases ht.up i hti with hx | ⟨k', hk', hx⟩
        · exact h0 hx
        · obtain ⟨k1, k2⟩ := mem_ins.mp hk'
          have hf := hN.fwd k' k1
          obtain ⟨p1, p2⟩ := ih (N.src k') (by omega) (by omega)
          rcases hx with hx | hx | hx | hx
          · exact hx (by omega)
          · exact hx (par k' hk').2
          · exact p2 hx
          · rw [p1] at hx; exact hx rfl
  refine ⟨fun i hi => (key i hi).1, fun i hi => ?_⟩
  rcases ht.clean i (key i hi).1 with h | h
  · exact absurd h (key i hi).2
  · exact h.1 hi

/-- **C85** (no deadlock with failures), where no stage has several stages before it: if from the first fan-out on all stages are careful and never say `NoMoreData`, then `Wait` returns
and all stages end, whatever fails. -/
theorem C85_tree_no_deadlock_partial {N : Net α σ} (hN : N.WF) {s0 : Nat → σ} {script : List (Call α)} (ho : OwnChannels N script) (hI : NoFanIn N) (hC : ∀ i, Branched N i → Careful N script i)
    (hS : ∀ k < N.m, Branched N (N.src k) → NeverStops N (N.dst k)) {s : St α σ} (h : Reach N s0 script s) (hst : Stuck N s) : s.result ≠ none ∧ AllFinished N s := by
  have hT : Tree N (Branched N) := ⟨hI, fun i hi => .here i hi, fun k hk g => .next k hk g, hS⟩
  obtain ⟨t, ht, hq⟩ := reach_quiet hN hC hT h
  exact tree_stuck hN hT ht hq (reach_single hN h) (reach_own ho h) (stuck_iff.mp hst)

/-- **C85** (chains): where every stage has one stage before it and one after it there is no deadlock, whatever the functions do, and all stages have ended when `Wait` returns. -/
theorem C85_chain_no_deadlock {N : Net α σ} (hN : N.WF) {s0 : Nat → σ} {script : List (Call α)} (ho : OwnChannels N script) (hI : NoFanIn N) (hO : NoFanOut N) {s : St α σ}
    (h : Reach N s0 script s) : ¬ Deadlock N s ∧ (s.result ≠ none → AllFinished N s) := by
  have hb : ∀ i, ¬ Branched N i := by
    intro i hi
    induction hi with
    | here i h => rw [hO i] at h; cases h
    | next k hk h ih => exact ih
  refine ⟨fun hd => (C85_tree_no_deadlock_partial hN ho hI (fun i hi => absurd hi (hb i)) (fun k _ hi => absurd hi (hb _)) h hd.1).1 hd.2, ?_⟩
  intro hr i
  have hsg := reach_single hN h
  obtain ⟨_, t, ht⟩ := reach_told hN (G := fun _ => False) (fun _ h => h.elim) h
  induction i using Nat.strongRecOn with
  | _ i ih =>
    intro hi
    by_cases h0 : i = 0
    · subst h0
      cases hres : s.result with
      | none => exact absurd hres hr
      | some r => exact (ht.result r hres).1
    · obtain ⟨k, hk, hd⟩ := hN.fed i (Nat.pos_of_ne_zero h0) hi
      have hf := hN.fwd k hk
      have := hsg k hk (hO _) (by rw [ih (N.src k) (by omega) (by omega)]; rfl)
      rw [hd] at this; exact this

/-! ## The pipeline of the updater -/

theorem manager_wf {w : Nat} (hw : 0 < w) (fn : Nat → Fn α σ) : (managerNet w fn).WF := by
  have hww : w ≤ w * w := Nat.le_mul_of_pos_left w hw
  refine ⟨Nat.succ_pos _, ?_, ?_⟩
  · intro k hk
    simp only [managerNet, managerSrc, managerDst] at hk ⊢
    split
    · omega
    · split
      · omega
      · split
        · omega
        · split
          · omega
          · split
            · rename_i h5
              have h1 : (k - 5 * w) / w < w := by rw [Nat.div_lt_iff_lt_mul hw]; omega
              have h2 : (k - 5 * w) % w < w := Nat.mod_lt _ hw
              omega
            · omega
  · intro j h0 hj
    simp only [managerNet, managerDst] at hj ⊢
    have hsp : j ≤ 2 * w ∨ (2 * w < j ∧ j ≤ 3 * w) ∨ (3 * w < j ∧ j ≤ 4 * w) ∨ (4 * w < j ∧ j ≤ 5 * w) ∨ (5 * w < j ∧ j ≤ 6 * w) ∨ 6 * w < j := by omega
    rcases hsp with h | h | h | h | h | h
    · exact ⟨j - 1, by omega, by rw [if_pos (by omega)]; omega⟩
    · exact ⟨j - 1, by omega, by rw [if_neg (by omega), if_pos (by omega)]; omega⟩
    · exact ⟨j - 1, by omega, by rw [if_neg (by omega), if_neg (by omega), if_pos (by omega)]; omega⟩
    · exact ⟨j - 1, by omega, by rw [if_neg (by omega), if_neg (by omega), if_neg (by omega), if_pos (by omega)]; omega⟩
    · refine ⟨j - 1, by omega, ?_⟩
      rw [if_neg (by omega), if_neg (by omega), if_neg (by omega), if_neg (by omega), if_pos (by omega)]
      rw [Nat.mod_eq_of_lt (by omega)]
      omega
    · exact ⟨j - 1 - 6 * w + (5 * w + w * w), by omega,
        by rw [if_neg (by omega), if_neg (by omega), if_neg (by omega), if_neg (by omega), if_neg (by omega)]; omega⟩

/-- **C85** (the updater): with any number of workers, if no stage function fails then the pipeline does not deadlock. -/
theorem C85_updater_success {w : Nat} (hw : 0 < w) {fn : Nat → Fn α σ} {s0 : Nat → σ} {script : List (Call α)} (hF : NoFail (managerNet w fn) script) (ho : OwnChannels (managerNet w fn) script)
    {s : St α σ} (h : Reach (managerNet w fn) s0 script s) : ¬ Deadlock (managerNet w fn) s := C85_success_no_deadlock (manager_wf hw fn) hF ho h

/-! ## Violations -/

def pendLen : Phase α → Nat
  | .sending pend _ _ _ _ => pend.length
  | _ => 0

/-- All events that can be enabled. -/
def events (N : Net α σ) (P : Nat) : List Ev :=
  [.poll, .wait] ++ ((List.range N.m).flatMap fun k => [.pull k, .forward k] ++ (List.range (P + 1)).flatMap fun p => [.push k p, .direct k p, .errFrom k p]) ++
  ((List.range N.n).flatMap fun i => [.closed i, .call i, .sent i, .close i] ++ (List.range (P + 1)).map fun p => .errNil i p)

theorem mem_events_k {N : Net α σ} {P k : Nat} (hk : k < N.m) {ev : Ev} (h : ev ∈ [Ev.pull k, .forward k] ++ (List.range (P + 1)).flatMap fun p => [Ev.push k p, .direct k p, .errFrom k p]) :
    ev ∈ events N P := by
  refine List.mem_append_left _ (List.mem_append_right _ ?_)
  exact List.mem_flatMap.mpr ⟨k, List.mem_range.mpr hk, h⟩

theorem mem_events_i {N : Net α σ} {P i : Nat} (hi : i < N.n) {ev : Ev} (h : ev ∈ [Ev.closed i, .call i, .sent i, .close i] ++ (List.range (P + 1)).map fun p => Ev.errNil i p) :
    ev ∈ events N P := List.mem_append_right _ (List.mem_flatMap.mpr ⟨i, List.mem_range.mpr hi, h⟩)

theorem recv_pos {m : Mode} {ph ph' : Phase α} {e : List Nat} {p P : Nat} (h : recv m ph e p = some ph') (hP : pendLen ph ≤ P) : p < P + 1 := by
  rcases recv_shape h with ⟨_, _, h⟩ | ⟨_, _, _, h⟩ | ⟨pend, rest, brk, err, found, h1, h2, _⟩
  · omega
  · omega
  · rw [h1] at hP; simp only [pendLen] at hP; omega

theorem enabled_mem {N : Net α σ} {s : St α σ} {P : Nat} (hsrc : ∀ k < N.m, N.src k < N.n) (hP : ∀ i < N.n, pendLen (s.phase i) ≤ P) {ev : Ev} {s' : St α σ} (h : exec N s ev = some s') :
    ev ∈ events N P := by
  have hp3 : ∀ {k p : Nat}, p < P + 1 → ∀ ev ∈ [Ev.push k p, .direct k p, .errFrom k p], ev ∈ [Ev.pull k, .forward k] ++ (List.range (P + 1)).flatMap fun p => [Ev.push k p, .direct k p, .errFrom k p] :=
    fun {k p} hp ev he => List.mem_append_right _ (List.mem_flatMap.mpr ⟨p, List.mem_range.mpr hp, he⟩)
  cases ev with
  | poll => exact List.mem_append_left _ (List.mem_append_left _ (List.mem_cons_self ..))
  | wait => exact List.mem_append_left _ (List.mem_append_left _ (List.mem_cons_of_mem _ (List.mem_cons_self ..)))
  | push k p =>
    simp only [exec] at h
    split at h
    · rename_i hph _
      split at h
      · rename_i hpe
        split at h
        · rename_i hc
          simp only [Bool.and_eq_true, decide_eq_true_eq] at hc
          have hb := hP _ (hsrc k hc.1.1.1)
          rw [hph] at hb
          have hlt := (List.getElem?_eq_some_iff.mp hpe).1
          simp only [pendLen] at hb
          exact mem_events_k hc.1.1.1 (hp3 (p := p) (by omega) _ (by simp))
        · cases h
      · cases h
    · cases h
  | direct k p =>
    simp only [exec] at h
    split at h
    · rename_i hph _
      split at h
      · rename_i hpe
        split at h
        · rename_i hc
          simp only [Bool.and_eq_true, decide_eq_true_eq] at hc
          have hb := hP _ (hsrc k hc.1.1.1)
          rw [hph] at hb
          have hlt := (List.getElem?_eq_some_iff.mp hpe).1
          simp only [pendLen] at hb
          exact mem_events_k hc.1.1.1 (hp3 (p := p) (by omega) _ (by simp))
        · cases h
      · cases h
    · cases h
  | pull k =>
    simp only [exec] at h
    split at h
    · split at h
      · rename_i hc; exact mem_events_k hc (by simp)
      · cases h
    · cases h
  | closed j =>
    simp only [exec] at h
    split at h
    · split at h
      · rename_i hc
        simp only [Bool.and_eq_true, decide_eq_true_eq] at hc
        exact mem_events_i hc.1.2 (by simp)
      · cases h
    · cases h
  | call i =>
    simp only [exec] at h
    split at h
    · rename_i hc; exact mem_events_i hc (by simp)
    · cases h
  | sent i =>
    simp only [exec] at h
    split at h
    · split at h
      · rename_i hc; exact mem_events_i hc (by simp)
      · cases h
    · cases h
  | close i =>
    simp only [exec] at h
    split at h
    · split at h
      · rename_i hc; exact mem_events_i hc (by simp)
      · cases h
    · cases h
  | forward k =>
    simp only [exec] at h
    split at h
    · split at h
      · rename_i hc
        simp only [Bool.and_eq_true, decide_eq_true_eq] at hc
        exact mem_events_k hc.1 (by simp)
      · cases h
    · cases h
  | errFrom k p =>
    simp only [exec] at h
    split at h
    · rename_i hk
      split at h
      · split at h
        · split at h
          · rename_i hr; exact mem_events_k hk (hp3 (recv_pos hr (hP _ (hsrc k hk))) _ (by simp))
          · cases h
        · cases h
      · split at h
        · split at h
          · rename_i hr; exact mem_events_k hk (hp3 (recv_pos hr (hP _ (hsrc k hk))) _ (by simp))
          · cases h
        · cases h
    · cases h
  | errNil i p =>
    simp only [exec] at h
    split at h
    · rename_i hc
      simp only [Bool.and_eq_true, decide_eq_true_eq] at hc
      split at h
      · rename_i hr
        exact mem_events_i hc.1 (List.mem_append_right _ (List.mem_map.mpr ⟨p, List.mem_range.mpr (recv_pos hr (hP _ hc.1)), rfl⟩))
      · cases h
    · cases h

theorem stuck_of {N : Net α σ} {s : St α σ} (P : Nat) (hsrc : ((List.range N.m).all fun k => decide (N.src k < N.n)) = true)
    (hP : ((List.range N.n).all fun i => decide (pendLen (s.phase i) ≤ P)) = true) (h : ((events N P).all fun ev => (exec N s ev).isNone) = true) : Stuck N s := by
  simp only [List.all_eq_true, List.mem_range, decide_eq_true_eq] at hsrc hP
  intro ev
  cases he : exec N s ev with
  | none => rfl
  | some s' =>
    have := List.all_eq_true.mp h ev (enabled_mem hsrc hP he)
    rw [he] at this
    cases this

/-- A stage that passes what it gets to the channels `outs`, one batch. -/
def passOn (outs : List Nat) : Fn Nat Unit := ⟨fun s v => (s, ⟨[outs.map fun k => (k, v)], .go⟩), fun s => (s, ⟨[], .go⟩)⟩
/-- A stage whose process function returns an error, or `NoMoreData`. -/
def always (o : Outcome) : Fn Nat Unit := ⟨fun s _ => (s, ⟨[], o⟩), fun s => (s, ⟨[], .go⟩)⟩

/-- The updater with one worker; the stage that inserts certificates in the DB (`E1`) fails. -/
def updaterFailing : Net Nat Unit := managerNet 1 fun i => if i = 4 then always (.fail 1) else passOn ((managerNet 1 (fun _ => passOn [])).outs i)

/-- Two certificates. -/
def twoCerts : List (Call Nat) := [⟨[[(0, 1), (1, 1)]], .go⟩, ⟨[[(0, 2), (1, 2)]], .go⟩]

def updaterTrace : List Ev :=
  [.poll, .call 0, .direct 0 0, .direct 1 0, .sent 0,
   .call 1, .direct 2 0, .sent 1, .call 3, .direct 3 0, .sent 3, .call 4, .close 4,
   .closed 5, .call 5, .sent 5, .close 5, .errNil 5 0, .errNil 4 0,
   .errFrom 3 0, .close 3, .errNil 3 0, .errFrom 2 0, .close 1, .errNil 1 0, .forward 0,
   .call 2, .direct 5 0, .sent 2, .call 6, .direct 6 0, .sent 6, .call 7, .direct 7 0, .sent 7, .call 8, .direct 8 0, .sent 8, .call 9, .sent 9,
   .poll, .call 0, .errFrom 0 1]

/-- **C85** is violated by the updater: an error of the DB when certificates are inserted can make it hang for ever instead of being returned: the goroutine of the source that sends the next
certificate to the domain extractor takes the error, the one that sends it to the batcher that has ended waits for ever. -/
theorem C85_updater_hang_violated : ∃ s, Reach updaterFailing (fun _ => ()) twoCerts s ∧ Deadlock updaterFailing s ∧ ¬ NoFailure updaterFailing s := by
  refine ⟨(run updaterFailing (St.init (fun _ => ()) twoCerts) updaterTrace).get (by decide +kernel), ⟨updaterTrace, (Option.some_get _).symm⟩,
    ⟨stuck_of 2 (by decide +kernel) (by decide +kernel) (by decide +kernel), by decide +kernel⟩, ?_⟩
  intro h
  have h4 := h 4 (by decide)
  revert h4
  decide +kernel

/-! Smaller networks -/

/-- The source and two stages after it. -/
def fork (f g : Fn Nat Unit) : Net Nat Unit := ⟨3, 2, fun _ => 0, fun k => k + 1, fun _ => .concurrent, fun i => if i = 1 then f else g⟩

theorem fork_wf (f g : Fn Nat Unit) : (fork f g).WF := by
  refine ⟨Nat.succ_pos _, ?_, ?_⟩
  · intro k hk; simp only [fork] at hk ⊢; omega
  · intro j h0 hj; simp only [fork] at hj ⊢; exact ⟨j - 1, by omega, by omega⟩

theorem fork_noFanIn (f g : Fn Nat Unit) : NoFanIn (fork f g) := by
  intro j
  have : (fork f g).ins j = (List.range 2).filter fun k => k + 1 == j := rfl
  simp only [Net.multiIn, this, decide_eq_false_iff_not, List.range, List.range.loop, List.filter]
  split <;> split <;> simp_all <;> omega

/-- A source that puts one output at a time on channel 0. -/
def oneByOne : List (Call Nat) := [⟨[[(0, 1)]], .go⟩, ⟨[[(0, 2)]], .go⟩]

def stopTrace : List Ev := [.poll, .call 0, .direct 0 0, .sent 0, .call 1, .sent 1, .close 1, .errNil 1 0, .poll, .call 0]

/-- **C85** (`NoMoreData` after a fan-out) is violated: a stage says `NoMoreData`, the stage before it, that has another one after it, sends it the next value for ever. No function fails, all
stages are careful, there is no fan-in. -/
theorem C85_stop_violated : (fork (always .stop) (passOn [])).WF ∧ OwnChannels (fork (always .stop) (passOn [])) oneByOne ∧ NoFanIn (fork (always .stop) (passOn [])) ∧
    (∀ i, Careful (fork (always .stop) (passOn [])) oneByOne i) ∧
    ∃ s, Reach (fork (always .stop) (passOn [])) (fun _ => ()) oneByOne s ∧ Deadlock (fork (always .stop) (passOn [])) s ∧ NoFailure (fork (always .stop) (passOn [])) s := by
  refine ⟨fork_wf _ _, ⟨?_, ?_, ?_⟩, fork_noFanIn _ _, ?_, ?_⟩
  · intro i s v b hb x hx
    simp only [fork] at hb
    split at hb <;> simp [always, passOn] at hb
    rw [hb] at hx; cases hx
  · intro i s b hb
    simp only [fork] at hb
    split at hb <;> simp [always, passOn] at hb
  · intro c hc b hb x hx
    simp only [oneByOne, List.mem_cons, List.not_mem_nil, or_false] at hc
    rcases hc with hc | hc <;> subst hc <;> simp at hb <;> subst hb <;> simp at hx <;> subst hx <;> exact ⟨by decide, rfl⟩
  · intro i
    refine .inr ⟨?_, ?_, ?_⟩
    · intro s v b hb
      simp only [fork] at hb
      split at hb <;> simp [always, passOn] at hb
      simp [hb]
    · intro s b hb
      simp only [fork] at hb
      split at hb <;> simp [always, passOn] at hb
    · intro _ c hc b hb
      simp only [oneByOne, List.mem_cons, List.not_mem_nil, or_false] at hc
      rcases hc with hc | hc <;> subst hc <;> simp at hb <;> subst hb <;> simp
  · refine ⟨(run (fork (always .stop) (passOn [])) (St.init (fun _ => ()) oneByOne) stopTrace).get (by decide +kernel), ⟨stopTrace, (Option.some_get _).symm⟩,
      ⟨stuck_of 2 (by decide +kernel) (by decide +kernel) (by decide +kernel), by decide +kernel⟩, ?_⟩
    have : ∀ i < 3, ((run (fork (always .stop) (passOn [])) (St.init (fun _ => ()) oneByOne) stopTrace).get (by decide +kernel)).fails i = [] := by decide +kernel
    exact this

/-- The source, two stages, and two stages that both of those send to: as the domain extractors and the domain batchers of the updater. -/
def diamond (f : Fn Nat Unit) : Net Nat Unit :=
  ⟨5, 6, fun k => if k < 2 then 0 else if k < 4 then 1 else 2, fun k => if k < 2 then k + 1 else if k % 2 = 0 then 3 else 4, fun _ => .concurrent,
    fun i => if i = 1 then passOn [2] else if i = 2 then passOn [4] else if i = 3 then f else passOn []⟩

theorem diamond_wf (f : Fn Nat Unit) : (diamond f).WF := by
  refine ⟨Nat.succ_pos _, ?_, ?_⟩
  · intro k hk
    have hk : k < 6 := hk
    have h6 : k = 0 ∨ k = 1 ∨ k = 2 ∨ k = 3 ∨ k = 4 ∨ k = 5 := by omega
    rcases h6 with h | h | h | h | h | h <;> subst h <;> exact ⟨Nat.lt_of_sub_pos (Nat.succ_pos _), Nat.lt_of_sub_pos (Nat.succ_pos _)⟩
  · intro j h0 hj
    have hj : j < 5 := hj
    have h4 : j = 1 ∨ j = 2 ∨ j = 3 ∨ j = 4 := by omega
    rcases h4 with h | h | h | h <;> subst h
    · exact ⟨0, Nat.succ_pos _, rfl⟩
    · exact ⟨1, Nat.lt_of_sub_pos (Nat.succ_pos _), rfl⟩
    · exact ⟨2, Nat.lt_of_sub_pos (Nat.succ_pos _), rfl⟩
    · exact ⟨3, Nat.lt_of_sub_pos (Nat.succ_pos _), rfl⟩

def diamondTrace : List Ev := [.poll, .call 0, .direct 0 0, .sent 0, .call 1, .push 2 0, .sent 1, .pull 2, .call 3, .close 3, .errNil 3 0, .forward 2, .poll, .call 0, .errFrom 2 0, .close 1]

/-- **C85** (a failure behind a fan-in) is violated, even if all stages are careful and none says `NoMoreData`: the stage that receives the error waits for all next stages, one of those waits
for its other inputs, these wait for the source, and the source sends to the stage that received the error. -/
theorem C85_fanin_violated : (diamond (always (.fail 1))).WF ∧ (∀ i, Careful (diamond (always (.fail 1))) oneByOne i) ∧ (∀ i, NeverStops (diamond (always (.fail 1))) i) ∧
    ∃ s, Reach (diamond (always (.fail 1))) (fun _ => ()) oneByOne s ∧ Deadlock (diamond (always (.fail 1))) s := by
  refine ⟨diamond_wf _, ?_, ?_, ?_⟩
  · intro i
    refine .inr ⟨?_, ?_, ?_⟩
    · intro s v b hb
      simp only [diamond] at hb
      split at hb
      · simp [passOn] at hb; simp [hb]
      · split at hb
        · simp [passOn] at hb; simp [hb]
        · split at hb <;> simp [always, passOn] at hb
          simp [hb]
    · intro s b hb
      simp only [diamond] at hb
      split at hb
      · simp [passOn] at hb
      · split at hb
        · simp [passOn] at hb
        · split at hb <;> simp [always, passOn] at hb
    · intro _ c hc b hb
      simp only [oneByOne, List.mem_cons, List.not_mem_nil, or_false] at hc
      rcases hc with hc | hc <;> subst hc <;> simp at hb <;> subst hb <;> simp
  · intro i s v
    simp only [diamond]
    split
    · simp [passOn]
    · split
      · simp [passOn]
      · split <;> simp [always, passOn]
  · exact ⟨(run (diamond (always (.fail 1))) (St.init (fun _ => ()) oneByOne) diamondTrace).get (by decide +kernel), ⟨diamondTrace, (Option.some_get _).symm⟩,
      ⟨stuck_of 2 (by decide +kernel) (by decide +kernel) (by decide +kernel), by decide +kernel⟩⟩

/-- One value for each branch. -/
def oneEach : List (Call Nat) := [⟨[[(0, 1)]], .go⟩, ⟨[[(1, 2)]], .go⟩]

def earlyTrace : List Ev :=
  [.poll, .call 0, .direct 0 0, .sent 0, .poll, .call 0, .direct 1 0, .sent 0, .call 1, .close 1, .errNil 1 0, .forward 0, .poll, .call 0, .sent 0, .close 0, .errFrom 0 0, .wait, .call 2]

/-- **C85** (`Wait` returns after all stages have ended; it returns all errors) is violated: `Wait` has returned the error of one branch; the other one was still running and has failed
after that. No fan-in, all stages careful. -/
theorem C85_early_violated : ∃ s, Reach (fork (always (.fail 1)) (always (.fail 2))) (fun _ => ()) oneEach s ∧ s.result = some [1] ∧ s.phase 2 = .breaking [2] ∧ s.fails 2 = [2] :=
  ⟨(run (fork (always (.fail 1)) (always (.fail 2))) (St.init (fun _ => ()) oneEach) earlyTrace).get (by decide +kernel), ⟨earlyTrace, (Option.some_get _).symm⟩,
    by decide +kernel, by decide +kernel, by decide +kernel⟩

/-- A source and a sink. -/
def pair (f : Fn Nat Unit) : Net Nat Unit := ⟨2, 1, fun _ => 0, fun _ => 1, fun _ => .concurrent, fun _ => f⟩

/-- One call with three outputs. -/
def threeAtOnce : List (Call Nat) := [⟨[[(0, 1), (0, 2), (0, 3)]], .go⟩]

def lostTrace : List Ev := [.poll, .call 0, .direct 0 0, .call 1, .close 1, .errNil 1 0, .errFrom 0 0, .errNil 0 0, .sent 0, .close 0, .errNil 0 0, .wait]

/-- **C85** (nil means success) is violated if a stage has several outputs at a time: `Wait` returned nil, and the sink had failed. -/
theorem C85_nil_violated : ∃ s, Reach (pair (always (.fail 1))) (fun _ => ()) threeAtOnce s ∧ s.result = some [] ∧ s.fails 1 = [1] :=
  ⟨(run (pair (always (.fail 1))) (St.init (fun _ => ()) threeAtOnce) lostTrace).get (by decide +kernel), ⟨lostTrace, (Option.some_get _).symm⟩, by decide +kernel, by decide +kernel⟩

/-! ## The hypotheses can be met -/

/-- The updater with two workers, all stages passing on what they get. -/
def updaterPassing : Net Nat Unit := managerNet 2 fun i => passOn ((managerNet 2 (fun _ => passOn [])).outs i)

theorem passing_noFail : NoFail updaterPassing twoCerts :=
  ⟨fun _ _ _ => rfl, (by intro i s e h; cases h), (by intro c hc; simp only [twoCerts, List.mem_cons, List.not_mem_nil, or_false] at hc; rcases hc with h | h <;> subst h <;> rfl)⟩

example : NoFail updaterPassing twoCerts ∧ EndOnce updaterPassing ∧ OwnChannels updaterPassing twoCerts := by
  refine ⟨passing_noFail, fun i s => Nat.zero_le _, ⟨?_, ?_, ?_⟩⟩
  · intro i s v b hb x hx
    simp only [updaterPassing, managerNet, passOn, List.mem_singleton] at hb
    subst hb
    obtain ⟨k, hk, he⟩ := List.mem_map.mp hx
    subst he
    exact mem_outs.mp hk
  · intro i s b hb; cases hb
  · intro c hc b hb x hx
    simp only [twoCerts, List.mem_cons, List.not_mem_nil, or_false] at hc
    rcases hc with hc | hc <;> subst hc <;> simp at hb <;> subst hb <;> simp at hx <;> rcases hx with hx | hx <;> subst hx <;> exact ⟨by decide, rfl⟩

/-- A complete execution of a chain, with a sink that fails: `Wait` returns its error. -/
example : ∃ s, Reach (pair (always (.fail 7))) (fun _ => ()) oneByOne s ∧ s.result = some [7] ∧ AllFinished (pair (always (.fail 7))) s := by
  refine ⟨(run (pair (always (.fail 7))) (St.init (fun _ => ()) oneByOne) [.poll, .call 0, .direct 0 0, .sent 0, .call 1, .close 1, .errNil 1 0, .poll, .call 0, .errFrom 0 0, .sent 0, .close 0,
    .errNil 0 0, .wait]).get (by decide +kernel), ⟨_, (Option.some_get _).symm⟩, by decide +kernel, ?_⟩
  have : ∀ i < 2, ((run (pair (always (.fail 7))) (St.init (fun _ => ()) oneByOne) [.poll, .call 0, .direct 0 0, .sent 0, .call 1, .close 1, .errNil 1 0, .poll, .call 0, .errFrom 0 0, .sent 0, .close 0,
    .errNil 0 0, .wait]).get (by decide +kernel)).phase i = .finished := by decide +kernel
  exact this

/-- A complete execution of a chain without failure. -/
example : ∃ s, Reach (pair (passOn [])) (fun _ => ()) threeAtOnce s ∧ s.result = some [] ∧ s.got 1 = [(0, 2), (0, 1), (0, 3)] :=
  ⟨(run (pair (passOn [])) (St.init (fun _ => ()) threeAtOnce) [.poll, .call 0, .direct 0 1, .call 1, .sent 1, .direct 0 0, .call 1, .sent 1, .direct 0 0, .call 1, .sent 1, .sent 0, .poll, .call 0, .sent 0, .close 0,
    .closed 1, .call 1, .sent 1, .close 1, .errNil 1 0, .errNil 0 0, .wait]).get (by decide +kernel), ⟨_, (Option.some_get _).symm⟩, by decide +kernel, by decide +kernel⟩

/-- A fork with a branch that fails: the hypotheses of the theorem on trees are met. -/
example : (fork (always (.fail 1)) (passOn [])).WF ∧ NoFanIn (fork (always (.fail 1)) (passOn [])) ∧ (∀ i, Careful (fork (always (.fail 1)) (passOn [])) oneByOne i) ∧
    ∀ i, NeverStops (fork (always (.fail 1)) (passOn [])) i := by
  refine ⟨fork_wf _ _, fork_noFanIn _ _, fun i => .inr ⟨?_, ?_, ?_⟩, ?_⟩
  · intro s v b hb
    simp only [fork] at hb
    split at hb <;> simp [always, passOn] at hb
    simp [hb]
  · intro s b hb
    simp only [fork] at hb
    split at hb <;> simp [always, passOn] at hb
  · intro _ c hc b hb
    simp only [oneByOne, List.mem_cons, List.not_mem_nil, or_false] at hc
    rcases hc with hc | hc <;> subst hc <;> simp at hb <;> subst hb <;> simp
  · intro i s v
    simp only [fork]
    split <;> simp [always, passOn]

end Fpki.Pipe
