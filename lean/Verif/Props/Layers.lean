import Verif.Lemmas.LayersFail
import Verif.Lemmas.LayersOn
import Verif.Props.Rows
import Verif.Model.LayersIngest
/-!
# C96: the part of ingest that reads files

Layers of stages joined by `LinkStagesDistribute` and `LinkStagesCrissCross`, in any interleaving of the goroutines. `Wait` should return, with nil exactly when everything was read and no
function failed, after all stages have ended and every output has arrived.
-/
namespace Fpki.Layers
open Fpki.Stage (Mode)
open Fpki.Pipe (Outcome Call Fn Phase upd recv recv_shape Triple tripleLt tripleLt_wf LexLt lexLt_wf calls everything scriptOuts tight todo PhaseAll NodeOk SrcOk)

variable {α σ : Type}

/-! ## Specification -/

/-- The states that the pipeline can reach. -/
def Reach (N : Net α σ) (s0 : Nat → σ) (script : List (Call α)) (s : St α σ) : Prop := ∃ es, run N (St.init s0 script) es = some s

/-- Nothing can happen any more. -/
def Stuck (N : Net α σ) (s : St α σ) : Prop := ∀ ev, exec N s ev = none

/-- `Wait` has not returned and never will. -/
def Deadlock (N : Net α σ) (s : St α σ) : Prop := Stuck N s ∧ s.result = none

/-- No function has returned an error. -/
def NoFailure (N : Net α σ) (s : St α σ) : Prop := ∀ i < N.n, s.fails i = []

/-- All stages have ended. -/
def AllFinished (N : Net α σ) (s : St α σ) : Prop := ∀ i < N.n, s.phase i = .finished

/-- At most one output at a time, or the sending mode that gives up all outputs after an error. -/
def Careful (N : Net α σ) (script : List (Call α)) (i : Nat) : Prop :=
  N.mode i = .cycles ∨ ((∀ s v, ∀ b ∈ ((N.fn i).process s v).2.batches, b.length ≤ 1) ∧ (∀ s, ∀ b ∈ ((N.fn i).finish s).2.batches, b.length ≤ 1) ∧
    (i = 0 → ∀ c ∈ script, ∀ b ∈ c.batches, b.length ≤ 1))

/-! ## Lemmas -/

theorem stuck_iff {N : Net α σ} {s : St α σ} : Stuck N s ↔ ¬ CanStep N s := by
  constructor
  · rintro h ⟨ev, he⟩; rw [h ev] at he; cases he
  · intro h ev
    cases he : exec N s ev with
    | none => rfl
    | some s' => exact absurd ⟨ev, by rw [he]; rfl⟩ h

theorem reach_own {N : Net α σ} {s0 : Nat → σ} {script : List (Call α)} (ho : OwnChannels N script) {s : St α σ} (h : Reach N s0 script s) : ∀ i, PhaseAll (Own N i) (s.phase i) := by
  obtain ⟨es, h⟩ := h
  exact (run_inv (fun _ _ h hs => allInv_step (own_hereditary N) ho h hs) h (allInv_init ho s0)).phase

theorem reach_nf {N : Net α σ} (hN : N.WF) {s0 : Nat → σ} {script : List (Call α)} (hF : NoFail N script) {s : St α σ} (h : Reach N s0 script s) : NF N s := by
  obtain ⟨es, h⟩ := h
  exact run_inv (fun _ _ h hs => nf_step hN hF h hs) h (nf_init hF s0)

theorem careful_keeps {N : Net α σ} {script : List (Call α)} (h : ∀ i, Careful N script i) : NetAll (Keeps N) N script := by
  refine ⟨?_, ?_, ?_⟩
  · intro i s v b hb
    rcases h i with h | h
    · exact .inl h
    · exact .inr (h.1 s v b hb)
  · intro i s b hb
    rcases h i with h | h
    · exact .inl h
    · exact .inr (h.2.1 s b hb)
  · intro c hc b hb
    rcases h 0 with h | h
    · exact .inl h
    · exact .inr (h.2.2 rfl c hc b hb)

theorem reach_fi {N : Net α σ} (hN : N.WF) {s0 : Nat → σ} {script : List (Call α)} (hC : ∀ i, Careful N script i) (hS : NeverStops N) {s : St α σ} (h : Reach N s0 script s) : FI N s := by
  obtain ⟨es, h⟩ := h
  refine (run_inv (P := fun s => AllInv (Keeps N) s ∧ SrcOnly s ∧ FI N s) ?_ h ⟨allInv_init (careful_keeps hC) s0, (by intro i c h; cases h), fi_init N s0 script⟩).2.2
  rintro s s' ⟨h1, h2, h3⟩ hs
  exact ⟨allInv_step (keeps_hereditary N) (careful_keeps hC) h1 hs, srcOnly_step h2 hs, fi_step hN hS h1 h2 h3 hs⟩

/-! ## Theorems -/

/-- **C96** (every such pipeline ends): whatever the functions do, however the goroutines interleave, there is no infinite execution. -/
theorem C96_terminates {N : Net α σ} (hN : N.WF) (f : Nat → St α σ) : ¬ ∀ i, ∃ ev, exec N (f i) ev = some (f (i + 1)) := by
  intro h
  have wf : WellFounded (LexLt tripleLt (N.n + 1)) := lexLt_wf tripleLt_wf (N.n + 1)
  have key : ∀ g : Nat → Triple, ∀ i, mu N (f i) = g → False := by
    intro g
    induction g using wf.induction with
    | _ g ih =>
      intro i hi
      obtain ⟨ev, he⟩ := h i
      exact ih (mu N (f (i + 1))) (hi ▸ step_mu hN (exec_step he)) (i + 1) rfl
  exact key _ 0 rfl

/-- **C96** (without failures, no deadlock). -/
theorem C96_success_no_deadlock {N : Net α σ} (hN : N.WF) {s0 : Nat → σ} {script : List (Call α)} (hF : NoFail N script) (ho : OwnChannels N script) {s : St α σ} (h : Reach N s0 script s) :
    ¬ Deadlock N s := by
  rintro ⟨hs, hr⟩
  exact stuck_iff.mp hs (nf_progress hN (reach_nf hN hF h) (reach_own ho h) hr)

/-- **C96** (without failures, nothing is lost, nothing is doubled): when `Wait` has returned, it has returned nil, all stages have ended, and the stages of a layer together have got exactly the
outputs that the functions of the stages of the layer before return for what these have got, up to order. -/
theorem C96_success_complete {N : Net α σ} (hN : N.WF) {s0 : Nat → σ} {script : List (Call α)} (hF : NoFail N script) (hE : EndOnce N) {s : St α σ} (h : Reach N s0 script s)
    {r : List Nat} (hr : s.result = some r) :
    r = [] ∧ AllFinished N s ∧ ∀ l, ((N.members (l + 1)).flatMap s.got).Perm ((N.members l).flatMap (produced N s0 script s.got)) := by
  have hnf := reach_nf hN hF h
  obtain ⟨h1, h2⟩ := hnf.result r hr
  have hfin : ∀ d, ∀ i < N.n, N.layer i = d → s.phase i = .finished := by
    intro d
    induction d with
    | zero => intro i hi hl; rw [(hN.zero i hi).mp hl]; exact h2
    | succ d ih =>
      intro j hj hl
      obtain ⟨i, hi, hil⟩ := hN.gap j hj d (by omega)
      exact hnf.finished i (ih i hi hil) j (mem_members.mpr ⟨hj, by omega⟩)
  refine ⟨h1, fun i hi => hfin _ i hi rfl, ?_⟩
  have hout : ∃ O, OutInv N s0 script s O := by
    obtain ⟨es, h⟩ := h
    refine (run_inv (P := fun s => NF N s ∧ (∀ i, tight (s.phase i)) ∧ ∃ O, OutInv N s0 script s O) ?_ h ⟨nf_init hF s0, fun _ => trivial, _, outInv_init N s0 script⟩).2.2
    rintro s s' ⟨p1, p2, p3⟩ hs
    exact ⟨nf_step hN hF p1 hs, tight_step p2 hs, outInv_step hN hF hE p1 p2 p3 hs⟩
  obtain ⟨O, hO⟩ := hout
  intro l
  have e1 : ((N.members l).flatMap fun i => vals (O i)) = (N.members l).flatMap (produced N s0 script s.got) := by
    refine List.flatMap_congr fun i hi => ?_
    have hp := hfin _ i (mem_members.mp hi).1 rfl
    have hok := hO.node i
    rw [hp] at hok
    unfold Ok at hok
    unfold produced vals
    split at hok
    · rename_i e; rw [if_pos e, show O i = scriptOuts script from hok]
    · rename_i e; rw [if_neg e, show O i = everything (N.fn i) (s0 i) (s.got i) from hok]
  have e2 : ((N.members l).flatMap fun i => vals (todo (s.phase i))) = [] := by
    rw [List.flatMap_eq_nil_iff]
    intro i hi
    rw [hfin _ i (mem_members.mp hi).1 rfl]; rfl
  have := hO.flow l
  rw [e1, e2, List.append_nil] at this
  exact this.symm

/-- **C96** (`Wait` returns, whatever fails): if all stages put out one value at a time and only the source ends by itself, there is no deadlock. (In a network with separate channels this is false: C85.) -/
theorem C96_wait_returns_partial {N : Net α σ} (hN : N.WF) {s0 : Nat → σ} {script : List (Call α)} (ho : OwnChannels N script) (hC : ∀ i, Careful N script i) (hS : NeverStops N) {s : St α σ}
    (h : Reach N s0 script s) : ¬ Deadlock N s := by
  rintro ⟨hs, hr⟩
  exact stuck_iff.mp hs (fi_progress hN (reach_fi hN hC hS h) (reach_own ho h) hr)

/-- **C96** (nil means success): if `Wait` has returned nil, all stages have ended and no function has failed. -/
theorem C96_nil_success_partial {N : Net α σ} (hN : N.WF) {s0 : Nat → σ} {script : List (Call α)} (hC : ∀ i, Careful N script i) (hS : NeverStops N) {s : St α σ}
    (h : Reach N s0 script s) (hr : s.result = some []) : AllFinished N s ∧ NoFailure N s := by
  have := fi_quiet hN (reach_fi hN hC hS h) hr
  refine ⟨fun i hi => (this i hi).1, fun i hi => ?_⟩
  apply Classical.byContradiction
  intro hf
  exact (this i hi).2 (.inl hf)

/-- **C96** (no error is invented): what `Wait` returns are errors that functions have returned. -/
theorem C96_errors_real {N : Net α σ} {s0 : Nat → σ} {script : List (Call α)} {s : St α σ} (h : Reach N s0 script s) {r : List Nat} (hr : s.result = some r) :
    ∀ e ∈ r, ∃ i < N.n, e ∈ s.fails i := by
  obtain ⟨es, h⟩ := h
  exact (run_inv (P := fun s => Known N s) (fun _ _ h hs => known_step h hs) h (known_init N s0 script)).result r hr

/-! ## The network of ingest -/

theorem ingest_wf {S W C : Nat} (hS : 0 < S) (hW : 0 < W) (fn : Nat → Fn α σ) : (ingestNet S W C fn).WF := by
  refine ⟨?_, ?_, ?_, ?_⟩
  · simp only [ingestNet]; omega
  · intro i hi; simp only [ingestNet]; split <;> (try split) <;> (try split) <;> omega
  · intro i j hi hj; simp only [ingestNet] at *; (repeat' split) <;> omega
  · intro j hj l hl
    simp only [ingestNet] at *
    have : l < 3 := by revert hl; (repeat' split) <;> omega
    have hl3 : l = 0 ∨ l = 1 ∨ l = 2 := by omega
    rcases hl3 with h | h | h <;> subst h
    · exact ⟨0, by omega, rfl⟩
    · exact ⟨1, by omega, by rw [if_neg (by omega), if_pos (by omega)]⟩
    · exact ⟨1 + S, by omega, by rw [if_neg (by omega), if_neg (by omega), if_pos (by omega)]⟩

theorem ingest_layer {S W C : Nat} {fn : Nat → Fn α σ} {i : Nat} : (ingestNet S W C fn).layer i = 0 ↔ i = 0 := by
  simp only [ingestNet]; (repeat' split) <;> omega

theorem ingest_next {S W C : Nat} (hS : 0 < S) (hW : 0 < W) (hC : 0 < C) {fn : Nat → Fn α σ} {l : Nat} (h : l < 3) : (ingestNet S W C fn).members (l + 1) ≠ [] := by
  have hl3 : l = 0 ∨ l = 1 ∨ l = 2 := by omega
  have : ∃ i, i ∈ (ingestNet S W C fn).members (l + 1) := by
    rcases hl3 with h | h | h <;> subst h
    · exact ⟨1, mem_members.mpr ⟨by simp only [ingestNet]; omega, by simp only [ingestNet]; rw [if_neg (by omega), if_pos (by omega)]⟩⟩
    · exact ⟨1 + S, mem_members.mpr ⟨by simp only [ingestNet]; omega, by simp only [ingestNet]; rw [if_neg (by omega), if_neg (by omega), if_pos (by omega)]⟩⟩
    · exact ⟨1 + S + W, mem_members.mpr ⟨by simp only [ingestNet]; omega, by simp only [ingestNet]; rw [if_neg (by omega), if_neg (by omega), if_neg (by omega)]⟩⟩
  obtain ⟨i, hi⟩ := this
  exact List.ne_nil_of_mem hi


open Fpki.Rows (RawLine Now W Stats readFile parseLine Decodes worker Entry FileText WrittenRow csvRead)
open Fpki.Chains (X509 Consistent)

/-- The lines of a file that are sent. -/
def linesOf : Msg → List RawLine
  | .file (.content bad cl c) => (readFile csvRead bad cl c).1
  | _ => []

def asLine : Msg → Option RawLine
  | .line l => some l
  | _ => none

/-- A message that no function of the network fails on. -/
def Fine (parse : Bytes → Option X509) (skip : Bool) : Msg → Prop
  | .file .missing => skip = true
  | .file .unreadable => False
  | .file (.content bad cl c) => ∀ l ∈ (readFile csvRead bad cl c).1, ∃ L, Decodes parse l L
  | .line l => ∃ L, Decodes parse l L
  | .chain .. => True

section
variable {H : Bytes → Bytes} {parse : Bytes → Option X509} {size : Nat} {now : Now} {skip : Bool} {S W' C : Nat}

theorem parseLine_fine {w : W} {l : RawLine} (h : ∃ L, Decodes parse l L) : (parseLine H parse size now w l).2 ≠ .error := by
  obtain ⟨L, h⟩ := h
  rw [(Rows.parseLine_decodes H parse size now w h).2]
  unfold Rows.outcomeOf
  split <;> intro h <;> cases h

theorem filesNet_fn (i : Nat) : ((filesNet H parse size now skip S W' C).fn i = splitFn skip ∧ i < 1 + S) ∨ ((filesNet H parse size now skip S W' C).fn i = chainFn H parse size now ∧ 1 + S ≤ i ∧ i < 1 + S + W') ∨
    ((filesNet H parse size now skip S W' C).fn i = certFn ∧ 1 + S + W' ≤ i) := by
  simp only [filesNet, ingestNet]
  split
  · exact .inl ⟨rfl, by assumption⟩
  · split
    · exact .inr (.inl ⟨rfl, by omega, by assumption⟩)
    · exact .inr (.inr ⟨rfl, by omega⟩)

theorem files_finish (i : Nat) (s : W) : (((filesNet H parse size now skip S W' C).fn i).finish s).2 = ⟨[], .go⟩ := by
  rcases filesNet_fn (H := H) (parse := parse) (size := size) (now := now) (skip := skip) (S := S) (W' := W') (C := C) i with h | h | h <;> rw [h.1] <;> rfl

/-- What the functions put out. -/
theorem files_process (i : Nat) (s : W) (v : Msg) {b : List (Nat × Msg)} (hb : b ∈ (((filesNet H parse size now skip S W' C).fn i).process s v).2.batches) :
    (i < 1 + S ∧ ∃ l ∈ linesOf v, b = [(0, .line l)]) ∨ (1 + S ≤ i ∧ i < 1 + S + W' ∧ ∃ leaf ps ids, b = [(0, .chain leaf ps ids)]) := by
  rcases filesNet_fn (H := H) (parse := parse) (size := size) (now := now) (skip := skip) (S := S) (W' := W') (C := C) i with h | h | h <;> rw [h.1] at hb
  · refine .inl ⟨h.2, ?_⟩
    cases v with
    | file f =>
      cases f with
      | missing => simp [splitFn] at hb
      | unreadable => simp [splitFn] at hb
      | content bad cl c =>
        simp only [splitFn, List.mem_map] at hb
        obtain ⟨l, hl, hb⟩ := hb
        exact ⟨l, hl, hb.symm⟩
    | line l => simp [splitFn] at hb
    | chain a b c => simp [splitFn] at hb
  · refine .inr ⟨h.2.1, h.2.2, ?_⟩
    cases v with
    | line l =>
      simp only [chainFn] at hb
      split at hb
      · cases hb
      · cases hb
      · rename_i leaf ps ids _
        exact ⟨leaf, ps, ids, List.mem_singleton.mp hb⟩
    | file f => cases hb
    | chain a b c => cases hb
  · cases hb

theorem files_own (hS : 0 < S) (hW : 0 < W') (hC : 0 < C) (files : List File) : OwnChannels (filesNet H parse size now skip S W' C) (filesScript files) := by
  refine ⟨?_, ?_, ?_⟩
  · intro i s v b hb x hx
    rcases files_process i s v hb with ⟨h1, l, _, h2⟩ | ⟨h0, h1, _, _, _, h2⟩
    · rw [h2] at hx; rw [List.mem_singleton.mp hx]
      refine ⟨rfl, ingest_next hS hW hC ?_⟩
      simp only [filesNet, ingestNet]; (repeat' split) <;> omega
    · rw [h2] at hx; rw [List.mem_singleton.mp hx]
      refine ⟨rfl, ingest_next hS hW hC ?_⟩
      simp only [filesNet, ingestNet]; (repeat' split) <;> omega
  · intro i s b hb
    rw [files_finish] at hb; cases hb
  · intro c hc b hb x hx
    obtain ⟨f, _, rfl⟩ := List.mem_map.mp hc
    rw [List.mem_singleton.mp hb] at hx
    rw [List.mem_singleton.mp hx]
    exact ⟨rfl, ingest_next hS hW hC (by show 0 < 3; omega)⟩

theorem files_careful (files : List File) (i : Nat) : Careful (filesNet H parse size now skip S W' C) (filesScript files) i := by
  refine .inr ⟨?_, ?_, ?_⟩
  · intro s v b hb
    rcases files_process i s v hb with ⟨h1, l, _, h2⟩ | ⟨h0, h1, _, _, _, h2⟩ <;> rw [h2] <;> exact Nat.le_refl 1
  · intro s b hb; rw [files_finish] at hb; cases hb
  · intro _ c hc b hb
    obtain ⟨f, _, rfl⟩ := List.mem_map.mp hc
    rw [List.mem_singleton.mp hb]; exact Nat.le_refl 1

theorem files_outcome (i : Nat) (s : W) (v : Msg) : (((filesNet H parse size now skip S W' C).fn i).process s v).2.outcome ≠ .stop ∧
    (Fine parse skip v → (((filesNet H parse size now skip S W' C).fn i).process s v).2.outcome = .go) := by
  rcases filesNet_fn (H := H) (parse := parse) (size := size) (now := now) (skip := skip) (S := S) (W' := W') (C := C) i with h | h | h <;> rw [h.1]
  · cases v with
    | file f =>
      cases f with
      | missing => cases skip <;> simp [splitFn, Fine]
      | unreadable => simp [splitFn, Fine]
      | content bad cl c => simp [splitFn]
    | line l => simp [splitFn]
    | chain a b c => simp [splitFn]
  · cases v with
    | line l =>
      simp only [chainFn]
      split
      · rename_i hp
        refine ⟨(by intro h; cases h), fun hf => ?_⟩
        exact absurd (by rw [hp]) (parseLine_fine (H := H) (size := size) (now := now) (w := s) hf)
      · exact ⟨(by intro h; cases h), fun _ => rfl⟩
      · exact ⟨(by intro h; cases h), fun _ => rfl⟩
    | file f => simp [chainFn]
    | chain a b c => simp [chainFn]
  · simp [certFn]

theorem files_closed {files : List File} (hf : ∀ f ∈ files, Fine parse skip (.file f)) : Closed (Fine parse skip) (filesNet H parse size now skip S W' C) (filesScript files) := by
  refine ⟨?_, ?_, ?_⟩
  · intro i s v hv b hb x hx
    rcases files_process i s v hb with ⟨h1, l, hl, h2⟩ | ⟨h0, h1, _, _, _, h2⟩
    · rw [h2] at hx; rw [List.mem_singleton.mp hx]
      cases v with
      | file f =>
        cases f with
        | missing => cases hl
        | unreadable => cases hl
        | content bad cl c => exact hv l hl
      | line l => cases hl
      | chain a b c => cases hl
    · rw [h2] at hx; rw [List.mem_singleton.mp hx]; exact True.intro
  · intro i s b hb; rw [files_finish] at hb; cases hb
  · intro c hc b hb x hx
    obtain ⟨f, hm, rfl⟩ := List.mem_map.mp hc
    rw [List.mem_singleton.mp hb] at hx
    rw [List.mem_singleton.mp hx]
    exact hf f hm

theorem files_on {files : List File} (hf : ∀ f ∈ files, Fine parse skip (.file f)) {s0 : Nat → W} {s : St Msg W} (h : Reach (filesNet H parse size now skip S W' C) s0 (filesScript files) s) :
    Reach ((filesNet H parse size now skip S W' C).on (Fine parse skip)) s0 (filesScript files) s ∧ VI (Fine parse skip) s ∧
    NoFail ((filesNet H parse size now skip S W' C).on (Fine parse skip)) (filesScript files) ∧ EndOnce ((filesNet H parse size now skip S W' C).on (Fine parse skip)) := by
  obtain ⟨es, h⟩ := h
  obtain ⟨h1, h2⟩ := run_on (files_closed hf) (vi_init (N := filesNet H parse size now skip S W' C) (files_closed hf) s0) h
  refine ⟨⟨es, h1⟩, h2, ⟨?_, ?_, ?_⟩, ?_⟩
  · intro i s v
    by_cases hv : Fine parse skip v
    · rw [on_pos hv]; exact (files_outcome i s v).2 hv
    · rw [on_neg hv]
  · intro i s e
    show (((filesNet H parse size now skip S W' C).fn i).finish s).2.outcome ≠ .fail e
    rw [files_finish]; intro h; cases h
  · intro c hc
    obtain ⟨f, _, rfl⟩ := List.mem_map.mp hc
    rfl
  · intro i s
    show (((filesNet H parse size now skip S W' C).fn i).finish s).2.batches.length ≤ 1
    rw [files_finish]; exact Nat.zero_le 1

theorem map_snd_split {w : W} {vs : List Msg} : (((calls (splitFn skip) w vs).2.map Prod.snd).filterMap asLine) = vs.flatMap linesOf := by
  induction vs generalizing w with
  | nil => rfl
  | cons v vs ih =>
    simp only [calls, List.map_append, List.filterMap_append, List.flatMap_cons]
    rw [ih]
    congr 1
    cases v with
    | file f =>
      cases f with
      | missing => rfl
      | unreadable => rfl
      | content bad cl c =>
        simp only [splitFn, linesOf]
        generalize (readFile csvRead bad cl c).1 = ls
        induction ls with
        | nil => rfl
        | cons l ls ih2 => simp [asLine] at ih2 ⊢; exact ih2
    | line l => rfl
    | chain a b c => rfl

theorem certs_worker {w : W} {vs : List Msg} (h : (worker H parse size now w (vs.filterMap asLine)).2 = false) :
    ((calls (chainFn H parse size now) w vs).2.map Prod.snd).flatMap (certsOf H) = (worker H parse size now w (vs.filterMap asLine)).1 := by
  induction vs generalizing w with
  | nil => rfl
  | cons v vs ih =>
    simp only [calls, List.map_append, List.flatMap_append]
    cases v with
    | line l =>
      simp only [List.filterMap_cons, asLine, worker, chainFn] at h ⊢
      cases hp : parseLine H parse size now w l with
      | mk w' o =>
        rw [hp] at h
        cases o with
        | error => cases h
        | skip => simp only [List.flatten_nil, List.map_nil, List.flatMap_nil, List.nil_append]; exact ih h
        | chain leaf ps ids =>
          simp only [List.flatten_cons, List.flatten_nil, List.append_nil, List.map_cons, List.map_nil, List.flatMap_cons, List.flatMap_nil, certsOf]
          exact congrArg _ (ih h)
    | file f => exact ih h
    | chain a b c => exact ih h

theorem files_prod (hS : 0 < S) (hW : 0 < W') {files : List File} (hf : ∀ f ∈ files, Fine parse skip (.file f)) {s0 : Nat → W} {s : St Msg W}
    (h : Reach (filesNet H parse size now skip S W' C) s0 (filesScript files) s) {r : List Nat} (hr : s.result = some r) :
    r = [] ∧ AllFinished (filesNet H parse size now skip S W' C) s ∧ ∀ l, (((filesNet H parse size now skip S W' C).members (l + 1)).flatMap s.got).Perm
      (((filesNet H parse size now skip S W' C).members l).flatMap (produced (filesNet H parse size now skip S W' C) s0 (filesScript files) s.got)) := by
  obtain ⟨h1, h2, h3, h4⟩ := files_on hf h
  obtain ⟨r1, r2, r3⟩ := C96_success_complete (on_wf (ingest_wf hS hW _)) h3 h4 h1 hr
  refine ⟨r1, r2, ?_⟩
  intro l
  refine (show (((filesNet H parse size now skip S W' C).members (l + 1)).flatMap s.got).Perm _ from r3 l).trans (List.Perm.of_eq ?_)
  exact List.flatMap_congr fun i _ => produced_on (h2.got i)

end

/-- **C96** (the files of ingest, whatever happens): for all files, with any number of workers in every layer, `Wait` returns; if it returns nil, all stages have ended, and no function of a stage has
failed. -/
theorem C96_ingest_returns (H : Bytes → Bytes) (parse : Bytes → Option X509) (size : Nat) (now : Now) (skip : Bool) {S W' C : Nat} (hS : 0 < S) (hW : 0 < W') (hC : 0 < C) (files : List File)
    (s0 : Nat → W) {s : St Msg W} (h : Reach (filesNet H parse size now skip S W' C) s0 (filesScript files) s) :
    ¬ Deadlock (filesNet H parse size now skip S W' C) s ∧
    (s.result = some [] → AllFinished (filesNet H parse size now skip S W' C) s ∧ NoFailure (filesNet H parse size now skip S W' C) s) :=
  ⟨C96_wait_returns_partial (ingest_wf hS hW _) (files_own hS hW hC files) (files_careful files) (fun i s v => (files_outcome i s v).1) h,
   C96_nil_success_partial (ingest_wf hS hW _) (files_careful files) (fun i s v => (files_outcome i s v).1) h⟩

/-- **C96** (the lines reach the workers): if the files can be opened, or are missing and may be, and the lines that are read can be decoded, then `Wait` does not hang and returns nil, and the
workers together have got exactly the lines that were read, each once. Whether the files could be read to the end makes no difference. -/
theorem C96_ingest_lines (H : Bytes → Bytes) (parse : Bytes → Option X509) (size : Nat) (now : Now) (skip : Bool) {S W' C : Nat} (hS : 0 < S) (hW : 0 < W') (hC : 0 < C) (files : List File)
    (hf : ∀ f ∈ files, Fine parse skip (.file f)) (s0 : Nat → W) {s : St Msg W} (h : Reach (filesNet H parse size now skip S W' C) s0 (filesScript files) s) :
    ¬ Deadlock (filesNet H parse size now skip S W' C) s ∧
    ∀ r, s.result = some r → r = [] ∧ AllFinished (filesNet H parse size now skip S W' C) s ∧
      ((((filesNet H parse size now skip S W' C).members 2).flatMap fun i => (s.got i).filterMap asLine)).Perm (files.flatMap fun f => linesOf (.file f)) := by
  refine ⟨(C96_ingest_returns H parse size now skip hS hW hC files s0 h).1, fun r hr => ?_⟩
  obtain ⟨r1, r2, prod⟩ := files_prod hS hW hf h hr
  refine ⟨r1, r2, ?_⟩
  have p1 : (((filesNet H parse size now skip S W' C).members 1).flatMap s.got).Perm (files.map .file) := by
    have := prod 0
    have e0 : (filesNet H parse size now skip S W' C).members 0 = [0] := by
      unfold Net.members
      have : ∀ n, (List.range (n + 1)).filter (fun i => (filesNet H parse size now skip S W' C).layer i == 0) = [0] := by
        intro n
        induction n with
        | zero => rfl
        | succ n ih =>
          rw [List.range_succ, List.filter_append, ih]
          have : (filesNet H parse size now skip S W' C).layer (n + 1) ≠ 0 := fun h => by have := ingest_layer.mp h; omega
          simp [this]
      have hn : (filesNet H parse size now skip S W' C).n = (S + W' + C) + 1 := by simp only [filesNet, ingestNet]; omega
      rw [hn, this]
    rw [e0] at this
    refine this.trans (List.Perm.of_eq ?_)
    simp only [List.flatMap_cons, List.flatMap_nil, List.append_nil, produced, if_true, scriptOuts, filesScript]
    clear * -
    induction files with
    | nil => rfl
    | cons f fs ih => simp at ih ⊢; exact ih
  have key := (prod 1).filterMap asLine
  rw [List.filterMap_flatMap, List.filterMap_flatMap] at key
  refine key.trans ?_
  have e1 : (((filesNet H parse size now skip S W' C).members 1).flatMap fun i => (produced (filesNet H parse size now skip S W' C) s0 (filesScript files) s.got i).filterMap asLine) =
      (((filesNet H parse size now skip S W' C).members 1).flatMap s.got).flatMap linesOf := by
    rw [List.flatMap_assoc]
    refine List.flatMap_congr fun i hi => ?_
    obtain ⟨i1, i2⟩ := mem_members.mp hi
    have hi0 : i ≠ 0 := fun e => by rw [e] at i2; cases i2
    have hfn : (filesNet H parse size now skip S W' C).fn i = splitFn skip := by
      rcases filesNet_fn (H := H) (parse := parse) (size := size) (now := now) (skip := skip) (S := S) (W' := W') (C := C) i with h | h | h
      · exact h.1
      · simp only [filesNet, ingestNet] at i2; revert i2; (repeat' split) <;> omega
      · simp only [filesNet, ingestNet] at i2; revert i2; (repeat' split) <;> omega
    unfold produced everything
    rw [if_neg hi0, hfn, List.map_append, List.filterMap_append, map_snd_split]
    show _ ++ [] = _
    rw [List.append_nil]
  rw [e1]
  refine (p1.flatMap_right _).trans (List.Perm.of_eq ?_)
  rw [List.flatMap_map]

/-- **C96** (the certificates): any number of well-formed files, any number of workers in every layer, each with its own cache of any size, any interleaving. When `Wait` has returned, it has returned
nil; every row that the stages `toCerts` have put out is one of a certificate of an entry of a file; and if the chain after a certificate is the same wherever it occurs in entries that have not
expired, then every certificate of every such entry has been put out. -/
theorem C96_ingest_certs_partial (H : Bytes → Bytes) (parse : Bytes → Option X509) (size : Nat) (now : Now) (skip : Bool) {S W' C : Nat} (hS : 0 < S) (hW : 0 < W') (hC : 0 < C)
    (files : List (List Entry × Bytes))
    (hfiles : ∀ f ∈ files, (∀ e ∈ f.1, e.Good parse) ∧ ∃ rows, List.Forall₂ (fun (e : Entry) row => WrittenRow e.columns row) f.1 rows ∧ FileText rows f.2)
    (stats : Stats) {s : St Msg W}
    (h : Reach (filesNet H parse size now skip S W' C) (fun _ => ⟨[], stats⟩) (filesScript (files.map fun f => .content false false f.2)) s) :
    ¬ Deadlock (filesNet H parse size now skip S W' C) s ∧
    ∀ r, s.result = some r → r = [] ∧ AllFinished (filesNet H parse size now skip S W' C) s ∧
      (∀ i ∈ (filesNet H parse size now skip S W' C).members 3, ∀ m ∈ s.got i, ∀ o ∈ certsOf H m, ∃ f ∈ files, ∃ e ∈ f.1, now.ceil ≤ e.exp ∧ now.ceil ≤ e.leaf.notAfter ∧
        ∃ (c : X509) (a t : List X509), e.leaf :: e.chain = a ++ c :: t ∧ o.id = H c.raw ∧ o.raw = c.raw ∧ o.notAfter = c.notAfter ∧
          o.parent = t.head?.map (fun c => H c.raw) ∧ o.names = (if a = [] then some c.names else none)) ∧
      (Consistent H now.ceil (files.flatMap fun f => f.1.map Entry.line) →
        ∀ f ∈ files, ∀ e ∈ f.1, now.ceil ≤ e.exp → now.ceil ≤ e.leaf.notAfter → ∀ c ∈ e.leaf :: e.chain,
          ∃ i ∈ (filesNet H parse size now skip S W' C).members 3, ∃ m ∈ s.got i, ∃ o ∈ certsOf H m, o.id = H c.raw) := by
  have hfine : ∀ f ∈ files.map (fun f => File.content false false f.2), Fine parse skip (.file f) := by
    intro f hf
    obtain ⟨g, hg, rfl⟩ := List.mem_map.mp hf
    obtain ⟨h1, rows, h2, h3⟩ := hfiles g hg
    intro l hl
    rw [Rows.C86_file parse g.1 h1 rows g.2 h2 h3, List.mem_mapIdx] at hl
    obtain ⟨i, hi, rfl⟩ := hl
    exact ⟨_, (h1 _ (List.getElem_mem hi)).decodes _⟩
  obtain ⟨d1, d2⟩ := C96_ingest_lines H parse size now skip hS hW hC _ hfine _ h
  refine ⟨d1, fun r hr => ?_⟩
  obtain ⟨r1, r2, hlines⟩ := d2 r hr
  refine ⟨r1, r2, ?_⟩
  have prod := (files_prod hS hW hfine h hr).2.2 2
  have hparts : ((((filesNet H parse size now skip S W' C).members 2).map fun i => (s.got i).filterMap asLine).flatten).Perm (files.flatMap fun f => (readFile csvRead false false f.2).1) := by
    rw [← List.flatMap_def]
    refine hlines.trans (List.Perm.of_eq ?_)
    rw [List.flatMap_map]; rfl
  obtain ⟨w1, w2, w3⟩ := Rows.C86_files_partial H parse size now files hfiles _ hparts stats
  have hcerts : ((((filesNet H parse size now skip S W' C).members 3).flatMap s.got).flatMap (certsOf H)).Perm
      (((filesNet H parse size now skip S W' C).members 2).flatMap fun i => (worker H parse size now ⟨[], stats⟩ ((s.got i).filterMap asLine)).1) := by
    refine (prod.flatMap_right _).trans (List.Perm.of_eq ?_)
    rw [List.flatMap_assoc]
    refine List.flatMap_congr fun i hi => ?_
    obtain ⟨i1, i2⟩ := mem_members.mp hi
    have hi0 : i ≠ 0 := fun e => by rw [e] at i2; cases i2
    have hfn : (filesNet H parse size now skip S W' C).fn i = chainFn H parse size now := by
      rcases filesNet_fn (H := H) (parse := parse) (size := size) (now := now) (skip := skip) (S := S) (W' := W') (C := C) i with h | h | h
      · simp only [filesNet, ingestNet] at i2; revert i2; (repeat' split) <;> omega
      · exact h.1
      · simp only [filesNet, ingestNet] at i2; revert i2; (repeat' split) <;> omega
    unfold produced everything
    rw [if_neg hi0, hfn, List.map_append, List.flatMap_append, certs_worker (w1 _ (List.mem_map.mpr ⟨i, hi, rfl⟩))]
    show _ ++ [] = _
    rw [List.append_nil]
  have hmem : ∀ o, (∃ i ∈ (filesNet H parse size now skip S W' C).members 3, ∃ m ∈ s.got i, o ∈ certsOf H m) ↔
      ∃ p ∈ ((filesNet H parse size now skip S W' C).members 2).map (fun i => (s.got i).filterMap asLine), o ∈ (worker H parse size now ⟨[], stats⟩ p).1 := by
    intro o
    have := hcerts.mem_iff (a := o)
    simp only [List.mem_flatMap, List.flatMap_assoc] at this
    rw [this]
    simp only [List.mem_map, exists_exists_and_eq_and]
  refine ⟨?_, ?_⟩
  · intro i hi m hm o ho
    obtain ⟨p, hp, ho'⟩ := (hmem o).mp ⟨i, hi, m, hm, ho⟩
    exact w2 p hp o ho'
  · intro hc f hf e he h1 h2 c hcm
    obtain ⟨p, hp, o, ho, hid⟩ := w3 hc f hf e he h1 h2 c hcm
    obtain ⟨i, hi, m, hm, ho'⟩ := (hmem o).mpr ⟨p, hp, ho⟩
    exact ⟨i, hi, m, hm, o, ho', hid⟩

/-! ## Violations -/

def pendLen : Phase α → Nat
  | .sending pend _ _ _ _ => pend.length
  | _ => 0

/-- All events that can be enabled. -/
def events (N : Net α σ) (P : Nat) : List Ev :=
  [.poll, .wait] ++ (List.range N.n).flatMap fun i => [.closed i, .call i, .sent i, .close i, .report i, .relayIn i] ++ (List.range (P + 1)).flatMap fun p =>
    [.errTo i p, .errNil i p] ++ (List.range N.n).map fun j => .give i j p

theorem mem_events_i {N : Net α σ} {P i : Nat} (hi : i < N.n) {ev : Ev} (h : ev ∈ [Ev.closed i, .call i, .sent i, .close i, .report i, .relayIn i]) : ev ∈ events N P :=
  List.mem_append_right _ (List.mem_flatMap.mpr ⟨i, List.mem_range.mpr hi, List.mem_append_left _ h⟩)

theorem mem_events_p {N : Net α σ} {P i p : Nat} (hi : i < N.n) (hp : p < P + 1) {ev : Ev} (h : ev ∈ [Ev.errTo i p, .errNil i p] ++ (List.range N.n).map fun j => Ev.give i j p) : ev ∈ events N P :=
  List.mem_append_right _ (List.mem_flatMap.mpr ⟨i, List.mem_range.mpr hi, List.mem_append_right _ (List.mem_flatMap.mpr ⟨p, List.mem_range.mpr hp, h⟩)⟩)

theorem recv_pos {m : Mode} {ph ph' : Phase α} {e : List Nat} {p P : Nat} (h : recv m ph e p = some ph') (hP : pendLen ph ≤ P) : p < P + 1 := by
  rcases recv_shape h with ⟨_, _, h⟩ | ⟨_, _, _, h⟩ | ⟨pend, rest, brk, err, found, h1, h2, _⟩
  · omega
  · omega
  · rw [h1] at hP; simp only [pendLen] at hP; omega

theorem enabled_mem {N : Net α σ} {s : St α σ} {P : Nat} (hP : ∀ i < N.n, pendLen (s.phase i) ≤ P) {ev : Ev} {s' : St α σ} (h : exec N s ev = some s') : ev ∈ events N P := by
  cases ev with
  | poll => exact List.mem_append_left _ (List.mem_cons_self ..)
  | wait => exact List.mem_append_left _ (List.mem_cons_of_mem _ (List.mem_cons_self ..))
  | give i j p =>
    simp only [exec] at h
    split at h
    · rename_i hph _
      split at h
      · rename_i hpe
        split at h
        · rename_i hc
          simp only [Bool.and_eq_true, decide_eq_true_eq] at hc
          have hb := hP i hc.1.1.1.1
          rw [hph] at hb
          have hlt := (List.getElem?_eq_some_iff.mp hpe).1
          simp only [pendLen] at hb
          exact mem_events_p hc.1.1.1.1 (p := p) (by omega) (List.mem_append_right _ (List.mem_map.mpr ⟨j, List.mem_range.mpr hc.1.1.1.2, rfl⟩))
        · cases h
      · cases h
    · cases h
  | closed j =>
    simp only [exec] at h
    split at h
    · split at h
      · rename_i hc
        simp only [Bool.and_eq_true, decide_eq_true_eq] at hc
        exact mem_events_i hc.1.2 (by simp)
      · cases h
    · cases h
  | call i =>
    simp only [exec] at h
    split at h
    · rename_i hc; exact mem_events_i hc (by simp)
    · cases h
  | sent i =>
    simp only [exec] at h
    split at h
    · split at h
      · rename_i hc; exact mem_events_i hc (by simp)
      · cases h
    · cases h
  | close i =>
    simp only [exec] at h
    split at h
    · split at h
      · rename_i hc; exact mem_events_i hc (by simp)
      · cases h
    · cases h
  | report j =>
    simp only [exec] at h
    split at h
    · split at h
      · rename_i hc
        simp only [Bool.and_eq_true, decide_eq_true_eq] at hc
        exact mem_events_i hc.2 (by simp)
      · cases h
    · cases h
  | relayIn j =>
    simp only [exec] at h
    split at h
    · split at h
      · rename_i hc
        simp only [Bool.and_eq_true, decide_eq_true_eq] at hc
        exact mem_events_i hc.2 (by simp)
      · cases h
    · cases h
  | errTo i p =>
    simp only [exec] at h
    split at h
    · split at h
      · rename_i hc
        split at h
        · rename_i hr; exact mem_events_p hc.1 (recv_pos hr (hP _ hc.1)) (by simp)
        · cases h
      · cases h
    · cases h
  | errNil i p =>
    simp only [exec] at h
    split at h
    · rename_i hc
      simp only [Bool.and_eq_true, decide_eq_true_eq] at hc
      split at h
      · rename_i hr; exact mem_events_p hc.1 (recv_pos hr (hP _ hc.1)) (by simp)
      · cases h
    · cases h

theorem stuck_of {N : Net α σ} {s : St α σ} (P : Nat) (hP : ((List.range N.n).all fun i => decide (pendLen (s.phase i) ≤ P)) = true)
    (h : ((events N P).all fun ev => (exec N s ev).isNone) = true) : Stuck N s := by
  simp only [List.all_eq_true, List.mem_range, decide_eq_true_eq] at hP
  intro ev
  cases he : exec N s ev with
  | none => rfl
  | some s' =>
    have := List.all_eq_true.mp h ev (enabled_mem hP he)
    rw [he] at this
    cases this

/-- The workers at the start. -/
def ex0 : Nat → W := fun _ => ⟨[], ⟨0, 0, 0, 0, 0⟩⟩

/-- Ingest with three file readers, that get three files that do not open. -/
def leakNet : Net Msg W := filesNet id Rows.exParse 8 ⟨50, 1⟩ false 3 1 1
def noFiles : List File := [.missing, .missing, .missing]
def leakTrace : List Ev :=
  [.poll, .call 0, .give 0 1 0, .sent 0, .poll, .call 0, .give 0 2 0, .sent 0, .poll, .call 0, .give 0 3 0, .sent 0,
   .call 1, .close 1, .call 2, .close 2, .call 3, .close 3, .closed 4, .call 4, .sent 4, .close 4, .closed 5, .call 5, .sent 5, .close 5,
   .errNil 5 0, .errNil 4 0, .errNil 1 0, .errNil 2 0, .errNil 3 0, .report 1, .report 2, .report 3,
   .relayIn 1, .errTo 0 0, .close 0, .relayIn 2, .errTo 0 0, .relayIn 3, .wait]

/-- **C96** (all goroutines end, all errors are returned) is violated: three stages of one layer fail, `Wait` returns two of the errors; the third is lost, and the goroutine that should give it to the
source waits for ever (stage.go:249-263): a stage takes at most two errors. -/
theorem C96_leak_violated : ∃ s, Reach leakNet ex0 (filesScript noFiles) s ∧ Stuck leakNet s ∧ s.result = some [1, 1] ∧ s.relay 0 ≠ none ∧
    s.fails 1 = [1] ∧ s.fails 2 = [1] ∧ s.fails 3 = [1] := by
  refine ⟨(run leakNet (St.init ex0 (filesScript noFiles)) leakTrace).get (by decide +kernel), ⟨leakTrace, (Option.some_get _).symm⟩,
    stuck_of 2 (by decide +kernel) (by decide +kernel), by decide +kernel, by decide +kernel, by decide +kernel, by decide +kernel, by decide +kernel⟩

/-- Two rows, the first of them empty. -/
def badRow : Bytes := 10 :: [97, 44, 34, 98, 44, 34, 44, 44, 65, 81, 73, 68, 44, 66, 65, 85, 61, 44, 34, 99, 34, 34, 34, 44, 49, 48, 48, 46, 53, 13, 10]
def smallNet : Net Msg W := filesNet id Rows.exParse 8 ⟨50, 1⟩ false 1 1 1
def smallTrace : List Ev :=
  [.poll, .call 0, .give 0 1 0, .sent 0, .call 1, .sent 1, .poll, .call 0, .sent 0, .close 0, .closed 1, .call 1, .sent 1, .close 1, .closed 2, .call 2, .sent 2, .close 2, .closed 3, .call 3, .sent 3,
   .close 3, .errNil 3 0, .errNil 2 0, .errNil 1 0, .errNil 0 0, .wait]

/-- **C96** (nil means that everything was read) is violated: a file has a row that cannot be parsed. The rows after it are not read, the error is dropped, `Wait` returns nil, and ingest takes the file
for done. -/
theorem C96_bad_row_violated : ∃ s, Reach smallNet ex0 (filesScript [.content false false badRow]) s ∧ s.result = some [] ∧ NoFailure smallNet s ∧ AllFinished smallNet s ∧
    (readFile csvRead false false badRow).2 = [.row 1] ∧ (readFile csvRead false false (badRow.drop 1)) = ([Rows.exEntry.raw 1], []) ∧
    ∀ i ∈ smallNet.members 2, s.got i = [] := by
  refine ⟨(run smallNet (St.init ex0 (filesScript [.content false false badRow])) smallTrace).get (by decide +kernel), ⟨smallTrace, (Option.some_get _).symm⟩, by decide +kernel, ?_, ?_,
    by decide +kernel, by decide +kernel, ?_⟩
  · have : ∀ i < 4, ((run smallNet (St.init ex0 (filesScript [.content false false badRow])) smallTrace).get (by decide +kernel)).fails i = [] := by decide +kernel
    exact this
  · have : ∀ i < 4, (((run smallNet (St.init ex0 (filesScript [.content false false badRow])) smallTrace).get (by decide +kernel)).phase i).isFinished = true := by decide +kernel
    exact fun i hi => isFinished_iff.mp (this i hi)
  · have : ∀ i ∈ smallNet.members 2, (((run smallNet (St.init ex0 (filesScript [.content false false badRow])) smallTrace).get (by decide +kernel)).got i).isEmpty = true := by decide +kernel
    exact fun i hi => List.isEmpty_iff.mp (this i hi)

/-! ## The hypotheses can be met -/

/-- The second row only. -/
def goodTrace : List Ev :=
  [.poll, .call 0, .give 0 1 0, .sent 0, .call 1, .give 1 2 0, .poll, .sent 1, .call 0, .sent 0, .close 0, .closed 1, .call 2, .call 1, .give 2 3 0, .sent 1, .close 1, .sent 2, .closed 2, .call 2, .sent 2,
   .call 3, .close 2, .sent 3, .closed 3, .call 3, .sent 3, .close 3, .errNil 3 0, .errNil 2 0, .errNil 1 0, .errNil 0 0, .wait]

/-- The certificates of a well-formed file come out: the case of `C96_ingest_certs_partial`, `C96_ingest_lines`, `C96_ingest_returns`, `C96_nil_success_partial`. -/
example : ∃ s, Reach smallNet ex0 (filesScript [.content false false (badRow.drop 1)]) s ∧ s.result = some [] ∧ ((s.got 3).flatMap (certsOf id)).map (·.id) = [[1, 2, 3], [4, 5]] := by
  refine ⟨(run smallNet (St.init ex0 (filesScript [.content false false (badRow.drop 1)])) goodTrace).get (by decide +kernel), ⟨goodTrace, (Option.some_get _).symm⟩, by decide +kernel, by decide +kernel⟩

/-- The file of the example is a well-formed one, with an entry that has not expired. -/
example : Rows.exEntry.Good Rows.exParse ∧ (∃ rows, List.Forall₂ (fun (e : Entry) row => WrittenRow e.columns row) [Rows.exEntry] rows ∧ FileText rows (badRow.drop 1)) ∧
    (⟨50, 1⟩ : Now).ceil ≤ Rows.exEntry.exp ∧ (⟨50, 1⟩ : Now).ceil ≤ Rows.exEntry.leaf.notAfter := by
  refine ⟨Rows.exEntry_good, ⟨[[97, 44, 34, 98, 44, 34, 44, 44, 65, 81, 73, 68, 44, 66, 65, 85, 61, 44, 34, 99, 34, 34, 34, 44, 49, 48, 48, 46, 53]], .cons ?_ .nil, ?_⟩, by decide, by decide⟩
  · refine ⟨[[97], [34, 98, 44, 34], [], [65, 81, 73, 68], [66, 65, 85, 61], [34, 99, 34, 34, 34], [49, 48, 48, 46, 53]], ?_, by decide⟩
    have : Rows.exEntry.columns = [[97], [98, 44], [], [65, 81, 73, 68], [66, 65, 85, 61], [99, 34], [49, 48, 48, 46, 53]] := by decide +kernel
    rw [this]
    exact .cons (.plain _ (by decide) (by decide)) (.cons (.quoted [98, 44]) (.cons (.plain _ (by decide) (by decide))
      (.cons (.plain _ (by decide) (by decide)) (.cons (.plain _ (by decide) (by decide)) (.cons (.quoted [99, 34]) (.cons (.plain _ (by decide) (by decide)) .nil))))))
  · exact .crlf _ _ _ .empty

/-- Stages that pass on what they get, twice; the last layer puts out nothing. -/
def passNet (S W' C : Nat) : Net Nat Unit :=
  ingestNet S W' C fun i => ⟨fun u v => (u, ⟨if i < 1 + S + W' then [[(0, v)], [(0, v)]] else [], .go⟩), fun u => (u, ⟨[], .go⟩)⟩

/-- The hypotheses of the general theorems are met by networks of any size that do something. -/
example {S W' C : Nat} (hS : 0 < S) (hW : 0 < W') (hC : 0 < C) : (passNet S W' C).WF ∧ NoFail (passNet S W' C) [⟨[[(0, 1)]], .go⟩, ⟨[[(0, 2)]], .go⟩] ∧
    OwnChannels (passNet S W' C) [⟨[[(0, 1)]], .go⟩, ⟨[[(0, 2)]], .go⟩] ∧ EndOnce (passNet S W' C) ∧ NeverStops (passNet S W' C) ∧
    ∀ i, Careful (passNet S W' C) [⟨[[(0, 1)]], .go⟩, ⟨[[(0, 2)]], .go⟩] i := by
  refine ⟨ingest_wf hS hW _, ⟨fun _ _ _ => rfl, (by intro i s e h; cases h), ?_⟩, ⟨?_, ?_, ?_⟩, fun _ _ => Nat.zero_le 1, (by intro i s v h; cases h), fun i => .inr ⟨?_, ?_, ?_⟩⟩
  · intro c hc; simp at hc; rcases hc with h | h <;> rw [h]
  · intro i s v b hb x hx
    simp only [passNet, ingestNet] at hb
    split at hb
    · simp at hb; rw [hb] at hx; rw [List.mem_singleton.mp hx]
      refine ⟨rfl, ingest_next hS hW hC ?_⟩
      simp only [passNet, ingestNet]; (repeat' split) <;> omega
    · cases hb
  · intro i s b hb; cases hb
  · intro c hc b hb x hx
    refine ⟨?_, ingest_next hS hW hC (by show 0 < 3; omega)⟩
    simp at hc; rcases hc with h | h <;> rw [h] at hb <;> simp at hb <;> rw [hb] at hx <;> simp at hx <;> rw [hx]
  · intro s v b hb
    simp only [passNet, ingestNet] at hb
    split at hb
    · simp at hb; rw [hb]; exact Nat.le_refl 1
    · cases hb
  · intro s b hb; cases hb
  · intro _ c hc b hb
    simp at hc; rcases hc with h | h <;> rw [h] at hb <;> simp at hb <;> rw [hb] <;> exact Nat.le_refl 1

end Fpki.Layers
