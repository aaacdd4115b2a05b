import Verif.Lemmas.LayersNoFail
/-! # What the functions of a network do for values that never occur does not matter. -/
namespace Fpki.Layers
open Fpki.Stage (Mode)
open Fpki.Pipe (Outcome Call Fn Phase upd afterCall afterEnd afterSent report allowed dropAt recv upd_self upd_ne upd_apply forall_upd Batch CallAll PhaseAll Hereditary recv_shape afterCall_shape
  afterEnd_shape phaseAll_afterCall calls everything scriptOuts)

variable {α σ : Type}

/-- All outputs for values with the property have the property. -/
structure Closed (V : α → Prop) (N : Net α σ) (script : List (Call α)) : Prop where
  process : ∀ i s v, V v → ∀ b ∈ ((N.fn i).process s v).2.batches, ∀ x ∈ b, V x.2
  finish : ∀ i s, ∀ b ∈ ((N.fn i).finish s).2.batches, ∀ x ∈ b, V x.2
  script : ∀ c ∈ script, ∀ b ∈ c.batches, ∀ x ∈ b, V x.2

open Classical in
/-- The same network, whose functions do nothing for values without the property. -/
noncomputable def Net.on (V : α → Prop) (N : Net α σ) : Net α σ :=
  { N with fn := fun i => ⟨fun s v => if V v then (N.fn i).process s v else (s, ⟨[], .go⟩), (N.fn i).finish⟩ }

theorem on_pos {V : α → Prop} {N : Net α σ} {i : Nat} {s : σ} {v : α} (h : V v) : ((N.on V).fn i).process s v = (N.fn i).process s v := if_pos h
theorem on_neg {V : α → Prop} {N : Net α σ} {i : Nat} {s : σ} {v : α} (h : ¬ V v) : ((N.on V).fn i).process s v = (s, ⟨[], .go⟩) := if_neg h

theorem exec_on {V : α → Prop} {N : Net α σ} {s : St α σ} (h : ∀ i v, s.phase i = .processing (some v) → V v) (ev : Ev) : exec (N.on V) s ev = exec N s ev := by
  cases ev with
  | call i =>
    cases hp : s.phase i with
    | processing o =>
      cases o with
      | some v =>
        have := h i v hp
        simp only [exec, hp, on_pos this]; rfl
      | none => simp only [exec, hp]; rfl
    | _ => simp only [exec, hp]; rfl
  | _ => rfl

structure VI (V : α → Prop) (s : St α σ) : Prop where
  batches : AllInv (fun _ b => ∀ x ∈ b, V x.2) s
  proc : ∀ i v, s.phase i = .processing (some v) → V v
  got : ∀ i, ∀ v ∈ s.got i, V v

theorem vi_hereditary (V : α → Prop) : Hereditary (fun b : Batch α => ∀ x ∈ b, V x.2) :=
  ⟨(by intro x hx; cases hx), fun _ _ h x hx => h x ((List.eraseIdx_sublist ..).subset hx)⟩

theorem on_netAll {V : α → Prop} {N : Net α σ} {script : List (Call α)} (h : Closed V N script) : NetAll (fun _ b => ∀ x ∈ b, V x.2) (N.on V) script := by
  refine ⟨?_, h.finish, h.script⟩
  intro i s v b hb
  by_cases hv : V v
  · rw [on_pos hv] at hb; exact h.process i s v hv b hb
  · rw [on_neg hv] at hb; cases hb

theorem recv_not_processing {m : Mode} {ph ph' : Phase α} {e : List Nat} {p : Nat} (h : recv m ph e p = some ph') : ∀ o, ph' ≠ .processing o := by
  intro c
  rcases recv_shape h with ⟨_, h2, _⟩ | ⟨f, _, h2, _⟩ | ⟨pend', rest', brk', err', found', h1, h2, h3⟩
  · rw [h2]; intro h; cases h
  · rw [h2]; cases f ++ e <;> intro h <;> cases h
  · rw [h3]; intro h; cases h

theorem vi_init {V : α → Prop} {N : Net α σ} {script : List (Call α)} (h : Closed V N script) (s0 : Nat → σ) : VI V (St.init s0 script : St α σ) :=
  ⟨allInv_init (on_netAll h) s0, (by intro i v h; cases h), (by intro i v h; cases h)⟩

theorem vi_step {V : α → Prop} {N : Net α σ} {script : List (Call α)} (hc : Closed V N script) {s s' : St α σ} (h : VI V s) (hs : Step (N.on V) s s') : VI V s' := by
  have hb := allInv_step (fun _ => vi_hereditary V) (on_netAll hc) h.batches hs
  obtain ⟨h1, h2, h3⟩ := h
  have key : ∀ {i : Nat} {ph : Phase α}, (∀ v, ph ≠ .processing (some v)) → ∀ k v, upd s.phase i ph k = .processing (some v) → V v :=
    fun hp => forall_upd (P := fun _ (ph : Phase α) => ∀ v, ph = .processing (some v) → V v) h2 (fun v h => absurd h (hp v))
  cases hs with
  | pollEnd h hs => exact ⟨hb, key (by intro c h; cases h), h3⟩
  | poll c cs h hs => exact ⟨hb, key (by intro c h; cases h), h3⟩
  | give i j p pend rest brk err found v h hd hp hi hj hl ha =>
    have hv : V v := by
      have := h1.phase i; rw [h] at this
      exact this.1 (0, v) (List.mem_of_getElem? hp)
    refine ⟨hb, ?_, ?_⟩
    · exact forall_upd (P := fun _ (ph : Phase α) => ∀ v, ph = .processing (some v) → V v) (key (by intro c h; cases h)) (by intro v' h; cases h; exact hv)
    · refine forall_upd (P := fun _ (g : List α) => ∀ v ∈ g, V v) h3 ?_
      intro x hx
      rcases List.mem_append.mp hx with hx | hx
      · exact h3 j x hx
      · rw [List.mem_singleton.mp hx]; exact hv
  | closed j h h0 hj hc => exact ⟨hb, key (by intro c h; cases h), h3⟩
  | callSome i v hi h =>
    exact ⟨hb, key (by intro c h; rcases afterCall_shape (((N.on V).fn i).process (s.st i) v).2 with ⟨e, h'⟩ | ⟨a, b, d, h'⟩ <;> rw [h'] at h <;> cases h), h3⟩
  | callSrc hi h => exact ⟨hb, key (by intro c h; cases h), h3⟩
  | callEnd i hi h0 h => exact ⟨hb, key (by intro c h; rcases afterEnd_shape (((N.on V).fn i).finish (s.st i)).2 with ⟨e, h'⟩ | ⟨a, b, d, h'⟩ <;> rw [h'] at h <;> cases h), h3⟩
  | callProd i c hi h => exact ⟨hb, key (by intro c' h; rcases afterCall_shape c with ⟨e, h'⟩ | ⟨a, b, d, h'⟩ <;> rw [h'] at h <;> cases h), h3⟩
  | sent i rest brk err found hi h =>
    refine ⟨hb, key ?_, h3⟩
    intro c h
    unfold afterSent at h
    split at h
    · cases h
    · cases rest <;> cases h
  | close i f hi h => exact ⟨hb, key (by intro c h; cases h), h3⟩
  | report j e h hf h0 hj => exact ⟨hb, key (by intro c h; cases h), h3⟩
  | relayIn j e hf hr h0 hj => exact ⟨hb, h2, h3⟩
  | errTo i p e r ph hin hr hi hv => exact ⟨hb, key (fun c h => absurd h (recv_not_processing hv _)), h3⟩
  | errNil i p ph hi hn hv => exact ⟨hb, key (fun c h => absurd h (recv_not_processing hv _)), h3⟩
  | waitErr e hres h => exact ⟨hb, key (by intro c h; cases h), h3⟩
  | waitNil hres h => exact ⟨hb, h2, h3⟩

theorem run_on {V : α → Prop} {N : Net α σ} {script : List (Call α)} (hc : Closed V N script) {s s' : St α σ} {es : List Ev} (h : VI V s) (hr : run N s es = some s') :
    run (N.on V) s es = some s' ∧ VI V s' := by
  induction es generalizing s with
  | nil => cases hr; exact ⟨rfl, h⟩
  | cons e es ih =>
    simp only [run, Option.bind_eq_some_iff] at hr ⊢
    obtain ⟨s1, h1, h2⟩ := hr
    rw [← exec_on h.proc] at h1
    have := ih (vi_step hc h (exec_step h1)) h2
    exact ⟨⟨s1, h1, this.1⟩, this.2⟩

theorem on_wf {V : α → Prop} {N : Net α σ} (h : N.WF) : (N.on V).WF := ⟨h.pos, h.zero, h.mono, h.gap⟩

theorem calls_on {V : α → Prop} {N : Net α σ} {i : Nat} {s : σ} {vs : List α} (h : ∀ v ∈ vs, V v) : calls ((N.on V).fn i) s vs = calls (N.fn i) s vs := by
  induction vs generalizing s with
  | nil => rfl
  | cons v vs ih =>
    have hv := h v (List.mem_cons_self ..)
    simp only [calls, on_pos hv]
    rw [ih fun x hx => h x (List.mem_cons_of_mem _ hx)]

theorem produced_on {V : α → Prop} {N : Net α σ} {s0 : Nat → σ} {script : List (Call α)} {got : Nat → List α} {i : Nat} (h : ∀ v ∈ got i, V v) :
    produced (N.on V) s0 script got i = produced N s0 script got i := by
  unfold produced everything
  rw [calls_on h]; rfl

end Fpki.Layers
