import Verif.Model.Bridge
import Verif.Lemmas.ListSet
import Mathlib.Tactic.ByContra

/-! # The link between the two pipelines: steps and invariants -/
namespace Fpki.Bridge

variable {γ : Type}

/-- The steps, with their conditions. -/
inductive Step (shard : γ → Nat) (workers : Nat) (s : State γ) : Act → State γ → Prop
  | emit {i c cs sent f} (hp : s.prods[i]? = some ⟨c :: cs, sent, .run, f⟩) (hf : s.fwds[i]? = some .idle) :
    Step shard workers s (.emit i)
      { s with prods := s.prods.set i ⟨cs, sent ++ [c], .run, f⟩, fwds := s.fwds.set i (.sending c (route shard workers c)) }
  | eof {i sent f} (hp : s.prods[i]? = some ⟨[], sent, .run, f⟩) :
    Step shard workers s (.eof i) { s with prods := s.prods.set i ⟨[], sent, .closing, f⟩ }
  | fail {i e t sent f} (hp : s.prods[i]? = some ⟨t, sent, .run, f⟩) :
    Step shard workers s (.fail i e) { s with prods := s.prods.set i ⟨t, sent, .closing, f ++ [(.own, e)]⟩ }
  | nilErr {i t sent f} (hp : s.prods[i]? = some ⟨t, sent, .run, f⟩) (hc : s.errsClosed = true) :
    Step shard workers s (.nilErr i) { s with prods := s.prods.set i ⟨t, sent, .closing, f⟩ }
  | pEnd {i t sent f} (hp : s.prods[i]? = some ⟨t, sent, .closing, f⟩) (hc : s.errsClosed = true) :
    Step shard workers s (.pEnd i) { s with prods := s.prods.set i ⟨t, sent, .ended, f⟩ }
  | deliver {i k c ks err recv} (hf : s.fwds[i]? = some (.sending c ks)) (hd : s.dbs[k]? = some ⟨.run, err, recv⟩) (hk : k ∈ ks) :
    Step shard workers s (.deliver i k)
      { s with fwds := s.fwds.set i (.sending c (ks.erase k)), dbs := s.dbs.set k ⟨.run, err, recv ++ [(i, c)]⟩ }
  | fNext {i c} (hf : s.fwds[i]? = some (.sending c [])) : Step shard workers s (.fNext i) { s with fwds := s.fwds.set i .idle }
  | fEnd {i p} (hp : s.prods[i]? = some p) (hf : s.fwds[i]? = some .idle) (hc : p.phase ≠ .run) :
    Step shard workers s (.fEnd i) { s with fwds := s.fwds.set i .ended }
  | closeData (hf : ∀ f ∈ s.fwds, f = .ended) (hc : s.dataClosed = false) : Step shard workers s .closeData { s with dataClosed := true }
  | dbFail {k e err recv} (hd : s.dbs[k]? = some ⟨.run, err, recv⟩) :
    Step shard workers s (.dbFail k e) { s with dbs := s.dbs.set k ⟨.failed e, some e, recv⟩ }
  | dbEnd {k err recv} (hd : s.dbs[k]? = some ⟨.run, err, recv⟩) (hc : s.dataClosed = true) :
    Step shard workers s (.dbEnd k) { s with dbs := s.dbs.set k ⟨.quiet, err, recv⟩ }
  | dbSend {k e err recv} (hd : s.dbs[k]? = some ⟨.failed e, err, recv⟩) (hr : s.rdrs[k]? = some .idle) :
    Step shard workers s (.dbSend k)
      { s with dbs := s.dbs.set k ⟨.quiet, err, recv⟩, rdrs := s.rdrs.set k (.sending e (List.range s.prods.length)) }
  | dbClose {k err recv} (hd : s.dbs[k]? = some ⟨.quiet, err, recv⟩) :
    Step shard workers s (.dbClose k) { s with dbs := s.dbs.set k ⟨.closed, err, recv⟩ }
  | errTo {k i e is p} (hr : s.rdrs[k]? = some (.sending e is)) (hp : s.prods[i]? = some p) (hi : i ∈ is) (hn : p.phase ≠ .ended) :
    Step shard workers s (.errTo k i)
      { s with rdrs := s.rdrs.set k (.sending e (is.erase i)), prods := s.prods.set i (p.receive k e) }
  | rNext {k e} (hr : s.rdrs[k]? = some (.sending e [])) : Step shard workers s (.rNext k) { s with rdrs := s.rdrs.set k .idle }
  | rEnd {k err recv} (hd : s.dbs[k]? = some ⟨.closed, err, recv⟩) (hr : s.rdrs[k]? = some .idle) :
    Step shard workers s (.rEnd k) { s with rdrs := s.rdrs.set k .done }
  | closeErrs (hr : ∀ r ∈ s.rdrs, r = .done) (hc : s.errsClosed = false) : Step shard workers s .closeErrs { s with errsClosed := true }

variable {shard : γ → Nat} {workers : Nat} {s s' : State γ} {e : Act}

theorem all_ended {l : List (Fwd γ)} : (l.all fun f => match f with | .ended => true | _ => false) = true ↔ ∀ f ∈ l, f = .ended := by
  simp only [List.all_eq_true]
  constructor
  · intro h f hf
    have := h f hf
    cases f <;> simp_all
  · intro h f hf
    rw [h f hf]

theorem step_iff : s.exec shard workers e = some s' ↔ Step shard workers s e s' := by
  constructor
  · intro h
    cases e <;> simp only [State.exec] at h
    case emit i => split at h <;> cases h; exact .emit ‹_› ‹_›
    case eof i => split at h <;> cases h; exact .eof ‹_›
    case fail i => split at h <;> cases h; exact .fail ‹_›
    case nilErr i =>
      split at h
      · split at h <;> cases h; exact .nilErr ‹_› ‹_›
      · cases h
    case pEnd i =>
      split at h
      · split at h <;> cases h; exact .pEnd ‹_› ‹_›
      · cases h
    case deliver i k =>
      split at h
      · split at h <;> cases h; exact .deliver ‹_› ‹_› ‹_›
      · cases h
    case fNext i => split at h <;> cases h; exact .fNext ‹_›
    case fEnd i =>
      split at h
      · split at h <;> cases h; exact .fEnd ‹_› ‹_› ‹_›
      · cases h
    case closeData =>
      split at h <;> cases h
      rename_i hc
      exact .closeData (all_ended.mp hc.1) hc.2
    case dbFail k e => split at h <;> cases h; exact .dbFail ‹_›
    case dbEnd k =>
      split at h
      · split at h <;> cases h; exact .dbEnd ‹_› ‹_›
      · cases h
    case dbSend k => split at h <;> cases h; exact .dbSend ‹_› ‹_›
    case dbClose k => split at h <;> cases h; exact .dbClose ‹_›
    case errTo k i =>
      split at h
      · split at h <;> cases h
        rename_i hc
        exact .errTo ‹_› ‹_› hc.1 hc.2
      · cases h
    case rNext k => split at h <;> cases h; exact .rNext ‹_›
    case rEnd k => split at h <;> cases h; exact .rEnd ‹_› ‹_›
    case closeErrs =>
      split at h <;> cases h
      rename_i hc
      exact .closeErrs (by simpa using hc.1) hc.2
  · intro h
    cases h with
    | emit hp hf => simp only [State.exec, hp, hf]
    | eof hp => simp only [State.exec, hp]
    | fail hp => simp only [State.exec, hp]
    | nilErr hp hc => simp only [State.exec, hp, hc, if_true]
    | pEnd hp hc => simp only [State.exec, hp, hc, if_true]
    | deliver hf hd hk => simp only [State.exec, hf, hd, hk, if_true]
    | fNext hf => simp only [State.exec, hf]
    | fEnd hp hf hc => simp only [State.exec, hp, hf]; rw [if_pos hc]
    | closeData hf hc => simp only [State.exec]; rw [if_pos ⟨all_ended.mpr hf, hc⟩]
    | dbFail hd => simp only [State.exec, hd]
    | dbEnd hd hc => simp only [State.exec, hd, hc, if_true]
    | dbSend hd hr => simp only [State.exec, hd, hr]
    | dbClose hd => simp only [State.exec, hd]
    | errTo hr hp hi hn => simp only [State.exec, hr, hp]; rw [if_pos ⟨hi, hn⟩]
    | rNext hr => simp only [State.exec, hr]
    | rEnd hd hr => simp only [State.exec, hd, hr]
    | closeErrs hr hc => simp only [State.exec]; rw [if_pos ⟨by simpa using hr, hc⟩]

/-- Reading after replacing. -/
theorem get_set {l : List α} {i j : Nat} {a b : α} (h : (l.set i a)[j]? = some b) : (i = j ∧ b = a) ∨ (i ≠ j ∧ l[j]? = some b) := by
  by_cases hij : i = j
  · subst hij
    rw [List.getElem?_set] at h
    simp only [if_true] at h
    split at h <;> cases h
    exact .inl ⟨rfl, rfl⟩
  · rw [List.getElem?_set_ne hij] at h
    exact .inr ⟨hij, h⟩

/-- An invariant of all steps holds after every run. -/
theorem run_inv {P : State γ → Prop} (hs : ∀ s e s', P s → Step shard workers s e s' → P s') {s s' : State γ} {es : List Act} (h0 : P s)
    (h : s.run shard workers es = some s') : P s' := by
  induction es generalizing s with
  | nil => cases h; exact h0
  | cons e es ih =>
    simp only [State.run] at h
    cases he : s.exec shard workers e with
    | none => rw [he] at h; cases h
    | some t => rw [he] at h; exact ih (hs _ _ _ h0 (step_iff.mp he)) h

/-- As `run_inv`, for runs with only some of the steps. -/
theorem run_inv_of {P : State γ → Prop} {Q : Act → Prop} (hs : ∀ s e s', Q e → P s → Step shard workers s e s' → P s') {s s' : State γ}
    {es : List Act} (hq : ∀ e ∈ es, Q e) (h0 : P s) (h : s.run shard workers es = some s') : P s' := by
  induction es generalizing s with
  | nil => cases h; exact h0
  | cons e es ih =>
    simp only [State.run] at h
    cases he : s.exec shard workers e with
    | none => rw [he] at h; cases h
    | some t => rw [he] at h; exact ih (fun e h => hq e (.tail _ h)) (hs _ _ _ (hq e (.head _)) h0 (step_iff.mp he)) h

/-! ## Sizes -/

structure Sized (n workers : Nat) (s : State γ) : Prop where
  prods : s.prods.length = n
  fwds : s.fwds.length = n
  dbs : s.dbs.length = 2 * workers
  rdrs : s.rdrs.length = 2 * workers

theorem sized_step {n m : Nat} (s : State γ) (e : Act) (s' : State γ) (h : Sized n m s) (hs : Step shard workers s e s') : Sized n m s' := by
  obtain ⟨h1, h2, h3, h4⟩ := h
  cases hs <;> exact ⟨by simp [h1], by simp [h2], by simp [h3], by simp [h4]⟩

theorem sized_init (workers : Nat) (work : List (List γ)) : Sized work.length workers (init workers work) := by
  constructor <;> simp [init]

/-! ## Termination -/

def Prod.weight (p : Prod γ) : Nat := 10 * p.todo.length + match p.phase with | .run => 2 | .closing => 1 | .ended => 0
def Fwd.weight : Fwd γ → Nat | .idle => 1 | .sending _ ks => 2 + ks.length | .ended => 0
def Db.weight (n : Nat) (d : Db γ) : Nat := match d.phase with | .run => n + 6 | .failed _ => n + 5 | .quiet => 2 | .closed => 1
def Rdr.weight : Rdr → Nat | .idle => 1 | .sending _ is => 2 + is.length | .done => 0

def State.weight (s : State γ) : Nat :=
  (s.prods.map Prod.weight).sum + (s.fwds.map Fwd.weight).sum + (s.dbs.map (Db.weight s.prods.length)).sum + (s.rdrs.map Rdr.weight).sum +
    (if s.dataClosed then 0 else 1) + (if s.errsClosed then 0 else 1)

theorem weight_step (h : Step shard workers s e s') : s'.weight < s.weight := by
  have P : ∀ {i : Nat} {a : Prod γ} (b : Prod γ), s.prods[i]? = some a → ((s.prods.set i b).map Prod.weight).sum + a.weight =
    (s.prods.map Prod.weight).sum + b.weight := fun b h => sum_set h
  have F : ∀ {i : Nat} {a : Fwd γ} (b : Fwd γ), s.fwds[i]? = some a → ((s.fwds.set i b).map Fwd.weight).sum + a.weight =
    (s.fwds.map Fwd.weight).sum + b.weight := fun b h => sum_set h
  have D : ∀ {i : Nat} {a : Db γ} (b : Db γ), s.dbs[i]? = some a → ((s.dbs.set i b).map (Db.weight s.prods.length)).sum + a.weight s.prods.length =
    (s.dbs.map (Db.weight s.prods.length)).sum + b.weight s.prods.length := fun b h => sum_set h
  have R : ∀ {i : Nat} {a : Rdr} (b : Rdr), s.rdrs[i]? = some a → ((s.rdrs.set i b).map Rdr.weight).sum + a.weight =
    (s.rdrs.map Rdr.weight).sum + b.weight := fun b h => sum_set h
  cases h with
  | @emit i c cs sent f hp hf =>
    have e1 := P ⟨cs, sent ++ [c], .run, f⟩ hp
    have e2 := F (.sending c (route shard workers c)) hf
    simp only [State.weight, List.length_set]
    simp only [Prod.weight, Fwd.weight, route, List.length_cons, List.length_nil] at e1 e2 ⊢
    omega
  | @eof i sent f hp =>
    have e1 := P ⟨[], sent, .closing, f⟩ hp
    simp only [State.weight, List.length_set]
    simp only [Prod.weight] at e1 ⊢
    omega
  | @fail i e t sent f hp =>
    have e1 := P ⟨t, sent, .closing, f ++ [(.own, e)]⟩ hp
    simp only [State.weight, List.length_set]
    simp only [Prod.weight] at e1 ⊢
    omega
  | @nilErr i t sent f hp hc =>
    have e1 := P ⟨t, sent, .closing, f⟩ hp
    simp only [State.weight, List.length_set]
    simp only [Prod.weight] at e1 ⊢
    omega
  | @pEnd i t sent f hp hc =>
    have e1 := P ⟨t, sent, .ended, f⟩ hp
    simp only [State.weight, List.length_set]
    simp only [Prod.weight] at e1 ⊢
    omega
  | @deliver i k c ks err recv hf hd hk =>
    have e1 := F (.sending c (ks.erase k)) hf
    have e2 := D ⟨.run, err, recv ++ [(i, c)]⟩ hd
    have e3 := List.length_erase_of_mem hk
    have e4 := List.length_pos_of_mem hk
    simp only [State.weight]
    simp only [Fwd.weight, Db.weight] at e1 e2 ⊢
    omega
  | @fNext i c hf =>
    have e1 := F .idle hf
    simp only [State.weight]
    simp only [Fwd.weight, List.length_nil] at e1 ⊢
    omega
  | @fEnd i p hp hf hc =>
    have e1 := F .ended hf
    simp only [State.weight]
    simp only [Fwd.weight] at e1 ⊢
    omega
  | closeData hf hc => simp only [State.weight, hc]; simp
  | @dbFail k e err recv hd =>
    have e1 := D ⟨.failed e, some e, recv⟩ hd
    simp only [State.weight]
    simp only [Db.weight] at e1 ⊢
    omega
  | @dbEnd k err recv hd hc =>
    have e1 := D ⟨.quiet, err, recv⟩ hd
    simp only [State.weight]
    simp only [Db.weight] at e1 ⊢
    omega
  | @dbSend k e err recv hd hr =>
    have e1 := D ⟨.quiet, err, recv⟩ hd
    have e2 := R (.sending e (List.range s.prods.length)) hr
    simp only [State.weight]
    simp only [Db.weight, Rdr.weight, List.length_range] at e1 e2 ⊢
    omega
  | @dbClose k err recv hd =>
    have e1 := D ⟨.closed, err, recv⟩ hd
    simp only [State.weight]
    simp only [Db.weight] at e1 ⊢
    omega
  | @errTo k i e is p hr hp hi hn =>
    have e1 := P (p.receive k e) hp
    have e2 := R (.sending e (is.erase i)) hr
    have e3 := List.length_erase_of_mem hi
    have e4 := List.length_pos_of_mem hi
    have e5 : (p.receive k e).weight ≤ p.weight := by
      obtain ⟨t, st, ph, f⟩ := p
      cases ph <;> simp [Prod.receive, Prod.weight]
    simp only [State.weight, List.length_set]
    simp only [Rdr.weight] at e2 ⊢
    omega
  | @rNext k e hr =>
    have e1 := R .idle hr
    simp only [State.weight]
    simp only [Rdr.weight, List.length_nil] at e1 ⊢
    omega
  | @rEnd k err recv hd hr =>
    have e1 := R .done hr
    simp only [State.weight]
    simp only [Rdr.weight] at e1 ⊢
    omega
  | closeErrs hr hc => simp only [State.weight, hc]; simp

theorem run_weight {es : List Act} (h : s.run shard workers es = some s') : es.length + s'.weight ≤ s.weight := by
  induction es generalizing s with
  | nil => cases h; simp
  | cons e es ih =>
    simp only [State.run] at h
    cases he : s.exec shard workers e with
    | none => rw [he] at h; cases h
    | some t =>
      rw [he] at h
      have h1 := weight_step (step_iff.mp he)
      have h2 := ih h
      simp only [List.length_cons]
      omega

/-! ## Routing -/

/-- What forwarder `i` still has to send to DB stage `k`. -/
def Fwd.inflight (f : Fwd γ) (k : Nat) : List γ :=
  match f with
  | .sending c ks => if k ∈ ks then [c] else []
  | _ => []

/-- What a DB stage has received from producer `i`. -/
def Db.from (d : Db γ) (i : Nat) : List γ := (d.recv.filter fun x => x.1 == i).map fun x => x.2

structure Routed (shard : γ → Nat) (workers : Nat) (work : List (List γ)) (s : State γ) : Prop where
  work : ∀ (i : Nat) (p : Prod γ), s.prods[i]? = some p → work[i]? = some (p.sent ++ p.todo)
  nodup : ∀ (i : Nat) (c : γ) (ks : List Nat), s.fwds[i]? = some (.sending c ks) → ks.Nodup ∧ ∀ k ∈ ks, k ∈ route shard workers c
  eq : ∀ (i : Nat) (p : Prod γ) (f : Fwd γ) (k : Nat) (d : Db γ), s.prods[i]? = some p → s.fwds[i]? = some f → s.dbs[k]? = some d →
    d.from i ++ f.inflight k = p.sent.filter fun c => decide (k ∈ route shard workers c)

theorem routed_prod {work : List (List γ)} (h : Routed shard workers work s) {i : Nat} {p p' : Prod γ} (hp : s.prods[i]? = some p)
    {s' : State γ} (hs : s'.prods = s.prods.set i p') (h1 : p'.sent = p.sent) (h2 : p'.todo = p.todo) (hf : s'.fwds = s.fwds) (hd : s'.dbs = s.dbs) :
    Routed shard workers work s' := by
  obtain ⟨a, b, c⟩ := h
  refine ⟨fun j q hq => ?_, fun j => by rw [hf]; exact b j, fun j q f k d hq hf' hd' => ?_⟩
  · rw [hs] at hq
    rcases get_set hq with ⟨rfl, rfl⟩ | ⟨-, hq⟩
    · rw [h1, h2]; exact a _ _ hp
    · exact a _ _ hq
  · rw [hs] at hq; rw [hf] at hf'; rw [hd] at hd'
    rcases get_set hq with ⟨rfl, rfl⟩ | ⟨-, hq⟩
    · rw [h1]; exact c _ _ _ _ _ hp hf' hd'
    · exact c _ _ _ _ _ hq hf' hd'

theorem routed_db {work : List (List γ)} (h : Routed shard workers work s) {k : Nat} {d d' : Db γ} (hd : s.dbs[k]? = some d)
    {s' : State γ} (hs : s'.dbs = s.dbs.set k d') (h1 : d'.recv = d.recv) (hf : s'.fwds = s.fwds) (hp : s'.prods = s.prods) :
    Routed shard workers work s' := by
  obtain ⟨a, b, c⟩ := h
  refine ⟨fun j => by rw [hp]; exact a j, fun j => by rw [hf]; exact b j, fun j q f k' d'' hq hf' hd' => ?_⟩
  rw [hp] at hq; rw [hf] at hf'; rw [hs] at hd'
  rcases get_set hd' with ⟨rfl, rfl⟩ | ⟨-, hd'⟩
  · have := c _ _ _ _ _ hq hf' hd
    simpa [Db.from, h1] using this
  · exact c _ _ _ _ _ hq hf' hd'

theorem routed_fwd {work : List (List γ)} (h : Routed shard workers work s) {i : Nat} {f f' : Fwd γ} (hf : s.fwds[i]? = some f)
    (h1 : ∀ k, f'.inflight k = f.inflight k) (h2 : ∀ c ks, f' ≠ .sending c ks) {s' : State γ} (hs : s'.fwds = s.fwds.set i f') (hd : s'.dbs = s.dbs)
    (hp : s'.prods = s.prods) : Routed shard workers work s' := by
  obtain ⟨a, b, c⟩ := h
  refine ⟨fun j => by rw [hp]; exact a j, fun j x ks hx => ?_, fun j q f k' d'' hq hf' hd' => ?_⟩
  · rw [hs] at hx
    rcases get_set hx with ⟨rfl, hx'⟩ | ⟨-, hx'⟩
    · exact absurd hx'.symm (h2 _ _)
    · exact b _ _ _ hx'
  · rw [hp] at hq; rw [hs] at hf'; rw [hd] at hd'
    rcases get_set hf' with ⟨rfl, rfl⟩ | ⟨-, hf'⟩
    · rw [h1]; exact c _ _ _ _ _ hq hf hd'
    · exact c _ _ _ _ _ hq hf' hd'

theorem routed_same {work : List (List γ)} (h : Routed shard workers work s) {s' : State γ} (hf : s'.fwds = s.fwds) (hd : s'.dbs = s.dbs)
    (hp : s'.prods = s.prods) : Routed shard workers work s' := by
  obtain ⟨a, b, c⟩ := h
  exact ⟨by rw [hp]; exact a, by rw [hf]; exact b, by rw [hp, hf, hd]; exact c⟩

theorem route_nodup (hw : 0 < workers) (c : γ) : (route shard workers c).Nodup := by
  simp [route]; omega

theorem from_append (d : Db γ) (i j : Nat) (c : γ) (ph er) :
    (⟨ph, er, d.recv ++ [(j, c)]⟩ : Db γ).from i = d.from i ++ if j = i then [c] else [] := by
  by_cases h : j = i <;> simp [Db.from, h]

theorem routed_step (hw : 0 < workers) {work : List (List γ)} (s : State γ) (e : Act) (s' : State γ) (h : Routed shard workers work s)
    (hs : Step shard workers s e s') : Routed shard workers work s' := by
  cases hs with
  | @emit i c cs sent f hp hf =>
    obtain ⟨a, b, g⟩ := h
    refine ⟨fun j q hq => ?_, fun j x ks hx => ?_, fun j q f' k d hq hf' hd => ?_⟩
    · rcases get_set hq with ⟨rfl, rfl⟩ | ⟨-, hq⟩
      · simpa using a _ _ hp
      · exact a _ _ hq
    · rcases get_set hx with ⟨rfl, hx'⟩ | ⟨-, hx⟩
      · cases hx'
        exact ⟨route_nodup hw c, fun _ h => h⟩
      · exact b _ _ _ hx
    · rcases get_set hq with ⟨rfl, rfl⟩ | ⟨hne, hq⟩
      · rcases get_set hf' with ⟨-, rfl⟩ | ⟨hne, -⟩
        · have := g _ _ _ _ _ hp hf hd
          simp only [Fwd.inflight, List.append_nil] at this
          rw [List.filter_append, ← this]
          by_cases hk : k ∈ route shard workers c <;> simp [Fwd.inflight, hk]
        · exact absurd rfl hne
      · rcases get_set hf' with ⟨he, -⟩ | ⟨-, hf'⟩
        · exact absurd he hne
        · exact g _ _ _ _ _ hq hf' hd
  | eof hp => exact routed_prod h hp rfl rfl rfl rfl rfl
  | fail hp => exact routed_prod h hp rfl rfl rfl rfl rfl
  | nilErr hp hc => exact routed_prod h hp rfl rfl rfl rfl rfl
  | pEnd hp hc => exact routed_prod h hp rfl rfl rfl rfl rfl
  | @deliver i k c ks err recv hf hd hk =>
    obtain ⟨a, b, g⟩ := h
    have hn := b _ _ _ hf
    refine ⟨a, fun j x ks' hx => ?_, fun j q f' k' d hq hf' hd' => ?_⟩
    · rcases get_set hx with ⟨rfl, hx'⟩ | ⟨-, hx⟩
      · cases hx'
        exact ⟨hn.1.erase _, fun k' h => hn.2 k' (List.mem_of_mem_erase h)⟩
      · exact b _ _ _ hx
    · rcases get_set hf' with ⟨rfl, rfl⟩ | ⟨hne, hf'⟩
      · rcases get_set hd' with ⟨rfl, rfl⟩ | ⟨hne, hd'⟩
        · rw [← g _ _ _ _ _ hq hf hd, from_append ⟨.run, err, recv⟩]
          simp [Fwd.inflight, hk, hn.1.mem_erase_iff]
        · rw [← g _ _ _ _ _ hq hf hd']
          simp [Fwd.inflight, hn.1.mem_erase_iff, Ne.symm hne]
      · rcases get_set hd' with ⟨rfl, rfl⟩ | ⟨-, hd'⟩
        · rw [← g _ _ _ _ _ hq hf' hd, from_append ⟨.run, err, recv⟩]
          simp [hne]
        · exact g _ _ _ _ _ hq hf' hd'
  | @fNext i c hf => exact routed_fwd h hf (f' := .idle) (fun _ => by simp [Fwd.inflight]) nofun rfl rfl rfl
  | @fEnd i p hp hf hc => exact routed_fwd h hf (f' := .ended) (fun _ => by simp [Fwd.inflight]) nofun rfl rfl rfl
  | closeData hf hc => exact routed_same h rfl rfl rfl
  | dbFail hd => exact routed_db h hd rfl rfl rfl rfl
  | dbEnd hd hc => exact routed_db h hd rfl rfl rfl rfl
  | dbSend hd hr => exact routed_db h hd rfl rfl rfl rfl
  | dbClose hd => exact routed_db h hd rfl rfl rfl rfl
  | errTo hr hp hi hn => exact routed_prod h hp rfl rfl rfl rfl rfl
  | rNext hr => exact routed_same h rfl rfl rfl
  | rEnd hd hr => exact routed_same h rfl rfl rfl
  | closeErrs hr hc => exact routed_same h rfl rfl rfl

theorem routed_init (work : List (List γ)) : Routed shard workers work (init workers work) := by
  refine ⟨fun i p hp => ?_, fun i c ks hf => ?_, fun i p f k d hp hf hd => ?_⟩
  · simp only [init, List.getElem?_map, Option.map_eq_some_iff] at hp
    obtain ⟨w, hw, rfl⟩ := hp
    simpa using hw
  · simp [init] at hf
  · simp only [init, List.getElem?_map, Option.map_eq_some_iff] at hp hf hd
    obtain ⟨w, hw, rfl⟩ := hp
    obtain ⟨w, hw, rfl⟩ := hf
    have hd := List.mem_replicate.mp (List.mem_of_getElem? hd)
    rw [hd.2]
    rfl

/-! ## Errors -/

structure Errs (s : State γ) : Prop where
  /-- an error that a DB stage has had is on its way to, or has arrived at, every producer -/
  way : ∀ (k : Nat) (d : Db γ) (e : Nat), s.dbs[k]? = some d → d.err = some e →
    (d.phase = .failed e) ∨ (∃ is, s.rdrs[k]? = some (.sending e is) ∧ ∀ (i : Nat) (p : Prod γ), s.prods[i]? = some p → i ∈ is ∨ (.db k, e) ∈ p.found) ∨
    (∀ (i : Nat) (p : Prod γ), s.prods[i]? = some p → (.db k, e) ∈ p.found)
  running : ∀ (k : Nat) (d : Db γ), s.dbs[k]? = some d → d.phase = .run → d.err = none
  failed : ∀ (k : Nat) (d : Db γ) (e : Nat), s.dbs[k]? = some d → d.phase = .failed e → d.err = some e
  reading : ∀ (k : Nat) (e : Nat) (is : List Nat), s.rdrs[k]? = some (.sending e is) → ∃ d, s.dbs[k]? = some d ∧ d.err = some e ∧ (d.phase = .quiet ∨ d.phase = .closed)
  doneClosed : ∀ (k : Nat), s.rdrs[k]? = some .done → ∃ d, s.dbs[k]? = some d ∧ d.phase = .closed
  allDone : s.errsClosed = true → ∀ r ∈ s.rdrs, r = .done
  endNil : ∀ (i : Nat) (p : Prod γ), s.prods[i]? = some p → p.phase = .ended → p.found = [] → s.errsClosed = true
  fresh : ∀ (i : Nat) (p : Prod γ), s.prods[i]? = some p → p.phase = .run → p.found = []
  one : ∀ (i : Nat) (p : Prod γ), s.prods[i]? = some p → p.phase = .closing → p.found.length ≤ 1
  sound : ∀ (i : Nat) (p : Prod γ) (k e : Nat), s.prods[i]? = some p → (.db k, e) ∈ p.found → ∃ d : Db γ, s.dbs[k]? = some d ∧ d.err = some e ∧ (d.phase = .quiet ∨ d.phase = .closed)

theorem errs_prod (h : Errs s) {i : Nat} {p p' : Prod γ} (hp : s.prods[i]? = some p) {s' : State γ} (hs : s'.prods = s.prods.set i p')
    (h1 : ∀ e ∈ p.found, e ∈ p'.found) (h2 : p'.phase = .ended → p'.found = [] → s.errsClosed = true)
    (h4 : p'.phase = .run → p'.found = [])
    (h5 : p'.phase = .closing → p'.found.length ≤ 1)
    (h3 : ∀ k e, (.db k, e) ∈ p'.found → ∃ d : Db γ, s.dbs[k]? = some d ∧ d.err = some e ∧ (d.phase = .quiet ∨ d.phase = .closed))
    (hd : s'.dbs = s.dbs) (hr : s'.rdrs = s.rdrs) (he : s'.errsClosed = s.errsClosed) : Errs s' := by
  obtain ⟨a, b, c, d, e, f, g, fr, one, l⟩ := h
  have mono : ∀ (Q : Nat → Prop) (x : Src × Nat), (∀ (j : Nat) (q : Prod γ), s.prods[j]? = some q → Q j ∨ x ∈ q.found) →
      ∀ (j : Nat) (q : Prod γ), s'.prods[j]? = some q → Q j ∨ x ∈ q.found := by
    intro Q x hq j q hj
    rw [hs] at hj
    rcases get_set hj with ⟨rfl, rfl⟩ | ⟨-, hj⟩
    · exact (hq _ _ hp).imp id (h1 x)
    · exact hq _ _ hj
  refine ⟨fun k dd x hk hx => ?_, by rw [hd]; exact b, by rw [hd]; exact c, by rw [hd, hr]; exact d, by rw [hd, hr]; exact e,
    by rw [hr, he]; exact f, fun j q hj hph hn => ?_, fun j q hj hph => ?_, fun j q hj hph => ?_, fun j q m x hj hx => ?_⟩
  · rw [hd] at hk
    rcases a k dd x hk hx with h | ⟨is, h, h'⟩ | h
    · exact .inl h
    · exact .inr (.inl ⟨is, by rw [hr]; exact h, mono (· ∈ is) _ h'⟩)
    · exact .inr (.inr fun j q hj => (mono (fun _ => False) _ (fun j q hj => .inr (h j q hj)) j q hj).elim False.elim id)
  · rw [he]
    rw [hs] at hj
    rcases get_set hj with ⟨rfl, rfl⟩ | ⟨-, hj⟩
    · exact h2 hph hn
    · exact g _ _ hj hph hn
  · rw [hs] at hj
    rcases get_set hj with ⟨rfl, rfl⟩ | ⟨-, hj⟩
    · exact h4 hph
    · exact fr _ _ hj hph
  · rw [hs] at hj
    rcases get_set hj with ⟨rfl, rfl⟩ | ⟨-, hj⟩
    · exact h5 hph
    · exact one _ _ hj hph
  · rw [hd]
    rw [hs] at hj
    rcases get_set hj with ⟨rfl, rfl⟩ | ⟨-, hj⟩
    · exact h3 m x hx
    · exact l _ _ _ _ hj hx

theorem errs_same (h : Errs s) {s' : State γ} (hp : s'.prods = s.prods) (hd : s'.dbs = s.dbs) (hr : s'.rdrs = s.rdrs)
    (he : s'.errsClosed = s.errsClosed) : Errs s' := by
  obtain ⟨a, b, c, d, e, f, g, fr, one, l⟩ := h
  refine ⟨?_, ?_, ?_, ?_, ?_, ?_, ?_, by rw [hp]; exact fr, by rw [hp]; exact one, ?_⟩
  · rw [hd, hr, hp]; exact a
  · rw [hd]; exact b
  · rw [hd]; exact c
  · rw [hd, hr]; exact d
  · rw [hd, hr]; exact e
  · rw [hr, he]; exact f
  · rw [hp, he]; exact g
  · rw [hp, hd]; exact l

theorem lt_of_get {l : List α} {i : Nat} {a : α} (h : l[i]? = some a) : i < l.length := by
  obtain ⟨h, -⟩ := List.getElem?_eq_some_iff.mp h
  exact h

theorem get_set_self {l : List α} {i : Nat} {a b : α} (h : l[i]? = some a) : (l.set i b)[i]? = some b := by
  rw [List.getElem?_set_self (lt_of_get h)]

theorem get_set_other {l : List α} {i j : Nat} {b c : α} (h : l[j]? = some c) (hne : i ≠ j) : (l.set i b)[j]? = some c := by
  rw [List.getElem?_set_ne hne]; exact h

/-- A DB stage changes its phase, not its error; no reader changes. -/
theorem errs_db (h : Errs s) {k : Nat} {d d' : Db γ} (hk : s.dbs[k]? = some d) {s' : State γ} (hs : s'.dbs = s.dbs.set k d')
    (h1 : d'.err = d.err) (h2 : ∀ e, d.phase ≠ .failed e) (h3 : d'.phase = .quiet ∨ d'.phase = .closed) (h4 : d.phase = .closed → d'.phase = .closed)
    (hp : s'.prods = s.prods) (hr : s'.rdrs = s.rdrs) (he : s'.errsClosed = s.errsClosed) : Errs s' := by
  obtain ⟨a, b, c, dd, e, f, g, fr, one, l⟩ := h
  refine ⟨fun j q x hj hx => ?_, fun j q hj hph => ?_, fun j q x hj hph => ?_, fun j x is hj => ?_, fun j hj => ?_, by rw [hr, he]; exact f,
    by rw [hp, he]; exact g, by rw [hp]; exact fr, by rw [hp]; exact one, fun j q m x hj hx => ?_⟩
  · rw [hs] at hj
    rw [hr, hp]
    rcases get_set hj with ⟨rfl, rfl⟩ | ⟨-, hj⟩
    · rcases a _ _ x hk (h1 ▸ hx) with h | h
      · exact absurd h (h2 _)
      · exact .inr h
    · exact a _ _ _ hj hx
  · rw [hs] at hj
    rcases get_set hj with ⟨rfl, rfl⟩ | ⟨-, hj⟩
    · rcases h3 with h3 | h3 <;> rw [h3] at hph <;> cases hph
    · exact b _ _ hj hph
  · rw [hs] at hj
    rcases get_set hj with ⟨rfl, rfl⟩ | ⟨-, hj⟩
    · rcases h3 with h3 | h3 <;> rw [h3] at hph <;> cases hph
    · exact c _ _ _ hj hph
  · rw [hr] at hj
    obtain ⟨q, hq, hx, hph⟩ := dd _ _ _ hj
    rw [hs]
    by_cases hkj : k = j
    · subst hkj
      rw [hk] at hq; cases hq
      exact ⟨d', get_set_self hk, h1 ▸ hx, h3⟩
    · exact ⟨q, get_set_other hq hkj, hx, hph⟩
  · rw [hr] at hj
    obtain ⟨q, hq, hph⟩ := e _ hj
    rw [hs]
    by_cases hkj : k = j
    · subst hkj
      rw [hk] at hq; cases hq
      exact ⟨d', get_set_self hk, h4 hph⟩
    · exact ⟨q, get_set_other hq hkj, hph⟩
  · rw [hp] at hj
    obtain ⟨q, hq, hx⟩ := l _ _ _ _ hj hx
    rw [hs]
    by_cases hkj : k = m
    · subst hkj
      rw [hk] at hq; cases hq
      exact ⟨d', get_set_self hk, h1 ▸ hx.1, h3⟩
    · exact ⟨q, get_set_other hq hkj, hx⟩

theorem errs_step {n m : Nat} (s : State γ) (ev : Act) (s' : State γ) (h : Errs s ∧ Sized n m s) (hs : Step shard workers s ev s') :
    Errs s' ∧ Sized n m s' := by
  obtain ⟨h, hz⟩ := h
  refine ⟨?_, sized_step s ev s' hz hs⟩
  have sound := h.sound
  have fresh := h.fresh
  cases hs with
  | emit hp hf =>
    have h1 := fun k x hx => sound _ _ k x hp hx
    have h2 := fresh _ _ hp rfl
    exact errs_prod h hp rfl (fun _ h => h) nofun (fun _ => h2) nofun h1 rfl rfl rfl
  | eof hp =>
    have h1 := fun k x hx => sound _ _ k x hp hx
    have h2 := fresh _ _ hp rfl
    exact errs_prod h hp rfl (fun _ h => h) nofun nofun (fun _ => Nat.le_trans (Nat.le_of_eq (congrArg List.length h2)) (Nat.zero_le _)) h1 rfl rfl rfl
  | @fail i e t sent f hp =>
    have h2 : f = [] := fresh _ _ hp rfl
    subst h2
    refine errs_prod h hp rfl (fun _ h => List.mem_append_left _ h) nofun nofun (fun _ => Nat.le_refl _) (fun k x hx => ?_) rfl rfl rfl
    simp at hx
  | nilErr hp hc =>
    have h1 := fun k x hx => sound _ _ k x hp hx
    have h2 := fresh _ _ hp rfl
    exact errs_prod h hp rfl (fun _ h => h) nofun nofun (fun _ => Nat.le_trans (Nat.le_of_eq (congrArg List.length h2)) (Nat.zero_le _)) h1 rfl rfl rfl
  | pEnd hp hc =>
    have h1 := fun k x hx => sound _ _ k x hp hx
    exact errs_prod h hp rfl (fun _ h => h) (fun _ _ => hc) nofun nofun h1 rfl rfl rfl
  | @deliver i k c ks err recv hf hd hk =>
    obtain ⟨a, b, c, dd, e, f, g, fr, one, l⟩ := h
    have he := b _ _ hd rfl
    refine ⟨fun j q x hj hx => ?_, fun j q hj hph => ?_, fun j q x hj hph => ?_, fun j x is hj => ?_, fun j hj => ?_, f, g, fr, one, fun j q m x hj hx => ?_⟩
    · rcases get_set hj with ⟨rfl, rfl⟩ | ⟨-, hj⟩
      · cases he.symm.trans hx
      · exact a _ _ _ hj hx
    · rcases get_set hj with ⟨rfl, rfl⟩ | ⟨-, hj⟩
      · exact he
      · exact b _ _ hj hph
    · rcases get_set hj with ⟨rfl, rfl⟩ | ⟨-, hj⟩
      · cases hph
      · exact c _ _ _ hj hph
    · obtain ⟨q, hq, hx, hph⟩ := dd _ _ _ hj
      by_cases hkj : k = j
      · subst hkj; rw [hd] at hq; cases hq; cases hph <;> rename_i hph <;> cases hph
      · exact ⟨q, get_set_other hq hkj, hx, hph⟩
    · obtain ⟨q, hq, hph⟩ := e _ hj
      by_cases hkj : k = j
      · subst hkj; rw [hd] at hq; cases hq; cases hph
      · exact ⟨q, get_set_other hq hkj, hph⟩
    · obtain ⟨q, hq, hx⟩ := l _ _ _ _ hj hx
      by_cases hkj : k = m
      · subst hkj; rw [hd] at hq; cases hq; cases he.symm.trans hx.1
      · exact ⟨q, get_set_other hq hkj, hx⟩
  | fNext hf => exact errs_same h rfl rfl rfl rfl
  | fEnd hp hf hc => exact errs_same h rfl rfl rfl rfl
  | closeData hf hc => exact errs_same h rfl rfl rfl rfl
  | @dbFail k x err recv hd =>
    obtain ⟨a, b, c, dd, e, f, g, fr, one, l⟩ := h
    have he := b _ _ hd rfl
    refine ⟨fun j q y hj hx => ?_, fun j q hj hph => ?_, fun j q y hj hph => ?_, fun j y is hj => ?_, fun j hj => ?_, f, g, fr, one, fun j q m y hj hx => ?_⟩
    · rcases get_set hj with ⟨rfl, rfl⟩ | ⟨-, hj⟩
      · cases hx; exact .inl rfl
      · exact a _ _ _ hj hx
    · rcases get_set hj with ⟨rfl, rfl⟩ | ⟨-, hj⟩
      · cases hph
      · exact b _ _ hj hph
    · rcases get_set hj with ⟨rfl, rfl⟩ | ⟨-, hj⟩
      · cases hph; rfl
      · exact c _ _ _ hj hph
    · obtain ⟨q, hq, hx, hph⟩ := dd _ _ _ hj
      by_cases hkj : k = j
      · subst hkj; rw [hd] at hq; cases hq; cases hph <;> rename_i hph <;> cases hph
      · exact ⟨q, get_set_other hq hkj, hx, hph⟩
    · obtain ⟨q, hq, hph⟩ := e _ hj
      by_cases hkj : k = j
      · subst hkj; rw [hd] at hq; cases hq; cases hph
      · exact ⟨q, get_set_other hq hkj, hph⟩
    · obtain ⟨q, hq, hx⟩ := l _ _ _ _ hj hx
      by_cases hkj : k = m
      · subst hkj; rw [hd] at hq; cases hq; cases he.symm.trans hx.1
      · exact ⟨q, get_set_other hq hkj, hx⟩
  | dbEnd hd hc => exact errs_db h hd rfl rfl nofun (.inl rfl) nofun rfl rfl rfl
  | @dbSend k x err recv hd hr =>
    obtain ⟨a, b, c, dd, e, f, g, fr, one, l⟩ := h
    have he : err = some x := c _ _ _ hd rfl
    refine ⟨fun j q y hj hx => ?_, fun j q hj hph => ?_, fun j q y hj hph => ?_, fun j y is hj => ?_, fun j hj => ?_, fun hc r hr' => ?_, g, fr, one,
      fun j q m y hj hx => ?_⟩
    · rcases get_set hj with ⟨rfl, rfl⟩ | ⟨hne, hj⟩
      · cases he.symm.trans hx
        refine .inr (.inl ⟨_, get_set_self hr, fun i p hp => .inl (List.mem_range.mpr (lt_of_get hp))⟩)
      · rcases a _ _ _ hj hx with h | ⟨is, h, h'⟩ | h
        · exact .inl h
        · exact .inr (.inl ⟨is, get_set_other h hne, h'⟩)
        · exact .inr (.inr h)
    · rcases get_set hj with ⟨rfl, rfl⟩ | ⟨-, hj⟩
      · cases hph
      · exact b _ _ hj hph
    · rcases get_set hj with ⟨rfl, rfl⟩ | ⟨-, hj⟩
      · cases hph
      · exact c _ _ _ hj hph
    · rcases get_set hj with ⟨rfl, hj'⟩ | ⟨hne, hj'⟩
      · cases hj'
        exact ⟨_, get_set_self hd, he, .inl rfl⟩
      · obtain ⟨q, hq, hx, hph⟩ := dd _ _ _ hj'
        exact ⟨q, get_set_other hq hne, hx, hph⟩
    · rcases get_set hj with ⟨rfl, hj'⟩ | ⟨hne, hj'⟩
      · cases hj'
      · obtain ⟨q, hq, hph⟩ := e _ hj'
        exact ⟨q, get_set_other hq hne, hph⟩
    · cases f hc _ (List.mem_of_getElem? hr)
    · obtain ⟨q, hq, hx⟩ := l _ _ _ _ hj hx
      by_cases hkj : k = m
      · subst hkj; rw [hd] at hq; cases hq; exact ⟨_, get_set_self hd, hx.1, .inl rfl⟩
      · exact ⟨q, get_set_other hq hkj, hx⟩
  | dbClose hd => exact errs_db h hd rfl rfl nofun (.inr rfl) nofun rfl rfl rfl
  | @errTo k i x is p hr hp hi hn =>
    have h0 : Errs { s with prods := s.prods.set i (p.receive k x) } := by
      refine errs_prod h hp rfl (fun _ h => List.mem_append_left _ h) (fun _ hf => ?_) (fun hph => ?_) (fun hph => ?_) (fun m y hy => ?_) rfl rfl rfl
      · simp [Prod.receive] at hf
      · simp only [Prod.receive] at hph; split at hph <;> cases hph
      · simp only [Prod.receive] at hph ⊢
        split at hph
        · rename_i hrun
          rw [fresh _ _ hp hrun]; simp
        · cases hph
      · rcases List.mem_append.mp hy with hy | hy
        · have := sound _ _ m y hp hy
          exact this
        · simp at hy
          obtain ⟨rfl, rfl⟩ := hy
          exact h.reading _ _ _ hr
    obtain ⟨a, b, c, dd, e, f, g, fr, one, l⟩ := h0
    refine ⟨fun j q y hj hx => ?_, b, c, fun j y is' hj => ?_, fun j hj => ?_, fun hc r hr' => ?_, g, fr, one, l⟩
    · rcases a _ _ _ hj hx with h1 | ⟨is', h1, h2⟩ | h1
      · exact .inl h1
      · by_cases hkj : k = j
        · subst hkj
          have h1 : s.rdrs[k]? = some (.sending y is') := h1
          rw [hr] at h1; cases h1
          refine .inr (.inl ⟨_, get_set_self hr, fun i' p' hp' => ?_⟩)
          rcases h2 i' p' hp' with h3 | h3
          · by_cases hii : i' = i
            · subst hii
              right
              have hp'' : (s.prods.set i' (p.receive k x))[i']? = some p' := hp'
              rw [get_set_self hp] at hp''
              cases hp''
              simp [Prod.receive]
            · exact .inl ((List.mem_erase_of_ne hii).mpr h3)
          · exact .inr h3
        · exact .inr (.inl ⟨is', get_set_other h1 hkj, h2⟩)
      · exact .inr (.inr h1)
    · rcases get_set hj with ⟨rfl, hj'⟩ | ⟨hne, hj'⟩
      · cases hj'
        exact dd _ _ _ hr
      · exact dd _ _ _ hj'
    · rcases get_set hj with ⟨rfl, hj'⟩ | ⟨hne, hj'⟩
      · cases hj'
      · exact e _ hj'
    · cases f hc _ (List.mem_of_getElem? hr)
  | @rNext k x hr =>
    obtain ⟨a, b, c, dd, e, f, g, fr, one, l⟩ := h
    refine ⟨fun j q y hj hx => ?_, b, c, fun j y is' hj => ?_, fun j hj => ?_, fun hc r hr' => ?_, g, fr, one, l⟩
    · rcases a _ _ _ hj hx with h1 | ⟨is', h1, h2⟩ | h1
      · exact .inl h1
      · by_cases hkj : k = j
        · subst hkj
          rw [hr] at h1; cases h1
          exact .inr (.inr fun i p hp => (h2 i p hp).resolve_left List.not_mem_nil)
        · exact .inr (.inl ⟨is', get_set_other h1 hkj, h2⟩)
      · exact .inr (.inr h1)
    · rcases get_set hj with ⟨rfl, hj'⟩ | ⟨hne, hj'⟩
      · cases hj'
      · exact dd _ _ _ hj'
    · rcases get_set hj with ⟨rfl, hj'⟩ | ⟨hne, hj'⟩
      · cases hj'
      · exact e _ hj'
    · cases f hc _ (List.mem_of_getElem? hr)
  | @rEnd k err recv hd hr =>
    obtain ⟨a, b, c, dd, e, f, g, fr, one, l⟩ := h
    refine ⟨fun j q y hj hx => ?_, b, c, fun j y is' hj => ?_, fun j hj => ?_, fun hc r hr' => ?_, g, fr, one, l⟩
    · rcases a _ _ _ hj hx with h1 | ⟨is', h1, h2⟩ | h1
      · exact .inl h1
      · by_cases hkj : k = j
        · subst hkj
          rw [hr] at h1; cases h1
        · exact .inr (.inl ⟨is', get_set_other h1 hkj, h2⟩)
      · exact .inr (.inr h1)
    · rcases get_set hj with ⟨rfl, hj'⟩ | ⟨hne, hj'⟩
      · cases hj'
      · exact dd _ _ _ hj'
    · rcases get_set hj with ⟨rfl, hj'⟩ | ⟨hne, hj'⟩
      · exact ⟨_, hd, rfl⟩
      · exact e _ hj'
    · cases f hc _ (List.mem_of_getElem? hr)
  | closeErrs hr hc =>
    obtain ⟨a, b, c, dd, e, f, g, fr, one, l⟩ := h
    exact ⟨a, b, c, dd, e, fun _ => hr, fun _ _ _ _ _ => rfl, fr, one, l⟩

theorem errs_init (workers : Nat) (work : List (List γ)) : Errs (init workers work) := by
  have hd : ∀ (k : Nat) (d : Db γ), (init workers work).dbs[k]? = some d → d = ⟨.run, none, []⟩ :=
    fun k d h => (List.mem_replicate.mp (List.mem_of_getElem? h)).2
  have hr : ∀ (k : Nat) (r : Rdr), (init workers work).rdrs[k]? = some r → r = .idle :=
    fun k d h => (List.mem_replicate.mp (List.mem_of_getElem? h)).2
  have hp : ∀ (i : Nat) (p : Prod γ), (init workers work).prods[i]? = some p → p.found = [] ∧ p.phase = .run := by
    intro i p h
    simp only [init, List.getElem?_map, Option.map_eq_some_iff] at h
    obtain ⟨w, -, rfl⟩ := h
    exact ⟨rfl, rfl⟩
  refine ⟨fun k d x h hx => ?_, fun k d h _ => ?_, fun k d x h hx => ?_, fun k x is h => ?_, fun k h => ?_, nofun, fun i p h hph => ?_, fun i p h _ => (hp i p h).1,
    fun i p h _ => by rw [(hp i p h).1]; exact Nat.zero_le _, fun i p k x h hx => ?_⟩
  · rw [hd k d h] at hx; cases hx
  · rw [hd k d h]
  · rw [hd k d h] at hx; cases hx
  · cases hr k _ h
  · cases hr k _ h
  · rw [(hp i p h).2] at hph; cases hph
  · rw [(hp i p h).1] at hx; cases hx

/-! ## What the goroutines still have to do -/

structure More (s : State γ) : Prop where
  fend : ∀ (i : Nat) (p : Prod γ), s.prods[i]? = some p → s.fwds[i]? = some .ended → p.phase ≠ .run
  pend : ∀ (k e : Nat) (is : List Nat), s.rdrs[k]? = some (.sending e is) → is.Nodup ∧
    ∀ i ∈ is, ∃ p, s.prods[i]? = some p ∧ ∀ x, (.db k, x) ∉ p.found
  two : ∀ (i : Nat) (p : Prod γ), s.prods[i]? = some p → p.phase = .ended → s.errsClosed = true ∨ ∃ k e, (.db k, e) ∈ p.found
  data : s.dataClosed = true → ∀ f ∈ s.fwds, f = .ended

theorem more_prod (h : More s) {i : Nat} {p p' : Prod γ} (hp : s.prods[i]? = some p) {s' : State γ} (hs : s'.prods = s.prods.set i p')
    (h1 : ∀ k e, (.db k, e) ∈ p'.found ↔ (.db k, e) ∈ p.found) (h2 : p'.phase ≠ .run) (h3 : p'.phase = .ended → s.errsClosed = true)
    (hf : s'.fwds = s.fwds) (hr : s'.rdrs = s.rdrs) (he : s'.errsClosed = s.errsClosed) (hc : s'.dataClosed = s.dataClosed) : More s' := by
  obtain ⟨a, b, c, d⟩ := h
  refine ⟨fun j q hj hf' => ?_, fun k e is hk => ?_, fun j q hj hph => ?_, by rw [hc, hf]; exact d⟩
  · rw [hs] at hj
    rw [hf] at hf'
    rcases get_set hj with ⟨rfl, rfl⟩ | ⟨-, hj⟩
    · exact h2
    · exact a _ _ hj hf'
  · rw [hr] at hk
    refine ⟨(b _ _ _ hk).1, fun j hj => ?_⟩
    obtain ⟨q, hq, hx⟩ := (b _ _ _ hk).2 j hj
    rw [hs]
    by_cases hij : i = j
    · subst hij
      rw [hp] at hq; cases hq
      exact ⟨p', get_set_self hp, fun x hx' => hx x ((h1 _ _).mp hx')⟩
    · exact ⟨q, get_set_other hq hij, hx⟩
  · rw [hs] at hj
    rw [he]
    rcases get_set hj with ⟨rfl, rfl⟩ | ⟨-, hj⟩
    · exact .inl (h3 hph)
    · exact c _ _ hj hph

theorem more_same (h : More s) {s' : State γ} (hp : s'.prods = s.prods)
    (hf : s'.fwds = s.fwds) (hr : s'.rdrs = s.rdrs) (he : s'.errsClosed = s.errsClosed) (hc : s'.dataClosed = s.dataClosed) : More s' := by
  obtain ⟨a, b, c, d⟩ := h
  exact ⟨by rw [hp, hf]; exact a, by rw [hp, hr]; exact b, by rw [hp, he]; exact c, by rw [hc, hf]; exact d⟩

theorem more_fwd (h : More s) {i : Nat} {f f' : Fwd γ} (hi : s.fwds[i]? = some f) (hne : f ≠ .ended) {s' : State γ} (hs : s'.fwds = s.fwds.set i f')
    (h1 : f' = .ended → ∀ p, s.prods[i]? = some p → p.phase ≠ .run) (hp : s'.prods = s.prods) (hr : s'.rdrs = s.rdrs)
    (he : s'.errsClosed = s.errsClosed) (hc : s'.dataClosed = s.dataClosed) : More s' := by
  obtain ⟨a, b, c, d⟩ := h
  refine ⟨fun j q hj hf => ?_, by rw [hp, hr]; exact b, by rw [hp, he]; exact c, fun h => ?_⟩
  · rw [hp] at hj
    rw [hs] at hf
    rcases get_set hf with ⟨rfl, h2⟩ | ⟨-, hf⟩
    · exact h1 h2.symm _ hj
    · exact a _ _ hj hf
  · rw [hc] at h
    exact absurd (d h _ (List.mem_of_getElem? hi)) hne

theorem more_rdr (h : More s) {k : Nat} {r' : Rdr} {s' : State γ} (hs : s'.rdrs = s.rdrs.set k r')
    (h1 : ∀ e is, r' = .sending e is → is.Nodup ∧ ∀ i ∈ is, ∃ p, s.prods[i]? = some p ∧ ∀ x, (.db k, x) ∉ p.found) (hp : s'.prods = s.prods)
    (hf : s'.fwds = s.fwds) (he : s'.errsClosed = s.errsClosed) (hc : s'.dataClosed = s.dataClosed) : More s' := by
  obtain ⟨a, b, c, d⟩ := h
  refine ⟨by rw [hp, hf]; exact a, fun j x is hj => ?_, by rw [hp, he]; exact c, by rw [hc, hf]; exact d⟩
  rw [hs] at hj
  rw [hp]
  rcases get_set hj with ⟨rfl, h2⟩ | ⟨-, hj⟩
  · exact h1 _ _ h2.symm
  · exact b _ _ _ hj

theorem more_step {n m : Nat} (s : State γ) (ev : Act) (s' : State γ) (h : More s ∧ Errs s ∧ Sized n m s) (hs : Step shard workers s ev s') :
    More s' ∧ Errs s' ∧ Sized n m s' := by
  obtain ⟨h, he, hz⟩ := h
  refine ⟨?_, errs_step s ev s' ⟨he, hz⟩ hs⟩
  cases hs with
  | @emit i c cs sent f hp hf =>
    obtain ⟨a, b, cc, d⟩ := h
    refine ⟨fun j q hj hf' => ?_, fun k e is hk => ?_, fun j q hj hph => ?_, fun h => ?_⟩
    · rcases get_set hf' with ⟨-, hf'⟩ | ⟨hne, hf'⟩
      · cases hf'
      · rcases get_set hj with ⟨rfl, -⟩ | ⟨-, hj⟩
        · exact absurd rfl hne
        · exact a _ _ hj hf'
    · refine ⟨(b _ _ _ hk).1, fun j hj => ?_⟩
      obtain ⟨q, hq, hx⟩ := (b _ _ _ hk).2 j hj
      by_cases hij : i = j
      · subst hij
        rw [hp] at hq; cases hq
        exact ⟨_, get_set_self hp, hx⟩
      · exact ⟨q, get_set_other hq hij, hx⟩
    · rcases get_set hj with ⟨rfl, rfl⟩ | ⟨-, hj⟩
      · cases hph
      · exact cc _ _ hj hph
    · cases d h _ (List.mem_of_getElem? hf)
  | eof hp => exact more_prod h hp rfl (fun _ _ => Iff.rfl) nofun nofun rfl rfl rfl rfl
  | fail hp => exact more_prod h hp rfl (fun _ _ => by simp) nofun nofun rfl rfl rfl rfl
  | nilErr hp hc => exact more_prod h hp rfl (fun _ _ => Iff.rfl) nofun nofun rfl rfl rfl rfl
  | pEnd hp hc => exact more_prod h hp rfl (fun _ _ => Iff.rfl) nofun (fun _ => hc) rfl rfl rfl rfl
  | deliver hf hd hk => exact more_fwd h hf nofun rfl nofun rfl rfl rfl rfl
  | fNext hf => exact more_fwd h hf nofun rfl nofun rfl rfl rfl rfl
  | fEnd hp hf hc =>
    refine more_fwd h hf nofun rfl (fun _ q hq => ?_) rfl rfl rfl rfl
    rw [hp] at hq; cases hq; exact hc
  | closeData hf hc =>
    obtain ⟨a, b, c, d⟩ := h
    exact ⟨a, b, c, fun _ => hf⟩
  | dbFail hd => exact more_same h rfl rfl rfl rfl rfl
  | dbEnd hd hc => exact more_same h rfl rfl rfl rfl rfl
  | @dbSend k x err recv hd hr =>
    refine more_rdr h rfl (fun e is hi => ?_) rfl rfl rfl rfl
    cases hi
    refine ⟨List.nodup_range, fun i hi => ?_⟩
    have hi := List.mem_range.mp hi
    refine ⟨_, List.getElem?_eq_getElem hi, fun y hy => ?_⟩
    obtain ⟨d, hd', hx, hph⟩ := he.sound _ _ _ _ (List.getElem?_eq_getElem hi) hy
    rw [hd] at hd'; cases hd'
    rcases hph with h | h <;> cases h
  | dbClose hd => exact more_same h rfl rfl rfl rfl rfl
  | @errTo k i x is p hr hp hi hn =>
    obtain ⟨a, b, c, d⟩ := h
    have hne : (p.receive k x).phase ≠ .run := by simp only [Prod.receive]; split <;> nofun
    refine ⟨fun j q hj hf' => ?_, fun k' e is' hk => ?_, fun j q hj hph => ?_, d⟩
    · rcases get_set hj with ⟨rfl, rfl⟩ | ⟨-, hj⟩
      · exact hne
      · exact a _ _ hj hf'
    · rcases get_set hk with ⟨rfl, hk'⟩ | ⟨hkk, hk'⟩
      · cases hk'
        have h1 := b _ _ _ hr
        refine ⟨h1.1.erase _, fun j hj => ?_⟩
        have hj' := (h1.1.mem_erase_iff).mp hj
        obtain ⟨q, hq, hx⟩ := h1.2 j hj'.2
        exact ⟨q, get_set_other hq (Ne.symm hj'.1), hx⟩
      · have h1 := b _ _ _ hk'
        refine ⟨h1.1, fun j hj => ?_⟩
        obtain ⟨q, hq, hx⟩ := h1.2 j hj
        by_cases hij : i = j
        · subst hij
          rw [hp] at hq; cases hq
          refine ⟨_, get_set_self hp, fun y hy => ?_⟩
          rcases List.mem_append.mp hy with hy | hy
          · exact hx y hy
          · simp at hy; exact hkk hy.1.symm
        · exact ⟨q, get_set_other hq hij, hx⟩
    · rcases get_set hj with ⟨rfl, rfl⟩ | ⟨-, hj⟩
      · exact .inr ⟨k, x, List.mem_append_right _ (List.mem_singleton.mpr rfl)⟩
      · exact c _ _ hj hph
  | rNext hr => exact more_rdr h rfl nofun rfl rfl rfl rfl
  | rEnd hd hr => exact more_rdr h rfl nofun rfl rfl rfl rfl
  | closeErrs hr hc =>
    obtain ⟨a, b, c, d⟩ := h
    exact ⟨a, b, fun _ _ _ _ => .inl rfl, d⟩

theorem more_init (workers : Nat) (work : List (List γ)) : More (init workers work) := by
  refine ⟨fun i p h hf => ?_, fun k e is h => ?_, fun i p h hph => ?_, nofun⟩
  · simp only [init, List.getElem?_map, Option.map_eq_some_iff] at hf
    obtain ⟨w, -, hf⟩ := hf
    cases hf
  · cases (List.mem_replicate.mp (List.mem_of_getElem? h)).2
  · simp only [init, List.getElem?_map, Option.map_eq_some_iff] at h
    obtain ⟨w, -, rfl⟩ := h
    cases hph

/-! ## Runs without failures -/

structure Smooth (s : State γ) : Prop where
  db : ∀ (k : Nat) (d : Db γ), s.dbs[k]? = some d → (∀ e, d.phase ≠ .failed e) ∧ (d.phase ≠ .run → s.dataClosed = true)
  rdr : ∀ (k : Nat) (r : Rdr), s.rdrs[k]? = some r → r = .idle ∨ r = .done
  data : s.dataClosed = true → ∀ f ∈ s.fwds, f = .ended
  prod : ∀ (i : Nat) (p : Prod γ), s.prods[i]? = some p → p.found = [] ∧ (p.phase ≠ .run → p.todo = [])
  fend : ∀ (i : Nat) (p : Prod γ), s.prods[i]? = some p → s.fwds[i]? = some .ended → p.phase ≠ .run

/-- The steps that are failures. -/
def Act.failure : Act → Bool
  | .fail _ _ | .dbFail _ _ => true
  | _ => false

theorem smooth_prod (h : Smooth s) {i : Nat} {p p' : Prod γ} (hp : s.prods[i]? = some p) {s' : State γ} (hs : s'.prods = s.prods.set i p')
    (h1 : p'.found = [] ∧ (p'.phase ≠ .run → p'.todo = [])) (h2 : p'.phase ≠ .run) (hf : s'.fwds = s.fwds) (hd : s'.dbs = s.dbs)
    (hr : s'.rdrs = s.rdrs) (hc : s'.dataClosed = s.dataClosed) : Smooth s' := by
  obtain ⟨a, b, c, d, e⟩ := h
  refine ⟨by rw [hd, hc]; exact a, by rw [hr]; exact b, by rw [hc, hf]; exact c, fun j q hj => ?_, fun j q hj hf' => ?_⟩
  · rw [hs] at hj
    rcases get_set hj with ⟨rfl, rfl⟩ | ⟨-, hj⟩
    · exact h1
    · exact d _ _ hj
  · rw [hs] at hj
    rw [hf] at hf'
    rcases get_set hj with ⟨rfl, rfl⟩ | ⟨-, hj⟩
    · exact h2
    · exact e _ _ hj hf'

theorem smooth_db (h : Smooth s) {k : Nat} {d d' : Db γ} {s' : State γ} (hs : s'.dbs = s.dbs.set k d')
    (h1 : ∀ e, d'.phase ≠ .failed e) (h2 : d'.phase ≠ .run → s.dataClosed = true) (hf : s'.fwds = s.fwds) (hp : s'.prods = s.prods)
    (hr : s'.rdrs = s.rdrs) (hc : s'.dataClosed = s.dataClosed) : Smooth s' := by
  obtain ⟨a, b, c, dd, e⟩ := h
  refine ⟨fun j q hj => ?_, by rw [hr]; exact b, by rw [hc, hf]; exact c, by rw [hp]; exact dd, by rw [hp, hf]; exact e⟩
  rw [hs] at hj
  rw [hc]
  rcases get_set hj with ⟨rfl, rfl⟩ | ⟨-, hj⟩
  · exact ⟨h1, h2⟩
  · exact a _ _ hj

theorem smooth_fwd (h : Smooth s) {i : Nat} {f f' : Fwd γ} (hi : s.fwds[i]? = some f) (hne : f ≠ .ended) {s' : State γ} (hs : s'.fwds = s.fwds.set i f')
    (h1 : f' = .ended → ∀ p, s.prods[i]? = some p → p.phase ≠ .run) (hp : s'.prods = s.prods) (hd : s'.dbs = s.dbs) (hr : s'.rdrs = s.rdrs)
    (hc : s'.dataClosed = s.dataClosed) : Smooth s' := by
  obtain ⟨a, b, c, dd, e⟩ := h
  refine ⟨by rw [hd, hc]; exact a, by rw [hr]; exact b, fun h => ?_, by rw [hp]; exact dd, fun j q hj hf => ?_⟩
  · rw [hc] at h
    exact absurd (c h _ (List.mem_of_getElem? hi)) hne
  · rw [hp] at hj
    rw [hs] at hf
    rcases get_set hf with ⟨rfl, h2⟩ | ⟨-, hf⟩
    · exact h1 h2.symm _ hj
    · exact e _ _ hj hf

theorem smooth_rdr (h : Smooth s) {k : Nat} {r' : Rdr} {s' : State γ} (hs : s'.rdrs = s.rdrs.set k r') (h1 : r' = .idle ∨ r' = .done)
    (hf : s'.fwds = s.fwds) (hp : s'.prods = s.prods) (hd : s'.dbs = s.dbs) (hc : s'.dataClosed = s.dataClosed) : Smooth s' := by
  obtain ⟨a, b, c, dd, e⟩ := h
  refine ⟨by rw [hd, hc]; exact a, fun j q hj => ?_, by rw [hc, hf]; exact c, by rw [hp]; exact dd, by rw [hp, hf]; exact e⟩
  rw [hs] at hj
  rcases get_set hj with ⟨rfl, rfl⟩ | ⟨-, hj⟩
  · exact h1
  · exact b _ _ hj

theorem smooth_step (hw : 0 < workers) {n : Nat} (s : State γ) (ev : Act) (s' : State γ) (hn : ev.failure = false)
    (h : Smooth s ∧ Errs s ∧ Sized n workers s) (hs : Step shard workers s ev s') : Smooth s' ∧ Errs s' ∧ Sized n workers s' := by
  obtain ⟨h, he, hz⟩ := h
  refine ⟨?_, errs_step s ev s' ⟨he, hz⟩ hs⟩
  cases hs with
  | @emit i c cs sent f hp hf =>
    obtain ⟨a, b, cc, d, e⟩ := h
    refine ⟨a, b, fun h => ?_, fun j q hj => ?_, fun j q hj hf' => ?_⟩
    · cases cc h _ (List.mem_of_getElem? hf)
    · rcases get_set hj with ⟨rfl, rfl⟩ | ⟨-, hj⟩
      · have := (d _ _ hp).1
        exact ⟨this, fun h => absurd rfl h⟩
      · exact d _ _ hj
    · rcases get_set hf' with ⟨-, hf'⟩ | ⟨hne, hf'⟩
      · cases hf'
      · rcases get_set hj with ⟨rfl, -⟩ | ⟨-, hj⟩
        · exact absurd rfl hne
        · exact e _ _ hj hf'
  | eof hp =>
    have := (h.prod _ _ hp).1
    exact smooth_prod h hp rfl ⟨this, fun _ => rfl⟩ nofun rfl rfl rfl rfl
  | fail hp => cases hn
  | nilErr hp hc =>
    exfalso
    have h0 : 0 < s.rdrs.length := by rw [hz.rdrs]; omega
    have h1 : s.rdrs[0]? = some s.rdrs[0] := List.getElem?_eq_getElem h0
    have h2 := he.allDone hc _ (List.mem_of_getElem? h1)
    rw [h2] at h1
    obtain ⟨d, hd, hph⟩ := he.doneClosed _ h1
    have h3 := (h.db _ _ hd).2 (by rw [hph]; nofun)
    have h4 := lt_of_get hp
    rw [hz.prods, ← hz.fwds] at h4
    have h5 := List.getElem?_eq_getElem h4
    rw [h.data h3 _ (List.mem_of_getElem? h5)] at h5
    exact h.fend _ _ hp h5 rfl
  | pEnd hp hc =>
    have := h.prod _ _ hp
    exact smooth_prod h hp rfl ⟨this.1, fun _ => this.2 nofun⟩ nofun rfl rfl rfl rfl
  | @deliver i k c ks err recv hf hd hk =>
    have h1 : Smooth { s with dbs := s.dbs.set k ⟨.run, err, recv ++ [(i, c)]⟩ } :=
      smooth_db (d := ⟨.run, err, recv⟩) h rfl nofun (fun h => absurd rfl h) rfl rfl rfl rfl
    exact smooth_fwd h1 hf nofun rfl nofun rfl rfl rfl rfl
  | fNext hf => exact smooth_fwd h hf nofun rfl nofun rfl rfl rfl rfl
  | fEnd hp hf hc =>
    refine smooth_fwd h hf nofun rfl (fun _ q hq => ?_) rfl rfl rfl rfl
    rw [hp] at hq; cases hq; exact hc
  | closeData hf hc =>
    obtain ⟨a, b, c, dd, e⟩ := h
    exact ⟨fun k d hd => ⟨(a k d hd).1, fun _ => rfl⟩, b, fun _ => hf, dd, e⟩
  | dbFail hd => cases hn
  | @dbEnd k err recv hd hc => exact smooth_db (d := ⟨.run, err, recv⟩) h rfl nofun (fun _ => hc) rfl rfl rfl rfl
  | dbSend hd hr => exact absurd rfl ((h.db _ _ hd).1 _)
  | @dbClose k err recv hd =>
    have := (h.db _ _ hd).2 nofun
    exact smooth_db (d := ⟨.quiet, err, recv⟩) h rfl nofun (fun _ => this) rfl rfl rfl rfl
  | errTo hr hp hi hn => rcases h.rdr _ _ hr with h | h <;> cases h
  | rNext hr => rcases h.rdr _ _ hr with h | h <;> cases h
  | rEnd hd hr => exact smooth_rdr h rfl (.inr rfl) rfl rfl rfl rfl
  | closeErrs hr hc =>
    obtain ⟨a, b, c, dd, e⟩ := h
    exact ⟨a, b, c, dd, e⟩

theorem smooth_init (workers : Nat) (work : List (List γ)) : Smooth (init workers work) := by
  have hp : ∀ (i : Nat) (p : Prod γ), (init workers work).prods[i]? = some p → p.found = [] ∧ p.phase = .run := by
    intro i p h
    simp only [init, List.getElem?_map, Option.map_eq_some_iff] at h
    obtain ⟨w, -, rfl⟩ := h
    exact ⟨rfl, rfl⟩
  refine ⟨fun k d h => ?_, fun k r h => ?_, nofun, fun i p h => ?_, fun i p h hf => ?_⟩
  · have := (List.mem_replicate.mp (List.mem_of_getElem? h)).2
    subst this
    exact ⟨nofun, fun h => absurd rfl h⟩
  · exact .inl (List.mem_replicate.mp (List.mem_of_getElem? h)).2
  · exact ⟨(hp i p h).1, fun hn => absurd (hp i p h).2 hn⟩
  · simp only [init, List.getElem?_map, Option.map_eq_some_iff] at hf
    obtain ⟨w, -, hf⟩ := hf
    cases hf

end Fpki.Bridge
