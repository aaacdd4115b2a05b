import Verif.Model.TreeHead

/-!
# C88: the signed tree head in the answers of the map server

An answer is good if its proof was made in the tree whose root it carries, and its signature is the server's signature of that root. (PKCS #1 v1.5 is deterministic: for one key there is one
signature of a message that verification accepts.)
-/
namespace Fpki.TreeHead

variable {root : Nat → Bytes} {sign : Bytes → Option Bytes}

/-! ## Specification -/

/-- `sig` is the signature of the root of tree `v`. -/
def Signs (root : Nat → Bytes) (sign : Bytes → Option Bytes) (v : Nat) (sig : Bytes) : Prop := sign (root v) = some sig

/-- A good answer. -/
def Entry.Good (root : Nat → Bytes) (sign : Bytes → Option Bytes) (e : Entry) : Prop := e.proofOf = e.rootOf ∧ Signs root sign e.rootOf e.sig

/-- The answers made so far for a request. -/
def Req.entries : Req → List Entry
  | .part _ es => es
  | .proved _ es _ => es
  | .rooted _ es _ _ => es
  | .done es => es
  | _ => []

/-- No reload is between replacing the tree and storing the signature. -/
def State.Quiet (s : State) : Prop := s.reload ≠ .swapped ∧ ∀ x, s.reload ≠ .signed x

/-- Tree `v` was the one saved in the DB at some time of the execution `es` that starts at `s`. -/
def WasSaved (root : Nat → Bytes) (sign : Bytes → Option Bytes) (s : State) (es : List Ev) (v : Nat) : Prop :=
  ∃ es1 es2 s1, es = es1 ++ es2 ∧ run root sign s es1 = some s1 ∧ s1.db = v

/-! ## Executions -/

theorem run_append : ∀ (es1 es2 : List Ev) (s : State), run root sign s (es1 ++ es2) = (run root sign s es1).bind fun t => run root sign t es2
  | [], _, _ => rfl
  | e :: es1, es2, s => by
    rw [List.cons_append, run, run]
    cases exec root sign s e with
    | none => rfl
    | some t => exact run_append es1 es2 t

theorem run_snoc {es : List Ev} {e : Ev} {s t : State} (h : run root sign s (es ++ [e]) = some t) :
    ∃ u, run root sign s es = some u ∧ exec root sign u e = some t := by
  rw [run_append] at h
  cases hu : run root sign s es with
  | none => rw [hu] at h; cases h
  | some u =>
    rw [hu] at h
    refine ⟨u, rfl, ?_⟩
    simp only [Option.bind_some, run] at h
    split at h
    · rename_i v hv; cases h; exact hv
    · cases h

/-- An invariant of executions. -/
theorem run_induct {P : State → Prop} (hstep : ∀ (s t : State) (e : Ev), P s → exec root sign s e = some t → P t) :
    ∀ (es : List Ev) (s t : State), P s → run root sign s es = some t → P t
  | [], s, t, hs, h => by cases h; exact hs
  | e :: es, s, t, hs, h => by
    rw [run] at h
    split at h
    · rename_i u hu
      exact run_induct hstep es u t (hstep s u e hs hu) h
    · cases h

/-- An invariant that holds along executions with certain events. -/
theorem run_induct_on {P : State → Prop} {ok : Ev → Prop} (hstep : ∀ (s t : State) (e : Ev), ok e → P s → exec root sign s e = some t → P t) :
    ∀ (es : List Ev) (s t : State), (∀ e ∈ es, ok e) → P s → run root sign s es = some t → P t
  | [], s, t, _, hs, h => by cases h; exact hs
  | e :: es, s, t, hok, hs, h => by
    rw [run] at h
    split at h
    · rename_i u hu
      exact run_induct_on hstep es u t (fun x hx => hok x (List.mem_cons_of_mem _ hx)) (hstep s u e (hok e List.mem_cons_self) hs hu) h
    · cases h

/-- What every value in a request satisfies: trees satisfy `A`, pairs of a proof and a root `B`, answers `C`. -/
def Req.Sat (A : Nat → Prop) (B : Nat → Nat → Prop) (C : Entry → Prop) : Req → Prop
  | .none => True
  | .part _ es => ∀ e ∈ es, C e
  | .proved _ es v => (∀ e ∈ es, C e) ∧ A v
  | .rooted _ es v w => (∀ e ∈ es, C e) ∧ B v w
  | .done es => ∀ e ∈ es, C e
  | .failed => True

theorem Req.Sat.entries {A : Nat → Prop} {B : Nat → Nat → Prop} {C : Entry → Prop} {r : Req} (h : r.Sat A B C) : ∀ e ∈ r.entries, C e := by
  cases r with
  | none => intro e he; cases he
  | part l es => exact h
  | proved l es v => exact h.1
  | rooted l es v w => exact h.1
  | done es => exact h
  | failed => intro e he; cases he

/-- A step of requests, for all values at once: the tree and the signature are those of the state. -/
theorem exec_sat {A : Nat → Prop} {B : Nat → Nat → Prop} {C : Entry → Prop} {s t : State} {e : Ev} (he : exec root sign s e = some t)
    (hA : A s.smt) (hB : ∀ v, A v → B v s.smt) (hC : ∀ v w, B v w → C ⟨v, w, s.sig⟩) {i : Nat} (h : (s.reqs i).Sat A B C) : (t.reqs i).Sat A B C := by
  have hset : ∀ (j : Nat) (r : Req), (j = i → r.Sat A B C) → (((s.setReq j r).reqs) i).Sat A B C := by
    intro j r hr
    show (if i = j then r else s.reqs i).Sat A B C
    split
    · rename_i hij; exact hr hij.symm
    · exact h
  cases e with
  | nodes => cases he; exact h
  | save => cases he; exact h
  | load =>
    simp only [exec] at he
    split at he
    · cases he; exact h
    · cases he
  | loadFails =>
    simp only [exec] at he
    split at he
    · cases he; exact h
    · cases he
  | swap =>
    simp only [exec] at he
    split at he
    · cases he; exact h
    · cases he
  | sign =>
    simp only [exec] at he
    split at he
    · split at he
      · cases he; exact h
      · cases he; exact h
    · cases he
  | store =>
    simp only [exec] at he
    split at he
    · cases he; exact h
    · cases he
  | request j parts =>
    simp only [exec] at he
    split at he
    · cases he
      apply hset
      intro _
      split
      · intro e he; cases he
      · intro e he; cases he
    · cases he
  | prove j =>
    simp only [exec] at he
    split at he
    · rename_i l es hj
      cases he
      apply hset
      rintro rfl
      rw [hj] at h
      exact ⟨h, hA⟩
    · cases he
  | proveFails j =>
    simp only [exec] at he
    split at he
    · split at he
      · cases he
      · cases he
        apply hset
        intro _
        exact True.intro
    · cases he
  | readRoot j =>
    simp only [exec] at he
    split at he
    · rename_i l es v hj
      cases he
      apply hset
      rintro rfl
      rw [hj] at h
      exact ⟨h.1, hB v h.2⟩
    · cases he
  | readSig j =>
    simp only [exec] at he
    split at he
    · rename_i l es v w hj
      cases he
      apply hset
      rintro rfl
      rw [hj] at h
      have hall : ∀ e ∈ es ++ [⟨v, w, s.sig⟩], C e := by
        intro e he
        rcases List.mem_append.1 he with h1 | h1
        · exact h.1 e h1
        · rw [List.mem_singleton.1 h1]; exact hC v w h.2
      split
      · exact hall
      · exact hall
    · cases he

/-- What a step does to the shared fields. -/
theorem exec_fields {s t : State} {e : Ev} (he : exec root sign s e = some t) :
    (t.smt = s.smt ∧ t.sig = s.sig ∧ (t.reload = s.reload ∨ (s.reload = .idle ∧ t.reload = .loaded s.db) ∨
        (s.reload = .swapped ∧ (t.reload = .idle ∧ sign (root s.smt) = none ∨ ∃ x, sign (root s.smt) = some x ∧ t.reload = .signed x)))) ∨
    (e = .swap ∧ t.sig = s.sig ∧ t.reload = .swapped ∧ s.reload = .loaded t.smt) ∨
    (t.smt = s.smt ∧ s.reload = .signed t.sig ∧ t.reload = .idle) := by
  cases e with
  | nodes => cases he; exact Or.inl ⟨rfl, rfl, Or.inl rfl⟩
  | save => cases he; exact Or.inl ⟨rfl, rfl, Or.inl rfl⟩
  | load =>
    simp only [exec] at he
    split at he
    · rename_i h; cases he; exact Or.inl ⟨rfl, rfl, Or.inr (Or.inl ⟨h, rfl⟩)⟩
    · cases he
  | loadFails =>
    simp only [exec] at he
    split at he
    · cases he; exact Or.inl ⟨rfl, rfl, Or.inl rfl⟩
    · cases he
  | swap =>
    simp only [exec] at he
    split at he
    · rename_i v h; cases he; exact Or.inr (Or.inl ⟨rfl, rfl, rfl, h⟩)
    · cases he
  | sign =>
    simp only [exec] at he
    split at he
    · rename_i h
      split at he
      · rename_i x hx; cases he; exact Or.inl ⟨rfl, rfl, Or.inr (Or.inr ⟨h, Or.inr ⟨x, hx, rfl⟩⟩)⟩
      · rename_i hx; cases he; exact Or.inl ⟨rfl, rfl, Or.inr (Or.inr ⟨h, Or.inl ⟨rfl, hx⟩⟩)⟩
    · cases he
  | store =>
    simp only [exec] at he
    split at he
    · rename_i x h; cases he; exact Or.inr (Or.inr ⟨rfl, h, rfl⟩)
    · cases he
  | request j parts =>
    simp only [exec] at he
    split at he
    · cases he; exact Or.inl ⟨rfl, rfl, Or.inl rfl⟩
    · cases he
  | prove j =>
    simp only [exec] at he
    split at he
    · cases he; exact Or.inl ⟨rfl, rfl, Or.inl rfl⟩
    · cases he
  | proveFails j =>
    simp only [exec] at he
    split at he
    · split at he
      · cases he
      · cases he; exact Or.inl ⟨rfl, rfl, Or.inl rfl⟩
    · cases he
  | readRoot j =>
    simp only [exec] at he
    split at he
    · cases he; exact Or.inl ⟨rfl, rfl, Or.inl rfl⟩
    · cases he
  | readSig j =>
    simp only [exec] at he
    split at he
    · cases he; exact Or.inl ⟨rfl, rfl, Or.inl rfl⟩
    · cases he

theorem exec_db {s t : State} {e : Ev} (he : exec root sign s e = some t) : (e = .save ∧ t.db = s.nodes ∧ t.nodes = s.nodes) ∨
    (t.db = s.db ∧ (t.nodes = s.nodes ∨ (e = .nodes ∧ t.nodes = s.nodes + 1))) := by
  cases e <;> simp only [exec] at he
  case nodes => cases he; exact Or.inr ⟨rfl, Or.inr ⟨rfl, rfl⟩⟩
  case save => cases he; exact Or.inl ⟨rfl, rfl, rfl⟩
  all_goals
    repeat' split at he
    all_goals first | cases he | skip
    all_goals exact Or.inr ⟨rfl, Or.inl rfl⟩

/-! ## Answers are authentic -/

/-- Consistency of the shared fields: the signature is that of the tree, except between a swap and the store that follows it. -/
def State.Consistent (root : Nat → Bytes) (sign : Bytes → Option Bytes) (s : State) : Prop :=
  (s.Quiet → Signs root sign s.smt s.sig) ∧ ∀ x, s.reload = .signed x → Signs root sign s.smt x

theorem start_some {v : Nat} {s : State} (h : start root sign v = some s) :
    s.nodes = v ∧ s.db = v ∧ s.smt = v ∧ s.reload = .idle ∧ (∀ i, s.reqs i = .none) ∧ Signs root sign v s.sig := by
  unfold start at h
  cases hx : sign (root v) with
  | none => rw [hx] at h; cases h
  | some x => rw [hx] at h; cases h; exact ⟨rfl, rfl, rfl, rfl, fun _ => rfl, hx⟩

/-- If signing never fails, the fields agree whenever no reload is in its last steps. -/
theorem C88_consistent (hsign : ∀ m, (sign m).isSome) {v : Nat} {s t : State} (hs : start root sign v = some s) (es : List Ev)
    (h : run root sign s es = some t) : t.Consistent root sign := by
  obtain ⟨_, _, h3, h4, _, h6⟩ := start_some hs
  refine run_induct (P := State.Consistent root sign) ?_ es s t ?_ h
  · intro s t e hs he
    rcases exec_fields he with ⟨h1, h2, h3⟩ | ⟨_, _, h3, _⟩ | ⟨h1, h2, h3⟩
    · unfold State.Consistent State.Quiet at hs ⊢
      rw [h1, h2]
      rcases h3 with h3 | ⟨h3, h4⟩ | ⟨h3, h4⟩
      · rw [h3]; exact hs
      · rw [h4]
        refine ⟨fun _ => hs.1 ⟨by rw [h3]; exact fun h => (by cases h), fun x => by rw [h3]; exact fun h => (by cases h)⟩, fun x hx => by cases hx⟩
      · rcases h4 with ⟨h4, h5⟩ | ⟨x, h4, h5⟩
        · have := hsign (root s.smt)
          rw [h5] at this
          cases this
        · rw [h5]
          refine ⟨fun hq => absurd rfl (hq.2 x), fun y hy => ?_⟩
          cases hy
          exact h4
    · refine ⟨fun hq => absurd h3 hq.1, fun x hx => by rw [h3] at hx; cases hx⟩
    · refine ⟨fun _ => ?_, fun x hx => by rw [h3] at hx; cases hx⟩
      rw [h1]
      exact hs.2 _ h2
  · refine ⟨fun _ => ?_, fun x hx => by rw [h4] at hx; cases hx⟩
    rw [h3]; exact h6

/-- Requests that overlap no swap get good answers, all of the same tree. -/
theorem C88_quiet_partial (hsign : ∀ m, (sign m).isSome) {v : Nat} {s0 s t : State} (h0 : start root sign v = some s0) (es0 : List Ev)
    (hs : run root sign s0 es0 = some s) (hq : s.Quiet) (es : List Ev) (hes : Ev.swap ∉ es) (h : run root sign s es = some t) (i : Nat)
    (hi : s.reqs i = .none) : ∀ e ∈ (t.reqs i).entries, e.Good root sign ∧ e.rootOf = s.smt := by
  have hc := (C88_consistent hsign h0 es0 hs).1 hq
  have := run_induct_on (root := root) (sign := sign) (ok := fun e => e ≠ .swap)
    (P := fun t => t.smt = s.smt ∧ t.sig = s.sig ∧ t.Quiet ∧ (t.reqs i).Sat (· = s.smt) (fun v w => v = s.smt ∧ w = s.smt) (fun e => e.Good root sign ∧ e.rootOf = s.smt))
    (by
      intro a b e hne ⟨h1, h2, h3, h4⟩ he
      have h5 : (b.reqs i).Sat (· = s.smt) (fun v w => v = s.smt ∧ w = s.smt) (fun e => e.Good root sign ∧ e.rootOf = s.smt) := by
        refine exec_sat he h1 (fun v hv => ⟨hv, h1⟩) (fun v w hvw => ⟨⟨?_, ?_⟩, hvw.2⟩) h4
        · rw [hvw.1, hvw.2]
        · show Signs root sign w a.sig
          rw [hvw.2, h2]; exact hc
      rcases exec_fields he with ⟨g1, g2, g3⟩ | ⟨g1, _⟩ | ⟨g1, g2, g3⟩
      · refine ⟨g1.trans h1, g2.trans h2, ?_, h5⟩
        rcases g3 with g3 | ⟨_, g4⟩ | ⟨g3, _⟩
        · unfold State.Quiet; rw [g3]; exact h3
        · unfold State.Quiet; rw [g4]; exact ⟨fun h => (by cases h), fun x h => (by cases h)⟩
        · exact absurd g3 h3.1
      · exact absurd g1 hne
      · exact absurd g2 (h3.2 _))
    es s t (fun e he hes' => hes (hes' ▸ he)) ⟨rfl, rfl, hq, by rw [hi]; exact True.intro⟩ h
  exact this.2.2.2.entries

/-- After a reload that loaded tree `v` has ended, no request that begins later gets anything older, in any part of an answer. -/
theorem C88_fresh {v : Nat} {s0 s t : State} (h0 : start root sign v = some s0) (es0 : List Ev) (hs : run root sign s0 es0 = some s) (n : Nat) (hsmt : n ≤ s.smt)
    (hsig : ∃ k, n ≤ k ∧ Signs root sign k s.sig) (es : List Ev) (h : run root sign s es = some t) (i : Nat) (hi : s.reqs i = .none) :
    ∀ e ∈ (t.reqs i).entries, n ≤ e.proofOf ∧ n ≤ e.rootOf ∧ ∃ k, n ≤ k ∧ Signs root sign k e.sig := by
  -- trees only become newer
  have hmono : ∀ (es : List Ev) (a b : State), (a.smt ≤ a.db ∧ a.db ≤ a.nodes ∧ ∀ u, a.reload = .loaded u → a.smt ≤ u ∧ u ≤ a.db) →
      run root sign a es = some b → (b.smt ≤ b.db ∧ b.db ≤ b.nodes ∧ ∀ u, b.reload = .loaded u → b.smt ≤ u ∧ u ≤ b.db) := by
    intro es a b ha hab
    refine run_induct (P := fun a => a.smt ≤ a.db ∧ a.db ≤ a.nodes ∧ ∀ u, a.reload = .loaded u → a.smt ≤ u ∧ u ≤ a.db) ?_ es a b ha hab
    intro a b e ⟨h1, h2, h3⟩ he
    have hd : a.db ≤ b.db ∧ b.db ≤ b.nodes := by
      rcases exec_db he with ⟨_, h4, h5⟩ | ⟨h4, h5 | ⟨_, h5⟩⟩
      · omega
      · omega
      · omega
    rcases exec_fields he with ⟨g1, g2, g3⟩ | ⟨_, _, g3, g4⟩ | ⟨g1, g2, g3⟩
    · refine ⟨by omega, hd.2, ?_⟩
      intro u hu
      rcases g3 with g3 | ⟨g3, g4⟩ | ⟨g3, ⟨g4, _⟩ | ⟨x, _, g4⟩⟩
      · rw [g3] at hu
        have := h3 u hu
        omega
      · rw [g4] at hu
        cases hu
        omega
      · rw [g4] at hu; cases hu
      · rw [g4] at hu; cases hu
    · have := h3 _ g4
      refine ⟨by omega, hd.2, fun u hu => (by rw [g3] at hu; cases hu)⟩
    · refine ⟨by omega, hd.2, fun u hu => (by rw [g3] at hu; cases hu)⟩
  obtain ⟨a1, a2, a3, a4, _, _⟩ := start_some h0
  have hinv := hmono es0 s0 s ⟨by omega, by omega, fun u hu => (by rw [a4] at hu; cases hu)⟩ hs
  -- what is signed is the tree of the state
  have hsigned : ∀ x, s.reload = .signed x → Signs root sign s.smt x := by
    refine run_induct (P := fun s => ∀ x, s.reload = .signed x → Signs root sign s.smt x) ?_ es0 s0 s (by rw [a4]; intro x hx; cases hx) hs
    intro a b e ha he x hx
    rcases exec_fields he with ⟨g1, g2, g3⟩ | ⟨_, _, g3, g4⟩ | ⟨g1, g2, g3⟩
    · rw [g1]
      rcases g3 with g3 | ⟨g3, g4⟩ | ⟨g3, ⟨g4, _⟩ | ⟨y, g5, g4⟩⟩
      · rw [g3] at hx; exact ha x hx
      · rw [g4] at hx; cases hx
      · rw [g4] at hx; cases hx
      · rw [g4] at hx; cases hx; exact g5
    · rw [g3] at hx; cases hx
    · rw [g3] at hx; cases hx
  have := run_induct (root := root) (sign := sign)
    (P := fun t => (n ≤ t.smt ∧ (∃ k, n ≤ k ∧ Signs root sign k t.sig) ∧ (∀ x, t.reload = .signed x → Signs root sign t.smt x)) ∧
      (t.smt ≤ t.db ∧ t.db ≤ t.nodes ∧ ∀ u, t.reload = .loaded u → t.smt ≤ u ∧ u ≤ t.db) ∧
      (t.reqs i).Sat (n ≤ ·) (fun v w => n ≤ v ∧ n ≤ w) (fun e => n ≤ e.proofOf ∧ n ≤ e.rootOf ∧ ∃ k, n ≤ k ∧ Signs root sign k e.sig))
    (by
      intro a b e ⟨⟨h1, h2, h3⟩, h4, h5⟩ he
      have hb := hmono [e] a b h4 (by rw [run, he]; rfl)
      refine ⟨?_, hb, exec_sat he h1 (fun v hv => ⟨hv, h1⟩) (fun v w hvw => ⟨hvw.1, hvw.2, h2⟩) h5⟩
      rcases exec_fields he with ⟨g1, g2, g3⟩ | ⟨_, g2, g3, g4⟩ | ⟨g1, g2, g3⟩
      · refine ⟨by omega, by rw [g2]; exact h2, ?_⟩
        intro x hx
        rw [g1]
        rcases g3 with g3 | ⟨g3, g4⟩ | ⟨g3, ⟨g4, _⟩ | ⟨y, g5, g4⟩⟩
        · rw [g3] at hx; exact h3 x hx
        · rw [g4] at hx; cases hx
        · rw [g4] at hx; cases hx
        · rw [g4] at hx; cases hx; exact g5
      · have := h4.2.2 _ g4
        exact ⟨by omega, by rw [g2]; exact h2, fun x hx => (by rw [g3] at hx; cases hx)⟩
      · exact ⟨by omega, ⟨a.smt, h1, h3 _ g2⟩, fun x hx => (by rw [g3] at hx; cases hx)⟩)
    es s t ⟨⟨hsmt, hsig, hsigned⟩, hinv, by rw [hi]; exact True.intro⟩ h
  exact this.2.2.entries

/-- Whatever the schedule: the tree of a proof, the tree of a root and the tree of a signature were each saved in the DB, and the root is never older than the proof. -/
theorem C88_authentic {v : Nat} {s t : State} (hs : start root sign v = some s) (es : List Ev) (h : run root sign s es = some t) (i : Nat) :
    ∀ e ∈ (t.reqs i).entries, WasSaved root sign s es e.proofOf ∧ WasSaved root sign s es e.rootOf ∧ e.proofOf ≤ e.rootOf ∧
      ∃ k, WasSaved root sign s es k ∧ Signs root sign k e.sig := by
  obtain ⟨a1, a2, a3, a4, a5, a6⟩ := start_some hs
  have hgrow : ∀ {es1 es2 : List Ev} {k : Nat}, WasSaved root sign s es1 k → WasSaved root sign s (es1 ++ es2) k := by
    rintro es1 es2 k ⟨p, q, s1, h1, h2, h3⟩
    exact ⟨p, q ++ es2, s1, by rw [h1, List.append_assoc], h2, h3⟩
  have key : ∀ (n : Nat) (es : List Ev) (t : State), es.length = n → run root sign s es = some t →
      (WasSaved root sign s es t.smt ∧ (∃ k, WasSaved root sign s es k ∧ Signs root sign k t.sig) ∧
        (∀ x, t.reload = .signed x → Signs root sign t.smt x) ∧ (∀ u, t.reload = .loaded u → WasSaved root sign s es u ∧ t.smt ≤ u ∧ u ≤ t.db)) ∧
      (t.smt ≤ t.db ∧ t.db ≤ t.nodes) ∧
      (t.reqs i).Sat (fun v => WasSaved root sign s es v ∧ v ≤ t.smt) (fun v w => WasSaved root sign s es v ∧ WasSaved root sign s es w ∧ v ≤ w)
        (fun e => WasSaved root sign s es e.proofOf ∧ WasSaved root sign s es e.rootOf ∧ e.proofOf ≤ e.rootOf ∧ ∃ k, WasSaved root sign s es k ∧ Signs root sign k e.sig) := by
    intro n
    induction n with
    | zero =>
      intro es t hn ht
      have : es = [] := List.length_eq_zero_iff.1 hn
      subst this
      cases ht
      have hw : WasSaved root sign s [] v := ⟨[], [], s, rfl, rfl, a2⟩
      refine ⟨⟨by rw [a3]; exact hw, ⟨v, hw, a6⟩, fun x hx => (by rw [a4] at hx; cases hx), fun u hu => (by rw [a4] at hu; cases hu)⟩, by omega, ?_⟩
      rw [a5]; exact True.intro
    | succ n ih =>
      intro es t hn ht
      have hne : es ≠ [] := by rintro rfl; cases hn
      obtain ⟨es1, e, rfl⟩ : ∃ es1 e, es = es1 ++ [e] := ⟨es.dropLast, es.getLast hne, (List.dropLast_concat_getLast hne).symm⟩
      obtain ⟨u, hu, he⟩ := run_snoc ht
      obtain ⟨⟨h1, ⟨k, h2, h2'⟩, h3, h4⟩, h5, h6⟩ := ih es1 u (by simpa using hn) hu
      have hd : u.db ≤ t.db ∧ t.db ≤ t.nodes := by
        rcases exec_db he with ⟨_, h7, h8⟩ | ⟨h7, h8 | ⟨_, h8⟩⟩
        · omega
        · omega
        · omega
      have hsat : ∀ t' : State, u.smt ≤ t'.smt → (t.reqs i).Sat (fun v => WasSaved root sign s es1 v ∧ v ≤ t'.smt)
          (fun v w => WasSaved root sign s es1 v ∧ WasSaved root sign s es1 w ∧ v ≤ w)
          (fun e => WasSaved root sign s es1 e.proofOf ∧ WasSaved root sign s es1 e.rootOf ∧ e.proofOf ≤ e.rootOf ∧ ∃ k, WasSaved root sign s es1 k ∧ Signs root sign k e.sig) := by
        intro t' hle
        have h7 := exec_sat (i := i) he (A := fun v => WasSaved root sign s es1 v ∧ v ≤ u.smt) (B := fun v w => WasSaved root sign s es1 v ∧ WasSaved root sign s es1 w ∧ v ≤ w)
          (C := fun e => WasSaved root sign s es1 e.proofOf ∧ WasSaved root sign s es1 e.rootOf ∧ e.proofOf ≤ e.rootOf ∧ ∃ k, WasSaved root sign s es1 k ∧ Signs root sign k e.sig)
          ⟨h1, Nat.le_refl _⟩ (fun v hv => ⟨hv.1, h1, hv.2⟩) (fun v w hvw => ⟨hvw.1, hvw.2.1, hvw.2.2, k, h2, h2'⟩) h6
        cases hr : t.reqs i with
        | none => exact True.intro
        | part l es => rw [hr] at h7; exact h7
        | proved l es v => rw [hr] at h7; exact ⟨h7.1, h7.2.1, Nat.le_trans h7.2.2 hle⟩
        | rooted l es v w => rw [hr] at h7; exact h7
        | done es => rw [hr] at h7; exact h7
        | failed => exact True.intro
      have hlift : ∀ r : Req, r.Sat (fun v => WasSaved root sign s es1 v ∧ v ≤ t.smt) (fun v w => WasSaved root sign s es1 v ∧ WasSaved root sign s es1 w ∧ v ≤ w)
          (fun e => WasSaved root sign s es1 e.proofOf ∧ WasSaved root sign s es1 e.rootOf ∧ e.proofOf ≤ e.rootOf ∧ ∃ k, WasSaved root sign s es1 k ∧ Signs root sign k e.sig) →
          r.Sat (fun v => WasSaved root sign s (es1 ++ [e]) v ∧ v ≤ t.smt) (fun v w => WasSaved root sign s (es1 ++ [e]) v ∧ WasSaved root sign s (es1 ++ [e]) w ∧ v ≤ w)
          (fun x => WasSaved root sign s (es1 ++ [e]) x.proofOf ∧ WasSaved root sign s (es1 ++ [e]) x.rootOf ∧ x.proofOf ≤ x.rootOf ∧
            ∃ k, WasSaved root sign s (es1 ++ [e]) k ∧ Signs root sign k x.sig) := by
        intro r hr
        have hC : ∀ x : Entry, (WasSaved root sign s es1 x.proofOf ∧ WasSaved root sign s es1 x.rootOf ∧ x.proofOf ≤ x.rootOf ∧ ∃ k, WasSaved root sign s es1 k ∧ Signs root sign k x.sig) →
            WasSaved root sign s (es1 ++ [e]) x.proofOf ∧ WasSaved root sign s (es1 ++ [e]) x.rootOf ∧ x.proofOf ≤ x.rootOf ∧
            ∃ k, WasSaved root sign s (es1 ++ [e]) k ∧ Signs root sign k x.sig := by
          rintro x ⟨g1, g2, g3, k, g4, g5⟩
          exact ⟨hgrow g1, hgrow g2, g3, k, hgrow g4, g5⟩
        cases r with
        | none => exact True.intro
        | part l es => exact fun x hx => hC x (hr x hx)
        | proved l es v => exact ⟨fun x hx => hC x (hr.1 x hx), hgrow hr.2.1, hr.2.2⟩
        | rooted l es v w => exact ⟨fun x hx => hC x (hr.1 x hx), hgrow hr.2.1, hgrow hr.2.2.1, hr.2.2.2⟩
        | done es => exact fun x hx => hC x (hr x hx)
        | failed => exact True.intro
      rcases exec_fields he with ⟨g1, g2, g3⟩ | ⟨_, g2, g3, g4⟩ | ⟨g1, g2, g3⟩
      · refine ⟨⟨by rw [g1]; exact hgrow h1, ⟨k, hgrow h2, by rw [g2]; exact h2'⟩, ?_, ?_⟩, ⟨by omega, hd.2⟩, hlift _ (hsat t (by omega))⟩
        · intro x hx
          rw [g1]
          rcases g3 with g3 | ⟨g3, g4⟩ | ⟨g3, ⟨g4, _⟩ | ⟨y, g5, g4⟩⟩
          · rw [g3] at hx; exact h3 x hx
          · rw [g4] at hx; cases hx
          · rw [g4] at hx; cases hx
          · rw [g4] at hx; cases hx; exact g5
        · intro w hw
          rcases g3 with g3 | ⟨g3, g4⟩ | ⟨g3, ⟨g4, _⟩ | ⟨y, g5, g4⟩⟩
          · rw [g3] at hw
            obtain ⟨k1, k2, k3⟩ := h4 w hw
            exact ⟨hgrow k1, by omega, by omega⟩
          · rw [g4] at hw
            cases hw
            exact ⟨⟨es1, [e], u, rfl, hu, rfl⟩, by omega, by omega⟩
          · rw [g4] at hw; cases hw
          · rw [g4] at hw; cases hw
      · obtain ⟨k1, k2, k3⟩ := h4 _ g4
        exact ⟨⟨hgrow k1, ⟨k, hgrow h2, by rw [g2]; exact h2'⟩, fun x hx => (by rw [g3] at hx; cases hx), fun w hw => (by rw [g3] at hw; cases hw)⟩, ⟨by omega, hd.2⟩,
          hlift _ (hsat t k2)⟩
      · exact ⟨⟨by rw [g1]; exact hgrow h1, ⟨u.smt, hgrow h1, h3 _ g2⟩, fun x hx => (by rw [g3] at hx; cases hx), fun w hw => (by rw [g3] at hw; cases hw)⟩, ⟨by omega, hd.2⟩,
          hlift _ (hsat t (by omega))⟩
  exact (key es.length es t rfl h).2.2.entries

/-- A reload that cannot load the root changes nothing. -/
theorem C88_failed_load (s t : State) (h : exec root sign s .loadFails = some t) : t = s := by
  simp only [exec] at h
  split at h
  · cases h; rfl
  · cases h

/-- While the nodes in the DB are those of the tree in use, and no new tree is stored, no request fails. -/
theorem C88_available_partial {s t : State} (hq : s.smt = s.nodes) (es : List Ev) (hes : Ev.nodes ∉ es ∧ Ev.swap ∉ es) (h : run root sign s es = some t) (i : Nat)
    (hi : s.reqs i ≠ .failed) : t.reqs i ≠ .failed := by
  have := run_induct_on (root := root) (sign := sign) (ok := fun e => e ≠ .nodes ∧ e ≠ .swap) (P := fun t => t.smt = t.nodes ∧ t.reqs i ≠ .failed)
    (by
      intro a b e hne ⟨h1, h2⟩ he
      refine ⟨?_, ?_⟩
      · have hn : b.nodes = a.nodes := by
          rcases exec_db he with ⟨_, _, h5⟩ | ⟨_, h5 | ⟨h5, _⟩⟩
          · exact h5
          · exact h5
          · exact absurd h5 hne.1
        rcases exec_fields he with ⟨g1, _⟩ | ⟨g1, _⟩ | ⟨g1, _⟩
        · omega
        · exact absurd g1 hne.2
        · omega
      · intro hb
        have hset : ∀ (j : Nat) (r : Req), r ≠ .failed → b = a.setReq j r → False := by
          rintro j r hr rfl
          have : (if i = j then r else a.reqs i) = .failed := hb
          split at this
          · exact hr this
          · exact h2 this
        cases e <;> simp only [exec] at he
        case nodes => exact hne.1 rfl
        case swap => exact hne.2 rfl
        case save => cases he; exact h2 hb
        case request j parts =>
          split at he
          · cases he
            refine hset j _ ?_ rfl
            split <;> exact fun h => by cases h
          · cases he
        case prove j =>
          split at he
          · cases he; exact hset j _ (fun h => by cases h) rfl
          · cases he
        case proveFails j =>
          split at he
          · rw [if_pos h1] at he; cases he
          · cases he
        case readRoot j =>
          split at he
          · cases he; exact hset j _ (fun h => by cases h) rfl
          · cases he
        case readSig j =>
          split at he
          · cases he
            refine hset j _ ?_ rfl
            split <;> exact fun h => by cases h
          · cases he
        all_goals
          repeat' split at he
          all_goals first | cases he | skip
          all_goals exact h2 hb)
    es s t (fun e he => ⟨fun h' => hes.1 (h' ▸ he), fun h' => hes.2 (h' ▸ he)⟩) ⟨hq, hi⟩ h
  exact this.2

/-- What the HTTP API sends: an error with no answers, or all answers. -/
theorem C88_http (r : Req) (code : Nat) (es : List Entry) (h : apiGetProof r = some (code, es)) : (code = 200 ∧ r = .done es) ∨ (code = 400 ∧ es = [] ∧ r = .failed) := by
  cases r <;> simp only [apiGetProof] at h <;> cases h
  · exact Or.inl ⟨rfl, rfl⟩
  · exact Or.inr ⟨rfl, rfl, rfl⟩

/-! ## What goes wrong -/

def exRoot (n : Nat) : Bytes := [UInt8.ofNat n]

def exSign (m : Bytes) : Option Bytes := some (m ++ [7])

def exStart : State := ⟨0, 0, 0, [0, 7], .idle, fun _ => .none⟩

theorem exStart_start : start exRoot exSign 0 = some exStart := rfl

/-- Answers during a reload are not good, although nothing fails: a new root with the old signature, a root of another tree than the proof, an old root with the new signature. -/
theorem C88_reload_violated :
    (∃ t, run exRoot exSign exStart [.nodes, .save, .load, .swap, .request 0 1, .prove 0, .readRoot 0, .readSig 0, .sign, .store] = some t ∧ t.reqs 0 = .done [⟨1, 1, [0, 7]⟩]) ∧
    (∃ t, run exRoot exSign exStart [.nodes, .save, .load, .request 0 1, .prove 0, .swap, .readRoot 0, .sign, .store, .readSig 0] = some t ∧ t.reqs 0 = .done [⟨0, 1, [1, 7]⟩]) ∧
    (∃ t, run exRoot exSign exStart [.nodes, .save, .load, .request 0 1, .prove 0, .readRoot 0, .swap, .sign, .store, .readSig 0] = some t ∧ t.reqs 0 = .done [⟨0, 0, [1, 7]⟩]) ∧
    ¬ Entry.Good exRoot exSign ⟨1, 1, [0, 7]⟩ ∧ ¬ Entry.Good exRoot exSign ⟨0, 1, [1, 7]⟩ ∧ ¬ Entry.Good exRoot exSign ⟨0, 0, [1, 7]⟩ := by
  refine ⟨⟨_, rfl, rfl⟩, ⟨_, rfl, rfl⟩, ⟨_, rfl, rfl⟩, ?_, ?_, ?_⟩
  · rintro ⟨_, h⟩; exact absurd (show exSign _ = _ from h) (by decide)
  · rintro ⟨h, _⟩; exact absurd h (by decide)
  · rintro ⟨_, h⟩; exact absurd (show exSign _ = _ from h) (by decide)

/-- The parts of one answer can be about different trees (each of them good). -/
theorem C88_mixed_violated : ∃ t, run exRoot exSign exStart [.nodes, .save, .load, .request 0 2, .prove 0, .readRoot 0, .readSig 0, .swap, .sign, .store,
    .prove 0, .readRoot 0, .readSig 0] = some t ∧ t.reqs 0 = .done [⟨0, 0, [0, 7]⟩, ⟨1, 1, [1, 7]⟩] := ⟨_, rfl, rfl⟩

/-- If signing fails, the new tree is used all the same: until another reload, no answer to a later request is good. -/
theorem C88_sign_failure_violated {s t u : State} (hr : s.reload = .swapped) (hsign : sign (root s.smt) = none) (hs : exec root sign s .sign = some u) (es : List Ev)
    (hes : Ev.swap ∉ es) (h : run root sign u es = some t) (i : Nat) (hi : u.reqs i = .none) : ∀ e ∈ (t.reqs i).entries, ¬ e.Good root sign := by
  simp only [exec, hr, hsign] at hs
  cases hs
  have := run_induct_on (root := root) (sign := sign) (ok := fun e => e ≠ .swap)
    (P := fun t => t.smt = s.smt ∧ (t.reqs i).Sat (fun _ => True) (fun _ w => w = s.smt) (fun e => e.rootOf = s.smt))
    (by
      intro a b e hne ⟨h1, h2⟩ he
      refine ⟨?_, exec_sat he True.intro (fun v hv => h1) (fun v w hvw => hvw) h2⟩
      rcases exec_fields he with ⟨g1, _⟩ | ⟨g1, _⟩ | ⟨g1, _⟩
      · exact g1.trans h1
      · exact absurd g1 hne
      · exact g1.trans h1)
    es { s with reload := .idle } t (fun e he hes' => hes (hes' ▸ he)) ⟨rfl, by rw [hi]; exact True.intro⟩ h
  intro e he ⟨_, hg⟩
  have := this.2.entries e he
  unfold Signs at hg
  rw [this, hsign] at hg
  cases hg

/-- Between storing a new tree and the end of the reload, requests can fail although the server works and nothing else failed. -/
theorem C88_unavailable_violated : ∃ t, run exRoot exSign exStart [.nodes, .save, .request 0 1, .proveFails 0] = some t ∧ apiGetProof (t.reqs 0) = some (400, []) := ⟨_, rfl, rfl⟩

/-! ## Examples -/

-- The hypotheses of C88_quiet_partial and C88_fresh: an update, a reload, a request for two parts, during which the next tree is stored.
example : ∃ t, run exRoot exSign exStart [.nodes, .save, .load, .swap, .sign, .store, .request 0 2, .prove 0, .readRoot 0, .nodes, .readSig 0, .save, .load, .prove 0, .readRoot 0,
    .readSig 0] = some t ∧ t.reqs 0 = .done [⟨1, 1, [1, 7]⟩, ⟨1, 1, [1, 7]⟩] := ⟨_, rfl, rfl⟩

example : (∀ m, (exSign m).isSome) ∧ exStart.Quiet := ⟨fun _ => rfl, fun h => (by cases h), fun x h => (by cases h)⟩

-- The hypotheses of C88_sign_failure_violated.
example : ∃ (sign : Bytes → Option Bytes) (s u t : State), start exRoot sign 0 = some exStart ∧ run exRoot sign exStart [.nodes, .save, .load, .swap] = some s ∧
    s.reload = .swapped ∧ sign (exRoot s.smt) = none ∧ exec exRoot sign s .sign = some u ∧
    run exRoot sign u [.request 0 1, .prove 0, .readRoot 0, .readSig 0] = some t ∧ t.reqs 0 = .done [⟨1, 1, [0, 7]⟩] :=
  ⟨fun m => if m = [0] then some [0, 7] else none, _, _, _, rfl, rfl, rfl, rfl, rfl, rfl, rfl⟩

end Fpki.TreeHead
