import Verif.Model.StopFetch

/-! # C131: stopping a fetch -/
namespace Fpki.StopFetch

/-! ## Specification -/

/-- The indices of the entries in results. -/
def delivered : List Res → List Nat
  | [] => []
  | .ok first n :: l => List.range' first n ++ delivered l
  | .err :: l => delivered l

/-- The run has no second `StartFetching`. -/
def Ev.continues : Ev → Bool
  | .startFetching _ _ => false
  | _ => true

/-- No stop, no error of the server, no error in parsing. -/
def Ev.clean : Ev → Bool
  | .stopFetching => false
  | .go _ env => env.answer.isSome && env.parses
  | _ => true

/-- How many steps the goroutine makes. -/
def Ev.isGo : Ev → Bool
  | .go _ _ => true
  | _ => false

/-! ## Proofs -/

def batch (P : Params) (a b i : Nat) : Res := .ok (a + i * P.pb) (min b (a + i * P.pb + P.pb - 1) + 1 - (a + i * P.pb))

def batches (P : Params) (a b n : Nat) : List Res := (List.range n).map (batch P a b)

theorem batches_succ (P : Params) (a b n : Nat) : batches P a b (n + 1) = batches P a b n ++ [batch P a b n] := by
  unfold batches
  rw [List.range_succ, List.map_append]
  rfl

theorem delivered_append (l m : List Res) : delivered (l ++ m) = delivered l ++ delivered m := by
  induction l with
  | nil => rfl
  | cons r l ih => cases r <;> simp [delivered, ih]

/-- The number of batches. -/
def count (P : Params) (a b : Nat) : Nat := if a > b then 0 else 1 + (b - a) / P.pb

theorem le_count {P : Params} {a b i : Nat} (hp : 0 < P.pb) (h : i < count P a b) : a ≤ b ∧ a + i * P.pb ≤ b := by
  unfold count at h
  split at h
  · omega
  · have : i ≤ (b - a) / P.pb := by omega
    have := (Nat.le_div_iff_mul_le hp).1 this
    omega

theorem delivered_batches {P : Params} (hp : 0 < P.pb) (a b : Nat) : ∀ n ≤ count P a b, delivered (batches P a b n) = List.range' a (min (n * P.pb) (b + 1 - a)) := by
  intro n
  induction n with
  | zero => intro _; simp [batches, delivered]
  | succ n ih =>
    intro h
    obtain ⟨h1, h2⟩ := le_count hp (show n < count P a b by omega)
    rw [batches_succ, delivered_append, ih (by omega)]
    have e1 : min (n * P.pb) (b + 1 - a) = n * P.pb := by omega
    have e2 : min ((n + 1) * P.pb) (b + 1 - a) = n * P.pb + (min b (a + n * P.pb + P.pb - 1) + 1 - (a + n * P.pb)) := by
      rw [Nat.succ_mul]; omega
    rw [e1, e2]
    unfold batch delivered delivered
    rw [List.append_nil, ← List.range'_append_1]

theorem all_batches {P : Params} (hp : 0 < P.pb) (a b : Nat) : delivered (batches P a b (count P a b)) = List.range' a (b + 1 - a) := by
  rw [delivered_batches hp a b _ (Nat.le_refl _)]
  unfold count
  split
  · rw [show b + 1 - a = 0 by omega]; simp
  · have := Nat.lt_div_mul_add (a := b - a) hp
    rw [Nat.add_mul]
    congr 1
    omega

/-- What holds of the only goroutine; `ok`: so far nothing was stopped and nothing failed. -/
def At (P : Params) (a b : Nat) (ok stopping : Bool) (c : Chan) (g : Gor) : Prop :=
  match g.pc with
  | .start => c = ⟨[], 0, false⟩
  | .iter i => c.out = batches P a b i ∧ i ≤ count P a b ∧ c.closed = false ∧ g.count = count P a b ∧ g.chan = 0
  | .enter i | .chunk i _ _ => c.out = batches P a b i ∧ i < count P a b ∧ c.closed = false ∧ g.count = count P a b ∧ g.chan = 0 ∧ .ok g.s g.total = batch P a b i
  | .after i k n => (c.out = batches P a b i ∧ i < count P a b ∧ c.closed = false ∧ g.count = count P a b ∧ g.chan = 0 ∧ .ok g.s g.total = batch P a b i) ∧ (stopping = true ∨ n = g.size P k)
  | .check i v => (c.out = batches P a b i ∧ i < count P a b ∧ c.closed = false ∧ g.count = count P a b ∧ g.chan = 0 ∧ .ok g.s g.total = batch P a b i) ∧ (stopping = true ∨ v = g.total)
  | .send i v => (c.out = batches P a b i ∧ i < count P a b ∧ c.closed = false ∧ g.count = count P a b ∧ g.chan = 0) ∧ .ok g.s v = batch P a b i
  | .push i v ch => (c.out = batches P a b i ∧ i < count P a b ∧ c.closed = false ∧ g.count = count P a b ∧ g.chan = 0) ∧ .ok g.s v = batch P a b i ∧ ch = 0
  | .sendErr => ok = false ∧ c.closed = false ∧ g.chan = 0 ∧ ∃ i ≤ count P a b, c.out = batches P a b i
  | .pushErr ch => ok = false ∧ c.closed = false ∧ g.chan = 0 ∧ ch = 0 ∧ ∃ i ≤ count P a b, c.out = batches P a b i
  | .closing => c.closed = false ∧ g.chan = 0 ∧ ∃ i ≤ count P a b, (c.out = batches P a b i ∨ c.out = batches P a b i ++ [.err]) ∧ (ok = true → i = count P a b ∧ c.out = batches P a b i)
  | .ended => c.closed = true ∧ ∃ i ≤ count P a b, (c.out = batches P a b i ∨ c.out = batches P a b i ++ [.err]) ∧ (ok = true → i = count P a b ∧ c.out = batches P a b i)
  | .panicked => False

structure Inv (P : Params) (a b : Nat) (ok : Bool) (F : Fetcher) (c : Chan) (g : Gor) : Prop where
  start : F.start = a
  stop : F.stop = b
  cur : F.cur = 0
  chans : F.chans = [c]
  gors : F.gors = [g]
  calm : ok = true → F.stopping = false
  pc : At P a b ok F.stopping c g

theorem batch_total {P : Params} {a b i : Nat} {g : Gor} (hp : 0 < P.pb) (h : Res.ok g.s g.total = batch P a b i) : g.total ≤ P.pb := by
  unfold batch at h
  simp only [Res.ok.injEq] at h
  omega

theorem next_at {P : Params} {a b i k : Nat} {ok st : Bool} {c : Chan} {g : Gor}
    (h : c.out = batches P a b i ∧ i < count P a b ∧ c.closed = false ∧ g.count = count P a b ∧ g.chan = 0 ∧ .ok g.s g.total = batch P a b i) :
    At P a b ok st c { g with pc := g.next P i k } := by
  unfold Gor.next
  split
  · exact h
  split
  · exact h
  · exact ⟨h, .inr rfl⟩

theorem inv_go {P : Params} (hp : 0 < P.pb) {a b : Nat} {ok : Bool} {F F' : Fetcher} {c : Chan} {g : Gor} (h : Inv P a b ok F c g) (env : Env) (he : stepGor P F 0 g env = some F') :
    ∃ c' g', Inv P a b (ok && (env.answer.isSome && env.parses)) F' c' g' ∧ c'.taken = c.taken := by
  obtain ⟨hs, ht, hcur, hch, hg, hcalm, hpc⟩ := h
  have okor : ∀ (x : Bool), (ok && x) = true → ok = true := fun x hx => (Bool.and_eq_true_iff.1 hx).1
  have mk : ∀ (F1 : Fetcher) (c' : Chan) (g' : Gor), some { F1 with gors := F1.gors.set 0 g' } = some F' → F1.start = a → F1.stop = b → F1.cur = 0 → F1.chans = [c'] → F1.gors = [g] → (F1.stopping = F.stopping ∨ F1.stopping = false) → c'.taken = c.taken →
      At P a b (ok && (env.answer.isSome && env.parses)) F1.stopping c' g' →
      ∃ c' g', Inv P a b (ok && (env.answer.isSome && env.parses)) F' c' g' ∧ c'.taken = c.taken := by
    intro F1 c' g' h0 h1 h2 h3 h4 h5 h6 h7 h8
    injection h0 with h0
    subst h0
    refine ⟨c', g', ⟨h1, h2, h3, h4, by simp only [h5, List.set_cons_zero], ?_, h8⟩, h7⟩
    intro hok
    rcases h6 with h6 | h6
    · rw [h6]; exact hcalm (okor _ hok)
    · exact h6
  unfold stepGor at he
  dsimp only at he
  unfold At at hpc
  cases hp' : g.pc with
  | start =>
    rw [hp'] at he hpc
    dsimp only at he hpc
    split at he
    · rename_i hgt
      refine mk F c _ he hs ht hcur hch hg (.inl rfl) rfl ?_
      unfold At
      dsimp only
      have hc0 : count P a b = 0 := by unfold count; rw [if_pos (by omega)]
      refine ⟨by rw [hpc], hcur, 0, by omega, .inl (by rw [hpc]; rfl), fun _ => ⟨hc0.symm, by rw [hpc]; rfl⟩⟩
    · rename_i hgt
      refine mk F c _ he hs ht hcur hch hg (.inl rfl) rfl ?_
      unfold At
      dsimp only
      refine ⟨by rw [hpc]; rfl, by omega, by rw [hpc], ?_, hcur⟩
      unfold count
      rw [if_neg (by omega), hs, ht]
  | iter i =>
    rw [hp'] at he hpc
    dsimp only at he hpc
    obtain ⟨i1, i2, i3, i4, i5⟩ := hpc
    split at he
    · rename_i hlt
      obtain ⟨l1, l2⟩ := le_count hp (show i < count P a b by omega)
      rw [if_pos (by rw [hs, ht]; omega)] at he
      refine mk F c _ he hs ht hcur hch hg (.inl rfl) rfl ?_
      unfold At
      dsimp only
      refine ⟨i1, by omega, i3, i4, i5, ?_⟩
      unfold batch Gor.total
      dsimp only
      rw [hs, ht]
    · rename_i hlt
      refine mk F c _ he hs ht hcur hch hg (.inl rfl) rfl ?_
      unfold At
      dsimp only
      have : i = count P a b := by omega
      exact ⟨i3, i5, i, i2, .inl i1, fun _ => ⟨this, i1⟩⟩
  | enter i =>
    rw [hp'] at he hpc
    dsimp only at he hpc
    split at he
    · rename_i hst
      refine mk F c _ he hs ht hcur hch hg (.inl rfl) rfl ?_
      unfold At
      exact ⟨hpc, .inl hst⟩
    · exact mk F c _ he hs ht hcur hch hg (.inl rfl) rfl (next_at hpc)
  | chunk i k off =>
    rw [hp'] at he hpc
    dsimp only at he hpc
    split at he
    · split at he
      · rename_i hst
        refine mk F c _ he hs ht hcur hch hg (.inl rfl) rfl ?_
        unfold At
        exact ⟨hpc, .inl hst⟩
      · split at he
        · rename_i hans
          refine mk F c _ he hs ht hcur hch hg (.inl rfl) rfl ?_
          unfold At
          dsimp only
          obtain ⟨i1, i2, i3, i4, i5, _⟩ := hpc
          exact ⟨by rw [hans]; simp, i3, i5, i, Nat.le_of_lt i2, i1⟩
        · split at he
          · refine mk F c _ he hs ht hcur hch hg (.inl rfl) rfl ?_
            unfold At
            exact hpc
          · cases he
    · refine mk F c _ he hs ht hcur hch hg (.inl rfl) rfl ?_
      unfold At
      exact ⟨hpc, .inr rfl⟩
  | after i k n =>
    rw [hp'] at he hpc
    dsimp only at he hpc
    split at he
    · rename_i hst
      refine mk F c _ he hs ht hcur hch hg (.inl rfl) rfl ?_
      unfold At
      exact ⟨hpc.1, .inl hst⟩
    · rename_i hst
      rw [if_pos (hpc.2.resolve_left hst)] at he
      exact mk F c _ he hs ht hcur hch hg (.inl rfl) rfl (next_at hpc.1)
  | check i v =>
    rw [hp'] at he hpc
    dsimp only at he hpc
    obtain ⟨⟨i1, i2, i3, i4, i5, i6⟩, i7⟩ := hpc
    split at he
    · rename_i hst
      refine mk { F with stopping := false } c _ he hs ht hcur hch hg (.inr rfl) rfl ?_
      unfold At
      dsimp only
      refine ⟨i3, i5, i, Nat.le_of_lt i2, .inl i1, fun hok => ?_⟩
      rw [hcalm (okor _ hok)] at hst
      cases hst
    · rename_i hst
      have hv := i7.resolve_left hst
      rw [if_neg (by have := batch_total hp i6; omega)] at he
      split at he
      · refine mk F c _ he hs ht hcur hch hg (.inl rfl) rfl ?_
        unfold At
        exact ⟨⟨i1, i2, i3, i4, i5⟩, by rw [hv]; exact i6⟩
      · rename_i hpar
        refine mk F c _ he hs ht hcur hch hg (.inl rfl) rfl ?_
        unfold At
        dsimp only
        exact ⟨by simp [hpar], i3, i5, i, Nat.le_of_lt i2, i1⟩
  | send i v =>
    rw [hp'] at he hpc
    dsimp only at he hpc
    refine mk F c _ he hs ht hcur hch hg (.inl rfl) rfl ?_
    unfold At
    exact ⟨hpc.1, hpc.2, hcur⟩
  | push i v ch =>
    rw [hp'] at he hpc
    dsimp only at he hpc
    obtain ⟨⟨i1, i2, i3, i4, i5⟩, i6, rfl⟩ := hpc
    rw [hch] at he
    simp only [List.getElem?_cons_zero] at he
    unfold Chan.send at he
    rw [if_neg (by simp [i3])] at he
    split at he
    · cases he
    · rename_i hx; repeat' split at hx
      all_goals cases hx
    · rename_i c' hx
      split at hx
      · injection hx with hx; injection hx with hx; subst hx
        refine mk { F with chans := List.set [c] 0 _ } _ _ he hs ht hcur rfl hg (.inl rfl) rfl ?_
        unfold At
        dsimp only
        refine ⟨?_, i2, i3, i4, i5⟩
        rw [batches_succ, i1, i6]
      · cases hx
  | sendErr =>
    rw [hp'] at he hpc
    dsimp only at he hpc
    refine mk F c _ he hs ht hcur hch hg (.inl rfl) rfl ?_
    unfold At
    exact ⟨by rw [hpc.1]; rfl, hpc.2.1, hpc.2.2.1, hcur, hpc.2.2.2⟩
  | pushErr ch =>
    rw [hp'] at he hpc
    dsimp only at he hpc
    obtain ⟨i0, i3, i5, rfl, i, i2, i1⟩ := hpc
    rw [hch] at he
    simp only [List.getElem?_cons_zero] at he
    unfold Chan.send at he
    rw [if_neg (by simp [i3])] at he
    split at he
    · cases he
    · rename_i hx; repeat' split at hx
      all_goals cases hx
    · rename_i c' hx
      split at hx
      · injection hx with hx; injection hx with hx; subst hx
        refine mk { F with chans := List.set [c] 0 _ } _ _ he hs ht hcur rfl hg (.inl rfl) rfl ?_
        unfold At
        dsimp only
        refine ⟨i3, i5, i, i2, .inr (by rw [i1]), fun hok => ?_⟩
        rw [i0] at hok
        cases hok
      · cases hx
  | closing =>
    rw [hp'] at he hpc
    dsimp only at he hpc
    obtain ⟨i1, i2, i, i3, i4, i5⟩ := hpc
    rw [hch, i2] at he
    simp only [List.getElem?_cons_zero] at he
    rw [if_neg (by simp [i1])] at he
    refine mk { F with chans := List.set [c] 0 _ } _ _ he hs ht hcur rfl hg (.inl rfl) rfl ?_
    unfold At
    dsimp only
    exact ⟨rfl, i, i3, i4, fun hok => i5 (okor _ hok)⟩
  | ended => rw [hp'] at he; cases he
  | panicked => rw [hp'] at he; cases he

theorem at_weaken {P : Params} {a b : Nat} {ok : Bool} {c : Chan} {g : Gor} {st : Bool} (h : At P a b ok st c g) : At P a b false true c g := by
  unfold At at h ⊢
  cases hp' : g.pc with
  | after i k n => rw [hp'] at h; exact ⟨h.1, .inl rfl⟩
  | check i v => rw [hp'] at h; exact ⟨h.1, .inl rfl⟩
  | sendErr => rw [hp'] at h; exact ⟨rfl, h.2⟩
  | pushErr ch => rw [hp'] at h; exact ⟨rfl, h.2⟩
  | closing => rw [hp'] at h; obtain ⟨h1, h2, i, h3, h4, _⟩ := h; exact ⟨h1, h2, i, h3, h4, fun h => by cases h⟩
  | ended => rw [hp'] at h; obtain ⟨h1, i, h3, h4, _⟩ := h; exact ⟨h1, i, h3, h4, fun h => by cases h⟩
  | start => rw [hp'] at h; exact h
  | iter i => rw [hp'] at h; exact h
  | enter i => rw [hp'] at h; exact h
  | chunk i k off => rw [hp'] at h; exact h
  | send i v => rw [hp'] at h; exact h
  | push i v ch => rw [hp'] at h; exact h
  | panicked => rw [hp'] at h; exact h

theorem at_take {P : Params} {a b : Nat} {ok : Bool} {c : Chan} {g : Gor} {st : Bool} (ht : c.taken < c.out.length) (h : At P a b ok st c g) : At P a b ok st { c with taken := c.taken + 1 } g := by
  unfold At at h ⊢
  cases hp' : g.pc with
  | start => rw [hp'] at h; dsimp only at h; rw [h] at ht; exact absurd ht (Nat.lt_irrefl 0)
  | _ => rw [hp'] at h; exact h

theorem inv_exec {P : Params} (hp : 0 < P.pb) {a b : Nat} {ok : Bool} {F F' : Fetcher} {c : Chan} {g : Gor} (h : Inv P a b ok F c g) {e : Ev} (hc : e.continues = true) (he : exec P F e = some F') :
    ∃ c' g', Inv P a b (ok && e.clean) F' c' g' := by
  cases e with
  | startFetching _ _ => cases hc
  | stopFetching =>
    unfold exec at he
    injection he with he
    subst he
    refine ⟨c, g, ⟨h.start, h.stop, h.cur, h.chans, h.gors, fun hok => ?_, ?_⟩⟩
    · simp [Ev.clean] at hok
    · have : (ok && Ev.stopFetching.clean) = false := by simp [Ev.clean]
      rw [this]
      exact at_weaken h.pc
  | take =>
    unfold exec at he
    dsimp only at he
    rw [h.cur, h.chans] at he
    simp only [List.getElem?_cons_zero] at he
    split at he
    · rename_i hlt
      injection he with he
      subst he
      have : (ok && Ev.take.clean) = ok := by simp [Ev.clean]
      rw [this]
      exact ⟨{ c with taken := c.taken + 1 }, g, ⟨h.start, h.stop, rfl, rfl, h.gors, h.calm, at_take hlt h.pc⟩⟩
    · cases he
  | go j env =>
    unfold exec at he
    dsimp only at he
    rw [h.gors] at he
    cases j with
    | zero =>
      simp only [List.getElem?_cons_zero] at he
      obtain ⟨c', g', h', _⟩ := inv_go hp h env he
      exact ⟨c', g', h'⟩
    | succ j => simp at he

theorem inv_run {P : Params} (hp : 0 < P.pb) {a b : Nat} : ∀ {es : List Ev} {ok : Bool} {F F' : Fetcher} {c : Chan} {g : Gor}, Inv P a b ok F c g → (∀ e ∈ es, e.continues = true) → run P F es = some F' →
    ∃ c' g', Inv P a b (ok && es.all Ev.clean) F' c' g' := by
  intro es
  induction es with
  | nil =>
    intro ok F F' c g h _ he
    unfold run at he
    injection he with he
    subst he
    exact ⟨c, g, by simpa using h⟩
  | cons e es ih =>
    intro ok F F' c g h hes he
    unfold run at he
    rw [Option.bind_eq_some_iff] at he
    obtain ⟨F1, h1, h2⟩ := he
    obtain ⟨c1, g1, i1⟩ := inv_exec hp h (hes e List.mem_cons_self) h1
    obtain ⟨c2, g2, i2⟩ := ih i1 (fun x hx => hes x (List.mem_cons_of_mem _ hx)) h2
    refine ⟨c2, g2, ?_⟩
    rw [List.all_cons, ← Bool.and_assoc]
    exact i2

theorem inv_start {P : Params} {a b : Nat} {es : List Ev} {F : Fetcher} (hp : 0 < P.pb) (hes : ∀ e ∈ es, e.continues = true) (h : run P fresh (.startFetching a b :: es) = some F) :
    ∃ c g, Inv P a b (es.all Ev.clean) F c g := by
  unfold run at h
  rw [Option.bind_eq_some_iff] at h
  obtain ⟨F1, h1, h2⟩ := h
  unfold exec at h1
  injection h1 with h1
  subst h1
  have := inv_run (a := a) (b := b) (ok := true) hp (c := ⟨[], 0, false⟩) (g := ⟨.start, 0, 0, 0, 0⟩) ⟨rfl, rfl, rfl, rfl, rfl, fun _ => rfl, rfl⟩ hes h2
  simpa using this

theorem no_err (P : Params) (a b n : Nat) : .err ∉ batches P a b n := by
  unfold batches batch
  simp

theorem closed_iff {P : Params} {a b : Nat} {ok st : Bool} {c : Chan} {g : Gor} (h : At P a b ok st c g) : c.closed = true ↔ g.pc = .ended := by
  unfold At at h
  cases hp' : g.pc <;> rw [hp'] at h <;> dsimp only at h <;> simp_all

theorem shape {P : Params} {a b : Nat} {ok st : Bool} {c : Chan} {g : Gor} (h : At P a b ok st c g) :
    ∃ i ≤ count P a b, c.out = batches P a b i ∨ c.out = batches P a b i ++ [.err] := by
  unfold At at h
  cases hp' : g.pc with
  | start => rw [hp'] at h; dsimp only at h; exact ⟨0, Nat.zero_le _, .inl (by rw [h]; rfl)⟩
  | iter i => rw [hp'] at h; exact ⟨i, h.2.1, .inl h.1⟩
  | enter i => rw [hp'] at h; exact ⟨i, Nat.le_of_lt h.2.1, .inl h.1⟩
  | chunk i k off => rw [hp'] at h; exact ⟨i, Nat.le_of_lt h.2.1, .inl h.1⟩
  | after i k n => rw [hp'] at h; exact ⟨i, Nat.le_of_lt h.1.2.1, .inl h.1.1⟩
  | check i v => rw [hp'] at h; exact ⟨i, Nat.le_of_lt h.1.2.1, .inl h.1.1⟩
  | send i v => rw [hp'] at h; exact ⟨i, Nat.le_of_lt h.1.2.1, .inl h.1.1⟩
  | push i v ch => rw [hp'] at h; exact ⟨i, Nat.le_of_lt h.1.2.1, .inl h.1.1⟩
  | sendErr => rw [hp'] at h; obtain ⟨_, _, _, i, h1, h2⟩ := h; exact ⟨i, h1, .inl h2⟩
  | pushErr ch => rw [hp'] at h; obtain ⟨_, _, _, _, i, h1, h2⟩ := h; exact ⟨i, h1, .inl h2⟩
  | closing => rw [hp'] at h; obtain ⟨_, _, i, h1, h2, _⟩ := h; exact ⟨i, h1, h2⟩
  | ended => rw [hp'] at h; obtain ⟨_, i, h1, h2, _⟩ := h; exact ⟨i, h1, h2⟩
  | panicked => rw [hp'] at h; exact h.elim

/-- **C131** (a fetch that is started once): however the steps of the goroutine, the calls of `NextBatch` and of `StopFetching` interleave and however the server answers, the goroutine does not panic;
the entries that are delivered are those from index `a` on, in order, each once, none beyond `b`; an error is the last result; the channel is closed exactly when the goroutine has ended; and
if nothing was stopped and nothing failed, then all entries were delivered when the channel is closed. -/
theorem C131_single_partial {P : Params} (hp : 0 < P.pb) (_hs : 0 < P.sb) {a b : Nat} {es : List Ev} (hes : ∀ e ∈ es, e.continues = true) {F : Fetcher} (h : run P fresh (.startFetching a b :: es) = some F) :
    ∃ c g, F.chans = [c] ∧ F.gors = [g] ∧ g.pc ≠ .panicked ∧ (∃ m ≤ b + 1 - a, delivered c.out = List.range' a m) ∧ .err ∉ c.out.dropLast ∧ (c.closed = true ↔ g.pc = .ended) ∧
      ((∀ e ∈ es, e.clean = true) → c.closed = true → delivered c.out = List.range' a (b + 1 - a) ∧ .err ∉ c.out) := by
  obtain ⟨c, g, hI⟩ := inv_start hp hes h
  refine ⟨c, g, hI.chans, hI.gors, ?_, ?_, ?_, closed_iff hI.pc, ?_⟩
  · intro hpan
    have := hI.pc
    unfold At at this
    rw [hpan] at this
    exact this
  · obtain ⟨i, h1, h2⟩ := shape hI.pc
    have : delivered c.out = delivered (batches P a b i) := by
      rcases h2 with h2 | h2
      · rw [h2]
      · rw [h2, delivered_append]; simp [delivered]
    rw [this, delivered_batches hp a b i h1]
    exact ⟨_, Nat.min_le_right _ _, rfl⟩
  · obtain ⟨i, h1, h2⟩ := shape hI.pc
    rcases h2 with h2 | h2
    · rw [h2]; exact fun hm => no_err P a b i (List.dropLast_subset _ hm)
    · rw [h2, List.dropLast_concat]; exact no_err P a b i
  · intro hcl hclosed
    have hend := (closed_iff hI.pc).1 hclosed
    have hat := hI.pc
    unfold At at hat
    rw [hend] at hat
    obtain ⟨_, i, _, _, hall⟩ := hat
    obtain ⟨rfl, ho⟩ := hall (List.all_eq_true.2 hcl)
    rw [ho]
    exact ⟨all_batches hp a b, no_err P a b _⟩

/-- How many more steps a goroutine makes once it is stopped. -/
def rank : Pc → Nat
  | .start => 5
  | .iter _ => 4
  | .enter _ => 3
  | .chunk _ _ _ => 4
  | .after _ _ _ => 3
  | .check _ _ => 2
  | .send _ _ => 6
  | .push _ _ _ => 5
  | .sendErr => 3
  | .pushErr _ => 2
  | .closing => 1
  | .ended => 0
  | .panicked => 0

/-- How many more results it then delivers. -/
def more : Pc → Nat
  | .send _ _ | .push _ _ _ | .sendErr | .pushErr _ => 1
  | _ => 0

def Stopped (F : Fetcher) (pc : Pc) : Prop := F.stopping = true ∨ pc = .closing ∨ pc = .ended

theorem stop_go {P : Params} (hp : 0 < P.pb) {a b : Nat} {ok : Bool} {F F' : Fetcher} {c c' : Chan} {g g' : Gor} (h : Inv P a b ok F c g) (hs : Stopped F g.pc) {env : Env} (he : stepGor P F 0 g env = some F')
    (hc : F'.chans = [c']) (hg : F'.gors = [g']) : Stopped F' g'.pc ∧ rank g'.pc < rank g.pc ∧ c'.out.length + more g'.pc ≤ c.out.length + more g.pc := by
  have fin : ∀ (F1 : Fetcher) (c1 : Chan) (g1 : Gor), some { F1 with gors := F1.gors.set 0 g1 } = some F' → F1.chans = [c1] → F1.gors = [g] →
      Stopped F1 g1.pc ∧ rank g1.pc < rank g.pc ∧ c1.out.length + more g1.pc ≤ c.out.length + more g.pc → Stopped F' g'.pc ∧ rank g'.pc < rank g.pc ∧ c'.out.length + more g'.pc ≤ c.out.length + more g.pc := by
    intro F1 c1 g1 h0 h1 h2 h3
    injection h0 with h0
    subst h0
    simp only [h1, h2, List.set_cons_zero, List.cons.injEq, and_true] at hc hg
    subst hc
    subst hg
    exact h3
  obtain ⟨hst, htt, hcur, hch, hgo, hcalm, hpc⟩ := h
  unfold At at hpc
  unfold stepGor at he
  dsimp only at he
  cases hp' : g.pc with
  | start =>
    rw [← hp']
    have hs' : F.stopping = true := by simpa [Stopped, hp'] using hs
    rw [hp'] at he hpc
    dsimp only at he hpc
    split at he
    · exact fin F c _ he hch hgo ⟨.inl hs', by rw [hp']; simp [rank], by rw [hp']; exact Nat.le_refl _⟩
    · exact fin F c _ he hch hgo ⟨.inl hs', by rw [hp']; simp [rank], by rw [hp']; exact Nat.le_refl _⟩
  | iter i =>
    rw [← hp']
    have hs' : F.stopping = true := by simpa [Stopped, hp'] using hs
    rw [hp'] at he hpc
    dsimp only at he hpc
    split at he
    · split at he
      · exact fin F c _ he hch hgo ⟨.inl hs', by rw [hp']; simp [rank], by rw [hp']; exact Nat.le_refl _⟩
      · exact fin F c _ he hch hgo ⟨.inl hs', by rw [hp']; simp [rank], by rw [hp']; exact Nat.le_refl _⟩
    · exact fin F c _ he hch hgo ⟨.inl hs', by rw [hp']; simp [rank], by rw [hp']; exact Nat.le_refl _⟩
  | enter i =>
    rw [← hp']
    have hs' : F.stopping = true := by simpa [Stopped, hp'] using hs
    rw [hp'] at he hpc
    dsimp only at he hpc
    rw [if_pos hs'] at he
    exact fin F c _ he hch hgo ⟨.inl hs', by rw [hp']; simp [rank], by rw [hp']; exact Nat.le_refl _⟩
  | chunk i k off =>
    rw [← hp']
    have hs' : F.stopping = true := by simpa [Stopped, hp'] using hs
    rw [hp'] at he hpc
    dsimp only at he hpc
    rw [if_pos hs'] at he
    split at he
    · exact fin F c _ he hch hgo ⟨.inl hs', by rw [hp']; simp [rank], by rw [hp']; exact Nat.le_refl _⟩
    · exact fin F c _ he hch hgo ⟨.inl hs', by rw [hp']; simp [rank], by rw [hp']; exact Nat.le_refl _⟩
  | after i k n =>
    rw [← hp']
    have hs' : F.stopping = true := by simpa [Stopped, hp'] using hs
    rw [hp'] at he hpc
    dsimp only at he hpc
    rw [if_pos hs'] at he
    exact fin F c _ he hch hgo ⟨.inl hs', by rw [hp']; simp [rank], by rw [hp']; exact Nat.le_refl _⟩
  | check i v =>
    rw [← hp']
    have hs' : F.stopping = true := by simpa [Stopped, hp'] using hs
    rw [hp'] at he hpc
    dsimp only at he hpc
    rw [if_pos hs'] at he
    exact fin { F with stopping := false } c _ he hch hgo ⟨.inr (.inl rfl), by rw [hp']; simp [rank], by rw [hp']; exact Nat.le_refl _⟩
  | send i v =>
    rw [← hp']
    have hs' : F.stopping = true := by simpa [Stopped, hp'] using hs
    rw [hp'] at he hpc
    dsimp only at he hpc
    exact fin F c _ he hch hgo ⟨.inl hs', by rw [hp']; simp [rank], by rw [hp']; exact Nat.le_refl _⟩
  | push i v ch =>
    rw [← hp']
    have hs' : F.stopping = true := by simpa [Stopped, hp'] using hs
    rw [hp'] at he hpc
    dsimp only at he hpc
    obtain ⟨⟨i1, i2, i3, i4, i5⟩, i6, rfl⟩ := hpc
    rw [hch] at he
    simp only [List.getElem?_cons_zero] at he
    unfold Chan.send at he
    rw [if_neg (by simp [i3])] at he
    split at he
    · cases he
    · rename_i hx; repeat' split at hx
      all_goals cases hx
    · rename_i c1 hx
      split at hx
      · injection hx with hx; injection hx with hx; subst hx
        exact fin { F with chans := List.set [c] 0 _ } _ _ he rfl hgo ⟨.inl hs', by rw [hp']; simp [rank], by rw [hp']; simp [more]⟩
      · cases hx
  | sendErr =>
    rw [← hp']
    have hs' : F.stopping = true := by simpa [Stopped, hp'] using hs
    rw [hp'] at he hpc
    dsimp only at he hpc
    exact fin F c _ he hch hgo ⟨.inl hs', by rw [hp']; simp [rank], by rw [hp']; exact Nat.le_refl _⟩
  | pushErr ch =>
    rw [← hp']
    have hs' : F.stopping = true := by simpa [Stopped, hp'] using hs
    rw [hp'] at he hpc
    dsimp only at he hpc
    obtain ⟨i0, i3, i5, rfl, i, i2, i1⟩ := hpc
    rw [hch] at he
    simp only [List.getElem?_cons_zero] at he
    unfold Chan.send at he
    rw [if_neg (by simp [i3])] at he
    split at he
    · cases he
    · rename_i hx; repeat' split at hx
      all_goals cases hx
    · rename_i c1 hx
      split at hx
      · injection hx with hx; injection hx with hx; subst hx
        exact fin { F with chans := List.set [c] 0 _ } _ _ he rfl hgo ⟨.inl hs', by rw [hp']; simp [rank], by rw [hp']; simp [more]⟩
      · cases hx
  | closing =>
    rw [← hp']
    rw [hp'] at he hpc
    dsimp only at he hpc
    obtain ⟨i1, i2, i, i3, i4, i5⟩ := hpc
    rw [hch, i2] at he
    simp only [List.getElem?_cons_zero] at he
    rw [if_neg (by simp [i1])] at he
    exact fin { F with chans := List.set [c] 0 _ } _ _ he rfl hgo ⟨.inr (.inr rfl), by rw [hp']; simp [rank], by rw [hp']; simp [more]⟩
  | ended => rw [hp'] at he; cases he
  | panicked => rw [hp'] at he; cases he

theorem stop_run {P : Params} (hp : 0 < P.pb) {a b : Nat} : ∀ {es : List Ev} {ok : Bool} {F F' : Fetcher} {c c' : Chan} {g g' : Gor}, Inv P a b ok F c g → Stopped F g.pc → (∀ e ∈ es, e.continues = true) →
    run P F es = some F' → F'.chans = [c'] → F'.gors = [g'] →
    (es.filter Ev.isGo).length + rank g'.pc ≤ rank g.pc ∧ c'.out.length + more g'.pc ≤ c.out.length + more g.pc := by
  intro es
  induction es with
  | nil =>
    intro ok F F' c c' g g' h _ _ he hc hg
    unfold run at he
    injection he with he
    subst he
    rw [h.chans] at hc
    rw [h.gors] at hg
    simp only [List.cons.injEq, and_true] at hc hg
    subst hc
    subst hg
    simp
  | cons e es ih =>
    intro ok F F' c c' g g' h hst hes he hc hg
    unfold run at he
    rw [Option.bind_eq_some_iff] at he
    obtain ⟨F1, h1, h2⟩ := he
    obtain ⟨c1, g1, i1⟩ := inv_exec hp h (hes e List.mem_cons_self) h1
    have hes' : ∀ x ∈ es, x.continues = true := fun x hx => hes x (List.mem_cons_of_mem _ hx)
    cases e with
    | startFetching _ _ => cases hes _ List.mem_cons_self
    | stopFetching =>
      have hg1 : g1 = g := by
        unfold exec at h1
        injection h1 with h1
        have := i1.gors
        rw [← h1] at this
        rw [show ({ F with stopping := true } : Fetcher).gors = F.gors from rfl, h.gors] at this
        simpa using this.symm
      have hc1 : c1 = c := by
        unfold exec at h1
        injection h1 with h1
        have := i1.chans
        rw [← h1] at this
        rw [show ({ F with stopping := true } : Fetcher).chans = F.chans from rfl, h.chans] at this
        simpa using this.symm
      have hst1 : Stopped F1 g1.pc := by
        unfold exec at h1
        injection h1 with h1
        subst h1
        exact .inl rfl
      have := ih i1 hst1 hes' h2 hc hg
      rw [hg1, hc1] at this
      simpa [Ev.isGo] using this
    | take =>
      have key : F1.gors = F.gors ∧ F1.stopping = F.stopping ∧ c1.out = c.out := by
        unfold exec at h1
        dsimp only at h1
        rw [h.cur, h.chans] at h1
        simp only [List.getElem?_cons_zero] at h1
        split at h1
        · injection h1 with h1
          have := i1.chans
          rw [← h1] at this
          simp only [List.set_cons_zero, List.cons.injEq, and_true] at this
          subst h1
          exact ⟨rfl, rfl, by rw [← this]⟩
        · cases h1
      obtain ⟨k1, k2, k3⟩ := key
      have hg1 : g1 = g := by
        rw [i1.gors, h.gors] at k1
        simpa using k1
      have hst1 : Stopped F1 g1.pc := by
        unfold Stopped at hst ⊢
        rw [k2, hg1]
        exact hst
      have := ih i1 hst1 hes' h2 hc hg
      rw [hg1, k3] at this
      simpa [Ev.isGo] using this
    | go j env =>
      have h1' := h1
      unfold exec at h1
      dsimp only at h1
      rw [h.gors] at h1
      cases j with
      | succ j => simp at h1
      | zero =>
        simp only [List.getElem?_cons_zero] at h1
        obtain ⟨k1, k2, k3⟩ := stop_go hp h hst h1 i1.chans i1.gors
        have := ih i1 k1 hes' h2 hc hg
        simp only [List.filter_cons, Ev.isGo, if_true, List.length_cons]
        omega

/-- **C131** (a stopped fetch ends): after `StopFetching`, if the fetch is not started again, the goroutine makes at most six more steps and delivers at most one more result. -/
theorem C131_stop_partial {P : Params} (hp : 0 < P.pb) (_hs : 0 < P.sb) {a b : Nat} {es fs : List Ev} (hes : ∀ e ∈ es, e.continues = true) (hfs : ∀ e ∈ fs, e.continues = true) {F F' : Fetcher}
    (h : run P fresh (.startFetching a b :: es) = some F) (h' : run P F (.stopFetching :: fs) = some F') :
    (fs.filter Ev.isGo).length ≤ 6 ∧ ∀ c c', F.chans = [c] → F'.chans = [c'] → c'.out.length ≤ c.out.length + 1 := by
  obtain ⟨c, g, hI⟩ := inv_start hp hes h
  unfold run at h'
  rw [Option.bind_eq_some_iff] at h'
  obtain ⟨F1, h1, h2⟩ := h'
  have hI1 : Inv P a b false F1 c g := by
    unfold exec at h1
    injection h1 with h1
    subst h1
    exact ⟨hI.start, hI.stop, hI.cur, hI.chans, hI.gors, (fun h => by cases h), at_weaken hI.pc⟩
  have hst : Stopped F1 g.pc := by
    unfold exec at h1
    injection h1 with h1
    subst h1
    exact .inl rfl
  obtain ⟨c', g', hI'⟩ := inv_run hp hI1 hfs h2
  obtain ⟨k1, k2⟩ := stop_run hp hI1 hst hfs h2 hI'.chans hI'.gors
  have hr : rank g.pc ≤ 6 := by unfold rank; split <;> omega
  have hm : more g.pc ≤ 1 := by unfold more; split <;> omega
  refine ⟨by omega, fun d d' hd hd' => ?_⟩
  rw [hI.chans] at hd
  rw [hI'.chans] at hd'
  simp only [List.cons.injEq, and_true] at hd hd'
  subst hd
  subst hd'
  omega

/-- **C131** (progress): unless it has ended, the goroutine can make a step when the channel is not full, whether the request to the server fails or brings an entry. -/
theorem C131_progress_partial {P : Params} (hp : 0 < P.pb) (_hs : 0 < P.sb) {a b : Nat} {es : List Ev} (hes : ∀ e ∈ es, e.continues = true) {F : Fetcher} (h : run P fresh (.startFetching a b :: es) = some F)
    {c : Chan} {g : Gor} (hc : F.chans = [c]) (hg : F.gors = [g]) (hend : g.pc ≠ .ended) (hroom : c.out.length - c.taken < preload) (env : Env) (hans : env.answer = none ∨ env.answer = some 1) :
    (exec P F (.go 0 env)).isSome = true := by
  obtain ⟨c', g', hI⟩ := inv_start hp hes h
  have hc' := hI.chans
  have hg' := hI.gors
  rw [hc] at hc'
  rw [hg] at hg'
  simp only [List.cons.injEq, and_true] at hc' hg'
  subst hc'
  subst hg'
  have hpc := hI.pc
  unfold At at hpc
  unfold exec
  dsimp only
  rw [hg]
  simp only [List.getElem?_cons_zero]
  unfold stepGor
  cases hp' : g.pc with
  | start => dsimp only; split <;> rfl
  | iter i => dsimp only; split <;> first | rfl | (split <;> rfl)
  | enter i => dsimp only; split <;> rfl
  | chunk i k off =>
    dsimp only
    split
    · split
      · rfl
      · rcases hans with hans | hans
        · rw [hans]; rfl
        · rw [hans]; dsimp only; rw [if_pos (by omega)]; rfl
    · rfl
  | after i k n => dsimp only; split <;> first | rfl | (split <;> rfl)
  | check i v => dsimp only; repeat' split
                 all_goals rfl
  | send i v => rfl
  | push i v ch =>
    rw [hp'] at hpc
    obtain ⟨⟨i1, i2, i3, i4, i5⟩, i6, rfl⟩ := hpc
    dsimp only
    rw [hc]
    simp [Chan.send, i3, hroom]
  | sendErr => rfl
  | pushErr ch =>
    rw [hp'] at hpc
    obtain ⟨i0, i3, i5, rfl, i, i2, i1⟩ := hpc
    dsimp only
    rw [hc]
    simp [Chan.send, i3, hroom]
  | closing =>
    rw [hp'] at hpc
    obtain ⟨i3, i5, _⟩ := hpc
    dsimp only
    rw [hc, i5]
    simp [i3]
  | ended => exact absurd hp' hend
  | panicked => rw [hp'] at hpc; exact hpc.elim

/-! ## What is violated -/

/-- A step of goroutine `j`; the server sends one entry. -/
def one (j : Nat) : Ev := .go j ⟨some 1, true⟩

def exP : Params := ⟨2, 2⟩

/-- A whole fetch of the entries 0 to 2, in batches of two. -/
def exRun : List Ev := List.replicate 10 (one 0) ++ [.take] ++ List.replicate 10 (one 0)

/-- All hypotheses of `C131_single_partial` are met by a fetch of three entries in two batches, which delivers them all. -/
example : ∃ F, run exP fresh (.startFetching 0 2 :: exRun) = some F ∧ (∀ e ∈ exRun, e.continues = true) ∧ (∀ e ∈ exRun, e.clean = true) ∧ F.chans = [⟨[.ok 0 2, .ok 2 1], 1, true⟩] := by
  refine ⟨(run exP fresh (.startFetching 0 2 :: exRun)).get (by decide +kernel), by simp, by decide +kernel, by decide +kernel, by decide +kernel⟩

/-- The six steps of `C131_stop_partial` can be necessary. -/
example : ∃ F F', run exP fresh (.startFetching 0 2 :: List.replicate 8 (one 0)) = some F ∧ run exP F (.stopFetching :: List.replicate 6 (one 0)) = some F' ∧ F'.gors.map Gor.pc = [.ended] := by
  refine ⟨(run exP fresh (.startFetching 0 2 :: List.replicate 8 (one 0))).get (by decide +kernel), (run exP ((run exP fresh (.startFetching 0 2 :: List.replicate 8 (one 0))).get (by decide +kernel))
    (.stopFetching :: List.replicate 6 (one 0))).get (by decide +kernel), by simp, by simp, by decide +kernel⟩

/-- The progress theorem applies in the middle of a fetch. -/
example : ∃ F c g, run exP fresh (.startFetching 0 2 :: List.replicate 9 (one 0)) = some F ∧ F.chans = [c] ∧ F.gors = [g] ∧ g.pc = .push 0 2 0 ∧ c.out.length - c.taken < preload :=
  ⟨(run exP fresh (.startFetching 0 2 :: List.replicate 9 (one 0))).get (by decide +kernel), ⟨[], 0, false⟩, ⟨.push 0 2 0, 0, 2, 0, 1⟩, by simp, by decide +kernel, by decide +kernel, rfl, by decide⟩

/-- **C131** is violated: `StopFetching` and then `StartFetching`, while a request of the first fetch is still running, panics (which ends the whole program). -/
theorem C131_restart_violated : ¬ ∀ (P : Params) (es : List Ev) (F : Fetcher), 0 < P.pb → 0 < P.sb → run P fresh es = some F → ∀ g ∈ F.gors, g.pc ≠ .panicked := by
  intro h
  have := h exP (.startFetching 0 2 :: one 0 :: one 0 :: one 0 :: .stopFetching :: one 0 :: .startFetching 0 2 :: [one 0])
    ((run exP fresh (.startFetching 0 2 :: one 0 :: one 0 :: one 0 :: .stopFetching :: one 0 :: .startFetching 0 2 :: [one 0])).get (by decide +kernel)) (by decide) (by decide) (by simp)
  revert this
  decide +kernel

/-- **C131** is violated without `StopFetching`, too: the caller stops reading a fetch (say, because the database fails) and starts the fetch of what is missing; the goroutine of the first fetch goes on
with the limits of the second and panics. -/
theorem C131_abandoned_violated : ∃ es F, run exP fresh es = some F ∧ Ev.stopFetching ∉ es ∧ (∃ g ∈ F.gors, g.pc = .panicked) :=
  ⟨.startFetching 0 7 :: (List.replicate 10 (one 0) ++ [.startFetching 6 7, one 0]), (run exP fresh (.startFetching 0 7 :: (List.replicate 10 (one 0) ++ [.startFetching 6 7, one 0]))).get (by decide +kernel),
    by simp, by decide +kernel, by decide +kernel⟩

/-- **C131** is violated: a second `StartFetching` before the goroutine of the first has begun: both send into the second channel, so that entries are delivered twice, and closing it twice panics. -/
theorem C131_twice_violated : ∃ es F, run exP fresh es = some F ∧ (∃ g ∈ F.gors, g.pc = .panicked) ∧ (∃ c ∈ F.chans, ¬ (delivered c.out).Nodup) :=
  ⟨.startFetching 0 0 :: .startFetching 0 0 :: (List.replicate 9 (one 0) ++ List.replicate 9 (one 1) ++ List.replicate 2 (one 0) ++ List.replicate 2 (one 1)),
    (run exP fresh (.startFetching 0 0 :: .startFetching 0 0 :: (List.replicate 9 (one 0) ++ List.replicate 9 (one 1) ++ List.replicate 2 (one 0) ++ List.replicate 2 (one 1)))).get (by decide +kernel),
    by simp, by decide +kernel, by decide +kernel⟩

/-- **C131** is violated: `StopFetching` and then `StartFetching` can make the first result of the second fetch an empty one, which `NextBatch` takes for the end, although no entry was delivered. -/
theorem C131_empty_violated : ∃ es F c, run exP fresh es = some F ∧ F.start ≤ F.stop ∧ F.chans[F.cur]? = some c ∧ c.out.head? = some (.ok 0 0) :=
  ⟨[.startFetching 0 2, one 0, one 0, .stopFetching, one 0, .startFetching 0 2, one 0, one 0, one 0],
    (run exP fresh [.startFetching 0 2, one 0, one 0, .stopFetching, one 0, .startFetching 0 2, one 0, one 0, one 0]).get (by decide +kernel), ⟨[.ok 0 0], 0, false⟩,
    by simp, by decide +kernel, by decide +kernel, rfl⟩

/-- Not a call of `NextBatch` or of `StartFetching`. -/
def Ev.silent : Ev → Bool
  | .take | .startFetching _ _ => false
  | _ => true

/-- **C131** is violated: `StopFetching` does not end a goroutine that has filled the channel if nobody calls `NextBatch` any more: whatever happens after, it is still there. -/
theorem C131_leak_violated : ∃ es F, run exP fresh es = some F ∧ es.getLast? = some .stopFetching ∧ ∀ fs F', (∀ e ∈ fs, e.silent = true) → run exP F fs = some F' → ∀ g ∈ F'.gors, g.pc ≠ .ended := by
  refine ⟨.startFetching 0 7 :: (List.replicate 27 (one 0) ++ [.stopFetching]), (run exP fresh (.startFetching 0 7 :: (List.replicate 27 (one 0) ++ [.stopFetching]))).get (by decide +kernel), by simp, by decide +kernel, ?_⟩
  intro fs F' hfs h
  have key : ∀ (fs : List Ev) (F F' : Fetcher), F.gors = [⟨.push 2 2 0, 0, 4, 4, 5⟩] → F.chans = [⟨[.ok 0 2, .ok 2 2], 0, false⟩] → (∀ e ∈ fs, e.silent = true) → run exP F fs = some F' →
      F'.gors = [⟨.push 2 2 0, 0, 4, 4, 5⟩] := by
    intro fs
    induction fs with
    | nil =>
      intro F F' hg _ _ hr
      unfold run at hr
      injection hr with hr
      subst hr
      exact hg
    | cons e fs ih =>
      intro F F' hg hc hs hr
      unfold run at hr
      rw [Option.bind_eq_some_iff] at hr
      obtain ⟨F1, h1, h2⟩ := hr
      have hs' : ∀ x ∈ fs, x.silent = true := fun x hx => hs x (List.mem_cons_of_mem _ hx)
      have he := hs e List.mem_cons_self
      unfold exec at h1
      cases e with
      | startFetching _ _ => cases he
      | take => cases he
      | stopFetching =>
        injection h1 with h1
        subst h1
        exact ih { F with stopping := true } _ hg hc hs' h2
      | go j env =>
        dsimp only at h1
        rw [hg] at h1
        cases j with
        | succ j => simp at h1
        | zero => simp [stepGor, hc, Chan.send, preload] at h1
  have := key fs _ F' (by decide +kernel) (by decide +kernel) hfs h
  rw [this]
  simp

end Fpki.StopFetch
