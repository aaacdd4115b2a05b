import Verif.Lemmas.Presence

/-!
# C41: the presence cache

`Reach n tr s`: some execution of `n` goroutines, in any interleaving, in which the callers see `tr` and which leads to the state `s`.
-/
namespace Fpki.Presence

/-- The callers know that the ID is in the cache: an `AddIDs` with it has returned, or a `Contains` has returned `true` for it. -/
def Known (tr : List Obs) (x : Nat) : Prop := (∃ r ids, Obs.addReturned r ids ∈ tr ∧ x ∈ ids) ∨ ∃ r, Obs.returned r x true ∈ tr

/-- `AddIDs` has been called with the ID. -/
def Requested (tr : List Obs) (x : Nat) : Prop := ∃ r ids, Obs.addCalled r ids ∈ tr ∧ x ∈ ids

/-- The calls of `Contains` that have returned answered `true` if the ID was known when they were called. -/
def Complete (tr : List Obs) : Prop :=
  ∀ pre mid post r id b, tr = pre ++ Obs.called r id :: (mid ++ Obs.returned r id b :: post) → (∀ x, Obs.called r x ∉ mid) → Known pre id → b = true

def idsOf : Thread → List Nat
  | .lock ids => ids
  | .wait1 ids => ids
  | .write1 ids _ => ids
  | .wait0 ids => ids
  | .write0 ids _ => ids
  | .unlock ids => ids
  | _ => []

/-- What a goroutine in `Contains` will answer, given what was known when it called. -/
def started (tr : List Obs) (s : State) (r : Nat) : Thread → Prop
  | .reading _ idx => ∀ pre mid id', tr = pre ++ Obs.called r id' :: mid → (∀ x, Obs.called r x ∉ mid) → ∀ x, Known pre x → x ∈ s.sets idx
  | .dec id _ ok => ∀ pre mid id', tr = pre ++ Obs.called r id' :: mid → (∀ x, Obs.called r x ∉ mid) → Known pre id → ok = true
  | .ret id ok => ∀ pre mid id', tr = pre ++ Obs.called r id' :: mid → (∀ x, Obs.called r x ∉ mid) → Known pre id → ok = true
  | _ => True

def Positive (id : Nat) : Thread → Prop
  | .dec id' _ ok => id' = id ∧ ok = true
  | .ret id' ok => id' = id ∧ ok = true
  | _ => False

structure OInv (tr : List Obs) (s : State) : Prop where
  adds : ∀ r ids, Obs.addReturned r ids ∈ tr → ∀ x, x ∈ ids → x ∈ s.sets false
  rets : ∀ r x, Obs.returned r x true ∈ tr → x ∈ s.sets s.cur
  pend : ∀ (r : Nat) (t : Thread) (id : Nat), s.threads[r]? = some t → Positive id t → id ∈ s.sets s.cur
  snd : ∀ i x, x ∈ s.sets i → Requested tr x
  sndT : ∀ (r : Nat) (t : Thread), s.threads[r]? = some t → ∀ x, x ∈ idsOf t → Requested tr x
  st : ∀ (r : Nat) (t : Thread), s.threads[r]? = some t → started tr s r t
  complete : Complete tr

theorem split_call {tr o pre mid : List Obs} {c : Obs} (h : tr ++ o = pre ++ c :: mid) (hc : c ∉ o) : ∃ mid', tr = pre ++ c :: mid' ∧ mid = mid' ++ o := by
  rcases List.append_eq_append_iff.mp h with ⟨a, h1, h2⟩ | ⟨a, h1, h2⟩
  · exfalso; apply hc; rw [h2]; simp
  · cases a with
    | nil => exfalso; apply hc; simp at h2; rw [← h2]; simp
    | cons x a =>
      simp only [List.cons_append, List.cons.injEq] at h2
      obtain ⟨e1, e2⟩ := h2
      subst e1
      exact ⟨a, h1, e2⟩

theorem known_append {tr o : List Obs} {x : Nat} (h : Known (tr ++ o) x) (h1 : ∀ r ids, Obs.addReturned r ids ∉ o) (h2 : ∀ r, Obs.returned r x true ∉ o) : Known tr x := by
  rcases h with ⟨r, ids, h, hx⟩ | ⟨r, h⟩
  · exact Or.inl ⟨r, ids, (List.mem_append.mp h).resolve_right (h1 r ids), hx⟩
  · exact Or.inr ⟨r, (List.mem_append.mp h).resolve_right (h2 r)⟩

theorem Requested.mono {tr o : List Obs} {x : Nat} (h : Requested tr x) : Requested (tr ++ o) x := by
  obtain ⟨r, ids, h, hx⟩ := h
  exact ⟨r, ids, List.mem_append_left _ h, hx⟩

/-- Facts about a goroutine that are kept when others go on. -/
theorem started_mono {tr o : List Obs} {s s' : State} {r : Nat} {t : Thread} (h : started tr s r t) (mono : ∀ i x, x ∈ s.sets i → x ∈ s'.sets i)
    (ho : ∀ x, Obs.called r x ∉ o) : started (tr ++ o) s' r t := by
  have key : ∀ {pre mid : List Obs} {id' : Nat}, tr ++ o = pre ++ Obs.called r id' :: mid → (∀ x, Obs.called r x ∉ mid) →
      ∃ mid', tr = pre ++ Obs.called r id' :: mid' ∧ ∀ x, Obs.called r x ∉ mid' := by
    intro pre mid id' he hn
    obtain ⟨mid', h1, h2⟩ := split_call he (ho id')
    exact ⟨mid', h1, fun x hx => hn x (by rw [h2]; exact List.mem_append_left _ hx)⟩
  cases t with
  | reading id idx =>
    intro pre mid id' he hn x hk
    obtain ⟨mid', h1, h2⟩ := key he hn
    exact mono _ _ (h pre mid' id' h1 h2 x hk)
  | dec id idx ok =>
    intro pre mid id' he hn hk
    obtain ⟨mid', h1, h2⟩ := key he hn
    exact h pre mid' id' h1 h2 hk
  | ret id ok =>
    intro pre mid id' he hn hk
    obtain ⟨mid', h1, h2⟩ := key he hn
    exact h pre mid' id' h1 h2 hk
  | _ => trivial

theorem OInv.known {tr : List Obs} {s : State} (hi : Inv s) (ho : OInv tr s) {x : Nat} (h : Known tr x) : x ∈ s.sets s.cur := by
  rcases h with ⟨r, ids, h, hx⟩ | ⟨r, h⟩
  · have := ho.adds r ids h x hx
    cases s.cur with
    | false => exact this
    | true => exact hi.sub x this
  · exact ho.rets r x h

theorem known_prefix {pre post : List Obs} {x : Nat} (h : Known pre x) : Known (pre ++ post) x := by
  rcases h with ⟨r, ids, h, hx⟩ | ⟨r, h⟩
  · exact Or.inl ⟨r, ids, List.mem_append_left _ h, hx⟩
  · exact Or.inr ⟨r, List.mem_append_left _ h⟩

/-- Preservation, given what the step does. -/
theorem OInv.step {tr o : List Obs} {s s' : State} {r : Nat} {t t' : Thread} (ho : OInv tr s) (ht : s.threads[r]? = some t)
    (hth : s'.threads = s.threads.set r t') (mono : ∀ i x, x ∈ s.sets i → x ∈ s'.sets i) (curmono : ∀ x, x ∈ s.sets s.cur → x ∈ s'.sets s'.cur)
    (hob : ∀ r' x, Obs.called r' x ∈ o → r' = r)
    (hadd : ∀ r' ids, Obs.addReturned r' ids ∈ o → ∀ x, x ∈ ids → x ∈ s'.sets false)
    (hret : ∀ r' x b, Obs.returned r' x b ∈ o → o = [Obs.returned r' x b] ∧ r' = r ∧ t = .ret x b)
    (hpend : ∀ id, Positive id t' → id ∈ s'.sets s'.cur)
    (hsnd : ∀ i x, x ∈ s'.sets i → x ∈ s.sets i ∨ Requested tr x)
    (hsndT : ∀ x, x ∈ idsOf t' → Requested (tr ++ o) x)
    (hst : started (tr ++ o) s' r t') : OInv (tr ++ o) s' := by
  refine ⟨?_, ?_, ?_, ?_, ?_, ?_, ?_⟩
  · intro r' ids h x hx
    rcases List.mem_append.mp h with h | h
    · exact mono _ _ (ho.adds r' ids h x hx)
    · exact hadd r' ids h x hx
  · intro r' x h
    rcases List.mem_append.mp h with h | h
    · exact curmono x (ho.rets r' x h)
    · obtain ⟨_, _, e⟩ := hret r' x true h
      subst e
      exact curmono x (ho.pend r _ x ht ⟨rfl, rfl⟩)
  · intro r1 t1 id h1 hp
    rw [hth] at h1
    rcases set_some h1 with ⟨_, f⟩ | ⟨_, f⟩
    · subst f; exact hpend id hp
    · exact curmono id (ho.pend r1 t1 id f hp)
  · intro i x hx
    rcases hsnd i x hx with h | h
    · exact (ho.snd i x h).mono
    · exact h.mono
  · intro r1 t1 h1 x hx
    rw [hth] at h1
    rcases set_some h1 with ⟨_, f⟩ | ⟨_, f⟩
    · subst f; exact hsndT x hx
    · exact (ho.sndT r1 t1 f x hx).mono
  · intro r1 t1 h1
    rw [hth] at h1
    rcases set_some h1 with ⟨e, f⟩ | ⟨e, f⟩
    · subst f; subst e; exact hst
    · exact started_mono (ho.st r1 t1 f) mono (fun x hc => e (hob r1 x hc))
  · intro pre mid post r1 id b he hn hk
    by_cases hin : Obs.returned r1 id b ∈ o ∧ post = []
    · obtain ⟨h1, h2⟩ := hin
      obtain ⟨eo, er, et⟩ := hret r1 id b h1
      subst h2; subst er; subst et
      have hs := ho.st r1 _ ht
      rw [eo] at he
      have he2 : tr ++ [Obs.returned r1 id b] = (pre ++ Obs.called r1 id :: mid) ++ [Obs.returned r1 id b] := by rw [he]; simp
      exact hs pre mid id (List.append_cancel_right he2) hn hk
    · have he' : tr ++ o = (pre ++ Obs.called r1 id :: mid) ++ Obs.returned r1 id b :: post := by rw [he]; simp
      rcases List.append_eq_append_iff.mp he' with ⟨a, h1, h2⟩ | ⟨a, h1, h2⟩
      · exfalso
        obtain ⟨eo, _, _⟩ := hret r1 id b (by rw [h2]; simp)
        apply hin
        rw [eo] at h2
        have hl := congrArg List.length h2
        simp at hl
        refine ⟨by rw [eo]; simp, ?_⟩
        exact List.eq_nil_of_length_eq_zero (by omega)
      · cases a with
        | nil =>
          exfalso
          simp at h2
          obtain ⟨eo, _, _⟩ := hret r1 id b (by rw [← h2]; simp)
          apply hin
          rw [eo] at h2
          refine ⟨by rw [eo]; simp, ?_⟩
          simpa using h2
        | cons z a =>
          simp only [List.cons_append, List.cons.injEq] at h2
          obtain ⟨e1, e2⟩ := h2
          subst e1
          exact ho.complete pre mid a r1 id b (by rw [h1]; simp) hn hk

theorem next_oinv {tr o : List Obs} {s s' : State} {r : Nat} {t : Thread} (hi : Inv s) (ho : OInv tr s) (ht : s.threads[r]? = some t) (he : s.next r t = some (s', o)) : OInv (tr ++ o) s' := by
  cases t with
  | idle => cases he
  | load id =>
    cases he
    exact ho.step ht rfl (fun _ _ h => h) (fun _ h => h) (by intro _ _ h; cases h) (by intro _ _ h; cases h) (by intro _ _ _ h; cases h) (by intro _ h; cases h) (fun _ _ h => Or.inl h) (by intro _ h; cases h) trivial
  | inc id idx =>
    cases he
    exact ho.step ht rfl (fun _ _ h => h) (fun _ h => h) (by intro _ _ h; cases h) (by intro _ _ h; cases h) (by intro _ _ _ h; cases h) (by intro _ h; cases h) (fun _ _ h => Or.inl h) (by intro _ h; cases h) trivial
  | check id idx =>
    simp only [State.next] at he
    split at he
    · cases he
      exact ho.step ht rfl (fun _ _ h => h) (fun _ h => h) (by intro _ _ h; cases h) (by intro _ _ h; cases h) (by intro _ _ _ h; cases h) (by intro _ h; cases h) (fun _ _ h => Or.inl h) (by intro _ h; cases h) trivial
    · rename_i hc
      have hc : s.cur = idx := Classical.not_not.mp hc
      cases he
      refine ho.step ht rfl (fun _ _ h => h) (fun _ h => h) (by intro _ _ h; cases h) (by intro _ _ h; cases h) (by intro _ _ _ h; cases h) (by intro _ h; cases h) (fun _ _ h => Or.inl h) (by intro _ h; cases h) ?_
      intro pre mid id' he _ x hk
      simp only [List.append_nil] at he
      have : Known tr x := by rw [he]; exact known_prefix hk
      have h2 := ho.known hi this
      rw [hc] at h2
      exact h2
  | undo id idx =>
    cases he
    exact ho.step ht rfl (fun _ _ h => h) (fun _ h => h) (by intro _ _ h; cases h) (by intro _ _ h; cases h) (by intro _ _ _ h; cases h) (by intro _ h; cases h) (fun _ _ h => Or.inl h) (by intro _ h; cases h) trivial
  | reading id idx =>
    cases he
    refine ho.step ht rfl (fun _ _ h => h) (fun _ h => h) (by intro _ _ h; cases h) (by intro _ _ h; cases h) (by intro _ _ _ h; cases h) ?_ (fun _ _ h => Or.inl h) (by intro _ h; cases h) ?_
    · intro id' hp
      obtain ⟨e, hc⟩ := hp
      subst e
      exact hi.read_cur ht _ (by simpa using hc)
    · intro pre mid id' he hn hk
      simp only [List.append_nil] at he
      have := ho.st _ _ ht pre mid id' he hn id hk
      simpa using this
  | dec id idx ok =>
    cases he
    refine ho.step ht rfl (fun _ _ h => h) (fun _ h => h) (by intro _ _ h; cases h) (by intro _ _ h; cases h) (by intro _ _ _ h; cases h) ?_ (fun _ _ h => Or.inl h) (by intro _ h; cases h) ?_
    · intro id' hp
      exact ho.pend _ _ id' ht hp
    · have := ho.st _ _ ht
      simpa [started] using this
  | ret id ok =>
    cases he
    refine ho.step ht rfl (fun _ _ h => h) (fun _ h => h) (by intro _ _ h; simp at h) (by intro _ _ h; simp at h) ?_ (by intro _ h; cases h) (fun _ _ h => Or.inl h) (by intro _ h; cases h) trivial
    intro r' x b h
    simp at h
    obtain ⟨h1, h2, h3⟩ := h
    subst h1; subst h2; subst h3
    exact ⟨rfl, rfl, rfl⟩
  | lock ids =>
    simp only [State.next] at he
    split at he
    · cases he
    · cases he
      exact ho.step ht rfl (fun _ _ h => h) (fun _ h => h) (by intro _ _ h; cases h) (by intro _ _ h; cases h) (by intro _ _ _ h; cases h) (by intro _ h; cases h) (fun _ _ h => Or.inl h)
        (fun x hx => (ho.sndT _ _ ht x hx).mono) trivial
  | wait1 ids =>
    simp only [State.next] at he
    split at he
    · cases he
      exact ho.step ht rfl (fun _ _ h => h) (fun _ h => h) (by intro _ _ h; cases h) (by intro _ _ h; cases h) (by intro _ _ _ h; cases h) (by intro _ h; cases h) (fun _ _ h => Or.inl h)
        (fun x hx => (ho.sndT _ _ ht x hx).mono) trivial
    · cases he
  | write1 ids todo =>
    have hp := hi.ph _ _ ht
    cases todo with
    | nil =>
      cases he
      refine ho.step ht rfl (fun _ _ h => h) ?_ (by intro _ _ h; cases h) (by intro _ _ h; cases h) (by intro _ _ _ h; cases h) (by intro _ h; cases h) (fun _ _ h => Or.inl h)
        (fun x hx => (ho.sndT _ _ ht x hx).mono) trivial
      intro x hx
      rw [hp.1] at hx
      exact hi.sub x hx
    | cons id todo =>
      cases he
      have mono : ∀ i x, x ∈ s.sets i → x ∈ upd s.sets true (id :: s.sets true) i := by
        intro i x hx
        cases i with
        | false => exact hx
        | true => exact List.mem_cons_of_mem _ hx
      refine ho.step ht rfl mono (fun x hx => mono _ x hx) (by intro _ _ h; cases h) (by intro _ _ h; cases h) (by intro _ _ _ h; cases h) (by intro _ h; cases h) ?_
        (fun x hx => (ho.sndT _ _ ht x hx).mono) trivial
      intro i x hx
      cases i with
      | false => exact Or.inl hx
      | true =>
        rcases List.mem_cons.mp hx with h | h
        · subst h; exact Or.inr (ho.sndT _ _ ht x (hp.2.2.2.2.2 x List.mem_cons_self))
        · exact Or.inl h
  | wait0 ids =>
    simp only [State.next] at he
    split at he
    · cases he
      exact ho.step ht rfl (fun _ _ h => h) (fun _ h => h) (by intro _ _ h; cases h) (by intro _ _ h; cases h) (by intro _ _ _ h; cases h) (by intro _ h; cases h) (fun _ _ h => Or.inl h)
        (fun x hx => (ho.sndT _ _ ht x hx).mono) trivial
    · cases he
  | write0 ids todo =>
    have hp := hi.ph _ _ ht
    cases todo with
    | nil =>
      cases he
      refine ho.step ht rfl (fun _ _ h => h) ?_ (by intro _ _ h; cases h) (by intro _ _ h; cases h) (by intro _ _ _ h; cases h) (by intro _ h; cases h) (fun _ _ h => Or.inl h)
        (fun x hx => (ho.sndT _ _ ht x hx).mono) trivial
      intro x hx
      rw [hp.1] at hx
      rcases hp.2.2.2.2.2.1 x hx with h | h
      · exact h
      · exact (hp.2.2.2.2.1 x h).resolve_left (by simp)
    | cons id todo =>
      cases he
      have mono : ∀ i x, x ∈ s.sets i → x ∈ upd s.sets false (id :: s.sets false) i := by
        intro i x hx
        cases i with
        | true => exact hx
        | false => exact List.mem_cons_of_mem _ hx
      refine ho.step ht rfl mono (fun x hx => mono _ x hx) (by intro _ _ h; cases h) (by intro _ _ h; cases h) (by intro _ _ _ h; cases h) (by intro _ h; cases h) ?_
        (fun x hx => (ho.sndT _ _ ht x hx).mono) trivial
      intro i x hx
      cases i with
      | true => exact Or.inl hx
      | false =>
        rcases List.mem_cons.mp hx with h | h
        · subst h; exact Or.inr (ho.sndT _ _ ht x (hp.2.2.2.2.2.2 x List.mem_cons_self))
        · exact Or.inl h
  | unlock ids =>
    have hp := hi.ph _ _ ht
    cases he
    refine ho.step ht rfl (fun _ _ h => h) (fun _ h => h) (by intro _ _ h; simp at h) ?_ (by intro _ _ _ h; simp at h) (by intro _ h; cases h) (fun _ _ h => Or.inl h) (by intro _ h; cases h) trivial
    intro r' ids' h x hx
    simp at h
    obtain ⟨_, h2⟩ := h
    subst h2
    exact hp.2.2 x hx

theorem Reach.oinv {n : Nat} {tr : List Obs} {s : State} (h : Reach n tr s) : OInv tr s := by
  induction h with
  | init =>
    have hidle : ∀ (r : Nat) (t : Thread), (Presence.init n).threads[r]? = some t → t = .idle := by
      intro r t h
      obtain ⟨hl, he⟩ := List.getElem?_eq_some_iff.mp h
      exact List.eq_of_mem_replicate (he ▸ List.getElem_mem hl)
    refine ⟨(by intro _ _ h; cases h), (by intro _ _ h; cases h), ?_, (by intro _ _ h; cases h), ?_, ?_, ?_⟩
    · intro r t id h hp; rw [hidle _ _ h] at hp; cases hp
    · intro r t h x hx; rw [hidle _ _ h] at hx; cases hx
    · intro r t h; rw [hidle _ _ h]; trivial
    · intro pre mid post r id b h; simp at h
  | @step tr s s' o e hr he ho =>
    have hi := hr.inv
    cases e with
    | contains r id =>
      simp only [State.exec] at he
      split at he
      · rename_i ht
        cases he
        refine ho.step ht rfl (fun _ _ h => h) (fun _ h => h) ?_ (by intro _ _ h; simp at h) (by intro _ _ _ h; simp at h) (by intro _ h; cases h) (fun _ _ h => Or.inl h) (by intro _ h; cases h) trivial
        intro r' x h
        simp at h
        exact h.1
      · cases he
    | add r ids =>
      simp only [State.exec] at he
      split at he
      · rename_i ht
        cases he
        refine ho.step ht rfl (fun _ _ h => h) (fun _ h => h) (by intro _ _ h; simp at h) (by intro _ _ h; simp at h) (by intro _ _ _ h; simp at h) (by intro _ h; cases h) (fun _ _ h => Or.inl h) ?_ trivial
        intro x hx
        exact ⟨r, ids, by simp, hx⟩
      · cases he
    | run r =>
      simp only [State.exec] at he
      split at he
      · rename_i t ht
        exact next_oinv hi ho ht he
      · cases he

/-- C41, no lost IDs: a `Contains` returns `true` if, when it was called, an `AddIDs` with the ID had returned, or any `Contains` had returned `true` for it. -/
theorem C41_complete {n : Nat} {tr : List Obs} {s : State} (h : Reach n tr s) {pre mid post : List Obs} {r id : Nat} {b : Bool}
    (hs : tr = pre ++ Obs.called r id :: (mid ++ Obs.returned r id b :: post)) (hm : ∀ x, Obs.called r x ∉ mid) (hk : Known pre id) : b = true :=
  h.oinv.complete pre mid post r id b hs hm hk

/-- C41, no phantoms: a `Contains` returns `true` only for an ID with which `AddIDs` had been called. -/
theorem C41_sound {n : Nat} {tr : List Obs} {s : State} (h : Reach n tr s) : ∀ pre post r id, tr = pre ++ Obs.returned r id true :: post → Requested pre id := by
  induction h with
  | init => intro pre post r id he; simp at he
  | @step tr s s' o e hr he ih =>
    intro pre post r id hs
    by_cases hin : Obs.returned r id true ∈ o
    · have hlast : o = [Obs.returned r id true] ∧ s.threads[r]? = some (.ret id true) := by
        cases e with
        | contains r1 id1 =>
          simp only [State.exec] at he
          split at he
          · cases he; simp at hin
          · cases he
        | add r1 ids =>
          simp only [State.exec] at he
          split at he
          · cases he; simp at hin
          · cases he
        | run r1 =>
          simp only [State.exec] at he
          split at he
          · rename_i t ht
            cases t with
            | ret id1 ok =>
              cases he
              simp at hin
              obtain ⟨h1, h2, h3⟩ := hin
              subst h1; subst h2; subst h3
              exact ⟨rfl, ht⟩
            | write1 ids todo => cases todo <;> cases he <;> cases hin
            | write0 ids todo => cases todo <;> cases he <;> cases hin
            | unlock ids => cases he; simp at hin
            | check id1 idx => simp only [State.next] at he; split at he <;> cases he <;> cases hin
            | lock ids => simp only [State.next] at he; split at he <;> cases he; cases hin
            | wait1 ids => simp only [State.next] at he; split at he <;> cases he; cases hin
            | wait0 ids => simp only [State.next] at he; split at he <;> cases he; cases hin
            | _ => cases he <;> cases hin
          · cases he
      have hreq : Requested tr id := hr.oinv.snd _ _ (hr.oinv.pend r _ id hlast.2 ⟨rfl, rfl⟩)
      rw [hlast.1] at hs
      rcases List.append_eq_append_iff.mp hs with ⟨a, h1, _⟩ | ⟨a, h1, h2⟩
      · rw [h1]; exact hreq.mono
      · cases a with
        | nil => simp at h1; rw [← h1]; exact hreq
        | cons z a =>
          simp only [List.cons_append, List.cons.injEq] at h2
          obtain ⟨e1, _⟩ := h2
          subst e1
          exact ih pre a r id h1
    · obtain ⟨mid', h1, _⟩ := split_call hs hin
      exact ih pre mid' r id h1

/-- C41, no data race: a map is never read while it is being written, and there is at most one writer. -/
theorem C41_race_free {n : Nat} {tr : List Obs} {s : State} (h : Reach n tr s) :
    (∀ (r r' id : Nat) (ids todo : List Nat), s.threads[r]? = some (.write1 ids todo) → s.threads[r']? ≠ some (.reading id true)) ∧
    (∀ (r r' id : Nat) (ids todo : List Nat), s.threads[r]? = some (.write0 ids todo) → s.threads[r']? ≠ some (.reading id false)) ∧
    (∀ (r r' : Nat) (t t' : Thread), s.threads[r]? = some t → s.threads[r']? = some t' → holds t = true → holds t' = true → r = r') := by
  have hi := h.inv
  exact ⟨fun r r' id ids todo h1 => (hi.ph _ _ h1).2.1 r' id, fun r r' id ids todo h1 => (hi.ph _ _ h1).2.1 r' id, hi.uniq⟩

/-- How many steps a goroutine may still need, if there are `n` goroutines; a change of the index costs every reader at most four steps more. -/
def cost (n : Nat) (cur : Bool) : Thread → Nat
  | .idle => 0
  | .load _ => 6
  | .inc _ idx => if idx = cur then 5 else 9
  | .check _ idx => if idx = cur then 4 else 8
  | .undo _ _ => 7
  | .reading _ _ => 3
  | .dec _ _ _ => 2
  | .ret _ _ => 1
  | .lock ids => 2 * ids.length + 8 * n + 6
  | .wait1 ids => 2 * ids.length + 8 * n + 5
  | .write1 ids todo => todo.length + ids.length + 8 * n + 4
  | .wait0 ids => ids.length + 4 * n + 3
  | .write0 _ todo => todo.length + 4 * n + 2
  | .unlock _ => 1

def State.cost (s : State) : Nat := (s.threads.map (Presence.cost s.threads.length s.cur)).sum

theorem cost_cur (n : Nat) (c c' : Bool) (t : Thread) : cost n c t ≤ cost n c' t + 4 := by
  cases t <;> simp only [cost] <;> (try split) <;> (try split) <;> omega

theorem sum_cur (n : Nat) (c c' : Bool) (l : List Thread) : (l.map (cost n c)).sum ≤ (l.map (cost n c')).sum + 4 * l.length := by
  induction l with
  | nil => simp
  | cons t l ih =>
    have := cost_cur n c c' t
    simp only [List.map_cons, List.sum_cons, List.length_cons]
    omega

theorem cost_step {s s' : State} {r : Nat} {t t' : Thread} (ht : s.threads[r]? = some t) (hth : s'.threads = s.threads.set r t') (hc : s'.cur = s.cur)
    (h : cost s.threads.length s.cur t' < cost s.threads.length s.cur t) : s'.cost < s.cost := by
  unfold State.cost
  rw [hth, hc, List.length_set]
  have := sum_set (f := cost s.threads.length s.cur) (b := t') ht
  omega

theorem cost_step_cur {s s' : State} {r : Nat} {t t' : Thread} (ht : s.threads[r]? = some t) (hth : s'.threads = s.threads.set r t')
    (h : cost s.threads.length s'.cur t' + 4 * s.threads.length < cost s.threads.length s'.cur t) : s'.cost < s.cost := by
  unfold State.cost
  rw [hth, List.length_set]
  have h1 := sum_set (f := cost s.threads.length s'.cur) (b := t') ht
  have h2 := sum_cur s.threads.length s'.cur s.cur s.threads
  omega

/-- C41, no livelock: every step of a call in progress brings the calls in progress closer to their ends, for every schedule: without new calls, no execution has more than `s.cost` steps. -/
theorem C41_terminates {s s' : State} {r : Nat} {o : List Obs} (he : s.exec (.run r) = some (s', o)) : s'.cost < s.cost := by
  simp only [State.exec] at he
  split at he
  · rename_i t ht
    cases t with
    | idle => cases he
    | load id => cases he; exact cost_step ht rfl rfl (by simp [cost])
    | inc id idx => cases he; exact cost_step ht rfl rfl (by simp only [cost]; split <;> omega)
    | check id idx =>
      simp only [State.next] at he
      split at he
      · rename_i hc
        have hc' : ¬ idx = s.cur := fun h => hc h.symm
        cases he; exact cost_step ht rfl rfl (by simp [cost, hc'])
      · cases he; exact cost_step ht rfl rfl (by simp only [cost]; split <;> omega)
    | undo id idx => cases he; exact cost_step ht rfl rfl (by simp [cost])
    | reading id idx => cases he; exact cost_step ht rfl rfl (by simp [cost])
    | dec id idx ok => cases he; exact cost_step ht rfl rfl (by simp [cost])
    | ret id ok => cases he; exact cost_step ht rfl rfl (by simp [cost])
    | lock ids =>
      simp only [State.next] at he
      split at he
      · cases he
      · cases he; exact cost_step ht rfl rfl (by simp only [cost]; omega)
    | wait1 ids =>
      simp only [State.next] at he
      split at he
      · cases he; exact cost_step ht rfl rfl (by simp only [cost]; omega)
      · cases he
    | write1 ids todo =>
      cases todo with
      | nil => cases he; exact cost_step_cur ht rfl (by simp only [cost, List.length_nil]; omega)
      | cons id todo => cases he; exact cost_step ht rfl rfl (by simp only [cost, List.length_cons]; omega)
    | wait0 ids =>
      simp only [State.next] at he
      split at he
      · cases he; exact cost_step ht rfl rfl (by simp only [cost]; omega)
      · cases he
    | write0 ids todo =>
      cases todo with
      | nil => cases he; exact cost_step_cur ht rfl (by simp only [cost, List.length_nil]; omega)
      | cons id todo => cases he; exact cost_step ht rfl rfl (by simp only [cost, List.length_cons]; omega)
    | unlock ids => cases he; exact cost_step ht rfl rfl (by simp [cost])
  · cases he

/-- The goroutine is at a point of `Contains`. -/
def inContains : Thread → Bool
  | .load _ => true
  | .inc _ _ => true
  | .check _ _ => true
  | .undo _ _ => true
  | .reading _ _ => true
  | .dec _ _ _ => true
  | .ret _ _ => true
  | _ => false

/-- C41: a goroutine in `Contains` is never blocked. -/
theorem C41_contains_never_blocks {s : State} {r : Nat} {t : Thread} (ht : s.threads[r]? = some t) (h : inContains t = true) : ∃ s' o, s.exec (.run r) = some (s', o) := by
  simp only [State.exec, ht]
  cases t <;> simp [inContains] at h
  case check id idx =>
    simp only [State.next]
    split
    · exact ⟨_, _, rfl⟩
    · exact ⟨_, _, rfl⟩
  all_goals exact ⟨_, _, rfl⟩

theorem exists_ref {s : State} (hi : Inv s) {i : Bool} (h : s.count i ≠ 0) : ∃ (r : Nat) (t : Thread), s.threads[r]? = some t ∧ inContains t = true := by
  have h1 : (s.threads.map (refs i)).sum ≠ 0 := by
    intro hc
    apply h
    rw [hi.cnt i, hc]; rfl
  have h2 : ¬ ∀ x ∈ s.threads.map (refs i), x = 0 := fun hc => h1 (List.sum_eq_zero_iff_forall_eq_nat.mpr hc)
  have h3 : ∃ t ∈ s.threads, refs i t ≠ 0 := by
    refine Classical.byContradiction fun hc => h2 ?_
    intro x hx
    obtain ⟨t, ht, e⟩ := List.mem_map.mp hx
    refine Classical.byContradiction fun hn => hc ⟨t, ht, by rw [e]; exact hn⟩
  obtain ⟨t, ht, hne⟩ := h3
  obtain ⟨r, hr⟩ := List.getElem?_of_mem ht
  refine ⟨r, t, hr, ?_⟩
  cases t <;> first | rfl | (exfalso; exact hne rfl)

/-- C41, no deadlock: while any call is in progress, some goroutine can go on. -/
theorem C41_no_deadlock {n : Nat} {tr : List Obs} {s : State} (h : Reach n tr s) {r : Nat} {t : Thread} (ht : s.threads[r]? = some t) (hne : t ≠ .idle) :
    ∃ r' s' o, s.exec (.run r') = some (s', o) := by
  have hi := h.inv
  have reader : ∀ {i : Bool}, s.count i ≠ 0 → ∃ r' s' o, s.exec (.run r') = some (s', o) := by
    intro i hc
    obtain ⟨r', t', h1, h2⟩ := exists_ref hi hc
    obtain ⟨s', o, h3⟩ := C41_contains_never_blocks h1 h2
    exact ⟨r', s', o, h3⟩
  have holder : ∀ {r1 : Nat} {t1 : Thread}, s.threads[r1]? = some t1 → holds t1 = true → ∃ r' s' o, s.exec (.run r') = some (s', o) := by
    intro r1 t1 h1 h2
    cases t1 <;> simp [holds] at h2
    case wait1 ids =>
      by_cases hc : s.count true = 0
      · exact ⟨r1, by simp only [State.exec, h1, State.next, hc, if_true]; exact ⟨_, _, rfl⟩⟩
      · exact reader hc
    case wait0 ids =>
      by_cases hc : s.count false = 0
      · exact ⟨r1, by simp only [State.exec, h1, State.next, hc, if_true]; exact ⟨_, _, rfl⟩⟩
      · exact reader hc
    case write1 ids todo => cases todo <;> exact ⟨r1, by simp only [State.exec, h1, State.next]; exact ⟨_, _, rfl⟩⟩
    case write0 ids todo => cases todo <;> exact ⟨r1, by simp only [State.exec, h1, State.next]; exact ⟨_, _, rfl⟩⟩
    case unlock ids => exact ⟨r1, by simp only [State.exec, h1, State.next]; exact ⟨_, _, rfl⟩⟩
  cases hh : holds t with
  | true => exact holder ht hh
  | false =>
    cases hc : inContains t with
    | true => obtain ⟨s', o, h3⟩ := C41_contains_never_blocks ht hc; exact ⟨r, s', o, h3⟩
    | false =>
      cases t <;> simp [holds, inContains] at hh hc hne
      case lock ids =>
        cases hm : s.mu with
        | true => obtain ⟨r1, t1, h1, h2⟩ := hi.muE hm; exact holder h1 h2
        | false => exact ⟨r, by simp only [State.exec, ht, State.next, hm]; exact ⟨_, _, rfl⟩⟩

/-- Running steps, with what the callers see. -/
def State.run (s : State) : List Ev → Option (State × List Obs)
  | [] => some (s, [])
  | e :: es =>
    match s.exec e with
    | none => none
    | some (s', o) => (s'.run es).map (fun p => (p.1, o ++ p.2))

theorem run_reach {n : Nat} {es : List Ev} {tr o : List Obs} {s s' : State} (h : Reach n tr s) (he : s.run es = some (s', o)) : Reach n (tr ++ o) s' := by
  induction es generalizing tr o s with
  | nil => cases he; simpa using h
  | cons e es ih =>
    simp only [State.run] at he
    split at he
    · cases he
    · rename_i s1 o1 h1
      cases h2 : s1.run es with
      | none => rw [h2] at he; cases he
      | some p =>
        rw [h2] at he
        cases he
        have := ih (h.step e h1) h2
        rw [← List.append_assoc]
        exact this

/-- A schedule with a retry: goroutine 1 loads index 0, the writer switches to index 1, so goroutine 1 repeats, reads the shadow and finds 7; then it calls again after `AddIDs` has returned. -/
def exEvents : List Ev :=
  [.contains 1 7, .run 1, .add 0 [7], .run 0, .run 0, .run 0, .run 0, .run 1, .run 1, .run 1, .run 1, .run 1, .run 1, .run 1, .run 0, .run 0, .run 0, .run 1, .run 1, .run 0,
   .contains 1 7, .run 1, .run 1, .run 1, .run 1, .run 1, .run 1]

example : ∃ s, Reach 2 [.called 1 7, .addCalled 0 [7], .returned 1 7 true, .addReturned 0 [7], .called 1 7, .returned 1 7 true] s := by
  have h : ((init 2).run exEvents).map (fun p => p.2) = some [.called 1 7, .addCalled 0 [7], .returned 1 7 true, .addReturned 0 [7], .called 1 7, .returned 1 7 true] := by decide +kernel
  cases hr : (init 2).run exEvents with
  | none => rw [hr] at h; cases h
  | some p =>
    rw [hr] at h
    simp only [Option.map_some, Option.some.injEq] at h
    have := run_reach (Reach.init (n := 2)) (s' := p.1) (o := p.2) hr
    rw [h] at this
    exact ⟨p.1, this⟩

/-- `Size` reads the length of `sets[0]` without synchronisation: it may be behind what a `Contains` has already returned (and it may run while that map is being written). -/
theorem C41_size_violated : ∃ tr s, Reach 2 tr s ∧ Obs.returned 1 7 true ∈ tr ∧ s.size = 0 := by
  have h : ((init 2).run (exEvents.take 14 ++ [.run 1, .run 1])).map (fun p => (p.2, p.1.sets false)) = some ([.called 1 7, .addCalled 0 [7], .returned 1 7 true], []) := by decide +kernel
  cases hr : (init 2).run (exEvents.take 14 ++ [.run 1, .run 1]) with
  | none => rw [hr] at h; cases h
  | some p =>
    rw [hr] at h
    simp only [Option.map_some, Option.some.injEq, Prod.mk.injEq] at h
    have := run_reach (Reach.init (n := 2)) (s' := p.1) (o := p.2) hr
    rw [h.1] at this
    exact ⟨_, p.1, this, by simp, by rw [State.size, h.2]; rfl⟩

end Fpki.Presence
