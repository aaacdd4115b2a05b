import Verif.Model.Presence
import Verif.Lemmas.ListSet

/-! # Invariants of the presence cache -/
namespace Fpki.Presence

/-- The goroutine holds the mutex. -/
def holds : Thread → Bool
  | .wait1 _ => true
  | .write1 _ _ => true
  | .wait0 _ => true
  | .write0 _ _ => true
  | .unlock _ => true
  | _ => false

/-- The goroutine has incremented the counter of `i` and not decremented it yet. -/
def refs (i : Bool) : Thread → Nat
  | .check _ j => if j = i then 1 else 0
  | .undo _ j => if j = i then 1 else 0
  | .reading _ j => if j = i then 1 else 0
  | .dec _ j _ => if j = i then 1 else 0
  | _ => 0

def NoReading (s : State) (i : Bool) : Prop := ∀ (r : Nat) (id : Nat), s.threads[r]? ≠ some (.reading id i)

def Same (s : State) : Prop := ∀ x, x ∈ s.sets false ↔ x ∈ s.sets true

/-- What holds when the holder of the mutex is at that point. -/
def phase (s : State) : Thread → Prop
  | .wait1 _ => s.cur = false ∧ Same s
  | .write1 ids todo => s.cur = false ∧ NoReading s true ∧ (∀ x, x ∈ s.sets false → x ∈ s.sets true) ∧ (∀ x, x ∈ ids → x ∈ todo ∨ x ∈ s.sets true) ∧
      (∀ x, x ∈ s.sets true → x ∈ s.sets false ∨ x ∈ ids) ∧ ∀ x, x ∈ todo → x ∈ ids
  | .wait0 ids => s.cur = true ∧ (∀ x, x ∈ s.sets false → x ∈ s.sets true) ∧ (∀ x, x ∈ ids → x ∈ s.sets true) ∧ (∀ x, x ∈ s.sets true → x ∈ s.sets false ∨ x ∈ ids)
  | .write0 ids todo => s.cur = true ∧ NoReading s false ∧ (∀ x, x ∈ s.sets false → x ∈ s.sets true) ∧ (∀ x, x ∈ ids → x ∈ s.sets true) ∧
      (∀ x, x ∈ ids → x ∈ todo ∨ x ∈ s.sets false) ∧ (∀ x, x ∈ s.sets true → x ∈ s.sets false ∨ x ∈ ids) ∧ ∀ x, x ∈ todo → x ∈ ids
  | .unlock ids => s.cur = false ∧ Same s ∧ ∀ x, x ∈ ids → x ∈ s.sets false
  | _ => True

structure Inv (s : State) : Prop where
  cnt : ∀ i, s.count i = ((s.threads.map (refs i)).sum : Nat)
  uniq : ∀ (r r' : Nat) (t t' : Thread), s.threads[r]? = some t → s.threads[r']? = some t' → holds t = true → holds t' = true → r = r'
  muH : ∀ (r : Nat) (t : Thread), s.threads[r]? = some t → holds t = true → s.mu = true
  muE : s.mu = true → ∃ (r : Nat) (t : Thread), s.threads[r]? = some t ∧ holds t = true
  free : s.mu = false → s.cur = false ∧ Same s
  ph : ∀ (r : Nat) (t : Thread), s.threads[r]? = some t → phase s t

theorem phase_of_not_holds {s : State} {t : Thread} (h : holds t = false) : phase s t := by
  cases t <;> simp [holds] at h <;> trivial

theorem set_some {l : List α} {r r' : Nat} {t x : α} (h : (l.set r t)[r']? = some x) : (r' = r ∧ x = t) ∨ (r' ≠ r ∧ l[r']? = some x) := by
  rw [List.getElem?_set] at h
  split at h
  · rename_i hr
    split at h
    · cases h; exact Or.inl ⟨hr.symm, rfl⟩
    · cases h
  · rename_i hr
    exact Or.inr ⟨fun hc => hr hc.symm, h⟩

theorem set_self {l : List α} {r : Nat} {t x : α} (h : l[r]? = some x) : (l.set r t)[r]? = some t := by
  rw [List.getElem?_set]
  simp only [if_true]
  obtain ⟨hl, _⟩ := List.getElem?_eq_some_iff.mp h
  rw [if_pos hl]

theorem set_other {l : List α} {r r' : Nat} {t : α} (h : r' ≠ r) : (l.set r t)[r']? = l[r']? := by
  rw [List.getElem?_set]
  rw [if_neg (fun hc => h hc.symm)]

/-- The part about the mutex when the goroutine does not take or release it. -/
theorem Inv.lockPart {s : State} (hi : Inv s) {r : Nat} {t t' : Thread} (ht : s.threads[r]? = some t) (hh : holds t' = holds t) :
    (∀ (r1 r2 : Nat) (t1 t2 : Thread), (s.threads.set r t')[r1]? = some t1 → (s.threads.set r t')[r2]? = some t2 → holds t1 = true → holds t2 = true → r1 = r2) ∧
    (∀ (r1 : Nat) (t1 : Thread), (s.threads.set r t')[r1]? = some t1 → holds t1 = true → s.mu = true) ∧
    (s.mu = true → ∃ (r1 : Nat) (t1 : Thread), (s.threads.set r t')[r1]? = some t1 ∧ holds t1 = true) := by
  refine ⟨?_, ?_, ?_⟩
  · intro r1 r2 t1 t2 h1 h2 g1 g2
    rcases set_some h1 with ⟨e1, f1⟩ | ⟨e1, f1⟩ <;> rcases set_some h2 with ⟨e2, f2⟩ | ⟨e2, f2⟩
    · rw [e1, e2]
    · subst f1; subst e1; exact hi.uniq _ _ _ _ ht f2 (hh ▸ g1) g2
    · subst f2; subst e2; exact hi.uniq _ _ _ _ f1 ht g1 (hh ▸ g2)
    · exact hi.uniq _ _ _ _ f1 f2 g1 g2
  · intro r1 t1 h1 g1
    rcases set_some h1 with ⟨e1, f1⟩ | ⟨e1, f1⟩
    · subst f1; exact hi.muH _ _ ht (hh ▸ g1)
    · exact hi.muH _ _ f1 g1
  · intro hm
    obtain ⟨r1, t1, h1, g1⟩ := hi.muE hm
    by_cases e : r1 = r
    · subst e
      rw [h1] at ht; cases ht
      exact ⟨r1, t', set_self h1, hh ▸ g1⟩
    · exact ⟨r1, t1, by rw [set_other e]; exact h1, g1⟩

/-- The counters when the goroutine goes from `t` to `t'`. -/
theorem refs_set {l : List Thread} {r : Nat} {t t' : Thread} (i : Bool) (h : l[r]? = some t) :
    (((l.set r t').map (refs i)).sum : Int) = ((l.map (refs i)).sum : Int) + (refs i t' : Int) - (refs i t : Int) := by
  have := sum_set (f := refs i) (b := t') h
  omega

/-- A step of a goroutine that does not hold the mutex and changes neither the sets nor the index. -/
theorem Inv.readerStep {s : State} (hi : Inv s) {r : Nat} {t t' : Thread} (ht : s.threads[r]? = some t) (h1 : holds t = false) (h2 : holds t' = false)
    (hr : ∀ id i, t' = .reading id i → s.cur = i) {c : Bool → Int} (hc : ∀ i, c i = s.count i + (refs i t' : Int) - (refs i t : Int)) :
    Inv { s with threads := s.threads.set r t', count := c } := by
  obtain ⟨g1, g2, g3⟩ := hi.lockPart (t' := t') ht (by rw [h1, h2])
  refine ⟨?_, g1, g2, g3, hi.free, ?_⟩
  · intro i
    show c i = (((s.threads.set r t').map (refs i)).sum : Nat)
    rw [refs_set i ht, hc i, hi.cnt i]
  · intro r1 t1 hr1
    rcases set_some hr1 with ⟨e1, f1⟩ | ⟨e1, f1⟩
    · subst f1; exact phase_of_not_holds h2
    · have hp := hi.ph r1 t1 f1
      have hno : ∀ i, s.cur ≠ i → NoReading s i → NoReading { s with threads := s.threads.set r t', count := c } i := by
        intro i hci hn r2 id h
        rcases set_some h with ⟨_, f2⟩ | ⟨_, f2⟩
        · exact hci (hr id i f2.symm)
        · exact hn r2 id f2
      cases t1 with
      | wait1 ids => exact hp
      | wait0 ids => exact hp
      | unlock ids => exact hp
      | write1 ids todo => exact ⟨hp.1, hno true (by rw [hp.1]; simp) hp.2.1, hp.2.2⟩
      | write0 ids todo => exact ⟨hp.1, hno false (by rw [hp.1]; simp) hp.2.1, hp.2.2⟩
      | _ => trivial

/-- A step of the holder of the mutex that keeps it. -/
theorem Inv.writerStep {s s' : State} (hi : Inv s) {r : Nat} {t t' : Thread} (ht : s.threads[r]? = some t) (h1 : holds t = true) (h2 : holds t' = true)
    (hth : s'.threads = s.threads.set r t') (hcount : s'.count = s.count) (hmu : s'.mu = s.mu) (hp : phase s' t') : Inv s' := by
  obtain ⟨g1, g2, g3⟩ := hi.lockPart (t' := t') ht (by rw [h1, h2])
  have hmt : s.mu = true := hi.muH r t ht h1
  refine ⟨?_, ?_, ?_, ?_, ?_, ?_⟩
  · intro i
    rw [hcount, hth, refs_set i ht, hi.cnt i]
    have e1 : refs i t = 0 := by cases t <;> simp [holds] at h1 <;> rfl
    have e2 : refs i t' = 0 := by cases t' <;> simp [holds] at h2 <;> rfl
    omega
  · rw [hth]; exact g1
  · rw [hth, hmu]; exact g2
  · rw [hth, hmu]; exact g3
  · intro hf; rw [hmu, hmt] at hf; cases hf
  · intro r1 t1 hr1
    rw [hth] at hr1
    rcases set_some hr1 with ⟨e1, f1⟩ | ⟨e1, f1⟩
    · subst f1; exact hp
    · refine phase_of_not_holds ?_
      cases hh : holds t1 with
      | false => rfl
      | true => exact absurd (hi.uniq _ _ _ _ f1 ht hh h1) e1

theorem noReading_set {s : State} {r : Nat} {t' : Thread} {i : Bool} (h : NoReading s i) (ht : ∀ id, t' ≠ .reading id i) : ∀ (r1 : Nat) (id : Nat), (s.threads.set r t')[r1]? ≠ some (.reading id i) := by
  intro r1 id hc
  rcases set_some hc with ⟨_, f⟩ | ⟨_, f⟩
  · exact ht id f.symm
  · exact h r1 id f

/-- If the counter of `i` is zero, nobody reads `sets[i]`. -/
theorem Inv.noReading {s : State} (hi : Inv s) {i : Bool} (h : s.count i = 0) : NoReading s i := by
  intro r id hr
  have h1 : (s.threads.map (refs i)).sum = 0 := by have := hi.cnt i; rw [h] at this; exact (Int.ofNat_eq_zero.mp this.symm)
  obtain ⟨hl, he⟩ := List.getElem?_eq_some_iff.mp hr
  have hm : Thread.reading id i ∈ s.threads := he ▸ List.getElem_mem hl
  have h2 : refs i (.reading id i) ∈ s.threads.map (refs i) := List.mem_map_of_mem hm
  have h3 := List.sum_eq_zero_iff_forall_eq_nat.mp h1 _ h2
  simp [refs] at h3

theorem init_inv (n : Nat) : Inv (init n) := by
  have hidle : ∀ (r : Nat) (t : Thread), (init n).threads[r]? = some t → t = .idle := by
    intro r t h
    obtain ⟨hl, he⟩ := List.getElem?_eq_some_iff.mp h
    exact List.eq_of_mem_replicate (he ▸ List.getElem_mem hl)
  refine ⟨?_, ?_, ?_, ?_, ?_, ?_⟩
  · intro i
    show (0 : Int) = ((((List.replicate n Thread.idle).map (refs i)).sum : Nat) : Int)
    simp [refs]
  · intro r r' t t' h _ g; rw [hidle _ _ h] at g; cases g
  · intro r t h g; rw [hidle _ _ h] at g; cases g
  · intro h; cases h
  · intro _; exact ⟨rfl, fun _ => Iff.rfl⟩
  · intro r t h; rw [hidle _ _ h]; trivial

theorem upd_self {α : Type} (f : Bool → α) (i : Bool) (v : α) : upd f i v i = v := by simp [upd]

theorem upd_other {α : Type} (f : Bool → α) {i j : Bool} (v : α) (h : j ≠ i) : upd f i v j = f j := by simp [upd, h]

theorem next_inv {s s' : State} {o : List Obs} {r : Nat} {t : Thread} (hi : Inv s) (ht : s.threads[r]? = some t) (he : s.next r t = some (s', o)) : Inv s' := by
  cases t with
  | idle => cases he
  | load id => cases he; exact hi.readerStep ht rfl rfl (by intro _ _ h; cases h) (by intro i; simp [refs])
  | inc id idx =>
    cases he
    refine hi.readerStep ht rfl rfl (by intro _ _ h; cases h) ?_
    intro i
    by_cases h : i = idx
    · subst h; simp [upd_self, refs]
    · have h' : idx ≠ i := fun e => h e.symm
      simp [upd_other _ _ h, refs, h']
  | check id idx =>
    simp only [State.next] at he
    split at he
    · cases he; exact hi.readerStep ht rfl rfl (by intro _ _ h; cases h) (by intro i; simp [refs])
    · rename_i hc
      cases he
      refine hi.readerStep ht rfl rfl ?_ (by intro i; simp [refs])
      intro id' i h
      cases h
      exact Classical.not_not.mp hc
  | undo id idx =>
    cases he
    refine hi.readerStep ht rfl rfl (by intro _ _ h; cases h) ?_
    intro i
    by_cases h : i = idx
    · subst h; simp [upd_self, refs]
    · have h' : idx ≠ i := fun e => h e.symm
      simp [upd_other _ _ h, refs, h']
  | reading id idx => cases he; exact hi.readerStep ht rfl rfl (by intro _ _ h; cases h) (by intro i; simp [refs])
  | dec id idx ok =>
    cases he
    refine hi.readerStep ht rfl rfl (by intro _ _ h; cases h) ?_
    intro i
    by_cases h : i = idx
    · subst h; simp [upd_self, refs]
    · have h' : idx ≠ i := fun e => h e.symm
      simp [upd_other _ _ h, refs, h']
  | ret id ok => cases he; exact hi.readerStep ht rfl rfl (by intro _ _ h; cases h) (by intro i; simp [refs])
  | lock ids =>
    simp only [State.next] at he
    split at he
    · cases he
    · rename_i hm
      cases he
      have hmf : s.mu = false := by simpa using hm
      have hnone : ∀ (r1 : Nat) (t1 : Thread), s.threads[r1]? = some t1 → holds t1 = false := by
        intro r1 t1 h1
        cases hh : holds t1 with
        | false => rfl
        | true => rw [hi.muH _ _ h1 hh] at hmf; cases hmf
      refine ⟨?_, ?_, ?_, ?_, ?_, ?_⟩
      · intro i
        show s.count i = (((s.threads.set r (.wait1 ids)).map (refs i)).sum : Nat)
        rw [refs_set i ht, hi.cnt i]
        simp [refs]
      · intro r1 r2 t1 t2 h1 h2 g1 g2
        rcases set_some h1 with ⟨e1, f1⟩ | ⟨e1, f1⟩
        · rcases set_some h2 with ⟨e2, f2⟩ | ⟨e2, f2⟩
          · rw [e1, e2]
          · rw [hnone _ _ f2] at g2; cases g2
        · rw [hnone _ _ f1] at g1; cases g1
      · intro _ _ _ _; rfl
      · intro _; exact ⟨r, .wait1 ids, set_self ht, rfl⟩
      · intro h; cases h
      · intro r1 t1 h1
        rcases set_some h1 with ⟨e1, f1⟩ | ⟨e1, f1⟩
        · subst f1; exact hi.free hmf
        · exact phase_of_not_holds (hnone _ _ f1)
  | wait1 ids =>
    simp only [State.next] at he
    split at he
    · rename_i hc
      cases he
      refine hi.writerStep ht rfl rfl rfl rfl rfl ?_
      have hp := hi.ph _ _ ht
      exact ⟨hp.1, noReading_set (hi.noReading hc) (fun _ h => by cases h), fun x hx => (hp.2 x).mp hx, fun x hx => Or.inl hx, fun x hx => Or.inl ((hp.2 x).mpr hx), fun x hx => hx⟩
    · cases he
  | write1 ids todo =>
    have hp := hi.ph _ _ ht
    cases todo with
    | nil =>
      cases he
      refine hi.writerStep ht rfl rfl rfl rfl rfl ?_
      exact ⟨rfl, hp.2.2.1, fun x hx => (hp.2.2.2.1 x hx).resolve_left (by simp), hp.2.2.2.2.1⟩
    | cons id todo =>
      cases he
      refine hi.writerStep ht rfl rfl rfl rfl rfl ?_
      refine ⟨hp.1, noReading_set hp.2.1 (fun _ h => by cases h), ?_, ?_, ?_, fun x hx => hp.2.2.2.2.2 x (List.mem_cons_of_mem _ hx)⟩
      · intro x hx
        exact List.mem_cons_of_mem _ (hp.2.2.1 x hx)
      · intro x hx
        rcases hp.2.2.2.1 x hx with h | h
        · rcases List.mem_cons.mp h with h | h
          · subst h; exact Or.inr (List.mem_cons_self)
          · exact Or.inl h
        · exact Or.inr (List.mem_cons_of_mem _ h)
      · intro x hx
        rcases List.mem_cons.mp hx with h | h
        · subst h; exact Or.inr (hp.2.2.2.2.2 x List.mem_cons_self)
        · exact hp.2.2.2.2.1 x h
  | wait0 ids =>
    simp only [State.next] at he
    split at he
    · rename_i hc
      cases he
      refine hi.writerStep ht rfl rfl rfl rfl rfl ?_
      have hp := hi.ph _ _ ht
      exact ⟨hp.1, noReading_set (hi.noReading hc) (fun _ h => by cases h), hp.2.1, hp.2.2.1, fun x hx => Or.inl hx, hp.2.2.2, fun x hx => hx⟩
    · cases he
  | write0 ids todo =>
    have hp := hi.ph _ _ ht
    cases todo with
    | nil =>
      cases he
      refine hi.writerStep ht rfl rfl rfl rfl rfl ?_
      have hids : ∀ x, x ∈ ids → x ∈ s.sets false := fun x hx => (hp.2.2.2.2.1 x hx).resolve_left (by simp)
      exact ⟨rfl, fun x => ⟨hp.2.2.1 x, fun hx => (hp.2.2.2.2.2.1 x hx).elim id (hids x)⟩, hids⟩
    | cons id todo =>
      cases he
      refine hi.writerStep ht rfl rfl rfl rfl rfl ?_
      refine ⟨hp.1, noReading_set hp.2.1 (fun _ h => by cases h), ?_, hp.2.2.2.1, ?_, ?_, fun x hx => hp.2.2.2.2.2.2 x (List.mem_cons_of_mem _ hx)⟩
      · intro x hx
        rcases List.mem_cons.mp hx with h | h
        · subst h; exact hp.2.2.2.1 x (hp.2.2.2.2.2.2 x List.mem_cons_self)
        · exact hp.2.2.1 x h
      · intro x hx
        rcases hp.2.2.2.2.1 x hx with h | h
        · rcases List.mem_cons.mp h with h | h
          · subst h; exact Or.inr (List.mem_cons_self)
          · exact Or.inl h
        · exact Or.inr (List.mem_cons_of_mem _ h)
      · intro x hx
        rcases hp.2.2.2.2.2.1 x hx with h | h
        · exact Or.inl (List.mem_cons_of_mem _ h)
        · exact Or.inr h
  | unlock ids =>
    have hp := hi.ph _ _ ht
    cases he
    have hnone : ∀ (r1 : Nat) (t1 : Thread), r1 ≠ r → s.threads[r1]? = some t1 → holds t1 = false := by
      intro r1 t1 hne h1
      cases hh : holds t1 with
      | false => rfl
      | true => exact absurd (hi.uniq _ _ _ _ h1 ht hh rfl) hne
    have hall : ∀ (r1 : Nat) (t1 : Thread), (s.threads.set r .idle)[r1]? = some t1 → holds t1 = false := by
      intro r1 t1 h1
      rcases set_some h1 with ⟨e1, f1⟩ | ⟨e1, f1⟩
      · subst f1; rfl
      · exact hnone _ _ e1 f1
    refine ⟨?_, ?_, ?_, ?_, ?_, ?_⟩
    · intro i
      show s.count i = (((s.threads.set r .idle).map (refs i)).sum : Nat)
      rw [refs_set i ht, hi.cnt i]
      simp [refs]
    · intro r1 r2 t1 t2 h1 h2 g1 g2
      rw [hall _ _ h1] at g1; cases g1
    · intro r1 t1 h1 g1
      rw [hall _ _ h1] at g1; cases g1
    · intro h; cases h
    · intro _; exact ⟨hp.1, hp.2.1⟩
    · intro r1 t1 h1
      exact phase_of_not_holds (hall _ _ h1)

theorem exec_inv {s s' : State} {o : List Obs} {e : Ev} (hi : Inv s) (he : s.exec e = some (s', o)) : Inv s' := by
  cases e with
  | contains r id =>
    simp only [State.exec] at he
    split at he
    · rename_i ht
      cases he; exact hi.readerStep ht rfl rfl (by intro _ _ h; cases h) (by intro i; simp [refs])
    · cases he
  | add r ids =>
    simp only [State.exec] at he
    split at he
    · rename_i ht
      cases he; exact hi.readerStep ht rfl rfl (by intro _ _ h; cases h) (by intro i; simp [refs])
    · cases he
  | run r =>
    simp only [State.exec] at he
    split at he
    · rename_i t ht
      exact next_inv hi ht he
    · cases he

theorem Reach.inv {n : Nat} {tr : List Obs} {s : State} (h : Reach n tr s) : Inv s := by
  induction h with
  | init => exact init_inv n
  | step e _ he ih => exact exec_inv ih he

/-- `sets[0]` is always within `sets[1]`. -/
theorem Inv.sub {s : State} (hi : Inv s) : ∀ x, x ∈ s.sets false → x ∈ s.sets true := by
  intro x hx
  cases hm : s.mu with
  | false => exact ((hi.free hm).2 x).mp hx
  | true =>
    obtain ⟨r, t, h1, h2⟩ := hi.muE hm
    have hp := hi.ph _ _ h1
    cases t <;> simp [holds] at h2
    · exact (hp.2 x).mp hx
    · exact hp.2.2.1 x hx
    · exact hp.2.1 x hx
    · exact hp.2.2.1 x hx
    · exact (hp.2.1 x).mp hx

/-- What a reader may read is in the current set. -/
theorem Inv.read_cur {s : State} (hi : Inv s) {r id : Nat} {idx : Bool} (hr : s.threads[r]? = some (.reading id idx)) : ∀ x, x ∈ s.sets idx → x ∈ s.sets s.cur := by
  intro x hx
  cases hc : s.cur with
  | true =>
    cases idx with
    | true => exact hx
    | false => exact hi.sub x hx
  | false =>
    cases idx with
    | false => exact hx
    | true =>
      cases hm : s.mu with
      | false => exact ((hi.free hm).2 x).mpr hx
      | true =>
        obtain ⟨r1, t, h1, h2⟩ := hi.muE hm
        have hp := hi.ph _ _ h1
        cases t <;> simp [holds] at h2
        · exact (hp.2 x).mpr hx
        · exact absurd hr (hp.2.1 r id)
        · have := hp.1; rw [hc] at this; cases this
        · have := hp.1; rw [hc] at this; cases this
        · exact (hp.2.1 x).mpr hx

end Fpki.Presence
