import Verif.Model.SendAll
/-!
# C210: sending to several channels at once
-/
namespace Fpki.SendAll

/-! ## Specification -/

/-- What a receiver of channel `c` has got from the call, so far. -/
def receivedFrom (s : St) (c : Nat) : List Nat := (s.got.filter (fun p => p.1 = c)).map (·.2)

/-- A run of the call: its steps one after the other. -/
def runAll (chs : List Nat) (v : Nat) : St → List Ev → Option St
  | s, [] => some s
  | s, e :: es => (step chs v s e).bind fun s => runAll chs v s es

theorem reach_runAll {chs : List Nat} {v : Nat} : ∀ (es : List Ev) {s s' : St}, Reach chs v s → runAll chs v s es = some s' → Reach chs v s'
  | [], _, _, h, e => by cases e; exact h
  | a :: es, s, s', h, e => by
    simp only [runAll] at e
    cases hs : step chs v s a with
    | none => simp [hs] at e
    | some t => rw [hs] at e; exact reach_runAll es (.step a h hs) e

/-! ## Invariant -/

/-- The channels of the goroutines in a state. -/
def chansIn (chs : List Nat) (gors : List Gor) (g : Gor) : List Nat := ((chs.zip gors).filter (fun p => p.2 = g)).map (·.1)

structure Inv (chs : List Nat) (v : Nat) (s : St) : Prop where
  len : s.gors.length = chs.length
  le : s.started ≤ chs.length
  late : ∀ i, s.started ≤ i → i < chs.length → s.gors[i]? = some .new
  count : s.wg = (s.gors.filter (fun g => g ≠ .done)).length
  got : ∀ c, (s.got.filter (fun p => p.1 = c)).length = ((chs.zip s.gors).filter (fun p => p.1 = c ∧ p.2 = .done)).length
  val : ∀ p ∈ s.got, p.2 = v
  ret : s.returned = true → s.started = chs.length ∧ s.wg = 0

theorem filter_set (p : Gor → Bool) : ∀ (l : List Gor) (i : Nat) (a b : Gor), l[i]? = some a →
    ((l.set i b).filter p).length + (if p a then 1 else 0) = (l.filter p).length + (if p b then 1 else 0)
  | [], i, a, b, h => by simp at h
  | x :: xs, 0, a, b, h => by
    simp only [List.getElem?_cons_zero, Option.some.injEq] at h
    subst h
    simp only [List.set_cons_zero, List.filter_cons]
    cases hx : p x <;> cases hb : p b <;> simp
  | x :: xs, i + 1, a, b, h => by
    have := filter_set p xs i a b (by simpa using h)
    simp only [List.set_cons_succ, List.filter_cons]
    cases hx : p x <;> simp <;> omega

theorem zip_filter_set (p : Nat × Gor → Bool) : ∀ (chs : List Nat) (l : List Gor) (i c : Nat) (a b : Gor), chs[i]? = some c → l[i]? = some a →
    ((chs.zip (l.set i b)).filter p).length + (if p (c, a) then 1 else 0) = ((chs.zip l).filter p).length + (if p (c, b) then 1 else 0)
  | [], _, _, _, _, _, h, _ => by simp at h
  | _ :: _, [], _, _, _, _, _, h => by simp at h
  | y :: ys, x :: xs, 0, c, a, b, hc, h => by
    simp only [List.getElem?_cons_zero, Option.some.injEq] at h hc
    subst h hc
    simp only [List.set_cons_zero, List.zip_cons_cons, List.filter_cons]
    cases hx : p (y, x) <;> cases hb : p (y, b) <;> simp
  | y :: ys, x :: xs, i + 1, c, a, b, hc, h => by
    have := zip_filter_set p ys xs i c a b (by simpa using hc) (by simpa using h)
    simp only [List.set_cons_succ, List.zip_cons_cons, List.filter_cons]
    cases hx : p (y, x) <;> simp <;> omega

theorem inv_start (chs : List Nat) (v : Nat) : Inv chs v (start chs) := by
  constructor
  · simp [start]
  · simp [start]
  · intro i _ h; simp [start, h]
  · have : (chs.map fun _ => Gor.new).filter (fun g => g ≠ .done) = chs.map fun _ => Gor.new := by simp
    simp only [start, this, List.length_map]
  · intro c
    have : ((chs.zip (chs.map fun _ => Gor.new)).filter (fun p => p.1 = c ∧ p.2 = .done)) = [] := by
      rw [List.filter_eq_nil_iff]
      rintro ⟨a, b⟩ h
      have := (List.of_mem_zip h).2
      simp only [List.mem_map] at this
      obtain ⟨_, _, rfl⟩ := this
      simp
    simp only [start, this, List.filter_nil, List.length_nil]
  · simp [start]
  · simp [start]

theorem inv_step {chs : List Nat} {v : Nat} {s s' : St} {ev : Ev} (h : Inv chs v s) (hs : step chs v s ev = some s') : Inv chs v s' := by
  cases ev with
  | go =>
    simp only [step] at hs
    split at hs <;> cases hs
    rename_i hlt
    exact ⟨h.len, hlt, fun i h1 h2 => h.late i (by simp only at h1; omega) h2, h.count, h.got, h.val, fun hr => by have := (h.ret hr).1; omega⟩
  | run i =>
    simp only [step] at hs
    split at hs <;> cases hs
    rename_i hi
    have hlt : i < chs.length := by have := h.le; omega
    obtain ⟨c, hc⟩ : ∃ c, chs[i]? = some c := ⟨chs[i], by simp [hlt]⟩
    refine ⟨by simpa using h.len, h.le, ?_, ?_, ?_, h.val, h.ret⟩
    · intro j h1 h2
      have : i ≠ j := by simp only at h1; omega
      simp only [List.getElem?_set_ne this]
      exact h.late j h1 h2
    · have := filter_set (fun g => g ≠ .done) s.gors i .new .sending hi.2
      have hc := h.count
      simp at this hc ⊢
      omega
    · intro c'
      have := zip_filter_set (fun p => p.1 = c' ∧ p.2 = .done) chs s.gors i c .new .sending hc hi.2
      have hg := h.got c'
      simp at this hg ⊢
      omega
  | receive i =>
    simp only [step] at hs
    split at hs
    · rename_i c hc
      split at hs <;> cases hs
      rename_i hi
      refine ⟨by simpa using h.len, h.le, ?_, ?_, ?_, ?_, ?_⟩
      · intro j h1 h2
        have : i ≠ j := by
          intro e
          subst e
          have := h.late i h1 h2
          rw [hi] at this
          cases this
        simp only [List.getElem?_set_ne this]
        exact h.late j h1 h2
      · have := filter_set (fun g => g ≠ .done) s.gors i .sending .done hi
        have hc := h.count
        simp at this hc ⊢
        omega
      · intro c'
        have := zip_filter_set (fun p => p.1 = c' ∧ p.2 = .done) chs s.gors i c .sending .done hc hi
        have hg := h.got c'
        by_cases hcc : c = c'
        · subst hcc; simp [List.filter_append] at this hg ⊢; omega
        · simp [List.filter_append, hcc] at this hg ⊢; omega
      · intro p hp
        rcases List.mem_append.1 hp with hp | hp
        · exact h.val p hp
        · simp at hp; rw [hp]
      · intro hr
        obtain ⟨h1, h2⟩ := h.ret hr
        exact ⟨h1, by simp [h2]⟩
    · cases hs
  | ret =>
    simp only [step] at hs
    split at hs <;> cases hs
    rename_i hr
    exact ⟨h.len, h.le, h.late, h.count, h.got, h.val, fun _ => ⟨hr.1, hr.2.1⟩⟩

theorem inv {chs : List Nat} {v : Nat} {s : St} (h : Reach chs v s) : Inv chs v s := by
  induction h with
  | start => exact inv_start chs v
  | step ev _ hs ih => exact inv_step ih hs

/-- **C210** (never too often): at any time, from every channel only the value was received, at most as often as the channel is among the arguments. -/
theorem C210_at_most {chs : List Nat} {v : Nat} {s : St} (h : Reach chs v s) (c : Nat) :
    (∀ x ∈ receivedFrom s c, x = v) ∧ (receivedFrom s c).length ≤ chs.count c := by
  have hI := inv h
  constructor
  · intro x hx
    simp only [receivedFrom, List.mem_map, List.mem_filter] at hx
    obtain ⟨p, ⟨hp, _⟩, rfl⟩ := hx
    exact hI.val p hp
  · have h1 := hI.got c
    simp only [receivedFrom, List.length_map, h1]
    have : ∀ (l : List Nat) (g : List Gor), ((l.zip g).filter (fun p => p.1 = c ∧ p.2 = .done)).length ≤ l.count c := by
      intro l
      induction l with
      | nil => simp
      | cons x xs ih =>
        intro g
        cases g with
        | nil => simp
        | cons y ys =>
          have := ih ys
          simp only [List.zip_cons_cons, List.filter_cons, List.count_cons]
          by_cases hx : x = c <;> by_cases hy : y = .done <;> simp [hx, hy] at this ⊢ <;> omega
    exact this chs s.gors

/-- **C210** (when it returns, everybody has it): when the call has returned, every channel has given the value exactly as often as it is among the
arguments, whatever the order in which the receivers came. -/
theorem C210_all {chs : List Nat} {v : Nat} {s : St} (h : Reach chs v s) (hr : s.returned = true) (c : Nat) :
    receivedFrom s c = List.replicate (chs.count c) v := by
  have hI := inv h
  rw [List.eq_replicate_iff]
  refine ⟨?_, (C210_at_most h c).1⟩
  have hw := hI.count
  rw [(hI.ret hr).2] at hw
  have hd : ∀ g ∈ s.gors, g = .done := by
    have := List.filter_eq_nil_iff.1 (List.length_eq_zero_iff.1 hw.symm)
    simpa using this
  have h1 := hI.got c
  simp only [receivedFrom, List.length_map, h1]
  have : ∀ (l : List Nat) (g : List Gor), g.length = l.length → (∀ x ∈ g, x = .done) → ((l.zip g).filter (fun p => p.1 = c ∧ p.2 = .done)).length = l.count c := by
    intro l
    induction l with
    | nil => simp
    | cons x xs ih =>
      intro g hl hg
      cases g with
      | nil => simp at hl
      | cons y ys =>
        have := ih ys (by simpa using hl) (fun x hx => hg x (List.mem_cons_of_mem _ hx))
        have hy := hg y List.mem_cons_self
        simp only [List.zip_cons_cons, List.filter_cons, List.count_cons]
        by_cases hx : x = c <;> simp_all
  exact this chs s.gors hI.len hd

/-- **C210** (no order, no deadlock): as long as the call has not returned, it can go on by itself, or it offers the value to all the channels that have not
got it yet: a receiver of any of them is served. So it returns if every channel has a receiver in the end, in any order. -/
theorem C210_offers {chs : List Nat} {v : Nat} {s : St} (h : Reach chs v s) (hr : s.returned = false) :
    (∃ ev s', (∀ i, ev ≠ .receive i) ∧ step chs v s ev = some s') ∨
    ((∃ i, i < chs.length ∧ s.gors[i]? = some .sending) ∧
      ∀ i (hi : i < chs.length), s.gors[i]? ≠ some .done → ∃ s', step chs v s (.receive i) = some s' ∧ s'.got = s.got ++ [(chs[i], v)]) := by
  have hI := inv h
  by_cases h1 : s.started < chs.length
  · exact .inl ⟨.go, _, by simp, by simp only [step, if_pos h1]; rfl⟩
  have h2 : s.started = chs.length := by have := hI.le; omega
  by_cases h3 : ∃ i, i < s.started ∧ s.gors[i]? = some .new
  · obtain ⟨i, hi⟩ := h3
    exact .inl ⟨.run i, _, by simp, by simp only [step]; rw [if_pos hi]⟩
  by_cases h4 : s.wg = 0
  · exact .inl ⟨.ret, _, by simp, by simp only [step]; rw [if_pos ⟨h2, h4, hr⟩]⟩
  right
  have key : ∀ i, i < chs.length → s.gors[i]? ≠ some .done → s.gors[i]? = some .sending := by
    intro i hi hn
    have hl : i < s.gors.length := by rw [hI.len]; exact hi
    have hnew : s.gors[i]? ≠ some .new := fun e => h3 ⟨i, by omega, e⟩
    rw [List.getElem?_eq_getElem hl] at hn hnew ⊢
    cases hg : s.gors[i] <;> simp_all
  constructor
  · have hc := hI.count
    have : s.gors.filter (fun g => g ≠ .done) ≠ [] := by
      intro e
      rw [e] at hc
      exact h4 hc
    obtain ⟨g, hg⟩ := List.exists_mem_of_ne_nil _ this
    simp only [List.mem_filter, decide_eq_true_eq] at hg
    obtain ⟨i, hi, e⟩ := List.getElem_of_mem hg.1
    have hi' : i < chs.length := by rw [← hI.len]; exact hi
    exact ⟨i, hi', key i hi' (by rw [List.getElem?_eq_getElem hi, e]; simpa using hg.2)⟩
  · intro i hi hn
    exact ⟨_, by simp only [step, List.getElem?_eq_getElem hi, if_pos (key i hi hn)]; rfl, rfl⟩

/-- The work left: an upper bound for the steps to come. -/
def left (chs : List Nat) (s : St) : Nat :=
  (chs.length - s.started) + (s.gors.filter (fun g => g = .new)).length + (s.gors.filter (fun g => g ≠ .done)).length + (if s.returned then 0 else 1)

theorem left_step {chs : List Nat} {v : Nat} {s s' : St} {ev : Ev} (hs : step chs v s ev = some s') : left chs s' < left chs s := by
  cases ev with
  | go =>
    simp only [step] at hs
    split at hs <;> cases hs
    simp only [left]; omega
  | run i =>
    simp only [step] at hs
    split at hs <;> cases hs
    rename_i hi
    have h1 := filter_set (fun g => g = .new) s.gors i .new .sending hi.2
    have h2 := filter_set (fun g => g ≠ .done) s.gors i .new .sending hi.2
    simp [left] at h1 h2 ⊢
    omega
  | receive i =>
    simp only [step] at hs
    split at hs
    · split at hs <;> cases hs
      rename_i hi
      have h1 := filter_set (fun g => g = .new) s.gors i .sending .done hi
      have h2 := filter_set (fun g => g ≠ .done) s.gors i .sending .done hi
      simp [left] at h1 h2 ⊢
      omega
    · cases hs
  | ret =>
    simp only [step] at hs
    split at hs <;> cases hs
    rename_i hr
    simp [left, hr.2.2]

/-- **C210** (it ends): however the steps follow each other, the call has at most `3 n + 1` of them for `n` channels. -/
theorem C210_ends {chs : List Nat} {v : Nat} {s : St} (es : List Ev) (h : runAll chs v (start chs) es = some s) : es.length ≤ 3 * chs.length + 1 := by
  have key : ∀ (es : List Ev) (a b : St), runAll chs v a es = some b → es.length + left chs b ≤ left chs a := by
    intro es
    induction es with
    | nil => intro a b e; cases e; simp
    | cons x xs ih =>
      intro a b e
      simp only [runAll] at e
      cases hs : step chs v a x with
      | none => simp [hs] at e
      | some t =>
        rw [hs] at e
        have h1 := ih t b e
        have h2 := left_step hs
        simp only [List.length_cons]
        omega
  have h1 := key es _ _ h
  have h2 : left chs (start chs) = 3 * chs.length + 1 := by
    have a1 : (chs.map fun _ => Gor.new).filter (fun g => g = .new) = chs.map fun _ => Gor.new := by simp
    have a2 : (chs.map fun _ => Gor.new).filter (fun g => g ≠ .done) = chs.map fun _ => Gor.new := by simp
    simp only [left, start, a1, a2, List.length_map]
    simp
    omega
  omega

/-! ## A concrete case: channel 7 twice and channel 8, received in another order -/

def someEvents : List Ev := [.go, .go, .run 1, .receive 1, .go, .run 2, .run 0, .receive 2, .receive 0, .ret]

example : ∃ s, Reach [7, 8, 7] 5 s ∧ s.returned = true ∧ s.got = [(8, 5), (7, 5), (7, 5)] := by
  have h : (runAll [7, 8, 7] 5 (start [7, 8, 7]) someEvents).map (fun s => (s.returned, s.got)) = some (true, [(8, 5), (7, 5), (7, 5)]) := by decide +kernel
  cases hs : runAll [7, 8, 7] 5 (start [7, 8, 7]) someEvents with
  | none => rw [hs] at h; cases h
  | some s =>
    rw [hs] at h
    simp only [Option.map_some, Option.some.injEq, Prod.mk.injEq] at h
    exact ⟨s, reach_runAll _ .start hs, h.1, h.2⟩

end Fpki.SendAll
